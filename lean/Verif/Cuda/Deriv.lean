import Mathlib.Data.Real.Basic
import Mathlib.Algebra.BigOperators.Group.List.Basic
import Mathlib.Tactic.Ring
/-!
# Gradients that are computed on a device

Model of the delivery of the value of a gradient node to the dual value of its input when the node was executed on a device
(`vm_tape_cuda.go:153-205`). The dual value is on the host. Temporary memory is taken on the device; a copy of the derivative to it, the
addition of the value and the copy back are put into queues; the memory is given back at once, before any of the three is done.

Copies and kernels are done when the queues are flushed, in the order of the engines (`DoWork`, `cuda.go:87-94`); this is how the batched
contexts of the CUDA binding work, which is not part of the repository. The copies go to the context that `Contexts` gives
(`cuda.go:100-106`), which is that of the last engine for every device (see `Verif.Cuda.contexts`); the kernel goes to the engine of the
device. Memory is a function from addresses (counted in elements) to real numbers, one for the host and one for each device.
-/
set_option autoImplicit false

namespace Verif.Cuda.Deriv

/-- What can be in the queue of a device: copies, the kernel that adds the second operand to the first, and any other kernel. -/
inductive Cmd where
  | htod (dst src len : Nat)
  | dtoh (dst src len : Nat)
  | add (dst src len : Nat)
  | kern (g : (Nat → ℝ) → Nat → ℝ)

/-- Host memory, device memories, queues. -/
structure DSt where
  host : Nat → ℝ
  dev : Nat → Nat → ℝ
  queue : Nat → List Cmd

/-- Overwriting `len` cells. -/
def put (m : Nat → ℝ) (dst len : Nat) (f : Nat → ℝ) : Nat → ℝ := fun x => if dst ≤ x ∧ x < dst + len then f (x - dst) else m x

/-- Host and device memory after a command. -/
def perform (h m : Nat → ℝ) : Cmd → (Nat → ℝ) × (Nat → ℝ)
  | .htod dst src len => (h, put m dst len fun i => h (src + i))
  | .dtoh dst src len => (put h dst len fun i => m (src + i), m)
  | .add dst src len => (h, put m dst len fun i => m (dst + i) + m (src + i))
  | .kern g => (h, g m)

/-- Several commands. -/
def performAll (cs : List Cmd) (h m : Nat → ℝ) : (Nat → ℝ) × (Nat → ℝ) := cs.foldl (fun p c => perform p.1 p.2 c) (h, m)

/-- A device does what is in its queue. -/
def flush (s : DSt) (d : Nat) : DSt :=
  let p := performAll (s.queue d) s.host (s.dev d)
  ⟨p.1, fun e => if e = d then p.2 else s.dev e, fun e => if e = d then [] else s.queue e⟩

/-- `DoWork` (`cuda.go:87-94`) with `n` engines. -/
def doWork (n : Nat) (s : DSt) : DSt := (List.range n).foldl flush s

/-- Putting a command into the queue of a device. -/
def issue (s : DSt) (d : Nat) (c : Cmd) : DSt := ⟨s.host, s.dev, fun e => if e = d then s.queue d ++ [c] else s.queue e⟩

/-- The device behind the context number `dev` (`cuda.go:100-106`). -/
def context (n dev : Nat) : Nat := (List.replicate n (n - 1)).getD dev 0

/-- The delivery of a value at `v` on device `dev` to the derivative at `d` on the host, with temporary memory at `mem`
(`vm_tape_cuda.go:170-198`). -/
def deliver (n dev mem d v len : Nat) (s : DSt) : DSt :=
  issue (issue (issue s (context n dev) (.htod mem d len)) dev (.add mem v len)) (context n dev) (.dtoh d mem len)

/-! ## One device -/

/-- Two ranges of `len` cells without a common cell. -/
def Apart (a b len : Nat) : Prop := a + len ≤ b ∨ b + len ≤ a

theorem put_in (m : Nat → ℝ) (dst len : Nat) (f : Nat → ℝ) (i : Nat) (h : i < len) : put m dst len f (dst + i) = f i := by
  rw [put, if_pos (by omega), Nat.add_sub_cancel_left]

theorem put_out (m : Nat → ℝ) (dst len : Nat) (f : Nat → ℝ) (x : Nat) (h : x < dst ∨ dst + len ≤ x) : put m dst len f x = m x := by
  rw [put, if_neg (by omega)]

/-- The three commands of a delivery. -/
def block (mem d v len : Nat) : List Cmd := [.htod mem d len, .add mem v len, .dtoh d mem len]

theorem performAll_append (a b : List Cmd) (h m : Nat → ℝ) :
    performAll (a ++ b) h m = performAll b (performAll a h m).1 (performAll a h m).2 := by
  simp only [performAll, List.foldl_append]

/-- The effect of the three commands. -/
theorem block_effect (mem d v len : Nat) (hv : Apart mem v len) (h m : Nat → ℝ) :
    (∀ i, i < len → (performAll (block mem d v len) h m).1 (d + i) = h (d + i) + m (v + i)) ∧
      (∀ x, x < d ∨ d + len ≤ x → (performAll (block mem d v len) h m).1 x = h x) ∧
      ∀ x, x < mem ∨ mem + len ≤ x → (performAll (block mem d v len) h m).2 x = m x := by
  simp only [performAll, block, List.foldl_cons, List.foldl_nil, perform]
  refine ⟨fun i hi => ?_, fun x hx => put_out _ _ _ _ _ hx, fun x hx => ?_⟩
  · rw [put_in _ _ _ _ _ hi, put_in _ _ _ _ _ hi, put_in _ _ _ _ _ hi, put_out _ _ _ _ (v + i)]
    rcases hv with k | k
    · right; omega
    · left; omega
  · rw [put_out _ _ _ _ _ hx, put_out _ _ _ _ _ hx]

/-- What is put into the queue of the only device. -/
theorem deliver_one (mem d v len : Nat) (s : DSt) : (deliver 1 0 mem d v len s).queue 0 = s.queue 0 ++ block mem d v len ∧
    (deliver 1 0 mem d v len s).host = s.host ∧ (deliver 1 0 mem d v len s).dev = s.dev := by
  refine ⟨?_, rfl, rfl⟩
  simp [deliver, issue, context, block]

/-- The commands of a program: others, and deliveries. -/
inductive Ev where
  | other (c : Cmd)
  | deliv (mem d v len : Nat)

/-- Issuing them with one device. -/
def issueEv (s : DSt) : Ev → DSt
  | .other c => issue s 0 c
  | .deliv mem d v len => deliver 1 0 mem d v len s

/-- The commands in the order in which they are issued. -/
def cmds : Ev → List Cmd
  | .other c => [c]
  | .deliv mem d v len => block mem d v len

theorem issueAll_queue (es : List Ev) (s : DSt) : (es.foldl issueEv s).queue 0 = s.queue 0 ++ es.flatMap cmds ∧
    (es.foldl issueEv s).host = s.host ∧ (es.foldl issueEv s).dev = s.dev := by
  induction es generalizing s with
  | nil => simp
  | cons e es ih =>
    obtain ⟨a, b, c⟩ := ih (issueEv s e)
    simp only [List.foldl_cons, List.flatMap_cons]
    cases e with
    | other k =>
      refine ⟨?_, b, c⟩
      rw [a]
      simp [issueEv, issue, cmds]
    | deliv mem d v len =>
      obtain ⟨x, y, z⟩ := deliver_one mem d v len s
      refine ⟨?_, b.trans y, c.trans z⟩
      rw [a]
      show (deliver 1 0 mem d v len s).queue 0 ++ _ = _
      rw [x, List.append_assoc]
      rfl

/-- The command writes no host cell of the derivative at `d`. -/
def Spares (d len : Nat) : Ev → Prop
  | .other (.dtoh dst _ l) => dst + l ≤ d ∨ d + len ≤ dst
  | .other _ => True
  | .deliv mem d' v l => Apart mem v l ∧ (d' = d ∧ l = len ∨ d' ≠ d ∧ (d' + l ≤ d ∨ d + len ≤ d'))

/-- The sum of what is delivered to element `i` of the derivative at `d`: the value that the gradient node has on the device after the commands
before. -/
def total (d i : Nat) : List Ev → (Nat → ℝ) → (Nat → ℝ) → ℝ
  | [], _, _ => 0
  | .deliv mem d' v len :: es, h, m =>
    (if d' = d then m (v + i) else 0) + total d i es (performAll (block mem d' v len) h m).1 (performAll (block mem d' v len) h m).2
  | .other c :: es, h, m => total d i es (perform h m c).1 (perform h m c).2

theorem perform_total (d len i : Nat) (hi : i < len) (es : List Ev) (hs : ∀ e ∈ es, Spares d len e) (h m : Nat → ℝ) :
    (performAll (es.flatMap cmds) h m).1 (d + i) = h (d + i) + total d i es h m := by
  induction es generalizing h m with
  | nil => simp [performAll, total]
  | cons e es ih =>
    rw [List.flatMap_cons, performAll_append, ih (fun e he => hs e (by simp [he]))]
    have he := hs e (by simp)
    cases e with
    | other c =>
      have : (performAll (cmds (.other c)) h m).1 (d + i) = h (d + i) := by
        cases c with
        | htod a b c => rfl
        | add a b c => rfl
        | kern g => rfl
        | dtoh a b c =>
          have he' : a + c ≤ d ∨ d + len ≤ a := he
          exact put_out h a c (fun i => m (b + i)) (d + i) (by omega)
      rw [this, total]; rfl
    | deliv mem d' v l =>
      obtain ⟨hv, hd⟩ := he
      obtain ⟨b1, b2, _⟩ := block_effect mem d' v l hv h m
      by_cases k : d' = d
      · subst k
        have hil : i < l := by
          rcases hd with ⟨_, h⟩ | ⟨h, _⟩
          · omega
          · exact absurd rfl h
        have : (performAll (cmds (.deliv mem d' v l)) h m).1 (d' + i) = h (d' + i) + m (v + i) := b1 i hil
        rw [this, total, if_pos rfl, add_assoc]; rfl
      · have : (performAll (cmds (.deliv mem d' v l)) h m).1 (d + i) = h (d + i) := b2 _ (by omega)
        rw [this, total, if_neg k, zero_add]; rfl

theorem doWork_one (s : DSt) : (doWork 1 s).host = (performAll (s.queue 0) s.host (s.dev 0)).1 := by
  simp [doWork, flush]

/-- With one device the derivative on the host is, after the work was done, its old value and the sum of all that was delivered to it,
although the temporary memory was given back before: it may serve any other command or delivery afterwards. -/
theorem derivative_delivered (d len i : Nat) (hi : i < len) (es : List Ev) (hs : ∀ e ∈ es, Spares d len e) (s : DSt) (hq : s.queue 0 = []) :
    (doWork 1 (es.foldl issueEv s)).host (d + i) = s.host (d + i) + total d i es s.host (s.dev 0) := by
  obtain ⟨a, b, c⟩ := issueAll_queue es s
  rw [doWork_one, a, hq, List.nil_append, b, c]
  exact perform_total d len i hi es hs s.host (s.dev 0)

/-- Host additions made at once, while deliveries wait in the queue, are not lost. -/
theorem host_addition_kept (mem d v len i : Nat) (hi : i < len) (hv : Apart mem v len) (s : DSt) (hq : s.queue 0 = []) (a : Nat → ℝ) :
    let s' := deliver 1 0 mem d v len s
    (doWork 1 { s' with host := put s'.host d len fun i => s'.host (d + i) + a i }).host (d + i) = s.host (d + i) + s.dev 0 (v + i) + a i := by
  obtain ⟨x, y, z⟩ := deliver_one mem d v len s
  simp only
  rw [doWork_one]
  simp only [x, hq, List.nil_append, y, z]
  rw [(block_effect mem d v len hv _ _).1 i hi, put_in _ _ _ _ _ hi]
  ring

/-! ## Several devices -/

theorem context_last (n dev : Nat) (h : dev < n) : context n dev = n - 1 := by
  simp [context, h]

theorem performAll_two (mem d len : Nat) (h m : Nat → ℝ) :
    (performAll [.htod mem d len, .dtoh d mem len] h m).1 = h := by
  simp only [performAll, List.foldl_cons, List.foldl_nil, perform]
  funext x
  by_cases k : d ≤ x ∧ x < d + len
  · obtain ⟨i, rfl⟩ : ∃ i, x = d + i := ⟨x - d, by omega⟩
    rw [put_in _ _ _ _ _ (by omega), put_in _ _ _ _ _ (by omega)]
  · rw [put_out _ _ _ _ _ (by omega)]

/-- A deviation: with more than one device the copies go through the queue of the last one, and what was computed on any other device never
reaches the derivative: after the work was done it has its old value. -/
theorem derivative_lost (n dev mem d v len : Nat) (hdev : dev + 1 < n) (s : DSt) (hq : ∀ e, s.queue e = []) :
    (doWork n (deliver n dev mem d v len s)).host = s.host := by
  have hc : context n dev = n - 1 := context_last n dev (by omega)
  have hne : n - 1 ≠ dev := by omega
  obtain ⟨s', hs'⟩ : ∃ s', s' = deliver n dev mem d v len s := ⟨_, rfl⟩
  have hqd : s'.queue dev = [.add mem v len] := by
    rw [hs']; simp [deliver, issue, hc, hq, hne.symm]
  have hql : s'.queue (n - 1) = [.htod mem d len, .dtoh d mem len] := by
    rw [hs']; simp [deliver, issue, hc, hq, hne]
  have hqo : ∀ e, e ≠ dev → e ≠ n - 1 → s'.queue e = [] := by
    intro e h1 h2; rw [hs']; simp [deliver, issue, hc, hq, h1, h2]
  have hh : s'.host = s.host := by rw [hs']; rfl
  rw [← hs', ← hh]
  have key : ∀ k, k ≤ n → ((List.range k).foldl flush s').host = s'.host ∧ ∀ e, k ≤ e → ((List.range k).foldl flush s').queue e = s'.queue e := by
    intro k
    induction k with
    | zero => intro _; exact ⟨rfl, fun _ _ => rfl⟩
    | succ k ih =>
      intro hk
      obtain ⟨i1, i2⟩ := ih (by omega)
      rw [List.range_succ, List.foldl_append]
      simp only [List.foldl_cons, List.foldl_nil]
      generalize (List.range k).foldl flush s' = t at i1 i2
      refine ⟨?_, fun e he => ?_⟩
      · show (performAll (t.queue k) t.host (t.dev k)).1 = s'.host
        rw [i2 k (le_refl _)]
        by_cases h1 : k = dev
        · rw [h1, hqd]; exact i1
        · by_cases h2 : k = n - 1
          · rw [h2, hql, performAll_two]; exact i1
          · rw [hqo k h1 h2]; exact i1
      · show (if e = k then [] else t.queue e) = s'.queue e
        rw [if_neg (by omega)]
        exact i2 e (by omega)
  exact (key n (le_refl _)).1

/-! ## Examples -/

/-- A derivative of two elements at 0 on the host, values at 10 and 20 on the device, temporary memory at 30 both times. -/
noncomputable def exD : DSt where
  host := fun x => if x = 0 then 1 else if x = 1 then 2 else 0
  dev := fun _ x => if x = 10 then 3 else if x = 11 then 4 else if x = 20 then 5 else if x = 21 then 6 else 0
  queue := fun _ => []

example : (doWork 1 ([Ev.deliv 30 0 10 2, .deliv 30 0 20 2].foldl issueEv exD)).host 0 = 9 := by
  rw [show (0 : Nat) = 0 + 0 from rfl, derivative_delivered 0 2 0 (by omega) _ (by simp [Spares, Apart]) _ rfl]
  simp [total, exD, performAll, block, perform, put]
  norm_num

/-- With two devices nothing arrives. -/
example : (doWork 2 (deliver 2 0 30 0 10 2 exD)).host 0 = 1 := by
  rw [derivative_lost 2 0 30 0 10 2 (by omega) exD (fun _ => rfl)]
  simp [exD]

end Verif.Cuda.Deriv
