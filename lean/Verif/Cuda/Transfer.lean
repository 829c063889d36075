import Mathlib.Data.Real.Basic
import Mathlib.Tactic.NormNum

/-!
# Moving values between the host and the devices

Model of `Transfer` and of the contexts of `ExternMetadata` (`cuda.go`), of `ValueOnDevice`, of `calcMemSize`
(`values.go`), and of `deviceTransport.exec` (`vm_tape_cuda.go`).

Copies are put into the queue of a device and done when the queue is flushed; this is how the batched contexts of the
CUDA binding work, which is not part of the repository. Memory is a function from addresses (counted in elements) to
real numbers, one for the host and one for each device. The allocator is given by its answers. Left out: the element
types for which no scalar can be made (`values.go:99-116` and `150-170`).
-/

set_option autoImplicit false

namespace Verif.Cuda

/-- `calcMemSize` (`values.go:179-188`) in elements, for a shape. -/
def memSize (s : List Nat) : Nat := if s.isEmpty then 1 else s.prod

/-- A value: address and shape. Where it lies is told apart by the device given along with it. -/
structure Val where
  addr : Nat
  shape : List Nat

/-- A copy waiting in the queue of a device. -/
structure Copy where
  toHost : Bool
  dst : Nat
  src : Nat
  len : Nat

/-- Host memory, device memories, queues, and whether the machine has a channel for signals
(`workAvailable`, `cuda.go:67`). -/
structure XSt where
  host : Nat → ℝ
  dev : Nat → Nat → ℝ
  queue : Nat → List Copy
  work : Bool

/-- Overwriting `len` cells. -/
def blit (m : Nat → ℝ) (dst : Nat) (src : Nat → ℝ) (from' len : Nat) : Nat → ℝ :=
  fun x => if dst ≤ x ∧ x < dst + len then src (from' + (x - dst)) else m x

/-- One copy between the host and device `d`. -/
def doCopy (d : Nat) (s : XSt) (c : Copy) : XSt :=
  if c.toHost then { s with host := blit s.host c.dst (s.dev d) c.src c.len }
  else { s with dev := fun e => if e = d then blit (s.dev d) c.dst s.host c.src c.len else s.dev e }

/-- A device does what is in its queue. -/
def flush (d : Nat) (s : XSt) : XSt :=
  let s' := (s.queue d).foldl (doCopy d) s
  { s' with queue := fun e => if e = d then [] else s'.queue e }

/-- All of the first `n` devices do what is in their queues (`DoWork`, `cuda.go:87-94`). -/
def flushAll (n : Nat) (s : XSt) : XSt := (List.range n).foldl (fun s d => flush d s) s

/-- `Signal` (`cuda.go:210-215`): without the channel nothing happens. -/
def signal (n : Nat) (s : XSt) : XSt := if s.work then flushAll n s else s

/-- Putting a copy into the queue of a device. -/
def enqueue (d : Nat) (c : Copy) (s : XSt) : XSt :=
  { s with queue := fun e => if e = d then s.queue d ++ [c] else s.queue e }

/-- The ways in which a transfer can end badly. -/
inductive TErr where
  | noContext
  | indexPanic
  | allocFails
  | unreachable
deriving DecidableEq

/-- `-1` is the host (`CPU`, `device_cuda.go:14`). -/
def CPU : Int := -1

/-- The part of `Transfer` before the deferred signal (`cuda.go:173-206`). `n` is the number of engines, `get` what the
allocator of the device answers, `fresh` the address of a new value on the host. Devices below `-1` do not occur. -/
def transferBody (n : Nat) (get : Option Nat) (fresh : Nat) (toDev fromDev : Int) (v : Val) (s : XSt) :
    Except TErr (Val × XSt) :=
  let size := memSize v.shape
  if fromDev = CPU ∧ toDev ≠ CPU then
    if toDev.toNat > n then .error .noContext
    else if n ≤ toDev.toNat then .error .indexPanic
    else
      match get with
      | none => .error .allocFails
      | some mem => .ok (⟨mem, v.shape⟩, enqueue toDev.toNat ⟨false, mem, v.addr, size⟩ s)
  else if fromDev ≠ CPU ∧ toDev = CPU then
    if fromDev.toNat > n then .error .noContext
    else if n ≤ fromDev.toNat then .error .indexPanic
    else
      .ok (⟨fresh, v.shape⟩, enqueue fromDev.toNat ⟨true, fresh, v.addr, size⟩
        { s with host := fun x => if fresh ≤ x ∧ x < fresh + size then 0 else s.host x })
  else if fromDev = toDev then .ok (v, s)
  else .error .unreachable

/-- `Transfer` (`cuda.go:166-207`); the signal is deferred (167-171). -/
def transfer (n : Nat) (get : Option Nat) (fresh : Nat) (toDev fromDev : Int) (v : Val) (synchronous : Bool) (s : XSt) :
    Except TErr (Val × XSt) :=
  match transferBody n get fresh toDev fromDev v s with
  | .error e => .error e
  | .ok (w, s') => .ok (w, if synchronous then signal n s' else s')

/-- `Node.ValueOnDevice` (`cuda.go:310-326`) for a node whose data are on `dataOn`; the flag tells whether memory was
taken on a device. -/
def valueOnDevice (n : Nat) (get : Option Nat) (fresh : Nat) (toDev dataOn : Int) (v : Val) (s : XSt) :
    Except TErr (Val × Bool × XSt) :=
  if dataOn = toDev then .ok (v, false, s)
  else
    match transfer n get fresh toDev dataOn v (toDev = CPU) s with
    | .error e => .error e
    | .ok (w, s') => .ok (w, decide (toDev ≠ dataOn ∧ toDev ≠ CPU), s')

/-- `Contexts` (`cuda.go:100-106`): the loop takes the address of the field of its own variable, which is one variable
for the whole loop (the module is for Go 1.16) and in the end a copy of the last engine. The result lists the device
behind each of the pointers. -/
def contexts (n : Nat) : List Nat := List.replicate n (n - 1)

/-- `deviceTransport.exec` (`vm_tape_cuda.go:220-243`), with the context it picks. -/
def devTransport (n : Nat) (fromDev toDev : Int) (src dst : Val) (s : XSt) : XSt :=
  if fromDev = CPU ∧ toDev ≠ CPU then
    enqueue ((contexts n).getD toDev.toNat 0) ⟨false, dst.addr, src.addr, memSize src.shape⟩ s
  else if fromDev ≠ CPU ∧ toDev = CPU then
    signal n (enqueue ((contexts n).getD fromDev.toNat 0) ⟨true, dst.addr, src.addr, memSize src.shape⟩ s)
  else s

/-! ## Specifications -/

/-- What a value on device `d` holds. -/
def DevHolds (s : XSt) (d : Nat) (v : Val) (f : Nat → ℝ) : Prop := ∀ i, i < v.shape.prod → s.dev d (v.addr + i) = f i

/-- What a value on the host holds. -/
def HostHolds (s : XSt) (v : Val) (f : Nat → ℝ) : Prop := ∀ i, i < v.shape.prod → s.host (v.addr + i) = f i

/-- The number of elements to copy is the number of elements of the shape. -/
theorem memSize_eq (s : List Nat) : memSize s = s.prod := by
  cases s <;> simp [memSize]

theorem flush_other (d e : Nat) (h : e ≠ d) (s : XSt) : (flush d s).queue e = s.queue e ∧ (flush d s).dev e = s.dev e
    ∧ (flush d s).work = s.work := by
  have key : ∀ (l : List Copy) (s : XSt), (l.foldl (doCopy d) s).queue = s.queue ∧ (l.foldl (doCopy d) s).dev e = s.dev e
      ∧ (l.foldl (doCopy d) s).work = s.work := by
    intro l
    induction l with
    | nil => intro s; exact ⟨rfl, rfl, rfl⟩
    | cons c l ih =>
      intro s
      obtain ⟨h1, h2, h3⟩ := ih (doCopy d s c)
      refine ⟨?_, ?_, ?_⟩
      · rw [List.foldl_cons, h1]; unfold doCopy; split <;> rfl
      · rw [List.foldl_cons, h2]; unfold doCopy; split
        · rfl
        · simp [h]
      · rw [List.foldl_cons, h3]; unfold doCopy; split <;> rfl
  obtain ⟨h1, h2, h3⟩ := key (s.queue d) s
  refine ⟨?_, h2, h3⟩
  simp only [flush, if_neg h, h1]

theorem flush_empty (d : Nat) (s : XSt) (h : s.queue d = []) : flush d s = s := by
  unfold flush
  simp only [h, List.foldl_nil]
  cases s
  simp only [XSt.mk.injEq, true_and, and_true]
  funext e
  by_cases c : e = d
  · rw [if_pos c, c]; exact h.symm
  · rw [if_neg c]

/-- If only device `d` has anything to do, flushing all devices is flushing `d`. -/
theorem flushAll_one (n d : Nat) (hd : d < n) (s : XSt) (h : ∀ e, e ≠ d → s.queue e = []) : flushAll n s = flush d s := by
  have before : ∀ (l : List Nat) (s : XSt), d ∉ l → (∀ e, e ≠ d → s.queue e = []) →
      l.foldl (fun s d => flush d s) s = s := by
    intro l
    induction l with
    | nil => intro s _ _; rfl
    | cons a l ih =>
      intro s hl hs
      have ha : a ≠ d := fun e => hl (by simp [e])
      rw [List.foldl_cons, flush_empty a s (hs a ha)]
      exact ih s (fun e => hl (by simp [e])) hs
  have after : ∀ (l : List Nat) (s : XSt), (∀ e, s.queue e = []) → l.foldl (fun s d => flush d s) s = s := by
    intro l
    induction l with
    | nil => intro s _; rfl
    | cons a l ih =>
      intro s hs
      rw [List.foldl_cons, flush_empty a s (hs a)]
      exact ih s hs
  have all : ∀ e, (flush d s).queue e = [] := by
    intro e
    by_cases c : e = d
    · subst c; simp [flush]
    · rw [(flush_other d e c s).1, h e c]
  unfold flushAll
  have hsplit : List.range n = List.range d ++ (List.range (n - d)).map (d + ·) := by
    rw [← List.range_add]; congr 1; omega
  obtain ⟨k, hk⟩ : ∃ k, n - d = k + 1 := ⟨n - d - 1, by omega⟩
  rw [hsplit, List.foldl_append, before _ s (by simp) h, hk, List.range_succ_eq_map]
  simp only [List.map_cons, Nat.add_zero, List.foldl_cons]
  exact after _ _ all

theorem body_to (n mem fresh d : Nat) (hd : d < n) (v : Val) (s : XSt) :
    transferBody n (some mem) fresh (d : Int) CPU v s
      = .ok (⟨mem, v.shape⟩, enqueue d ⟨false, mem, v.addr, memSize v.shape⟩ s) := by
  have hne : (d : Int) ≠ CPU := by unfold CPU; omega
  unfold transferBody
  simp only [Int.toNat_natCast]
  rw [if_pos ⟨trivial, hne⟩, if_neg (by omega), if_neg (by omega)]

theorem body_from (n fresh d : Nat) (get : Option Nat) (hd : d < n) (v : Val) (s : XSt) :
    transferBody n get fresh CPU (d : Int) v s
      = .ok (⟨fresh, v.shape⟩, enqueue d ⟨true, fresh, v.addr, memSize v.shape⟩
        { s with host := fun x => if fresh ≤ x ∧ x < fresh + memSize v.shape then 0 else s.host x }) := by
  have hne : (d : Int) ≠ CPU := by unfold CPU; omega
  unfold transferBody
  simp only [Int.toNat_natCast]
  rw [if_neg (fun c => hne c.1), if_pos ⟨hne, trivial⟩, if_neg (by omega), if_neg (by omega)]

theorem blit_in (m : Nat → ℝ) (dst : Nat) (src : Nat → ℝ) (a len i : Nat) (h : i < len) :
    blit m dst src a len (dst + i) = src (a + i) := by
  simp only [blit]
  rw [if_pos (by omega)]
  congr 1
  omega

theorem blit_out (m : Nat → ℝ) (dst : Nat) (src : Nat → ℝ) (a len x : Nat) (h : x < dst ∨ dst + len ≤ x) :
    blit m dst src a len x = m x := by
  simp only [blit]
  rw [if_neg (by omega)]

/-- To a device: once the device has done its work, the new value on the device holds what the value on the host holds,
the host has not changed, and on the device nothing else has. -/
theorem transfer_to_device {n mem fresh d : Nat} {v w : Val} {s s' : XSt} {f : Nat → ℝ} (hd : d < n)
    (hq : s.queue d = []) (hf : HostHolds s v f)
    (h : transfer n (some mem) fresh (d : Int) CPU v false s = .ok (w, s')) :
    w.shape = v.shape ∧ DevHolds (flush d s') d w f ∧ (flush d s').host = s.host
      ∧ ∀ x, x < mem ∨ mem + v.shape.prod ≤ x → (flush d s').dev d x = s.dev d x := by
  simp only [transfer, body_to n mem fresh d hd, Bool.false_eq_true, if_false, Except.ok.injEq, Prod.mk.injEq] at h
  obtain ⟨rfl, rfl⟩ := h
  have e : (flush d (enqueue d ⟨false, mem, v.addr, memSize v.shape⟩ s)).dev d
      = blit (s.dev d) mem s.host v.addr (memSize v.shape) := by
    simp [flush, enqueue, hq, doCopy]
  refine ⟨rfl, fun i hi => ?_, ?_, fun x hx => ?_⟩
  · rw [e]
    exact (blit_in _ _ _ _ _ _ (by rw [memSize_eq]; exact hi)).trans (hf i hi)
  · simp [flush, enqueue, hq, doCopy]
  · rw [e]
    exact blit_out _ _ _ _ _ _ (by rwa [memSize_eq])

/-- From a device, if the machine has a channel for signals: at the return of a synchronous transfer the new value on
the host holds what the value on the device holds, the device has not changed, and on the host nothing else has. -/
theorem transfer_to_host {n fresh d : Nat} {get : Option Nat} {v w : Val} {s s' : XSt} {f : Nat → ℝ} (hd : d < n)
    (hw : s.work = true) (hq : ∀ e, s.queue e = []) (hf : DevHolds s d v f)
    (h : transfer n get fresh CPU (d : Int) v true s = .ok (w, s')) :
    w.shape = v.shape ∧ HostHolds s' w f ∧ s'.dev = s.dev
      ∧ ∀ x, x < fresh ∨ fresh + v.shape.prod ≤ x → s'.host x = s.host x := by
  simp only [transfer, body_from n fresh d get hd, if_true, Except.ok.injEq, Prod.mk.injEq] at h
  obtain ⟨rfl, rfl⟩ := h
  have hs : ∀ t : XSt, t.work = true → (∀ e, e ≠ d → t.queue e = []) → signal n t = flush d t := by
    intro t h1 h2
    rw [signal, if_pos h1, flushAll_one n d hd t h2]
  rw [hs _ (by simpa [enqueue] using hw) (fun e he => by simp [enqueue, he, hq])]
  refine ⟨rfl, fun i hi => ?_, ?_, fun x hx => ?_⟩
  · simp only [flush, enqueue, hq, doCopy, if_true, List.nil_append, List.foldl_cons, List.foldl_nil]
    exact (blit_in _ _ _ _ _ _ (by rw [memSize_eq]; exact hi)).trans (hf i hi)
  · simp [flush, enqueue, hq, doCopy]
  · rw [← memSize_eq] at hx
    simp only [flush, enqueue, hq, doCopy, if_true, List.nil_append, List.foldl_cons, List.foldl_nil]
    rw [blit_out _ _ _ _ _ _ hx]
    rw [if_neg (by omega)]

/-- There and back again: a value sent to a device and fetched from it is the same value, even if the device has done
nothing in between. -/
theorem transfer_round_trip {n mem fresh fresh' d : Nat} {get : Option Nat} {v w u : Val} {s s1 s2 : XSt} {f : Nat → ℝ}
    (hd : d < n) (hw : s.work = true) (hq : ∀ e, s.queue e = []) (hf : HostHolds s v f)
    (hfr : fresh' + v.shape.prod ≤ v.addr ∨ v.addr + v.shape.prod ≤ fresh')
    (h1 : transfer n (some mem) fresh (d : Int) CPU v false s = .ok (w, s1))
    (h2 : transfer n get fresh' CPU (d : Int) w true s1 = .ok (u, s2)) :
    u.shape = v.shape ∧ HostHolds s2 u f ∧ HostHolds s2 v f := by
  simp only [transfer, body_to n mem fresh d hd, Bool.false_eq_true, if_false, Except.ok.injEq, Prod.mk.injEq] at h1
  obtain ⟨rfl, rfl⟩ := h1
  simp only [transfer, body_from n fresh' d get hd, if_true, Except.ok.injEq, Prod.mk.injEq] at h2
  obtain ⟨rfl, rfl⟩ := h2
  rw [← memSize_eq] at hfr
  have hs : ∀ t : XSt, t.work = true → (∀ e, e ≠ d → t.queue e = []) → signal n t = flush d t := by
    intro t h1 h2
    rw [signal, if_pos h1, flushAll_one n d hd t h2]
  rw [hs _ (by simpa [enqueue] using hw) (fun e he => by simp [enqueue, he, hq])]
  refine ⟨rfl, fun i hi => ?_, fun i hi => ?_⟩
  · simp only [flush, enqueue, hq, doCopy, if_true, List.nil_append, List.cons_append, List.foldl_cons, List.foldl_nil,
      Bool.false_eq_true, if_false]
    rw [blit_in _ _ _ _ _ _ (by rw [memSize_eq]; exact hi), blit_in _ _ _ _ _ _ (by rw [memSize_eq]; exact hi), if_neg (by rw [memSize_eq] at *; simp only at hi; omega)]
    exact hf i hi
  · simp only [flush, enqueue, hq, doCopy, if_true, List.nil_append, List.cons_append, List.foldl_cons, List.foldl_nil,
      Bool.false_eq_true, if_false]
    have hm := memSize_eq v.shape
    rw [blit_out _ _ _ _ _ _ (by omega), if_neg (by omega)]
    exact hf i hi

/-- In the CUDA build nothing makes the channel for signals (`workAvailable` is assigned in `cuda.go:270` only, to nil).
Without it a synchronous transfer from a device returns before anything was copied: the new value holds zeros, whatever
the value on the device holds. -/
theorem transfer_not_awaited {n fresh d : Nat} {get : Option Nat} {v w : Val} {s s' : XSt} (hd : d < n)
    (hw : s.work = false) (h : transfer n get fresh CPU (d : Int) v true s = .ok (w, s')) :
    HostHolds s' w (fun _ => 0) ∧ s'.queue d = s.queue d ++ [⟨true, fresh, v.addr, v.shape.prod⟩] := by
  simp only [transfer, body_from n fresh d get hd, if_true, Except.ok.injEq, Prod.mk.injEq] at h
  obtain ⟨rfl, rfl⟩ := h
  have : ∀ t : XSt, t.work = false → signal n t = t := fun t h => by simp [signal, h]
  rw [this _ (by simpa [enqueue] using hw)]
  refine ⟨fun i hi => ?_, by simp [enqueue, memSize_eq]⟩
  simp only [enqueue]
  rw [if_pos ⟨by omega, by rw [memSize_eq]; simpa using hi⟩]

/-- The check on the number of the device is off by one: for the first number which is too large there is a panic, for
all others an error. -/
theorem transfer_index (n d : Nat) (get : Option Nat) (fresh : Nat) (v : Val) (sync : Bool) (s : XSt) (hd : n ≤ d) :
    transfer n get fresh (d : Int) CPU v sync s = .error (if d = n then .indexPanic else .noContext)
      ∧ transfer n get fresh CPU (d : Int) v sync s = .error (if d = n then .indexPanic else .noContext) := by
  have hne : (d : Int) ≠ CPU := by unfold CPU; omega
  constructor
  · unfold transfer transferBody
    simp only [Int.toNat_natCast]
    rw [if_pos ⟨trivial, hne⟩]
    by_cases c : d = n
    · rw [if_neg (by omega), if_pos hd, if_pos c]
    · rw [if_pos (by omega), if_neg c]
  · unfold transfer transferBody
    simp only [Int.toNat_natCast]
    rw [if_neg (fun c => hne c.1), if_pos ⟨hne, trivial⟩]
    by_cases c : d = n
    · rw [if_neg (by omega), if_pos hd, if_pos c]
    · rw [if_pos (by omega), if_neg c]

/-- Between two devices there is no transfer, but a panic. -/
theorem transfer_between (n d e : Nat) (hde : d ≠ e) (get : Option Nat) (fresh : Nat) (v : Val) (sync : Bool) (s : XSt) :
    transfer n get fresh (d : Int) (e : Int) v sync s = .error .unreachable := by
  have h1 : (d : Int) ≠ CPU := by unfold CPU; omega
  have h2 : (e : Int) ≠ CPU := by unfold CPU; omega
  unfold transfer transferBody
  simp only
  rw [if_neg (fun c => h2 c.1), if_neg (fun c => h1 c.2), if_neg (by omega)]

/-- `ValueOnDevice` tells of memory taken on a device exactly if it went from the host to a device; a value which is
already there is returned as it is. -/
theorem valueOnDevice_flag {n : Nat} {get : Option Nat} {fresh : Nat} {toDev dataOn : Int} {v w : Val} {b : Bool}
    {s s' : XSt} (h : valueOnDevice n get fresh toDev dataOn v s = .ok (w, b, s')) :
    (b = true ↔ dataOn = CPU ∧ toDev ≠ CPU) ∧ (dataOn = toDev → w = v ∧ s' = s) ∧ w.shape = v.shape := by
  unfold valueOnDevice at h
  by_cases c : dataOn = toDev
  · rw [if_pos c] at h
    simp only [Except.ok.injEq, Prod.mk.injEq] at h
    obtain ⟨rfl, rfl, rfl⟩ := h
    refine ⟨⟨fun q => (by cases q), fun q => absurd (c ▸ q.1) q.2⟩, fun _ => ⟨rfl, rfl⟩, rfl⟩
  · rw [if_neg c] at h
    rcases e : transfer n get fresh toDev dataOn v (decide (toDev = CPU)) s with x | ⟨u, t⟩
    · rw [e] at h; cases h
    · rw [e] at h
      simp only [Except.ok.injEq, Prod.mk.injEq] at h
      obtain ⟨rfl, rfl, rfl⟩ := h
      unfold transfer at e
      rcases q : transferBody n get fresh toDev dataOn v s with x | ⟨u', t'⟩
      · rw [q] at e; cases e
      · rw [q] at e
        simp only [Except.ok.injEq, Prod.mk.injEq] at e
        obtain ⟨rfl, _⟩ := e
        unfold transferBody at q
        simp only at q
        by_cases c1 : dataOn = CPU ∧ toDev ≠ CPU
        · refine ⟨⟨fun _ => c1, fun _ => by simpa using ⟨fun z => c z.symm, c1.2⟩⟩, fun z => absurd z c, ?_⟩
          rw [if_pos c1] at q
          by_cases c2 : toDev.toNat > n
          · rw [if_pos c2] at q; cases q
          · rw [if_neg c2] at q
            by_cases c3 : n ≤ toDev.toNat
            · rw [if_pos c3] at q; cases q
            · rw [if_neg c3] at q
              rcases get with _ | mem
              · cases q
              · simp only [Except.ok.injEq, Prod.mk.injEq] at q
                rw [← q.1]
        · rw [if_neg c1] at q
          by_cases c2 : dataOn ≠ CPU ∧ toDev = CPU
          · refine ⟨⟨fun z => ?_, fun z => absurd z.1 c2.1⟩, fun z => absurd z c, ?_⟩
            · simp only [decide_eq_true_eq] at z
              exact absurd c2.2 z.2
            · rw [if_pos c2] at q
              by_cases c3 : dataOn.toNat > n
              · rw [if_pos c3] at q; cases q
              · rw [if_neg c3] at q
                by_cases c4 : n ≤ dataOn.toNat
                · rw [if_pos c4] at q; cases q
                · rw [if_neg c4] at q
                  simp only [Except.ok.injEq, Prod.mk.injEq] at q
                  rw [← q.1]
          · rw [if_neg c2, if_neg c] at q
            cases q

/-- All entries of `Contexts` lead to the last device: with one device they are right, with more of them only the last. -/
theorem contexts_last (n i : Nat) (h : i < n) : (contexts n)[i]? = some (n - 1) ∧ ((contexts n)[i]? = some i ↔ i + 1 = n) := by
  have e : (contexts n)[i]? = some (n - 1) := by simp [contexts, h]
  refine ⟨e, ?_⟩
  rw [e, Option.some.injEq]
  omega

/-- So with two devices, what is to be copied to or from the first one is given to the second one. -/
theorem devTransport_context (v w : Val) (s : XSt) (hw : s.work = false) :
    (devTransport 2 0 CPU v w s).queue 0 = s.queue 0
      ∧ (devTransport 2 0 CPU v w s).queue 1 = s.queue 1 ++ [⟨true, w.addr, v.addr, memSize v.shape⟩] := by
  have h : devTransport 2 0 CPU v w s = enqueue 1 ⟨true, w.addr, v.addr, memSize v.shape⟩ s := by
    unfold devTransport
    rw [if_neg (by decide), if_pos (by decide), signal]
    rw [if_neg (by simp [enqueue, hw])]
    rfl
  rw [h]
  simp [enqueue]

/-- Two numbers go to device 1 of 2 and come back. -/
example : ∃ w s1 u s2, transfer 2 (some 40) 0 (1 : Nat) CPU ⟨10, [2]⟩ false
      ⟨fun x => x, fun _ _ => 0, fun _ => [], true⟩ = .ok (w, s1)
    ∧ transfer 2 none 20 CPU (1 : Nat) w true s1 = .ok (u, s2) ∧ s2.host 20 = 10 ∧ s2.host 21 = 11 := by
  refine ⟨⟨40, [2]⟩, _, ⟨20, [2]⟩, _, by rw [transfer, body_to 2 40 0 1 (by omega)], by
    rw [transfer, body_from 2 20 1 none (by omega)], ?_, ?_⟩
  · have := transfer_round_trip (n := 2) (mem := 40) (fresh := 0) (fresh' := 20) (d := 1) (get := none) (v := ⟨10, [2]⟩)
      (w := ⟨40, [2]⟩) (u := ⟨20, [2]⟩) (s := ⟨fun x => x, fun _ _ => 0, fun _ => [], true⟩) (f := fun i => 10 + i)
      (by omega) rfl (fun _ => rfl) (fun i _ => by simp) (by simp) (by rw [transfer, body_to 2 40 0 1 (by omega)])
      (by rw [transfer, body_from 2 20 1 none (by omega)])
    simpa using this.2.1 0 (by simp [memSize])
  · have := transfer_round_trip (n := 2) (mem := 40) (fresh := 0) (fresh' := 20) (d := 1) (get := none) (v := ⟨10, [2]⟩)
      (w := ⟨40, [2]⟩) (u := ⟨20, [2]⟩) (s := ⟨fun x => x, fun _ _ => 0, fun _ => [], true⟩) (f := fun i => 10 + i)
      (by omega) rfl (fun _ => rfl) (fun i _ => by simp) (by simp) (by rw [transfer, body_to 2 40 0 1 (by omega)])
      (by rw [transfer, body_from 2 20 1 none (by omega)])
    have h := this.2.1 1 (by simp [memSize])
    norm_num at h
    exact h

end Verif.Cuda
