import Verif.Blase.Queue
/-!
Programs on the host whose matrix products wait in a queue (property C132).

With `Use(blase.Implementation())` (blas.go 37-46) the products `Dgemm` and `Dgemv` of package `blase` are put into a queue
(blase/blas.go 50-98), all other BLAS routines are those of the embedded `netlib.Implementation` and run at once (blase/work.go 92-100).
The code generator decides by `CallsExtern` where a flush is needed (compile.go 391-463). On the host `CallsExtern` is true for all
linear algebra but inner products (op_math_noextern.go 7-12), and for repetitions and slices (op_tensor.go 218, 612), which run at once.

A step reads and writes memory, named by addresses; the result may lie in fresh memory, in the memory of an operand (`useUnsafe`,
compile.go 470-480) or in the memory of an earlier result. The memory after the program is compared with that
of a run of the steps one after the other. The queue is an ideal one here: a flush runs everything in order, and a worker
may run the head of the queue at any time. What goes wrong with the queue itself is C84. Views and statements are not modelled.
-/
set_option autoImplicit false
namespace Verif.Blase

variable {V : Type}

/-- A compiled operation: addresses read and written, `CallsExtern`, whether its BLAS call waits in the queue, and whether the
register of the result had not been allocated before (`cg.allocated`, compile.go 376). -/
structure Step where
  reads : List Nat
  dst : Nat
  ext : Bool
  que : Bool
  new : Bool
deriving DecidableEq

/-- Step `i` of a program; beyond its end nothing is read and queued. -/
def stepAt (p : List Step) (i : Nat) : Step := p.getD i ⟨[], 0, false, false, false⟩

/-! ### Code generation -/

/-- The fields of `codegenerator` (compile.go 106-126) that decide about flushes. `lastWrites` is kept by address
here: a value is read through the register it was written to, and that register has been written by nobody else in between. -/
structure Gen where
  flushed : List Nat
  queue : List Nat
  lastW : Nat → Option Nat

def Gen.init : Gen := ⟨[], [], fun _ => none⟩

/-- `updateLastWrites`, compile.go 221-223. -/
def Gen.wrote (s : Gen) (a i : Nat) : Gen := { s with lastW := fun b => if b = a then some i else s.lastW b }

/-- `flush`, compile.go 225-231. -/
def Gen.flush (s : Gen) : Gen := { s with flushed := s.flushed ++ s.queue, queue := [] }

/-- compile.go 374-389; the operations here are mutable ones (`isMutable`). -/
def Gen.alloc (s : Gen) (st : Step) (i : Nat) : Gen :=
  if st.ext = true ∧ st.new = true then { s.wrote st.dst i with queue := s.queue ++ [i] }
  else s

/-- One turn of the loop over what is read, compile.go 393-463; all operations are on the host, inputs are not steps. -/
def Gen.turn (p : List Step) (st : Step) (r : Gen × Nat) (a : Nat) : Gen × Nat :=
  match r.1.lastW a with
  | none => r
  | some l =>
    if (stepAt p l).ext = true ∧ st.ext = false ∧ l ∉ r.1.flushed then (r.1.flush, r.2 + 1) else r

/-- `addNode`, compile.go 347-500: the new state and the number of flushes before the operation. -/
def Gen.add (p : List Step) (s : Gen) (i : Nat) : Gen × Nat :=
  let st := stepAt p i
  let r := st.reads.foldl (Gen.turn p st) (s.alloc st i, 0)
  (r.1.wrote st.dst i, r.2)

/-- The state after the first `i` steps. -/
def genTo (p : List Step) : Nat → Gen
  | 0 => Gen.init
  | i + 1 => ((genTo p i).add p i).1

/-- The number of flushes before step `i`. -/
def flushes (p : List Step) (i : Nat) : Nat := ((genTo p i).add p i).2

/-! ### The machine -/

/-- Writing a result. -/
def put (m : Nat → V) (a : Nat) (v : V) : Nat → V := fun b => if b = a then v else m b

/-- A step is done. -/
def doStep (f : Nat → List V → V) (p : List Step) (m : Nat → V) (i : Nat) : Nat → V :=
  put m (stepAt p i).dst (f i ((stepAt p i).reads.map m))

/-- Memory and the waiting calls. -/
structure Host (V : Type) where
  mem : Nat → V
  queue : List Nat

/-- Up to `n` waiting calls are run. -/
def Host.work (f : Nat → List V → V) (p : List Step) : Nat → Host V → Host V
  | 0, h => h
  | n + 1, h =>
    match h.queue with
    | [] => h
    | i :: q => Host.work f p n ⟨doStep f p h.mem i, q⟩

/-- A flush, vm_tape.go 737-740. -/
def Host.drain (f : Nat → List V → V) (p : List Step) (h : Host V) : Host V := h.work f p h.queue.length

/-- An operation is executed (blase/blas.go 50-98 for the queued ones): a queued call is put into the queue, anything else is done. -/
def Host.exec (f : Nat → List V → V) (p : List Step) (h : Host V) (i : Nat) : Host V :=
  if (stepAt p i).que then { h with queue := h.queue ++ [i] } else { h with mem := doStep f p h.mem i }

/-- Step `i` with its flushes; before it the worker has run `w` waiting calls. -/
def Host.turn (f : Nat → List V → V) (p : List Step) (w : Nat) (h : Host V) (i : Nat) : Host V :=
  let h := h.work f p w
  let h := if flushes p i = 0 then h else h.drain f p
  h.exec f p i

/-- The first `k` steps; `w i` calls are run by the worker before step `i`. -/
def Host.upTo (f : Nat → List V → V) (p : List Step) (w : Nat → Nat) (m : Nat → V) : Nat → Host V
  | 0 => ⟨m, []⟩
  | k + 1 => (Host.upTo f p w m k).turn f p (w k) k

/-- The whole program and the flush at its end (vm_tape.go 232-236). -/
def runBatched (f : Nat → List V → V) (p : List Step) (w : Nat → Nat) (m : Nat → V) : Nat → V :=
  ((Host.upTo f p w m p.length).drain f p).mem

/-- What the program means: one step after the other. -/
def runPlain (f : Nat → List V → V) (p : List Step) (m : Nat → V) : Nat → Nat → V
  | 0 => m
  | k + 1 => doStep f p (runPlain f p m k) k

/-! ### When the queue makes no difference -/

/-- No flush after step `k` up to and including the ones before step `i`. -/
def NoFlush (p : List Step) (k i : Nat) : Prop := ∀ j, k < j → j ≤ i → flushes p j = 0

/-- Conditions on the compiled program: queued operations call an external library; and unless there is a flush in between, an operation
that claims to call one but runs at once reads no queued result, and an operation that runs at once overwrites nothing that an earlier
queued operation reads or writes. -/
structure Orderly (p : List Step) : Prop where
  ext : ∀ i, i < p.length → (stepAt p i).que = true → (stepAt p i).ext = true
  now : ∀ k i, k < i → i < p.length → NoFlush p k i → (stepAt p k).que = true → (stepAt p i).ext = true → (stepAt p i).que = false →
    (stepAt p k).dst ∉ (stepAt p i).reads
  keep : ∀ k i, k < i → i < p.length → NoFlush p k i → (stepAt p k).que = true → (stepAt p i).que = false →
    (stepAt p i).dst ≠ (stepAt p k).dst ∧ (stepAt p i).dst ∉ (stepAt p k).reads

theorem Gen.turn_inv {p : List Step} {st : Step} (hst : st.ext = false) (r : Gen × Nat) (a : Nat) :
    ((Gen.turn p st r a).1.lastW = r.1.lastW) ∧ r.2 ≤ (Gen.turn p st r a).2 ∧
    ((Gen.turn p st r a) = r ∨ (Gen.turn p st r a) = (r.1.flush, r.2 + 1)) ∧
    (∀ l, r.1.lastW a = some l → (stepAt p l).ext = true → l ∉ r.1.flushed → 0 < (Gen.turn p st r a).2) := by
  simp only [Gen.turn]
  cases h : r.1.lastW a with
  | none => exact ⟨rfl, le_refl _, Or.inl rfl, by simp⟩
  | some l =>
    by_cases hc : (stepAt p l).ext = true ∧ st.ext = false ∧ l ∉ r.1.flushed
    · simp only [if_pos hc]
      exact ⟨rfl, Nat.le_succ _, Or.inr (by trivial), fun _ _ _ _ => Nat.succ_pos _⟩
    · simp only [if_neg hc]
      refine ⟨by trivial, le_refl _, Or.inl (by trivial), ?_⟩
      rintro l' rfl' h1 h2
      cases rfl'
      exact absurd ⟨h1, hst, h2⟩ hc

theorem Gen.turn_ext {p : List Step} {st : Step} (hst : st.ext = true) (r : Gen × Nat) (a : Nat) : Gen.turn p st r a = r := by
  simp only [Gen.turn]
  cases r.1.lastW a with
  | none => rfl
  | some l => simp [hst]

theorem fold_ext {p : List Step} {st : Step} (hst : st.ext = true) : ∀ (l : List Nat) (r : Gen × Nat),
    l.foldl (Gen.turn p st) r = r
  | [], _ => rfl
  | a :: l, r => by rw [List.foldl_cons, Gen.turn_ext hst, fold_ext hst l]

/-- Over the whole loop: `flushed` grows only by what was in the queue, and only together with a flush. -/
theorem fold_host {p : List Step} {st : Step} (hst : st.ext = false) : ∀ (l : List Nat) (r : Gen × Nat),
    (l.foldl (Gen.turn p st) r).1.lastW = r.1.lastW ∧ r.2 ≤ (l.foldl (Gen.turn p st) r).2 ∧
    (∀ x ∈ (l.foldl (Gen.turn p st) r).1.flushed, x ∈ r.1.flushed ∨ x ∈ r.1.queue) ∧
    (∀ x ∈ (l.foldl (Gen.turn p st) r).1.queue, x ∈ r.1.queue) ∧
    ((l.foldl (Gen.turn p st) r).2 = r.2 → (l.foldl (Gen.turn p st) r).1 = r.1) ∧
    (∀ a ∈ l, ∀ k, r.1.lastW a = some k → (stepAt p k).ext = true → k ∉ r.1.flushed → 0 < (l.foldl (Gen.turn p st) r).2)
  | [], r => ⟨rfl, le_refl _, fun x hx => Or.inl hx, fun x hx => hx, fun _ => rfl, by simp⟩
  | a :: l, r => by
    rw [List.foldl_cons]
    obtain ⟨t1, t2, t3, t4⟩ := Gen.turn_inv hst r a (p := p)
    obtain ⟨f1, f2, f3, f4, f5, f6⟩ := fold_host hst l (Gen.turn p st r a)
    refine ⟨f1.trans t1, t2.trans f2, ?_, ?_, ?_, ?_⟩
    · intro x hx
      rcases t3 with e | e
      · rw [e] at f3 hx
        exact f3 x hx
      · rcases f3 x hx with h | h
        · rw [e] at h
          simpa [Gen.flush] using h
        · rw [e] at h; simp [Gen.flush] at h
    · intro x hx
      have := f4 x hx
      rcases t3 with e | e
      · rw [e] at this; exact this
      · rw [e] at this; simp [Gen.flush] at this
    · intro h
      rcases t3 with e | e
      · rw [e] at h ⊢
        rw [e] at f5
        exact f5 h
      · have : (Gen.turn p st r a).2 = r.2 + 1 := by rw [e]
        omega
    · intro b hb k h1 h2 h3
      rcases List.mem_cons.mp hb with rfl | hb
      · exact lt_of_lt_of_le (t4 k h1 h2 h3) f2
      · rcases t3 with e | e
        · rw [e] at f6 ⊢
          exact f6 b hb k h1 h2 h3
        · have : (Gen.turn p st r a).2 = r.2 + 1 := by rw [e]
          omega

/-- What the generator knows before step `i`. -/
structure GInv (p : List Step) (s : Gen) (i : Nat) : Prop where
  last : ∀ a k, k < i → (stepAt p k).dst = a → (∀ j, k < j → j < i → (stepAt p j).dst ≠ a) → s.lastW a = some k
  old : ∀ x, x ∈ s.flushed ∨ x ∈ s.queue → x < i

theorem genTo_inv (p : List Step) : ∀ i, GInv p (genTo p i) i
  | 0 => ⟨fun _ _ h => absurd h (Nat.not_lt_zero _), by simp [genTo, Gen.init]⟩
  | i + 1 => by
    have ih := genTo_inv p i
    simp only [genTo, Gen.add]
    have hw : ∀ (s : Gen), (∀ a, a ≠ (stepAt p i).dst → s.lastW a = (genTo p i).lastW a) →
        (∀ x, x ∈ s.flushed ∨ x ∈ s.queue → x < i + 1) → GInv p (s.wrote (stepAt p i).dst i) (i + 1) := by
      intro s h1 h2
      refine ⟨?_, h2⟩
      intro a k hk hd hn
      simp only [Gen.wrote]
      by_cases ha : a = (stepAt p i).dst
      · rw [if_pos ha]
        rcases Nat.lt_succ_iff_lt_or_eq.mp hk with h | h
        · exact absurd ha.symm (hn i h (Nat.lt_succ_self _))
        · rw [h]
      · rw [if_neg ha, h1 a ha]
        have hki : k < i := by
          rcases Nat.lt_succ_iff_lt_or_eq.mp hk with h | h
          · exact h
          · rw [h] at hd; exact absurd hd.symm ha
        exact ih.last a k hki hd (fun j h3 h4 => hn j h3 (by omega))
    have ha : (∀ a, a ≠ (stepAt p i).dst → ((genTo p i).alloc (stepAt p i) i).lastW a = (genTo p i).lastW a) ∧
        (∀ x, x ∈ ((genTo p i).alloc (stepAt p i) i).flushed ∨ x ∈ ((genTo p i).alloc (stepAt p i) i).queue → x < i + 1) := by
      simp only [Gen.alloc]
      split
      · refine ⟨fun a h => by simp [Gen.wrote, h], ?_⟩
        intro x hx
        simp only [Gen.wrote, List.mem_append, List.mem_singleton] at hx
        rcases hx with h | h | h
        · have := ih.old x (Or.inl h); omega
        · have := ih.old x (Or.inr h); omega
        · omega
      · refine ⟨fun a _ => rfl, fun x hx => ?_⟩
        have := ih.old x hx; omega
    cases he : (stepAt p i).ext with
    | true =>
      rw [fold_ext he]
      exact hw _ ha.1 ha.2
    | false =>
      obtain ⟨f1, _, f3, f4, _⟩ := fold_host (p := p) he (stepAt p i).reads ((genTo p i).alloc (stepAt p i) i, 0)
      refine hw _ (fun a h => ?_) ?_
      · rw [f1]; exact ha.1 a h
      · intro x hx
        rcases hx with h | h
        · exact ha.2 x (f3 x h)
        · exact ha.2 x (Or.inr (f4 x h))

/-- A step that runs at once and does not call an external library is preceded by a flush if it reads what an operation with an external
call wrote that has not been flushed. -/
theorem flushes_pos {p : List Step} {i k a : Nat} (he : (stepAt p i).ext = false) (ha : a ∈ (stepAt p i).reads)
    (hk : (genTo p i).lastW a = some k) (hx : (stepAt p k).ext = true) (hn : k ∉ (genTo p i).flushed) : 0 < flushes p i := by
  have hal : (genTo p i).alloc (stepAt p i) i = genTo p i := by simp [Gen.alloc, he]
  obtain ⟨_, _, _, _, _, f6⟩ := fold_host (p := p) he (stepAt p i).reads (genTo p i, 0)
  simp only [flushes, Gen.add, hal]
  exact f6 a ha k hk hx hn

/-- What a step marks as flushed was in the queue before it, and a flush has happened. -/
theorem flushed_step {p : List Step} (i : Nat) : ∀ x ∈ (genTo p (i + 1)).flushed, x ∈ (genTo p i).flushed ∨ (x < i ∧ 0 < flushes p i) := by
  intro x hx
  simp only [genTo, Gen.add, Gen.wrote] at hx
  cases he : (stepAt p i).ext with
  | true =>
    rw [fold_ext he] at hx
    simp only [Gen.alloc] at hx
    split at hx
    · simp only [Gen.wrote] at hx; exact Or.inl hx
    · exact Or.inl hx
  | false =>
    have hal : (genTo p i).alloc (stepAt p i) i = genTo p i := by simp [Gen.alloc, he]
    rw [hal] at hx
    obtain ⟨_, _, f3, _, f5, _⟩ := fold_host (p := p) he (stepAt p i).reads (genTo p i, 0)
    rcases f3 x hx with h | h
    · exact Or.inl h
    · by_cases hz : flushes p i = 0
      · have hz' : (List.foldl (Gen.turn p (stepAt p i)) (genTo p i, 0) (stepAt p i).reads).2 = 0 := by
          simpa [flushes, Gen.add, hal] using hz
        rw [f5 hz'] at hx
        exact Or.inl hx
      · exact Or.inr ⟨(genTo_inv p i).old x (Or.inr h), Nat.pos_of_ne_zero hz⟩

/-! ### The queue makes no difference -/

/-- The last step before `i` that writes where step `k` does. -/
theorem last_writer (p : List Step) (k : Nat) : ∀ i, k < i →
    ∃ j, k ≤ j ∧ j < i ∧ (stepAt p j).dst = (stepAt p k).dst ∧ ∀ x, j < x → x < i → (stepAt p x).dst ≠ (stepAt p k).dst
  | 0, h => absurd h (Nat.not_lt_zero _)
  | i + 1, h => by
    rcases Nat.lt_succ_iff_lt_or_eq.mp h with hk | rfl
    · by_cases he : (stepAt p i).dst = (stepAt p k).dst
      · exact ⟨i, by omega, by omega, he, fun x h1 h2 => by omega⟩
      · obtain ⟨j, h1, h2, h3, h4⟩ := last_writer p k i hk
        refine ⟨j, h1, by omega, h3, fun x h5 h6 => ?_⟩
        rcases Nat.lt_succ_iff_lt_or_eq.mp h6 with h7 | rfl
        · exact h4 x h5 h7
        · exact he
    · exact ⟨k, by omega, by omega, rfl, fun x h1 h2 => by omega⟩

/-- A step counts as flushed only if there was a flush after it. -/
theorem not_flushed (p : List Step) (j : Nat) : ∀ i, (∀ x, j < x → x < i → flushes p x = 0) → j ∉ (genTo p i).flushed
  | 0, _ => by simp [genTo, Gen.init]
  | i + 1, h => by
    intro hx
    rcases flushed_step i j hx with h1 | ⟨h1, h2⟩
    · exact not_flushed p j i (fun x h3 h4 => h x h3 (by omega)) h1
    · have := h i h1 (Nat.lt_succ_self _); omega

theorem put_comm (m : Nat → V) {a b : Nat} (h : a ≠ b) (v w : V) : put (put m a v) b w = put (put m b w) a v := by
  funext c
  simp only [put]
  by_cases h1 : c = b
  · have h2 : c ≠ a := fun h2 => h (h2.symm.trans h1)
    rw [if_pos h1, if_neg h2, if_pos h1]
  · simp [h1]

theorem map_put (m : Nat → V) (a : Nat) (v : V) (l : List Nat) (h : a ∉ l) : l.map (put m a v) = l.map m := by
  apply List.map_congr_left
  intro b hb
  have : b ≠ a := fun e => h (e ▸ hb)
  simp [put, this]

/-- Two steps that do not touch what the other one reads or writes may be exchanged. -/
theorem doStep_comm (f : Nat → List V → V) (p : List Step) (m : Nat → V) {i k : Nat} (h1 : (stepAt p i).dst ≠ (stepAt p k).dst)
    (h2 : (stepAt p i).dst ∉ (stepAt p k).reads) (h3 : (stepAt p k).dst ∉ (stepAt p i).reads) :
    doStep f p (doStep f p m i) k = doStep f p (doStep f p m k) i := by
  simp only [doStep]
  rw [map_put _ _ _ _ h2, map_put _ _ _ _ h3, put_comm _ h1]

theorem work_foldl (f : Nat → List V → V) (p : List Step) : ∀ (n : Nat) (h : Host V),
    (h.work f p n).queue = h.queue.drop n ∧ (h.work f p n).queue.foldl (doStep f p) (h.work f p n).mem = h.queue.foldl (doStep f p) h.mem
  | 0, h => by simp [Host.work]
  | n + 1, ⟨m, []⟩ => by simp [Host.work]
  | n + 1, ⟨m, i :: q⟩ => by
    simp only [Host.work, List.drop_succ_cons, List.foldl_cons]
    exact work_foldl f p n ⟨doStep f p m i, q⟩

theorem drain_eq (f : Nat → List V → V) (p : List Step) (h : Host V) :
    (h.drain f p).queue = [] ∧ (h.drain f p).mem = h.queue.foldl (doStep f p) h.mem := by
  obtain ⟨h1, h2⟩ := work_foldl f p h.queue.length h
  have h3 : (h.drain f p).queue = [] := by simp [Host.drain, h1]
  refine ⟨h3, ?_⟩
  have : (h.work f p h.queue.length).queue = [] := by simpa [Host.drain] using h3
  rw [← h2, this]; rfl

theorem foldl_doStep_comm (f : Nat → List V → V) (p : List Step) {i : Nat} : ∀ (q : List Nat) (m : Nat → V),
    (∀ k ∈ q, (stepAt p i).dst ≠ (stepAt p k).dst ∧ (stepAt p i).dst ∉ (stepAt p k).reads ∧ (stepAt p k).dst ∉ (stepAt p i).reads) →
    q.foldl (doStep f p) (doStep f p m i) = doStep f p (q.foldl (doStep f p) m) i
  | [], _, _ => rfl
  | k :: q, m, h => by
    obtain ⟨h1, h2, h3⟩ := h k (by simp)
    rw [List.foldl_cons, List.foldl_cons, doStep_comm f p m h1 h2 h3]
    exact foldl_doStep_comm f p q _ (fun k hk => h k (by simp [hk]))

/-- What holds before step `i`: were the waiting calls run now, the memory would be that of the sequential run; and there was no flush
after any waiting call. -/
structure HInv (f : Nat → List V → V) (p : List Step) (m : Nat → V) (h : Host V) (i : Nat) : Prop where
  drained : h.queue.foldl (doStep f p) h.mem = runPlain f p m i
  wait : ∀ k ∈ h.queue, k < i ∧ (stepAt p k).que = true ∧ (∀ j, k < j → j < i → flushes p j = 0)

theorem upTo_inv (f : Nat → List V → V) (p : List Step) (w : Nat → Nat) (m : Nat → V) (ho : Orderly p) :
    ∀ i, i ≤ p.length → HInv f p m (Host.upTo f p w m i) i
  | 0, _ => ⟨rfl, by simp [Host.upTo]⟩
  | i + 1, hl => by
    have ih := upTo_inv f p w m ho i (Nat.le_of_succ_le hl)
    simp only [Host.upTo, Host.turn]
    generalize Host.upTo f p w m i = h0 at ih
    obtain ⟨w1, w2⟩ := work_foldl f p (w i) h0
    generalize hw : h0.work f p (w i) = h1 at w1 w2
    have hwait := fun (k : Nat) (hk : k ∈ h1.queue) => ih.wait k (by rw [w1] at hk; exact List.mem_of_mem_drop hk)
    -- after the flushes
    have key : ∃ h2 : Host V, (if flushes p i = 0 then h1 else h1.drain f p) = h2 ∧
        h2.queue.foldl (doStep f p) h2.mem = runPlain f p m i ∧
        (∀ k ∈ h2.queue, k < i ∧ (stepAt p k).que = true ∧ flushes p i = 0 ∧ NoFlush p k i) := by
      refine ⟨_, rfl, ?_⟩
      by_cases hz : flushes p i = 0
      · rw [if_pos hz]
        refine ⟨w2.trans ih.drained, fun k hk => ?_⟩
        obtain ⟨a1, a2, a4⟩ := hwait k hk
        refine ⟨a1, a2, hz, fun j hj hji => ?_⟩
        rcases Nat.lt_or_ge j i with h | h
        · exact a4 j hj h
        · rw [Nat.le_antisymm hji h]; exact hz
      · rw [if_neg hz]
        obtain ⟨d1, d2⟩ := drain_eq f p h1
        rw [d1, d2]
        exact ⟨w2.trans ih.drained, by simp⟩
    obtain ⟨h2, e2, hd, hq⟩ := key
    rw [e2]
    have hwait' : ∀ k ∈ h2.queue, k < i + 1 ∧ (stepAt p k).que = true ∧ (∀ j, k < j → j < i + 1 → flushes p j = 0) := by
      intro k hk
      obtain ⟨a1, a2, a4, a5⟩ := hq k hk
      exact ⟨by omega, a2, fun j hj hji => a5 j hj (by omega)⟩
    simp only [Host.exec]
    cases hqi : (stepAt p i).que with
    | true =>
      simp only [if_true]
      refine ⟨?_, ?_⟩
      · rw [List.foldl_append, hd]; rfl
      · intro k hk
        rcases List.mem_append.mp hk with h | h
        · exact hwait' k h
        · rw [List.mem_singleton] at h
          subst h
          exact ⟨Nat.lt_succ_self _, hqi, fun j h1 h2 => by omega⟩
    | false =>
      simp only [Bool.false_eq_true, if_false]
      refine ⟨?_, hwait'⟩
      rw [foldl_doStep_comm f p h2.queue h2.mem, hd]; rfl
      intro k hk
      obtain ⟨a1, a2, a4, a5⟩ := hq k hk
      obtain ⟨b1, b2⟩ := ho.keep k i a1 hl a5 a2 hqi
      refine ⟨b1, b2, fun hr => ?_⟩
      cases he : (stepAt p i).ext with
      | true => exact ho.now k i a1 hl a5 a2 he hqi hr
      | false =>
        obtain ⟨j, j1, j2, j3, j4⟩ := last_writer p k i a1
        have hlw : (genTo p i).lastW (stepAt p k).dst = some j := (genTo_inv p i).last _ j j2 j3 j4
        have hjq : (stepAt p j).que = true := by
          rcases Nat.eq_or_lt_of_le j1 with rfl | hlt
          · exact a2
          · cases hj : (stepAt p j).que with
            | true => rfl
            | false => exact absurd j3 (ho.keep k j hlt (by omega) (fun x h1 h2 => a5 x h1 (by omega)) a2 hj).1
        have hnf := not_flushed p j i (fun x h1 h2 => a5 x (by omega) (by omega))
        have := flushes_pos he hr hlw (ho.ext j (by omega) hjq) hnf
        omega

/-- The program with waiting calls leaves the memory of the sequential one, whenever the worker runs. -/
theorem batched_right (f : Nat → List V → V) (p : List Step) (w : Nat → Nat) (m : Nat → V) (ho : Orderly p) :
    runBatched f p w m = runPlain f p m p.length := by
  simp only [runBatched]
  rw [(drain_eq f p _).2]
  exact (upTo_inv f p w m ho p.length (Nat.le_refl _)).drained

/-! ### Where it does make one -/

/-- Before an operation with an external call there is never a flush, whatever it reads. -/
theorem ext_no_flush (p : List Step) (i : Nat) (h : (stepAt p i).ext = true) : flushes p i = 0 := by
  simp only [flushes, Gen.add]
  rw [fold_ext h]

/-- As long as the worker does not run and there is no flush, a queued product has not been done: its memory still holds what was there
before, for whoever reads it. -/
theorem queued_waits (f : Nat → List V → V) (p : List Step) (w : Nat → Nat) (m : Nat → V) (k : Nat) (hq : (stepAt p k).que = true) :
    ∀ i, k < i → (∀ j, k < j → j < i → flushes p j = 0 ∧ w j = 0) → k ∈ (Host.upTo f p w m i).queue
  | 0, h, _ => absurd h (Nat.not_lt_zero _)
  | i + 1, h, hn => by
    simp only [Host.upTo, Host.turn]
    rcases Nat.lt_succ_iff_lt_or_eq.mp h with hk | rfl
    · have ih := queued_waits f p w m k hq i hk (fun j h1 h2 => hn j h1 (by omega))
      obtain ⟨z1, z2⟩ := hn i hk (Nat.lt_succ_self _)
      rw [z1, z2]
      simp only [if_true, Host.work, Host.exec]
      split
      · exact List.mem_append.mpr (Or.inl ih)
      · exact ih
    · simp only [Host.exec, hq, if_true, List.mem_append, List.mem_singleton, or_true]

/-- A product that is repeated: `Y = A × x` waits in the queue; the repetition of `Y` claims an external call, so nothing is flushed, and
it copies what the memory of `Y` held before. -/
theorem repeat_stale (f : Nat → List V → V) (m : Nat → V) :
    let p : List Step := [⟨[0, 1], 2, true, true, true⟩, ⟨[2], 3, true, false, true⟩]
    runBatched f p (fun _ => 0) m 3 = f 1 [m 2] ∧ runPlain f p m p.length 3 = f 1 [f 0 [m 0, m 1]] := by
  constructor <;> rfl

/-- An operand overwritten: `Y = A × x` waits in the queue, then `x` is the operand of an operation that works in place (it reads `x` and
nothing that is queued, so nothing is flushed), and the product sees the new `x`. -/
theorem inplace_overtakes (f : Nat → List V → V) (m : Nat → V) :
    let p : List Step := [⟨[0, 1], 2, true, true, true⟩, ⟨[1], 1, false, false, false⟩]
    runBatched f p (fun _ => 0) m 2 = f 0 [m 0, f 1 [m 1]] ∧ runPlain f p m p.length 2 = f 0 [m 0, m 1] := by
  constructor <;> rfl

/-- The same programs give the right results if the worker is quick: what is computed depends on the schedule. -/
theorem quick_worker (f : Nat → List V → V) (m : Nat → V) :
    let p : List Step := [⟨[0, 1], 2, true, true, true⟩, ⟨[2], 3, true, false, true⟩]
    runBatched f p (fun _ => 1) m 3 = runPlain f p m p.length 3 := by
  rfl

/-! ### No flush is wasted -/

/-- After a flush in the loop everything that was in the queue counts as flushed; nothing is forgotten; and there is a reason for it. -/
theorem fold_more {p : List Step} {st : Step} : ∀ (l : List Nat) (r : Gen × Nat),
    (∀ x ∈ r.1.flushed, x ∈ (l.foldl (Gen.turn p st) r).1.flushed) ∧
    (∀ x ∈ r.1.queue, x ∈ (l.foldl (Gen.turn p st) r).1.queue ∨ x ∈ (l.foldl (Gen.turn p st) r).1.flushed) ∧
    (r.2 < (l.foldl (Gen.turn p st) r).2 → (∀ x ∈ r.1.queue, x ∈ (l.foldl (Gen.turn p st) r).1.flushed) ∧
      st.ext = false ∧ ∃ a ∈ l, ∃ k, r.1.lastW a = some k ∧ (stepAt p k).ext = true ∧ k ∉ r.1.flushed) ∧
    ((∀ a k, r.1.lastW a = some k → (stepAt p k).ext = true → k ∈ r.1.flushed) → l.foldl (Gen.turn p st) r = r)
  | [], r => ⟨fun _ h => h, fun _ h => Or.inl h, fun h => absurd h (Nat.lt_irrefl _), fun _ => rfl⟩
  | a :: l, r => by
    rw [List.foldl_cons]
    by_cases hc : ∃ k, r.1.lastW a = some k ∧ ((stepAt p k).ext = true ∧ st.ext = false ∧ k ∉ r.1.flushed)
    · obtain ⟨k, hk, hc⟩ := hc
      have ht : Gen.turn p st r a = (r.1.flush, r.2 + 1) := by simp [Gen.turn, hk, hc]
      rw [ht]
      obtain ⟨f1, f2, f3, f4⟩ := fold_more (p := p) (st := st) l (r.1.flush, r.2 + 1)
      refine ⟨fun x hx => f1 x (by simp [Gen.flush, hx]), fun x hx => Or.inr (f1 x (by simp [Gen.flush, hx])), fun _ => ?_, fun h => ?_⟩
      · exact ⟨fun x hx => f1 x (by simp [Gen.flush, hx]), hc.2.1, a, by simp, k, hk, hc.1, hc.2.2⟩
      · exact absurd (h a k hk hc.1) hc.2.2
    · have ht : Gen.turn p st r a = r := by
        simp only [Gen.turn]
        cases hk : r.1.lastW a with
        | none => rfl
        | some k => exact if_neg (fun h => hc ⟨k, hk, h⟩)
      rw [ht]
      obtain ⟨f1, f2, f3, f4⟩ := fold_more (p := p) (st := st) l r
      refine ⟨f1, f2, fun h => ?_, f4⟩
      obtain ⟨g1, g2, b, hb, g3⟩ := f3 h
      exact ⟨g1, g2, b, by simp [hb], g3⟩

/-- One flush is enough: afterwards all writers known count as flushed. -/
theorem fold_once {p : List Step} {st : Step} : ∀ (l : List Nat) (r : Gen × Nat),
    (∀ a k, r.1.lastW a = some k → (stepAt p k).ext = true → k ∈ r.1.flushed ∨ k ∈ r.1.queue) →
    (l.foldl (Gen.turn p st) r).2 ≤ r.2 + 1
  | [], r, _ => Nat.le_succ _
  | a :: l, r, h => by
    rw [List.foldl_cons]
    by_cases hc : ∃ k, r.1.lastW a = some k ∧ ((stepAt p k).ext = true ∧ st.ext = false ∧ k ∉ r.1.flushed)
    · obtain ⟨k, hk, hc⟩ := hc
      have ht : Gen.turn p st r a = (r.1.flush, r.2 + 1) := by simp [Gen.turn, hk, hc]
      rw [ht, (fold_more l (r.1.flush, r.2 + 1)).2.2.2]
      intro b j hb hj
      simpa [Gen.flush] using h b j hb hj
    · have ht : Gen.turn p st r a = r := by
        simp only [Gen.turn]
        cases hk : r.1.lastW a with
        | none => rfl
        | some k => exact if_neg (fun h => hc ⟨k, hk, h⟩)
      rw [ht]
      exact fold_once l r h

/-- All registers of external calls are new ones, as without reuse of registers. -/
def AllNew (p : List Step) : Prop := ∀ i, (stepAt p i).ext = true → (stepAt p i).new = true

theorem foldl_lastW {p : List Step} {st : Step} (l : List Nat) (r : Gen × Nat) : (l.foldl (Gen.turn p st) r).1.lastW = r.1.lastW := by
  cases he : st.ext with
  | true => rw [fold_ext he]
  | false => exact (fold_host he l r).1

/-- What is known about writers and the queue before step `i`, if registers are new. -/
structure QInv (p : List Step) (s : Gen) (i : Nat) : Prop where
  src : ∀ a k, s.lastW a = some k → k < i ∧ (stepAt p k).dst = a
  known : ∀ k, k < i → (stepAt p k).ext = true → k ∈ s.queue ∨ k ∈ s.flushed

theorem genTo_qinv {p : List Step} (hn : AllNew p) : ∀ i, QInv p (genTo p i) i
  | 0 => ⟨fun a k h => by simp [genTo, Gen.init] at h, fun _ h => absurd h (Nat.not_lt_zero _)⟩
  | i + 1 => by
    have ih := genTo_qinv hn i
    simp only [genTo, Gen.add]
    obtain ⟨f1, f2, _, _⟩ := fold_more (p := p) (st := stepAt p i) (stepAt p i).reads ((genTo p i).alloc (stepAt p i) i, 0)
    refine ⟨fun a k h => ?_, fun k hk he => ?_⟩
    · simp only [Gen.wrote, foldl_lastW] at h
      by_cases ha : a = (stepAt p i).dst
      · rw [if_pos ha] at h
        cases h
        exact ⟨Nat.lt_succ_self _, ha.symm⟩
      · rw [if_neg ha] at h
        have : (genTo p i).lastW a = some k := by
          simp only [Gen.alloc] at h
          split at h
          · simpa [Gen.wrote, ha] using h
          · exact h
        obtain ⟨h1, h2⟩ := ih.src a k this
        exact ⟨by omega, h2⟩
    · simp only [Gen.wrote]
      have hin : k ∈ ((genTo p i).alloc (stepAt p i) i).queue ∨ k ∈ ((genTo p i).alloc (stepAt p i) i).flushed := by
        simp only [Gen.alloc]
        rcases Nat.lt_succ_iff_lt_or_eq.mp hk with h | rfl
        · split
          · rcases ih.known k h he with h | h
            · exact Or.inl (by simp [h])
            · exact Or.inr (by simpa [Gen.wrote] using h)
          · exact ih.known k h he
        · rw [if_pos ⟨he, hn k he⟩]
          exact Or.inl (by simp)
      rcases hin with h | h
      · exact f2 k h
      · exact Or.inr (f1 k h)

theorem flushed_of_flush {p : List Step} (hn : AllNew p) (k : Nat) (hk : (stepAt p k).ext = true) (j : Nat) (hkj : k < j)
    (hj : flushes p j ≠ 0) : ∀ i, j < i → k ∈ (genTo p i).flushed
  | 0, h => absurd h (Nat.not_lt_zero _)
  | i + 1, h => by
    have hg : (genTo p (i + 1)).flushed =
        ((stepAt p i).reads.foldl (Gen.turn p (stepAt p i)) ((genTo p i).alloc (stepAt p i) i, 0)).1.flushed := rfl
    have hal : ((genTo p i).alloc (stepAt p i) i).flushed = (genTo p i).flushed := by
      simp only [Gen.alloc]; split <;> rfl
    have haq : ∀ x ∈ (genTo p i).queue, x ∈ ((genTo p i).alloc (stepAt p i) i).queue := by
      intro x hx
      simp only [Gen.alloc]; split
      · simp [hx]
      · exact hx
    obtain ⟨f1, f2, f3, _⟩ := fold_more (p := p) (st := stepAt p i) (stepAt p i).reads ((genTo p i).alloc (stepAt p i) i, 0)
    rw [hg]
    rcases Nat.lt_succ_iff_lt_or_eq.mp h with h1 | rfl
    · exact f1 k (by rw [hal]; exact flushed_of_flush hn k hk j hkj hj i h1)
    · rcases (genTo_qinv hn j).known k hkj hk with h2 | h2
      · exact (f3 (Nat.pos_of_ne_zero hj)).1 k (haq k h2)
      · exact f1 k (by rw [hal]; exact h2)

/-- Where the flushes are, if registers are new: before step `i` there is one exactly if it does not call an external library and reads what
an operation that does has written after the last flush; and never more than one. -/
theorem flush_iff {p : List Step} (hn : AllNew p) (i : Nat) :
    flushes p i ≤ 1 ∧ (flushes p i = 1 ↔ (stepAt p i).ext = false ∧ ∃ k, k < i ∧ (stepAt p k).ext = true ∧ (stepAt p k).dst ∈ (stepAt p i).reads ∧
      (∀ j, k < j → j < i → (stepAt p j).dst ≠ (stepAt p k).dst) ∧ (∀ j, k < j → j < i → flushes p j = 0)) := by
  have hq := genTo_qinv hn i
  cases he : (stepAt p i).ext with
  | true => rw [ext_no_flush p i he]; simp
  | false =>
    have hal : (genTo p i).alloc (stepAt p i) i = genTo p i := by simp [Gen.alloc, he]
    have h1 : flushes p i ≤ 1 := by
      simp only [flushes, Gen.add, hal]
      refine (fold_once _ _ ?_).trans (by simp)
      intro a k h1 h2
      exact (hq.known k (hq.src a k h1).1 h2).symm
    refine ⟨h1, ?_⟩
    constructor
    · intro h
      obtain ⟨_, _, f3, _⟩ := fold_more (p := p) (st := stepAt p i) (stepAt p i).reads (genTo p i, 0)
      have h' : 0 < (List.foldl (Gen.turn p (stepAt p i)) (genTo p i, 0) (stepAt p i).reads).2 := by
        have : flushes p i = (List.foldl (Gen.turn p (stepAt p i)) (genTo p i, 0) (stepAt p i).reads).2 := by
          simp only [flushes, Gen.add, hal]
        omega
      obtain ⟨_, _, a, ha, k, hk, hx, hf⟩ := f3 h'
      obtain ⟨s1, s2⟩ := hq.src a k hk
      obtain ⟨j, j1, j2, j3, j4⟩ := last_writer p k i s1
      have hjk : (genTo p i).lastW a = some j := (genTo_inv p i).last a j j2 (j3.trans s2) (fun x h1 h2 => s2 ▸ j4 x h1 h2)
      rw [hk] at hjk
      cases hjk
      refine ⟨rfl, k, s1, hx, s2 ▸ ha, j4, fun j h1 h2 => ?_⟩
      by_cases hz : flushes p j = 0
      · exact hz
      · exact absurd (flushed_of_flush hn k hx j h1 hz i h2) hf
    · rintro ⟨_, k, hk, hx, hr, hl, hnf⟩
      have := flushes_pos he hr ((genTo_inv p i).last _ k hk rfl hl) hx (not_flushed p k i hnf)
      omega

/-- With a register that had been allocated before, the call is never counted as flushed: every reader flushes anew. -/
theorem reused_register_flushes :
    (List.range 3).map (flushes [⟨[0, 1], 2, true, true, false⟩, ⟨[2], 3, false, false, false⟩, ⟨[2, 2], 4, false, false, false⟩]) = [0, 1, 2] := by
  decide

/-! ### An example -/

/-- `(A × B) × x` queued, then a sum with the result, then `x` overwritten in place, and a product with that. -/
def chain : List Step :=
  [⟨[0, 1], 3, true, true, true⟩, ⟨[3, 2], 4, true, true, true⟩, ⟨[4, 2], 5, false, false, false⟩, ⟨[2], 2, false, false, false⟩,
   ⟨[0, 2], 6, true, true, true⟩]

example : (List.range 5).map (flushes chain) = [0, 0, 1, 0, 0] := by decide

/-- The conditions as a test on a given program. -/
def orderlyAt (p : List Step) (k i : Nat) : Bool :=
  i ≤ k || (List.range (i + 1)).any (fun j => decide (k < j) && decide (flushes p j ≠ 0)) || !(stepAt p k).que || (stepAt p i).que ||
    ((!(stepAt p i).ext || !(stepAt p i).reads.contains (stepAt p k).dst) && (stepAt p i).dst != (stepAt p k).dst &&
      !(stepAt p k).reads.contains (stepAt p i).dst)

def orderly (p : List Step) : Bool :=
  (List.range p.length).all fun i => (!(stepAt p i).que || (stepAt p i).ext) && (List.range p.length).all fun k => orderlyAt p k i

/-- The test is right. -/
theorem orderly_iff (p : List Step) : orderly p = true ↔ Orderly p := by
  have hn : ∀ k i, NoFlush p k i ↔ (List.range (i + 1)).any (fun j => decide (k < j) && decide (flushes p j ≠ 0)) = false := by
    intro k i
    simp only [NoFlush, List.any_eq_false, List.mem_range, Bool.and_eq_true, decide_eq_true_eq, not_and, ne_eq, not_not]
    exact ⟨fun h j h1 h2 => h j h2 (by omega), fun h j h1 h2 => h j (by omega) h1⟩
  have hk : ∀ k i, orderlyAt p k i = true ↔ (k < i → NoFlush p k i → (stepAt p k).que = true → (stepAt p i).que = false →
      ((stepAt p i).ext = true → (stepAt p k).dst ∉ (stepAt p i).reads) ∧ (stepAt p i).dst ≠ (stepAt p k).dst ∧
        (stepAt p i).dst ∉ (stepAt p k).reads) := by
    intro k i
    rw [hn]
    simp only [orderlyAt]
    by_cases h0 : k < i
    · rw [decide_eq_false (Nat.not_le.mpr h0)]
      cases (List.range (i + 1)).any (fun j => decide (k < j) && decide (flushes p j ≠ 0)) <;> cases (stepAt p k).que <;>
        cases (stepAt p i).que <;> cases (stepAt p i).ext <;> simp [h0, and_assoc]
    · simp [h0, Nat.le_of_not_lt h0]
  simp only [orderly, List.all_eq_true, List.mem_range, Bool.and_eq_true, hk]
  constructor
  · intro h
    refine ⟨fun i hi hq => ?_, fun k i hki hi hn h1 h2 h3 => ?_, fun k i hki hi hn h1 h2 => ?_⟩
    · have := (h i hi).1; simpa [hq] using this
    · exact ((h i hi).2 k (by omega) hki hn h1 h3).1 h2
    · exact ((h i hi).2 k (by omega) hki hn h1 h2).2
  · intro h i hi
    refine ⟨?_, fun k _ hki hn h1 h3 => ⟨fun h2 => h.now k i hki hi hn h1 h2 h3, h.keep k i hki hi hn h1 h3⟩⟩
    cases hq : (stepAt p i).que with
    | false => rfl
    | true => simp [h.ext i hi hq]

theorem chain_orderly : Orderly chain := (orderly_iff chain).mp (by decide)

example : AllNew chain := by
  intro i
  by_cases h : i < 5
  · revert i; decide
  · have : stepAt chain i = ⟨[], 0, false, false, false⟩ := by
      simp [stepAt, List.getD_eq_getElem?_getD, List.getElem?_eq_none (show chain.length ≤ i from Nat.le_of_not_lt h)]
    rw [this]; decide

example (f : Nat → List V → V) (m : Nat → V) (w : Nat → Nat) : runBatched f chain w m = runPlain f chain m 5 :=
  batched_right f chain w m chain_orderly

example (f : Nat → List V → V) (m : Nat → V) :
    runPlain f chain m 5 6 = f 4 [m 0, f 3 [m 2]] ∧ runPlain f chain m 5 5 = f 2 [f 1 [f 0 [m 0, m 1], m 2], m 2] := ⟨rfl, rfl⟩

example : orderly [⟨[0, 1], 2, true, true, true⟩, ⟨[2], 3, true, false, true⟩] = false ∧
    orderly [⟨[0, 1], 2, true, true, true⟩, ⟨[1], 1, false, false, false⟩] = false := by decide

end Verif.Blase
