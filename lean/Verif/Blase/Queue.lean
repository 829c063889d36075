import Mathlib.Algebra.BigOperators.Group.Finset.Basic
import Mathlib.Data.Real.Basic
import Verif.Shape.Model
/-!
The queue of BLAS calls of package `blase` (`/repo/blase/work.go`, `/repo/blase/blas.go`), properties C84 and C85.

`C.process` (work.go 11-25) runs the first, second and third entry of the array it is given; here a call is its number, and running it
appends it to `done`. `fns` has `workbufLen` = 3 places (work.go 48, 107). The capacity of the slice `queue` is part of the state: the
inner loop of `DoWork` depends on it. `grow` is the capacity Go's `append` gives a full slice; only `c < grow c` is assumed.

This file is about a `DoWork` during which nobody adds calls; `RunLoop/Batched.lean` interleaves the same steps with the machines.
-/
set_option autoImplicit false
namespace Verif.Blase
open Verif.Shape

/-- `call`, work.go 57-90: which call, and whether it was announced as blocking. -/
structure Call where
  id : Nat
  blocking : Bool
deriving DecidableEq, Repr

/-- `context`, work.go 92-100: the waiting calls of the channel `work`, `queue` with its capacity, and the calls run so far. -/
structure Ctx where
  work : List Call
  queue : List Call
  cap : Nat
  done : List Call
deriving DecidableEq, Repr

/-- `workbufLen`, work.go 48. -/
def workbufLen : Nat := 3

/-- `newContext`, work.go 102-110. -/
def Ctx.new : Ctx := ⟨[], [], workbufLen, []⟩

/-- The capacity after `append` to a slice of length `n` and capacity `cap`. -/
def capAfter (grow : Nat → Nat) (n cap : Nat) : Nat := if n = cap then grow cap else cap

/-- work.go 147-153: the queue is copied into `fns` (index out of range for more than three calls), run and emptied. -/
def process (cap : Nat) (q done : List Call) : Res (List Call × Nat × List Call) :=
  if q.length > workbufLen then .panic else .ok ([], cap, done ++ q)

/-- The loops of `DoWork`, work.go 127-155, when nobody adds calls. `inner` says whether the inner loop (137) is being entered, `blocking`
is the variable of that name. With no call waiting, both `select`s end their loop (131-132, 142-143), the inner one without
processing the queue, so the function returns. With a call waiting the inner loop, if its condition holds, takes the call and
processes the queue (138-153); otherwise the outer `select` takes it and the inner loop is entered (128-137). -/
def loops (grow : Nat → Nat) : Bool → Bool → List Call → List Call → Nat → List Call → Res Ctx
  | _, _, [], queue, cap, done => .ok ⟨[], queue, cap, done⟩
  | inner, blocking, w :: ws, queue, cap, done =>
    if inner && decide (queue.length < cap) && !blocking then
      (process cap (queue ++ [w]) done).bind fun r => loops grow true w.blocking ws r.1 r.2.1 r.2.2
    else loops grow true w.blocking ws (queue ++ [w]) (capAfter grow queue.length cap) done

/-- `DoWork`, work.go 126-156. -/
def doWork (grow : Nat → Nat) (c : Ctx) : Res Ctx := loops grow false false c.work c.queue c.cap c.done

/-- `enqueue` of a call that is not blocking, work.go 112-122, when the channel has room; `none` means the caller waits. -/
def enqueue (w : Call) (c : Ctx) : Option Ctx :=
  if c.work.length < workbufLen then some { c with work := c.work ++ [w] } else none

/-! ### What holds -/

theorem process_ok {cap : Nat} {q done : List Call} (h : q.length ≤ 3) : process cap q done = .ok ([], cap, done ++ q) := by
  unfold process workbufLen
  rw [if_neg (by omega)]

theorem loops_spec (grow : Nat → Nat) (work : List Call) : ∀ (inner blocking : Bool) (queue : List Call) (cap : Nat) (done : List Call) (c : Ctx),
    loops grow inner blocking work queue cap done = .ok c → c.work = [] ∧ c.done ++ c.queue = done ++ queue ++ work := by
  induction work with
  | nil =>
    intro inner blocking queue cap done c h
    simp only [loops] at h
    injection h with h
    subst h
    simp
  | cons w ws ih =>
    intro inner blocking queue cap done c h
    simp only [loops] at h
    by_cases hc : (inner && decide (queue.length < cap) && !blocking) = true
    · rw [if_pos hc] at h
      unfold process at h
      by_cases hl : (queue ++ [w]).length > workbufLen
      · rw [if_pos hl] at h; cases h
      · rw [if_neg hl] at h
        obtain ⟨h1, h2⟩ := ih _ _ _ _ _ _ h
        refine ⟨h1, ?_⟩
        rw [h2]; simp
    · rw [if_neg hc] at h
      obtain ⟨h1, h2⟩ := ih _ _ _ _ _ _ h
      refine ⟨h1, ?_⟩
      rw [h2]; simp

/-- **C84 (order).** `DoWork`, unless it panics, empties the channel, loses no call, runs none twice and runs them in the order in which they were
handed over. -/
theorem doWork_order (grow : Nat → Nat) (c c' : Ctx) (h : doWork grow c = .ok c') :
    c'.work = [] ∧ c'.done ++ c'.queue = c.done ++ c.queue ++ c.work := loops_spec grow _ _ _ _ _ _ _ h

/-- From the inner loop with an empty queue, calls that do not block are run one by one. -/
theorem loops_drain (grow : Nat → Nat) (work : List Call) (hw : ∀ w ∈ work, w.blocking = false) (cap : Nat) (hcap : 0 < cap) :
    ∀ (done : List Call), loops grow true false work [] cap done = .ok ⟨[], [], cap, done ++ work⟩ := by
  induction work with
  | nil => intro done; simp [loops]
  | cons w ws ih =>
    intro done
    have hb := hw w List.mem_cons_self
    simp only [loops]
    rw [if_pos (by simp [hcap]), hb]
    rw [process_ok (by simp)]
    simp only [Res.bind, List.nil_append]
    rw [ih (fun v hv => hw v (List.mem_cons_of_mem _ hv))]
    simp

/-- **C84 (two or more).** With an empty queue and at least two waiting calls, none blocking, `DoWork` runs them all. -/
theorem doWork_runs (grow : Nat → Nat) (c : Ctx) (hq : c.queue = []) (hcap : 1 < c.cap) (hw : ∀ w ∈ c.work, w.blocking = false)
    (h2 : 2 ≤ c.work.length) : doWork grow c = .ok ⟨[], [], c.cap, c.done ++ c.work⟩ := by
  obtain ⟨work, queue, cap, done⟩ := c
  simp only at hq hcap hw h2 ⊢
  subst hq
  match work, h2, hw with
  | a :: b :: ws, _, hw =>
    have ha := hw a (by simp)
    have hb := hw b (by simp)
    unfold doWork
    simp only [loops]
    rw [if_neg (by simp)]
    have hc : capAfter grow ([] : List Call).length cap = cap := by
      unfold capAfter
      rw [if_neg]
      simp; omega
    rw [hc, if_pos (by simp [ha, hcap])]
    rw [process_ok (by simp)]
    simp only [Res.bind, hb, List.nil_append]
    rw [loops_drain grow ws (fun v hv => hw v (by simp [hv])) cap (by omega)]
    simp

/-! ### What fails -/

/-- **C84 (negation).** A single waiting call is moved into the queue and not run, in every state, whether it blocks or not. -/
theorem doWork_one (grow : Nat → Nat) (c : Ctx) (w : Call) (h : c.work = [w]) :
    doWork grow c = .ok ⟨[], c.queue ++ [w], capAfter grow c.queue.length c.cap, c.done⟩ := by
  unfold doWork
  rw [h]
  simp only [loops]
  rw [if_neg (by simp)]

/-- **C84 (negation, exactly).** On a fresh queue calls that do not block are all run if and only if there is not exactly one. -/
theorem doWork_runs_iff (grow : Nat → Nat) (work done : List Call) (hw : ∀ w ∈ work, w.blocking = false) :
    (∃ c, doWork grow ⟨work, [], workbufLen, done⟩ = .ok c ∧ c.done = done ++ work) ↔ work.length ≠ 1 := by
  constructor
  · rintro ⟨c, h, hd⟩ hl
    match work, hl with
    | [w], _ =>
      rw [doWork_one grow _ w rfl] at h
      injection h with h
      subst h
      simp at hd
  · intro hl
    by_cases h0 : work = []
    · subst h0
      exact ⟨_, rfl, by simp⟩
    · have : 2 ≤ work.length := by
        have := List.length_pos_iff.mpr h0
        omega
      exact ⟨_, doWork_runs grow ⟨work, [], workbufLen, done⟩ rfl (by show 1 < 3; decide) hw this, rfl⟩

/-- Handing over one call and calling `DoWork`, again and again: what a machine does that flushes after every product. -/
def rounds (grow : Nat → Nat) : List Call → Ctx → Res Ctx
  | [], c => .ok c
  | w :: ws, c => match enqueue w c with
    | none => .err
    | some c => (doWork grow c).bind (rounds grow ws)

/-- **C84 (negation).** Handed over one at a time, no call is ever run, however many there are. -/
theorem rounds_run_none (grow : Nat → Nat) (ws : List Call) : ∀ (c : Ctx), c.work = [] →
    ∃ c', rounds grow ws c = .ok c' ∧ c'.work = [] ∧ c'.done = c.done ∧ c'.queue = c.queue ++ ws := by
  induction ws with
  | nil => intro c h; exact ⟨c, rfl, h, rfl, by simp⟩
  | cons w ws ih =>
    intro c h
    have e : enqueue w c = some { c with work := [w] } := by
      unfold enqueue
      rw [if_pos (by rw [h]; decide), h]
      rfl
    obtain ⟨c', h1, h2, h3, h4⟩ := ih ⟨[], c.queue ++ [w], capAfter grow c.queue.length c.cap, c.done⟩ rfl
    refine ⟨c', ?_, h2, h3, by rw [h4]; simp⟩
    simp only [rounds, e]
    rw [doWork_one grow _ w rfl]
    exact h1

/-- **C84 (negation).** Once three or more calls have piled up (in a slice with room for two more), two waiting calls make `DoWork` write behind the end
of `fns`. -/
theorem doWork_panics (grow : Nat → Nat) (c : Ctx) (a b : Call) (rest : List Call) (h : c.work = a :: b :: rest) (ha : a.blocking = false)
    (hq : 3 ≤ c.queue.length) (hc : c.queue.length + 1 < c.cap) : doWork grow c = .panic := by
  unfold doWork
  rw [h]
  simp only [loops]
  rw [if_neg (by simp)]
  have e : capAfter grow c.queue.length c.cap = c.cap := by
    unfold capAfter
    rw [if_neg (by omega)]
  rw [e, if_pos (by simp [ha]; omega)]
  unfold process
  rw [if_pos (by simp [workbufLen]; omega)]
  rfl

/-- Four products with a flush after each: none has been run, and the next two bring the program down. -/
example : ∃ c, rounds (2 * ·) [⟨0, false⟩, ⟨1, false⟩, ⟨2, false⟩, ⟨3, false⟩] Ctx.new = .ok c ∧ c.done = [] ∧
    doWork (2 * ·) { c with work := [⟨4, false⟩, ⟨5, false⟩] } = .panic := ⟨_, rfl, rfl, by decide⟩

example : doWork (2 * ·) ⟨[⟨0, false⟩, ⟨1, false⟩, ⟨2, false⟩], [], 3, []⟩ =
    .ok ⟨[], [], 3, [⟨0, false⟩, ⟨1, false⟩, ⟨2, false⟩]⟩ := by decide

/-! ### The arguments of a call -/

noncomputable section
open Finset

/-- `cblas_dgemv` in row-major order (assumed): `y ← α·A·x + β·y` for an `m`×`n` matrix, or with `A` transposed. -/
def gemv (trans : Bool) (m n : Nat) (α : ℝ) (a : Nat → ℝ) (lda : Nat) (x : Nat → ℝ) (incX : Nat) (β : ℝ) (y : Nat → ℝ) (i : Nat) : ℝ :=
  if i < (if trans then n else m) then
    α * ∑ j ∈ range (if trans then m else n), (if trans then a (j * lda + i) else a (i * lda + j)) * x (j * incX) + β * y i
  else y i

/-- The argument block of a queued call, fn.go 11-38, as far as matrix-vector products use it. -/
structure Args where
  tA : Bool
  i0 : Nat
  i1 : Nat
  i2 : Nat
  i3 : Nat
  d0 : ℝ
  d1 : ℝ

/-- `Dgemv`, blas.go 72-87 (`incY` 1). -/
def dgemvArgs (tA : Bool) (m _n : Nat) (α : ℝ) (lda incX : Nat) (β : ℝ) : Args := ⟨tA, m, m, lda, incX, α, β⟩

/-- The case `fn_cblas_dgemv` of `processFn`, work.c 153-166. -/
def runGemv (g : Args) (a x y : Nat → ℝ) : Nat → ℝ := gemv g.tA g.i0 g.i1 g.d0 a g.i2 x g.i3 g.d1 y

/-- **C85 (square matrices).** The queued product of a square matrix and a vector is the product. -/
theorem dgemv_square_partial (tA : Bool) (m : Nat) (α β : ℝ) (lda incX : Nat) (a x y : Nat → ℝ) :
    runGemv (dgemvArgs tA m m α lda incX β) a x y = gemv tA m m α a lda x incX β y := rfl

/-- **C85 (negation).** For a matrix that is not square the queued product goes wrong for some data, transposed or not: it leaves a wrong number
in the result or (transposed, more rows than columns) overwrites what lies behind it. -/
theorem dgemv_rectangular_wrong (m n : Nat) (h : m ≠ n) (hm : 0 < m) (tA : Bool) :
    ∃ a x y : Nat → ℝ, ∃ i, runGemv (dgemvArgs tA m n 1 n 1 0) a x y i ≠ gemv tA m n 1 a n x 1 0 y i := by
  cases tA with
  | false =>
    refine ⟨fun _ => 1, fun _ => 1, fun _ => 0, 0, ?_⟩
    simp only [runGemv, dgemvArgs, gemv, Bool.false_eq_true, if_false, if_pos hm]
    simpa using h
  | true =>
    rcases Nat.lt_or_gt_of_ne h with h | h
    · refine ⟨fun _ => 0, fun _ => 1, fun _ => 7, m, ?_⟩
      simp only [runGemv, dgemvArgs, gemv, if_true, if_neg (Nat.lt_irrefl m), if_pos h]
      simp
    · refine ⟨fun _ => 0, fun _ => 1, fun _ => 7, n, ?_⟩
      simp only [runGemv, dgemvArgs, gemv, if_true, if_neg (Nat.lt_irrefl n), if_pos h]
      simp

/-- For a 2×3 matrix of ones and a vector of ones the queue computes 2 instead of 3. -/
example : runGemv (dgemvArgs false 2 3 1 3 1 0) (fun _ => 1) (fun _ => 1) (fun _ => 0) 0 = 2 ∧
    gemv false 2 3 1 (fun _ => 1) 3 (fun _ => 1) 1 0 (fun _ => 0) 0 = 3 := by
  constructor <;> simp [runGemv, dgemvArgs, gemv]

end
end Verif.Blase
