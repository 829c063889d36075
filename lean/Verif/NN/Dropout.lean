import Mathlib.Analysis.SpecialFunctions.Integrals.Basic
import Mathlib.MeasureTheory.Integral.IntervalIntegral.Basic
import Mathlib.Analysis.Calculus.Deriv.Add
import Mathlib.Analysis.Calculus.Deriv.Mul
import Verif.Shape.Model
/-!
Model of `/repo/op_dropout.go` (property C66). Arrays are lists of reals; `r i` is the `i`-th number drawn by `rndGen`. The float64
branches are modelled; the float32 ones are the same text.
-/
set_option autoImplicit false
namespace Verif.NN
open Verif.Shape

noncomputable section

/-- `dropoutOp`, op_dropout.go 16-20. -/
structure DropoutOp where
  probability : ℝ
  isTraining : Bool

/-- The loop of `dropoutOp.do`, op_dropout.go 118-125, on a given output array: `i` counts the elements done. -/
def dropoutLoop (keepProb : ℝ) (r : Nat → ℝ) : Nat → List ℝ → List ℝ → List ℝ
  | i, d :: v, o :: out => (if r i < keepProb then d / keepProb else o) :: dropoutLoop keepProb r (i + 1) v out
  | _, _, out => out

/-- `dropoutOp.Do`, op_dropout.go 74-89: a fresh array of zeros, or the operand itself. -/
def dropoutDo (op : DropoutOp) (r : Nat → ℝ) (input : List ℝ) : Res (List ℝ) :=
  if op.probability = 0 ∨ op.isTraining = false then .ok input
  else .ok (dropoutLoop (1 - op.probability) r 0 input (List.replicate input.length 0))

/-- What `dropoutOp.do` finds in its argument of type `interface{}`. -/
inductive Arg where
  | data (v : List ℝ)
  /-- a method value: `inputTensor.Data` without the call. -/
  | method

/-- `dropoutOp.do`, op_dropout.go 106-129: `log.Panicf` for anything but a slice of numbers. -/
def dropoutBody (op : DropoutOp) (r : Nat → ℝ) : Arg → List ℝ → Res (List ℝ)
  | .data v, out => .ok (dropoutLoop (1 - op.probability) r 0 v out)
  | .method, _ => .panic

/-- `dropoutOp.UsePreallocDo`, op_dropout.go 91-104: passes the method `inputTensor.Data`. -/
def dropoutPrealloc (op : DropoutOp) (r : Nat → ℝ) (prealloc input : List ℝ) : Res (List ℝ) :=
  if op.probability = 0 ∨ op.isTraining = false then .ok input
  else dropoutBody op r .method prealloc

/-- `dropoutDiffOp.UsePreallocDo`, op_dropout.go 206-242, reached from `dropoutDiffOp.Do` (191-204, a copy of the operand to
be overwritten) and from `DoDiff` (132-143): the loop runs over the incoming gradient and overwrites `dx`. -/
def dropoutDiffLoop (probability : ℝ) : List ℝ → List ℝ → List ℝ → Res (List ℝ)
  | [], _, dx => .ok dx
  | g :: dy, o :: out, _ :: dx =>
    (dropoutDiffLoop probability dy out dx).bind fun rest => .ok ((if probability ≠ 0 ∧ o ≠ 0 then g / probability else 0) :: rest)
  | _ :: _, _, _ => .panic

def dropoutDiff (op : DropoutOp) (prealloc output grad : List ℝ) : Res (List ℝ) := dropoutDiffLoop op.probability grad output prealloc

/-! ### Value -/

theorem dropoutLoop_get (k : ℝ) (r : Nat → ℝ) (n i : Nat) (v out : List ℝ) (hl : out.length = v.length) :
    (dropoutLoop k r n v out)[i]? = (v[i]?).map fun d => if r (n + i) < k then d / k else out.getD i 0 := by
  induction v generalizing n i out with
  | nil =>
    have : out = [] := List.length_eq_zero_iff.1 hl
    subst this
    simp [dropoutLoop]
  | cons d v ih =>
    cases out with
    | nil => simp at hl
    | cons o out =>
      cases i with
      | zero => simp [dropoutLoop]
      | succ i =>
        simp only [dropoutLoop, List.getElem?_cons_succ, List.getD_cons_succ]
        rw [ih (n + 1) i out (by simpa using hl)]
        simp only [Nat.add_assoc, Nat.add_comm 1 i]

/-- **C66 (value).** While training with a probability other than 0, element `i` is divided by the probability of keeping it when the
`i`-th number drawn is below that probability, and 0 otherwise; outside training, or with probability 0, the operand is returned. -/
theorem dropout_value (op : DropoutOp) (r : Nat → ℝ) (input : List ℝ) : ∃ out, dropoutDo op r input = .ok out ∧
    out.length = input.length ∧ ∀ i, i < input.length →
      out[i]? = some (if op.isTraining = true ∧ op.probability ≠ 0 then
        (if r i < 1 - op.probability then input.getD i 0 / (1 - op.probability) else 0) else input.getD i 0) := by
  have hlen : ∀ (n : Nat) (v out : List ℝ), out.length = v.length → (dropoutLoop (1 - op.probability) r n v out).length = v.length := by
    intro n v
    induction v generalizing n with
    | nil => intro out h; simpa [dropoutLoop] using h
    | cons d v ih =>
      intro out h
      cases out with
      | nil => simp at h
      | cons o out => simp only [dropoutLoop, List.length_cons]; rw [ih (n + 1) out (by simpa using h)]
  unfold dropoutDo
  by_cases hc : op.probability = 0 ∨ op.isTraining = false
  · rw [if_pos hc]
    refine ⟨input, rfl, rfl, fun i hi => ?_⟩
    rw [if_neg (by rcases hc with h | h <;> simp [h]), List.getD_eq_getElem?_getD, List.getElem?_eq_getElem hi]; rfl
  · rw [if_neg hc]
    push Not at hc
    refine ⟨_, rfl, hlen _ _ _ (by simp), fun i hi => ?_⟩
    rw [if_pos ⟨by cases h : op.isTraining <;> simp_all, hc.1⟩, dropoutLoop_get _ _ _ _ _ _ (by simp)]
    have hx : input.getD i 0 = input[i] := by rw [List.getD_eq_getElem?_getD, List.getElem?_eq_getElem hi]; rfl
    rw [List.getElem?_eq_getElem hi, Option.map_some, hx, Nat.zero_add]
    congr 1
    rw [List.getD_eq_getElem?_getD]
    simp [hi]

/-- **C66 (mean).** Over a number drawn uniformly from the unit interval, the result is the element on average: the scaling by the
probability of keeping is the right one, for every probability below 1. -/
theorem dropout_unbiased (p d : ℝ) (h0 : 0 ≤ p) (h1 : p < 1) :
    ∫ r in (0 : ℝ)..1, (if r < 1 - p then d / (1 - p) else 0) = d := by
  have hk : 0 < 1 - p := by linarith
  have e1 : ∀ r ∈ Set.Ioo (0 : ℝ) (1 - p), (if r < 1 - p then d / (1 - p) else 0) = d / (1 - p) := fun r hr => if_pos hr.2
  have e2 : ∀ r ∈ Set.Ioo (1 - p) (1 : ℝ), (if r < 1 - p then d / (1 - p) else 0) = 0 := fun r hr => if_neg (not_lt.2 hr.1.le)
  have i1 : IntervalIntegrable (fun r : ℝ => if r < 1 - p then d / (1 - p) else 0) MeasureTheory.volume 0 (1 - p) :=
    (intervalIntegrable_const (c := d / (1 - p))).congr_uIoo (by rw [Set.uIoo_of_le hk.le]; intro r hr; exact (e1 r hr).symm)
  have i2 : IntervalIntegrable (fun r : ℝ => if r < 1 - p then d / (1 - p) else 0) MeasureTheory.volume (1 - p) 1 :=
    (intervalIntegrable_const (c := (0 : ℝ))).congr_uIoo (by rw [Set.uIoo_of_le (by linarith)]; intro r hr; exact (e2 r hr).symm)
  rw [← intervalIntegral.integral_add_adjacent_intervals i1 i2]
  have a1 : ∫ r in (0 : ℝ)..(1 - p), (if r < 1 - p then d / (1 - p) else 0) = ∫ _ in (0 : ℝ)..(1 - p), d / (1 - p) :=
    intervalIntegral.integral_congr_uIoo (by rw [Set.uIoo_of_le hk.le]; exact e1)
  have a2 : ∫ r in (1 - p)..(1 : ℝ), (if r < 1 - p then d / (1 - p) else 0) = ∫ _ in (1 - p)..(1 : ℝ), (0 : ℝ) :=
    intervalIntegral.integral_congr_uIoo (by rw [Set.uIoo_of_le (by linarith)]; exact e2)
  rw [a1, a2]
  simp
  field_simp

/-- **C66 (defect).** Given a preallocated result, dropout panics, for every operand, while training with a probability other than 0:
it passes on the method that returns the data in place of the data. The tape machine and the define-by-run machine use this
entry whenever the destination already holds a value, that is from the second run on. -/
theorem dropout_prealloc_panics (op : DropoutOp) (r : Nat → ℝ) (prealloc input : List ℝ) :
    dropoutPrealloc op r prealloc input = .panic ↔ op.isTraining = true ∧ op.probability ≠ 0 := by
  unfold dropoutPrealloc
  by_cases hc : op.probability = 0 ∨ op.isTraining = false
  · rw [if_pos hc]
    rcases hc with h | h <;> simp [h]
  · rw [if_neg hc]
    push Not at hc
    simp [dropoutBody, hc.1]
    cases h : op.isTraining <;> simp_all

/-! ### Gradient -/

/-- The function of element `i` that dropout computes, for given draws. -/
def dropoutAt (op : DropoutOp) (r : ℝ) (x : ℝ) : ℝ :=
  if op.isTraining = true ∧ op.probability ≠ 0 then (if r < 1 - op.probability then x / (1 - op.probability) else 0) else x

/-- Its derivative. -/
def dropoutDeriv (op : DropoutOp) (r : ℝ) : ℝ :=
  if op.isTraining = true ∧ op.probability ≠ 0 then (if r < 1 - op.probability then 1 / (1 - op.probability) else 0) else 1

theorem dropoutDeriv_spec (op : DropoutOp) (r x : ℝ) : HasDerivAt (dropoutAt op r) (dropoutDeriv op r) x := by
  unfold dropoutAt dropoutDeriv
  by_cases h1 : op.isTraining = true ∧ op.probability ≠ 0
  · simp only [if_pos h1]
    by_cases h2 : r < 1 - op.probability
    · simp only [if_pos h2]
      exact (hasDerivAt_id x).div_const _
    · simp only [if_neg h2]
      exact hasDerivAt_const x 0
  · simp only [if_neg h1]
    exact hasDerivAt_id x

theorem dropoutDiff_spec (op : DropoutOp) (grad output prealloc : List ℝ) (h1 : output.length = grad.length)
    (h2 : prealloc.length = grad.length) : ∃ dx, dropoutDiff op prealloc output grad = .ok dx ∧ dx.length = grad.length ∧
      ∀ i, i < grad.length → dx[i]? = some (if op.probability ≠ 0 ∧ output.getD i 0 ≠ 0 then grad.getD i 0 / op.probability else 0) := by
  unfold dropoutDiff
  induction grad generalizing output prealloc with
  | nil =>
    have : prealloc = [] := List.length_eq_zero_iff.1 h2
    subst this
    exact ⟨[], by simp [dropoutDiffLoop], rfl, by simp⟩
  | cons g grad ih =>
    cases output with
    | nil => simp at h1
    | cons o output =>
      cases prealloc with
      | nil => simp at h2
      | cons q prealloc =>
        obtain ⟨dx, e1, e2, e3⟩ := ih output prealloc (by simpa using h1) (by simpa using h2)
        refine ⟨(if op.probability ≠ 0 ∧ o ≠ 0 then g / op.probability else 0) :: dx, by simp only [dropoutDiffLoop, e1, Res.bind], by simp [e2], fun i hi => ?_⟩
        cases i with
        | zero => simp
        | succ i => simpa using e3 i (by simpa using hi)

/-- **C66 (gradient, exact).** For every operand, incoming gradient and draws: the gradient computed for element `i` is the derivative
exactly when the incoming gradient is 0 there, or while training with a probability other than 0 the element is dropped or is not 0 and the
probability is one half. (Also when it is divided by 1 outside training: probability 1.) -/
theorem dropout_grad_iff (op : DropoutOp) (r : Nat → ℝ) (input grad : List ℝ) (hl : grad.length = input.length)
    (hp : op.probability < 1) : ∃ out dx, dropoutDo op r input = .ok out ∧ dropoutDiff op input out grad = .ok dx ∧
      ∀ i, i < input.length → (dx[i]? = some (grad.getD i 0 * dropoutDeriv op (r i)) ↔
        (grad.getD i 0 = 0 ∨ (op.isTraining = true ∧ op.probability ≠ 0 ∧
          (1 - op.probability ≤ r i ∨ (input.getD i 0 ≠ 0 ∧ op.probability = 1 / 2))))) := by
  obtain ⟨out, o1, o2, o3⟩ := dropout_value op r input
  obtain ⟨dx, d1, d2, d3⟩ := dropoutDiff_spec op grad out input (o2.trans hl.symm) hl.symm
  refine ⟨out, dx, o1, d1, fun i hi => ?_⟩
  rw [d3 i (by rw [hl]; exact hi), Option.some.injEq]
  rw [List.getD_eq_getElem?_getD (l := out), o3 i hi, Option.getD_some]
  generalize grad.getD i 0 = g
  generalize input.getD i 0 = x
  have hk : (1 - op.probability) ≠ 0 := by linarith
  unfold dropoutDeriv
  by_cases ht : op.isTraining = true ∧ op.probability ≠ 0
  · obtain ⟨ht1, hp0⟩ := ht
    simp only [ht1, hp0, ne_eq, not_false_eq_true, and_self, if_true, true_and]
    by_cases hr : r i < 1 - op.probability
    · simp only [if_pos hr, not_le.2 hr, false_or]
      by_cases hx : x = 0
      · subst hx
        simp only [zero_div, not_true_eq_false, if_false, false_and, or_false]
        constructor
        · intro e
          have := e.symm
          rcases mul_eq_zero.1 this with h | h
          · exact h
          · exact absurd h (by simp [hk])
        · rintro rfl; simp
      · have hxd : ¬ x / (1 - op.probability) = 0 := by
          intro h; rcases div_eq_zero_iff.1 h with h | h
          · exact hx h
          · exact hk h
        simp only [hxd, not_false_eq_true, if_true, hx, true_and]
        rw [mul_one_div, div_eq_div_iff hp0 hk]
        constructor
        · intro e
          by_cases hg : g = 0
          · exact Or.inl hg
          · right
            have := mul_left_cancel₀ hg e
            linarith
        · rintro (rfl | e)
          · simp
          · rw [e]; norm_num
    · simp only [if_neg hr, not_true_eq_false, if_false, mul_zero, not_lt.1 hr, true_or, or_true]
  · have hfalse : ∀ q : Prop, ¬ (op.isTraining = true ∧ op.probability ≠ 0 ∧ q) := fun q h => ht ⟨h.1, h.2.1⟩
    simp only [if_neg ht, mul_one, hfalse, or_false]
    by_cases hp0 : op.probability = 0
    · simp only [hp0, ne_eq, not_true_eq_false, false_and, if_false]
      exact eq_comm
    · by_cases hx : x = 0
      · simp only [hx, ne_eq, not_true_eq_false, and_false, if_false]
        exact eq_comm
      · simp only [hp0, hx, ne_eq, not_false_eq_true, and_self, if_true]
        rw [div_eq_iff hp0]
        constructor
        · intro e
          by_contra hg
          have : (1 : ℝ) = op.probability := mul_left_cancel₀ hg (by rw [mul_one]; exact e)
          linarith
        · rintro rfl; simp

/-- **C66 (gradient, partial).** With probability one half, while training, for operands without zero elements, the gradient is right.
Missing: everything else (`dropout_grad_iff`). -/
theorem dropout_grad_half_partial (r : Nat → ℝ) (input grad : List ℝ) (hl : grad.length = input.length)
    (h0 : ∀ i < input.length, input.getD i 0 ≠ 0) :
    ∃ out dx, dropoutDo ⟨1 / 2, true⟩ r input = .ok out ∧ dropoutDiff ⟨1 / 2, true⟩ input out grad = .ok dx ∧
      ∀ i, i < input.length → dx[i]? = some (grad.getD i 0 * dropoutDeriv ⟨1 / 2, true⟩ (r i)) := by
  obtain ⟨out, dx, e1, e2, e3⟩ := dropout_grad_iff ⟨1 / 2, true⟩ r input grad hl (by norm_num)
  refine ⟨out, dx, e1, e2, fun i hi => (e3 i hi).2 (Or.inr ⟨rfl, by norm_num, Or.inr ⟨h0 i hi, rfl⟩⟩)⟩

/-- **C66 (defect).** Dropping nothing (probability 0) is the identity, and its gradient comes out as 0. -/
theorem dropout_zero_grad (tr : Bool) (r : Nat → ℝ) (input grad : List ℝ) (hl : grad.length = input.length) :
    dropoutDo ⟨0, tr⟩ r input = .ok input ∧ dropoutDiff ⟨0, tr⟩ input input grad = .ok (grad.map fun _ => 0) := by
  refine ⟨by simp [dropoutDo], ?_⟩
  obtain ⟨dx, d1, d2, d3⟩ := dropoutDiff_spec ⟨0, tr⟩ grad input input hl.symm hl.symm
  rw [d1]
  congr 1
  refine List.ext_getElem? (fun i => ?_)
  by_cases hi : i < grad.length
  · rw [d3 i hi]; simp [hi]
  · rw [List.getElem?_eq_none (by rw [d2]; omega), List.getElem?_eq_none (by simpa using hi)]

/-- Keeping an element with probability 4/5 multiplies it by 5/4, and its gradient by 5. -/
example : dropoutDo ⟨1 / 5, true⟩ (fun _ => 0) [8] = .ok [10] ∧ dropoutDiff ⟨1 / 5, true⟩ [8] [10] [1] = .ok [5] ∧
    dropoutDeriv ⟨1 / 5, true⟩ 0 = 5 / 4 := by
  norm_num [dropoutDo, dropoutLoop, dropoutDiff, dropoutDiffLoop, dropoutDeriv, Res.bind]

end

end Verif.NN
