import Verif.Shape.Reduce
import Mathlib.Analysis.SpecialFunctions.ExpDeriv
import Mathlib.Algebra.BigOperators.Field
import Mathlib.Analysis.SpecialFunctions.Log.Deriv
/-!
`SoftMax` and `LogSoftMax` (`/repo/op_softmax.go`).  C58.  The kernels `tensor.SoftMax`, `tensor.LogSoftMax`,
`tensor.SoftMaxB` and `tensor.LogSoftMaxB` are library functions; their assumed meaning is the formula along one axis, with
a negative axis counted from the end.
-/
set_option autoImplicit false
namespace Verif.NN
open Verif.Tensor Verif.Shape

/-! ### The library -/

/-- Sum of `F` over the line through `i` along axis `ax`. -/
noncomputable def lineSum (s : List Nat) (ax : Nat) (F : List Nat → ℝ) (i : List Nat) : ℝ :=
  ∑ k ∈ Finset.range (s.getD ax 0), F (i.set ax k)

/-- `tensor.SoftMax` along an axis (assumed). -/
noncomputable def softAxis (ax : Nat) (x : T ℝ) : T ℝ :=
  ⟨x.shape, fun i => Real.exp (x.at_ i) / lineSum x.shape ax (fun j => Real.exp (x.at_ j)) i⟩

/-- `tensor.LogSoftMax` along an axis (assumed). -/
noncomputable def logSoftAxis (ax : Nat) (x : T ℝ) : T ℝ :=
  ⟨x.shape, fun i => x.at_ i - Real.log (lineSum x.shape ax (fun j => Real.exp (x.at_ j)) i)⟩

/-- `tensor.SoftMaxB` along an axis, from the output and the incoming gradient (assumed). -/
noncomputable def softAxisB (ax : Nat) (y g : T ℝ) : T ℝ :=
  ⟨y.shape, fun i => y.at_ i * (g.at_ i - lineSum y.shape ax (fun j => y.at_ j * g.at_ j) i)⟩

/-- `tensor.LogSoftMaxB` along an axis (assumed). -/
noncomputable def logSoftAxisB (ax : Nat) (y g : T ℝ) : T ℝ :=
  ⟨y.shape, fun i => g.at_ i - Real.exp (y.at_ i) * lineSum y.shape ax g.at_ i⟩

/-- The axis a kernel works along, given a possibly negative one (assumed; the rank is positive). -/
def resolve (axis : Int) (dims : Nat) : Nat := (axis % (dims : Int)).toNat

/-- `tensor.Shape.IsColVec` and `IsRowVec` (assumed). -/
def isColVec : List Nat → Bool
  | [a, b] => b == 1 && decide (a > 1)
  | _ => false

def isRowVec : List Nat → Bool
  | [a, b] => a == 1 && decide (b > 1)
  | _ => false

/-! ### Model -/

/-- The axis `softmaxOp.UsePreallocDo` passes to the kernel, op_softmax.go 107-116; `op.axis` is `-1` if no axis was given
(lines 34-37). -/
def fwdAxis (opAxis : Int) (s : List Nat) : Int :=
  let axis : Int := (s.length : Int) - 1
  let axis := if isColVec s || (isVector s && !isRowVec s) then 0 else axis
  if opAxis ≠ -1 then opAxis else axis

/-- `softmaxOp.Do` and `UsePreallocDo`, op_softmax.go 86-128. A scalar is not a tensor and rejected (line 80). -/
noncomputable def softDo (isLog : Bool) (opAxis : Int) (x : T ℝ) : Res (T ℝ) :=
  if x.shape = [] then .err
  else
    let ax := resolve (fwdAxis opAxis x.shape) x.shape.length
    .ok (if isLog then logSoftAxis ax x else softAxis ax x)

/-- `softmaxDiffOp.UsePreallocDo`, op_softmax.go 275-286: the axis passed is `op.axis` itself. -/
noncomputable def softDiff (isLog : Bool) (opAxis : Int) (y g : T ℝ) : T ℝ :=
  let ax := resolve opAxis y.shape.length
  if isLog then logSoftAxisB ax y g else softAxisB ax y g

/-- `softmaxOp.DoDiff`, op_softmax.go 131-154: from the derivatives of operand and result to the new ones. The sum is
computed in place in the derivative of the operand and then stored as the derivative of the *result* (line 159). -/
noncomputable def softDoDiff (isLog : Bool) (opAxis : Int) (y xd yd : T ℝ) : T ℝ × T ℝ :=
  let sum : T ℝ := ⟨xd.shape, fun i => xd.at_ i + (softDiff isLog opAxis y yd).at_ i⟩
  (sum, sum)

/-! ### Lines -/

theorem sumOver_sum (s : List Nat) (n : Nat) (G : List Nat → Nat → ℝ) :
    (sumOver s fun i => ∑ k ∈ Finset.range n, G i k) = ∑ k ∈ Finset.range n, sumOver s fun i => G i k := by
  unfold sumOver; exact Finset.sum_comm

/-- Exchanging the two ends of the pairs of positions on a common line. -/
theorem line_swap (s : List Nat) (ax : Nat) (h : ax < s.length) (F : List Nat → List Nat → ℝ) :
    (sumOver s fun i => lineSum s ax (fun j => F i j) i) = sumOver s fun i => lineSum s ax (fun j => F j i) i := by
  induction s generalizing ax F with
  | nil => simp at h
  | cons d s ih =>
    unfold lineSum
    rw [sumOver_cons, sumOver_cons]
    cases ax with
    | zero =>
      simp only [List.set_cons_zero, List.getD_cons_zero]
      have e : ∀ G : List Nat → Nat → Nat → ℝ, (∑ a ∈ Finset.range d, sumOver s fun i => ∑ k ∈ Finset.range d, G i a k) =
          ∑ a ∈ Finset.range d, ∑ k ∈ Finset.range d, sumOver s fun i => G i a k :=
        fun G => Finset.sum_congr rfl (fun a _ => sumOver_sum s d fun i k => G i a k)
      rw [e fun i a k => F (a :: i) (k :: i), e fun i a k => F (k :: i) (a :: i), Finset.sum_comm]
    | succ ax =>
      simp only [List.set_cons_succ, List.getD_cons_succ]
      refine Finset.sum_congr rfl (fun a _ => ?_)
      exact ih ax (by simpa using h) (fun i j => F (a :: i) (a :: j))

theorem inB_set_line {s i : List Nat} (hi : InB s i) (ax k : Nat) (hk : k < s.getD ax 0) : InB s (i.set ax k) := by
  induction s generalizing i ax with
  | nil => simp at hk
  | cons d s ih =>
    cases i with
    | nil => exact hi.elim
    | cons a i =>
      cases ax with
      | zero => exact ⟨by simpa using hk, hi.2⟩
      | succ ax => exact ⟨hi.1, ih hi.2 ax (by simpa using hk)⟩

theorem lineSum_set (s : List Nat) (ax k : Nat) (F : List Nat → ℝ) (i : List Nat) : lineSum s ax F (i.set ax k) = lineSum s ax F i := by
  unfold lineSum
  exact Finset.sum_congr rfl (fun q _ => by rw [List.set_set])

theorem line_pos {s i : List Nat} (hi : InB s i) (ax : Nat) (h : ax < s.length) : 0 < s.getD ax 0 := by
  have := ((inB_iff _ _).1 hi).2 ax h
  omega

theorem lineSum_exp_pos {s i : List Nat} (hi : InB s i) (ax : Nat) (h : ax < s.length) (x : List Nat → ℝ) :
    0 < lineSum s ax (fun j => Real.exp (x j)) i :=
  Finset.sum_pos (fun _ _ => Real.exp_pos _) ⟨0, Finset.mem_range.2 (line_pos hi ax h)⟩

/-! ### Value -/

/-- **C58 (value).** Along the axis used, the softmax is positive, sums to 1, and the ratios are those of the exponentials;
the log-softmax is its logarithm. -/
theorem softmax_value (x : T ℝ) (opAxis : Int) (hr : x.shape ≠ []) : ∃ r l ax, softDo false opAxis x = .ok r ∧
    softDo true opAxis x = .ok l ∧ r.shape = x.shape ∧ l.shape = x.shape ∧
    ax = resolve (fwdAxis opAxis x.shape) x.shape.length ∧ ax < x.shape.length ∧
    ∀ i, InB x.shape i → 0 < r.at_ i ∧ l.at_ i = Real.log (r.at_ i) ∧
      (∑ k ∈ Finset.range (x.shape.getD ax 0), r.at_ (i.set ax k)) = 1 ∧
      ∀ k, k < x.shape.getD ax 0 → r.at_ (i.set ax k) * Real.exp (x.at_ i) = r.at_ i * Real.exp (x.at_ (i.set ax k)) := by
  have hl : 0 < x.shape.length := List.length_pos_iff.2 hr
  have hax : resolve (fwdAxis opAxis x.shape) x.shape.length < x.shape.length := by
    unfold resolve
    have h1 := Int.emod_lt_of_pos (fwdAxis opAxis x.shape) (show (0 : Int) < x.shape.length by exact_mod_cast hl)
    have h2 := Int.emod_nonneg (fwdAxis opAxis x.shape) (show (x.shape.length : Int) ≠ 0 by omega)
    omega
  refine ⟨softAxis (resolve (fwdAxis opAxis x.shape) x.shape.length) x,
    logSoftAxis (resolve (fwdAxis opAxis x.shape) x.shape.length) x, resolve (fwdAxis opAxis x.shape) x.shape.length,
    by unfold softDo; rw [if_neg hr]; rfl, by unfold softDo; rw [if_neg hr]; rfl, rfl, rfl, rfl, hax, ?_⟩
  intro i hi
  set ax := resolve (fwdAxis opAxis x.shape) x.shape.length
  have hp := lineSum_exp_pos hi ax hax x.at_
  refine ⟨div_pos (Real.exp_pos _) hp, ?_, ?_, ?_⟩
  · show x.at_ i - Real.log _ = Real.log (Real.exp (x.at_ i) / _)
    rw [Real.log_div (Real.exp_ne_zero _) hp.ne', Real.log_exp]
  · have e : ∀ k ∈ Finset.range (x.shape.getD ax 0), (softAxis ax x).at_ (i.set ax k) =
        Real.exp (x.at_ (i.set ax k)) / lineSum x.shape ax (fun j => Real.exp (x.at_ j)) i := by
      intro k _
      show _ / lineSum _ _ _ (i.set ax k) = _
      rw [lineSum_set]
    rw [Finset.sum_congr rfl e, ← Finset.sum_div]
    exact div_self hp.ne'
  · intro k _
    show _ / lineSum _ _ _ (i.set ax k) * _ = _ / _ * _
    rw [lineSum_set]
    field_simp

/-! ### Gradient -/

theorem hasDerivAt_lineSum_exp (s : List Nat) (ax : Nat) (x d : List Nat → ℝ) (i : List Nat) :
    HasDerivAt (fun τ : ℝ => lineSum s ax (fun j => Real.exp (x j + τ * d j)) i)
      (lineSum s ax (fun j => Real.exp (x j) * d j) i) 0 := by
  unfold lineSum
  refine HasDerivAt.fun_sum (fun k _ => ?_)
  have := (hasDerivAt_line (x (i.set ax k)) (d (i.set ax k))).exp
  simpa using this

/-- The kernel along an axis is the derivative of the softmax along the same axis. -/
theorem softAxis_grad (x g : T ℝ) (ax : Nat) (hax : ax < x.shape.length) (hg : g.shape = x.shape) :
    IsGrad (fun t => .ok (softAxis ax t)) x g (softAxisB ax (softAxis ax x) g) := by
  refine ⟨rfl, fun d hd => ⟨fun τ => softAxis ax (moveT x d τ), Filter.Eventually.of_forall fun τ => ⟨rfl, hg.symm⟩, ?_⟩⟩
  set y := softAxis ax x
  have hde : ∀ i, InB g.shape i → HasDerivAt (fun τ => (softAxis ax (moveT x d τ)).at_ i)
      (y.at_ i * (d.at_ i - lineSum x.shape ax (fun j => y.at_ j * d.at_ j) i)) 0 := by
    intro i hi
    rw [hg] at hi
    have hp := lineSum_exp_pos hi ax hax x.at_
    have h1 : HasDerivAt (fun τ : ℝ => Real.exp (x.at_ i + τ * d.at_ i)) (Real.exp (x.at_ i) * d.at_ i) 0 := by
      simpa using (hasDerivAt_line (x.at_ i) (d.at_ i)).exp
    have h2 := hasDerivAt_lineSum_exp x.shape ax x.at_ d.at_ i
    have h3 := h1.div h2 (by simpa using hp.ne')
    refine HasDerivAt.congr_deriv h3 ?_
    simp only [zero_mul, add_zero]
    have e : lineSum x.shape ax (fun j => y.at_ j * d.at_ j) i =
        lineSum x.shape ax (fun j => Real.exp (x.at_ j) * d.at_ j) i / lineSum x.shape ax (fun j => Real.exp (x.at_ j)) i := by
      unfold lineSum
      rw [Finset.sum_div]
      refine Finset.sum_congr rfl (fun k _ => ?_)
      show Real.exp (x.at_ (i.set ax k)) / lineSum _ _ _ (i.set ax k) * _ = _
      rw [lineSum_set]
      unfold lineSum
      ring
    rw [e]
    show _ = Real.exp (x.at_ i) / _ * _
    field_simp
  refine (hasDerivAt_pair g _ _ hde).congr_deriv ?_
  rw [pair_eq, hg]
  show _ = sumOver x.shape fun i => y.at_ i * (g.at_ i - lineSum x.shape ax (fun j => y.at_ j * g.at_ j) i) * d.at_ i
  have e1 : (sumOver x.shape fun i => g.at_ i * (y.at_ i * (d.at_ i - lineSum x.shape ax (fun j => y.at_ j * d.at_ j) i))) =
      (sumOver x.shape fun i => g.at_ i * y.at_ i * d.at_ i) -
        sumOver x.shape fun i => lineSum x.shape ax (fun j => g.at_ i * y.at_ i * (y.at_ j * d.at_ j)) i := by
    unfold sumOver
    rw [← Finset.sum_sub_distrib]
    refine Finset.sum_congr rfl (fun k _ => ?_)
    simp only [lineSum]
    rw [← Finset.mul_sum]; ring
  have e2 : (sumOver x.shape fun i => y.at_ i * (g.at_ i - lineSum x.shape ax (fun j => y.at_ j * g.at_ j) i) * d.at_ i) =
      (sumOver x.shape fun i => g.at_ i * y.at_ i * d.at_ i) -
        sumOver x.shape fun i => lineSum x.shape ax (fun j => g.at_ j * y.at_ j * (y.at_ i * d.at_ i)) i := by
    unfold sumOver
    rw [← Finset.sum_sub_distrib]
    refine Finset.sum_congr rfl (fun k _ => ?_)
    simp only [lineSum]
    rw [← Finset.sum_mul]
    have : ∀ j, g.at_ j * y.at_ j = y.at_ j * g.at_ j := fun j => mul_comm _ _
    simp only [this]; ring
  rw [e1, e2, line_swap x.shape ax hax fun i j => g.at_ i * y.at_ i * (y.at_ j * d.at_ j)]

/-- The log kernel along an axis is the derivative of the log-softmax along the same axis. -/
theorem logSoftAxis_grad (x g : T ℝ) (ax : Nat) (hax : ax < x.shape.length) (hg : g.shape = x.shape) :
    IsGrad (fun t => .ok (logSoftAxis ax t)) x g (logSoftAxisB ax (logSoftAxis ax x) g) := by
  refine ⟨rfl, fun d hd => ⟨fun τ => logSoftAxis ax (moveT x d τ), Filter.Eventually.of_forall fun τ => ⟨rfl, hg.symm⟩, ?_⟩⟩
  set p := softAxis ax x
  have hy : ∀ i, InB x.shape i → Real.exp ((logSoftAxis ax x).at_ i) = p.at_ i := by
    intro i hi
    show Real.exp (x.at_ i - Real.log _) = Real.exp (x.at_ i) / _
    rw [Real.exp_sub, Real.exp_log (lineSum_exp_pos hi ax hax x.at_)]
  have hde : ∀ i, InB g.shape i → HasDerivAt (fun τ => (logSoftAxis ax (moveT x d τ)).at_ i)
      (d.at_ i - lineSum x.shape ax (fun j => p.at_ j * d.at_ j) i) 0 := by
    intro i hi
    rw [hg] at hi
    have hp := lineSum_exp_pos hi ax hax x.at_
    have h2 := hasDerivAt_lineSum_exp x.shape ax x.at_ d.at_ i
    have h3 := (hasDerivAt_line (x.at_ i) (d.at_ i)).sub (h2.log (by simpa using hp.ne'))
    refine HasDerivAt.congr_deriv h3 ?_
    simp only [zero_mul, add_zero]
    congr 1
    unfold lineSum
    rw [Finset.sum_div]
    refine Finset.sum_congr rfl (fun k _ => ?_)
    show _ = Real.exp (x.at_ (i.set ax k)) / lineSum _ _ _ (i.set ax k) * _
    rw [lineSum_set]
    unfold lineSum
    ring
  refine (hasDerivAt_pair g _ _ hde).congr_deriv ?_
  rw [pair_eq, hg]
  have e2 : (sumOver (logSoftAxisB ax (logSoftAxis ax x) g).shape fun i => (logSoftAxisB ax (logSoftAxis ax x) g).at_ i * d.at_ i) =
      sumOver x.shape fun i => (g.at_ i - p.at_ i * lineSum x.shape ax g.at_ i) * d.at_ i := by
    refine sumOver_congr _ _ _ (fun i hi => ?_)
    show (g.at_ i - Real.exp ((logSoftAxis ax x).at_ i) * _) * _ = _
    rw [hy i hi]
    rfl
  rw [e2]
  have e1 : (sumOver x.shape fun i => g.at_ i * (d.at_ i - lineSum x.shape ax (fun j => p.at_ j * d.at_ j) i)) =
      (sumOver x.shape fun i => g.at_ i * d.at_ i) -
        sumOver x.shape fun i => lineSum x.shape ax (fun j => g.at_ i * (p.at_ j * d.at_ j)) i := by
    unfold sumOver
    rw [← Finset.sum_sub_distrib]
    refine Finset.sum_congr rfl (fun k _ => ?_)
    simp only [lineSum]
    rw [← Finset.mul_sum]; ring
  have e3 : (sumOver x.shape fun i => (g.at_ i - p.at_ i * lineSum x.shape ax g.at_ i) * d.at_ i) =
      (sumOver x.shape fun i => g.at_ i * d.at_ i) -
        sumOver x.shape fun i => lineSum x.shape ax (fun j => g.at_ j * (p.at_ i * d.at_ i)) i := by
    unfold sumOver
    rw [← Finset.sum_sub_distrib]
    refine Finset.sum_congr rfl (fun k _ => ?_)
    simp only [lineSum]
    rw [← Finset.sum_mul]; ring
  rw [e1, e3, line_swap x.shape ax hax fun i j => g.at_ i * (p.at_ j * d.at_ j)]

theorem resolve_lt (axis : Int) (n : Nat) (h : 0 < n) : resolve axis n < n := by
  unfold resolve
  have h1 := Int.emod_lt_of_pos axis (show (0 : Int) < n by exact_mod_cast h)
  have h2 := Int.emod_nonneg axis (show (n : Int) ≠ 0 by omega)
  omega

/-- Forward and backward use the same axis, except for a column vector without explicit axis. -/
theorem axis_agree (opAxis : Int) (s : List Nat) (h : opAxis ≠ -1 ∨ isColVec s = false) (hs : s ≠ []) :
    resolve opAxis s.length = resolve (fwdAxis opAxis s) s.length := by
  by_cases ho : opAxis = -1
  · have hc : isColVec s = false := by
      rcases h with h | h
      · exact absurd ho h
      · exact h
    have hl : 0 < s.length := List.length_pos_iff.2 hs
    subst ho
    have hlast : resolve (-1) s.length = s.length - 1 := by
      unfold resolve
      have : (-1 : Int) % (s.length : Int) = s.length - 1 := by
        rw [Int.emod_def, Int.neg_one_ediv]
        have : Int.sign (s.length : Int) = 1 := Int.sign_eq_one_of_pos (by exact_mod_cast hl)
        rw [this]; ring
      rw [this]; omega
    rw [hlast]
    unfold fwdAxis
    simp only [ne_eq, not_true_eq_false, if_false, hc, Bool.false_or]
    by_cases hv : (isVector s && !isRowVec s) = true
    · rw [if_pos hv]
      have hlen : s.length = 1 := by
        match s, hv, hc with
        | [_], _, _ => rfl
        | [a, b], hv, hc =>
          simp [isVector, isRowVec, isColVec] at hv hc
          omega
        | _ :: _ :: _ :: _, hv, _ => simp [isVector] at hv
      simp [resolve, hlen]
    · rw [if_neg hv]
      unfold resolve
      rw [Int.emod_eq_of_lt (by omega) (by omega)]
      omega
  · unfold fwdAxis
    simp only
    rw [if_pos ho]

/-- **C58 (axis).** An explicit axis within the rank is the one used; without one it is axis 0 of a vector or column vector
and the last axis of everything else. -/
theorem softmax_axis (s : List Nat) (hs : s ≠ []) :
    (∀ a : Nat, a < s.length → resolve (fwdAxis (a : Int) s) s.length = a) ∧
    ((∃ n, 1 < n ∧ s = [n, 1]) → resolve (fwdAxis (-1) s) s.length = 0) ∧
    ((¬ ∃ n, 1 < n ∧ s = [n, 1]) → resolve (fwdAxis (-1) s) s.length = s.length - 1) := by
  refine ⟨?_, ?_, ?_⟩
  · intro a ha
    have e : fwdAxis (a : Int) s = a := by
      unfold fwdAxis
      simp only
      rw [if_pos (by omega)]
    rw [e]
    unfold resolve
    rw [Int.emod_eq_of_lt (by omega) (by exact_mod_cast ha)]
    omega
  · rintro ⟨n, hn, rfl⟩
    simp [fwdAxis, isColVec, hn, resolve]
  · intro hc
    · have hcol : isColVec s = false := by
        match s, hc with
        | [], _ => rfl
        | [_], _ => rfl
        | [a, b], hc =>
          by_contra hh
          simp [isColVec] at hh
          exact hc ⟨a, hh.2, by rw [hh.1]⟩
        | _ :: _ :: _ :: _, _ => rfl
      rw [← axis_agree (-1) s (Or.inr hcol) hs]
      have hl : 0 < s.length := List.length_pos_iff.2 hs
      unfold resolve
      have : (-1 : Int) % (s.length : Int) = s.length - 1 := by
        rw [Int.emod_def, Int.neg_one_ediv]
        have : Int.sign (s.length : Int) = 1 := Int.sign_eq_one_of_pos (by exact_mod_cast hl)
        rw [this]; ring
      rw [this]; omega

/-- **C58 (gradient).** With an explicit axis, or for anything but a column vector, the built gradient of `SoftMax` and of
`LogSoftMax` is the gradient. Missing: column vectors without explicit axis (`softmax_column_wrong`). -/
theorem softmax_gradient_partial (isLog : Bool) (opAxis : Int) (x g : T ℝ) (hr : x.shape ≠ []) (hg : g.shape = x.shape)
    (h : opAxis ≠ -1 ∨ isColVec x.shape = false) :
    ∃ y, softDo isLog opAxis x = .ok y ∧ IsGrad (softDo isLog opAxis) x g (softDiff isLog opAxis y g) := by
  have hl : 0 < x.shape.length := List.length_pos_iff.2 hr
  have hag := axis_agree opAxis x.shape h hr
  have hax := resolve_lt (fwdAxis opAxis x.shape) x.shape.length hl
  have hdo : ∀ t : T ℝ, t.shape = x.shape → softDo isLog opAxis t = .ok (if isLog then
      logSoftAxis (resolve (fwdAxis opAxis x.shape) x.shape.length) t else softAxis (resolve (fwdAxis opAxis x.shape) x.shape.length) t) := by
    intro t ht
    unfold softDo
    rw [if_neg (by rw [ht]; exact hr), ht]
  refine ⟨_, hdo x rfl, ?_⟩
  have hgr : IsGrad (fun t => .ok (if isLog then
      logSoftAxis (resolve (fwdAxis opAxis x.shape) x.shape.length) t else softAxis (resolve (fwdAxis opAxis x.shape) x.shape.length) t))
      x g (softDiff isLog opAxis (if isLog then
      logSoftAxis (resolve (fwdAxis opAxis x.shape) x.shape.length) x else softAxis (resolve (fwdAxis opAxis x.shape) x.shape.length) x) g) := by
    cases isLog
    · simp only [Bool.false_eq_true, if_false, softDiff]
      have e : (softAxis (resolve (fwdAxis opAxis x.shape) x.shape.length) x).shape.length = x.shape.length := rfl
      rw [e, hag]
      exact softAxis_grad x g _ hax hg
    · simp only [if_true, softDiff]
      have e : (logSoftAxis (resolve (fwdAxis opAxis x.shape) x.shape.length) x).shape.length = x.shape.length := rfl
      rw [e, hag]
      exact logSoftAxis_grad x g _ hax hg
  refine ⟨hgr.1, fun d hd => ?_⟩
  obtain ⟨y, e, hy⟩ := hgr.2 d hd
  refine ⟨y, ?_, hy⟩
  filter_upwards [e] with τ hτ
  exact ⟨(hdo (moveT x d τ) rfl).trans hτ.1, hτ.2⟩

theorem softDo_column (isLog : Bool) (x : T ℝ) (n : Nat) (hn : 1 < n) (hx : x.shape = [n, 1]) (t : T ℝ) (ht : t.shape = x.shape) :
    softDo isLog (-1) t = softDo isLog 0 t := by
  unfold softDo
  rw [ht, hx]
  have : fwdAxis (-1) [n, 1] = fwdAxis 0 [n, 1] := by simp [fwdAxis, isColVec, hn]
  rw [this]

/-- **C58, refuted for column vectors.** Without explicit axis the softmax of a column vector is taken along the column,
but its gradient along the unit axis: whatever the column is, some incoming gradient gives a wrong result. -/
theorem softmax_column_wrong (isLog : Bool) (x : T ℝ) (n : Nat) (hn : 1 < n) (hx : x.shape = [n, 1]) :
    ∃ (y g : T ℝ), softDo isLog (-1) x = .ok y ∧ g.shape = x.shape ∧
      ¬ IsGrad (softDo isLog (-1)) x g (softDiff isLog (-1) y g) := by
  have hr : x.shape ≠ [] := by rw [hx]; simp
  refine ⟨if isLog then logSoftAxis 0 x else softAxis 0 x, ⟨[n, 1], fun i => if i = [0, 0] then 1 else 0⟩, ?_, hx.symm, ?_⟩
  · rw [softDo_column isLog x n hn hx x rfl]
    unfold softDo
    rw [if_neg hr, hx]
    simp [resolve, fwdAxis]
  · intro hbad
    obtain ⟨y, y1, hgood⟩ := softmax_gradient_partial isLog 0 x ⟨[n, 1], fun i => if i = [0, 0] then 1 else 0⟩ hr hx.symm (Or.inl (by decide))
    have hy : y = if isLog then logSoftAxis 0 x else softAxis 0 x := by
      have h2 : softDo isLog 0 x = .ok (if isLog then logSoftAxis 0 x else softAxis 0 x) := by
        unfold softDo
        rw [if_neg hr, hx]
        simp [resolve, fwdAxis]
      rw [h2] at y1
      exact (Res.ok.inj y1).symm
    have hgood' : IsGrad (softDo isLog (-1)) x ⟨[n, 1], fun i => if i = [0, 0] then 1 else 0⟩
        (softDiff isLog 0 (if isLog then logSoftAxis 0 x else softAxis 0 x) ⟨[n, 1], fun i => if i = [0, 0] then 1 else 0⟩) := by
      rw [← hy]
      refine ⟨hgood.1, fun d hd => ?_⟩
      obtain ⟨z, e, hz⟩ := hgood.2 d hd
      refine ⟨z, ?_, hz⟩
      filter_upwards [e] with τ hτ
      rw [softDo_column isLog x n hn hx (moveT x d τ) rfl]
      exact hτ
    have hu := hbad.unique hgood' ⟨[n, 1], fun i => if i = [1, 0] then 1 else 0⟩ hx.symm
    have hsel : ∀ r : T ℝ, r.shape = [n, 1] → pair r ⟨[n, 1], fun i => if i = [1, 0] then 1 else 0⟩ = r.at_ [1, 0] := by
      intro r hrs
      rw [pair_eq, hrs, ← sumOver_single [n, 1] [1, 0] r.at_ ⟨hn, Nat.one_pos, trivial⟩]
      refine sumOver_congr _ _ _ (fun i _ => ?_)
      by_cases hi : [1, 0] = i
      · subst hi; simp
      · rw [if_neg hi]
        show r.at_ i * (if i = [1, 0] then 1 else 0) = 0
        rw [if_neg (Ne.symm hi), mul_zero]
    have hr1 : resolve (-1) 2 = 1 := by decide
    have hr0 : resolve 0 2 = 0 := by decide
    have h0 : InB x.shape [0, 0] := by rw [hx]; exact ⟨by omega, Nat.one_pos, trivial⟩
    have h1 : InB x.shape [1, 0] := by rw [hx]; exact ⟨by omega, Nat.one_pos, trivial⟩
    have hax : 0 < x.shape.length := by rw [hx]; simp
    have hl1 : ∀ F : List Nat → ℝ, lineSum [n, 1] 1 F [1, 0] = F [1, 0] := by intro F; simp [lineSum]
    cases isLog
    · simp only [Bool.false_eq_true, if_false] at hu
      rw [hsel _ (by exact hx), hsel _ (by exact hx)] at hu
      simp only [softDiff, Bool.false_eq_true, if_false] at hu
      have hsl : (softAxis 0 x).shape = [n, 1] := hx
      rw [hsl] at hu
      simp only [List.length_cons, List.length_nil, Nat.zero_add, Nat.reduceAdd, hr1, hr0, softAxisB, hsl, hl1] at hu
      have hz : lineSum [n, 1] 0 (fun j => (softAxis 0 x).at_ j * if j = [0, 0] then 1 else 0) [1, 0] = (softAxis 0 x).at_ [0, 0] := by
        unfold lineSum
        rw [Finset.sum_eq_single 0]
        · simp
        · intro k _ hk; simp [hk]
        · intro hh; exact absurd (Finset.mem_range.2 (by simp; omega)) hh
      rw [hz] at hu
      have p1 : 0 < (softAxis 0 x).at_ [0, 0] := div_pos (Real.exp_pos _) (lineSum_exp_pos h0 0 hax x.at_)
      have p2 : 0 < (softAxis 0 x).at_ [1, 0] := div_pos (Real.exp_pos _) (lineSum_exp_pos h1 0 hax x.at_)
      have := mul_pos p1 p2
      simp at hu
      rcases hu with h | h <;> linarith
    · simp only [if_true] at hu
      rw [hsel _ (by exact hx), hsel _ (by exact hx)] at hu
      simp only [softDiff, if_true] at hu
      have hsl : (logSoftAxis 0 x).shape = [n, 1] := hx
      rw [hsl] at hu
      simp only [List.length_cons, List.length_nil, Nat.zero_add, Nat.reduceAdd, hr1, hr0, logSoftAxisB, hsl, hl1] at hu
      have hz : lineSum [n, 1] 0 (fun j => if j = [0, 0] then (1 : ℝ) else 0) [1, 0] = 1 := by
        unfold lineSum
        rw [Finset.sum_eq_single 0]
        · simp
        · intro k _ hk; simp [hk]
        · intro hh; exact absurd (Finset.mem_range.2 (by simp; omega)) hh
      rw [hz] at hu
      have := Real.exp_pos ((logSoftAxis 0 x).at_ [1, 0])
      simp at hu

/-- **C58 (define-by-run).** `DoDiff` adds what the symbolic gradient would give to the derivative of the operand. -/
theorem softmax_doDiff (isLog : Bool) (opAxis : Int) (y xd yd : T ℝ) :
    (softDoDiff isLog opAxis y xd yd).1.shape = xd.shape ∧
      ∀ i, (softDoDiff isLog opAxis y xd yd).1.at_ i = xd.at_ i + (softDiff isLog opAxis y yd).at_ i := ⟨rfl, fun _ => rfl⟩

/-- **C58, refuted: the derivative of the result is overwritten.** After `DoDiff` the gradient stored for the softmax itself is
the gradient of its operand: for every input some gradient of the result is lost. -/
theorem softmax_doDiff_overwrites (x : T ℝ) (n : Nat) (hn : 0 < n) (hx : x.shape = [n]) : ∃ y yd : T ℝ, softDo false (-1) x = .ok y ∧
    yd.shape = y.shape ∧ ¬ (softDoDiff false (-1) y ⟨[n], fun _ => 0⟩ yd).2.Same yd := by
  refine ⟨softAxis 0 x, ⟨x.shape, fun _ => 1⟩, ?_, rfl, ?_⟩
  · unfold softDo
    rw [if_neg (by rw [hx]; simp), hx]
    simp [fwdAxis, resolve]
  · rintro ⟨_, h⟩
    have h0 : InB x.shape [0] := by rw [hx]; exact ⟨hn, trivial⟩
    have hs := h [0] (by show InB [n] [0]; exact ⟨hn, trivial⟩)
    obtain ⟨r, l, ax, r1, _, _, _, hax, _, r2⟩ := softmax_value x (-1) (by rw [hx]; simp)
    have hr1 : softDo false (-1) x = .ok (softAxis 0 x) := by
      unfold softDo
      rw [if_neg (by rw [hx]; simp), hx]
      simp [fwdAxis, resolve]
    rw [hr1] at r1
    have hrr : softAxis 0 x = r := Res.ok.inj r1
    obtain ⟨_, _, hsum, _⟩ := r2 [0] h0
    have hax0 : ax = 0 := by rw [hax, hx]; simp [fwdAxis, resolve]
    rw [hax0, ← hrr] at hsum
    have e : (softDoDiff false (-1) (softAxis 0 x) ⟨[n], fun _ => 0⟩ ⟨x.shape, fun _ => 1⟩).2.at_ [0] =
        0 + (softAxis 0 x).at_ [0] * (1 - lineSum (softAxis 0 x).shape 0 (fun j => (softAxis 0 x).at_ j * 1) [0]) := by
      have hsl : (softAxis 0 x).shape = [n] := hx
      simp only [softDoDiff, softDiff, Bool.false_eq_true, if_false, softAxisB, hsl]
      simp [resolve]
    rw [e] at hs
    have e2 : lineSum (softAxis 0 x).shape 0 (fun j => (softAxis 0 x).at_ j * 1) [0] = 1 := by
      unfold lineSum
      simp only [mul_one]
      exact hsum
    rw [e2] at hs
    simp at hs

/-- Softmax of the matrix ((0, log 3), (0, 0)) without axis: the rows are (1/4, 3/4) and (1/2, 1/2). -/
example : ∃ r, softDo false (-1) ⟨[2, 2], fun i => if i = [0, 1] then Real.log 3 else 0⟩ = .ok r ∧ r.at_ [0, 0] = 1 / 4 ∧
    r.at_ [0, 1] = 3 / 4 ∧ r.at_ [1, 0] = 1 / 2 := by
  refine ⟨softAxis 1 ⟨[2, 2], fun i => if i = [0, 1] then Real.log 3 else 0⟩, ?_, ?_, ?_, ?_⟩
  · unfold softDo
    rw [if_neg (by simp)]
    simp [fwdAxis, isColVec, isVector, isRowVec, resolve]
  all_goals
    simp [softAxis, lineSum, Finset.sum_range_succ, Real.exp_log]
    try norm_num

/-- The same along axis 0. -/
example : ∃ r, softDo false 0 ⟨[2, 2], fun i => if i = [0, 1] then Real.log 3 else 0⟩ = .ok r ∧ r.at_ [0, 0] = 1 / 2 ∧
    r.at_ [0, 1] = 3 / 4 := by
  refine ⟨softAxis 0 ⟨[2, 2], fun i => if i = [0, 1] then Real.log 3 else 0⟩, ?_, ?_, ?_⟩
  · unfold softDo
    rw [if_neg (by simp)]
    simp [fwdAxis, resolve]
  all_goals
    simp [softAxis, lineSum, Finset.sum_range_succ, Real.exp_log]
    try norm_num

end Verif.NN
