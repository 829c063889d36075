import Mathlib.Analysis.SpecialFunctions.Trigonometric.DerivHyp
import Mathlib.Analysis.SpecialFunctions.Integrals.Basic
import Mathlib.Analysis.Calculus.MeanValue
import Mathlib.MeasureTheory.Integral.IntervalIntegral.FundThmCalculus
import Mathlib.Tactic.NormNum
import Mathlib.Tactic.Linarith
import Mathlib.Tactic.Positivity
import Mathlib.Tactic.FieldSimp
import Mathlib.Tactic.Ring
/-!
The hyperbolic tangents and sigmoids of the `fastmath` build (math_fast.go 104-156), as real functions.
-/
set_option autoImplicit false
namespace Verif.Elem
open Real

noncomputable section

/-- Numerator of `_tanhf64` at optimization level 1 (math_fast.go 131). -/
def lp (x : ℝ) : ℝ := x * (135135 + x * x * (17325 + x * x * (378 + x * x)))

/-- Denominator (math_fast.go 132). -/
def lq (x : ℝ) : ℝ := 135135 + x * x * (62370 + x * x * (3150 + x * x * 28))

/-- `_tanhf64` at optimization level 1 (math_fast.go 128-133). -/
def lambert (x : ℝ) : ℝ := lp x / lq x

/-- `_tanhf32` and `_tanhf64` at optimization level 2 (math_fast.go 108-121, 134-147); `none`: the panic behind the switch. -/
def anguita (x : ℝ) : Option ℝ :=
  if x > 1.92033 then some 0.96016
  else if x > 0 then some (0.96016 - 0.26037 * (x - 1.92033) * (x - 1.92033))
  else if x ≤ -1.92033 then some (-0.96016)
  else if x < 0 then some (0.26037 * (x + 1.92033) * (x + 1.92033) - 0.96016)
  else none

/-- `_sigmoidf64` and `_sigmoidf32` (math_fast.go 150-156). -/
def fastSigmoid (_x : ℝ) : ℝ := 0

end

theorem lq_pos (x : ℝ) : 135135 ≤ lq x := by
  unfold lq
  have h := mul_self_nonneg x
  have : 0 ≤ x * x * (62370 + x * x * (3150 + x * x * 28)) := by
    generalize x * x = y at *
    positivity
  linarith

theorem lp_deriv (x : ℝ) : HasDerivAt lp (135135 + 51975 * x ^ 2 + 1890 * x ^ 4 + 7 * x ^ 6) x := by
  have e : lp = fun x => 135135 * x + 17325 * x ^ 3 + 378 * x ^ 5 + x ^ 7 := by funext x; unfold lp; ring
  rw [e]
  refine (((((hasDerivAt_id x).const_mul 135135).add ((hasDerivAt_pow 3 x).const_mul 17325)).add ((hasDerivAt_pow 5 x).const_mul 378)).add
    (hasDerivAt_pow 7 x)).congr_deriv ?_
  norm_num
  ring

theorem lq_deriv (x : ℝ) : HasDerivAt lq (124740 * x + 12600 * x ^ 3 + 168 * x ^ 5) x := by
  have e : lq = fun x => 135135 + (62370 * x ^ 2 + 3150 * x ^ 4 + 28 * x ^ 6) := by funext x; unfold lq; ring
  rw [e]
  refine (((((hasDerivAt_pow 2 x).const_mul 62370).add ((hasDerivAt_pow 4 x).const_mul 3150)).add ((hasDerivAt_pow 6 x).const_mul 28)).const_add
    135135).congr_deriv ?_
  norm_num
  ring

/-- The differential equation of the tangent, `y' = 1 - y ^ 2`, is met up to the fourteenth order. -/
theorem lambert_deriv (x : ℝ) : HasDerivAt lambert (1 - lambert x ^ 2 + x ^ 14 / lq x ^ 2) x := by
  have hq := lq_pos x
  have h := (lp_deriv x).fun_div (lq_deriv x) (by linarith)
  refine h.congr_deriv ?_
  have hq0 : lq x ≠ 0 := by linarith
  unfold lambert
  field_simp
  unfold lp lq
  ring

theorem tanh_deriv (x : ℝ) : HasDerivAt tanh (1 - tanh x ^ 2) x := by
  have hc : cosh x ≠ 0 := (cosh_pos x).ne'
  have h := (hasDerivAt_sinh x).fun_div (hasDerivAt_cosh x) hc
  have e : tanh = fun x => sinh x / cosh x := by
    funext t; exact tanh_eq_sinh_div_cosh t
  rw [e]
  refine h.congr_deriv ?_
  field_simp

theorem lambert_continuous : Continuous lambert :=
  continuous_iff_continuousAt.mpr fun x => (lambert_deriv x).continuousAt

theorem tanh_continuous : Continuous tanh := continuous_iff_continuousAt.mpr fun x => (tanh_deriv x).continuousAt

theorem lambert_nonneg (x : ℝ) (h : 0 ≤ x) : 0 ≤ lambert x := by
  unfold lambert
  have := lq_pos x
  refine div_nonneg ?_ (by linarith)
  unfold lp
  positivity

theorem tanh_nonneg' (x : ℝ) (h : 0 ≤ x) : 0 ≤ tanh x := by
  rw [tanh_eq_sinh_div_cosh]
  exact div_nonneg (sinh_nonneg_iff.mpr h) (cosh_pos x).le

/-- For positive arguments the approximation is too large. -/
theorem lambert_above (x : ℝ) (hx : 0 ≤ x) : tanh x ≤ lambert x := by
  -- multiply the difference with an integrating factor
  have hf : Continuous fun y => lambert y + tanh y := lambert_continuous.add tanh_continuous
  have hH : ∀ y, HasDerivAt (fun z => ∫ s in (0 : ℝ)..z, (lambert s + tanh s)) (lambert y + tanh y) y := fun y =>
    (hf.integral_hasStrictDerivAt 0 y).hasDerivAt
  have hw : ∀ y, HasDerivAt (fun z => (lambert z - tanh z) * exp (∫ s in (0 : ℝ)..z, (lambert s + tanh s)))
      (y ^ 14 / lq y ^ 2 * exp (∫ s in (0 : ℝ)..y, (lambert s + tanh s))) y := by
    intro y
    refine (((lambert_deriv y).sub (tanh_deriv y)).mul (hH y).exp).congr_deriv ?_
    simp only [Pi.sub_apply]
    ring
  have hm : Monotone fun z => (lambert z - tanh z) * exp (∫ s in (0 : ℝ)..z, (lambert s + tanh s)) := by
    refine monotone_of_hasDerivAt_nonneg hw fun y => ?_
    have := lq_pos y
    positivity
  have h0 := hm hx
  simp only [intervalIntegral.integral_same, exp_zero, mul_one] at h0
  have hl0 : lambert 0 - tanh 0 = 0 := by simp [lambert, lp]
  rw [hl0] at h0
  have := pos_of_mul_nonneg_left' h0 (exp_pos _)
  linarith
where
  pos_of_mul_nonneg_left' {a b : ℝ} (h : 0 ≤ a * b) (hb : 0 < b) : 0 ≤ a := nonneg_of_mul_nonneg_left h hb

/-- **C130.** The continued fraction is the hyperbolic tangent up to `x ^ 15 / (15 * 135135 ^ 2)`, for positive arguments. -/
theorem lambert_error (x : ℝ) (hx : 0 ≤ x) : 0 ≤ lambert x - tanh x ∧ lambert x - tanh x ≤ x ^ 15 / (15 * 135135 ^ 2) := by
  refine ⟨by linarith [lambert_above x hx], ?_⟩
  have hd : ∀ y, HasDerivAt (fun z => z ^ 15 / (15 * 135135 ^ 2) - (lambert z - tanh z))
      (y ^ 14 / 135135 ^ 2 - (1 - lambert y ^ 2 + y ^ 14 / lq y ^ 2 - (1 - tanh y ^ 2))) y := by
    intro y
    refine (((hasDerivAt_pow 15 y).div_const _).sub ((lambert_deriv y).sub (tanh_deriv y))).congr_deriv ?_
    norm_num
    ring
  have hm : MonotoneOn (fun z => z ^ 15 / (15 * 135135 ^ 2) - (lambert z - tanh z)) (Set.Ici 0) := by
    refine monotoneOn_of_deriv_nonneg (convex_Ici 0) (fun y _ => (hd y).continuousAt.continuousWithinAt)
      (fun y _ => (hd y).differentiableAt.differentiableWithinAt) fun y hy => ?_
    rw [interior_Ici] at hy
    rw [(hd y).deriv]
    have hy0 : 0 ≤ y := le_of_lt hy
    have h1 := lambert_above y hy0
    have h2 := tanh_nonneg' y hy0
    have h3 := lq_pos y
    have h4 : y ^ 14 / lq y ^ 2 ≤ y ^ 14 / 135135 ^ 2 :=
      div_le_div_of_nonneg_left (by positivity) (by norm_num) (pow_le_pow_left₀ (by norm_num) h3 2)
    nlinarith
  have h0 := hm (Set.mem_Ici.mpr le_rfl) (Set.mem_Ici.mpr hx) hx
  simp only at h0
  have hl0 : lambert 0 - tanh 0 = 0 := by simp [lambert, lp]
  rw [hl0] at h0
  norm_num at h0
  norm_num
  linarith

theorem lambert_odd (x : ℝ) : lambert (-x) = -lambert x := by
  unfold lambert lp lq
  have e : -x * -x = x * x := by ring
  rw [e]
  ring

/-- **C130.** For both signs. -/
theorem lambert_close (x : ℝ) : |lambert x - tanh x| ≤ |x| ^ 15 / (15 * 135135 ^ 2) := by
  rcases le_total 0 x with h | h
  · rw [abs_of_nonneg h, abs_of_nonneg (lambert_error x h).1]
    exact (lambert_error x h).2
  · have h' : 0 ≤ -x := by linarith
    have := lambert_error (-x) h'
    rw [lambert_odd, tanh_neg] at this
    rw [abs_of_nonpos h, abs_of_nonpos (by linarith)]
    linarith [this.2]

/-- For instance up to 1 it is right to eleven digits. -/
example (x : ℝ) (h : |x| ≤ 1) : |lambert x - tanh x| ≤ 4 / 10 ^ 12 := by
  refine (lambert_close x).trans ?_
  have : |x| ^ 15 ≤ 1 := pow_le_one₀ (abs_nonneg x) h
  norm_num
  linarith

/-- **C130 (defect).** A hyperbolic tangent is smaller than 1. From 10 on, the approximation is larger and grows without bound, and the gradient
expression `(1 - y * y) * g` (operatorPointwise_unary.go 562-584) has the wrong sign. -/
theorem lambert_large (x : ℝ) (h : 10 ≤ x) : 1 < lambert x ∧ x / 50 ≤ lambert x ∧ 1 - lambert x * lambert x < 0 ∧ 0 < 1 - tanh x * tanh x := by
  have hq := lq_pos x
  have h1 : 1 < lambert x := by
    unfold lambert
    rw [lt_div_iff₀ (by linarith), one_mul]
    unfold lp lq
    obtain ⟨y, rfl⟩ : ∃ y, x = y + 10 := ⟨x - 10, by ring⟩
    have hy : 0 ≤ y := by linarith
    have e : (y + 10) * (135135 + (y + 10) * (y + 10) * (17325 + (y + 10) * (y + 10) * (378 + (y + 10) * (y + 10)))) -
        (135135 + (y + 10) * (y + 10) * (62370 + (y + 10) * (y + 10) * (3150 + (y + 10) * (y + 10) * 28))) =
        604215 + 585235 * y ^ 1 + 247380 * y ^ 2 + 59325 * y ^ 3 + 8750 * y ^ 4 + 798 * y ^ 5 + 42 * y ^ 6 + 1 * y ^ 7 := by ring
    have h2 : 0 < 604215 + 585235 * y ^ 1 + 247380 * y ^ 2 + 59325 * y ^ 3 + 8750 * y ^ 4 + 798 * y ^ 5 + 42 * y ^ 6 + 1 * y ^ 7 := by positivity
    linarith
  refine ⟨h1, ?_, by nlinarith, ?_⟩
  · unfold lambert
    rw [le_div_iff₀ (by linarith)]
    unfold lp lq
    have hx : 0 ≤ x := by linarith
    have hx2 : 100 ≤ x * x := by nlinarith
    nlinarith [mul_nonneg hx (mul_nonneg (mul_nonneg hx hx) (mul_nonneg hx hx)), mul_nonneg hx (mul_nonneg hx hx),
      mul_nonneg hx (mul_nonneg (mul_nonneg hx hx) (mul_nonneg (mul_nonneg hx hx) (mul_nonneg hx hx)))]
  · have hc := cosh_pos x
    have hs := cosh_sq x
    have e : 1 - tanh x * tanh x = 1 / cosh x ^ 2 := by
      rw [tanh_eq_sinh_div_cosh]
      field_simp
      linarith
    rw [e]
    positivity

/-! ### The parabola -/

/-- **C130 (defect).** At level 2 the tangent of zero panics, and only that. -/
theorem anguita_panics (x : ℝ) : anguita x = none ↔ x = 0 := by
  unfold anguita
  constructor
  · intro h
    by_cases h1 : x > 1.92033
    · simp [h1] at h
    · by_cases h2 : x > 0
      · simp [h1, h2] at h
      · by_cases h3 : x ≤ -1.92033
        · simp [h1, h2, h3] at h
        · by_cases h4 : x < 0
          · simp [h1, h2, h3, h4] at h
          · linarith
  · rintro rfl
    norm_num

/-- **C130.** It is odd. -/
theorem anguita_odd (x y : ℝ) (h : anguita x = some y) : anguita (-x) = some (-y) := by
  unfold anguita at h ⊢
  by_cases h1 : x > 1.92033
  · rw [if_pos h1] at h
    rw [if_neg (by linarith), if_neg (by linarith), if_pos (by linarith)]
    cases h; rfl
  · rw [if_neg h1] at h
    by_cases h2 : x > 0
    · rw [if_pos h2] at h
      by_cases h3 : x = 1.92033
      · subst h3
        rw [if_neg (by norm_num), if_neg (by norm_num), if_pos (by norm_num)]
        cases h; norm_num
      · have h4 : x < 1.92033 := lt_of_le_of_ne (by linarith) h3
        rw [if_neg (by linarith), if_neg (by linarith), if_neg (by linarith), if_pos (by linarith)]
        cases h
        congr 1
        ring
    · rw [if_neg h2] at h
      by_cases h3 : x ≤ -1.92033
      · rw [if_pos h3] at h
        by_cases h5 : x = -1.92033
        · subst h5
          rw [if_neg (by norm_num), if_pos (by norm_num)]
          cases h; norm_num
        · have h6 : x < -1.92033 := lt_of_le_of_ne h3 h5
          rw [if_pos (by linarith)]
          cases h; norm_num
      · rw [if_neg h3] at h
        by_cases h4 : x < 0
        · rw [if_pos h4] at h
          rw [if_neg (by linarith), if_pos (by linarith)]
          cases h
          congr 1
          ring
        · rw [if_neg h4] at h
          cases h

/-! ### The parabola and the tangent -/

/-- Products of powers are not negative on an interval. -/
theorem bern_nonneg {a b x : ℝ} (ha : a ≤ x) (hb : x ≤ b) (i j : Nat) : 0 ≤ (x - a) ^ i * (b - x) ^ j :=
  mul_nonneg (pow_nonneg (by linarith) _) (pow_nonneg (by linarith) _)

/-- The parabola against the continued fraction. -/
theorem parabola_fraction (x : ℝ) (h0 : 0 ≤ x) (h1 : x ≤ 1.92033) :
    lambert x - (0.96016 - 0.26037 * (x - 1.92033) * (x - 1.92033)) ≤ 0.04 ∧
    (0.96016 - 0.26037 * (x - 1.92033) * (x - 1.92033)) - lambert x ≤ 0.0399 := by
  have hq := lq_pos x
  have key1 : lp x ≤ (0.04 + (0.96016 - 0.26037 * (x - 1.92033) * (x - 1.92033))) * lq x := by
    unfold lp lq
    rcases le_total x 1 with h | h
    · have b := fun i j => bern_nonneg h0 h i j
      linarith [b 0 8, b 1 7, b 2 6, b 3 5, b 4 4, b 5 3, b 6 2, b 7 1, b 8 0]
    · have b := fun i j => bern_nonneg h h1 i j
      linarith [b 0 8, b 1 7, b 2 6, b 3 5, b 4 4, b 5 3, b 6 2, b 7 1, b 8 0]
  have key2 : ((0.96016 - 0.26037 * (x - 1.92033) * (x - 1.92033)) - 0.0399) * lq x ≤ lp x := by
    unfold lp lq
    have b := fun i j => bern_nonneg h0 h1 i j
    linarith [b 0 8, b 1 7, b 2 6, b 3 5, b 4 4, b 5 3, b 6 2, b 7 1, b 8 0]
  unfold lambert
  have hq0 : 0 < lq x := by linarith
  constructor
  · have := (div_le_iff₀ hq0).mpr key1
    linarith
  · have := (le_div_iff₀ hq0).mpr key2
    linarith

theorem tanh_mono : Monotone tanh := by
  refine monotone_of_hasDerivAt_nonneg tanh_deriv fun y => ?_
  have hc := cosh_pos y
  have e : 1 - tanh y ^ 2 = 1 / cosh y ^ 2 := by
    rw [tanh_eq_sinh_div_cosh]
    field_simp
    linarith [cosh_sq y]
  rw [e]
  positivity

theorem tanh_lt_one' (x : ℝ) : tanh x < 1 := by
  rw [tanh_eq_sinh_div_cosh, div_lt_one (cosh_pos x)]
  exact sinh_lt_cosh x

theorem anguita_close_pos (x y : ℝ) (hx : 0 ≤ x) (h : anguita x = some y) : |y - tanh x| ≤ 0.04 := by
  unfold anguita at h
  by_cases h1 : x > 1.92033
  · rw [if_pos h1] at h
    cases h
    have h2 := tanh_lt_one' x
    have h3 := tanh_mono h1.le
    have h4 := lambert_error 1.92033 (by norm_num)
    have h5 : 0.957 ≤ lambert 1.92033 := by unfold lambert lp lq; norm_num
    have h6 : (1.92033 : ℝ) ^ 15 / (15 * 135135 ^ 2) ≤ 0.0001 := by norm_num
    rw [abs_le]
    constructor <;> linarith [h4.2]
  · rw [if_neg h1] at h
    by_cases h2 : x > 0
    · rw [if_pos h2] at h
      cases h
      have hB : x ≤ 1.92033 := by linarith
      have h3 := parabola_fraction x hx hB
      have h4 := lambert_error x hx
      have h5 : x ^ 15 ≤ 1.92033 ^ 15 := pow_le_pow_left₀ hx hB 15
      have h6 : x ^ 15 / (15 * 135135 ^ 2) ≤ (1.92033 : ℝ) ^ 15 / (15 * 135135 ^ 2) := div_le_div_of_nonneg_right h5 (by norm_num)
      have h7 : (1.92033 : ℝ) ^ 15 / (15 * 135135 ^ 2) ≤ 0.0001 := by norm_num
      rw [abs_le]
      constructor <;> linarith [h4.1, h4.2, h3.1, h3.2]
    · have : x = 0 := by linarith
      subst this
      norm_num at h
      cases h

/-- **C130.** Where it does not panic, the approximation of level 2 is off by at most 0.04, for all arguments. -/
theorem anguita_close (x y : ℝ) (h : anguita x = some y) : |y - tanh x| ≤ 0.04 := by
  rcases le_total 0 x with hx | hx
  · exact anguita_close_pos x y hx h
  · have h1 := anguita_close_pos (-x) (-y) (by linarith) (anguita_odd x y h)
    rw [tanh_neg] at h1
    rwa [← abs_neg, show -(y - tanh x) = -y - -tanh x by ring]

example : anguita 1 = some (0.96016 - 0.26037 * 0.92033 * 0.92033) ∧ anguita (-3) = some (-0.96016) ∧ anguita 0 = none := by
  unfold anguita
  norm_num

/-! ### The sigmoid -/

/-- **C130 (defect).** Sigmoid is zero everywhere in this build, half of the value or more is missing for every positive argument. -/
theorem fastSigmoid_wrong (x : ℝ) : fastSigmoid x ≠ 1 / (1 + exp (-x)) ∧ (0 ≤ x → 1 / 2 ≤ |fastSigmoid x - 1 / (1 + exp (-x))|) := by
  have hp := exp_pos (-x)
  have h : 0 < 1 / (1 + exp (-x)) := by positivity
  refine ⟨h.ne, fun hx => ?_⟩
  unfold fastSigmoid
  rw [zero_sub, abs_neg, abs_of_pos h]
  have h1 : exp (-x) ≤ 1 := exp_le_one_iff.mpr (by linarith)
  exact one_div_le_one_div_of_le (by positivity) (by linarith)

end Verif.Elem
