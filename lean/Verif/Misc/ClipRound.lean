import Verif.Misc.Clip
import Mathlib.Analysis.SpecialFunctions.ExpDeriv
import Mathlib.Tactic.NormNum
import Mathlib.Tactic.Linarith
import Mathlib.Tactic.Positivity
import Mathlib.Tactic.FieldSimp
import Mathlib.Tactic.Ring
/-!
The cut-offs of sigmoid and softplus (math.go 50-68, math_nooptim.go 25-44) compared with the distance of the numbers of the type.
-/
set_option autoImplicit false
namespace Verif.Misc
open Real

theorem one_sub_logistic (x : ℝ) : 1 - 1 / (1 + exp (-x)) = 1 / (1 + exp x) := by
  have := exp_pos x
  rw [exp_neg]
  field_simp
  ring

theorem logistic_small (x : ℝ) : 0 < 1 / (1 + exp x) ∧ 1 / (1 + exp x) ≤ exp (-x) := by
  have := exp_pos x
  refine ⟨by positivity, ?_⟩
  rw [exp_neg, ← one_div]
  exact one_div_le_one_div_of_le this (by linarith)

theorem logistic_neg_small (x : ℝ) : 0 < 1 / (1 + exp (-x)) ∧ 1 / (1 + exp (-x)) ≤ exp x := by
  have := logistic_small (-x)
  simpa using this

/-- Softplus exceeds its argument by a little. -/
theorem softplus_excess (x : ℝ) : 1 / (1 + exp x) ≤ log (1 + exp x) - x ∧ log (1 + exp x) - x ≤ exp (-x) := by
  have hx := exp_pos x
  have hn := exp_pos (-x)
  have e : log (1 + exp x) - x = log (1 + exp (-x)) := by
    have h1 : 1 + exp x = exp x * (1 + exp (-x)) := by
      rw [mul_add, mul_one, ← exp_add]
      simp [add_comm]
    rw [h1, log_mul (by positivity) (by positivity), log_exp]
    ring
  rw [e]
  constructor
  · have h := one_sub_inv_le_log_of_pos (x := 1 + exp (-x)) (by positivity)
    have h2 := one_sub_logistic x
    rw [← one_div] at h
    linarith
  · have h := log_le_sub_one_of_pos (x := 1 + exp (-x)) (by positivity)
    linarith

/-! ### The errors are larger than those of rounding -/

theorem exp_nat_lt (n : Nat) (b : ℝ) (h : (2.7182818286 : ℝ) ^ n < b) : exp (n : ℝ) < b := by
  have e : exp (n : ℝ) = exp 1 ^ n := by rw [← exp_nat_mul, mul_one]
  rw [e]
  exact (pow_le_pow_left₀ (exp_pos 1).le exp_one_lt_d9.le n).trans_lt h

theorem closer {v e u : ℝ} (hu : 0 < u) (he : u < 2 * e) : |v - u - (v - e)| < |v - (v - e)| := by
  have e1 : v - u - (v - e) = e - u := by ring
  have e2 : v - (v - e) = e := by ring
  rw [e1, e2, abs_lt, abs_of_pos (by linarith)]
  constructor <;> linarith

/-- **C96 (defect).** From 19 to 36 the double below one is closer to the sigmoid than the answer. -/
theorem sigmoid64_not_rounded (x : ℝ) (h : 19 < x) (h2 : x ≤ 36) :
    |(1 - 1 / 2 ^ 53) - 1 / (1 + exp (-x))| < |sigmCode (-709) 19 x - 1 / (1 + exp (-x))| := by
  have h36 : exp ((36 : ℕ) : ℝ) < 2 ^ 52 := exp_nat_lt 36 _ (by norm_num)
  have hx : exp x ≤ exp 36 := exp_le_exp.mpr h2
  have e : 1 / (1 + exp (-x)) = 1 - 1 / (1 + exp x) := by linarith [one_sub_logistic x]
  unfold sigmCode
  rw [if_neg (by linarith), if_pos h, e]
  refine closer (by positivity) ?_
  have h36' : exp x < 2 ^ 52 := by
    refine hx.trans_lt ?_
    simpa using h36
  have h3 : 1 / (2 * 2 ^ 52) < 1 / (1 + exp x) := one_div_lt_one_div_of_lt (by positivity) (by norm_num at h36' ⊢; linarith)
  have h4 : (1 : ℝ) / 2 ^ 53 = 1 / (2 * 2 ^ 52) := by norm_num
  have h5 : 0 < 1 / (1 + exp x) := by positivity
  linarith

/-- **C96 (defect).** The same in single precision from 15 to 16. -/
theorem sigmoid32_not_rounded (x : ℝ) (h : 15 < x) (h2 : x ≤ 16) :
    |(1 - 1 / 2 ^ 24) - 1 / (1 + exp (-x))| < |sigmCode (-88) 15 x - 1 / (1 + exp (-x))| := by
  have h36 : exp ((16 : ℕ) : ℝ) < 2 ^ 24 := exp_nat_lt 16 _ (by norm_num)
  have hx : exp x ≤ exp 16 := exp_le_exp.mpr h2
  have e : 1 / (1 + exp (-x)) = 1 - 1 / (1 + exp x) := by linarith [one_sub_logistic x]
  unfold sigmCode
  rw [if_neg (by linarith), if_pos h, e]
  refine closer (by positivity) ?_
  have h36' : exp x < 2 ^ 24 := by
    refine hx.trans_lt ?_
    simpa using h36
  have h3 : 1 / (2 * 2 ^ 24) < 1 / (1 + exp x) := one_div_lt_one_div_of_lt (by positivity) (by norm_num at h36' ⊢; linarith)
  have h4 : (1 : ℝ) / 2 ^ 24 = 2 * (1 / (2 * 2 ^ 24)) := by norm_num
  linarith

/-- **C96 (defect).** From 16 to 32, where doubles are `2 ^ (-48)` apart, the next larger double is closer to softplus than the answer. -/
theorem softplus64_not_rounded (x : ℝ) (h : 16 < x) (h2 : x ≤ 32) :
    |(x + 1 / 2 ^ 48) - log (1 + exp x)| < |softpCode (-708) 16 x - log (1 + exp x)| := by
  have h36 : exp ((32 : ℕ) : ℝ) < 2 ^ 47 := exp_nat_lt 32 _ (by norm_num)
  have hx : exp x ≤ exp 32 := exp_le_exp.mpr h2
  have h36' : exp x < 2 ^ 47 := by
    refine hx.trans_lt ?_
    simpa using h36
  have h3 : 1 / (2 * 2 ^ 47) < 1 / (1 + exp x) := one_div_lt_one_div_of_lt (by positivity) (by norm_num at h36' ⊢; linarith)
  have h1 := (softplus_excess x).1
  unfold softpCode
  rw [if_neg (by linarith), if_pos h, abs_sub_comm x, abs_of_pos (a := log (1 + exp x) - x) (by have := (logistic_small x).1; linarith), abs_lt]
  have h4 : (1 : ℝ) / 2 ^ 48 = 1 / (2 * 2 ^ 47) := by norm_num
  have h5 : (0 : ℝ) < 1 / (2 * 2 ^ 47) := by positivity
  constructor <;> linarith

/-- **C96 (defect).** In single precision from 14 to 14.5, where floats are `2 ^ (-20)` apart. -/
theorem softplus32_not_rounded (x : ℝ) (h : 14 < x) (h2 : x ≤ 14.5) :
    |(x + 1 / 2 ^ 20) - log (1 + exp x)| < |softpCode (-103) 14 x - log (1 + exp x)| := by
  have h29 : exp ((29 : ℕ) : ℝ) < (2 ^ 21 - 1) ^ 2 := exp_nat_lt 29 _ (by norm_num)
  have hx : exp x < 2 ^ 21 - 1 := by
    by_contra hc
    push Not at hc
    have h5 : (2 ^ 21 - 1 : ℝ) ^ 2 ≤ exp x ^ 2 := pow_le_pow_left₀ (by norm_num) hc 2
    have h6 : exp x ^ 2 = exp (2 * x) := by rw [← exp_nat_mul]; norm_num
    have h7 : exp (2 * x) ≤ exp ((29 : ℕ) : ℝ) := exp_le_exp.mpr (by norm_num; linarith)
    rw [h6] at h5
    linarith
  have h3 : 1 / 2 ^ 21 < 1 / (1 + exp x) := one_div_lt_one_div_of_lt (by positivity) (by linarith)
  have h1 := (softplus_excess x).1
  unfold softpCode
  rw [if_neg (by linarith), if_pos h, abs_sub_comm x, abs_of_pos (a := log (1 + exp x) - x) (by have := (logistic_small x).1; linarith), abs_lt]
  have h4 : (1 : ℝ) / 2 ^ 20 = 2 * (1 / 2 ^ 21) := by norm_num
  have h5 : (0 : ℝ) < 1 / 2 ^ 21 := by positivity
  constructor <;> linarith

/-- **C96 (defect).** Softplus as computed does not grow with its argument: at 16 and at the double that follows. -/
theorem softplus64_falls : softpCode (-708) 16 (16 + 1 / 2 ^ 48) < softpCode (-708) 16 16 := by
  have h36 : exp ((16 : ℕ) : ℝ) < 2 ^ 24 := exp_nat_lt 16 _ (by norm_num)
  have h3 : 1 / 2 ^ 25 < 1 / (1 + exp 16) := one_div_lt_one_div_of_lt (by positivity) (by norm_num at h36 ⊢; linarith)
  have h1 := (softplus_excess 16).1
  have e : softpCode (-708) 16 16 = log (1 + exp 16) := by
    unfold softpCode
    rw [if_neg (by norm_num), if_neg (by norm_num)]
  rw [e]
  unfold softpCode
  rw [if_neg (by norm_num), if_pos (by norm_num)]
  have h4 : (1 : ℝ) / 2 ^ 48 < 1 / 2 ^ 25 := by norm_num
  linarith

/-- **C96.** Where sigmoid is cut off its gradient expression `y * (1 - y) * g` (operatorPointwise_unary.go 617-639) is zero, so that nothing behind
it learns, although the function is not constant. -/
theorem sigmoid_stuck (x g : ℝ) (h : x < -709 ∨ 19 < x) :
    sigmCode (-709) 19 x * (1 - sigmCode (-709) 19 x) * g = 0 ∧ HasDerivAt (fun s => 1 / (1 + exp (-s))) (1 / (1 + exp (-x)) * (1 / (1 + exp x))) x ∧
    0 < 1 / (1 + exp (-x)) * (1 / (1 + exp x)) := by
  have hp := exp_pos x
  have hn := exp_pos (-x)
  refine ⟨?_, ?_, by positivity⟩
  · unfold sigmCode
    rcases h with h | h
    · rw [if_pos h]; ring
    · rw [if_neg (by linarith), if_pos h]; ring
  · have h1 : HasDerivAt (fun s => 1 + exp (-s)) (exp (-x) * -1) x := ((hasDerivAt_neg x).exp).const_add 1
    have h2 := (hasDerivAt_const x (1 : ℝ)).fun_div h1 (by positivity)
    refine h2.congr_deriv ?_
    rw [exp_neg]
    field_simp
    ring


end Verif.Misc
