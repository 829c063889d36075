import Mathlib.Analysis.SpecialFunctions.Log.Basic
import Mathlib.Analysis.SpecialFunctions.Exp
import Mathlib.Analysis.Complex.ExponentialBounds
/-!
Scalar functions with cut-offs (`math.go`, `math_nooptim.go`): sigmoid and softplus are replaced by their limits outside
of an interval. Real arithmetic; `math.Exp` and `math.Log1p` are the exact functions.
-/
set_option autoImplicit false
namespace Verif.Misc

open Real

/-- The mathematical sigmoid. -/
noncomputable def sigm (x : ℝ) : ℝ := 1 / (1 + exp (-x))

/-- The mathematical softplus. -/
noncomputable def softp (x : ℝ) : ℝ := log (1 + exp x)

/-- `_sigmoidf64` (`math_nooptim.go:25-34`) for `lo = -709`, `hi = 19`; `_sigmoidf32` (`36-44`) for `lo = -88`,
`hi = 15`. -/
noncomputable def sigmCode (lo hi x : ℝ) : ℝ :=
  if x < lo then 0 else if hi < x then 1 else 1 / (1 + exp (-x))

/-- `_softplusf64` (`math.go:50-58`) for `lo = -708`, `hi = 16`; `_softplusf32` (`60-68`) for `lo = -103`, `hi = 14`. -/
noncomputable def softpCode (lo hi x : ℝ) : ℝ :=
  if x < lo then 0 else if hi < x then x else log (1 + exp x)

/-- `_signf64`, `math.go:20-25` (no negative zero among the reals). -/
noncomputable def signCode (x : ℝ) : ℝ := if x < 0 then -1 else 1

theorem sigm_pos (x : ℝ) : 0 < sigm x := by unfold sigm; positivity

theorem sigm_lt_one (x : ℝ) : sigm x < 1 := by
  unfold sigm
  rw [div_lt_one (by positivity)]
  linarith [exp_pos (-x)]

theorem sigm_lt_exp (x : ℝ) : sigm x < exp x := by
  unfold sigm
  rw [div_lt_iff₀ (by positivity), mul_add, ← exp_add]
  simp [exp_pos]

theorem one_sub_sigm (x : ℝ) : 1 - sigm x = sigm (-x) := by
  unfold sigm
  have h : exp (-x) * exp x = 1 := by rw [← exp_add]; simp
  have h1 : (1 + exp (-x)) ≠ 0 := by positivity
  have h2 : (1 + exp x) ≠ 0 := by positivity
  rw [neg_neg]
  field_simp
  linarith

theorem sigm_mono {x y : ℝ} (h : x ≤ y) : sigm x ≤ sigm y := by
  unfold sigm
  apply one_div_le_one_div_of_le (by positivity)
  have := exp_le_exp.mpr (neg_le_neg h)
  linarith

/-- C96. The sigmoid of the code is off by less than `exp (-hi)` above, `exp lo` below, and exact in between. -/
theorem sigmCode_error (lo hi x : ℝ) :
    |sigmCode lo hi x - sigm x| < max (exp lo) (exp (-hi)) ∧ (lo ≤ x → x ≤ hi → sigmCode lo hi x = sigm x) := by
  constructor
  · unfold sigmCode
    by_cases h1 : x < lo
    · rw [if_pos h1, zero_sub, abs_neg, abs_of_pos (sigm_pos x)]
      exact lt_max_of_lt_left ((sigm_lt_exp x).trans (exp_lt_exp.mpr h1))
    · rw [if_neg h1]
      by_cases h2 : hi < x
      · rw [if_pos h2, one_sub_sigm, abs_of_pos (sigm_pos _)]
        exact lt_max_of_lt_right ((sigm_lt_exp _).trans (exp_lt_exp.mpr (by linarith)))
      · rw [if_neg h2]
        show |sigm x - sigm x| < _
        rw [sub_self, abs_zero]
        exact lt_max_of_lt_left (exp_pos _)
  · intro h1 h2
    unfold sigmCode
    rw [if_neg (not_lt.mpr h1), if_neg (not_lt.mpr h2)]
    rfl

/-- C96. The sigmoid of the code stays between 0 and 1 and is monotone, for any cut-offs in order. -/
theorem sigmCode_mono (lo hi : ℝ) : Monotone (sigmCode lo hi) ∧ ∀ x, 0 ≤ sigmCode lo hi x ∧ sigmCode lo hi x ≤ 1 := by
  have hr : ∀ x, 0 ≤ sigmCode lo hi x ∧ sigmCode lo hi x ≤ 1 := by
    intro x
    unfold sigmCode
    by_cases h1 : x < lo
    · rw [if_pos h1]; exact ⟨le_refl _, zero_le_one⟩
    rw [if_neg h1]
    by_cases h2 : hi < x
    · rw [if_pos h2]; exact ⟨zero_le_one, le_refl _⟩
    rw [if_neg h2]
    exact ⟨(sigm_pos x).le, (sigm_lt_one x).le⟩
  refine ⟨?_, hr⟩
  intro x y hxy
  by_cases h1 : x < lo
  · have : sigmCode lo hi x = 0 := by unfold sigmCode; rw [if_pos h1]
    rw [this]; exact (hr y).1
  have hy1 : ¬ y < lo := by linarith
  by_cases h2 : hi < y
  · have : sigmCode lo hi y = 1 := by unfold sigmCode; rw [if_neg hy1, if_pos h2]
    rw [this]; exact (hr x).2
  have hx2 : ¬ hi < x := by linarith
  unfold sigmCode
  rw [if_neg h1, if_neg hy1, if_neg hx2, if_neg h2]
  exact sigm_mono hxy

/-- `exp (-k)` from `e > 2.7`. -/
theorem exp_neg_nat (k : ℕ) : exp (-(k : ℝ)) ≤ (10 / 27) ^ k := by
  have h1 : exp (-1 : ℝ) ≤ 10 / 27 := by
    rw [exp_neg, inv_le_comm₀ (exp_pos 1) (by norm_num)]
    have := exp_one_gt_d9
    norm_num at this ⊢
    linarith
  have : exp (-(k : ℝ)) = exp (-1) ^ k := by
    rw [← exp_nat_mul]; congr 1; ring
  rw [this]
  exact pow_le_pow_left₀ (exp_pos _).le h1 k

/-- C96. The errors in numbers: less than 10⁻⁸ for 64 bits, less than 5·10⁻⁷ for 32 bits. -/
theorem sigmoid_error (x : ℝ) :
    |sigmCode (-709) 19 x - sigm x| < 1 / 10 ^ 8 ∧ |sigmCode (-88) 15 x - sigm x| < 5 / 10 ^ 7 := by
  constructor
  · refine (sigmCode_error (-709) 19 x).1.trans (max_lt ?_ ?_)
    · have h : exp (-709 : ℝ) ≤ exp (-19 : ℝ) := exp_le_exp.mpr (by norm_num)
      have h' := exp_neg_nat 19
      push_cast at h'
      have : ((10 : ℝ) / 27) ^ 19 < 1 / 10 ^ 8 := by norm_num
      linarith
    · have h' := exp_neg_nat 19
      push_cast at h'
      have : ((10 : ℝ) / 27) ^ 19 < 1 / 10 ^ 8 := by norm_num
      linarith
  · refine (sigmCode_error (-88) 15 x).1.trans (max_lt ?_ ?_)
    · have h : exp (-88 : ℝ) ≤ exp (-15 : ℝ) := exp_le_exp.mpr (by norm_num)
      have h' := exp_neg_nat 15
      push_cast at h'
      have : ((10 : ℝ) / 27) ^ 15 < 5 / 10 ^ 7 := by norm_num
      linarith
    · have h' := exp_neg_nat 15
      push_cast at h'
      have : ((10 : ℝ) / 27) ^ 15 < 5 / 10 ^ 7 := by norm_num
      linarith

/-- C96. The stabilization `1 - σ(x) ↦ σ(-x)` (`stabilization.go`), exact for the mathematical function, changes the
value computed by less than `2·10⁻⁸`. -/
theorem one_minus_sigmoid (x : ℝ) :
    |(1 - sigmCode (-709) 19 x) - sigmCode (-709) 19 (-x)| < 2 / 10 ^ 8 := by
  have h1 := (sigmoid_error x).1
  have h2 := (sigmoid_error (-x)).1
  have h3 := one_sub_sigm x
  rw [abs_lt] at *
  constructor <;> linarith [h1.1, h1.2, h2.1, h2.2]

/-- C96, where it fails: between the cut-offs the symmetry `σ(x) + σ(-x) = 1` of the sigmoid is lost, for every `x`
with `19 < x ≤ 709`. -/
theorem sigmoid_not_symmetric (x : ℝ) (h : 19 < x) (h' : x ≤ 709) :
    sigmCode (-709) 19 x + sigmCode (-709) 19 (-x) > 1 := by
  have h1 : sigmCode (-709) 19 x = 1 := by
    unfold sigmCode; rw [if_neg (by linarith), if_pos h]
  have h2 : sigmCode (-709) 19 (-x) = sigm (-x) := (sigmCode_error _ _ _).2 (by linarith) (by linarith)
  rw [h1, h2]
  linarith [sigm_pos (-x)]

theorem softp_pos (x : ℝ) : 0 < softp x := log_pos (by linarith [exp_pos x])

theorem softp_lt_exp (x : ℝ) : softp x < exp x := by
  have := log_lt_sub_one_of_pos (show (0 : ℝ) < 1 + exp x by positivity) (by linarith [exp_pos x])
  unfold softp
  linarith

theorem softp_sub (x : ℝ) : softp x - x = softp (-x) := by
  unfold softp
  have h : 1 + exp (-x) = (1 + exp x) / exp x := by
    rw [exp_neg]; field_simp; ring
  rw [h, log_div (by positivity) (exp_pos x).ne', log_exp]

/-- C96. The softplus of the code is off by less than `exp (-hi)` above, `exp lo` below, and exact in between. -/
theorem softpCode_error (lo hi x : ℝ) :
    |softpCode lo hi x - softp x| < max (exp lo) (exp (-hi)) ∧ (lo ≤ x → x ≤ hi → softpCode lo hi x = softp x) := by
  constructor
  · unfold softpCode
    by_cases h1 : x < lo
    · rw [if_pos h1, zero_sub, abs_neg, abs_of_pos (softp_pos x)]
      exact lt_max_of_lt_left ((softp_lt_exp x).trans (exp_lt_exp.mpr h1))
    · rw [if_neg h1]
      by_cases h2 : hi < x
      · rw [if_pos h2, abs_sub_comm, softp_sub, abs_of_pos (softp_pos _)]
        exact lt_max_of_lt_right ((softp_lt_exp _).trans (exp_lt_exp.mpr (by linarith)))
      · rw [if_neg h2]
        show |softp x - softp x| < _
        rw [sub_self, abs_zero]
        exact lt_max_of_lt_left (exp_pos _)
  · intro h1 h2
    unfold softpCode
    rw [if_neg (not_lt.mpr h1), if_neg (not_lt.mpr h2)]
    rfl

/-- C96. The errors in numbers: less than 2·10⁻⁷ for 64 bits, less than 10⁻⁶ for 32 bits. -/
theorem softplus_error (x : ℝ) :
    |softpCode (-708) 16 x - softp x| < 2 / 10 ^ 7 ∧ |softpCode (-103) 14 x - softp x| < 1 / 10 ^ 6 := by
  constructor
  · refine (softpCode_error (-708) 16 x).1.trans (max_lt ?_ ?_)
    · have h : exp (-708 : ℝ) ≤ exp (-16 : ℝ) := exp_le_exp.mpr (by norm_num)
      have h' := exp_neg_nat 16
      push_cast at h'
      have : ((10 : ℝ) / 27) ^ 16 < 2 / 10 ^ 7 := by norm_num
      linarith
    · have h' := exp_neg_nat 16
      push_cast at h'
      have : ((10 : ℝ) / 27) ^ 16 < 2 / 10 ^ 7 := by norm_num
      linarith
  · refine (softpCode_error (-103) 14 x).1.trans (max_lt ?_ ?_)
    · have h : exp (-103 : ℝ) ≤ exp (-14 : ℝ) := exp_le_exp.mpr (by norm_num)
      have h' := exp_neg_nat 14
      push_cast at h'
      have : ((10 : ℝ) / 27) ^ 14 < 1 / 10 ^ 6 := by norm_num
      linarith
    · have h' := exp_neg_nat 14
      push_cast at h'
      have : ((10 : ℝ) / 27) ^ 14 < 1 / 10 ^ 6 := by norm_num
      linarith

/-- C96, where it fails: softplus is not monotone at the upper cut-off, whatever the cut-off: there are arbitrarily close
larger arguments with a smaller value. -/
theorem softplus_not_monotone (lo hi : ℝ) (h : lo ≤ hi) (δ : ℝ) (hδ : 0 < δ) :
    ∃ y, hi < y ∧ y < hi + δ ∧ softpCode lo hi y < softpCode lo hi hi := by
  have h0 : softpCode lo hi hi = softp hi := (softpCode_error lo hi hi).2 h le_rfl
  have hgap : 0 < softp hi - hi := by rw [softp_sub]; exact softp_pos _
  refine ⟨hi + min δ (softp hi - hi) / 2, ?_, ?_, ?_⟩
  · have := lt_min hδ hgap; linarith
  · have := min_le_left δ (softp hi - hi)
    have := lt_min hδ hgap; linarith
  · have hm := min_le_right δ (softp hi - hi)
    have hp := lt_min hδ hgap
    have e : softpCode lo hi (hi + min δ (softp hi - hi) / 2) = hi + min δ (softp hi - hi) / 2 := by
      unfold softpCode
      rw [if_neg (by linarith), if_pos (by linarith)]
    rw [e, h0]
    linarith

/-- C96. The sign of the code: the absolute value is the number times its sign; it differs from the mathematical sign
exactly at zero, where it is 1. -/
theorem sign_spec (x : ℝ) : x * signCode x = |x| ∧ (signCode x = SignType.sign x ↔ x ≠ 0) := by
  unfold signCode
  rcases lt_trichotomy x 0 with h | h | h
  · rw [if_pos h, abs_of_neg h]
    exact ⟨by ring, by simp [h, h.ne]⟩
  · subst h
    simp
  · rw [if_neg h.le.not_gt, abs_of_pos h]
    exact ⟨by ring, by simp [h, h.ne']⟩

/-! ### Examples -/

example : sigmCode (-709) 19 0 = 1 / 2 := by
  rw [(sigmCode_error (-709) 19 0).2 (by norm_num) (by norm_num)]; simp [sigm]; norm_num
example : sigmCode (-709) 19 20 = 1 ∧ sigm 20 < 1 := ⟨by unfold sigmCode; norm_num, sigm_lt_one 20⟩
example : sigmCode (-709) 19 (-800) = 0 ∧ 0 < sigm (-800) := ⟨by unfold sigmCode; norm_num, sigm_pos _⟩
example : sigmCode (-709) 19 20 + sigmCode (-709) 19 (-20) > 1 := sigmoid_not_symmetric 20 (by norm_num) (by norm_num)
example : softpCode (-708) 16 17 = 17 ∧ softpCode (-708) 16 0 = log 2 := by
  constructor
  · unfold softpCode; norm_num
  · unfold softpCode; norm_num
example : signCode 0 = 1 ∧ signCode (-3) = -1 := by constructor <;> · unfold signCode; norm_num

end Verif.Misc
