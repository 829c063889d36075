import Mathlib.Data.Real.Basic
import Mathlib.Algebra.Order.Field.Basic
import Mathlib.Tactic.NormNum
import Mathlib.Tactic.Linarith
import Mathlib.Tactic.Positivity
import Mathlib.Tactic.FieldSimp
import Mathlib.Tactic.Ring
/-!
The reciprocals of the `fastmath` build (math_fast.go 40-71): a first guess obtained by subtracting the bits of the number from a constant, then
Newton's method. Bits and what they stand for are modelled exactly; the arithmetic of the refinement is that of the reals.
-/
set_option autoImplicit false
namespace Verif.Elem

noncomputable section

/-- The number that the bits of a finite double stand for (`castUF64`, math_fast.go 15): 1 bit sign, 11 bits exponent, 52 bits fraction. -/
def dec64 (b : Nat) : ℝ :=
  (if b / 2 ^ 63 % 2 = 0 then 1 else -1) *
    (if b / 2 ^ 52 % 2 ^ 11 = 0 then (2 : ℝ) ^ (-1022 : ℤ) * ((b % 2 ^ 52 : Nat) / 2 ^ 52)
     else (2 : ℝ) ^ ((b / 2 ^ 52 % 2 ^ 11 : Nat) - 1023 : ℤ) * (1 + (b % 2 ^ 52 : Nat) / 2 ^ 52))

/-- The number that the bits of a finite float stand for (`castUF32`, math_fast.go 16): 1, 8 and 23 bits. -/
def dec32 (b : Nat) : ℝ :=
  (if b / 2 ^ 31 % 2 = 0 then 1 else -1) *
    (if b / 2 ^ 23 % 2 ^ 8 = 0 then (2 : ℝ) ^ (-126 : ℤ) * ((b % 2 ^ 23 : Nat) / 2 ^ 23)
     else (2 : ℝ) ^ ((b / 2 ^ 23 % 2 ^ 8 : Nat) - 127 : ℤ) * (1 + (b % 2 ^ 23 : Nat) / 2 ^ 23))

/-- A round of the loops (math_fast.go 48 and 68). -/
def newton (x f : ℝ) : ℝ := 2 * f - f * f * x

/-- The first guess of `_inversef64` (math_fast.go 41): a subtraction of 64-bit words. -/
def guess64 (b : Nat) : Nat := (0x7FDE623822FC16E6 + 2 ^ 64 - b) % 2 ^ 64

/-- `_inversef64` (math_fast.go 40-51), of the number with the bits `b`. -/
def inverse64 (b : Nat) : ℝ := newton (dec64 b) (newton (dec64 b) (newton (dec64 b) (dec64 (guess64 b))))

/-- The first guess of `_inversef32` (math_fast.go 63). -/
def guess32 (b : Nat) : Nat := (0x7F000000 + 2 ^ 32 - b) % 2 ^ 32

/-- `_inversef32` (math_fast.go 62-71). The loop refines `f`, but what is returned is the guess (line 70). -/
def inverse32 (b : Nat) : ℝ := dec32 (guess32 b)

/-- What it would return if it returned `f`. -/
def refined32 (b : Nat) : ℝ := newton (dec32 b) (newton (dec32 b) (dec32 (guess32 b)))

/-- A sign: 0 plus, 1 minus. -/
def sign (s : Nat) : ℝ := if s = 0 then 1 else -1

end

theorem sign_mul (s : Nat) : sign s * sign s = 1 := by
  unfold sign
  by_cases h : s = 0 <;> simp [h]

/-! ### Normal numbers -/

theorem dec64_normal (s E M : Nat) (hs : s < 2) (hE : 1 ≤ E) (hE2 : E < 2 ^ 11) (hM : M < 2 ^ 52) :
    dec64 (s * 2 ^ 63 + E * 2 ^ 52 + M) = sign s * (2 ^ ((E : ℤ) - 1023) * (1 + (M : ℝ) / 2 ^ 52)) := by
  have h1 : (s * 2 ^ 63 + E * 2 ^ 52 + M) / 2 ^ 63 % 2 = s := by omega
  have h2 : (s * 2 ^ 63 + E * 2 ^ 52 + M) / 2 ^ 52 % 2 ^ 11 = E := by omega
  have h3 : (s * 2 ^ 63 + E * 2 ^ 52 + M) % 2 ^ 52 = M := by omega
  unfold dec64 sign
  rw [h1, h2, h3, if_neg (show E ≠ 0 by omega)]

theorem dec32_normal (s E M : Nat) (hs : s < 2) (hE : 1 ≤ E) (hE2 : E < 2 ^ 8) (hM : M < 2 ^ 23) :
    dec32 (s * 2 ^ 31 + E * 2 ^ 23 + M) = sign s * (2 ^ ((E : ℤ) - 127) * (1 + (M : ℝ) / 2 ^ 23)) := by
  have h1 : (s * 2 ^ 31 + E * 2 ^ 23 + M) / 2 ^ 31 % 2 = s := by omega
  have h2 : (s * 2 ^ 31 + E * 2 ^ 23 + M) / 2 ^ 23 % 2 ^ 8 = E := by omega
  have h3 : (s * 2 ^ 31 + E * 2 ^ 23 + M) % 2 ^ 23 = M := by omega
  unfold dec32 sign
  rw [h1, h2, h3, if_neg (show E ≠ 0 by omega)]

/-! ### Newton's method -/

theorem newton_error (x f : ℝ) : 1 - x * newton x f = (1 - x * f) ^ 2 := by
  unfold newton; ring

/-! ### Double precision -/

theorem guess64_error (s E M : Nat) (hs : s < 2) (hE : 1 ≤ E) (hE2 : E ≤ 2043) (hM : M < 2 ^ 52) :
    |1 - dec64 (s * 2 ^ 63 + E * 2 ^ 52 + M) * dec64 (guess64 (s * 2 ^ 63 + E * 2 ^ 52 + M))| ≤ 0.0506 := by
  rw [dec64_normal s E M hs hE (by omega) hM]
  have hm0 : (0 : ℝ) ≤ (M : ℝ) / 2 ^ 52 := by positivity
  have hm1 : (M : ℝ) / 2 ^ 52 < 1 := by
    rw [div_lt_one (by positivity)]
    exact_mod_cast hM
  by_cases h : M ≤ 0xE623822FC16E6
  · have hg : guess64 (s * 2 ^ 63 + E * 2 ^ 52 + M) = s * 2 ^ 63 + (2045 - E) * 2 ^ 52 + (0xE623822FC16E6 - M) := by
      unfold guess64
      rcases (show s = 0 ∨ s = 1 by omega) with rfl | rfl <;> omega
    rw [hg, dec64_normal s (2045 - E) (0xE623822FC16E6 - M) hs (by omega) (by omega) (by omega)]
    have hz : (2 : ℝ) ^ ((E : ℤ) - 1023) * 2 ^ (((2045 - E : ℕ) : ℤ) - 1023) = 1 / 2 := by
      rw [← zpow_add₀ (by norm_num), Nat.cast_sub (by omega)]
      have : (E : ℤ) - 1023 + (((2045 : ℕ) : ℤ) - (E : ℤ) - 1023) = -1 := by push_cast; ring
      rw [this]
      norm_num
    rw [Nat.cast_sub h]
    have hle : (M : ℝ) / 2 ^ 52 ≤ ((0xE623822FC16E6 : ℕ) : ℝ) / 2 ^ 52 := by
      refine div_le_div_of_nonneg_right ?_ (by positivity)
      exact_mod_cast h
    rw [sub_div]
    have hc1 : (0.8989 : ℝ) ≤ ((0xE623822FC16E6 : ℕ) : ℝ) / 2 ^ 52 := by norm_num
    have hc2 : ((0xE623822FC16E6 : ℕ) : ℝ) / 2 ^ 52 ≤ 0.8990 := by norm_num
    generalize (M : ℝ) / 2 ^ 52 = m at *
    generalize ((0xE623822FC16E6 : ℕ) : ℝ) / 2 ^ 52 = c at *
    have e : sign s * (2 ^ ((E : ℤ) - 1023) * (1 + m)) * (sign s * (2 ^ (((2045 - E : ℕ) : ℤ) - 1023) * (1 + (c - m)))) =
        (sign s * sign s) * ((2 : ℝ) ^ ((E : ℤ) - 1023) * 2 ^ (((2045 - E : ℕ) : ℤ) - 1023)) * ((1 + m) * (1 + (c - m))) := by ring
    rw [e, hz, sign_mul, abs_le]
    constructor
    · nlinarith [sq_nonneg (m - c / 2)]
    · nlinarith [mul_nonneg hm0 (sub_nonneg.mpr hle)]
  · push Not at h
    have hg : guess64 (s * 2 ^ 63 + E * 2 ^ 52 + M) = s * 2 ^ 63 + (2044 - E) * 2 ^ 52 + (0xE623822FC16E6 + 2 ^ 52 - M) := by
      unfold guess64
      rcases (show s = 0 ∨ s = 1 by omega) with rfl | rfl <;> omega
    rw [hg, dec64_normal s (2044 - E) (0xE623822FC16E6 + 2 ^ 52 - M) hs (by omega) (by omega) (by omega)]
    have hz : (2 : ℝ) ^ ((E : ℤ) - 1023) * 2 ^ (((2044 - E : ℕ) : ℤ) - 1023) = 1 / 4 := by
      rw [← zpow_add₀ (by norm_num), Nat.cast_sub (by omega)]
      have : (E : ℤ) - 1023 + (((2044 : ℕ) : ℤ) - (E : ℤ) - 1023) = -2 := by push_cast; ring
      rw [this]
      norm_num
    rw [Nat.cast_sub (show M ≤ 0xE623822FC16E6 + 2 ^ 52 by omega), Nat.cast_add]
    have hle : ((0xE623822FC16E6 : ℕ) : ℝ) / 2 ^ 52 ≤ (M : ℝ) / 2 ^ 52 := by
      refine div_le_div_of_nonneg_right ?_ (by positivity)
      exact_mod_cast h.le
    have e0 : (((0xE623822FC16E6 : ℕ) : ℝ) + ((2 ^ 52 : ℕ) : ℝ) - (M : ℝ)) / 2 ^ 52 = ((0xE623822FC16E6 : ℕ) : ℝ) / 2 ^ 52 + 1 - (M : ℝ) / 2 ^ 52 := by
      rw [sub_div, add_div]
      norm_num
    rw [e0]
    have hc1 : (0.8989 : ℝ) ≤ ((0xE623822FC16E6 : ℕ) : ℝ) / 2 ^ 52 := by norm_num
    have hc2 : ((0xE623822FC16E6 : ℕ) : ℝ) / 2 ^ 52 ≤ 0.8990 := by norm_num
    generalize (M : ℝ) / 2 ^ 52 = m at *
    generalize ((0xE623822FC16E6 : ℕ) : ℝ) / 2 ^ 52 = c at *
    have e : sign s * (2 ^ ((E : ℤ) - 1023) * (1 + m)) * (sign s * (2 ^ (((2044 - E : ℕ) : ℤ) - 1023) * (1 + (c + 1 - m)))) =
        (sign s * sign s) * ((2 : ℝ) ^ ((E : ℤ) - 1023) * 2 ^ (((2044 - E : ℕ) : ℤ) - 1023)) * ((1 + m) * (1 + (c + 1 - m))) := by ring
    rw [e, hz, sign_mul, abs_le]
    constructor
    · nlinarith [sq_nonneg (m - (1 + c) / 2)]
    · nlinarith [mul_nonneg (sub_nonneg.mpr hm1.le) (sub_nonneg.mpr hle)]

/-- **C130.** The reciprocal in double precision has a relative error below `4.3e-11`, for both signs and all normal numbers below `2 ^ 1021`. -/
theorem inverse64_error (s E M : Nat) (hs : s < 2) (hE : 1 ≤ E) (hE2 : E ≤ 2043) (hM : M < 2 ^ 52) :
    |1 - dec64 (s * 2 ^ 63 + E * 2 ^ 52 + M) * inverse64 (s * 2 ^ 63 + E * 2 ^ 52 + M)| ≤ 43 / 10 ^ 12 := by
  have h := guess64_error s E M hs hE hE2 hM
  unfold inverse64
  rw [newton_error, newton_error, newton_error, ← pow_mul, ← pow_mul, abs_pow]
  refine (pow_le_pow_left₀ (abs_nonneg _) h _).trans ?_
  norm_num

/-- **C130.** So the quotient `g / x` computed with it is off by at most that much of itself. -/
theorem inverse64_close (s E M : Nat) (hs : s < 2) (hE : 1 ≤ E) (hE2 : E ≤ 2043) (hM : M < 2 ^ 52) (x : ℝ)
    (hx : x = dec64 (s * 2 ^ 63 + E * 2 ^ 52 + M)) :
    x ≠ 0 ∧ |inverse64 (s * 2 ^ 63 + E * 2 ^ 52 + M) - 1 / x| ≤ 43 / 10 ^ 12 * |1 / x| := by
  have h := inverse64_error s E M hs hE hE2 hM
  rw [← hx] at h
  have h0 : x ≠ 0 := by
    rintro rfl
    rw [zero_mul, sub_zero, abs_one] at h
    norm_num at h
  refine ⟨h0, ?_⟩
  have e : inverse64 (s * 2 ^ 63 + E * 2 ^ 52 + M) - 1 / x = -(1 - x * inverse64 (s * 2 ^ 63 + E * 2 ^ 52 + M)) * (1 / x) := by
    field_simp
    ring
  rw [e, abs_mul, abs_neg]
  exact mul_le_mul_of_nonneg_right h (abs_nonneg _)

/-- **C130 (defect).** It is not the reciprocal up to rounding: that of 1 is off by more than 300000 times the distance of the doubles. -/
theorem inverse64_one : dec64 (1023 * 2 ^ 52) = 1 ∧ 1 - inverse64 (1023 * 2 ^ 52) > 300000 / 2 ^ 53 := by
  have h1 : dec64 (1023 * 2 ^ 52) = 1 := by
    have := dec64_normal 0 1023 0 (by omega) (by omega) (by omega) (by omega)
    simpa [sign] using this
  have h2 : dec64 (guess64 (1023 * 2 ^ 52)) = 1 / 2 * (1 + ((0xE623822FC16E6 : ℕ) : ℝ) / 2 ^ 52) := by
    have hg : guess64 (1023 * 2 ^ 52) = 0 * 2 ^ 63 + 1022 * 2 ^ 52 + 0xE623822FC16E6 := by decide
    rw [hg, dec64_normal 0 1022 _ (by omega) (by omega) (by omega) (by omega)]
    norm_num [sign]
  refine ⟨h1, ?_⟩
  have h3 : 1 - inverse64 (1023 * 2 ^ 52) = (1 - dec64 (guess64 (1023 * 2 ^ 52))) ^ 8 := by
    have e : ∀ f : ℝ, 1 - newton 1 f = (1 - f) ^ 2 := fun f => by unfold newton; ring
    unfold inverse64
    rw [h1, e, e, e]
    ring
  rw [h3, h2]
  norm_num

/-! ### Single precision -/

/-- **C130.** The reciprocal in single precision, exactly: with the fraction `m` of the number, it is too large by the factor `1 + m (1 - m) / 2`. -/
theorem inverse32_exact (s E M : Nat) (hs : s < 2) (hE : 1 ≤ E) (hE2 : E ≤ 252) (hM : M < 2 ^ 23) :
    dec32 (s * 2 ^ 31 + E * 2 ^ 23 + M) * inverse32 (s * 2 ^ 31 + E * 2 ^ 23 + M) =
      1 + (M : ℝ) / 2 ^ 23 * (1 - (M : ℝ) / 2 ^ 23) / 2 := by
  unfold inverse32
  rw [dec32_normal s E M hs hE (by omega) hM]
  by_cases h : M = 0
  · subst h
    have hg : guess32 (s * 2 ^ 31 + E * 2 ^ 23 + 0) = s * 2 ^ 31 + (254 - E) * 2 ^ 23 + 0 := by
      unfold guess32
      rcases (show s = 0 ∨ s = 1 by omega) with rfl | rfl <;> omega
    rw [hg, dec32_normal s (254 - E) 0 hs (by omega) (by omega) (by omega)]
    have hz : (2 : ℝ) ^ ((E : ℤ) - 127) * 2 ^ (((254 - E : ℕ) : ℤ) - 127) = 1 := by
      rw [← zpow_add₀ (by norm_num), Nat.cast_sub (by omega)]
      have : (E : ℤ) - 127 + (((254 : ℕ) : ℤ) - (E : ℤ) - 127) = 0 := by push_cast; ring
      rw [this]
      norm_num
    have e : sign s * (2 ^ ((E : ℤ) - 127) * (1 + ((0 : ℕ) : ℝ) / 2 ^ 23)) * (sign s * (2 ^ (((254 - E : ℕ) : ℤ) - 127) * (1 + ((0 : ℕ) : ℝ) / 2 ^ 23))) =
        (sign s * sign s) * ((2 : ℝ) ^ ((E : ℤ) - 127) * 2 ^ (((254 - E : ℕ) : ℤ) - 127)) * (1 + ((0 : ℕ) : ℝ) / 2 ^ 23) ^ 2 := by ring
    rw [e, hz, sign_mul]
    norm_num
  · have hg : guess32 (s * 2 ^ 31 + E * 2 ^ 23 + M) = s * 2 ^ 31 + (253 - E) * 2 ^ 23 + (2 ^ 23 - M) := by
      unfold guess32
      rcases (show s = 0 ∨ s = 1 by omega) with rfl | rfl <;> omega
    rw [hg, dec32_normal s (253 - E) (2 ^ 23 - M) hs (by omega) (by omega) (by omega)]
    have hz : (2 : ℝ) ^ ((E : ℤ) - 127) * 2 ^ (((253 - E : ℕ) : ℤ) - 127) = 1 / 2 := by
      rw [← zpow_add₀ (by norm_num), Nat.cast_sub (by omega)]
      have : (E : ℤ) - 127 + (((253 : ℕ) : ℤ) - (E : ℤ) - 127) = -1 := by push_cast; ring
      rw [this]
      norm_num
    rw [Nat.cast_sub hM.le]
    have e0 : (((2 ^ 23 : ℕ) : ℝ) - (M : ℝ)) / 2 ^ 23 = 1 - (M : ℝ) / 2 ^ 23 := by
      rw [sub_div]
      norm_num
    rw [e0]
    generalize (M : ℝ) / 2 ^ 23 = m at *
    have e : sign s * (2 ^ ((E : ℤ) - 127) * (1 + m)) * (sign s * (2 ^ (((253 - E : ℕ) : ℤ) - 127) * (1 + (1 - m)))) =
        (sign s * sign s) * ((2 : ℝ) ^ ((E : ℤ) - 127) * 2 ^ (((253 - E : ℕ) : ℤ) - 127)) * ((1 + m) * (1 + (1 - m))) := by ring
    rw [e, hz, sign_mul]
    ring

/-- **C130.** Its relative error is at most an eighth. -/
theorem inverse32_error (s E M : Nat) (hs : s < 2) (hE : 1 ≤ E) (hE2 : E ≤ 252) (hM : M < 2 ^ 23) :
    |1 - dec32 (s * 2 ^ 31 + E * 2 ^ 23 + M) * inverse32 (s * 2 ^ 31 + E * 2 ^ 23 + M)| ≤ 1 / 8 := by
  rw [inverse32_exact s E M hs hE hE2 hM]
  have hm0 : (0 : ℝ) ≤ (M : ℝ) / 2 ^ 23 := by positivity
  have hm1 : (M : ℝ) / 2 ^ 23 < 1 := by
    rw [div_lt_one (by positivity)]
    exact_mod_cast hM
  generalize (M : ℝ) / 2 ^ 23 = m at *
  rw [abs_le]
  constructor <;> nlinarith [sq_nonneg (m - 1 / 2), mul_nonneg hm0 (sub_nonneg.mpr hm1.le)]

/-- **C130 (defect).** And it is not better than that: the reciprocal of 1.5 is 0.75. -/
theorem inverse32_wrong : dec32 (127 * 2 ^ 23 + 2 ^ 22) = 3 / 2 ∧ inverse32 (127 * 2 ^ 23 + 2 ^ 22) = 3 / 4 := by
  constructor
  · have := dec32_normal 0 127 (2 ^ 22) (by omega) (by omega) (by omega) (by omega)
    rw [show 127 * 2 ^ 23 + 2 ^ 22 = 0 * 2 ^ 31 + 127 * 2 ^ 23 + 2 ^ 22 by omega, this]
    norm_num [sign]
  · have hg : guess32 (127 * 2 ^ 23 + 2 ^ 22) = 0 * 2 ^ 31 + 126 * 2 ^ 23 + 2 ^ 22 := by decide
    unfold inverse32
    rw [hg, dec32_normal 0 126 (2 ^ 22) (by omega) (by omega) (by omega) (by omega)]
    norm_num [sign]

/-- **C130.** If the refined number were returned, the error would be below a quarter of a thousandth. -/
theorem refined32_error (s E M : Nat) (hs : s < 2) (hE : 1 ≤ E) (hE2 : E ≤ 252) (hM : M < 2 ^ 23) :
    |1 - dec32 (s * 2 ^ 31 + E * 2 ^ 23 + M) * refined32 (s * 2 ^ 31 + E * 2 ^ 23 + M)| ≤ 1 / 4096 := by
  have h := inverse32_error s E M hs hE hE2 hM
  unfold refined32
  unfold inverse32 at h
  rw [newton_error, newton_error, ← pow_mul, abs_pow]
  refine (pow_le_pow_left₀ (abs_nonneg _) h _).trans ?_
  norm_num

end Verif.Elem
