import Verif.Round.Nets
import Mathlib.Data.Int.Log
import Mathlib.Algebra.Order.Round
/-!
Rounding to a number of bits, sums and products with rounding in any order, and implementations of operations that are made of them.
-/
set_option autoImplicit false
namespace Verif.Round
open Verif.Tensor Verif.AD Filter
open Verif.Shape hiding bc
open scoped Topology

noncomputable section

/-- `y` is a rounding of `x` with unit roundoff `u`. -/
def Rnd (u x y : ℝ) : Prop := |y - x| ≤ u * |x|

/-- The nearest number with `p` bits. The exponent is not limited. -/
def fl (p : Nat) (x : ℝ) : ℝ := round (x / 2 ^ (Int.log 2 |x| + 1 - p)) * 2 ^ (Int.log 2 |x| + 1 - p)

/-- `fl p` rounds with unit roundoff `2⁻ᵖ`. For `float32` this is `p = 24`, for `float64` it is `p = 53`. -/
theorem fl_rnd (p : Nat) (x : ℝ) : Rnd (2 ^ (-(p : ℤ))) x (fl p x) := by
  unfold Rnd
  by_cases hx : x = 0
  · subst hx; simp [fl]
  have ha : 0 < |x| := abs_pos.2 hx
  have hq : (0 : ℝ) < 2 ^ (Int.log 2 |x| + 1 - p) := by positivity
  have h1 := abs_sub_round (x / 2 ^ (Int.log 2 |x| + 1 - (p : ℤ)))
  have h2 : |fl p x - x| = |x / 2 ^ (Int.log 2 |x| + 1 - (p : ℤ)) - round (x / 2 ^ (Int.log 2 |x| + 1 - (p : ℤ)))| * 2 ^ (Int.log 2 |x| + 1 - (p : ℤ)) := by
    rw [← abs_of_pos hq, ← abs_mul, abs_of_pos hq, sub_mul, div_mul_cancel₀ _ hq.ne', abs_sub_comm]
    rfl
  have h3 : (2 : ℝ) ^ (Int.log 2 |x|) ≤ |x| := by
    have := Int.zpow_log_le_self (R := ℝ) (b := 2) (by norm_num) ha
    simpa using this
  rw [h2]
  calc _ ≤ 1 / 2 * (2 : ℝ) ^ (Int.log 2 |x| + 1 - (p : ℤ)) := mul_le_mul_of_nonneg_right h1 hq.le
    _ = 2 ^ (-(p : ℤ)) * 2 ^ (Int.log 2 |x|) := by
      rw [show Int.log 2 |x| + 1 - (p : ℤ) = -(p : ℤ) + (Int.log 2 |x| + 1) by ring, zpow_add₀ (by norm_num), zpow_add_one₀ (by norm_num)]
      ring
    _ ≤ _ := mul_le_mul_of_nonneg_left h3 (by positivity)

/-- Adding up numbers, in any order and with any brackets, with a rounding after every addition. -/
inductive SumOf (u : ℝ) : List ℝ → ℝ → Prop
  | one (x : ℝ) : SumOf u [x] x
  | add {l l' : List ℝ} {s s' t : ℝ} : SumOf u l s → SumOf u l' s' → Rnd u (s + s') t → SumOf u (l ++ l') t
  | perm {l l' : List ℝ} {s : ℝ} : l.Perm l' → SumOf u l s → SumOf u l' s

/-- The numbers without signs, added up. -/
def mass (l : List ℝ) : ℝ := (l.map abs).sum

theorem mass_nonneg (l : List ℝ) : 0 ≤ mass l := List.sum_nonneg fun x hx => by
  obtain ⟨y, -, rfl⟩ := List.mem_map.1 hx
  exact abs_nonneg y

theorem abs_sum_le_mass (l : List ℝ) : |l.sum| ≤ mass l := by
  induction l with
  | nil => simp [mass]
  | cons a l ih =>
    simp only [List.sum_cons, mass, List.map_cons] at ih ⊢
    exact (abs_add_le _ _).trans (by linarith)

theorem SumOf.ne_nil {u : ℝ} {l : List ℝ} {s : ℝ} (h : SumOf u l s) : l ≠ [] := by
  induction h with
  | one x => simp
  | add _ _ _ i1 _ => simp [i1]
  | perm hp _ ih => intro e; subst e; exact ih hp.eq_nil

/-- **C121 (sums).** However `n` numbers are added up, the result differs from their sum by at most `(1 + u)ⁿ⁻¹ - 1` times the sum
of the absolute values. -/
theorem sum_error {u : ℝ} (hu : 0 ≤ u) {l : List ℝ} {s : ℝ} (h : SumOf u l s) : |s - l.sum| ≤ ((1 + u) ^ (l.length - 1) - 1) * mass l := by
  induction h with
  | one x => simp
  | @add l l' s s' t h1 h2 hr i1 i2 =>
    obtain ⟨n, hn⟩ : ∃ n, l.length = n + 1 := Nat.exists_eq_succ_of_ne_zero fun e => h1.ne_nil (List.length_eq_zero_iff.1 e)
    obtain ⟨m, hm⟩ : ∃ m, l'.length = m + 1 := Nat.exists_eq_succ_of_ne_zero fun e => h2.ne_nil (List.length_eq_zero_iff.1 e)
    simp only [List.length_append, List.sum_append, hn, hm, Nat.add_sub_cancel] at i1 i2 ⊢
    have hmass : mass (l ++ l') = mass l + mass l' := by simp [mass]
    rw [hmass, show n + 1 + (m + 1) - 1 = n + m + 1 by omega]
    have hS := mass_nonneg l
    have hS' := mass_nonneg l'
    have b1 : |s| ≤ (1 + u) ^ n * mass l := by
      have := abs_sum_le_mass l
      have := abs_sub_abs_le_abs_sub s l.sum
      nlinarith
    have b2 : |s'| ≤ (1 + u) ^ m * mass l' := by
      have := abs_sum_le_mass l'
      have := abs_sub_abs_le_abs_sub s' l'.sum
      nlinarith
    have one : ∀ k : ℕ, 1 ≤ (1 + u) ^ k := fun k => one_le_pow₀ (by linarith)
    have e1 : (1 + u) ^ n * (1 + u) ≤ (1 + u) ^ (n + m + 1) := by
      rw [← pow_succ]
      exact pow_le_pow_right₀ (by linarith) (by omega)
    have e2 : (1 + u) ^ m * (1 + u) ≤ (1 + u) ^ (n + m + 1) := by
      rw [← pow_succ]
      exact pow_le_pow_right₀ (by linarith) (by omega)
    have hr : |t - (s + s')| ≤ u * |s + s'| := hr
    have hss : u * |s + s'| ≤ u * ((1 + u) ^ n * mass l + (1 + u) ^ m * mass l') :=
      mul_le_mul_of_nonneg_left ((abs_add_le _ _).trans (add_le_add b1 b2)) hu
    calc |t - (l.sum + l'.sum)| = |(t - (s + s')) + ((s - l.sum) + (s' - l'.sum))| := by ring_nf
      _ ≤ |t - (s + s')| + (|s - l.sum| + |s' - l'.sum|) := (abs_add_le _ _).trans (add_le_add le_rfl (abs_add_le _ _))
      _ ≤ u * ((1 + u) ^ n * mass l + (1 + u) ^ m * mass l') + (((1 + u) ^ n - 1) * mass l + ((1 + u) ^ m - 1) * mass l') :=
        add_le_add (hr.trans hss) (add_le_add i1 i2)
      _ = ((1 + u) ^ n * (1 + u) - 1) * mass l + ((1 + u) ^ m * (1 + u) - 1) * mass l' := by ring
      _ ≤ ((1 + u) ^ (n + m + 1) - 1) * mass l + ((1 + u) ^ (n + m + 1) - 1) * mass l' :=
        add_le_add (mul_le_mul_of_nonneg_right (by linarith) hS) (mul_le_mul_of_nonneg_right (by linarith) hS')
      _ = _ := by ring
  | @perm l l' s hp _ ih =>
    rw [← hp.sum_eq, ← hp.length_eq, mass, ← (hp.map abs).sum_eq]
    exact ih

/-- Sums of `n` products: every product is rounded, and they are added up in any order. Nothing added up is zero. -/
def DotOf (u : ℝ) (n : Nat) (a b : Nat → ℝ) (d : ℝ) : Prop :=
  ∃ p : Nat → ℝ, (∀ k, k < n → Rnd u (a k * b k) (p k)) ∧ if n = 0 then d = 0 else SumOf u ((List.range n).map p) d

theorem sum_range_list (f : Nat → ℝ) (n : Nat) : ((List.range n).map f).sum = ∑ k ∈ Finset.range n, f k := by
  induction n with
  | zero => simp
  | succ n ih => rw [List.range_succ, List.map_append, List.sum_append, ih, Finset.sum_range_succ]; simp

/-- **C121 (products).** The error of a sum of `n` products, added up in any order. -/
theorem dot_error {u : ℝ} (hu : 0 ≤ u) {n : Nat} {a b : Nat → ℝ} {d : ℝ} (h : DotOf u n a b d) :
    |d - ∑ k ∈ Finset.range n, a k * b k| ≤ ((1 + u) ^ n - 1) * ∑ k ∈ Finset.range n, |a k * b k| := by
  obtain ⟨p, hp, hd⟩ := h
  rcases n with _ | n
  · simp at hd
    simp [hd]
  rw [if_neg (by omega)] at hd
  have h1 := sum_error hu hd
  rw [sum_range_list, mass, List.map_map, sum_range_list, List.length_map, List.length_range, Nat.add_sub_cancel] at h1
  obtain ⟨S, hS⟩ : ∃ S, S = ∑ k ∈ Finset.range (n + 1), |a k * b k| := ⟨_, rfl⟩
  have hp' : ∀ k ∈ Finset.range (n + 1), |p k| ≤ (1 + u) * |a k * b k| := by
    intro k hk
    have : |p k - a k * b k| ≤ u * |a k * b k| := hp k (Finset.mem_range.1 hk)
    have := abs_sub_abs_le_abs_sub (p k) (a k * b k)
    linarith
  have h2 : ∑ k ∈ Finset.range (n + 1), (abs ∘ p) k ≤ (1 + u) * S := by
    rw [hS, Finset.mul_sum]
    exact Finset.sum_le_sum hp'
  have h3 : |∑ k ∈ Finset.range (n + 1), p k - ∑ k ∈ Finset.range (n + 1), a k * b k| ≤ u * S := by
    rw [← Finset.sum_sub_distrib, hS, Finset.mul_sum]
    exact (Finset.abs_sum_le_sum_abs _ _).trans (Finset.sum_le_sum fun k hk => hp k (Finset.mem_range.1 hk))
  have one : 0 ≤ (1 + u) ^ n - 1 := by
    have : 1 ≤ (1 + u) ^ n := one_le_pow₀ (by linarith)
    linarith
  rw [← hS]
  calc |d - ∑ k ∈ Finset.range (n + 1), a k * b k|
      = |(d - ∑ k ∈ Finset.range (n + 1), p k) + (∑ k ∈ Finset.range (n + 1), p k - ∑ k ∈ Finset.range (n + 1), a k * b k)| := by ring_nf
    _ ≤ ((1 + u) ^ n - 1) * ((1 + u) * S) + u * S := (abs_add_le _ _).trans (add_le_add (h1.trans (mul_le_mul_of_nonneg_left h2 one)) h3)
    _ = _ := by ring

/-- A bound for the entries of all tensors near `a`. -/
def cap (a : T ℝ) : ℝ := ∑ k ∈ Finset.range (size a.shape), (|a.at_ (unravel a.shape k)| + 1) + 1

theorem cap_pos (a : T ℝ) : 0 < cap a := by
  unfold cap
  have : 0 ≤ ∑ k ∈ Finset.range (size a.shape), (|a.at_ (unravel a.shape k)| + 1) := Finset.sum_nonneg fun k _ => by positivity
  linarith

theorem le_cap {a a' : T ℝ} (h : Close 1 a' a) {i : List Nat} (hi : InB a.shape i) : |a'.at_ i| ≤ cap a := by
  have h1 := h.2 i hi
  have h2 := abs_sub_abs_le_abs_sub (a'.at_ i) (a.at_ i)
  have h3 : |a.at_ i| + 1 ≤ ∑ k ∈ Finset.range (size a.shape), (|a.at_ (unravel a.shape k)| + 1) := by
    have := Finset.single_le_sum (f := fun k => |a.at_ (unravel a.shape k)| + 1) (fun k _ => by positivity) (Finset.mem_range.2 (ravel_lt hi))
    simpa only [unravel_ravel hi] using this
  unfold cap
  linarith

/-- For small roundoff sums of products of bounded numbers are near. -/
theorem dot_near (n : Nat) (A B : ℝ) {ε : ℝ} (hε : 0 < ε) : ∃ u₀, 0 < u₀ ∧ ∀ u, 0 ≤ u → u ≤ u₀ → ∀ (a b : Nat → ℝ) (d : ℝ),
    (∀ k, k < n → |a k| ≤ A) → (∀ k, k < n → |b k| ≤ B) → DotOf u n a b d → |d - ∑ k ∈ Finset.range n, a k * b k| ≤ ε := by
  have hc : Continuous fun u : ℝ => ((1 + u) ^ n - 1) * ((n : ℝ) * (A * B)) := by fun_prop
  have ht := hc.tendsto 0
  simp only [add_zero, one_pow, sub_self, zero_mul] at ht
  obtain ⟨δ, hδ, H⟩ := Metric.tendsto_nhds_nhds.1 ht ε hε
  refine ⟨δ / 2, half_pos hδ, fun u h0 hu a b d ha hb hd => (dot_error h0 hd).trans ?_⟩
  have h1 := H (x := u) (by rw [Real.dist_eq, sub_zero, abs_of_nonneg h0]; linarith)
  rw [Real.dist_eq, sub_zero] at h1
  have one : 0 ≤ (1 + u) ^ n - 1 := by
    have : 1 ≤ (1 + u) ^ n := one_le_pow₀ (by linarith)
    linarith
  refine le_trans (mul_le_mul_of_nonneg_left ?_ one) ((le_abs_self _).trans h1.le)
  calc ∑ k ∈ Finset.range n, |a k * b k| ≤ ∑ _k ∈ Finset.range n, A * B := Finset.sum_le_sum fun k hk => by
        have hk := Finset.mem_range.1 hk
        rw [abs_mul]
        exact mul_le_mul (ha k hk) (hb k hk) (abs_nonneg _) ((abs_nonneg _).trans (ha k hk))
    _ = _ := by simp

/-- Matrix products whose elements are sums of products with rounding (BLAS, whatever the order in which it adds). -/
def matMulImp (tA tB : Bool) : Impl := fun u xs y => match xs with
  | [a, b] => y.shape = [(flipShp tA a.shape).1, (flipShp tB b.shape).2] ∧ ∀ i j, i < (flipShp tA a.shape).1 → j < (flipShp tB b.shape).2 →
      DotOf u (flipShp tA a.shape).2 (fun k => a.at_ (if tA then [k, i] else [i, k])) (fun k => b.at_ (if tB then [j, k] else [k, j])) (y.at_ [i, j])
  | _ => False

/-- Matrix products are accurate. -/
theorem matMul_accurate (tA tB : Bool) {a b : T ℝ} {r c r' c' : Nat} (ha : a.shape = [r, c]) (hb : b.shape = [r', c'])
    (h : (sz tA r c).2 = (sz tB r' c').1) : Accurate (matMulTOp tA tB).run (matMulImp tA tB) [a, b] := by
  intro ε hε
  obtain ⟨u₀, hu₀, H⟩ := dot_near (sz tA r c).2 (cap a) (cap b) hε
  refine ⟨u₀, hu₀, 1, one_pos, fun u h0 hu xs' hx y' hy => ?_⟩
  match xs', hx with
  | [a', b'], .cons h1 (.cons h2 .nil) =>
    have ha' : a'.shape = [r, c] := h1.1.trans ha
    have hb' : b'.shape = [r', c'] := h2.1.trans hb
    have fA : flipShp tA a'.shape = sz tA r c := by rw [ha']; cases tA <;> rfl
    have fB : flipShp tB b'.shape = sz tB r' c' := by rw [hb']; cases tB <;> rfl
    obtain ⟨y, y1, y2, -⟩ := matMulTOp_good tA tB a' b' (by rw [ha']; rfl) (by rw [hb']; rfl) (by
      cases tA <;> cases tB <;> simpa [LinAlg.M.flip, LinAlg.M.T, AD.toM, ha', hb', sz] using h)
    refine ⟨y, y1, ?_⟩
    obtain ⟨e1, e2⟩ := hy
    rw [fA, fB] at e1
    simp only [fA, fB] at e2
    have y2 : y.shape = [(sz tA r c).1, (sz tB r' c').2] := by
      rw [y2]
      cases tA <;> cases tB <;> simp [LinAlg.M.flip, LinAlg.M.T, AD.toM, ha', hb', sz]
    refine ⟨e1.trans y2.symm, fun p hp => ?_⟩
    rw [y2] at hp
    match p, hp with
    | [i, j], hp =>
      obtain ⟨hi, hj⟩ : i < (sz tA r c).1 ∧ j < (sz tB r' c').2 := by simpa [InB] using hp
      have hval : y.at_ [i, j] = ∑ k ∈ Finset.range (sz tA r c).2,
          a'.at_ (if tA then [k, i] else [i, k]) * b'.at_ (if tB then [j, k] else [k, j]) := by
        unfold matMulRun at y1
        rw [if_pos ⟨by rw [ha']; rfl, by rw [hb']; rfl⟩] at y1
        unfold LinAlg.matMul LinAlg.matMul0 at y1
        rw [if_pos (by cases tA <;> cases tB <;> simpa [LinAlg.M.flip, LinAlg.M.T, AD.toM, ha', hb', sz] using h)] at y1
        cases y1
        cases tA <;> cases tB <;> simp [LinAlg.M.flip, LinAlg.M.T, AD.toM, AD.ofM, ha', sz]
      rw [hval]
      refine H u h0 hu _ _ _ (fun k hk => ?_) (fun k hk => ?_) (e2 i j hi hj)
      · refine le_cap h1 ?_
        rw [ha]
        cases tA <;> simp_all [InB, sz]
      · refine le_cap h2 ?_
        rw [hb]
        rw [h] at hk
        cases tB <;> simp_all [InB, sz]

/-- The same for products of batches of matrices. -/
def batchImp (tA tB : Bool) (o : List Nat) (r c r' c' : Nat) : Impl := fun u xs y => match xs with
  | [a, b] => y.shape = o ++ [(sz tA r c).1, (sz tB r' c').2] ∧ ∀ p i j, InB o p → i < (sz tA r c).1 → j < (sz tB r' c').2 →
      DotOf u (sz tA r c).2 (fun k => a.at_ (p ++ if tA then [k, i] else [i, k])) (fun k => b.at_ (p ++ if tB then [j, k] else [k, j]))
        (y.at_ (p ++ [i, j]))
  | _ => False

theorem inB_split {o : List Nat} {s : List Nat} {p : List Nat} (h : InB (o ++ s) p) : ∃ q t, p = q ++ t ∧ InB o q ∧ InB s t := by
  induction o generalizing p with
  | nil => exact ⟨[], p, rfl, by simp [InB], h⟩
  | cons d o ih =>
    match p, h with
    | i :: p, h =>
      obtain ⟨h1, h2⟩ : i < d ∧ InB (o ++ s) p := by simpa [InB] using h
      obtain ⟨q, t, rfl, hq, ht⟩ := ih h2
      exact ⟨i :: q, t, rfl, by simp [InB, h1, hq], ht⟩

theorem inB_join {o s q t : List Nat} (hq : InB o q) (ht : InB s t) : InB (o ++ s) (q ++ t) := by
  induction o generalizing q with
  | nil =>
    match q, hq with
    | [], _ => exact ht
  | cons d o ih =>
    match q, hq with
    | i :: q, h =>
      obtain ⟨h1, h2⟩ : i < d ∧ InB o q := by simpa [InB] using h
      simp only [List.cons_append, InB]
      exact ⟨h1, ih h2⟩

theorem batch_accurate (tA tB : Bool) {o : List Nat} {a b : T ℝ} {r c r' c' : Nat} (ho : ∀ d ∈ o, 0 < d) (ha : a.shape = o ++ [r, c])
    (hb : b.shape = o ++ [r', c']) (h : (sz tA r c).2 = (sz tB r' c').1) :
    Accurate (batchTOp tA tB).run (batchImp tA tB o r c r' c') [a, b] := by
  intro ε hε
  obtain ⟨u₀, hu₀, H⟩ := dot_near (sz tA r c).2 (cap a) (cap b) hε
  refine ⟨u₀, hu₀, 1, one_pos, fun u h0 hu xs' hx y' hy => ?_⟩
  match xs', hx with
  | [a', b'], .cons h1 (.cons h2 .nil) =>
    have ha' := h1.1.trans ha
    have hb' := h2.1.trans hb
    obtain ⟨y, y1, y2, -⟩ := batchTOp_good tA tB o a' b' r c r' c' ho ha' hb' h
    refine ⟨y, y1, ?_⟩
    obtain ⟨e1, e2⟩ := hy
    refine ⟨e1.trans y2.symm, fun p hp => ?_⟩
    rw [y2] at hp
    obtain ⟨q, t, rfl, hq, ht⟩ := inB_split hp
    match t, ht with
    | [i, j], ht =>
      obtain ⟨hi, hj⟩ : i < (sz tA r c).1 ∧ j < (sz tB r' c').2 := by simpa [InB] using ht
      rw [batchRun_at tA tB o a' b' y r c r' c' ho ha' hb' h y1 q hq i j]
      refine H u h0 hu _ _ _ (fun k hk => ?_) (fun k hk => ?_) (e2 q i j hq hi hj)
      · refine le_cap h1 ?_
        rw [ha]
        refine inB_join hq ?_
        cases tA <;> simp_all [InB, sz]
      · refine le_cap h2 ?_
        rw [hb]
        refine inB_join hq ?_
        rw [h] at hk
        cases tB <;> simp_all [InB, sz]

/-! ### An implementation of all operations -/

theorem Rnd.mono {u u' x y : ℝ} (hu : u ≤ u') (h : Rnd u x y) : Rnd u' x y := h.trans (mul_le_mul_of_nonneg_right hu (abs_nonneg x))

theorem SumOf.mono {u u' : ℝ} (hu : u ≤ u') {l : List ℝ} {s : ℝ} (h : SumOf u l s) : SumOf u' l s := by
  induction h with
  | one x => exact .one x
  | add _ _ hr i1 i2 => exact .add i1 i2 (hr.mono hu)
  | perm hp _ ih => exact .perm hp ih

theorem DotOf.mono {u u' : ℝ} (hu : u ≤ u') {n : Nat} {a b : Nat → ℝ} {d : ℝ} (h : DotOf u n a b d) : DotOf u' n a b d := by
  obtain ⟨p, hp, hd⟩ := h
  refine ⟨p, fun k hk => (hp k hk).mono hu, ?_⟩
  by_cases c : n = 0
  · rw [if_pos c] at hd ⊢; exact hd
  · rw [if_neg c] at hd ⊢; exact hd.mono hu

/-- The exact result, with errors that are at most `u` or at most `u` times as large as the element. -/
def nearImp (o : POp) : Impl := fun u xs y => ∃ z, o.run xs = .ok z ∧ y.shape = z.shape ∧ ∀ i, InB z.shape i → |y.at_ i - z.at_ i| ≤ u * (1 + |z.at_ i|)

theorem near_accurate (o : POp) (xs : List (T ℝ)) (h : Steady o.run xs) : Accurate o.run (nearImp o) xs := by
  obtain ⟨z, -, hz⟩ := h
  intro ε hε
  obtain ⟨δ, hδ, H⟩ := hz 1 one_pos
  have hc := cap_pos z
  refine ⟨ε / (1 + cap z), by positivity, δ, hδ, fun u h0 hu xs' hx y ⟨z', e1, e2, e3⟩ => ?_⟩
  obtain ⟨z'', f1, f2⟩ := H xs' hx
  rw [e1] at f1
  cases f1
  refine ⟨z', e1, e2, fun i hi => (e3 i hi).trans ?_⟩
  have hle := le_cap f2 (by rw [← f2.1]; exact hi)
  rw [le_div_iff₀ (by linarith)] at hu
  exact (mul_le_mul_of_nonneg_left (by linarith) h0).trans hu

/-- Operations that only copy or count. -/
def Exact (o : POp) : Prop := (∃ d, o = sizePOp d) ∨ ∃ along n, o = repeatPOp along n

/-- The operation multiplies batches of matrices, and the operands fit. -/
def Batches (o : POp) (tA tB : Bool) (s : List Nat) (r c r' c' : Nat) (ss : List (List Nat)) : Prop :=
  o = (batchSym tA tB).op ∧ ss = [s ++ [r, c], s ++ [r', c']] ∧ (∀ d ∈ s, 0 < d) ∧ (sz tA r c).2 = (sz tB r' c').1

/-- An implementation: copying and counting are exact, the elements of matrix products are sums of rounded products in any order, and
all other operations are near. -/
def flImp (o : POp) : Impl := fun u xs y =>
  (Exact o → o.run xs = .ok y) ∧
    ((∀ tA tB, o ≠ (matMulSym tA tB).op) → (∀ tA tB s r c r' c', ¬ Batches o tA tB s r c r' c' (xs.map (·.shape))) → nearImp o u xs y) ∧
    (∀ tA tB, o = (matMulSym tA tB).op → matMulImp tA tB u xs y) ∧
    ∀ tA tB s r c r' c', Batches o tA tB s r c r' c' (xs.map (·.shape)) → batchImp tA tB s r c r' c' u xs y

theorem flImp_mono : Monotone flImp := by
  intro o u u' xs y hu ⟨h1, h2, h3, h4⟩
  refine ⟨h1, fun n1 n2 => ?_, fun tA tB e => ?_, fun tA tB s r c r' c' e => ?_⟩
  · obtain ⟨z, z1, z2, z3⟩ := h2 n1 n2
    exact ⟨z, z1, z2, fun i hi => (z3 i hi).trans (mul_le_mul_of_nonneg_right hu (by positivity))⟩
  · have := h3 tA tB e
    match xs, this with
    | [a, b], ⟨k1, k2⟩ => exact ⟨k1, fun i j hi hj => (k2 i j hi hj).mono hu⟩
  · have := h4 tA tB s r c r' c' e
    match xs, this with
    | [a, b], ⟨k1, k2⟩ => exact ⟨k1, fun p i j hp hi hj => (k2 p i j hp hi hj).mono hu⟩

theorem Accurate.imp {run : List (T ℝ) → Res (T ℝ)} {i j : Impl} {xs : List (T ℝ)} (h : Accurate run i xs) {δ₀ : ℝ} (hδ₀ : 0 < δ₀)
    (hij : ∀ u xs' y, CloseL δ₀ xs' xs → j u xs' y → i u xs' y) : Accurate run j xs := by
  intro ε hε
  obtain ⟨u₀, hu₀, δ, hδ, H⟩ := h ε hε
  exact ⟨u₀, hu₀, min δ δ₀, lt_min hδ hδ₀, fun u h0 hu xs' hx y hy =>
    H u h0 hu xs' (hx.mono (min_le_left _ _)) y (hij u xs' y (hx.mono (min_le_right _ _)) hy)⟩

theorem matMul_ok_shapes {tA tB : Bool} {a b y : T ℝ} (h : matMulRun tA tB a b = .ok y) :
    ∃ r c r' c', a.shape = [r, c] ∧ b.shape = [r', c'] ∧ (sz tA r c).2 = (sz tB r' c').1 := by
  unfold matMulRun at h
  by_cases hl : a.shape.length = 2 ∧ b.shape.length = 2
  · rw [if_pos hl] at h
    obtain ⟨r, c, ha⟩ : ∃ r c, a.shape = [r, c] := by
      match a.shape, hl.1 with
      | [r, c], _ => exact ⟨r, c, rfl⟩
    obtain ⟨r', c', hb⟩ : ∃ r c, b.shape = [r, c] := by
      match b.shape, hl.2 with
      | [r, c], _ => exact ⟨r, c, rfl⟩
    refine ⟨r, c, r', c', ha, hb, ?_⟩
    unfold LinAlg.matMul LinAlg.matMul0 at h
    by_cases hc : (LinAlg.M.flip tA (AD.toM a)).c = (LinAlg.M.flip tB (AD.toM b)).r
    · cases tA <;> cases tB <;> simpa [LinAlg.M.flip, LinAlg.M.T, AD.toM, ha, hb, sz] using hc
    · rw [if_neg hc] at h
      cases h
  · rw [if_neg hl] at h
    cases h

theorem closeL_shapes {δ : ℝ} {xs' xs : List (T ℝ)} (h : CloseL δ xs' xs) : xs'.map (·.shape) = xs.map (·.shape) := by
  induction h with
  | nil => rfl
  | cons h _ ih => simp only [List.map_cons, h.1, ih]

/-- The implementation is one for which the theorems about rounding hold. -/
theorem flImp_sound : Sound flImp where
  faithful := by
    intro o xs hst
    by_cases hm : ∃ tA tB, o = (matMulSym tA tB).op
    · obtain ⟨tA, tB, ho⟩ := hm
      obtain ⟨y, hy, -⟩ := hst
      have hrun : o.run = (matMulTOp tA tB).run := by rw [ho, (matMulSym_of tA tB).run]
      rw [hrun] at hy ⊢
      match xs, hy with
      | [a, b], hy =>
        have hy : matMulRun tA tB a b = .ok y := hy
        obtain ⟨r, c, r', c', ha, hb, h⟩ := matMul_ok_shapes hy
        exact (matMul_accurate tA tB ha hb h).imp one_pos fun u xs' y' _ hi => hi.2.2.1 tA tB ho
    · by_cases hb : ∃ tA tB s r c r' c', Batches o tA tB s r c r' c' (xs.map (·.shape))
      · obtain ⟨tA, tB, s, r, c, r', c', hB⟩ := hb
        have hrun : o.run = (batchTOp tA tB).run := by rw [hB.1, (batchSym_of tA tB).run]
        rw [hrun]
        obtain ⟨-, h2, h3, h4⟩ := id hB
        obtain ⟨a, b, rfl⟩ : ∃ a b, xs = [a, b] := by
          have hl := congrArg List.length h2
          simp only [List.length_map, List.length_cons, List.length_nil] at hl
          match xs, hl with
          | [a, b], _ => exact ⟨a, b, rfl⟩
        simp only [List.map_cons, List.map_nil, List.cons.injEq, and_true] at h2
        exact (batch_accurate tA tB h3 h2.1 h2.2 h4).imp one_pos fun u xs' y' hx hi => hi.2.2.2 tA tB s r c r' c' (by
          rw [closeL_shapes hx]; exact hB)
      · exact (near_accurate o xs hst).imp one_pos fun u xs' y' hx hi => hi.2.1 (fun tA tB e => hm ⟨tA, tB, e⟩)
          fun tA tB s r c r' c' h => hb ⟨tA, tB, s, r, c, r', c', by rw [← closeL_shapes hx]; exact h⟩
  size := fun d _ _ _ h => h.1 (.inl ⟨d, rfl⟩)
  rep := fun along n _ _ _ h => h.1 (.inr ⟨along, n, rfl⟩)

theorem sumOf_exact {u : ℝ} (hu : 0 ≤ u) (p : Nat → ℝ) (n : Nat) : SumOf u ((List.range (n + 1)).map p) (∑ k ∈ Finset.range (n + 1), p k) := by
  induction n with
  | zero => simpa using SumOf.one (p 0)
  | succ n ih =>
    rw [List.range_succ, List.map_append, Finset.sum_range_succ]
    refine .add ih (.one (p (n + 1))) ?_
    simp only [Rnd, sub_self, abs_zero]
    positivity

theorem dotOf_exact {u : ℝ} (hu : 0 ≤ u) (n : Nat) (a b : Nat → ℝ) : DotOf u n a b (∑ k ∈ Finset.range n, a k * b k) := by
  refine ⟨fun k => a k * b k, fun k _ => ?_, ?_⟩
  · simp only [Rnd, sub_self, abs_zero]
    positivity
  · rcases n with _ | n
    · simp
    · rw [if_neg (by omega)]
      exact sumOf_exact hu _ n

theorem matMul_entry {tA tB : Bool} {a b y : T ℝ} {r c r' c' : Nat} (ha : a.shape = [r, c]) (hb : b.shape = [r', c'])
    (h : (sz tA r c).2 = (sz tB r' c').1) (hy : matMulRun tA tB a b = .ok y) (i j : Nat) : y.at_ [i, j] =
      ∑ k ∈ Finset.range (sz tA r c).2, a.at_ (if tA then [k, i] else [i, k]) * b.at_ (if tB then [j, k] else [k, j]) := by
  unfold matMulRun at hy
  rw [if_pos ⟨by rw [ha]; rfl, by rw [hb]; rfl⟩] at hy
  unfold LinAlg.matMul LinAlg.matMul0 at hy
  rw [if_pos (by cases tA <;> cases tB <;> simpa [LinAlg.M.flip, LinAlg.M.T, AD.toM, ha, hb, sz] using h)] at hy
  cases hy
  cases tA <;> cases tB <;> simp [LinAlg.M.flip, LinAlg.M.T, AD.toM, AD.ofM, ha, sz]

/-- The exact results are among the possible ones, for every roundoff. -/
theorem flImp_exact {o : POp} {u : ℝ} (hu : 0 ≤ u) {xs : List (T ℝ)} {y : T ℝ} (hy : o.run xs = .ok y) : flImp o u xs y := by
  refine ⟨fun _ => hy, fun _ _ => ⟨y, hy, rfl, fun i _ => by rw [sub_self, abs_zero]; positivity⟩, fun tA tB e => ?_,
    fun tA tB s r c r' c' hB => ?_⟩
  · have hrun : o.run = (matMulTOp tA tB).run := by rw [e, (matMulSym_of tA tB).run]
    rw [hrun] at hy
    match xs, hy with
    | [a, b], hy =>
      have hy : matMulRun tA tB a b = .ok y := hy
      obtain ⟨r, c, r', c', ha, hb, h⟩ := matMul_ok_shapes hy
      refine ⟨matMul_shp hy, fun i j _ _ => ?_⟩
      rw [matMul_entry ha hb h hy]
      have fA : flipShp tA a.shape = sz tA r c := by rw [ha]; cases tA <;> rfl
      rw [fA]
      exact dotOf_exact hu _ _ _
  · have hrun : o.run = (batchTOp tA tB).run := by rw [hB.1, (batchSym_of tA tB).run]
    rw [hrun] at hy
    obtain ⟨-, h2, h3, h4⟩ := hB
    match xs, hy with
    | [a, b], hy =>
      have hy : batchRun tA tB a b = .ok y := hy
      simp only [List.map_cons, List.map_nil, List.cons.injEq, and_true] at h2
      obtain ⟨y', y1, y2, -⟩ := batchTOp_good tA tB s a b r c r' c' h3 h2.1 h2.2 h4
      rw [hy] at y1
      cases y1
      refine ⟨y2, fun p i j hp _ _ => ?_⟩
      rw [batchRun_at tA tB s a b y r c r' c' h3 h2.1 h2.2 h4 hy p hp]
      exact dotOf_exact hu _ _ _

/-! ### Examples -/

/-- `9` with three bits. -/
example : fl 3 9 = 10 := by
  have h : Int.log 2 |(9 : ℝ)| = 3 := by
    rw [abs_of_pos (by norm_num), show (9 : ℝ) = ((9 : ℕ) : ℝ) by norm_num, Int.log_natCast]
    decide
  unfold fl
  rw [h, show ((9 : ℝ) / 2 ^ ((3 : ℤ) + 1 - ((3 : ℕ) : ℤ))) = 9 / 2 by norm_num, show round ((9 : ℝ) / 2) = 5 by
    rw [round_eq, Int.floor_eq_iff]; norm_num]
  norm_num

/-- A small number that is added to `1` twice is lost; added to itself first it is not. -/
example : SumOf (1 / 8) [1, 1 / 8, 1 / 8] 1 ∧ SumOf (1 / 8) [1, 1 / 8, 1 / 8] (5 / 4) := by
  constructor
  · refine .add (l := [1, 1 / 8]) (s := 1) (.add (l := [1]) (.one 1) (.one (1 / 8)) ?_) (.one (1 / 8)) ?_ <;>
    · unfold Rnd; norm_num [abs_of_pos, abs_of_neg]
  · refine .add (l := [1]) (.one 1) (.add (l := [1 / 8]) (s := 1 / 8) (t := 1 / 4) (.one (1 / 8)) (.one (1 / 8)) ?_) ?_ <;>
    · unfold Rnd; norm_num [abs_of_pos, abs_of_neg]

/-- With the roundoff `u` the sum of three numbers is off by at most `(2 u + u²)` times the sum of the absolute values. -/
example (u s : ℝ) (hu : 0 ≤ u) (h : SumOf u [1, -3, 2] s) : |s| ≤ (2 * u + u ^ 2) * 6 := by
  have := sum_error hu h
  norm_num [mass] at this
  linarith

/-- One head of attention with one position, trained with rounded numbers: after any number of rounds the weights are near those of
the exact machine. -/
example (F : Verif.Solver.Fields) (hc : Verif.Solver.ClipOk F) (hl : F.useL1Reg = false) (N : Nat) (ε : ℝ) (hε : 0 < ε) :
    ∃ res dv t' u₀, gradX (Train.attG 1) (Train.attSh 1 1 1 1 1 [1, 1, 1]) (fun _ => 0) (fun _ => none) 0 [12, 13, 14] = some (res, dv) ∧
      Train.epochs (Train.buildP (Train.attG 1) (Train.planOf (Train.attG 1) res).1 (Train.planOf (Train.attG 1) res).2) []
        (Train.buildE id (Train.attG 1) (Train.planOf (Train.attG 1) res).1 (Train.adOf (Train.attG 1)))
        (Train.cfgOf (Train.attG 1) (Train.attSh 1 1 1 1 1 [1, 1, 1]) [12, 13, 14] (Train.planOf (Train.attG 1) res).2)
        (fun _ => Train.tensorSol (Verif.Solver.vanillaNode F)) (Train.posOf (Train.attG 1)) (Train.adOf (Train.attG 1)) [12, 13, 14] N
        (Train.startOf (Train.attG 1) fun i => ⟨[1, 1, 1], fun _ => i⟩) = some t' ∧ 0 < u₀ ∧
      ∀ u, 0 ≤ u → u ≤ u₀ → ∀ X : Nat → Nat → T ℝ, (∀ i, Close u (X 0 i) ⟨[1, 1, 1], fun _ => (min i 15 : ℕ)⟩) →
        (∀ k, k < N → RoundedStep flImp (Train.attG 1) [12, 13, 14] res (fun u xs y => ∃ z, descend F xs = .ok z ∧ Close u y z) u (X k) (X (k + 1))) →
        Close ε (X N 14) (t'.m.mem 14) := by
  obtain ⟨res, dv, h1, H⟩ := attention_training_rounded flImp_sound flImp_mono 1 1 1 1 1 1 one_pos one_pos one_pos
    (fun i => ⟨[1, 1, 1], fun _ => i⟩) rfl rfl rfl rfl rfl F hc hl (fun _ => 0) (fun u xs y => ∃ z, descend F xs = .ok z ∧ Close u y z)
    (fun w g _ ε hε => ⟨ε, hε, 1, one_pos, fun u _ hu xs' _ y ⟨z, z1, z2⟩ => ⟨z, z1, z2.mono hu⟩⟩)
  obtain ⟨t', t1, t2⟩ := H [] (by simp) N
  obtain ⟨u₀, hu₀, t3⟩ := t2 ε hε
  exact ⟨res, dv, t', u₀, h1, t1, hu₀, fun u h0 hu X hX hs => (t3 u h0 hu X hX hs).2.2⟩

end

end Verif.Round
