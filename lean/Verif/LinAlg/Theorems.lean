import Verif.LinAlg.Model
/-!
Gradients of linear algebra operations (C35) and the batch loop (C37).
-/
set_option autoImplicit false
namespace Verif.LinAlg

/-! ### C35 -/

theorem hasDerivAt_line (a b c d : ℝ) : HasDerivAt (fun s : ℝ => (a + s * b) * (c + s * d)) (b * c + a * d) 0 := by
  have h1 : HasDerivAt (fun s : ℝ => a + s * b) b 0 := by
    refine (((hasDerivAt_id (0 : ℝ)).mul_const b).const_add a).congr_deriv (by simp)
  have h2 : HasDerivAt (fun s : ℝ => c + s * d) d 0 := by
    refine (((hasDerivAt_id (0 : ℝ)).mul_const d).const_add c).congr_deriv (by simp)
  refine (h1.mul h2).congr_deriv ?_
  simp

theorem matMul_some (tA tB : Bool) (a b z : M) (h : matMul tA tB a b = some z) :
    (a.flip tA).c = (b.flip tB).r ∧ z.r = (a.flip tA).r ∧ z.c = (b.flip tB).c ∧
    ∀ i j, z.f i j = ∑ k ∈ Finset.range (a.flip tA).c, (a.flip tA).f i k * (b.flip tB).f k j := by
  unfold matMul matMul0 at h
  split at h
  · rename_i e
    simp only [Option.some.injEq] at h
    subst h
    exact ⟨e, rfl, rfl, fun _ _ => rfl⟩
  · cases h

theorem matMul_eq (tA tB : Bool) (a b : M) (h : (a.flip tA).c = (b.flip tB).r) :
    matMul tA tB a b = some ⟨(a.flip tA).r, (b.flip tB).c,
      fun i j => ∑ k ∈ Finset.range (a.flip tA).c, (a.flip tA).f i k * (b.flip tB).f k j⟩ := by
  unfold matMul matMul0; rw [if_pos h]

theorem matMul_deriv (tA tB : Bool) (a b a' b' g z : M) (h : matMul tA tB a b = some z) (hg : g.Like z)
    (ha : a'.Like a) (hb : b'.Like b) :
    HasDerivAt (fun s => ((matMul tA tB (a.move a' s) (b.move b' s)).map g.dot).getD 0)
      (∑ i ∈ Finset.range g.r, ∑ j ∈ Finset.range g.c, g.f i j * ∑ k ∈ Finset.range (a.flip tA).c,
        ((a'.flip tA).f i k * (b.flip tB).f k j + (a.flip tA).f i k * (b'.flip tB).f k j)) 0 := by
  obtain ⟨h1, h2, h3, h4⟩ := matMul_some tA tB a b z h
  have e : (fun s => ((matMul tA tB (a.move a' s) (b.move b' s)).map g.dot).getD 0) = fun s =>
      ∑ i ∈ Finset.range g.r, ∑ j ∈ Finset.range g.c, g.f i j * ∑ k ∈ Finset.range (a.flip tA).c,
        ((a.flip tA).f i k + s * (a'.flip tA).f i k) * ((b.flip tB).f k j + s * (b'.flip tB).f k j) := by
    funext s
    have hf : ∀ (t : Bool) (x x' : M), ((x.move x' s).flip t).r = (x.flip t).r ∧ ((x.move x' s).flip t).c = (x.flip t).c ∧
        ∀ i j, ((x.move x' s).flip t).f i j = (x.flip t).f i j + s * (x'.flip t).f i j := by
      intro t x x'; cases t <;> exact ⟨rfl, rfl, fun _ _ => rfl⟩
    rw [matMul_eq _ _ _ _ (by rw [(hf tA a a').2.1, (hf tB b b').1]; exact h1)]
    simp only [Option.map_some, Option.getD_some, M.dot, (hf tA a a').2.1, (hf tA a a').2.2, (hf tB b b').2.2]
  rw [e]
  refine HasDerivAt.fun_sum (fun i _ => HasDerivAt.fun_sum (fun j _ => HasDerivAt.const_mul _ (HasDerivAt.fun_sum (fun k _ => ?_))))
  exact hasDerivAt_line _ _ _ _

section
variable {A B C : Finset ℕ} (f : ℕ → ℕ → ℕ → ℝ)

theorem p132 : ∑ i ∈ A, ∑ j ∈ B, ∑ k ∈ C, f i j k = ∑ i ∈ A, ∑ k ∈ C, ∑ j ∈ B, f i j k :=
  Finset.sum_congr rfl fun _ _ => Finset.sum_comm
theorem p213 : ∑ i ∈ A, ∑ j ∈ B, ∑ k ∈ C, f i j k = ∑ j ∈ B, ∑ i ∈ A, ∑ k ∈ C, f i j k := Finset.sum_comm
theorem p312 : ∑ i ∈ A, ∑ j ∈ B, ∑ k ∈ C, f i j k = ∑ k ∈ C, ∑ i ∈ A, ∑ j ∈ B, f i j k := by rw [p132, p213 (fun i k j => f i j k)]
theorem p231 : ∑ i ∈ A, ∑ j ∈ B, ∑ k ∈ C, f i j k = ∑ j ∈ B, ∑ k ∈ C, ∑ i ∈ A, f i j k := by rw [p213, p132 (fun j i k => f i j k)]
theorem p321 : ∑ i ∈ A, ∑ j ∈ B, ∑ k ∈ C, f i j k = ∑ k ∈ C, ∑ j ∈ B, ∑ i ∈ A, f i j k := by rw [p312, p132 (fun k i j => f i j k)]
end

/-- **C35 (matrix products).** For every pair of flags and all sizes and contents: if the product exists, both gradient
expressions exist, have the sizes of the operands, and pairing them with any perturbations of the operands gives the
derivative of the pairing of the incoming gradient with the product. -/
theorem matMul_adjoint (tA tB : Bool) (a b g z : M) (h : matMul tA tB a b = some z) (hg : g.Like z) :
    ∃ da db, (matMulDiff tA tB a b g).1 = some da ∧ (matMulDiff tA tB a b g).2 = some db ∧ da.Like a ∧ db.Like b ∧
      ∀ a' b' : M, a'.Like a → b'.Like b →
        HasDerivAt (fun s => ((matMul tA tB (a.move a' s) (b.move b' s)).map g.dot).getD 0) (da.dot a' + db.dot b') 0 := by
  obtain ⟨h1, h2, h3, h4⟩ := matMul_some tA tB a b z h
  have hd := fun a' b' ha hb => matMul_deriv tA tB a b a' b' g z h hg ha hb
  have hgr : g.r = (a.flip tA).r := hg.1.trans h2
  have hgc : g.c = (b.flip tB).c := hg.2.trans h3
  cases tA <;> cases tB <;> simp only [M.flip, M.T, if_true, if_false, Bool.false_eq_true] at h1 h2 h3 h4 hgr hgc hd <;>
    unfold matMulDiff <;> simp only
  · refine ⟨_, _, matMul_eq false true g b (by simp [M.flip, M.T, hgc]), matMul_eq true false a g (by simp [M.flip, M.T, hgr]),
      ⟨hgr, h1.symm⟩, ⟨h1, hgc⟩, fun a' b' ha hb => (hd a' b' ha hb).congr_deriv ?_⟩
    simp only [M.dot, M.flip, M.T, if_true, if_false, Bool.false_eq_true, Finset.sum_mul, Finset.mul_sum, mul_add,
      Finset.sum_add_distrib, hgr, hgc, h1]
    congr 1
    · rw [p132]
      exact Finset.sum_congr rfl (fun _ _ => Finset.sum_congr rfl (fun _ _ => Finset.sum_congr rfl (fun _ _ => by ring)))
    · rw [p321]
      exact Finset.sum_congr rfl (fun _ _ => Finset.sum_congr rfl (fun _ _ => Finset.sum_congr rfl (fun _ _ => by ring)))
  · refine ⟨_, _, matMul_eq false false g b (by simp [M.flip, hgc]), matMul_eq true false g a (by simp [M.flip, M.T, hgr]),
      ⟨hgr, h1.symm⟩, ⟨hgc, h1⟩, fun a' b' ha hb => (hd a' b' ha hb).congr_deriv ?_⟩
    simp only [M.dot, M.flip, M.T, if_true, if_false, Bool.false_eq_true, Finset.sum_mul, Finset.mul_sum, mul_add,
      Finset.sum_add_distrib, hgr, hgc, h1]
    congr 1
    · rw [p132]
      exact Finset.sum_congr rfl (fun _ _ => Finset.sum_congr rfl (fun _ _ => Finset.sum_congr rfl (fun _ _ => by ring)))
    · rw [p231]
      exact Finset.sum_congr rfl (fun _ _ => Finset.sum_congr rfl (fun _ _ => Finset.sum_congr rfl (fun _ _ => by ring)))
  · refine ⟨_, _, matMul_eq false true b g (by simp [M.flip, M.T, hgc]), matMul_eq false false a g (by simp [M.flip, hgr]),
      ⟨h1.symm, hgr⟩, ⟨h1, hgc⟩, fun a' b' ha hb => (hd a' b' ha hb).congr_deriv ?_⟩
    simp only [M.dot, M.flip, M.T, if_true, if_false, Bool.false_eq_true, Finset.sum_mul, Finset.mul_sum, mul_add,
      Finset.sum_add_distrib, hgr, hgc, h1]
    congr 1
    · rw [p312]
      exact Finset.sum_congr rfl (fun _ _ => Finset.sum_congr rfl (fun _ _ => Finset.sum_congr rfl (fun _ _ => by ring)))
    · rw [p321]
      exact Finset.sum_congr rfl (fun _ _ => Finset.sum_congr rfl (fun _ _ => Finset.sum_congr rfl (fun _ _ => by ring)))
  · refine ⟨_, _, matMul_eq true true b g (by simp [M.flip, M.T, hgc]), matMul_eq true true g a (by simp [M.flip, M.T, hgr]),
      ⟨h1.symm, hgr⟩, ⟨hgc, h1⟩, fun a' b' ha hb => (hd a' b' ha hb).congr_deriv ?_⟩
    simp only [M.dot, M.flip, M.T, if_true, if_false, Bool.false_eq_true, Finset.sum_mul, Finset.mul_sum, mul_add,
      Finset.sum_add_distrib, hgr, hgc, h1]
    congr 1
    · rw [p312]
      exact Finset.sum_congr rfl (fun _ _ => Finset.sum_congr rfl (fun _ _ => Finset.sum_congr rfl (fun _ _ => by ring)))
    · rw [p231]
      exact Finset.sum_congr rfl (fun _ _ => Finset.sum_congr rfl (fun _ _ => Finset.sum_congr rfl (fun _ _ => by ring)))

/-- **C35 (matrix and vector).** -/
theorem matVec_adjoint (tA : Bool) (a : M) (y g z : V) (h : matVec tA a y = some z) (hg : g.n = z.n) :
    ∃ dy, (matVecDiff tA a y g).2 = some dy ∧ (matVecDiff tA a y g).1.Like a ∧ dy.n = y.n ∧
      ∀ (a' : M) (y' : V), a'.Like a → y'.n = y.n →
        HasDerivAt (fun s => ((matVec tA (a.move a' s) (y.move y' s)).map g.dot).getD 0)
          ((matVecDiff tA a y g).1.dot a' + dy.dot y') 0 := by
  have h1 : (a.flip tA).c = y.n ∧ z.n = (a.flip tA).r := by
    unfold matVec at h
    simp only at h
    split at h
    · rename_i e; simp only [Option.some.injEq] at h; subst h; exact ⟨e, rfl⟩
    · cases h
  have hd : ∀ (a' : M) (y' : V), HasDerivAt (fun s => ((matVec tA (a.move a' s) (y.move y' s)).map g.dot).getD 0)
      (∑ i ∈ Finset.range g.n, g.f i * ∑ k ∈ Finset.range (a.flip tA).c,
        ((a'.flip tA).f i k * y.f k + (a.flip tA).f i k * y'.f k)) 0 := by
    intro a' y'
    have e : (fun s => ((matVec tA (a.move a' s) (y.move y' s)).map g.dot).getD 0) = fun s =>
        ∑ i ∈ Finset.range g.n, g.f i * ∑ k ∈ Finset.range (a.flip tA).c,
          ((a.flip tA).f i k + s * (a'.flip tA).f i k) * (y.f k + s * y'.f k) := by
      funext s
      have hf : ((a.move a' s).flip tA).c = (a.flip tA).c ∧
          ∀ i j, ((a.move a' s).flip tA).f i j = (a.flip tA).f i j + s * (a'.flip tA).f i j := by
        cases tA <;> exact ⟨rfl, fun _ _ => rfl⟩
      unfold matVec
      simp only
      rw [if_pos (show ((a.move a' s).flip tA).c = (y.move y' s).n from hf.1.trans h1.1)]
      simp only [Option.map_some, Option.getD_some, V.dot, hf.1, hf.2, V.move]
    rw [e]
    exact HasDerivAt.fun_sum (fun i _ => HasDerivAt.const_mul _ (HasDerivAt.fun_sum (fun k _ => hasDerivAt_line _ _ _ _)))
  have hgr : g.n = (a.flip tA).r := hg.trans h1.2
  obtain ⟨h1, h2⟩ := h1
  cases tA <;> simp only [M.flip, M.T, if_true, if_false, Bool.false_eq_true] at h1 h2 hgr hd <;>
    simp only [matVecDiff, matVec, M.flip, M.T, Bool.not_false, Bool.not_true, if_true, if_false, Bool.false_eq_true]
  · rw [if_pos hgr.symm]
    refine ⟨_, rfl, ⟨hgr, h1.symm⟩, h1, fun a' y' ha hy => ?_⟩
    refine HasDerivAt.congr_deriv (hd a' y') ?_
    simp only [M.dot, V.dot, outer, Finset.sum_mul, Finset.mul_sum, mul_add, Finset.sum_add_distrib, hgr, h1]
    congr 1
    · exact Finset.sum_congr rfl (fun _ _ => Finset.sum_congr rfl (fun _ _ => by ring))
    · rw [Finset.sum_comm]
      exact Finset.sum_congr rfl (fun _ _ => Finset.sum_congr rfl (fun _ _ => by ring))
  · rw [if_pos hgr.symm]
    refine ⟨_, rfl, ⟨h1.symm, hgr⟩, h1, fun a' y' ha hy => ?_⟩
    refine HasDerivAt.congr_deriv (hd a' y') ?_
    simp only [M.dot, V.dot, outer, Finset.sum_mul, Finset.mul_sum, mul_add, Finset.sum_add_distrib, hgr, h1]
    congr 1
    · rw [Finset.sum_comm]
      exact Finset.sum_congr rfl (fun _ _ => Finset.sum_congr rfl (fun _ _ => by ring))
    · rw [Finset.sum_comm]
      exact Finset.sum_congr rfl (fun _ _ => Finset.sum_congr rfl (fun _ _ => by ring))

/-- **C35 (inner products).** -/
theorem vecDot_adjoint (x y x' y' : V) (z g : ℝ) (h : vecDot x y = some z) :
    (vecDotDiff x y g).1.n = x.n ∧ (vecDotDiff x y g).2.n = y.n ∧
    HasDerivAt (fun s => g * (vecDot (x.move x' s) (y.move y' s)).getD 0)
      ((vecDotDiff x y g).1.dot x' + (vecDotDiff x y g).2.dot y') 0 := by
  have hn : x.n = y.n := by
    unfold vecDot at h
    split at h
    · assumption
    · cases h
  refine ⟨hn.symm, hn, ?_⟩
  have e : (fun s => g * (vecDot (x.move x' s) (y.move y' s)).getD 0) = fun s =>
      g * ∑ k ∈ Finset.range x.n, (x.f k + s * x'.f k) * (y.f k + s * y'.f k) := by
    funext s
    unfold vecDot
    rw [if_pos (show (x.move x' s).n = (y.move y' s).n from hn)]
    rfl
  rw [e]
  refine HasDerivAt.congr_deriv (HasDerivAt.const_mul _ (HasDerivAt.fun_sum (fun k _ => hasDerivAt_line _ _ _ _))) ?_
  simp only [vecDotDiff, V.dot, V.scale, hn, Finset.sum_add_distrib, mul_add, Finset.mul_sum]
  congr 1 <;> exact Finset.sum_congr rfl (fun _ _ => by ring)

/-- What the gradients of an outer product should be. -/
theorem outer_deriv (x y x' y' : V) (g : M) (hg : g.Like (outer x y)) :
    HasDerivAt (fun s => g.dot (outer (x.move x' s) (y.move y' s)))
      ((∑ i ∈ Finset.range x.n, (∑ j ∈ Finset.range y.n, g.f i j * y.f j) * x'.f i) +
        ∑ j ∈ Finset.range y.n, (∑ i ∈ Finset.range x.n, g.f i j * x.f i) * y'.f j) 0 := by
  have e : (fun s => g.dot (outer (x.move x' s) (y.move y' s))) = fun s =>
      ∑ i ∈ Finset.range x.n, ∑ j ∈ Finset.range y.n, g.f i j * ((x.f i + s * x'.f i) * (y.f j + s * y'.f j)) := by
    funext s
    simp only [M.dot, outer, V.move]
    rw [hg.1, hg.2]; rfl
  rw [e]
  refine HasDerivAt.congr_deriv (HasDerivAt.fun_sum (fun i _ => HasDerivAt.fun_sum (fun j _ =>
    HasDerivAt.const_mul _ (hasDerivAt_line _ _ _ _)))) ?_
  simp only [Finset.sum_mul, mul_add, Finset.sum_add_distrib]
  congr 1
  · exact Finset.sum_congr rfl (fun _ _ => Finset.sum_congr rfl (fun _ _ => by ring))
  · rw [Finset.sum_comm]
    exact Finset.sum_congr rfl (fun _ _ => Finset.sum_congr rfl (fun _ _ => by ring))

/-- **C35 fails** for outer products of vectors of different lengths: one of the two gradients cannot be built (and the other
has the wrong length). -/
theorem outer_sizes_wrong (x y : V) (g : M) (hg : g.Like (outer x y)) (h : x.n ≠ y.n) :
    (∃ d, (outerDiff x y g).1 = some d ∧ d.n ≠ x.n) ∧ (outerDiff x y g).2 = none := by
  have hr : g.r = x.n := hg.1
  have hc : g.c = y.n := hg.2
  simp only [outerDiff, mulVM, matVec, M.flip, if_true, M.T]
  rw [if_pos hr, if_neg (by rw [hr]; exact h)]
  exact ⟨⟨_, rfl, by simpa [hc] using Ne.symm h⟩, rfl⟩

/-- **C35 fails** for outer products of vectors of equal length: the gradient for `x` is `gᵀ x` in place of `g y`, and the one for
`y` is `gᵀ y` in place of `gᵀ x`. -/
theorem outer_values (x y : V) (g : M) (hg : g.Like (outer x y)) (h : x.n = y.n) :
    ∃ dx dy, outerDiff x y g = (some dx, some dy) ∧ (∀ j, dx.f j = ∑ i ∈ Finset.range x.n, g.f i j * x.f i) ∧
      ∀ j, dy.f j = ∑ i ∈ Finset.range x.n, g.f i j * y.f i := by
  have hr : g.r = x.n := hg.1
  simp only [outerDiff, mulVM, matVec, M.flip, if_true, M.T]
  rw [if_pos hr, if_pos (hr.trans h)]
  refine ⟨_, _, rfl, fun j => ?_, fun j => ?_⟩
  · simp only [hr]
  · simp only [hr]

/-- Two scalars as vectors of length one: `x = 2`, `y = 3`, incoming gradient 1: the derivative in `x` is 3, the gradient is 2. -/
theorem outer_wrong : ∃ dx : V, (outerDiff ⟨1, fun _ => 2⟩ ⟨1, fun _ => 3⟩ ⟨1, 1, fun _ _ => 1⟩).1 = some dx ∧ dx.f 0 = 2 ∧
    HasDerivAt (fun s => M.dot ⟨1, 1, fun _ _ => 1⟩ (outer (V.move ⟨1, fun _ => 2⟩ ⟨1, fun _ => 1⟩ s) ⟨1, fun _ => 3⟩)) 3 0 := by
  refine ⟨_, rfl, ?_, ?_⟩
  · simp [M.flip, M.T]
  · have e : (fun s => M.dot ⟨1, 1, fun _ _ => 1⟩ (outer (V.move ⟨1, fun _ => 2⟩ ⟨1, fun _ => 1⟩ s) ⟨1, fun _ => 3⟩)) =
        fun s : ℝ => (2 + s * 1) * (3 + s * 0) := by
      funext s; simp [M.dot, outer, V.move]
    rw [e]
    refine (hasDerivAt_line 2 1 3 0).congr_deriv (by norm_num)

/-- Concrete case: `aᵀ b` of a 2×1 and a 2×1 matrix, flags (true, false). -/
example : matMulDiff true false ⟨2, 1, fun i _ => i + 1⟩ ⟨2, 1, fun i _ => 10 * i⟩ ⟨1, 1, fun _ _ => 3⟩ =
    (matMul false true ⟨2, 1, fun i _ => 10 * i⟩ ⟨1, 1, fun _ _ => 3⟩,
     matMul false false ⟨2, 1, fun i _ => i + 1⟩ ⟨1, 1, fun _ _ => 3⟩) ∧
    ∃ z, matMul true false ⟨2, 1, fun i _ => i + 1⟩ ⟨2, 1, fun i _ => 10 * i⟩ = some z ∧ z.f 0 0 = 20 := by
  refine ⟨rfl, _, rfl, ?_⟩
  simp [M.flip, M.T, Finset.sum_range_succ]; norm_num

/-! ### C37 -/

open Verif.Tensor

/-- Little-endian coordinates. -/
def digits : List Nat → Nat → List Nat
  | [], _ => []
  | d :: s, k => k % d :: digits s (k / d)

theorem unravel_snoc (s : List Nat) (d k : Nat) (hk : k < size (s ++ [d])) :
    unravel (s ++ [d]) k = unravel s (k / d) ++ [k % d] := by
  induction s generalizing k with
  | nil =>
    simp only [List.nil_append, size, Nat.mul_one] at hk
    simp [unravel, size, Nat.mod_eq_of_lt hk]
  | cons e s ih =>
    simp only [List.cons_append, size] at hk
    have hp : 0 < size (s ++ [d]) := by
      rcases Nat.eq_zero_or_pos (size (s ++ [d])) with h | h
      · rw [h] at hk; simp at hk
      · exact h
    have hs : size (s ++ [d]) = d * size s := by rw [size_append]; simp [size, Nat.mul_comm]
    simp only [List.cons_append, unravel]
    rw [ih _ (Nat.mod_lt _ hp), hs]
    congr 1
    · rw [Nat.div_div_eq_div_mul]
    · congr 1
      · rw [Nat.mod_mul_right_div_self]
      · rw [Nat.mod_mul_right_mod]

theorem digits_reverse (s : List Nat) (k : Nat) (hk : k < size s) : (digits s.reverse k).reverse = unravel s k := by
  obtain ⟨l, rfl⟩ : ∃ l, s = l.reverse := ⟨s.reverse, by simp⟩
  rw [List.reverse_reverse]
  induction l generalizing k with
  | nil => rfl
  | cons d l ih =>
    rw [List.reverse_cons] at hk ⊢
    rw [unravel_snoc _ _ _ hk]
    simp only [digits, List.reverse_cons]
    have hs : size (l.reverse ++ [d]) = size l.reverse * d := by rw [size_append]; simp [size]
    rw [hs] at hk
    rw [ih (k / d) (Nat.div_lt_of_lt_mul (by rw [Nat.mul_comm]; exact hk))]

theorem size_reverse (s : List Nat) : size s.reverse = size s := by
  induction s with
  | nil => rfl
  | cons d s ih => rw [List.reverse_cons, size_append, ih]; simp [size, Nat.mul_comm]

/-- One step of the counter. -/
theorem incrRev_digits (s : List Nat) (k : Nat) (hk : k < size s) :
    (incrRev (digits s k) s).2 = decide (k + 1 = size s) ∧
    (k + 1 < size s → (incrRev (digits s k) s).1 = digits s (k + 1)) := by
  induction s generalizing k with
  | nil =>
    simp only [size] at hk
    have : k = 0 := by omega
    subst this
    exact ⟨rfl, fun h => by simp [size] at h⟩
  | cons d s ih =>
    simp only [size] at hk
    have hd : 0 < d := by
      rcases Nat.eq_zero_or_pos d with h | h
      · rw [h] at hk; simp at hk
      · exact h
    have hq : k / d < size s := Nat.div_lt_of_lt_mul hk
    have hm := Nat.mod_lt k hd
    have hdm := Nat.div_add_mod k d
    obtain ⟨i1, i2⟩ := ih (k / d) hq
    simp only [digits, incrRev, size]
    by_cases e : d - k % d = 1
    · rw [if_pos e]
      have hk1 : k + 1 = d * (k / d + 1) := by rw [Nat.mul_add]; omega
      have hdiv : (k + 1) / d = k / d + 1 := by rw [hk1, Nat.mul_div_cancel_left _ hd]
      have hmod : (k + 1) % d = 0 := by rw [hk1, Nat.mul_mod_right]
      refine ⟨?_, fun h => ?_⟩
      · rw [i1]
        congr 1
        rw [hk1]
        exact propext ⟨fun h => by rw [h], fun h => Nat.eq_of_mul_eq_mul_left hd h⟩
      · rw [hdiv, hmod, i2 (by rw [hk1] at h; exact Nat.lt_of_mul_lt_mul_left h)]
    · rw [if_neg e]
      have hlt : k % d + 1 < d := by omega
      have hdiv : (k + 1) / d = k / d := by
        have : k + 1 = k % d + 1 + d * (k / d) := by omega
        rw [this, Nat.add_mul_div_left _ _ hd, Nat.div_eq_of_lt hlt]; omega
      have hmod : (k + 1) % d = k % d + 1 := by
        have : k + 1 = k % d + 1 + d * (k / d) := by omega
        rw [this, Nat.add_mul_mod_self_left, Nat.mod_eq_of_lt hlt]
      refine ⟨?_, fun _ => by rw [hdiv, hmod]⟩
      refine (decide_eq_false (fun h => ?_)).symm
      have : (k + 1) % d = 0 := by rw [h]; exact Nat.mul_mod_right _ _
      omega

/-- **C37 (one step).** From the `k`-th position of the outer shape the counter goes to the next one, and it halts exactly at the
last one. -/
theorem incrSlices_next (shp : List Nat) (k : Nat) (hk : k < size shp) :
    (incrSlices (unravel shp k) shp).2 = decide (k + 1 = size shp) ∧
    (k + 1 < size shp → (incrSlices (unravel shp k) shp).1 = unravel shp (k + 1)) := by
  have h := incrRev_digits shp.reverse k (by rw [size_reverse]; exact hk)
  rw [size_reverse] at h
  have e : (unravel shp k).reverse = digits shp.reverse k := by rw [← digits_reverse shp k hk, List.reverse_reverse]
  unfold incrSlices
  simp only [e]
  exact ⟨h.1, fun h1 => by rw [h.2 h1, digits_reverse shp _ h1]⟩

theorem visits_from (shp : List Nat) (m k : Nat) (hk : k < size shp) (hm : size shp - k ≤ m) :
    visits shp m (unravel shp k) = (List.range' k (size shp - k)).map (unravel shp) := by
  induction m generalizing k with
  | zero => omega
  | succ m ih =>
    obtain ⟨h1, h2⟩ := incrSlices_next shp k hk
    simp only [visits, h1]
    have hs : size shp - k = (size shp - (k + 1)) + 1 := by omega
    rw [hs, List.range'_succ, List.map_cons]
    congr 1
    by_cases e : k + 1 = size shp
    · simp [e]
    · rw [if_neg (by simpa using e), h2 (by omega), ih (k + 1) (by omega) (by omega)]

theorem zeros_eq (shp : List Nat) : (shp.map fun _ => 0) = unravel shp 0 := by
  induction shp with
  | nil => rfl
  | cons d s ih => simp [unravel, ih]

theorem size_pos_of (shp : List Nat) (h : ∀ d ∈ shp, 0 < d) : 0 < size shp := by
  induction shp with
  | nil => simp [size]
  | cons d s ih => exact Nat.mul_pos (h d (by simp)) (ih fun e he => h e (by simp [he]))

/-- **C37.** For every outer shape with positive sizes: the loop ends after as many rounds as there are positions, and visits all
of them in row-major order. -/
theorem visits_all (shp : List Nat) (h : ∀ d ∈ shp, 0 < d) (n : Nat) (hn : size shp ≤ n) :
    visits shp n (shp.map fun _ => 0) = (List.range (size shp)).map (unravel shp) := by
  rw [zeros_eq, visits_from shp n 0 (size_pos_of shp h) (by omega), Nat.sub_zero, List.range_eq_range']

/-- … each exactly once. -/
theorem visits_once (shp : List Nat) (h : ∀ d ∈ shp, 0 < d) (n : Nat) (hn : size shp ≤ n) (p : List Nat) :
    (visits shp n (shp.map fun _ => 0)).count p = if InB shp p then 1 else 0 := by
  rw [visits_all shp h n hn]
  have hnd : ((List.range (size shp)).map (unravel shp)).Nodup := by
    refine List.Nodup.map_on ?_ List.nodup_range
    intro a ha b hb e
    rw [List.mem_range] at ha hb
    rw [← ravel_unravel ha, ← ravel_unravel hb, e]
  split
  · rename_i hp
    refine List.count_eq_one_of_mem hnd ?_
    rw [List.mem_map]
    exact ⟨ravel shp p, List.mem_range.2 (ravel_lt hp), unravel_ravel hp⟩
  · rename_i hp
    refine List.count_eq_zero.2 (fun hm => hp ?_)
    obtain ⟨k, hk, rfl⟩ := List.mem_map.1 hm
    exact inB_unravel (List.mem_range.1 hk)

/-- Concrete case. -/
example : visits [2, 1, 3] 10 [0, 0, 0] = [[0,0,0], [0,0,1], [0,0,2], [1,0,0], [1,0,1], [1,0,2]] := by decide

theorem batchLoop_spec (tA tB : Bool) (a b c : List Nat → M) (l : List (List Nat)) (hl : l.Nodup)
    (hz : ∀ p ∈ l, ∃ z, matMul tA tB (a p) (b p) = some z) :
    ∃ r, batchLoop tA tB false a b l c = some r ∧ (∀ p ∈ l, matMul tA tB (a p) (b p) = some (r p)) ∧
      ∀ p, p ∉ l → r p = c p := by
  induction l generalizing c with
  | nil => exact ⟨c, rfl, by simp, by simp⟩
  | cons p l ih =>
    obtain ⟨z, hz1⟩ := hz p (by simp)
    rw [List.nodup_cons] at hl
    obtain ⟨r, h1, h2, h3⟩ := ih (fun q => if q = p then z else c q) hl.2 (fun q hq => hz q (by simp [hq]))
    refine ⟨r, ?_, fun q hq => ?_, fun q hq => ?_⟩
    · simp only [batchLoop, hz1]
      exact h1
    · rcases List.mem_cons.1 hq with rfl | hq
      · rw [h3 q hl.1, hz1]; simp
      · exact h2 q hq
    · rw [List.mem_cons, not_or] at hq
      rw [h3 q hq.2, if_neg hq.1]

/-- **C37 (consequence).** Batched multiplication computes, at every position of the outer shape, the product of the two matrices
there, and nothing else. -/
theorem batchedMatMul_spec (shp : List Nat) (h : ∀ d ∈ shp, 0 < d) (tA tB : Bool) (a b c : List Nat → M) (n : Nat)
    (hn : size shp ≤ n) (hz : ∀ p, InB shp p → ∃ z, matMul tA tB (a p) (b p) = some z) :
    ∃ r, batchedMatMul shp tA tB false a b c n = some r ∧
      (∀ p, InB shp p → matMul tA tB (a p) (b p) = some (r p)) ∧ ∀ p, ¬ InB shp p → r p = c p := by
  have hv := visits_once shp h n hn
  have hmem : ∀ p, p ∈ visits shp n (shp.map fun _ => 0) ↔ InB shp p := by
    intro p
    rw [← List.count_pos_iff, hv p]
    split <;> simp [*]
  have hnd : (visits shp n (shp.map fun _ => 0)).Nodup := by
    rw [List.nodup_iff_count_le_one]
    intro p; rw [hv p]; split <;> omega
  obtain ⟨r, h1, h2, h3⟩ := batchLoop_spec tA tB a b c _ hnd (fun p hp => hz p ((hmem p).1 hp))
  exact ⟨r, h1, fun p hp => h2 p ((hmem p).2 hp), fun p hp => h3 p (fun h => hp ((hmem p).1 h))⟩

/-- **C35 (batched products).** The gradient expressions of a batched product are, at every position, those of the product of
the two matrices there; so they are the adjoints. -/
theorem batched_adjoint (shp : List Nat) (h : ∀ d ∈ shp, 0 < d) (tA tB : Bool) (a b g zero : List Nat → M) (n : Nat)
    (hn : size shp ≤ n) (hz : ∀ p, InB shp p → ∃ z, matMul tA tB (a p) (b p) = some z ∧ (g p).Like z) :
    ∃ da db, batchedDiff shp tA tB a b g zero n = (some da, some db) ∧ ∀ p, InB shp p →
      (da p).Like (a p) ∧ (db p).Like (b p) ∧
      ∀ a' b' : M, a'.Like (a p) → b'.Like (b p) →
        HasDerivAt (fun s => ((matMul tA tB ((a p).move a' s) ((b p).move b' s)).map (g p).dot).getD 0)
          ((da p).dot a' + (db p).dot b') 0 := by
  have key := fun p hp => matMul_adjoint tA tB (a p) (b p) (g p) _ (hz p hp).choose_spec.1 (hz p hp).choose_spec.2
  have fin : ∀ (t1 t2 : Bool) (u v : List Nat → M) (t3 t4 : Bool) (u' v' : List Nat → M),
      (∀ p, InB shp p → (matMulDiff tA tB (a p) (b p) (g p)) = (matMul t1 t2 (u p) (v p), matMul t3 t4 (u' p) (v' p))) →
      batchedDiff shp tA tB a b g zero n = (batchedMatMul shp t1 t2 false u v zero n, batchedMatMul shp t3 t4 false u' v' zero n) →
      ∃ da db, batchedDiff shp tA tB a b g zero n = (some da, some db) ∧ ∀ p, InB shp p →
        (da p).Like (a p) ∧ (db p).Like (b p) ∧
        ∀ a' b' : M, a'.Like (a p) → b'.Like (b p) →
          HasDerivAt (fun s => ((matMul tA tB ((a p).move a' s) ((b p).move b' s)).map (g p).dot).getD 0)
            ((da p).dot a' + (db p).dot b') 0 := by
    intro t1 t2 u v t3 t4 u' v' hm hb
    obtain ⟨da, d1, d2, -⟩ := batchedMatMul_spec shp h t1 t2 u v zero n hn (fun p hp => by
      obtain ⟨x, y, hx, -⟩ := key p hp
      rw [hm p hp] at hx; exact ⟨x, hx⟩)
    obtain ⟨db, e1, e2, -⟩ := batchedMatMul_spec shp h t3 t4 u' v' zero n hn (fun p hp => by
      obtain ⟨x, y, -, hy, -⟩ := key p hp
      rw [hm p hp] at hy; exact ⟨y, hy⟩)
    refine ⟨da, db, by rw [hb, d1, e1], fun p hp => ?_⟩
    obtain ⟨x, y, hx, hy, k⟩ := key p hp
    rw [hm p hp] at hx hy
    simp only at hx hy
    rw [d2 p hp, Option.some.injEq] at hx
    rw [e2 p hp, Option.some.injEq] at hy
    subst hx hy
    exact k
  cases tA <;> cases tB
  · exact fin false true g b true false a g (fun _ _ => rfl) rfl
  · exact fin false false g b true false g a (fun _ _ => rfl) rfl
  · exact fin false true b g false false a g (fun _ _ => rfl) rfl
  · exact fin true true b g true true g a (fun _ _ => rfl) rfl

end Verif.LinAlg
