import Mathlib.Data.Real.Basic
import Mathlib.Algebra.BigOperators.Ring.Finset
import Mathlib.Tactic.Ring
import Mathlib.Tactic.NormNum
import Mathlib.Tactic.Linarith

/-!
# Matrix products on the device

Model of `cuda/linalg.go`: `MatVecMul`, `MatMul` and `Outer` of the engine call routines of cuBLAS, which take all
matrices as column-major. The routines are modelled by their reference semantics, with the checks which the reference
makes on leading dimensions. Numbers are real; memory is a function from addresses (counted in elements) to numbers;
the checks of `checkThreeFloat` (`cuda/linalg.go:17-44`) on element types and kinds of memory are left out.
-/

set_option autoImplicit false

namespace Verif.Cuda

/-- A matrix on the device: address, logical shape, and data order (column-major or not, transposed or not). -/
structure Mat where
  ptr : Nat
  rows : Nat
  cols : Nat
  col : Bool
  z : Bool

/-- Where element `(i, j)` of a matrix lies. A transposed matrix is one of shape `(cols, rows)` in memory. -/
def Mat.loc (t : Mat) (i j : Nat) : Nat :=
  match t.col, t.z with
  | false, false => t.ptr + (i * t.cols + j)
  | false, true => t.ptr + (j * t.rows + i)
  | true, false => t.ptr + (j * t.rows + i)
  | true, true => t.ptr + (i * t.cols + j)

/-! ## The routines of BLAS -/

/-- Element `(i, j)` of `op(A)` for a column-major matrix at `A` with leading dimension `ld`. -/
def opAt (trans : Bool) (A ld i j : Nat) : Nat := if trans then A + (j + i * ld) else A + (i + j * ld)

/-- Arguments of `Dgemm` and `Sgemm` with `alpha = 1` and `beta = 0` (`cuda/linalg.go:216` and `223`). -/
structure Gemm where
  tA : Bool
  tB : Bool
  m : Nat
  n : Nat
  k : Nat
  A : Nat
  lda : Nat
  B : Nat
  ldb : Nat
  C : Nat
  ldc : Nat

/-- The checks on the leading dimensions. -/
def Gemm.Ok (g : Gemm) : Prop :=
  (if g.tA then g.k else g.m) ≤ g.lda ∧ (if g.tB then g.n else g.k) ≤ g.ldb ∧ g.m ≤ g.ldc

/-- `C := op(A) op(B)`: the cells of `C` get the product, all others stay. -/
def Gemm.Does (g : Gemm) (m m' : Nat → ℝ) : Prop :=
  (∀ i j, i < g.m → j < g.n → m' (g.C + (i + j * g.ldc))
      = ∑ p ∈ Finset.range g.k, m (opAt g.tA g.A g.lda i p) * m (opAt g.tB g.B g.ldb p j))
    ∧ ∀ x, (∀ i j, i < g.m → j < g.n → x ≠ g.C + (i + j * g.ldc)) → m' x = m x

/-- Arguments of `Dgemv` and `Sgemv` (`cuda/linalg.go:95` and `102`); `incX = incY = 1`. -/
structure Gemv where
  tA : Bool
  m : Nat
  n : Nat
  A : Nat
  lda : Nat
  X : Nat
  Y : Nat

/-- The check on the leading dimension. -/
def Gemv.Ok (g : Gemv) : Prop := g.m ≤ g.lda

/-- `y := op(A) x`. -/
def Gemv.Does (g : Gemv) (m m' : Nat → ℝ) : Prop :=
  (∀ i, i < (if g.tA then g.n else g.m) → m' (g.Y + i)
      = ∑ p ∈ Finset.range (if g.tA then g.m else g.n), m (opAt g.tA g.A g.lda i p) * m (g.X + p))
    ∧ ∀ x, (∀ i, i < (if g.tA then g.n else g.m) → x ≠ g.Y + i) → m' x = m x

/-- Arguments of `Dger` and `Sger` (`cuda/linalg.go:276` and `282`). -/
structure Ger where
  m : Nat
  n : Nat
  X : Nat
  Y : Nat
  A : Nat
  lda : Nat

/-- `A := x yᵀ + A`. -/
def Ger.Does (g : Ger) (m m' : Nat → ℝ) : Prop :=
  (∀ i j, i < g.m → j < g.n → m' (g.A + (i + j * g.lda)) = m (g.A + (i + j * g.lda)) + m (g.X + i) * m (g.Y + j))
    ∧ ∀ x, (∀ i j, i < g.m → j < g.n → x ≠ g.A + (i + j * g.lda)) → m' x = m x

/-! ## The engine -/

/-- `Engine.MatMul` (`cuda/linalg.go:110-229`): an error, or one call of `gemm`. `tA`, `tB`, the leading dimensions and
the operands are those after the swaps of the source. -/
def matMulCall (a b prealloc : Mat) : Option Gemm :=
  if a.col ≠ b.col then none
  else
    let m := a.rows
    let k := a.cols
    let n := b.cols
    some <| match a.col, a.z, b.z with
      | true, false, false => ⟨false, false, m, n, k, a.ptr, m, b.ptr, k, prealloc.ptr, prealloc.rows⟩
      | true, true, false => ⟨true, false, m, n, k, a.ptr, k, b.ptr, k, prealloc.ptr, prealloc.rows⟩
      | true, true, true => ⟨true, true, m, n, k, a.ptr, k, b.ptr, n, prealloc.ptr, prealloc.rows⟩
      | true, false, true => ⟨false, true, m, n, k, a.ptr, m, b.ptr, n, prealloc.ptr, prealloc.rows⟩
      | false, false, false => ⟨false, false, n, m, k, b.ptr, n, a.ptr, k, prealloc.ptr, prealloc.cols⟩
      | false, true, false => ⟨false, true, n, m, k, b.ptr, n, a.ptr, m, prealloc.ptr, prealloc.cols⟩
      | false, true, true => ⟨true, true, n, m, k, b.ptr, k, a.ptr, m, prealloc.ptr, prealloc.cols⟩
      | false, false, true => ⟨true, false, n, m, k, b.ptr, k, a.ptr, k, prealloc.ptr, prealloc.cols⟩

/-- `Engine.MatVecMul` (`cuda/linalg.go:47-107`); the vectors are given by their addresses. -/
def matVecMulCall (a : Mat) (x y : Nat) : Gemv :=
  let m := a.rows
  let n := a.cols
  match a.col, a.z with
  | false, true => ⟨false, m, n, a.ptr, m, x, y⟩
  | false, false => ⟨true, n, m, a.ptr, n, x, y⟩
  | true, true => ⟨true, n, m, a.ptr, n, x, y⟩
  | true, false => ⟨false, m, n, a.ptr, m, x, y⟩

/-- A vector on the device: address, length, data order. -/
structure Vec where
  ptr : Nat
  len : Nat
  col : Bool

/-- What `Outer` leads to. -/
inductive OuterCall where
  | ger (g : Ger)
  | gemm (g : Gemm)
  | fails

/-- `Engine.Outer` (`cuda/linalg.go:232-285`). For a row-major result the vectors are reshaped to a column and a row. -/
def outerCall (a b : Vec) (prealloc : Mat) : OuterCall :=
  if prealloc.col then .ger ⟨a.len, b.len, a.ptr, b.ptr, prealloc.ptr, prealloc.rows⟩
  else
    match matMulCall ⟨a.ptr, a.len, 1, a.col, false⟩ ⟨b.ptr, 1, b.len, b.col, false⟩ prealloc with
    | some g => .gemm g
    | none => .fails

/-- The shapes of the operands after `Outer`: on an error of `MatMul` (`cuda/linalg.go:255-257`) the function returns
before it restores them. -/
def outerShapes (a b : Vec) (prealloc : Mat) : List Nat × List Nat :=
  match outerCall a b prealloc with
  | .ger _ => ([a.len], [b.len])
  | .gemm _ => ([a.len], [b.len])
  | .fails => ([a.len, 1], [1, b.len])

/-! ## Specifications -/

/-- The cells of a matrix. -/
def Mat.Cell (t : Mat) (x : Nat) : Prop := ∃ i j, i < t.rows ∧ j < t.cols ∧ x = t.loc i j

/-- The engine's product is the product of the matrices, for all shapes, all orders of the operands and all
combinations of transpositions, if the result is a plain matrix of the order of the operands: the call passes the
checks of BLAS, every element of the result is the sum of products, and no other cell changes. -/
theorem matMul_device_partial (a b c : Mat) (hk : b.rows = a.cols) (hr : c.rows = a.rows) (hc : c.cols = b.cols)
    (ho : b.col = a.col) (hoc : c.col = a.col) (hz : c.z = false) :
    ∃ g, matMulCall a b c = some g ∧ g.Ok ∧ ∀ m m', g.Does m m' →
      (∀ i j, i < a.rows → j < b.cols →
          m' (c.loc i j) = ∑ p ∈ Finset.range a.cols, m (a.loc i p) * m (b.loc p j))
        ∧ ∀ x, ¬ c.Cell x → m' x = m x := by
  obtain ⟨ap, ar, ac, aco, az⟩ := a
  obtain ⟨bp, br, bc, bco, bz⟩ := b
  obtain ⟨cp, cr, cc, cco, cz⟩ := c
  simp only at hk hr hc ho hoc hz
  subst hk hr hc ho hoc hz
  cases cco
  · -- row-major: the operands are swapped
    cases az <;> cases bz <;>
      refine ⟨_, by simp [matMulCall]; rfl, by simp [Gemm.Ok], fun m m' h =>
        ⟨fun i j hi hj => (congrArg m' ?_).trans ((h.1 j i hj hi).trans (Finset.sum_congr rfl fun p _ => ?_)),
          fun x hx => h.2 x fun j i hj hi e => hx ⟨i, j, hi, hj, e.trans ?_⟩⟩⟩ <;>
      simp only [Mat.loc, opAt, if_true, Bool.false_eq_true, if_false] <;>
      first
        | ring
        | (rw [mul_comm]; congr 2 <;> ring)
  · cases az <;> cases bz <;>
      refine ⟨_, by simp [matMulCall]; rfl, by simp [Gemm.Ok], fun m m' h =>
        ⟨fun i j hi hj => (congrArg m' ?_).trans ((h.1 i j hi hj).trans (Finset.sum_congr rfl fun p _ => ?_)),
          fun x hx => h.2 x fun i j hi hj e => hx ⟨i, j, hi, hj, e.trans ?_⟩⟩⟩ <;>
      simp only [Mat.loc, opAt, if_true, Bool.false_eq_true, if_false] <;>
      first
        | (congr 2 <;> ring; done)
        | ring

/-- The engine's product of a matrix and a vector, for both orders, transposed or not, and all shapes. -/
theorem matVecMul_device (a : Mat) (x y : Nat) :
    (matVecMulCall a x y).Ok ∧ ∀ m m', (matVecMulCall a x y).Does m m' →
      (∀ i, i < a.rows → m' (y + i) = ∑ p ∈ Finset.range a.cols, m (a.loc i p) * m (x + p))
        ∧ ∀ c, c < y ∨ y + a.rows ≤ c → m' c = m c := by
  obtain ⟨ap, ar, ac, aco, az⟩ := a
  cases aco <;> cases az <;>
    refine ⟨by simp [matVecMulCall, Gemv.Ok], fun m m' h =>
      ⟨fun i hi => (h.1 i (by simpa [matVecMulCall] using hi)).trans ?_, fun c hc => h.2 c fun i hi => ?_⟩⟩ <;>
    simp only [matVecMulCall, if_true, Bool.false_eq_true, if_false] at * <;>
    first
      | omega
      | (refine Finset.sum_congr rfl fun p _ => ?_
         simp only [Mat.loc, opAt, if_true, Bool.false_eq_true, if_false]
         congr 2 <;> ring)

/-- The outer product into a row-major matrix, of vectors in row-major order. -/
theorem outer_row_device (a b : Vec) (c : Mat) (ha : a.col = false) (hb : b.col = false) (hc : c.col = false)
    (hz : c.z = false) (hr : c.rows = a.len) (hk : c.cols = b.len) :
    ∃ g, outerCall a b c = .gemm g ∧ g.Ok ∧ ∀ m m', g.Does m m' →
      (∀ i j, i < a.len → j < b.len → m' (c.loc i j) = m (a.ptr + i) * m (b.ptr + j))
        ∧ ∀ x, ¬ c.Cell x → m' x = m x := by
  obtain ⟨g, h1, h2, h3⟩ := matMul_device_partial ⟨a.ptr, a.len, 1, a.col, false⟩ ⟨b.ptr, 1, b.len, b.col, false⟩ c rfl
    hr hk (by simp [ha, hb]) (by simp [hc, ha]) hz
  refine ⟨g, by simp [outerCall, hc, h1], h2, fun m m' hd => ?_⟩
  obtain ⟨k1, k2⟩ := h3 m m' hd
  refine ⟨fun i j hi hj => ?_, k2⟩
  rw [k1 i j hi hj]
  simp [Mat.loc, ha, hb]

/-- The outer product into a column-major matrix is added to what the matrix held: it is the outer product exactly at
the elements which were zero. -/
theorem outer_col_adds (a b : Vec) (c : Mat) (hc : c.col = true) (hz : c.z = false) (hr : c.rows = a.len) :
    ∃ g, outerCall a b c = .ger g ∧ ∀ m m', g.Does m m' → ∀ i j, i < a.len → j < b.len →
      m' (c.loc i j) = m (c.loc i j) + m (a.ptr + i) * m (b.ptr + j)
        ∧ (m' (c.loc i j) = m (a.ptr + i) * m (b.ptr + j) ↔ m (c.loc i j) = 0) := by
  refine ⟨_, by simp [outerCall, hc]; rfl, fun m m' h i j hi hj => ?_⟩
  have e : c.loc i j = c.ptr + (i + j * c.rows) := by
    simp only [Mat.loc, hc, hz]; ring
  have := h.1 i j hi hj
  rw [e]
  simp only at this
  rw [this]
  exact ⟨rfl, by constructor <;> intro q <;> linarith⟩

/-- If the operands are column-major, the product is stored by columns, whatever the order of the result is. -/
theorem matMul_order_ignored (a b c : Mat) (hr : c.rows = a.rows) (ho : b.col = a.col) (hoc : a.col = true) :
    ∃ g, matMulCall a b c = some g ∧ g.C = c.ptr ∧ g.ldc = a.rows := by
  obtain ⟨ap, ar, ac, aco, az⟩ := a
  obtain ⟨bp, br, bc, bco, bz⟩ := b
  simp only at hr ho hoc
  subst ho hoc
  cases az <;> cases bz <;> exact ⟨_, by simp [matMulCall]; rfl, rfl, hr⟩

/-- So a row-major result of column-major operands is wrong: the product of a column and a row of ones and twos. -/
theorem matMul_order_wrong : ∃ (a b c : Mat) (g : Gemm) (m : Nat → ℝ), matMulCall a b c = some g ∧ c.col = false
    ∧ c.rows = a.rows ∧ c.cols = b.cols ∧ a.cols = b.rows
    ∧ ∀ m', g.Does m m' → m' (c.loc 0 1) ≠ ∑ p ∈ Finset.range a.cols, m (a.loc 0 p) * m (b.loc p 1) := by
  refine ⟨⟨0, 2, 1, true, false⟩, ⟨2, 1, 2, true, false⟩, ⟨4, 2, 2, false, false⟩, _,
    fun x => if x = 0 then 1 else if x = 1 then 2 else if x = 2 then 3 else if x = 3 then 5 else 0,
    by simp [matMulCall]; rfl, rfl, rfl, rfl, rfl, fun m' h => ?_⟩
  have := h.1 1 0 (by simp) (by simp)
  simp [opAt] at this
  simp [Mat.loc, this]
  norm_num

/-- Operands of different orders are refused, and then `Outer` leaves them reshaped. -/
theorem outer_leaves_reshaped (a b : Vec) (c : Mat) (hc : c.col = false) (h : a.col ≠ b.col) :
    outerCall a b c = .fails ∧ outerShapes a b c = ([a.len, 1], [1, b.len]) := by
  have e : outerCall a b c = .fails := by simp [outerCall, hc, matMulCall, h]
  exact ⟨e, by simp [outerShapes, e]⟩

/-- On success the shapes of the operands are as before. -/
theorem outer_restores (a b : Vec) (c : Mat) (h : outerCall a b c ≠ .fails) : outerShapes a b c = ([a.len], [b.len]) := by
  unfold outerShapes
  rcases e : outerCall a b c with g | g | _
  · rfl
  · rfl
  · exact absurd e h

/-! ## Examples -/

/-- `gemm` has a result: its memory after the call. -/
noncomputable def Gemm.after (g : Gemm) (m : Nat → ℝ) : Nat → ℝ := fun x =>
  if g.C ≤ x ∧ (x - g.C) % g.ldc < g.m ∧ (x - g.C) / g.ldc < g.n then
    ∑ p ∈ Finset.range g.k, m (opAt g.tA g.A g.lda ((x - g.C) % g.ldc) p)
      * m (opAt g.tB g.B g.ldb p ((x - g.C) / g.ldc))
  else m x

/-- The semantics of `gemm` can be met whenever the check on the leading dimension of the result holds. -/
theorem gemm_possible (g : Gemm) (h : g.m ≤ g.ldc) (m : Nat → ℝ) : g.Does m (g.after m) := by
  refine ⟨fun i j hi hj => ?_, fun x hx => ?_⟩
  · have hl : 0 < g.ldc := by omega
    have h1 : (i + j * g.ldc) % g.ldc = i := by
      rw [Nat.add_mul_mod_self_right]; exact Nat.mod_eq_of_lt (by omega)
    have h2 : (i + j * g.ldc) / g.ldc = j := by
      rw [Nat.add_mul_div_right _ _ hl, Nat.div_eq_of_lt (by omega)]; omega
    simp only [Gemm.after, Nat.add_sub_cancel_left, h1, h2]
    rw [if_pos ⟨by omega, hi, hj⟩]
  · simp only [Gemm.after]
    rw [if_neg]
    rintro ⟨q1, q2, q3⟩
    refine hx _ _ q2 q3 ?_
    have := Nat.mod_add_div (x - g.C) g.ldc
    rw [Nat.mul_comm] at this
    omega

/-- A product of transposed row-major matrices: `(2×3)ᵀ` times `(4×2)ᵀ`. -/
example (m : Nat → ℝ) : ∃ g, matMulCall ⟨0, 3, 2, false, true⟩ ⟨6, 2, 4, false, true⟩ ⟨14, 3, 4, false, false⟩ = some g
    ∧ g.after m (14 + (2 * 4 + 3)) = m 2 * m (6 + 6) + m 5 * m (6 + 7) := by
  obtain ⟨g, h1, h2, h3⟩ := matMul_device_partial ⟨0, 3, 2, false, true⟩ ⟨6, 2, 4, false, true⟩
    ⟨14, 3, 4, false, false⟩ rfl rfl rfl rfl rfl rfl
  have := (h3 m (g.after m) (gemm_possible g h2.2.2 m)).1 2 3 (by simp) (by simp)
  refine ⟨g, h1, ?_⟩
  simpa [Mat.loc, Finset.sum_range_succ] using this

end Verif.Cuda
