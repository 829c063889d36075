import Verif.Tensor.Basic
import Mathlib.Analysis.Calculus.Deriv.Mul
import Mathlib.Analysis.Calculus.Deriv.Add
/-!
Linear algebra operations, the expressions built for their gradients, and batched matrix multiplication.

The products themselves are done by the tensor library, which is assumed to compute the textbook sums over real numbers
and to fail if the inner sizes differ. Simplified: values are not shared (the in-place transposition of an operand, `a.T()`
in `linAlgBinOp.do`, does not reach another operand).
-/
set_option autoImplicit false
namespace Verif.LinAlg

/-- A matrix: sizes and elements (only those in bounds matter). -/
structure M where
  r : Nat
  c : Nat
  f : Nat → Nat → ℝ

/-- A vector. -/
structure V where
  n : Nat
  f : Nat → ℝ

noncomputable section

/-- `T()`. -/
def M.T (a : M) : M := ⟨a.c, a.r, fun i j => a.f j i⟩

def M.flip (t : Bool) (a : M) : M := if t then a.T else a

/-- `tensor.MatMul` (assumed). -/
def matMul0 (a b : M) : Option M :=
  if a.c = b.r then some ⟨a.r, b.c, fun i j => ∑ k ∈ Finset.range a.c, a.f i k * b.f k j⟩ else none

/-- `linAlgBinOp.do` for `matMulOperator` (op_math.go 741-772), also the inferred shape (561-575). -/
def matMul (tA tB : Bool) (a b : M) : Option M := matMul0 (a.flip tA) (b.flip tB)

/-- `matVecMulOperator` (op_math.go 741-774) with `tensor.MatVecMul` (assumed). -/
def matVec (tA : Bool) (a : M) (y : V) : Option V :=
  let x := a.flip tA
  if x.c = y.n then some ⟨x.r, fun i => ∑ k ∈ Finset.range x.c, x.f i k * y.f k⟩ else none

/-- `vecDotOperator` with `tensor.Inner` (assumed). -/
def vecDot (x y : V) : Option ℝ := if x.n = y.n then some (∑ k ∈ Finset.range x.n, x.f k * y.f k) else none

/-- `outerProdOperator` with `tensor.Outer` (assumed). -/
def outer (x y : V) : M := ⟨x.n, y.n, fun i j => x.f i * y.f j⟩

/-- `HadamardProd` of a vector and a scalar (operations.go 15-43). -/
def V.scale (x : V) (g : ℝ) : V := ⟨x.n, fun i => x.f i * g⟩

/-- `matMulDiffExpr` (operatorLinAlg.go 51-102). -/
def matMulDiff (tA tB : Bool) (x y g : M) : Option M × Option M :=
  match tA, tB with
  | true, true => (matMul true true y g, matMul true true g x)
  | false, true => (matMul false false g y, matMul true false g x)
  | true, false => (matMul false true y g, matMul false false x g)
  | false, false => (matMul false true g y, matMul true false x g)

/-- `matVecMulDiffExpr` (operatorLinAlg.go 181-202). -/
def matVecDiff (tA : Bool) (x : M) (y g : V) : M × Option V :=
  (if tA then outer y g else outer g y, matVec (!tA) x g)

/-- `vecDotDiffExpr` (operatorLinAlg.go 232-244). -/
def vecDotDiff (x y : V) (g : ℝ) : V × V := (y.scale g, x.scale g)

/-- `Mul` of a vector and a matrix (operations.go 62-64). -/
def mulVM (x : V) (a : M) : Option V := matVec true a x

/-- `outerProdDiffExpr` (operatorLinAlg.go 262-274). -/
def outerDiff (x y : V) (g : M) : Option V × Option V := (mulVM x g, mulVM y g)

/-! ### Pairings and perturbations -/

def M.dot (a b : M) : ℝ := ∑ i ∈ Finset.range a.r, ∑ j ∈ Finset.range a.c, a.f i j * b.f i j
def V.dot (a b : V) : ℝ := ∑ i ∈ Finset.range a.n, a.f i * b.f i

/-- `a + s a'`. -/
def M.move (a a' : M) (s : ℝ) : M := ⟨a.r, a.c, fun i j => a.f i j + s * a'.f i j⟩
def V.move (a a' : V) (s : ℝ) : V := ⟨a.n, fun i => a.f i + s * a'.f i⟩

def M.Like (a b : M) : Prop := a.r = b.r ∧ a.c = b.c

end

/-! ### Batches -/

/-- `incrSlices` (operatorLinAlg.go 505-521), the axes listed last first: start positions and sizes to new start positions and
whether to halt. -/
def incrRev : List Nat → List Nat → List Nat × Bool
  | a :: as, d :: ds =>
    if d - a = 1 then
      let r := incrRev as ds
      (0 :: r.1, r.2)
    else ((a + 1) :: as, false)
  | as, _ => (as, true)

/-- `incrSlices`. -/
def incrSlices (a shp : List Nat) : List Nat × Bool :=
  let r := incrRev a.reverse shp.reverse
  (r.1.reverse, r.2)

/-- The positions visited by the loop `for halt := false; !halt; halt = incrSlices(slices, outer)` (operatorLinAlg.go 461-499), at most `n`. -/
def visits (shp : List Nat) : Nat → List Nat → List (List Nat)
  | 0, _ => []
  | n + 1, a =>
    let r := incrSlices a shp
    a :: if r.2 then [] else visits shp n r.1

/-- The loop body of `batchedMatMul` (operatorLinAlg.go 461-499) over the visited positions: one matrix product per position, written (`incr` is
false) or added to the slice of the result. A batched matrix is a family of matrices. -/
noncomputable def batchLoop (tA tB incr : Bool) (a b : List Nat → M) : List (List Nat) → (List Nat → M) → Option (List Nat → M)
  | [], c => some c
  | p :: ps, c =>
    match matMul tA tB (a p) (b p) with
    | none => none
    | some z =>
      batchLoop tA tB incr a b ps
        (fun q => if q = p then (if incr then ⟨z.r, z.c, fun i j => (c p).f i j + z.f i j⟩ else z) else c q)

/-- `batchedMatMul` (operatorLinAlg.go 435-502); the slices start at 0 (lines 453-458). `n` bounds the number of rounds. -/
noncomputable def batchedMatMul (shp : List Nat) (tA tB incr : Bool) (a b c : List Nat → M) (n : Nat) : Option (List Nat → M) :=
  batchLoop tA tB incr a b (visits shp n (shp.map fun _ => 0)) c

/-- `batchedMatMulDiffExpr` (operatorLinAlg.go 293-344). -/
noncomputable def batchedDiff (shp : List Nat) (tA tB : Bool) (x y g zero : List Nat → M) (n : Nat) :
    Option (List Nat → M) × Option (List Nat → M) :=
  match tA, tB with
  | true, true => (batchedMatMul shp true true false y g zero n, batchedMatMul shp true true false g x zero n)
  | false, true => (batchedMatMul shp false false false g y zero n, batchedMatMul shp true false false g x zero n)
  | true, false => (batchedMatMul shp false true false y g zero n, batchedMatMul shp false false false x g zero n)
  | false, false => (batchedMatMul shp false true false g y zero n, batchedMatMul shp true false false x g zero n)

end Verif.LinAlg
