import Verif.AD.Ops
/-!
The rewrites applied while nodes are built ("stabilization", stabilization.go, operations.go 15-43 and 134-163).

Nodes live in a heap; a node is referred to by its position. Values are families of real numbers indexed by `ι` (the
elements of a tensor; a scalar operand is a constant family). Simplified: a node that is built is always new (the graph
may return an equal one, C03). `constEq` (equalities.go 158-176) compares pointers, so that only the constants `onef32` and
`onef64` of const.go are recognised as one (`Op.one`); any other constant, also one made with the value 1, is a leaf here.
-/
set_option autoImplicit false
namespace Verif.Stab

open Verif.AD (UOp BOp)

/-- What a node is: an input, the constant one, an elementwise op, or a softmax with its mutable flag `isLog`
(op_softmax.go 27-31). -/
inductive Op
  | leaf
  | one
  | un (u : UOp)
  | bin (b : BOp)
  | softmax (isLog : Bool)
  deriving DecidableEq, Repr

/-- A node: op, operands, and whether it is in the graph. -/
structure Cell where
  op : Op := .leaf
  kids : List Nat := []
  inGraph : Bool := true
  deriving DecidableEq, Repr

abbrev Heap := List Cell

def Heap.cell (H : Heap) (i : Nat) : Cell := H.getD i { inGraph := false }
def Heap.op (H : Heap) (i : Nat) : Op := (H.cell i).op
def Heap.kid (H : Heap) (i k : Nat) : Nat := (H.cell i).kids.getD k 0

/-- `ApplyOp` (op.go 169-214): a new node at the end. -/
def raw (H : Heap) (op : Op) (kids : List Nat) : Heap × Nat := (H ++ [⟨op, kids, true⟩], H.length)

/-- `Neg`, with `negNegOptimization` (stabilization.go 268-281). -/
def mkNeg (H : Heap) (a : Nat) : Heap × Nat :=
  if H.op a = .un .neg then (H, H.kid a 0) else raw H (.un .neg) [a]

/-- `Log1p`, with `log1pExpStabilization` (stabilization.go 155-170) and `log1pNegSigmoidStabilization`
(stabilization.go 172-199). -/
def mkLog1p (H : Heap) (a : Nat) : Heap × Nat :=
  if H.op a = .un .exp then raw H (.un .softplus) [H.kid a 0]
  else if H.op a = .un .neg ∧ H.op (H.kid a 0) = .un .sigmoid then
    let r := raw H (.un .softplus) [H.kid (H.kid a 0) 0]
    mkNeg r.1 r.2
  else raw H (.un .log1p) [a]

/-- `Sub`, with `exp1mStabilization` (stabilization.go 87-104) and `oneMinusSigmoidStabilization` (stabilization.go 106-126). -/
def mkSub (H : Heap) (a b : Nat) : Heap × Nat :=
  if H.op b = .one ∧ H.op a = .un .exp then raw H (.un .expm1) [H.kid a 0]
  else if H.op a = .one ∧ H.op b = .un .sigmoid then
    let r := mkNeg H (H.kid b 0)
    raw r.1 (.un .sigmoid) [r.2]
  else raw H (.bin .sub) [a, b]

/-- What `logStabilization` matches (stabilization.go 38-71): the operand and whether it is `1 - x`. -/
def logMatch (H : Heap) (a : Nat) : Option (Nat × Bool) :=
  match H.op a with
  | .bin .add =>
    if H.op (H.kid a 0) = .one then some (H.kid a 1, false)
    else if H.op (H.kid a 1) = .one then some (H.kid a 0, false)
    else none
  | .bin .sub => if H.op (H.kid a 0) = .one then some (H.kid a 1, true) else none
  | _ => none

/-- `returnNode` (perf.go 16-45): the node leaves the graph and its op and operands are set to nil. -/
def release (H : Heap) (a : Nat) : Heap := H.set a ⟨.leaf, [], false⟩

/-- `op.isLog = true` on the op of an existing node (stabilization.go 211-213, 232-246). -/
def setLog (H : Heap) (a : Nat) : Heap :=
  match H.op a with
  | .softmax _ => H.set a { H.cell a with op := .softmax true }
  | _ => H

def isSoftmax (H : Heap) (a : Nat) : Bool := match H.op a with
  | .softmax _ => true
  | _ => false

/-- `Log`, with `logSigmoidStabilization` (stabilization.go 128-153), `logStabilization` (stabilization.go 25-85) and
`logSoftmaxStabilization` (stabilization.go 201-264), tried in this order. The recursive call is on a factor, so `f` bounds its depth. -/
def mkLogF : Nat → Heap → Nat → Heap × Nat
  | 0, H, a => raw H (.un .ln) [a]
  | f + 1, H, a =>
    if H.op a = .un .sigmoid then
      let r := mkNeg H (H.kid a 0)
      let r := raw r.1 (.un .softplus) [r.2]
      mkNeg r.1 r.2
    else match logMatch H a with
      | some (x, true) =>
        let r := mkNeg H x
        let r := mkLog1p r.1 r.2
        (release r.1 a, r.2)
      | some (x, false) =>
        let r := mkLog1p H x
        (release r.1 a, r.2)
      | none =>
        if isSoftmax H a then (setLog H a, a)
        else if H.op a = .bin .mul then
          let p := H.kid a 0
          let q := H.kid a 1
          if isSoftmax H p ∧ isSoftmax H q then raw (setLog (setLog H p) q) (.bin .add) [p, q]
          else if isSoftmax H p then
            let r := mkLogF f (setLog H p) q
            raw r.1 (.bin .add) [p, r.2]
          else if isSoftmax H q then
            let r := mkLogF f (setLog H q) p
            raw r.1 (.bin .add) [r.2, q]
          else raw H (.un .ln) [a]
        else raw H (.un .ln) [a]

def mkLog (H : Heap) (a : Nat) : Heap × Nat := mkLogF (a + 1) H a

/-- `unaryOpNode` (operations.go 134-163) with `unaryOpStabilizationFns` (stabilization.go 8-23). -/
def mkUn (u : UOp) (H : Heap) (a : Nat) : Heap × Nat :=
  match u with
  | .ln => mkLog H a
  | .log1p => mkLog1p H a
  | .neg => mkNeg H a
  | u => raw H (.un u) [a]

/-- `binOpNode` (operations.go 15-43) with `binOpStabilizationFns`. -/
def mkBin (b : BOp) (H : Heap) (x y : Nat) : Heap × Nat :=
  match b with
  | .sub => mkSub H x y
  | b => raw H (.bin b) [x, y]

/-! ### Values -/

noncomputable section
variable {ι : Type} [Fintype ι]

/-- Sum of the exponentials over the slice of `i` along the axis; `cls` tells the slices apart. -/
def expSum (cls : ι → Nat) (v : ι → ℝ) (i : ι) : ℝ := ∑ j, if cls j = cls i then Real.exp (v j) else 0

/-- `tensor.SoftMax` and `tensor.LogSoftMax` along an axis. -/
def softmaxV (cls : ι → Nat) (isLog : Bool) (v : ι → ℝ) (i : ι) : ℝ :=
  if isLog then v i - Real.log (expSum cls v i) else Real.exp (v i) / expSum cls v i

/-- Value of a node; `ρ` gives the values of the inputs. -/
def valF (cls : ι → Nat) (H : Heap) (ρ : Nat → ι → ℝ) : Nat → Nat → ι → ℝ
  | 0, a => ρ a
  | f + 1, a => match H.op a with
    | .leaf => ρ a
    | .one => fun _ => 1
    | .un u => fun i => u.fn (valF cls H ρ f (H.kid a 0) i)
    | .bin b => fun i => b.fn (valF cls H ρ f (H.kid a 0) i) (valF cls H ρ f (H.kid a 1) i)
    | .softmax l => softmaxV cls l (valF cls H ρ f (H.kid a 0))

def val (cls : ι → Nat) (H : Heap) (ρ : Nat → ι → ℝ) (a : Nat) : ι → ℝ := valF cls H ρ (a + 1) a

end

/-- Number of operands an op reads. -/
def Op.arity : Op → Nat
  | .leaf | .one => 0
  | .un _ | .softmax _ => 1
  | .bin _ => 2

/-- Operands come before the nodes that use them. -/
def Heap.OK (H : Heap) : Prop := ∀ a, ∀ k, k < (H.op a).arity → H.kid a k < a

end Verif.Stab
