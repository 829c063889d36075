import Verif.Tensor.Basic
import Verif.Shape.Pattern
/-!
Model of the shape arithmetic of `/repo/shape.go`, `/repo/broadcast.go`, `Reshape` of
`/repo/operations.go` and `repeatOp`/`sizeOp` of `/repo/op_tensor.go`.

A node is represented by its value (`T α`: the inferred shape and the elements).  Simplifications:
sizes are unbounded naturals, the type inference of `ApplyOp` is not modelled, and every node has a known
shape.
-/
set_option autoImplicit false
namespace Verif.Shape
open Verif.Tensor

/-- Result of a Go call: value, `error`, or run-time panic. -/
inductive Res (α : Type) where
  | ok (a : α)
  | err
  | panic
  deriving DecidableEq, Repr

def Res.bind {α β : Type} : Res α → (α → Res β) → Res β
  | .ok a, f => f a
  | .err, _ => .err
  | .panic, _ => .panic

/-- Product of the entries of a requested shape, skipping position `skip` (operations.go 557-562). -/
def prodSkip (skip : Nat) : Nat → List Int → Int
  | _, [] => 1
  | k, s :: ss => if k = skip then prodSkip skip (k + 1) ss else s * prodSkip skip (k + 1) ss

/-- Number of negative entries and the position of the last one (operations.go 542-549). -/
def negs : Nat → List Int → Nat × Nat → Nat × Nat
  | _, [], acc => acc
  | k, s :: ss, (n, infer) => if s < 0 then negs (k + 1) ss (n + 1, k) else negs (k + 1) ss (n, infer)

/-- The checks of `Reshape`, operations.go 540-573: from the operand's shape and the requested shape to
the shape of the result. `divmod` panics on a zero divisor (mathutils.go 5-9, Go's `/`). -/
def reshapeTo (n : List Nat) (to : List Int) : Res (List Nat) :=
  let (ng, infer) := negs 0 to (0, 0)
  if ng > 1 then .err
  else
    let step : Res (List Int) :=
      if ng = 1 then
        let prod := prodSkip infer 0 to
        if prod = 0 then .panic
        else if Int.tmod (size n) prod ≠ 0 then .err
        else .ok (to.set infer (Int.tdiv (size n) prod))
      else .ok to
    step.bind fun to =>
      let s := to.map Int.toNat
      if n.length > 0 ∧ size n ≠ size s then .err else .ok s

/-- `Reshape`, operations.go 540-579, on values: `reshapeOp.Do` (op_tensor.go 1153-1189) keeps the flat
data. -/
def reshape {α : Type} (t : T α) (to : List Int) : Res (T α) :=
  (reshapeTo t.shape to).bind fun s => .ok (t.reshape s)

/-- `calcBroadcastShape`, shape.go 38-68: the inner loop, putting `s` into the first zero slot. -/
def fillFirst (s : Nat) : List Nat → List Nat
  | [] => []
  | 0 :: r => s :: r
  | a :: r => a :: fillFirst s r

/-- `newShape[i] = 1` for the broadcast axes (shape.go 43-46); writing past the end panics in Go (the
caller has checked the axes). -/
def onesAt (dims : Nat) (along : List Nat) : List Nat :=
  along.foldl (fun s i => s.set i 1) (List.replicate dims 0)

/-- `calcBroadcastShape`, shape.go 38-68. -/
def calcBroadcastShape (shp : List Nat) (expectedDims : Nat) (along : List Nat) : List Nat :=
  let newShape := if shp.length = expectedDims then shp else onesAt expectedDims along
  if shp = [] then newShape.map (fun _ => 1)
  else if shp.length = expectedDims then newShape
  else shp.foldl (fun ns s => fillFirst s ns) newShape

/-- `tensor.Shape.IsVector` (assumed): one axis, or two of which one is the unit axis and the other is not. -/
def isVector : List Nat → Bool
  | [_] => true
  | [a, b] => (b == 1 && decide (a > 1)) || (a == 1 && decide (b > 1))
  | _ => false

/-- `repeatOp.InferShape`, op_tensor.go 220-243. The extension appends zeros and then turns every zero
into 1. Indexing past the end panics. -/
def repeatShape (shp : List Nat) (along rep : Nat) : Res (List Nat) :=
  let s := if isVector shp && decide (shp.length ≤ along) then
      (shp ++ List.replicate (along - shp.length + 1) 0).map (fun d => if d = 0 then 1 else d) else shp
  let s := if s = [] then [1] else s
  match s[along]? with
  | none => .panic
  | some d => .ok (s.set along (d * rep))

/-- `repeatOp.Do`, op_tensor.go 354-394, through `tensor.Repeat` (assumed: each slice along the axis
is repeated `rep` times in place, as numpy's `repeat`). -/
def repeat_ {α : Type} (t : T α) (along rep : Nat) : Res (T α) :=
  (repeatShape t.shape along rep).bind fun s =>
    .ok ⟨s, fun i => t.at_ (i.set along (i.getD along 0 / rep))⟩

/-- `repeatedApply`, op_tensor.go 175-188, with the sizes that the `SizeOf` children carry. -/
def repeatedApply {α : Type} : List Nat → List Nat → T α → Res (T α)
  | [], [], t => .ok t
  | a :: along, r :: reps, t => (repeat_ t a r).bind (repeatedApply along reps)
  | _, _, _ => .err

/-- `SizeOf`, operations.go 400-412: the size known at graph construction. -/
def sizeOf (axis : Nat) (s : List Nat) : Nat := s.getD axis 0

/-- One half of `Broadcast` (broadcast.go 80-102, resp. 104-127): `x` is broadcast along `axes` to match
`y`; `ydims` is the rank used for the axis check and for `calcBroadcastShape`. -/
def broadcastHalf {α : Type} (axes : List Nat) (x : T α) (ydims : Nat) (yshape : List Nat) : Res (T α) :=
  if axes = [] then .ok x
  else if axes.any (fun a => decide (a ≥ ydims)) then .err
  else
    (reshape x ((calcBroadcastShape x.shape ydims axes).map Int.ofNat)).bind fun x' =>
      repeatedApply axes (axes.map (fun a => sizeOf a yshape)) x'

/-- `Broadcast`, broadcast.go 69-129. The second half checks against the *original* rank of `x`
(`xshape`, line 76) but reads sizes off the broadcast `x`. -/
def broadcast {α : Type} (x y : T α) (pat : BitVec 8) : Res (T α × T α) :=
  let axes := on pat
  (broadcastHalf axes.1 x y.shape.length y.shape).bind fun x' =>
    (broadcastHalf axes.2 y x.shape.length x'.shape).bind fun y' => .ok (x', y')

/-- The axes (as bytes) on which the first shape is larger than the second, from position `k`
(broadcast.go 135-141). -/
def largerAxes : Nat → List Nat → List Nat → List (BitVec 8)
  | k, a :: as, b :: bs =>
    if a > b then BitVec.ofNat 8 k :: largerAxes (k + 1) as bs else largerAxes (k + 1) as bs
  | _, _, _ => []

/-- `autoBroadcastPattern`, broadcast.go 131-143. -/
def autoBroadcastPattern (a b : List Nat) : Res (List (BitVec 8) × List (BitVec 8)) :=
  if a.length ≠ b.length then .err else .ok (largerAxes 0 a b, largerAxes 0 b a)

/-- `Auto` (operations.go 123-130) applied to one of the generated `BroadcastXxx` functions (api_gen.go
129-135 and so on), up to the two operands handed to the elementwise operation. -/
def autoBroadcast {α : Type} (a b : T α) : Res (T α × T α) :=
  (autoBroadcastPattern a.shape b.shape).bind fun p => broadcast a b (newPattern p.2 p.1)

/-- `tensor.Shape.Eq` (assumed, tensor v0.9.23): exact equality, except that a one-axis shape equals a
row or column vector of the same size. -/
def shapeEq (a b : List Nat) : Bool :=
  match a, b with
  | [p, q], [n] => (q == 1 && p == n) || (p == 1 && q == n)
  | [n], [p, q] => (q == 1 && p == n) || (p == 1 && q == n)
  | a, b => decide (a = b)

/-- `KeepDims`, shape.go 77-111, after `fn` has returned `b`. -/
def keepDims {α : Type} (oshape : List Nat) (expandLeft : Bool) (b : T α) : Res (T α) :=
  if shapeEq b.shape oshape then .ok b
  else if oshape.length < b.shape.length then .err
  else
    let diff := oshape.length - b.shape.length
    let ret := if expandLeft then List.replicate diff 1 ++ b.shape else b.shape ++ List.replicate diff 1
    reshape b (ret.map Int.ofNat)

end Verif.Shape
