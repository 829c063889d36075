import Verif.Shape.Infer
import Verif.Shape.Reduce
import Verif.Shape.ByIndices
/-!
Model of type inference, `/repo/typeSystem.go`, `/repo/type.go` and the `Type` methods of the operations (property C71).

The library `hm` is assumed: `Unify` binds a variable to the other type after an occurs check, accepts equal types, and otherwise unifies the
component types (`Types()`) of the two one after the other under the substitution so far; different numbers of components, or none, are an error. For a
`TensorType` the components are `Of` alone (type.go 113), so that the number of axes takes no part. That this is how the library works is confirmed by
`reductionType` (op_reduction.go 21-44), which declares the operand of a reduction with the number of axes of the result.

Values (`Operand`) have an element type and a shape; a value without axes is a scalar, whose type is its element type (values_utils.go 13-26).
-/
set_option autoImplicit false
namespace Verif.Types
open Verif.Tensor Verif.Shape

/-- Element types, type.go 14-31. -/
inductive Dt where
  | float64 | float32 | int | int64 | int32 | byte | bool
deriving DecidableEq

/-- `hm.Type`: element types, `TensorType` (type.go 54-58), type variables and function types. -/
inductive Ty where
  | dt (d : Dt)
  | tens (dims : Int) (of : Ty)
  | var (c : Char)
  | fn (a b : Ty)
deriving DecidableEq

/-- `Types()`: type.go 113 for tensors, the library for the others. -/
def Ty.comps : Ty → List Ty
  | .tens _ t => [t]
  | .fn a b => [a, b]
  | _ => []

/-- A substitution. -/
abbrev Subs := List (Char × Ty)

/-- `Subs.Get`. -/
def get (s : Subs) (c : Char) : Option Ty := (s.find? fun p => p.1 == c).map Prod.snd

/-- `Apply`, type.go 126-129 and the library. -/
def Ty.apply (s : Subs) : Ty → Ty
  | .dt d => .dt d
  | .tens n t => .tens n (t.apply s)
  | .var c => (get s c).getD (.var c)
  | .fn a b => .fn (a.apply s) (b.apply s)

/-- Whether a variable occurs. -/
def Ty.occurs (c : Char) : Ty → Bool
  | .dt _ => false
  | .tens _ t => t.occurs c
  | .var c' => c == c'
  | .fn a b => a.occurs c || b.occurs c

/-- `bind` of the library. -/
def bindVar (c : Char) (t : Ty) : Res Subs :=
  if t = .var c then .ok [] else if t.occurs c then .err else .ok [(c, t)]

/-- `compose` of the library. -/
def compose (a b : Subs) : Subs := a.map (fun p => (p.1, p.2.apply b)) ++ b

/-- `unifyMany` of the library. `none`: out of rounds. -/
def unifyMany (u : Ty → Ty → Option (Res Subs)) : List Ty → List Ty → Subs → Option (Res Subs)
  | [], [], sub => some (.ok sub)
  | a :: as, b :: bs, sub =>
    match u (a.apply sub) (b.apply sub) with
    | some (.ok s2) => unifyMany u as bs (compose sub s2)
    | r => r
  | _, _, _ => some .err

/-- `hm.Unify`, with a bound on the depth of the recursion; `none` if it is reached. -/
def unify : Nat → Ty → Ty → Option (Res Subs)
  | 0, _, _ => none
  | n + 1, a, b =>
    match a with
    | .var c => some (bindVar c b)
    | a =>
      if a = b then some (.ok [])
      else match b with
        | .var c => some (bindVar c a)
        | b => if a.comps = [] ∧ b.comps = [] then some .err else unifyMany (unify n) a.comps b.comps []

/-- `hm.NewFnType` of the given operands and result. -/
def mkFn (args : List Ty) (ret : Ty) : Ty := args.foldr .fn ret

/-- `inferNodeType`, typeSystem.go 45-77; the depth allowed for always suffices (`applyOp_total`). Without operands
`NewFnType` panics. -/
def inferNodeType (opType : Ty) (args : List Ty) : Option (Res Ty) :=
  if args = [] then some .panic
  else match unify (args.length + 4) (mkFn args (.var 'b')) opType with
    | none => none
    | some (.ok sub) => some (match get sub 'b' with
      | some t => .ok t
      | none => .err)
    | some .err => some .err
    | some .panic => some .panic

/-! ### Values and operations -/

/-- An operand: element type and shape. -/
structure Operand where
  dt : Dt
  shape : List Nat

/-- `TypeOf`, values_utils.go 13-26, by element type and number of axes. -/
def valTy (d : Dt) (rank : Nat) : Ty := if rank = 0 then .dt d else .tens rank (.dt d)

def Operand.ty (o : Operand) : Ty := valTy o.dt o.shape.length

/-- The operations whose types are modelled. -/
inductive TOp where
  /-- unary elementwise, softmax, dropout, sparsemax, group normalisation, clamp, identity: `a → a` -/
  | same
  /-- elementwise binary: arithmetic, or a comparison with numbers as results (`retSame`) or truth values -/
  | elem (arith retSame : Bool)
  | matMul (tA tB : Bool)
  | matVec (tA : Bool)
  | vecDot
  | outer
  | batched (tA tB : Bool)
  /-- `Sum`, `Max` -/
  | reduce (along : List Nat)
  | at_
  | sizeOf
  | repeat_ (along rep : Nat)
  | slice (along s e : Nat)
  | sliceIncr
  | transpose (p : List Nat)
  | reshape (to_ : List Nat)
  | diagFlat
  | dtConv (from_ to_ : Dt)
  | byIndices (axis : Nat)
  /-- minimum and maximum of two -/
  | between
  /-- convolution matrices, pooling, upsampling: rank 4 to rank 4 -/
  | spatial (f : List Nat → Nat × Nat × Nat × Nat)
  /-- batch normalisation -/
  | batchNorm

/-- The type variable of the operations. -/
def a : Ty := .var 'a'

/-- The type of an operand as `elemBinOp.Type` uses it, op_math.go 98-106: its shape with the variable. -/
def generic (r : Nat) : Ty := if r = 0 then a else .tens r a

/-- The result type so far, op_math.go 98-117. -/
def elemRet (r0 r1 : Nat) : Ty := if r1 ≠ 0 ∧ r1 ≥ r0 then Ty.tens r1 a else generic r0

/-- The result of a comparison, op_math.go 123-129. -/
def truth : Ty → Ty
  | .tens d _ => .tens d (.dt .bool)
  | _ => .dt .bool

/-- `elemBinOp.Type`, op_math.go 93-132, for operands with `r0` and `r1` axes. -/
def elemTy (arith retSame : Bool) (r0 r1 : Nat) : Ty :=
  if arith || (!arith && retSame) then mkFn [generic r0, generic r1] (elemRet r0 r1)
  else mkFn [generic r0, generic r1] (truth (elemRet r0 r1))

/-- `reductionType`, op_reduction.go 21-44. -/
def reductionTy (d : Nat) (along : List Nat) : Ty :=
  let t := Ty.tens ((d : Int) - along.length) a
  let axes := (along.filter (· < d)).dedup.length
  if d = 1 ∨ axes = 0 ∨ axes = d then mkFn [t] a
  else mkFn [t] (if axes = d - 1 then .tens 1 a else t)

/-- The `Type` methods, for an operation built for the given operands. -/
def opTy : TOp → List Operand → Ty
  | .same, _ => mkFn [a] a -- op_math.go 414-417, op_softmax.go 62-65, op_dropout.go 50-53, op_sparsemax.go 61-64, ...
  | .elem ar rs, xs => elemTy ar rs (xs.getD 0 ⟨.bool, []⟩).shape.length (xs.getD 1 ⟨.bool, []⟩).shape.length
  | .matMul _ _, _ => mkFn [.tens 2 a, .tens 2 a] (.tens 2 a) -- operatorLinAlg_const.go 57-62
  | .matVec _, _ => mkFn [.tens 2 a, .tens 1 a] (.tens 1 a) -- 45-51
  | .vecDot, _ => mkFn [.tens 1 a, .tens 1 a] a -- 68-73
  | .outer, _ => mkFn [.tens 1 a, .tens 1 a] (.tens 2 a) -- 79-85
  | .batched _ _, _ => mkFn [a, a] a -- 87-90
  | .reduce along, xs => reductionTy (xs.getD 0 ⟨.bool, []⟩).shape.length
      (if along = [] then List.range (xs.getD 0 ⟨.bool, []⟩).shape.length else along) -- operations.go 211-225, 260-273
  | .at_, xs => mkFn [.tens (xs.getD 0 ⟨.bool, []⟩).shape.length a] a -- op_tensor.go 27-32
  | .sizeOf, xs => -- op_tensor.go 79-89
    if (xs.getD 0 ⟨.bool, []⟩).shape.length = 0 then mkFn [a] a else mkFn [.tens (xs.getD 0 ⟨.bool, []⟩).shape.length a] a
  | .repeat_ _ _, xs => -- op_tensor.go 196-214
    let d := (xs.getD 0 ⟨.bool, []⟩).shape.length
    if d = 0 then mkFn [a, a] (.tens 1 a) else mkFn [.tens d a, a] (.tens d a)
  | .slice _ s e, xs => -- op_tensor.go 501-523
    let d := (xs.getD 0 ⟨.bool, []⟩).shape.length
    if (e : Int) - s = 1 then if d = 1 then mkFn [.tens d a] a else mkFn [.tens d a] (.tens ((d : Int) - 1) a)
    else mkFn [.tens d a] (.tens d a)
  | .sliceIncr, xs => -- op_tensor.go 673-680
    let d := (xs.getD 0 ⟨.bool, []⟩).shape.length
    mkFn [.tens d a, .var 'c'] (.tens d a)
  | .transpose p, _ => mkFn [.tens p.length a] (.tens p.length a) -- op_tensor.go 870-875, operations.go 464-467
  | .reshape to_, xs => -- op_tensor.go 1132-1150
    let fr := (xs.getD 0 ⟨.bool, []⟩).shape.length
    if fr ≠ to_.length then mkFn [if fr = 0 then a else .tens fr a] (if to_.length = 0 then a else .tens to_.length a)
    else mkFn [a] a
  | .diagFlat, _ => mkFn [a] (.tens 2 a) -- op_nondiff.go 19-24
  | .dtConv f t, xs => -- op_types.go 34-41
    let d := (xs.getD 0 ⟨.bool, []⟩).shape.length
    if d = 0 then mkFn [.dt f] (.dt t) else mkFn [.tens d (.dt f)] (.tens d (.dt t))
  | .byIndices _, _ => mkFn [a, .tens 1 (.dt .int)] a -- op_by_indices.go 60-65
  | .between, _ => mkFn [a, a] a -- op_minmaxBetween.go 20-22, 89-91
  | .spatial _, _ => mkFn [.tens 4 a] (.tens 4 a) -- op_nn.go 184-187, 701-705, 1951-1955, op_avg_pool.go 135-139, op_upsample.go 71-75
  | .batchNorm, xs => -- op_nn.go 1178-1186, nn.go 426
    let d := (xs.getD 0 ⟨.bool, []⟩).shape.length
    let d := if d = 0 then 4 else d
    mkFn [.tens d a] (.tens d a)

/-- The `InferShape` methods; those of other areas as modelled there. -/
def opShape : TOp → List (List Nat) → Res (List Nat)
  | .same, [x] => .ok x
  | .elem _ _, [x, y] => inferElem x y
  | .matMul tA tB, [x, y] => inferMatMul tA tB x y
  | .matVec tA, [x, y] => inferMatVec tA x y
  | .vecDot, [x, y] => inferVecDot x y
  | .outer, [x, y] => inferOuter x y
  | .batched tA tB, [x, y] => inferBatched tA tB x y
  | .reduce along, [x] => reduceShape ((if along = [] then List.range x.length else along).map Int.ofNat) x
  | .at_, [_] => .ok []
  | .sizeOf, [_] => .ok []
  | .repeat_ along rep, [x, _] => repeatShape x along rep
  | .slice along s e, [x] => (sliceT along s e (⟨x, fun _ => ()⟩ : T Unit)).bind fun r => .ok r.shape
  | .sliceIncr, [x, _] => .ok x
  | .transpose p, [x] => if x = [] then .err else if p.length ≠ x.length then .err else .ok (permute p x) -- op_tensor.go 877-886
  | .reshape to_, [_] => .ok to_ -- op_tensor.go 1152-1154
  | .diagFlat, [x] => .ok [size x, size x] -- op_nondiff.go 27-33
  | .dtConv _ _, [x] => .ok x -- op_types.go 44-46
  | .byIndices axis, [x, i] => byIndicesShape axis x i
  | .between, [x, y] => if shapeEq x y then .ok x else .err -- op_minmaxBetween.go 25-35
  | .spatial f, [x] => if x.length < 4 then .panic else let q := f x; .ok [q.1, q.2.1, q.2.2.1, q.2.2.2]
  | .batchNorm, [x] => .ok x
  | _, _ => .err

/-- `Arity`. -/
def arity : TOp → Nat
  | .elem _ _ | .matMul _ _ | .matVec _ | .vecDot | .outer | .batched _ _ | .repeat_ _ _ | .sliceIncr | .byIndices _ | .between => 2
  | _ => 1

/-- `ApplyOp`, op.go 168-214: type, then number of operands, then shape. -/
def applyOp (op : TOp) (xs : List Operand) : Option (Res (Ty × List Nat)) :=
  match inferNodeType (opTy op xs) (xs.map Operand.ty) with
  | none => none
  | some (.ok t) => some ((opShape op (xs.map Operand.shape)).bind fun s => .ok (t, s))
  | some .err => some .err
  | some .panic => some .panic

/-! ### Decisions taken by the type -/

/-- A node: its type and inferred shape. -/
structure Nd where
  t : Ty
  shape : List Nat

/-- `Node.IsScalar`, node.go 341. -/
def Nd.isScalar (n : Nd) : Bool := match n.t with
  | .dt _ => true
  | _ => false

/-- `Node.IsVector`, node.go 344-350: by the type. -/
def Nd.isVector (n : Nd) : Bool := match n.t with
  | .tens k _ => k == 1
  | _ => false

/-- `Node.IsMatrix`, node.go 373-378: by the shape. -/
def Nd.isMatrix (n : Nd) : Bool := match n.t with
  | .tens _ _ => n.shape.length == 2
  | _ => false

/-- The operation that `Mul` picks, operations.go 52-74, and whether it swaps the operands. -/
def mulOp (x y : Nd) : Res (TOp × Bool) :=
  if x.isScalar || y.isScalar then .ok (.elem true false, false)
  else if x.isVector && y.isVector then .ok (.vecDot, false)
  else if x.isVector && y.isMatrix then .ok (.matVec true, true)
  else if x.isMatrix && y.isVector then .ok (.matVec false, false)
  else if x.isMatrix && y.isMatrix then .ok (.matMul false false, false)
  else .err

/-- The node of an operand whose type is that of its value. -/
def Operand.nd (o : Operand) : Nd := ⟨o.ty, o.shape⟩

end Verif.Types
