import Verif.Types.Model
/-!
Values as objects in memory: `values.go`, `values_primitives.go`, `values_utils.go`, `equalities.go`, `dual.go`, and what `node.go` and `gorgonia.go` do to bind them
to nodes.

Scalars (`*F64`, ...), tensors and dual values are pointers; the model has a heap. Simplified: dual values are not nested; tensors are dense and contiguous and own their
memory (no views), on the CPU; elements are elements of a type `E` with decidable equality (no NaN), whatever the element type is.
-/
set_option autoImplicit false
namespace Verif.Value
open Verif.Shape Verif.Types

/-- A pointer is an address. -/
local notation "Ptr" => Nat

/-- A value that is not a dual value: `nil`, a `Scalar`, a `tensor.Tensor`. -/
inductive Base where
  | nil
  | sc (p : Ptr)
  | tn (p : Ptr)
  deriving DecidableEq

/-- What a pointer points to. -/
inductive Cell (E : Type) where
  | sc (dt : Dt) (v : E)
  | tn (dt : Dt) (shape : List Nat) (data : List E)
  | dv (v d : Base)
  deriving DecidableEq

/-- `Value` (values.go 22-30). -/
inductive Val where
  | base (b : Base)
  | dual (p : Ptr)
  deriving DecidableEq

/-- The heap; addresses from `next` on are free. -/
structure Heap (E : Type) where
  mem : Ptr → Option (Cell E)
  next : Nat

variable {E : Type}

def Heap.alloc (h : Heap E) (c : Cell E) : Heap E × Ptr :=
  (⟨fun p => if p = h.next then some c else h.mem p, h.next + 1⟩, h.next)

def Heap.write (h : Heap E) (p : Ptr) (c : Cell E) : Heap E := ⟨fun q => if q = p then some c else h.mem q, h.next⟩

/-- `CloneValue` (values_utils.go 92-132) of a scalar or tensor. `Clone` of a tensor copies its contents (assumed). -/
def cloneBase (h : Heap E) : Base → Res (Heap E × Base)
  | .nil => .err
  | .sc p => match h.mem p with
    | some (.sc dt v) => let r := h.alloc (.sc dt v); .ok (r.1, .sc r.2)
    | _ => .panic
  | .tn p => match h.mem p with
    | some (.tn dt s d) => let r := h.alloc (.tn dt s d); .ok (r.1, .tn r.2)
    | _ => .panic

/-- `dualValue.Clone` (dual.go 30-47). -/
def cloneDual (h : Heap E) (v d : Base) : Res (Heap E × Val) :=
  (cloneBase h v).bind fun r =>
    if d = .nil then let a := r.1.alloc (.dv r.2 .nil); .ok (a.1, .dual a.2)
    else (cloneBase r.1 d).bind fun r' => let a := r'.1.alloc (.dv r.2 r'.2); .ok (a.1, .dual a.2)

/-- `CloneValue` (values_utils.go 92-132). -/
def clone (h : Heap E) : Val → Res (Heap E × Val)
  | .base b => (cloneBase h b).bind fun r => .ok (r.1, .base r.2)
  | .dual p => match h.mem p with
    | some (.dv v d) => cloneDual h v d
    | _ => .panic

/-- `ZeroValue` (values_utils.go 135-166) of a scalar or tensor, in place. `zero` is the zero of the element type. -/
def zeroBase (zero : E) (h : Heap E) : Base → Res (Heap E)
  | .nil => .panic
  | .sc p => match h.mem p with
    | some (.sc dt _) => .ok (h.write p (.sc dt zero))
    | _ => .panic
  | .tn p => match h.mem p with
    | some (.tn dt s d) => .ok (h.write p (.tn dt s (d.map fun _ => zero)))
    | _ => .panic

/-- `clone0` (dual.go 89-107). -/
def clone0 (zero : E) (h : Heap E) (v d : Base) : Res (Heap E × Val) :=
  (cloneBase h v).bind fun r => (cloneBase r.1 d).bind fun r' =>
    (zeroBase zero r'.1 r.2).bind fun h1 => (zeroBase zero h1 r'.2).bind fun h2 =>
      let a := h2.alloc (.dv r.2 r'.2); .ok (a.1, .dual a.2)

/-- `tensor.Copy` (assumed): the elements, if the element types agree; a panic otherwise. Modelled for equal sizes only. -/
def copyTensor (h : Heap E) (q p : Ptr) : Res (Heap E) :=
  match h.mem q, h.mem p with
  | some (.tn dt s d), some (.tn dt' _ d') => if dt = dt' ∧ d.length = d'.length then .ok (h.write q (.tn dt s d')) else .panic
  | _, _ => .panic

/-- `Copy` (values_utils.go 169-239) of scalars and tensors; a dual value as source is an error. -/
def copyBase (h : Heap E) (dest src : Base) : Res (Heap E × Base) :=
  match src, dest with
  | .sc p, .sc q => match h.mem p, h.mem q with
    | some (.sc dt v), some (.sc dt' _) => if dt = dt' then .ok (h.write q (.sc dt v), .sc q) else .err
    | _, _ => .panic
  | .tn p, .tn q => (copyTensor h q p).bind fun h' => .ok (h', .tn q)
  | _, _ => .err

/-! ### Equality -/

/-- `scalarEq` (equalities.go 8-68) and `tensor.Eq` (assumed: same pointer, or same element type, equal shapes in the sense of `Shape.Eq` and equal elements); the first part of
`ValueEq` (values_utils.go 44-65). -/
def eqBase [DecidableEq E] (h : Heap E) : Base → Base → Res Bool
  | .nil, .nil => .ok true
  | .nil, _ => .panic
  | .sc p, .sc q => match h.mem p, h.mem q with
    | some (.sc dt v), some (.sc dt' v') => .ok (decide (dt = dt') && (decide (p = q) || decide (v = v')))
    | _, _ => .panic
  | .sc _, _ => .ok false
  | .tn p, .tn q => match h.mem p, h.mem q with
    | some (.tn dt s d), some (.tn dt' s' d') => .ok (decide (p = q) || (decide (dt = dt') && shapeEq s s' && decide (d = d')))
    | _, _ => .panic
  | .tn _, _ => .ok false

/-- `ValueEq` (values_utils.go 44-65), `dualValue.ValueEq` (dual.go 52-66). Both comparisons are made before the conjunction. -/
def valueEq [DecidableEq E] (h : Heap E) : Val → Val → Res Bool
  | .base a, .base b => eqBase h a b
  | .base .nil, .dual _ => .panic
  | .base _, .dual _ => .ok false
  | .dual _, .base _ => .ok false
  | .dual p, .dual q =>
    if q = p then .ok true
    else match h.mem p, h.mem q with
      | some (.dv v d), some (.dv v' d') => (eqBase h v' v).bind fun e => (eqBase h d' d).bind fun e' => .ok (e && e')
      | _, _ => .panic

/-- `scalarClose` (equalities.go 70-85). -/
def closeScalar [DecidableEq E] (close : E → E → Bool) (dt dt' : Dt) (same : Bool) (v v' : E) : Bool :=
  decide (dt = dt') && (if dt = .float64 ∨ dt = .float32 then close v v' else same || decide (v = v'))

/-- `tensorClose` (equalities.go 87-127). -/
def closeTensor [DecidableEq E] (close : E → E → Bool) (dt dt' : Dt) (same : Bool) (s s' : List Nat) (d d' : List E) : Bool :=
  decide (dt = dt') && (if dt = .float64 ∨ dt = .float32 then decide (d.length = d'.length) && (d.zip d').all fun e => close e.1 e.2
    else same || (shapeEq s s' && decide (d = d')))

/-- `ValueClose` (values_utils.go 68-89) of scalars and tensors. Dual values have no `ValueClose`: a panic. -/
def valueClose [DecidableEq E] (close : E → E → Bool) (h : Heap E) : Val → Val → Res Bool
  | .base .nil, .base .nil => .ok true
  | .base .nil, _ => .panic
  | .base (.sc p), .base (.sc q) => match h.mem p, h.mem q with
    | some (.sc dt v), some (.sc dt' v') => .ok (closeScalar close dt dt' (decide (p = q)) v v')
    | _, _ => .panic
  | .base (.sc _), _ => .ok false
  | .base (.tn p), .base (.tn q) => match h.mem p, h.mem q with
    | some (.tn dt s d), some (.tn dt' s' d') => .ok (closeTensor close dt dt' (decide (p = q)) s s' d d')
    | _, _ => .panic
  | .base (.tn _), _ => .ok false
  | .dual _, _ => .panic

/-! ### Dual values -/

/-- `constantDV` (dual.go 114-129). -/
def constantDV (zero : E) (h : Heap E) (v : Base) : Res (Heap E × Ptr) :=
  match cloneBase h v with
  | .ok r => (zeroBase zero r.1 r.2).bind fun h' => .ok (h'.alloc (.dv v r.2))
  | _ => .panic

/-- `variableDV` (dual.go 132-149). -/
def variableDV (one : E) (h : Heap E) (v : Base) : Res (Heap E × Ptr) :=
  match v with
  | .nil => .panic
  | .sc p => match h.mem p with
    | some (.sc dt _) => let a := h.alloc (.sc dt one); .ok (a.1.alloc (.dv v (.sc a.2)))
    | _ => .panic
  | .tn p => match h.mem p with
    | some (.tn dt s d) => let a := h.alloc (.tn dt s (d.map fun _ => one)); .ok (a.1.alloc (.dv v (.tn a.2)))
    | _ => .panic

/-- `SetDeriv` (dual.go 16-23): a tensor without axes becomes a scalar. -/
def setDeriv (h : Heap E) (p : Ptr) (d : Base) : Res (Heap E) :=
  match h.mem p with
  | some (.dv v _) => match d with
    | .tn q => match h.mem q with
      | some (.tn dt [] [x]) => let a := h.alloc (.sc dt x); .ok (a.1.write p (.dv v (.sc a.2)))
      | _ => .ok (h.write p (.dv v d))
    | _ => .ok (h.write p (.dv v d))
  | _ => .panic

/-- `dvBind0` (dual.go 296-321) after the op has returned `ret`. -/
def dvBind0 (zero : E) (h : Heap E) (p : Ptr) (ret : Base) : Res (Heap E) :=
  match h.mem p with
  | some (.dv _ d) =>
    let h1 := h.write p (.dv ret d)
    (zeroBase zero h1 d).bind fun h2 => setDeriv h2 p d
  | _ => .panic

/-- `dvBindVar0` (dual.go 323-360) after the op has returned `ret`: the derivative becomes one, but tensors of other element types than the two floats keep theirs. -/
def dvBindVar0 (one : E) (h : Heap E) (p : Ptr) (ret : Base) : Res (Heap E) :=
  match h.mem p with
  | some (.dv _ d) =>
    let h1 := h.write p (.dv ret d)
    match d with
    | .nil => .err
    | .sc q => match h1.mem q with
      | some (.sc dt _) => let a := h1.alloc (.sc dt one); .ok (a.1.write p (.dv ret (.sc a.2)))
      | _ => .panic
    | .tn q => match h1.mem q with
      | some (.tn dt s x) => if dt = .float64 ∨ dt = .float32 then .ok (h1.write q (.tn dt s (x.map fun _ => one))) else .ok h1
      | _ => .panic
  | _ => .panic

/-! ### Binding values to nodes -/

/-- A node, as far as its value is concerned: the type, the shape, the value, whether it is an input (no op, or random; node.go 322-326), whether it is random. -/
structure Node where
  t : Option Ty := none
  shape : Option (List Nat) := none
  bound : Val := .base .nil
  input : Bool := true
  random : Bool := false

/-- `bind` (node.go 651-678). -/
def bind (h : Heap E) (n : Node) (v : Val) : Res (Heap E × Node) :=
  match n.bound with
  | .base _ => .ok (h, { n with bound := v })
  | .dual p => match h.mem p with
    | some (.dv _ d) => match v with
      | .dual q =>
        if q = p then .ok (h, n)
        else if n.random then match h.mem q with
          | some (.dv v' _) => .ok (h.write p (.dv v' d), n)
          | _ => .panic
        else .panic
      | .base b => .ok (h.write p (.dv b d), n)
    | _ => .panic

/-- `bindCopy` (node.go 681-718). -/
def bindCopy (h : Heap E) (n : Node) (v : Val) : Res (Heap E × Node) :=
  match n.bound with
  | .base .nil => (clone h v).bind fun r => .ok (r.1, { n with bound := r.2 })
  | .base b => match v with
    | .dual _ => .err
    | .base c => (copyBase h b c).bind fun r => .ok (r.1, { n with bound := .base r.2 })
  | .dual p => match h.mem p with
    | some (.dv b d) => match v with
      | .dual q =>
        if q = p then .ok (h, n)
        else if n.random then match h.mem q with
          | some (.dv v' _) => .ok (h.write p (.dv v' d), n)
          | _ => .panic
        else .err
      | .base c => (copyBase h b c).bind fun r => .ok (r.1.write p (.dv r.2 d), n)
    | _ => .panic

/-- Element type and shape of a value. -/
def infoBase (h : Heap E) : Base → Option (Dt × List Nat)
  | .nil => none
  | .sc p => match h.mem p with
    | some (.sc dt _) => some (dt, [])
    | _ => none
  | .tn p => match h.mem p with
    | some (.tn dt s _) => some (dt, s)
    | _ => none

def info (h : Heap E) : Val → Option (Dt × List Nat)
  | .base b => infoBase h b
  | .dual p => match h.mem p with
    | some (.dv v _) => infoBase h v
    | _ => none

/-- What the user passes: a value, or a Go number (`float64`, or `F64` without pointer, ...). -/
inductive Any (E : Type) where
  | val (v : Val)
  | num (dt : Dt) (x : E)

/-- `anyToValue` (values_primitives.go 318-352): the value. -/
def anyToValue (h : Heap E) : Any E → Heap E × Val
  | .val v => (h, v)
  | .num dt x => let a := h.alloc (.sc dt x); (a.1, .base (.sc a.2))

/-- `dtypeOf` (typeSystem.go 96-110) of the type of a node. -/
def dtOf : Ty → Option Dt
  | .dt d => some d
  | .tens _ (.dt d) => some d
  | _ => none

/-- `UnsafeLet` (gorgonia.go 259-297) with a value or a number. Only values are checked. -/
def unsafeLet (h : Heap E) (n : Node) (be : Any E) : Res (Heap E × Node) :=
  match be with
  | .val v => match info h v, n.t with
    | some (dt, s), some t =>
      if shapeEq (n.shape.getD []) s = false then .err
      else match dtOf t with
        | none => .panic
        | some dt' => if dt' = dt then bind h n v else .err
    | _, _ => .panic
  | .num _ _ => let r := anyToValue h be; bind r.1 n r.2

/-- `Let` (gorgonia.go 248-254). -/
def let' (h : Heap E) (n : Node) (be : Any E) : Res (Heap E × Node) := if n.input then unsafeLet h n be else .err

/-- `TypeOf` (values_utils.go 13-26) of a value of this element type and shape: a tensor without axes is of type `Tensor-0`. -/
def typeOf (h : Heap E) : Val → Option Ty
  | .base .nil => none
  | .base (.sc p) => match h.mem p with
    | some (.sc dt _) => some (.dt dt)
    | _ => none
  | .base (.tn p) => match h.mem p with
    | some (.tn dt s _) => some (.tens s.length (.dt dt))
    | _ => none
  | .dual p => match h.mem p with
    | some (.dv (.sc q) _) => match h.mem q with
      | some (.sc dt _) => some (.dt dt)
      | _ => none
    | some (.dv (.tn q) _) => match h.mem q with
      | some (.tn dt s _) => some (.tens s.length (.dt dt))
      | _ => none
    | _ => none

/-- `Dims` of a node (node.go 458-470). -/
def Node.dims (n : Node) : Option Int :=
  match n.shape with
  | some s => some s.length
  | none => match n.t with
    | some (.tens d _) => some d
    | some (.dt _) => some 0
    | _ => none

/-- `IsColVec`, `IsRowVec` of a shape (assumed). -/
def isVec : List Nat → Bool
  | [a, b] => (b == 1 && decide (1 < a)) || (a == 1 && decide (1 < b))
  | _ => false

/-- The options (node.go 62-230). -/
inductive Opt (E : Type) where
  | type (t : Ty)
  | shape (s : List Nat)
  | value (v : Any E)
  | grad (v : Any E)

/-- `WithType` (node.go 68-77), `WithShape` (node.go 210-230), `WithValue` (node.go 135-164), `WithGrad` (node.go 169-191) applied to a node. -/
def applyOpt (h : Heap E) (n : Node) : Opt E → Res (Heap E × Node)
  | .type t => match n.t with
    | none => .ok (h, { n with t := some t })
    | some t' => if t' = t then .ok (h, n) else .panic
  | .shape s =>
    if n.t = none ∧ n.shape = none then .ok (h, { n with shape := some s })
    else match n.dims with
      | none => .panic
      | some nd =>
        if (isVec s ∧ nd = 1) ∨ nd = s.length ∨ (nd = 0 ∧ (s = [] ∨ s.prod = 1)) then .ok (h, { n with shape := some s }) else .panic
  | .value a =>
    let r := anyToValue h a
    match typeOf r.1 r.2, info r.1 r.2 with
    | some t, some (_, s) =>
      match n.t with
      | none => (bind r.1 { n with t := some t } r.2).bind fun r => .ok (r.1, { r.2 with shape := some (r.2.shape.getD s) })
      | some t' =>
        if t' = t then (bind r.1 n r.2).bind fun r => .ok (r.1, { r.2 with shape := some (r.2.shape.getD s) })
        else match t', t, r.2 with
          | .dt d, .tens _ (.dt d'), .base (.tn p) =>
            if d = d' ∧ s.all (· = 1) then match r.1.mem p with
              | some (.tn dt _ x) => (bind (r.1.write p (.tn dt [] x)) n r.2).bind fun r => .ok (r.1, { r.2 with shape := some (r.2.shape.getD []) })
              | _ => .panic
            else .panic
          | _, _, _ => .panic
    | _, _ => .panic
  | .grad a =>
    let r := anyToValue h a
    match n.bound, r.2 with
    | .base b, .base d =>
      if b = .nil ∨ typeOf r.1 n.bound ≠ typeOf r.1 r.2 then .panic
      else let a := r.1.alloc (.dv b d); bind a.1 n (.dual a.2)
    | .dual p, .base d =>
      if typeOf r.1 n.bound ≠ typeOf r.1 r.2 then .panic
      else match r.1.mem p with
        | some (.dv b _) => .ok (r.1.write p (.dv b d), n)
        | _ => .panic
    | _, .dual _ => .panic

def applyOpts (h : Heap E) (n : Node) : List (Opt E) → Res (Heap E × Node)
  | [] => .ok (h, n)
  | o :: os => (applyOpt h n o).bind fun r => applyOpts r.1 r.2 os

/-- `newNode` (node.go 271-285) of a node in a graph without op, with `fix` (node.go 780-792). -/
def newNode (h : Heap E) (os : List (Opt E)) : Res (Heap E × Node) :=
  (applyOpts h {} os).bind fun r => .ok (r.1, match r.2.t with
    | some (.dt _) => { r.2 with shape := some [] }
    | _ => r.2)

end Verif.Value
