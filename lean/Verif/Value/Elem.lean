import Verif.Value.Model
/-!
The ways to run an elementwise operation on two operands (C100): `Do`, `UsePreallocDo`, `UnsafeDo` and `IncrDo` of `elemBinOp`
(op_math.go 245-371), `scalarBinOp` and `tBinOp` (operatorPointwise_binary.go 31-425), on values in memory.

The operations of the tensor library are assumed to act element by element, to want equal element types and, for two tensors,
shapes that are equal in the sense of `Shape.Eq`. Simplified: the preallocated or incremented tensor is not the right operand
of two tensors; arithmetic of the library on integers does not fail; in-place and incrementing comparisons of the library,
which change the element type, are not modelled unless the result is to have the type of the operands; tensors are no views.
-/
set_option autoImplicit false
namespace Verif.Value
open Verif.Shape Verif.Types Verif.Tensor

/-- `ʘBinaryOperatorType` (operatorPointwise_binary_const.go 28-46). -/
inductive BOp where
  | add | sub | mul | div | pow | lt | gt | lte | gte | eq | ne
  deriving DecidableEq

/-- `isArith` (operatorPointwise_binary_const.go 133-140). -/
def BOp.isArith : BOp → Bool
  | .add | .sub | .mul | .div | .pow => true
  | _ => false

/-- The arithmetic and the comparisons of the element types. -/
structure Sem (E : Type) where
  ar : Dt → BOp → E → E → E
  rel : BOp → E → E → Bool
  /-- truth values as elements -/
  ofBool : Bool → E
  /-- one and zero of an element type -/
  num : Dt → Bool → E

def isFloat : Dt → Bool
  | .float64 | .float32 => true
  | _ => false

def isInt (dt : Dt) : Bool := !isFloat dt && dt != .bool

variable {E : Type}

/-- The element type of the result: of the operands, or truth values for a comparison unless the same type is wanted. -/
def outDt (op : BOp) (same : Bool) (dt : Dt) : Dt := if op.isArith || same then dt else .bool

/-- The element of the result. -/
def outVal (S : Sem E) (op : BOp) (same : Bool) (dt : Dt) (x y : E) : E :=
  if op.isArith then S.ar dt op x y else if same then S.num dt (S.rel op x y) else S.ofBool (S.rel op x y)

/-- `scalarBinOp.Do` (operatorPointwise_binary.go 40-287): integers have no power, their division by zero panics; truth values
have equality only, and `same` is not looked at for them. Other operands than two scalars are an error (46-50, 277-278). -/
def scalarDo [DecidableEq E] (S : Sem E) (op : BOp) (same : Bool) (h : Heap E) (a b : Base) : Res (Heap E × Base) :=
  match a, b with
  | .sc p, .sc q => match h.mem p, h.mem q with
    | some (.sc dt v), some (.sc dt' v') =>
      if dt ≠ dt' then .err
      else if dt = .bool then
        if op = .eq ∨ op = .ne then let r := h.alloc (.sc .bool (S.ofBool (S.rel op v v'))); .ok (r.1, .sc r.2) else .err
      else if isInt dt = true ∧ op = .pow then .err
      else if isInt dt = true ∧ op = .div ∧ v' = S.num dt false then .panic
      else let r := h.alloc (.sc (outDt op same dt) (outVal S op same dt v v')); .ok (r.1, .sc r.2)
    | _, _ => .panic
  | .nil, _ => .panic
  | _, .nil => .panic
  | _, _ => .err

/-- An operand as it is handed to the library: the number, or the tensor. -/
inductive Raw (E : Type) where
  | num (v : E)
  | ten (p : Nat) (s : List Nat) (d : List E)

/-- The type switches of `tBinOp.do` (operatorPointwise_binary.go 372-407) with the element type. Only scalars of the two float types can be unpacked. -/
def rawOf (h : Heap E) : Base → Res (Dt × Raw E)
  | .nil => .panic
  | .sc p => match h.mem p with
    | some (.sc dt v) => if isFloat dt then .ok (dt, .num v) else .err
    | _ => .panic
  | .tn p => match h.mem p with
    | some (.tn dt s d) => .ok (dt, .ten p s d)
    | _ => .panic

/-- The options given to the library. -/
inductive Mode where
  | fresh
  /-- `UseUnsafe` -/
  | inPlace
  /-- `WithReuse` -/
  | reuse (p : Nat)
  /-- `WithIncr` -/
  | incr (p : Nat)

/-- The elementwise operation of the library (assumed): shape and elements. -/
def libElems (f : E → E → E) : Raw E → Raw E → Res (List Nat × List E)
  | .ten _ s d, .ten _ s' d' => if shapeEq s s' then .ok (s, List.zipWith f d d') else .err
  | .ten _ s d, .num v => .ok (s, d.map (f · v))
  | .num v, .ten _ s d => .ok (s, d.map (f v ·))
  | .num _, .num _ => .err

/-- Which tensor an in-place operation of the library overwrites (assumed): the first tensor. -/
def libTarget : Raw E → Raw E → Option Nat
  | .ten p _ _, _ => some p
  | .num _, .ten q _ _ => some q
  | _, _ => none

/-- Where the library puts the result (assumed). -/
def store (S : Sem E) (op : BOp) (same : Bool) (dt : Dt) (h : Heap E) (mode : Mode) (x y : Raw E) (r : List Nat × List E) :
    Res (Heap E × Base) :=
  match mode with
  | .fresh => let a := h.alloc (.tn (outDt op same dt) r.1 r.2); .ok (a.1, .tn a.2)
  | .inPlace => match libTarget x y with
    | some p => if outDt op same dt = dt then .ok (h.write p (.tn dt r.1 r.2), .tn p) else .err
    | none => .err
  | .reuse p => match h.mem p with
    | some (.tn dt' _ d') =>
      if dt' = outDt op same dt ∧ d'.length = r.2.length then .ok (h.write p (.tn dt' r.1 r.2), .tn p) else .err
    | _ => .panic
  | .incr p => match h.mem p with
    | some (.tn dt' s' d') =>
      if dt' = dt ∧ d'.length = r.2.length ∧ op.isArith = true then
        .ok (h.write p (.tn dt' s' (List.zipWith (S.ar dt .add) d' r.2)), .tn p)
      else .err
    | _ => .panic

/-- The end of `tBinOp.do` (operatorPointwise_binary.go 409-424), for operands of the same element type (lines 364-370). -/
def tRun (S : Sem E) (op : BOp) (same : Bool) (h : Heap E) (mode : Mode) (x y : Dt × Raw E) : Res (Heap E × Base) :=
  if x.1 ≠ y.1 then .err
  else (libElems (outVal S op same x.1) x.2 y.2).bind fun r => store S op same x.1 h mode x.2 y.2 r

/-- `tBinOp.do` (operatorPointwise_binary.go 359-426). The element types are compared first in the code; the outcome is the same. -/
def tDo (S : Sem E) (op : BOp) (same left : Bool) (h : Heap E) (mode : Mode) (a b : Base) : Res (Heap E × Base) :=
  (rawOf h a).bind fun x => (rawOf h b).bind fun y =>
    match left, x.2, y.2 with
    | true, .num _, _ => .err
    | false, _, .num _ => .err
    | _, _, _ => tRun S op same h mode x y

/-- The operator inside an `elemBinOp`. -/
inductive Kind where
  | scalar
  | tensor (left : Bool)
  deriving DecidableEq

/-- `newEBOByType` (op_math.go 36-67) for values: `nil` has no type, a panic. -/
def kindOf : Base → Base → Option Kind
  | .sc _, .sc _ => some .scalar
  | .sc _, .tn _ => some (.tensor false)
  | .tn _, .sc _ => some (.tensor true)
  | .tn _, .tn _ => some (.tensor true)
  | _, _ => none

/-- An `elemBinOp` (op_math.go 30-34). -/
structure EOp where
  op : BOp
  same : Bool
  kind : Kind

/-- `elemBinOp.Do` (op_math.go 245-247). -/
def EOp.do_ [DecidableEq E] (S : Sem E) (e : EOp) (h : Heap E) (a b : Base) : Res (Heap E × Base) :=
  match e.kind with
  | .scalar => scalarDo S e.op e.same h a b
  | .tensor l => tDo S e.op e.same l h .fresh a b

/-- `elemBinOp.UsePreallocDo` (op_math.go 307-320), `tBinOp.UsePreallocDo` (318-329). -/
def EOp.preallocDo [DecidableEq E] (S : Sem E) (e : EOp) (h : Heap E) (pre a b : Base) : Res (Heap E × Base) :=
  match e.kind with
  | .scalar => (scalarDo S e.op e.same h a b).bind fun r => copyBase r.1 pre r.2
  | .tensor l => match pre with
    | .tn p => tDo S e.op e.same l h (.reuse p) a b
    | _ => .err

/-- The shape of a value. -/
def shapeOf (h : Heap E) : Base → Res (List Nat)
  | .nil => .panic
  | .sc p => match h.mem p with
    | some (.sc _ _) => .ok []
    | _ => .panic
  | .tn p => match h.mem p with
    | some (.tn _ s _) => .ok s
    | _ => .panic

/-- `Reshape` of the library to a shape of the same size (assumed). -/
def setShape (h : Heap E) (p : Nat) (s : List Nat) : Heap E :=
  match h.mem p with
  | some (.tn dt _ d) => h.write p (.tn dt s d)
  | _ => h

/-- The end of `elemBinOp.UnsafeDo` (op_math.go 347-350): `scalarBinOp` has no `UnsafeDo`. -/
def EOp.unsafeRun [DecidableEq E] (S : Sem E) (e : EOp) (h : Heap E) (a b : Base) : Res (Heap E × Base) :=
  match e.kind with
  | .scalar => scalarDo S e.op e.same h a b
  | .tensor l => tDo S e.op e.same l h .inPlace a b

/-- Run with a tensor reshaped, and reshape it back (op_math.go 343-344). -/
def EOp.reshaped [DecidableEq E] (S : Sem E) (e : EOp) (h : Heap E) (a b : Base) (p : Nat) (s backup : List Nat) :
    Res (Heap E × Base) :=
  (e.unsafeRun S (setShape h p s) a b).bind fun r => .ok (setShape r.1 p backup, r.2)

/-- The temporary change of shape (op_math.go 333-345): the type assertion on the right operand comes first. -/
def EOp.unsafeShapes [DecidableEq E] (S : Sem E) (e : EOp) (h : Heap E) (a b : Base) (sa sb : List Nat) : Res (Heap E × Base) :=
  match b with
  | .tn q =>
    if sb.length < sa.length then
      match a with
      | .tn p => e.reshaped S h a b p sb sa
      | _ => .panic
    else e.reshaped S h a b q sa sb
  | _ => .panic

/-- `elemBinOp.UnsafeDo` (op_math.go 323-351). -/
def EOp.unsafeDo [DecidableEq E] (S : Sem E) (e : EOp) (h : Heap E) (a b : Base) : Res (Heap E × Base) :=
  (shapeOf h a).bind fun sa => (shapeOf h b).bind fun sb =>
    if shapeEq sa sb = false ∧ size sa = size sb then e.unsafeShapes S h a b sa sb else e.unsafeRun S h a b

/-- What `IncrDo` leaves: the incremented value in place, or a new value inside the error `noIncrErr` (errors.go 31-37), which
`checkErrSetDeriv` (errors.go 75-80) makes the new derivative. -/
inductive Incr (E : Type) where
  | done (h : Heap E)
  | value (h : Heap E) (v : Base)

/-- Adding the result with `newEBOByType(addOpType, …).UnsafeDo` (op_math.go 364-369, operatorPointwise_binary.go 350-355). -/
def addUnsafe [DecidableEq E] (S : Sem E) (h : Heap E) (inc r : Base) : Res (Incr E) :=
  match kindOf inc r with
  | none => .panic
  | some k => (EOp.unsafeDo S ⟨.add, false, k⟩ h inc r).bind fun x => .ok (.value x.1 x.2)

/-- `elemBinOp.IncrDo` (op_math.go 354-372), `tBinOp.IncrDo` (331-357): a tensor is incremented by the library (without
`AsSameType`). -/
def EOp.incrDo [DecidableEq E] (S : Sem E) (e : EOp) (h : Heap E) (inc a b : Base) : Res (Incr E) :=
  match e.kind, inc with
  | .tensor l, .tn p => (tDo S e.op false l h (.incr p) a b).bind fun r => .ok (.done r.1)
  | _, _ => (e.do_ S h a b).bind fun r => addUnsafe S r.1 inc r.2

/-- `newElemUnaryOp` (op_math.go 388-408) followed by `unaryOpNode` (operations.go 134-163): other element types than the two
floats have no operator, and asking the missing operator for its type (line 143) panics. -/
def unaryNode (dt : Dt) : Res Unit := if isFloat dt then .ok () else .panic

/-! ### Basic facts -/

theorem shapeEq_refl' (s : List Nat) : shapeEq s s = true := by
  unfold shapeEq
  split <;> simp_all

theorem alloc_mem (h : Heap E) (c : Cell E) (p : Nat) : (h.alloc c).1.mem p = if p = h.next then some c else h.mem p := rfl

theorem write_mem (h : Heap E) (p q : Nat) (c : Cell E) : (h.write p c).mem q = if q = p then some c else h.mem q := rfl

/-- All addresses in use are below `next`. -/
def Ok (h : Heap E) : Prop := ∀ p c, h.mem p = some c → p < h.next

theorem Ok.ne {h : Heap E} (hk : Ok h) {p : Nat} {c : Cell E} (hp : h.mem p = some c) : p ≠ h.next :=
  Nat.ne_of_lt (hk p c hp)

/-- The types of an operation fit the values it is run on. -/
def Fits (e : EOp) (a b : Base) : Prop := kindOf a b = some e.kind

/-! ### The result, written out -/

/-- The element type the result is to have. -/
def wantDt : BOp → Bool → Dt → Dt
  | .add, _, dt | .sub, _, dt | .mul, _, dt | .div, _, dt | .pow, _, dt => dt
  | _, true, dt => dt
  | _, false, _ => .bool

/-- The element the result is to have for the elements `x` on the left and `y` on the right. -/
def want (S : Sem E) : BOp → Bool → Dt → E → E → E
  | .add, _, dt, x, y => S.ar dt .add x y
  | .sub, _, dt, x, y => S.ar dt .sub x y
  | .mul, _, dt, x, y => S.ar dt .mul x y
  | .div, _, dt, x, y => S.ar dt .div x y
  | .pow, _, dt, x, y => S.ar dt .pow x y
  | op, true, dt, x, y => S.num dt (S.rel op x y)
  | op, false, _, x, y => S.ofBool (S.rel op x y)

theorem outDt_want (op : BOp) (same : Bool) (dt : Dt) : outDt op same dt = wantDt op same dt := by
  cases op <;> cases same <;> rfl

theorem outVal_want (S : Sem E) (op : BOp) (same : Bool) (dt : Dt) : outVal S op same dt = want S op same dt := by
  funext x y; cases op <;> cases same <;> rfl

/-! ### Scalars -/

/-- Two scalars: the operation succeeds exactly for numbers and operations that Go has; the result is new, and everything that
was in memory stays. -/
theorem scalar_do [DecidableEq E] (S : Sem E) (op : BOp) (same : Bool) (h : Heap E) (p q : Nat) (dt dt' : Dt) (v v' : E)
    (hp : h.mem p = some (.sc dt v)) (hq : h.mem q = some (.sc dt' v')) :
    ((∃ r, scalarDo S op same h (.sc p) (.sc q) = .ok r) ↔
        dt = dt' ∧ (dt = .bool → op = .eq ∨ op = .ne) ∧
          (isInt dt = true → op ≠ .pow ∧ (op = .div → v' ≠ S.num dt false))) ∧
      ∀ r, scalarDo S op same h (.sc p) (.sc q) = .ok r →
        r = ((h.alloc (.sc (wantDt op (same && dt != .bool) dt) (want S op (same && dt != .bool) dt v v'))).1, .sc h.next) := by
  simp only [← outDt_want, ← outVal_want]
  have key : scalarDo S op same h (.sc p) (.sc q) =
      (if dt ≠ dt' then .err
      else if dt = .bool then
        if op = .eq ∨ op = .ne then .ok ((h.alloc (.sc .bool (S.ofBool (S.rel op v v')))).1, .sc h.next) else .err
      else if isInt dt = true ∧ op = .pow then .err
      else if isInt dt = true ∧ op = .div ∧ v' = S.num dt false then .panic
      else .ok ((h.alloc (.sc (outDt op same dt) (outVal S op same dt v v'))).1, .sc h.next)) := by
    simp only [scalarDo, hp, hq]; rfl
  rw [key]
  by_cases h1 : dt = dt'
  · subst h1
    by_cases h2 : dt = .bool
    · subst h2
      by_cases h3 : op = .eq ∨ op = .ne
      · refine ⟨?_, ?_⟩
        · simp [h3, isInt]
        · intro r hr
          have : r = ((h.alloc (.sc .bool (S.ofBool (S.rel op v v')))).1, .sc h.next) := by
            simpa [h3] using hr.symm
          rw [this]
          rcases h3 with rfl | rfl <;> simp [outDt, outVal, BOp.isArith]
      · simp [h3]
    · by_cases h3 : isInt dt = true ∧ op = .pow
      · simp [h2, h3.1, h3.2]
      · by_cases h4 : isInt dt = true ∧ op = .div ∧ v' = S.num dt false
        · obtain ⟨h5, rfl, h6⟩ := h4
          simp [h2, h5, h6]
        · rw [if_neg (by simp), if_neg h2, if_neg h3, if_neg h4]
          refine ⟨⟨fun _ => ⟨rfl, fun e => absurd e h2, fun e => ⟨fun e' => h3 ⟨e, e'⟩, fun e' e'' => h4 ⟨e, e', e''⟩⟩⟩,
            fun _ => ⟨_, rfl⟩⟩, ?_⟩
          intro r hr
          have : (same && dt != .bool) = same := by simp [h2]
          rw [this]
          exact (Res.ok.inj hr).symm
  · simp [h1]

/-! ### Tensors: a new result -/

theorem rawOf_tn {h : Heap E} {p : Nat} {dt : Dt} {s : List Nat} {d : List E} (hp : h.mem p = some (.tn dt s d)) :
    rawOf h (.tn p) = .ok (dt, .ten p s d) := by simp [rawOf, hp]

theorem rawOf_sc {h : Heap E} {p : Nat} {dt : Dt} {v : E} (hp : h.mem p = some (.sc dt v)) (hf : isFloat dt = true) :
    rawOf h (.sc p) = .ok (dt, .num v) := by simp [rawOf, hp, hf]

theorem rawOf_sc_int {h : Heap E} {p : Nat} {dt : Dt} {v : E} (hp : h.mem p = some (.sc dt v)) (hf : isFloat dt = false) :
    rawOf h (.sc p) = .err := by simp [rawOf, hp, hf]

/-- Shape and elements of the result of two operands of the same element type, at least one a tensor: every element is the
operation on the elements at the same position, a scalar being the same at every position. -/
inductive Elems (S : Sem E) (e : EOp) (h : Heap E) : Base → Base → Dt → List Nat → List E → Prop where
  | tt {p q : Nat} {dt : Dt} {s s' : List Nat} {d d' r : List E} (hp : h.mem p = some (.tn dt s d))
      (hq : h.mem q = some (.tn dt s' d')) (hs : shapeEq s s' = true) (hl : d.length = d'.length) (hr : r.length = d.length)
      (hv : ∀ i (hi : i < r.length), r[i] = want S e.op e.same dt (d[i]'(by omega)) (d'[i]'(by omega))) :
      Elems S e h (.tn p) (.tn q) dt s r
  | ts {p q : Nat} {dt : Dt} {s : List Nat} {d r : List E} {v : E} (hp : h.mem p = some (.tn dt s d))
      (hq : h.mem q = some (.sc dt v)) (hf : isFloat dt = true) (hr : r.length = d.length)
      (hv : ∀ i (hi : i < r.length), r[i] = want S e.op e.same dt (d[i]'(by omega)) v) :
      Elems S e h (.tn p) (.sc q) dt s r
  | st {p q : Nat} {dt : Dt} {s : List Nat} {d r : List E} {v : E} (hp : h.mem p = some (.sc dt v))
      (hq : h.mem q = some (.tn dt s d)) (hf : isFloat dt = true) (hr : r.length = d.length)
      (hv : ∀ i (hi : i < r.length), r[i] = want S e.op e.same dt v (d[i]'(by omega))) :
      Elems S e h (.sc p) (.tn q) dt s r

theorem zipWith_eq {f : E → E → E} {d d' r : List E} (hl : d.length = d'.length) (hr : r.length = d.length)
    (hv : ∀ i (hi : i < r.length), r[i] = f (d[i]'(by omega)) (d'[i]'(by omega))) : List.zipWith f d d' = r := by
  apply List.ext_getElem
  · simp [hl, hr]
  · intro i h1 h2; simp [hv i h2]

theorem map_eq {f : E → E} {d r : List E} (hr : r.length = d.length)
    (hv : ∀ i (hi : i < r.length), r[i] = f (d[i]'(by omega))) : d.map f = r := by
  apply List.ext_getElem
  · simp [hr]
  · intro i h1 h2; simp [hv i h2]

/-- The first tensor among the operands. -/
def target : Base → Base → Nat
  | .tn p, _ => p
  | _, .tn q => q
  | _, _ => 0

/-- All that follows rests on: the library is called with these elements. -/
theorem tDo_elems [DecidableEq E] (S : Sem E) (e : EOp) (h : Heap E) (a b : Base) (dt : Dt) (s : List Nat) (r : List E)
    (hE : Elems S e h a b dt s r) (l : Bool) (hk : kindOf a b = some (.tensor l)) (mode : Mode) :
    ∃ x y, libTarget x y = some (target a b) ∧ tDo S e.op e.same l h mode a b = store S e.op e.same dt h mode x y (s, r) := by
  cases hE with
  | tt hp hq hs hl hr hv =>
    simp only [← outVal_want] at hv
    obtain rfl : true = l := by simpa [kindOf] using hk
    refine ⟨?_, ?_, ?_, ?_⟩
    rotate_left 3
    · simp only [tDo, rawOf_tn hp, rawOf_tn hq, Res.bind, tRun, libElems, hs, zipWith_eq hl hr hv, ne_eq, not_true, if_false, if_true]
      rfl
    · rfl
  | ts hp hq hf hr hv =>
    simp only [← outVal_want] at hv
    obtain rfl : true = l := by simpa [kindOf] using hk
    refine ⟨?_, ?_, ?_, ?_⟩
    rotate_left 3
    · simp only [tDo, rawOf_tn hp, rawOf_sc hq hf, Res.bind, tRun, libElems, ne_eq, not_true, if_false]
      rw [map_eq (f := fun x => outVal S e.op e.same _ x _) hr hv]
    · rfl
  | st hp hq hf hr hv =>
    simp only [← outVal_want] at hv
    obtain rfl : false = l := by simpa [kindOf] using hk
    refine ⟨?_, ?_, ?_, ?_⟩
    rotate_left 3
    · simp only [tDo, rawOf_sc hp hf, rawOf_tn hq, Res.bind, tRun, libElems, ne_eq, not_true, if_false]
      rw [map_eq hr hv]
    · rfl

theorem Elems.kind {S : Sem E} {e : EOp} {h : Heap E} {a b : Base} {dt : Dt} {s : List Nat} {r : List E}
    (hE : Elems S e h a b dt s r) : ∃ l, kindOf a b = some (.tensor l) := by
  cases hE <;> exact ⟨_, rfl⟩

/-- `Do` on tensors: a new tensor with the shape of the first tensor and the elements of the specification; nothing else in
memory changes. -/
theorem tensor_do [DecidableEq E] (S : Sem E) (e : EOp) (h : Heap E) (a b : Base) (dt : Dt) (s : List Nat) (r : List E)
    (hE : Elems S e h a b dt s r) (hF : Fits e a b) :
    e.do_ S h a b = .ok ((h.alloc (.tn (wantDt e.op e.same dt) s r)).1, .tn h.next) := by
  rw [← outDt_want]
  obtain ⟨l, hl⟩ := hE.kind
  obtain ⟨x, y, _, he⟩ := tDo_elems S e h a b dt s r hE l hl .fresh
  have : e.kind = .tensor l := by rw [Fits, hl] at hF; exact (Option.some.inj hF).symm
  simp only [EOp.do_, this, he, store]; rfl

/-- An integer scalar next to a tensor is an error, although two integer scalars or two integer tensors are fine. -/
theorem tensor_int_scalar [DecidableEq E] (S : Sem E) (e : EOp) (h : Heap E) (p q : Nat) (dt dt' : Dt) (s : List Nat) (d : List E) (v : E)
    (hp : h.mem p = some (.tn dt s d)) (hq : h.mem q = some (.sc dt' v)) (hf : isFloat dt' = false) (hk : e.kind = .tensor true) :
    e.do_ S h (.tn p) (.sc q) = .err := by
  simp only [EOp.do_, hk, tDo, rawOf_tn hp, rawOf_sc_int hq hf, Res.bind]

/-- Tensors of different element types are refused, in every mode and whatever the operation. -/
theorem tensor_types_differ [DecidableEq E] (S : Sem E) (e : EOp) (h : Heap E) (p q : Nat) (dt dt' : Dt) (s s' : List Nat)
    (d d' : List E) (hp : h.mem p = some (.tn dt s d)) (hq : h.mem q = some (.tn dt' s' d')) (hne : dt ≠ dt')
    (hk : e.kind = .tensor true) (x : Nat) :
    e.do_ S h (.tn p) (.tn q) = .err ∧ e.preallocDo S h (.tn x) (.tn p) (.tn q) = .err ∧
      e.incrDo S h (.tn x) (.tn p) (.tn q) = .err := by
  simp [EOp.do_, EOp.preallocDo, EOp.incrDo, hk, tDo, rawOf_tn hp, rawOf_tn hq, Res.bind, tRun, hne]

/-- So are a tensor and a scalar of different element types, on either side. -/
theorem mixed_types_differ [DecidableEq E] (S : Sem E) (op : BOp) (same : Bool) (h : Heap E) (p q : Nat) (dt dt' : Dt)
    (s : List Nat) (d : List E) (v : E) (hp : h.mem p = some (.tn dt s d)) (hq : h.mem q = some (.sc dt' v)) (hne : dt ≠ dt') :
    EOp.do_ S ⟨op, same, .tensor true⟩ h (.tn p) (.sc q) = .err ∧
      EOp.do_ S ⟨op, same, .tensor false⟩ h (.sc q) (.tn p) = .err := by
  cases hf : isFloat dt'
  · simp [EOp.do_, tDo, rawOf_tn hp, rawOf_sc_int hq hf, Res.bind]
  · simp [EOp.do_, tDo, rawOf_tn hp, rawOf_sc hq hf, Res.bind, tRun, hne, Ne.symm hne]

/-! ### Tensors: preallocated and incremented -/

/-- `UsePreallocDo` on tensors: the preallocated tensor takes shape and elements of the result, if it has the element type and
the number of elements, otherwise an error; nothing else in memory changes. -/
theorem tensor_prealloc [DecidableEq E] (S : Sem E) (e : EOp) (h : Heap E) (a b : Base) (dt : Dt) (s : List Nat) (r : List E)
    (hE : Elems S e h a b dt s r) (hF : Fits e a b) (p : Nat) (dt' : Dt) (s' : List Nat) (d' : List E)
    (hp : h.mem p = some (.tn dt' s' d')) :
    e.preallocDo S h (.tn p) a b =
      if dt' = wantDt e.op e.same dt ∧ d'.length = r.length then .ok (h.write p (.tn dt' s r), .tn p) else .err := by
  rw [← outDt_want]
  obtain ⟨l, hl⟩ := hE.kind
  obtain ⟨x, y, _, he⟩ := tDo_elems S e h a b dt s r hE l hl (.reuse p)
  have : e.kind = .tensor l := by rw [Fits, hl] at hF; exact (Option.some.inj hF).symm
  simp only [EOp.preallocDo, this, he, store, hp]

/-- `IncrDo` of an arithmetic operation with a tensor to increment: the result is added to its elements, its shape stays, and
nothing else in memory changes. -/
theorem tensor_incr [DecidableEq E] (S : Sem E) (e : EOp) (h : Heap E) (a b : Base) (dt : Dt) (s : List Nat) (r : List E)
    (hE : Elems S e h a b dt s r) (hF : Fits e a b) (har : e.op.isArith = true) (p : Nat) (s' : List Nat) (d' : List E)
    (hp : h.mem p = some (.tn dt s' d')) (hl : d'.length = r.length) :
    e.incrDo S h (.tn p) a b = .ok (.done (h.write p (.tn dt s' (List.zipWith (S.ar dt .add) d' r)))) := by
  have hE' : Elems S { e with same := false } h a b dt s r := by
    have hv : ∀ dt (x y : E), want S e.op e.same dt x y = want S e.op false dt x y := by
      intro dt x y; simp [← outVal_want, outVal, har]
    cases hE with
    | tt hp hq hs hl hr hv' => exact .tt hp hq hs hl hr fun i hi => (hv' i hi).trans (hv ..)
    | ts hp hq hf hr hv' => exact .ts hp hq hf hr fun i hi => (hv' i hi).trans (hv ..)
    | st hp hq hf hr hv' => exact .st hp hq hf hr fun i hi => (hv' i hi).trans (hv ..)
  obtain ⟨l, hk⟩ := hE.kind
  obtain ⟨x, y, _, he⟩ := tDo_elems S { e with same := false } h a b dt s r hE' l hk (.incr p)
  have : e.kind = .tensor l := by rw [Fits, hk] at hF; exact (Option.some.inj hF).symm
  simp only at he
  simp only [EOp.incrDo, this, he, store, hp, hl, har, and_self, if_true, Res.bind]

/-! ### In place -/

/-- `UnsafeDo` where no shape has to be changed: the first tensor takes the elements, nothing else in memory changes. -/
theorem tensor_unsafe [DecidableEq E] (S : Sem E) (e : EOp) (h : Heap E) (a b : Base) (dt : Dt) (s : List Nat) (r : List E)
    (hE : Elems S e h a b dt s r) (hF : Fits e a b) (har : e.op.isArith = true ∨ e.same = true)
    (h1 : ∀ sa sb, shapeOf h a = .ok sa → shapeOf h b = .ok sb → shapeEq sa sb = true ∨ size sa ≠ size sb) :
    e.unsafeDo S h a b = .ok (h.write (target a b) (.tn dt s r), .tn (target a b)) := by
  obtain ⟨l, hk⟩ := hE.kind
  obtain ⟨x, y, ht, he⟩ := tDo_elems S e h a b dt s r hE l hk .inPlace
  have hkind : e.kind = .tensor l := by rw [Fits, hk] at hF; exact (Option.some.inj hF).symm
  have hdt : outDt e.op e.same dt = dt := by rcases har with h | h <;> simp [outDt, h]
  have hsh : ∃ sa sb, shapeOf h a = .ok sa ∧ shapeOf h b = .ok sb := by
    cases hE with
    | tt hp hq _ _ _ _ => exact ⟨_, _, by simp [shapeOf, hp]; rfl, by simp [shapeOf, hq]; rfl⟩
    | ts hp hq _ _ _ => exact ⟨_, _, by simp [shapeOf, hp]; rfl, by simp [shapeOf, hq]; rfl⟩
    | st hp hq _ _ _ => exact ⟨_, _, by simp [shapeOf, hp]; rfl, by simp [shapeOf, hq]; rfl⟩
  obtain ⟨sa, sb, ha, hb⟩ := hsh
  have hn : ¬ (shapeEq sa sb = false ∧ size sa = size sb) := by
    rintro ⟨e1, e2⟩
    rcases h1 sa sb ha hb with e3 | e3
    · rw [e1] at e3; cases e3
    · exact e3 e2
  simp only [EOp.unsafeDo, ha, hb, Res.bind, if_neg hn, EOp.unsafeRun, hkind, he, store, ht, hdt, if_true]

/-- Two tensors of different shapes with as many elements: `Do` refuses them, `UnsafeDo` combines them position by position. The
shapes are restored; the result is in the left operand with its own shape. -/
theorem tensor_unsafe_reshapes [DecidableEq E] (S : Sem E) (e : EOp) (h : Heap E) (p q : Nat) (dt : Dt) (s s' : List Nat) (d d' : List E)
    (hp : h.mem p = some (.tn dt s d)) (hq : h.mem q = some (.tn dt s' d')) (hpq : p ≠ q) (hk : e.kind = .tensor true)
    (har : e.op.isArith = true ∨ e.same = true) (hs : shapeEq s s' = false) (hn : size s = size s') :
    e.do_ S h (.tn p) (.tn q) = .err ∧
      ∃ h', e.unsafeDo S h (.tn p) (.tn q) = .ok (h', .tn p) ∧
        h'.mem p = some (.tn dt s (List.zipWith (want S e.op e.same dt) d d')) ∧ ∀ x, x ≠ p → h'.mem x = h.mem x := by
  rw [← outVal_want]
  have hdt : outDt e.op e.same dt = dt := by rcases har with h | h <;> simp [outDt, h]
  refine ⟨?_, ?_⟩
  · simp [EOp.do_, hk, tDo, rawOf_tn hp, rawOf_tn hq, Res.bind, tRun, libElems, hs]
  · have hsp : shapeOf h (.tn p) = .ok s := by simp [shapeOf, hp]
    have hsq : shapeOf h (.tn q) = .ok s' := by simp [shapeOf, hq]
    simp only [EOp.unsafeDo, hsp, hsq, Res.bind, hs, hn, and_self, if_true, EOp.unsafeShapes]
    by_cases hlt : s'.length < s.length
    · rw [if_pos hlt]
      have h1 : (setShape h p s').mem p = some (.tn dt s' d) := by simp [setShape, hp, write_mem]
      have h2 : (setShape h p s').mem q = some (.tn dt s' d') := by simp [setShape, hp, write_mem, hpq.symm, hq]
      refine ⟨?_, ?_, ?_, ?_⟩
      rotate_left 1
      · simp only [EOp.reshaped, EOp.unsafeRun, hk, tDo, rawOf_tn h1, rawOf_tn h2, Res.bind, tRun, libElems, shapeEq_refl', store,
          libTarget, hdt, if_true, ne_eq, not_true, if_false]
        rfl
      · simp [setShape, write_mem]
      · intro x hx; simp [setShape, write_mem, hx, hp]
    · rw [if_neg hlt]
      have h1 : (setShape h q s).mem p = some (.tn dt s d) := by simp [setShape, hq, write_mem, hpq, hp]
      have h2 : (setShape h q s).mem q = some (.tn dt s d') := by simp [setShape, hq, write_mem]
      refine ⟨?_, ?_, ?_, ?_⟩
      rotate_left 1
      · simp only [EOp.reshaped, EOp.unsafeRun, hk, tDo, rawOf_tn h1, rawOf_tn h2, Res.bind, tRun, libElems, shapeEq_refl', store,
          libTarget, hdt, if_true, ne_eq, not_true, if_false]
        rfl
      · simp [setShape, write_mem, hpq, hq, hpq.symm]
      · intro x hx
        by_cases hxq : x = q
        · subst hxq; simp [setShape, write_mem, hx, hq]
        · simp [setShape, write_mem, hx, hq, hxq, hpq.symm]

theorem shapeEq_nil {s : List Nat} (hs : s ≠ []) : shapeEq s [] = false ∧ shapeEq [] s = false := by
  match s, hs with
  | [a], _ => exact ⟨by simp [shapeEq], by simp [shapeEq]⟩
  | [a, b], _ => exact ⟨by simp [shapeEq], by simp [shapeEq]⟩
  | a :: b :: c :: l, _ => exact ⟨by simp [shapeEq], by simp [shapeEq]⟩

/-- A tensor with a single element on the left and a scalar on the right: `UnsafeDo` panics, whatever the operation, because the
type assertion to a tensor (op_math.go 335) is made on the scalar, although `Do` computes the result. -/
theorem unsafe_single_panics [DecidableEq E] (S : Sem E) (e : EOp) (h : Heap E) (p q : Nat) (dt dt' : Dt) (s : List Nat) (d : List E)
    (v : E) (hp : h.mem p = some (.tn dt s d)) (hq : h.mem q = some (.sc dt' v)) (hs : s ≠ []) (h1 : size s = 1) :
    e.unsafeDo S h (.tn p) (.sc q) = .panic := by
  have hsp : shapeOf h (.tn p) = .ok s := by simp [shapeOf, hp]
  have hsq : shapeOf h (.sc q) = .ok [] := by simp [shapeOf, hq]
  simp only [EOp.unsafeDo, hsp, hsq, Res.bind, (shapeEq_nil hs).1, h1, size, List.foldr_nil, and_self, if_true, EOp.unsafeShapes]

/-- A scalar on the left and a tensor with a single element on the right: the tensor takes the result and keeps its shape. -/
theorem unsafe_scalar_single [DecidableEq E] (S : Sem E) (e : EOp) (h : Heap E) (p q : Nat) (dt : Dt) (s : List Nat) (x v : E)
    (hp : h.mem p = some (.sc dt v)) (hq : h.mem q = some (.tn dt s [x])) (hs : s ≠ []) (h1 : size s = 1)
    (hf : isFloat dt = true) (hk : e.kind = .tensor false) (har : e.op.isArith = true ∨ e.same = true) :
    ∃ h', e.unsafeDo S h (.sc p) (.tn q) = .ok (h', .tn q) ∧
      h'.mem q = some (.tn dt s [want S e.op e.same dt v x]) ∧ ∀ y, y ≠ q → h'.mem y = h.mem y := by
  rw [← outVal_want]
  have hdt : outDt e.op e.same dt = dt := by rcases har with h | h <;> simp [outDt, h]
  have hpq : p ≠ q := by rintro rfl; rw [hp] at hq; cases hq
  have hsp : shapeOf h (.sc p) = .ok [] := by simp [shapeOf, hp]
  have hsq : shapeOf h (.tn q) = .ok s := by simp [shapeOf, hq]
  have h2 : (setShape h q []).mem p = some (.sc dt v) := by simp [setShape, hq, write_mem, hpq, hp]
  have h3 : (setShape h q []).mem q = some (.tn dt [] [x]) := by simp [setShape, hq, write_mem]
  have hsz : size ([] : List Nat) = size s := by rw [h1]; rfl
  simp only [EOp.unsafeDo, hsp, hsq, Res.bind, (shapeEq_nil hs).2, hsz, and_self, if_true, EOp.unsafeShapes, List.length_nil,
    Nat.not_lt_zero, if_false]
  refine ⟨?_, ?_, ?_, ?_⟩
  rotate_left 1
  · simp only [EOp.reshaped, EOp.unsafeRun, hk, tDo, rawOf_sc h2 hf, rawOf_tn h3, Res.bind, tRun, libElems, store,
      libTarget, hdt, if_true, ne_eq, not_true, if_false]
    rfl
  · simp [setShape, write_mem]
  · intro y hy; simp [setShape, write_mem, hy, hq]

/-! ### Scalars: preallocated -/

/-- `UsePreallocDo` on two floating point scalars: the preallocated scalar holds the result and is returned, if it has the
element type of the result, otherwise an error; nothing else that was in memory changes. -/
theorem scalar_prealloc [DecidableEq E] (S : Sem E) (e : EOp) (h : Heap E) (hk : Ok h) (i p q : Nat) (dt dt' : Dt) (w v v' : E)
    (hi : h.mem i = some (.sc dt' w)) (hp : h.mem p = some (.sc dt v)) (hq : h.mem q = some (.sc dt v'))
    (hf : isFloat dt = true) (hkind : e.kind = .scalar) :
    (dt' ≠ wantDt e.op e.same dt → e.preallocDo S h (.sc i) (.sc p) (.sc q) = .err) ∧
    (dt' = wantDt e.op e.same dt → ∃ h', e.preallocDo S h (.sc i) (.sc p) (.sc q) = .ok (h', .sc i) ∧
      h'.mem i = some (.sc dt' (want S e.op e.same dt v v')) ∧ ∀ x c, x ≠ i → h.mem x = some c → h'.mem x = some c) := by
  rw [← outDt_want, ← outVal_want]
  have hb : dt ≠ .bool := by rintro rfl; cases hf
  have hint : isInt dt = false := by simp [isInt, hf]
  have h1 : scalarDo S e.op e.same h (.sc p) (.sc q) =
      .ok ((h.alloc (.sc (outDt e.op e.same dt) (outVal S e.op e.same dt v v'))).1, .sc h.next) := by
    simp [scalarDo, hp, hq, hb, hint, Heap.alloc]
  have hi' := alloc_mem h (.sc (outDt e.op e.same dt) (outVal S e.op e.same dt v v')) i
  rw [if_neg (hk.ne hi), hi] at hi'
  have hr' := alloc_mem h (.sc (outDt e.op e.same dt) (outVal S e.op e.same dt v v')) h.next
  rw [if_pos rfl] at hr'
  refine ⟨fun hne => ?_, fun he => ?_⟩
  · simp only [EOp.preallocDo, hkind, h1, Res.bind, copyBase, hi', hr', if_neg (Ne.symm hne)]
  · subst he
    refine ⟨?_, ?_, ?_, ?_⟩
    rotate_left 1
    · simp only [EOp.preallocDo, hkind, h1, Res.bind, copyBase, hi', hr', if_true]
      rfl
    · simp [write_mem]
    · intro x c hx hc
      simp only [write_mem, hx, if_false, alloc_mem, hk.ne hc, hc]

/-! ### Incrementing scalars -/

/-- `IncrDo` of a scalar by the result of two scalars: the error carries the sum, the old scalar is not touched. -/
theorem scalar_incr [DecidableEq E] (S : Sem E) (e : EOp) (h : Heap E) (hk : Ok h) (i p q : Nat) (dt : Dt) (w v v' : E)
    (hi : h.mem i = some (.sc dt w)) (hp : h.mem p = some (.sc dt v)) (hq : h.mem q = some (.sc dt v'))
    (hf : isFloat dt = true) (har : e.op.isArith = true) (hkind : e.kind = .scalar) :
    ∃ h' r, e.incrDo S h (.sc i) (.sc p) (.sc q) = .ok (.value h' (.sc r)) ∧
      h'.mem r = some (.sc dt (S.ar dt .add w (S.ar dt e.op v v'))) ∧ ∀ x c, h.mem x = some c → h'.mem x = some c := by
  have hb : dt ≠ .bool := by rintro rfl; cases hf
  have hint : isInt dt = false := by simp [isInt, hf]
  have ho : outDt e.op e.same dt = dt := by simp [outDt, har]
  have hv : outVal S e.op e.same dt v v' = S.ar dt e.op v v' := by simp [outVal, har]
  have hadd : outVal S .add false dt w (S.ar dt e.op v v') = S.ar dt .add w (S.ar dt e.op v v') := by simp [outVal, BOp.isArith]
  have h1 : e.do_ S h (.sc p) (.sc q) = .ok ((h.alloc (.sc dt (S.ar dt e.op v v'))).1, .sc h.next) := by
    simp [EOp.do_, hkind, scalarDo, hp, hq, hb, hint, ho, hv, Heap.alloc]
  have hi' : (h.alloc (.sc dt (S.ar dt e.op v v'))).1.mem i = some (.sc dt w) := by
    rw [alloc_mem, if_neg (hk.ne hi), hi]
  have hr' : (h.alloc (.sc dt (S.ar dt e.op v v'))).1.mem h.next = some (.sc dt (S.ar dt e.op v v')) := by
    rw [alloc_mem, if_pos rfl]
  refine ⟨?_, ?_, ?_, ?_, ?_⟩
  rotate_left 2
  · simp only [EOp.incrDo, hkind, h1, Res.bind, addUnsafe, kindOf, EOp.unsafeDo, shapeOf, hi', hr', shapeEq_refl', EOp.unsafeRun,
      scalarDo, hb, hint, Bool.true_eq_false, Bool.false_eq_true, false_and, if_false, ne_eq, not_true, hadd, reduceCtorEq]
    rfl
  · simp [Heap.alloc, outDt, BOp.isArith]
  · intro x c hx
    have hx1 : x ≠ h.next := hk.ne hx
    have hx2 : x ≠ h.next + 1 := by have := hk x c hx; omega
    simp only [alloc_mem, Heap.alloc, hx1, hx2, if_false, hx]

/-- `IncrDo` of a scalar by a tensor (more than one element): the error carries a tensor with the scalar added to *every*
element, so that the sum of its elements holds the scalar as many times as there are elements. -/
theorem scalar_incr_tensor [DecidableEq E] (S : Sem E) (e : EOp) (h : Heap E) (hk : Ok h) (i : Nat) (a b : Base) (dt : Dt) (w : E)
    (s : List Nat) (r : List E) (hi : h.mem i = some (.sc dt w)) (hE : Elems S e h a b dt s r) (hF : Fits e a b)
    (hf : isFloat dt = true) (har : e.op.isArith = true) (hs : size s ≠ 1) :
    ∃ h' p, e.incrDo S h (.sc i) a b = .ok (.value h' (.tn p)) ∧
      h'.mem p = some (.tn dt s (r.map (S.ar dt .add w ·))) ∧ ∀ x c, h.mem x = some c → h'.mem x = some c := by
  have hdo := tensor_do S e h a b dt s r hE hF
  rw [← outDt_want] at hdo
  have ho : outDt e.op e.same dt = dt := by simp [outDt, har]
  rw [ho] at hdo
  obtain ⟨l, hl⟩ := hE.kind
  have hkind : e.kind = .tensor l := by rw [Fits, hl] at hF; exact (Option.some.inj hF).symm
  have hi' : (h.alloc (.tn dt s r)).1.mem i = some (.sc dt w) := by rw [alloc_mem, if_neg (hk.ne hi), hi]
  have hr' : (h.alloc (.tn dt s r)).1.mem h.next = some (.tn dt s r) := by rw [alloc_mem, if_pos rfl]
  have hsz : ¬ (shapeEq [] s = false ∧ size ([] : List Nat) = size s) := by
    rintro ⟨_, e2⟩; exact hs e2.symm
  have hfun : outVal S .add false dt w = fun y => S.ar dt .add w y := by funext y; simp [outVal, BOp.isArith]
  have hod : outDt .add false dt = dt := by simp [outDt, BOp.isArith]
  refine ⟨?_, ?_, ?_, ?_, ?_⟩
  rotate_left 2
  · simp only [EOp.incrDo, hkind, hdo, Res.bind, addUnsafe, kindOf, EOp.unsafeDo, shapeOf, hi', hr', hsz, if_false, EOp.unsafeRun,
      tDo, rawOf_sc hi' hf, rawOf_tn hr', tRun, libElems, store, libTarget, ne_eq, not_true, hfun, hod, if_true]
    rfl
  · simp [write_mem]
  · intro x c hx
    have hx1 : x ≠ h.next := hk.ne hx
    simp only [write_mem, hx1, if_false, alloc_mem, hx]

/-! ### Unary operations -/

/-- A unary operation on a node of integers or truth values cannot be built: it panics instead of returning an error. -/
theorem unary_panics (dt : Dt) : unaryNode dt = .panic ↔ dt ≠ .float64 ∧ dt ≠ .float32 := by
  cases dt <;> simp [unaryNode, isFloat]

/-! ### Examples -/

/-- Integers as elements. -/
def elemSem : Sem Int where
  ar _ op x y := match op with
    | .add => x + y | .sub => x - y | .mul => x * y | .div => x / y | _ => 0
  rel op x y := match op with
    | .lt => decide (x < y) | .gt => decide (y < x) | .lte => decide (x ≤ y) | .gte => decide (y ≤ x)
    | .eq => decide (x = y) | _ => decide (x ≠ y)
  ofBool b := if b then 1 else 0
  num _ b := if b then 1 else 0

/-- A tensor at 0, one at 1, a scalar at 2, a tensor with one element at 3, the transposed shape at 4. -/
def elemHeap : Heap Int where
  mem p := match p with
    | 0 => some (.tn .float64 [2, 3] [1, 2, 3, 4, 5, 6])
    | 1 => some (.tn .float64 [2, 3] [6, 5, 4, 3, 2, 1])
    | 2 => some (.sc .float64 10)
    | 3 => some (.tn .float64 [1] [7])
    | 4 => some (.tn .float64 [3, 2] [1, 1, 1, 1, 1, 2])
    | _ => none
  next := 5

/-- What a run leaves at an address. -/
def look (r : Res (Heap Int × Base)) (p : Nat) : Option (Option (Cell Int)) :=
  match r with
  | .ok r => some (r.1.mem p)
  | _ => none

/-- A difference in place, into a preallocated tensor, and as a new tensor. -/
example : look (EOp.unsafeDo elemSem ⟨.sub, false, .tensor true⟩ elemHeap (.tn 0) (.tn 1)) 0 =
      some (some (.tn .float64 [2, 3] [-5, -3, -1, 1, 3, 5])) ∧
    look (EOp.preallocDo elemSem ⟨.sub, false, .tensor true⟩ elemHeap (.tn 4) (.tn 0) (.tn 1)) 4 =
      some (some (.tn .float64 [2, 3] [-5, -3, -1, 1, 3, 5])) ∧
    look (EOp.do_ elemSem ⟨.sub, false, .tensor true⟩ elemHeap (.tn 0) (.tn 1)) 5 =
      some (some (.tn .float64 [2, 3] [-5, -3, -1, 1, 3, 5])) := by decide +kernel

/-- A number minus a tensor overwrites the tensor. -/
example : look (EOp.unsafeDo elemSem ⟨.sub, false, .tensor false⟩ elemHeap (.sc 2) (.tn 0)) 0 =
    some (some (.tn .float64 [2, 3] [9, 8, 7, 6, 5, 4])) := by decide +kernel

/-- A comparison with truth values, and one with numbers. -/
example : look (EOp.do_ elemSem ⟨.lt, false, .tensor true⟩ elemHeap (.tn 0) (.tn 1)) 5 = some (some (.tn .bool [2, 3] [1, 1, 1, 0, 0, 0])) ∧
    look (EOp.do_ elemSem ⟨.gte, true, .tensor true⟩ elemHeap (.tn 0) (.tn 1)) 5 =
      some (some (.tn .float64 [2, 3] [0, 0, 0, 1, 1, 1])) := by decide +kernel

/-- The tensor with one element plus a number can be computed, but not in place. -/
example : look (EOp.do_ elemSem ⟨.add, false, .tensor true⟩ elemHeap (.tn 3) (.sc 2)) 5 = some (some (.tn .float64 [1] [17])) ∧
    EOp.unsafeDo elemSem ⟨.add, false, .tensor true⟩ elemHeap (.tn 3) (.sc 2) = .panic :=
  ⟨by decide +kernel, unsafe_single_panics elemSem _ elemHeap 3 2 .float64 .float64 [1] [7] 10 rfl rfl (by simp) rfl⟩

/-- Shapes (2,3) and (3,2) are refused by `Do` and added by `UnsafeDo`. -/
example : look (EOp.do_ elemSem ⟨.add, false, .tensor true⟩ elemHeap (.tn 0) (.tn 4)) 5 = none ∧
    look (EOp.unsafeDo elemSem ⟨.add, false, .tensor true⟩ elemHeap (.tn 0) (.tn 4)) 0 =
      some (some (.tn .float64 [2, 3] [2, 3, 4, 5, 6, 8])) ∧
    look (EOp.unsafeDo elemSem ⟨.add, false, .tensor true⟩ elemHeap (.tn 0) (.tn 4)) 4 =
      some (some (.tn .float64 [3, 2] [1, 1, 1, 1, 1, 2])) := by decide +kernel

/-- The difference of two scalars goes to the preallocated scalar; a preallocated scalar of another type is refused. -/
example : look (EOp.preallocDo elemSem ⟨.sub, false, .scalar⟩ (elemHeap.alloc (.sc .float64 3)).1 (.sc 5) (.sc 2) (.sc 5)) 5 =
      some (some (.sc .float64 7)) ∧
    look (EOp.preallocDo elemSem ⟨.sub, false, .scalar⟩ (elemHeap.alloc (.sc .int 3)).1 (.sc 5) (.sc 2) (.sc 2)) 5 = none := by
  decide +kernel

/-- A tensor and a number of another floating point type. -/
example : EOp.do_ elemSem ⟨.add, false, .tensor true⟩ (elemHeap.alloc (.sc .float32 3)).1 (.tn 0) (.sc 5) = .err :=
  (mixed_types_differ elemSem .add false (elemHeap.alloc (.sc .float32 3)).1 0 5 .float64 .float32 [2, 3] [1, 2, 3, 4, 5, 6] 3
    rfl rfl (by decide)).1

end Verif.Value
