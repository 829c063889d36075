import Mathlib.Data.Sigma.Basic
/-!
What becomes of the Go values that the user hands over (C141): `anyToScalar`, `anyToValue`, `one`, `zero`
(`/repo/values_primitives.go`), and the nodes made of them by `NodeFromAny` and `NewConstant` (`/repo/gorgonia.go`) without
further options. Not modelled: a `dualValue` without value, which cannot be made outside the package.
-/
set_option autoImplicit false
namespace Verif.Value.Conv

/-! ### Model -/

/-- The element types that have a scalar type of their own. -/
inductive K
  | f64 | f32 | int | i32 | i64 | u8 | bool
deriving DecidableEq, Repr

/-- `tensor.Dtype`; `other` stands for the ones without a scalar type (complex numbers, strings, the further integers). -/
inductive Dt
  | float64 | float32 | int | int32 | int64 | uint8 | bool | other (n : Nat)
deriving DecidableEq, Repr

/-- What is stored for each element type. -/
structure Elems where
  ty : K → Type
  zero : (k : K) → ty k
  one : (k : K) → ty k

variable (E : Elems)

/-- The scalar values (values_primitives.go 22-47). -/
inductive Sc
  | F64 (x : E.ty .f64) | F32 (x : E.ty .f32) | I (x : E.ty .int) | I64 (x : E.ty .i64) | I32 (x : E.ty .i32)
  | U8 (x : E.ty .u8) | B (x : E.ty .bool)

/-- A tensor: its shape, element type and identity. -/
structure Tens where
  shape : List Nat
  dt : Dt
  id : Nat
deriving DecidableEq

/-- `Value`: scalars, tensors and dual values (dual.go 11-14). -/
inductive Val
  | sc (s : Sc E) | tens (t : Tens) | dual (v : Val) (d : Option Val)

/-- `hm.Type` of values: a `tensor.Dtype` or a `TensorType` (which may have no dimensions). -/
inductive Ty
  | dtype (d : Dt) | tensor (dims : Nat) (d : Dt)
deriving DecidableEq, Repr

/-- The Go values `any` stands for: the seven literal types, the seven named types that are not pointers, everything that is a
`Value`, `nil`, and everything else. -/
inductive Go
  | float64 (x : E.ty .f64) | float32 (x : E.ty .f32) | int (x : E.ty .int) | int32 (x : E.ty .i32) | int64 (x : E.ty .i64)
  | byte (x : E.ty .u8) | bool (x : E.ty .bool)
  | F64 (x : E.ty .f64) | F32 (x : E.ty .f32) | I (x : E.ty .int) | I64 (x : E.ty .i64) | I32 (x : E.ty .i32)
  | U8 (x : E.ty .u8) | B (x : E.ty .bool)
  | value (v : Val E) | nil | other (n : Nat)

variable {E}

/-- `Dtype()` of scalars, values_primitives.go 150-169. -/
def Sc.dtype : Sc E → Dt
  | .F64 _ => .float64
  | .F32 _ => .float32
  | .I _ => .int
  | .I64 _ => .int64
  | .I32 _ => .int32
  | .U8 _ => .uint8
  | .B _ => .bool

/-- `Data()` of scalars, values_primitives.go 95-124. -/
def Sc.data : Sc E → (k : K) × E.ty k
  | .F64 x => ⟨.f64, x⟩
  | .F32 x => ⟨.f32, x⟩
  | .I x => ⟨.int, x⟩
  | .I64 x => ⟨.i64, x⟩
  | .I32 x => ⟨.i32, x⟩
  | .U8 x => ⟨.u8, x⟩
  | .B x => ⟨.bool, x⟩

/-- `TypeOf`, values_utils.go 13-26, and `dualValue.Type`, dual.go 49. -/
def typeOf : Val E → Ty
  | .tens t => .tensor t.shape.length t.dt
  | .sc s => .dtype s.dtype
  | .dual v _ => typeOf v

/-- `Dtype()` of values (dual.go 50). -/
def dtypeOf : Val E → Dt
  | .tens t => t.dt
  | .sc s => s.dtype
  | .dual v _ => dtypeOf v

/-- `Shape()` of values: that of scalars is empty (values_primitives.go 49-70), a dual value has the one of its value. -/
def shapeOf : Val E → List Nat
  | .tens t => t.shape
  | .sc _ => []
  | .dual v _ => shapeOf v

/-- `anyToScalar`, values_primitives.go 295-316. `none`: panic. -/
def anyToScalar : Go E → Option (Sc E × Dt)
  | .value (.sc s) => some (s, s.dtype)
  | .float64 x => some (.F64 x, .float64)
  | .float32 x => some (.F32 x, .float32)
  | .int x => some (.I x, .int)
  | .int32 x => some (.I32 x, .int32)
  | .int64 x => some (.I64 x, .int64)
  | .byte x => some (.U8 x, .uint8)
  | .bool x => some (.B x, .bool)
  | _ => none

/-- The second case of `anyToValue`, values_primitives.go 325-328. -/
def viaScalar (g : Go E) : Option (Val E × Ty × Dt) := (anyToScalar g).map fun p => (.sc p.1, .dtype p.2, p.2)

/-- `anyToValue`, values_primitives.go 318-352. `none`: an error. -/
def anyToValue : Go E → Option (Val E × Ty × Dt)
  | .value a => some (a, typeOf a, dtypeOf a)
  | .float64 x => viaScalar (.float64 x)
  | .float32 x => viaScalar (.float32 x)
  | .int x => viaScalar (.int x)
  | .int64 x => viaScalar (.int64 x)
  | .int32 x => viaScalar (.int32 x)
  | .byte x => viaScalar (.byte x)
  | .bool x => viaScalar (.bool x)
  | .F64 x => some (.sc (.F64 x), .dtype .float64, .float64)
  | .F32 x => some (.sc (.F32 x), .dtype .float32, .float32)
  | .I x => some (.sc (.I x), .dtype .int, .int)
  | .I64 x => some (.sc (.I64 x), .dtype .int64, .int64)
  | .I32 x => some (.sc (.I32 x), .dtype .int32, .int32)
  | .U8 x => some (.sc (.U8 x), .dtype .uint8, .uint8)
  | .B x => some (.sc (.B x), .dtype .bool, .bool)
  | .nil => none
  | .other _ => none

/-- `one`, values_primitives.go 354-373. `none`: panic. -/
def oneOf : Dt → Option (Sc E)
  | .float64 => some (.F64 (E.one .f64))
  | .float32 => some (.F32 (E.one .f32))
  | .int => some (.I (E.one .int))
  | .int32 => some (.I32 (E.one .i32))
  | .int64 => some (.I64 (E.one .i64))
  | .uint8 => some (.U8 (E.one .u8))
  | .bool => some (.B (E.one .bool))
  | .other _ => none

/-- `zero`, values_primitives.go 375-394. -/
def zeroOf : Dt → Option (Sc E)
  | .float64 => some (.F64 (E.zero .f64))
  | .float32 => some (.F32 (E.zero .f32))
  | .int => some (.I (E.zero .int))
  | .int32 => some (.I32 (E.zero .i32))
  | .int64 => some (.I64 (E.zero .i64))
  | .uint8 => some (.U8 (E.zero .u8))
  | .bool => some (.B (E.zero .bool))
  | .other _ => none

variable (E) in
/-- What a new node has. -/
structure N where
  ty : Ty
  shape : List Nat
  val : Val E

/-- `WithValue`, node.go 135-164, on a node that has type `t` and shape `s` and no value yet (the type of every node made here
is set). The value is reshaped in place to have no dimensions where the node's type is a scalar one. `none`: panic. -/
def withValue (t : Ty) (s : List Nat) (v : Val E) : Option (N E) :=
  if t = typeOf v then some ⟨t, s, v⟩
  else match t, v with
    | .dtype d, .tens a => if a.shape.all (· == 1) ∧ a.dt = d then some ⟨t, s, .tens { a with shape := [] }⟩ else none
    | _, _ => none -- the TypeError of line 152, or line 154: a dual value is not a tensor

/-- `NewTensor`'s type, gorgonia.go 73-79. -/
def tensorTy (dims : Nat) (d : Dt) : Ty := if dims = 0 then .dtype d else .tensor dims d

/-- The switch of `NodeFromAny` on the type, gorgonia.go 33-43. -/
def byType (v : Val E) (t : Ty) (dt : Dt) : Option (N E) := match t with
  | .dtype _ => withValue (.dtype dt) [] v
  | .tensor _ _ => withValue (tensorTy (shapeOf v).length dt) (shapeOf v) v

/-- `NodeFromAny`, gorgonia.go 25-44, with `NewScalar` (47-52) and `NewTensor` (73-84). `WithShape` accepts the shape of the
value, having as many dimensions as the type. -/
def nodeFromAny (g : Go E) : Option (N E) :=
  match anyToValue g with
  | none => none
  | some (v, t, dt) => byType v t dt

/-- The operation of a constant (op.go): scalar or tensor. -/
inductive ConstOp
  | scalar | tensor
deriving DecidableEq

/-- `NewConstant`, gorgonia.go 87-126. -/
def newConstant (g : Go E) : Option (ConstOp × N E) :=
  match anyToValue g with
  | none => none
  | some (.sc s, t, _) => (withValue t [] (.sc s)).map fun n => (.scalar, n)
  | some (.tens a, t, _) => (withValue t a.shape (.tens a)).map fun n => (.tensor, n)
  | some (.dual _ _, _, _) => none -- "HELP": there is no operation for it

/-! ### Specification -/

/-- The element type of a Go literal type or named type, and the number itself. -/
def Go.number : Go E → Option ((k : K) × E.ty k)
  | .float64 x | .F64 x => some ⟨.f64, x⟩
  | .float32 x | .F32 x => some ⟨.f32, x⟩
  | .int x | .I x => some ⟨.int, x⟩
  | .int32 x | .I32 x => some ⟨.i32, x⟩
  | .int64 x | .I64 x => some ⟨.i64, x⟩
  | .byte x | .U8 x => some ⟨.u8, x⟩
  | .bool x | .B x => some ⟨.bool, x⟩
  | .value _ | .nil | .other _ => none

/-- The `Dtype` of each element type. -/
def K.dt : K → Dt
  | .f64 => .float64 | .f32 => .float32 | .int => .int | .i32 => .int32 | .i64 => .int64 | .u8 => .uint8 | .bool => .bool

/-- Is it one of the types declared by the package, not being a pointer? -/
def Go.named : Go E → Prop
  | .F64 _ | .F32 _ | .I _ | .I64 _ | .I32 _ | .U8 _ | .B _ => True
  | _ => False

/-- The value below all dual values. -/
def Val.under : Val E → Val E
  | .dual v _ => v.under
  | v => v

/-! ### Theorems -/

/-- **C141.** A number becomes a scalar that holds this number, of its own element type, whether it has a Go type or one of the
package's. -/
theorem number_kept (g : Go E) (p : (k : K) × E.ty k) (h : g.number = some p) :
    ∃ s, anyToValue g = some (.sc s, .dtype p.1.dt, p.1.dt) ∧ s.data = p ∧ s.dtype = p.1.dt := by
  cases g <;> simp only [Go.number, Option.some.injEq, reduceCtorEq] at h <;> subst h <;> exact ⟨_, rfl, rfl, rfl⟩

/-- **C141.** What already is a value stays the same. -/
theorem value_kept (v : Val E) : ∃ t d, anyToValue (.value v) = some (v, t, d) := ⟨_, _, rfl⟩

/-- **C141.** The type and the `Dtype` that are returned are those of the value that is returned. -/
theorem types_agree (g : Go E) (v : Val E) (t : Ty) (d : Dt) (h : anyToValue g = some (v, t, d)) :
    t = typeOf v ∧ d = dtypeOf v := by
  cases g <;> simp only [anyToValue, viaScalar, anyToScalar, Option.map_some, Option.some.injEq, Prod.mk.injEq,
    reduceCtorEq] at h <;> obtain ⟨rfl, rfl, rfl⟩ := h <;> exact ⟨rfl, rfl⟩

/-- The type says the `Dtype`, with the number of dimensions for tensors. -/
theorem type_dtype (v : Val E) : typeOf v = .dtype (dtypeOf v) ∨ typeOf v = .tensor (shapeOf v).length (dtypeOf v) := by
  induction v using Val.rec (motive_2 := fun _ => True) with
  | sc s => exact Or.inl rfl
  | tens t => exact Or.inr rfl
  | dual v d ih _ => exact ih
  | none => trivial
  | some _ _ => trivial

/-- **C141.** It is an error exactly for what is neither a number nor a value. -/
theorem value_fails_iff (g : Go E) : anyToValue g = none ↔ g.number = none ∧ ∀ v, g ≠ .value v := by
  cases g <;> simp [anyToValue, viaScalar, anyToScalar, Go.number]

/-- **C141.** `anyToScalar` takes the numbers that have a Go type, and scalar values; it panics for everything else, in particular
for the package's own types unless they are pointers. -/
theorem scalar_iff (g : Go E) : (∃ p, anyToScalar g = some p) ↔
    (g.number ≠ none ∧ ¬ g.named) ∨ ∃ s, g = .value (.sc s) := by
  cases g with
  | value v => cases v <;> simp [anyToScalar, Go.number]
  | _ => simp [anyToScalar, Go.number, Go.named]

/-- **C141.** Where both succeed they agree. -/
theorem scalar_agrees (g : Go E) (s : Sc E) (d : Dt) (h : anyToScalar g = some (s, d)) :
    anyToValue g = some (.sc s, .dtype d, d) := by
  cases g with
  | value v =>
    cases v <;> simp only [anyToScalar, Option.some.injEq, Prod.mk.injEq, reduceCtorEq] at h
    obtain ⟨rfl, rfl⟩ := h
    rfl
  | _ => simp only [anyToScalar, Option.some.injEq, Prod.mk.injEq, reduceCtorEq] at h <;> obtain ⟨rfl, rfl⟩ := h <;> rfl

/-- **C141.** `one` and `zero` are the one and the zero of the element type asked for; they panic exactly for a `Dtype` without
scalar type. -/
theorem one_zero (k : K) : (∃ s : Sc E, oneOf k.dt = some s ∧ s.data = ⟨k, E.one k⟩ ∧ s.dtype = k.dt) ∧
    ∃ s : Sc E, zeroOf k.dt = some s ∧ s.data = ⟨k, E.zero k⟩ ∧ s.dtype = k.dt := by
  cases k <;> exact ⟨⟨_, rfl, rfl, rfl⟩, _, rfl, rfl, rfl⟩

theorem one_zero_panic (d : Dt) : ((oneOf d : Option (Sc E)) = none ↔ ∀ k : K, d ≠ k.dt) ∧
    ((zeroOf d : Option (Sc E)) = none ↔ ∀ k : K, d ≠ k.dt) := by
  have hk : (∀ k : K, d ≠ k.dt) ↔ ∃ n, d = .other n := by
    constructor
    · intro h
      cases d with
      | other n => exact ⟨n, rfl⟩
      | float64 => exact absurd rfl (h .f64)
      | float32 => exact absurd rfl (h .f32)
      | int => exact absurd rfl (h .int)
      | int32 => exact absurd rfl (h .i32)
      | int64 => exact absurd rfl (h .i64)
      | uint8 => exact absurd rfl (h .u8)
      | bool => exact absurd rfl (h .bool)
    · rintro ⟨n, rfl⟩ k
      cases k <;> simp [K.dt]
  rw [hk]
  cases d <;> simp [oneOf, zeroOf]

theorem withValue_same (v : Val E) (s : List Nat) : withValue (typeOf v) s v = some ⟨typeOf v, s, v⟩ := by
  unfold withValue; rw [if_pos rfl]

/-- Two conversions of the same value. -/
theorem shape_under (v : Val E) : shapeOf v.under = shapeOf v ∧ typeOf v.under = typeOf v ∧ dtypeOf v.under = dtypeOf v := by
  induction v using Val.rec (motive_2 := fun _ => True) with
  | sc s => exact ⟨rfl, rfl, rfl⟩
  | tens t => exact ⟨rfl, rfl, rfl⟩
  | dual v d ih _ => exact ih
  | none => trivial
  | some _ _ => trivial

open Classical in
/-- The node that a value gives, in closed form. -/
noncomputable def nodeOf (v : Val E) : Option (N E) := match v with
  | .sc s => some ⟨.dtype s.dtype, [], .sc s⟩
  | .tens a => some ⟨tensorTy a.shape.length a.dt, a.shape, .tens a⟩
  | .dual w dd => if ∃ a : Tens, w.under = .tens a ∧ a.shape = [] then none else some ⟨typeOf w, shapeOf w, .dual w dd⟩

theorem under_not_dual (w a : Val E) (b : Option (Val E)) : w.under ≠ .dual a b := by
  induction w using Val.rec (motive_2 := fun _ => True) with
  | sc s => simp [Val.under]
  | tens t => simp [Val.under]
  | dual v d ih _ => exact ih
  | none => trivial
  | some _ _ => trivial

open Classical in
theorem nodeFromAny_value (g : Go E) (v : Val E) (t : Ty) (d : Dt) (h : anyToValue g = some (v, t, d)) :
    nodeFromAny g = nodeOf v := by
  obtain ⟨rfl, rfl⟩ := types_agree g v t d h
  unfold nodeFromAny nodeOf
  rw [h]
  cases v with
  | sc s => exact withValue_same (.sc s) []
  | tens a =>
    show withValue (tensorTy a.shape.length a.dt) a.shape (.tens a) = _
    obtain ⟨shape, dt, id⟩ := a
    cases shape with
    | nil => simp [withValue, tensorTy, typeOf]
    | cons n l => simp [withValue, tensorTy, typeOf]
  | dual w dd =>
    have hu := shape_under w
    show byType (.dual w dd) (typeOf w) (dtypeOf w) = if _ then none else some ⟨typeOf w, shapeOf w, .dual w dd⟩
    have hS : shapeOf (Val.dual w dd) = shapeOf w := rfl
    unfold byType
    rw [hS]
    rw [← hu.1, ← hu.2.1, ← hu.2.2]
    have hT : typeOf (Val.dual w dd) = typeOf w.under := hu.2.1.symm
    generalize hw : w.under = u
    have hnd : ∀ a b, u ≠ .dual a b := fun a b => hw ▸ under_not_dual w a b
    rw [hw] at hT
    cases u with
    | dual a b => exact absurd rfl (hnd a b)
    | sc s =>
      rw [if_neg (by rintro ⟨a, ha, _⟩; simp at ha)]
      show withValue (.dtype s.dtype) [] (.dual w dd) = _
      have hT' : Ty.dtype s.dtype = typeOf (Val.dual w dd) := hT.symm
      unfold withValue
      rw [if_pos hT']
      rfl
    | tens a =>
      obtain ⟨shape, dt, id⟩ := a
      cases shape with
      | nil =>
        rw [if_pos ⟨_, rfl, rfl⟩]
        show withValue (.dtype dt) [] (.dual w dd) = none
        unfold withValue
        rw [if_neg (by rw [hT]; simp [typeOf])]
      | cons n l =>
        rw [if_neg (by rintro ⟨a, ha, hb⟩; injection ha with ha; subst ha; simp at hb)]
        show withValue (tensorTy (l.length + 1) dt) (n :: l) (.dual w dd) = _
        have hT' : tensorTy (l.length + 1) dt = typeOf (Val.dual w dd) := by rw [hT]; rfl
        unfold withValue
        rw [if_pos hT']
        rfl

/-- **C141.** `NodeFromAny` (no further options) panics exactly for what is neither a number nor a value, and for a dual value
whose value is a tensor without dimensions. -/
theorem node_panics_iff (g : Go E) : nodeFromAny g = none ↔ (g.number = none ∧ ∀ v, g ≠ .value v) ∨
    ∃ (w : Val E) (dd : Option (Val E)) (a : Tens), g = .value (.dual w dd) ∧ w.under = .tens a ∧ a.shape = [] := by
  rw [← value_fails_iff]
  cases hv : anyToValue g with
  | none =>
    refine ⟨fun _ => Or.inl rfl, fun _ => ?_⟩
    unfold nodeFromAny; rw [hv]
  | some q =>
    obtain ⟨v, t, d⟩ := q
    rw [nodeFromAny_value g v t d hv, nodeOf.eq_def]
    have hg : ∀ w dd, v = .dual w dd → g = .value (.dual w dd) := by
      intro w dd e
      subst e
      cases g <;> simp only [anyToValue, viaScalar, anyToScalar, Option.map_some, Option.some.injEq, Prod.mk.injEq,
        reduceCtorEq, false_and] at hv
      rw [hv.1]
    cases v with
    | sc s =>
      simp only [reduceCtorEq, false_or, false_iff]
      rintro ⟨w, dd, a, h, _⟩
      subst h; simp [anyToValue] at hv
    | tens a =>
      simp only [reduceCtorEq, false_or, false_iff]
      rintro ⟨w, dd, a, h, _⟩
      subst h; simp [anyToValue] at hv
    | dual w dd =>
      have := hg w dd rfl
      subst this
      simp only [ite_eq_left_iff, reduceCtorEq, imp_false, not_not, false_or]
      constructor
      · rintro ⟨a, h1, h2⟩; exact ⟨w, dd, a, rfl, h1, h2⟩
      · rintro ⟨w', dd', a, h, h1, h2⟩
        injection h with h; injection h with h h'
        subst h
        exact ⟨a, h1, h2⟩

/-- **C141.** The node `NodeFromAny` makes holds the value made of the argument and has its shape; its type is the `Dtype` exactly
if the value has no dimensions, else a tensor type of as many dimensions as the shape has. -/
theorem node_fits (g : Go E) (n : N E) (h : nodeFromAny g = some n) :
    (∃ t d, anyToValue g = some (n.val, t, d)) ∧ n.shape = shapeOf n.val ∧
      n.ty = if n.shape = [] then .dtype (dtypeOf n.val) else .tensor n.shape.length (dtypeOf n.val) := by
  cases hv : anyToValue g with
  | none => unfold nodeFromAny at h; rw [hv] at h; exact absurd h (by simp)
  | some q =>
    obtain ⟨v, t, d⟩ := q
    rw [nodeFromAny_value g v t d hv, nodeOf.eq_def] at h
    cases v with
    | sc s => simp only [Option.some.injEq] at h; subst h; exact ⟨⟨_, _, rfl⟩, rfl, rfl⟩
    | tens a =>
      simp only [Option.some.injEq] at h; subst h
      refine ⟨⟨_, _, rfl⟩, rfl, ?_⟩
      obtain ⟨shape, dt, id⟩ := a
      cases shape <;> rfl
    | dual w dd =>
      simp only at h
      by_cases hc : ∃ a : Tens, w.under = .tens a ∧ a.shape = []
      · rw [if_pos hc] at h; exact absurd h (by simp)
      · rw [if_neg hc, Option.some.injEq] at h
        subst h
        refine ⟨⟨_, _, rfl⟩, rfl, ?_⟩
        have hu := shape_under w
        show typeOf w = if shapeOf w = [] then _ else Ty.tensor (shapeOf w).length (dtypeOf w)
        cases hw : w.under with
        | sc s =>
          rw [hw] at hu
          rw [← hu.1, ← hu.2.1]
          show _ = if ([] : List Nat) = [] then Ty.dtype (dtypeOf w) else _
          rw [if_pos rfl, ← hu.2.2]; rfl
        | tens a =>
          rw [hw] at hu
          have hne : a.shape ≠ [] := fun e => hc ⟨a, hw, e⟩
          rw [← hu.1, ← hu.2.1, ← hu.2.2]
          show _ = if a.shape = [] then _ else _
          rw [if_neg hne]; rfl
        | dual a b =>
          exact absurd hw (under_not_dual w a b)

/-- **C141.** `NewConstant` (no further options) panics exactly for what is neither a number nor a scalar nor a tensor. -/
theorem constant_panics_iff (g : Go E) : newConstant g = none ↔ g.number = none ∧ (∀ s, g ≠ .value (.sc s)) ∧
    ∀ a, g ≠ .value (.tens a) := by
  cases g with
  | value v => cases v <;> simp [newConstant, anyToValue, Go.number, withValue_same (.sc _), withValue_same (.tens _)]
  | _ => simp [newConstant, anyToValue, viaScalar, anyToScalar, Go.number, withValue, typeOf, Sc.dtype]

/-- **C141.** A constant holds the value made of the argument and has its type and shape; it is a scalar constant exactly if the
value is a scalar. A tensor without dimensions stays a tensor here, its type being one of tensors without dimensions. -/
theorem constant_fits (g : Go E) (o : ConstOp) (n : N E) (h : newConstant g = some (o, n)) :
    (∃ d, anyToValue g = some (n.val, n.ty, d)) ∧ n.shape = shapeOf n.val ∧ n.ty = typeOf n.val ∧
      (o = .scalar ↔ ∃ d, n.ty = .dtype d) := by
  unfold newConstant at h
  cases hv : anyToValue g with
  | none => rw [hv] at h; exact absurd h (by simp)
  | some q =>
    obtain ⟨v, t, d⟩ := q
    obtain ⟨rfl, rfl⟩ := types_agree g v t d hv
    rw [hv] at h
    cases v with
    | sc s =>
      simp only [withValue_same, Option.map_some, Option.some.injEq, Prod.mk.injEq] at h
      obtain ⟨rfl, rfl⟩ := h
      exact ⟨⟨_, rfl⟩, rfl, rfl, fun _ => ⟨_, rfl⟩, fun _ => rfl⟩
    | tens a =>
      simp only [withValue_same, Option.map_some, Option.some.injEq, Prod.mk.injEq] at h
      obtain ⟨rfl, rfl⟩ := h
      refine ⟨⟨_, rfl⟩, rfl, rfl, ⟨fun h => ConstOp.noConfusion h, ?_⟩⟩
      rintro ⟨d, h⟩
      exact Ty.noConfusion h
    | dual w dd => exact absurd h (by simp)

/-- **C141, refuted.** `NodeFromAny` and `NewConstant` give a tensor without dimensions different types. -/
theorem types_differ (d : Dt) (i : Nat) : ∃ n m, nodeFromAny (.value (.tens ⟨[], d, i⟩) : Go E) = some n ∧
    newConstant (.value (.tens ⟨[], d, i⟩) : Go E) = some (.tensor, m) ∧ n.val = m.val ∧ n.ty ≠ m.ty :=
  ⟨⟨.dtype d, [], .tens ⟨[], d, i⟩⟩, ⟨.tensor 0 d, [], .tens ⟨[], d, i⟩⟩, by simp [nodeFromAny, byType, anyToValue, typeOf, dtypeOf,
    shapeOf, withValue, tensorTy], by simp [newConstant, anyToValue, typeOf, withValue], rfl, by simp⟩

/-! ### Examples -/

/-- Everything is stored as an integer. -/
private def ints : Elems := ⟨fun _ => Int, fun _ => 0, fun _ => 1⟩

example : ∃ s : Sc ints, anyToValue (.int32 (5 : Int)) = some (.sc s, .dtype .int32, .int32) ∧ s.data = ⟨.i32, (5 : Int)⟩ :=
  (number_kept (E := ints) (.int32 (5 : Int)) _ rfl).imp fun _ h => ⟨h.1, h.2.1⟩

example : anyToScalar (.F64 (5 : Int) : Go ints) = none ∧ anyToValue (.F64 (5 : Int) : Go ints) ≠ none := ⟨rfl, by simp [anyToValue]⟩

example : nodeFromAny (.value (.dual (.tens ⟨[], .float64, 0⟩) none) : Go ints) = none :=
  (node_panics_iff _).2 (Or.inr ⟨_, _, ⟨[], .float64, 0⟩, rfl, rfl, rfl⟩)

example : (nodeFromAny (.value (.tens ⟨[2, 3], .float32, 0⟩) : Go ints)).map (fun n => (n.ty, n.shape)) =
    some (.tensor 2 .float32, [2, 3]) := rfl

end Verif.Value.Conv
