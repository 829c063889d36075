import Mathlib.Data.List.Basic
/-!
Which function a unary operation applies to the elements of its operand (C143): the tables of
`/repo/operatorPointwise_unary_const.go`, the way back from an operator to its type (`/repo/operatorPointwise_unary_gen.go`), the choice
between the engine's method and the operator's own function (`unaryCheckApply`, `/repo/operatorPointwise_unary.go`), and
`elemUnaryOp.do` (`/repo/op_math.go`). The tensor library is represented by what its methods compute (`Engine`, `applyFn`).
-/
set_option autoImplicit false
namespace Verif.Elem.Dispatch

/-! ### Model -/

/-- `ʘUnaryOperatorType`, operatorPointwise_unary_const.go 74-105, in the order of the constants. -/
inductive Op
  | abs | sign | ceil | floor | sin | cos | exp | ln | log2 | neg | square | sqrt | inverse | inverseSqrt | cube | tanh | sigmoid
  | log1p | expm1 | softplus
deriving DecidableEq, Repr

/-- The value of the constant (`iota`). -/
def Op.code : Op → Nat
  | .abs => 0 | .sign => 1 | .ceil => 2 | .floor => 3 | .sin => 4 | .cos => 5 | .exp => 6 | .ln => 7 | .log2 => 8 | .neg => 9
  | .square => 10 | .sqrt => 11 | .inverse => 12 | .inverseSqrt => 13 | .cube => 14 | .tanh => 15 | .sigmoid => 16 | .log1p => 17
  | .expm1 => 18 | .softplus => 19

/-- The variables `absf64`, `signf64`, ... (operatorPointwise_unary_const.go 10-72), of either width. -/
inductive Fn
  | absF | signF | ceilF | floorF | sinF | cosF | expF | lnF | log2F | negF | squareF | sqrtF | inverseF | inverseSqrtF | cubeF
  | tanhF | sigmoidF | log1pF | expm1F | softplusF
deriving DecidableEq, Repr

/-- Element types: the two floating-point types and all others. -/
inductive W
  | w64 | w32 | other
deriving DecidableEq, Repr

/-- A `ʘUnaryOperator`: pointer to one of the variables. -/
structure Ptr where
  w : W
  fn : Fn
deriving DecidableEq, Repr

/-- `sf64UnaryOperators`, operatorPointwise_unary_const.go 157-179. -/
def table64 : List Fn := [.absF, .signF, .ceilF, .floorF, .sinF, .cosF, .expF, .lnF, .log2F, .negF, .squareF, .sqrtF, .inverseF,
  .inverseSqrtF, .cubeF, .tanhF, .sigmoidF, .log1pF, .expm1F, .softplusF]

/-- `sf32UnaryOperators`, operatorPointwise_unary_const.go 181-203. -/
def table32 : List Fn := [.absF, .signF, .ceilF, .floorF, .sinF, .cosF, .expF, .lnF, .log2F, .negF, .squareF, .sqrtF, .inverseF,
  .inverseSqrtF, .cubeF, .tanhF, .sigmoidF, .log1pF, .expm1F, .softplusF]

/-- `newElemUnaryOp`, op_math.go 388-408: the operator. `none` is the nil operator. -/
def newOp (o : Op) : W → Option Ptr
  | .w32 => (table32[o.code]?).map fun f => ⟨.w32, f⟩
  | .w64 => (table64[o.code]?).map fun f => ⟨.w64, f⟩
  | .other => none

/-- `unaryOpType`, operatorPointwise_unary_gen.go 5-50 and 53-98 (the same for both widths). -/
def opType : Ptr → Op
  | ⟨_, .absF⟩ => .abs
  | ⟨_, .signF⟩ => .sign
  | ⟨_, .ceilF⟩ => .ceil
  | ⟨_, .floorF⟩ => .floor
  | ⟨_, .sinF⟩ => .sin
  | ⟨_, .cosF⟩ => .cos
  | ⟨_, .expF⟩ => .exp
  | ⟨_, .lnF⟩ => .ln
  | ⟨_, .log2F⟩ => .log2
  | ⟨_, .negF⟩ => .neg
  | ⟨_, .squareF⟩ => .square
  | ⟨_, .sqrtF⟩ => .sqrt
  | ⟨_, .inverseF⟩ => .inverse
  | ⟨_, .inverseSqrtF⟩ => .inverseSqrt
  | ⟨_, .cubeF⟩ => .cube
  | ⟨_, .tanhF⟩ => .tanh
  | ⟨_, .sigmoidF⟩ => .sigmoid
  | ⟨_, .log1pF⟩ => .log1p
  | ⟨_, .expm1F⟩ => .expm1
  | ⟨_, .softplusF⟩ => .softplus

/-- The methods of engines that are looked for. -/
inductive Method
  | Abs | Sign | Exp | Log | Log2 | Neg | Square | Sqrt | Inv | InvSqrt | Cube | Tanh
deriving DecidableEq, Repr

/-- The switch of `unaryCheckApply`, operatorPointwise_unary.go 32-89: the method looked for. -/
def methodOf : Op → Option Method
  | .abs => some .Abs
  | .sign => some .Sign
  | .exp => some .Exp
  | .ln => some .Log
  | .log2 => some .Log2
  | .neg => some .Neg
  | .square => some .Square
  | .sqrt => some .Sqrt
  | .inverse => some .Inv
  | .inverseSqrt => some .InvSqrt
  | .cube => some .Cube
  | .tanh => some .Tanh
  | .ceil | .floor | .sin | .cos | .sigmoid | .log1p | .expm1 | .softplus => none

/-- Numbers of the two widths, and the functions that the variables hold. -/
structure Num where
  E : Type
  fn : W → Fn → E → E

/-- The engine of a tensor: which methods it has, and the function that a method applies to elements of a type. -/
structure Engine (N : Num) where
  has : Method → Bool
  run : Method → W → N.E → N.E

inductive Res (α : Type)
  | ok (a : α) | err | panic
deriving DecidableEq, Repr

/-- Operands: scalars and tensors, with their element type. -/
inductive Val (N : Num)
  | scalar (w : W) (x : N.E)
  | tensor (w : W) (xs : List N.E)

variable {N : Num}

/-- `Apply` of the tensor library: an error if the function is not one of the element type (operatorPointwise_unary.go 91-100). -/
def applyFn (p : Ptr) (w : W) (xs : List N.E) : Res (Val N) :=
  if p.w = w then .ok (.tensor w (xs.map (N.fn p.w p.fn))) else .err

/-- `unaryCheckApply`, operatorPointwise_unary.go 30-101. -/
def checkApply (e : Engine N) (p : Ptr) (w : W) (xs : List N.E) : Res (Val N) :=
  match methodOf (opType p) with
  | some m => if e.has m then .ok (.tensor w (xs.map (e.run m w))) else applyFn p w xs
  | none => applyFn p w xs

/-- `elemUnaryOp.do`, op_math.go 511-533. The nil operator panics when it is asked for its type; the type assertion of a scalar's
operator panics if it is of the other width. -/
def doOp (e : Engine N) (p : Option Ptr) : Val N → Res (Val N)
  | .tensor w xs => match p with
    | none => .panic
    | some p => checkApply e p w xs
  | .scalar .w32 x => match p with
    | some ⟨.w32, f⟩ => .ok (.scalar .w32 (N.fn .w32 f x))
    | _ => .panic
  | .scalar .w64 x => match p with
    | some ⟨.w64, f⟩ => .ok (.scalar .w64 (N.fn .w64 f x))
    | _ => .panic
  | .scalar .other _ => .err

/-! ### Specification -/

/-- The variable that belongs to an operation, by its name. -/
def named : Op → Fn
  | .abs => .absF | .sign => .signF | .ceil => .ceilF | .floor => .floorF | .sin => .sinF | .cos => .cosF | .exp => .expF | .ln => .lnF
  | .log2 => .log2F | .neg => .negF | .square => .squareF | .sqrt => .sqrtF | .inverse => .inverseF | .inverseSqrt => .inverseSqrtF
  | .cube => .cubeF | .tanh => .tanhF | .sigmoid => .sigmoidF | .log1p => .log1pF | .expm1 => .expm1F | .softplus => .softplusF

/-- The engine's methods compute what their names say, on both floating-point types. -/
structure Faithful (e : Engine N) : Prop where
  abs : ∀ w, w ≠ .other → e.run .Abs w = N.fn w .absF
  sign : ∀ w, w ≠ .other → e.run .Sign w = N.fn w .signF
  exp : ∀ w, w ≠ .other → e.run .Exp w = N.fn w .expF
  log : ∀ w, w ≠ .other → e.run .Log w = N.fn w .lnF
  log2 : ∀ w, w ≠ .other → e.run .Log2 w = N.fn w .log2F
  neg : ∀ w, w ≠ .other → e.run .Neg w = N.fn w .negF
  square : ∀ w, w ≠ .other → e.run .Square w = N.fn w .squareF
  sqrt : ∀ w, w ≠ .other → e.run .Sqrt w = N.fn w .sqrtF
  inv : ∀ w, w ≠ .other → e.run .Inv w = N.fn w .inverseF
  invSqrt : ∀ w, w ≠ .other → e.run .InvSqrt w = N.fn w .inverseSqrtF
  cube : ∀ w, w ≠ .other → e.run .Cube w = N.fn w .cubeF
  tanh : ∀ w, w ≠ .other → e.run .Tanh w = N.fn w .tanhF

/-! ### Theorems -/

/-- **C143.** The tables hold for every operation the function of its name, for both widths. -/
theorem table_right (o : Op) (w : W) (h : w ≠ .other) : newOp o w = some ⟨w, named o⟩ := by
  cases w
  · cases o <;> rfl
  · cases o <;> rfl
  · exact absurd rfl h

/-- **C143.** The type of an operator is the one it was made from; so gradients, hashes and names are those of the operation. -/
theorem type_back (o : Op) (w : W) (p : Ptr) (h : newOp o w = some p) : opType p = o := by
  have hw : w ≠ .other := by intro e; subst e; cases h
  rw [table_right o w hw] at h
  injection h with h
  subst h
  cases o <;> rfl

/-- Different operations have different operators. -/
theorem newOp_injective (o o' : Op) (w : W) (h : w ≠ .other) (he : newOp o w = newOp o' w) : o = o' := by
  have h1 := type_back o w _ (table_right o w h)
  rw [table_right o w h, table_right o' w h] at he
  have h2 := type_back o' w _ (table_right o' w h)
  injection he with he
  rw [← h1, ← h2, he]

theorem engine_right (e : Engine N) (he : Faithful e) (o : Op) (m : Method) (hm : methodOf o = some m) (w : W) (hw : w ≠ .other) :
    e.run m w = N.fn w (named o) := by
  cases o <;> simp only [methodOf, Option.some.injEq, reduceCtorEq] at hm <;> subst hm
  · exact he.abs w hw
  · exact he.sign w hw
  · exact he.exp w hw
  · exact he.log w hw
  · exact he.log2 w hw
  · exact he.neg w hw
  · exact he.square w hw
  · exact he.sqrt w hw
  · exact he.inv w hw
  · exact he.invSqrt w hw
  · exact he.cube w hw
  · exact he.tanh w hw

/-- **C143.** Whatever methods the engine has, an operation on a tensor of floating-point numbers applies the function of its name
to every element. -/
theorem tensor_value (e : Engine N) (he : Faithful e) (o : Op) (w : W) (hw : w ≠ .other) (xs : List N.E) :
    doOp e (newOp o w) (.tensor w xs) = .ok (.tensor w (xs.map (N.fn w (named o)))) := by
  rw [table_right o w hw]
  show checkApply e ⟨w, named o⟩ w xs = _
  have ht : opType ⟨w, named o⟩ = o := type_back o w _ (table_right o w hw)
  unfold checkApply
  rw [ht]
  have ha : applyFn ⟨w, named o⟩ w xs = .ok (.tensor w (xs.map (N.fn w (named o)))) := by
    unfold applyFn; rw [if_pos rfl]
  cases hm : methodOf o with
  | none => exact ha
  | some m =>
    simp only
    split
    · rw [engine_right e he o m hm w hw]
    · exact ha

/-- **C143.** On a scalar it applies the same function. -/
theorem scalar_value (e : Engine N) (o : Op) (w : W) (hw : w ≠ .other) (x : N.E) :
    doOp e (newOp o w) (.scalar w x) = .ok (.scalar w (N.fn w (named o) x)) := by
  rw [table_right o w hw]
  cases w
  · rfl
  · rfl
  · exact absurd rfl hw

/-- **C143, refuted (other element types).** An operation made for another element type has no operator: on every tensor it panics,
although the engine may have the method. -/
theorem other_panics (e : Engine N) (o : Op) (w : W) (xs : List N.E) : doOp e (newOp o .other) (.tensor w xs) = .panic := rfl

/-- **C143, refuted (values of another width).** On a scalar of the other floating-point type the operation panics; on a tensor of
it, it fails exactly if the engine has no method for it. -/
theorem other_width (e : Engine N) (o : Op) (w w' : W) (hw : w ≠ .other) (hw' : w' ≠ .other) (hne : w ≠ w') (x : N.E) (xs : List N.E) :
    doOp e (newOp o w) (.scalar w' x) = .panic ∧
      (doOp e (newOp o w) (.tensor w' xs) = .err ↔ ∀ m, methodOf o = some m → e.has m = false) := by
  rw [table_right o w hw]
  constructor
  · cases w <;> cases w' <;> first | rfl | exact absurd rfl hne | exact absurd rfl hw | exact absurd rfl hw'
  · show checkApply e ⟨w, named o⟩ w' xs = .err ↔ _
    have ht : opType ⟨w, named o⟩ = o := type_back o w _ (table_right o w hw)
    have ha : applyFn ⟨w, named o⟩ w' xs = (.err : Res (Val N)) := by
      unfold applyFn; rw [if_neg hne]
    unfold checkApply
    rw [ht]
    cases hm : methodOf o with
    | none => exact ⟨fun _ m h => (by cases h), fun _ => ha⟩
    | some m =>
      simp only [Option.some.injEq, forall_eq']
      by_cases hh : e.has m = true
      · rw [if_pos hh, hh]; simp
      · rw [if_neg hh]
        exact ⟨fun _ => by simpa using hh, fun _ => ha⟩

/-! ### Examples -/

/-- Numbers are integers; squares, cubes and negation are what they are, the rest is the identity. -/
private def ints : Num := ⟨Int, fun _ f x => match f with | .squareF => x * x | .cubeF => x * x * x | .negF => -x | _ => x⟩

/-- An engine that has a method for squares only. -/
private def eng : Engine ints := ⟨fun m => m == .Square, fun m w x => match m with
  | .Square => (ints.fn w .squareF x : ints.E) | .Cube => ints.fn w .cubeF x | .Neg => ints.fn w .negF x | _ => x⟩

private theorem eng_faithful : Faithful eng := by
  constructor <;> intro w _ <;> rfl

example : doOp eng (newOp .square .w32) (.tensor .w32 [(2 : Int), (3 : Int)]) = .ok (.tensor .w32 [(4 : Int), (9 : Int)]) :=
  tensor_value eng eng_faithful .square .w32 (by decide) _

example : doOp eng (newOp .cube .w64) (.tensor .w64 [(2 : Int), (3 : Int)]) = .ok (.tensor .w64 [(8 : Int), (27 : Int)]) :=
  tensor_value eng eng_faithful .cube .w64 (by decide) _

example : doOp eng (newOp .neg .w64) (.scalar .w64 (5 : Int)) = .ok (.scalar .w64 (-5 : Int)) :=
  scalar_value eng .neg .w64 (by decide) _

/-- A float64 operation on float32 tensors: squares are computed, cubes are an error. -/
example : doOp eng (newOp .square .w64) (.tensor .w32 [(2 : Int)]) = .ok (.tensor .w32 [(4 : Int)]) ∧
    doOp eng (newOp .cube .w64) (.tensor .w32 [(2 : Int)]) = .err := ⟨rfl, rfl⟩

end Verif.Elem.Dispatch
