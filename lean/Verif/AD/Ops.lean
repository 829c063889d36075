import Mathlib.Analysis.SpecialFunctions.Log.Deriv
import Mathlib.Analysis.SpecialFunctions.Pow.Deriv
import Mathlib.Analysis.SpecialFunctions.Sqrt
import Mathlib.Analysis.SpecialFunctions.Trigonometric.DerivHyp
import Mathlib.Analysis.Calculus.Deriv.Abs
import Mathlib.Analysis.SpecialFunctions.ExpDeriv
/-!
Elementwise operations, the expressions the library builds for their derivatives, and what these expressions evaluate to.

Floating point numbers are taken as real numbers; an operation is modelled by the real function it computes (the cut-offs
of `_sigmoidf64`, math_nooptim.go 24-33, and `_softplusf64`, math.go 49-57, are ignored). Everything is elementwise, so
the model is about one element.
-/
set_option autoImplicit false
namespace Verif.AD

/-- Unary operations (operatorPointwise_unary_const.go 76-107). -/
inductive UOp
  | abs | sign | ceil | floor | sin | cos | exp | ln | log2 | neg | square | sqrt | inverse | inverseSqrt | cube | tanh
  | sigmoid | log1p | expm1 | softplus
  deriving DecidableEq, Repr

/-- Differentiable binary operations (operatorPointwise_binary_const.go). -/
inductive BOp | add | sub | mul | div | pow
  deriving DecidableEq, Repr

/-- Constants used in gradient expressions (const.go 86-134). -/
inductive Cst | one | two | three | ln2
  deriving DecidableEq, Repr

/-- Expressions over the nodes of a graph. -/
inductive Tm
  | node (i : Nat)
  | cst (c : Cst)
  | un (u : UOp) (a : Tm)
  | bin (b : BOp) (x y : Tm)
  deriving DecidableEq, Repr

noncomputable section

/-- The real functions (operatorPointwise_unary_const.go 20-74, math.go, math_nooptim.go 20-53). -/
def UOp.fn : UOp → ℝ → ℝ
  | .abs => fun x => |x|
  | .sign => fun x => if x < 0 then -1 else 1
  | .ceil => fun x => (⌈x⌉ : ℤ)
  | .floor => fun x => (⌊x⌋ : ℤ)
  | .sin => Real.sin
  | .cos => Real.cos
  | .exp => Real.exp
  | .ln => Real.log
  | .log2 => fun x => Real.log x / Real.log 2
  | .neg => fun x => -x
  | .square => fun x => x * x
  | .sqrt => Real.sqrt
  | .inverse => fun x => 1 / x
  | .inverseSqrt => fun x => 1 / Real.sqrt x
  | .cube => fun x => x * x * x
  | .tanh => Real.tanh
  | .sigmoid => fun x => 1 / (1 + Real.exp (-x))
  | .log1p => fun x => Real.log (1 + x)
  | .expm1 => fun x => Real.exp x - 1
  | .softplus => fun x => Real.log (1 + Real.exp x)

def BOp.fn : BOp → ℝ → ℝ → ℝ
  | .add => fun x y => x + y
  | .sub => fun x y => x - y
  | .mul => fun x y => x * y
  | .div => fun x y => x / y
  | .pow => fun x y => x ^ y

def Cst.val : Cst → ℝ
  | .one => 1
  | .two => 2
  | .three => 3
  | .ln2 => Real.log 2

/-- Value of an expression. -/
def Tm.eval (ρ : Nat → ℝ) : Tm → ℝ
  | .node i => ρ i
  | .cst c => c.val
  | .un u a => u.fn (a.eval ρ)
  | .bin b x y => b.fn (x.eval ρ) (y.eval ρ)

/-- Where a unary operation is defined on real numbers. -/
def UOp.dom : UOp → ℝ → Prop
  | .ln | .log2 | .inverseSqrt => fun x => 0 < x
  | .sqrt => fun x => 0 ≤ x
  | .inverse => fun x => x ≠ 0
  | .log1p => fun x => -1 < x
  | _ => fun _ => True

def BOp.dom : BOp → ℝ → ℝ → Prop
  | .div => fun _ y => y ≠ 0
  | .pow => fun x _ => 0 < x
  | _ => fun _ _ => True

end

/-- `HadamardProd`, `HadamardDiv`, `Neg` and so on build nodes (operations.go 15-43, 134-163). The rewrites that may
happen while a node is built are not applied here (they preserve the value, C19). -/
abbrev tmul (a b : Tm) : Tm := .bin .mul a b
abbrev tdiv (a b : Tm) : Tm := .bin .div a b
abbrev tneg (a : Tm) : Tm := .un .neg a
abbrev tadd (a b : Tm) : Tm := .bin .add a b
abbrev tsub (a b : Tm) : Tm := .bin .sub a b

/-- `ʘUnaryOpDiffExprs` (operatorPointwise_unary_const.go 139-146) with the functions it lists
(operatorPointwise_unary.go 110-757). `none`: the operation is reported to be not differentiable. -/
def UOp.diffExpr (u : UOp) (x y g : Tm) : Option Tm :=
  match u with
  | .abs => some (tmul g (.un .sign x)) -- 118-130
  | .sign | .ceil | .floor => none -- 110-112
  | .sin => some (tmul (.un .cos x) g) -- 151-162
  | .cos => some (tmul (tneg (.un .sin x)) g) -- 186-203
  | .exp => some (tmul y g) -- 228-230
  | .ln => some (tdiv g x) -- 245-247
  | .log2 => some (tdiv g (tdiv x (.cst .ln2))) -- 263-277
  | .neg => some (tneg g) -- 306-308
  | .square => some (tmul (tmul x (.cst .two)) g) -- 332-351
  | .sqrt => some (tdiv g (tmul (.cst .two) y)) -- 376-392
  | .inverse => some (tmul (tneg (tmul y y)) g) -- 419-435
  | .inverseSqrt => some (tneg (tdiv g (tmul (.cst .two) (.un .cube y)))) -- 463-478
  | .cube => some (tmul (tmul (tmul x x) (.cst .three)) g) -- 510-532
  | .tanh => some (tmul (tsub (.cst .one) (tmul y y)) g) -- 562-584
  | .sigmoid => some (tmul (tmul y (tsub (.cst .one) y)) g) -- 617-639
  | .log1p => some (tdiv g (tadd x (.cst .one))) -- 672-688
  | .expm1 => some (tmul g (.un .exp x)) -- 717-723
  | .softplus => some (tmul (.un .sigmoid x) g) -- 747-753

/-- `ʘBinOpDiffExprs` (operatorPointwise_binary_const.go 97-100) with the functions it lists
(operatorPointwise_binary.go 430-432, 532-542, 647-660, 809-829, 878-929). -/
def BOp.diffExpr (b : BOp) (x y z g : Tm) : Tm × Tm :=
  match b with
  | .add => (g, g)
  | .sub => (g, tneg g)
  | .mul => (tmul y g, tmul x g)
  | .div => (tdiv g y, tmul (tneg (tdiv z y)) g)
  | .pow => (tmul (tmul g y) (.bin .pow x (tsub y (.cst .one))), tmul (tmul g z) (.un .ln x))

/-! ### Derivatives -/

theorem sigmoid_hasDerivAt (x : ℝ) :
    HasDerivAt (UOp.fn .sigmoid) (1 / (1 + Real.exp (-x)) * (1 - 1 / (1 + Real.exp (-x)))) x := by
  have hp : (1 + Real.exp (-x)) ≠ 0 := by positivity
  have h1 : HasDerivAt (fun x => 1 + Real.exp (-x)) (Real.exp (-x) * -1) x :=
    ((hasDerivAt_neg x).exp).const_add 1
  have h2 := h1.fun_inv hp
  have e : UOp.fn .sigmoid = fun x => (1 + Real.exp (-x))⁻¹ := by
    funext t; simp [UOp.fn]
  rw [e]
  refine h2.congr_deriv ?_
  field_simp
  ring

theorem softplus_hasDerivAt (x : ℝ) : HasDerivAt (UOp.fn .softplus) (1 / (1 + Real.exp (-x))) x := by
  have hp : (1 + Real.exp x) ≠ 0 := by positivity
  have h1 : HasDerivAt (fun x => 1 + Real.exp x) (Real.exp x) x := (Real.hasDerivAt_exp x).const_add 1
  have h2 := h1.log hp
  have e : UOp.fn .softplus = fun x => Real.log (1 + Real.exp x) := rfl
  rw [e]
  refine h2.congr_deriv ?_
  rw [Real.exp_neg]
  have := Real.exp_pos x
  field_simp
  ring

theorem tanh_hasDerivAt (x : ℝ) : HasDerivAt Real.tanh (1 - Real.tanh x * Real.tanh x) x := by
  have hc : Real.cosh x ≠ 0 := (Real.cosh_pos x).ne'
  have h := (Real.hasDerivAt_sinh x).fun_div (Real.hasDerivAt_cosh x) hc
  have e : Real.tanh = fun x => Real.sinh x / Real.cosh x := by
    funext t; exact Real.tanh_eq_sinh_div_cosh t
  rw [e]
  refine h.congr_deriv ?_
  field_simp

/-- The derivative of each unary operation, where it has one; `abs` at points other than 0. -/
noncomputable def UOp.der : UOp → ℝ → ℝ
  | .abs => fun x => if x < 0 then -1 else 1
  | .sign | .ceil | .floor => fun _ => 0
  | .sin => Real.cos
  | .cos => fun x => -Real.sin x
  | .exp => Real.exp
  | .ln => fun x => 1 / x
  | .log2 => fun x => 1 / (x * Real.log 2)
  | .neg => fun _ => -1
  | .square => fun x => 2 * x
  | .sqrt => fun x => 1 / (2 * Real.sqrt x)
  | .inverse => fun x => -(1 / x ^ 2)
  | .inverseSqrt => fun x => -(1 / (2 * (x * Real.sqrt x)))
  | .cube => fun x => 3 * x ^ 2
  | .tanh => fun x => 1 - Real.tanh x * Real.tanh x
  | .sigmoid => fun x => 1 / (1 + Real.exp (-x)) * (1 - 1 / (1 + Real.exp (-x)))
  | .log1p => fun x => 1 / (1 + x)
  | .expm1 => Real.exp
  | .softplus => fun x => 1 / (1 + Real.exp (-x))

/-- Where it is differentiable. -/
def UOp.smooth (u : UOp) (x : ℝ) : Prop := u.dom x ∧ (u = .abs ∨ u = .sqrt → x ≠ 0) ∧ u ≠ .sign ∧ u ≠ .ceil ∧ u ≠ .floor

theorem UOp.hasDerivAt (u : UOp) (x : ℝ) (h : u.smooth x) : HasDerivAt u.fn (u.der x) x := by
  obtain ⟨hd, h0, h1, h2, h3⟩ := h
  cases u <;> simp only [UOp.fn, UOp.der, UOp.dom, ne_eq, reduceCtorEq, not_false_eq_true, not_true_eq_false,
    or_self, false_or, or_false, true_or, or_true, IsEmpty.forall_iff, forall_const] at *
  case abs =>
    split
    · rename_i hx; exact hasDerivAt_abs_neg hx
    · rename_i hx
      exact hasDerivAt_abs_pos (lt_of_le_of_ne (not_lt.1 hx) (Ne.symm h0))
  case sin => exact Real.hasDerivAt_sin x
  case cos => exact Real.hasDerivAt_cos x
  case exp => exact Real.hasDerivAt_exp x
  case ln => rw [one_div]; exact Real.hasDerivAt_log hd.ne'
  case log2 =>
    have := (Real.hasDerivAt_log hd.ne').div_const (Real.log 2)
    refine this.congr_deriv ?_
    field_simp
  case neg => exact hasDerivAt_neg x
  case square =>
    have := (hasDerivAt_id x).mul (hasDerivAt_id x)
    refine this.congr_deriv ?_
    simp; ring
  case sqrt => exact Real.hasDerivAt_sqrt h0
  case inverse =>
    have := hasDerivAt_inv hd
    have e : (fun x : ℝ => 1 / x) = fun y => y⁻¹ := by funext t; simp
    rw [e]
    refine this.congr_deriv ?_
    simp
  case inverseSqrt =>
    have hs : Real.sqrt x ≠ 0 := (Real.sqrt_pos.2 hd).ne'
    have := (Real.hasDerivAt_sqrt hd.ne').fun_inv hs
    have e : (fun x : ℝ => 1 / Real.sqrt x) = fun y => (Real.sqrt y)⁻¹ := by funext t; simp
    rw [e]
    refine this.congr_deriv ?_
    rw [Real.sq_sqrt hd.le]; field_simp
  case cube =>
    have := ((hasDerivAt_id x).mul (hasDerivAt_id x)).mul (hasDerivAt_id x)
    refine this.congr_deriv ?_
    simp; ring
  case tanh => exact tanh_hasDerivAt x
  case sigmoid => exact sigmoid_hasDerivAt x
  case log1p =>
    have h1 : HasDerivAt (fun x : ℝ => 1 + x) 1 x := (hasDerivAt_id x).const_add 1
    exact h1.log (by linarith)
  case expm1 => exact (Real.hasDerivAt_exp x).sub_const 1
  case softplus => exact softplus_hasDerivAt x

end Verif.AD
