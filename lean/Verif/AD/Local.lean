import Verif.AD.Ops
import Mathlib.Analysis.SpecialFunctions.Log.Basic
import Mathlib.Analysis.Complex.ExponentialBounds
/-!
The gradient expressions of single operations.
-/
set_option autoImplicit false
namespace Verif.AD

theorem sqrt_not_at_zero (d : ℝ) : ¬ HasDerivAt Real.sqrt d 0 := by
  intro h
  have h2 : HasDerivAt (fun x : ℝ => x * x) (0 : ℝ) 0 := by
    refine ((hasDerivAt_id (0 : ℝ)).mul (hasDerivAt_id 0)).congr_deriv ?_
    simp
  have h' : HasDerivAt Real.sqrt d ((fun x : ℝ => x * x) 0) := by simpa using h
  have h3 : HasDerivAt (Real.sqrt ∘ fun x : ℝ => x * x) (d * 0) 0 := HasDerivAt.comp (h₂ := Real.sqrt) (h := fun x : ℝ => x * x) (0 : ℝ) h' h2
  have e : (Real.sqrt ∘ fun x : ℝ => x * x) = (abs : ℝ → ℝ) := by
    funext t; simp only [Function.comp_apply]; exact Real.sqrt_mul_self_eq_abs t
  rw [e] at h3
  exact not_differentiableAt_abs_zero h3.differentiableAt

/-- An operation that the library calls differentiable is differentiable wherever it is defined, except `abs` and `sqrt`
at 0. -/
theorem UOp.smooth_of (u : UOp) (x d : ℝ) (hd : u.dom x) (hn : ∀ a b c, u.diffExpr a b c ≠ none)
    (h : HasDerivAt u.fn d x) : u.smooth x := by
  refine ⟨hd, ?_, ?_, ?_, ?_⟩
  · rintro (rfl | rfl) rfl
    · exact not_differentiableAt_abs_zero h.differentiableAt
    · exact sqrt_not_at_zero d h
  all_goals (rintro rfl; exact hn (.node 0) (.node 0) (.node 0) rfl)

/-- **C15, partial.** For every unary operation that the library differentiates, except `log2` and `inverseSqrt`: at
every point of its domain where the operation has a derivative `d`, the gradient expression evaluates to the incoming
gradient times `d`. Missing: `log2` and `inverseSqrt`, for which it is false (`log2_wrong`, `inverseSqrt_wrong`). -/
theorem unary_diff_partial (u : UOp) (h1 : u ≠ .log2) (h2 : u ≠ .inverseSqrt) (x y g t : Tm)
    (ht : u.diffExpr x y g = some t) (ρ : Nat → ℝ) (hy : y.eval ρ = u.fn (x.eval ρ)) (hd : u.dom (x.eval ρ)) (d : ℝ)
    (hdd : HasDerivAt u.fn d (x.eval ρ)) : t.eval ρ = g.eval ρ * d := by
  have hn : ∀ a b c, u.diffExpr a b c ≠ none := by
    intro a b c
    cases u <;> simp_all [UOp.diffExpr]
  have hs := UOp.smooth_of u _ d hd hn hdd
  have hu := hdd.unique (UOp.hasDerivAt u _ hs)
  rw [hu]
  have h0 := hs.2.1
  cases u <;> simp only [UOp.diffExpr, Option.some.injEq, ne_eq, not_true_eq_false, reduceCtorEq] at ht h1 h2 <;>
    subst ht <;>
    simp only [Tm.eval, UOp.fn, BOp.fn, Cst.val, UOp.der, UOp.dom] at hy hd ⊢
  case ln => field_simp
  case neg => ring
  case sqrt => rw [hy]; field_simp
  case inverse => rw [hy]; field_simp
  case tanh => rw [hy]; ring
  case sigmoid => rw [hy]; ring
  case log1p => rw [add_comm (x.eval ρ) 1]; field_simp
  case exp => rw [hy]; ring
  all_goals ring

/-- Which operations are refused, and where the others have a derivative. -/
theorem unary_covers (u : UOp) :
    ((∃ x y g, u.diffExpr x y g = none) ↔ u = .sign ∨ u = .ceil ∨ u = .floor) ∧
    ∀ x, u.dom x → u ≠ .sign → u ≠ .ceil → u ≠ .floor → (u = .abs ∨ u = .sqrt → x ≠ 0) →
      DifferentiableAt ℝ u.fn x := by
  refine ⟨?_, fun x hd a b c h0 => (UOp.hasDerivAt u x ⟨hd, h0, a, b, c⟩).differentiableAt⟩
  constructor
  · rintro ⟨x, y, g, h⟩
    cases u <;> simp_all [UOp.diffExpr]
  · rintro (rfl | rfl | rfl) <;> exact ⟨.node 0, .node 0, .node 0, rfl⟩

/-- Concrete case: the derivative of the sigmoid at 0 is a quarter; incoming gradient 3. -/
example : ∃ t, UOp.diffExpr .sigmoid (.node 0) (.node 1) (.node 2) = some t ∧
    t.eval (fun i => if i = 0 then 0 else if i = 1 then UOp.fn .sigmoid 0 else 3) = 3 / 4 := by
  refine ⟨_, rfl, ?_⟩
  norm_num [Tm.eval, BOp.fn, UOp.fn, Cst.val]

/-- **C15 (defect).** The gradient expression of `log2` is wrong at every point: it divides by `x / ln 2` instead of
multiplying with (operatorPointwise_unary.go 263-277; the comment and `log2Diff` have it right). -/
theorem log2_wrong (x g d : ℝ) (hx : 0 < x) (hg : g ≠ 0) (hd : HasDerivAt (UOp.fn .log2) d x) :
    ∃ t, UOp.diffExpr .log2 (.node 0) (.node 1) (.node 2) = some t ∧
      ∀ ρ : Nat → ℝ, ρ 0 = x → ρ 2 = g → t.eval ρ ≠ g * d := by
  refine ⟨_, rfl, fun ρ h0 h2 => ?_⟩
  have := hd.unique (UOp.hasDerivAt .log2 x ⟨hx, by simp, by simp, by simp, by simp⟩)
  rw [this]
  simp only [Tm.eval, BOp.fn, Cst.val, h0, h2, UOp.der]
  have hl : 0 < Real.log 2 := Real.log_pos (by norm_num)
  have hl1 : Real.log 2 < 1 := by have := Real.log_two_lt_d9; linarith
  intro e
  have h3 : Real.log 2 * Real.log 2 = 1 := by
    field_simp at e
    have e' : (Real.log 2) ^ 2 = 1 := by linarith
    nlinarith
  nlinarith

/-- **C15 (defect).** The gradient expression of `1/sqrt x` is wrong: it divides by the cube of the result instead of
multiplying with it (operatorPointwise_unary.go 463-478). At 4 it gives -4 instead of -1/16. -/
theorem inverseSqrt_wrong : ∃ t, UOp.diffExpr .inverseSqrt (.node 0) (.node 1) (.node 2) = some t ∧
    HasDerivAt (UOp.fn .inverseSqrt) (-(1 / 16)) 4 ∧
    t.eval (fun i => if i = 0 then 4 else if i = 1 then UOp.fn .inverseSqrt 4 else 1) = -4 := by
  have hs : Real.sqrt 4 = 2 := by
    rw [show (4 : ℝ) = 2 * 2 by norm_num]; exact Real.sqrt_mul_self (by norm_num)
  refine ⟨_, rfl, ?_, ?_⟩
  · refine (UOp.hasDerivAt .inverseSqrt 4 ⟨by norm_num [UOp.dom], by simp, by simp, by simp, by simp⟩).congr_deriv ?_
    simp only [UOp.der, hs]; norm_num
  · norm_num [Tm.eval, BOp.fn, UOp.fn, Cst.val, hs]

/-! ### Binary operations -/

/-- **C16.** Wherever a binary operation is defined, its two gradient expressions evaluate to the incoming gradient
times the partial derivatives; more precisely: if the operands move along differentiable curves with velocities `a'`
and `b'`, the result moves with velocity `v`, and the gradient expressions pair with `a'`, `b'` to the incoming gradient
times `v`. -/
theorem binary_diff (b : BOp) (x y z g : Tm) (ρ : Nat → ℝ) (hz : z.eval ρ = b.fn (x.eval ρ) (y.eval ρ))
    (hd : b.dom (x.eval ρ) (y.eval ρ)) (a c : ℝ → ℝ) (a' c' t : ℝ) (ha : HasDerivAt a a' t) (hc : HasDerivAt c c' t)
    (ha0 : a t = x.eval ρ) (hc0 : c t = y.eval ρ) :
    ∃ v, HasDerivAt (fun s => b.fn (a s) (c s)) v t ∧
      g.eval ρ * v = (b.diffExpr x y z g).1.eval ρ * a' + (b.diffExpr x y z g).2.eval ρ * c' := by
  cases b <;> simp only [BOp.fn, BOp.dom, BOp.diffExpr, Tm.eval, UOp.fn, Cst.val] at hz hd ⊢
  case add => exact ⟨_, ha.add hc, by ring⟩
  case sub => exact ⟨_, ha.sub hc, by ring⟩
  case mul => refine ⟨_, ha.mul hc, ?_⟩; rw [ha0, hc0]; ring
  case div =>
    refine ⟨_, ha.div hc (by rw [hc0]; exact hd), ?_⟩
    rw [ha0, hc0, hz]; field_simp
    ring
  case pow =>
    refine ⟨_, ha.rpow hc (by rw [ha0]; exact hd), ?_⟩
    rw [ha0, hc0, hz]; ring

/-- The partial derivatives. -/
theorem binary_partials (b : BOp) (x y z g : Tm) (ρ : Nat → ℝ) (hz : z.eval ρ = b.fn (x.eval ρ) (y.eval ρ))
    (hd : b.dom (x.eval ρ) (y.eval ρ)) :
    (∃ d, HasDerivAt (fun s => b.fn s (y.eval ρ)) d (x.eval ρ) ∧ (b.diffExpr x y z g).1.eval ρ = g.eval ρ * d) ∧
    (∃ d, HasDerivAt (fun s => b.fn (x.eval ρ) s) d (y.eval ρ) ∧ (b.diffExpr x y z g).2.eval ρ = g.eval ρ * d) := by
  constructor
  · obtain ⟨v, h1, h2⟩ := binary_diff b x y z g ρ hz hd id (fun _ => y.eval ρ) 1 0 (x.eval ρ) (hasDerivAt_id _)
      (hasDerivAt_const _ _) rfl rfl
    exact ⟨v, h1, by rw [h2]; ring⟩
  · obtain ⟨v, h1, h2⟩ := binary_diff b x y z g ρ hz hd (fun _ => x.eval ρ) id 0 1 (y.eval ρ) (hasDerivAt_const _ _)
      (hasDerivAt_id _) rfl rfl
    exact ⟨v, h1, by rw [h2]; ring⟩

/-- The derivative of a power in the base, also where the base is not positive: the real power function with a fixed
exponent `y` has a derivative at `x` if `x ≠ 0` or `1 ≤ y` (for integers `y` it agrees with `math.Pow` at negative
bases). -/
theorem pow_base (x y z g : Tm) (ρ : Nat → ℝ) (h : x.eval ρ ≠ 0 ∨ 1 ≤ y.eval ρ) :
    ∃ d, HasDerivAt (fun s => BOp.fn .pow s (y.eval ρ)) d (x.eval ρ) ∧
      (BOp.diffExpr .pow x y z g).1.eval ρ = g.eval ρ * d :=
  ⟨_, Real.hasDerivAt_rpow_const h, by simp only [BOp.diffExpr, Tm.eval, BOp.fn, Cst.val]; ring⟩

/-- Concrete case: `2 ^ 3` with incoming gradient 5: the derivative in the base is `5 * 3 * 4`. -/
example : (BOp.diffExpr .pow (.node 0) (.node 1) (.node 2) (.node 3)).1.eval
    (fun i => if i = 0 then 2 else if i = 1 then 3 else if i = 2 then 8 else 5) = 60 := by
  norm_num [BOp.diffExpr, Tm.eval, BOp.fn, Cst.val]

/-! ### A scalar operand combined with a tensor -/

/-- An operand of an elementwise operation with result indices `ι`: a scalar or a tensor. -/
inductive Operand (ι : Type)
  | scalar (a : ℝ)
  | tensor (a : ι → ℝ)

/-- The element that takes part in the element `i` of the result. -/
def Operand.at {ι : Type} : Operand ι → ι → ℝ
  | .scalar a, _ => a
  | .tensor a, i => a i

/-- Values of the operands, the result and the incoming gradient at `i`. -/
noncomputable def mixEnv {ι : Type} (b : BOp) (x y : Operand ι) (g : ι → ℝ) (i : ι) : Nat → ℝ
  | 0 => x.at i
  | 1 => y.at i
  | 2 => b.fn (x.at i) (y.at i)
  | _ => g i

/-- `elemBinOp.SymDiff` (op_math.go 219-243): the elementwise gradient expressions, summed if the operand is a scalar and
the gradient is not. -/
noncomputable def binGrad {ι : Type} [Fintype ι] (b : BOp) (x y : Operand ι) (g : ι → ℝ) : Operand ι × Operand ι :=
  let d := b.diffExpr (.node 0) (.node 1) (.node 2) (.node 3)
  let fit (o : Operand ι) (v : ι → ℝ) : Operand ι := match o with
    | .scalar _ => .scalar (∑ i, v i)
    | .tensor _ => .tensor v
  (fit x (fun i => d.1.eval (mixEnv b x y g i)), fit y (fun i => d.2.eval (mixEnv b x y g i)))

/-- Pairing of a gradient with a perturbation of the operand. -/
noncomputable def Operand.pair {ι : Type} [Fintype ι] : Operand ι → Operand ι → ℝ
  | .scalar a, .scalar b => a * b
  | .tensor a, .tensor b => ∑ i, a i * b i
  | _, _ => 0

/-- Same form. -/
def Operand.like {ι : Type} : Operand ι → Operand ι → Prop
  | .scalar _, .scalar _ => True
  | .tensor _, .tensor _ => True
  | _, _ => False

theorem pair_fit {ι : Type} [Fintype ι] (o v : Operand ι) (h : o.like v) (w : ι → ℝ) :
    (match o with
      | .scalar _ => Operand.scalar (∑ i, w i)
      | .tensor _ => Operand.tensor w).pair v = ∑ i, w i * v.at i := by
  cases o <;> cases v <;> simp only [Operand.like] at h
  · simp only [Operand.pair, Operand.at, Finset.sum_mul]
  · simp only [Operand.pair, Operand.at]

/-- **C16 (scalar operands).** The gradients of an elementwise operation on any mixture of scalars and tensors are the
adjoint of its derivative: if the operands move with velocities `x'`, `y'`, every element of the result moves with some
velocity `v i`, and pairing the two gradients with `x'` and `y'` gives the pairing of the incoming gradient with `v`. -/
theorem binary_diff_mixed {ι : Type} [Fintype ι] (b : BOp) (x y x' y' : Operand ι) (g : ι → ℝ)
    (hx : x.like x') (hy : y.like y') (hd : ∀ i, b.dom (x.at i) (y.at i)) :
    ∃ v : ι → ℝ, (∀ i, HasDerivAt (fun s => b.fn (x.at i + s * x'.at i) (y.at i + s * y'.at i)) (v i) 0) ∧
      ∑ i, g i * v i = (binGrad b x y g).1.pair x' + (binGrad b x y g).2.pair y' := by
  have key : ∀ i, ∃ v, HasDerivAt (fun s => b.fn (x.at i + s * x'.at i) (y.at i + s * y'.at i)) v 0 ∧
      g i * v = (b.diffExpr (.node 0) (.node 1) (.node 2) (.node 3)).1.eval (mixEnv b x y g i) * x'.at i +
        (b.diffExpr (.node 0) (.node 1) (.node 2) (.node 3)).2.eval (mixEnv b x y g i) * y'.at i := by
    intro i
    have hl : ∀ p q : ℝ, HasDerivAt (fun s : ℝ => p + s * q) q 0 := by
      intro p q
      refine (((hasDerivAt_id (0 : ℝ)).mul_const q).const_add p).congr_deriv (by simp)
    exact binary_diff b (.node 0) (.node 1) (.node 2) (.node 3) (mixEnv b x y g i) rfl (hd i) _ _ _ _ 0 (hl (x.at i) (x'.at i))
      (hl (y.at i) (y'.at i)) (by simp [Tm.eval, mixEnv]) (by simp [Tm.eval, mixEnv])
  choose v h1 h2 using key
  refine ⟨v, h1, ?_⟩
  rw [Finset.sum_congr rfl (fun i _ => h2 i), Finset.sum_add_distrib]
  unfold binGrad
  simp only
  rw [pair_fit x x' hx, pair_fit y y' hy]

end Verif.AD
