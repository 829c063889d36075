import Verif.Shape.Concat
import Mathlib.Analysis.Calculus.Deriv.Add
import Mathlib.Analysis.Calculus.Deriv.Mul
/-!
Elementwise operations on two tensors or scalars: the shape inferred when the graph is built and the value computed when
it runs (op_math.go), for C41 and for the composed functions of C43 and C44.  Also: what it means that a tensor is the
gradient of a tensor function.
-/
set_option autoImplicit false
namespace Verif.Shape
open Verif.Tensor

/-- `tensor.Shape.IsScalarEquiv` (assumed): the scalar shape, or all axes of size 1. -/
def isScalarEquiv (s : List Nat) : Bool := s.all (· == 1)

/-- `elemBinOp.InferShape`, op_math.go 137-189, for operands of known shape. -/
def inferElem (x y : List Nat) : Res (List Nat) :=
  if isScalarEquiv x && isScalarEquiv y then
    if x.length > 0 ∧ x.getD 0 0 = 1 then .ok x
    else if y.length > 0 ∧ y.getD 0 0 = 1 then .ok y
    else .ok []
  else if x = [] then .ok y
  else if y = [] then .ok x
  else if !shapeEq x y then .err
  else if x.length > y.length then .ok x else .ok y

/-- The elementwise operations of the tensor library (assumed, reached through `elemBinOp.Do`, op_math.go 245-247): a
scalar operand is combined with every element of the other; two tensors must have equal shapes in the sense of
`tensor.Shape.Eq`, are paired by flat position, and the result has the shape of the first. -/
def elemVal {α β γ : Type} (f : α → β → γ) (x : T α) (y : T β) : Res (T γ) :=
  if x.shape = [] then .ok ⟨y.shape, fun i => f (x.at_ []) (y.at_ i)⟩
  else if y.shape = [] then .ok ⟨x.shape, fun i => f (x.at_ i) (y.at_ [])⟩
  else if shapeEq x.shape y.shape then .ok ⟨x.shape, fun i => f (x.at_ i) (y.flat (ravel x.shape i))⟩
  else .err

/-- Building and running an elementwise operation (`binOpNode` and `ApplyOp` without stabilization, whose rewrites keep
the value, C19). -/
def elem {α β γ : Type} (f : α → β → γ) (x : T α) (y : T β) : Res (T γ) :=
  (inferElem x.shape y.shape).bind fun _ => elemVal f x y

/-- A unary elementwise operation (op_math.go `elemUnaryOp`: inferred shape and computed shape are the operand's). -/
def mapT {α β : Type} (f : α → β) (x : T α) : T β := ⟨x.shape, fun i => f (x.at_ i)⟩

/-- A constant scalar node. -/
def scalarT {α : Type} (a : α) : T α := ⟨[], fun _ => a⟩

theorem shapeEq_refl (s : List Nat) : shapeEq s s = true := by
  unfold shapeEq
  split <;> simp_all

theorem scalarEquiv_ne {x : List Nat} (h : isScalarEquiv x = true) (hx : x ≠ []) : x.length > 0 ∧ x.getD 0 0 = 1 := by
  cases x with
  | nil => exact absurd rfl hx
  | cons a x => simp [isScalarEquiv] at h; exact ⟨by simp, by simpa using h.1⟩

/-- Operands of the same shape: inference gives that shape. -/
theorem inferElem_same (s : List Nat) : inferElem s s = .ok s := by
  unfold inferElem
  by_cases hs : s = []
  · subst hs; rfl
  · by_cases he : isScalarEquiv s = true
    · rw [if_pos (by simp [he]), if_pos (scalarEquiv_ne he hs)]
    · rw [if_neg (by simpa using he), if_neg hs, if_neg hs, shapeEq_refl]
      simp

theorem inferElem_scalar_right (s : List Nat) : inferElem s [] = .ok s := by
  unfold inferElem
  by_cases hs : s = []
  · subst hs; rfl
  · by_cases he : isScalarEquiv s = true
    · rw [if_pos (by rw [he]; rfl), if_pos (scalarEquiv_ne he hs)]
    · rw [if_neg (by simp [he]), if_neg hs, if_pos rfl]

theorem inferElem_scalar_left (s : List Nat) : inferElem [] s = .ok s := by
  unfold inferElem
  by_cases hs : s = []
  · subst hs; rfl
  · by_cases he : isScalarEquiv s = true
    · rw [if_pos (by rw [he]; rfl), if_neg (by simp), if_pos (scalarEquiv_ne he hs)]
    · rw [if_neg (by simp [he]), if_pos rfl]

/-- Two operands of the same shape are combined element by element. -/
theorem elem_same {α β γ : Type} (f : α → β → γ) (x : T α) (y : T β) (h : y.shape = x.shape) :
    ∃ r, elem f x y = .ok r ∧ r.shape = x.shape ∧ ∀ i, InB x.shape i → r.at_ i = f (x.at_ i) (y.at_ i) := by
  unfold elem
  rw [h, inferElem_same]
  simp only [Res.bind]
  unfold elemVal
  by_cases hs : x.shape = []
  · rw [if_pos hs]
    refine ⟨_, rfl, h, fun i hi => ?_⟩
    rw [hs] at hi
    cases i with
    | nil => rfl
    | cons a i => exact hi.elim
  · rw [if_neg hs, if_neg (by rw [h]; exact hs), h, if_pos (shapeEq_refl _)]
    refine ⟨_, rfl, rfl, fun i hi => ?_⟩
    show f _ (y.flat (ravel x.shape i)) = _
    rw [← h, flat_ravel y (by rw [h]; exact hi)]

/-- A tensor combined with a scalar on the right. -/
theorem elem_scalar_right {α β γ : Type} (f : α → β → γ) (x : T α) (y : T β) (h : y.shape = []) :
    ∃ r, elem f x y = .ok r ∧ r.shape = x.shape ∧ ∀ i, InB x.shape i → r.at_ i = f (x.at_ i) (y.at_ []) := by
  unfold elem
  rw [h, inferElem_scalar_right]
  simp only [Res.bind]
  unfold elemVal
  by_cases hs : x.shape = []
  · rw [if_pos hs]
    refine ⟨_, rfl, by rw [hs]; exact h, fun i hi => ?_⟩
    rw [hs] at hi
    cases i with
    | nil => rfl
    | cons a i => exact hi.elim
  · rw [if_neg hs, if_pos h]
    exact ⟨_, rfl, rfl, fun i _ => rfl⟩

/-- A tensor combined with a scalar on the left. -/
theorem elem_scalar_left {α β γ : Type} (f : α → β → γ) (x : T α) (y : T β) (h : x.shape = []) :
    ∃ r, elem f x y = .ok r ∧ r.shape = y.shape ∧ ∀ i, InB y.shape i → r.at_ i = f (x.at_ []) (y.at_ i) := by
  unfold elem
  rw [h, inferElem_scalar_left]
  simp only [Res.bind]
  unfold elemVal
  rw [if_pos h]
  exact ⟨_, rfl, rfl, fun i _ => rfl⟩

theorem shapeEq_cases {x y : List Nat} (h : shapeEq x y = true) :
    x = y ∨ (∃ n, x = [n] ∧ (y = [n, 1] ∨ y = [1, n])) ∨ (∃ n, y = [n] ∧ (x = [n, 1] ∨ x = [1, n])) := by
  unfold shapeEq at h
  split at h
  · rename_i p q n
    simp at h
    right; right
    refine ⟨n, rfl, ?_⟩
    rcases h with ⟨rfl, rfl⟩ | ⟨rfl, rfl⟩ <;> simp
  · rename_i p q n
    simp at h
    right; left
    refine ⟨p, rfl, ?_⟩
    rcases h with ⟨rfl, rfl⟩ | ⟨rfl, rfl⟩ <;> simp
  · left; simpa using h

theorem inferElem_ne_panic (x y : List Nat) : inferElem x y ≠ .panic := by
  unfold inferElem
  repeat' split
  all_goals simp

/-- Two tensors of different shapes cannot be combined: either the graph cannot be built or the run fails. -/
theorem elem_mismatch {α β γ : Type} (f : α → β → γ) (x : T α) (y : T β) (hx : x.shape ≠ []) (hy : y.shape ≠ [])
    (h : shapeEq x.shape y.shape = false) : elem f x y = .err := by
  have hv : elemVal f x y = .err := by
    unfold elemVal
    rw [if_neg hx, if_neg hy, h]
    rfl
  unfold elem
  cases e : inferElem x.shape y.shape with
  | ok s => simp only [Res.bind]; exact hv
  | err => rfl
  | panic => exact absurd e (inferElem_ne_panic _ _)

/-- **C41 (elementwise), exactly.** When inference succeeds, the run succeeds with the inferred shape exactly if one
operand is a scalar, or the shapes are equal in the sense of the tensor library and the first operand has at least the
rank of the second (or all sizes are 1). -/
theorem elem_shape_iff {α β γ : Type} (f : α → β → γ) (x : T α) (y : T β) (s : List Nat)
    (h : inferElem x.shape y.shape = .ok s) :
    (∃ r, elemVal f x y = .ok r ∧ r.shape = s) ↔
      x.shape = [] ∨ y.shape = [] ∨ (shapeEq x.shape y.shape = true ∧
        (isScalarEquiv x.shape = true ∨ y.shape.length ≤ x.shape.length)) := by
  by_cases hx : x.shape = []
  · rw [hx, inferElem_scalar_left] at h
    cases h
    simp only [hx, true_or, iff_true]
    exact ⟨⟨y.shape, fun i => f (x.at_ []) (y.at_ i)⟩, by unfold elemVal; rw [if_pos hx], rfl⟩
  by_cases hy : y.shape = []
  · rw [hy, inferElem_scalar_right] at h
    cases h
    simp only [hy, true_or, or_true, iff_true]
    exact ⟨⟨x.shape, fun i => f (x.at_ i) (y.at_ [])⟩, by unfold elemVal; rw [if_neg hx, if_pos hy], rfl⟩
  unfold elemVal
  simp only [hx, hy, if_false, false_or]
  by_cases he : shapeEq x.shape y.shape = true
  · simp only [he, if_true, true_and, Res.ok.injEq, exists_eq_left']
    unfold inferElem at h
    rw [he] at h
    by_cases h1 : isScalarEquiv x.shape = true
    · have h2 : isScalarEquiv y.shape = true := by
        rcases shapeEq_cases he with e | ⟨n, e, e' | e'⟩ | ⟨n, e, e' | e'⟩
        · rw [← e]; exact h1
        all_goals
          simp only [e, e'] at h1 ⊢
          simpa [isScalarEquiv] using h1
      rw [if_pos (by simp [h1, h2]), if_pos (scalarEquiv_ne h1 hx)] at h
      cases h
      simp [h1]
    · rw [if_neg (by simp [h1]), if_neg hx, if_neg hy] at h
      simp only [Bool.not_true, Bool.false_eq_true, if_false] at h
      simp only [h1, Bool.false_eq_true, false_or]
      rcases shapeEq_cases he with e | ⟨n, e, e' | e'⟩ | ⟨n, e, e' | e'⟩
      · rw [e] at h ⊢
        simp at h ⊢
        exact h
      all_goals
        rw [e, e'] at h ⊢
        simp at h ⊢
        first
          | exact h
          | (intro hh; rw [← h] at hh; simp at hh)
  · simp [he]

/-- **C41 (elementwise), refuted.** A vector combined with a column vector: the graph expects a column vector, the
computation gives a vector. -/
theorem elem_vector_column_shape (x y : T ℝ) (n : Nat) (hn : n ≠ 1) (hx : x.shape = [n]) (hy : y.shape = [n, 1]) :
    inferElem x.shape y.shape = .ok [n, 1] ∧ ∃ r, elemVal (· + ·) x y = .ok r ∧ r.shape = [n] := by
  constructor
  · rw [hx, hy]; simp [inferElem, isScalarEquiv, shapeEq, hn]
  · unfold elemVal
    rw [hx, hy]
    simp [shapeEq]

/-- **C41 (elementwise), refuted.** Tensors of ones of different rank are accepted when the graph is built and rejected
when it runs. -/
theorem elem_ones_run_fails (x y : T ℝ) (hx : x.shape = [1, 1, 1]) (hy : y.shape = [1]) :
    inferElem x.shape y.shape = .ok [1, 1, 1] ∧ elemVal (· + ·) x y = .err := by
  constructor
  · rw [hx, hy]; decide
  · unfold elemVal
    rw [hx, hy]
    simp [shapeEq]

/-- Non-trivial instance: a `2×3` matrix and a scalar. -/
example : ∃ r, elem (· * ·) (⟨[2, 3], fun i => i.getD 0 0 + i.getD 1 0⟩ : T Nat) (scalarT 5) = .ok r ∧ r.shape = [2, 3] ∧ r.at_ [1, 2] = 15 :=
  ⟨⟨[2, 3], fun i => (i.getD 0 0 + i.getD 1 0) * 5⟩, rfl, rfl, rfl⟩

/-! ### Gradients of tensor functions -/

/-- `t` moved by `τ` in direction `d`. -/
noncomputable def moveT (t d : T ℝ) (τ : ℝ) : T ℝ := ⟨t.shape, fun i => t.at_ i + τ * d.at_ i⟩

/-- `r` is the gradient at `t` of the real function "pair `g` with the result of `F`": it has the shape of `t`, and moving
`t` in any direction `d`, `F` keeps succeeding with results of the shape of `g`, whose pairing with `g` has derivative
`pair r d`. -/
def IsGrad (F : T ℝ → Res (T ℝ)) (t g r : T ℝ) : Prop :=
  r.shape = t.shape ∧ ∀ d : T ℝ, d.shape = t.shape → ∃ y : ℝ → T ℝ,
    (∀ᶠ τ in nhds 0, F (moveT t d τ) = .ok (y τ) ∧ (y τ).shape = g.shape) ∧
    HasDerivAt (fun τ => pair g (y τ)) (pair r d) 0

/-- Moving along a line. -/
theorem hasDerivAt_line (a b : ℝ) : HasDerivAt (fun τ : ℝ => a + τ * b) b 0 :=
  (((hasDerivAt_id (0 : ℝ)).mul_const b).const_add a).congr_deriv (by simp)

/-- Derivative of a pairing from the derivatives of the elements. -/
theorem hasDerivAt_pair (g : T ℝ) (y : ℝ → T ℝ) (v : List Nat → ℝ)
    (h : ∀ i, InB g.shape i → HasDerivAt (fun τ => (y τ).at_ i) (v i) 0) :
    HasDerivAt (fun τ => pair g (y τ)) (sumOver g.shape fun i => g.at_ i * v i) 0 := by
  unfold pair sumOver
  refine HasDerivAt.fun_sum (fun k hk => ?_)
  exact (h _ (inB_unravel (Finset.mem_range.1 hk))).const_mul _

/-- A gradient is unique on the positions of the tensor: two gradients of the same function pair equally with every
direction. -/
theorem IsGrad.unique {F : T ℝ → Res (T ℝ)} {t g r r' : T ℝ} (h : IsGrad F t g r) (h' : IsGrad F t g r') (d : T ℝ)
    (hd : d.shape = t.shape) : pair r d = pair r' d := by
  obtain ⟨y, e, hy⟩ := h.2 d hd
  obtain ⟨y', e', hy'⟩ := h'.2 d hd
  refine HasDerivAt.unique hy (hy'.congr_of_eventuallyEq ?_)
  filter_upwards [e, e'] with τ a b
  have := a.1.symm.trans b.1
  simp only [Res.ok.injEq] at this
  show pair g (y τ) = pair g (y' τ)
  rw [this]

end Verif.Shape
