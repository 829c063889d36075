import Verif.Shape.Gather
/-!
Model of `ByIndices`, `/repo/op_by_indices.go` (property C70).

The library functions are assumed: `tensor.ByIndices` reads along the axis at the positions given by the indices and rejects
indices outside the axis, and `tensor.ByIndicesB` adds every element of the gradient to a tensor of zeros at the position it was read from.
-/
set_option autoImplicit false
namespace Verif.Shape
open Verif.Tensor

/-! ### Model -/

/-- `newByIndicesOp`, op_by_indices.go 16-24. -/
def byIndicesAxis (axis : Int) : Nat := if axis < 0 then 0 else axis.toNat

/-- `Shape.IsVectorLike` of the library: at most one axis is not of size 1. -/
def isVectorLike (s : List Nat) : Bool := decide ((s.filter (· ≠ 1)).length ≤ 1)

/-- `byIndicesOp.InferShape`, op_by_indices.go 48-58; an axis the operand does not have is an index out of range. -/
def byIndicesShape (axis : Nat) (s i : List Nat) : Res (List Nat) :=
  if !isVectorLike i then .err
  else if axis < s.length then .ok (s.set axis (size i)) else .panic

/-- The indices all lie on the axis. -/
def onAxis (d : Nat) (idx : List Int) : Bool := idx.all fun k => decide (0 ≤ k) && decide (k < d)

/-- `tensor.ByIndices`. -/
def gatherAt {α : Type} (axis : Nat) (idx : List Int) (x : T α) : Res (T α) :=
  match x.shape[axis]? with
  | none => .err
  | some d =>
    if onAxis d idx then .ok ⟨x.shape.set axis idx.length, fun i => x.at_ (i.set axis ((idx.getD (i.getD axis 0) 0).toNat))⟩
    else .err

/-- `tensor.ByIndicesB`: for each index in turn, the slice of the gradient is added to the slice of the result. -/
noncomputable def scatterAdd (axis : Nat) (idx : List Int) (x g : T ℝ) : T ℝ :=
  ⟨x.shape, fun j => (List.range idx.length).foldl
    (fun acc k => if idx.getD k 0 = (j.getD axis 0 : Int) then acc + g.at_ (j.set axis k) else acc) 0⟩

/-- `byIndicesOp.Do`, op_by_indices.go 87-94, with the arity check of 68-71; the operands are a tensor and indices (the check of the
kind of the indices, 81-83, is in the types). -/
def byIndicesDo {α : Type} (axis : Nat) (x : T α) (idx : List Int) : Res (T α) := gatherAt axis idx x

/-- A value handed to the gradient operation: a tensor, or indices. -/
inductive BVal where
  | ten (t : T ℝ)
  | ints (l : List Int)

/-- `byIndicesOpDiffOp.Do` and `checkInput`, op_by_indices.go 191-244: operand, gradient, indices. -/
noncomputable def byIndicesDiffDo (axis : Nat) (inputs : List BVal) : Res (T ℝ) :=
  if inputs.length ≠ 3 then .err
  else match inputs with
    | [.ten x, .ten g, .ints idx] => .ok (scatterAdd axis idx x g)
    | _ => .err

/-- `byIndicesOp.SymDiff`, op_by_indices.go 129-144: the gradients of the two operands; the indices have none. -/
noncomputable def byIndicesSymDiff (axis : Nat) (x : T ℝ) (idx : List Int) (g : T ℝ) : Res (T ℝ × Option (T ℝ)) :=
  (byIndicesDiffDo axis [.ten x, .ten g, .ints idx]).bind fun r => .ok (r, none)

/-- `byIndicesOp.DoDiff`, op_by_indices.go 97-126: the gradient operation gets the operand and the indices; the outcome becomes the
derivative of the result. Returns the derivative of the operand and that of the result. -/
noncomputable def byIndicesDoDiff (axis : Nat) (x xd : T ℝ) (idx : List Int) (y _yd : T ℝ) : Res (T ℝ × T ℝ) :=
  (byIndicesDiffDo axis [.ten x, .ints idx]).bind fun r =>
    if size r.shape ≠ size y.shape then .err
    else (elemVal (· + ·) y (r.reshape y.shape)).bind fun s => .ok (xd, s)

/-! ### Value -/

/-- **C70 (value).** With indices on the axis, position `i` of the result holds the element of the operand whose place along the axis is the
index that `i` names, and the rest of the place the same; whatever the order of the indices and however often they repeat. -/
theorem byIndices_value {α : Type} (axis : Nat) (x : T α) (idx : List Int) (ha : axis < x.shape.length)
    (hi : ∀ k ∈ idx, 0 ≤ k ∧ k < x.shape.getD axis 0) :
    ∃ y, byIndicesDo axis x idx = .ok y ∧ y.shape = x.shape.set axis idx.length ∧
      ∀ (k : Nat) (v : Nat) (i : List Nat), InB y.shape i → i.getD axis 0 = k → idx[k]? = some (v : Int) → y.at_ i = x.at_ (i.set axis v) := by
  unfold byIndicesDo gatherAt
  have hs : x.shape[axis]? = some (x.shape.getD axis 0) := by simp [ha, List.getD_eq_getElem?_getD]
  rw [hs]
  have ho : onAxis (x.shape.getD axis 0) idx = true := by
    unfold onAxis
    rw [List.all_eq_true]
    intro k hk
    simp only [Bool.and_eq_true, decide_eq_true_eq]
    exact hi k hk
  simp only [ho, if_true]
  refine ⟨_, rfl, rfl, fun k v i hi hk hv => ?_⟩
  simp only [hk, List.getD_eq_getElem?_getD, hv]
  simp

/-- **C70 (shape).** For a vector of indices, whenever the operation succeeds, the shape of the value is the shape inferred. -/
theorem byIndices_shape {α : Type} (axis : Nat) (x : T α) (idx : List Int) (y : T α) (h : byIndicesDo axis x idx = .ok y) :
    byIndicesShape axis x.shape [idx.length] = .ok y.shape := by
  unfold byIndicesDo gatherAt at h
  unfold byIndicesShape
  have hv : isVectorLike [idx.length] = true := by
    unfold isVectorLike
    by_cases h : idx.length ≠ 1 <;> simp [h]
  cases hs : x.shape[axis]? with
  | none => rw [hs] at h; cases h
  | some d =>
    rw [hs] at h
    have ha : axis < x.shape.length := by
      by_contra hc
      rw [List.getElem?_eq_none (by omega)] at hs
      cases hs
    by_cases ho : onAxis d idx = true
    · simp only [ho, if_true, Res.ok.injEq] at h
      subst h
      simp [hv, ha, size]
    · simp only [ho] at h
      simp at h

/-- **C70 (rejection).** Indices off the axis are never read: the operation succeeds exactly when there is such an axis and all indices lie
on it. -/
theorem byIndices_ok_iff {α : Type} (axis : Nat) (x : T α) (idx : List Int) :
    (∃ y, byIndicesDo axis x idx = .ok y) ↔ axis < x.shape.length ∧ ∀ k ∈ idx, 0 ≤ k ∧ k < x.shape.getD axis 0 := by
  constructor
  · rintro ⟨y, h⟩
    unfold byIndicesDo gatherAt at h
    cases hs : x.shape[axis]? with
    | none => rw [hs] at h; cases h
    | some d =>
      rw [hs] at h
      have ha : axis < x.shape.length := by
        by_contra hc
        rw [List.getElem?_eq_none (by omega)] at hs
        cases hs
      refine ⟨ha, fun k hk => ?_⟩
      by_cases ho : onAxis d idx = true
      · unfold onAxis at ho
        rw [List.all_eq_true] at ho
        have := ho k hk
        simp only [Bool.and_eq_true, decide_eq_true_eq] at this
        rw [List.getD_eq_getElem?_getD, hs]
        exact this
      · simp [ho] at h
  · rintro ⟨ha, hi⟩
    obtain ⟨y, h, _⟩ := byIndices_value axis x idx ha hi
    exact ⟨y, h⟩

/-- **C70, refuted: missing axes.** For an axis the operand does not have, shape inference panics instead of giving an error. -/
theorem byIndices_axis_panics (axis : Nat) (s : List Nat) (n : Nat) (ha : s.length ≤ axis) : byIndicesShape axis s [n] = .panic := by
  unfold byIndicesShape
  have hv : isVectorLike [n] = true := by
    unfold isVectorLike
    by_cases h : n ≠ 1 <;> simp [h]
  rw [hv]
  simp [Nat.not_lt.2 ha]

/-! ### Gradient -/

theorem foldl_if_sum (l : List Nat) (P : Nat → Prop) [DecidablePred P] (F : Nat → ℝ) (a : ℝ) :
    l.foldl (fun acc k => if P k then acc + F k else acc) a = a + (l.map fun k => if P k then F k else 0).sum := by
  induction l generalizing a with
  | nil => simp
  | cons b l ih =>
    rw [List.foldl_cons, ih, List.map_cons, List.sum_cons]
    by_cases h : P b
    · rw [if_pos h, if_pos h]; ring
    · rw [if_neg h, if_neg h]; ring

/-- The positions that read a given element are those whose index names it. -/
theorem gather_fibre (s : List Nat) (a n : Nat) (φ : Nat → Nat) (ha : a < s.length) (F : List Nat → ℝ) (j : List Nat) (hj : InB s j) :
    (sumOver (s.set a n) fun i => if i.set a (φ (i.getD a 0)) = j then F i else 0) =
      ∑ k ∈ Finset.range n, if φ k = j.getD a 0 then F (j.set a k) else 0 := by
  induction s generalizing a F j with
  | nil => simp at ha
  | cons d s ih =>
    cases j with
    | nil => exact hj.elim
    | cons q j =>
      cases a with
      | zero =>
        simp only [List.set_cons_zero, List.getD_cons_zero]
        rw [sumOver_cons]
        refine Finset.sum_congr rfl fun k _ => ?_
        simp only [List.set_cons_zero, List.getD_cons_zero]
        by_cases h : φ k = q
        · rw [if_pos h, ← sumOver_single s j (fun i => F (k :: i)) hj.2]
          refine sumOver_congr _ _ _ fun i _ => ?_
          by_cases h' : j = i
          · subst h'; simp [h]
          · rw [if_neg h', if_neg (by simp only [List.cons.injEq]; exact fun e => h' e.2.symm)]
        · rw [if_neg h]
          exact sumOver_zero _ _ fun i _ => by rw [if_neg (by simp only [List.cons.injEq]; exact fun e => h e.1)]
      | succ a =>
        simp only [List.set_cons_succ, List.getD_cons_succ]
        rw [sumOver_cons]
        simp only [List.set_cons_succ, List.getD_cons_succ]
        rw [Finset.sum_eq_single q]
        · rw [← ih a (by simpa using ha) (fun i => F (q :: i)) j hj.2]
          refine sumOver_congr _ _ _ fun i _ => ?_
          by_cases h : i.set a (φ (i.getD a 0)) = j
          · rw [if_pos h, if_pos (by rw [h])]
          · rw [if_neg h, if_neg (by simp only [List.cons.injEq, true_and]; exact h)]
        · intro b _ hb
          exact sumOver_zero _ _ fun i _ => by rw [if_neg (by simp [hb])]
        · intro h; exact absurd (Finset.mem_range.2 hj.1) h

/-- **C70 (gradient).** The gradient built for the operand is its gradient, for all indices on the axis, repeated ones included; the indices get
none. -/
theorem byIndices_grad (axis : Nat) (t g : T ℝ) (idx : List Int) (ha : axis < t.shape.length)
    (hi : ∀ k ∈ idx, 0 ≤ k ∧ k < t.shape.getD axis 0) (hg : g.shape = t.shape.set axis idx.length) :
    ∃ r, byIndicesSymDiff axis t idx g = .ok (r, none) ∧ IsGrad (fun x => byIndicesDo axis x idx) t g r := by
  refine ⟨scatterAdd axis idx t g, rfl, ?_⟩
  refine gather_grad _ t g _ (t.shape.set axis idx.length) (fun i => i.set axis ((idx.getD (i.getD axis 0) 0).toNat)) ?_ ?_ hg rfl ?_
  · intro i hib
    refine inB_set_self axis _ _ hib ha ?_
    have hl := inB_getD hib (show (t.shape.set axis idx.length)[axis]? = some idx.length by simp [ha])
    have hm : idx.getD (i.getD axis 0) 0 ∈ idx := by
      rw [List.getD_eq_getElem?_getD, List.getElem?_eq_getElem hl]; exact List.getElem_mem hl
    have := hi _ hm
    omega
  · intro x hx
    have hx' : ∀ k ∈ idx, 0 ≤ k ∧ k < x.shape.getD axis 0 := by rw [hx]; exact hi
    obtain ⟨y, y1, y2, y3⟩ := byIndices_value axis x idx (by rw [hx]; exact ha) hx'
    refine ⟨y, y1, by rw [y2, hx], fun i hib => ?_⟩
    have hl := inB_getD hib (show (t.shape.set axis idx.length)[axis]? = some idx.length by simp [ha])
    have hm : idx[i.getD axis 0]? = some (idx.getD (i.getD axis 0) 0) := by
      rw [List.getD_eq_getElem?_getD (l := idx), List.getElem?_eq_getElem hl]; rfl
    have hnn := (hi _ (List.mem_of_getElem? hm)).1
    refine y3 _ _ i (by rw [y2, hx]; exact hib) rfl ?_
    rw [hm, Int.toNat_of_nonneg hnn]
  · intro j hj
    rw [gather_fibre t.shape axis idx.length (fun k => (idx.getD k 0).toNat) ha g.at_ j hj]
    unfold scatterAdd
    simp only
    rw [foldl_if_sum, zero_add, Finset.sum_range, ← List.sum_ofFn]
    congr 1
    apply List.ext_getElem
    · simp
    · intro k h1 h2
      simp only [List.length_map, List.length_range] at h1
      have hnn := (hi (idx.getD k 0) (by
        rw [List.getD_eq_getElem?_getD, List.getElem?_eq_getElem h1]; exact List.getElem_mem h1)).1
      simp only [List.getElem_map, List.getElem_range, List.getElem_ofFn]
      by_cases h : idx.getD k 0 = (j.getD axis 0 : Int)
      · rw [if_pos h, if_pos (by omega)]
      · rw [if_neg h, if_neg (by omega)]

/-- **C70, refuted: define-by-run.** It fails whatever the operands: the gradient operation is called without the gradient. -/
theorem byIndices_dodiff_fails (axis : Nat) (x xd y yd : T ℝ) (idx : List Int) : byIndicesDoDiff axis x xd idx y yd = .err := rfl

/-! ### Examples -/

/-- Rows 1, 0, 1 of a matrix of two rows; the second row gets the gradients of both its copies. -/
example (t g : T ℝ) (ht : t.shape = [2, 3]) (hg : g.shape = [3, 3]) :
    ∃ r y, byIndicesDo 0 t [1, 0, 1] = .ok y ∧ y.at_ [2, 1] = t.at_ [1, 1] ∧ byIndicesSymDiff 0 t [1, 0, 1] g = .ok (r, none) ∧
      IsGrad (fun x => byIndicesDo 0 x [1, 0, 1]) t g r ∧ r.at_ [1, 2] = g.at_ [0, 2] + g.at_ [2, 2] := by
  have hi : ∀ k ∈ ([1, 0, 1] : List Int), 0 ≤ k ∧ k < t.shape.getD 0 0 := by rw [ht]; decide
  obtain ⟨r, h1, h2⟩ := byIndices_grad 0 t g [1, 0, 1] (by rw [ht]; decide) hi (by rw [ht, hg]; rfl)
  obtain ⟨y, y1, y2, y3⟩ := byIndices_value 0 t [1, 0, 1] (by rw [ht]; decide) hi
  refine ⟨r, y, y1, y3 2 1 [2, 1] (by rw [y2, ht]; simp [InB]) rfl rfl, h1, h2, ?_⟩
  have : r = scatterAdd 0 [1, 0, 1] t g := by
    have e : byIndicesSymDiff 0 t [1, 0, 1] g = .ok (scatterAdd 0 [1, 0, 1] t g, none) := rfl
    rw [e] at h1
    simpa using h1.symm
  rw [this]
  unfold scatterAdd
  have hr : List.range ([1, 0, 1] : List Int).length = [0, 1, 2] := by decide
  simp only [hr, List.foldl_cons, List.foldl_nil]
  simp

end Verif.Shape
