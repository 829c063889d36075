import Verif.Shape.Gather
/-!
Slices with a step (C62): values, gradients, and the memory into which increments go.  `/repo/op_tensor.go`.

Assumed of the tensor library: a slice from `s` with step `st` reads the elements `s`, `s + st`, …; an axis left with one
element is dropped. How many elements it keeps is left open (`cnt`; only that the last of them is on the axis is used), since
nothing in the gradients depends on it.
-/
set_option autoImplicit false
namespace Verif.Shape
open Verif.Tensor

variable {α : Type}

/-! ### Model -/

/-- `sliceOp.Do` (op_tensor.go 577-601) with a slice of `cnt` elements, the first at `s`, `st` apart. -/
def stepSlice (cnt ax s st : Nat) (t : T α) : Res (T α) :=
  if ax < t.shape.length ∧ 0 < cnt ∧ s + (cnt - 1) * st < t.shape.getD ax 0 then
    if cnt = 1 then .ok ⟨t.shape.eraseIdx ax, fun j => t.at_ (j.insertIdx ax s)⟩
    else .ok ⟨t.shape.set ax cnt, fun j => t.at_ (j.set ax (s + j.getD ax 0 * st))⟩
  else .err

/-- `sliceIncrOp.UsePreallocDo` (op_tensor.go 771-808): the increment is added to the slice of the memory given. The values
of the first operand are not used. -/
noncomputable def stepIncrPre (cnt ax s st : Nat) (mem g : T ℝ) : T ℝ :=
  ⟨mem.shape, fun i =>
    if s ≤ i.getD ax 0 ∧ (i.getD ax 0 - s) % st = 0 ∧ (i.getD ax 0 - s) / st < cnt then
      mem.at_ i + (if cnt = 1 then g.at_ (i.eraseIdx ax) else g.at_ (i.set ax ((i.getD ax 0 - s) / st)))
    else mem.at_ i⟩

/-- `sliceIncrOp.Do` (op_tensor.go 732-769): the same into a new tensor, which holds zeros. `sliceOp.SymDiff` (533-545) makes
this the gradient. -/
noncomputable def stepIncr (cnt ax s st : Nat) (t g : T ℝ) : T ℝ := stepIncrPre cnt ax s st ⟨t.shape, fun _ => 0⟩ g

/-- `sliceOp.DoDiff` (op_tensor.go 558-577): the memory is the derivative held. -/
noncomputable def stepDoDiff (cnt ax s st : Nat) (xd yd : T ℝ) : T ℝ := stepIncrPre cnt ax s st xd yd

/-- The rank of the result according to `sliceOp.Type` (op_tensor.go 501-523) for an operand of rank `d`. -/
def stepTypeRank (d s e : Nat) : Nat := if (e : Int) - s = 1 then d - 1 else d

/-- `WithShape` (node.go 210-230) on a node whose type has rank `nd`: `false` is the panic. `IsColVec` and `IsRowVec` of the
tensor library (assumed) hold of shapes `(n, 1)` and `(1, n)` with `n > 1`; `scalarEquiv` of shapes of size one. -/
def withShapeOk (nd : Nat) (s : List Nat) : Bool :=
  let isVec := match s with
    | [a, b] => (decide (1 < a) && decide (b = 1)) || (decide (a = 1) && decide (1 < b))
    | _ => false
  (isVec && decide (nd = 1)) || decide (nd = s.length) || (decide (nd = 0) && decide (size s = 1))

/-! ### Values -/

/-- With step one this is the slice of C38. -/
theorem stepSlice_one (ax s e : Nat) (t : T α) (h : s < e) : stepSlice (e - s) ax s 1 t = sliceT ax s e t := by
  unfold stepSlice sliceT
  by_cases hc : ax < t.shape.length ∧ s < e ∧ e ≤ t.shape.getD ax 0
  · rw [if_pos hc, if_pos ⟨hc.1, by omega, by omega⟩]
    by_cases h1 : e - s = 1
    · rw [if_pos h1, if_pos h1]
    · rw [if_neg h1, if_neg h1]
      simp only [Nat.mul_one, Nat.add_comm]
  · rw [if_neg hc, if_neg (fun h' => hc ⟨h'.1, h, by omega⟩)]

theorem stepIncr_one (ax s e : Nat) (t g : T ℝ) (h : s < e) : stepIncr (e - s) ax s 1 t g = sliceIncr ax s e t g := by
  unfold stepIncr stepIncrPre sliceIncr
  simp only [Nat.mod_one, Nat.div_one, true_and]
  congr 1
  funext i
  by_cases hc : s ≤ i.getD ax 0 ∧ i.getD ax 0 < e
  · rw [if_pos hc, if_pos ⟨hc.1, by omega⟩]
  · rw [if_neg hc, if_neg (fun h' => hc ⟨h'.1, by omega⟩)]

/-! ### Gradients -/

/-- **C62.** The gradient of a slice with any step is the increment. -/
theorem step_slice_grad (cnt ax s st : Nat) (t g : T ℝ) (ha : ax < t.shape.length) (hst : 0 < st) (hc0 : 0 < cnt)
    (he : s + (cnt - 1) * st < t.shape.getD ax 0)
    (hg : g.shape = if cnt = 1 then t.shape.eraseIdx ax else t.shape.set ax cnt) :
    IsGrad (stepSlice cnt ax s st) t g (stepIncr cnt ax s st t g) := by
  by_cases h1 : cnt = 1
  · subst h1
    rw [if_pos rfl] at hg
    refine gather_grad _ t g _ (t.shape.eraseIdx ax) (fun i => i.insertIdx ax s) ?_ ?_ hg rfl ?_
    · intro i hi
      have hl := hi.length
      rw [List.length_eraseIdx_of_lt ha] at hl
      have := inB_insert (t.shape.eraseIdx ax) i ax (t.shape.getD ax 0) s hi
        (by rw [List.length_eraseIdx_of_lt ha]; omega) (by omega)
      rwa [getD_eq _ _ ha, List.insertIdx_eraseIdx_getElem] at this
    · intro x hx
      refine ⟨⟨x.shape.eraseIdx ax, fun j => x.at_ (j.insertIdx ax s)⟩, ?_, by rw [hx], fun i _ => rfl⟩
      unfold stepSlice
      rw [if_pos ⟨by rw [hx]; exact ha, hc0, by rw [hx]; exact he⟩, if_pos rfl]
    · intro j hj
      have hja : ax < j.length := by rw [hj.length]; exact ha
      show (if s ≤ j.getD ax 0 ∧ (j.getD ax 0 - s) % st = 0 ∧ (j.getD ax 0 - s) / st < 1 then
        0 + (if (1 : Nat) = 1 then g.at_ (j.eraseIdx ax) else g.at_ (j.set ax ((j.getD ax 0 - s) / st))) else 0) = _
      by_cases hc : s ≤ j.getD ax 0 ∧ (j.getD ax 0 - s) % st = 0 ∧ (j.getD ax 0 - s) / st < 1
      · rw [if_pos hc, if_pos rfl, zero_add]
        have hjs : j.getD ax 0 = s := by
          have := Nat.div_add_mod (j.getD ax 0 - s) st
          have h0 : (j.getD ax 0 - s) / st = 0 := Nat.lt_one_iff.1 hc.2.2
          rw [h0, hc.2.1] at this
          simp only [Nat.mul_zero] at this
          omega
        rw [getD_eq _ _ hja] at hjs
        have hb : InB (t.shape.eraseIdx ax) (j.eraseIdx ax) := inB_eraseIdx hj ax
        rw [← sumOver_single _ (j.eraseIdx ax) g.at_ hb]
        refine sumOver_congr _ _ _ (fun i hi => ?_)
        have hil : ax ≤ i.length := by
          have := hi.length; rw [List.length_eraseIdx_of_lt ha] at this; omega
        by_cases hij : j.eraseIdx ax = i
        · rw [if_pos hij, if_pos]
          rw [← hij, ← hjs, List.insertIdx_eraseIdx_getElem]
        · rw [if_neg hij, if_neg]
          intro h
          apply hij
          rw [← h, List.eraseIdx_insertIdx_self]
      · rw [if_neg hc]
        refine (sumOver_zero _ _ (fun i hi => ?_)).symm
        rw [if_neg]
        intro h
        apply hc
        have hil : ax ≤ i.length := by
          have := hi.length; rw [List.length_eraseIdx_of_lt ha] at this; omega
        have : j.getD ax 0 = s := by
          rw [← h, List.getD_eq_getElem?_getD, List.getElem?_insertIdx_self, if_pos hil]; rfl
        rw [this, Nat.sub_self]
        exact ⟨Nat.le_refl _, Nat.zero_mod _, by simp⟩
  · rw [if_neg h1] at hg
    refine gather_grad _ t g _ (t.shape.set ax cnt) (fun i => i.set ax (s + i.getD ax 0 * st)) ?_ ?_ hg rfl ?_
    · intro i hi
      refine inB_set_self ax _ _ hi ha ?_
      have hlt := inB_getD hi (show (t.shape.set ax cnt)[ax]? = some cnt by simp [ha])
      have : i.getD ax 0 * st ≤ (cnt - 1) * st := Nat.mul_le_mul_right _ (by omega)
      omega
    · intro x hx
      refine ⟨⟨x.shape.set ax cnt, fun j => x.at_ (j.set ax (s + j.getD ax 0 * st))⟩, ?_, by rw [hx], fun i _ => rfl⟩
      unfold stepSlice
      rw [if_pos ⟨by rw [hx]; exact ha, hc0, by rw [hx]; exact he⟩, if_neg h1]
    · intro j hj
      have hja : ax < j.length := by rw [hj.length]; exact ha
      show (if s ≤ j.getD ax 0 ∧ (j.getD ax 0 - s) % st = 0 ∧ (j.getD ax 0 - s) / st < cnt then
        0 + (if cnt = 1 then g.at_ (j.eraseIdx ax) else g.at_ (j.set ax ((j.getD ax 0 - s) / st))) else 0) = _
      by_cases hc : s ≤ j.getD ax 0 ∧ (j.getD ax 0 - s) % st = 0 ∧ (j.getD ax 0 - s) / st < cnt
      · rw [if_pos hc, if_neg h1, zero_add]
        have hb : InB (t.shape.set ax cnt) (j.set ax ((j.getD ax 0 - s) / st)) := inB_set_lt hj ax _ _ hc.2.2
        rw [← sumOver_single _ _ g.at_ hb]
        refine sumOver_congr _ _ _ (fun i hi => ?_)
        have hil : ax < i.length := by rw [hi.length]; simpa using ha
        by_cases hij : j.set ax ((j.getD ax 0 - s) / st) = i
        · rw [if_pos hij, if_pos]
          have hq : s + (j.getD ax 0 - s) / st * st = j.getD ax 0 := by
            have := Nat.div_add_mod (j.getD ax 0 - s) st
            rw [hc.2.1, Nat.mul_comm] at this
            omega
          rw [← hij, getD_set _ _ _ _ hja, if_pos rfl, List.set_set, hq, set_getD_self]
        · rw [if_neg hij, if_neg]
          intro h
          apply hij
          rw [← h, getD_set _ _ _ _ hil, if_pos rfl, List.set_set, Nat.add_sub_cancel_left, Nat.mul_div_cancel _ hst,
            set_getD_self]
      · rw [if_neg hc]
        refine (sumOver_zero _ _ (fun i hi => ?_)).symm
        rw [if_neg]
        intro h
        apply hc
        have hil : ax < i.length := by rw [hi.length]; simpa using ha
        have hlt := inB_getD hi (show (t.shape.set ax cnt)[ax]? = some cnt by simp [ha])
        have : j.getD ax 0 = s + i.getD ax 0 * st := by rw [← h, getD_set _ _ _ _ hil, if_pos rfl]
        rw [this, Nat.add_sub_cancel_left, Nat.mul_div_cancel _ hst, Nat.mul_mod_left]
        exact ⟨Nat.le_add_right _ _, rfl, hlt⟩

/-- **C62, C107.** What is left in memory given beforehand is what it held plus the gradient. -/
theorem step_incr_adds (cnt ax s st : Nat) (mem g : T ℝ) (i : List Nat) :
    (stepIncrPre cnt ax s st mem g).shape = mem.shape ∧
      (stepIncrPre cnt ax s st mem g).at_ i = mem.at_ i + (stepIncr cnt ax s st mem g).at_ i := by
  refine ⟨rfl, ?_⟩
  simp only [stepIncr, stepIncrPre]
  split
  · rw [zero_add]
  · rw [add_zero]

/-- **C62 (define-by-run).** The gradient of the slice is added to the derivative held. -/
theorem step_dodiff (cnt ax s st : Nat) (xd g : T ℝ) (i : List Nat) :
    (stepDoDiff cnt ax s st xd g).at_ i = xd.at_ i + (stepIncr cnt ax s st xd g).at_ i :=
  (step_incr_adds cnt ax s st xd g i).2

/-- **C107.** The operation on memory given beforehand agrees with the operation that makes its own exactly if the memory
holds zeros. -/
theorem step_incr_needs_blank (cnt ax s st : Nat) (mem g : T ℝ) :
    (∀ i, InB mem.shape i → (stepIncrPre cnt ax s st mem g).at_ i = (stepIncr cnt ax s st mem g).at_ i) ↔
      ∀ i, InB mem.shape i → mem.at_ i = 0 := by
  constructor
  · intro h i hi
    have := h i hi
    rw [(step_incr_adds cnt ax s st mem g i).2] at this
    linarith
  · intro h i hi
    rw [(step_incr_adds cnt ax s st mem g i).2, h i hi, zero_add]

/-! ### Types and shapes -/

/-- **C71, refuted: slices with a step.** A range of more than one position of which the step leaves one element: the type
keeps the axis, the shape has lost it, and building the node panics. Other ranges pass. -/
theorem step_slice_panics (cnt ax s st e : Nat) (t r : T α) (hr : stepSlice cnt ax s st t = .ok r) (hst : 0 < st)
    (he : s + (cnt - 1) * st < e) :
    withShapeOk (stepTypeRank t.shape.length s e) r.shape = false ↔ cnt = 1 ∧ e ≠ s + 1 := by
  unfold stepSlice at hr
  split at hr
  · rename_i hc
    obtain ⟨ha, hc0, _⟩ := hc
    by_cases h1 : cnt = 1
    · rw [if_pos h1] at hr
      cases hr
      have hl : (t.shape.eraseIdx ax).length = t.shape.length - 1 := List.length_eraseIdx_of_lt ha
      by_cases h2 : e = s + 1
      · have : stepTypeRank t.shape.length s e = t.shape.length - 1 := by
          unfold stepTypeRank; rw [if_pos (by omega)]
        refine iff_of_false ?_ (fun h => h.2 h2)
        simp only [withShapeOk, this, hl, decide_true, Bool.or_true, Bool.true_or, Bool.true_eq_false, not_false_eq_true]
      · have e1 : stepTypeRank t.shape.length s e = t.shape.length := by
          unfold stepTypeRank; rw [if_neg (by omega)]
        refine iff_of_true ?_ ⟨h1, h2⟩
        simp only [withShapeOk, e1, hl]
        have q1 : ¬ t.shape.length = t.shape.length - 1 := by omega
        have q2 : ¬ t.shape.length = 0 := by omega
        simp only [q1, q2, decide_false, Bool.or_false, Bool.false_and, Bool.and_eq_false_iff, decide_eq_false_iff_not]
        by_cases h4 : t.shape.length = 1
        · left
          have : t.shape.eraseIdx ax = [] := List.length_eq_zero_iff.1 (by rw [hl, h4])
          rw [this]
        · exact .inr h4
    · rw [if_neg h1] at hr
      cases hr
      have hl : (t.shape.set ax cnt).length = t.shape.length := by simp
      have h2 : e ≠ s + 1 := by
        have : 1 * 1 ≤ (cnt - 1) * st := Nat.mul_le_mul (by omega) hst
        omega
      have : stepTypeRank t.shape.length s e = t.shape.length := by
        unfold stepTypeRank; rw [if_neg (by omega)]
      simp only [withShapeOk, this, hl, decide_true, Bool.or_true, Bool.true_or, h1, false_and, Bool.true_eq_false]
  · cases hr

/-! ### Examples -/

/-- Every other element of five. -/
example (g : T ℝ) (hg : g.shape = [3]) :
    (stepIncr 3 0 0 2 ⟨[5], fun _ => 7⟩ g).at_ [2] = g.at_ [1] ∧ (stepIncr 3 0 0 2 ⟨[5], fun _ => 7⟩ g).at_ [3] = 0 ∧
      (stepIncr 3 0 0 2 ⟨[5], fun _ => 7⟩ g).at_ [4] = g.at_ [2] := by
  refine ⟨?_, ?_, ?_⟩ <;> simp [stepIncr, stepIncrPre]

example (x g : T ℝ) (hx : x.shape = [5]) (hg : g.shape = [3]) : IsGrad (stepSlice 3 0 0 2) x g (stepIncr 3 0 0 2 x g) :=
  step_slice_grad 3 0 0 2 x g (by rw [hx]; decide) (by decide) (by decide) (by rw [hx]; decide) (by rw [hg, hx]; rfl)

/-- `x[0:2:2]` of five elements has the type of a vector and the shape of a scalar. -/
example : withShapeOk (stepTypeRank 1 0 2) [] = false := by decide

example : withShapeOk (stepTypeRank 2 0 4) [2, 3] = true := by decide

/-- Memory that is not blank. -/
example : (stepIncrPre 2 0 1 2 ⟨[5], fun _ => 7⟩ ⟨[2], fun _ => 1⟩).at_ [3] = 8 := by
  norm_num [stepIncrPre]

end Verif.Shape
