import Verif.Misc.Args
import Verif.Shape.Transpose
import Verif.Shape.Reduce
/-!
Axes handed in by the caller (C102): `Transpose`, `Sum` and `Max` keep the slice in the operation they build; it is read again whenever
the operation is run or differentiated.
-/
set_option autoImplicit false
namespace Verif.Misc
open Verif.Shape Verif.Tensor

/-- What `Transpose` returns: as `TrRes`, but the operation holds a slice. -/
inductive TrKept
  | err | panic | same | op (pattern : Slc)

/-- `Transpose` (operations.go 446-470) in memory, on an operand of rank `dims`: without axes a new slice is made, otherwise the caller's
slice becomes the field `pattern`. -/
def transposeMem (μ : Arrays Nat) (axes : Slc) (dims : Nat) : Arrays Nat × TrKept :=
  if 0 < axes.len ∧ axes.len ≠ dims then (μ, .err)
  else
    let r : Arrays Nat × Slc := if axes.len = 0 then
        (⟨fun b => if b = μ.next then (List.range dims).map fun i => dims - 1 - i else μ.data b, μ.next + 1⟩, ⟨μ.next, 0, dims⟩)
      else (μ, axes)
    let p := r.2.view r.1
    let m := isMonotonic p
    if m.1 && m.2 then
      match p with
      | [] => (r.1, .panic) -- axes[0]
      | a :: _ => if a = 0 then (r.1, .same) else (r.1, .op r.2)
    else (r.1, .op r.2)

/-- Running the node (`transposeOp.Do`, op_tensor.go 936-954): the pattern is what the slice holds now. -/
def runTranspose {α : Type} (μ : Arrays Nat) (k : TrKept) (t : T α) : Option (T α) :=
  match k with
  | .op p => some (transposeT (p.view μ) t)
  | .same => some t
  | _ => none

/-- The caller writes `ys` into the slice. -/
def refill (μ : Arrays Nat) (s : Slc) (ys : List Nat) : Arrays Nat := μ.put s.arr s.off ys

variable {α : Type}

/-- Writing into a slice that exists leaves newer arrays alone. -/
theorem refill_new (μ : Arrays Nat) (s : Slc) (ys l : List Nat) (n : Nat) (hs : s.arr < μ.next) (hl : l.length = n) :
    (Slc.mk μ.next 0 n).view (refill ⟨fun b => if b = μ.next then l else μ.data b, μ.next + 1⟩ s ys) = l := by
  unfold Slc.view refill
  rw [put_other _ _ _ _ _ (by simp only; omega)]
  simp [hl]

/-- **C102 (transposition).** `Transpose` leaves the arrays of the caller alone, and run at once the node is the transposition asked for. -/
theorem transpose_now (μ : Arrays Nat) (axes : Slc) (hv : axes.Valid μ) (t : T α) :
    (∀ b, b < μ.next → (transposeMem μ axes t.shape.length).1.data b = μ.data b) ∧
    runTranspose (transposeMem μ axes t.shape.length).1 (transposeMem μ axes t.shape.length).2 t = transposeVal t (axes.view μ) := by
  have hl := view_length hv
  unfold transposeMem transposeVal transposeNode
  rw [hl]
  by_cases he : 0 < axes.len ∧ axes.len ≠ t.shape.length
  · rw [if_pos he, if_pos he]
    exact ⟨fun _ _ => rfl, rfl⟩
  · rw [if_neg he, if_neg he]
    by_cases h0 : axes.len = 0
    · have hv0 : axes.view μ = [] := List.eq_nil_of_length_eq_zero (by omega)
      have hnew : (Slc.mk μ.next 0 t.shape.length).view (⟨fun b => if b = μ.next then
          (List.range t.shape.length).map fun i => t.shape.length - 1 - i else μ.data b, μ.next + 1⟩ : Arrays Nat) =
          (List.range t.shape.length).map fun i => t.shape.length - 1 - i := by simp [Slc.view]
      simp only [if_pos h0, if_pos hv0, hnew]
      refine ⟨fun b hb => ?_, ?_⟩
      · have : b ≠ μ.next := by omega
        split
        · split
          · simp [this]
          · split <;> simp [this]
        · simp [this]
      · split
        · cases hp : (List.range t.shape.length).map fun i => t.shape.length - 1 - i with
          | nil => rfl
          | cons a l =>
            simp only
            split
            · rfl
            · have h1 := hnew
              rw [hp] at h1
              simp only [runTranspose, h1]
        · simp only [runTranspose, hnew]
    · have hv0 : axes.view μ ≠ [] := fun e => h0 (by rw [← hl, e]; rfl)
      simp only [if_neg h0, if_neg hv0]
      refine ⟨fun b hb => ?_, ?_⟩
      · split
        · split
          · rfl
          · split <;> rfl
        · rfl
      · split
        · cases hp : axes.view μ with
          | nil => rfl
          | cons a l =>
            simp only
            split
            · rfl
            · simp only [runTranspose, hp]
        · simp only [runTranspose]

/-- **C102 (defect: refilled axes).** If the caller afterwards writes other axes into the slice, the node that was built transposes by
these. -/
theorem transpose_refilled (μ : Arrays Nat) (axes : Slc) (hv : axes.Valid μ) (t : T α) (p : Slc) (hn : 0 < axes.len)
    (hop : (transposeMem μ axes t.shape.length).2 = .op p) (ys : List Nat) (hy : ys.length = axes.len) :
    runTranspose (refill (transposeMem μ axes t.shape.length).1 axes ys) (.op p) t = some (transposeT ys t) := by
  have h0 : axes.len ≠ 0 := by omega
  have key : (transposeMem μ axes t.shape.length).1 = μ ∧ p = axes := by
    unfold transposeMem at hop ⊢
    by_cases he : 0 < axes.len ∧ axes.len ≠ t.shape.length
    · rw [if_pos he] at hop; cases hop
    · rw [if_neg he] at hop ⊢
      simp only [if_neg h0] at hop ⊢
      split at hop
      · rename_i hm
        rw [if_pos hm]
        cases hp : axes.view μ with
        | nil => rw [hp] at hop; cases hop
        | cons a l =>
          rw [hp] at hop
          simp only at hop ⊢
          split at hop
          · cases hop
          · rename_i ha
            rw [if_neg ha]
            cases hop
            exact ⟨rfl, rfl⟩
      · rename_i hm
        rw [if_neg hm]
        cases hop
        exact ⟨rfl, rfl⟩
  rw [key.1, key.2]
  simp only [runTranspose, refill, (put_view hv hy).1]

/-- Without axes the node does not depend on what the caller writes. -/
theorem transpose_own (μ : Arrays Nat) (axes s : Slc) (t : T α) (h0 : axes.len = 0) (hs : s.Valid μ) (p : Slc)
    (hop : (transposeMem μ axes t.shape.length).2 = .op p) (ys : List Nat) :
    runTranspose (refill (transposeMem μ axes t.shape.length).1 s ys) (.op p) t =
      some (transposeT ((List.range t.shape.length).map fun i => t.shape.length - 1 - i) t) := by
  have he : ¬ (0 < axes.len ∧ axes.len ≠ t.shape.length) := by omega
  have hnew : ∀ ν : Arrays Nat, ν = ⟨fun b => if b = μ.next then
      (List.range t.shape.length).map fun i => t.shape.length - 1 - i else μ.data b, μ.next + 1⟩ →
      runTranspose (refill ν s ys) (.op ⟨μ.next, 0, t.shape.length⟩) t =
      some (transposeT ((List.range t.shape.length).map fun i => t.shape.length - 1 - i) t) := by
    rintro ν rfl
    simp only [runTranspose]
    rw [refill_new μ s ys _ _ hs.1 (by simp)]
  unfold transposeMem at hop ⊢
  rw [if_neg he] at hop ⊢
  simp only [if_pos h0] at hop ⊢
  split at hop
  · rename_i hm
    rw [if_pos hm]
    split at hop
    · cases hop
    · rename_i a l hp
      split at hop
      · cases hop
      · rename_i ha
        cases hop
        simp only [if_neg ha]
        exact hnew _ rfl
  · rename_i hm
    rw [if_neg hm]
    cases hop
    exact hnew _ rfl

theorem permute_inj {p q l : List Nat} (hl : l.Nodup) (hp : ∀ a ∈ p, a < l.length) (hq : ∀ a ∈ q, a < l.length)
    (h : permute p l = permute q l) : p = q := by
  unfold permute at h
  have hlen : p.length = q.length := by simpa using congrArg List.length h
  refine List.ext_getElem hlen fun i h1 h2 => ?_
  have hi := congrArg (fun x => x[i]?) h
  simp only [List.getElem?_map, List.getElem?_eq_getElem h1, List.getElem?_eq_getElem h2, Option.map_some, Option.some.injEq] at hi
  rw [getD_eq _ _ (hp _ (List.getElem_mem h1)), getD_eq _ _ (hq _ (List.getElem_mem h2))] at hi
  exact (List.Nodup.getElem_inj_iff hl).1 hi

/-- **C102 (defect: the shape).** The node keeps the shape inferred from the first axes. If the sizes of the operand differ, the value has
that shape exactly if the slice still holds these axes. -/
theorem transpose_shape_iff (t : T α) (hn : t.shape.Nodup) (xs ys : List Nat) (hx : IsPerm xs) (hy : IsPerm ys)
    (lx : xs.length = t.shape.length) (ly : ys.length = t.shape.length) :
    (transposeT ys t).shape = permute xs t.shape ↔ ys = xs := by
  constructor
  · intro h
    exact permute_inj hn (fun a ha => by rw [← ly]; exact hy.mem.1 ha) (fun a ha => by rw [← lx]; exact hx.mem.1 ha) h
  · rintro rfl; rfl

/-- **C102 (defect: the gradient).** The gradient node takes its pattern from the slice when `Grad` is called. If the slice is refilled
between `Grad` and the run, value and gradient belong to different transpositions: for sizes that differ, transposing back by the
gradient's pattern gives the shape of the operand exactly if the axes are the same. -/
theorem transpose_gradient_iff (t : T α) (hn : t.shape.Nodup) (xs ys : List Nat) (hx : IsPerm xs) (hy : IsPerm ys)
    (lx : xs.length = t.shape.length) (ly : ys.length = t.shape.length) :
    (transposeDiff xs (transposeT ys t)).shape = t.shape ↔ ys = xs := by
  constructor
  · intro h
    have h1 : permute (invPattern xs) (permute ys t.shape) = t.shape := h
    have h2 := congrArg (permute xs) h1
    rw [permute_inv hx, permute_scatter hx _ (by rw [permute_length, ly, lx])] at h2
    exact (transpose_shape_iff t hn xs ys hx hy lx ly).1 h2
  · rintro rfl
    exact (transpose_inverse hx t lx.symm).1.1

/-! ### Reductions -/

/-- `Sum` and `Max` (operations.go 211-225, 260-273) in memory, for an operand that is no scalar: the field `along`. -/
def reduceMem (μ : Arrays Nat) (along : Slc) (dims : Nat) : Arrays Nat × Slc :=
  if along.len = 0 then (⟨fun b => if b = μ.next then List.range dims else μ.data b, μ.next + 1⟩, ⟨μ.next, 0, dims⟩) else (μ, along)

/-- Running the node (`reductionDo`, op_reduction.go 70-98). -/
def runReduce (f : List Nat → T ℝ → T ℝ) (μ : Arrays Nat) (along : Slc) (t : T ℝ) : Res (T ℝ) := reduceDo f (along.view μ) t

/-- **C102 (reductions).** The same holds for `Sum` and `Max`: run at once the node reduces along the axes asked for, and after the caller
has refilled the slice along those in it then; without axes it always reduces along all. -/
theorem reduce_axes (f : List Nat → T ℝ → T ℝ) (μ : Arrays Nat) (along : Slc) (hv : along.Valid μ) (t : T ℝ) :
    (∀ b, b < μ.next → (reduceMem μ along t.shape.length).1.data b = μ.data b) ∧
    (let r := reduceMem μ along t.shape.length
     runReduce f r.1 r.2 t = reduceDo f (axesOf t.shape.length (along.view μ)) t ∧
     ∀ ys : List Nat, ys.length = along.len → runReduce f (refill r.1 along ys) r.2 t = reduceDo f (axesOf t.shape.length ys) t) := by
  have hl := view_length hv
  unfold reduceMem
  by_cases h0 : along.len = 0
  · have hv0 : along.view μ = [] := List.eq_nil_of_length_eq_zero (by omega)
    simp only [if_pos h0]
    refine ⟨fun b hb => if_neg (by omega), ?_, fun ys hy => ?_⟩
    · simp only [runReduce, axesOf, if_pos hv0]
      congr 1
      simp [Slc.view]
    · have hy0 : ys = [] := List.eq_nil_of_length_eq_zero (by omega)
      simp only [runReduce, axesOf, if_pos hy0]
      rw [refill_new μ along ys _ _ hv.1 (by simp)]
  · have hv0 : along.view μ ≠ [] := fun e => h0 (by rw [← hl, e]; rfl)
    simp only [if_neg h0]
    refine ⟨fun b hb => trivial, ?_, fun ys hy => ?_⟩
    · simp only [runReduce, axesOf, if_neg hv0]
    · have hy0 : ys ≠ [] := fun e => h0 (by rw [← hy, e]; rfl)
      simp only [runReduce, axesOf, if_neg hy0, refill, (put_view hv hy).1]

/-! ### Concrete cases -/

/-- A slice with the axes 1, 0, 2. -/
def axesMem : Arrays Nat := ⟨fun _ => [1, 0, 2], 1⟩

def axesSlc : Slc := ⟨0, 0, 3⟩

/-- A tensor of shape (2, 3, 4): transposed by 1, 0, 2 as asked for, and by 2, 1, 0 after the slice was refilled; the node's shape stays
(3, 2, 4). -/
example (t : T Nat) (ht : t.shape = [2, 3, 4]) :
    (transposeMem axesMem axesSlc 3).2 = .op axesSlc ∧
    runTranspose axesMem (.op axesSlc) t = some (transposeT [1, 0, 2] t) ∧
    runTranspose (refill axesMem axesSlc [2, 1, 0]) (.op axesSlc) t = some (transposeT [2, 1, 0] t) ∧
    (transposeT [1, 0, 2] t).shape = [3, 2, 4] ∧ (transposeT [2, 1, 0] t).shape = [4, 3, 2] ∧
    (transposeDiff [1, 0, 2] (transposeT [2, 1, 0] t)).shape ≠ t.shape := by
  refine ⟨rfl, rfl, rfl, ?_, ?_, ?_⟩
  · show permute _ t.shape = _; rw [ht]; rfl
  · show permute _ t.shape = _; rw [ht]; rfl
  · rw [ne_eq, transpose_gradient_iff t (by rw [ht]; decide) [1, 0, 2] [2, 1, 0] (by unfold IsPerm; decide) (by unfold IsPerm; decide)
      (by rw [ht]; rfl) (by rw [ht]; rfl)]
    decide

/-- Rows summed instead of columns: shape (2, 3), built along axis 0, refilled with 1. -/
example (t : T ℝ) (ht : t.shape = [2, 3]) :
    runReduce sumAxes (refill (reduceMem (⟨fun _ => [0], 1⟩ : Arrays Nat) ⟨0, 0, 1⟩ 2).1 ⟨0, 0, 1⟩ [1])
      (reduceMem (⟨fun _ => [0], 1⟩ : Arrays Nat) ⟨0, 0, 1⟩ 2).2 t = reduceDo sumAxes [1] t ∧
    (sumAxes [1] t).shape = [2] ∧ (sumAxes [0] t).shape = [3] := by
  refine ⟨?_, by simp [sumAxes, ht, dropAxes], by simp [sumAxes, ht, dropAxes]⟩
  have := (reduce_axes sumAxes (⟨fun _ => [0], 1⟩ : Arrays Nat) ⟨0, 0, 1⟩ ⟨by decide, by decide⟩ t).2.2 [1] rfl
  rwa [ht] at this

end Verif.Misc
