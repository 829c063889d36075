import Verif.Shape.Broadcast
/-!
C45: `KeepDims`.
-/
set_option autoImplicit false
namespace Verif.Shape
open Verif.Tensor

theorem size_ones (n : Nat) : size (List.replicate n 1) = 1 := by
  induction n with
  | zero => rfl
  | succ n ih => simp [List.replicate_succ, size, ih]

/-- The shape `KeepDims` should produce: the function's result padded with ones up to the operand's rank. -/
def padded (left : Bool) (rank : Nat) (b : List Nat) : List Nat :=
  if left then List.replicate (rank - b.length) 1 ++ b else b ++ List.replicate (rank - b.length) 1

/-- C45 when the early exit is taken only on equal shapes: the result has the operand's rank, its shape is
the function's result padded with ones on the requested side, and the elements are the function's, in
order; a result of higher rank is rejected. What is missing: `tensor.Shape.Eq` also identifies a vector
`(n)` with `(n,1)` and `(1,n)`, see `keepDims_rank_lost`. -/
theorem keepDims_correct_partial {α : Type} (o : List Nat) (left : Bool) (b : T α)
    (heq : shapeEq b.shape o = true → b.shape = o) :
    (b.shape.length ≤ o.length → ∃ r, keepDims o left b = .ok r ∧ r.shape.length = o.length ∧
      r.shape = padded left o.length b.shape ∧ ∀ k, k < size b.shape → r.flat k = b.flat k) ∧
    (o.length < b.shape.length → keepDims o left b = .err) := by
  constructor
  · intro hle
    unfold keepDims
    by_cases he : shapeEq b.shape o = true
    · have := heq he
      rw [if_pos he]
      refine ⟨b, rfl, by rw [this], ?_, fun k _ => rfl⟩
      rw [← this]; simp [padded]
    · rw [if_neg he, if_neg (by omega)]
      have hpad : (if left = true then List.replicate (o.length - b.shape.length) 1 ++ b.shape
          else b.shape ++ List.replicate (o.length - b.shape.length) 1) = padded left o.length b.shape := rfl
      simp only [hpad]
      have hsz : size (padded left o.length b.shape) = size b.shape := by
        unfold padded; split <;> simp [size_append, size_ones]
      simp only [reshape, reshapeTo_ofNat _ _ hsz, Res.bind]
      refine ⟨_, rfl, ?_, rfl, ?_⟩
      · show (padded left o.length b.shape).length = o.length
        unfold padded; split <;> simp <;> omega
      · intro k hk
        show b.flat (ravel (padded left o.length b.shape) (unravel (padded left o.length b.shape) k)) = b.flat k
        rw [ravel_unravel (by rw [hsz]; exact hk)]
  · intro hlt
    unfold keepDims
    have : shapeEq b.shape o ≠ true := by
      intro h; have := heq h; rw [this] at hlt; omega
    rw [if_neg this, if_pos hlt]

/-- A sum over the first axis of a `(3,4)` matrix, kept to the left. -/
example : shapeEq [4] [3, 4] = false ∧ padded true 2 [4] = [1, 4] ∧ padded false 2 [4] = [4, 1] := by decide

/-- When the early exit is harmless: no rank difference hidden by the vector identification. -/
theorem shapeEq_exact (a b : List Nat) (h : a.length = b.length ∨ 2 < a.length ∨ 2 < b.length)
    (he : shapeEq a b = true) : a = b := by
  unfold shapeEq at he
  split at he
  · simp at h
  · simp at h
  · simpa using he

/-- The code loses an axis: summing a column vector `(3,1)` over its second axis gives `(3)`, which
`Shape.Eq` calls equal to `(3,1)`, so `KeepDims` returns the rank-1 result unchanged. -/
theorem keepDims_rank_lost :
    ∃ r, keepDims [3, 1] true (⟨[3], fun i => i.getD 0 0⟩ : T Nat) = .ok r ∧ r.shape.length = 1 ∧
      padded true 2 [3] = [1, 3] := ⟨_, rfl, rfl, rfl⟩

/-- The full statement is false of the code. -/
theorem keepDims_not_rank : ¬ ∀ (o : List Nat) (left : Bool) (b r : T Nat),
    keepDims o left b = .ok r → r.shape.length = o.length := by
  intro h
  obtain ⟨r, h1, h2, _⟩ := keepDims_rank_lost
  have := h _ _ _ _ h1
  simp [h2] at this

end Verif.Shape
