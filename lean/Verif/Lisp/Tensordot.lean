import Verif.Lisp.TensorMore
import Verif.Shape.TensordotDo
/-!
Contractions in the define-by-run machine (C21, C42).
-/
set_option autoImplicit false
namespace Verif.Lisp.Tensor
open Verif.Tensor Verif.Shape Verif.NN Verif.AD

/-- `tensordotOp` (`DoDiff`, op_math.go 916-1087): the operands in order. -/
noncomputable def lTensordot (A B : List Nat) : LOp :=
  .two (tensordot A B) (fun a b _ g =>
    match dotDiff true A B a.shape b g, dotDiff false B A b.shape a g with
    | .ok ra, .ok rb => some (ra, rb)
    | _, _ => none) false true true false false
  (fun a b _ g d => Res.opt (dotDoDiff true A B a.shape b g d)) (fun a b _ g d => Res.opt (dotDoDiff false B A b.shape a g d))

/-- **C21 (contractions).** Missing: contractions whose symbolic gradient cannot be built. -/
theorem lTensordot_adds_partial (A B : List Nat) (a b : T ℝ) (h : Contractible A B a.shape b.shape) (s' : List Nat)
    (hs : s' = dropAxes A 0 a.shape ++ dropAxes B 0 b.shape) (hgs : isScalarEquiv s' = false ∨ s' = [])
    (hA : DotCovered A a.shape s') (hB : DotCovered B b.shape s') :
    ∃ y, tensordot A B a b = .ok y ∧ y.shape = s' ∧ (lTensordot A B).op.Good [a, b] y ∧ (lTensordot A B).Adds [a, b] y := by
  obtain ⟨y, h1, h2, hgood⟩ := tensordotTOp_good A B a b h s' hs hgs hA hB
  refine ⟨y, h1, h2, hgood, adds_two hgood fun g hg ra rb e _ _ => ?_⟩
  have hsh : g.shape = dropAxes A 0 a.shape ++ dropAxes B 0 b.shape := by rw [hg, h2, hs]
  have e1 : dotDiff true A B a.shape b g = .ok ra ∧ dotDiff false B A b.shape a g = .ok rb := by
    split at e
    · rename_i x y p q
      cases e
      exact ⟨p, q⟩
    · cases e
  refine ⟨fun d hd _ => ?_, fun d hd _ => ?_⟩
  · obtain ⟨w, w1, w2, w3⟩ := dotDoDiff_symbolic true A B a.shape b g d ra h hsh hd e1.1
    exact ⟨w, by rw [w1]; rfl, w2, w3⟩
  · obtain ⟨w, w1, w2, w3⟩ := dotDoDiff_symbolic false B A b.shape a g d rb h.symm hsh hd e1.2
    exact ⟨w, by rw [w1]; rfl, w2, w3⟩

/-- Contracting two axes of a `2×3×4×5` tensor with a `3×6×5` one. -/
example (a b : T ℝ) (ha : a.shape = [2, 3, 4, 5]) (hb : b.shape = [3, 6, 5]) :
    ∃ y, tensordot [3, 1] [2, 0] a b = .ok y ∧ y.shape = [2, 4, 6] ∧ (lTensordot [3, 1] [2, 0]).op.Good [a, b] y ∧
      (lTensordot [3, 1] [2, 0]).Adds [a, b] y :=
  lTensordot_adds_partial _ _ a b (by rw [ha, hb]; exact ⟨by simp, by simp, rfl, by simp, by simp, by simp, by simp, by simp⟩) _
    (by rw [ha, hb]; rfl) (Or.inl rfl) ⟨Or.inl (by rw [ha]; rfl), fun h => by rw [ha] at h; cases h⟩
    ⟨Or.inl (by rw [hb]; rfl), fun h => by rw [hb] at h; cases h⟩

end Verif.Lisp.Tensor
