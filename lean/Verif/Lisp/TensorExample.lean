import Verif.Lisp.TensorMore
import Verif.AD.TensorExample
/-!
`lisp_tensor_gradient` applied to a whole model: the classifier with tied weights of `Verif.AD.TensorExample`, run by the define-by-run machine.
-/
set_option autoImplicit false
namespace Verif.Lisp.Tensor
open Verif.Tensor Verif.Shape Verif.AD Verif.LinAlg Verif.NN Filter
open scoped Topology

noncomputable section

/-- `-Sum(Y ⊙ LogSoftMax((X·W)·Wᵀ, 1))`, as nodes in the order of `Sort`; node 8 is `W`, used twice. -/
def lTied : LG := [.op (lUn .neg) [1], .op (lSum []) [2], .op (lBin .mul false false false false) [3, 4], .leaf, .op (lSoft true 1) [5],
  .op (lMatMul false true) [6, 8], .op (lMatMul false false) [7, 8], .leaf, .leaf]

theorem lTied_sorted : lTied.tg.Sorted := by
  intro i n h c hc
  match i, h with
  | 0, h | 1, h | 2, h | 3, h | 4, h | 5, h | 6, h | 7, h | 8, h =>
    simp [lTied, LG.tg, LNode.tnode] at h
    subst h
    simp [TNode.kids, lTied, LG.tg] at hc ⊢
    try omega
  | i + 9, h => simp [lTied, LG.tg] at h

theorem lTied_ok (x : Nat → T ℝ) (n m k : Nat) (hn : n ≠ 0) (hm : m ≠ 0) (h3 : (x 3).shape = [n, m]) (h7 : (x 7).shape = [n, m])
    (h8 : (x 8).shape = [m, k]) : lTied.tg.Good x ∧ lTied.Adds x ∧ lTied.tg.sh x 0 = [] := by
  have W := lTied_sorted
  have v3 : lTied.tg.value x 3 = .ok (x 3) := by rw [TG.value_eq _ W]; rfl
  have v7 : lTied.tg.value x 7 = .ok (x 7) := by rw [TG.value_eq _ W]; rfl
  have v8 : lTied.tg.value x 8 = .ok (x 8) := by rw [TG.value_eq _ W]; rfl
  have hp : ∀ d ∈ [n, m], d ≠ 0 := by simp [hn, hm]
  obtain ⟨a, a1, a2, a3, a4⟩ := lMatMul_adds false false (x 7) (x 8) (by rw [h7]; rfl) (by rw [h8]; rfl) (by simp [M.flip, toM, h7, h8])
  have a2 : a.shape = [n, k] := by rw [a2]; simp [M.flip, toM, h7, h8]
  have v6 : lTied.tg.value x 6 = .ok a := by
    rw [TG.value_eq _ W]
    show (resAll [lTied.tg.value x 7, lTied.tg.value x 8]).bind (lMatMul false false).op.run = _
    rw [v7, v8]
    exact a3.run
  obtain ⟨b, b1, b2, b3, b4⟩ := lMatMul_adds false true a (x 8) (by rw [a2]; rfl) (by rw [h8]; rfl) (by simp [M.flip, M.T, toM, a2, h8])
  have b2 : b.shape = [n, m] := by rw [b2]; simp [M.flip, M.T, toM, a2, h8]
  have v5 : lTied.tg.value x 5 = .ok b := by
    rw [TG.value_eq _ W]
    show (resAll [lTied.tg.value x 6, lTied.tg.value x 8]).bind (lMatMul false true).op.run = _
    rw [v6, v8]
    exact b3.run
  obtain ⟨c, c1, c2, c3, c4⟩ := lSoft_adds_partial true 1 b (by rw [b2]; simp) (.inl (by decide))
  rw [b2] at c2
  have v4 : lTied.tg.value x 4 = .ok c := by
    rw [TG.value_eq _ W]
    show (resAll [lTied.tg.value x 5]).bind (lSoft true 1).op.run = _
    rw [v5]
    exact c3.run
  obtain ⟨d, d1, d2, _, d3, d4⟩ := lBin_adds_partial .mul false false false false [n, m] (x 3) c (.inl h3) (.inl c2) (.inl h3) (fun _ => hp)
    (fun _ _ => trivial) (fun h => absurd h3 h) (fun h => absurd c2 h) (fun h => by cases h)
  have v2 : lTied.tg.value x 2 = .ok d := by
    rw [TG.value_eq _ W]
    show (resAll [lTied.tg.value x 3, lTied.tg.value x 4]).bind (lBin .mul false false false false).op.run = _
    rw [v3, v4]
    exact d3.run
  obtain ⟨e, e1, e2, e3, e4⟩ := lSum_adds [] d (by rw [d2]; simp) (by simp) List.nodup_nil (by rw [d2]; exact hp)
  have e2 : e.shape = [] := by
    rw [e2, d2]
    rfl
  have v1 : lTied.tg.value x 1 = .ok e := by
    rw [TG.value_eq _ W]
    show (resAll [lTied.tg.value x 2]).bind (lSum []).op.run = _
    rw [v2]
    exact e3.run
  obtain ⟨f3, f4⟩ := lUn_adds_partial .neg (by decide) e (fun _ _ => by simp [UOp.smooth, UOp.dom]) (by simp [numDiff])
  have v0 : lTied.tg.value x 0 = .ok (mapT (UOp.fn .neg) e) := by
    rw [TG.value_eq _ W]
    show (resAll [lTied.tg.value x 1]).bind (lUn .neg).op.run = _
    rw [v1]
    exact f3.run
  refine ⟨fun i o ks h => ?_, ⟨fun i o ks h => ?_, fun i o ks p c h hd hc => ?_, fun i o ks s c h hs hf => ?_⟩, ?_⟩
  · match i, h with
    | 0, h => cases h; exact ⟨[e], _, by simp [v1, resAll, Res.bind], f3⟩
    | 1, h => cases h; exact ⟨[d], _, by simp [v2, resAll, Res.bind], e3⟩
    | 2, h => cases h; exact ⟨[x 3, c], _, by simp [v3, v4, resAll, Res.bind], d3⟩
    | 4, h => cases h; exact ⟨[b], _, by simp [v5, resAll, Res.bind], c3⟩
    | 5, h => cases h; exact ⟨[a, x 8], _, by simp [v6, v8, resAll, Res.bind], b3⟩
    | 6, h => cases h; exact ⟨[x 7, x 8], _, by simp [v7, v8, resAll, Res.bind], a3⟩
    | 3, h | 7, h | 8, h => cases h
    | i + 9, h => simp [lTied, LG.tg] at h
  · match i, h with
    | 0, h => cases h; simp only [List.map_cons, List.map_nil, v0, v1, theT]; exact f4
    | 1, h => cases h; simp only [List.map_cons, List.map_nil, v1, v2, theT]; exact e4
    | 2, h => cases h; simp only [List.map_cons, List.map_nil, v2, v3, v4, theT]; exact d4
    | 4, h => cases h; simp only [List.map_cons, List.map_nil, v4, v5, theT]; exact c4
    | 5, h => cases h; simp only [List.map_cons, List.map_nil, v5, v6, v8, theT]; exact b4
    | 6, h => cases h; simp only [List.map_cons, List.map_nil, v6, v7, v8, theT]; exact a4
    | 3, h | 7, h | 8, h => cases h
    | i + 9, h => simp [lTied] at h
  · left
    match i, h with
    | 0, h | 1, h | 4, h =>
      cases h
      match p, hc with
      | 0, _ => exact ⟨rfl, _, List.mem_singleton.2 rfl, rfl⟩
      | p + 1, hc => simp at hc
    | 2, h =>
      cases h
      match p, hc with
      | 0, _ => exact ⟨rfl, _, List.mem_cons_self, rfl⟩
      | 1, _ => exact ⟨rfl, _, List.mem_cons_of_mem _ List.mem_cons_self, rfl⟩
      | p + 2, hc => simp at hc
    | 5, h | 6, h =>
      cases h
      match p, hc with
      | 0, _ => exact ⟨rfl, _, List.mem_cons_self, rfl⟩
      | 1, _ => exact ⟨rfl, _, List.mem_cons_of_mem _ List.mem_cons_self, rfl⟩
      | p + 2, hc => simp at hc
    | 3, h | 7, h | 8, h => cases h
    | i + 9, h => simp [lTied] at h
  · exfalso
    match i, h with
    | 0, h | 1, h | 4, h =>
      cases h
      obtain rfl := List.mem_singleton.1 hs
      cases hf
    | 2, h | 5, h | 6, h =>
      cases h
      rcases List.mem_cons.1 hs with rfl | hs
      · cases hf
      · rcases List.mem_cons.1 hs with rfl | hs
        · cases hf
        · cases hs
    | 3, h | 7, h | 8, h => cases h
    | i + 9, h => simp [lTied] at h
  · show (theT (lTied.tg.value x 0)).shape = []
    rw [v0]
    exact e2

/-- **C21 on a model with tied weights.** For all sizes, one run of the define-by-run machine succeeds, and adds to the derivatives of `Y`, `X` and `W` the
gradient of the cross entropy. `r` is what has been added to the derivative of the weights. -/
theorem lTied_gradient (x d : Nat → T ℝ) (n m k : Nat) (hn : n ≠ 0) (hm : m ≠ 0) (h3 : (x 3).shape = [n, m]) (h7 : (x 7).shape = [n, m])
    (h8 : (x 8).shape = [m, k]) (hd : ∀ w ∈ [3, 7, 8], (d w).shape = (x w).shape) :
    ∃ s, lTied.run x d = some s ∧ lTied.tg.value x 0 = .ok (s.W 0) ∧ (s.D 8).shape = [m, k] ∧
      ∀ (γ : ℝ → T ℝ) (v : T ℝ) (t₀ : ℝ), γ t₀ = x 8 → Moves γ v t₀ →
        HasDerivAt (fun t => (theT (lTied.tg.value (fun i => if i = 8 then γ t else x i) 0)).at_ []) (pair (s.D 8) v - pair (d 8) v) t₀ := by
  obtain ⟨S, A, h0⟩ := lTied_ok x n m k hn hm h3 h7 h8
  have hleaf : ∀ w, lTied[w]? = some .leaf → w ∈ [3, 7, 8] := by
    intro w h
    match w, h with
    | 3, _ | 7, _ | 8, _ => simp
    | 0, h | 1, h | 2, h | 4, h | 5, h | 6, h => cases h
    | w + 9, h => simp [lTied] at h
  obtain ⟨s, s1, s2, s3, s4⟩ := lisp_tensor_gradient lTied lTied_sorted x d S.fine A (fun w hw => hd w (hleaf w hw)) (by
    intro i o ks st c h hs hf
    exfalso
    match i, h with
    | 0, h | 1, h | 4, h =>
      cases h
      obtain rfl := List.mem_singleton.1 hs
      cases hf
    | 2, h | 5, h | 6, h =>
      cases h
      rcases List.mem_cons.1 hs with rfl | hs
      · cases hf
      · rcases List.mem_cons.1 hs with rfl | hs
        · cases hf
        · cases hs
    | 3, h | 7, h | 8, h => cases h
    | i + 9, h => simp [lTied] at h)
  refine ⟨s, s1, s2 0, by rw [s3 8 rfl, h8], fun γ v t₀ e hM => ?_⟩
  have key := s4 (fun t i => if i = 8 then γ t else x i) (fun i => if i = 8 then v else zeroT (x i).shape) t₀
    (by
      funext i
      by_cases h : i = 8
      · subst h; simp [e]
      · simp [h])
    (by
      intro w hw
      by_cases h : w = 8
      · subst h; simpa using hM
      · simp only [h, if_false]
        exact ⟨rfl, Eventually.of_forall fun _ => rfl, fun j _ => hasDerivAt_const _ _⟩)
    (by
      intro i hi t
      have : i ≠ 8 := by rintro rfl; exact hi rfl
      simp [this])
  have hroot : ∀ j, lTied.root j = decide (j = 0 ∨ 9 ≤ j) := by
    intro j
    match j with
    | 0 | 1 | 2 | 3 | 4 | 5 | 6 | 7 | 8 => simp [LG.root, lTied, LNode.tnode, TNode.kids]
    | j + 9 => simp [LG.root, lTied, LNode.tnode, TNode.kids]
  have hlen : lTied.length = 9 := rfl
  rw [hlen] at key
  have hz : ∀ w, w ≠ 8 → ∀ a : T ℝ, pair a (zeroT (x w).shape) = 0 := by
    intro w _ a
    rw [pair_eq]
    unfold sumOver
    exact Finset.sum_eq_zero fun i _ => by simp [zeroT]
  simp only [Finset.sum_range_succ, Finset.sum_range_zero, hroot] at key
  simp [lTied, LNode.isLeaf, hz] at key
  change lTied.tg.sh x 0 = [] at h0
  have h0' := h0
  simp only [lTied] at h0'
  rw [h0'] at key
  simpa [sumOver, size, unravel, lTied] using key

end

end Verif.Lisp.Tensor
