import Verif.AD.TensorMore
/-!
`gradT_correct` applied to a whole model: a classifier with tied weights and its cross entropy.
-/
set_option autoImplicit false
namespace Verif.AD
open Verif.Tensor Verif.Shape Verif.NN Verif.LinAlg Filter
open scoped Topology

noncomputable section

/-- `-Sum(Y ⊙ LogSoftMax((X·W)·Wᵀ, 1))`, as nodes in the order of `Sort`; node 8 is `W`, used twice. -/
def tied : TG := [.op (uTOp .neg) [1], .op (sumTOp []) [2], .op (bTOp .mul) [3, 4], .leaf, .op (softTOp true 1) [5],
  .op (matMulTOp false true) [6, 8], .op (matMulTOp false false) [7, 8], .leaf, .leaf]

theorem tied_sorted : tied.Sorted := by
  intro i n h c hc
  match i, h with
  | 0, h | 1, h | 2, h | 3, h | 4, h | 5, h | 6, h | 7, h | 8, h =>
    simp [tied] at h
    subst h
    simp [TNode.kids, tied] at hc ⊢
    try omega
  | i + 9, h => simp [tied] at h

theorem tied_good (x : Nat → T ℝ) (n m k : Nat) (hn : n ≠ 0) (hm : m ≠ 0) (h3 : (x 3).shape = [n, m]) (h7 : (x 7).shape = [n, m])
    (h8 : (x 8).shape = [m, k]) : tied.Good x ∧ ∃ y, tied.value x 0 = .ok y ∧ y.shape = [] := by
  have W := tied_sorted
  have v3 : tied.value x 3 = .ok (x 3) := by rw [TG.value_eq _ W]; rfl
  have v7 : tied.value x 7 = .ok (x 7) := by rw [TG.value_eq _ W]; rfl
  have v8 : tied.value x 8 = .ok (x 8) := by rw [TG.value_eq _ W]; rfl
  have hp : ∀ d ∈ [n, m], d ≠ 0 := by simp [hn, hm]
  obtain ⟨a, a1, a2, a3⟩ := matMulTOp_good false false (x 7) (x 8) (by rw [h7]; rfl) (by rw [h8]; rfl) (by simp [M.flip, toM, h7, h8])
  have a2 : a.shape = [n, k] := by rw [a2]; simp [M.flip, toM, h7, h8]
  have v6 : tied.value x 6 = .ok a := by
    rw [TG.value_eq _ W]
    show (resAll [tied.value x 7, tied.value x 8]).bind (matMulTOp false false).run = _
    rw [v7, v8]
    exact a3.run
  obtain ⟨b, b1, b2, b3⟩ := matMulTOp_good false true a (x 8) (by rw [a2]; rfl) (by rw [h8]; rfl) (by simp [M.flip, M.T, toM, a2, h8])
  have b2 : b.shape = [n, m] := by rw [b2]; simp [M.flip, M.T, toM, a2, h8]
  have v5 : tied.value x 5 = .ok b := by
    rw [TG.value_eq _ W]
    show (resAll [tied.value x 6, tied.value x 8]).bind (matMulTOp false true).run = _
    rw [v6, v8]
    exact b3.run
  obtain ⟨c, c1, c2, c3⟩ := softTOp_good_partial true 1 b (by rw [b2]; simp) (.inl (by decide))
  rw [b2] at c2
  have v4 : tied.value x 4 = .ok c := by
    rw [TG.value_eq _ W]
    show (resAll [tied.value x 5]).bind (softTOp true 1).run = _
    rw [v5]
    exact c3.run
  obtain ⟨d, d1, d2, _, d3⟩ := bTOp_good .mul [n, m] (x 3) c (.inl h3) (.inl c2) (.inl h3) (fun _ => hp) fun _ _ => trivial
  have v2 : tied.value x 2 = .ok d := by
    rw [TG.value_eq _ W]
    show (resAll [tied.value x 3, tied.value x 4]).bind (bTOp .mul).run = _
    rw [v3, v4]
    exact d3.run
  obtain ⟨e, e1, e2, e3⟩ := sumTOp_good [] d (by rw [d2]; simp) (by simp) List.nodup_nil (by rw [d2]; exact hp)
  have e2 : e.shape = [] := by
    rw [e2, d2]
    rfl
  have v1 : tied.value x 1 = .ok e := by
    rw [TG.value_eq _ W]
    show (resAll [tied.value x 2]).bind (sumTOp []).run = _
    rw [v2]
    exact e3.run
  have f3 := uTOp_good_partial .neg (by decide) (by decide) e (fun _ _ => trivial) fun _ _ => differentiable_neg _
  have v0 : tied.value x 0 = .ok (mapT (UOp.fn .neg) e) := by
    rw [TG.value_eq _ W]
    show (resAll [tied.value x 1]).bind (uTOp .neg).run = _
    rw [v1]
    exact f3.run
  refine ⟨fun i o ks h => ?_, _, v0, e2⟩
  match i, h with
  | 0, h => cases h; exact ⟨[e], _, by simp [v1, resAll, Res.bind], f3⟩
  | 1, h => cases h; exact ⟨[d], _, by simp [v2, resAll, Res.bind], e3⟩
  | 2, h => cases h; exact ⟨[x 3, c], _, by simp [v3, v4, resAll, Res.bind], d3⟩
  | 4, h => cases h; exact ⟨[b], _, by simp [v5, resAll, Res.bind], c3⟩
  | 5, h => cases h; exact ⟨[a, x 8], _, by simp [v6, v8, resAll, Res.bind], b3⟩
  | 6, h => cases h; exact ⟨[x 7, x 8], _, by simp [v7, v8, resAll, Res.bind], a3⟩
  | 3, h | 7, h | 8, h => cases h
  | i + 9, h => simp [tied] at h

theorem tied_reach : Reach tied.gr 0 8 := by
  have s : ∀ i j k : Nat, (tied.gr.node i).children[k]? = some j → (tied.gr.node i).diffs[k]? = some true → Dep tied.gr i j :=
    fun i j k h1 h2 => List.mem_of_getElem? (i := k) (by rw [List.getElem?_zip_eq_some]; exact ⟨h1, h2⟩)
  exact ((((Relation.ReflTransGen.single (s 0 1 0 rfl rfl)).tail (s 1 2 0 rfl rfl)).tail (s 2 4 1 rfl rfl)).tail
    (s 4 5 0 rfl rfl)).tail (s 5 8 1 rfl rfl)

/-- `Grad` of the cross entropy of the classifier with respect to its weights succeeds, for all sizes, and gives the gradient. -/
theorem tied_gradient (x : Nat → T ℝ) (n m k : Nat) (hn : n ≠ 0) (hm : m ≠ 0) (h3 : (x 3).shape = [n, m]) (h7 : (x 7).shape = [n, m])
    (h8 : (x 8).shape = [m, k]) (users : Nat → Nat) :
    ∃ r deriv', gradT tied x users (fun _ => none) 0 [8] = some ([r], deriv') ∧ r.shape = [m, k] ∧
      ∀ (γ : ℝ → T ℝ) (v : T ℝ) (t₀ : ℝ), γ t₀ = x 8 → Moves γ v t₀ →
        HasDerivAt (fun t => (theT (tied.value (fun i => if i = 8 then γ t else x i) 0)).at_ []) (pair r v) t₀ := by
  obtain ⟨S, hy⟩ := tied_good x n m k hn hm h3 h7 h8
  obtain ⟨⟨res, deriv'⟩, hg⟩ := (gradT_succeeds_iff tied tied_sorted x S.fine users (fun _ => none) 0 [8] fun _ _ _ => rfl).2
    ⟨hy, by simp, by simpa using ⟨rfl, tied_reach⟩⟩
  obtain ⟨r, r1, r2, r3⟩ := gradT_correct tied tied_sorted x S.fine users (fun _ => none) 0 (by decide) [8] (fun _ _ _ => rfl) (by decide) res deriv' hg
  refine ⟨r 8, deriv', by rw [hg, r1]; rfl, by rw [r2 8 (by simp), h8], fun γ v t₀ h0 hM => ?_⟩
  have := (r3 (fun t i => if i = 8 then γ t else x i) (fun _ => v) t₀ (by
    funext i
    by_cases h : i = 8
    · subst h; simp [h0]
    · simp [h]) (by simpa using hM) (by
    intro i hi t
    simp at hi
    simp [hi])).2
  simpa using this

end

end Verif.AD
