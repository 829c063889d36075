import Verif.AD.Backprop
/-!
Ops without derivative in a graph to differentiate.
-/
set_option autoImplicit false
namespace Verif.AD

/-- Rounds of the forward analysis for nodes from `k` on do not change what is known of node `k`. -/
theorem fwd_later (G : Gr) (W : GOK G) (k : Nat) : ∀ (l : List Nat) (S F : Nat → Bool), (∀ i ∈ l, k ≤ i ∧ i < G.length) →
    l.foldlM (fwdStep G) S = some F → F k = S k
  | [], S, F, _, h => by
    simp only [List.foldlM_nil] at h
    injection h with h
    rw [h]
  | i :: l, S, F, hl, h => by
    rw [List.foldlM_cons] at h
    cases h1 : fwdStep G S i with
    | none => rw [h1] at h; cases h
    | some S1 =>
      rw [h1] at h
      have ih := fwd_later G W k l S1 F (fun j hj => hl j (List.mem_cons_of_mem _ hj)) h
      rw [ih]
      obtain ⟨h2, h3⟩ := hl i (List.mem_cons_self)
      unfold fwdStep at h1
      simp only at h1
      by_cases hc : S i = true ∧ (G.node i).input = false
      · rw [if_pos hc] at h1
        split at h1
        · injection h1 with h1
          have hk : S1 k = true ↔ S k = true := by
            rw [← h1, fold_add]
            constructor
            · rintro (h | h)
              · exact h
              · have := (W.after i h3 k (List.of_mem_zip h).1).1
                omega
            · exact .inl
          cases hS : S k <;> cases hS1 : S1 k <;> simp_all
        · cases h1
      · rw [if_neg hc] at h1
        injection h1 with h1
        rw [h1]

/-- If the outputs reach a node whose op is not an `SDOp`, `forwardDiffAnalysis` panics. -/
theorem forward_panics (G : Gr) (W : GOK G) (outs : List Nat) (o k : Nat) (ho : o ∈ outs) (hr : Reach G o k) (hk : k < G.length)
    (hi : (G.node k).input = false) (hc : (G.node k).children ≠ []) (hd : (G.node k).diffs = []) : forward G outs = none := by
  cases hF : forward G outs with
  | none => rfl
  | some F =>
    exfalso
    have hFk := (forward_reach G W outs F hF k).2 ⟨o, ho, hr⟩
    unfold forward at hF
    have hsplit : List.range G.length = List.range k ++ List.range' k (G.length - k) := by
      have e := List.range'_append_1 (s := 0) (m := k) (n := G.length - k)
      rw [Nat.zero_add, Nat.add_sub_cancel' hk.le] at e
      rw [List.range_eq_range', List.range_eq_range', e]
    rw [hsplit, List.foldlM_append] at hF
    cases h1 : (List.range k).foldlM (fwdStep G) (fun i => decide (i ∈ outs)) with
    | none => rw [h1] at hF; cases hF
    | some S =>
      rw [h1] at hF
      have hF' : (List.range' k (G.length - k)).foldlM (fwdStep G) S = some F := hF
      have hS : F k = S k := by
        refine fwd_later G W k _ S F ?_ hF'
        intro i hi
        rw [List.mem_range'_1] at hi
        omega
      obtain ⟨m, hm⟩ : ∃ m, G.length - k = m + 1 := ⟨G.length - k - 1, by omega⟩
      rw [hm, List.range'_succ, List.foldlM_cons] at hF'
      have : fwdStep G S k = none := by
        unfold fwdStep
        simp only
        rw [if_pos ⟨by rw [← hS]; exact hFk, hi⟩, if_neg]
        rw [hd]
        have := List.length_pos_iff.2 hc
        simp only [List.length_nil]
        omega
      rw [this] at hF'
      cases hF'

/-- `Grad` of a cost that depends on such a node panics, with respect to any nodes. -/
theorem backprop_panics {T : Type} (G : Gr) (W : GOK G) (users : Nat → Nat) (symDiff : Nat → T → Option (List T)) (reduceAdd : List T → Option T)
    (deriv : Nat → Option T) (cost : Nat) (one : T) (wrt : List Nat) (k : Nat) (hr : Reach G cost k) (hk : k < G.length)
    (hi : (G.node k).input = false) (hc : (G.node k).children ≠ []) (hd : (G.node k).diffs = []) :
    backprop G users symDiff reduceAdd deriv [(cost, one)] wrt = none := by
  unfold backprop
  rw [show ([(cost, one)] : List (Nat × T)).map (·.1) = [cost] from rfl, forward_panics G W [cost] cost k (by simp) hr hk hi hc hd]
  rfl

/-- The cost `Sum(YOLOv3(x))`. -/
example : backprop (T := Unit) [{ children := [1], diffs := [true] }, { children := [2] }, { input := true }] (fun _ => 1) (fun _ _ => some [()])
    (fun _ => some ()) (fun _ => none) [(0, ())] [2] = none := by
  refine backprop_panics _ ⟨?_, ?_⟩ _ _ _ _ 0 () [2] 1 ?_ (by decide) rfl (by simp [Gr.node]) rfl
  · intro i hi c hc
    match i, hi with
    | 0, _ => simp [Gr.node] at hc; subst hc; decide
    | 1, _ => simp [Gr.node] at hc; subst hc; decide
    | 2, _ => simp [Gr.node] at hc
  · intro i hi
    match i with
    | 0 => simp [Gr.node] at hi
    | 1 => simp [Gr.node] at hi
    | 2 => rfl
    | n + 3 => rfl
  · exact Relation.ReflTransGen.single (by simp [Dep, Gr.node])

end Verif.AD
