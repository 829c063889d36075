import Verif.AD.Backprop
/-!
What `Backpropagate` computes: for every way nodes share operands, the gradients it returns are the adjoint of the
derivative of the whole graph.
-/
set_option autoImplicit false
namespace Verif.AD

open scoped InnerProductSpace

section
variable {T : Type} {E : Nat → Type} [∀ i, NormedAddCommGroup (E i)] [∀ i, InnerProductSpace ℝ (E i)]

/-- `Σ_k J_k v_k` over the differentiable operands of node `i`, counting positions from `k`. -/
noncomputable def jsum (J : (i k j : Nat) → E j →ₗ[ℝ] E i) (vel : (i : Nat) → E i) (i : Nat) :
    Nat → List Nat → List Bool → E i
  | k, c :: cs, d :: ds => (if d then J i k c (vel c) else 0) + jsum J vel i (k + 1) cs ds
  | _, _, _ => 0

/-- `vel` is a velocity of the values of the nodes when the inputs `wrt` move and the other leaves do not: at every op node
the derivative of the op, `Σ_k J_k v_k`, applied to the velocities of the operands. -/
structure Tangent (G : Gr) (J : (i k j : Nat) → E j →ₗ[ℝ] E i) (wrt : List Nat) (vel : (i : Nat) → E i) : Prop where
  op : ∀ i, i < G.length → (G.node i).input = false → vel i = jsum J vel i 0 (G.node i).children (G.node i).diffs
  still : ∀ i, (G.node i).input = true → i ∉ wrt → vel i = 0

/-- The op's `SymDiff` builds the adjoint of its derivative, operand by operand, and `ReduceAdd` builds a sum. `den i t`
is the value of the gradient expression `t` of node `i`; `ok i t` says that `t` fits node `i` (has its shape). -/
structure LocalOK (G : Gr) (ok : Nat → T → Prop) (den : (i : Nat) → T → E i) (J : (i k j : Nat) → E j →ₗ[ℝ] E i)
    (symDiff : Nat → T → Option (List T)) (reduceAdd : List T → Option T) : Prop where
  sd : ∀ i g ts, i < G.length → ok i g → symDiff i g = some ts → ∀ k c t, (G.node i).children[k]? = some c →
    (G.node i).diffs[k]? = some true → ts[k]? = some t → ok c t ∧ ∀ v : E c, ⟪den i g, J i k c v⟫_ℝ = ⟪den c t, v⟫_ℝ
  ra : ∀ i l s, (∀ g ∈ l, ok i g) → 2 ≤ l.length → reduceAdd l = some s → ok i s ∧ den i s = (l.map (den i)).sum

/-- The pairing of the gradients collected for a node with its velocity. -/
noncomputable def pr (den : (i : Nat) → T → E i) (vel : (i : Nat) → E i) (i : Nat) (l : List T) : ℝ :=
  (l.map fun g => ⟪den i g, vel i⟫_ℝ).sum

theorem pr_append (den : (i : Nat) → T → E i) (vel : (i : Nat) → E i) (i : Nat) (l l' : List T) :
    pr den vel i (l ++ l') = pr den vel i l + pr den vel i l' := by simp [pr]

theorem pr_sum (den : (i : Nat) → T → E i) (vel : (i : Nat) → E i) (i : Nat) (l : List T) :
    pr den vel i l = ⟪(l.map (den i)).sum, vel i⟫_ℝ := by
  induction l with
  | nil => simp [pr]
  | cons a l ih =>
    have : pr den vel i (a :: l) = ⟪den i a, vel i⟫_ℝ + pr den vel i l := by simp [pr]
    rw [this, ih, List.map_cons, List.sum_cons, inner_add_left]

/-- The gradients at the start fit. -/
theorem init_ok (ok : Nat → T → Prop) (l : List (Nat × T)) (gm : Nat → List T) (hl : ∀ o ∈ l, ok o.1 o.2)
    (h : ∀ j, ∀ g ∈ gm j, ok j g) : ∀ j, ∀ g ∈ l.foldl (fun gm o => upd gm o.1 [o.2]) gm j, ok j g := by
  induction l generalizing gm with
  | nil => exact h
  | cons o l ih =>
    refine ih _ (fun o' ho' => hl o' (List.mem_cons_of_mem _ ho')) ?_
    intro j g hg
    by_cases e : j = o.1
    · subst e
      simp only [upd, ↓reduceIte, List.mem_singleton] at hg
      rw [hg]; exact hl o (List.mem_cons_self ..)
    · simp only [upd, e, ↓reduceIte] at hg
      exact h j g hg

/-- The loop over the operands keeps the gradients fitting. -/
theorem push_ok (ok : Nat → T → Prop) (cs : List Nat) (ds : List Bool) (ts : List T) (gm gm' : Nat → List T)
    (h0 : ∀ j, ∀ g ∈ gm j, ok j g)
    (hts : ∀ (m c : Nat) (t : T), cs[m]? = some c → ds[m]? = some true → ts[m]? = some t → ok c t)
    (h : push gm cs ds ts = some gm') : ∀ j, ∀ g ∈ gm' j, ok j g := by
  induction cs generalizing ds ts gm with
  | nil => simp only [push, Option.some.injEq] at h; subst h; exact h0
  | cons c cs ih =>
    match ds, ts, h with
    | d :: ds, t :: ts, h =>
      rw [push] at h
      refine ih ds ts _ ?_ (fun m c' t' a b e => hts (m + 1) c' t' (by simpa using a) (by simpa using b) (by simpa using e)) h
      intro j g hg
      cases d with
      | false => exact h0 j g (by simpa using hg)
      | true =>
        simp only [↓reduceIte, upd] at hg
        by_cases e : j = c
        · subst e
          simp only [↓reduceIte, List.mem_append, List.mem_singleton] at hg
          rcases hg with hg | rfl
          · exact h0 j g hg
          · exact hts 0 j g (by simp) (by simp) (by simp)
        · simp only [e, ↓reduceIte] at hg
          exact h0 j g hg
    | [], _, h => cases h
    | _ :: _, [], h => cases h

/-- The effect of the loop over the operands. -/
theorem push_spec (den : (i : Nat) → T → E i) (vel : (i : Nat) → E i) (J : (i k j : Nat) → E j →ₗ[ℝ] E i) (i : Nat)
    (g : T) (n : Nat) (cs : List Nat) (ds : List Bool) (ts : List T) (k : Nat) (gm gm' : Nat → List T)
    (hcs : ∀ c ∈ cs, c < n)
    (hsd : ∀ m c t, cs[m]? = some c → ds[m]? = some true → ts[m]? = some t →
      ∀ v : E c, ⟪den i g, J i (k + m) c v⟫_ℝ = ⟪den c t, v⟫_ℝ)
    (h : push gm cs ds ts = some gm') :
    (∑ j ∈ Finset.range n, pr den vel j (gm' j) =
      ∑ j ∈ Finset.range n, pr den vel j (gm j) + ⟪den i g, jsum J vel i k cs ds⟫_ℝ) ∧
    (∀ j, gm j <+: gm' j) ∧
    (∀ j, (j, true) ∉ cs.zip ds → gm' j = gm j) ∧
    (∀ j, (j, true) ∈ cs.zip ds → gm' j ≠ []) := by
  induction cs generalizing ds ts k gm with
  | nil =>
    simp only [push, Option.some.injEq] at h
    subst h
    refine ⟨?_, fun j => List.prefix_rfl, fun _ _ => rfl, fun j hj => by simp at hj⟩
    cases ds <;> simp [jsum]
  | cons c cs ih =>
    match ds, ts, h with
    | [], _, h => simp [push] at h
    | _ :: _, [], h => simp [push] at h
    | d :: ds, t :: ts, h =>
      simp only [push] at h
      have hsd' : ∀ m c' t', cs[m]? = some c' → ds[m]? = some true → ts[m]? = some t' →
          ∀ v : E c', ⟪den i g, J i (k + 1 + m) c' v⟫_ℝ = ⟪den c' t', v⟫_ℝ := by
        intro m c' t' a b c'' v
        have := hsd (m + 1) c' t' (by simpa using a) (by simpa using b) (by simpa using c'') v
        rw [show k + 1 + m = k + (m + 1) by omega]; exact this
      obtain ⟨a1, a2, a3, a4⟩ := ih ds ts (k + 1) _ (fun c' hc' => hcs c' (List.mem_cons_of_mem _ hc')) hsd' h
      cases d with
      | false =>
        simp only [Bool.false_eq_true, ↓reduceIte] at a1 a2 a3
        refine ⟨by simpa [jsum] using a1, a2, fun j hj => a3 j (fun hm => hj (by simp [hm])), fun j hj => ?_⟩
        simp only [List.zip_cons_cons, List.mem_cons, Prod.mk.injEq, Bool.true_eq_false, and_false, false_or] at hj
        exact a4 j hj
      | true =>
        simp only [↓reduceIte] at a1 a2 a3
        have hupd : ∀ j, pr den vel j (upd gm c (gm c ++ [t]) j) =
            pr den vel j (gm j) + (if j = c then ⟪den c t, vel c⟫_ℝ else 0) := by
          intro j
          by_cases e : j = c
          · subst e; simp [upd, pr_append, pr]
          · simp [upd, e]
        refine ⟨?_, ?_, ?_, ?_⟩
        · rw [a1]
          simp only [hupd, Finset.sum_add_distrib, jsum, ↓reduceIte, inner_add_right]
          have hc : c ∈ Finset.range n := Finset.mem_range.2 (hcs c (List.mem_cons_self ..))
          have h0 := hsd 0 c t (by simp) (by simp) (by simp) (vel c)
          simp only [Nat.add_zero] at h0
          rw [h0]
          simp only [Finset.sum_ite_eq', hc, ↓reduceIte]
          ring
        · intro j
          refine List.IsPrefix.trans ?_ (a2 j)
          unfold upd
          by_cases e : j = c
          · subst e; simp
          · simp [e]
        · intro j hj
          simp only [List.zip_cons_cons, List.mem_cons, Prod.mk.injEq, and_true, not_or] at hj
          rw [a3 j hj.2]
          simp [upd, hj.1]
        · intro j hj
          simp only [List.zip_cons_cons, List.mem_cons, Prod.mk.injEq, and_true] at hj
          rcases hj with rfl | hj
          · intro h0
            have := a2 j
            rw [h0] at this
            simp [upd] at this
          · exact a4 j hj

/-- The state of the main loop after the first `k` nodes. `Φ` is the sum of all pairings. -/
structure BPInv (G : Gr) (ok : Nat → T → Prop) (F B : Nat → Bool) (den : (i : Nat) → T → E i) (vel : (i : Nat) → E i) (c : ℝ) (k : Nat)
    (s : BP T) : Prop where
  pot : ∑ j ∈ Finset.range G.length,
    (if j < k ∧ (G.node j).input = false then 0 else pr den vel j (s.gm j)) = c
  nonF : ∀ j, s.gm j ≠ [] → F j = true
  one : ∀ j, j < k → F j = true → B j = true → ∃ g, s.gm j = [g]
  fresh : ∀ j, k ≤ j → j < G.length → F j = true → B j = true → s.deriv j = none
  fits : ∀ j, ∀ g ∈ s.gm j, ok j g

theorem bpStep_inv (G : Gr) (W : GOK G) (ok : Nat → T → Prop) (F B : Nat → Bool) (den : (i : Nat) → T → E i)
    (J : (i k j : Nat) → E j →ₗ[ℝ] E i) (vel : (i : Nat) → E i) (wrt : List Nat) (hv : Tangent G J wrt vel)
    (symDiff : Nat → T → Option (List T)) (reduceAdd : List T → Option T)
    (hl : LocalOK G ok den J symDiff reduceAdd)
    (hF : ∀ i, i < G.length → F i = true → ∀ c, Dep G i c → F c = true)
    (hB0 : ∀ i, i < G.length → B i = false → vel i = 0)
    (c : ℝ) (k : Nat) (hk : k < G.length) (s s' : BP T) (I : BPInv G ok F B den vel c k s)
    (h : bpStep G (fun i => F i && B i) symDiff reduceAdd s k = some s') :
    BPInv G ok F B den vel c (k + 1) s' := by
  unfold bpStep at h
  -- the sum over `j < k+1`, when node `k` contributes nothing
  have drop : ∀ gm : Nat → List T, ((G.node k).input = false → pr den vel k (gm k) = 0) →
      ∑ j ∈ Finset.range G.length, (if j < k + 1 ∧ (G.node j).input = false then 0 else pr den vel j (gm j)) =
      ∑ j ∈ Finset.range G.length, (if j < k ∧ (G.node j).input = false then 0 else pr den vel j (gm j)) := by
    intro gm h0
    apply Finset.sum_congr rfl
    intro j _
    by_cases e : j = k
    · subst e
      simp only [Nat.lt_irrefl, false_and, if_false]
      cases hin : (G.node j).input with
      | false => simp [h0 hin]
      | true => simp
    · have : (j < k + 1) ↔ j < k := by omega
      simp only [this]
  split at h
  · rename_i hact
    replace hact : (F k && B k) = false := hact
    injection h with h; subst h
    refine ⟨?_, I.nonF, ?_, fun j hj hj' => I.fresh j (by omega) hj', I.fits⟩
    · rw [drop]; exact I.pot
      intro _
      cases hf : F k with
      | false =>
        have : s.gm k = [] := by
          by_contra hne
          have := I.nonF k hne; rw [hf] at this; cases this
        simp [this, pr]
      | true =>
        rw [hf, Bool.true_and] at hact
        rw [pr_sum, hB0 k hk hact, inner_zero_right]
    · intro j hj hfj hbj
      rcases Nat.lt_or_ge j k with hjk | hjk
      · exact I.one j hjk hfj hbj
      · have : j = k := by omega
        subst this
        rw [hfj, hbj] at hact; cases hact
  · rename_i hact
    have hFB : F k = true ∧ B k = true := by
      cases hf : F k <;> cases hb : B k <;> simp [hf, hb] at hact ⊢
    rw [I.fresh k (Nat.le_refl _) hk hFB.1 hFB.2] at h
    simp only at h
    split at h
    · cases h
    · rename_i g hg
      -- node k has one gradient, with the same pairing
      have hpk : ok k g ∧ pr den vel k [g] = pr den vel k (s.gm k) := by
        revert hg
        unfold collect
        split
        · intro h; cases h
        · rename_i g' e; intro h; injection h with h; subst h; rw [e]; exact ⟨I.fits k g' (by simp [e]), rfl⟩
        · rename_i l e1 e2
          intro h
          have hra : ok k g ∧ den k g = ((s.gm k).map (den k)).sum := by
            refine hl.ra k _ g (I.fits k) ?_ h
            match hm : s.gm k with
            | [] => exact absurd hm e1
            | [a] => exact absurd hm (e2 a)
            | _ :: _ :: _ => simp
          refine ⟨hra.1, ?_⟩
          rw [pr_sum, pr_sum, ← hra.2]; simp
      obtain ⟨hgok, hpk⟩ := hpk
      have hfits1 : ∀ j, ∀ g' ∈ upd s.gm k [g] j, ok j g' := by
        intro j g' hg'
        by_cases e : j = k
        · subst e
          simp only [upd, ↓reduceIte, List.mem_singleton] at hg'
          rw [hg']; exact hgok
        · simp only [upd, e, ↓reduceIte] at hg'
          exact I.fits j g' hg'
      have hpot1 : ∑ j ∈ Finset.range G.length,
          (if j < k ∧ (G.node j).input = false then 0 else pr den vel j (upd s.gm k [g] j)) = c := by
        rw [← I.pot]
        apply Finset.sum_congr rfl
        intro j _
        by_cases e : j = k
        · subst e; simp [upd, hpk]
        · simp [upd, e]
      have hone1 : ∀ j, j < k + 1 → F j = true → B j = true → ∃ g', upd s.gm k [g] j = [g'] := by
        intro j hj hf hb
        by_cases e : j = k
        · subst e; exact ⟨g, by simp [upd]⟩
        · obtain ⟨g', hg'⟩ := I.one j (by omega) hf hb
          exact ⟨g', by simp [upd, e, hg']⟩
      have hnonF1 : ∀ j, upd s.gm k [g] j ≠ [] → F j = true := by
        intro j hj
        by_cases e : j = k
        · subst e; exact hFB.1
        · simp only [upd, e, ↓reduceIte] at hj; exact I.nonF j hj
      have hfresh1 : ∀ j, k + 1 ≤ j → j < G.length → F j = true → B j = true →
          upd s.deriv k (some g) j = none := by
        intro j hj hj' hf' hb'
        simp only [upd, show j ≠ k by omega, ↓reduceIte]
        exact I.fresh j (by omega) hj' hf' hb'
      split at h
      · rename_i hin
        injection h with h; subst h
        refine ⟨?_, hnonF1, hone1, hfresh1, hfits1⟩
        simp only
        rw [drop _ (fun h0 => by rw [hin] at h0; cases h0)]
        exact hpot1
      · rename_i hin
        have hin : (G.node k).input = false := by simpa using hin
        split at h
        · cases h
        · rename_i ts hts
          split at h
          · cases h
          · rename_i gm' hpush
            injection h with h; subst h
            have hlt := fun c hc => (W.after k hk c hc)
            obtain ⟨p1, p2, p3, p4⟩ := push_spec den vel J k g G.length _ _ ts 0 _ gm'
              (fun c hc => (hlt c hc).2)
              (fun m c t a b d v => by rw [Nat.zero_add]; exact (hl.sd k g ts hk hgok hts m c t a b d).2 v) hpush
            have hpre : ∀ j, j ≤ k → gm' j = upd s.gm k [g] j := by
              intro j hj
              apply p3
              intro hm
              have := (hlt j (List.of_mem_zip hm).1).1
              omega
            refine ⟨?_, ?_, ?_, hfresh1, push_ok ok _ _ ts _ gm' hfits1
              (fun m c t a b d => (hl.sd k g ts hk hgok hts m c t a b d).1) hpush⟩
            · simp only
              -- split off the finished non-input nodes, which `push` does not touch
              have e1 : ∀ gm : Nat → List T, ∑ j ∈ Finset.range G.length,
                  (if j < k + 1 ∧ (G.node j).input = false then 0 else pr den vel j (gm j)) =
                  ∑ j ∈ Finset.range G.length, pr den vel j (gm j) - ∑ j ∈ Finset.range G.length,
                    (if j < k + 1 ∧ (G.node j).input = false then pr den vel j (gm j) else 0) := by
                intro gm
                rw [← Finset.sum_sub_distrib]
                apply Finset.sum_congr rfl
                intro j _
                split <;> simp
              have e2 : ∑ j ∈ Finset.range G.length,
                  (if j < k + 1 ∧ (G.node j).input = false then pr den vel j (gm' j) else 0) =
                  ∑ j ∈ Finset.range G.length,
                  (if j < k + 1 ∧ (G.node j).input = false then pr den vel j (upd s.gm k [g] j) else 0) := by
                apply Finset.sum_congr rfl
                intro j _
                split
                · rename_i hj; rw [hpre j (by omega)]
                · rfl
              rw [e1, e2, p1, ← hv.op k hk hin]
              rw [← hpot1]
              have e3 : ∑ j ∈ Finset.range G.length,
                  (if j < k ∧ (G.node j).input = false then 0 else pr den vel j (upd s.gm k [g] j)) =
                  ∑ j ∈ Finset.range G.length,
                  (if j < k + 1 ∧ (G.node j).input = false then 0 else pr den vel j (upd s.gm k [g] j)) +
                  ⟪den k g, vel k⟫_ℝ := by
                have hone : ⟪den k g, vel k⟫_ℝ = ∑ j ∈ Finset.range G.length,
                    (if j = k then ⟪den k g, vel k⟫_ℝ else 0) := by
                  rw [Finset.sum_ite_eq' (Finset.range G.length) k (fun _ => ⟪den k g, vel k⟫_ℝ)]
                  rw [if_pos (Finset.mem_range.2 hk)]
                rw [hone, ← Finset.sum_add_distrib]
                apply Finset.sum_congr rfl
                intro j _
                by_cases e : j = k
                · subst e; simp [upd, pr, hin]
                · have : (j < k + 1) ↔ j < k := by omega
                  simp only [this, e, if_false, add_zero]
              rw [e3, e1]
              ring
            · intro j hj
              simp only at hj
              by_cases hm : (j, true) ∈ (G.node k).children.zip (G.node k).diffs
              · exact hF k hk hFB.1 j hm
              · rw [p3 j hm] at hj; exact hnonF1 j hj
            · intro j hj hf hb
              simp only
              rw [hpre j (by omega)]
              exact hone1 j hj hf hb

/-- `nodeGradMap` at the start. -/
theorem init_spec (den : (i : Nat) → T → E i) (vel : (i : Nat) → E i) (n : Nat) (outs : List (Nat × T))
    (hnd : (outs.map (·.1)).Nodup) (hlt : ∀ o ∈ outs, o.1 < n) (gm : Nat → List T)
    (h0 : ∀ o ∈ outs, gm o.1 = []) :
    (∑ j ∈ Finset.range n, pr den vel j (outs.foldl (fun gm o => upd gm o.1 [o.2]) gm j) =
      ∑ j ∈ Finset.range n, pr den vel j (gm j) + (outs.map fun o => ⟪den o.1 o.2, vel o.1⟫_ℝ).sum) ∧
    (∀ j, outs.foldl (fun gm o => upd gm o.1 [o.2]) gm j ≠ [] ↔ gm j ≠ [] ∨ j ∈ outs.map (·.1)) := by
  induction outs generalizing gm with
  | nil => simp
  | cons o outs ih =>
    simp only [List.map_cons, List.nodup_cons] at hnd
    have h0' : ∀ o' ∈ outs, upd gm o.1 [o.2] o'.1 = [] := by
      intro o' ho'
      have hne : o'.1 ≠ o.1 := fun e => hnd.1 (e ▸ List.mem_map_of_mem ho')
      simp only [upd, hne, ↓reduceIte]
      exact h0 o' (List.mem_cons_of_mem _ ho')
    obtain ⟨a, b⟩ := ih hnd.2 (fun o' ho' => hlt o' (List.mem_cons_of_mem _ ho')) _ h0'
    constructor
    · rw [List.foldl_cons, a]
      have hu : ∀ j, pr den vel j (upd gm o.1 [o.2] j) =
          pr den vel j (gm j) + (if j = o.1 then ⟪den o.1 o.2, vel o.1⟫_ℝ else 0) := by
        intro j
        by_cases e : j = o.1
        · subst e; simp [upd, h0 o (List.mem_cons_self ..), pr]
        · simp [upd, e]
      simp only [hu, Finset.sum_add_distrib, List.map_cons, List.sum_cons]
      have hm : o.1 ∈ Finset.range n := Finset.mem_range.2 (hlt o (List.mem_cons_self ..))
      simp only [Finset.sum_ite_eq', hm, ↓reduceIte]
      ring
    · intro j
      rw [List.foldl_cons, b]
      simp only [upd, List.map_cons, List.mem_cons]
      by_cases e : j = o.1 <;> simp [e]

theorem foldlM_range_inv {σ : Type} (P : Nat → σ → Prop) (f : σ → Nat → Option σ) (n : Nat) (s0 s' : σ)
    (h0 : P 0 s0) (hs : ∀ k s t, k < n → P k s → f s k = some t → P (k + 1) t)
    (h : (List.range n).foldlM f s0 = some s') : P n s' := by
  have key : ∀ k t, k ≤ n → (List.range k).foldlM f s0 = some t → P k t := by
    intro k
    induction k with
    | zero => intro t _ ht; simp only [List.range_zero, List.foldlM_nil] at ht; injection ht with ht; exact ht ▸ h0
    | succ k ih =>
      intro t hk ht
      rw [List.range_succ, List.foldlM_append] at ht
      cases h1 : (List.range k).foldlM f s0 with
      | none => rw [h1] at ht; cases ht
      | some t1 =>
        rw [h1] at ht
        have h2 : (f t1 k).bind some = some t := by simpa using ht
        exact hs k t1 t (by omega) (ih t1 (by omega) h1) (by simpa using h2)
  exact key n s' (Nat.le_refl _) h

theorem mapM_head (gm : Nat → List T) (ws : List Nat) (res : List T)
    (h : ws.mapM (fun w => (gm w).head?) = some res) :
    res.length = ws.length ∧ ∀ (m w : Nat), ws[m]? = some w → ∃ t, res[m]? = some t ∧ (gm w).head? = some t := by
  induction ws generalizing res with
  | nil => simp at h; subst h; simp
  | cons w ws ih =>
    rw [List.mapM_cons] at h
    cases h1 : (gm w).head? with
    | none => rw [h1] at h; cases h
    | some t =>
      rw [h1] at h
      cases h2 : ws.mapM (fun w => (gm w).head?) with
      | none => rw [h2] at h; cases h
      | some r =>
        rw [h2] at h
        have : t :: r = res := by simpa using h
        subst this
        obtain ⟨a, b⟩ := ih r h2
        refine ⟨by simp [a], ?_⟩
        intro m w' hm
        cases m with
        | zero => simp at hm; subst hm; exact ⟨t, by simp, h1⟩
        | succ m => simpa using b m w' (by simpa using hm)

/-- **C17, the algorithm.** If no node between the outputs and `wrt` carries a derivative from an earlier call, whenever
`Backpropagate` succeeds its results are the adjoint of the derivative of the whole graph: for every velocity of the
inputs `wrt` the velocity of the outputs paired with the output gradients is the velocity of `wrt` paired with the
returned gradients. This holds whatever operands are shared, and needs only that each op's `SymDiff` is the adjoint of
the derivative of that op. -/
theorem backprop_adjoint [Inhabited T] (G : Gr) (W : GOK G) (users : Nat → Nat) (ok : Nat → T → Prop) (den : (i : Nat) → T → E i)
    (J : (i k j : Nat) → E j →ₗ[ℝ] E i) (symDiff : Nat → T → Option (List T)) (reduceAdd : List T → Option T)
    (hl : LocalOK G ok den J symDiff reduceAdd) (deriv : Nat → Option T)
    (outs : List (Nat × T)) (hok : ∀ o ∈ outs, ok o.1 o.2) (houts : (outs.map (·.1)).Nodup) (hlt : ∀ o ∈ outs, o.1 < G.length)
    (wrt : List Nat) (hwi : ∀ w ∈ wrt, w < G.length ∧ (G.node w).input = true)
    (hd : ∀ i, (∃ o ∈ outs, Reach G o.1 i) → (∃ w ∈ wrt, Reach G i w) → deriv i = none)
    (res : List T) (deriv' : Nat → Option T)
    (h : backprop G users symDiff reduceAdd deriv outs wrt = some (res, deriv')) :
    ∃ r : Nat → T, res = wrt.map r ∧ (∀ w ∈ wrt, ok w (r w)) ∧ ∀ vel : (i : Nat) → E i, Tangent G J wrt vel →
      (outs.map fun o => ⟪den o.1 o.2, vel o.1⟫_ℝ).sum = ∑ w ∈ wrt.toFinset, ⟪den w (r w), vel w⟫_ℝ := by
  unfold backprop at h
  cases hF : forward G (outs.map (·.1)) with
  | none => rw [hF] at h; cases h
  | some F =>
  rw [hF] at h
  cases hB : backward G users wrt with
  | none => rw [hB] at h; cases h
  | some B =>
  rw [hB] at h
  simp only [Option.bind_eq_bind, Option.bind_some] at h
  split at h
  · cases h
  rename_i hwF
  split at h
  · cases h
  rename_i hoB
  have hwF : ∀ w ∈ wrt, F w = true := by simpa using hwF
  obtain ⟨F1, F2, F3⟩ := forward_spec G W _ F hF
  obtain ⟨B1, B2, B3⟩ := backward_spec G W users _ B hB
  rw [Option.bind_eq_some_iff] at h
  obtain ⟨s, hs, h⟩ := h
  rw [Option.bind_eq_some_iff] at h
  obtain ⟨r, hr, h⟩ := h
  simp only [Option.some.injEq, Prod.mk.injEq] at h
  obtain ⟨rfl, rfl⟩ := h
  suffices main : ∀ vel : (i : Nat) → E i, Tangent G J wrt vel →
      (∀ w ∈ wrt, ok w (((s.gm w).head?).getD default)) ∧
      (outs.map fun o => ⟪den o.1 o.2, vel o.1⟫_ℝ).sum =
        ∑ w ∈ wrt.toFinset, ⟪den w (((s.gm w).head?).getD default), vel w⟫_ℝ by
    refine ⟨fun w => ((s.gm w).head?).getD default, ?_, (main (fun _ => 0) ⟨fun i _ _ => ?_, fun _ _ _ => rfl⟩).1,
      fun vel hv => (main vel hv).2⟩
    · obtain ⟨hlen, hres⟩ := mapM_head _ _ _ hr
      apply List.ext_getElem
      · simp [hlen]
      · intro m h1 h2
        obtain ⟨t, ht, hh⟩ := hres m (wrt[m]'(by omega)) (by rw [List.getElem?_eq_getElem])
        rw [List.getElem?_eq_getElem h1] at ht
        injection ht with ht
        rw [List.getElem_map, hh, ht]; rfl
    · have gen : ∀ cs ds k, jsum J (fun _ => 0) i k cs ds = 0 := by
        intro cs
        induction cs with
        | nil => intro ds k; cases ds <;> rfl
        | cons c cs ih =>
          intro ds k
          cases ds with
          | nil => rfl
          | cons d ds => rw [jsum, ih]; simp
      exact (gen _ _ 0).symm
  intro vel hv
  -- nodes outside the backward set stand still
  have hB0 : ∀ i, i < G.length → B i = false → vel i = 0 := by
    have : ∀ m i, G.length - i ≤ m → i < G.length → B i = false → vel i = 0 := by
      intro m
      induction m with
      | zero => intro i a b; omega
      | succ m ih =>
        intro i hm hi hb
        cases hin : (G.node i).input with
        | true =>
          apply hv.still i hin
          intro hw'; have := B1 i hw'; rw [hb] at this; cases this
        | false =>
          rw [hv.op i hi hin]
          have hz : ∀ c, Dep G i c → vel c = 0 := by
            intro c hc
            have hlt := hc.lt W
            apply ih c (by omega) hlt.2
            cases hbc : B c with
            | false => rfl
            | true => have := B2 i hi c hc hbc; rw [hb] at this; cases this
          have gen : ∀ cs ds k, (∀ c, (c, true) ∈ List.zip cs ds → vel c = 0) → jsum J vel i k cs ds = 0 := by
            intro cs
            induction cs with
            | nil => intro ds k _; cases ds <;> rfl
            | cons c cs ihc =>
              intro ds k hz
              cases ds with
              | nil => rfl
              | cons d ds =>
                rw [jsum, ihc ds (k + 1) (fun c' hc' => hz c' (by simp [hc']))]
                cases d with
                | false => simp
                | true => simp [hz c (by simp)]
          exact gen _ _ 0 hz
    intro i hi; exact this _ i (Nat.le_refl _) hi
  obtain ⟨g1, g2⟩ := init_spec den vel G.length outs houts hlt (fun _ => []) (fun _ _ => rfl)
  have I0 : BPInv G ok F B den vel (outs.map fun o => ⟪den o.1 o.2, vel o.1⟫_ℝ).sum 0
      ⟨outs.foldl (fun gm o => upd gm o.1 [o.2]) (fun _ => []), deriv⟩ := by
    refine ⟨?_, ?_, fun j hj => by omega, fun j _ _ hf hb => hd j ?_ ?_, init_ok ok outs _ hok (by simp)⟩
    · simp only [Nat.not_lt_zero, false_and, if_false]
      rw [g1]; simp [pr]
    · intro j hj
      rcases (g2 j).1 hj with h | h
      · exact absurd rfl h
      · exact F1 j h
    · obtain ⟨o, ho, hr'⟩ := (forward_reach G W _ F hF j).1 hf
      obtain ⟨o', ho', rfl⟩ := List.mem_map.1 ho
      exact ⟨o', ho', hr'⟩
    · exact (backward_reach G W users wrt B hB j).1 hb
  have I := foldlM_range_inv (fun k t => BPInv G ok F B den vel _ k t) _ G.length _ s I0
    (fun k s t hk hI ht => bpStep_inv G W ok F B den J vel wrt hv symDiff reduceAdd hl F2 hB0 _ k hk s t hI ht) hs
  have hone : ∀ w ∈ wrt, ∃ g, s.gm w = [g] := by
    intro w hw'
    exact I.one w (hwi w hw').1 (hwF w hw') (B1 w hw')
  refine ⟨fun w hw' => ?_, ?_⟩
  · obtain ⟨g, hg⟩ := hone w hw'
    rw [hg]
    exact I.fits w g (by simp [hg])
  rw [← I.pot]
  -- only `wrt` contributes
  have e1 : ∑ j ∈ Finset.range G.length,
      (if j < G.length ∧ (G.node j).input = false then 0 else pr den vel j (s.gm j)) =
      ∑ j ∈ Finset.range G.length, (if j ∈ wrt then pr den vel j (s.gm j) else 0) := by
    apply Finset.sum_congr rfl
    intro j hj
    have hj := Finset.mem_range.1 hj
    by_cases hjw : j ∈ wrt
    · simp [hjw, (hwi j hjw).2]
    · rw [if_neg hjw]
      split
      · rfl
      · rename_i hc
        have hin : (G.node j).input = true := by
          cases hin : (G.node j).input with
          | true => rfl
          | false => exact absurd ⟨hj, hin⟩ hc
        rw [pr_sum, hv.still j hin hjw, inner_zero_right]
  rw [e1, ← Finset.sum_filter]
  have e2 : (Finset.range G.length).filter (· ∈ wrt) = wrt.toFinset := by
    ext j
    simp only [Finset.mem_filter, Finset.mem_range, List.mem_toFinset]
    exact ⟨fun h => h.2, fun h => ⟨(hwi j h).1, h⟩⟩
  rw [e2]
  apply Finset.sum_congr rfl
  intro j hj
  obtain ⟨g, hg⟩ := hone j (List.mem_toFinset.1 hj)
  show _ = ⟪den j (((s.gm j).head?).getD default), vel j⟫_ℝ
  rw [hg]; simp [pr]

end

/-! ### When it succeeds -/

section
variable {T : Type}

theorem push_total (cs : List Nat) (ds : List Bool) (ts : List T) (gm : Nat → List T) (h1 : cs.length ≤ ds.length)
    (h2 : cs.length ≤ ts.length) : ∃ gm', push gm cs ds ts = some gm' ∧ (∀ j, gm j <+: gm' j) ∧
      ∀ j, (j, true) ∈ cs.zip ds → gm' j ≠ [] := by
  induction cs generalizing ds ts gm with
  | nil => exact ⟨gm, rfl, fun _ => List.prefix_rfl, fun j hj => by simp at hj⟩
  | cons c cs ih =>
    match ds, ts, h1, h2 with
    | d :: ds, t :: ts, h1, h2 =>
      simp only [List.length_cons, Nat.add_le_add_iff_right] at h1 h2
      obtain ⟨gm', a, b, e⟩ := ih ds ts (if d then upd gm c (gm c ++ [t]) else gm) h1 h2
      refine ⟨gm', a, fun j => List.IsPrefix.trans ?_ (b j), fun j hj => ?_⟩
      · cases d with
        | false => simp
        | true =>
          simp only [↓reduceIte, upd]
          by_cases e : j = c
          · subst e; simp
          · simp [e]
      · simp only [List.zip_cons_cons, List.mem_cons, Prod.mk.injEq] at hj
        rcases hj with ⟨rfl, rfl⟩ | hj
        · intro h0
          have := b j
          rw [h0] at this
          simp [upd] at this
        · exact e j hj

/-- **C17.** `Backpropagate`, when no node between the outputs and `wrt` carries an earlier derivative, fails only if the analyses fail, an output does not
depend on `wrt`, or a member of `wrt` does not affect an output, provided the ops' `SymDiff` do not fail. In
particular "No gradients found" never happens. -/
theorem backprop_succeeds (G : Gr) (W : GOK G) (users : Nat → Nat)
    (symDiff : Nat → T → Option (List T)) (reduceAdd : List T → Option T) (deriv : Nat → Option T)
    (outs : List (Nat × T)) (wrt : List Nat) (ok : Nat → T → Prop) (hok : ∀ o ∈ outs, ok o.1 o.2)
    (hd : ∀ i, (∃ o ∈ outs, Reach G o.1 i) → (∃ w ∈ wrt, Reach G i w) → deriv i = none)
    (hlt : ∀ w ∈ wrt, w < G.length)
    (F B : Nat → Bool) (hF : forward G (outs.map (·.1)) = some F) (hB : backward G users wrt = some B)
    (hwF : ∀ w ∈ wrt, F w = true) (hoB : ∀ o ∈ outs, B o.1 = true)
    (hsd : ∀ i g, i < G.length → (G.node i).input = false → F i = true → B i = true → i ∉ wrt → ok i g →
      ∃ ts, symDiff i g = some ts ∧ (G.node i).children.length ≤ ts.length ∧
      (G.node i).children.length ≤ (G.node i).diffs.length ∧ ∀ (k c : Nat) (t : T), (G.node i).children[k]? = some c →
        (G.node i).diffs[k]? = some true → ts[k]? = some t → ok c t)
    (hwi : ∀ w ∈ wrt, (G.node w).input = true)
    (hra : ∀ i l, (∀ g ∈ l, ok i g) → 2 ≤ l.length → ∃ s, reduceAdd l = some s ∧ ok i s) :
    ∃ r, backprop G users symDiff reduceAdd deriv outs wrt = some r := by
  obtain ⟨F1, F2, F3⟩ := forward_spec G W _ F hF
  obtain ⟨B1, B2, B3⟩ := backward_spec G W users _ B hB
  have hg0 : ∀ (l : List (Nat × T)) (gm : Nat → List T) (j : Nat), (gm j ≠ [] ∨ j ∈ l.map (·.1)) →
      l.foldl (fun gm o => upd gm o.1 [o.2]) gm j ≠ [] := by
    intro l
    induction l with
    | nil => intro gm j h; simpa using h
    | cons o l ih =>
      intro gm j h
      apply ih
      by_cases e : j = o.1
      · left; simp [upd, e]
      · rcases h with h | h
        · left; simpa [upd, e] using h
        · right
          simp only [List.map_cons, List.mem_cons, e, false_or] at h
          exact h
  have key : ∀ k, k ≤ G.length → ∃ s : BP T,
      (List.range k).foldlM (bpStep G (fun i => F i && B i) symDiff reduceAdd)
        ⟨outs.foldl (fun gm o => upd gm o.1 [o.2]) (fun _ => []), deriv⟩ = some s ∧
      (∀ o ∈ outs.map (·.1), s.gm o ≠ []) ∧
      (∀ p, p < k → F p = true → B p = true → ∀ c, Dep G p c → s.gm c ≠ []) ∧
      (∀ j, k ≤ j → F j = true → B j = true → s.deriv j = none) ∧
      (∀ j, j < k → F j = true → B j = true → s.gm j ≠ []) ∧ (∀ j, ∀ g ∈ s.gm j, ok j g) := by
    intro k
    induction k with
    | zero =>
      intro _
      refine ⟨_, rfl, fun o ho => hg0 outs _ o (.inr ho), fun p hp => by omega, fun j _ hf hb => hd j ?_ ?_,
        fun j hj => by omega, init_ok ok outs _ hok (by simp)⟩
      · obtain ⟨o, ho, hr'⟩ := (forward_reach G W _ F hF j).1 hf
        obtain ⟨o', ho', rfl⟩ := List.mem_map.1 ho
        exact ⟨o', ho', hr'⟩
      · exact (backward_reach G W users wrt B hB j).1 hb
    | succ k ih =>
      intro hk
      obtain ⟨s, h1, h2, h3, h4, h5, h6⟩ := ih (by omega)
      rw [List.range_succ, List.foldlM_append, h1]
      suffices hstep : ∃ s', bpStep G (fun i => F i && B i) symDiff reduceAdd s k = some s' ∧
          (∀ j, s.gm j ≠ [] → s'.gm j ≠ []) ∧
          (F k = true → B k = true → s'.gm k ≠ [] ∧ ∀ c, Dep G k c → s'.gm c ≠ []) ∧
          (∀ j, k + 1 ≤ j → F j = true → B j = true → s'.deriv j = none) ∧ (∀ j, ∀ g ∈ s'.gm j, ok j g) by
        obtain ⟨s', a, b, c, d, e⟩ := hstep
        refine ⟨s', by simp [a], fun o ho => b o (h2 o ho), ?_, d, ?_, e⟩
        · intro p hp hf hb c' hd'
          rcases Nat.lt_or_ge p k with hpk | hpk
          · exact b c' (h3 p hpk hf hb c' hd')
          · have : p = k := by omega
            subst this; exact (c hf hb).2 c' hd'
        · intro j hj hf hb
          rcases Nat.lt_or_ge j k with hpk | hpk
          · exact b j (h5 j hpk hf hb)
          · have : j = k := by omega
            subst this; exact (c hf hb).1
      unfold bpStep
      cases hfb : (F k && B k) with
      | false =>
        refine ⟨s, by simp [hfb], fun _ h => h, fun hf hb => ?_, fun j hj => h4 j (by omega), h6⟩
        rw [hf, hb] at hfb; cases hfb
      | true =>
        have hf : F k = true := by cases hf : F k <;> simp [hf] at hfb ⊢
        have hb : B k = true := by cases hb : B k <;> simp [hb] at hfb ⊢
        simp only [hfb, Bool.true_eq_false, ↓reduceIte, h4 k (Nat.le_refl _) hf hb]
        have hne : s.gm k ≠ [] := by
          rcases F3 k hf with ho | ⟨p, hp, hfp, hdp⟩
          · exact h2 k ho
          · have hpk := (hdp.lt W).1
            exact h3 p hpk hfp (B2 p hp k hdp hb) k hdp
        have hg : ∃ g, collect reduceAdd (s.gm k) = some g ∧ ok k g := by
          match hm : s.gm k with
          | [] => exact absurd hm hne
          | [g] => exact ⟨g, rfl, h6 k g (by simp [hm])⟩
          | a :: b :: l =>
            obtain ⟨g, hg, hgo⟩ := hra k (a :: b :: l) (fun g hg => h6 k g (by rw [hm]; exact hg)) (by simp)
            exact ⟨g, hg, hgo⟩
        obtain ⟨g, hg, hgo⟩ := hg
        have hfits1 : ∀ j, ∀ g' ∈ upd s.gm k [g] j, ok j g' := by
          intro j g' hg'
          by_cases e : j = k
          · subst e
            simp only [upd, ↓reduceIte, List.mem_singleton] at hg'
            rw [hg']; exact hgo
          · simp only [upd, e, ↓reduceIte] at hg'
            exact h6 j g' hg'
        rw [hg]
        simp only
        have hup : ∀ j, s.gm j ≠ [] → upd s.gm k [g] j ≠ [] := by
          intro j hj; unfold upd; split
          · simp
          · exact hj
        have hdr : ∀ j, k + 1 ≤ j → F j = true → B j = true → upd s.deriv k (some g) j = none := by
          intro j hj hf' hb'
          simp only [upd, show j ≠ k by omega, ↓reduceIte]
          exact h4 j (by omega) hf' hb'
        cases hin : (G.node k).input with
        | true =>
          refine ⟨_, rfl, hup, fun _ _ => ⟨by simp [upd], fun c hc => ?_⟩, hdr, hfits1⟩
          have := hc.mem; rw [W.leaf k hin] at this; simp at this
        | false =>
          have hkw : k ∉ wrt := by
            intro h; have := hwi k h; rw [hin] at this; cases this
          obtain ⟨ts, t1, t2, t3, t4⟩ := hsd k g (by omega) hin hf hb hkw hgo
          obtain ⟨gm', p1, p2, p3⟩ := push_total _ _ ts (upd s.gm k [g]) t3 t2
          have hpre : ∀ j, upd s.gm k [g] j ≠ [] → gm' j ≠ [] := by
            intro j hj h0
            have := p2 j
            rw [h0] at this
            exact hj (by simpa using this)
          refine ⟨⟨gm', upd s.deriv k (some g)⟩, ?_, fun j hj => hpre j (hup j hj),
            fun _ _ => ⟨hpre k (by simp [upd]), p3⟩, hdr, push_ok ok _ _ ts _ gm' hfits1 t4 p1⟩
          simp only [Bool.false_eq_true, ↓reduceIte]
          rw [t1]
          simp only
          rw [p1]
  obtain ⟨s, h1, _, _, _, h5, _⟩ := key G.length (Nat.le_refl _)
  unfold backprop
  rw [hF, hB]
  have hwF' : ¬ wrt.all F = false := by simpa using hwF
  have hoB' : ¬ (outs.map (·.1)).all B = false := by
    simp only [Bool.not_eq_false, List.all_eq_true, List.mem_map, forall_exists_index, and_imp]
    rintro _ o ho rfl
    exact hoB o ho
  simp only [Option.bind_eq_bind, Option.bind_some, if_neg hwF', if_neg hoB']
  rw [h1]
  simp only [Option.bind_some]
  have hm : ∃ res, wrt.mapM (fun w => (s.gm w).head?) = some res := by
    have : ∀ ws : List Nat, (∀ w ∈ ws, s.gm w ≠ []) → ∃ res, ws.mapM (fun w => (s.gm w).head?) = some res := by
      intro ws
      induction ws with
      | nil => intro _; exact ⟨[], by simp⟩
      | cons w ws ih =>
        intro hw
        obtain ⟨res, hr⟩ := ih (fun w' hw' => hw w' (List.mem_cons_of_mem _ hw'))
        match hs : s.gm w with
        | [] => exact absurd hs (hw w (List.mem_cons_self ..))
        | t :: l => exact ⟨t :: res, by simp [List.mapM_cons, hs, hr]⟩
    exact this wrt (fun w hw => h5 w (hlt w hw) (hwF w hw) (B1 w hw))
  obtain ⟨res, hr⟩ := hm
  rw [hr]
  exact ⟨_, rfl⟩

/-! ### What it leaves behind -/

theorem push_other (cs : List Nat) (ds : List Bool) (ts : List T) (gm gm' : Nat → List T)
    (h : push gm cs ds ts = some gm') (j : Nat) (hj : j ∉ cs) : gm' j = gm j := by
  induction cs generalizing ds ts gm with
  | nil => simp only [push, Option.some.injEq] at h; rw [h]
  | cons c cs ih =>
    match ds, ts, h with
    | [], _, h => simp [push] at h
    | _ :: _, [], h => simp [push] at h
    | d :: ds, t :: ts, h =>
      simp only [push] at h
      simp only [List.mem_cons, not_or] at hj
      rw [ih ds ts _ h hj.2]
      cases d <;> simp [upd, hj.1]

/-- **C18.** The `deriv` fields after `Backpropagate`: a node that is not between the outputs and `wrt` keeps what it
had; a node between them that had none gets one; a node of `wrt` that had none gets the gradient that is returned. -/
theorem backprop_leaves (G : Gr) (W : GOK G) (users : Nat → Nat)
    (symDiff : Nat → T → Option (List T)) (reduceAdd : List T → Option T) (deriv : Nat → Option T)
    (outs : List (Nat × T)) (wrt : List Nat) (hlt : ∀ w ∈ wrt, w < G.length) (res : List T) (deriv' : Nat → Option T)
    (h : backprop G users symDiff reduceAdd deriv outs wrt = some (res, deriv')) :
    (∀ j, ¬ ((∃ o ∈ outs, Reach G o.1 j) ∧ ∃ w ∈ wrt, Reach G j w) → deriv' j = deriv j) ∧
    (∀ j, j < G.length → (∃ o ∈ outs, Reach G o.1 j) → (∃ w ∈ wrt, Reach G j w) → ∃ g, deriv' j = some g) ∧
    (∀ (k w : Nat) (t : T), wrt[k]? = some w → res[k]? = some t → deriv w = none → deriv' w = some t) := by
  unfold backprop at h
  cases hF : forward G (outs.map (·.1)) with
  | none => rw [hF] at h; cases h
  | some F =>
  rw [hF] at h
  cases hB : backward G users wrt with
  | none => rw [hB] at h; cases h
  | some B =>
  rw [hB] at h
  simp only [Option.bind_eq_bind, Option.bind_some] at h
  split at h
  · cases h
  rename_i hwF
  split at h
  · cases h
  rename_i hoB
  have hwF : ∀ w ∈ wrt, F w = true := by simpa using hwF
  have hFr := forward_reach G W _ F hF
  have hBr := backward_reach G W users wrt B hB
  rw [Option.bind_eq_some_iff] at h
  obtain ⟨s, hs, h⟩ := h
  rw [Option.bind_eq_some_iff] at h
  obtain ⟨r, hr, h⟩ := h
  simp only [Option.some.injEq, Prod.mk.injEq] at h
  obtain ⟨rfl, rfl⟩ := h
  have I := foldlM_range_inv (fun k (t : BP T) =>
      (∀ j, (j < k → ¬ (F j = true ∧ B j = true)) → t.deriv j = deriv j) ∧
      (∀ j, j < k → F j = true → B j = true → ∃ g, t.deriv j = some g ∧ (deriv j = none → t.gm j = [g])))
    _ G.length _ s ⟨fun _ _ => rfl, fun j hj => by omega⟩ ?_ hs
  · obtain ⟨I1, I2⟩ := I
    have hact : ∀ j, ((∃ o ∈ outs, Reach G o.1 j) ∧ ∃ w ∈ wrt, Reach G j w) ↔ (F j = true ∧ B j = true) := by
      intro j
      rw [hFr, hBr]
      simp
    refine ⟨fun j hj => I1 j (fun _ hc => hj ((hact j).2 hc)), fun j hl h1 h2 => ?_, ?_⟩
    · obtain ⟨a, b⟩ := (hact j).1 ⟨h1, h2⟩
      obtain ⟨g, hg, _⟩ := I2 j hl a b
      exact ⟨g, hg⟩
    · intro k w t hk ht hn
      have hw := List.mem_of_getElem? hk
      obtain ⟨g, hg, hgm⟩ := I2 w (hlt w hw) (hwF w hw) ((hBr w).2 ⟨w, hw, .refl⟩)
      obtain ⟨_, hres⟩ := mapM_head _ _ _ hr
      obtain ⟨t', h1, h2⟩ := hres k w hk
      rw [hgm hn] at h2
      rw [ht] at h1
      rw [hg]
      simp only [List.head?_cons, Option.some.injEq] at h2 h1 ⊢
      rw [h2, h1]
  · rintro k s t hk ⟨i1, i2⟩ hst
    unfold bpStep at hst
    split at hst
    · rename_i hna
      replace hna : (F k && B k) = false := hna
      injection hst with hst; subst hst
      have hna' : ¬ (F k = true ∧ B k = true) := by rintro ⟨a, b⟩; rw [a, b] at hna; cases hna
      refine ⟨fun j hj => i1 j (fun h => hj (by omega)), fun j hj hf hb => ?_⟩
      rcases Nat.lt_or_ge j k with hjk | hjk
      · exact i2 j hjk hf hb
      · have : j = k := by omega
        subst this; exact absurd ⟨hf, hb⟩ hna'
    · rename_i hna
      replace hna : ¬ (F k && B k) = false := hna
      have hact : F k = true ∧ B k = true := by simpa using hna
      split at hst
      · rename_i d hd
        injection hst with hst; subst hst
        have hdk := i1 k (fun h => by omega)
        refine ⟨fun j hj => i1 j (fun h => hj (by omega)), fun j hj hf hb => ?_⟩
        by_cases e : j = k
        · subst e
          refine ⟨d, hd, fun hn => ?_⟩
          rw [hd, hn] at hdk; cases hdk
        · obtain ⟨g, a, b⟩ := i2 j (by omega) hf hb
          exact ⟨g, a, fun hn => by simp only [upd, e, ↓reduceIte]; exact b hn⟩
      · split at hst
        · cases hst
        · rename_i g hg
          have k1 : ∀ j, (j < k + 1 → ¬ (F j = true ∧ B j = true)) → upd s.deriv k (some g) j = deriv j := by
            intro j hj
            have hjk : j ≠ k := by rintro rfl; exact hj (by omega) hact
            simp only [upd, hjk, ↓reduceIte]
            exact i1 j (fun h => hj (by omega))
          have k2 : ∀ j, j < k + 1 → F j = true → B j = true →
              ∃ g', upd s.deriv k (some g) j = some g' ∧ (deriv j = none → upd s.gm k [g] j = [g']) := by
            intro j hj hf hb
            by_cases e : j = k
            · subst e; exact ⟨g, by simp [upd], fun _ => by simp [upd]⟩
            · obtain ⟨g', a, b⟩ := i2 j (by omega) hf hb
              exact ⟨g', by simp [upd, e, a], fun hn => by simp [upd, e, b hn]⟩
          simp only at hst
          split at hst
          · injection hst with hst; subst hst; exact ⟨k1, k2⟩
          · split at hst
            · cases hst
            · split at hst
              · cases hst
              · rename_i gm' hp
                injection hst with hst; subst hst
                refine ⟨k1, fun j hj hf hb => ?_⟩
                obtain ⟨g', a, b⟩ := k2 j hj hf hb
                refine ⟨g', a, fun hn => ?_⟩
                simp only
                rw [push_other _ _ _ _ _ hp j ?_]
                · exact b hn
                · intro hc
                  have := (W.after k hk j hc).1
                  omega

/-- **C18.** If every node between the outputs and `wrt` already carries a derivative, `Backpropagate` returns these
derivatives, whatever the output gradients are, and changes nothing. -/
theorem backprop_again (G : Gr) (W : GOK G) (users : Nat → Nat)
    (symDiff : Nat → T → Option (List T)) (reduceAdd : List T → Option T) (deriv : Nat → Option T)
    (outs : List (Nat × T)) (wrt : List Nat) (hlt : ∀ w ∈ wrt, w < G.length)
    (hall : ∀ j, (∃ o ∈ outs, Reach G o.1 j) → (∃ w ∈ wrt, Reach G j w) → ∃ g, deriv j = some g)
    (how : ∀ o ∈ outs, o.1 ∉ wrt)
    (F B : Nat → Bool) (hF : forward G (outs.map (·.1)) = some F) (hB : backward G users wrt = some B)
    (hwF : ∀ w ∈ wrt, F w = true) (hoB : ∀ o ∈ outs, B o.1 = true)
    (res : List T) (hres : wrt.mapM deriv = some res) :
    backprop G users symDiff reduceAdd deriv outs wrt = some (res, deriv) := by
  have hFr := forward_reach G W _ F hF
  have hBr := backward_reach G W users wrt B hB
  have hact : ∀ j, F j = true → B j = true → ∃ g, deriv j = some g := by
    intro j hf hb
    refine hall j ?_ ((hBr j).1 hb)
    obtain ⟨o, ho, hr⟩ := (hFr j).1 hf
    obtain ⟨o', ho', rfl⟩ := List.mem_map.1 ho
    exact ⟨o', ho', hr⟩
  have hinit : ∀ (l : List (Nat × T)) (gm : Nat → List T) (j : Nat), gm j = [] → j ∉ l.map (·.1) →
      l.foldl (fun gm o => upd gm o.1 [o.2]) gm j = [] := by
    intro l
    induction l with
    | nil => intro gm j h _; exact h
    | cons o l ih =>
      intro gm j h hj
      simp only [List.map_cons, List.mem_cons, not_or] at hj
      exact ih _ j (by simp [upd, hj.1, h]) hj.2
  have key : ∀ k, k ≤ G.length → ∃ s : BP T,
      (List.range k).foldlM (bpStep G (fun i => F i && B i) symDiff reduceAdd)
        ⟨outs.foldl (fun gm o => upd gm o.1 [o.2]) (fun _ => []), deriv⟩ = some s ∧ s.deriv = deriv ∧
      (∀ w ∈ wrt, s.gm w = if w < k then (deriv w).toList else []) := by
    intro k
    induction k with
    | zero =>
      intro _
      refine ⟨_, rfl, rfl, fun w hw => ?_⟩
      simp only [Nat.not_lt_zero, if_false]
      apply hinit _ _ _ rfl
      intro h
      obtain ⟨o, ho, rfl⟩ := List.mem_map.1 h
      exact how o ho hw
    | succ k ih =>
      intro hk
      obtain ⟨s, h1, h2, h3⟩ := ih (by omega)
      rw [List.range_succ, List.foldlM_append, h1]
      have hne : ∀ w, w ≠ k → ((w < k + 1) ↔ w < k) := by intro w h; omega
      cases hfb : (F k && B k) with
      | false =>
        refine ⟨s, by simp [bpStep, hfb], h2, fun w hw => ?_⟩
        rw [h3 w hw]
        have hwk : w ≠ k := by
          rintro rfl
          rw [hwF w hw, (hBr w).2 ⟨w, hw, .refl⟩] at hfb; cases hfb
        simp only [hne w hwk]
      | true =>
        have hf : F k = true := by cases hf : F k <;> simp [hf] at hfb ⊢
        have hb : B k = true := by cases hb : B k <;> simp [hb] at hfb ⊢
        obtain ⟨g, hg⟩ := hact k hf hb
        refine ⟨⟨upd s.gm k (s.gm k ++ [g]), s.deriv⟩, by simp [bpStep, hfb, h2, hg], h2, fun w hw => ?_⟩
        simp only [upd]
        by_cases e : w = k
        · subst e
          rw [if_pos rfl, h3 w hw]
          simp [hg]
        · simp only [e, if_false, hne w e]
          exact h3 w hw
  obtain ⟨s, h1, h2, h3⟩ := key G.length (Nat.le_refl _)
  unfold backprop
  rw [hF, hB]
  have hwF' : ¬ wrt.all F = false := by simpa using hwF
  have hoB' : ¬ (outs.map (·.1)).all B = false := by
    simp only [Bool.not_eq_false, List.all_eq_true, List.mem_map, forall_exists_index, and_imp]
    rintro _ o ho rfl
    exact hoB o ho
  simp only [Option.bind_eq_bind, Option.bind_some, if_neg hwF', if_neg hoB']
  rw [h1]
  simp only [Option.bind_some]
  have : wrt.mapM (fun w => (s.gm w).head?) = some res := by
    rw [← hres]
    have gen : ∀ ws : List Nat, (∀ w ∈ ws, w ∈ wrt) → ws.mapM (fun w => (s.gm w).head?) = ws.mapM deriv := by
      intro ws
      induction ws with
      | nil => intro _; rfl
      | cons w ws ih =>
        intro hw
        have h0 := hw w (List.mem_cons_self ..)
        have hh : (s.gm w).head? = deriv w := by
          rw [h3 w h0, if_pos (hlt w h0)]
          cases deriv w <;> rfl
        rw [List.mapM_cons, List.mapM_cons, ih (fun w' hw' => hw w' (List.mem_cons_of_mem _ hw')), hh]
    exact gen wrt (fun _ h => h)
  rw [this, h2]
  rfl

end

end Verif.AD
