import Verif.Round.Ops
import Verif.Train.Networks
/-!
Training with rounded numbers: after any number of rounds the weights are near those of exact training, if the roundoff is small.
-/
set_option autoImplicit false
namespace Verif.Round
open Verif.Tensor Verif.AD Filter
open Verif.Shape hiding bc
open Verif.Train (IsGradient XOkay)
open scoped Topology

noncomputable section

/-- There is only one gradient. -/
theorem isGradient_unique {G : TG} {cost : Nat} {ws : List Nat} {x r r' : Nat → T ℝ} (h : IsGradient G cost ws x r) (h' : IsGradient G cost ws x r')
    {w : Nat} (hw : w ∈ ws) : (r w).Same (r' w) := by
  refine ⟨(h.1 w hw).trans (h'.1 w hw).symm, fun i hi => ?_⟩
  rw [h.1 w hw] at hi
  let v : Nat → T ℝ := fun j => if j = w then basis (x w).shape (ravel (x w).shape i) else zeroT (x j).shape
  let γ : ℝ → Nat → T ℝ := fun t j => if j ∈ ws then moveT (x j) (v j) t else x j
  have h0 : γ 0 = x := by
    funext j
    simp only [γ]
    split
    · exact moveT_zero _ _
    · rfl
  have hm : ∀ w ∈ ws, Moves (fun t => γ t w) (v w) 0 := by
    intro j hj
    simp only [γ, if_pos hj]
    refine Moves.line _ _ ?_
    simp only [v]
    by_cases e : j = w
    · rw [if_pos e, e]; rfl
    · rw [if_neg e]; rfl
  have hst : ∀ i, i ∉ ws → ∀ t, γ t i = x i := fun j hj t => by simp only [γ, if_neg hj]
  have key := (h.2 γ v 0 h0 hm hst).unique (h'.2 γ v 0 h0 hm hst)
  have sum : ∀ r : Nat → T ℝ, (∀ w ∈ ws, (r w).shape = (x w).shape) → ∑ j ∈ ws.toFinset, pair (r j) (v j) = (r w).at_ i := by
    intro r hr
    rw [Finset.sum_eq_single_of_mem w (List.mem_toFinset.2 hw)]
    · simp only [v, if_true]
      rw [Shape.pair, hr w hw, Finset.sum_eq_single_of_mem (ravel (x w).shape i) (Finset.mem_range.2 (ravel_lt hi))]
      · simp [basis, unravel_ravel hi]
      · intro k hk hne
        simp only [basis]
        rw [if_neg, mul_zero]
        intro e
        apply hne
        have := congrArg (ravel (x w).shape) e
        rwa [ravel_unravel (Finset.mem_range.1 hk), ravel_unravel (ravel_lt hi)] at this
    · intro j _ hne
      simp only [v, if_neg hne, Shape.pair, zeroT, mul_zero, Finset.sum_const_zero]
  rwa [sum r h.1, sum r' h'.1] at key

/-- More is possible with a larger roundoff. -/
def Monotone (imp : POp → Impl) : Prop := ∀ o u u' xs y, u ≤ u' → imp o u xs y → imp o u' xs y

mutual
theorem Comp.mono {imp : POp → Impl} (hM : Monotone imp) {u u' : ℝ} (hu : u ≤ u') {V : Nat → T ℝ} : ∀ (t : XT) (v : T ℝ), Comp imp u V t v → Comp imp u' V t v
  | .node j, v, h => by simp only [Comp] at h ⊢; exact h
  | .cst c, v, h => by simp only [Comp] at h ⊢; exact h.mono hu
  | .app o as, v, h => by
    simp only [Comp] at h ⊢
    obtain ⟨vs, h1, h2⟩ := h
    exact ⟨vs, CompL.mono hM hu as vs h1, hM o u u' vs v hu h2⟩
theorem CompL.mono {imp : POp → Impl} (hM : Monotone imp) {u u' : ℝ} (hu : u ≤ u') {V : Nat → T ℝ} :
    ∀ (ts : List XT) (vs : List (T ℝ)), CompL imp u V ts vs → CompL imp u' V ts vs
  | [], vs, h => by simp only [CompL] at h ⊢; exact h
  | a :: as, vs, h => by
    simp only [CompL] at h ⊢
    obtain ⟨v, vs', h1, h2, h3⟩ := h
    exact ⟨v, vs', h1, Comp.mono hM hu a v h2, CompL.mono hM hu as vs' h3⟩
end

/-- Inputs that are rounded to begin with are as good as exact ones and more roundoff. -/
theorem Computed.shift {imp : POp → Impl} (hM : Monotone imp) {G : XG} {x x' : Nat → T ℝ} {u δ : ℝ} (hδ : 0 ≤ δ) (h : ∀ i, Close δ (x' i) (x i)) {V : Nat → T ℝ}
    (hV : Computed G.tg x' (impAt imp G) u V) : Computed G.tg x (impAt imp G) (u + δ) V := by
  intro i
  have hi := hV i
  rw [Train.xg_getD] at hi ⊢
  unfold impAt at hi ⊢
  rcases hn : G.getD i .leaf with _ | t | ⟨o, ks⟩
  · rw [hn] at hi
    exact hi.trans (h i)
  · rw [hn] at hi
    exact hi.mono (le_add_of_nonneg_right hδ)
  · rw [hn] at hi
    exact hM _ _ _ _ _ (le_add_of_nonneg_right hδ) hi

/-- One round with rounded numbers: the graph and the gradient nodes are run, and every weight is replaced by what the solver makes
of it and its gradient. The other inputs stay. -/
def RoundedStep (imp : POp → Impl) (G : XG) (ws : List Nat) (res : List XT) (sol : Impl) (u : ℝ) (x x' : Nat → T ℝ) : Prop :=
  ∃ V, Computed G.tg x (impAt imp G) u V ∧ (∀ i, i ∉ ws → x' i = x i) ∧
    ∀ (k w : Nat) (t : XT), ws[k]? = some w → res[k]? = some t → ∃ g, Comp imp u V t g ∧ sol u [x w, g] (x' w)

/-- One round with real numbers. -/
def ExactStep (G : XG) (cost : Nat) (ws : List Nat) (sol : List (T ℝ) → Res (T ℝ)) (x x' : Nat → T ℝ) : Prop :=
  ∃ r, IsGradient G.tg cost ws x r ∧ (∀ i, i ∉ ws → x' i = x i) ∧ ∀ w ∈ ws, ∃ y, sol [x w, r w] = .ok y ∧ y.Same (x' w)

/-- The operations of the graph and of their gradients are continuous at the inputs `x`. -/
def Smooth (imp : POp → Impl) (G : XG) (x : Nat → T ℝ) : Prop :=
  ∀ (i : Nat) (o : DOp) (ks : List Nat), G[i]? = some (.op o ks) → ∃ xs y, resAll (ks.map (G.tg.value x)) = .ok xs ∧
    o.op.run xs = .ok y ∧ Steady o.op.run xs ∧ SymSteady imp o xs y

/-- **C121 (training).** Exact training passes through `x 0, …, x N`. Training with rounded numbers, in which the inputs, the
operations of the graph, the gradient nodes and the solver round, stays as near to it as one likes, if the roundoff is small enough. -/
theorem training_rounded {imp : POp → Impl} (hF : Faithful imp) (hM : Monotone imp) {G : XG} (hG : G.tg.Sorted) (users : Nat → Nat) (cost : Nat)
    (hcost : cost < G.length) {sh : Nat → List Nat} {ws : List Nat} (hne : ws ≠ [])
    (hws : ∀ w ∈ ws, w < G.length ∧ (G.tg.gr.node w).input = true ∧ Reach G.tg.gr cost w) {res : List XT} {dv : Nat → Option XT}
    (hgrad : gradX G sh users (fun _ => none) cost ws = some (res, dv)) (sol : List (T ℝ) → Res (T ℝ)) (solI : Impl) (x : Nat → Nat → T ℝ) (N : Nat)
    (hex : ∀ k, k < N → ExactStep G cost ws sol (x k) (x (k + 1))) (hok : ∀ k, k < N → XOkay G sh (x k)) (hsm : ∀ k, k < N → Smooth imp G (x k))
    (hsol : ∀ k, k < N → ∀ w ∈ ws, ∀ g : T ℝ, g.shape = (x k w).shape → Steady sol [x k w, g] ∧ Accurate sol solI [x k w, g]) :
    ∀ ε, 0 < ε → ∃ u₀, 0 < u₀ ∧ ∀ u, 0 ≤ u → u ≤ u₀ → ∀ X : Nat → Nat → T ℝ, (∀ i, Close u (X 0 i) (x 0 i)) →
      (∀ k, k < N → RoundedStep imp G ws res solI u (X k) (X (k + 1))) → ∀ i, Close ε (X N i) (x N i) := by
  induction N with
  | zero => exact fun ε hε => ⟨ε, hε, fun u _ hu X hX _ i => (hX i).mono hu⟩
  | succ N ih =>
    intro ε hε
    have ih := ih (fun k hk => hex k (by omega)) (fun k hk => hok k (by omega)) (fun k hk => hsm k (by omega)) (fun k hk => hsol k (by omega))
    obtain ⟨r, hr, hstay, hstep⟩ := hex N (by omega)
    -- how near weight and gradient have to be for the solver
    have hsolv : ∀ l : List Nat, (∀ w ∈ l, w ∈ ws) → ∃ u₀, 0 < u₀ ∧ ∃ δ, 0 < δ ∧ ∀ u, 0 ≤ u → u ≤ u₀ → ∀ w ∈ l, ∀ a g y : T ℝ,
        Close δ a (x N w) → Close δ g (r w) → solI u [a, g] y → Close ε y (x (N + 1) w) := by
      intro l
      induction l with
      | nil => exact fun _ => ⟨1, one_pos, 1, one_pos, fun _ _ _ w hw => by simp at hw⟩
      | cons w l ihl =>
        intro hl
        obtain ⟨u₁, hu₁, δ₁, hδ₁, H1⟩ := ihl fun w hw => hl w (by simp [hw])
        have hw := hl w (by simp)
        obtain ⟨⟨y, hy, hst⟩, hac⟩ := hsol N (by omega) w hw (r w) (hr.1 w hw)
        obtain ⟨y', hy', hsame⟩ := hstep w hw
        rw [hy'] at hy
        cases hy
        obtain ⟨δ₂, hδ₂, hst⟩ := hst (ε / 2) (half_pos hε)
        obtain ⟨u₃, hu₃, δ₃, hδ₃, hac⟩ := hac (ε / 2) (half_pos hε)
        refine ⟨min u₁ u₃, lt_min hu₁ hu₃, min δ₁ (min δ₂ δ₃), lt_min hδ₁ (lt_min hδ₂ hδ₃), fun u h0 hu w' hw' a g y ha hg hy => ?_⟩
        rcases List.mem_cons.1 hw' with rfl | hw'
        · have l2 : min δ₁ (min δ₂ δ₃) ≤ δ₂ := (min_le_right _ _).trans (min_le_left _ _)
          have l3 : min δ₁ (min δ₂ δ₃) ≤ δ₃ := (min_le_right _ _).trans (min_le_right _ _)
          obtain ⟨y', e1, e2⟩ := hst [a, g] (.cons (ha.mono l2) (.cons (hg.mono l2) .nil))
          obtain ⟨y'', e3, e4⟩ := hac u h0 (hu.trans (min_le_right _ _)) [a, g] (.cons (ha.mono l3) (.cons (hg.mono l3) .nil)) y hy
          rw [e1] at e3
          cases e3
          have := e4.trans e2
          rw [add_halves] at this
          refine ⟨this.1.trans hsame.1, fun j hj => ?_⟩
          rw [← hsame.2 j (by rw [hsame.1]; exact hj)]
          exact this.2 j (by rw [hsame.1]; exact hj)
        · exact H1 u h0 (hu.trans (min_le_left _ _)) w' hw' a g y (ha.mono (min_le_left _ _)) (hg.mono (min_le_left _ _)) hy
    obtain ⟨u₁, hu₁, δ₁, hδ₁, H1⟩ := hsolv ws fun w hw => hw
    obtain ⟨r', hr', hgr⟩ := gradient_rounded hF hG users cost hcost hne hws hgrad (x N) (hok N (by omega)) (hsm N (by omega))
    obtain ⟨u₂, hu₂, H2⟩ := hgr δ₁ hδ₁
    obtain ⟨u₃, hu₃, H3⟩ := ih (min (u₂ / 2) (min δ₁ ε)) (lt_min (half_pos hu₂) (lt_min hδ₁ hε))
    refine ⟨min u₁ (min (u₂ / 2) u₃), lt_min hu₁ (lt_min (half_pos hu₂) hu₃), fun u h0 hu X hX hs i => ?_⟩
    have hN := H3 u h0 (hu.trans ((min_le_right _ _).trans (min_le_right _ _))) X hX fun k hk => hs k (by omega)
    obtain ⟨V, hV, hst, hup⟩ := hs N (by omega)
    by_cases hi : i ∈ ws
    · obtain ⟨k, hk, hki⟩ := List.getElem_of_mem hi
      have hk' : ws[k]? = some i := by rw [List.getElem?_eq_getElem hk, hki]
      have hrl : k < res.length := by rw [Train.gradX_length hgrad]; exact hk
      obtain ⟨g, hg, hsg⟩ := hup k i res[k] hk' (List.getElem?_eq_getElem hrl)
      have hle : u ≤ u₂ / 2 := hu.trans ((min_le_right _ _).trans (min_le_left _ _))
      have hshift := Computed.shift hM (half_pos hu₂).le (fun j => (hN j).mono (min_le_left _ _)) hV
      have hc := H2 (u + u₂ / 2) (by linarith) (by linarith) V hshift k i res[k] g hk' (List.getElem?_eq_getElem hrl)
        (Comp.mono hM (by linarith) _ _ hg)
      have hsame := isGradient_unique hr hr' hi
      refine H1 u h0 (hu.trans (min_le_left _ _)) i hi (X N i) g _ ((hN i).mono ((min_le_right _ _).trans (min_le_left _ _))) ?_ hsg
      refine ⟨hc.1.trans hsame.1.symm, fun j hj => ?_⟩
      rw [hsame.2 j hj]
      exact hc.2 j (by rw [← hsame.1]; exact hj)
    · rw [hst i hi, hstay i hi]
      exact (hN i).mono ((min_le_right _ _).trans (min_le_right _ _))

end

end Verif.Round
