import Verif.Round.Train
/-!
Plain gradient descent with rounded numbers, and attention as an example.
-/
set_option autoImplicit false
namespace Verif.Round
open Verif.Tensor Verif.AD Filter
open Verif.Shape hiding bc
open Verif.Train
open Verif.Solver (Fields vanillaNode processed ClipOk regularised)
open scoped Topology

noncomputable section

/-- What a weight becomes in a round of gradient descent. -/
def descend (F : Fields) : List (T ℝ) → Res (T ℝ)
  | [w, g] => if g.shape = w.shape then .ok ⟨w.shape, fun i => w.at_ i - F.eta * processed F (w.at_ i) (g.at_ i)⟩ else .err
  | _ => .err

/-- Without the penalty on absolute values the step is continuous. -/
theorem processed_cont (F : Fields) (h : F.useL1Reg = false) : Continuous fun z : ℝ × ℝ => processed F z.1 z.2 := by
  unfold processed regularised
  simp only [h, Bool.false_eq_true, if_false, add_zero]
  cases F.useL2Reg <;> cases F.useClip <;> simp only [Bool.false_eq_true, if_false, if_true, add_zero] <;> fun_prop

theorem descend_steady (F : Fields) (h : F.useL1Reg = false) {w g : T ℝ} (hs : g.shape = w.shape) : Steady (descend F) [w, g] := by
  refine ⟨_, if_pos hs, fun ε hε => ?_⟩
  have hc : Continuous fun z : ℝ × ℝ => z.1 - F.eta * processed F z.1 z.2 := continuous_fst.sub (continuous_const.mul (processed_cont F h))
  obtain ⟨δ, hδ, H⟩ := common_bound (P := fun k δ => ∀ p q, |p - w.at_ (unravel w.shape k)| ≤ δ → |q - g.at_ (unravel w.shape k)| ≤ δ →
      |(p - F.eta * processed F p q) - (w.at_ (unravel w.shape k) - F.eta * processed F (w.at_ (unravel w.shape k)) (g.at_ (unravel w.shape k)))| ≤ ε)
    (fun k δ δ' hle H p q hp hq => H p q (hp.trans hle) (hq.trans hle)) (size w.shape)
    (fun k _ => near_two (f := fun p q => p - F.eta * processed F p q) hc.continuousAt hε)
  refine ⟨δ, hδ, fun xs' hx => ?_⟩
  match xs', hx with
  | [w', g'], .cons h1 (.cons h2 .nil) =>
    refine ⟨_, if_pos ((h2.1.trans hs).trans h1.1.symm), h1.1, fun i hi => ?_⟩
    have hi : InB w.shape i := hi
    have := H (ravel w.shape i) (ravel_lt hi) (w'.at_ i) (g'.at_ i)
    rw [unravel_ravel hi] at this
    exact this (h1.2 i hi) (h2.2 i (by rw [hs]; exact hi))

/-- **C121 (the machine).** The tape machine of the models, which computes with real numbers, runs the training program for any number
of rounds. A machine that rounds in every operation of the graph, of the gradient nodes and of the solver has after `N` rounds weights
as near to those as one likes, if the roundoff is small enough. -/
theorem descent_rounded {imp : POp → Impl} (hF : Faithful imp) (hM : Monotone imp) {G : XG} (hG : G.tg.Sorted) (users : Nat → Nat) (cost : Nat)
    (hcost : cost < G.length) {ws : List Nat} (hne : ws ≠ []) (hnd : ws.Nodup)
    (hws : ∀ w ∈ ws, w < G.length ∧ (G.tg.gr.node w).input = true ∧ Reach G.tg.gr cost w)
    (x₀ : Nat → T ℝ) (hfine : G.tg.Fine fun i => x₀ (min i G.length))
    (hsc : ∃ y, G.tg.value (fun i => x₀ (min i G.length)) cost = .ok y ∧ y.shape = []) (F : Fields) (hc : ClipOk F) (hl1 : F.useL1Reg = false) :
    ∃ res dv, gradX G (shapeOf G (startSh G x₀)) users (fun _ => none) cost ws = some (res, dv) ∧
      ∀ (leaves : List Nat) (_ : ∀ l ∈ leaves, l < (planOf G res).1.length),
      ∃ xs : Nat → Nat → T ℝ, (∀ i, xs 0 i = x₀ (min i G.length)) ∧
        (∀ k, (∀ j, j < k → G.tg.Fine (xs j)) →
          ∃ t', epochs (buildP G (planOf G res).1 (planOf G res).2) leaves (buildE id G (planOf G res).1 (adOf G))
              (cfgOf G (shapeOf G (startSh G x₀)) ws (planOf G res).2) (fun _ => tensorSol (vanillaNode F)) (posOf G) (adOf G) ws k
              (startOf G x₀) = some t' ∧ ∀ w, w ≤ G.length → t'.m.mem w = xs k w) ∧
        (∀ k i, i ∉ ws → xs k i = x₀ (min i G.length)) ∧ (∀ k i, (xs k i).shape = (x₀ (min i G.length)).shape) ∧
        ∀ (N : Nat) (solI : Impl), (∀ k, k < N → G.tg.Fine (xs k)) → (∀ k, k < N → Smooth imp G (xs k)) →
          (∀ w g : T ℝ, g.shape = w.shape → Accurate (descend F) solI [w, g]) →
          ∀ ε, 0 < ε → ∃ u₀, 0 < u₀ ∧ ∀ u, 0 ≤ u → u ≤ u₀ → ∀ X : Nat → Nat → T ℝ, (∀ i, Close u (X 0 i) (xs 0 i)) →
            (∀ k, k < N → RoundedStep imp G ws res solI u (X k) (X (k + 1))) → ∀ i, Close ε (X N i) (xs N i) := by
  obtain ⟨res, dv, h1, -, K⟩ := training_graph_descends hG users cost hcost hne hnd hws x₀ hfine hsc F hc
  refine ⟨res, dv, h1, fun leaves hl => ?_⟩
  obtain ⟨xs, a1, a2, a3, a4, a5⟩ := K leaves hl
  refine ⟨xs, a1, a2, a3, a4, fun N solI hfi hsm hac => ?_⟩
  refine training_rounded hF hM hG users cost hcost hne hws h1 (descend F) solI xs N (fun k hk => ?_)
    (fun k hk => ⟨hfi k hk, fun i y hy => shapeOf_value hG (fun i _ => by rw [a4 k i]; rfl) i y hy⟩) hsm
    (fun k _ w _ g hg => ⟨descend_steady F hl1 hg, hac _ _ hg⟩)
  obtain ⟨d, d1, d2⟩ := a5 k (hfi k hk)
  refine ⟨d, d1, fun i hi => by rw [a3 _ i hi, a3 _ i hi], fun w hw => ⟨_, if_pos (d1.1 w hw), ?_, fun i hi => ?_⟩⟩
  · show (xs k w).shape = _
    rw [a4, a4]
  · have hi : InB (xs k w).shape i := hi
    rw [a4, Nat.min_eq_left (hws w hw).1.le] at hi
    exact (d2 w hw i hi).symm

theorem smooth_one {imp : POp → Impl} {G : XG} {x : Nat → T ℝ} {a : Nat} {v y : T ℝ} {o : DOp} (hv : G.tg.value x a = .ok v) (hg : o.op.Good [v] y)
    (hs : SymSteady imp o [v] y) {o' : DOp} {ks : List Nat} (h : some (XNode.op o [a]) = some (XNode.op o' ks)) :
    ∃ xs y, resAll (ks.map (G.tg.value x)) = .ok xs ∧ o'.op.run xs = .ok y ∧ Steady o'.op.run xs ∧ SymSteady imp o' xs y := by
  cases h
  exact ⟨[v], y, by simp [resAll, hv, Res.bind], hg.run, good_steady hg, hs⟩

theorem smooth_two {imp : POp → Impl} {G : XG} {x : Nat → T ℝ} {a b : Nat} {v w y : T ℝ} {o : DOp} (hv : G.tg.value x a = .ok v)
    (hw : G.tg.value x b = .ok w) (hg : o.op.Good [v, w] y)
    (hs : SymSteady imp o [v, w] y) {o' : DOp} {ks : List Nat} (h : some (XNode.op o [a, b]) = some (XNode.op o' ks)) :
    ∃ xs y, resAll (ks.map (G.tg.value x)) = .ok xs ∧ o'.op.run xs = .ok y ∧ Steady o'.op.run xs ∧ SymSteady imp o' xs y := by
  cases h
  exact ⟨[v, w], y, by simp [resAll, hv, hw, Res.bind], hg.run, good_steady hg, hs⟩

/-- Attention and its gradient are continuous for all weights. -/
theorem attention_smooth {imp : POp → Impl} (hS : Sound imp) (c : ℝ) (x : Nat → T ℝ) (H n e d f : Nat) (hH : 0 < H) (hn : 0 < n) (hf : 0 < f)
    (hY : (x 2).shape = [H, n, f]) (hX : (x 11).shape = [H, n, e]) (hq : (x 12).shape = [H, e, d]) (hk : (x 13).shape = [H, e, d])
    (hv : (x 14).shape = [H, e, f]) : Smooth imp (attG c) x := by
  have hF := hS.faithful
  have W := attention_sorted c
  have ho : ∀ d ∈ [H], 0 < d := by simpa using hH
  have v2 : (attG c).tg.value x 2 = .ok (x 2) := value_leaf W x rfl
  have v11 : (attG c).tg.value x 11 = .ok (x 11) := value_leaf W x rfl
  have v12 : (attG c).tg.value x 12 = .ok (x 12) := value_leaf W x rfl
  have v13 : (attG c).tg.value x 13 = .ok (x 13) := value_leaf W x rfl
  have v14 : (attG c).tg.value x 14 = .ok (x 14) := value_leaf W x rfl
  have v6 : (attG c).tg.value x 6 = .ok (scalarT c) := value_cst W x rfl
  obtain ⟨q, q1, q2, q3⟩ := batchTOp_good false false [H] (x 11) (x 12) n e e d ho hX hq rfl
  have v8 := value_two W x (i := 8) rfl v11 v12 q3
  obtain ⟨k, k1, k2, k3⟩ := batchTOp_good false false [H] (x 11) (x 13) n e e d ho hX hk rfl
  have v9 := value_two W x (i := 9) rfl v11 v13 k3
  obtain ⟨v, w1, w2, w3⟩ := batchTOp_good false false [H] (x 11) (x 14) n e e f ho hX hv rfl
  have v10 := value_two W x (i := 10) rfl v11 v14 w3
  obtain ⟨s, s1, s2, s3⟩ := batchTOp_good false true [H] q k n d n d ho q2 k2 rfl
  have v7 := value_two W x (i := 7) rfl v8 v9 s3
  have s2 : s.shape = [H, n, n] := s2
  obtain ⟨t, t1, t2, t3, t4⟩ := bTOp_good .mul [H, n, n] (scalarT c) s (.inr rfl) (.inl s2) (.inr s2)
    (fun _ => by simp; omega) fun _ _ => trivial
  have v5 := value_two W x (i := 5) rfl v6 v7 t4
  obtain ⟨u, u1, u2, u3⟩ := softTOp_good_partial false 2 t (by rw [t2]; simp) (.inl (by decide))
  have v4 := value_one W x (i := 4) rfl v5 u3
  rw [t2] at u2
  obtain ⟨z, z1, z2, z3⟩ := batchTOp_good false false [H] u v n n n f ho u2 w2 rfl
  have v3 := value_two W x (i := 3) rfl v4 v10 z3
  have z2 : z.shape = [H, n, f] := z2
  have hp : ∀ d ∈ [H, n, f], d ≠ 0 := by simp; omega
  obtain ⟨p, p1, p2, p4, p3⟩ := bTOp_good .mul [H, n, f] (x 2) z (.inl hY) (.inl z2) (.inl hY) (fun _ => hp) fun _ _ => trivial
  have v1 := value_two W x (i := 1) rfl v2 v3 p3
  obtain ⟨y, y1, y2, y3⟩ := sumTOp_good [] p (by rw [p2]; simp) (by simp) List.nodup_nil (by rw [p2]; exact hp)
  intro i o ks h
  match i, h with
  | 0, h => exact smooth_one (G := attG c) (x := x) (o := sumDOp []) v1 y3 (sum_symSteady hS [] (by rw [p2]; simp) (by simp) List.nodup_nil (by rw [p2]; exact hp) y1) h
  | 1, h => exact smooth_two (G := attG c) (x := x) (o := bDOp .mul) v2 v3 p3 (b_symSteady hF .mul (s := [H, n, f]) (i₀ := [0, 0, 0]) (.inl hY) (.inl z2) (.inl hY)
      (by simp [InB]; omega) (fun _ _ => trivial) p1) h
  | 3, h => exact smooth_two (G := attG c) (x := x) (o := batchDOp false false) v4 v10 z3 (batch_symSteady hF _ _ (o := [H]) ho u2 w2 rfl z1) h
  | 4, h => exact smooth_one (G := attG c) (x := x) (o := softDOp false 2) v5 u3 (soft_symSteady hF _ _ _ _) h
  | 5, h => exact smooth_two (G := attG c) (x := x) (o := bDOp .mul) v6 v7 t4 (b_symSteady hF .mul (s := [H, n, n]) (i₀ := [0, 0, 0]) (.inr rfl) (.inl s2) (.inr s2)
      (by simp [InB]; omega) (fun _ _ => trivial) t1) h
  | 7, h => exact smooth_two (G := attG c) (x := x) (o := batchDOp false true) v8 v9 s3 (batch_symSteady hF _ _ (o := [H]) ho q2 k2 rfl s1) h
  | 8, h => exact smooth_two (G := attG c) (x := x) (o := batchDOp false false) v11 v12 q3 (batch_symSteady hF _ _ (o := [H]) ho hX hq rfl q1) h
  | 9, h => exact smooth_two (G := attG c) (x := x) (o := batchDOp false false) v11 v13 k3 (batch_symSteady hF _ _ (o := [H]) ho hX hk rfl k1) h
  | 10, h => exact smooth_two (G := attG c) (x := x) (o := batchDOp false false) v11 v14 w3 (batch_symSteady hF _ _ (o := [H]) ho hX hv rfl w1) h
  | 2, h | 6, h | 11, h | 12, h | 13, h | 14, h => cases h
  | i + 15, h => simp [attG] at h

/-- **C121 (attention).** Training attention with rounded numbers for `N` rounds, from any weights, leads to weights that are as near
as one likes to those in the memory of the exact machine, if the roundoff is small enough. -/
theorem attention_training_rounded {imp : POp → Impl} (hS : Sound imp) (hM : Monotone imp) (c : ℝ) (H n e d f : Nat) (hH : 0 < H) (hn : 0 < n)
    (hf : 0 < f) (x₀ : Nat → T ℝ) (hY : (x₀ 2).shape = [H, n, f]) (hX : (x₀ 11).shape = [H, n, e]) (hq : (x₀ 12).shape = [H, e, d])
    (hk : (x₀ 13).shape = [H, e, d]) (hv : (x₀ 14).shape = [H, e, f]) (F : Fields) (hc : ClipOk F) (hl1 : F.useL1Reg = false) (users : Nat → Nat)
    (solI : Impl) (hac : ∀ w g : T ℝ, g.shape = w.shape → Accurate (descend F) solI [w, g]) :
    ∃ res dv, gradX (attG c) (attSh H n e d f (x₀ 15).shape) users (fun _ => none) 0 [12, 13, 14] = some (res, dv) ∧
      ∀ (leaves : List Nat) (_ : ∀ l ∈ leaves, l < (planOf (attG c) res).1.length) (N : Nat), ∃ t',
        epochs (buildP (attG c) (planOf (attG c) res).1 (planOf (attG c) res).2) leaves
          (buildE id (attG c) (planOf (attG c) res).1 (adOf (attG c))) (cfgOf (attG c) (attSh H n e d f (x₀ 15).shape) [12, 13, 14] (planOf (attG c) res).2)
          (fun _ => tensorSol (vanillaNode F)) (posOf (attG c)) (adOf (attG c)) [12, 13, 14] N (startOf (attG c) x₀) = some t' ∧
        ∀ ε, 0 < ε → ∃ u₀, 0 < u₀ ∧ ∀ u, 0 ≤ u → u ≤ u₀ → ∀ X : Nat → Nat → T ℝ, (∀ i, Close u (X 0 i) (x₀ (min i 15))) →
          (∀ k, k < N → RoundedStep imp (attG c) [12, 13, 14] res solI u (X k) (X (k + 1))) →
          Close ε (X N 12) (t'.m.mem 12) ∧ Close ε (X N 13) (t'.m.mem 13) ∧ Close ε (X N 14) (t'.m.mem 14) := by
  have l15 : (attG c).length = 15 := rfl
  have good : ∀ x : Nat → T ℝ, (x 2).shape = [H, n, f] → (x 11).shape = [H, n, e] → (x 12).shape = [H, e, d] → (x 13).shape = [H, e, d] →
      (x 14).shape = [H, e, f] → (attG c).tg.Good x ∧ ∃ y, (attG c).tg.value x 0 = .ok y ∧ y.shape = [] := by
    intro x a1 a2 a3 a4 a5
    obtain ⟨g1, ⟨y, y1, y2, -⟩, -⟩ := AD.attention_good c x H n e d f hH hn hf a1 a2 a3 a4 a5
    exact ⟨g1, y, y1, y2⟩
  obtain ⟨g0, y0, v0, s0⟩ := good (fun i => x₀ (min i (attG c).length)) hY hX hq hk hv
  have hws : ∀ w ∈ [12, 13, 14], w < (attG c).length ∧ ((attG c).tg.gr.node w).input = true ∧ Reach (attG c).tg.gr 0 w := by
    intro w hw
    have hr := AD.attention_reach c w (by simp only [List.mem_cons, List.not_mem_nil, or_false] at hw ⊢; omega)
    simp only [List.mem_cons, List.not_mem_nil, or_false] at hw
    rcases hw with rfl | rfl | rfl
    · exact ⟨by rw [l15]; omega, rfl, hr⟩
    · exact ⟨by rw [l15]; omega, rfl, hr⟩
    · exact ⟨by rw [l15]; omega, rfl, hr⟩
  obtain ⟨res, dv, h1, K⟩ := descent_rounded hS.faithful hM (G := attG c) (AD.attention_sorted c) users 0 (by rw [l15]; omega)
    (ws := [12, 13, 14]) (by simp) (by decide) hws x₀ g0.fine ⟨y0, v0, s0⟩ F hc hl1
  have hsh : shapeOf (attG c) (startSh (attG c) x₀) = attSh H n e d f (x₀ 15).shape :=
    attG_shapes c H n e d f (startSh (attG c) x₀) hY hX hq hk hv fun i hi => by
      unfold startSh
      rw [l15, Nat.min_eq_right hi]
      rfl
  rw [hsh] at h1 K
  refine ⟨res, dv, h1, fun leaves hl N => ?_⟩
  obtain ⟨xs, a1, a2, a3, a4, a5⟩ := K leaves hl
  have b2 : ∀ r, (xs r 2).shape = [H, n, f] := fun r => by rw [a4 r 2, l15]; exact hY
  have b11 : ∀ r, (xs r 11).shape = [H, n, e] := fun r => by rw [a4 r 11, l15]; exact hX
  have c12 : ∀ r, (xs r 12).shape = [H, e, d] := fun r => by rw [a4 r 12, l15]; exact hq
  have c13 : ∀ r, (xs r 13).shape = [H, e, d] := fun r => by rw [a4 r 13, l15]; exact hk
  have c14 : ∀ r, (xs r 14).shape = [H, e, f] := fun r => by rw [a4 r 14, l15]; exact hv
  have gk : ∀ r, (attG c).tg.Fine (xs r) := fun r => (good (xs r) (b2 r) (b11 r) (c12 r) (c13 r) (c14 r)).1.fine
  obtain ⟨t', t1, t2⟩ := a2 N fun j _ => gk j
  refine ⟨t', t1, fun ε hε => ?_⟩
  obtain ⟨u₀, hu₀, hN⟩ := a5 N solI (fun k _ => gk k)
    (fun k _ => attention_smooth hS c (xs k) H n e d f hH hn hf (b2 k) (b11 k) (c12 k) (c13 k) (c14 k)) hac ε hε
  refine ⟨u₀, hu₀, fun u h0 hu X hX0 hst => ?_⟩
  have hall := hN u h0 hu X (fun i => by rw [a1 i]; exact hX0 i) hst
  rw [t2 12 (by rw [l15]; omega), t2 13 (by rw [l15]; omega), t2 14 (by rw [l15]; omega)]
  exact ⟨hall 12, hall 13, hall 14⟩

end

end Verif.Round
