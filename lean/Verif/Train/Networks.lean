import Verif.Train.Network
import Verif.AD.ConvNetValue
/-!
Two networks trained by the tape machine: attention and a convolutional network.
-/
set_option autoImplicit false
namespace Verif.Train
open Verif.Shape (Res elem scalarT pair)
open Verif.Tensor (T InB size ravel unravel)
open Verif.AD (TG TOp TNode theT Moves zeroT Reach XT XG XNode POp DOp gradX sumDOp bDOp uDOp batchDOp softDOp attention reshapeDOp
  transposeDOp matMulDOp im2colDOp maxPoolDOp cmpDOp cnn Generic)
open Verif.Solver (Fields vanillaNode Param processed ClipOk Dense)
open Verif.NN (Conv Pool Covered)

noncomputable section

/-- The rounds of the plain solver (solvers.go 780-943) on a graph: what `training_graph` says for it, with the elements written out. -/
theorem training_graph_descends {G : XG} (hG : G.tg.Sorted) (users : Nat → Nat) (cost : Nat) (hcost : cost < G.length) {ws : List Nat}
    (hne : ws ≠ []) (hnd : ws.Nodup) (hws : ∀ w ∈ ws, w < G.length ∧ (G.tg.gr.node w).input = true ∧ Reach G.tg.gr cost w)
    (x₀ : Nat → T ℝ) (hfine : G.tg.Fine fun i => x₀ (min i G.length))
    (hsc : ∃ y, G.tg.value (fun i => x₀ (min i G.length)) cost = .ok y ∧ y.shape = []) (F : Fields) (hc : ClipOk F) :
    ∃ res dv, gradX G (shapeOf G (startSh G x₀)) users (fun _ => none) cost ws = some (res, dv) ∧ res.length = ws.length ∧
      ∀ (leaves : List Nat) (_ : ∀ l ∈ leaves, l < (planOf G res).1.length),
      ∃ xs : Nat → Nat → T ℝ, (∀ i, xs 0 i = x₀ (min i G.length)) ∧
        (∀ k, (∀ j, j < k → G.tg.Fine (xs j)) →
          ∃ t', epochs (buildP G (planOf G res).1 (planOf G res).2) leaves (buildE id G (planOf G res).1 (adOf G))
              (cfgOf G (shapeOf G (startSh G x₀)) ws (planOf G res).2) (fun _ => tensorSol (vanillaNode F)) (posOf G) (adOf G) ws k
              (startOf G x₀) = some t' ∧ ∀ w, w ≤ G.length → t'.m.mem w = xs k w) ∧
        (∀ k i, i ∉ ws → xs k i = x₀ (min i G.length)) ∧ (∀ k i, (xs k i).shape = (x₀ (min i G.length)).shape) ∧
        ∀ k, G.tg.Fine (xs k) → ∃ d, IsGradient G.tg cost ws (xs k) d ∧ ∀ w ∈ ws, ∀ i, InB (x₀ w).shape i →
          (xs (k + 1) w).at_ i = (xs k w).at_ i - F.eta * processed F ((xs k w).at_ i) ((d w).at_ i) := by
  obtain ⟨res, dv, h1, h2, H⟩ := training_graph hG users cost hcost hne hnd hws x₀ hfine hsc
  refine ⟨res, dv, h1, h2, fun leaves hl => ?_⟩
  obtain ⟨xs, cs, a1, -, a3, a4, a5, a6⟩ := H leaves hl (fun _ => vanillaNode F)
    (fun _ n w g c => ⟨_, _, Solver.vanilla_dense F n w g c hc⟩)
  have hst : ∀ k i, i ∉ ws → xs k i = x₀ (min i G.length) := by
    intro k i hi
    induction k with
    | zero => exact a1 i
    | succ k ih => rw [a4 k i hi, ih]
  have hsh : ∀ k i, (xs k i).shape = (x₀ (min i G.length)).shape := fun k i => by rw [a5, a1]
  refine ⟨xs, a1, fun k hk => ?_, hst, hsh, fun k hk => ?_⟩
  · obtain ⟨t', b1, b2, -⟩ := a3 k hk
    exact ⟨t', b1, b2⟩
  · obtain ⟨d, hd, hs⟩ := a6 k hk
    refine ⟨d, hd, fun w hw i hi => ?_⟩
    have hs := hs w hw
    rw [Solver.vanilla_dense F _ _ _ _ hc] at hs
    simp only [Option.some.injEq, Param.dense.injEq, heq_eq_eq, true_and] at hs
    have hw' : ∀ k, (xs k w).shape = (x₀ w).shape := fun k => by rw [hsh, Nat.min_eq_left (Nat.le_of_lt (hws w hw).1)]
    have := congrFun hs.1 ⟨ravel (x₀ w).shape i, Tensor.ravel_lt hi⟩
    have hdw : (d w).shape = (x₀ w).shape := by rw [hd.1 w hw, hw']
    simp only [flatD, hw', hdw, Tensor.unravel_ravel hi] at this
    exact this.symm

/-! ### Attention -/

/-- `attention` with the operations that can be differentiated symbolically. -/
def attG (c : ℝ) : XG := [.op (sumDOp []) [1], .op (bDOp .mul) [2, 3], .leaf, .op (batchDOp false false) [4, 10],
  .op (softDOp false 2) [5], .op (bDOp .mul) [6, 7], .cst (scalarT c), .op (batchDOp false true) [8, 9],
  .op (batchDOp false false) [11, 12], .op (batchDOp false false) [11, 13], .op (batchDOp false false) [11, 14],
  .leaf, .leaf, .leaf, .leaf]

theorem attG_tg (c : ℝ) : (attG c).tg = attention c := rfl

/-- The shapes of its nodes for `H` heads, `n` positions and the sizes `e`, `d`, `f`. -/
def attSh (H n e d f : Nat) (o : List Nat) : Nat → List Nat
  | 0 => []
  | 1 => [H, n, f]
  | 2 => [H, n, f]
  | 3 => [H, n, f]
  | 4 => [H, n, n]
  | 5 => [H, n, n]
  | 6 => []
  | 7 => [H, n, n]
  | 8 => [H, n, d]
  | 9 => [H, n, d]
  | 10 => [H, n, f]
  | 11 => [H, n, e]
  | 12 => [H, e, d]
  | 13 => [H, e, d]
  | 14 => [H, e, f]
  | _ => o

theorem batchShp_eq (tA tB : Bool) (H a b b' c : Nat) : AD.batchShp tA tB [H, a, b] [H, b', c] =
    [H, if tA then b else a, if tB then b' else c] := by
  cases tA <;> cases tB <;> simp [AD.batchShp, Shape.inferBatched, Shape.transpose2D, Shape.shapeEq]

theorem attG_shapes (c : ℝ) (H n e d f : Nat) (ls : Nat → List Nat) (h2 : ls 2 = [H, n, f]) (h11 : ls 11 = [H, n, e])
    (h12 : ls 12 = [H, e, d]) (h13 : ls 13 = [H, e, d]) (h14 : ls 14 = [H, e, f]) (ho : ∀ i, 15 ≤ i → ls i = ls 15) :
    shapeOf (attG c) ls = attSh H n e d f (ls 15) := by
  have hs : AD.sumShp [] [H, n, f] = [] := rfl
  funext i
  have l15 : (attG c).length = 15 := rfl
  unfold shapeOf
  rw [l15]
  match i with
  | 0 | 1 | 2 | 3 | 4 | 5 | 6 | 7 | 8 | 9 | 10 | 11 | 12 | 13 | 14 =>
    simp [shapeF, attG, attSh, batchDOp, AD.batchSym, sumDOp, AD.sumSym, bDOp, AD.bSym, softDOp, AD.softSym, POp.of1, POp.of2, h2, h11, h12,
      h13, h14, batchShp_eq, hs, AD.elemShp, scalarT]
  | i + 15 =>
    exact ho _ (by omega)

/-- The cost: `Σ Y ⊙ attention`, with attention as in the textbook. -/
def attCost (c : ℝ) (H n e d f : Nat) (Y X q k v : T ℝ) : ℝ :=
  ∑ h ∈ Finset.range H, ∑ i ∈ Finset.range n, ∑ j ∈ Finset.range f, Y.at_ [h, i, j] * AD.attend c n e d X q k v h i j

/-- **C113 (attention).** One layer of multi-head attention with any sizes, trained by the plain solver: `Grad` succeeds, all rounds
succeed, and in every round each weight becomes `w - η * g`, where `g` is the gradient of the cost with respect to the three weights
at the current weights (after regularisation and clipping, `processed`). -/
theorem attention_trains (c : ℝ) (H n e d f : Nat) (hH : 0 < H) (hn : 0 < n) (hf : 0 < f) (X Y wq wk wv : T ℝ)
    (hX : X.shape = [H, n, e]) (hY : Y.shape = [H, n, f]) (hq : wq.shape = [H, e, d]) (hk : wk.shape = [H, e, d])
    (hv : wv.shape = [H, e, f]) (F : Fields) (hc : ClipOk F) (users : Nat → Nat) :
    ∃ res dv, gradX (attG c) (attSh H n e d f Y.shape) users (fun _ => none) 0 [12, 13, 14] = some (res, dv) ∧
      ∀ (leaves : List Nat) (_ : ∀ l ∈ leaves, l < (planOf (attG c) res).1.length), ∃ q k v : Nat → T ℝ,
        q 0 = wq ∧ k 0 = wk ∧ v 0 = wv ∧
        (∀ r, ∃ t', epochs (buildP (attG c) (planOf (attG c) res).1 (planOf (attG c) res).2) leaves
            (buildE id (attG c) (planOf (attG c) res).1 (adOf (attG c))) (cfgOf (attG c) (attSh H n e d f Y.shape) [12, 13, 14] (planOf (attG c) res).2)
            (fun _ => tensorSol (vanillaNode F)) (posOf (attG c)) (adOf (attG c)) [12, 13, 14] r
            (startOf (attG c) fun i => if i = 11 then X else if i = 12 then wq else if i = 13 then wk else if i = 14 then wv else Y) = some t' ∧
          t'.m.mem 12 = q r ∧ t'.m.mem 13 = k r ∧ t'.m.mem 14 = v r) ∧
        (∀ r, (q r).shape = [H, e, d] ∧ (k r).shape = [H, e, d] ∧ (v r).shape = [H, e, f]) ∧
        ∀ r, ∃ gq gk gv : T ℝ, gq.shape = [H, e, d] ∧ gk.shape = [H, e, d] ∧ gv.shape = [H, e, f] ∧
          (∀ a b s : T ℝ, a.shape = [H, e, d] → b.shape = [H, e, d] → s.shape = [H, e, f] →
            HasDerivAt (fun t => attCost c H n e d f Y X (Shape.moveT (q r) a t) (Shape.moveT (k r) b t) (Shape.moveT (v r) s t))
              (pair gq a + pair gk b + pair gv s) 0) ∧
          (∀ i, InB [H, e, d] i → (q (r + 1)).at_ i = (q r).at_ i - F.eta * processed F ((q r).at_ i) (gq.at_ i)) ∧
          (∀ i, InB [H, e, d] i → (k (r + 1)).at_ i = (k r).at_ i - F.eta * processed F ((k r).at_ i) (gk.at_ i)) ∧
          ∀ i, InB [H, e, f] i → (v (r + 1)).at_ i = (v r).at_ i - F.eta * processed F ((v r).at_ i) (gv.at_ i) := by
  obtain ⟨x₀, hx₀⟩ : ∃ x₀ : Nat → T ℝ, x₀ = fun i => if i = 11 then X else if i = 12 then wq else if i = 13 then wk else
    if i = 14 then wv else Y := ⟨_, rfl⟩
  have l15 : (attG c).length = 15 := rfl
  have e2 : x₀ 2 = Y := by rw [hx₀]; rfl
  have e11 : x₀ 11 = X := by rw [hx₀]; rfl
  have e12 : x₀ 12 = wq := by rw [hx₀]; rfl
  have e13 : x₀ 13 = wk := by rw [hx₀]; rfl
  have e14 : x₀ 14 = wv := by rw [hx₀]; rfl
  have e15 : x₀ 15 = Y := by rw [hx₀]; rfl
  rw [← hx₀]
  have good : ∀ x : Nat → T ℝ, (x 2).shape = [H, n, f] → (x 11).shape = [H, n, e] → (x 12).shape = [H, e, d] → (x 13).shape = [H, e, d] →
      (x 14).shape = [H, e, f] → (attG c).tg.Good x ∧ ∃ y, (attG c).tg.value x 0 = .ok y ∧ y.shape = [] ∧
        y.at_ [] = attCost c H n e d f (x 2) (x 11) (x 12) (x 13) (x 14) := by
    intro x a1 a2 a3 a4 a5
    obtain ⟨g1, ⟨y, y1, y2, y3⟩, -⟩ := AD.attention_good c x H n e d f hH hn hf a1 a2 a3 a4 a5
    refine ⟨g1, y, y1, y2, ?_⟩
    rw [y3]
    simp only [Shape.sumOver_cons, NN.sumOver_nil, attCost]
    rfl
  obtain ⟨g0, y0, v0, s0, -⟩ := good (fun i => x₀ (min i (attG c).length)) (by rw [l15]; exact e2 ▸ hY) (by rw [l15]; exact e11 ▸ hX)
    (by rw [l15]; exact e12 ▸ hq) (by rw [l15]; exact e13 ▸ hk) (by rw [l15]; exact e14 ▸ hv)
  have hws : ∀ w ∈ [12, 13, 14], w < (attG c).length ∧ ((attG c).tg.gr.node w).input = true ∧ Reach (attG c).tg.gr 0 w := by
    intro w hw
    have hr := AD.attention_reach c w (by simp only [List.mem_cons, List.not_mem_nil, or_false] at hw ⊢; omega)
    simp only [List.mem_cons, List.not_mem_nil, or_false] at hw
    rcases hw with rfl | rfl | rfl
    · exact ⟨by rw [l15]; omega, rfl, hr⟩
    · exact ⟨by rw [l15]; omega, rfl, hr⟩
    · exact ⟨by rw [l15]; omega, rfl, hr⟩
  obtain ⟨res, dv, h1, -, K⟩ := training_graph_descends (G := attG c) (AD.attention_sorted c) users 0 (by rw [l15]; omega)
    (ws := [12, 13, 14]) (by simp) (by decide) hws x₀ g0.fine ⟨y0, v0, s0⟩ F hc
  have hsh : shapeOf (attG c) (startSh (attG c) x₀) = attSh H n e d f Y.shape := by
    rw [attG_shapes c H n e d f (startSh (attG c) x₀) (by rw [← hY, ← e2]; rfl) (by rw [← hX, ← e11]; rfl) (by rw [← hq, ← e12]; rfl)
      (by rw [← hk, ← e13]; rfl) (by rw [← hv, ← e14]; rfl) (fun i hi => by
        unfold startSh
        rw [l15, Nat.min_eq_right hi]
        rfl)]
    rw [← e15]
    rfl
  rw [hsh] at h1 K
  refine ⟨res, dv, h1, fun leaves hl => ?_⟩
  obtain ⟨xs, a1, a2, a3, a4, a5⟩ := K leaves hl
  have b2 : ∀ r, xs r 2 = Y := fun r => by rw [a3 r 2 (by simp), l15]; exact e2
  have b11 : ∀ r, xs r 11 = X := fun r => by rw [a3 r 11 (by simp), l15]; exact e11
  have c12 : ∀ r, (xs r 12).shape = [H, e, d] := fun r => by rw [a4 r 12, l15, ← hq, ← e12]; rfl
  have c13 : ∀ r, (xs r 13).shape = [H, e, d] := fun r => by rw [a4 r 13, l15, ← hk, ← e13]; rfl
  have c14 : ∀ r, (xs r 14).shape = [H, e, f] := fun r => by rw [a4 r 14, l15, ← hv, ← e14]; rfl
  have gk : ∀ r, (attG c).tg.Fine (xs r) := fun r =>
    (good (xs r) (by rw [b2, hY]) (by rw [b11, hX]) (c12 r) (c13 r) (c14 r)).1.fine
  refine ⟨fun r => xs r 12, fun r => xs r 13, fun r => xs r 14, by rw [← e12]; exact a1 12, by rw [← e13]; exact a1 13,
    by rw [← e14]; exact a1 14, fun r => ?_, fun r => ⟨c12 r, c13 r, c14 r⟩, fun r => ?_⟩
  · obtain ⟨t', t1, t2⟩ := a2 r fun j _ => gk j
    exact ⟨t', t1, t2 12 (by rw [l15]; omega), t2 13 (by rw [l15]; omega), t2 14 (by rw [l15]; omega)⟩
  · obtain ⟨g, hg, hstep⟩ := a5 r (gk r)
    refine ⟨g 12, g 13, g 14, by rw [hg.1 12 (by simp), c12], by rw [hg.1 13 (by simp), c13], by rw [hg.1 14 (by simp), c14], ?_,
      fun i hi => hstep 12 (by simp) i (by rw [e12, hq]; exact hi), fun i hi => hstep 13 (by simp) i (by rw [e13, hk]; exact hi),
      fun i hi => hstep 14 (by simp) i (by rw [e14, hv]; exact hi)⟩
    intro a b s ha hb hs
    have := hg.2 (fun t i => if i = 12 then Shape.moveT (xs r 12) a t else if i = 13 then Shape.moveT (xs r 13) b t else
      if i = 14 then Shape.moveT (xs r 14) s t else xs r i) (fun i => if i = 12 then a else if i = 13 then b else s) 0 (by
        funext i
        by_cases i1 : i = 12
        · subst i1; simp [AD.moveT_zero]
        by_cases i2 : i = 13
        · subst i2; simp [AD.moveT_zero]
        by_cases i3 : i = 14
        · subst i3; simp [AD.moveT_zero]
        simp [i1, i2, i3]) (by
        intro i hi
        simp only [List.mem_cons, List.not_mem_nil, or_false] at hi
        rcases hi with rfl | rfl | rfl
        · exact Moves.line _ a (by rw [ha, c12])
        · exact Moves.line _ b (by rw [hb, c13])
        · exact Moves.line _ s (by rw [hs, c14])) (by
        intro i hi t
        simp at hi
        simp [hi])
    have hsum : ∑ w ∈ [12, 13, 14].toFinset, pair (g w) ((fun i => if i = 12 then a else if i = 13 then b else s) w) =
        pair (g 12) a + pair (g 13) b + pair (g 14) s := by simp [add_assoc]
    rw [hsum] at this
    refine this.congr_of_eventuallyEq (Filter.Eventually.of_forall fun t => ?_)
    obtain ⟨-, y, y1, -, y3⟩ := good (fun i => if i = 12 then Shape.moveT (xs r 12) a t else if i = 13 then Shape.moveT (xs r 13) b t else
      if i = 14 then Shape.moveT (xs r 14) s t else xs r i) (by rw [← hY, ← b2 r]; rfl) (by rw [← hX, ← b11 r]; rfl) (c12 r) (c13 r) (c14 r)
    simp only []
    rw [y1]
    show _ = y.at_ []
    rw [y3]
    simp [b2, b11]

/-- One head with one position: the attention is 1, the cost is `Y X w`, and the weight for the values goes down by `η X Y = 3` in
every round. -/
example (F : Fields) (hF : F.eta = 1 / 2 ∧ F.batch = 1 ∧ F.useClip = false ∧ F.useL1Reg = false ∧ F.useL2Reg = false) (users : Nat → Nat) :
    ∃ res dv, gradX (attG 1) (attSh 1 1 1 1 1 [1, 1, 1]) users (fun _ => none) 0 [12, 13, 14] = some (res, dv) ∧
      ∀ r, ∃ t', epochs (buildP (attG 1) (planOf (attG 1) res).1 (planOf (attG 1) res).2) []
            (buildE id (attG 1) (planOf (attG 1) res).1 (adOf (attG 1)))
            (cfgOf (attG 1) (attSh 1 1 1 1 1 [1, 1, 1]) [12, 13, 14] (planOf (attG 1) res).2)
            (fun _ => tensorSol (vanillaNode F)) (posOf (attG 1)) (adOf (attG 1)) [12, 13, 14] r
            (startOf (attG 1) fun i => if i = 11 then ⟨[1, 1, 1], fun _ => 2⟩ else if i = 12 then ⟨[1, 1, 1], fun _ => 1⟩ else
              if i = 13 then ⟨[1, 1, 1], fun _ => 1⟩ else if i = 14 then ⟨[1, 1, 1], fun _ => 10⟩ else ⟨[1, 1, 1], fun _ => 3⟩) = some t' ∧
          (t'.m.mem 14).at_ [0, 0, 0] = 10 - 3 * r := by
  obtain ⟨res, dv, h1, H⟩ := attention_trains 1 1 1 1 1 1 (by decide) (by decide) (by decide) ⟨[1, 1, 1], fun _ => 2⟩
    ⟨[1, 1, 1], fun _ => 3⟩ ⟨[1, 1, 1], fun _ => 1⟩ ⟨[1, 1, 1], fun _ => 1⟩ ⟨[1, 1, 1], fun _ => 10⟩ rfl rfl rfl rfl rfl F
    (by simp [ClipOk, hF]) users
  refine ⟨res, dv, h1, fun r => ?_⟩
  obtain ⟨q, k, v, -, -, v0, K, -, D⟩ := H [] (by simp)
  obtain ⟨t', t1, -, -, t2⟩ := K r
  refine ⟨t', t1, ?_⟩
  rw [t2]
  clear t2 t1 t'
  induction r with
  | zero => rw [v0]; norm_num
  | succ r ih =>
    obtain ⟨gq, gk, gv, s1, s2, s3, hd, -, -, hv⟩ := D r
    have h0 := hd (zeroT [1, 1, 1]) (zeroT [1, 1, 1]) ⟨[1, 1, 1], fun _ => 1⟩ rfl rfl rfl
    have h6 : HasDerivAt (fun t => attCost 1 1 1 1 1 1 ⟨[1, 1, 1], fun _ => 3⟩ ⟨[1, 1, 1], fun _ => 2⟩
        (Shape.moveT (q r) (zeroT [1, 1, 1]) t) (Shape.moveT (k r) (zeroT [1, 1, 1]) t)
        (Shape.moveT (v r) ⟨[1, 1, 1], fun _ => 1⟩ t)) 6 0 := by
      have : HasDerivAt (fun t : ℝ => 3 * (2 * ((v r).at_ [0, 0, 0] + t))) 6 0 := by
        have := (((hasDerivAt_id (0 : ℝ)).const_add ((v r).at_ [0, 0, 0])).const_mul 2).const_mul 3
        simpa using this.congr_deriv (show (3 : ℝ) * (2 * 1) = 6 by norm_num)
      refine this.congr_of_eventuallyEq (Filter.Eventually.of_forall fun t => ?_)
      simp [attCost, AD.attend, Shape.moveT, (Real.exp_pos _).ne']
    have hg : gv.at_ [0, 0, 0] = 6 := by
      rw [← h0.unique h6]
      simp [Shape.pair, s1, s2, s3, zeroT, size, unravel]
    rw [hv [0, 0, 0] ⟨by decide, by decide, by decide, trivial⟩, ih, hg]
    simp [processed, Solver.regularised, hF]
    ring

/-! ### A convolutional network -/

/-- `cnn` with the operations that can be differentiated symbolically. -/
def cnnG (op : Conv) (o1 o2 : List Nat) (po : Pool) (lo : ℝ) (b m n c l : Nat) : XG :=
  [.op (uDOp .neg) [1], .op (sumDOp []) [2], .op (bDOp .mul) [3, 4], .leaf, .op (softDOp true 1) [5],
   .op (matMulDOp false false) [6, 7], .op (reshapeDOp [b, l * ((po.outH m).toNat * (po.outW n).toNat)]) [8], .leaf,
   .op (maxPoolDOp po lo) [9], .op (bDOp .mul) [12, 10], .op (cmpDOp (· ≥ ·)) [12, 11], .cst (scalarT 0),
   .op (transposeDOp [0, 3, 1, 2]) [13], .op (reshapeDOp [b, m, n, l]) [14], .op (matMulDOp false true) [15, 16],
   .op (reshapeDOp [b * m * n, c * op.w * op.h]) [17], .op (reshapeDOp [l, c * op.h * op.w]) [18], .op (im2colDOp op o1 o2) [19], .leaf, .leaf]

theorem cnnG_tg (op : Conv) (o1 o2 : List Nat) (po : Pool) (lo : ℝ) (b m n c l : Nat) :
    (cnnG op o1 o2 po lo b m n c l).tg = cnn op o1 o2 po lo b m n c l := rfl

/-- **C113 (a convolutional network).** A network of a convolution (`Conv2d`), the rectifier, `MaxPool2D`, a full layer, softmax and
cross entropy, with any sizes, trained by the plain solver: if no element before the rectifier is 0 and no window has two largest
elements (`Generic`) at the first filters, `Grad` succeeds; the rounds succeed as long as this holds for the filters reached; and every
such round subtracts from the filters and the weights `η` times the gradient of the cost, written as in the textbook (`cnnCost`), after
regularisation and clipping (`processed`). -/
theorem cnn_trains (op : Conv) (o1 o2 : List Nat) (po : Pool) (lo : ℝ) (b c h w l k : Nat) (X F₀ W₀ Y : T ℝ)
    (h1 : o1.Perm (List.range b)) (h2 : o2.Perm (List.range b)) (hlo : lo < 0) (hsym : po.symmetric)
    (hcov : Covered po (op.retH h).toNat (op.retW w).toNat) (hY : Y.shape = [b, k])
    (hW : W₀.shape = [l * ((po.outH (op.retH h).toNat).toNat * (po.outW (op.retW w).toNat).toNat), k])
    (hF : F₀.shape = [l, c, op.h, op.w]) (hX : X.shape = [b, c, h, w]) (hb : 0 < b) (hl : 0 < l) (hk : 0 < k)
    (hh : 0 < op.retH h) (hw : 0 < op.retW w) (ph : 0 ≤ po.outH (op.retH h).toNat) (pw : 0 ≤ po.outW (op.retW w).toNat)
    (p1 : 0 < op.h) (p2 : 0 < op.w) (p3 : 0 < op.strideH) (p4 : 0 < op.strideW) (p5 : 0 < op.dilationH) (p6 : 0 < op.dilationW)
    (hgen : Generic op po X F₀ b c h w l) (S : Fields) (hc : ClipOk S) (users : Nat → Nat) (G : XG)
    (hG : G = cnnG op o1 o2 po lo b (op.retH h).toNat (op.retW w).toNat c l) (x₀ : Nat → T ℝ)
    (hx₀ : x₀ = fun i => if i = 19 then X else if i = 18 then F₀ else if i = 7 then W₀ else Y) :
    ∃ res dv, gradX G (shapeOf G (startSh G x₀)) users (fun _ => none) 0 [18, 7] = some (res, dv) ∧
      ∀ (leaves : List Nat) (_ : ∀ l ∈ leaves, l < (planOf G res).1.length), ∃ f v : Nat → T ℝ, f 0 = F₀ ∧ v 0 = W₀ ∧
        (∀ r, (∀ j, j < r → Generic op po X (f j) b c h w l) →
          ∃ t', epochs (buildP G (planOf G res).1 (planOf G res).2) leaves (buildE id G (planOf G res).1 (adOf G))
            (cfgOf G (shapeOf G (startSh G x₀)) [18, 7] (planOf G res).2) (fun _ => tensorSol (vanillaNode S)) (posOf G) (adOf G) [18, 7] r
            (startOf G x₀) = some t' ∧ t'.m.mem 18 = f r ∧ t'.m.mem 7 = v r) ∧
        (∀ r, (f r).shape = F₀.shape ∧ (v r).shape = W₀.shape) ∧
        ∀ r, Generic op po X (f r) b c h w l → ∃ gF gW : T ℝ, gF.shape = F₀.shape ∧ gW.shape = W₀.shape ∧
          (∀ a s : T ℝ, a.shape = F₀.shape → s.shape = W₀.shape →
            HasDerivAt (fun t => AD.cnnCost op po X (Shape.moveT (f r) a t) (Shape.moveT (v r) s t) Y b c h w l k)
              (pair gF a + pair gW s) 0) ∧
          (∀ i, InB F₀.shape i → (f (r + 1)).at_ i = (f r).at_ i - S.eta * processed S ((f r).at_ i) (gF.at_ i)) ∧
          ∀ i, InB W₀.shape i → (v (r + 1)).at_ i = (v r).at_ i - S.eta * processed S ((v r).at_ i) (gW.at_ i) := by
  have htg : G.tg = cnn op o1 o2 po lo b (op.retH h).toNat (op.retW w).toNat c l := by rw [hG]; rfl
  have l20 : G.length = 20 := by rw [hG]; rfl
  have e3 : x₀ 3 = Y := by rw [hx₀]; rfl
  have e7 : x₀ 7 = W₀ := by rw [hx₀]; rfl
  have e18 : x₀ 18 = F₀ := by rw [hx₀]; rfl
  have e19 : x₀ 19 = X := by rw [hx₀]; rfl
  have fine : ∀ x : Nat → T ℝ, x 3 = Y → (x 7).shape = W₀.shape → (x 18).shape = F₀.shape → x 19 = X →
      Generic op po X (x 18) b c h w l → G.tg.Fine x := by
    intro x a1 a2 a3 a4 a5
    rw [htg]
    exact (AD.cnn_fine op o1 o2 po lo b c h w l k x h1 h2 hlo hsym hcov (by rw [a1, hY]) (by rw [a2, hW]) (by rw [a3, hF])
      (by rw [a4, hX]) hb hl hk hh hw ph pw p1 p2 p3 p4 p5 p6 (by rw [a4]; exact a5)).1
  have val : ∀ x : Nat → T ℝ, x 3 = Y → (x 7).shape = W₀.shape → (x 18).shape = F₀.shape → x 19 = X →
      ∃ y, G.tg.value x 0 = .ok y ∧ y.shape = [] ∧ y.at_ [] = AD.cnnCost op po X (x 18) (x 7) Y b c h w l k := by
    intro x a1 a2 a3 a4
    rw [htg]
    obtain ⟨y, y1, y2, y3⟩ := AD.cnn_value op o1 o2 po lo b c h w l k x h1 h2 hlo hsym hcov (by rw [a1, hY]) (by rw [a2, hW])
      (by rw [a3, hF]) (by rw [a4, hX]) hb hk hh hw ph pw p1 p2 p3 p4 p5 p6
    exact ⟨y, y1, y2, by rw [y3, a1, a4]⟩
  have m3 : x₀ (min 3 G.length) = Y := by rw [l20]; exact e3
  have m7 : x₀ (min 7 G.length) = W₀ := by rw [l20]; exact e7
  have m18 : x₀ (min 18 G.length) = F₀ := by rw [l20]; exact e18
  have m19 : x₀ (min 19 G.length) = X := by rw [l20]; exact e19
  obtain ⟨y0, v0, s0, -⟩ := val (fun i => x₀ (min i G.length)) m3 (by simp only [m7]) (by simp only [m18]) m19
  have hws : ∀ z ∈ [18, 7], z < G.length ∧ (G.tg.gr.node z).input = true ∧ Reach G.tg.gr 0 z := by
    intro z hz
    have hr := AD.cnn_reach op o1 o2 po lo b (op.retH h).toNat (op.retW w).toNat c l
    rw [← htg] at hr
    simp only [List.mem_cons, List.not_mem_nil, or_false] at hz
    rcases hz with rfl | rfl
    · exact ⟨by rw [l20]; omega, by rw [hG]; rfl, hr.1⟩
    · exact ⟨by rw [l20]; omega, by rw [hG]; rfl, hr.2⟩
  obtain ⟨res, dv, g1, -, K⟩ := training_graph_descends (G := G) (by rw [htg]; exact AD.cnn_sorted _ _ _ _ _ _ _ _ _ _) users 0
    (by rw [l20]; omega) (ws := [18, 7]) (by simp) (by decide) hws x₀
    (fine _ m3 (by simp only [m7]) (by simp only [m18]) m19 (by simp only [m18]; exact hgen)) ⟨y0, v0, s0⟩ S hc
  refine ⟨res, dv, g1, fun leaves hl => ?_⟩
  obtain ⟨xs, a1, a2, a3, a4, a5⟩ := K leaves hl
  have b3 : ∀ r, xs r 3 = Y := fun r => by rw [a3 r 3 (by simp), m3]
  have b19 : ∀ r, xs r 19 = X := fun r => by rw [a3 r 19 (by simp), m19]
  have c18 : ∀ r, (xs r 18).shape = F₀.shape := fun r => by rw [a4 r 18, m18]
  have c7 : ∀ r, (xs r 7).shape = W₀.shape := fun r => by rw [a4 r 7, m7]
  refine ⟨fun r => xs r 18, fun r => xs r 7, by rw [← m18]; exact a1 18, by rw [← m7]; exact a1 7, fun r hr => ?_,
    fun r => ⟨c18 r, c7 r⟩, fun r hr => ?_⟩
  · obtain ⟨t', t1, t2⟩ := a2 r fun j hj => fine _ (b3 j) (c7 j) (c18 j) (b19 j) (hr j hj)
    exact ⟨t', t1, t2 18 (by rw [l20]; omega), t2 7 (by rw [l20]; omega)⟩
  · obtain ⟨g, hg, hstep⟩ := a5 r (fine _ (b3 r) (c7 r) (c18 r) (b19 r) hr)
    refine ⟨g 18, g 7, by rw [hg.1 18 (by simp), c18], by rw [hg.1 7 (by simp), c7], ?_,
      fun i hi => hstep 18 (by simp) i (by rw [e18]; exact hi), fun i hi => hstep 7 (by simp) i (by rw [e7]; exact hi)⟩
    intro a s ha hs
    have := hg.2 (fun t i => if i = 18 then Shape.moveT (xs r 18) a t else if i = 7 then Shape.moveT (xs r 7) s t else xs r i)
      (fun i => if i = 18 then a else s) 0 (by
        funext i
        by_cases i1 : i = 18
        · subst i1; simp [AD.moveT_zero]
        by_cases i2 : i = 7
        · subst i2; simp [AD.moveT_zero]
        simp [i1, i2]) (by
        intro i hi
        simp only [List.mem_cons, List.not_mem_nil, or_false] at hi
        rcases hi with rfl | rfl
        · exact Moves.line _ a (by rw [ha, c18])
        · exact Moves.line _ s (by rw [hs, c7])) (by
        intro i hi t
        simp at hi
        simp [hi])
    have hsum : ∑ w ∈ [18, 7].toFinset, pair (g w) ((fun i => if i = 18 then a else s) w) = pair (g 18) a + pair (g 7) s := by simp
    rw [hsum] at this
    refine this.congr_of_eventuallyEq (Filter.Eventually.of_forall fun t => ?_)
    obtain ⟨y, y1, -, y3⟩ := val (fun i => if i = 18 then Shape.moveT (xs r 18) a t else if i = 7 then Shape.moveT (xs r 7) s t else xs r i)
      (b3 r) (c7 r) (c18 r) (b19 r)
    simp only []
    rw [y1]
    show _ = y.at_ []
    rw [y3]
    simp

/-- An image with four pixels, one filter of one pixel, windows of two pixels and two classes: the first round succeeds. -/
example (S : Fields) (hc : ClipOk S) (users : Nat → Nat) (G : XG)
    (hG : G = cnnG ⟨1, 1, 0, 0, 1, 1, 1, 1⟩ [0] [0] ⟨1, 2, 0, 0, 0, 0, false, 1, 1⟩ (-1) 1 2 2 1 1) (x₀ : Nat → T ℝ)
    (hx₀ : x₀ = fun i => if i = 19 then ⟨[1, 1, 2, 2], fun i => [-1, -1, 3, -2].getD (i.getD 2 0 * 2 + i.getD 3 0) 0⟩ else
      if i = 18 then ⟨[1, 1, 1, 1], fun _ => 1⟩ else if i = 7 then ⟨[2, 2], fun _ => 0⟩ else ⟨[1, 2], fun i => i.getD 1 0⟩) :
    ∃ res dv t', gradX G (shapeOf G (startSh G x₀)) users (fun _ => none) 0 [18, 7] = some (res, dv) ∧
      epochs (buildP G (planOf G res).1 (planOf G res).2) [] (buildE id G (planOf G res).1 (adOf G))
        (cfgOf G (shapeOf G (startSh G x₀)) [18, 7] (planOf G res).2) (fun _ => tensorSol (vanillaNode S)) (posOf G) (adOf G) [18, 7] 1
        (startOf G x₀) = some t' := by
  obtain ⟨res, dv, h1, H⟩ := cnn_trains ⟨1, 1, 0, 0, 1, 1, 1, 1⟩ [0] [0] ⟨1, 2, 0, 0, 0, 0, false, 1, 1⟩ (-1) 1 1 2 2 1 2 _ _ _ _
    (by decide) (by decide) (by norm_num) rfl (by
      intro i j hi hj
      have hi : i < 2 := by have : (i : Int) < 2 := hi; omega
      have hj : j < 1 := by have : (j : Int) < 1 := hj; omega
      refine ⟨i, j, ?_⟩
      simp only [NN.InWindow]
      refine ⟨by simp, by simp, ?_, by simp, by simp, ?_⟩
      · show i < 2; omega
      · show j < 2; omega)
    rfl rfl rfl rfl (by decide) (by decide) (by decide) (by decide) (by decide) (by decide) (by decide) (by decide) (by decide) (by decide)
    (by decide) (by decide) (by decide) AD.generic_small S hc users G hG x₀ hx₀
  obtain ⟨f, v, f0, -, K, -⟩ := H [] (by simp)
  obtain ⟨t', t1, -⟩ := K 1 (by
    intro j hj
    have : j = 0 := by omega
    subst this
    rw [f0]
    exact AD.generic_small)
  exact ⟨res, dv, t', h1, t1⟩

end

end Verif.Train
