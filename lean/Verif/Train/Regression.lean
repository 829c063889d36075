import Verif.Train.Build
/-!
A concrete graph all the way from the operations to the weights after training: linear regression.
-/
set_option autoImplicit false
namespace Verif.Train
open Verif.Shape (Res elem scalarT pair)
open Verif.Tensor (T InB size ravel unravel)
open Verif.AD (TG TOp TNode theT Moves zeroT Reach XT XG XNode POp DOp gradX sumDOp bDOp matVecDOp sumTOp bTOp matVecTOp matVecRun)
open Verif.Solver (Fields vanillaNode Param processed ClipOk Dense)

noncomputable section

/-- `Sum((X w - y) ⊙ (X w - y))`; the nodes 4, 5 and 6 are `X`, `w` and `y`. -/
def lrG : XG :=
  [.op (sumDOp []) [1], .op (bDOp .mul) [2, 2], .op (bDOp .sub) [3, 6], .op (matVecDOp false) [4, 5], .leaf, .leaf, .leaf]

def lrSh (m n : Nat) : Nat → List Nat
  | 0 => []
  | 4 => [m, n]
  | 5 => [n]
  | _ => [m]

/-- The gradient nodes of the residual (node 2), as `Grad` builds them. -/
def lrD (m : Nat) : XT :=
  let g := XT.repeat 0 m (.reshape [1] (.cst (scalarT 1))) (.sizeOf 0 (.node 1))
  .add (.bin .mul (.node 2) g) (.bin .mul (.node 2) g)

/-- The gradient node of the weights. -/
def lrE (m : Nat) : XT :=
  .app2 (matVecRun true) (fun s _ => [(AD.flipShp true s).1]) (fun _ _ _ h => AD.matVec_shp h) (.node 4) (lrD m)

/-- This is what `Grad` builds. -/
theorem lr_grad (m n : Nat) (users : Nat → Nat) : ∃ dv, gradX lrG (lrSh m n) users (fun _ => none) 0 [5] = some ([lrE m], dv) := ⟨_, rfl⟩

theorem lr_sorted : lrG.tg.Sorted := by
  intro i n h c hc
  match i, h with
  | 0, h | 1, h | 2, h | 3, h =>
    simp [lrG, XG.tg, XNode.tnode] at h
    subst h
    simp [TNode.kids, lrG, XG.tg] at hc ⊢
    omega
  | 4, h | 5, h | 6, h =>
    simp [lrG, XG.tg, XNode.tnode] at h
    subst h
    simp [TNode.kids] at hc
  | i + 7, h => simp [lrG, XG.tg] at h

/-- The squared error. -/
def lrCost (m n : Nat) (X w y : T ℝ) : ℝ :=
  ∑ i ∈ Finset.range m, (∑ l ∈ Finset.range n, X.at_ [i, l] * w.at_ [l] - y.at_ [i]) ^ 2

theorem lr_good (m n : Nat) (hm : m ≠ 0) (x : Nat → T ℝ) (h4 : (x 4).shape = [m, n]) (h5 : (x 5).shape = [n]) (h6 : ∀ i, 6 ≤ i → (x i).shape = [m]) :
    XOkay lrG (lrSh m n) x ∧ ∃ e, lrG.tg.value x 0 = .ok e ∧ e.shape = [] ∧ e.at_ [] = lrCost m n (x 4) (x 5) (x 6) := by
  have W := lr_sorted
  have h66 := h6 6 (by omega)
  have hpos : ∀ d ∈ [m], d ≠ 0 := by simpa using hm
  have leafv : ∀ i, 4 ≤ i → lrG.tg.value x i = .ok (x i) := by
    intro i hi
    rw [TG.value_eq _ W, xg_getD]
    match i, hi with
    | 4, _ | 5, _ | 6, _ => rfl
    | i + 7, _ => rfl
  obtain ⟨p, p1, p2, p3⟩ := AD.matVecTOp_good false (x 4) (x 5) (by rw [h4]; rfl) (by rw [h5]; rfl) (by
    simp [LinAlg.M.flip, AD.toM, AD.toV, h4, h5])
  have p2 : p.shape = [m] := by rw [p2]; simp [LinAlg.M.flip, AD.toM, h4]
  have v3 : lrG.tg.value x 3 = .ok p := by
    rw [TG.value_eq _ W]
    show (AD.resAll [lrG.tg.value x 4, lrG.tg.value x 5]).bind (matVecTOp false).run = _
    rw [leafv 4 (by omega), leafv 5 (by omega)]
    exact p3.run
  have pv : ∀ i, i < m → p.at_ [i] = ∑ l ∈ Finset.range n, (x 4).at_ [i, l] * (x 5).at_ [l] := by
    intro i _
    unfold matVecRun LinAlg.matVec at p1
    rw [if_pos ⟨by rw [h4]; rfl, by rw [h5]; rfl⟩] at p1
    simp only [LinAlg.M.flip, AD.toM, AD.toV, h4, h5, Bool.false_eq_true, if_false, List.getD_cons_zero, List.getD_cons_succ,
      if_true] at p1
    cases p1
    rfl
  obtain ⟨r, r1, r2, r4, r3⟩ := AD.bTOp_good .sub [m] p (x 6) (.inl p2) (.inl h66) (.inl p2) (fun _ => hpos) fun _ _ => trivial
  have v2 : lrG.tg.value x 2 = .ok r := by
    rw [TG.value_eq _ W]
    show (AD.resAll [lrG.tg.value x 3, lrG.tg.value x 6]).bind (bTOp .sub).run = _
    rw [v3, leafv 6 (by omega)]
    exact r3.run
  obtain ⟨d, d1, d2, d4, d3⟩ := AD.bTOp_good .mul [m] r r (.inl r2) (.inl r2) (.inl r2) (fun _ => hpos) fun _ _ => trivial
  have v1 : lrG.tg.value x 1 = .ok d := by
    rw [TG.value_eq _ W]
    show (AD.resAll [lrG.tg.value x 2, lrG.tg.value x 2]).bind (bTOp .mul).run = _
    rw [v2]
    exact d3.run
  obtain ⟨e, e1, e2, e3⟩ := AD.sumTOp_good [] d (by rw [d2]; simp) (by simp) List.nodup_nil (by rw [d2]; exact hpos)
  obtain ⟨e', f1, f2, -, f4⟩ := Shape.sum_value d [] (by rw [d2]; simp) (by simp) (by rw [d2]; exact hpos)
  rw [e1] at f1
  cases f1
  have e2 : e.shape = [] := by rw [e2, d2]; rfl
  have v0 : lrG.tg.value x 0 = .ok e := by
    rw [TG.value_eq _ W]
    show (AD.resAll [lrG.tg.value x 1]).bind (sumTOp []).run = _
    rw [v1]
    exact e3.run
  refine ⟨⟨TG.Good.fine fun i o ks h => ?_, fun i y hy => ?_⟩, e, v0, e2, ?_⟩
  · match i, h with
    | 0, h => cases h; exact ⟨[d], _, by simp [v1, AD.resAll, Res.bind], e3⟩
    | 1, h => cases h; exact ⟨[r, r], _, by simp [v2, AD.resAll, Res.bind], d3⟩
    | 2, h => cases h; exact ⟨[p, x 6], _, by simp [v3, leafv 6, AD.resAll, Res.bind], r3⟩
    | 3, h => cases h; exact ⟨[x 4, x 5], _, by simp [leafv 4, leafv 5, AD.resAll, Res.bind], p3⟩
    | 4, h | 5, h | 6, h => cases h
    | i + 7, h => simp [lrG, XG.tg] at h
  · match i with
    | 0 => rw [v0] at hy; cases hy; rw [e2]; rfl
    | 1 => rw [v1] at hy; cases hy; rw [d2]; rfl
    | 2 => rw [v2] at hy; cases hy; rw [r2]; rfl
    | 3 => rw [v3] at hy; cases hy; rw [p2]; rfl
    | 4 => rw [leafv 4 (by omega)] at hy; cases hy; rw [h4]; rfl
    | 5 => rw [leafv 5 (by omega)] at hy; cases hy; rw [h5]; rfl
    | i + 6 => rw [leafv _ (by omega)] at hy; cases hy; rw [h6 _ (by omega)]; rfl
  · rw [f4 [] (by rw [e2]; trivial), d2]
    unfold Shape.sumOver lrCost
    have hsz : size [m] = m := by simp [size]
    rw [hsz]
    refine Finset.sum_congr rfl fun k hk => ?_
    have hk := Finset.mem_range.1 hk
    have hu : unravel [m] k = [k] := by simp [unravel, size]
    have hb : InB [m] [k] := ⟨hk, trivial⟩
    rw [hu]
    have hdrop : Shape.dropAxes (Shape.axesOf [m].length []) 0 [k] = [] := rfl
    simp only []
    rw [if_pos hdrop, d4 _ hb, AD.bc_at r2 hb, r4 _ hb, AD.bc_at p2 hb, AD.bc_at h66 hb, pv k hk]
    simp only [AD.BOp.fn]
    ring

/-- The gradient of the squared error. -/
theorem lr_gradient (m n : Nat) (hm : m ≠ 0) (x r : Nat → T ℝ) (h4 : (x 4).shape = [m, n]) (h5 : (x 5).shape = [n])
    (h6 : ∀ i, 6 ≤ i → (x i).shape = [m]) (hr : IsGradient lrG.tg 0 [5] x r) : (r 5).shape = [n] ∧ ∀ j, j < n →
      (r 5).at_ [j] = 2 * ∑ i ∈ Finset.range m, (x 4).at_ [i, j] * (∑ l ∈ Finset.range n, (x 4).at_ [i, l] * (x 5).at_ [l] - (x 6).at_ [i]) := by
  have hrs : (r 5).shape = [n] := by rw [hr.1 5 (by simp), h5]
  refine ⟨hrs, fun j hj => ?_⟩
  let v : T ℝ := ⟨[n], fun i => if i = [j] then 1 else 0⟩
  have d1 := hr.2 (fun t i => if i = 5 then Shape.moveT (x 5) v t else x i) (fun _ => v) 0 (by
    funext i
    by_cases e : i = 5
    · subst e; simp [AD.moveT_zero]
    · simp [e]) (by simpa using Moves.line (x 5) v h5.symm) (by
    intro i hi t
    simp at hi
    simp [hi])
  have hval : (fun t : ℝ => (theT (lrG.tg.value (fun i => if i = 5 then Shape.moveT (x 5) v t else x i) 0)).at_ []) =
      fun t => lrCost m n (x 4) (Shape.moveT (x 5) v t) (x 6) := by
    funext t
    obtain ⟨-, e, e1, -, e2⟩ := lr_good m n hm (fun i => if i = 5 then Shape.moveT (x 5) v t else x i) h4 h5
      (fun i hi => by
        have : i ≠ 5 := by omega
        simpa [this] using h6 i hi)
    rw [e1]
    exact e2
  rw [hval] at d1
  have d2 : HasDerivAt (fun t : ℝ => lrCost m n (x 4) (Shape.moveT (x 5) v t) (x 6))
      (∑ i ∈ Finset.range m, 2 * (∑ l ∈ Finset.range n, (x 4).at_ [i, l] * (x 5).at_ [l] - (x 6).at_ [i]) * (x 4).at_ [i, j]) 0 := by
    unfold lrCost
    refine HasDerivAt.fun_sum fun i _ => ?_
    have h1 : HasDerivAt (fun t : ℝ => ∑ l ∈ Finset.range n, (x 4).at_ [i, l] * (Shape.moveT (x 5) v t).at_ [l])
        (∑ l ∈ Finset.range n, (x 4).at_ [i, l] * v.at_ [l]) 0 := by
      refine HasDerivAt.fun_sum fun l _ => ?_
      have := (((hasDerivAt_id (0 : ℝ)).mul_const (v.at_ [l])).const_add ((x 5).at_ [l])).const_mul ((x 4).at_ [i, l])
      refine this.congr_deriv ?_
      simp
    have hs : (∑ l ∈ Finset.range n, (x 4).at_ [i, l] * v.at_ [l]) = (x 4).at_ [i, j] := by
      rw [Finset.sum_eq_single j]
      · simp [v]
      · intro l _ hl
        simp [v, hl]
      · intro h
        exact absurd (Finset.mem_range.2 hj) h
    have := (h1.sub_const ((x 6).at_ [i])).pow 2
    rw [hs] at this
    refine this.congr_deriv ?_
    simp [Shape.moveT]
  have := d1.unique d2
  simp only [List.toFinset_cons, List.toFinset_nil, insert_empty_eq, Finset.sum_singleton] at this
  rw [Shape.pair_eq, hrs] at this
  unfold Shape.sumOver at this
  have hsz : size [n] = n := by simp [size]
  rw [hsz, Finset.sum_eq_single j] at this
  · have hu : unravel [n] j = [j] := by simp [unravel, size]
    rw [hu] at this
    simp only [v, if_true, mul_one] at this
    rw [this, Finset.mul_sum]
    refine Finset.sum_congr rfl fun i _ => ?_
    ring
  · intro l _ hl
    have hu : unravel [n] l = [l] := by simp [unravel, size]
    rw [hu]
    simp [v, hl]
  · intro h
    exact absurd (Finset.mem_range.2 hj) h

theorem lr_ext (m n : Nat) : (∀ (j : Nat) (d : DOp) (ks : List Nat), lrG[j]? = some (.op d ks) → d.sym.op.Ext (ks.map (lrSh m n))) ∧
    ExtAllL (lrSh m n) [lrE m] := by
  constructor
  · intro j d ks h
    match j, h with
    | 0, h => cases h; exact AD.sum_ext [] (fun _ _ h => AD.sum_shp [] h) _
    | 1, h => cases h; exact AD.elem_ext _ (fun _ _ _ h => AD.elem_shape _ h) _ _
    | 2, h => cases h; exact AD.elem_ext _ (fun _ _ _ h => AD.elem_shape _ h) _ _
    | 3, h => cases h; exact AD.matVec_ext _ (fun _ _ _ h => AD.matVec_shp h) _ _
    | 4, h | 5, h | 6, h => cases h
    | j + 7, h => simp [lrG] at h
  · have hg : ExtAll (lrSh m n) (XT.repeat 0 m (.reshape [1] (.cst (scalarT 1))) (.sizeOf 0 (.node 1))) := by
      simp only [XT.repeat, XT.reshape, XT.sizeOf, XT.app1, XT.app2, ExtAll, ExtAllL, XAll, XAllL, and_true, true_and]
      exact ⟨AD.repeat_ext _ _ _ _ (show 0 < 1 from Nat.one_pos), AD.reshape_ext _ _ _, AD.sizeOf_ext _ _ _⟩
    have hm : ExtAll (lrSh m n) (XT.bin .mul (.node 2) (XT.repeat 0 m (.reshape [1] (.cst (scalarT 1))) (.sizeOf 0 (.node 1)))) := by
      simp only [XT.bin, XT.app2, ExtAll, ExtAllL, XAll, XAllL, and_true, true_and]
      exact ⟨AD.elem_ext _ _ _ _, hg⟩
    simp only [lrE, lrD, XT.add, XT.app2, ExtAllL, ExtAll, XAll, XAllL, and_true, true_and]
    exact ⟨AD.matVec_ext _ _ _ _, AD.elem_ext _ _ _ _, hm, hm⟩

theorem lr_ws : ∀ w ∈ [5], w < lrG.length ∧ (lrG.tg.gr.node w).input = true ∧ Reach lrG.tg.gr 0 w := by
  intro w hw
  simp only [List.mem_singleton] at hw
  subst hw
  refine ⟨by decide, rfl, ?_⟩
  have s : ∀ i j k : Nat, (lrG.tg.gr.node i).children[k]? = some j → (lrG.tg.gr.node i).diffs[k]? = some true → AD.Dep lrG.tg.gr i j :=
    fun i j k h1 h2 => List.mem_of_getElem? (i := k) (by rw [List.getElem?_zip_eq_some]; exact ⟨h1, h2⟩)
  exact (((Relation.ReflTransGen.single (s 0 1 0 rfl rfl)).tail (s 1 2 0 rfl rfl)).tail (s 2 3 0 rfl rfl)).tail (s 3 5 1 rfl rfl)

/-- At the weights 0 for the single data point `1 ↦ 3` the gradient node has the value `-6`. -/
example : ∃ v : T ℝ, (lrE 1).eval (lrG.tg.value fun i => if i = 4 then ⟨[1, 1], fun _ => 1⟩ else if i = 5 then ⟨[1], fun _ => 0⟩ else
    ⟨[1], fun _ => 3⟩) = .ok v ∧ v.at_ [0] = -6 := by
  set x : Nat → T ℝ := fun i => if i = 4 then ⟨[1, 1], fun _ => 1⟩ else if i = 5 then ⟨[1], fun _ => 0⟩ else ⟨[1], fun _ => 3⟩ with hxd
  have h6 : ∀ i, 6 ≤ i → (x i).shape = [1] := fun i hi => by
    have e4 : i ≠ 4 := by omega
    have e5 : i ≠ 5 := by omega
    simp [hxd, e4, e5]
  have hx := (lr_good 1 1 (by decide) x rfl rfl h6).1
  obtain ⟨res, dv, hg, -, H⟩ := gradX_correct lr_sorted (fun _ => 2) 0 (by decide) rfl (by simp) lr_ws ⟨x, hx⟩
  obtain ⟨dv', hg'⟩ := lr_grad 1 1 (fun _ => 2)
  rw [hg'] at hg
  cases hg
  obtain ⟨r, r1, r2⟩ := H x hx
  obtain ⟨t, v, t1, t2, t3⟩ := r2 0 5 rfl
  cases t1
  obtain ⟨g1, g2⟩ := lr_gradient 1 1 (by decide) x r rfl rfl h6 r1
  refine ⟨v, t2, ?_⟩
  rw [t3.2 [0] (by rw [t3.1, g1]; exact ⟨by omega, trivial⟩), g2 0 (by omega)]
  simp [hxd]
  norm_num

/-- **C112 (a concrete graph).** Linear regression with `m > 0` data points and `n` features, trained by the plain solver: all rounds
succeed, and in every round the weights become `w - 2 η Xᵀ (X w - y)`. -/
theorem lr_trains (F : Fields) (h1 : F.useClip = false) (h2 : F.useL1Reg = false) (h3 : F.useL2Reg = false) (hb : F.batch = 1)
    (m n : Nat) (hm : m ≠ 0) (X w y : T ℝ) (hX : X.shape = [m, n]) (hw : w.shape = [n]) (hy : y.shape = [m]) (leaves : List Nat)
    (hl : ∀ l ∈ leaves, l < (planOf lrG [lrE m]).1.length) :
    ∃ v : Nat → T ℝ, v 0 = w ∧
      (∀ k, ∃ t', epochs (buildP lrG (planOf lrG [lrE m]).1 (planOf lrG [lrE m]).2) leaves
          (buildE norm lrG (planOf lrG [lrE m]).1 (adOf lrG)) (cfgOf lrG (lrSh m n) [5] (planOf lrG [lrE m]).2)
          (fun _ => tensorSol (vanillaNode F)) (posOf lrG) (adOf lrG) [5] k
          (startOf lrG fun i => if i = 4 then X else if i = 5 then w else y) = some t' ∧ t'.m.mem 5 = v k) ∧
      ∀ k j, j < n → (v (k + 1)).at_ [j] = (v k).at_ [j] -
        F.eta * (2 * ∑ i ∈ Finset.range m, X.at_ [i, j] * (∑ l ∈ Finset.range n, X.at_ [i, l] * (v k).at_ [l] - y.at_ [i])) := by
  obtain ⟨dv, hgrad⟩ := lr_grad m n (fun _ => 2)
  obtain ⟨xs, cs, x0, -, hrun, hstay, hsh, hstep⟩ := training_built lr_sorted (fun _ => 2) 0 (by decide) (by simp) (by simp) lr_ws hgrad
    (lr_ext m n).1 (lr_ext m n).2 leaves hl (fun _ => vanillaNode F)
    (fun _ n w g c => ⟨_, _, Solver.vanilla_dense F n w g c (by simp [ClipOk, h1])⟩)
    (fun i => if i = 4 then X else if i = 5 then w else y) (by simpa [lrSh] using hw)
  have hrest : ∀ k i, i ≠ 5 → xs k i = xs 0 i := by
    intro k i hi
    induction k with
    | zero => rfl
    | succ k ih => rw [hstay k i (by simpa using hi), ih]
  have hx4 : ∀ k, xs k 4 = X := fun k => by rw [hrest k 4 (by omega), x0]; rfl
  have hx6 : ∀ k i, 6 ≤ i → xs k i = y := by
    intro k i hi
    rw [hrest k i (by omega), x0]
    have h7 : lrG.length = 7 := rfl
    have e4 : min i lrG.length ≠ 4 := by rw [h7]; omega
    have e5 : min i lrG.length ≠ 5 := by rw [h7]; omega
    simp only [e4, e5, if_false]
  have hsh5 : ∀ k, (xs k 5).shape = [n] := fun k => hsh k 5 (by simp)
  have hok : ∀ k, XOkay lrG (lrSh m n) (xs k) := fun k =>
    (lr_good m n hm (xs k) (by rw [hx4]; exact hX) (hsh5 k) (fun i hi => by rw [hx6 k i hi]; exact hy)).1
  refine ⟨fun k => xs k 5, by simp only [x0]; rfl, fun k => ?_, fun k j hj => ?_⟩
  · obtain ⟨t', a, b, -⟩ := hrun k fun j _ => hok j
    exact ⟨t', a, b 5 (by decide)⟩
  · obtain ⟨d, hd, hs⟩ := hstep k (hok k)
    obtain ⟨g1, g2⟩ := lr_gradient m n hm (xs k) d (by rw [hx4]; exact hX) (hsh5 k) (fun i hi => by rw [hx6 k i hi]; exact hy) hd
    have hs := hs 5 (by simp)
    rw [Solver.vanilla_dense F _ _ _ _ (by simp [ClipOk, h1])] at hs
    simp only [Option.some.injEq, Param.dense.injEq, heq_eq_eq, true_and] at hs
    have hsz : size (lrSh m n 5) = n := by simp [size, lrSh]
    have := congrFun hs.1 ⟨j, by rw [hsz]; exact hj⟩
    have hu : unravel [n] j = [j] := by simp [unravel, size]
    simp only [flatD, hsh5, g1, hu] at this
    rw [← this, g2 j hj, hx4, hx6 k 6 (by omega)]
    simp [processed, Solver.regularised, h1, h2, h3, hb]

end

end Verif.Train
