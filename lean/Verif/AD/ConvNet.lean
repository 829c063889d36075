import Verif.AD.TensorConv
/-!
`Grad` through convolutions: the gradient of a convolution is the textbook one, and the gradient of the cost of a small
convolutional network (convolution, rectifier, max pooling, dense layer, cross entropy) is its gradient.
-/
set_option autoImplicit false
namespace Verif.AD
open Verif.Tensor Verif.Shape Verif.NN Verif.LinAlg Filter
open scoped Topology

noncomputable section

/-- The nodes that `Conv2d` (nn.go 211-305) builds, as nodes `k` to `k + 7` of a graph: `k + 6` is the filter, `k + 7` the image. -/
def convNodes (k : Nat) (op : Conv) (o1 o2 : List Nat) (b m n c l : Nat) : TG :=
  [.op (transposeTOp [0, 3, 1, 2]) [k + 1], .op (reshapeTOp [b, m, n, l]) [k + 2], .op (matMulTOp false true) [k + 3, k + 4],
   .op (reshapeTOp [b * m * n, c * op.w * op.h]) [k + 5], .op (reshapeTOp [l, c * op.h * op.w]) [k + 6],
   .op (im2colTOp op o1 o2) [k + 7], .leaf, .leaf]

theorem drop_get {α : Type} {G H : List α} {k : Nat} (h : G.drop k = H) (j : Nat) : G[k + j]? = H[j]? := by
  rw [← h, List.getElem?_drop]

theorem value_leaf {G : TG} (W : G.Sorted) (x : Nat → T ℝ) {i : Nat} (h : G[i]? = some .leaf) : G.value x i = .ok (x i) := by
  rw [TG.value_eq G W, List.getD_eq_getElem?_getD, h]
  rfl

theorem value_cst {G : TG} (W : G.Sorted) (x : Nat → T ℝ) {i : Nat} {t : T ℝ} (h : G[i]? = some (.cst t)) : G.value x i = .ok t := by
  rw [TG.value_eq G W, List.getD_eq_getElem?_getD, h]
  rfl

theorem value_op {G : TG} (W : G.Sorted) (x : Nat → T ℝ) {i : Nat} {o : TOp} {ks : List Nat} (h : G[i]? = some (.op o ks)) :
    G.value x i = (resAll (ks.map (G.value x))).bind o.run := by
  rw [TG.value_eq G W, List.getD_eq_getElem?_getD, h]
  rfl

theorem value_one {G : TG} (W : G.Sorted) (x : Nat → T ℝ) {i j : Nat} {o : TOp} (h : G[i]? = some (.op o [j])) {a y : T ℝ}
    (hj : G.value x j = .ok a) (hg : o.Good [a] y) : G.value x i = .ok y := by
  rw [value_op W x h]
  show (resAll [G.value x j]).bind o.run = _
  rw [hj]
  exact hg.run

theorem value_two {G : TG} (W : G.Sorted) (x : Nat → T ℝ) {i j k : Nat} {o : TOp} (h : G[i]? = some (.op o [j, k])) {a c y : T ℝ}
    (hj : G.value x j = .ok a) (hk : G.value x k = .ok c) (hg : o.Good [a, c] y) : G.value x i = .ok y := by
  rw [value_op W x h]
  show (resAll [G.value x j, G.value x k]).bind o.run = _
  rw [hj, hk]
  exact hg.run

/-- One node of a graph can be differentiated. -/
def OkNode (G : TG) (x : Nat → T ℝ) (i : Nat) : Prop := ∀ (o : TOp) (ks : List Nat), G[i]? = some (.op o ks) →
  ∃ xs y, resAll (ks.map (G.value x)) = .ok xs ∧ o.Good xs y

theorem okNode_one {G : TG} {x : Nat → T ℝ} {i j : Nat} {o : TOp} (h : G[i]? = some (.op o [j])) {a y : T ℝ}
    (hj : G.value x j = .ok a) (hg : o.Good [a] y) : OkNode G x i := by
  intro o' ks h'
  rw [h] at h'
  cases h'
  exact ⟨[a], y, by simp [hj, resAll, Res.bind], hg⟩

theorem okNode_two {G : TG} {x : Nat → T ℝ} {i j k : Nat} {o : TOp} (h : G[i]? = some (.op o [j, k])) {a c y : T ℝ}
    (hj : G.value x j = .ok a) (hk : G.value x k = .ok c) (hg : o.Good [a, c] y) : OkNode G x i := by
  intro o' ks h'
  rw [h] at h'
  cases h'
  exact ⟨[a, c], y, by simp [hj, hk, resAll, Res.bind], hg⟩

theorem okNode_leaf {G : TG} {x : Nat → T ℝ} {i : Nat} (h : G[i]? = some .leaf) : OkNode G x i := by
  intro o' ks h'
  rw [h] at h'
  cases h'

theorem OkNode.fine {G : TG} {x : Nat → T ℝ} {i : Nat} (h : OkNode G x i) (o : TOp) (ks : List Nat) (hi : G[i]? = some (.op o ks)) :
    ∃ xs y P, resAll (ks.map (G.value x)) = .ok xs ∧ o.Fine xs y P ∧ ∀ (γ : ℝ → Nat → T ℝ) (t₀ : ℝ), γ t₀ = x →
    (∀ c, i < c → c < G.length → (∀ᶠ t in 𝓝 t₀, ∃ y, G.value (γ t) c = .ok y) ∧
      ∃ v, Moves (fun t => theT (G.value (γ t) c)) v t₀) → P (ks.map fun c t => theT (G.value (γ t) c)) t₀ := by
  obtain ⟨xs, y, h1, h2⟩ := h o ks hi
  exact ⟨xs, y, _, h1, h2.fine, fun _ _ _ _ => trivial⟩

theorem ofM_same (m : M) : AD.ofM m = NN.ofM m := rfl

/-- The nodes of a convolution have values and can be differentiated; the value is the textbook convolution. -/
theorem conv_part (G : TG) (W : G.Sorted) (x : Nat → T ℝ) (k : Nat) (op : Conv) (o1 o2 : List Nat) (b c h w l : Nat)
    (hG : G.drop k = convNodes k op o1 o2 b (op.retH h).toNat (op.retW w).toNat c l)
    (h1 : o1.Perm (List.range b)) (h2 : o2.Perm (List.range b)) (hX : (x (k + 7)).shape = [b, c, h, w])
    (hF : (x (k + 6)).shape = [l, c, op.h, op.w]) (hh : 0 ≤ op.retH h) (hw : 0 ≤ op.retW w)
    (p1 : 0 < op.h) (p2 : 0 < op.w) (p3 : 0 < op.strideH) (p4 : 0 < op.strideW) (p5 : 0 < op.dilationH) (p6 : 0 < op.dilationW) :
    (∀ j < 8, OkNode G x (k + j)) ∧ ∃ u, G.value x k = .ok u ∧ u.shape = [b, l, (op.retH h).toNat, (op.retW w).toNat] ∧
      ∀ bi li i j : Nat, bi < b → li < l → (i : Int) < op.retH h → (j : Int) < op.retW w →
        u.at_ [bi, li, i, j] = textbook op (x (k + 7)) (x (k + 6)) c h w bi li i j := by
  obtain ⟨m, hm⟩ : ∃ m, m = (op.retH h).toNat := ⟨_, rfl⟩
  obtain ⟨n, hn⟩ : ∃ n, n = (op.retW w).toNat := ⟨_, rfl⟩
  obtain ⟨out, c1, c2, c3⟩ := conv2d_exact_partial op b c h w l o1 h1 (x (k + 7)) (x (k + 6)) hX hF p1 p2 p3 p4 p5 p6 hh hw
  rw [← hm, ← hn] at hG c2 ⊢
  have g0 := drop_get hG 0
  have g1 := drop_get hG 1
  have g2 := drop_get hG 2
  have g3 := drop_get hG 3
  have g4 := drop_get hG 4
  have g5 := drop_get hG 5
  have g6 := drop_get hG 6
  have g7 := drop_get hG 7
  simp only [convNodes, List.getElem?_cons_zero, List.getElem?_cons_succ] at g0 g1 g2 g3 g4 g5 g6 g7
  have v6 : G.value x (k + 6) = .ok (x (k + 6)) := value_leaf W x g6
  have v7 : G.value x (k + 7) = .ok (x (k + 7)) := value_leaf W x g7
  obtain ⟨y5, a1, a2, a3⟩ := im2colTOp_good op b c h w o1 o2 h1 h2 (x (k + 7)) hX hh hw
  rw [← hm, ← hn] at a2
  have v5 := value_one W x g5 v7 a3
  obtain ⟨y4, b1, b2, b3⟩ := reshapeTOp_good [l, c * op.h * op.w] (x (k + 6)) (by rw [hF]; simp only [size]; ring)
  have v4 := value_one W x g4 v6 b3
  obtain ⟨y3, d1, d2, d3⟩ := reshapeTOp_good [b * m * n, c * op.w * op.h] y5 (by rw [a2]; simp only [size]; ring)
  have v3 := value_one W x g3 v5 d3
  have hfit : ((AD.toM y3).flip false).c = ((AD.toM y4).flip true).r := by
    simp [M.flip, M.T, AD.toM, d2, b2]; ring
  obtain ⟨y2, e1, e2, e3⟩ := matMulTOp_good false true y3 y4 (by rw [d2]; rfl) (by rw [b2]; rfl) hfit
  have e2 : y2.shape = [b * m * n, l] := by rw [e2]; simp [M.flip, M.T, AD.toM, d2, b2]
  have v2 := value_two W x g2 v3 v4 e3
  obtain ⟨y1, f1, f2, f3⟩ := reshapeTOp_good [b, m, n, l] y2 (by rw [e2]; simp only [size]; ring)
  have v1 := value_one W x g1 v2 f3
  have hp : IsPerm [0, 3, 1, 2] := by unfold IsPerm; decide
  have t3 := transposeTOp_good [0, 3, 1, 2] hp y1 (by rw [f2]; rfl)
  have v0 : G.value x (k + 0) = _ := value_one W x g0 v1 t3
  have hconv : conv2d (x (k + 7)) (x (k + 6)) [op.h, op.w] (some [op.padH, op.padW]) [op.strideH, op.strideW]
        (some [op.dilationH, op.dilationW]) o1 = some (transposeT [0, 3, 1, 2] y1) := by
    unfold conv2d
    rw [if_neg (by simp [hX, hF])]
    simp only [Option.getD_some]
    rw [mkConv_some op p1 p2 p3 p4 p5 p6, Option.bind_some, a1, Option.bind_some]
    unfold convTail
    rw [hF, a2]
    simp only
    rw [if_neg (by simp; ring)]
    simp only [List.map_cons, List.map_nil, Int.ofNat_eq_natCast] at b1 d1 f1
    rw [b1, d1]
    simp only [NN.ofRes, Option.bind_some]
    have m3 : NN.toM y3 = some (AD.toM y3) := by simp [NN.toM, AD.toM, d2]
    have m4 : NN.toM y4 = some (AD.toM y4) := by simp [NN.toM, AD.toM, b2]
    rw [m3, m4]
    simp only [Option.bind_some]
    unfold matMulRun at e1
    rw [if_pos ⟨by rw [d2]; rfl, by rw [b2]; rfl⟩] at e1
    match hq : matMul false true (AD.toM y3) (AD.toM y4), e1 with
    | some z, e1 =>
      simp only [Res.ok.injEq, ofM_same] at e1
      rw [Option.bind_some, e1, f1]
      simp only [Option.bind_some]
      unfold transposeVal
      rw [f2]
      rfl
  rw [c1] at hconv
  cases hconv
  refine ⟨fun j hj => ?_, _, v0, c2, c3⟩
  match j, hj with
  | 0, _ => exact okNode_one g0 v1 t3
  | 1, _ => exact okNode_one g1 v2 f3
  | 2, _ => exact okNode_two g2 v3 v4 e3
  | 3, _ => exact okNode_one g3 v5 d3
  | 4, _ => exact okNode_one g4 v6 b3
  | 5, _ => exact okNode_one g5 v7 a3
  | 6, _ => exact okNode_leaf g6
  | 7, _ => exact okNode_leaf g7

/-- The sum of all elements. -/
theorem sum_all (d : T ℝ) (hr : d.shape ≠ []) (hp : ∀ n ∈ d.shape, n ≠ 0) :
    ∃ e, sumNode d [] = .ok e ∧ e.shape = [] ∧ e.at_ [] = sumOver d.shape d.at_ ∧ (sumTOp []).Good [d] e := by
  obtain ⟨e, e1, e2, e3⟩ := sumTOp_good [] d hr (by simp) List.nodup_nil hp
  obtain ⟨q, q1, q2, _, q3⟩ := sum_value d [] hr (by simp) hp
  rw [e1] at q1
  cases q1
  have hdrop : ∀ i : List Nat, i.length = d.shape.length → dropAxes (axesOf d.shape.length []) 0 i = [] := by
    intro i hl
    refine drop_all i 0 _ fun j _ hj => ?_
    simp only [axesOf, if_pos, List.mem_range]
    omega
  have hq : e.shape = [] := q2.trans (hdrop _ rfl)
  refine ⟨e, e1, hq, ?_, e3⟩
  rw [q3 [] (by rw [hq]; trivial)]
  refine sumOver_congr _ _ _ fun i hi => ?_
  rw [if_pos (hdrop i hi.length)]

/-! ### The gradient of a convolution -/

/-- `Sum(Y ⊙ Conv2d(X, F))`: node 2 is `Y`, 9 the filter `F`, 10 the image `X`. -/
def convSum (op : Conv) (o1 o2 : List Nat) (b m n c l : Nat) : TG :=
  [.op (sumTOp []) [1], .op (bTOp .mul) [2, 3], .leaf] ++ convNodes 3 op o1 o2 b m n c l

theorem convSum_sorted (op : Conv) (o1 o2 : List Nat) (b m n c l : Nat) : (convSum op o1 o2 b m n c l).Sorted := by
  intro i n h k hk
  match i, h with
  | 0, h | 1, h | 2, h | 3, h | 4, h | 5, h | 6, h | 7, h | 8, h | 9, h | 10, h =>
    simp [convSum, convNodes] at h
    subst h
    simp [TNode.kids, convSum, convNodes] at hk ⊢
    try omega
  | i + 11, h => simp [convSum, convNodes] at h

theorem convSum_good (op : Conv) (o1 o2 : List Nat) (b c h w l : Nat) (x : Nat → T ℝ) (h1 : o1.Perm (List.range b)) (h2 : o2.Perm (List.range b))
    (hY : (x 2).shape = [b, l, (op.retH h).toNat, (op.retW w).toNat]) (hF : (x 9).shape = [l, c, op.h, op.w])
    (hX : (x 10).shape = [b, c, h, w]) (hb : 0 < b) (hl : 0 < l) (hh : 0 < op.retH h) (hw : 0 < op.retW w)
    (p1 : 0 < op.h) (p2 : 0 < op.w) (p3 : 0 < op.strideH) (p4 : 0 < op.strideW) (p5 : 0 < op.dilationH) (p6 : 0 < op.dilationW) :
    (convSum op o1 o2 b (op.retH h).toNat (op.retW w).toNat c l).Good x ∧
      ∃ y, (convSum op o1 o2 b (op.retH h).toNat (op.retW w).toNat c l).value x 0 = .ok y ∧ y.shape = [] ∧
        y.at_ [] = ∑ bi ∈ Finset.range b, ∑ li ∈ Finset.range l, ∑ i ∈ Finset.range (op.retH h).toNat, ∑ j ∈ Finset.range (op.retW w).toNat,
          (x 2).at_ [bi, li, i, j] * textbook op (x 10) (x 9) c h w bi li i j := by
  obtain ⟨G, hG⟩ : ∃ G, G = convSum op o1 o2 b (op.retH h).toNat (op.retW w).toNat c l := ⟨_, rfl⟩
  have W : G.Sorted := by rw [hG]; exact convSum_sorted op o1 o2 b _ _ c l
  have hlen : G.length = 11 := by rw [hG]; rfl
  have g0 : G[0]? = some (.op (sumTOp []) [1]) := by rw [hG]; rfl
  have g1 : G[1]? = some (.op (bTOp .mul) [2, 3]) := by rw [hG]; rfl
  have g2 : G[2]? = some .leaf := by rw [hG]; rfl
  obtain ⟨c1, u, u1, u2, u3⟩ := conv_part G W x 3 op o1 o2 b c h w l (by rw [hG]; rfl) h1 h2 hX hF hh.le hw.le p1 p2 p3 p4 p5 p6
  rw [← hG]
  have v2 := value_leaf W x g2
  have hp : ∀ n ∈ [b, l, (op.retH h).toNat, (op.retW w).toNat], n ≠ 0 := by
    simp only [List.mem_cons, List.not_mem_nil, or_false]
    rintro n (rfl | rfl | rfl | rfl) <;> omega
  obtain ⟨d, d1, d2, d3, d4⟩ := bTOp_good .mul _ (x 2) u (.inl hY) (.inl u2) (.inl hY) (fun _ => hp) fun _ _ => trivial
  have v1 := value_two W x g1 v2 u1 d4
  obtain ⟨e, e1, e2, e3, e4⟩ := sum_all d (by rw [d2]; simp) (by rw [d2]; exact hp)
  have v0 := value_one W x g0 v1 e4
  refine ⟨fun i o ks hi => ?_, e, v0, e2, ?_⟩
  · rcases Nat.lt_or_ge i 3 with hi3 | hi3
    · match i, hi3 with
      | 0, _ => exact okNode_one g0 v1 e4 o ks hi
      | 1, _ => exact okNode_two g1 v2 u1 d4 o ks hi
      | 2, _ => exact okNode_leaf g2 o ks hi
    · have hl : i < 11 := by
        rcases Nat.lt_or_ge i 11 with h' | h'
        · exact h'
        · rw [List.getElem?_eq_none (by omega)] at hi
          cases hi
      obtain ⟨j, rfl⟩ : ∃ j, i = 3 + j := ⟨i - 3, by omega⟩
      exact c1 j (by omega) o ks hi
  · rw [e3, d2]
    have : sumOver [b, l, (op.retH h).toNat, (op.retW w).toNat] d.at_ = sumOver [b, l, (op.retH h).toNat, (op.retW w).toNat]
        fun i => (x 2).at_ i * textbook op (x 10) (x 9) c h w (i.getD 0 0) (i.getD 1 0) (i.getD 2 0) (i.getD 3 0) := by
      refine sumOver_congr _ _ _ fun i hi => ?_
      rw [d3 i hi, bc_at hY hi, bc_at u2 hi]
      match i, hi with
      | [i0, i1, i2, i3], hi =>
        show _ * u.at_ _ = _
        rw [u3 i0 i1 i2 i3 hi.1 hi.2.1 (by have := hi.2.2.1; omega) (by have := hi.2.2.2.1; omega)]
        rfl
    rw [this]
    simp only [sumOver_cons, NN.sumOver_nil]
    rfl

theorem textbook_filter (op : Conv) (X F d : T ℝ) (τ : ℝ) (c h w bi li i j : Nat) :
    textbook op X (moveT F d τ) c h w bi li i j = textbook op X F c h w bi li i j + τ * textbook op X d c h w bi li i j := by
  unfold textbook
  simp only [Finset.mul_sum, ← Finset.sum_add_distrib, moveT]
  refine Finset.sum_congr rfl fun ch _ => Finset.sum_congr rfl fun kr _ => Finset.sum_congr rfl fun kc _ => ?_
  ring

theorem textbook_image (op : Conv) (X F d : T ℝ) (τ : ℝ) (c h w bi li i j : Nat) :
    textbook op (moveT X d τ) F c h w bi li i j = textbook op X F c h w bi li i j + τ * textbook op d F c h w bi li i j := by
  unfold textbook
  simp only [Finset.mul_sum, ← Finset.sum_add_distrib]
  refine Finset.sum_congr rfl fun ch _ => Finset.sum_congr rfl fun kr _ => Finset.sum_congr rfl fun kc _ => ?_
  unfold padded moveT
  split
  · ring
  · ring

theorem textbook_unit_filter (op : Conv) (X : T ℝ) (s : List Nat) (c h w bi li i j li' ch kr kc : Nat) (h1 : ch < c) (h2 : kr < op.h) (h3 : kc < op.w) :
    textbook op X ⟨s, fun a => if a = [li', ch, kr, kc] then 1 else 0⟩ c h w bi li i j = if li = li' then
      padded X h w bi ch ((i * op.strideH + kr * op.dilationH : Int) - op.padH) ((j * op.strideW + kc * op.dilationW : Int) - op.padW) else 0 := by
  unfold textbook
  rw [Finset.sum_eq_single_of_mem ch (Finset.mem_range.2 h1), Finset.sum_eq_single_of_mem kr (Finset.mem_range.2 h2),
    Finset.sum_eq_single_of_mem kc (Finset.mem_range.2 h3)]
  · simp
  · intro kc' _ hne; simp [hne]
  · intro kr' _ hne; simp [hne]
  · intro ch' _ hne; simp [hne]

theorem textbook_unit_image (op : Conv) (F : T ℝ) (s : List Nat) (c h w bi li i j bi' ch y x : Nat) (h1 : ch < c) (h2 : y < h) (h3 : x < w) :
    textbook op ⟨s, fun a => if a = [bi', ch, y, x] then 1 else 0⟩ F c h w bi li i j = if bi = bi' then
      ∑ kr ∈ Finset.range op.h, ∑ kc ∈ Finset.range op.w,
        if (i * op.strideH + kr * op.dilationH : Int) - op.padH = y ∧ (j * op.strideW + kc * op.dilationW : Int) - op.padW = x then
          F.at_ [li, ch, kr, kc] else 0 else 0 := by
  unfold textbook
  rw [Finset.sum_eq_single_of_mem ch (Finset.mem_range.2 h1)]
  · split
    · rename_i hb
      refine Finset.sum_congr rfl fun kr _ => Finset.sum_congr rfl fun kc _ => ?_
      unfold padded
      split
      · rename_i hc
        simp only [hb, List.cons.injEq, and_true, true_and]
        by_cases he : (i * op.strideH + kr * op.dilationH : Int) - op.padH = y ∧ (j * op.strideW + kc * op.dilationW : Int) - op.padW = x
        · rw [if_pos he, if_pos ⟨by omega, by omega⟩, mul_one]
        · rw [if_neg he, if_neg fun h' => he ⟨by omega, by omega⟩, mul_zero]
      · rename_i hc
        rw [mul_zero, if_neg fun h' => hc (by omega)]
    · rename_i hb
      refine Finset.sum_eq_zero fun kr _ => Finset.sum_eq_zero fun kc _ => ?_
      unfold padded
      simp [hb]
  · intro ch' _ hne
    refine Finset.sum_eq_zero fun kr _ => Finset.sum_eq_zero fun kc _ => ?_
    unfold padded
    simp [hne]

theorem convSum_reach (op : Conv) (o1 o2 : List Nat) (b m n c l : Nat) :
    Reach (convSum op o1 o2 b m n c l).gr 0 9 ∧ Reach (convSum op o1 o2 b m n c l).gr 0 10 := by
  obtain ⟨G, hG⟩ : ∃ G, G = (convSum op o1 o2 b m n c l).gr := ⟨_, rfl⟩
  rw [← hG]
  have s : ∀ i j k : Nat, (G.node i).children[k]? = some j → (G.node i).diffs[k]? = some true → Dep G i j :=
    fun i j k h1 h2 => List.mem_of_getElem? (i := k) (by rw [List.getElem?_zip_eq_some]; exact ⟨h1, h2⟩)
  have r5 : Reach G 0 5 := (((Relation.ReflTransGen.single (s 0 1 0 (by rw [hG]; rfl) (by rw [hG]; rfl))).tail
    (s 1 3 1 (by rw [hG]; rfl) (by rw [hG]; rfl))).tail (s 3 4 0 (by rw [hG]; rfl) (by rw [hG]; rfl))).tail
    (s 4 5 0 (by rw [hG]; rfl) (by rw [hG]; rfl))
  exact ⟨(r5.tail (s 5 7 1 (by rw [hG]; rfl) (by rw [hG]; rfl))).tail (s 7 9 0 (by rw [hG]; rfl) (by rw [hG]; rfl)),
    ((r5.tail (s 5 6 0 (by rw [hG]; rfl) (by rw [hG]; rfl))).tail (s 6 8 0 (by rw [hG]; rfl) (by rw [hG]; rfl))).tail
      (s 8 10 0 (by rw [hG]; rfl) (by rw [hG]; rfl))⟩

/-- **C33 (gradient).** `Grad` of `Sum(Y ⊙ Conv2d(X, F))` with respect to the filter and the image succeeds and gives the
textbook gradients: for an element of the filter the sum over all images and output positions of `Y` times the pixel it was
multiplied with, for a pixel the sum over the output positions and elements of the filter that meet there. The orders in which
the goroutines of the two directions work on the images do not matter. -/
theorem conv_gradient_partial (op : Conv) (o1 o2 : List Nat) (b c h w l : Nat) (x : Nat → T ℝ) (h1 : o1.Perm (List.range b)) (h2 : o2.Perm (List.range b))
    (hY : (x 2).shape = [b, l, (op.retH h).toNat, (op.retW w).toNat]) (hF : (x 9).shape = [l, c, op.h, op.w])
    (hX : (x 10).shape = [b, c, h, w]) (hb : 0 < b) (hl : 0 < l) (hh : 0 < op.retH h) (hw : 0 < op.retW w)
    (p1 : 0 < op.h) (p2 : 0 < op.w) (p3 : 0 < op.strideH) (p4 : 0 < op.strideW) (p5 : 0 < op.dilationH) (p6 : 0 < op.dilationW)
    (users : Nat → Nat) :
    ∃ rF rX deriv', gradT (convSum op o1 o2 b (op.retH h).toNat (op.retW w).toNat c l) x users (fun _ => none) 0 [9, 10] =
        some ([rF, rX], deriv') ∧ rF.shape = [l, c, op.h, op.w] ∧ rX.shape = [b, c, h, w] ∧
      (∀ li ch kr kc, li < l → ch < c → kr < op.h → kc < op.w → rF.at_ [li, ch, kr, kc] =
        ∑ bi ∈ Finset.range b, ∑ i ∈ Finset.range (op.retH h).toNat, ∑ j ∈ Finset.range (op.retW w).toNat, (x 2).at_ [bi, li, i, j] *
          padded (x 10) h w bi ch ((i * op.strideH + kr * op.dilationH : Int) - op.padH) ((j * op.strideW + kc * op.dilationW : Int) - op.padW)) ∧
      ∀ bi ch y z, bi < b → ch < c → y < h → z < w → rX.at_ [bi, ch, y, z] =
        ∑ li ∈ Finset.range l, ∑ i ∈ Finset.range (op.retH h).toNat, ∑ j ∈ Finset.range (op.retW w).toNat,
          (x 2).at_ [bi, li, i, j] * ∑ kr ∈ Finset.range op.h, ∑ kc ∈ Finset.range op.w,
            if (i * op.strideH + kr * op.dilationH : Int) - op.padH = y ∧ (j * op.strideW + kc * op.dilationW : Int) - op.padW = z then
              (x 9).at_ [li, ch, kr, kc] else 0 := by
  obtain ⟨S, y, hy1, hy2, hy3⟩ := convSum_good op o1 o2 b c h w l x h1 h2 hY hF hX hb hl hh hw p1 p2 p3 p4 p5 p6
  have hval := fun x' (a1 : (x' 2).shape = _) (a2 : (x' 9).shape = _) (a3 : (x' 10).shape = _) =>
    (convSum_good op o1 o2 b c h w l x' h1 h2 a1 a2 a3 hb hl hh hw p1 p2 p3 p4 p5 p6).2
  have W := convSum_sorted op o1 o2 b (op.retH h).toNat (op.retW w).toNat c l
  have hR := convSum_reach op o1 o2 b (op.retH h).toNat (op.retW w).toNat c l
  obtain ⟨G, hG⟩ : ∃ G, G = convSum op o1 o2 b (op.retH h).toNat (op.retW w).toNat c l := ⟨_, rfl⟩
  have hlen : G.length = 11 := by rw [hG]; rfl
  have hin : (G.gr.node 9).input = true ∧ (G.gr.node 10).input = true := by rw [hG]; exact ⟨rfl, rfl⟩
  rw [← hG] at S hy1 W hR ⊢
  simp only [← hG] at hval
  obtain ⟨⟨res, deriv'⟩, hg⟩ := (gradT_succeeds_iff G W x S.fine users (fun _ => none) 0 [9, 10] fun _ _ _ => rfl).2
    ⟨⟨y, hy1, hy2⟩, by simp, by simp [hin, hR]⟩
  obtain ⟨r, r1, r2, r3⟩ := gradT_correct G W x S.fine users (fun _ => none) 0 (by omega) [9, 10] (fun _ _ _ => rfl) (by simp [hlen]) res deriv' hg
  -- along every direction
  have hdF : ∀ v : T ℝ, v.shape = [l, c, op.h, op.w] → pair (r 9) v = ∑ bi ∈ Finset.range b, ∑ li ∈ Finset.range l,
      ∑ i ∈ Finset.range (op.retH h).toNat, ∑ j ∈ Finset.range (op.retW w).toNat,
        (x 2).at_ [bi, li, i, j] * textbook op (x 10) v c h w bi li i j := by
    intro v hv
    have := (r3 (fun t i => if i = 9 then moveT (x 9) v t else x i) (fun i => if i = 9 then v else zeroT [b, c, h, w]) 0
      (by funext i; by_cases hi : i = 9 <;> simp [hi, moveT_zero])
      (by
        intro i hi
        simp only [List.mem_cons, List.not_mem_nil, or_false] at hi
        rcases hi with rfl | rfl
        · exact Moves.line (x 9) v (hv.trans hF.symm)
        · rw [← hX]
          exact Moves.const (x 10) 0)
      (by intro i hi t; simp at hi; simp [hi])).2
    have hs : ∑ i ∈ [9, 10].toFinset, pair (r i) ((fun i => if i = 9 then v else zeroT [b, c, h, w]) i) = pair (r 9) v := by
      simp [pair_zeroT]
    rw [hs] at this
    refine this.unique ?_
    have e : (fun t => (theT (G.value (fun i => if i = 9 then moveT (x 9) v t else x i) 0)).at_ []) = fun t =>
        (∑ bi ∈ Finset.range b, ∑ li ∈ Finset.range l, ∑ i ∈ Finset.range (op.retH h).toNat, ∑ j ∈ Finset.range (op.retW w).toNat,
          (x 2).at_ [bi, li, i, j] * textbook op (x 10) (x 9) c h w bi li i j) +
        t * ∑ bi ∈ Finset.range b, ∑ li ∈ Finset.range l, ∑ i ∈ Finset.range (op.retH h).toNat, ∑ j ∈ Finset.range (op.retW w).toNat,
          (x 2).at_ [bi, li, i, j] * textbook op (x 10) v c h w bi li i j := by
      funext t
      obtain ⟨z, z1, _, z3⟩ := hval (fun i => if i = 9 then moveT (x 9) v t else x i) hY hF hX
      rw [z1]
      show z.at_ [] = _
      rw [z3]
      simp only [if_true, show (2 : Nat) ≠ 9 by decide, show (10 : Nat) ≠ 9 by decide, if_false, textbook_filter, Finset.mul_sum, ← Finset.sum_add_distrib]
      refine Finset.sum_congr rfl fun _ _ => Finset.sum_congr rfl fun _ _ => Finset.sum_congr rfl fun _ _ => Finset.sum_congr rfl fun _ _ => ?_
      ring
    rw [e]
    have := ((hasDerivAt_id (0 : ℝ)).mul_const (∑ bi ∈ Finset.range b, ∑ li ∈ Finset.range l,
      ∑ i ∈ Finset.range (op.retH h).toNat, ∑ j ∈ Finset.range (op.retW w).toNat,
        (x 2).at_ [bi, li, i, j] * textbook op (x 10) v c h w bi li i j)).const_add (∑ bi ∈ Finset.range b, ∑ li ∈ Finset.range l,
          ∑ i ∈ Finset.range (op.retH h).toNat, ∑ j ∈ Finset.range (op.retW w).toNat,
          (x 2).at_ [bi, li, i, j] * textbook op (x 10) (x 9) c h w bi li i j)
    rw [one_mul] at this
    exact this
  have hdX : ∀ v : T ℝ, v.shape = [b, c, h, w] → pair (r 10) v = ∑ bi ∈ Finset.range b, ∑ li ∈ Finset.range l,
      ∑ i ∈ Finset.range (op.retH h).toNat, ∑ j ∈ Finset.range (op.retW w).toNat,
        (x 2).at_ [bi, li, i, j] * textbook op v (x 9) c h w bi li i j := by
    intro v hv
    have := (r3 (fun t i => if i = 10 then moveT (x 10) v t else x i) (fun i => if i = 10 then v else zeroT [l, c, op.h, op.w]) 0
      (by funext i; by_cases hi : i = 10 <;> simp [hi, moveT_zero])
      (by
        intro i hi
        simp only [List.mem_cons, List.not_mem_nil, or_false] at hi
        rcases hi with rfl | rfl
        · rw [← hF]
          exact Moves.const (x 9) 0
        · exact Moves.line (x 10) v (hv.trans hX.symm))
      (by intro i hi t; simp at hi; simp [hi])).2
    have hs : ∑ i ∈ [9, 10].toFinset, pair (r i) ((fun i => if i = 10 then v else zeroT [l, c, op.h, op.w]) i) = pair (r 10) v := by
      simp [pair_zeroT]
    rw [hs] at this
    refine this.unique ?_
    have e : (fun t => (theT (G.value (fun i => if i = 10 then moveT (x 10) v t else x i) 0)).at_ []) = fun t =>
        (∑ bi ∈ Finset.range b, ∑ li ∈ Finset.range l, ∑ i ∈ Finset.range (op.retH h).toNat, ∑ j ∈ Finset.range (op.retW w).toNat,
          (x 2).at_ [bi, li, i, j] * textbook op (x 10) (x 9) c h w bi li i j) +
        t * ∑ bi ∈ Finset.range b, ∑ li ∈ Finset.range l, ∑ i ∈ Finset.range (op.retH h).toNat, ∑ j ∈ Finset.range (op.retW w).toNat,
          (x 2).at_ [bi, li, i, j] * textbook op v (x 9) c h w bi li i j := by
      funext t
      obtain ⟨z, z1, _, z3⟩ := hval (fun i => if i = 10 then moveT (x 10) v t else x i) hY hF hX
      rw [z1]
      show z.at_ [] = _
      rw [z3]
      simp only [if_true, show (2 : Nat) ≠ 10 by decide, show (9 : Nat) ≠ 10 by decide, if_false, textbook_image, Finset.mul_sum, ← Finset.sum_add_distrib]
      refine Finset.sum_congr rfl fun _ _ => Finset.sum_congr rfl fun _ _ => Finset.sum_congr rfl fun _ _ => Finset.sum_congr rfl fun _ _ => ?_
      ring
    rw [e]
    have := ((hasDerivAt_id (0 : ℝ)).mul_const (∑ bi ∈ Finset.range b, ∑ li ∈ Finset.range l,
      ∑ i ∈ Finset.range (op.retH h).toNat, ∑ j ∈ Finset.range (op.retW w).toNat,
        (x 2).at_ [bi, li, i, j] * textbook op v (x 9) c h w bi li i j)).const_add (∑ bi ∈ Finset.range b, ∑ li ∈ Finset.range l,
          ∑ i ∈ Finset.range (op.retH h).toNat, ∑ j ∈ Finset.range (op.retW w).toNat,
          (x 2).at_ [bi, li, i, j] * textbook op (x 10) (x 9) c h w bi li i j)
    rw [one_mul] at this
    exact this
  have hunit : ∀ (s i : List Nat) (g : T ℝ), g.shape = s → InB s i → g.at_ i = pair g ⟨s, fun a => if a = i then 1 else 0⟩ := by
    intro s i g hg hi
    have := pair_basis s (ravel_lt hi) g
    rw [unravel_ravel hi] at this
    rw [← this, pair_comm (show g.shape = (basis s (ravel s i)).shape from hg), basis, unravel_ravel hi]
  have s9 : (r 9).shape = [l, c, op.h, op.w] := (r2 9 (by simp)).trans hF
  have s10 : (r 10).shape = [b, c, h, w] := (r2 10 (by simp)).trans hX
  refine ⟨r 9, r 10, deriv', by rw [hg, r1]; rfl, s9, s10, fun li ch kr kc i1 i2 i3 i4 => ?_, fun bi ch y z i1 i2 i3 i4 => ?_⟩
  · rw [hunit _ [li, ch, kr, kc] _ s9 ⟨i1, i2, i3, i4, trivial⟩, hdF _ rfl]
    refine Finset.sum_congr rfl fun bi _ => ?_
    rw [Finset.sum_eq_single_of_mem li (Finset.mem_range.2 i1)]
    · refine Finset.sum_congr rfl fun i _ => Finset.sum_congr rfl fun j _ => ?_
      rw [textbook_unit_filter op (x 10) _ c h w bi li i j li ch kr kc i2 i3 i4, if_pos rfl]
    · intro li' _ hne
      refine Finset.sum_eq_zero fun i _ => Finset.sum_eq_zero fun j _ => ?_
      rw [textbook_unit_filter op (x 10) _ c h w bi li' i j li ch kr kc i2 i3 i4, if_neg hne, mul_zero]
  · rw [hunit _ [bi, ch, y, z] _ s10 ⟨i1, i2, i3, i4, trivial⟩, hdX _ rfl, Finset.sum_eq_single_of_mem bi (Finset.mem_range.2 i1)]
    · refine Finset.sum_congr rfl fun li _ => Finset.sum_congr rfl fun i _ => Finset.sum_congr rfl fun j _ => ?_
      rw [textbook_unit_image op (x 9) _ c h w bi li i j bi ch y z i2 i3 i4, if_pos rfl]
    · intro bi' _ hne
      refine Finset.sum_eq_zero fun li _ => Finset.sum_eq_zero fun i _ => Finset.sum_eq_zero fun j _ => ?_
      rw [textbook_unit_image op (x 9) _ c h w bi' li i j bi ch y z i2 i3 i4, if_neg hne, mul_zero]

/-- A kernel of 2×2 on a 3×3 image with the elements 1 to 9: the gradient of the sum of the convolution at the upper left element of
the filter is the sum 1 + 2 + 4 + 5 of the pixels it meets, and every pixel in the middle meets the whole filter. -/
example (users : Nat → Nat) : ∃ rF rX deriv', gradT (convSum ⟨2, 2, 0, 0, 1, 1, 1, 1⟩ [0] [0] 1 2 2 1 1)
    (fun i => if i = 2 then ⟨[1, 1, 2, 2], fun _ => 1⟩ else if i = 9 then ⟨[1, 1, 2, 2], fun i => 10 * i.getD 2 0 + i.getD 3 0⟩
      else ⟨[1, 1, 3, 3], fun i => 3 * i.getD 2 0 + i.getD 3 0 + 1⟩) users (fun _ => none) 0 [9, 10] = some ([rF, rX], deriv') ∧
      rF.at_ [0, 0, 0, 0] = 12 ∧ rX.at_ [0, 0, 1, 1] = 22 := by
  obtain ⟨rF, rX, d, h1, _, _, h2, h3⟩ := conv_gradient_partial ⟨2, 2, 0, 0, 1, 1, 1, 1⟩ [0] [0] 1 1 3 3 1
    (fun i => if i = 2 then ⟨[1, 1, 2, 2], fun _ => 1⟩ else if i = 9 then ⟨[1, 1, 2, 2], fun i => 10 * i.getD 2 0 + i.getD 3 0⟩
      else ⟨[1, 1, 3, 3], fun i => 3 * i.getD 2 0 + i.getD 3 0 + 1⟩) (by decide) (by decide) rfl rfl rfl (by decide) (by decide) (by decide)
    (by decide) (by decide) (by decide) (by decide) (by decide) (by decide) (by decide) users
  refine ⟨rF, rX, d, h1, ?_, ?_⟩
  · rw [h2 0 0 0 0 (by decide) (by decide) (by decide) (by decide)]
    rw [show (Conv.retH ⟨2, 2, 0, 0, 1, 1, 1, 1⟩ 3).toNat = 2 by decide, show (Conv.retW ⟨2, 2, 0, 0, 1, 1, 1, 1⟩ 3).toNat = 2 by decide]
    simp [Finset.sum_range_succ, padded]
    norm_num
  · rw [h3 0 0 1 1 (by decide) (by decide) (by decide) (by decide)]
    rw [show (Conv.retH ⟨2, 2, 0, 0, 1, 1, 1, 1⟩ 3).toNat = 2 by decide, show (Conv.retW ⟨2, 2, 0, 0, 1, 1, 1, 1⟩ 3).toNat = 2 by decide]
    simp [Finset.sum_range_succ]
    norm_num

/-! ### A convolutional network -/

/-- The cross entropy of a network with one convolution, `Rectify` (nn.go 136-163), `MaxPool2D` (nn.go 322-375), a reshape and a
dense layer: `-Sum(Y ⊙ LogSoftMax(Reshape(MaxPool2D(Rectify(Conv2d(X, F)))) · W, 1))`, as nodes in the order of `Sort`; node 3 is
`Y`, 7 is `W`, 18 the filter `F`, 19 the image `X`. -/
def cnn (op : Conv) (o1 o2 : List Nat) (po : Pool) (lo : ℝ) (b m n c l : Nat) : TG :=
  [.op (uTOp .neg) [1], .op (sumTOp []) [2], .op (bTOp .mul) [3, 4], .leaf, .op (softTOp true 1) [5],
   .op (matMulTOp false false) [6, 7], .op (reshapeTOp [b, l * ((po.outH m).toNat * (po.outW n).toNat)]) [8], .leaf,
   .op (maxPoolTOp po lo) [9], .op (bTOp .mul) [12, 10], .op (cmpTOp (· ≥ ·)) [12, 11], .cst (scalarT 0)] ++
  convNodes 12 op o1 o2 b m n c l

theorem cnn_sorted (op : Conv) (o1 o2 : List Nat) (po : Pool) (lo : ℝ) (b m n c l : Nat) : (cnn op o1 o2 po lo b m n c l).Sorted := by
  intro i n h k hk
  match i, h with
  | 0, h | 1, h | 2, h | 3, h | 4, h | 5, h | 6, h | 7, h | 8, h | 9, h | 10, h | 11, h | 12, h | 13, h | 14, h | 15, h | 16, h | 17, h
  | 18, h | 19, h =>
    simp [cnn, convNodes] at h
    subst h
    simp [TNode.kids, cnn, convNodes] at hk ⊢
    try omega
  | i + 20, h => simp [cnn, convNodes] at h

theorem cnn_reach (op : Conv) (o1 o2 : List Nat) (po : Pool) (lo : ℝ) (b m n c l : Nat) :
    Reach (cnn op o1 o2 po lo b m n c l).gr 0 18 ∧ Reach (cnn op o1 o2 po lo b m n c l).gr 0 7 := by
  obtain ⟨G, hG⟩ : ∃ G, G = (cnn op o1 o2 po lo b m n c l).gr := ⟨_, rfl⟩
  rw [← hG]
  have s : ∀ i j k : Nat, (G.node i).children[k]? = some j → (G.node i).diffs[k]? = some true → Dep G i j :=
    fun i j k h1 h2 => List.mem_of_getElem? (i := k) (by rw [List.getElem?_zip_eq_some]; exact ⟨h1, h2⟩)
  have r5 : Reach G 0 5 := (((Relation.ReflTransGen.single (s 0 1 0 (by rw [hG]; rfl) (by rw [hG]; rfl))).tail
    (s 1 2 0 (by rw [hG]; rfl) (by rw [hG]; rfl))).tail (s 2 4 1 (by rw [hG]; rfl) (by rw [hG]; rfl))).tail
    (s 4 5 0 (by rw [hG]; rfl) (by rw [hG]; rfl))
  have r12 : Reach G 0 12 := (((r5.tail (s 5 6 0 (by rw [hG]; rfl) (by rw [hG]; rfl))).tail (s 6 8 0 (by rw [hG]; rfl) (by rw [hG]; rfl))).tail
    (s 8 9 0 (by rw [hG]; rfl) (by rw [hG]; rfl))).tail (s 9 12 0 (by rw [hG]; rfl) (by rw [hG]; rfl))
  exact ⟨(((r12.tail (s 12 13 0 (by rw [hG]; rfl) (by rw [hG]; rfl))).tail (s 13 14 0 (by rw [hG]; rfl) (by rw [hG]; rfl))).tail
    (s 14 16 1 (by rw [hG]; rfl) (by rw [hG]; rfl))).tail (s 16 18 0 (by rw [hG]; rfl) (by rw [hG]; rfl)),
    r5.tail (s 5 7 1 (by rw [hG]; rfl) (by rw [hG]; rfl))⟩

/-- What the rectifier makes of a number. -/
theorem relu_mask (a : ℝ) : a * mask (· ≥ ·) a 0 = max a 0 := by
  unfold mask
  by_cases h : a ≥ 0
  · rw [if_pos h, mul_one, max_eq_left h]
  · rw [if_neg h, mul_zero, max_eq_right (le_of_not_ge h)]

/-- The conditions on the data: no element before the rectifier is 0, and in no window of the pooling is the largest element
positive and attained twice (the pixels that the rectifier has set to 0 may tie). -/
structure Generic (op : Conv) (po : Pool) (X F : T ℝ) (b c h w l : Nat) : Prop where
  nonzero : ∀ bi li i j : Nat, bi < b → li < l → (i : Int) < op.retH h → (j : Int) < op.retW w → textbook op X F c h w bi li i j ≠ 0
  unique : ∀ bi li i j y x y' x' : Nat, bi < b → li < l → (i : Int) < po.outH (op.retH h).toNat → (j : Int) < po.outW (op.retW w).toNat →
    InWindow po po.padNorth po.padWest (op.retH h).toNat (op.retW w).toNat i j y x →
    InWindow po po.padNorth po.padWest (op.retH h).toNat (op.retW w).toNat i j y' x' →
    (∀ y₁ x₁, InWindow po po.padNorth po.padWest (op.retH h).toNat (op.retW w).toNat i j y₁ x₁ →
      textbook op X F c h w bi li y₁ x₁ ≤ textbook op X F c h w bi li y x) →
    0 < textbook op X F c h w bi li y x → (y, x) ≠ (y', x') → textbook op X F c h w bi li y' x' ≠ textbook op X F c h w bi li y x

theorem cnn_fine (op : Conv) (o1 o2 : List Nat) (po : Pool) (lo : ℝ) (b c h w l k : Nat) (x : Nat → T ℝ)
    (h1 : o1.Perm (List.range b)) (h2 : o2.Perm (List.range b)) (hlo : lo < 0) (hsym : po.symmetric)
    (hcov : Covered po (op.retH h).toNat (op.retW w).toNat)
    (hY : (x 3).shape = [b, k])
    (hW : (x 7).shape = [l * ((po.outH (op.retH h).toNat).toNat * (po.outW (op.retW w).toNat).toNat), k])
    (hF : (x 18).shape = [l, c, op.h, op.w]) (hX : (x 19).shape = [b, c, h, w]) (hb : 0 < b) (hl : 0 < l) (hk : 0 < k)
    (hh : 0 < op.retH h) (hw : 0 < op.retW w) (ph : 0 ≤ po.outH (op.retH h).toNat) (pw : 0 ≤ po.outW (op.retW w).toNat)
    (p1 : 0 < op.h) (p2 : 0 < op.w) (p3 : 0 < op.strideH) (p4 : 0 < op.strideW) (p5 : 0 < op.dilationH) (p6 : 0 < op.dilationW)
    (hgen : Generic op po (x 19) (x 18) b c h w l) :
    (cnn op o1 o2 po lo b (op.retH h).toNat (op.retW w).toNat c l).Fine x ∧
      ∃ y, (cnn op o1 o2 po lo b (op.retH h).toNat (op.retW w).toNat c l).value x 0 = .ok y ∧ y.shape = [] := by
  obtain ⟨m, hm⟩ : ∃ m, m = (op.retH h).toNat := ⟨_, rfl⟩
  obtain ⟨n, hn⟩ : ∃ n, n = (op.retW w).toNat := ⟨_, rfl⟩
  obtain ⟨G, hG⟩ : ∃ G, G = cnn op o1 o2 po lo b (op.retH h).toNat (op.retW w).toNat c l := ⟨_, rfl⟩
  have W : G.Sorted := by rw [hG]; exact cnn_sorted op o1 o2 po lo b _ _ c l
  have hlen : G.length = 20 := by rw [hG]; rfl
  rw [← hG]
  obtain ⟨c1, u, u1, u2, u3⟩ := conv_part G W x 12 op o1 o2 b c h w l (by rw [hG]; rfl) h1 h2 hX hF hh.le hw.le p1 p2 p3 p4 p5 p6
  obtain ⟨gen1, gen2⟩ := hgen
  simp only [← hm, ← hn] at hG u2 hcov hW ph pw gen2
  have g0 : G[0]? = some (.op (uTOp .neg) [1]) := by rw [hG]; rfl
  have g1 : G[1]? = some (.op (sumTOp []) [2]) := by rw [hG]; rfl
  have g2 : G[2]? = some (.op (bTOp .mul) [3, 4]) := by rw [hG]; rfl
  have g3 : G[3]? = some .leaf := by rw [hG]; rfl
  have g4 : G[4]? = some (.op (softTOp true 1) [5]) := by rw [hG]; rfl
  have g5 : G[5]? = some (.op (matMulTOp false false) [6, 7]) := by rw [hG]; rfl
  have g6 : G[6]? = some (.op (reshapeTOp [b, l * ((po.outH m).toNat * (po.outW n).toNat)]) [8]) := by rw [hG]; rfl
  have g7 : G[7]? = some .leaf := by rw [hG]; rfl
  have g8 : G[8]? = some (.op (maxPoolTOp po lo) [9]) := by rw [hG]; rfl
  have g9 : G[9]? = some (.op (bTOp .mul) [12, 10]) := by rw [hG]; rfl
  have g10 : G[10]? = some (.op (cmpTOp (· ≥ ·)) [12, 11]) := by rw [hG]; rfl
  have g11 : G[11]? = some (.cst (scalarT 0)) := by rw [hG]; rfl
  have v11 := value_cst W x g11
  have hp : ∀ d ∈ [b, l, m, n], d ≠ 0 := by
    simp only [List.mem_cons, List.not_mem_nil, or_false]
    rintro d (rfl | rfl | rfl | rfl) <;> omega
  have hut : ∀ bi li i j : Nat, bi < b → li < l → i < m → j < n → u.at_ [bi, li, i, j] = textbook op (x 19) (x 18) c h w bi li i j :=
    fun bi li i j a1 a2 a3 a4 => u3 bi li i j a1 a2 (by omega) (by omega)
  have hu0 : ∀ i, InB [b, l, m, n] i → u.at_ i ≠ 0 := by
    intro i hi
    match i, hi with
    | [i0, i1, i2, i3], hi =>
      rw [hut i0 i1 i2 i3 hi.1 hi.2.1 hi.2.2.1 hi.2.2.2.1]
      exact gen1 i0 i1 i2 i3 hi.1 hi.2.1 (by have := hi.2.2.1; omega) (by have := hi.2.2.2.1; omega)
  -- the rectifier
  obtain ⟨q, q1, q2, q3, q4⟩ := cmpTOp_good (· ≥ ·) [b, l, m, n] u (scalarT 0) (.inl u2) (.inr rfl) (.inl u2) fun i hi => by
    rw [bc_at u2 hi, bc_scalar (show (scalarT (0 : ℝ)).shape = [] from rfl)]
    exact cmp_locally (.inl rfl) (hu0 i hi)
  have v10 := value_two W x g10 u1 v11 q4
  obtain ⟨a, a1, a2, a3, a4⟩ := bTOp_good .mul [b, l, m, n] u q (.inl u2) (.inl q2) (.inl u2) (fun _ => hp) fun _ _ => trivial
  have v9 := value_two W x g9 u1 v10 a4
  have har : ∀ i, InB [b, l, m, n] i → a.at_ i = max (u.at_ i) 0 := by
    intro i hi
    rw [a3 i hi, bc_at u2 hi, bc_at q2 hi, q3 i hi, bc_at u2 hi, bc_scalar (show (scalarT (0 : ℝ)).shape = [] from rfl)]
    exact relu_mask _
  -- the pooling
  obtain ⟨p, r1, r2, r3⟩ := maxPoolTOp_fine_partial po hsym lo b l m n a a2 ph pw
    (fun i hi => by rw [a2] at hi; rw [har i hi]; exact lt_of_lt_of_le hlo (le_max_right _ _)) hcov
  have v8 : G.value x 8 = .ok p := by
    rw [value_op W x g8]
    show (resAll [G.value x 9]).bind _ = _
    rw [v9]
    exact r3.run
  -- the rest
  obtain ⟨y6, b1, b2, b3⟩ := reshapeTOp_good [b, l * ((po.outH m).toNat * (po.outW n).toNat)] p (by rw [r2]; simp only [size]; ring)
  have v6 := value_one W x g6 v8 b3
  have v7 := value_leaf W x g7
  obtain ⟨y5, e1, e2, e3⟩ := matMulTOp_good false false y6 (x 7) (by rw [b2]; rfl) (by rw [hW]; rfl) (by simp [M.flip, AD.toM, b2, hW])
  have e2 : y5.shape = [b, k] := by rw [e2]; simp [M.flip, AD.toM, b2, hW]
  have v5 := value_two W x g5 v6 v7 e3
  obtain ⟨y4, f1, f2, f3⟩ := softTOp_good_partial true 1 y5 (by rw [e2]; simp) (.inl (by decide))
  rw [e2] at f2
  have v4 := value_one W x g4 v5 f3
  have v3 := value_leaf W x g3
  have hbk : ∀ d ∈ [b, k], d ≠ 0 := by
    simp only [List.mem_cons, List.not_mem_nil, or_false]
    rintro d (rfl | rfl) <;> omega
  obtain ⟨y2, i1, i2, _, i3⟩ := bTOp_good .mul [b, k] (x 3) y4 (.inl hY) (.inl f2) (.inl hY) (fun _ => hbk) fun _ _ => trivial
  have v2 := value_two W x g2 v3 v4 i3
  obtain ⟨y1, j1, j2, _, j3⟩ := sum_all y2 (by rw [i2]; simp) (by rw [i2]; exact hbk)
  have v1 := value_one W x g1 v2 j3
  have n3 := uTOp_good_partial .neg (by decide) (by decide) y1 (fun _ _ => trivial) fun _ _ => differentiable_neg _
  have v0 := value_one W x g0 v1 n3
  refine ⟨fun i o ks hi => ?_, _, v0, j2⟩
  rcases Nat.lt_or_ge i 12 with hi12 | hi12
  swap
  · have hl : i < 20 := by
      rcases Nat.lt_or_ge i 20 with h' | h'
      · exact h'
      · rw [List.getElem?_eq_none (by omega)] at hi
        cases hi
    obtain ⟨j, rfl⟩ : ∃ j, i = 12 + j := ⟨i - 12, by omega⟩
    exact (c1 j (by omega)).fine o ks hi
  match i, hi12 with
  | 0, _ => exact (okNode_one g0 v1 n3).fine o ks hi
  | 1, _ => exact (okNode_one g1 v2 j3).fine o ks hi
  | 2, _ => exact (okNode_two g2 v3 v4 i3).fine o ks hi
  | 3, _ => exact (okNode_leaf g3).fine o ks hi
  | 4, _ => exact (okNode_one g4 v5 f3).fine o ks hi
  | 5, _ => exact (okNode_two g5 v6 v7 e3).fine o ks hi
  | 6, _ => exact (okNode_one g6 v8 b3).fine o ks hi
  | 7, _ => exact (okNode_leaf g7).fine o ks hi
  | 9, _ => exact (okNode_two g9 u1 v10 a4).fine o ks hi
  | 10, _ => exact (okNode_two g10 u1 v11 q4).fine o ks hi
  | 11, _ => rw [g11] at hi; cases hi
  | 8, _ =>
    rw [g8] at hi
    cases hi
    refine ⟨[a], p, _, by simp [v9, resAll, Res.bind], r3, fun γ t₀ hγ hc => ?_⟩
    simp only [List.map_cons, List.map_nil, List.mem_singleton, forall_eq]
    -- the values behind the pooling, near `t₀`
    obtain ⟨hok12, w12, hm12⟩ := hc 12 (by omega) (by omega)
    have hγ12 : theT (G.value (γ t₀) 12) = u := by rw [hγ]; rw [show G.value x 12 = .ok u from u1]; rfl
    have hγ9 : theT (G.value (γ t₀) 9) = a := by rw [hγ, v9]; rfl
    have hnear : ∀ᶠ t in 𝓝 t₀, ∀ i, InB [b, l, m, n] i →
        (theT (G.value (γ t) 9)).at_ i = max ((theT (G.value (γ t) 12)).at_ i) 0 := by
      filter_upwards [hok12, hm12.shape] with t ⟨z, hz⟩ hs
      rw [hγ12, hz] at hs
      have hs : z.shape = [b, l, m, n] := hs.trans u2
      intro i hi
      obtain ⟨q', k1, k2, k3, k4⟩ := elem_bc (mask (· ≥ ·)) (s := [b, l, m, n]) (a := z) (c := scalarT 0) (.inl hs) (.inr rfl)
      have k3 := k3 (.inl hs)
      have w10 : G.value (γ t) 10 = .ok q' := by
        rw [value_op W _ g10]
        show (resAll [G.value (γ t) 12, G.value (γ t) 11]).bind (cmpTOp (· ≥ ·)).run = _
        rw [hz, value_cst W _ g11]
        exact k1
      obtain ⟨a', l1, l2, l3, l4⟩ := elem_bc (BOp.fn .mul) (s := [b, l, m, n]) (a := z) (c := q') (.inl hs) (.inl k3)
      have l3 := l3 (.inl hs)
      have w9 : G.value (γ t) 9 = .ok a' := by
        rw [value_op W _ g9]
        show (resAll [G.value (γ t) 12, G.value (γ t) 10]).bind (bTOp .mul).run = _
        rw [hz, w10]
        exact l1
      rw [w9, hz]
      show a'.at_ i = max (z.at_ i) 0
      have e := l4 i hi
      rw [bc_at l3 hi] at e
      rw [e, k4 i hi, bc_at hs hi, bc_scalar (show (scalarT (0 : ℝ)).shape = [] from rfl)]
      exact relu_mask _
    intro bi ch i j yy xx y' x' ib ic ii ij iw iw' imax ieq
    simp only [hγ9] at imax ieq
    have hpix : ∀ {y₁ x₁ : Nat}, InWindow po po.padNorth po.padWest m n i j y₁ x₁ → InB [b, l, m, n] [bi, ch, y₁, x₁] :=
      fun h' => ⟨ib, ic, h'.2.2.1, h'.2.2.2.2.2, trivial⟩
    by_cases hsame : (yy, xx) = (y', x')
    · cases hsame
      exact Eventually.of_forall fun _ => rfl
    -- the tie is at 0
    have hneg : u.at_ [bi, ch, yy, xx] < 0 := by
      rcases lt_or_gt_of_ne (hu0 _ (hpix iw)) with h' | h'
      · exact h'
      · exfalso
        rw [har _ (hpix iw), har _ (hpix iw'), max_eq_left h'.le] at ieq
        have hu' : u.at_ [bi, ch, y', x'] = u.at_ [bi, ch, yy, xx] := by
          rcases max_choice (u.at_ [bi, ch, y', x']) 0 with e | e
          · rw [← ieq, e]
          · rw [e] at ieq; linarith
        have htx : ∀ {y₁ x₁ : Nat}, InWindow po po.padNorth po.padWest m n i j y₁ x₁ →
            u.at_ [bi, ch, y₁, x₁] = textbook op (x 19) (x 18) c h w bi ch y₁ x₁ :=
          fun h' => hut bi ch _ _ ib ic h'.2.2.1 h'.2.2.2.2.2
        refine gen2 bi ch i j yy xx y' x' ib ic ii ij iw iw' (fun y₁ x₁ hw₁ => ?_) (by rw [← htx iw]; exact h') hsame
          (by rw [← htx iw, ← htx iw', hu'])
        rw [← htx iw, ← htx hw₁]
        have := imax y₁ x₁ hw₁
        rw [har _ (hpix hw₁), har _ (hpix iw), max_eq_left h'.le] at this
        exact le_trans (le_max_left _ _) this
    have hneg' : u.at_ [bi, ch, y', x'] < 0 := by
      rcases lt_or_gt_of_ne (hu0 _ (hpix iw')) with h' | h'
      · exact h'
      · rw [har _ (hpix iw), har _ (hpix iw'), max_eq_left h'.le, max_eq_right hneg.le] at ieq
        linarith
    have hst : ∀ {y₁ x₁ : Nat}, InWindow po po.padNorth po.padWest m n i j y₁ x₁ → u.at_ [bi, ch, y₁, x₁] < 0 →
        ∀ᶠ t in 𝓝 t₀, (theT (G.value (γ t) 12)).at_ [bi, ch, y₁, x₁] < 0 := by
      intro y₁ x₁ hw₁ hlt
      have := (hm12.der [bi, ch, y₁, x₁] (by rw [hγ12, u2]; exact hpix hw₁)).continuousAt
      exact this.tendsto.eventually (gt_mem_nhds (by rw [hγ12]; exact hlt))
    filter_upwards [hnear, hst iw hneg, hst iw' hneg'] with t ht e1 e2
    rw [ht _ (hpix iw), ht _ (hpix iw'), max_eq_right e1.le, max_eq_right e2.le]

/-- **C17 (a convolutional network).** `Grad` of the cross entropy of the network with respect to its filter and its weights
succeeds and gives the gradient, for all sizes, strides, paddings and dilations, whenever the data is `Generic`. -/
theorem cnn_gradient_partial (op : Conv) (o1 o2 : List Nat) (po : Pool) (lo : ℝ) (b c h w l k : Nat) (x : Nat → T ℝ)
    (h1 : o1.Perm (List.range b)) (h2 : o2.Perm (List.range b)) (hlo : lo < 0) (hsym : po.symmetric)
    (hcov : Covered po (op.retH h).toNat (op.retW w).toNat)
    (hY : (x 3).shape = [b, k])
    (hW : (x 7).shape = [l * ((po.outH (op.retH h).toNat).toNat * (po.outW (op.retW w).toNat).toNat), k])
    (hF : (x 18).shape = [l, c, op.h, op.w]) (hX : (x 19).shape = [b, c, h, w]) (hb : 0 < b) (hl : 0 < l) (hk : 0 < k)
    (hh : 0 < op.retH h) (hw : 0 < op.retW w) (ph : 0 ≤ po.outH (op.retH h).toNat) (pw : 0 ≤ po.outW (op.retW w).toNat)
    (p1 : 0 < op.h) (p2 : 0 < op.w) (p3 : 0 < op.strideH) (p4 : 0 < op.strideW) (p5 : 0 < op.dilationH) (p6 : 0 < op.dilationW)
    (hgen : Generic op po (x 19) (x 18) b c h w l) (users : Nat → Nat) :
    ∃ rF rW deriv', gradT (cnn op o1 o2 po lo b (op.retH h).toNat (op.retW w).toNat c l) x users (fun _ => none) 0 [18, 7] =
        some ([rF, rW], deriv') ∧ rF.shape = (x 18).shape ∧ rW.shape = (x 7).shape ∧
      ∀ (γF γW : ℝ → T ℝ) (vF vW : T ℝ) (t₀ : ℝ), γF t₀ = x 18 → γW t₀ = x 7 → Moves γF vF t₀ → Moves γW vW t₀ →
        HasDerivAt (fun t => (theT ((cnn op o1 o2 po lo b (op.retH h).toNat (op.retW w).toNat c l).value
          (fun i => if i = 18 then γF t else if i = 7 then γW t else x i) 0)).at_ []) (pair rF vF + pair rW vW) t₀ := by
  obtain ⟨S, hy⟩ := cnn_fine op o1 o2 po lo b c h w l k x h1 h2 hlo hsym hcov hY hW hF hX hb hl hk hh hw ph pw p1 p2 p3 p4 p5 p6 hgen
  have W := cnn_sorted op o1 o2 po lo b (op.retH h).toNat (op.retW w).toNat c l
  have hR := cnn_reach op o1 o2 po lo b (op.retH h).toNat (op.retW w).toNat c l
  obtain ⟨G, hG⟩ : ∃ G, G = cnn op o1 o2 po lo b (op.retH h).toNat (op.retW w).toNat c l := ⟨_, rfl⟩
  have hlen : G.length = 20 := by rw [hG]; rfl
  have hin : (G.gr.node 18).input = true ∧ (G.gr.node 7).input = true := by rw [hG]; exact ⟨rfl, rfl⟩
  rw [← hG] at S hy W hR ⊢
  obtain ⟨⟨res, deriv'⟩, hg⟩ := (gradT_succeeds_iff G W x S users (fun _ => none) 0 [18, 7] fun _ _ _ => rfl).2
    ⟨hy, by simp, by simp [hin, hR]⟩
  obtain ⟨r, r1, r2, r3⟩ := gradT_correct G W x S users (fun _ => none) 0 (by omega) [18, 7] (fun _ _ _ => rfl) (by simp [hlen]) res deriv' hg
  refine ⟨r 18, r 7, deriv', by rw [hg, r1]; rfl, r2 18 (by simp), r2 7 (by simp), fun γF γW vF vW t₀ e1 e2 m1 m2 => ?_⟩
  have := (r3 (fun t i => if i = 18 then γF t else if i = 7 then γW t else x i) (fun i => if i = 18 then vF else vW) t₀
    (by
      funext i
      by_cases h18 : i = 18
      · simp [h18, e1]
      · by_cases h7 : i = 7 <;> simp [h18, h7, e2])
    (by
      intro i hi
      simp only [List.mem_cons, List.not_mem_nil, or_false] at hi
      rcases hi with rfl | rfl
      · exact m1
      · exact m2)
    (by intro i hi t; simp at hi; simp [hi])).2
  simpa using this

/-- Data that is `Generic` although two pixels that the rectifier sets to 0 share a window. -/
theorem generic_small : Generic ⟨1, 1, 0, 0, 1, 1, 1, 1⟩ ⟨1, 2, 0, 0, 0, 0, false, 1, 1⟩
    ⟨[1, 1, 2, 2], fun i => [-1, -1, 3, -2].getD (i.getD 2 0 * 2 + i.getD 3 0) 0⟩ ⟨[1, 1, 1, 1], fun _ => 1⟩ 1 1 2 2 1 := by
  have ht : ∀ bi li i j : Nat, i < 2 → j < 2 → textbook ⟨1, 1, 0, 0, 1, 1, 1, 1⟩
      ⟨[1, 1, 2, 2], fun i => [-1, -1, 3, -2].getD (i.getD 2 0 * 2 + i.getD 3 0) 0⟩ ⟨[1, 1, 1, 1], fun _ => 1⟩ 1 2 2 bi li i j =
      ([-1, -1, 3, -2] : List ℝ).getD (i * 2 + j) 0 := by
    intro bi li i j hi hj
    unfold textbook padded
    interval_cases i <;> interval_cases j <;> simp
  have hr : Conv.retH ⟨1, 1, 0, 0, 1, 1, 1, 1⟩ 2 = 2 ∧ Conv.retW ⟨1, 1, 0, 0, 1, 1, 1, 1⟩ 2 = 2 := by decide
  refine ⟨fun bi li i j _ _ hi hj => ?_, fun bi li i j y x y' x' _ _ _ _ iw iw' _ hpos hne => ?_⟩
  · rw [hr.1] at hi
    rw [hr.2] at hj
    have hi : i < 2 := by omega
    have hj : j < 2 := by omega
    rw [ht bi li i j hi hj]
    interval_cases i <;> interval_cases j <;> norm_num
  · rw [hr.1, hr.2] at iw iw'
    obtain ⟨a1, a2, a3, a4, a5, a6⟩ := iw
    obtain ⟨b1, b2, b3, b4, b5, b6⟩ := iw'
    simp at a1 a2 b1 b2
    have a3 : y < 2 := a3
    have a6 : x < 2 := a6
    have b6 : x' < 2 := b6
    rw [ht bi li y x a3 a6] at hpos ⊢
    rw [ht bi li y' x' b3 b6]
    have : y = y' := by omega
    subst this
    interval_cases y <;> interval_cases x <;> interval_cases x' <;>
      first | exact absurd rfl hne | (norm_num at hpos; done) | norm_num

end

end Verif.AD
