import Verif.AD.TensorBatched
import Verif.AD.ConvNet
/-!
`gradT_correct` applied to multi-head self attention, made of batched matrix products and a softmax.
-/
set_option autoImplicit false
namespace Verif.AD
open Verif.Tensor Verif.Shape Verif.NN Verif.LinAlg Filter
open scoped Topology

noncomputable section

/-- `Sum(Y ⊙ SoftMax(c * (X·Wq)·(X·Wk)ᵀ, 2)·(X·Wv))` with batched products, as nodes in the order of `Sort`; node 11 is `X`, used
three times, nodes 12 to 14 are the weights. -/
def attention (c : ℝ) : TG := [.op (sumTOp []) [1], .op (bTOp .mul) [2, 3], .leaf, .op (batchTOp false false) [4, 10],
  .op (softTOp false 2) [5], .op (bTOp .mul) [6, 7], .cst (scalarT c), .op (batchTOp false true) [8, 9],
  .op (batchTOp false false) [11, 12], .op (batchTOp false false) [11, 13], .op (batchTOp false false) [11, 14],
  .leaf, .leaf, .leaf, .leaf]

theorem attention_sorted (c : ℝ) : (attention c).Sorted := by
  intro i n h k hk
  match i, h with
  | 0, h | 1, h | 2, h | 3, h | 4, h | 5, h | 6, h | 7, h | 8, h | 9, h | 10, h | 11, h | 12, h | 13, h | 14, h =>
    simp [attention] at h
    subst h
    simp [TNode.kids, attention] at hk ⊢
    try omega
  | i + 15, h => simp [attention] at h

/-- Attention as in the textbook: one matrix for each head. -/
def attend (c : ℝ) (n e d : Nat) (X Wq Wk Wv : T ℝ) (h i j : Nat) : ℝ :=
  let q := fun (W : T ℝ) (i j : Nat) => ∑ t ∈ Finset.range e, X.at_ [h, i, t] * W.at_ [h, t, j]
  let s := fun i k => Real.exp (c * ∑ t ∈ Finset.range d, q Wq i t * q Wk k t)
  ∑ k ∈ Finset.range n, (s i k / ∑ k' ∈ Finset.range n, s i k') * q Wv k j

/-- The full sum of a tensor. -/
theorem sumNode_all (p y : T ℝ) (hr : p.shape ≠ []) (hp : ∀ d ∈ p.shape, d ≠ 0) (h : sumNode p [] = .ok y) :
    y.at_ [] = sumOver p.shape p.at_ := by
  obtain ⟨q, q1, q2, _, q3⟩ := sum_value p [] hr (by simp) hp
  rw [h] at q1
  cases q1
  have hdrop : ∀ i : List Nat, i.length = p.shape.length → dropAxes (axesOf p.shape.length []) 0 i = [] := by
    intro i hl
    refine drop_all i 0 _ fun j _ hj => ?_
    simp only [axesOf, if_pos, List.mem_range]
    omega
  rw [q3 [] (by rw [q2, hdrop _ rfl]; trivial)]
  exact sumOver_congr _ _ _ fun i hi => if_pos (hdrop i hi.length)

theorem attention_good (c : ℝ) (x : Nat → T ℝ) (H n e d f : Nat) (hH : 0 < H) (hn : 0 < n) (hf : 0 < f)
    (hY : (x 2).shape = [H, n, f]) (hX : (x 11).shape = [H, n, e]) (hq : (x 12).shape = [H, e, d]) (hk : (x 13).shape = [H, e, d])
    (hv : (x 14).shape = [H, e, f]) :
    (attention c).Good x ∧ (∃ y, (attention c).value x 0 = .ok y ∧ y.shape = [] ∧ y.at_ [] = sumOver [H, n, f] fun i =>
        (x 2).at_ i * attend c n e d (x 11) (x 12) (x 13) (x 14) (i.getD 0 0) (i.getD 1 0) (i.getD 2 0)) ∧
      ∃ z, (attention c).value x 3 = .ok z ∧ z.shape = [H, n, f] ∧ ∀ h i j, h < H → i < n → j < f →
        z.at_ [h, i, j] = attend c n e d (x 11) (x 12) (x 13) (x 14) h i j := by
  have W := attention_sorted c
  obtain ⟨G, hG⟩ : ∃ G, G = attention c := ⟨_, rfl⟩
  rw [← hG] at W ⊢
  have ho : ∀ d ∈ [H], 0 < d := by simpa using hH
  have v2 : G.value x 2 = .ok (x 2) := value_leaf W x (by rw [hG]; rfl)
  have v11 : G.value x 11 = .ok (x 11) := value_leaf W x (by rw [hG]; rfl)
  have v12 : G.value x 12 = .ok (x 12) := value_leaf W x (by rw [hG]; rfl)
  have v13 : G.value x 13 = .ok (x 13) := value_leaf W x (by rw [hG]; rfl)
  have v14 : G.value x 14 = .ok (x 14) := value_leaf W x (by rw [hG]; rfl)
  have v6 : G.value x 6 = .ok (scalarT c) := value_cst W x (by rw [hG]; rfl)
  have g0 : G[0]? = some (.op (sumTOp []) [1]) := by rw [hG]; rfl
  have g1 : G[1]? = some (.op (bTOp .mul) [2, 3]) := by rw [hG]; rfl
  have g3 : G[3]? = some (.op (batchTOp false false) [4, 10]) := by rw [hG]; rfl
  have g4 : G[4]? = some (.op (softTOp false 2) [5]) := by rw [hG]; rfl
  have g5 : G[5]? = some (.op (bTOp .mul) [6, 7]) := by rw [hG]; rfl
  have g7 : G[7]? = some (.op (batchTOp false true) [8, 9]) := by rw [hG]; rfl
  have g8 : G[8]? = some (.op (batchTOp false false) [11, 12]) := by rw [hG]; rfl
  have g9 : G[9]? = some (.op (batchTOp false false) [11, 13]) := by rw [hG]; rfl
  have g10 : G[10]? = some (.op (batchTOp false false) [11, 14]) := by rw [hG]; rfl
  obtain ⟨q, q1, q2, q3⟩ := batchTOp_good false false [H] (x 11) (x 12) n e e d ho hX hq rfl
  have v8 := value_two W x g8 v11 v12 q3
  obtain ⟨k, k1, k2, k3⟩ := batchTOp_good false false [H] (x 11) (x 13) n e e d ho hX hk rfl
  have v9 := value_two W x g9 v11 v13 k3
  obtain ⟨v, w1, w2, w3⟩ := batchTOp_good false false [H] (x 11) (x 14) n e e f ho hX hv rfl
  have v10 := value_two W x g10 v11 v14 w3
  obtain ⟨s, s1, s2, s3⟩ := batchTOp_good false true [H] q k n d n d ho q2 k2 rfl
  have v7 := value_two W x g7 v8 v9 s3
  have s2 : s.shape = [H, n, n] := s2
  obtain ⟨t, t1, t2, t3, t4⟩ := bTOp_good .mul [H, n, n] (scalarT c) s (.inr rfl) (.inl s2) (.inr s2)
    (fun _ => by simp; omega) fun _ _ => trivial
  have v5 := value_two W x g5 v6 v7 t4
  obtain ⟨u, u1, u2, u3⟩ := softTOp_good_partial false 2 t (by rw [t2]; simp) (.inl (by decide))
  have v4 := value_one W x g4 v5 u3
  rw [t2] at u2
  obtain ⟨z, z1, z2, z3⟩ := batchTOp_good false false [H] u v n n n f ho u2 w2 rfl
  have v3 := value_two W x g3 v4 v10 z3
  have z2 : z.shape = [H, n, f] := z2
  have hp : ∀ d ∈ [H, n, f], d ≠ 0 := by simp; omega
  obtain ⟨p, p1, p2, p4, p3⟩ := bTOp_good .mul [H, n, f] (x 2) z (.inl hY) (.inl z2) (.inl hY) (fun _ => hp) fun _ _ => trivial
  have v1 := value_two W x g1 v2 v3 p3
  obtain ⟨y, y1, y2, y3⟩ := sumTOp_good [] p (by rw [p2]; simp) (by simp) List.nodup_nil (by rw [p2]; exact hp)
  have y2 : y.shape = [] := by rw [y2, p2]; rfl
  have v0 := value_one W x g0 v1 y3
  have hval : ∀ h i j, h < H → i < n → j < f → z.at_ [h, i, j] = attend c n e d (x 11) (x 12) (x 13) (x 14) h i j := by
    intro h i j hh hi hj
    have hq' : ∀ i j, q.at_ [h, i, j] = ∑ t ∈ Finset.range e, (x 11).at_ [h, i, t] * (x 12).at_ [h, t, j] :=
      batchRun_at false false [H] _ _ q n e e d ho hX hq rfl q1 [h] (by simpa [InB] using hh)
    have hk' : ∀ i j, k.at_ [h, i, j] = ∑ t ∈ Finset.range e, (x 11).at_ [h, i, t] * (x 13).at_ [h, t, j] :=
      batchRun_at false false [H] _ _ k n e e d ho hX hk rfl k1 [h] (by simpa [InB] using hh)
    have hv' : ∀ i j, v.at_ [h, i, j] = ∑ t ∈ Finset.range e, (x 11).at_ [h, i, t] * (x 14).at_ [h, t, j] :=
      batchRun_at false false [H] _ _ v n e e f ho hX hv rfl w1 [h] (by simpa [InB] using hh)
    have hs' : ∀ i j, s.at_ [h, i, j] = ∑ t ∈ Finset.range d, q.at_ [h, i, t] * k.at_ [h, j, t] :=
      batchRun_at false true [H] _ _ s n d n d ho q2 k2 rfl s1 [h] (by simpa [InB] using hh)
    have hz' : ∀ i j, z.at_ [h, i, j] = ∑ t ∈ Finset.range n, u.at_ [h, i, t] * v.at_ [h, t, j] :=
      batchRun_at false false [H] _ _ z n n n f ho u2 w2 rfl z1 [h] (by simpa [InB] using hh)
    have ht' : ∀ i j, i < n → j < n → t.at_ [h, i, j] = c * s.at_ [h, i, j] := by
      intro i j hi hj
      rw [t3 [h, i, j] (by simp [InB, hh, hi, hj])]
      simp [BOp.fn, bc, s2, scalarT]
    have hu' : ∀ j, u.at_ [h, i, j] = Real.exp (t.at_ [h, i, j]) / ∑ k ∈ Finset.range n, Real.exp (t.at_ [h, i, k]) := by
      intro j
      unfold softDo at u1
      rw [if_neg (by rw [t2]; simp)] at u1
      have hax : resolve (fwdAxis 2 t.shape) t.shape.length = 2 := by rw [t2]; rfl
      simp only [hax, Bool.false_eq_true, if_false, Res.ok.injEq] at u1
      subst u1
      simp [softAxis, lineSum, t2]
    rw [hz']
    simp only [attend]
    refine Finset.sum_congr rfl fun l hl => ?_
    have hl := Finset.mem_range.1 hl
    rw [hu', hv', ht' i l hi hl, hs']
    simp only [hq', hk']
    congr 2
    refine Finset.sum_congr rfl fun m hm => ?_
    rw [ht' i m hi (Finset.mem_range.1 hm), hs']
    simp only [hq', hk']
  refine ⟨fun i o ks h => ?_, ⟨y, v0, y2, ?_⟩, z, v3, z2, hval⟩
  · match i, h with
    | 0, h => exact okNode_one g0 v1 y3 o ks h
    | 1, h => exact okNode_two g1 v2 v3 p3 o ks h
    | 3, h => exact okNode_two g3 v4 v10 z3 o ks h
    | 4, h => exact okNode_one g4 v5 u3 o ks h
    | 5, h => exact okNode_two g5 v6 v7 t4 o ks h
    | 7, h => exact okNode_two g7 v8 v9 s3 o ks h
    | 8, h => exact okNode_two g8 v11 v12 q3 o ks h
    | 9, h => exact okNode_two g9 v11 v13 k3 o ks h
    | 10, h => exact okNode_two g10 v11 v14 w3 o ks h
    | 2, h | 6, h | 11, h | 12, h | 13, h | 14, h => rw [hG] at h; cases h
    | i + 15, h => rw [hG] at h; simp [attention] at h
  · rw [sumNode_all p y (by rw [p2]; simp) (by rw [p2]; exact hp) y1, p2]
    refine sumOver_congr _ _ _ fun i hi => ?_
    rw [p4 i hi]
    match i, hi with
    | [a, b, c], hi =>
      obtain ⟨i1, i2, i3⟩ : a < H ∧ b < n ∧ c < f := by simpa [InB] using hi
      simp only [BOp.fn, bc, hY, z2, List.cons_ne_nil, if_false]
      rw [hval a b c i1 i2 i3]
      rfl

theorem attention_reach (c : ℝ) : ∀ i ∈ [11, 12, 13, 14], Reach (attention c).gr 0 i := by
  obtain ⟨G, hG⟩ : ∃ G, G = (attention c).gr := ⟨_, rfl⟩
  rw [← hG]
  have s : ∀ i j k : Nat, (G.node i).children[k]? = some j → (G.node i).diffs[k]? = some true → Dep G i j :=
    fun i j k h1 h2 => List.mem_of_getElem? (i := k) (by rw [List.getElem?_zip_eq_some]; exact ⟨h1, h2⟩)
  have r3 : Reach G 0 3 := (Relation.ReflTransGen.single (s 0 1 0 (by rw [hG]; rfl) (by rw [hG]; rfl))).tail
    (s 1 3 1 (by rw [hG]; rfl) (by rw [hG]; rfl))
  have r7 : Reach G 0 7 := ((r3.tail (s 3 4 0 (by rw [hG]; rfl) (by rw [hG]; rfl))).tail (s 4 5 0 (by rw [hG]; rfl) (by rw [hG]; rfl))).tail
    (s 5 7 1 (by rw [hG]; rfl) (by rw [hG]; rfl))
  have r8 := r7.tail (s 7 8 0 (by rw [hG]; rfl) (by rw [hG]; rfl))
  have r9 := r7.tail (s 7 9 1 (by rw [hG]; rfl) (by rw [hG]; rfl))
  have r10 := r3.tail (s 3 10 1 (by rw [hG]; rfl) (by rw [hG]; rfl))
  intro i hi
  simp only [List.mem_cons, List.not_mem_nil, or_false] at hi
  rcases hi with rfl | rfl | rfl | rfl
  · exact r8.tail (s 8 11 0 (by rw [hG]; rfl) (by rw [hG]; rfl))
  · exact r8.tail (s 8 12 1 (by rw [hG]; rfl) (by rw [hG]; rfl))
  · exact r9.tail (s 9 13 1 (by rw [hG]; rfl) (by rw [hG]; rfl))
  · exact r10.tail (s 10 14 1 (by rw [hG]; rfl) (by rw [hG]; rfl))

/-- `Grad` of the cost of an attention layer with respect to its input and its weights succeeds, for all sizes, and gives the
gradient of `Σ Y ⊙ attend`. -/
theorem attention_gradient (c : ℝ) (x : Nat → T ℝ) (H n e d f : Nat) (hH : 0 < H) (hn : 0 < n) (hf : 0 < f)
    (hY : (x 2).shape = [H, n, f]) (hX : (x 11).shape = [H, n, e]) (hq : (x 12).shape = [H, e, d]) (hk : (x 13).shape = [H, e, d])
    (hv : (x 14).shape = [H, e, f]) (users : Nat → Nat) :
    ∃ r : Nat → T ℝ, ∃ deriv', gradT (attention c) x users (fun _ => none) 0 [11, 12, 13, 14] = some ([r 11, r 12, r 13, r 14], deriv') ∧
      (∀ i ∈ [11, 12, 13, 14], (r i).shape = (x i).shape) ∧
      ∀ (γ : ℝ → Nat → T ℝ) (v : Nat → T ℝ) (t₀ : ℝ), γ t₀ = x → (∀ i ∈ [11, 12, 13, 14], Moves (fun t => γ t i) (v i) t₀) →
        HasDerivAt (fun t => sumOver [H, n, f] fun i => (x 2).at_ i *
            attend c n e d (γ t 11) (γ t 12) (γ t 13) (γ t 14) (i.getD 0 0) (i.getD 1 0) (i.getD 2 0))
          (pair (r 11) (v 11) + (pair (r 12) (v 12) + (pair (r 13) (v 13) + pair (r 14) (v 14)))) t₀ := by
  obtain ⟨S, ⟨y, hy, hys, _⟩, _⟩ := attention_good c x H n e d f hH hn hf hY hX hq hk hv
  obtain ⟨⟨res, deriv'⟩, hg⟩ := (gradT_succeeds_iff (attention c) (attention_sorted c) x S.fine users (fun _ => none) 0 [11, 12, 13, 14]
    fun _ _ _ => rfl).2 ⟨⟨y, hy, hys⟩, by simp, fun i hi => ⟨by
      simp only [List.mem_cons, List.not_mem_nil, or_false] at hi
      rcases hi with rfl | rfl | rfl | rfl <;> rfl, attention_reach c i hi⟩⟩
  obtain ⟨r, r1, r2, r3⟩ := gradT_correct (attention c) (attention_sorted c) x S.fine users (fun _ => none) 0 (by simp [attention]) [11, 12, 13, 14]
    (fun _ _ _ => rfl) (by simp [attention]) res deriv' hg
  refine ⟨r, deriv', by rw [hg, r1]; rfl, r2, fun γ v t₀ h0 hM => ?_⟩
  obtain ⟨δ, hδ⟩ : ∃ δ : ℝ → Nat → T ℝ, δ = fun t i => if i ∈ [11, 12, 13, 14] then γ t i else x i := ⟨_, rfl⟩
  have hδi : ∀ i ∈ [11, 12, 13, 14], ∀ t, δ t i = γ t i := by
    intro i hi t
    rw [hδ]
    exact if_pos hi
  have hδ2 : ∀ t, δ t 2 = x 2 := by
    intro t
    rw [hδ]
    rfl
  have := (r3 δ v t₀ (by
    funext i
    rw [hδ]
    by_cases hi : i ∈ [11, 12, 13, 14]
    · simp only [if_pos hi, h0]
    · simp only [if_neg hi]) (fun i hi => by
    rw [show (fun t => δ t i) = fun t => γ t i from funext (hδi i hi)]
    exact hM i hi) (fun i hi t => by
    rw [hδ]
    exact if_neg hi)).2
  have hsum : ∑ w ∈ [11, 12, 13, 14].toFinset, pair (r w) (v w) =
      pair (r 11) (v 11) + (pair (r 12) (v 12) + (pair (r 13) (v 13) + pair (r 14) (v 14))) := by simp
  rw [hsum] at this
  refine this.congr_of_eventuallyEq ?_
  have hsh : ∀ i ∈ [11, 12, 13, 14], ∀ᶠ t in 𝓝 t₀, (δ t i).shape = (x i).shape := by
    intro i hi
    have := (hM i hi).shape
    filter_upwards [this] with t ht
    rw [hδi i hi, ht, h0]
  filter_upwards [hsh 11 (by simp), hsh 12 (by simp), hsh 13 (by simp), hsh 14 (by simp)] with t e1 e2 e3 e4
  obtain ⟨_, ⟨y', y1, _, y2⟩, _⟩ := attention_good c (δ t) H n e d f hH hn hf (by rw [hδ2]; exact hY) (e1.trans hX) (e2.trans hq)
    (e3.trans hk) (e4.trans hv)
  rw [y1]
  show _ = y'.at_ []
  rw [y2, hδ2, hδi 11 (by simp), hδi 12 (by simp), hδi 13 (by simp), hδi 14 (by simp)]

/-- Two heads, two positions; the keys are the inputs, so the first position attends to itself more. -/
example : (attend 1 2 1 1 ⟨[2, 2, 1], fun i => if i.getD 1 0 = 0 then 1 else 0⟩ ⟨[2, 1, 1], fun _ => 1⟩ ⟨[2, 1, 1], fun _ => 1⟩
    ⟨[2, 1, 1], fun _ => 1⟩ 0 0 0) = Real.exp 1 / (Real.exp 1 + 1) := by
  simp [attend, Finset.sum_range_succ]

end

end Verif.AD
