import Verif.AD.TensorMore
import Verif.NN.Affine
import Verif.NN.MinMax
import Verif.NN.Formulas
import Verif.NN.Conv
/-!
Normalisations, minima and maxima of two tensors and batched matrix products as nodes of `Verif.AD.TensorGrad`.
-/
set_option autoImplicit false
namespace Verif.AD
open Verif.Tensor Verif.Shape Verif.NN Verif.LinAlg Filter
open scoped Topology

noncomputable section

/-! ### Smooth operations -/

/-- The elements of a tensor of shape `s`. -/
def vec (s : List Nat) (t : T ℝ) : Fin (size s) → ℝ := fun e => t.at_ (unravel s e)

/-- An operation of one operand whose elements are differentiable functions of those of the operand: it is enough that the
gradient is right along straight lines. -/
theorem good_smooth (F : T ℝ → Res (T ℝ)) (sd : T ℝ → T ℝ → T ℝ → Option (T ℝ)) (s' : List Nat) (x : T ℝ)
    (φ : List Nat → (Fin (size x.shape) → ℝ) → ℝ)
    (hrun : ∀ t : T ℝ, t.shape = x.shape → ∃ z, F t = .ok z ∧ z.shape = s' ∧ ∀ j, InB s' j → z.at_ j = φ j (vec x.shape t))
    (hφ : ∀ j, InB s' j → DifferentiableAt ℝ (φ j) (vec x.shape x))
    (hgr : ∀ y g : T ℝ, F x = .ok y → g.shape = s' → ∃ r, sd x y g = some r ∧ IsGrad F x g r) :
    ∃ y, F x = .ok y ∧ y.shape = s' ∧ (TOp.one F sd).Good [x] y := by
  obtain ⟨y, y1, y2, _⟩ := hrun x rfl
  refine ⟨y, y1, y2, good_one F sd x y y1 (fun g hg => hgr y g y1 (hg.trans y2))
    (fun v j => fderiv ℝ (φ j) (vec x.shape x) (vec x.shape v)) fun γ v t₀ h0 hM => ?_⟩
  have hz : ∀ t, ∃ z, (γ t).shape = x.shape → F (γ t) = .ok z ∧ z.shape = s' ∧ ∀ j, InB s' j → z.at_ j = φ j (vec x.shape (γ t)) := by
    intro t
    by_cases h : (γ t).shape = x.shape
    · obtain ⟨z, hz⟩ := hrun _ h
      exact ⟨z, fun _ => hz⟩
    · exact ⟨y, fun h' => absurd h' h⟩
  choose z hz using hz
  have hs : ∀ᶠ t in 𝓝 t₀, (γ t).shape = x.shape := by rw [← h0]; exact hM.shape
  refine ⟨z, hs.mono fun t ht => ⟨(hz t ht).1, (hz t ht).2.1.trans y2.symm⟩, fun j hj => ?_⟩
  rw [y2] at hj
  have hv : v.shape = x.shape := by rw [hM.vshape, h0]
  have hc : HasDerivAt (fun t => vec x.shape (γ t)) (vec x.shape v) t₀ := by
    rw [hasDerivAt_pi]
    exact fun e => hM.entry hv e
  have := (hφ j hj).hasFDerivAt.comp_hasDerivAt_of_eq t₀ hc (by rw [h0])
  refine this.congr_of_eventuallyEq ?_
  filter_upwards [hs] with t ht
  exact (hz t ht).2.2 j hj

/-! ### Positions -/

theorem sum_positions (N d S : Nat) (f : Nat → ℝ) : ∑ k ∈ Finset.range (N * d * S), f k =
    ∑ i ∈ Finset.range N, ∑ j ∈ Finset.range d, ∑ k ∈ Finset.range S, f (bnIndex d S i j k) := by
  have e1 : ∑ k ∈ Finset.range (N * d * S), f k = sumOver [N, d, S] fun i => f (ravel [N, d, S] i) := by
    unfold sumOver
    have hs : size [N, d, S] = N * d * S := by simp [size, Nat.mul_assoc]
    rw [hs]
    refine Finset.sum_congr rfl fun k hk => ?_
    show f k = f (ravel [N, d, S] (unravel [N, d, S] k))
    rw [ravel_unravel (by rw [hs]; exact Finset.mem_range.1 hk)]
  rw [e1, sumOver_cons]
  refine Finset.sum_congr rfl fun i _ => ?_
  rw [sumOver_cons]
  refine Finset.sum_congr rfl fun j _ => ?_
  rw [sumOver_vec]
  refine Finset.sum_congr rfl fun k _ => ?_
  simp [ravel, size, bnIndex, Nat.mul_assoc]
  congr 1
  omega

theorem pair_flat_sum {a b : T ℝ} (h : b.shape = a.shape) : pair a b = ∑ k ∈ Finset.range (size a.shape), a.flat k * b.flat k := by
  unfold pair T.flat
  rw [h]

theorem moveT_flat (x d : T ℝ) (h : d.shape = x.shape) (τ : ℝ) (k : Nat) : (moveT x d τ).flat k = x.flat k + τ * d.flat k := by
  simp only [T.flat, moveT, h]

/-- The elements as a sequence. -/
def seqOf {n : Nat} (u : Fin n → ℝ) (k : Nat) : ℝ := if h : k < n then u ⟨k, h⟩ else 0

theorem seqOf_vec (s : List Nat) (t : T ℝ) (ht : t.shape = s) {k : Nat} (hk : k < size s) : seqOf (vec s t) k = t.flat k := by
  unfold seqOf vec T.flat
  rw [dif_pos hk, ht]

theorem seqOf_differentiable {n : Nat} (k : Nat) (u : Fin n → ℝ) : DifferentiableAt ℝ (fun u : Fin n → ℝ => seqOf u k) u := by
  unfold seqOf
  by_cases h : k < n
  · simp only [h, dif_pos]
    exact differentiableAt_apply _ _
  · simp only [h, dif_neg, not_false_eq_true]
    exact differentiableAt_const _

/-! ### Batch normalisation -/

/-- `BatchNormOp.Do` (op_nn.go 1198-1210) on a tensor, in the state of the run: the result and the state left. -/
def bnRun (op : BNOp) (order order' : List Nat) (st : BNState) (ab : (Nat → ℝ) × (Nat → ℝ)) (x : T ℝ) : Res (T ℝ × BNState) :=
  (bnDo op order order' x.shape x.flat st ab).bind fun r => .ok (ofFlat x.shape r.1, r.2.1)

/-- `BatchNormOp.SymDiff` (op_nn.go 1247-1261) and `batchnormDiffOp`, with the statistics left by the forward run; of the three nodes
returned only the first belongs to an operand. -/
def bnGrad (op : BNOp) (order order' order'' : List Nat) (st : BNState) (ab : (Nat → ℝ) × (Nat → ℝ)) (x g : T ℝ) : Option (T ℝ) :=
  Res.opt ((bnRun op order order' st ab x).bind fun r => (bnDiff op order'' x.shape x.flat g.flat r.2 fun _ => 0).bind fun dx =>
    .ok (ofFlat x.shape dx))

/-- `BatchNormOp` (op_nn.go 1155-1280). -/
def bnTOp (op : BNOp) (order order' order'' : List Nat) (st : BNState) (ab : (Nat → ℝ) × (Nat → ℝ)) : TOp :=
  .one (fun x => (bnRun op order order' st ab x).bind fun r => .ok r.1) fun x _ g => bnGrad op order order' order'' st ab x g

theorem bnOut_congr {ε : ℝ} {B C S : Nat} {x x' : Nat → ℝ} (h : ∀ k < B * C * S, x k = x' k) {s c d : Nat} (hs : s < B) (hc : c < C)
    (hd : d < S) : bnOut ε B C S x s c d = bnOut ε B C S x' s c d := by
  have hm : bnMean B C S x c = bnMean B C S x' c := by
    unfold bnMean
    congr 1
    exact Finset.sum_congr rfl fun s hs => Finset.sum_congr rfl fun d hd =>
      h _ (bnIndex_lt (Finset.mem_range.1 hs) hc (Finset.mem_range.1 hd))
  unfold bnOut bnVar bnSq
  rw [hm, h _ (bnIndex_lt hs hc hd)]
  congr 4
  exact Finset.sum_congr rfl fun s hs => Finset.sum_congr rfl fun d hd => by
    rw [h _ (bnIndex_lt (Finset.mem_range.1 hs) hc (Finset.mem_range.1 hd))]

/-- A position of a batch of images. -/
theorem inB_batch {B C : Nat} {rest j : List Nat} (hj : InB (B :: C :: rest) j) : ∃ s c k, j = s :: c :: k ∧ s < B ∧ c < C ∧ InB rest k := by
  match j, hj with
  | s :: c :: k, hj => exact ⟨s, c, k, rfl, hj.1, hj.2.1, hj.2.2⟩

theorem ravel_batch (B C : Nat) (rest : List Nat) (s c : Nat) (k : List Nat) :
    ravel (B :: C :: rest) (s :: c :: k) = bnIndex C (size rest) s c (ravel rest k) := by
  simp only [ravel, size, bnIndex]
  ring

/-- A mean of differentiable quantities. -/
theorem bnOut_differentiable {ε : ℝ} (hε : 0 < ε) {B C S n s c d : Nat} (u : Fin n → ℝ) :
    DifferentiableAt ℝ (fun u : Fin n → ℝ => bnOut ε B C S (seqOf u) s c d) u := by
  have hm : ∀ c, DifferentiableAt ℝ (fun u : Fin n → ℝ => bnMean B C S (seqOf u) c) u := by
    intro c
    unfold bnMean
    simp only [div_eq_mul_inv]
    refine DifferentiableAt.mul_const ?_ _
    refine DifferentiableAt.fun_sum fun s _ => DifferentiableAt.fun_sum fun d _ => seqOf_differentiable _ u
  have hv : DifferentiableAt ℝ (fun u : Fin n → ℝ => bnVar B C S (seqOf u) c) u := by
    unfold bnVar bnSq
    simp only [div_eq_mul_inv]
    refine DifferentiableAt.mul_const ?_ _
    exact DifferentiableAt.fun_sum fun s _ => DifferentiableAt.fun_sum fun d _ => ((seqOf_differentiable _ u).sub (hm c)).pow 2
  have hp : 0 < bnVar B C S (seqOf u) c + ε := by have := bnVar_nonneg B C S (seqOf u) c; linarith
  unfold bnOut
  simp only [div_eq_mul_inv]
  exact ((seqOf_differentiable _ u).sub (hm c)).mul (((hv.add_const ε).sqrt hp.ne').inv (Real.sqrt_pos.2 hp).ne')

/-- Batch normalisation while training, for every order of the goroutines and in every state. -/
theorem bnTOp_good (op : BNOp) (ht : op.training = true) {order order' order'' : List Nat} (B C : Nat) (rest : List Nat) (hB : 0 < B)
    (hC : 0 < C) (hS : 0 < size rest) (hε : 0 < op.epsilon) (ho : order.Perm (List.range C)) (ho' : order'.Perm (List.range B))
    (ho'' : order''.Perm (List.range C)) (st : BNState) (ab : (Nat → ℝ) × (Nat → ℝ)) (x : T ℝ) (hx : x.shape = B :: C :: rest) :
    ∃ y, (bnTOp op order order' order'' st ab).run [x] = .ok y ∧ y.shape = x.shape ∧
      (∀ s c k, s < B → c < C → InB rest k → y.at_ (s :: c :: k) = bnOut op.epsilon B C (size rest) x.flat s c (ravel rest k)) ∧
      (bnTOp op order order' order'' st ab).Good [x] y := by
  have hsz : size x.shape = B * C * size rest := by rw [hx]; simp [size, Nat.mul_assoc]
  have hval : ∀ t : T ℝ, t.shape = x.shape → ∃ z, ((bnRun op order order' st ab t).bind fun r => .ok r.1) = .ok z ∧ z.shape = x.shape ∧
      ∀ s c k, s < B → c < C → InB rest k → z.at_ (s :: c :: k) = bnOut op.epsilon B C (size rest) t.flat s c (ravel rest k) := by
    intro t hts
    obtain ⟨out, st', ab', e1, e2, _⟩ := bn_value op ht B C rest hB hC ho ho' t.flat st ab
    refine ⟨ofFlat t.shape out, ?_, hts, fun s c k hs hc hk => ?_⟩
    · unfold bnRun
      rw [hts, hx, e1]
      rfl
    · show out (ravel t.shape (s :: c :: k)) = _
      rw [hts, hx, ravel_batch]
      exact e2 s c _ hs hc (ravel_lt hk)
  have hgood := good_smooth (fun x => (bnRun op order order' st ab x).bind fun r => .ok r.1) (fun x _ g => bnGrad op order order' order'' st ab x g) x.shape x
    (fun j u => bnOut op.epsilon B C (size rest) (seqOf u) (j.getD 0 0) (j.getD 1 0) (ravel rest (j.drop 2)))
    (fun t hts => by
      obtain ⟨z, z1, z2, z3⟩ := hval t hts
      refine ⟨z, z1, z2, fun j hj => ?_⟩
      rw [hx] at hj
      obtain ⟨s, c, k, rfl, hs, hc, hk⟩ := inB_batch hj
      rw [z3 s c k hs hc hk]
      exact bnOut_congr (fun p hp => (seqOf_vec _ t hts (by rw [hsz]; exact hp)).symm) hs hc (ravel_lt hk))
    (fun j _ => bnOut_differentiable hε _) ?_
  · obtain ⟨y, y1, y2, y3⟩ := hgood
    obtain ⟨z, z1, z2, z3⟩ := hval x rfl
    have : z = y := by
      have := z1.symm.trans y1
      exact Res.ok.inj this
    subst this
    exact ⟨z, z1, z2, z3, y3⟩
  · intro y g _ hg
    obtain ⟨out, st', ab', dx, e1, e2, e3⟩ := bn_grad op ht B C rest hB hC hS hε ho ho' ho'' x.flat g.flat (fun _ => 0) st ab
    refine ⟨ofFlat x.shape dx, ?_, rfl, fun d hd => ?_⟩
    · show bnGrad op order order' order'' st ab x g = _
      unfold bnGrad bnRun
      rw [hx, e1]
      simp only [Res.bind]
      rw [e2]
      rfl
    choose z z1 z2 z3 using fun τ : ℝ => hval (moveT x d τ) rfl
    refine ⟨z, Eventually.of_forall fun τ => ⟨z1 τ, (z2 τ).trans hg.symm⟩, ?_⟩
    have hloss : ∀ τ, pair g (z τ) = bnLoss op.epsilon B C (size rest) g.flat fun i => x.flat i + τ * d.flat i := by
      intro τ
      rw [pair_flat_sum ((z2 τ).trans hg.symm), hg, hsz, sum_positions, Finset.sum_comm]
      unfold bnLoss
      refine Finset.sum_congr rfl fun c hc => Finset.sum_congr rfl fun s hs => Finset.sum_congr rfl fun p hp => ?_
      have hc := Finset.mem_range.1 hc
      have hs := Finset.mem_range.1 hs
      have hp := Finset.mem_range.1 hp
      congr 1
      have hlt : bnIndex C (size rest) s c p < size x.shape := by rw [hsz]; exact bnIndex_lt hs hc hp
      have : (z τ).flat (bnIndex C (size rest) s c p) = (z τ).at_ (s :: c :: unravel rest p) := by
        unfold T.flat
        rw [z2 τ]
        congr 1
        rw [hx]
        have hin : InB (B :: C :: rest) (s :: c :: unravel rest p) := ⟨hs, hc, inB_unravel hp⟩
        rw [← unravel_ravel hin, ravel_batch, ravel_unravel hp]
      rw [this, z3 τ s c _ hs hc (inB_unravel hp), ravel_unravel hp]
      exact bnOut_congr (fun k hk => moveT_flat x d hd τ k) hs hc hp
    have hpair : pair (ofFlat x.shape dx) d = ∑ c ∈ Finset.range C, ∑ s ∈ Finset.range B, ∑ p ∈ Finset.range (size rest),
        dx (bnIndex C (size rest) s c p) * d.flat (bnIndex C (size rest) s c p) := by
      rw [pair_flat_sum (show d.shape = (ofFlat x.shape dx).shape from hd), show (ofFlat x.shape dx).shape = x.shape from rfl, hsz,
        sum_positions, Finset.sum_comm]
      refine Finset.sum_congr rfl fun c hc => Finset.sum_congr rfl fun s hs => Finset.sum_congr rfl fun p hp => ?_
      rw [ofFlat_flat x.shape dx _ (by
        rw [hsz]; exact bnIndex_lt (Finset.mem_range.1 hs) (Finset.mem_range.1 hc) (Finset.mem_range.1 hp))]
    rw [hpair]
    simp only [hloss]
    exact e3 d.flat

/-! ### Group normalisation -/

/-- `GroupNormOp.Do` (op_group_norm.go 94-99) on a tensor: the result and the arrays left. -/
def gnRun (numGroups : Nat) (ε : ℝ) (order : List Nat) (mean rstd : Nat → ℝ) (x : T ℝ) : Res (T ℝ × GNState) :=
  (gnDo numGroups ε order x.shape x.flat mean rstd).bind fun st => .ok (ofFlat x.shape st.y, st)

/-- `GroupNormOp.SymDiff` (op_group_norm.go 491-505) and `groupNormDiffOp`, with the arrays left by the forward run. -/
def gnGrad (numGroups : Nat) (ε : ℝ) (order order' order'' : List Nat) (mean rstd : Nat → ℝ) (x g : T ℝ) : Option (T ℝ) :=
  Res.opt ((gnRun numGroups ε order mean rstd x).bind fun r =>
    (gnDiff numGroups order' order'' x.shape x.flat g.flat r.2 fun _ => 0).bind fun dx => .ok (ofFlat x.shape dx))

/-- `GroupNormOp` (op_group_norm.go 56-510). -/
def gnTOp (numGroups : Nat) (ε : ℝ) (order order' order'' : List Nat) (mean rstd : Nat → ℝ) : TOp :=
  .one (fun x => (gnRun numGroups ε order mean rstd x).bind fun r => .ok r.1) fun x _ g =>
    gnGrad numGroups ε order order' order'' mean rstd x g

theorem gnOut_congr {ε : ℝ} {N d S : Nat} {x x' : Nat → ℝ} (h : ∀ k < N * d * S, x k = x' k) {i j k : Nat} (hi : i < N) (hj : j < d)
    (hk : k < S) : gnOut ε d S x i j k = gnOut ε d S x' i j k := by
  have hg : ∀ p < d * S, x (i * (d * S) + p) = x' (i * (d * S) + p) := fun p hp => h _ (by
    have : (i + 1) * (d * S) ≤ N * (d * S) := Nat.mul_le_mul_right _ hi
    rw [Nat.mul_assoc]
    rw [Nat.add_mul] at this
    omega)
  have hm : gnMean d S x i = gnMean d S x' i := by
    unfold gnMean meanN
    congr 1
    exact Finset.sum_congr rfl fun p hp => hg p (Finset.mem_range.1 hp)
  have hv : gnVar d S x i = gnVar d S x' i := by
    unfold gnVar varN
    congr 1
    refine Finset.sum_congr rfl fun p hp => ?_
    have := hm
    unfold gnMean at this
    show (x _ - _) ^ 2 = (x' _ - _) ^ 2
    rw [this, hg p (Finset.mem_range.1 hp)]
  unfold gnOut
  rw [hm, hv, h _ (bnIndex_lt hi hj hk)]

theorem gnOut_differentiable {ε : ℝ} (hε : 0 < ε) {d S n i j k : Nat} (u : Fin n → ℝ) :
    DifferentiableAt ℝ (fun u : Fin n → ℝ => gnOut ε d S (seqOf u) i j k) u := by
  have hm : DifferentiableAt ℝ (fun u : Fin n → ℝ => gnMean d S (seqOf u) i) u := by
    unfold gnMean meanN
    simp only [div_eq_mul_inv]
    refine DifferentiableAt.mul_const ?_ _
    exact DifferentiableAt.fun_sum fun p _ => seqOf_differentiable _ u
  have hv : DifferentiableAt ℝ (fun u : Fin n → ℝ => gnVar d S (seqOf u) i) u := by
    unfold gnVar varN
    simp only [div_eq_mul_inv]
    refine DifferentiableAt.mul_const ?_ _
    exact DifferentiableAt.fun_sum fun p _ => ((seqOf_differentiable _ u).sub hm).pow 2
  have hp : 0 < gnVar d S (seqOf u) i + ε := by
    have : 0 ≤ gnVar d S (seqOf u) i := varN_nonneg _ _
    linarith
  unfold gnOut
  simp only [div_eq_mul_inv]
  exact ((seqOf_differentiable _ u).sub hm).mul (((hv.add_const ε).sqrt hp.ne').inv (Real.sqrt_pos.2 hp).ne')

theorem group_index (G d S b g j k : Nat) : bnIndex (G * d) S b (g * d + j) k = bnIndex d S (b * G + g) j k := by
  unfold bnIndex
  ring

/-- The flat position of an element from its group, its channel in the group and its pixel. -/
theorem position {N d S p : Nat} (hp : p < N * d * S) : ∃ i j k, i < N ∧ j < d ∧ k < S ∧ p = bnIndex d S i j k := by
  have hin : InB [N, d, S] (unravel [N, d, S] p) := inB_unravel (by simpa [size, Nat.mul_assoc] using hp)
  have hr := ravel_unravel (s := [N, d, S]) (k := p) (by simpa [size, Nat.mul_assoc] using hp)
  obtain ⟨i, j, k, e, h1, h2, h3⟩ := inB_batch hin
  match k, h3 with
  | [k], h3 =>
    refine ⟨i, j, k, h1, h2, h3.1, ?_⟩
    rw [e] at hr
    rw [← hr]
    simp [ravel, size, bnIndex]
    ring

/-- Group normalisation of up to 263 elements per group, for every order of the goroutines. -/
theorem gnTOp_good_partial (G d B : Nat) (rest : List Nat) (ε : ℝ) (hε : 0 < ε) (hG : 0 < G) (hd : 0 < d) (hS : 0 < size rest)
    (hs : d * size rest < 264) {order order' order'' : List Nat} (ho : order.Perm (List.range (G * B)))
    (ho' : order'.Perm (List.range (G * B))) (ho'' : order''.Perm (List.range (B * (G * d)))) (mean rstd : Nat → ℝ) (x : T ℝ)
    (hx : x.shape = B :: (G * d) :: rest) :
    ∃ y, (gnTOp G ε order order' order'' mean rstd).run [x] = .ok y ∧ y.shape = x.shape ∧
      (∀ b g j k, b < B → g < G → j < d → InB rest k →
        y.at_ (b :: (g * d + j) :: k) = gnOut ε d (size rest) x.flat (b * G + g) j (ravel rest k)) ∧
      (gnTOp G ε order order' order'' mean rstd).Good [x] y := by
  have hsz : size x.shape = G * B * d * size rest := by rw [hx]; simp only [size]; ring
  have hval : ∀ t : T ℝ, t.shape = x.shape → ∃ z, ((gnRun G ε order mean rstd t).bind fun r => .ok r.1) = .ok z ∧ z.shape = x.shape ∧
      ∀ b g j k, b < B → g < G → j < d → InB rest k →
        z.at_ (b :: (g * d + j) :: k) = gnOut ε d (size rest) t.flat (b * G + g) j (ravel rest k) := by
    intro t hts
    obtain ⟨st, e1, e2, _⟩ := gn_value_partial G d B rest ε hG (Nat.mul_pos hd hS) hs ho t.flat mean rstd
    refine ⟨ofFlat t.shape st.y, ?_, hts, fun b g j k hb hg hj hk => ?_⟩
    · unfold gnRun
      rw [hts, hx, e1]
      rfl
    · show st.y (ravel t.shape (b :: (g * d + j) :: k)) = _
      rw [hts, hx, ravel_batch]
      exact e2 b g j _ hb hg hj (ravel_lt hk)
  have hflat : ∀ t z : T ℝ, z.shape = x.shape →
      (∀ b g j k, b < B → g < G → j < d → InB rest k →
        z.at_ (b :: (g * d + j) :: k) = gnOut ε d (size rest) t.flat (b * G + g) j (ravel rest k)) →
      ∀ i j k, i < G * B → j < d → k < size rest → z.flat (bnIndex d (size rest) i j k) = gnOut ε d (size rest) t.flat i j k := by
    intro t z hz h i j k hi hj hk
    have hb : i / G < B := by rw [Nat.div_lt_iff_lt_mul hG, Nat.mul_comm]; exact hi
    have hg : i % G < G := Nat.mod_lt _ hG
    have ei : i / G * G + i % G = i := by rw [Nat.mul_comm]; exact Nat.div_add_mod i G
    have := h (i / G) (i % G) j (unravel rest k) hb hg hj (inB_unravel hk)
    rw [ei, ravel_unravel hk] at this
    rw [← this]
    unfold T.flat
    rw [hz, hx]
    congr 1
    have hc : i % G * d + j < G * d := by
      have : (i % G + 1) * d ≤ G * d := Nat.mul_le_mul_right _ hg
      rw [Nat.add_mul] at this
      omega
    have hin : InB (B :: (G * d) :: rest) ((i / G) :: (i % G * d + j) :: unravel rest k) := ⟨hb, hc, inB_unravel hk⟩
    rw [← unravel_ravel hin, ravel_batch, ravel_unravel hk, group_index, ei]
  have hgood := good_smooth (fun x => (gnRun G ε order mean rstd x).bind fun r => .ok r.1)
    (fun x _ g => gnGrad G ε order order' order'' mean rstd x g) x.shape x
    (fun j u => gnOut ε d (size rest) (seqOf u) (j.getD 0 0 * G + j.getD 1 0 / d) (j.getD 1 0 % d) (ravel rest (j.drop 2)))
    (fun t hts => by
      obtain ⟨z, z1, z2, z3⟩ := hval t hts
      refine ⟨z, z1, z2, fun j hj => ?_⟩
      rw [hx] at hj
      obtain ⟨b, c, k, rfl, hb, hc, hk⟩ := inB_batch hj
      have hg : c / d < G := by rw [Nat.div_lt_iff_lt_mul hd]; exact hc
      have hj : c % d < d := Nat.mod_lt _ hd
      have := z3 b (c / d) (c % d) k hb hg hj hk
      rw [show c / d * d + c % d = c by rw [Nat.mul_comm]; exact Nat.div_add_mod c d] at this
      rw [this]
      have hi : b * G + c / d < G * B := by
        have : (b + 1) * G ≤ B * G := Nat.mul_le_mul_right _ hb
        rw [Nat.add_mul, Nat.mul_comm B] at this
        omega
      exact gnOut_congr (fun p hp => (seqOf_vec _ t hts (by rw [hsz]; exact hp)).symm) hi hj (ravel_lt hk))
    (fun j _ => gnOut_differentiable hε _) ?_
  · obtain ⟨y, y1, y2, y3⟩ := hgood
    obtain ⟨z, z1, z2, z3⟩ := hval x rfl
    have : z = y := Res.ok.inj (z1.symm.trans y1)
    subst this
    exact ⟨z, z1, z2, z3, y3⟩
  · intro y g _ hg
    obtain ⟨st, dx, e1, e2, e3⟩ := gn_grad_partial G d B rest ε hε hG hd hS hs ho ho' ho'' x.flat g.flat mean rstd (fun _ => 0)
    refine ⟨ofFlat x.shape dx, ?_, rfl, fun v hv => ?_⟩
    · show gnGrad G ε order order' order'' mean rstd x g = _
      unfold gnGrad gnRun
      rw [hx, e1]
      simp only [Res.bind]
      rw [e2]
      rfl
    choose z z1 z2 z3 using fun τ : ℝ => hval (moveT x v τ) rfl
    refine ⟨z, Eventually.of_forall fun τ => ⟨z1 τ, (z2 τ).trans hg.symm⟩, ?_⟩
    have hloss : ∀ τ, pair g (z τ) = gnLoss ε (G * B) d (size rest) g.flat fun i => x.flat i + τ * v.flat i := by
      intro τ
      rw [pair_flat_sum ((z2 τ).trans hg.symm), hg, hsz, sum_positions]
      unfold gnLoss
      refine Finset.sum_congr rfl fun i hi => Finset.sum_congr rfl fun j hj => Finset.sum_congr rfl fun k hk => ?_
      have hi := Finset.mem_range.1 hi
      have hj := Finset.mem_range.1 hj
      have hk := Finset.mem_range.1 hk
      rw [hflat _ (z τ) (z2 τ) (z3 τ) i j k hi hj hk]
      congr 1
      exact gnOut_congr (fun p _ => moveT_flat x v hv τ p) hi hj hk
    have hpair : pair (ofFlat x.shape dx) v = ∑ i ∈ Finset.range (G * B), ∑ j ∈ Finset.range d, ∑ k ∈ Finset.range (size rest),
        dx (bnIndex d (size rest) i j k) * v.flat (bnIndex d (size rest) i j k) := by
      rw [pair_flat_sum (show v.shape = (ofFlat x.shape dx).shape from hv), show (ofFlat x.shape dx).shape = x.shape from rfl, hsz,
        sum_positions]
      refine Finset.sum_congr rfl fun i hi => Finset.sum_congr rfl fun j hj => Finset.sum_congr rfl fun k hk => ?_
      rw [ofFlat_flat x.shape dx _ (by
        rw [hsz]; exact bnIndex_lt (Finset.mem_range.1 hi) (Finset.mem_range.1 hj) (Finset.mem_range.1 hk))]
    rw [hpair]
    simp only [hloss]
    exact e3 v.flat

/-! ### Minimum and maximum of two tensors -/

/-- An operation of two operands, the derivatives of the elements given. -/
theorem good_two (F : T ℝ → T ℝ → Res (T ℝ)) (sd : T ℝ → T ℝ → T ℝ → T ℝ → Option (T ℝ × T ℝ)) (a b y : T ℝ) (hy : F a b = .ok y)
    (L : T ℝ → T ℝ → List Nat → ℝ)
    (hgr : ∀ g : T ℝ, g.shape = y.shape → ∃ ra rb, sd a b y g = some (ra, rb) ∧ ra.shape = a.shape ∧ rb.shape = b.shape ∧
      ∀ v w : T ℝ, v.shape = a.shape → w.shape = b.shape → (sumOver y.shape fun j => g.at_ j * L v w j) = pair ra v + pair rb w)
    (hL : ∀ (γ δ : ℝ → T ℝ) (v w : T ℝ) (t₀ : ℝ), γ t₀ = a → δ t₀ = b → Moves γ v t₀ → Moves δ w t₀ → ∃ z : ℝ → T ℝ,
      (∀ᶠ t in 𝓝 t₀, F (γ t) (δ t) = .ok (z t) ∧ (z t).shape = y.shape) ∧
      ∀ j, InB y.shape j → HasDerivAt (fun t => (z t).at_ j) (L v w j) t₀) :
    (TOp.two F sd).Good [a, b] y := by
  refine ⟨hy, rfl, fun _ g hg => ?_, fun γs vs t₀ hx hM => ?_⟩
  · obtain ⟨ra, rb, r1, r2, r3, _⟩ := hgr g hg
    refine ⟨[ra, rb], by simp [TOp.two, r1], rfl, fun k r' x' h1 h2 h3 => ?_⟩
    match k with
    | 0 =>
      simp only [List.getElem?_cons_zero, Option.some.injEq] at h2 h3
      subst h2 h3; exact r2
    | 1 =>
      simp only [List.getElem?_cons_zero, List.getElem?_cons_succ, Option.some.injEq] at h2 h3
      subst h2 h3; exact r3
    | k + 2 => simp at h2
  · match γs, vs, hM with
    | [γ, δ], [v, w], .cons hm (.cons hm' .nil) =>
      simp only [List.map_cons, List.map_nil, List.cons.injEq, and_true] at hx
      obtain ⟨z, z1, z2⟩ := hL γ δ v w t₀ hx.1 hx.2 hm hm'
      refine ⟨z, z1, fun g hg => ?_⟩
      obtain ⟨ra, rb, r1, r2, r3, r4⟩ := hgr g hg
      have e : (TOp.two F sd).grads [a, b] y g = [ra, rb] := by simp [TOp.grads, TOp.two, r1]
      rw [e]
      show HasDerivAt _ (dsum [true, true] [ra, rb] [v, w]) t₀
      rw [dsum_two, ← r4 v w (by rw [hm.vshape, hx.1]) (by rw [hm'.vshape, hx.2])]
      simp only [pair_eq, hg]
      exact sumOver_deriv _ (fun i t => g.at_ i * (z t).at_ i) _ t₀ fun i hi => (z2 i hi).const_mul _

/-- `minBetween`, `maxBetween` (op_minmaxBetween.go 11-149). -/
def betweenTOp (isMax : Bool) : TOp := .two (between isMax) fun a _ y g => Res.opt (minmaxSymDiff a y g)

/-- Which operand `between` takes: the first where it is the larger (or, for minima, smaller) one. -/
theorem pick_deriv (isMax : Bool) {f g : ℝ → ℝ} {f' g' t₀ : ℝ} (hf : HasDerivAt f f' t₀) (hg : HasDerivAt g g' t₀)
    (hne : f t₀ ≠ g t₀) : HasDerivAt (fun t => if isMax then max (f t) (g t) else min (f t) (g t))
      (if f t₀ = (if isMax then max (f t₀) (g t₀) else min (f t₀) (g t₀)) then f' else g') t₀ := by
  rcases lt_or_gt_of_ne hne with h | h
  · have hev : ∀ᶠ t in 𝓝 t₀, f t < g t := hf.continuousAt.eventually_lt hg.continuousAt h
    cases isMax
    · rw [if_pos (by simp [h.le])]
      refine hf.congr_of_eventuallyEq ?_
      filter_upwards [hev] with t ht
      simp [ht.le]
    · rw [if_neg (by simp [h.le, h.ne])]
      refine hg.congr_of_eventuallyEq ?_
      filter_upwards [hev] with t ht
      simp [ht.le]
  · have hev : ∀ᶠ t in 𝓝 t₀, g t < f t := hg.continuousAt.eventually_lt hf.continuousAt h
    cases isMax
    · rw [if_neg (by simp [h.le, h.ne'])]
      refine hg.congr_of_eventuallyEq ?_
      filter_upwards [hev] with t ht
      simp [ht.le]
    · rw [if_pos (by simp [h.le])]
      refine hf.congr_of_eventuallyEq ?_
      filter_upwards [hev] with t ht
      simp [ht.le]

/-- Minimum and maximum of two tensors that are nowhere equal. -/
theorem betweenTOp_good (isMax : Bool) (a b : T ℝ) (h : b.shape = a.shape) (hne : ∀ i, InB a.shape i → a.at_ i ≠ b.at_ i) :
    ∃ y, between isMax a b = .ok y ∧ y.shape = a.shape ∧ (betweenTOp isMax).Good [a, b] y := by
  obtain ⟨y, y1, y2, y3⟩ := between_value isMax a b h
  refine ⟨y, y1, y2, good_two _ _ a b y y1 (fun v w j => if a.at_ j = y.at_ j then v.at_ j else w.at_ j) (fun g hg => ?_)
    fun γ δ v w t₀ hγ hδ hv hw => ?_⟩
  · obtain ⟨ga, gb, e1, e2, e3, e4⟩ := minmaxSymDiff_spec a y g y2 (hg.trans y2)
    refine ⟨ga, gb, by rw [e1]; rfl, e2, e3.trans h.symm, fun v w hv hw => ?_⟩
    rw [pair_eq, pair_eq, e2, e3, y2, sumOver_add']
    refine sumOver_congr _ _ _ fun j hj => ?_
    rw [(e4 j hj).1, (e4 j hj).2]
    by_cases c : a.at_ j = y.at_ j <;> simp [c]
  · have hz : ∀ t, ∃ z, (γ t).shape = a.shape → (δ t).shape = a.shape → between isMax (γ t) (δ t) = .ok z ∧ z.shape = a.shape ∧
        ∀ i, InB a.shape i → z.at_ i = (if isMax then max ((γ t).at_ i) ((δ t).at_ i) else min ((γ t).at_ i) ((δ t).at_ i)) := by
      intro t
      by_cases c : (γ t).shape = a.shape ∧ (δ t).shape = a.shape
      · obtain ⟨z, z1, z2, z3⟩ := between_value isMax (γ t) (δ t) (c.2.trans c.1.symm)
        rw [c.1] at z2 z3
        exact ⟨z, fun _ _ => ⟨z1, z2, z3⟩⟩
      · exact ⟨y, fun c1 c2 => absurd ⟨c1, c2⟩ c⟩
    choose z hz using hz
    have hs : ∀ᶠ t in 𝓝 t₀, (γ t).shape = a.shape ∧ (δ t).shape = a.shape := by
      have h1 := hv.shape
      have h2 := hw.shape
      rw [hγ] at h1
      rw [hδ, h] at h2
      exact h1.and h2
    refine ⟨z, hs.mono fun t ht => ⟨(hz t ht.1 ht.2).1, (hz t ht.1 ht.2).2.1.trans y2.symm⟩, fun j hj => ?_⟩
    rw [y2] at hj
    have hp := pick_deriv isMax (hv.der j (by rw [hγ]; exact hj)) (hw.der j (by rw [hδ, h]; exact hj)) (by
      simp only [hγ, hδ]; exact hne j hj)
    simp only [hγ, hδ, ← y3 j hj] at hp
    refine hp.congr_of_eventuallyEq ?_
    filter_upwards [hs] with t ht
    exact (hz t ht.1 ht.2).2.2 j hj

/-- A maximum without ties. -/
example : ∃ y, between true ⟨[2], fun i => (i.getD 0 0 : ℝ)⟩ ⟨[2], fun _ => 1 / 2⟩ = .ok y ∧ y.shape = [2] ∧
    (betweenTOp true).Good [⟨[2], fun i => (i.getD 0 0 : ℝ)⟩, ⟨[2], fun _ => 1 / 2⟩] y :=
  betweenTOp_good true _ _ rfl fun i _ h => by
    have h : ((i.getD 0 0 : Nat) : ℝ) = 1 / 2 := h
    have h2 : ((2 * i.getD 0 0 : Nat) : ℝ) = ((1 : Nat) : ℝ) := by push_cast; rw [h]; norm_num
    have := Nat.cast_injective h2
    omega

/-- Batch normalisation of two samples of one channel. -/
example : ∃ y, (bnTOp ⟨9 / 10, 1, true⟩ [0] [1, 0] [0] ⟨fun _ => 0, fun _ => 0, fun _ => 0, fun _ => 0⟩ (fun _ => 0, fun _ => 0)).run
      [⟨[2, 1, 1, 1], fun i => 2 * (i.getD 0 0 : ℝ)⟩] = .ok y ∧ y.at_ [1, 0, 0, 0] = 1 / Real.sqrt 2 := by
  obtain ⟨y, y1, _, y2, _⟩ := bnTOp_good ⟨9 / 10, 1, true⟩ rfl (order := [0]) (order' := [1, 0]) (order'' := [0]) 2 1 [1, 1] (by decide)
    (by decide) (by decide) (by norm_num) (by decide) (by decide) (by decide) ⟨fun _ => 0, fun _ => 0, fun _ => 0, fun _ => 0⟩
    (fun _ => 0, fun _ => 0) ⟨[2, 1, 1, 1], fun i => 2 * (i.getD 0 0 : ℝ)⟩ rfl
  refine ⟨y, y1, ?_⟩
  rw [y2 1 0 [0, 0] (by decide) (by decide) (by simp [InB])]
  simp [bnOut, bnMean, bnVar, bnSq, bnIndex, T.flat, unravel, size, Finset.sum_range_succ, ravel]
  norm_num

/-- Group normalisation of two channels in one group. -/
example : ∃ y, (gnTOp 1 1 [0] [0] [1, 0] (fun _ => 0) fun _ => 0).run [⟨[1, 2, 1, 1], fun i => 2 * (i.getD 1 0 : ℝ)⟩] = .ok y ∧
    y.at_ [0, 1, 0, 0] = 1 / Real.sqrt 2 := by
  obtain ⟨y, y1, _, y2, _⟩ := gnTOp_good_partial 1 2 1 [1, 1] 1 (by norm_num) (by decide) (by decide) (by decide) (by decide)
    (order := [0]) (order' := [0]) (order'' := [1, 0]) (by decide) (by decide) (by decide) (fun _ => 0) (fun _ => 0)
    ⟨[1, 2, 1, 1], fun i => 2 * (i.getD 1 0 : ℝ)⟩ rfl
  refine ⟨y, y1, ?_⟩
  have := y2 0 0 1 [0, 0] (by decide) (by decide) (by decide) (by simp [InB])
  simp [gnOut, gnMean, gnVar, meanN, varN, bnIndex, T.flat, unravel, size, Finset.sum_range_succ, ravel] at this
  rw [this]
  norm_num

end

end Verif.AD
