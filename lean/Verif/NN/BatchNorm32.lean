import Verif.NN.BatchNorm
/-!
The float32 branch of batch normalisation (property C68), `/repo/op_nn.go` 1489-1637 and 1834-1942. Up to brackets and conversions
it is the text of the float64 branch, with one difference: outside training the saved statistics are not set to zero (the lines are
commented out, 1598-1604). Rounding is left out, as in `Verif.NN.BatchNorm`.
-/
set_option autoImplicit false
namespace Verif.NN
open Verif.Shape Verif.Tensor Finset

noncomputable section

/-- `BatchNormOp.f32s`, op_nn.go 1586-1637; `updateStatsF32` (1489-1555) and `calculateAlphaAndBetaF32` (1559-1584) compute what
their float64 counterparts do. -/
def bnF32s (op : BNOp) (order order' : List Nat) (shape : List Nat) (input output : Nat → ℝ) (st : BNState)
    (ab : (Nat → ℝ) × (Nat → ℝ)) : Res ((Nat → ℝ) × BNState × ((Nat → ℝ) × (Nat → ℝ))) :=
  match shape with
  | batchSize :: channels :: rest =>
    if channels * batchSize = 0 then .panic
    else
      let spatialDim := size (batchSize :: channels :: rest) / (channels * batchSize)
      let st := if op.training then updateStats op order batchSize channels spatialDim input st else st
      let ab := alphaBeta op order batchSize spatialDim st ab
      let out :=
        if spatialDim = 1 then
          runInParallel order' (fun s out => loop channels (fun c out =>
            put out (s * channels + c) (out (s * channels + c) * ab.1 c + ab.2 c)) out) output
        else
          runInParallel order (fun c out => loop batchSize (fun s => loop spatialDim fun d out =>
            let i := s * channels * spatialDim + c * spatialDim + d
            put out i (out i * ab.1 c + ab.2 c)) out) output
      .ok (out, st, ab)
  | _ => .panic

/-- `BatchNormOp.Do`, op_nn.go 1198-1211, for float32. -/
def bnDo32 (op : BNOp) (order order' : List Nat) (shape : List Nat) (input : Nat → ℝ) (st : BNState)
    (ab : (Nat → ℝ) × (Nat → ℝ)) := bnF32s op order order' shape input input st ab

/-- In training the branches agree. -/
theorem bn32_training (op : BNOp) (ht : op.training = true) (order order' shape : List Nat) (x : Nat → ℝ) (st : BNState)
    (ab : (Nat → ℝ) × (Nat → ℝ)) : bnDo32 op order order' shape x st ab = bnDo op order order' shape x st ab := by
  unfold bnDo32 bnDo bnF32s bnF64s
  match shape with
  | [] => rfl
  | [_] => rfl
  | B :: C :: rest => simp only [ht, if_true]

theorem alphaBeta_eval (op : BNOp) (ht : op.training = false) (order : List Nat) (B S : Nat) (st st' : BNState)
    (hm : st'.runningMean = st.runningMean) (hv : st'.runningVar = st.runningVar) (ab : (Nat → ℝ) × (Nat → ℝ)) :
    alphaBeta op order B S st' ab = alphaBeta op order B S st ab := by
  unfold alphaBeta
  simp only [ht, Bool.false_eq_true, if_false, hm, hv]

/-- **C68 (value, evaluation, float32).** Outside training the result is that of the float64 branch, but the statistics saved in the
last training step stay. -/
theorem bn32_eval (op : BNOp) (ht : op.training = false) {order order' : List Nat} (B C : Nat) (rest : List Nat) (hB : 0 < B)
    (hC : 0 < C) (x : Nat → ℝ) (st : BNState) (ab : (Nat → ℝ) × (Nat → ℝ)) :
    ∃ out st' ab', bnDo op order order' (B :: C :: rest) x st ab = .ok (out, st', ab') ∧
      bnDo32 op order order' (B :: C :: rest) x st ab = .ok (out, st, ab') := by
  have hCB : C * B ≠ 0 := (Nat.mul_pos hC hB).ne'
  unfold bnDo bnDo32 bnF64s bnF32s
  simp only [hCB, if_false, ht, Bool.false_eq_true]
  rw [alphaBeta_eval op ht order B _ st { st with saveMean := fun _ => 0, saveVar := fun _ => 0 } rfl rfl ab]
  exact ⟨_, _, _, rfl, rfl⟩

/-- **C68 (gradient, evaluation, float32).** For images of more than one pixel the gradient is taken with the variance of the last
training batch (divided by the number of pixels of the present one) instead of the running variance, so that it is right exactly
when these agree or the incoming gradient is 0. -/
theorem bn32_grad_eval_iff (op : BNOp) (ht : op.training = false) {order order' order'' : List Nat} (B C : Nat) (rest : List Nat)
    (hB : 0 < B) (hC : 0 < C) (hε : 0 < op.epsilon) (ho'' : order''.Perm (List.range C)) (x dy ig : Nat → ℝ) (st : BNState)
    (hv : ∀ c, 0 ≤ st.runningVar c) (hsv : ∀ c, 0 ≤ st.saveVar c) (ab : (Nat → ℝ) × (Nat → ℝ)) :
    ∃ out st' ab' dx, bnDo32 op order order' (B :: C :: rest) x st ab = .ok (out, st', ab') ∧
      bnDiff op order'' (B :: C :: rest) x dy st' ig = .ok dx ∧
      ∀ s c d, s < B → c < C → d < size rest →
        (dx (bnIndex C (size rest) s c d) = dy (bnIndex C (size rest) s c d) * (1 / Real.sqrt (st.runningVar c + op.epsilon)) ↔
          (size rest = 1 ∨ st.saveVar c / ((B * size rest : Nat) : ℝ) = st.runningVar c ∨
            dy (bnIndex C (size rest) s c d) = 0)) := by
  obtain ⟨out, _, ab', _, e1⟩ := bn32_eval op ht (order := order) (order' := order') B C rest hB hC x st ab
  obtain ⟨dx, d1, d2⟩ := bnDiff_spec op B C rest hB hC ho'' x dy st ig
  refine ⟨out, st, ab', dx, e1, d1, fun s c d hs hc hd => ?_⟩
  rw [d2 s c d hs hc hd]
  simp only [ht, Bool.false_eq_true, if_false]
  by_cases hS : size rest = 1
  · simp [hS]
  · simp only [hS, if_false, false_or]
    generalize dy (bnIndex C (size rest) s c d) = g
    have hq : 0 ≤ st.saveVar c / ((B * size rest : Nat) : ℝ) := div_nonneg (hsv c) (Nat.cast_nonneg _)
    generalize st.saveVar c / ((B * size rest : Nat) : ℝ) = q at hq ⊢
    have hr := hv c
    generalize st.runningVar c = r at hr ⊢
    have h1 : 0 < Real.sqrt (q + op.epsilon) := Real.sqrt_pos.2 (by linarith)
    have h2 : 0 < Real.sqrt (r + op.epsilon) := Real.sqrt_pos.2 (by linarith)
    rw [mul_one_div, mul_one_div, div_eq_div_iff h1.ne' h2.ne']
    constructor
    · intro h
      by_cases hg : g = 0
      · exact Or.inr hg
      · left
        have := mul_left_cancel₀ hg h
        have := (Real.sqrt_inj (by linarith) (by linarith)).1 this
        linarith
    · rintro (h | h)
      · rw [h]
      · rw [h]; simp

/-- **C68 (defect).** A training step on `x₁` followed by evaluation of `x`: with float32 the gradient for `x` depends on `x₁`
through more than the running statistics. It is right (for images of more than one pixel and an incoming gradient that is not 0)
exactly if the sum of the squared distances in `x₁`, divided by the number of pixels in `x`, happens to be the running variance. -/
theorem bn32_after_training (op : BNOp) (ht : op.training = true) {order order' order₁ order₁' order'' : List Nat} (B B₁ C : Nat)
    (rest rest₁ : List Nat) (hB : 0 < B) (hB₁ : 0 < B₁) (hC : 0 < C) (hε : 0 < op.epsilon) (hm0 : 0 ≤ op.momentum)
    (hm1 : op.momentum ≤ 1) (hn : 2 ≤ B₁ * size rest₁) (ho₁ : order₁.Perm (List.range C)) (ho₁' : order₁'.Perm (List.range B₁))
    (ho'' : order''.Perm (List.range C)) (x₁ x dy ig : Nat → ℝ) (st : BNState) (hv : ∀ c, 0 ≤ st.runningVar c)
    (ab : (Nat → ℝ) × (Nat → ℝ)) (hS : size rest ≠ 1) :
    ∃ out₁ st₁ ab₁ out st' ab' dx, bnDo32 op order₁ order₁' (B₁ :: C :: rest₁) x₁ st ab = .ok (out₁, st₁, ab₁) ∧
      bnDo32 { op with training := false } order order' (B :: C :: rest) x st₁ ab₁ = .ok (out, st', ab') ∧
      bnDiff { op with training := false } order'' (B :: C :: rest) x dy st' ig = .ok dx ∧
      ∀ s c d, s < B → c < C → d < size rest → dy (bnIndex C (size rest) s c d) ≠ 0 →
        0 ≤ st₁.runningVar c ∧
        (dx (bnIndex C (size rest) s c d) = dy (bnIndex C (size rest) s c d) * (1 / Real.sqrt (st₁.runningVar c + op.epsilon)) ↔
          bnSq B₁ C (size rest₁) x₁ c / ((B * size rest : Nat) : ℝ) = st₁.runningVar c) := by
  obtain ⟨out₁, st₁, ab₁, e1, _, e3⟩ := bn_value op ht B₁ C rest₁ hB₁ hC ho₁ ho₁' x₁ st ab
  have hsq : ∀ c, 0 ≤ bnSq B₁ C (size rest₁) x₁ c := fun c =>
    sum_nonneg fun s _ => sum_nonneg fun d _ => sq_nonneg _
  have hcast : (2 : ℝ) ≤ ((B₁ * size rest₁ : Nat) : ℝ) := by exact_mod_cast hn
  have hrv : ∀ c, c < C → 0 ≤ st₁.runningVar c := by
    intro c hc
    rw [(e3 c hc).2.2.2]
    have h1 : 0 ≤ bnSq B₁ C (size rest₁) x₁ c / (((B₁ * size rest₁ : Nat) : ℝ) - 1) := div_nonneg (hsq c) (by linarith)
    have h2 := mul_nonneg hm0 h1
    have h3 := mul_nonneg (sub_nonneg.2 hm1) (hv c)
    linarith
  obtain ⟨out, _, ab', _, f1⟩ := bn32_eval { op with training := false } rfl (order := order) (order' := order') B C rest hB hC x
    st₁ ab₁
  obtain ⟨dx, d1, d2⟩ := bnDiff_spec { op with training := false } B C rest hB hC ho'' x dy st₁ ig
  refine ⟨out₁, st₁, ab₁, out, st₁, ab', dx, ?_, f1, d1, fun s c d hs hc hd hg => ⟨hrv c hc, ?_⟩⟩
  · rw [bn32_training op ht]; exact e1
  · rw [d2 s c d hs hc hd]
    simp only [Bool.false_eq_true, if_false, hS, (e3 c hc).2.1]
    have hq : 0 ≤ bnSq B₁ C (size rest₁) x₁ c / ((B * size rest : Nat) : ℝ) := div_nonneg (hsq c) (Nat.cast_nonneg _)
    generalize bnSq B₁ C (size rest₁) x₁ c / ((B * size rest : Nat) : ℝ) = q at hq ⊢
    have hr := hrv c hc
    generalize st₁.runningVar c = r at hr ⊢
    generalize dy (bnIndex C (size rest) s c d) = g at hg ⊢
    have h1 : 0 < Real.sqrt (q + op.epsilon) := Real.sqrt_pos.2 (by linarith)
    have h2 : 0 < Real.sqrt (r + op.epsilon) := Real.sqrt_pos.2 (by linarith)
    rw [mul_one_div, mul_one_div, div_eq_div_iff h1.ne' h2.ne']
    constructor
    · intro h
      have := mul_left_cancel₀ hg h
      have := (Real.sqrt_inj (by linarith) (by linarith)).1 this
      linarith
    · intro h; rw [h]

/-- One image of two pixels with values 0 and 2 in training, momentum 1/2 and running variance 1: the sum of squares is 2, the running
variance becomes 3/2, while the gradient in evaluation of one image of two pixels uses 1. -/
example : bnSq 1 1 2 (fun i => if i = 0 then 0 else 2) 0 = 2 ∧
    (2 : ℝ) / ((1 * 2 : Nat) : ℝ) ≠ 1 / 2 * (2 / (((1 * 2 : Nat) : ℝ) - 1)) + (1 - 1 / 2) * 1 := by
  constructor
  · norm_num [bnSq, bnMean, bnIndex, sum_range_succ]
  · norm_num

end

end Verif.NN
