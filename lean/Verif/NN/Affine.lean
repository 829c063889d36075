import Mathlib.Tactic.Linarith
import Verif.NN.GroupNorm
import Verif.Shape.Broadcast
import Verif.Shape.Elem
/-!
Scaling and shifting after a normalisation: `BatchNorm` of `/repo/nn.go` and `GroupNorm` of `/repo/op_group_norm.go`
(property C83).

The normalised tensor is multiplied with `scale` and `bias` is added, both by `Auto`. Graph construction and running are one
step here; the operations, `Auto` and the elementwise operations are those of `BatchNorm.lean`, `GroupNorm.lean`, `Shape/Model.lean`
and `Shape/Elem.lean`.
-/
set_option autoImplicit false
namespace Verif.NN
open Verif.Shape Verif.Tensor

noncomputable section

/-- `Auto` with a `BroadcastXxx` function, operations.go 123-130 and api_gen.go 129-153. -/
def autoOp (f : ℝ → ℝ → ℝ) (a b : T ℝ) : Res (T ℝ) := (autoBroadcast a b).bind fun p => elem f p.1 p.2

/-- nn.go 431-436 and op_group_norm.go 47-51: the two steps after the normalisation. -/
def affine (scale n bias : T ℝ) : Res (T ℝ) :=
  (autoOp (· * ·) scale n).bind fun r => autoOp (· + ·) r bias

/-- `NewTensor` as called by `BatchNorm` for a missing parameter, nn.go 406-411: of the shape of the whole input, with numbers drawn
by `GlorotN(1.0)`; `draw` are the numbers. -/
def defaultParam (x : T ℝ) (draw : List Nat → ℝ) : T ℝ := ⟨x.shape, draw⟩

/-- The parameter used: the given one, or the default (nn.go 406-411). -/
def paramOr (x : T ℝ) (p : Option (T ℝ)) (draw : List Nat → ℝ) : T ℝ :=
  match p with
  | some p => p
  | none => defaultParam x draw

/-- `BatchNorm`, nn.go 386-439, built and run. -/
def batchNorm (op : BNOp) (order order' : List Nat) (x : T ℝ) (scale bias : Option (T ℝ)) (drawS drawB : List Nat → ℝ) (st : BNState)
    (ab : (Nat → ℝ) × (Nat → ℝ)) : Res (T ℝ) :=
  (bnDo op order order' x.shape x.flat st ab).bind fun r =>
    affine (paramOr x scale drawS) (ofFlat x.shape r.1) (paramOr x bias drawB)

/-- `GroupNorm`, op_group_norm.go 21-54, built and run. -/
def groupNorm (numGroups : Nat) (ε : ℝ) (order : List Nat) (x scale bias : T ℝ) (mean rstd : Nat → ℝ) : Res (T ℝ) :=
  (gnDo numGroups ε order x.shape x.flat mean rstd).bind fun st => affine scale (ofFlat x.shape st.y) bias

/-! ### Specification -/

/-- `s` fits into `t`: of the same rank, and on every axis 1 or the size of `t`. -/
def FitsIn : List Nat → List Nat → Prop
  | [], [] => True
  | a :: s, b :: t => (a = 1 ∨ a = b) ∧ FitsIn s t
  | _, _ => False

/-- The coordinate of a fitting parameter for a coordinate of the tensor: unit axes are read at 0. -/
def unitIx : List Nat → List Nat → List Nat
  | d :: s, j :: i => (if d = 1 then 0 else j) :: unitIx s i
  | _, _ => []

theorem zipWith_unitIx (i s : List Nat) : List.zipWith (fun j d => if d = 1 then 0 else j) i s = unitIx s i := by
  induction s generalizing i with
  | nil => cases i <;> rfl
  | cons d s ih => cases i with
    | nil => rfl
    | cons j i => simp [unitIx, ih]

theorem unitIx_self {s i : List Nat} (h : InB s i) : unitIx s i = i := by
  induction s generalizing i with
  | nil => cases i with
    | nil => rfl
    | cons j i => exact h.elim
  | cons d s ih => cases i with
    | nil => exact h.elim
    | cons j i =>
      simp only [unitIx, ih h.2]
      have := h.1
      by_cases hd : d = 1
      · rw [if_pos hd]; congr 1; omega
      · rw [if_neg hd]

theorem FitsIn.refl (s : List Nat) : FitsIn s s := by
  induction s with
  | nil => trivial
  | cons a s ih => exact ⟨Or.inr rfl, ih⟩

theorem FitsIn.length {s t : List Nat} (h : FitsIn s t) : s.length = t.length := by
  induction s generalizing t with
  | nil => cases t with
    | nil => rfl
    | cons b t => exact h.elim
  | cons a s ih => cases t with
    | nil => exact h.elim
    | cons b t => simp [ih h.2]

theorem FitsIn.max {s t : List Nat} (h : FitsIn s t) (ht : ∀ d ∈ t, d ≠ 0) : maxShape s t = t ∧ maxShape t s = t := by
  induction s generalizing t with
  | nil => cases t with
    | nil => exact ⟨rfl, rfl⟩
    | cons b t => exact h.elim
  | cons a s ih => cases t with
    | nil => exact h.elim
    | cons b t =>
      obtain ⟨e1, e2⟩ := ih h.2 fun d hd => ht d (List.mem_cons_of_mem _ hd)
      have hb := ht b List.mem_cons_self
      have hab : a ≤ b := by
        rcases h.1 with h1 | h1 <;> omega
      unfold maxShape at e1 e2 ⊢
      simp [e1, e2, hab]

theorem FitsIn.pos {s t : List Nat} (h : FitsIn s t) (ht : ∀ d ∈ t, d ≠ 0) : ∀ d ∈ s, d ≠ 0 := by
  induction s generalizing t with
  | nil => simp
  | cons a s ih => cases t with
    | nil => exact h.elim
    | cons b t =>
      intro d hd
      rcases List.mem_cons.mp hd with rfl | hd
      · rcases h.1 with h1 | h1
        · omega
        · rw [h1]; exact ht b List.mem_cons_self
      · exact ih h.2 (fun d hd => ht d (List.mem_cons_of_mem _ hd)) d hd

theorem FitsIn.axis {s t : List Nat} (h : FitsIn s t) (j p q : Nat) (hp : s[j]? = some p) (hq : t[j]? = some q) : p = 1 ∨ p = q := by
  induction s generalizing t j with
  | nil => simp at hp
  | cons a s ih => cases t with
    | nil => exact h.elim
    | cons b t => cases j with
      | zero => simp at hp hq; subst hp hq; exact h.1
      | succ j => exact ih h.2 j (by simpa using hp) (by simpa using hq)

/-- `Auto` with a parameter that fits into the left or right operand. -/
theorem autoOp_fits (f : ℝ → ℝ → ℝ) (p n : T ℝ) (h : FitsIn p.shape n.shape) (hr : n.shape.length ≤ 4) (hn : ∀ d ∈ n.shape, d ≠ 0) :
    (∃ r, autoOp f p n = .ok r ∧ r.shape = n.shape ∧ ∀ i, InB n.shape i → r.at_ i = f (p.at_ (unitIx p.shape i)) (n.at_ i)) ∧
    ∃ r, autoOp f n p = .ok r ∧ r.shape = n.shape ∧ ∀ i, InB n.shape i → r.at_ i = f (n.at_ i) (p.at_ (unitIx p.shape i)) := by
  have hb : Broadcastable p.shape n.shape := ⟨h.length, fun j a b h1 h2 => by
    rcases h.axis j a b h1 h2 with e | e
    · exact Or.inr (Or.inl e)
    · exact Or.inl e⟩
  have hb' : Broadcastable n.shape p.shape := ⟨h.length.symm, fun j a b h1 h2 => by
    rcases h.axis j b a h2 h1 with e | e
    · exact Or.inr (Or.inr e)
    · exact Or.inl e.symm⟩
  obtain ⟨m1, m2⟩ := h.max hn
  constructor
  · obtain ⟨x, y, e, sx, sy, vx, vy⟩ := auto_correct_partial p n hb (by rw [h.length]; exact hr) (h.pos hn) hn
    rw [m1] at sx sy vx vy
    obtain ⟨r, er, sr, vr⟩ := elem_same f x y (by rw [sx, sy])
    refine ⟨r, ?_, by rw [sr, sx], fun i hi => ?_⟩
    · simp only [autoOp, e, Res.bind]; exact er
    · rw [vr i (by rw [sx]; exact hi), vx i hi, vy i hi, zipWith_unitIx, zipWith_unitIx, unitIx_self hi]
  · obtain ⟨x, y, e, sx, sy, vx, vy⟩ := auto_correct_partial n p hb' hr hn (h.pos hn)
    rw [m2] at sx sy vx vy
    obtain ⟨r, er, sr, vr⟩ := elem_same f x y (by rw [sx, sy])
    refine ⟨r, ?_, by rw [sr, sx], fun i hi => ?_⟩
    · simp only [autoOp, e, Res.bind]; exact er
    · rw [vr i (by rw [sx]; exact hi), vx i hi, vy i hi, zipWith_unitIx, zipWith_unitIx, unitIx_self hi]

/-- **C83 (scaling and shifting).** For a normalised tensor of up to four axes and parameters that fit into it: every element is multiplied
with its scale and its bias is added. -/
theorem affine_value (scale n bias : T ℝ) (hs : FitsIn scale.shape n.shape) (hb : FitsIn bias.shape n.shape)
    (hr : n.shape.length ≤ 4) (hn : ∀ d ∈ n.shape, d ≠ 0) :
    ∃ r, affine scale n bias = .ok r ∧ r.shape = n.shape ∧ ∀ i, InB n.shape i →
      r.at_ i = scale.at_ (unitIx scale.shape i) * n.at_ i + bias.at_ (unitIx bias.shape i) := by
  obtain ⟨⟨r, er, sr, vr⟩, _⟩ := autoOp_fits (· * ·) scale n hs hr hn
  obtain ⟨_, q, eq, sq, vq⟩ := autoOp_fits (· + ·) bias r (by rw [sr]; exact hb) (by rw [sr]; exact hr) (by rw [sr]; exact hn)
  rw [sr] at sq vq
  refine ⟨q, ?_, sq, fun i hi => ?_⟩
  · simp only [affine, er, Res.bind]; exact eq
  · rw [vq i hi, vr i hi]

/-- Parameters of another rank (one number per channel in a vector, say) are rejected. -/
theorem affine_rank_err (scale n bias : T ℝ) (h : scale.shape.length ≠ n.shape.length) : affine scale n bias = .err := by
  simp [affine, autoOp, autoBroadcast, autoBroadcastPattern, h, Res.bind]

example : affine ⟨[3], fun _ => 1⟩ ⟨[2, 3, 4, 4], fun _ => 0⟩ ⟨[1, 3, 1, 1], fun _ => 0⟩ = .err :=
  affine_rank_err _ _ _ (by simp)

/-- The shape of parameters with one number per channel. -/
def chanShape (C : Nat) (rest : List Nat) : List Nat := 1 :: C :: rest.map fun _ => 1

/-- The coordinate of channel `c` in such parameters. -/
def chanIx (c : Nat) (rest : List Nat) : List Nat := 0 :: c :: rest.map fun _ => 0

theorem fits_ones (rest : List Nat) : FitsIn (rest.map fun _ => 1) rest := by
  induction rest with
  | nil => trivial
  | cons a rest ih => exact ⟨Or.inl rfl, ih⟩

theorem chan_fits (B C : Nat) (rest : List Nat) : FitsIn (chanShape C rest) (B :: C :: rest) := ⟨Or.inl rfl, Or.inr rfl, fits_ones rest⟩

theorem unitIx_ones {rest k : List Nat} (h : InB rest k) : unitIx (rest.map fun _ => 1) k = rest.map fun _ => 0 := by
  induction rest generalizing k with
  | nil => cases k with
    | nil => rfl
    | cons => exact h.elim
  | cons a rest ih => cases k with
    | nil => exact h.elim
    | cons j k => simp only [List.map_cons, unitIx, ih h.2, if_true]

theorem unitIx_chan {C c s : Nat} {rest k : List Nat} (hc : c < C) (hk : InB rest k) :
    unitIx (chanShape C rest) (s :: c :: k) = chanIx c rest := by
  unfold chanShape chanIx
  simp only [unitIx, unitIx_ones hk, if_true]
  by_cases h : C = 1
  · rw [if_pos h]; congr 2; omega
  · rw [if_neg h]

theorem ravel_chan (B C : Nat) (rest : List Nat) (s c : Nat) (k : List Nat) :
    ravel (B :: C :: rest) (s :: c :: k) = bnIndex C (size rest) s c (ravel rest k) := by
  simp only [ravel, size, bnIndex]
  rw [Nat.mul_assoc, Nat.add_assoc]

/-- **C83 (batch normalisation, training).** With one scale and one bias per channel (shape 1×C×1×1, or 1×C for a matrix), for every batch and
every order of the goroutines: every element is its distance from the mean of its channel divided by the root of the variance plus
epsilon, times the scale of its channel plus its bias. -/
theorem batchNorm_value (op : BNOp) (ht : op.training = true) {order order' : List Nat} (B C : Nat) (rest : List Nat) (hB : 0 < B)
    (hC : 0 < C) (hrest : ∀ d ∈ rest, d ≠ 0) (hr : rest.length ≤ 2) (ho : order.Perm (List.range C)) (ho' : order'.Perm (List.range B))
    (x scale bias : T ℝ) (hx : x.shape = B :: C :: rest) (hs : scale.shape = chanShape C rest) (hb : bias.shape = chanShape C rest)
    (drawS drawB : List Nat → ℝ) (st : BNState) (ab : (Nat → ℝ) × (Nat → ℝ)) :
    ∃ r, batchNorm op order order' x (some scale) (some bias) drawS drawB st ab = .ok r ∧ r.shape = x.shape ∧
      ∀ s c k, s < B → c < C → InB rest k → r.at_ (s :: c :: k) =
        scale.at_ (chanIx c rest) * bnOut op.epsilon B C (size rest) x.flat s c (ravel rest k) + bias.at_ (chanIx c rest) := by
  obtain ⟨out, st', ab', e, v, _⟩ := bn_value op ht B C rest hB hC ho ho' x.flat st ab
  have hn : ∀ d ∈ B :: C :: rest, d ≠ 0 := by
    intro d hd
    rcases List.mem_cons.mp hd with rfl | hd
    · omega
    · rcases List.mem_cons.mp hd with rfl | hd
      · omega
      · exact hrest d hd
  obtain ⟨r, er, sr, vr⟩ := affine_value scale (ofFlat (B :: C :: rest) out) bias (by rw [hs]; exact chan_fits B C rest)
    (by rw [hb]; exact chan_fits B C rest) (by simp [ofFlat]; omega) hn
  refine ⟨r, ?_, by rw [sr, hx]; rfl, fun s c k h1 h2 h3 => ?_⟩
  · unfold batchNorm
    rw [hx, e]
    simp only [Res.bind, paramOr]
    exact er
  · rw [vr (s :: c :: k) ⟨h1, h2, h3⟩, hs, hb, unitIx_chan h2 h3]
    simp only [ofFlat]
    rw [ravel_chan, v s c _ h1 h2 (ravel_lt h3)]

/-- **C83 (batch normalisation, evaluation).** Likewise with the running mean and variance. -/
theorem batchNorm_value_eval (op : BNOp) (ht : op.training = false) {order order' : List Nat} (B C : Nat) (rest : List Nat) (hB : 0 < B)
    (hC : 0 < C) (hrest : ∀ d ∈ rest, d ≠ 0) (hr : rest.length ≤ 2) (ho : order.Perm (List.range C)) (ho' : order'.Perm (List.range B))
    (x scale bias : T ℝ) (hx : x.shape = B :: C :: rest) (hs : scale.shape = chanShape C rest) (hb : bias.shape = chanShape C rest)
    (drawS drawB : List Nat → ℝ) (st : BNState) (ab : (Nat → ℝ) × (Nat → ℝ)) :
    ∃ r, batchNorm op order order' x (some scale) (some bias) drawS drawB st ab = .ok r ∧ r.shape = x.shape ∧
      ∀ s c k, s < B → c < C → InB rest k → r.at_ (s :: c :: k) =
        scale.at_ (chanIx c rest) * ((x.at_ (s :: c :: k) - st.runningMean c) / Real.sqrt (st.runningVar c + op.epsilon)) +
          bias.at_ (chanIx c rest) := by
  obtain ⟨out, st', ab', e, v, _⟩ := bn_value_eval op ht B C rest hB hC ho ho' x.flat st ab
  have hn : ∀ d ∈ B :: C :: rest, d ≠ 0 := by
    intro d hd
    rcases List.mem_cons.mp hd with rfl | hd
    · omega
    · rcases List.mem_cons.mp hd with rfl | hd
      · omega
      · exact hrest d hd
  obtain ⟨r, er, sr, vr⟩ := affine_value scale (ofFlat (B :: C :: rest) out) bias (by rw [hs]; exact chan_fits B C rest)
    (by rw [hb]; exact chan_fits B C rest) (by simp [ofFlat]; omega) hn
  refine ⟨r, ?_, by rw [sr, hx]; rfl, fun s c k h1 h2 h3 => ?_⟩
  · unfold batchNorm
    rw [hx, e]
    simp only [Res.bind, paramOr]
    exact er
  · rw [vr (s :: c :: k) ⟨h1, h2, h3⟩, hs, hb, unitIx_chan h2 h3]
    simp only [ofFlat]
    rw [ravel_chan, v s c _ h1 h2 (ravel_lt h3), ← ravel_chan B, ← hx, flat_ravel x (by rw [hx]; exact ⟨h1, h2, h3⟩)]

/-- **C83 (group normalisation).** With one scale and one bias per channel, for groups of fewer than 264 elements. -/
theorem groupNorm_value_partial (G d B : Nat) (rest : List Nat) (ε : ℝ) (hG : 0 < G) (h0 : 0 < d * size rest) (hsz : d * size rest < 264)
    (hB : 0 < B) (hrest : ∀ d ∈ rest, d ≠ 0) (hr : rest.length ≤ 2) {order : List Nat} (ho : order.Perm (List.range (G * B)))
    (x scale bias : T ℝ) (hx : x.shape = B :: (G * d) :: rest) (hs : scale.shape = chanShape (G * d) rest)
    (hb : bias.shape = chanShape (G * d) rest) (mean rstd : Nat → ℝ) :
    ∃ r, groupNorm G ε order x scale bias mean rstd = .ok r ∧ r.shape = x.shape ∧
      ∀ b g j k, b < B → g < G → j < d → InB rest k → r.at_ (b :: (g * d + j) :: k) =
        scale.at_ (chanIx (g * d + j) rest) * gnOut ε d (size rest) x.flat (b * G + g) j (ravel rest k) +
          bias.at_ (chanIx (g * d + j) rest) := by
  obtain ⟨st, e, v, _⟩ := gn_value_partial G d B rest ε hG h0 hsz ho x.flat mean rstd
  have hd : 0 < d := by
    rcases Nat.eq_zero_or_pos d with h | h
    · simp [h] at h0
    · exact h
  have hn : ∀ a ∈ B :: (G * d) :: rest, a ≠ 0 := by
    intro a ha
    rcases List.mem_cons.mp ha with rfl | ha
    · omega
    · rcases List.mem_cons.mp ha with rfl | ha
      · exact (Nat.mul_pos hG hd).ne'
      · exact hrest a ha
  obtain ⟨r, er, sr, vr⟩ := affine_value scale (ofFlat (B :: (G * d) :: rest) st.y) bias (by rw [hs]; exact chan_fits B _ rest)
    (by rw [hb]; exact chan_fits B _ rest) (by simp [ofFlat]; omega) hn
  refine ⟨r, ?_, by rw [sr, hx]; rfl, fun b g j k h1 h2 h3 h4 => ?_⟩
  · unfold groupNorm
    rw [hx, e]
    simp only [Res.bind]
    exact er
  · have hc : g * d + j < G * d := by nlinarith
    rw [vr (b :: (g * d + j) :: k) ⟨h1, hc, h4⟩, hs, hb, unitIx_chan hc h4]
    simp only [ofFlat]
    rw [ravel_chan, v b g j _ h1 h2 h3 (ravel_lt h4)]

/-- **C83 (negation: default parameters).** Without given parameters `BatchNorm` draws one scale and one bias for every *element* of the
batch: the result at `(s, c, k)` uses the numbers drawn for `(s, c, k)`, not numbers of channel `c`. -/
theorem batchNorm_default (op : BNOp) (ht : op.training = true) {order order' : List Nat} (B C : Nat) (rest : List Nat) (hB : 0 < B)
    (hC : 0 < C) (hrest : ∀ d ∈ rest, d ≠ 0) (hr : rest.length ≤ 2) (ho : order.Perm (List.range C)) (ho' : order'.Perm (List.range B))
    (x : T ℝ) (hx : x.shape = B :: C :: rest) (drawS drawB : List Nat → ℝ) (st : BNState) (ab : (Nat → ℝ) × (Nat → ℝ)) :
    ∃ r, batchNorm op order order' x none none drawS drawB st ab = .ok r ∧ r.shape = x.shape ∧
      ∀ s c k, s < B → c < C → InB rest k → r.at_ (s :: c :: k) =
        drawS (s :: c :: k) * bnOut op.epsilon B C (size rest) x.flat s c (ravel rest k) + drawB (s :: c :: k) := by
  obtain ⟨out, st', ab', e, v, _⟩ := bn_value op ht B C rest hB hC ho ho' x.flat st ab
  have hn : ∀ d ∈ B :: C :: rest, d ≠ 0 := by
    intro d hd
    rcases List.mem_cons.mp hd with rfl | hd
    · omega
    · rcases List.mem_cons.mp hd with rfl | hd
      · omega
      · exact hrest d hd
  obtain ⟨r, er, sr, vr⟩ := affine_value (defaultParam x drawS) (ofFlat (B :: C :: rest) out) (defaultParam x drawB)
    (by simp only [defaultParam]; rw [hx]; exact FitsIn.refl _) (by simp only [defaultParam]; rw [hx]; exact FitsIn.refl _)
    (by simp [ofFlat]; omega) hn
  refine ⟨r, ?_, by rw [sr, hx]; rfl, fun s c k h1 h2 h3 => ?_⟩
  · unfold batchNorm
    rw [hx, e]
    simp only [Res.bind, paramOr]
    exact er
  · have hi : InB (B :: C :: rest) (s :: c :: k) := ⟨h1, h2, h3⟩
    rw [vr (s :: c :: k) hi]
    simp only [ofFlat, defaultParam]
    rw [hx, unitIx_self hi, ravel_chan, v s c _ h1 h2 (ravel_lt h3)]

/-- Hence two equal examples of a batch come out equal exactly when the numbers drawn for them happen to agree on them. -/
theorem batchNorm_default_equal_iff (op : BNOp) (ht : op.training = true) {order order' : List Nat} (B C : Nat) (rest : List Nat)
    (hB : 0 < B) (hC : 0 < C) (hrest : ∀ d ∈ rest, d ≠ 0) (hr : rest.length ≤ 2) (ho : order.Perm (List.range C))
    (ho' : order'.Perm (List.range B)) (x : T ℝ) (hx : x.shape = B :: C :: rest) (drawS drawB : List Nat → ℝ) (st : BNState)
    (ab : (Nat → ℝ) × (Nat → ℝ)) (r : T ℝ) (h : batchNorm op order order' x none none drawS drawB st ab = .ok r)
    (s s' c : Nat) (k : List Nat) (hs : s < B) (hs' : s' < B) (hc : c < C) (hk : InB rest k)
    (hxx : x.at_ (s :: c :: k) = x.at_ (s' :: c :: k)) :
    r.at_ (s :: c :: k) = r.at_ (s' :: c :: k) ↔
      (drawS (s :: c :: k) - drawS (s' :: c :: k)) * bnOut op.epsilon B C (size rest) x.flat s c (ravel rest k) =
        drawB (s' :: c :: k) - drawB (s :: c :: k) := by
  obtain ⟨r', e, _, v⟩ := batchNorm_default op ht B C rest hB hC hrest hr ho ho' x hx drawS drawB st ab
  rw [h] at e
  injection e with e
  subst e
  have hf : ∀ a, a < B → x.flat (bnIndex C (size rest) a c (ravel rest k)) = x.at_ (a :: c :: k) := fun a ha => by
    rw [← ravel_chan B, ← hx, flat_ravel x (by rw [hx]; exact ⟨ha, hc, hk⟩)]
  have hq : bnOut op.epsilon B C (size rest) x.flat s' c (ravel rest k) = bnOut op.epsilon B C (size rest) x.flat s c (ravel rest k) := by
    unfold bnOut
    rw [hf s hs, hf s' hs', hxx]
  rw [v s c k hs hc hk, v s' c k hs' hc hk, hq]
  constructor
  · intro h; linarith
  · intro h; linarith

/-- A batch of two equal examples, one channel, drawn biases 0 and 1: the results differ. -/
example (op : BNOp) (ht : op.training = true) (st : BNState) (ab : (Nat → ℝ) × (Nat → ℝ)) (r : T ℝ)
    (h : batchNorm op [0] [0, 1] ⟨[2, 1], fun _ => 5⟩ none none (fun _ => 1) (fun i => (i.getD 0 0 : Nat)) st ab = .ok r) :
    r.at_ [0, 0] ≠ r.at_ [1, 0] := by
  intro e
  have := (batchNorm_default_equal_iff op ht 2 1 [] (by decide) (by decide) (by simp) (by simp) (List.Perm.refl _)
    (List.Perm.refl _) ⟨[2, 1], fun _ => 5⟩ rfl _ _ st ab r h 0 1 0 [] (by decide) (by decide) (by decide) trivial rfl).mp e
  simp at this

/-- The hypotheses of `batchNorm_value` on a batch of two images of three channels. -/
example (op : BNOp) (ht : op.training = true) (x : Nat → ℝ) (st : BNState) (ab : (Nat → ℝ) × (Nat → ℝ)) :
    ∃ r, batchNorm op [2, 0, 1] [1, 0] (ofFlat [2, 3, 4, 4] x) (some ⟨[1, 3, 1, 1], fun i => (i.getD 1 0 : Nat)⟩)
        (some ⟨[1, 3, 1, 1], fun _ => 7⟩) (fun _ => 0) (fun _ => 0) st ab = .ok r ∧
      r.at_ [1, 2, 3, 0] = 2 * bnOut op.epsilon 2 3 16 (ofFlat [2, 3, 4, 4] x).flat 1 2 12 + 7 := by
  obtain ⟨r, e, _, v⟩ := batchNorm_value op ht 2 3 [4, 4] (by decide) (by decide) (by simp) (by simp) (order := [2, 0, 1])
    (order' := [1, 0]) (by decide) (by decide) (ofFlat [2, 3, 4, 4] x) ⟨[1, 3, 1, 1], fun i => (i.getD 1 0 : Nat)⟩
    ⟨[1, 3, 1, 1], fun _ => 7⟩ rfl rfl rfl (fun _ => 0) (fun _ => 0) st ab
  refine ⟨r, e, ?_⟩
  rw [v 1 2 [3, 0] (by decide) (by decide) (by decide)]
  simp [chanIx, size, ravel]

end
end Verif.NN
