import Verif.Solver.Model
import Mathlib.Tactic.Ring
import Mathlib.Tactic.Linarith
import Mathlib.Tactic.FieldSimp
import Mathlib.Tactic.NormNum
import Mathlib.Tactic.Positivity
import Mathlib.Algebra.BigOperators.Ring.Finset
import Mathlib.Algebra.Order.BigOperators.Ring.Finset
import Mathlib.Algebra.Order.Chebyshev

/-!
# What the solvers do (properties C30, C31, C50, C51, C52)

The documented treatment of a gradient is `processed` below; it does not refer to the model.
-/

set_option autoImplicit false

namespace Verif.Solver

/-! ### The documented treatment of a gradient -/

/-- The gradient of the loss with the `l1` and `l2` penalties. -/
noncomputable def regularised (o : Fields) (w g : ℝ) : ℝ :=
  g + (if o.useL1Reg then o.l1reg * Real.sign w else 0) + (if o.useL2Reg then o.l2reg * w else 0)

/-- The regularised gradient, averaged over the batch and clipped to `[-clip, clip]`. -/
noncomputable def processed (o : Fields) (w g : ℝ) : ℝ :=
  if o.useClip then max (-o.clip) (min o.clip (regularised o w g / max 1 o.batch))
  else regularised o w g / max 1 o.batch

/-- Clipping, when used, has a positive bound. -/
def ClipOk (o : Fields) : Prop := o.useClip = true → 0 < o.clip

/-! ### Lemmas -/

theorem signOf_eq (x : ℝ) : signOf x = Real.sign x := rfl

theorem clamp_eq (c x : ℝ) (h : 0 < c) : clamp (-c) c x = max (-c) (min c x) := by
  unfold clamp
  split_ifs with h1 h2
  · rw [min_eq_right (by linarith), max_eq_left (by linarith)]
  · rw [min_eq_left (by linarith), max_eq_right (by linarith)]
  · rw [min_eq_right (by linarith), max_eq_right (by linarith)]

theorem prepT_eq (s : Fields) {n : Nat} (r g : Dense n) (hc : ClipOk s) (i : Fin n) :
    prepT s r g i = processed s (r i) (g i) := by
  have hb : ∀ x : ℝ, (if 1 < s.batch then x * (1 / s.batch) else x) = x / max 1 s.batch := by
    intro x
    split_ifs with h
    · rw [max_eq_right h.le]; ring
    · rw [max_eq_left (by linarith)]; ring
  unfold prepT processed regularised
  simp only [signOf_eq]
  cases hu : s.useClip
  · rw [← hb]
    cases s.useL1Reg <;> cases s.useL2Reg <;> simp <;> split_ifs <;> ring
  · have h0 := hc hu
    rw [← clamp_eq _ _ h0, ← hb]
    simp only [h0, decide_true, Bool.and_self, if_true]
    congr 1
    cases s.useL1Reg <;> cases s.useL2Reg <;> simp <;> split_ifs <;> ring

theorem prepS_eq (s : Fields) (w g : ℝ) (hc : ClipOk s) (hw : s.useL1Reg = true → w ≠ 0) :
    prepS s w g = processed s w g := by
  have hb : ∀ x : ℝ, (if 1 < s.batch then x * (1 / s.batch) else x) = x / max 1 s.batch := by
    intro x
    split_ifs with h
    · rw [max_eq_right h.le]; ring
    · rw [max_eq_left (by linarith)]; ring
  have hl : (if s.useL1Reg then g + (if w < 0 then -s.l1reg else s.l1reg) else g)
      = g + (if s.useL1Reg then s.l1reg * Real.sign w else 0) := by
    cases hu : s.useL1Reg
    · simp
    · rcases lt_or_gt_of_ne (hw hu) with h | h
      · simp [h, Real.sign_of_neg h]
      · simp [h.le, Real.sign_of_pos h]
  unfold prepS processed regularised
  simp only [hl]
  have h2 : ∀ x : ℝ, (if s.useL2Reg then x + s.l2reg * w else x)
      = x + (if s.useL2Reg then s.l2reg * w else 0) := by
    intro x; split_ifs <;> ring
  simp only [h2, hb]
  cases hu : s.useClip
  · simp
  · have h0 := hc hu
    rw [← clamp_eq _ _ h0]
    simp only [if_true]
    unfold clamp
    split_ifs <;> first | rfl | linarith

/-- The scalar as a tensor with one element. -/
def lift : Param → Param
  | .scalar w g c => .dense 1 (fun _ => w) (g.map fun x _ => x) (c.map fun x => (fun _ => x.1, fun _ => x.2))
  | p => p

/-- A parameter of the class on which the two branches are meant to agree: a weight that is not
zero when the `l1` penalty is in use. -/
def WeightOk (s : Fields) : Param → Prop
  | .scalar w _ _ => s.useL1Reg = true → w ≠ 0
  | .dense _ _ _ _ => True

theorem cacheD_lift (c : Option (ℝ × ℝ)) :
    cacheD (n := 1) (c.map fun x => (fun _ => x.1, fun _ => x.2))
      = (fun _ => (cacheS c).1, fun _ => (cacheS c).2) := by
  cases c <;> rfl

theorem prepT_const (s : Fields) (w g : ℝ) (hc : ClipOk s) (hw : s.useL1Reg = true → w ≠ 0) :
    prepT (n := 1) s (fun _ => w) (fun _ => g) = fun _ => prepS s w g := by
  funext i
  rw [prepT_eq s _ _ hc, prepS_eq s w g hc hw]

/-! ### Vanilla -/

/-- **C30, Vanilla, tensors.** Every element of a tensor weight moves by the learn rate times its
processed gradient, and the gradient becomes zero. -/
theorem vanilla_dense (s : Fields) (n : Nat) (w g : Dense n) (c : Option (Dense n × Dense n))
    (hc : ClipOk s) :
    vanillaNode s (.dense n w (some g) c)
      = some (.dense n (fun i => w i - s.eta * processed s (w i) (g i)) (some fun _ => 0) c) := by
  simp only [vanillaNode]
  congr 2
  funext i
  rw [prepT_eq s w g hc]
  ring

/-- **C30, Vanilla, scalars.** -/
theorem vanilla_scalar_partial (s : Fields) (w g : ℝ) (c : Option (ℝ × ℝ))
    (hc : ClipOk s) (hw : s.useL1Reg = true → w ≠ 0) :
    vanillaNode s (.scalar w (some g) c)
      = some (.scalar (w - s.eta * processed s w g) (some 0) c) := by
  simp only [vanillaNode]
  rw [prepS_eq s w g hc hw]
  congr 2
  ring

/-- **C30, Vanilla**: scalars and one-element tensors are treated alike, on the class of weights and
settings above. -/
theorem vanilla_lift_partial (s : Fields) (p : Param) (hc : ClipOk s) (hw : WeightOk s p) :
    vanillaNode s (lift p) = (vanillaNode s p).map lift := by
  rcases p with ⟨w, _ | g, c⟩ | ⟨n, w, _ | g, c⟩
  · rfl
  · simp only [vanillaNode, lift, Option.map_some]
    rw [prepT_const s w g hc hw]
    congr 2
    funext i; ring
  · rfl
  · rfl

/-- **C30 fails for a weight that is zero**: with an `l1` penalty a scalar weight at zero with zero
gradient is moved by `eta * l1reg`; the same weight in a tensor stays. -/
theorem vanilla_l1_zero (s : Fields) (h1 : s.useL1Reg = true) (h2 : s.useClip = false)
    (hb : s.batch = 1) (hl : s.l1reg ≠ 0) (he : s.eta ≠ 0) :
    vanillaNode s (.scalar 0 (some 0) none) = some (.scalar (-(s.eta * s.l1reg)) (some 0) none)
    ∧ vanillaNode s (.dense 1 (fun _ => 0) (some fun _ => 0) none)
        = some (.dense 1 (fun _ => 0) (some fun _ => 0) none)
    ∧ -(s.eta * s.l1reg) ≠ 0 := by
  refine ⟨?_, ?_, by simpa using ⟨he, hl⟩⟩
  · simp [vanillaNode, prepS, h1, h2, hb]
  · simp [vanillaNode, prepT, h1, h2, hb, signOf]

/-- **C30 fails for a clip that is not positive**: a scalar with `clip = 0` never moves, a tensor is
not clipped at all. -/
theorem vanilla_clip_zero (s : Fields) (h1 : s.useL1Reg = false) (h2 : s.useL2Reg = false)
    (hb : s.batch = 1) (hu : s.useClip = true) (hc : s.clip = 0) (w g : ℝ) :
    vanillaNode s (.scalar w (some g) none) = some (.scalar w (some 0) none)
    ∧ vanillaNode s (.dense 1 (fun _ => w) (some fun _ => g) none)
        = some (.dense 1 (fun _ => w - s.eta * g) (some fun _ => 0) none) := by
  constructor
  · have : (if 0 < g then 0 else if g < 0 then 0 else g) = 0 := by
      split_ifs <;> linarith
    simp [vanillaNode, prepS, h1, h2, hb, hu, hc, this]
  · simp only [vanillaNode, prepT, h1, h2, hb, hu, hc, lt_irrefl, decide_false]
    congr 2
    funext i
    simp; ring

/-! ### The loop over the model -/

/-- A step processes every node of the model when none of them is in error. -/
theorem stepAll_ok (node : Param → Option Param) (ps qs : List Param)
    (h : List.Forall₂ (fun p q => node p = some q) ps qs) : stepAll node ps = (qs, true) := by
  induction h with
  | nil => rfl
  | cons h _ ih => simp only [stepAll, h, ih]

/-- A step that meets a node without a gradient has processed the nodes before it, returns an error
and leaves that node and the ones after it as they were. -/
theorem stepAll_error (node : Param → Option Param) (ps qs rest : List Param) (p : Param)
    (h : List.Forall₂ (fun p q => node p = some q) ps qs) (hp : node p = none) :
    stepAll node (ps ++ p :: rest) = (qs ++ p :: rest, false) := by
  induction h with
  | nil => simp only [List.nil_append, stepAll, hp]
  | cons h _ ih => simp only [List.cons_append, stepAll, h, ih]

/-- A parameter whose gradient is present. -/
def HasGrad : Param → Prop
  | .scalar _ g _ => g.isSome
  | .dense _ _ g _ => g.isSome

/-- The gradient is present and zero everywhere. -/
def ZeroGrad : Param → Prop
  | .scalar _ g _ => g = some 0
  | .dense _ _ g _ => g = some fun _ => 0

/-- **C30**: after a step of Vanilla, Momentum, RMSProp, AdaGrad or Adam that meets no error, all
gradients are zero, for every setting. -/
theorem step_zeroes (node : Param → Option Param) (s : Fields) (it : Nat)
    (hnode : node = vanillaNode s ∨ node = momentumNode s ∨ node = rmspropNode s ∨
      node = adagradNode s ∨ node = adamNode s it)
    (ps : List Param) (h : ∀ p ∈ ps, HasGrad p) :
    (stepAll node ps).2 = true ∧ (stepAll node ps).1.length = ps.length
      ∧ ∀ q ∈ (stepAll node ps).1, ZeroGrad q := by
  induction ps with
  | nil => simp [stepAll]
  | cons p ps ih =>
    obtain ⟨i1, i2, i3⟩ := ih fun q hq => h q (List.mem_cons_of_mem _ hq)
    have hp := h p (List.mem_cons_self ..)
    have : ∃ q, node p = some q ∧ ZeroGrad q := by
      rcases p with ⟨w, _ | g, c⟩ | ⟨n, w, _ | g, c⟩
      · simp [HasGrad] at hp
      · rcases hnode with h | h | h | h | h <;> subst h <;> exact ⟨_, rfl, rfl⟩
      · simp [HasGrad] at hp
      · rcases hnode with h | h | h | h | h <;> subst h <;> exact ⟨_, rfl, rfl⟩
    obtain ⟨q, hq, hz⟩ := this
    simp only [stepAll, hq]
    refine ⟨i1, by simp [i2], ?_⟩
    intro r hr
    rcases List.mem_cons.1 hr with h | h
    · subst h; exact hz
    · exact i3 r h

/-! ### Runs -/

/-- The backward pass before a step sets the gradient. -/
def setGrad (γ : ℕ → ℝ) : Param → Param
  | .scalar w _ c => .scalar w (some (γ 0)) c
  | .dense n w _ c => .dense n w (some fun i => γ i) c

/-- `t` rounds of "set the gradient, step", for one node; `G k i` is the gradient of element `i` in
round `k`, and `node k` the step with the iteration counter at `k`. -/
def run (node : ℕ → Param → Option Param) (G : ℕ → ℕ → ℝ) (p : Param) : ℕ → Option Param
  | 0 => some p
  | t + 1 => (run node G p t).bind fun q => node (t + 1) (setGrad (G t) q)

/-- The exponentially weighted sum of `x 0, …, x t`. -/
noncomputable def ema (β : ℝ) (x : ℕ → ℝ) (t : ℕ) : ℝ :=
  ∑ k ∈ Finset.range (t + 1), (1 - β) * β ^ (t - k) * x k

theorem ema_succ (β : ℝ) (x : ℕ → ℝ) (t : ℕ) :
    ema β x (t + 1) = β * ema β x t + (1 - β) * x (t + 1) := by
  unfold ema
  rw [Finset.sum_range_succ (n := t + 1), Finset.mul_sum]
  congr 1
  · refine Finset.sum_congr rfl fun k hk => ?_
    have : t + 1 - k = (t - k) + 1 := by
      have := Finset.mem_range.1 hk; omega
    rw [this, pow_succ]; ring
  · simp

theorem ema_zero (β : ℝ) (x : ℕ → ℝ) : ema β x 0 = (1 - β) * x 0 := by simp [ema]

/-- The weights of the sum add up to `1 - β ^ (t + 1)`, which is what the correction divides by. -/
theorem ema_const (β a : ℝ) (t : ℕ) : ema β (fun _ => a) t = (1 - β ^ (t + 1)) * a := by
  induction t with
  | zero => rw [ema_zero]; ring
  | succ t ih => rw [ema_succ, ih]; ring

/-! ### Momentum -/

/-- **C30, Momentum, tensors without penalties**: after `t + 1` rounds the velocity is the
exponentially weighted sum of the processed gradients and the weights are the sum of all velocities:
each step does `v := momentum * v - eta * g; w := w + v`.  Missing: the penalties, see below. -/
theorem momentum_dense_partial (s : Fields) (hc : ClipOk s) (h1 : s.useL1Reg = false)
    (h2 : s.useL2Reg = false) (n : Nat) (w0 : Dense n) (G : ℕ → ℕ → ℝ) :
    ∃ w v : ℕ → Dense n, w 0 = w0 ∧ v 0 = (fun _ => 0) ∧
      (∀ t, run (fun _ => momentumNode s) G (.dense n w0 none none) (t + 1)
        = some (.dense n (w (t + 1)) (some fun _ => 0) (some (v (t + 1), fun _ => 0)))) ∧
      (∀ t i, v (t + 1) i = s.momentum * v t i - s.eta * processed s (w t i) (G t i)) ∧
      (∀ t i, w (t + 1) i = w t i + v (t + 1) i) := by
  let st : ℕ → Dense n × Dense n := fun t => Nat.rec (w0, fun _ => 0) (fun k q =>
    (fun i => q.1 i + (s.momentum * q.2 i - s.eta * processed s (q.1 i) (G k i)),
     fun i => s.momentum * q.2 i - s.eta * processed s (q.1 i) (G k i))) t
  have hp : ∀ (r w g : Dense n) i, prepT s r g i = processed s (w i) (g i) := by
    intro r w g i
    rw [prepT_eq s r g hc]
    simp [processed, regularised, h1, h2]
  refine ⟨fun t => (st t).1, fun t => (st t).2, rfl, rfl, ?_, fun t i => rfl, fun t i => rfl⟩
  intro t
  induction t with
  | zero =>
    simp only [run, Option.bind_some, setGrad, momentumNode, cacheD, Option.getD_none]
    congr 2
    · funext i; rw [hp _ w0]; simp [st]; ring
    · congr 2; funext i; rw [hp _ w0]; simp [st]; ring
  | succ t ih =>
    rw [run, ih]
    simp only [Option.bind_some, setGrad, momentumNode, cacheD, Option.getD_some]
    congr 2
    · funext i; rw [hp _ (st (t + 1)).1]; simp only [st]; ring
    · congr 2; funext i; rw [hp _ (st (t + 1)).1]; simp only [st]; ring

/-- **C30 fails for Momentum with penalties**: the penalties are computed from the velocity, not
from the weights.  In the first step, where the velocity is zero, they have no effect whatever, for
every weight and every setting. -/
theorem momentum_first_unregularised (s : Fields) (n : Nat) (w g : Dense n) :
    momentumNode s (.dense n w (some g) none)
      = momentumNode { s with useL1Reg := false, useL2Reg := false }
          (.dense n w (some g) none) := by
  have : prepT s (fun _ => 0) g
      = prepT { s with useL1Reg := false, useL2Reg := false } (fun _ => 0) g := by
    unfold prepT
    simp [signOf]
  simp only [momentumNode, cacheD, Option.getD_none, this]

/-- So a weight with no gradient from the loss does not decay, although the documented rule moves
it by `eta * l2reg * w`. -/
theorem momentum_no_decay (s : Fields) (h1 : s.useL1Reg = false) (h2 : s.useL2Reg = true)
    (hu : s.useClip = false) (hb : s.batch = 1) (hl : s.l2reg ≠ 0) (he : s.eta ≠ 0)
    (w : ℝ) (hw : w ≠ 0) (t : ℕ) :
    run (fun _ => momentumNode s) (fun _ _ => 0) (.dense 1 (fun _ => w) none none) (t + 1)
        = some (.dense 1 (fun _ => w) (some fun _ => 0) (some (fun _ => 0, fun _ => 0)))
    ∧ w - s.eta * processed s w 0 ≠ w := by
  constructor
  · induction t with
    | zero => simp [run, setGrad, momentumNode, cacheD, prepT, h1, h2, hu, hb]
    | succ t ih =>
      rw [run, ih]
      simp [setGrad, momentumNode, cacheD, prepT, h1, h2, hu, hb]
  · simp [processed, regularised, h1, h2, hu, hb, hl, he, hw]

/-- **C30 fails for Momentum on scalars**: the velocity is not kept, so every run on a scalar weight
is the run of the Vanilla solver, whatever the momentum is. -/
theorem momentum_scalar_is_vanilla (s : Fields) (w0 : ℝ) (G : ℕ → ℕ → ℝ) (t : ℕ) :
    ∃ w g, run (fun _ => momentumNode s) G (.scalar w0 none none) t
        = some (.scalar w g (if t = 0 then none else some (0, 0)))
      ∧ run (fun _ => vanillaNode s) G (.scalar w0 none none) t = some (.scalar w g none) := by
  induction t with
  | zero => exact ⟨w0, none, rfl, rfl⟩
  | succ t ih =>
    obtain ⟨w, g, hm, hv⟩ := ih
    refine ⟨w - s.eta * prepS s w (G t 0), some 0, ?_, ?_⟩
    · rw [run, hm]
      have : cacheS (if t = 0 then none else some (0, 0)) = (0, 0) := by
        split_ifs <;> rfl
      simp only [Option.bind_some, setGrad, momentumNode, this]
      congr 2
      ring
    · rw [run, hv]
      simp only [Option.bind_some, setGrad, vanillaNode]
      congr 2
      ring

/-- The two branches part at the second step: with gradients `1, 1` a tensor weight has moved by
`eta * (2 + momentum)`, a scalar by `2 * eta`. -/
theorem momentum_lift_fails (s : Fields) (h1 : s.useL1Reg = false) (h2 : s.useL2Reg = false)
    (hu : s.useClip = false) (hb : s.batch = 1) (hm : s.momentum ≠ 0) (he : s.eta ≠ 0) :
    (∃ w g c, run (fun _ => momentumNode s) (fun _ _ => 1) (.dense 1 (fun _ => 0) none none) 2
      = some (.dense 1 w g c) ∧ w 0 = -(s.eta * (2 + s.momentum)))
    ∧ (∃ w g c, run (fun _ => momentumNode s) (fun _ _ => 1) (.scalar 0 none none) 2
      = some (.scalar w g c) ∧ w = -(2 * s.eta))
    ∧ -(s.eta * (2 + s.momentum)) ≠ -(2 * s.eta) := by
  refine ⟨⟨_, _, _, rfl, ?_⟩, ⟨_, _, _, rfl, ?_⟩, ?_⟩
  · simp only [cacheD, prepT, h1, h2, hu, hb, Option.getD_none, Option.getD_some, lt_irrefl,
      if_false, Bool.false_and]
    simp; ring
  · simp only [cacheS, prepS, h1, h2, hu, hb, Option.getD_none, Option.getD_some, lt_irrefl,
      if_false]
    simp; ring
  · intro h
    have : s.eta * s.momentum = 0 := by linarith
    rcases mul_eq_zero.1 this with h | h
    · exact he h
    · exact hm h

/-! ### RMSProp -/

/-- The clipped gradient (no penalties, no batch average: RMSProp has no such settings but `l2`). -/
noncomputable def clipped (o : Fields) (g : ℝ) : ℝ :=
  if o.useClip then max (-o.clip) (min o.clip g) else g

/-- **C30, RMSProp, tensors**: after `t + 1` rounds the cache is the exponentially weighted sum of
the squares of the gradients (before clipping) and the weights move by
`- eta * g / √(cache + eps) - l2reg * w` with the clipped gradient `g`. -/
theorem rmsprop_dense (s : Fields) (hc : ClipOk s) (n : Nat) (w0 : Dense n) (G : ℕ → ℕ → ℝ) :
    ∃ w : ℕ → Dense n, w 0 = w0 ∧
      (∀ t, run (fun _ => rmspropNode s) G (.dense n w0 none none) (t + 1)
        = some (.dense n (w (t + 1)) (some fun _ => 0)
            (some (fun i => ema s.decay (fun k => G k i ^ 2) t, fun _ => 0)))) ∧
      (∀ t i, w (t + 1) i = w t i
        - s.eta * clipped s (G t i) / √(ema s.decay (fun k => G k i ^ 2) t + s.eps)
        - if s.useL2Reg then s.l2reg * w t i else 0) := by
  let w : ℕ → Dense n := fun t => Nat.rec w0 (fun k q => fun i => q i
      - s.eta * clipped s (G k i) / √(ema s.decay (fun k => G k i ^ 2) k + s.eps)
      - if s.useL2Reg then s.l2reg * q i else 0) t
  have hcl : ∀ (g : Dense n) i, (if s.useClip then (fun i => clamp (-s.clip) s.clip (g i)) else g) i
      = clipped s (g i) := by
    intro g i
    unfold clipped
    cases hu : s.useClip
    · simp
    · simp [clamp_eq _ _ (hc hu)]
  refine ⟨w, rfl, ?_, fun t i => rfl⟩
  intro t
  induction t with
  | zero =>
    simp only [run, Option.bind_some, setGrad, rmspropNode, cacheD, Option.getD_none]
    have hcw : (fun i : Fin n => (0 : ℝ) * s.decay + G 0 i * G 0 i * (1 - s.decay))
        = fun i : Fin n => ema s.decay (fun k => G k i ^ 2) 0 := by
      funext i; rw [ema_zero]; ring
    congr 2
    · funext i
      have hi := congrFun hcw i
      cases h2 : s.useL2Reg
      · simp only [Bool.false_eq_true, if_false]
        rw [hcl, hi]
        simp [w, h2]; ring
      · simp only [if_true]
        rw [hcl, hi]
        simp [w, h2]; ring
    · rw [hcw]
  | succ t ih =>
    rw [run, ih]
    simp only [Option.bind_some, setGrad, rmspropNode, cacheD, Option.getD_some]
    have hcw : (fun i : Fin n => ema s.decay (fun k => G k i ^ 2) t * s.decay
          + G (t + 1) i * G (t + 1) i * (1 - s.decay))
        = fun i : Fin n => ema s.decay (fun k => G k i ^ 2) (t + 1) := by
      funext i; rw [ema_succ]; ring
    congr 2
    · funext i
      have hi := congrFun hcw i
      cases h2 : s.useL2Reg
      · simp only [Bool.false_eq_true, if_false]
        rw [hcl, hi]
        simp [w, h2]; ring
      · simp only [if_true]
        rw [hcl, hi]
        simp [w, h2]; ring
    · rw [hcw]

/-- **C30, RMSProp**: scalars and one-element tensors are treated alike when no clipping is in
use (`l2reg` is zero unless the option set it). -/
theorem rmsprop_lift_partial (s : Fields) (p : Param) (hu : s.useClip = false)
    (hl : s.useL2Reg = false → s.l2reg = 0) :
    rmspropNode s (lift p) = (rmspropNode s p).map lift := by
  rcases p with ⟨w, _ | g, c⟩ | ⟨n, w, _ | g, c⟩
  · rfl
  · simp only [rmspropNode, lift, Option.map_some, cacheD_lift, hu]
    have hcc : (cacheS c).1 * s.decay + g * g * (1 - s.decay)
        = (cacheS c).1 * s.decay + (1 - s.decay) * g * g := by ring
    congr 2
    · funext i
      simp only [hcc, Bool.false_eq_true, if_false]
      cases h2 : s.useL2Reg
      · simp [hl h2]; ring
      · simp; ring
    · simp only [hcc, Option.map_some]
  · rfl
  · rfl

/-- **C30 fails for RMSProp with clipping**: the scalar branch never clips.  For every clip `c > 0`
and every gradient above it the two branches give different weights. -/
theorem rmsprop_scalar_unclipped (s : Fields) (hu : s.useClip = true) (hl : s.useL2Reg = false)
    (hl' : s.l2reg = 0) (hc : 0 < s.clip) (he : s.eta ≠ 0) (hd : 0 < 1 - s.decay)
    (hp : 0 ≤ s.eps) (w g : ℝ) (hg : s.clip < g) :
    ∃ x y c c', rmspropNode s (.scalar w (some g) none) = some (.scalar x (some 0) c)
      ∧ rmspropNode s (.dense 1 (fun _ => w) (some fun _ => g) none)
          = some (.dense 1 y (some fun _ => 0) c')
      ∧ x = w - s.eta * g / √((1 - s.decay) * g ^ 2 + s.eps)
      ∧ y 0 = w - s.eta * s.clip / √((1 - s.decay) * g ^ 2 + s.eps)
      ∧ x ≠ y 0 := by
  have hr : 0 < √((1 - s.decay) * g ^ 2 + s.eps) := by
    apply Real.sqrt_pos.2
    have : 0 < g := by linarith
    positivity
  have hx : ∃ x c, rmspropNode s (.scalar w (some g) none) = some (.scalar x (some 0) c)
      ∧ x = w - s.eta * g / √((1 - s.decay) * g ^ 2 + s.eps) := by
    refine ⟨_, _, rfl, ?_⟩
    simp only [cacheS, Option.getD_none, hl']
    rw [show (0 : ℝ) * s.decay + (1 - s.decay) * g * g = (1 - s.decay) * g ^ 2 by ring]
    ring
  have hy : ∃ y c, rmspropNode s (.dense 1 (fun _ => w) (some fun _ => g) none)
        = some (.dense 1 y (some fun _ => 0) c)
      ∧ y 0 = w - s.eta * s.clip / √((1 - s.decay) * g ^ 2 + s.eps) := by
    refine ⟨_, _, rfl, ?_⟩
    have hcl : clamp (-s.clip) s.clip g = s.clip := by
      unfold clamp
      rw [if_neg (by linarith), if_pos hg]
    simp only [cacheD, Option.getD_none, hl, hu, if_true, hcl]
    rw [show (0 : ℝ) * s.decay + g * g * (1 - s.decay) = (1 - s.decay) * g ^ 2 by ring]
    simp; ring
  obtain ⟨x, c, ex, hx⟩ := hx
  obtain ⟨y, c', ey, hy⟩ := hy
  refine ⟨x, y, c, c', ex, ey, hx, hy, ?_⟩
  · rw [hx, hy]
    intro h
    have h1 : s.eta * g / √((1 - s.decay) * g ^ 2 + s.eps)
        = s.eta * s.clip / √((1 - s.decay) * g ^ 2 + s.eps) := by linarith
    rw [div_left_inj' hr.ne'] at h1
    have := mul_left_cancel₀ he h1
    linarith

/-! ### AdaGrad -/

/-- **C30, AdaGrad, tensors**: after `t + 1` rounds the cache is the sum of the squares of all
gradients and the weights move by `- eta * g / √(cache + eps) - l2reg * w`. -/
theorem adagrad_dense (s : Fields) (hc : ClipOk s) (n : Nat) (w0 : Dense n) (G : ℕ → ℕ → ℝ) :
    ∃ w : ℕ → Dense n, w 0 = w0 ∧
      (∀ t, run (fun _ => adagradNode s) G (.dense n w0 none none) (t + 1)
        = some (.dense n (w (t + 1)) (some fun _ => 0)
            (some (fun i => ∑ k ∈ Finset.range (t + 1), G k i ^ 2, fun _ => 0)))) ∧
      (∀ t i, w (t + 1) i = w t i
        - s.eta * clipped s (G t i) / √((∑ k ∈ Finset.range (t + 1), G k i ^ 2) + s.eps)
        - if s.useL2Reg then s.l2reg * w t i else 0) := by
  let w : ℕ → Dense n := fun t => Nat.rec w0 (fun m q => fun i => q i
      - s.eta * clipped s (G m i) / √((∑ k ∈ Finset.range (m + 1), G k i ^ 2) + s.eps)
      - if s.useL2Reg then s.l2reg * q i else 0) t
  have hcl : ∀ (g : Dense n) i, (if s.useClip then (fun i => clamp (-s.clip) s.clip (g i)) else g) i
      = clipped s (g i) := by
    intro g i
    unfold clipped
    cases hu : s.useClip
    · simp
    · simp [clamp_eq _ _ (hc hu)]
  have hw0 : w 0 = w0 := rfl
  have hw1 : ∀ t i, w (t + 1) i = w t i
      - s.eta * clipped s (G t i) / √((∑ k ∈ Finset.range (t + 1), G k i ^ 2) + s.eps)
      - if s.useL2Reg then s.l2reg * w t i else 0 := fun _ _ => rfl
  refine ⟨w, rfl, ?_, fun t i => rfl⟩
  intro t
  induction t with
  | zero =>
    simp only [run, Option.bind_some, setGrad, adagradNode, cacheD, Option.getD_none]
    have hcw : (fun i : Fin n => (0 : ℝ) + G 0 i * G 0 i)
        = fun i : Fin n => ∑ k ∈ Finset.range (0 + 1), G k i ^ 2 := by
      funext i; simp; ring
    congr 2
    · funext i
      have hi := congrFun hcw i
      cases h2 : s.useL2Reg
      · simp only [Bool.false_eq_true, if_false]
        rw [hcl, hi]
        rw [hw1]; simp only [h2, Bool.false_eq_true, if_false]; try rw [hw0]
        ring
      · simp only [if_true]
        rw [hcl, hi]
        rw [hw1]; simp only [h2, if_true]; try rw [hw0]
        ring
    · rw [hcw]
  | succ t ih =>
    rw [run, ih]
    simp only [Option.bind_some, setGrad, adagradNode, cacheD, Option.getD_some]
    have hcw : (fun i : Fin n => ∑ k ∈ Finset.range (t + 1), G k i ^ 2 + G (t + 1) i * G (t + 1) i)
        = fun i : Fin n => ∑ k ∈ Finset.range (t + 1 + 1), G k i ^ 2 := by
      funext i; rw [Finset.sum_range_succ (n := t + 1)]; ring
    congr 2
    · funext i
      have hi := congrFun hcw i
      cases h2 : s.useL2Reg
      · simp only [Bool.false_eq_true, if_false]
        rw [hcl, hi]
        rw [hw1 (t + 1)]; simp only [h2, Bool.false_eq_true, if_false]; try rw [hw0]
        ring
      · simp only [if_true]
        rw [hcl, hi]
        rw [hw1 (t + 1)]; simp only [h2, if_true]; try rw [hw0]
        ring
    · rw [hcw]

/-- **C30 fails for AdaGrad on scalars**: the sum of squares is not kept, so a step depends on the
present gradient only, after any history. -/
theorem adagrad_scalar_forgets (s : Fields) (h2 : s.useL2Reg = false) (hu : s.useClip = false)
    (w0 : ℝ) (G : ℕ → ℕ → ℝ) :
    ∃ w : ℕ → ℝ, w 0 = w0 ∧
      (∀ t, run (fun _ => adagradNode s) G (.scalar w0 none none) (t + 1)
        = some (.scalar (w (t + 1)) (some 0) (some (0, 0)))) ∧
      (∀ t, w (t + 1) = w t - s.eta * G t 0 / √(G t 0 ^ 2 + s.eps)) := by
  let w : ℕ → ℝ := fun t => Nat.rec w0 (fun m q => q - s.eta * G m 0 / √(G m 0 ^ 2 + s.eps)) t
  have hw0 : w 0 = w0 := rfl
  have hw1 : ∀ t, w (t + 1) = w t - s.eta * G t 0 / √(G t 0 ^ 2 + s.eps) := fun _ => rfl
  refine ⟨w, rfl, ?_, fun t => rfl⟩
  intro t
  induction t with
  | zero =>
    simp only [run, Option.bind_some, setGrad, adagradNode, cacheS, Option.getD_none, h2, hu]
    congr 2
    rw [show (0 : ℝ) + G 0 0 * G 0 0 = G 0 0 ^ 2 by ring]
    rw [hw1]; simp only [Bool.false_eq_true, if_false]; try rw [hw0]
    ring
  | succ t ih =>
    rw [run, ih]
    simp only [Option.bind_some, setGrad, adagradNode, cacheS, Option.getD_some, h2, hu]
    congr 2
    rw [show (0 : ℝ) + G (t + 1) 0 * G (t + 1) 0 = G (t + 1) 0 ^ 2 by ring]
    rw [hw1]; simp only [Bool.false_eq_true, if_false]; try rw [hw0]
    ring

/-! ### Adam -/

/-- The bias-corrected update of Adam for the processed gradients `x 0, …, x t`. -/
noncomputable def adamUpdate (s : Fields) (x : ℕ → ℝ) (t : ℕ) : ℝ :=
  s.eta * (ema s.beta1 x t / (1 - s.beta1 ^ (t + 1))) /
    (√(ema s.beta2 (fun k => x k ^ 2) t / (1 - s.beta2 ^ (t + 1))) + s.eps)

/-- **C31, tensors.** After `t + 1` rounds of Adam, from any weights, with any gradients and any
settings (a clip, if used, being positive), the stored moments are the exponentially weighted sums
of the processed gradients and of their squares, and each step moves the weights by the
bias-corrected ratio. -/
theorem adam_dense (s : Fields) (hc : ClipOk s) (n : Nat) (w0 : Dense n) (G : ℕ → ℕ → ℝ) :
    ∃ w : ℕ → Dense n, w 0 = w0 ∧
      (∀ t, run (adamNode s) G (.dense n w0 none none) (t + 1)
        = some (.dense n (w (t + 1)) (some fun _ => 0)
            (some (fun i => ema s.beta1 (fun k => processed s (w k i) (G k i)) t,
                   fun i => ema s.beta2 (fun k => processed s (w k i) (G k i) ^ 2) t)))) ∧
      (∀ t i, w (t + 1) i = w t i - adamUpdate s (fun k => processed s (w k i) (G k i)) t) := by
  -- the state of the documented recurrence
  let st : ℕ → Dense n × Dense n × Dense n := fun t => Nat.rec (w0, (fun _ => 0), fun _ => 0)
    (fun k q =>
      let x : Dense n := fun i => processed s (q.1 i) (G k i)
      let m : Dense n := fun i => s.beta1 * q.2.1 i + (1 - s.beta1) * x i
      let v : Dense n := fun i => s.beta2 * q.2.2 i + (1 - s.beta2) * x i ^ 2
      (fun i => q.1 i - s.eta * (m i / (1 - s.beta1 ^ (k + 1))) /
        (√(v i / (1 - s.beta2 ^ (k + 1))) + s.eps), m, v)) t
  have hm : ∀ t i, (st (t + 1)).2.1 i
      = ema s.beta1 (fun k => processed s ((st k).1 i) (G k i)) t := by
    intro t i
    induction t with
    | zero => rw [ema_zero]; simp [st]
    | succ t ih => rw [ema_succ, ← ih]
  have hv : ∀ t i, (st (t + 1)).2.2 i
      = ema s.beta2 (fun k => processed s ((st k).1 i) (G k i) ^ 2) t := by
    intro t i
    induction t with
    | zero => rw [ema_zero]; simp [st]
    | succ t ih => rw [ema_succ, ← ih]
  have hstep : ∀ t (g : Option (Dense n)) c, cacheD c = (st t).2 →
      adamNode s (t + 1) (setGrad (G t) (.dense n (st t).1 g c))
        = some (.dense n (st (t + 1)).1 (some fun _ => 0) (some (st (t + 1)).2)) := by
    intro t g c hcc
    simp only [setGrad, adamNode, hcc]
    have e1 : ∀ i, prepT s (st t).1 (fun i => G t i) i * (1 - s.beta1) + (st t).2.1 i * s.beta1
        = (st (t + 1)).2.1 i := by
      intro i
      rw [prepT_eq s _ _ hc]
      simp only [st]; ring
    have e2 : ∀ i, prepT s (st t).1 (fun i => G t i) i * prepT s (st t).1 (fun i => G t i) i
        * (1 - s.beta2) + (st t).2.2 i * s.beta2 = (st (t + 1)).2.2 i := by
      intro i
      rw [prepT_eq s _ _ hc]
      simp only [st]; ring
    simp only [e1, e2]
    congr 2
    funext i
    have e3 : (st (t + 1)).1 i = (st t).1 i - s.eta * ((st (t + 1)).2.1 i / (1 - s.beta1 ^ (t + 1)))
        / (√((st (t + 1)).2.2 i / (1 - s.beta2 ^ (t + 1))) + s.eps) := rfl
    rw [e3, mul_one_div ((st (t + 1)).2.2 i)]
    ring
  have hrun : ∀ t, run (adamNode s) G (.dense n w0 none none) (t + 1)
      = some (.dense n (st (t + 1)).1 (some fun _ => 0) (some (st (t + 1)).2)) := by
    intro t
    induction t with
    | zero => exact hstep 0 none none rfl
    | succ t ih =>
      rw [run, ih]
      exact hstep (t + 1) (some fun _ => 0) (some (st (t + 1)).2) rfl
  refine ⟨fun t => (st t).1, rfl, ?_, ?_⟩
  · intro t
    rw [hrun t]
    congr 3
    refine Prod.ext ?_ ?_
    · funext i; exact hm t i
    · funext i; exact hv t i
  · intro t i
    have e3 : (st (t + 1)).1 i = (st t).1 i - s.eta * ((st (t + 1)).2.1 i / (1 - s.beta1 ^ (t + 1)))
        / (√((st (t + 1)).2.2 i / (1 - s.beta2 ^ (t + 1))) + s.eps) := rfl
    show (st (t + 1)).1 i = _
    rw [e3, hm, hv]
    rfl

/-- **C31**: scalars and one-element tensors are treated alike, for weights that are not zero when
the `l1` penalty is in use and a clip that is positive. -/
theorem adam_lift_partial (s : Fields) (it : Nat) (p : Param) (hc : ClipOk s)
    (hw : WeightOk s p) : adamNode s it (lift p) = (adamNode s it p).map lift := by
  rcases p with ⟨w, _ | g, c⟩ | ⟨n, w, _ | g, c⟩
  · rfl
  · simp only [adamNode, lift, Option.map_some, cacheD_lift]
    rw [prepT_const s w g hc hw]
    have e1 : prepS s w g * (1 - s.beta1) + (cacheS c).1 * s.beta1
        = s.beta1 * (cacheS c).1 + (1 - s.beta1) * prepS s w g := by ring
    have e2 : prepS s w g * prepS s w g * (1 - s.beta2) + (cacheS c).2 * s.beta2
        = s.beta2 * (cacheS c).2 + (1 - s.beta2) * prepS s w g * prepS s w g := by ring
    simp only [e1, e2]
    congr 2
    funext i
    rw [mul_comm (s.beta2 * (cacheS c).2 + (1 - s.beta2) * prepS s w g * prepS s w g)
      (1 / (1 - s.beta2 ^ it))]
    ring
  · rfl
  · rfl

/-- The bias correction is exact: for a gradient that is the same in every round the corrected
moments are that gradient and its square, so the step is `eta * g / (|g| + eps)`. -/
theorem adam_constant (s : Fields) (a : ℝ) (t : ℕ) (h1 : s.beta1 ^ (t + 1) ≠ 1)
    (h2 : s.beta2 ^ (t + 1) ≠ 1) :
    adamUpdate s (fun _ => a) t = s.eta * a / (|a| + s.eps) := by
  unfold adamUpdate
  have e1 : 1 - s.beta1 ^ (t + 1) ≠ 0 := sub_ne_zero.2 (Ne.symm h1)
  have e2 : 1 - s.beta2 ^ (t + 1) ≠ 0 := sub_ne_zero.2 (Ne.symm h2)
  rw [ema_const, ema_const, mul_div_cancel_left₀ _ e1, mul_div_cancel_left₀ _ e2,
    Real.sqrt_sq_eq_abs]

/-- The corrected first moment is bounded by the largest processed gradient. -/
theorem ema_bound (β : ℝ) (h0 : 0 ≤ β) (h1 : β < 1) (x : ℕ → ℝ) (B : ℝ) (hB : ∀ k, |x k| ≤ B)
    (t : ℕ) : |ema β x t / (1 - β ^ (t + 1))| ≤ B := by
  have hpos : 0 < 1 - β ^ (t + 1) := by
    have := pow_lt_one₀ h0 h1 (Nat.succ_ne_zero t); simp only [Nat.succ_eq_add_one] at this; linarith
  rw [abs_div, abs_of_pos hpos, div_le_iff₀ hpos, mul_comm B, ← ema_const]
  unfold ema
  refine (Finset.abs_sum_le_sum_abs _ _).trans (Finset.sum_le_sum fun k _ => ?_)
  have hnn : 0 ≤ (1 - β) * β ^ (t - k) := mul_nonneg (by linarith) (pow_nonneg h0 _)
  rw [abs_mul, abs_of_nonneg hnn]
  exact mul_le_mul_of_nonneg_left (hB k) hnn

/-- The stored second moment is never negative, so the square root is of a non-negative number. -/
theorem ema_sq_nonneg (β : ℝ) (h0 : 0 ≤ β) (h1 : β ≤ 1) (x : ℕ → ℝ) (t : ℕ) :
    0 ≤ ema β (fun k => x k ^ 2) t := by
  unfold ema
  refine Finset.sum_nonneg fun k _ => ?_
  exact mul_nonneg (mul_nonneg (by linarith) (pow_nonneg h0 _)) (sq_nonneg _)

/-! ### AdamW -/

/-- **C52 fails**: no number of steps of `AdamW` changes the weights, whatever the gradients and
the settings. -/
theorem adamw_never_moves (s : Fields) (n : Nat) (w0 : Dense n) (G : ℕ → ℕ → ℝ) (t : ℕ) :
    ∃ g c, run (adamwNode s) G (.dense n w0 none none) t = some (.dense n w0 g c) := by
  induction t with
  | zero => exact ⟨none, none, rfl⟩
  | succ t ih =>
    obtain ⟨g, c, h⟩ := ih
    rw [run, h]
    exact ⟨_, _, rfl⟩

/-- **C52 fails**: the moments are not the documented ones either; the second is
`(1 - β1 ^ 2) * m + β1 ^ 2 * g` in place of `β1 * m + (1 - β1) * g`.  With the gradients `0, 1` and
`β1 = 0.9` it is `0.81`, not `0.1`. -/
theorem adamw_moment (s : Fields) (h1 : s.useL1Reg = false) (h2 : s.useL2Reg = false)
    (hu : s.useClip = false) (hb : s.batch = 0) (hβ : s.beta1 = 0.9) :
    ∃ w g m v, run (adamwNode s) (fun k _ => k) (.dense 1 (fun _ => 0) none none) 2
      = some (.dense 1 w g (some (m, v))) ∧ m 0 = 0.81
      ∧ ema s.beta1 (fun k => (k : ℝ)) 1 = 0.1 := by
  refine ⟨_, _, _, _, rfl, ?_, ?_⟩
  · simp only [cacheD, Option.getD_none, Option.getD_some, prepT, h1, h2, hu, hb, hβ]
    norm_num
  · rw [ema_succ, ema_zero, hβ]; norm_num

/-- What a scalar weight makes of `AdamW`: a failed type assertion, in every state. -/
theorem adamw_scalar_panics (s : Fields) (it : Nat) (w : ℝ) (g : Option ℝ) (c : Option (ℝ × ℝ)) :
    adamwNode s it (.scalar w g c) = none := rfl

/-! ### Barzilai-Borwein -/

/-- The squared distance between `Δx` and `e * Δg`, over all the nodes. -/
noncomputable def misfit {k : Nat} {sz : Fin k → Nat} (dx dg : (j : Fin k) → Dense (sz j))
    (e : ℝ) : ℝ := ∑ j, ∑ i, (dx j i - e * dg j i) ^ 2

/-- **C51**: from the second step on (without clipping) the learn rate is the one that makes
`eta * Δg` as close as possible to `Δx`, over all nodes together; the weights move by the learn rate
times the gradient; the gradients become zero; and the present weights and gradients are those the
next step compares with. -/
theorem bb_step {k : Nat} {sz : Fin k → Nat} (s : BB k sz) (w g : (j : Fin k) → Dense (sz j))
    (old : (j : Fin k) → Dense (sz j) × Dense (sz j)) (hs : s.prev = some old)
    (hu : s.useClip = false) (hne : ∃ j i, g j i ≠ (old j).2 i) :
    (∀ e, misfit (fun j i => w j i - (old j).1 i) (fun j i => g j i - (old j).2 i) (bbStep s w g).1.eta
      ≤ misfit (fun j i => w j i - (old j).1 i) (fun j i => g j i - (old j).2 i) e)
    ∧ (∀ j i, (bbStep s w g).2.1 j i = w j i - (bbStep s w g).1.eta * g j i)
    ∧ (∀ j i, (bbStep s w g).2.2 j i = 0)
    ∧ (bbStep s w g).1.prev = some fun j => (w j, g j) := by
  refine ⟨?_, ?_, fun _ _ => rfl, rfl⟩
  · intro e
    set dx : (j : Fin k) → Dense (sz j) := fun j i => w j i - (old j).1 i
    set dg : (j : Fin k) → Dense (sz j) := fun j i => g j i - (old j).2 i
    set N := ∑ j, contract (dx j) (dg j)
    set D := ∑ j, contract (dg j) (dg j)
    have heta : (bbStep s w g).1.eta = N / D := by
      simp only [bbStep, bbEta, hs, bbClip, hu, Bool.false_and]
      rfl
    have hD : 0 < D := by
      obtain ⟨j, i, hji⟩ := hne
      have hnn : ∀ j, 0 ≤ contract (dg j) (dg j) := fun j =>
        Finset.sum_nonneg fun i _ => mul_self_nonneg _
      refine Finset.sum_pos' (fun j _ => hnn j) ⟨j, Finset.mem_univ j, ?_⟩
      refine Finset.sum_pos' (fun i _ => mul_self_nonneg _) ⟨i, Finset.mem_univ i, ?_⟩
      exact mul_self_pos.2 (sub_ne_zero.2 hji)
    have hmf : ∀ e, misfit dx dg e = (∑ j, contract (dx j) (dx j)) - 2 * e * N + e ^ 2 * D := by
      intro e
      simp only [misfit, N, D, contract, Finset.mul_sum]
      rw [← Finset.sum_sub_distrib, ← Finset.sum_add_distrib]
      refine Finset.sum_congr rfl fun j _ => ?_
      rw [← Finset.sum_sub_distrib, ← Finset.sum_add_distrib]
      refine Finset.sum_congr rfl fun i _ => ?_
      ring
    rw [heta, hmf, hmf]
    have hsq : 0 ≤ (e * D - N) ^ 2 / D := div_nonneg (sq_nonneg _) hD.le
    have h1 : (e * D - N) ^ 2 / D = (-2 * e * N + e ^ 2 * D) - (-2 * (N / D) * N + (N / D) ^ 2 * D) := by
      field_simp
      ring
    linarith
  · intro j i
    simp only [bbStep]
    ring

/-- The first step uses the learn rate given. -/
theorem bb_first {k : Nat} {sz : Fin k → Nat} (s : BB k sz) (w g : (j : Fin k) → Dense (sz j))
    (hs : s.prev = none) :
    (∀ j i, (bbStep s w g).2.1 j i = w j i - s.eta * g j i) ∧ (bbStep s w g).1.eta = s.eta := by
  constructor
  · intro j i
    simp only [bbStep, bbEta, hs]; ring
  · simp only [bbStep, bbEta, hs]

/-- With clipping the learn rate never exceeds the clip in size. -/
theorem bb_clip {k : Nat} {sz : Fin k → Nat} (s : BB k sz) (w g : (j : Fin k) → Dense (sz j))
    (old : (j : Fin k) → Dense (sz j) × Dense (sz j)) (hs : s.prev = some old)
    (hu : s.useClip = true) (hc : 0 ≤ s.clip) : |(bbStep s w g).1.eta| ≤ s.clip := by
  simp only [bbStep, bbEta, hs, bbClip, hu, Bool.true_and, decide_eq_true_eq]
  split_ifs with h1 h2
  · rw [abs_neg, abs_of_nonneg hc]
  · rw [abs_of_nonneg hc]
  · exact not_lt.1 h1

/-- For a loss that is quadratic in one weight, two steps reach the stationary point: whatever the
start and the first learn rate, if the weight moved at all in the first step then the gradient at
the result of the second is zero. -/
theorem bb_quadratic (a b x0 eta0 : ℝ) (ha : a ≠ 0) (he : eta0 ≠ 0) (hx : a * x0 + b ≠ 0) :
    let f : ℝ → ℝ := fun x => a * x + b
    let s0 : BB 1 (fun _ => 1) := ⟨eta0, 0, false, none⟩
    let r1 := bbStep s0 (fun _ _ => x0) (fun _ _ => f x0)
    let x1 := r1.2.1 0 0
    let r2 := bbStep r1.1 (fun _ _ => x1) (fun _ _ => f x1)
    f (r2.2.1 0 0) = 0 := by
  intro f s0 r1 x1 r2
  have hx1 : x1 = x0 - eta0 * f x0 := by
    simp only [x1, r1, s0, bbStep, bbEta]; ring
  have hr2 : r2.2.1 0 0 = x1 - f x1 * ((x1 - x0) * (f x1 - f x0) / ((f x1 - f x0) * (f x1 - f x0))) := by
    simp only [r2, r1, s0, bbStep, bbEta, bbClip, contract, Bool.false_and, Finset.univ_unique,
      Finset.sum_const, Finset.card_singleton, one_smul]
    rfl
  have hd : f x1 - f x0 = a * (x1 - x0) := by simp only [f]; ring
  have hne : x1 - x0 ≠ 0 := by
    rw [hx1]
    have : x0 - eta0 * f x0 - x0 = -(eta0 * f x0) := by ring
    rw [this, neg_ne_zero]
    exact mul_ne_zero he hx
  rw [hr2, hd]
  simp only [f]
  field_simp
  ring

/-! ### Options -/

/-- **C50**: an option sets the field it is about in every solver type that has that field, except
AdaGrad. -/
theorem option_sets_partial (o : Opt) (x : ℝ) (k : Kind) (s : Fields) (h : hasField k o = true)
    (hk : k ≠ .adagrad) : fieldOf (apply o x k s) o = x := by
  cases o <;> cases k <;> first | rfl | (exact absurd rfl hk) | (simp [hasField] at h)

/-- Options for penalties and clipping also switch them on. -/
theorem option_switches_on_partial (x : ℝ) (k : Kind) (s : Fields) (hk : k ≠ .adagrad) :
    (hasField k .l2Reg = true → (apply .l2Reg x k s).useL2Reg = true)
    ∧ (hasField k .l1Reg = true → (apply .l1Reg x k s).useL1Reg = true)
    ∧ (hasField k .clip = true → (apply .clip x k s).useClip = true) := by
  refine ⟨?_, ?_, ?_⟩ <;> intro h <;> cases k <;>
    first | rfl | (exact absurd rfl hk) | (simp [hasField] at h)

/-- An option changes no other field. -/
theorem option_only (o o' : Opt) (x : ℝ) (k : Kind) (s : Fields) (h : o ≠ o') :
    fieldOf (apply o x k s) o' = fieldOf s o' := by
  cases o <;> cases o' <;> first | (exact absurd rfl h) | (cases k <;> rfl)

/-- An option about a field that the solver type does not have does nothing. -/
theorem option_inert (o : Opt) (x : ℝ) (k : Kind) (s : Fields) (h : hasField k o = false) :
    apply o x k s = s := by
  cases o <;> cases k <;> first | rfl | (simp [hasField] at h)

/-- **C50 fails for AdaGrad**: no list of options changes anything in an AdaGrad solver, although
it has a learn rate, a smoothing factor, penalties and a clip. -/
theorem adagrad_ignores_options (os : List (Opt × ℝ)) (s : Fields) :
    os.foldl (fun s o => apply o.1 o.2 .adagrad s) s = s := by
  induction os generalizing s with
  | nil => rfl
  | cons o os ih =>
    have : apply o.1 o.2 .adagrad s = s := by
      obtain ⟨o, x⟩ := o
      cases o <;> rfl
    rw [List.foldl_cons, this, ih]

/-- Options about different fields commute, so their order in `New…Solver(opts...)` does not
matter. -/
theorem options_commute (o o' : Opt) (x y : ℝ) (k : Kind) (s : Fields) (h : o ≠ o') :
    apply o x k (apply o' y k s) = apply o' y k (apply o x k s) := by
  cases o <;> cases o' <;> first | (exact absurd rfl h) | (cases k <;> rfl)

/-! ### Examples -/

/-- The default Vanilla settings with an `l2` penalty of one tenth, a batch of two and a clip of
one. -/
noncomputable def demo : Fields :=
  { eta := 0.5, eps := 0, clip := 1, l1reg := 0, l2reg := 0.1, batch := 2, decay := 0,
    momentum := 0.9, beta1 := 0.9, beta2 := 0.999, useClip := true, useL1Reg := false,
    useL2Reg := true }

/-- A gradient of `5` at the weight `10`: regularised `6`, averaged `3`, clipped `1`. -/
example : processed demo 10 5 = 1 := by
  simp only [processed, regularised, demo]
  norm_num

/-- and a gradient of `0.2` at the weight `2`: regularised `0.4`, averaged `0.2`, not clipped. -/
example : processed demo 2 0.2 = 0.2 := by
  simp only [processed, regularised, demo]
  norm_num

/-- The step on a tensor with these two elements. -/
example : vanillaNode demo (.dense 2 ![10, 2] (some ![5, 0.2]) none)
    = some (.dense 2 ![9.5, 1.9] (some fun _ => 0) none) := by
  rw [vanilla_dense demo 2 _ _ _ (fun _ => by simp [demo])]
  congr 2
  funext i
  fin_cases i
  · simp only [processed, regularised, demo]; norm_num
  · simp only [processed, regularised, demo]; norm_num

/-- The first Adam step from zero with a gradient of `4`: the weight moves by the whole learn
rate, against the gradient. -/
example : adamUpdate demo (fun _ => 4) 0 = 0.5 := by
  rw [adam_constant demo 4 0 (by norm_num [demo]) (by norm_num [demo])]
  norm_num [demo]

example : fieldOf (apply .clip 3 .momentum demo) .clip = 3 :=
  option_sets_partial .clip 3 .momentum demo rfl (by decide)

end Verif.Solver
