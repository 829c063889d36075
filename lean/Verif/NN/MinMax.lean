import Verif.Shape.Reduce
/-!
`minBetween` and `maxBetween` (`/repo/op_minmaxBetween.go`).  C59.
-/
set_option autoImplicit false
namespace Verif.NN
open Verif.Tensor Verif.Shape

/-! ### Model -/

/-- `minBetween`/`maxBetween`: `InferShape` (op_minmaxBetween.go 26-36, 94-104) requires equal shapes and gives the first;
`Do` (39-47, 107-115) is the library's elementwise minimum or maximum. -/
noncomputable def between (isMax : Bool) (a b : T ℝ) : Res (T ℝ) :=
  if shapeEq a.shape b.shape then elemVal (fun x y => if isMax then max x y else min x y) a b else .err

/-- `minmaxSymDiff`, op_minmaxBetween.go 150-168: the gradients of the two operands. -/
noncomputable def minmaxSymDiff (a out grad : T ℝ) : Res (T ℝ × T ℝ) :=
  (elem (fun x y : ℝ => if x = y then (1 : ℝ) else 0) a out).bind fun mask =>
  (elem (· * ·) grad mask).bind fun gradA =>
  (elem (· - ·) grad gradA).bind fun gradB => .ok (gradA, gradB)

/-- `minmaxAutoDiff`, op_minmaxBetween.go 173-224, from the derivatives held so far to the new ones. The mask is computed
with `ltOpType` (line 178). The first product is added to the derivative held (`mul.Incr`, line 208); the increment of
the second is a nil `Value` (line 217), so the derivative of the second operand is replaced. Simplified: one device, no
errors of the engine, equal shapes. -/
noncomputable def minmaxAutoDiff (a out ad gradOut : T ℝ) : T ℝ × T ℝ :=
  let mask : List Nat → ℝ := fun i => if a.at_ i < out.at_ i then 1 else 0
  let d : T ℝ := ⟨ad.shape, fun i => ad.at_ i + gradOut.at_ i * mask i⟩
  (d, ⟨gradOut.shape, fun i => gradOut.at_ i - d.at_ i⟩)

/-! ### Value -/

/-- **C59 (value).** -/
theorem between_value (isMax : Bool) (a b : T ℝ) (h : b.shape = a.shape) : ∃ r, between isMax a b = .ok r ∧ r.shape = a.shape ∧
    ∀ i, InB a.shape i → r.at_ i = (if isMax then max (a.at_ i) (b.at_ i) else min (a.at_ i) (b.at_ i)) := by
  unfold between
  rw [h, if_pos (shapeEq_refl _)]
  obtain ⟨r, h1, h2⟩ := elem_same (fun x y : ℝ => if isMax then max x y else min x y) a b h
  unfold elem at h1
  rw [h, inferElem_same] at h1
  exact ⟨r, h1, h2⟩

/-- Two tensors of different shapes are rejected. -/
theorem between_mismatch (isMax : Bool) (a b : T ℝ) (h : shapeEq a.shape b.shape = false) : between isMax a b = .err := by
  unfold between; rw [h]; rfl

/-! ### Symbolic gradient -/

/-- What the built gradients are: the whole gradient goes to the first operand where it equals the result, else to the
second. -/
theorem minmaxSymDiff_spec (a out grad : T ℝ) (ho : out.shape = a.shape) (hg : grad.shape = a.shape) :
    ∃ ga gb, minmaxSymDiff a out grad = .ok (ga, gb) ∧ ga.shape = a.shape ∧ gb.shape = a.shape ∧
      ∀ i, InB a.shape i → ga.at_ i = (if a.at_ i = out.at_ i then grad.at_ i else 0) ∧
        gb.at_ i = (if a.at_ i = out.at_ i then 0 else grad.at_ i) := by
  obtain ⟨m, m1, m2, m3⟩ := elem_same (fun x y : ℝ => if x = y then (1 : ℝ) else 0) a out ho
  obtain ⟨ga, g1, g2, g3⟩ := elem_same (fun x y : ℝ => x * y) grad m (m2.trans hg.symm)
  obtain ⟨gb, b1, b2, b3⟩ := elem_same (fun x y : ℝ => x - y) grad ga g2
  refine ⟨ga, gb, ?_, g2.trans hg, b2.trans hg, ?_⟩
  · unfold minmaxSymDiff
    rw [m1]; simp only [Res.bind]
    rw [g1]; simp only [Res.bind]
    rw [b1]
  · intro i hi
    have e1 := g3 i (by rw [hg]; exact hi)
    have e2 := b3 i (by rw [hg]; exact hi)
    rw [m3 i hi] at e1
    rw [e1] at e2
    by_cases c : a.at_ i = out.at_ i
    · rw [if_pos c] at e1 e2 ⊢
      rw [if_pos c, e1, e2]; constructor <;> ring
    · rw [if_neg c] at e1 e2 ⊢
      rw [if_neg c, e1, e2]; constructor <;> ring

theorem between_move_left (isMax : Bool) (p q d : ℝ) (h : p ≠ q) :
    HasDerivAt (fun τ : ℝ => if isMax then max (p + τ * d) q else min (p + τ * d) q)
      (if p = (if isMax then max p q else min p q) then d else 0) 0 := by
  have hc : Filter.Tendsto (fun τ : ℝ => p + τ * d) (nhds 0) (nhds p) := by
    have := (hasDerivAt_line p d).continuousAt.tendsto
    simpa using this
  rcases lt_or_gt_of_ne h with hlt | hlt
  · have hev : ∀ᶠ τ in nhds (0 : ℝ), p + τ * d < q := hc.eventually (gt_mem_nhds hlt)
    cases isMax
    · simp only [Bool.false_eq_true, if_false, min_eq_left hlt.le, if_true]
      refine (hasDerivAt_line p d).congr_of_eventuallyEq ?_
      filter_upwards [hev] with τ hτ
      exact min_eq_left hτ.le
    · simp only [if_true, max_eq_right hlt.le, if_neg h]
      refine (hasDerivAt_const (0 : ℝ) q).congr_of_eventuallyEq ?_
      filter_upwards [hev] with τ hτ
      exact max_eq_right hτ.le
  · have hev : ∀ᶠ τ in nhds (0 : ℝ), q < p + τ * d := hc.eventually (lt_mem_nhds hlt)
    cases isMax
    · simp only [Bool.false_eq_true, if_false, min_eq_right hlt.le, if_neg h]
      refine (hasDerivAt_const (0 : ℝ) q).congr_of_eventuallyEq ?_
      filter_upwards [hev] with τ hτ
      exact min_eq_right hτ.le
    · simp only [if_true, max_eq_left hlt.le]
      refine (hasDerivAt_line p d).congr_of_eventuallyEq ?_
      filter_upwards [hev] with τ hτ
      exact max_eq_left hτ.le

/-- The two operands can be exchanged. -/
theorem between_swap_val (isMax : Bool) (p q : ℝ) :
    (if isMax then max p q else min p q) = (if isMax then max q p else min q p) := by
  cases isMax
  · simp [min_comm]
  · simp [max_comm]

/-- **C59 (symbolic gradient).** Where the operands have no tie, the built gradients are the gradients with respect to the
two operands. Ties: `minmax_subgradient`. -/
theorem minmax_gradient (isMax : Bool) (a b g : T ℝ) (hb : b.shape = a.shape) (hg : g.shape = a.shape)
    (hne : ∀ i, InB a.shape i → a.at_ i ≠ b.at_ i) :
    ∃ out ga gb, between isMax a b = .ok out ∧ minmaxSymDiff a out g = .ok (ga, gb) ∧
      IsGrad (fun a' => between isMax a' b) a g ga ∧ IsGrad (fun b' => between isMax a b') b g gb := by
  obtain ⟨out, o1, o2, o3⟩ := between_value isMax a b hb
  obtain ⟨ga, gb, s1, s2, s3, s4⟩ := minmaxSymDiff_spec a out g o2 hg
  refine ⟨out, ga, gb, o1, s1, ⟨s2, fun d hd => ?_⟩, ⟨s3.trans hb.symm, fun d hd => ?_⟩⟩
  · choose r r1 r2 r3 using fun τ : ℝ => between_value isMax (moveT a d τ) b hb
    refine ⟨r, Filter.Eventually.of_forall fun τ => ⟨r1 τ, (r2 τ).trans hg.symm⟩, ?_⟩
    have hde : ∀ i, InB g.shape i → HasDerivAt (fun τ => (r τ).at_ i)
        (if a.at_ i = out.at_ i then d.at_ i else 0) 0 := by
      intro i hi
      rw [hg] at hi
      have e : (fun τ => (r τ).at_ i) = fun τ : ℝ => if isMax then max (a.at_ i + τ * d.at_ i) (b.at_ i)
          else min (a.at_ i + τ * d.at_ i) (b.at_ i) := funext fun τ => r3 τ i hi
      rw [e, o3 i hi]
      exact between_move_left isMax _ _ _ (hne i hi)
    refine (hasDerivAt_pair g _ _ hde).congr_deriv ?_
    rw [pair_eq, hg, s2]
    refine sumOver_congr _ _ _ (fun i hi => ?_)
    rw [(s4 i hi).1]
    by_cases c : a.at_ i = out.at_ i
    · rw [if_pos c, if_pos c]
    · rw [if_neg c, if_neg c]; ring
  · choose r r1 r2 r3 using fun τ : ℝ => between_value isMax a (moveT b d τ) hb
    refine ⟨r, Filter.Eventually.of_forall fun τ => ⟨r1 τ, (r2 τ).trans hg.symm⟩, ?_⟩
    have hde : ∀ i, InB g.shape i → HasDerivAt (fun τ => (r τ).at_ i)
        (if b.at_ i = out.at_ i then d.at_ i else 0) 0 := by
      intro i hi
      rw [hg] at hi
      have e : (fun τ => (r τ).at_ i) = fun τ : ℝ => if isMax then max (b.at_ i + τ * d.at_ i) (a.at_ i)
          else min (b.at_ i + τ * d.at_ i) (a.at_ i) := funext fun τ => (r3 τ i hi).trans (between_swap_val _ _ _)
      rw [e, o3 i hi, between_swap_val]
      exact between_move_left isMax _ _ _ (Ne.symm (hne i hi))
    refine (hasDerivAt_pair g _ _ hde).congr_deriv ?_
    rw [pair_eq, hg, s3]
    refine sumOver_congr _ _ _ (fun i hi => ?_)
    rw [(s4 i hi).2]
    have hx : (b.at_ i = out.at_ i) ↔ ¬ a.at_ i = out.at_ i := by
      have hn := hne i hi
      rw [o3 i hi]
      rcases lt_or_gt_of_ne hn with h | h
      · cases isMax
        · simp only [Bool.false_eq_true, if_false, min_eq_left h.le]; simp [Ne.symm hn]
        · simp only [if_true, max_eq_right h.le]; simp [hn]
      · cases isMax
        · simp only [Bool.false_eq_true, if_false, min_eq_right h.le]; simp [hn]
        · simp only [if_true, max_eq_left h.le]; simp [Ne.symm hn]
    by_cases c : a.at_ i = out.at_ i
    · rw [if_pos c, if_neg (fun hh => hx.1 hh c)]; ring
    · rw [if_neg c, if_pos (hx.2 c)]

/-- **C59 (ties).** For all operands, ties included: with a non-negative incoming gradient the built gradients are a
subgradient of the weighted sum of the maxima, and a supergradient of that of the minima. -/
theorem minmax_subgradient (a b g a' b' : T ℝ) (hb : b.shape = a.shape) (hg : g.shape = a.shape) (ha' : a'.shape = a.shape)
    (hb' : b'.shape = a.shape) (hpos : ∀ i, InB a.shape i → 0 ≤ g.at_ i) (isMax : Bool) :
    ∃ out out' ga gb, between isMax a b = .ok out ∧ between isMax a' b' = .ok out' ∧ minmaxSymDiff a out g = .ok (ga, gb) ∧
      (sumOver a.shape fun i => ga.at_ i * (a'.at_ i - a.at_ i) + gb.at_ i * (b'.at_ i - b.at_ i)) *
        (if isMax then 1 else -1) ≤
      (sumOver a.shape fun i => g.at_ i * (out'.at_ i - out.at_ i)) * (if isMax then 1 else -1) := by
  obtain ⟨out, o1, o2, o3⟩ := between_value isMax a b hb
  obtain ⟨out', p1, p2, p3⟩ := between_value isMax a' b' (hb'.trans ha'.symm)
  obtain ⟨ga, gb, s1, s2, s3, s4⟩ := minmaxSymDiff_spec a out g o2 hg
  refine ⟨out, out', ga, gb, o1, p1, s1, ?_⟩
  have key : ∀ i, InB a.shape i →
      (ga.at_ i * (a'.at_ i - a.at_ i) + gb.at_ i * (b'.at_ i - b.at_ i)) * (if isMax then (1 : ℝ) else -1) ≤
      g.at_ i * (out'.at_ i - out.at_ i) * (if isMax then 1 else -1) := by
    intro i hi
    have hp := p3 i (by rw [ha']; exact hi)
    have ho := o3 i hi
    have hgi := hpos i hi
    rw [(s4 i hi).1, (s4 i hi).2]
    cases isMax
    · simp only [Bool.false_eq_true, if_false] at hp ho ⊢
      have l1 := min_le_left (a'.at_ i) (b'.at_ i)
      have l2 := min_le_right (a'.at_ i) (b'.at_ i)
      by_cases c : a.at_ i = out.at_ i
      · rw [if_pos c, if_pos c, hp, ← c]
        nlinarith
      · have hbo : out.at_ i = b.at_ i := by
          rw [ho]
          rcases le_total (a.at_ i) (b.at_ i) with h | h
          · rw [ho, min_eq_left h] at c; exact absurd rfl c
          · exact min_eq_right h
        rw [if_neg c, if_neg c, hp, hbo]
        nlinarith
    · simp only [if_true] at hp ho ⊢
      have l1 := le_max_left (a'.at_ i) (b'.at_ i)
      have l2 := le_max_right (a'.at_ i) (b'.at_ i)
      by_cases c : a.at_ i = out.at_ i
      · rw [if_pos c, if_pos c, hp, ← c]
        nlinarith
      · have hbo : out.at_ i = b.at_ i := by
          rw [ho]
          rcases le_total (a.at_ i) (b.at_ i) with h | h
          · exact max_eq_right h
          · rw [ho, max_eq_left h] at c; exact absurd rfl c
        rw [if_neg c, if_neg c, hp, hbo]
        nlinarith
  unfold sumOver
  rw [Finset.sum_mul, Finset.sum_mul]
  refine Finset.sum_le_sum (fun k hk => key _ (inB_unravel (Finset.mem_range.1 hk)))

/-! ### Define-by-run gradient -/

/-- **C59, refuted define-by-run (maximum).** Starting from zero derivatives, at every position without tie the gradient
goes to the operand that is *not* the maximum. -/
theorem minmaxAutoDiff_max_swapped (a b out g : T ℝ) (hb : b.shape = a.shape) (ho : between true a b = .ok out) (i : List Nat)
    (hi : InB a.shape i) (hne : a.at_ i ≠ b.at_ i) :
    let r := minmaxAutoDiff a out ⟨a.shape, fun _ => 0⟩ g
    r.1.at_ i = (if a.at_ i = out.at_ i then 0 else g.at_ i) ∧ r.2.at_ i = (if a.at_ i = out.at_ i then g.at_ i else 0) := by
  obtain ⟨o, o1, o2, o3⟩ := between_value true a b hb
  rw [ho] at o1
  cases o1
  have e := o3 i hi
  simp only [if_true] at e
  simp only [minmaxAutoDiff]
  rcases lt_or_gt_of_ne hne with h | h
  · rw [max_eq_right h.le] at e
    rw [e, if_pos h, if_neg hne, if_neg hne]
    constructor <;> ring
  · rw [max_eq_left h.le] at e
    rw [e, if_neg (lt_irrefl _), if_pos rfl, if_pos rfl]
    constructor <;> ring

/-- **C59, refuted define-by-run (minimum).** The first operand never receives any gradient. -/
theorem minmaxAutoDiff_min_lost (a b out ad g : T ℝ) (hb : b.shape = a.shape) (ho : between false a b = .ok out) (i : List Nat)
    (hi : InB a.shape i) :
    (minmaxAutoDiff a out ad g).1.at_ i = ad.at_ i ∧ (minmaxAutoDiff a out ad g).2.at_ i = g.at_ i - ad.at_ i := by
  obtain ⟨o, o1, o2, o3⟩ := between_value false a b hb
  rw [ho] at o1
  cases o1
  have e := o3 i hi
  simp only [Bool.false_eq_true, if_false] at e
  have h : ¬ a.at_ i < out.at_ i := by
    rw [e]; exact not_lt.2 (min_le_left _ _)
  simp only [minmaxAutoDiff, if_neg h]
  constructor <;> ring

/-- **C59, refuted define-by-run.** Whenever the maximum has no ties and the incoming gradient is non-zero somewhere, the
derivative left for the first operand is not the gradient. -/
theorem minmaxAutoDiff_wrong (a b g : T ℝ) (hb : b.shape = a.shape) (hg : g.shape = a.shape)
    (hne : ∀ i, InB a.shape i → a.at_ i ≠ b.at_ i) (i : List Nat) (hi : InB a.shape i) (hgi : g.at_ i ≠ 0) :
    ∃ out, between true a b = .ok out ∧
      ¬ IsGrad (fun a' => between true a' b) a g (minmaxAutoDiff a out ⟨a.shape, fun _ => 0⟩ g).1 := by
  obtain ⟨out, ga, gb, o1, s1, hga, _⟩ := minmax_gradient true a b g hb hg hne
  refine ⟨out, o1, fun hbad => ?_⟩
  obtain ⟨_, o1', o2, _⟩ := between_value true a b hb
  rw [o1] at o1'
  cases o1'
  obtain ⟨ga', gb', s1', s2, _, s4⟩ := minmaxSymDiff_spec a out g o2 hg
  rw [s1] at s1'
  cases s1'
  have hu := hbad.unique hga ⟨a.shape, fun j => if i = j then 1 else 0⟩ rfl
  have hsel : ∀ r : T ℝ, r.shape = a.shape → pair r ⟨a.shape, fun j => if i = j then 1 else 0⟩ = r.at_ i := by
    intro r hr
    rw [pair_eq, hr, ← sumOver_single a.shape i r.at_ hi]
    refine sumOver_congr _ _ _ (fun j _ => ?_)
    by_cases hj : i = j
    · subst hj; simp
    · rw [if_neg hj]
      show r.at_ j * (if i = j then 1 else 0) = 0
      rw [if_neg hj, mul_zero]
  rw [hsel (minmaxAutoDiff a out ⟨a.shape, fun _ => 0⟩ g).1 rfl, hsel _ s2, (minmaxAutoDiff_max_swapped a b out g hb o1 i hi (hne i hi)).1, (s4 i hi).1] at hu
  by_cases c : a.at_ i = out.at_ i
  · rw [if_pos c, if_pos c] at hu; exact hgi hu.symm
  · rw [if_neg c, if_neg c] at hu; exact hgi hu

/-- max((3,1),(2,5)) = (3,5): the gradient (10,20) is split (10,0), (0,20); define-by-run gives (0,20), (10,0). -/
example : ∃ out ga gb, between true ⟨[2], fun i => if i = [0] then 3 else 1⟩ ⟨[2], fun i => if i = [0] then 2 else 5⟩ = .ok out ∧
    minmaxSymDiff ⟨[2], fun i => if i = [0] then 3 else 1⟩ out ⟨[2], fun i => if i = [0] then 10 else 20⟩ = .ok (ga, gb) ∧
    ga.at_ [0] = 10 ∧ ga.at_ [1] = 0 ∧ gb.at_ [0] = 0 ∧ gb.at_ [1] = 20 := by
  obtain ⟨out, o1, o2, o3⟩ := between_value true ⟨[2], fun i => if i = [0] then 3 else 1⟩ ⟨[2], fun i => if i = [0] then 2 else 5⟩ rfl
  obtain ⟨ga, gb, s1, s2, s3, s4⟩ := minmaxSymDiff_spec ⟨[2], fun i => if i = [0] then 3 else 1⟩ out
    ⟨[2], fun i => if i = [0] then 10 else 20⟩ o2 rfl
  have h0 : InB [2] [0] := ⟨by omega, trivial⟩
  have h1 : InB [2] [1] := ⟨by omega, trivial⟩
  have e0 := o3 [0] h0
  have e1 := o3 [1] h1
  norm_num at e0 e1
  refine ⟨out, ga, gb, o1, s1, ?_, ?_, ?_, ?_⟩
  · rw [(s4 [0] h0).1, e0]; norm_num
  · rw [(s4 [1] h1).1, e1]; norm_num
  · rw [(s4 [0] h0).2, e0]; norm_num
  · rw [(s4 [1] h1).2, e1]; norm_num

end Verif.NN
