import Verif.Shape.Elem
import Verif.Shape.Broadcast
import Mathlib.Order.ConditionallyCompleteLattice.Finset
/-!
Reductions along axes (`/repo/op_reduction.go`, `Sum`, `Max` and `Mean` of `/repo/operations.go`): value, inferred shape and
gradients.  C41 (reductions), C44 (`Mean`), C55, C56.
-/
set_option autoImplicit false
namespace Verif.Shape
open Verif.Tensor

/-! ### Model -/

/-- The loop of `reductionInferShape` that zeroes the reduced axes (op_reduction.go 50-56): an axis past the rank is an
error, a negative one an index panic. -/
def zeroAxes : List Int → List Nat → Res (List Nat)
  | [], s => .ok s
  | d :: ds, s => if d ≥ s.length then .err else if d < 0 then .panic else zeroAxes ds (s.set d.toNat 0)

/-- `reductionInferShape`, op_reduction.go 46-68. -/
def reduceShape (along : List Int) (shp : List Nat) : Res (List Nat) :=
  if along = [] then .ok [] else (zeroAxes along shp).bind fun s => .ok (s.filter (· ≠ 0))

/-- `(*tensor.Dense).Sum(along...)` (assumed): the listed axes are removed and every element is the sum of the elements it
comes from. -/
noncomputable def sumAxes (along : List Nat) (t : T ℝ) : T ℝ :=
  ⟨dropAxes along 0 t.shape, fun j => sumOver t.shape fun i => if dropAxes along 0 i = j then t.at_ i else 0⟩

/-- The elements of `t` that are merged into position `j` by a reduction along the axes. -/
def fibre (along : List Nat) (t : T ℝ) (j : List Nat) : Set ℝ := {v | ∃ i, InB t.shape i ∧ dropAxes along 0 i = j ∧ t.at_ i = v}

/-- `(*tensor.Dense).Max(along...)` (assumed). -/
noncomputable def maxAxes (along : List Nat) (t : T ℝ) : T ℝ := ⟨dropAxes along 0 t.shape, fun j => sSup (fibre along t j)⟩

/-- `reductionDo`, op_reduction.go 70-98: a scalar result is returned as it is, any other is reshaped to the inferred
shape (which fails if the number of elements differs). -/
def reduceDo (f : List Nat → T ℝ → T ℝ) (along : List Nat) (t : T ℝ) : Res (T ℝ) :=
  let ret := f along t
  if ret.shape = [] then .ok ret
  else (reduceShape (along.map Int.ofNat) t.shape).bind fun sh => if size ret.shape = size sh then .ok (ret.reshape sh) else .err

/-- `Max` and `Sum`, operations.go 211-225 and 260-273, built and run: a scalar is returned as it is; no axes means all of
them. -/
def reduceNode (f : List Nat → T ℝ → T ℝ) (t : T ℝ) (along : List Nat) : Res (T ℝ) :=
  if t.shape = [] then .ok t
  else
    let along := if along = [] then List.range t.shape.length else along
    (reduceShape (along.map Int.ofNat) t.shape).bind fun _ => reduceDo f along t

/-- `Sum`. -/
noncomputable def sumNode : T ℝ → List Nat → Res (T ℝ) := reduceNode sumAxes

/-- `Max`. -/
noncomputable def maxNode : T ℝ → List Nat → Res (T ℝ) := reduceNode maxAxes

/-- `sumOp.SymDiff`, op_reduction.go 226-255: the incoming gradient is reshaped to have the reduced axes with size 1 and
repeated along them. -/
def sumDiff {α : Type} (along xshape : List Nat) (g : T α) : Res (T α) :=
  (reshape g ((calcBroadcastShape g.shape xshape.length along).map Int.ofNat)).bind
    (repeatedApply along (along.map fun a => sizeOf a xshape))

/-- Comparison for equality with the result as a number (`Eq` with `retSame`, api_gen.go 114-118). -/
noncomputable def eqMask (a b : ℝ) : ℝ := by classical exact if a = b then 1 else 0

/-- The axes collected by `maxOp.SymDiff`, op_reduction.go 126-134, as bytes. -/
def leftAxes (dims : Nat) (along : List Nat) : List (BitVec 8) :=
  ((List.range dims).filter fun i => decide (i ∈ along)).map (BitVec.ofNat 8)

/-- `maxOp.SymDiff`, op_reduction.go 127-162. -/
noncomputable def maxDiff (along : List Nat) (t out g : T ℝ) : Res (T ℝ) :=
  let pat := newPattern (leftAxes t.shape.length along) []
  (broadcast out t pat).bind fun ab => (elem eqMask ab.1 ab.2).bind fun eq =>
    (broadcast g eq pat).bind fun ge => elem (· * ·) ge.1 ge.2

/-! ### Inferred shape -/

theorem zeroAxes_ok (along : List Nat) (s : List Nat) (h : ∀ a ∈ along, a < s.length) :
    zeroAxes (along.map Int.ofNat) s = .ok (setAxes 0 along 0 s) := by
  induction along generalizing s with
  | nil =>
    have e1 : ∀ (l : List Nat) k, setAxes 0 [] k l = l := by
      intro l; induction l with
      | nil => intro _; rfl
      | cons a l ih => intro k; simp [setAxes, ih]
    simp [zeroAxes, e1]
  | cons a along ih =>
    have ha := h a (by simp)
    simp only [List.map_cons, zeroAxes]
    rw [if_neg (by simp only [ge_iff_le, Int.ofNat_eq_natCast, not_le]; exact_mod_cast ha), if_neg (by simp)]
    show zeroAxes _ (s.set a 0) = _
    rw [ih (s.set a 0) (by intro b hb; simpa using h b (by simp [hb]))]
    congr 1
    apply List.ext_getElem?
    intro j
    rw [setAxes_get, setAxes_get, Nat.zero_add]
    simp only [List.mem_cons, List.getElem?_set]
    by_cases h1 : j ∈ along
    · rw [if_pos h1, if_pos (Or.inr h1)]
      by_cases h2 : a = j
      · subst h2; simp [ha]
      · simp [h2]
    · rw [if_neg h1]
      by_cases h2 : a = j
      · subst h2; simp [ha]
      · rw [if_neg h2, if_neg (by rintro (h3 | h3); exact h2 h3.symm; exact h1 h3)]

theorem filter_setAxes (along s : List Nat) (k : Nat) (hp : ∀ d ∈ s, d ≠ 0) :
    (setAxes 0 along k s).filter (· ≠ 0) = dropAxes along k s := by
  induction s generalizing k with
  | nil => rfl
  | cons d s ih =>
    simp only [setAxes, dropAxes]
    by_cases hk : k ∈ along
    · rw [if_pos hk, if_pos hk, List.filter_cons_of_neg (by simp), ih _ (fun d hd => hp d (by simp [hd]))]
    · rw [if_neg hk, if_neg hk, List.filter_cons_of_pos (by simpa using hp d (by simp)), ih _ (fun d hd => hp d (by simp [hd]))]

/-- **C41 (reductions).** Without empty axes, the inferred shape is the operand's shape without the reduced axes. -/
theorem reduceShape_spec (along s : List Nat) (hne : along ≠ []) (h : ∀ a ∈ along, a < s.length) (hp : ∀ d ∈ s, d ≠ 0) :
    reduceShape (along.map Int.ofNat) s = .ok (dropAxes along 0 s) := by
  unfold reduceShape
  rw [if_neg (by simpa using hne), zeroAxes_ok along s h]
  simp only [Res.bind]
  rw [filter_setAxes along s 0 hp]

theorem drop_all (s : List Nat) (k : Nat) (along : List Nat) (h : ∀ j, k ≤ j → j < k + s.length → j ∈ along) :
    dropAxes along k s = [] := by
  induction s generalizing k with
  | nil => rfl
  | cons d s ih =>
    simp only [dropAxes]
    rw [if_pos (h k (by omega) (by simp)), ih (k + 1) (fun j h1 h2 => h j (by omega) (by simp only [List.length_cons]; omega))]

/-- The axes a reduction really uses: all of them if none is given. -/
def axesOf (rank : Nat) (along : List Nat) : List Nat := if along = [] then List.range rank else along

theorem axesOf_lt {rank : Nat} {along : List Nat} (h : ∀ a ∈ along, a < rank) : ∀ a ∈ axesOf rank along, a < rank := by
  unfold axesOf
  split
  · intro a ha; simpa using ha
  · exact h

theorem axesOf_ne {rank : Nat} {along : List Nat} (h : 0 < rank) : axesOf rank along ≠ [] := by
  unfold axesOf
  split
  · intro e; have := congrArg List.length e; simp at this; omega
  · assumption

theorem axesOf_nodup {rank : Nat} {along : List Nat} (h : along.Nodup) : (axesOf rank along).Nodup := by
  unfold axesOf
  split
  · exact List.nodup_range
  · exact h

theorem same_reshape (t : T ℝ) : (t.reshape t.shape).Same t :=
  ⟨rfl, fun i hi => by show t.flat (ravel t.shape i) = _; rw [flat_ravel t hi]⟩

/-- A reduction of a tensor without empty axes succeeds; its value is the library's reduction along the axes, its shape the
inferred one. -/
theorem reduceNode_spec (f : List Nat → T ℝ → T ℝ) (hf : ∀ al t, (f al t).shape = dropAxes al 0 t.shape) (t : T ℝ)
    (along : List Nat) (hr : t.shape ≠ []) (h : ∀ a ∈ along, a < t.shape.length) (hp : ∀ d ∈ t.shape, d ≠ 0) :
    ∃ r, reduceNode f t along = .ok r ∧ r.Same (f (axesOf t.shape.length along) t) ∧
      reduceShape ((axesOf t.shape.length along).map Int.ofNat) t.shape = .ok r.shape := by
  have hl : 0 < t.shape.length := List.length_pos_iff.2 hr
  have hs := reduceShape_spec (axesOf t.shape.length along) t.shape (axesOf_ne hl) (axesOf_lt h) hp
  unfold reduceNode
  rw [if_neg hr]
  show ∃ r, ((reduceShape ((axesOf t.shape.length along).map Int.ofNat) t.shape).bind fun _ => reduceDo f (axesOf t.shape.length along) t) = .ok r ∧ _
  rw [hs]
  simp only [Res.bind]
  unfold reduceDo
  simp only
  by_cases h0 : (f (axesOf t.shape.length along) t).shape = []
  · rw [if_pos h0]
    exact ⟨_, rfl, ⟨rfl, fun _ _ => rfl⟩, by rw [hf]⟩
  · rw [if_neg h0, hs]
    simp only [Res.bind]
    rw [if_pos (by rw [hf])]
    refine ⟨_, rfl, ?_, rfl⟩
    rw [← hf]
    exact same_reshape _

/-- **C55 (value).** `Sum` along duplicate-free axes (all, if none are given): the result has the shape without these
axes, which is the inferred one, and every element is the sum of the elements at the coordinates it comes from. -/
theorem sum_value (t : T ℝ) (along : List Nat) (hr : t.shape ≠ []) (h : ∀ a ∈ along, a < t.shape.length)
    (hp : ∀ d ∈ t.shape, d ≠ 0) :
    ∃ r, sumNode t along = .ok r ∧ r.shape = dropAxes (axesOf t.shape.length along) 0 t.shape ∧
      reduceShape ((axesOf t.shape.length along).map Int.ofNat) t.shape = .ok r.shape ∧
      ∀ j, InB r.shape j → r.at_ j =
        sumOver t.shape fun i => if dropAxes (axesOf t.shape.length along) 0 i = j then t.at_ i else 0 := by
  obtain ⟨r, h1, h2, h3⟩ := reduceNode_spec sumAxes (fun _ _ => rfl) t along hr h hp
  exact ⟨r, h1, h2.1, h3, fun j hj => h2.2 j hj⟩

theorem fibre_finite (along : List Nat) (t : T ℝ) (j : List Nat) : (fibre along t j).Finite := by
  refine Set.Finite.subset ((Finset.range (size t.shape)).finite_toSet.image fun k => t.at_ (unravel t.shape k)) ?_
  rintro v ⟨i, hi, _, rfl⟩
  exact ⟨ravel t.shape i, by simpa using ravel_lt hi, by show t.at_ (unravel _ (ravel _ _)) = _; rw [unravel_ravel hi]⟩

/-- A coordinate of the operand for every coordinate of the result, with a given value on the reduced axes. -/
theorem fibre_nonempty (along s : List Nat) (k : Nat) (hp : ∀ d ∈ s, d ≠ 0) (j : List Nat) (hj : InB (dropAxes along k s) j) :
    ∃ i, InB s i ∧ dropAxes along k i = j := by
  induction s generalizing k j with
  | nil =>
    cases j with
    | nil => exact ⟨[], trivial, rfl⟩
    | cons a j => exact hj.elim
  | cons d s ih =>
    have hp' : ∀ d ∈ s, d ≠ 0 := fun d hd => hp d (by simp [hd])
    simp only [dropAxes] at hj
    by_cases hk : k ∈ along
    · rw [if_pos hk] at hj
      obtain ⟨i, h1, h2⟩ := ih (k + 1) hp' j hj
      refine ⟨0 :: i, ⟨Nat.pos_of_ne_zero (hp d (by simp)), h1⟩, ?_⟩
      simp only [dropAxes]; rw [if_pos hk, h2]
    · rw [if_neg hk] at hj
      cases j with
      | nil => exact hj.elim
      | cons a j =>
        obtain ⟨i, h1, h2⟩ := ih (k + 1) hp' j hj.2
        refine ⟨a :: i, ⟨hj.1, h1⟩, ?_⟩
        simp only [dropAxes]; rw [if_neg hk, h2]

/-- **C56 (value).** `Max` along axes: every element of the result is the greatest of the elements at the coordinates it
comes from. -/
theorem max_value (t : T ℝ) (along : List Nat) (hr : t.shape ≠ []) (h : ∀ a ∈ along, a < t.shape.length)
    (hp : ∀ d ∈ t.shape, d ≠ 0) :
    ∃ r, maxNode t along = .ok r ∧ r.shape = dropAxes (axesOf t.shape.length along) 0 t.shape ∧
      reduceShape ((axesOf t.shape.length along).map Int.ofNat) t.shape = .ok r.shape ∧
      ∀ j, InB r.shape j →
        IsGreatest {v | ∃ i, InB t.shape i ∧ dropAxes (axesOf t.shape.length along) 0 i = j ∧ t.at_ i = v} (r.at_ j) := by
  obtain ⟨r, h1, h2, h3⟩ := reduceNode_spec maxAxes (fun _ _ => rfl) t along hr h hp
  refine ⟨r, h1, h2.1, h3, fun j hj => ?_⟩
  rw [h2.2 j hj]
  rw [h2.1] at hj
  obtain ⟨i, hi, hd⟩ := fibre_nonempty _ t.shape 0 hp j hj
  have hne : (fibre (axesOf t.shape.length along) t j).Nonempty := ⟨_, i, hi, hd, rfl⟩
  exact ⟨hne.csSup_mem (fibre_finite _ t j), fun v hv => le_csSup (fibre_finite _ t j).bddAbove hv⟩

/-- **C41 (reductions), refuted.** An empty axis that is not reduced is dropped from the inferred shape too: for a tensor of
shape `(0, 3)` reduced along axis 1 the graph expects a scalar, and the run fails. -/
theorem reduce_empty_axis (t : T ℝ) (h : t.shape = [0, 3]) : reduceShape [1] t.shape = .ok [] ∧ sumNode t [1] = .err := by
  constructor
  · rw [h]; decide
  · have e : (sumAxes [1] t).shape = [0] := by simp [sumAxes, h, dropAxes]
    unfold sumNode reduceNode reduceDo
    simp [h, reduceShape, zeroAxes, Res.bind, e, size]

/-! ### The gradient of a sum -/

theorem sumOver_single (s j : List Nat) (F : List Nat → ℝ) (hj : InB s j) : (sumOver s fun k => if j = k then F k else 0) = F j := by
  unfold sumOver
  rw [Finset.sum_eq_single (ravel s j)]
  · simp only; rw [unravel_ravel hj, if_pos rfl]
  · intro k hk hne
    simp only
    rw [if_neg]
    intro e
    apply hne
    rw [e, ravel_unravel (Finset.mem_range.1 hk)]
  · intro hn
    exact absurd (Finset.mem_range.2 (ravel_lt hj)) hn

theorem sumOver_comm (s s' : List Nat) (F : List Nat → List Nat → ℝ) :
    (sumOver s fun i => sumOver s' fun j => F i j) = sumOver s' fun j => sumOver s fun i => F i j := by
  unfold sumOver
  exact Finset.sum_comm

theorem mul_sumOver (s : List Nat) (c : ℝ) (F : List Nat → ℝ) : c * sumOver s F = sumOver s fun i => c * F i := by
  unfold sumOver
  exact Finset.mul_sum _ _ _

/-- Summing over the positions of the result, then over those merged into each, is summing over all positions. -/
theorem sum_fibres (s s' : List Nat) (D : List Nat → List Nat) (hD : ∀ i, InB s i → InB s' (D i)) (G F : List Nat → ℝ) :
    (sumOver s' fun j => G j * sumOver s fun i => if D i = j then F i else 0) = sumOver s fun i => G (D i) * F i := by
  have e : (sumOver s' fun j => G j * sumOver s fun i => if D i = j then F i else 0) =
      sumOver s' fun j => sumOver s fun i => if D i = j then G j * F i else 0 := by
    refine sumOver_congr _ _ _ (fun j _ => ?_)
    rw [mul_sumOver]
    refine sumOver_congr _ _ _ (fun i _ => ?_)
    split <;> simp
  rw [e, sumOver_comm]
  refine sumOver_congr _ _ _ (fun i hi => ?_)
  exact sumOver_single s' (D i) (fun j => G j * F i) (hD i hi)

/-- The symbolic gradient of a sum spreads the incoming gradient over the reduced axes. -/
theorem sumDiff_spec {α : Type} (along xshape : List Nat) (g : T α) (hne : along ≠ []) (hn : along.Nodup)
    (h : ∀ a ∈ along, a < xshape.length) (hp : ∀ d ∈ xshape, d ≠ 0) (hg : g.shape = dropAxes along 0 xshape) :
    ∃ r, sumDiff along xshape g = .ok r ∧ r.shape = xshape ∧ ∀ i, InB xshape i → r.at_ i = g.at_ (dropAxes along 0 i) := by
  obtain ⟨r, h1, h2, h3⟩ := half_correct along xshape xshape g hn h hp (fun _ _ => rfl) (Or.inr hg)
  refine ⟨r, ?_, h2, ?_⟩
  · rw [← h1]
    unfold broadcastHalf sumDiff
    rw [if_neg hne, if_neg]
    simp only [ge_iff_le, List.any_eq_true, decide_eq_true_eq, not_exists, not_and, not_le]
    exact h
  · intro i hi
    rw [h3 i hi, if_neg]
    obtain ⟨a, ha⟩ := List.exists_mem_of_ne_nil _ hne
    have := drop_length_lt along xshape 0 a ha (by omega) (by have := h a ha; omega)
    rw [hg]; omega

/-- **C55 (symbolic gradient).** The gradient that `sumOp.SymDiff` builds is the gradient of `Sum`, for every rank, every
set of axes (without repetition) and every incoming gradient. -/
theorem sum_gradient (t g : T ℝ) (along : List Nat) (hr : t.shape ≠ []) (h : ∀ a ∈ along, a < t.shape.length)
    (hn : along.Nodup) (hp : ∀ d ∈ t.shape, d ≠ 0) (hg : g.shape = dropAxes (axesOf t.shape.length along) 0 t.shape) :
    ∃ r, sumDiff (axesOf t.shape.length along) t.shape g = .ok r ∧ IsGrad (fun x => sumNode x along) t g r := by
  have hl : 0 < t.shape.length := List.length_pos_iff.2 hr
  obtain ⟨r, h1, h2, h3⟩ := sumDiff_spec (axesOf t.shape.length along) t.shape g (axesOf_ne hl) (axesOf_nodup hn) (axesOf_lt h) hp hg
  refine ⟨r, h1, h2, fun d hd => ?_⟩
  have hy : ∀ τ, ∃ y, sumNode (moveT t d τ) along = .ok y ∧ y.shape = g.shape ∧ ∀ j, InB g.shape j → y.at_ j =
      sumOver t.shape fun i => if dropAxes (axesOf t.shape.length along) 0 i = j then t.at_ i + τ * d.at_ i else 0 := by
    intro τ
    obtain ⟨y, a, b, _, c⟩ := sum_value (moveT t d τ) along hr h hp
    have hb : y.shape = g.shape := b.trans hg.symm
    exact ⟨y, a, hb, fun j hj => c j (by rw [hb]; exact hj)⟩
  choose y y1 y2 y3 using hy
  refine ⟨y, Filter.Eventually.of_forall fun τ => ⟨y1 τ, y2 τ⟩, ?_⟩
  have hd' : HasDerivAt (fun τ => pair g (y τ))
      (sumOver g.shape fun j => g.at_ j * sumOver t.shape fun i =>
        if dropAxes (axesOf t.shape.length along) 0 i = j then d.at_ i else 0) 0 := by
    refine hasDerivAt_pair g y _ (fun j hj => ?_)
    have e : (fun τ => (y τ).at_ j) = fun τ => sumOver t.shape fun i =>
        if dropAxes (axesOf t.shape.length along) 0 i = j then t.at_ i + τ * d.at_ i else 0 := by
      funext τ; exact y3 τ j hj
    rw [e]
    unfold sumOver
    refine HasDerivAt.fun_sum (fun k _ => ?_)
    by_cases c : dropAxes (axesOf t.shape.length along) 0 (unravel t.shape k) = j
    · simp only [if_pos c]; exact hasDerivAt_line _ _
    · simp only [if_neg c]; exact hasDerivAt_const _ _
  refine hd'.congr_deriv ?_
  rw [sum_fibres t.shape g.shape _ (fun i hi => by rw [hg]; exact inB_drop _ _ _ _ hi), pair_eq, h2]
  exact sumOver_congr _ _ _ (fun i hi => by rw [h3 i hi])

/-- Non-trivial instance: summing a `2×3` matrix along axis 1 gives a vector of 2, and the gradient spreads the incoming
vector over the rows. -/
example : ∃ r, sumDiff [1] [2, 3] (⟨[2], fun i => 10 * i.getD 0 0 + 7⟩ : T Nat) = .ok r ∧ r.shape = [2, 3] ∧
    r.at_ [0, 2] = 7 ∧ r.at_ [1, 0] = 17 := ⟨_, rfl, rfl, rfl, rfl⟩

/-! ### The gradient of a maximum -/

theorem dropAxes_congr {A B : List Nat} (s : List Nat) (k : Nat) (h : ∀ a, a < k + s.length → (a ∈ A ↔ a ∈ B)) :
    dropAxes A k s = dropAxes B k s := by
  induction s generalizing k with
  | nil => rfl
  | cons d s ih =>
    simp only [dropAxes]
    rw [ih (k + 1) (fun a ha => h a (by simp only [List.length_cons]; omega))]
    simp only [h k (by simp)]

theorem setAxes_nil (v : Nat) (l : List Nat) (k : Nat) : setAxes v [] k l = l := by
  induction l generalizing k with
  | nil => rfl
  | cons a l ih => simp [setAxes, ih]

/-- The pattern `maxOp.SymDiff` builds denotes the reduced axes, as long as they are below 4. -/
theorem leftAxes_on (dims : Nat) (along : List Nat) (h : ∀ a ∈ along, a < dims) (h4 : ∀ a ∈ along, a < 4) :
    (∀ a, a ∈ (on (newPattern (leftAxes dims along) [])).1 ↔ a ∈ along) ∧ (on (newPattern (leftAxes dims along) [])).2 = [] := by
  have hlt : ∀ a ∈ leftAxes dims along, a.toNat < 4 := by
    intro a ha
    simp only [leftAxes, List.mem_map, List.mem_filter, List.mem_range, decide_eq_true_eq] at ha
    obtain ⟨b, ⟨_, hb⟩, rfl⟩ := ha
    have := h4 b hb
    simp only [BitVec.toNat_ofNat]; omega
  have hm := pattern_mem (leftAxes dims along) [] hlt (by simp)
  constructor
  · intro a
    rw [(hm a).1]
    simp only [leftAxes, List.mem_map, List.mem_filter, List.mem_range, decide_eq_true_eq]
    constructor
    · rintro ⟨b, ⟨c, ⟨_, hc⟩, rfl⟩, e⟩
      have := h4 c hc
      simp only [BitVec.toNat_ofNat] at e
      rw [show a = c by omega]; exact hc
    · intro ha
      refine ⟨_, ⟨a, ⟨h a ha, ha⟩, rfl⟩, ?_⟩
      have := h4 a ha
      simp only [BitVec.toNat_ofNat]; omega
  · apply List.eq_nil_iff_forall_not_mem.2
    intro a ha
    rw [(hm a).2] at ha
    simp at ha

/-- What `maxOp.SymDiff` computes, for axes below 4: the incoming gradient at every position that attains the maximum. -/
theorem maxDiff_spec (t out g : T ℝ) (along : List Nat) (hne : along ≠ []) (h : ∀ a ∈ along, a < t.shape.length)
    (h4 : ∀ a ∈ along, a < 4) (hp : ∀ d ∈ t.shape, d ≠ 0) (ho : out.shape = dropAxes along 0 t.shape)
    (hg : g.shape = dropAxes along 0 t.shape) :
    ∃ r, maxDiff along t out g = .ok r ∧ r.shape = t.shape ∧ ∀ i, InB t.shape i →
      r.at_ i = g.at_ (dropAxes along 0 i) * eqMask (out.at_ (dropAxes along 0 i)) (t.at_ i) := by
  obtain ⟨hon, hon2⟩ := leftAxes_on t.shape.length along h h4
  have hlen : (dropAxes along 0 t.shape).length ≠ t.shape.length := by
    obtain ⟨a, ha⟩ := List.exists_mem_of_ne_nil _ hne
    have := drop_length_lt along t.shape 0 a ha (by omega) (by have := h a ha; omega)
    omega
  unfold maxDiff
  simp only
  generalize hpat : newPattern (leftAxes t.shape.length along) [] = pat at *
  have hd : ∀ i, dropAxes (on pat).1 0 i = dropAxes along 0 i := fun i => dropAxes_congr i 0 (fun a _ => hon a)
  have bc : ∀ (x y : T ℝ), x.shape = dropAxes along 0 t.shape → y.shape = t.shape →
      ∃ x' y', broadcast x y pat = .ok (x', y') ∧ x'.shape = t.shape ∧ y'.shape = t.shape ∧
        (∀ i, InB t.shape i → x'.at_ i = x.at_ (dropAxes along 0 i)) ∧ ∀ i, InB t.shape i → y'.at_ i = y.at_ i := by
    intro x y hx hy
    obtain ⟨x', y', b1, b2, b3, b4, b5⟩ := broadcast_correct_partial x y pat t.shape
      (by rw [hon2]; intro a ha; rw [List.append_nil] at ha; exact h a ((hon a).1 ha)) hp
      (Or.inr (by show x.shape = _; rw [hx, hd])) (Or.inl (by show y.shape = _; rw [hon2, setAxes_nil, hy]))
      (by rw [hon2]; intro a _ ha; simp at ha) (Or.inr (Or.inr hon2))
    refine ⟨x', y', b1, b2, b3, fun i hi => ?_, fun i hi => ?_⟩
    · rw [b4 i hi, if_neg (by rw [hx]; exact hlen), hd]
    · rw [b5 i hi, if_pos (by rw [hy]), hon2, setAxes_nil]
  obtain ⟨a, b, e1, a1, b1, a2, b2⟩ := bc out t ho rfl
  rw [e1]
  simp only [Res.bind]
  obtain ⟨q, q1, q2, q3⟩ := elem_same eqMask a b (by rw [a1, b1])
  rw [q1]
  simp only
  obtain ⟨a', b', e2, a1', b1', a2', b2'⟩ := bc g q hg (by rw [q2, a1])
  rw [e2]
  simp only
  obtain ⟨r, r1, r2, r3⟩ := elem_same (· * ·) a' b' (by rw [a1', b1'])
  refine ⟨r, r1, by rw [r2, a1'], fun i hi => ?_⟩
  rw [r3 i (by rw [a1']; exact hi), a2' i hi, b2' i hi, q3 i (by rw [a1]; exact hi), a2 i hi, b2 i hi]

theorem max_eventually (s : List Nat) (x d : List Nat → ℝ) (P : List Nat → Prop) (m : List Nat)
    (hu : ∀ i, InB s i → P i → i ≠ m → x i < x m) :
    ∀ᶠ τ in nhds (0 : ℝ), ∀ i, InB s i → P i → x i + τ * d i ≤ x m + τ * d m := by
  have key : ∀ k ∈ Finset.range (size s), ∀ᶠ τ in nhds (0 : ℝ), P (unravel s k) →
      x (unravel s k) + τ * d (unravel s k) ≤ x m + τ * d m := by
    intro k hk
    have hb := inB_unravel (Finset.mem_range.1 hk)
    by_cases hP : P (unravel s k)
    · by_cases he : unravel s k = m
      · exact Filter.Eventually.of_forall fun τ _ => by rw [he]
      · have hlt := hu _ hb hP he
        have hc : ContinuousAt (fun τ : ℝ => (x m + τ * d m) - (x (unravel s k) + τ * d (unravel s k))) 0 := by fun_prop
        have := hc.eventually (lt_mem_nhds (show (0 : ℝ) < (x m + 0 * d m) - (x (unravel s k) + 0 * d (unravel s k)) by simpa using hlt))
        filter_upwards [this] with τ hτ _
        linarith
    · exact Filter.Eventually.of_forall fun τ h => absurd h hP
  rw [← Filter.eventually_all_finset] at key
  filter_upwards [key] with τ hτ i hi hP
  have := hτ (ravel s i) (Finset.mem_range.2 (ravel_lt hi))
  rw [unravel_ravel hi] at this
  exact this hP

/-- **C56 (gradient).** Where the maximum along the axes is attained once in every fibre, what `maxOp.SymDiff` builds is the
gradient of `Max`. Missing: ties (`max_ties_no_subgradient`) and axes from the fifth on (`max_axis_four_fails`). -/
theorem max_gradient_partial (t g : T ℝ) (along : List Nat) (hr : t.shape ≠ []) (h : ∀ a ∈ along, a < t.shape.length)
    (h4 : ∀ a ∈ axesOf t.shape.length along, a < 4) (hp : ∀ d ∈ t.shape, d ≠ 0)
    (hg : g.shape = dropAxes (axesOf t.shape.length along) 0 t.shape)
    (hu : ∀ m i, InB t.shape m → InB t.shape i →
      dropAxes (axesOf t.shape.length along) 0 i = dropAxes (axesOf t.shape.length along) 0 m →
      (∀ k, InB t.shape k → dropAxes (axesOf t.shape.length along) 0 k = dropAxes (axesOf t.shape.length along) 0 m →
        t.at_ k ≤ t.at_ m) → t.at_ i = t.at_ m → i = m) :
    ∃ out r, maxNode t along = .ok out ∧ maxDiff (axesOf t.shape.length along) t out g = .ok r ∧
      IsGrad (fun x => maxNode x along) t g r := by
  have hl : 0 < t.shape.length := List.length_pos_iff.2 hr
  obtain ⟨out, o1, o2, _, o3⟩ := max_value t along hr h hp
  obtain ⟨r, r1, r2, r3⟩ := maxDiff_spec t out g _ (axesOf_ne hl) (axesOf_lt h) h4 hp o2 hg
  refine ⟨out, r, o1, r1, r2, fun d hd => ?_⟩
  generalize hA : axesOf t.shape.length along = A at *
  -- the position that attains the maximum
  have hm : ∀ j, ∃ m, InB g.shape j → InB t.shape m ∧ dropAxes A 0 m = j ∧ t.at_ m = out.at_ j := by
    intro j
    by_cases hj : InB g.shape j
    · obtain ⟨⟨m, m1, m2, m3⟩, _⟩ := o3 j (by rw [o2, ← hg]; exact hj)
      exact ⟨m, fun _ => ⟨m1, m2, m3⟩⟩
    · exact ⟨[], fun hh => absurd hh hj⟩
  choose M hM using hm
  have huniq : ∀ j, InB g.shape j → ∀ i, InB t.shape i → dropAxes A 0 i = j → i ≠ M j → t.at_ i < t.at_ (M j) := by
    intro j hj i hi hd hne
    obtain ⟨m1, m2, m3⟩ := hM j hj
    have hle : ∀ k, InB t.shape k → dropAxes A 0 k = j → t.at_ k ≤ t.at_ (M j) := by
      intro k hk hkd
      rw [m3]
      exact (o3 j (by rw [o2, ← hg]; exact hj)).2 ⟨k, hk, hkd, rfl⟩
    refine lt_of_le_of_ne (hle i hi hd) (fun e => hne ?_)
    exact hu (M j) i m1 hi (by rw [m2, hd]) (fun k k1 k2 => hle k k1 (by rw [k2, m2])) e
  have hy : ∀ τ, ∃ y, maxNode (moveT t d τ) along = .ok y ∧ y.shape = g.shape ∧ ∀ j, InB g.shape j →
      IsGreatest {v | ∃ i, InB t.shape i ∧ dropAxes A 0 i = j ∧ t.at_ i + τ * d.at_ i = v} (y.at_ j) := by
    intro τ
    obtain ⟨y, a, b, _, c⟩ := max_value (moveT t d τ) along hr h hp
    have e : (moveT t d τ).shape = t.shape := rfl
    rw [e, hA] at b c
    have hb : y.shape = g.shape := b.trans hg.symm
    exact ⟨y, a, hb, fun j hj => c j (by rw [hb]; exact hj)⟩
  choose y y1 y2 y3 using hy
  refine ⟨y, Filter.Eventually.of_forall fun τ => ⟨y1 τ, y2 τ⟩, ?_⟩
  have hd' : HasDerivAt (fun τ => pair g (y τ)) (sumOver g.shape fun j => g.at_ j * d.at_ (M j)) 0 := by
    refine hasDerivAt_pair g y _ (fun j hj => ?_)
    obtain ⟨m1, m2, _⟩ := hM j hj
    refine (hasDerivAt_line (t.at_ (M j)) (d.at_ (M j))).congr_of_eventuallyEq ?_
    filter_upwards [max_eventually t.shape t.at_ d.at_ (fun i => dropAxes A 0 i = j) (M j) (huniq j hj)] with τ hτ
    refine (y3 τ j hj).unique ⟨⟨M j, m1, m2, rfl⟩, ?_⟩
    rintro v ⟨i, i1, i2, rfl⟩
    exact hτ i i1 i2
  refine hd'.congr_deriv ?_
  rw [pair_eq, r2]
  have e : ∀ i, InB t.shape i → r.at_ i * d.at_ i = g.at_ (dropAxes A 0 i) * (if M (dropAxes A 0 i) = i then d.at_ i else 0) := by
    intro i hi
    have hj : InB g.shape (dropAxes A 0 i) := by rw [hg]; exact inB_drop _ _ _ _ hi
    obtain ⟨m1, m2, m3⟩ := hM _ hj
    rw [r3 i hi]
    by_cases hc : M (dropAxes A 0 i) = i
    · rw [if_pos hc]
      have : out.at_ (dropAxes A 0 i) = t.at_ i := by rw [← m3, hc]
      simp [eqMask, this]
    · rw [if_neg hc]
      have := huniq _ hj i hi rfl (Ne.symm hc)
      rw [m3] at this
      simp [eqMask, ne_of_gt this]
  rw [sumOver_congr _ _ _ e, ← sum_fibres t.shape g.shape (dropAxes A 0) (fun i hi => by rw [hg]; exact inB_drop _ _ _ _ hi)]
  refine sumOver_congr _ _ _ (fun j hj => ?_)
  obtain ⟨m1, m2, _⟩ := hM j hj
  congr 1
  have e2 : ∀ i, InB t.shape i → (if dropAxes A 0 i = j then (if M (dropAxes A 0 i) = i then d.at_ i else 0) else 0) =
      if M j = i then d.at_ i else 0 := by
    intro i _
    by_cases hc : M j = i
    · rw [if_pos hc, ← hc, m2, if_pos rfl, if_pos rfl]
    · rw [if_neg hc]
      by_cases hc2 : dropAxes A 0 i = j
      · rw [if_pos hc2, hc2, if_neg hc]
      · rw [if_neg hc2]
  rw [sumOver_congr _ _ _ e2, sumOver_single _ _ d.at_ m1]

/-- **C56, refuted at ties.** For the vector `(0, 0)` the built gradient of the maximum is `(1, 1)`, which is not even a
subgradient: it claims that adding 1 to both elements raises the maximum by at least 2. -/
theorem max_ties_no_subgradient : ∃ (t out r : T ℝ), t.shape = [2] ∧ maxNode t [0] = .ok out ∧
    maxDiff [0] t out (scalarT 1) = .ok r ∧ r.shape = [2] ∧
    ¬ ∀ (d out' : T ℝ), d.shape = [2] → maxNode (moveT t d 1) [0] = .ok out' → out.at_ [] + pair r d ≤ out'.at_ [] := by
  obtain ⟨out, o1, o2, _, o3⟩ := max_value ⟨[2], fun _ => 0⟩ [0] (by simp) (by simp) (by simp)
  obtain ⟨r, r1, r2, r3⟩ := maxDiff_spec ⟨[2], fun _ => 0⟩ out (scalarT 1) [0] (by simp) (by simp) (by simp) (by simp) o2 rfl
  have ho : out.at_ [] = 0 := by
    obtain ⟨⟨i, _, _, e⟩, _⟩ := o3 [] (by rw [o2]; decide)
    exact e.symm
  refine ⟨_, out, r, rfl, o1, r1, r2, fun hall => ?_⟩
  obtain ⟨out', p1, p2, _, p3⟩ := max_value (moveT ⟨[2], fun _ => 0⟩ ⟨[2], fun _ => 1⟩ 1) [0] (by simp [moveT]) (by simp [moveT]) (by simp [moveT])
  have hw := hall ⟨[2], fun _ => 1⟩ out' rfl p1
  have ho' : out'.at_ [] = 1 := by
    obtain ⟨⟨i, _, _, e⟩, _⟩ := p3 [] (by rw [p2]; decide)
    rw [← e]; simp [moveT]
  have hr0 := r3 [0] (by decide)
  have hr1 := r3 [1] (by decide)
  have hdrop : ∀ k : Nat, dropAxes [0] 0 [k] = [] := fun k => rfl
  simp only [hdrop, ho, scalarT, eqMask, if_true, mul_one] at hr0 hr1
  rw [ho, ho', pair_eq, r2] at hw
  simp only [sumOver, size, Finset.sum_range_succ, Finset.range_zero, Finset.sum_empty, unravel] at hw
  norm_num [hr0, hr1] at hw

/-- **C56, refuted from the fifth axis on.** The gradient of a maximum along axis 4 cannot be built, for any tensor of
rank 5: the broadcast pattern has no room for the axis. -/
theorem max_axis_four_fails (t out g : T ℝ) (a b c d e : Nat) (ht : t.shape = [a, b, c, d, e]) (ho : out.shape = [a, b, c, d]) :
    maxDiff [4] t out g = .err := by
  have hpat : newPattern (leftAxes 5 [4]) [] = 0#8 := by decide
  have hb : broadcast out t 0#8 = .ok (out, t) := by
    have hon : on 0#8 = ([], []) := by decide
    simp [broadcast, hon, broadcastHalf, Res.bind]
  unfold maxDiff
  simp only [ht, List.length_cons, List.length_nil, Nat.zero_add, Nat.reduceAdd, hpat]
  rw [hb]
  simp only [Res.bind]
  rw [elem_mismatch eqMask out t (by rw [ho]; simp) (by rw [ht]; simp) (by rw [ho, ht]; simp [shapeEq])]

/-! ### The define-by-run gradient of a sum -/

/-- The repetition loop of `sumOp.DoDiff`, op_reduction.go 286-295: axes of size 1 are skipped. -/
def repeatLoop {α : Type} (xshape : List Nat) : List Nat → T α → Res (T α)
  | [], t => .ok t
  | a :: along, t =>
    if sizeOf a xshape = 1 then repeatLoop xshape along t
    else (repeat_ t a (sizeOf a xshape)).bind (repeatLoop xshape along)

/-- `sumOp.DoDiff`, op_reduction.go 257-340: from the derivatives of operand and result to the new derivatives of operand
and result. The derivative of the result is reshaped in place (line 275). -/
def sumDoDiff (along : List Nat) (xd yd : T ℝ) : Res (T ℝ × T ℝ) :=
  if yd.shape = [] then (elem (· + ·) xd ⟨xd.shape, fun _ => yd.at_ []⟩).bind fun r => .ok (r, yd)
  else
    let yd' := if yd.shape.length = xd.shape.length - along.length then
        yd.reshape (along.foldl (fun s a => s.set a 1) xd.shape) else yd
    (if shapeEq yd'.shape xd.shape then .ok yd' else repeatLoop xd.shape along yd').bind fun v =>
      (elem (· + ·) xd v).bind fun r => .ok (r, yd')

theorem repeatLoop_filter {α : Type} (x along : List Nat) (t : T α) :
    repeatLoop x along t = repeatedApply (along.filter fun a => sizeOf a x ≠ 1)
      ((along.filter fun a => sizeOf a x ≠ 1).map fun a => sizeOf a x) t := by
  induction along generalizing t with
  | nil => rfl
  | cons a along ih =>
    simp only [repeatLoop]
    by_cases h : sizeOf a x = 1
    · rw [if_pos h, List.filter_cons_of_neg (by simpa using h), ih]
    · rw [if_neg h, List.filter_cons_of_pos (by simpa using h)]
      simp only [List.map_cons, repeatedApply]
      cases repeat_ t a (sizeOf a x) with
      | ok r => simp only [Res.bind]; exact ih r
      | err => rfl
      | panic => rfl

theorem foldl_set (v : Nat) (along s : List Nat) : along.foldl (fun s a => s.set a v) s = setAxes v along 0 s := by
  induction along generalizing s with
  | nil => rw [setAxes_nil]; rfl
  | cons a along ih =>
    rw [List.foldl_cons, ih]
    apply List.ext_getElem?
    intro j
    rw [setAxes_get, setAxes_get, Nat.zero_add]
    simp only [List.mem_cons, List.getElem?_set]
    by_cases h1 : j ∈ along
    · rw [if_pos h1, if_pos (Or.inr h1)]
      by_cases h2 : a = j
      · subst h2
        by_cases h3 : a < s.length
        · simp [h3]
        · simp [h3]
      · simp [h2]
    · rw [if_neg h1]
      by_cases h2 : a = j
      · subst h2
        by_cases h3 : a < s.length
        · simp [h3]
        · simp [h3]
      · rw [if_neg h2, if_neg (by rintro (h3 | h3); exact h2 h3.symm; exact h1 h3)]

theorem drop_length (along s : List Nat) (k : Nat) :
    (dropAxes along k s).length + ((List.range' k s.length).filter fun a => decide (a ∈ along)).length = s.length := by
  induction s generalizing k with
  | nil => rfl
  | cons d s ih =>
    have := ih (k + 1)
    simp only [dropAxes, List.length_cons, List.range'_succ]
    by_cases h : k ∈ along
    · rw [if_pos h, List.filter_cons_of_pos (by simpa using h)]
      simp only [List.length_cons]; omega
    · rw [if_neg h, List.filter_cons_of_neg (by simpa using h)]
      simp only [List.length_cons]; omega

theorem perm_filter (along : List Nat) (n : Nat) (hn : along.Nodup) (h : ∀ a ∈ along, a < n) :
    along.Perm ((List.range n).filter fun a => decide (a ∈ along)) := by
  rw [List.perm_ext_iff_of_nodup hn (List.nodup_range.filter _)]
  intro a
  simp only [List.mem_filter, List.mem_range, decide_eq_true_eq]
  exact ⟨fun ha => ⟨h a ha, ha⟩, fun ha => ha.2⟩

theorem drop_length_eq (along s : List Nat) (hn : along.Nodup) (h : ∀ a ∈ along, a < s.length) :
    (dropAxes along 0 s).length = s.length - along.length := by
  have h1 := drop_length along s 0
  have h2 := (perm_filter along s.length hn h).length_eq
  rw [← List.range_eq_range'] at h1
  omega

/-- **C55 (define-by-run).** `sumOp.DoDiff` adds the spread-out derivative of the result to the derivative of the operand. -/
theorem sum_doDiff (along : List Nat) (xd yd : T ℝ) (hne : along ≠ []) (hn : along.Nodup)
    (h : ∀ a ∈ along, a < xd.shape.length) (hp : ∀ d ∈ xd.shape, d ≠ 0) (hy : yd.shape = dropAxes along 0 xd.shape) :
    ∃ r yd', sumDoDiff along xd yd = .ok (r, yd') ∧ r.shape = xd.shape ∧
      (∀ i, InB xd.shape i → r.at_ i = xd.at_ i + yd.at_ (dropAxes along 0 i)) ∧
      (yd.shape ≠ [] → yd'.shape = setAxes 1 along 0 xd.shape) := by
  unfold sumDoDiff
  by_cases h0 : yd.shape = []
  · rw [if_pos h0]
    obtain ⟨r, r1, r2, r3⟩ := elem_same (· + ·) xd ⟨xd.shape, fun _ => yd.at_ []⟩ rfl
    rw [r1]
    refine ⟨r, yd, rfl, r2, fun i hi => ?_, fun hh => absurd h0 hh⟩
    rw [r3 i hi]
    have := inB_drop along xd.shape i 0 hi
    rw [← hy, h0] at this
    cases hd : dropAxes along 0 i with
    | nil => rfl
    | cons a l => rw [hd] at this; exact this.elim
  · rw [if_neg h0]
    simp only
    have hlen : yd.shape.length = xd.shape.length - along.length := by rw [hy]; exact drop_length_eq along xd.shape hn h
    simp only [if_pos hlen, foldl_set]
    set yd' := yd.reshape (setAxes 1 along 0 xd.shape) with hyd
    have hs' : yd'.shape = setAxes 1 along 0 xd.shape := rfl
    -- both branches are the loop
    have hloop : ∃ v, (if shapeEq yd'.shape xd.shape then .ok yd' else repeatLoop xd.shape along yd') = .ok v ∧
        v.shape = xd.shape ∧ ∀ i, InB xd.shape i → v.at_ i = yd.at_ (dropAxes along 0 i) := by
      have hfl : ∃ v, repeatLoop xd.shape along yd' = .ok v ∧
          v.shape = xd.shape ∧ ∀ i, InB xd.shape i → v.at_ i = yd.at_ (dropAxes along 0 i) := by
        rw [repeatLoop_filter]
        obtain ⟨v, v1, v2, v3⟩ := repeated_unit (fun a => sizeOf a xd.shape) (along.filter fun a => sizeOf a xd.shape ≠ 1)
          (hn.filter _) yd' (by
            intro a ha
            have ha' := (List.mem_filter.1 ha).1
            rw [hs', setAxes_get, Nat.zero_add, if_pos ha', List.getElem?_eq_getElem (h a ha')]; rfl)
        have hsz : ∀ a ∈ along, xd.shape[a]? = some (sizeOf a xd.shape) := by
          intro a ha; simp [sizeOf, h a ha]
        refine ⟨v, v1, ?_, ?_⟩
        · apply List.ext_getElem?
          intro j
          rw [v2 j]
          by_cases hj : j ∈ along
          · by_cases hj1 : sizeOf j xd.shape = 1
            · rw [if_neg (by simp [hj1]), hs', setAxes_get, Nat.zero_add, if_pos hj, hsz j hj, hj1]; rfl
            · rw [if_pos (by simp [hj, hj1]), hsz j hj]
          · rw [if_neg (by simp [hj]), hs', setAxes_get, Nat.zero_add, if_neg hj]
        · intro i hi
          have hil : i.length = yd'.shape.length := by rw [hs', setAxes_length]; exact hi.length
          rw [v3 i hil (fun a ha => inB_getD hi (hsz a (List.mem_filter.1 ha).1))]
          have e : setAxes 0 (along.filter fun a => sizeOf a xd.shape ≠ 1) 0 i = setAxes 0 along 0 i := by
            apply List.ext_getElem?
            intro j
            rw [setAxes_get, setAxes_get, Nat.zero_add]
            by_cases hj : j ∈ along
            · by_cases hj1 : sizeOf j xd.shape = 1
              · rw [if_neg (by simp [hj1]), if_pos hj]
                have h1 := inB_getD hi (hsz j hj)
                rw [hj1] at h1
                have h2 : j < i.length := by rw [hi.length]; exact h j hj
                rw [List.getElem?_eq_getElem h2]
                simp [h2] at h1
                simp [h1]
              · rw [if_pos (by simp [hj, hj1]), if_pos hj]
            · rw [if_neg (by simp [hj]), if_neg hj]
          rw [e, hyd, reshape_at, ravel_drop along xd.shape i 0 hi, ← hy]
          exact flat_ravel yd (by rw [hy]; exact inB_drop along xd.shape i 0 hi)
      by_cases hq : shapeEq yd'.shape xd.shape = true
      · rw [if_pos hq]
        obtain ⟨v, v1, v2, v3⟩ := hfl
        have heq : yd'.shape = xd.shape := by
          rcases shapeEq_cases hq with e | ⟨n, e, e' | e'⟩ | ⟨n, e, e' | e'⟩
          · exact e
          all_goals
            have := congrArg List.length hs'
            rw [setAxes_length, e, e'] at this
            simp at this
        have hf : along.filter (fun a => decide (sizeOf a xd.shape ≠ 1)) = [] := by
          rw [List.filter_eq_nil_iff]
          intro a ha
          have h1 : yd'.shape[a]? = some 1 := by
            rw [hs', setAxes_get, Nat.zero_add, if_pos ha, List.getElem?_eq_getElem (h a ha)]; rfl
          rw [heq] at h1
          simp [sizeOf, h1]
        rw [repeatLoop_filter, hf] at v1
        simp only [List.map_nil, repeatedApply, Res.ok.injEq] at v1
        exact ⟨yd', rfl, heq, fun i hi => by rw [v1]; exact v3 i hi⟩
      · rw [if_neg hq]; exact hfl
    obtain ⟨v, v1, v2, v3⟩ := hloop
    rw [v1]
    simp only [Res.bind]
    obtain ⟨r, r1, r2, r3⟩ := elem_same (· + ·) xd v v2
    rw [r1]
    exact ⟨r, yd', rfl, r2, fun i hi => by rw [r3 i hi, v3 i hi], fun _ => rfl⟩

/-- A side effect of `sumOp.DoDiff`: unless the sum is a scalar, the gradient of the *result* node no longer has the shape
of the result afterwards. -/
theorem sum_doDiff_reshapes_result (along : List Nat) (xd yd : T ℝ) (hne : along ≠ []) (hn : along.Nodup)
    (h : ∀ a ∈ along, a < xd.shape.length) (hp : ∀ d ∈ xd.shape, d ≠ 0) (hy : yd.shape = dropAxes along 0 xd.shape)
    (h0 : yd.shape ≠ []) : ∃ r yd', sumDoDiff along xd yd = .ok (r, yd') ∧ yd'.shape ≠ yd.shape := by
  obtain ⟨r, yd', e, _, _, hs⟩ := sum_doDiff along xd yd hne hn h hp hy
  refine ⟨r, yd', e, fun hh => ?_⟩
  obtain ⟨a, ha⟩ := List.exists_mem_of_ne_nil _ hne
  have := drop_length_lt along xd.shape 0 a ha (by omega) (by have := h a ha; omega)
  rw [hs h0, hy] at hh
  have := congrArg List.length hh
  rw [setAxes_length] at this
  omega

/-! ### Mean -/

/-- `ReduceMul`, operations.go 364-395, on scalars (an empty list gives a nil node). -/
def reduceMul : List ℝ → Option ℝ
  | [] => none
  | a :: l => some (l.foldl (· * ·) a)

/-- `Mean`, operations.go 228-257: the sum divided by the product of the sizes of the reduced axes. -/
noncomputable def meanNode (t : T ℝ) (along : List Nat) : Res (T ℝ) :=
  if t.shape = [] then .ok t
  else
    let al := if along = [] then List.range t.shape.length else along
    (sumNode t al).bind fun s =>
      match reduceMul (al.map fun a => (sizeOf a t.shape : ℝ)) with
      | none => .panic
      | some c => elem (· / ·) s (scalarT c)

/-- Product of the sizes at the positions in `along`. -/
def prodAxes (along : List Nat) : Nat → List Nat → Nat
  | _, [] => 1
  | k, d :: s => if k ∈ along then d * prodAxes along (k + 1) s else prodAxes along (k + 1) s

theorem prodAxes_filter (along s : List Nat) (k : Nat) :
    (((List.range' k s.length).filter fun a => decide (a ∈ along)).map fun a => s.getD (a - k) 0).prod = prodAxes along k s := by
  induction s generalizing k with
  | nil => rfl
  | cons d s ih =>
    simp only [List.length_cons, List.range'_succ, prodAxes]
    have e : ∀ l : List Nat, (∀ a ∈ l, k + 1 ≤ a) → l.map (fun a => (d :: s).getD (a - k) 0) = l.map fun a => s.getD (a - (k + 1)) 0 := by
      intro l hl
      apply List.map_congr_left
      intro a ha
      have := hl a ha
      rw [show a - k = (a - (k + 1)) + 1 by omega, List.getD_cons_succ]
    have hl : ∀ a ∈ (List.range' (k + 1) s.length).filter (fun a => decide (a ∈ along)), k + 1 ≤ a := by
      intro a ha
      have := (List.mem_filter.1 ha).1
      rw [List.mem_range'_1] at this
      omega
    by_cases h : k ∈ along
    · rw [if_pos h, List.filter_cons_of_pos (by simpa using h), List.map_cons, List.prod_cons, e _ hl, ih]
      simp
    · rw [if_neg h, List.filter_cons_of_neg (by simpa using h), e _ hl, ih]

theorem prod_sizes (along s : List Nat) (hn : along.Nodup) (h : ∀ a ∈ along, a < s.length) :
    (along.map fun a => sizeOf a s).prod = prodAxes along 0 s := by
  rw [← prodAxes_filter along s 0, ← List.range_eq_range']
  exact ((perm_filter along s.length hn h).map _).prod_eq

/-- The number of positions merged into one by a reduction. -/
theorem count_fibre (along s : List Nat) (k : Nat) (j : List Nat) (hj : InB (dropAxes along k s) j) :
    (sumOver s fun i => if dropAxes along k i = j then 1 else 0) = prodAxes along k s := by
  induction s generalizing k j with
  | nil =>
    cases j with
    | nil => simp [sumOver, size, prodAxes, dropAxes, unravel]
    | cons a j => exact hj.elim
  | cons d s ih =>
    rw [sumOver_cons]
    simp only [dropAxes, prodAxes] at hj ⊢
    by_cases h : k ∈ along
    · simp only [if_pos h] at hj ⊢
      rw [ih (k + 1) j hj]
      simp
    · simp only [if_neg h] at hj ⊢
      cases j with
      | nil => exact hj.elim
      | cons b j =>
        have e : ∀ a ∈ Finset.range d, (sumOver s fun i => if a :: dropAxes along (k + 1) i = b :: j then (1 : ℝ) else 0) =
            if b = a then (prodAxes along (k + 1) s : ℝ) else 0 := by
          intro a _
          by_cases hab : b = a
          · subst hab
            rw [if_pos rfl, ← ih (k + 1) j hj.2]
            refine sumOver_congr _ _ _ (fun i _ => ?_)
            simp
          · rw [if_neg hab]
            unfold sumOver
            refine Finset.sum_eq_zero (fun q _ => ?_)
            simp only
            rw [if_neg]
            intro hh
            exact hab (by simpa using (List.cons.inj hh).1.symm)
        rw [Finset.sum_congr rfl e, Finset.sum_ite_eq (Finset.range d) b, if_pos (Finset.mem_range.2 hj.1)]

/-- **C44 (`Mean`).** Every element of the mean is the sum of the merged elements divided by their number. -/
theorem mean_value (t : T ℝ) (along : List Nat) (hr : t.shape ≠ []) (h : ∀ a ∈ along, a < t.shape.length) (hn : along.Nodup)
    (hp : ∀ d ∈ t.shape, d ≠ 0) :
    ∃ r, meanNode t along = .ok r ∧ r.shape = dropAxes (axesOf t.shape.length along) 0 t.shape ∧
      ∀ j, InB r.shape j → r.at_ j =
        (sumOver t.shape fun i => if dropAxes (axesOf t.shape.length along) 0 i = j then t.at_ i else 0) /
        (sumOver t.shape fun i => if dropAxes (axesOf t.shape.length along) 0 i = j then 1 else 0) := by
  have hl : 0 < t.shape.length := List.length_pos_iff.2 hr
  have hne := axesOf_ne (along := along) hl
  unfold meanNode
  rw [if_neg hr]
  show ∃ r, ((sumNode t (axesOf t.shape.length along)).bind _) = .ok r ∧ _
  obtain ⟨s, s1, s2, _, s3⟩ := sum_value t (axesOf t.shape.length along) hr (axesOf_lt h) hp
  have e : axesOf t.shape.length (axesOf t.shape.length along) = axesOf t.shape.length along := if_neg hne
  rw [e] at s2 s3
  rw [s1]
  simp only [Res.bind]
  have hc : reduceMul ((axesOf t.shape.length along).map fun a => (sizeOf a t.shape : ℝ)) =
      some (prodAxes (axesOf t.shape.length along) 0 t.shape : ℝ) := by
    rw [← prod_sizes _ _ (axesOf_nodup hn) (axesOf_lt h)]
    cases ha : axesOf t.shape.length along with
    | nil => exact absurd ha hne
    | cons a l =>
      have : ∀ (l : List Nat) (c : ℝ), (l.map fun a => (sizeOf a t.shape : ℝ)).foldl (· * ·) c =
          c * ((l.map fun a => sizeOf a t.shape).prod : Nat) := by
        intro l
        induction l with
        | nil => intro c; simp
        | cons b l ih => intro c; simp only [List.map_cons, List.foldl_cons, List.prod_cons]; rw [ih]; push_cast; ring
      simp only [List.map_cons, reduceMul, List.prod_cons]
      rw [this]; push_cast; rfl
  show ∃ r, (match reduceMul ((axesOf t.shape.length along).map fun a => (sizeOf a t.shape : ℝ)) with
    | none => Res.panic
    | some c => elem (· / ·) s (scalarT c)) = Res.ok r ∧ _
  rw [hc]
  simp only
  obtain ⟨r, r1, r2, r3⟩ := elem_scalar_right (· / ·) s (scalarT (prodAxes (axesOf t.shape.length along) 0 t.shape : ℝ)) rfl
  refine ⟨r, r1, r2.trans s2, fun j hj => ?_⟩
  rw [r3 j (by rw [← r2]; exact hj), s3 j (by rw [← r2]; exact hj),
    count_fibre _ _ _ _ (by rw [← s2, ← r2]; exact hj)]
  rfl

end Verif.Shape
