import Verif.Lisp.TensorOps
import Verif.Shape.KeepDims
/-!
More operations for `lisp_tensor_gradient`: transpositions, repetitions and concatenations.
-/
set_option autoImplicit false
namespace Verif.Lisp.Tensor
open Verif.Tensor Verif.Shape Verif.AD Verif.LinAlg Verif.NN Filter
open scoped Topology

noncomputable section

theorem elemVal_add {d r : T ℝ} (h : r.shape = d.shape) :
    ∃ w, elemVal (· + ·) d r = .ok w ∧ w.shape = d.shape ∧ ∀ i, InB d.shape i → w.at_ i = d.at_ i + r.at_ i := by
  unfold elemVal
  by_cases h0 : d.shape = []
  · rw [if_pos h0]
    refine ⟨_, rfl, h, fun i hi => ?_⟩
    rw [h0] at hi
    match i, hi with
    | [], _ => rfl
  · rw [if_neg h0, if_neg (by rw [h]; exact h0), if_pos (by rw [h]; exact shapeEq_refl _)]
    refine ⟨_, rfl, rfl, fun i hi => ?_⟩
    show d.at_ i + _ = _
    rw [← h, flat_ravel r (by rw [h]; exact hi)]

/-! ### Transpositions -/

/-- `transposeOp` (`DoDiff`, op_tensor.go 909-935): the derivative of the result, transposed back, is added in place. It has to be a tensor
(919-921). -/
def lTranspose (p : List Nat) : LOp := .one (fun x => .ok (transposeT p x)) (fun _ _ g => some (transposeDiff p g)) false
  (fun _ _ g d => if g.shape = [] then none else Res.opt (elemVal (· + ·) d (transposeT (invPattern p) g))) (fun _ _ g => g)

theorem lTranspose_adds (p : List Nat) (hp : IsPerm p) (h0 : p ≠ []) (x : T ℝ) (hs : x.shape.length = p.length) :
    (lTranspose p).op.Good [x] (transposeT p x) ∧ (lTranspose p).Adds [x] (transposeT p x) := by
  have hgood := transposeTOp_good p hp x hs
  refine ⟨hgood, adds_one hgood.fine fun g hg r e hrs d hd _ => ?_⟩
  cases e
  have hg0 : g.shape ≠ [] := by
    rw [hg]
    show permute p x.shape ≠ []
    intro e
    have := congrArg List.length e
    simp [permute] at this
    exact h0 this
  obtain ⟨w, w1, w2, w3⟩ := elemVal_add (d := d) (r := transposeDiff p g) (hrs.trans hd.symm)
  refine ⟨w, ?_, w2.trans hd, fun i hi => w3 i (by rw [hd]; exact hi)⟩
  show (if g.shape = [] then none else Res.opt (elemVal (· + ·) d (transposeDiff p g))) = _
  rw [if_neg hg0, w1]
  rfl

/-! ### Repetitions -/

/-- The gradient of a repetition: an element gets the gradients of its copies. -/
def repeatGradT (a rep : Nat) (x g : T ℝ) : T ℝ :=
  ⟨x.shape, fun j => ∑ q ∈ Finset.range rep, g.at_ (j.set a (j.getD a 0 * rep + q))⟩

/-- `repeatOp` with its number of repetitions (`DoDiff`, op_tensor.go 262-345). Its `SymDiff` is wrong (`repeat_gradient_rank`), so the
gradient is given. -/
def lRepeat (a rep : Nat) : LOp := .one (fun x => repeat_ x a rep) (fun x _ g => some (repeatGradT a rep x g)) false
  (fun _ _ g d => Res.opt (repeatDoDiff a rep d g)) (fun _ _ g => g)

/-- Repetitions along an axis of more than one element, or of at most two axes: the define-by-run machine is right where the
symbolic gradient is not. -/
theorem lRepeat_adds_partial (a rep : Nat) (x : T ℝ) (ha : a < x.shape.length) (hrep : 0 < rep) (hp : ∀ d ∈ x.shape, d ≠ 0)
    (h : x.shape.getD a 0 ≠ 1 ∨ x.shape.length ≤ 2) :
    ∃ y, repeat_ x a rep = .ok y ∧ y.shape = x.shape.set a (x.shape.getD a 0 * rep) ∧ (lRepeat a rep).op.Good [x] y ∧ (lRepeat a rep).Adds [x] y := by
  obtain ⟨y, y1, y2, y3⟩ := good_affine' (fun x => repeat_ x a rep) (fun x _ g => some (repeatGradT a rep x g))
    (x.shape.set a (x.shape.getD a 0 * rep)) x fun _ g hg => ⟨_, rfl, fun t ht =>
      repeat_grad t g a rep (by rw [ht]; exact ha) hrep (by rw [ht]; exact hg) _ ht.symm fun j hj => rfl⟩
  refine ⟨y, y1, y2, y3, adds_one y3.fine fun g hg r e hrs d hd _ => ?_⟩
  cases e
  have hgs := hg.trans y2
  have key : ∃ r v, repeatDoDiff a rep d g = .ok r ∧ IsGrad (fun x => repeat_ x a rep) x g v ∧ r.shape = x.shape ∧
      ∀ j, InB x.shape j → r.at_ j = d.at_ j + v.at_ j := by
    by_cases h1 : x.shape.getD a 0 = 1
    · rw [h1, Nat.one_mul] at hgs
      exact repeat_dodiff_unit_partial x d g a rep ha hrep hp hd h1 hgs (h.resolve_left fun h => h h1)
    · exact repeat_dodiff x d g a rep ha hrep hp hd h1 hgs
  obtain ⟨w, v, w1, w2, w3, w4⟩ := key
  refine ⟨w, by rw [w1]; rfl, w3, fun i hi => ?_⟩
  rw [w4 i hi, w2.at (repeat_grad x g a rep ha hrep hgs (repeatGradT a rep x g) rfl fun j hj => rfl) i hi]

/-! ### Concatenations -/

/-- What `concatOp.DoDiff` (op_tensor.go 1093-1125) does with operand `k`: the derivative of the result is sliced along its *first* axis
(1107), and the slice is added in place if `tensor.Shape.Eq` holds; the error of the addition is dropped (1117). -/
def concatUpd (ax k : Nat) (xs : List (T ℝ)) (g d : T ℝ) : Option (T ℝ) :=
  match xs[k]? with
  | none => none
  | some x =>
    let start := ((xs.take k).map fun p => p.shape.getD ax 0).sum
    if x.shape.length ≤ ax then none
    else match sliceT 0 start (x.shape.getD ax 0 + start) g with
      | .ok s => some (if shapeEq d.shape s.shape then ⟨d.shape, fun i => d.at_ i + s.flat (ravel d.shape i)⟩ else d)
      | _ => none

/-- `concatOp` with `n` operands. -/
def lConcat (n ax : Nat) : LOp where
  op := concatTOp n ax
  ad := true
  steps := (List.range n).map fun k => ⟨k, false, fun xs _ g d => concatUpd ax k xs g d⟩

theorem mem_take_sum {f : T ℝ → Nat} : ∀ {xs : List (T ℝ)} {k : Nat} {x : T ℝ}, xs[k]? = some x → ((xs.take k).map f).sum + f x ≤ (xs.map f).sum
  | [], _, _, h => by simp at h
  | y :: xs, 0, x, h => by
    simp only [List.getElem?_cons_zero, Option.some.injEq] at h
    subst h
    simp
  | y :: xs, k + 1, x, h => by
    have := mem_take_sum (f := f) (xs := xs) (k := k) (x := x) (by simpa using h)
    simp only [List.take_succ_cons, List.map_cons, List.sum_cons]
    omega

theorem flat_erase_zero (n : Nat) (g : T ℝ) (s : List Nat) (start : Nat) (hs : s = [n]) (f : List Nat → ℝ) (i : List Nat) (hi : InB [1, n] i) :
    (⟨s, f⟩ : T ℝ).flat (ravel [1, n] i) = f [i.getD 1 0] := by
  subst hs
  match i, hi with
  | [a, b], h =>
    have h1 : a < 1 := h.1
    have h2 : b < n := h.2.1
    have : ravel [1, n] [a, b] = ravel [n] [b] := by
      have : a = 0 := by omega
      subst this
      simp [ravel]
    rw [this]
    exact flat_ravel (⟨[n], f⟩ : T ℝ) (i := [b]) ⟨h2, trivial⟩

/-- Along the first axis, if every operand has at least two rows or two axes. -/
theorem lConcat_adds_partial (xs : List (T ℝ)) (y : T ℝ) (h : concat 0 xs = .ok y) (hpos : ∀ p ∈ xs, 0 < p.shape.getD 0 0)
    (h1 : ∀ p ∈ xs, p.shape.getD 0 0 = 1 → p.shape.length = 2) :
    (lConcat xs.length 0).op.Good xs y ∧ (lConcat xs.length 0).Adds xs y := by
  have hgood := concatTOp_good 0 xs y h hpos
  refine ⟨hgood, ?_, ?_, ?_⟩
  · simp only [lConcat, List.map_map]
    have : ((fun x : LStep => x.pos) ∘ fun k => (⟨k, false, fun xs _ g d => concatUpd 0 k xs g d⟩ : LStep)) = id := rfl
    rw [this, List.map_id]
    exact List.nodup_range
  · intro s hs
    simp only [lConcat, List.mem_map, List.mem_range] at hs
    obtain ⟨k, hk, rfl⟩ := hs
    simp [lConcat, concatTOp, hk]
  · intro s hs g hg r x e1 e2 d hd _
    simp only [lConcat, List.mem_map, List.mem_range] at hs
    obtain ⟨k, hk, rfl⟩ := hs
    simp only at e1 e2 ⊢
    obtain ⟨gs, g1, g2, g3, _⟩ := concat_grad 0 xs y g h hpos hg
    have hgr : (lConcat xs.length 0).op.grads xs y g = gs := by simp [TOp.grads, lConcat, concatTOp, g1, Res.opt]
    rw [hgr] at e1
    obtain ⟨hkg, rfl⟩ := List.getElem?_eq_some_iff.1 e1
    obtain ⟨c1, c2, c3, _⟩ := concat_shape 0 xs y h
    have hx := List.mem_of_getElem? e2
    have hsx := c3 x hx
    have hxl : x.shape.length = y.shape.length := by rw [hsx]; simp
    have hsh : gs[k].shape = x.shape := by
      have := congrArg (·[k]?) g2
      simpa [List.getElem?_map, e1, e2] using this
    have hsum := mem_take_sum (f := fun p => p.shape.getD 0 0) e2
    rw [← c2, ← hg] at hsum
    have hp := hpos x hx
    have hval : ∀ i, InB x.shape i → gs[k].at_ i = g.at_ (i.set 0 (i.getD 0 0 + ((xs.take k).map fun p => p.shape.getD 0 0).sum)) :=
      fun i hi => g3 k hkg i (by rw [hsh]; exact hi)
    unfold concatUpd
    rw [e2]
    simp only
    generalize ((xs.take k).map fun p => p.shape.getD 0 0).sum = start at hsum hval ⊢
    have hl : 0 < x.shape.length := by omega
    rw [if_neg (by omega)]
    unfold sliceT
    rw [if_pos ⟨by rw [hg]; exact c1, by omega, by omega⟩]
    by_cases hone : x.shape.getD 0 0 + start - start = 1
    · rw [if_pos hone]
      have hone' : x.shape.getD 0 0 = 1 := by omega
      have h2 := h1 x hx hone'
      obtain ⟨n, hxn⟩ : ∃ n, x.shape = [1, n] := by
        match hq : x.shape, h2 with
        | [a, b], _ =>
          rw [hq] at hone'
          exact ⟨b, by rw [show a = 1 from hone']⟩
      have hgn : ∃ m, g.shape = [m, n] := by
        rw [hg]
        rw [hxn] at hxl
        match hq : y.shape, hxl with
        | [a, b], _ =>
          rw [hq, hxn] at hsx
          exact ⟨a, by simp at hsx; rw [hsx]⟩
      obtain ⟨m, hgn⟩ := hgn
      have hes : g.shape.eraseIdx 0 = [n] := by rw [hgn]; rfl
      simp only
      rw [if_pos (by rw [hd, hxn, hes]; simp [shapeEq])]
      refine ⟨_, rfl, hd, fun i hi => ?_⟩
      have hi' := hi
      rw [hxn] at hi'
      rw [hval i hi]
      show d.at_ i + _ = _
      rw [hd, hxn, flat_erase_zero n g _ start hes _ i hi']
      congr 2
      match i, hi' with
      | [a, b], hh =>
        have h1 : a < 1 := hh.1
        have : a = 0 := by omega
        subst this
        simp
    · rw [if_neg hone]
      have hss : g.shape.set 0 (x.shape.getD 0 0 + start - start) = x.shape := by
        rw [Nat.add_sub_cancel, hg]
        exact hsx.symm
      simp only
      rw [if_pos (by rw [hd, hss]; exact shapeEq_refl _)]
      refine ⟨_, rfl, hd, fun i hi => ?_⟩
      rw [hval i hi]
      show d.at_ i + _ = _
      congr 1
      rw [hd]
      have := flat_ravel (⟨g.shape.set 0 (x.shape.getD 0 0 + start - start), fun j => g.at_ (j.set 0 (j.getD 0 0 + start))⟩ : T ℝ) (i := i)
        (by show InB (g.shape.set 0 _) i; rw [hss]; exact hi)
      rw [show (⟨g.shape.set 0 (x.shape.getD 0 0 + start - start), fun j => g.at_ (j.set 0 (j.getD 0 0 + start))⟩ : T ℝ).shape = x.shape from hss] at this
      exact this

/-- The gradient of an operand with a single row is lost without a word if it does not have two axes: the slice has lost the axis. -/
theorem concat_dodiff_lost (xs : List (T ℝ)) (y g d x : T ℝ) (k : Nat) (h : concat 0 xs = .ok y) (hg : g.shape = y.shape) (hx : xs[k]? = some x)
    (h1 : x.shape.getD 0 0 = 1) (h2 : x.shape.length ≠ 2) (hd : d.shape = x.shape) : concatUpd 0 k xs g d = some d := by
  obtain ⟨c1, c2, c3, _⟩ := concat_shape 0 xs y h
  have hm := List.mem_of_getElem? hx
  have hsx := c3 x hm
  have hxl : x.shape.length = y.shape.length := by rw [hsx]; simp
  have hsum := mem_take_sum (f := fun p => p.shape.getD 0 0) hx
  rw [← c2, ← hg] at hsum
  unfold concatUpd
  rw [hx]
  simp only
  generalize ((xs.take k).map fun p => p.shape.getD 0 0).sum = start at hsum ⊢
  rw [if_neg (by omega)]
  unfold sliceT
  rw [if_pos ⟨by rw [hg]; exact c1, by omega, by omega⟩, if_pos (by omega)]
  simp only
  rw [if_neg]
  intro he
  have hle : (g.shape.eraseIdx 0).length + 1 = x.shape.length := by
    rw [List.length_eraseIdx, if_pos (by rw [hg]; exact c1), hg]
    omega
  rw [hd] at he
  by_cases h3 : 2 < x.shape.length
  · have := congrArg List.length (shapeEq_exact _ _ (.inr (.inl h3)) he)
    omega
  · have h4 : x.shape.length = 1 := by omega
    obtain ⟨n, hn⟩ : ∃ n, x.shape = [n] := List.length_eq_one_iff.1 h4
    have h5 : g.shape.eraseIdx 0 = [] := List.length_eq_zero_iff.1 (by omega)
    rw [hn, h5] at he
    simp [shapeEq] at he

/-- Two blocks of one row each, of rank three. -/
example (a b : T ℝ) (ha : a.shape = [1, 2, 2]) (hb : b.shape = [1, 2, 2]) (g d : T ℝ) (hg : g.shape = [2, 2, 2]) (hd : d.shape = [1, 2, 2]) :
    concatUpd 0 1 [a, b] g d = some d := by
  have h : ∃ y, concat 0 [a, b] = .ok y ∧ y.shape = [2, 2, 2] := by
    unfold concat
    simp [ha, hb, fits]
  obtain ⟨y, y1, y2⟩ := h
  exact concat_dodiff_lost [a, b] y g d b 1 y1 (hg.trans y2.symm) rfl (by rw [hb]; rfl) (by rw [hb]; decide) (hd.trans hb.symm)

end

end Verif.Lisp.Tensor
