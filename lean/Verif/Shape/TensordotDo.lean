import Verif.Shape.Tensordot
import Verif.Shape.KeepDims
/-!
The gradient of a contraction in the define-by-run machine (C42): `tensordotOp.DoDiff` (op_math.go 916-1087).
The tensor library's `MulScalar`, `MatMul`, `TensorMul`, `T` and `Add` are assumed to do what their names say. The derivative of the
result is taken to be a tensor, possibly of rank 0 (918: otherwise the type assertion panics).
-/
set_option autoImplicit false
namespace Verif.Shape
open Verif.Tensor Verif.NN

/-! ### Model -/

/-- `MulScalar` (assumed) with a tensor of one element, op_math.go 1019-1020. -/
def scaleT (x g : T ℝ) : T ℝ := ⟨x.shape, fun i => x.at_ i * g.at_ (List.replicate g.shape.length 0)⟩

/-- `Reshape` in place with its error dropped, op_math.go 1036 and 1049. -/
def tryReshape (t : T ℝ) (dims : List Int) : T ℝ :=
  match reshape t dims with
  | .ok r => r
  | _ => t

/-- The vector case, op_math.go 1021-1061. The shapes are put back afterwards (1054-1061). -/
noncomputable def vecMulDo (other g : T ℝ) : Res (T ℝ) :=
  let x := if isColVec other.shape then other else tryReshape other [Int.ofNat (other.shape.getD 0 0), 1]
  let y := if isRowVec g.shape then g else tryReshape g [1, Int.ofNat (g.shape.getD 0 0)]
  matMulT x y

/-- `tensor.T` (assumed), op_math.go 1071: without axes it reverses them; a wrong number of axes is an error. -/
def tensorT {α : Type} (t : T α) (axes : List Nat) : Res (T α) :=
  if axes = [] then .ok (transposeT (List.range t.shape.length).reverse t)
  else if axes.length ≠ t.shape.length then .err
  else .ok (transposeT axes t)

/-- What is added to the derivative of one operand (`in`, the first one if `first`), op_math.go 919-1074. -/
noncomputable def dotTerm (first : Bool) (iAxes otherAxes inShape : List Nat) (other g : T ℝ) : Res (T ℝ) :=
  let dO := dOtherAxes otherAxes other.shape
  let dG := dGradAxes first dO.length g.shape.length
  (if isScalarEquiv g.shape then .ok (scaleT other g)
   else if isVector other.shape && isVector g.shape && dO.isEmpty then vecMulDo other g
   else tensordot dO dG other g).bind fun c =>
  tensorT c (if isScalarEquiv inShape then [] else dotPattern iAxes otherAxes inShape.length)

/-- The derivative of the operand afterwards, op_math.go 1076-1079: the error of `Add` is dropped. -/
noncomputable def dotDoDiff (first : Bool) (iAxes otherAxes inShape : List Nat) (other g d : T ℝ) : Res (T ℝ) :=
  (dotTerm first iAxes otherAxes inShape other g).bind fun c =>
  .ok (if shapeEq d.shape c.shape then ⟨d.shape, fun i => d.at_ i + c.flat (ravel d.shape i)⟩ else d)

/-! ### Where the symbolic gradient exists -/

theorem ones_zero {s i : List Nat} (hs : isScalarEquiv s = true) (hi : InB s i) : i = List.replicate s.length 0 := by
  refine ones_unique hs hi ?_
  clear hi
  induction s with
  | nil => trivial
  | cons d s ih =>
    simp only [isScalarEquiv, List.all_cons, Bool.and_eq_true, beq_iff_eq] at hs
    obtain ⟨rfl, h2⟩ := hs
    exact ⟨Nat.zero_lt_one, ih h2⟩

theorem ones_size {s : List Nat} (hs : isScalarEquiv s = true) : size s = 1 := by
  induction s with
  | nil => rfl
  | cons d s ih =>
    simp only [isScalarEquiv, List.all_cons, Bool.and_eq_true, beq_iff_eq] at hs
    obtain ⟨rfl, h2⟩ := hs
    show 1 * size s = 1
    rw [ih h2]

theorem shapeEq_size {a b : List Nat} (h : shapeEq a b = true) : size a = size b := by
  unfold shapeEq at h
  split at h
  · simp only [Bool.or_eq_true, Bool.and_eq_true, beq_iff_eq] at h
    rcases h with ⟨rfl, rfl⟩ | ⟨rfl, rfl⟩ <;> simp [size]
  · simp only [Bool.or_eq_true, Bool.and_eq_true, beq_iff_eq] at h
    rcases h with ⟨rfl, rfl⟩ | ⟨rfl, rfl⟩ <;> simp [size]
  · rw [of_decide_eq_true h]

theorem flat_one {g : T ℝ} (hg : isScalarEquiv g.shape = true) {k : Nat} (hk : k < size g.shape) :
    g.flat k = g.at_ (List.replicate g.shape.length 0) := by
  unfold T.flat
  rw [ones_zero hg (inB_unravel hk)]

theorem elem_scale (x g w : T ℝ) (hg : isScalarEquiv g.shape = true) (hx : x.shape ≠ []) (h : elem (· * ·) x g = .ok w) :
    (scaleT x g).Same w := by
  by_cases h0 : g.shape = []
  · obtain ⟨r, h1, h2, h3⟩ := elem_scalar_right (fun x y : ℝ => x * y) x g h0
    rw [h] at h1
    cases h1
    refine ⟨h2.symm, fun i hi => ?_⟩
    rw [h3 i hi]
    simp [scaleT, h0]
  · cases he : shapeEq x.shape g.shape with
    | false => rw [elem_mismatch _ x g hx h0 he] at h; cases h
    | true =>
      unfold elem at h
      cases hi : inferElem x.shape g.shape with
      | ok s =>
        rw [hi] at h
        simp only [Res.bind] at h
        unfold elemVal at h
        rw [if_neg hx, if_neg h0, if_pos he] at h
        cases h
        refine ⟨rfl, fun i hi => ?_⟩
        show x.at_ i * _ = x.at_ i * g.flat _
        rw [flat_one hg (by rw [← shapeEq_size he]; exact ravel_lt hi)]
      | err => rw [hi] at h; cases h
      | panic => rw [hi] at h; cases h

theorem vecMul_do (x g w : T ℝ) (h : vecMul x g = .ok w) : vecMulDo x g = .ok w := by
  unfold vecMul at h
  unfold vecMulDo tryReshape
  by_cases c1 : isColVec x.shape = true <;> by_cases c2 : isRowVec g.shape = true <;>
    simp only [c1, c2, if_true, if_false, Res.bind, Bool.false_eq_true] at h ⊢
  · exact h
  · cases e : reshape g [1, Int.ofNat (g.shape.getD 0 0)] with
    | ok y => rw [e] at h; exact h
    | err => rw [e] at h; cases h
    | panic => rw [e] at h; cases h
  · cases e : reshape x [Int.ofNat (x.shape.getD 0 0), 1] with
    | ok y => rw [e] at h; exact h
    | err => rw [e] at h; cases h
    | panic => rw [e] at h; cases h
  · cases e : reshape x [Int.ofNat (x.shape.getD 0 0), 1] with
    | ok y =>
      rw [e] at h
      cases e' : reshape g [1, Int.ofNat (g.shape.getD 0 0)] with
      | ok z => simp only [e'] at h; exact h
      | err => simp only [e'] at h; cases h
      | panic => simp only [e'] at h; cases h
    | err => rw [e] at h; cases h
    | panic => rw [e] at h; cases h

/-- Before the transposition both gradients are the same value. -/
theorem term_same (first : Bool) (B : List Nat) (other g C : T ℝ) (ho : other.shape ≠ [])
    (h : (if isScalarEquiv g.shape then elem (· * ·) other g
      else if isVector other.shape && isVector g.shape && (dOtherAxes B other.shape).isEmpty then vecMul other g
      else tensordot (dOtherAxes B other.shape) (dGradAxes first (dOtherAxes B other.shape).length g.shape.length) other g) = .ok C) :
    ∃ C', (if isScalarEquiv g.shape then .ok (scaleT other g)
      else if isVector other.shape && isVector g.shape && (dOtherAxes B other.shape).isEmpty then vecMulDo other g
      else tensordot (dOtherAxes B other.shape) (dGradAxes first (dOtherAxes B other.shape).length g.shape.length) other g) = .ok C' ∧
      C'.Same C := by
  by_cases c1 : isScalarEquiv g.shape = true
  · rw [if_pos c1] at h ⊢
    exact ⟨_, rfl, elem_scale other g C c1 ho h⟩
  · rw [if_neg c1] at h ⊢
    by_cases c2 : (isVector other.shape && isVector g.shape && (dOtherAxes B other.shape).isEmpty) = true
    · rw [if_pos c2] at h ⊢
      exact ⟨C, vecMul_do other g C h, rfl, fun _ _ => rfl⟩
    · rw [if_neg c2] at h ⊢
      exact ⟨C, h, rfl, fun _ _ => rfl⟩

theorem transposeRes_val {α : Type} (t r : T α) (axes : List Nat) (h : transposeRes t axes = .ok r) : transposeVal t axes = some r := by
  unfold transposeRes at h
  unfold transposeVal
  split at h <;> simp_all

/-- A tensor of one element is not changed by transposing it. -/
theorem transposeT_ones {p q : List Nat} {t : T ℝ} (hp : IsPerm p) (hq : IsPerm q) (hpl : p.length = t.shape.length)
    (hql : q.length = t.shape.length) (h : isScalarEquiv (permute p t.shape) = true) : (transposeT q t).Same (transposeT p t) := by
  have hall : ∀ x ∈ permute p t.shape, x = 1 := by simpa [isScalarEquiv] using h
  have ht : ∀ x ∈ t.shape, x = 1 := by
    intro x hx
    rw [← scatter_permute hp t.shape hpl.symm] at hx
    obtain ⟨m, hm, rfl⟩ := List.mem_map.1 hx
    have hi : p.idxOf m < p.length := List.idxOf_lt_length_iff.2 (hp.mem.2 (List.mem_range.1 hm))
    rw [getD_eq _ _ (by rw [permute_length]; exact hi)]
    exact hall _ (List.getElem_mem _)
  have hts : isScalarEquiv t.shape = true := by simpa [isScalarEquiv] using ht
  have hperm : ∀ {u : List Nat}, IsPerm u → u.length = t.shape.length → permute u t.shape = List.replicate t.shape.length 1 := by
    intro u hu hul
    refine List.eq_replicate_iff.2 ⟨by rw [permute_length, hul], fun x hx => ?_⟩
    obtain ⟨a, ha, rfl⟩ := List.mem_map.1 hx
    have : a < t.shape.length := hul ▸ hu.mem.1 ha
    rw [getD_eq _ _ this]
    exact ht _ (List.getElem_mem _)
  have hsh : permute q t.shape = permute p t.shape := (hperm hq hql).trans (hperm hp hpl).symm
  refine ⟨hsh, fun i hi => ?_⟩
  have h1 : InB (permute q t.shape) i := hi
  show t.at_ _ = t.at_ _
  rw [ones_unique hts (inB_scatter hq t.shape i hql.symm h1) (inB_scatter hp t.shape i hpl.symm (hsh ▸ h1))]

theorem reverse_perm (n : Nat) : IsPerm (List.range n).reverse := by
  unfold IsPerm
  rw [List.length_reverse, List.length_range]
  exact List.reverse_perm _

theorem transposeT_same {p : List Nat} {t u : T ℝ} (hp : IsPerm p) (hl : p.length = t.shape.length) (h : t.Same u) :
    (transposeT p t).Same (transposeT p u) := by
  refine ⟨by show permute p t.shape = permute p u.shape; rw [h.1], fun i hi => ?_⟩
  exact h.2 _ (inB_scatter hp t.shape i hl.symm hi)

theorem same_trans {t u v : T ℝ} (h1 : t.Same u) (h2 : u.Same v) : t.Same v :=
  ⟨h1.1.trans h2.1, fun i hi => (h1.2 i hi).trans (h2.2 i (h1.1 ▸ hi))⟩

theorem same_symm {t u : T ℝ} (h : t.Same u) : u.Same t := ⟨h.1.symm, fun i hi => (h.2 i (h.1 ▸ hi)).symm⟩

/-- **C42 (define-by-run).** Wherever the symbolic gradient can be built, `DoDiff` adds the same value to the derivative. -/
theorem dotDoDiff_symbolic (first : Bool) (A B s : List Nat) (other g d r : T ℝ) (h : Contractible A B s other.shape)
    (hg : g.shape = cat first (dropAxes A 0 s) (dropAxes B 0 other.shape)) (hd : d.shape = s)
    (hr : dotDiff first A B s other g = .ok r) :
    ∃ w, dotDoDiff first A B s other g d = .ok w ∧ w.shape = s ∧ ∀ i, InB s i → w.at_ i = d.at_ i + r.at_ i := by
  obtain ⟨C, h1, h2, h3⟩ := dotDiff_ok h.ra hr
  obtain ⟨hrs, _⟩ := dotDiff_sound first A B s other g r h hg hr
  obtain ⟨C', h4, h5⟩ := term_same first B other g C h.rb h1
  have hP := dotPattern_perm A B s.length h.na h.la h.nb h.len
  have hPl : (dotPattern A B s.length).length = s.length := patternFrom_length _ _ _ _
  have hPn : dotPattern A B s.length ≠ [] := by
    intro e; rw [e] at hPl; exact h.ra (List.length_eq_zero_iff.1 hPl.symm)
  have hCl : C'.shape.length = s.length := by rw [h5.1, h3]
  obtain ⟨r', h6, h7⟩ := transpose_node_partial C (by intro e; rw [e] at h3; exact h.ra (List.length_eq_zero_iff.1 h3.symm))
    (dotPattern A B s.length) (Or.inr ⟨hP, by rw [hPl, h3]⟩)
  rw [if_neg hPn] at h7
  have hrr : r' = r := by
    have := transposeRes_val C r _ h2
    rw [h6] at this
    exact Option.some.inj this
  subst hrr
  have hgen : (transposeT (dotPattern A B s.length) C').Same r' :=
    same_trans (transposeT_same hP (by rw [hPl, hCl]) h5) (same_symm h7)
  have key : ∃ c, dotTerm first A B s other g = .ok c ∧ c.Same r' := by
    unfold dotTerm
    simp only [h4, Res.bind]
    unfold tensorT
    by_cases c : isScalarEquiv s = true
    · rw [if_pos c, if_pos rfl]
      refine ⟨_, rfl, same_trans (transposeT_ones hP (reverse_perm _) (by rw [hPl, hCl]) (by simp) ?_) hgen⟩
      have : permute (dotPattern A B s.length) C'.shape = s := hgen.1.trans hrs
      rw [this]
      exact c
    · rw [if_neg c, if_neg hPn, if_neg (by rw [hPl, hCl]; simp)]
      exact ⟨_, rfl, hgen⟩
  obtain ⟨c, k1, k2⟩ := key
  have hcs : c.shape = s := k2.1.trans hrs
  refine ⟨⟨d.shape, fun i => d.at_ i + c.flat (ravel d.shape i)⟩, ?_, hd, fun i hi => ?_⟩
  · unfold dotDoDiff
    simp only [k1, Res.bind]
    rw [if_pos]
    rw [hd, hcs]
    unfold shapeEq
    split <;> simp_all
  · show d.at_ i + c.flat (ravel d.shape i) = _
    rw [hd, ← hcs, flat_ravel c (hcs ▸ hi), k2.2 i (hcs ▸ hi)]

/-- `w` is `d` with the gradient `r` added. -/
def AddsGrad (F : T ℝ → Res (T ℝ)) (x g d w : T ℝ) : Prop :=
  ∃ r, IsGrad F x g r ∧ w.shape = x.shape ∧ ∀ i, InB x.shape i → w.at_ i = d.at_ i + r.at_ i

/-- **C42 (define-by-run, first operand).** Missing: contractions whose symbolic gradient cannot be built. -/
theorem dotDoDiff_fst_partial (A B : List Nat) (a b g d r : T ℝ) (h : Contractible A B a.shape b.shape)
    (hg : g.shape = dropAxes A 0 a.shape ++ dropAxes B 0 b.shape) (hd : d.shape = a.shape)
    (hr : dotDiff true A B a.shape b g = .ok r) :
    ∃ w, dotDoDiff true A B a.shape b g d = .ok w ∧ AddsGrad (fun x => tensordot A B x b) a g d w := by
  obtain ⟨w, h1, h2, h3⟩ := dotDoDiff_symbolic true A B a.shape b g d r h hg hd hr
  exact ⟨w, h1, r, tensordot_grad_fst_sound A B a b g r h hg hr, h2, h3⟩

/-- **C42 (define-by-run, second operand).** Missing: as for the first operand. -/
theorem dotDoDiff_snd_partial (A B : List Nat) (a b g d r : T ℝ) (h : Contractible A B a.shape b.shape)
    (hg : g.shape = dropAxes A 0 a.shape ++ dropAxes B 0 b.shape) (hd : d.shape = b.shape)
    (hr : dotDiff false B A b.shape a g = .ok r) :
    ∃ w, dotDoDiff false B A b.shape a g d = .ok w ∧ AddsGrad (fun y => tensordot A B a y) b g d w := by
  obtain ⟨w, h1, h2, h3⟩ := dotDoDiff_symbolic false B A b.shape a g d r h.symm hg hd hr
  exact ⟨w, h1, r, tensordot_grad_snd_sound A B a b g r h hg hr, h2, h3⟩

/-! ### Results of one element -/

theorem sumOver_col (n : Nat) (F : List Nat → ℝ) : sumOver [n, 1] F = ∑ y ∈ Finset.range n, F [y, 0] := by
  rw [sumOver_cons]
  simp [sumOver, size, unravel]

theorem sumOver_row (n : Nat) (F : List Nat → ℝ) : sumOver [1, n] F = ∑ y ∈ Finset.range n, F [0, y] := by
  rw [sumOver_cons, Finset.sum_range_one, sumOver_cons]
  simp [sumOver, size, unravel]

theorem inB_col {n : Nat} {i : List Nat} (h : InB [n, 1] i) : ∃ x, x < n ∧ i = [x, 0] := by
  match i, h with
  | [x, y], h => exact ⟨x, h.1, by rw [Nat.lt_one_iff.1 h.2.1]⟩

theorem inB_row {n : Nat} {i : List Nat} (h : InB [1, n] i) : ∃ x, x < n ∧ i = [0, x] := by
  match i, h with
  | [x, y], h => exact ⟨y, h.2.1, by rw [Nat.lt_one_iff.1 h.1]⟩

theorem row_col_contractible (n : Nat) {a b : T ℝ} (ha : a.shape = [1, n]) (hb : b.shape = [n, 1]) :
    Contractible [1] [0] a.shape b.shape := by
  rw [ha, hb]; exact ⟨by simp, by simp, rfl, by simp, by simp, by simp, by simp, by simp⟩

/-- The gradient of the column in the product of a row and a column. -/
theorem row_col_grad (n : Nat) (a b g : T ℝ) (ha : a.shape = [1, n]) (hb : b.shape = [n, 1]) (hg : g.shape = [1, 1]) :
    IsGrad (fun y => tensordot [1] [0] a y) b g ⟨b.shape, fun i => g.at_ [0, 0] * a.at_ [0, i.getD 0 0]⟩ := by
  refine contract_grad_snd [1] [0] a b g _ (row_col_contractible n ha hb) (by rw [ha, hb, hg]; rfl) rfl (fun i hi => ?_)
  rw [hb] at hi
  obtain ⟨x, hx, rfl⟩ := inB_col hi
  rw [ha, sumOver_row, Finset.sum_eq_single x]
  · simp [cat, dropAxes]
  · intro y _ hy; simp [Ne.symm hy]
  · intro hx'; exact absurd (Finset.mem_range.2 hx) hx'

/-- **C42, refuted (define-by-run).** In the product of a row and a column of `n ≠ 1` elements, `DoDiff` reports success and leaves
the derivative of the column as it was, because `Add` fails and its error is dropped. -/
theorem row_col_lost (n : Nat) (hn : n ≠ 1) (a b g d : T ℝ) (ha : a.shape = [1, n]) (hb : b.shape = [n, 1]) (hg : g.shape = [1, 1])
    (hd : d.shape = b.shape) : dotDoDiff false [0] [1] b.shape a g d = .ok d := by
  have hs : isScalarEquiv b.shape = false := by rw [hb]; simpa [isScalarEquiv] using hn
  have hp : dotPattern [0] [1] b.shape.length = [0, 1] := by rw [hb]; show dotPattern _ _ 2 = _; decide
  have ht : dotTerm false [0] [1] b.shape a g = .ok (transposeT [0, 1] (scaleT a g)) := by
    unfold dotTerm
    simp only [hs, hp]
    rw [if_pos (by rw [hg]; rfl)]
    simp [Res.bind, tensorT, scaleT, ha]
  have hts : (transposeT [0, 1] (scaleT a g)).shape = [1, n] := by simp [transposeT, scaleT, permute, ha]
  unfold dotDoDiff
  rw [ht]
  simp only [Res.bind]
  rw [if_neg]
  rw [hd, hb, hts]
  simp [shapeEq, hn]

/-- So the gradient is wrong as soon as it has an element that is not zero. -/
theorem row_col_wrong (n : Nat) (hn : n ≠ 1) (a b g d : T ℝ) (ha : a.shape = [1, n]) (hb : b.shape = [n, 1]) (hg : g.shape = [1, 1])
    (hd : d.shape = b.shape) (k : Nat) (hk : k < n) (hak : a.at_ [0, k] ≠ 0) (hg0 : g.at_ [0, 0] ≠ 0) :
    ∃ w, dotDoDiff false [0] [1] b.shape a g d = .ok w ∧ ¬ AddsGrad (fun y => tensordot [1] [0] a y) b g d w := by
  refine ⟨d, row_col_lost n hn a b g d ha hb hg hd, ?_⟩
  rintro ⟨r, h1, _, h3⟩
  have hi : InB b.shape [k, 0] := by rw [hb]; exact ⟨hk, Nat.zero_lt_one, trivial⟩
  have h4 := h1.at (row_col_grad n a b g ha hb hg) [k, 0] hi
  have h5 := h3 [k, 0] hi
  have h6 : g.at_ [0, 0] * a.at_ [0, k] = 0 := by
    have : r.at_ [k, 0] = 0 := by linarith
    rw [← this, h4]; rfl
  exact (mul_ne_zero hg0 hak) h6

/-- The row gets its gradient. -/
theorem row_col_row (n : Nat) (hn : n ≠ 1) (a b g d : T ℝ) (ha : a.shape = [1, n]) (hb : b.shape = [n, 1]) (hg : g.shape = [1, 1])
    (hd : d.shape = a.shape) :
    ∃ w, dotDoDiff true [1] [0] a.shape b g d = .ok w ∧ AddsGrad (fun x => tensordot [1] [0] x b) a g d w := by
  have hs : isScalarEquiv a.shape = false := by rw [ha]; simpa [isScalarEquiv] using hn
  have hp : dotPattern [1] [0] a.shape.length = [1, 0] := by rw [ha]; show dotPattern _ _ 2 = _; decide
  have ht : dotTerm true [1] [0] a.shape b g = .ok (transposeT [1, 0] (scaleT b g)) := by
    unfold dotTerm
    simp only [hs, hp]
    rw [if_pos (by rw [hg]; rfl)]
    simp [Res.bind, tensorT, scaleT, hb]
  have hts : (transposeT [1, 0] (scaleT b g)).shape = [1, n] := by simp [transposeT, scaleT, permute, hb]
  refine ⟨⟨d.shape, fun i => d.at_ i + (transposeT [1, 0] (scaleT b g)).flat (ravel d.shape i)⟩, ?_,
    ⟨a.shape, fun i => g.at_ [0, 0] * b.at_ [i.getD 1 0, 0]⟩, ?_, hd, fun i hi => ?_⟩
  · unfold dotDoDiff
    rw [ht]
    simp only [Res.bind]
    rw [if_pos]
    rw [hd, ha, hts]; simp [shapeEq]
  · refine contract_grad_fst [1] [0] a b g _ (row_col_contractible n ha hb) (by rw [ha, hb, hg]; rfl) rfl (fun i hi => ?_)
    rw [ha] at hi
    obtain ⟨x, hx, rfl⟩ := inB_row hi
    rw [hb, sumOver_col, Finset.sum_eq_single x]
    · simp [cat, dropAxes]
    · intro y _ hy; simp [Ne.symm hy]
    · intro hx'; exact absurd (Finset.mem_range.2 hx) hx'
  · have hi' : InB (transposeT [1, 0] (scaleT b g)).shape i := by rw [hts, ← ha]; exact hi
    show d.at_ i + (transposeT _ (scaleT b g)).flat (ravel d.shape i) = _
    rw [hd, ha, ← hts, flat_ravel _ hi']
    rw [ha] at hi
    obtain ⟨x, hx, rfl⟩ := inB_row hi
    show d.at_ _ + b.at_ [x, 0] * g.at_ (List.replicate g.shape.length 0) = d.at_ _ + g.at_ [0, 0] * b.at_ [x, 0]
    rw [hg, mul_comm]
    rfl

/-- Two columns contracted along their long axes: the symbolic gradient cannot be built (`tensordot_one_by_one`), `DoDiff` is right. -/
theorem col_col_fst (n : Nat) (hn : n ≠ 1) (a b g d : T ℝ) (ha : a.shape = [n, 1]) (hb : b.shape = [n, 1]) (hg : g.shape = [1, 1])
    (hd : d.shape = a.shape) :
    ∃ w, dotDoDiff true [0] [0] a.shape b g d = .ok w ∧ AddsGrad (fun x => tensordot [0] [0] x b) a g d w := by
  have hs : isScalarEquiv a.shape = false := by rw [ha]; simpa [isScalarEquiv] using hn
  have hp : dotPattern [0] [0] a.shape.length = [0, 1] := by rw [ha]; show dotPattern _ _ 2 = _; decide
  have ht : dotTerm true [0] [0] a.shape b g = .ok (transposeT [0, 1] (scaleT b g)) := by
    unfold dotTerm
    simp only [hs, hp]
    rw [if_pos (by rw [hg]; rfl)]
    simp [Res.bind, tensorT, scaleT, hb]
  have hts : (transposeT [0, 1] (scaleT b g)).shape = [n, 1] := by simp [transposeT, scaleT, permute, hb]
  have hc : Contractible [0] [0] a.shape b.shape := by
    rw [ha, hb]; exact ⟨by simp, by simp, rfl, by simp, by simp, by simp, by simp, by simp⟩
  refine ⟨⟨d.shape, fun i => d.at_ i + (transposeT [0, 1] (scaleT b g)).flat (ravel d.shape i)⟩, ?_,
    ⟨a.shape, fun i => g.at_ [0, 0] * b.at_ [i.getD 0 0, 0]⟩, ?_, hd, fun i hi => ?_⟩
  · unfold dotDoDiff
    rw [ht]
    simp only [Res.bind]
    rw [if_pos]
    rw [hd, ha, hts]; simp [shapeEq]
  · refine contract_grad_fst [0] [0] a b g _ hc (by rw [ha, hb, hg]; rfl) rfl (fun i hi => ?_)
    rw [ha] at hi
    obtain ⟨x, hx, rfl⟩ := inB_col hi
    rw [hb, sumOver_col, Finset.sum_eq_single x]
    · simp [cat, dropAxes]
    · intro y _ hy; simp [Ne.symm hy]
    · intro hx'; exact absurd (Finset.mem_range.2 hx) hx'
  · have hi' : InB (transposeT [0, 1] (scaleT b g)).shape i := by rw [hts, ← ha]; exact hi
    show d.at_ i + (transposeT _ (scaleT b g)).flat (ravel d.shape i) = _
    rw [hd, ha, ← hts, flat_ravel _ hi']
    rw [ha] at hi
    obtain ⟨x, hx, rfl⟩ := inB_col hi
    show d.at_ _ + b.at_ [x, 0] * g.at_ (List.replicate g.shape.length 0) = d.at_ _ + g.at_ [0, 0] * b.at_ [x, 0]
    rw [hg, mul_comm]
    rfl

/-! ### Examples -/

/-- `a` is `2×3×4×5`, `b` is `3×6×5`: `DoDiff` adds the gradient of `a`. -/
example (a b g d : T ℝ) (ha : a.shape = [2, 3, 4, 5]) (hb : b.shape = [3, 6, 5]) (hg : g.shape = [2, 4, 6]) (hd : d.shape = a.shape) :
    ∃ w, dotDoDiff true [3, 1] [2, 0] a.shape b g d = .ok w ∧ AddsGrad (fun x => tensordot [3, 1] [2, 0] x b) a g d w := by
  have hc : Contractible [3, 1] [2, 0] a.shape b.shape := by
    rw [ha, hb]; exact ⟨by simp, by simp, rfl, by simp, by simp, by simp, by simp, by simp⟩
  have hsh : g.shape = dropAxes [3, 1] 0 a.shape ++ dropAxes [2, 0] 0 b.shape := by rw [ha, hb, hg]; rfl
  obtain ⟨r, hr, _⟩ := tensordot_grad_fst_partial _ _ a b g hc hsh (Or.inl (by rw [hg]; rfl))
    ⟨Or.inl (by rw [hb]; rfl), fun h => by rw [hb] at h; cases h⟩
  exact dotDoDiff_fst_partial _ _ a b g d r hc hsh hd hr

/-- `(1 2) · (3 4)ᵀ`: the derivative of the column stays zero. -/
example : ∃ w, dotDoDiff false [0] [1] [2, 1] ⟨[1, 2], fun i => i.getD 1 0 + 1⟩ ⟨[1, 1], fun _ => 1⟩ ⟨[2, 1], fun _ => 0⟩ = .ok w ∧
    ¬ AddsGrad (fun y => tensordot [1] [0] ⟨[1, 2], fun i => i.getD 1 0 + 1⟩ y) ⟨[2, 1], fun i => i.getD 0 0 + 3⟩ ⟨[1, 1], fun _ => 1⟩
      ⟨[2, 1], fun _ => 0⟩ w :=
  row_col_wrong 2 (by decide) _ ⟨[2, 1], fun i => i.getD 0 0 + 3⟩ _ _ rfl rfl rfl rfl 0 (by decide) (by simp) (by simp)

end Verif.Shape
