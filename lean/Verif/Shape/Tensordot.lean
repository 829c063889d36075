import Verif.Shape.Gather
import Verif.NN.Softmax
import Mathlib.Data.List.Sort
/-!
Tensor contraction and its symbolic gradient (C42): `Tensordot` (operations.go), `tensordotOp` (op_math.go) and the list
helpers of op_tensor.go they use.  The contraction of the tensor library (`tensor.Contract`) is assumed to be the textbook one.
Axes are naturals (negative axes, which `Tensordot` does not check, are in Shape/TensordotAxes).
-/
set_option autoImplicit false
namespace Verif.Shape
open Verif.Tensor Verif.NN

/-! ### Model -/

/-- `contains`, op_tensor.go 1277-1289: the position of the value, or none for -1. -/
def contains : List Nat → Nat → Option Nat
  | [], _ => none
  | x :: l, v => if v = x then some 0 else (contains l v).map (· + 1)

/-- `containsDuplicate`, operations.go 660-674. -/
def containsDuplicate (l : List Nat) : Bool :=
  l.zipIdx.any fun e => l.zipIdx.any fun e' => e.1 == e'.1 && e.2 != e'.2

/-- `sort.Ints` (assumed). -/
def sortInts (l : List Nat) : List Nat := l.insertionSort (· ≤ ·)

/-- `sort.SearchInts` (assumed) on a sorted list: the position of the first entry that is at least `v`. -/
def searchInts (l : List Nat) (v : Nat) : Nat := (l.takeWhile (· < v)).length

/-- `sortUniqueIntWithImitator(toBeSorted, imitator)`, op_tensor.go 1292-1313: what becomes of the imitator. -/
def coSort (toBeSorted imitator : List Nat) : List Nat :=
  ((toBeSorted.zip imitator).map fun e => (searchInts (sortInts toBeSorted) e.1, e.2)).foldl (fun acc e => acc.set e.1 e.2) imitator

/-- The loop filling `pattern`, op_math.go 1143-1151: `n` entries left from position `p`, with the counter `c`. -/
def patternFrom (co : List Nat) : Nat → Nat → Nat → List Nat
  | 0, _, _ => []
  | n + 1, p, c =>
    match contains co p with
    | some k => k :: patternFrom co n (p + 1) c
    | none => c :: patternFrom co n (p + 1) (c + 1)

/-- `pattern`, op_math.go 1128-1151. -/
def dotPattern (iAxes otherAxes : List Nat) (dims : Nat) : List Nat :=
  patternFrom (coSort otherAxes iAxes) dims 0 iAxes.length

/-- `dOtherAxes`, op_math.go 1156-1167. For a scalar-equivalent operand the freshly made slice of zeros stays. -/
def dOtherAxes (otherAxes oshape : List Nat) : List Nat :=
  if isScalarEquiv oshape then List.replicate oshape.length 0
  else (List.range oshape.length).filter fun a => (contains otherAxes a).isNone

/-- `dGradAxes`, op_math.go 1170-1181, for `n` axes of the other operand. -/
def dGradAxes (first : Bool) (n gdims : Nat) : List Nat :=
  if first then (List.range n).map fun k => gdims - n + k else List.range n

/-- `tensor.Contract` (assumed): the result has the remaining axes of `a`, then those of `b`; an element is the sum of the
products of the elements of `a` and `b` at it that agree on the contracted axes. -/
noncomputable def contract (aAxes bAxes : List Nat) (a b : T ℝ) : T ℝ :=
  ⟨dropAxes aAxes 0 a.shape ++ dropAxes bAxes 0 b.shape, fun p =>
    sumOver a.shape fun i => sumOver b.shape fun j =>
      if dropAxes aAxes 0 i ++ dropAxes bAxes 0 j = p ∧ aAxes.map (i.getD · 0) = bAxes.map (j.getD · 0)
      then a.at_ i * b.at_ j else 0⟩

/-- `tensordotOp.InferShape`, op_math.go 845-881, with `retDims` of `makeTensordotOp` (814-829, clamped at 0): the backing
slice is filled from the left; writing past its end panics. -/
def inferDot (aAxes bAxes sa sb : List Nat) : Res (List Nat) :=
  let retDims := sa.length + sb.length - 2 * aAxes.length
  let vals := dropAxes aAxes 0 sa ++ dropAxes bAxes 0 sb
  if vals.length > retDims then .panic else .ok (vals ++ List.replicate (retDims - vals.length) 0)

/-- `Tensordot`, operations.go 588-633, and `tensordotOp.Do`, op_math.go 884-895. -/
noncomputable def tensordot (aAxes bAxes : List Nat) (a b : T ℝ) : Res (T ℝ) :=
  if a.shape.length < 1 ∨ b.shape.length < 1 then .err
  else if aAxes.length ≠ bAxes.length then .err
  else if containsDuplicate aAxes || containsDuplicate bAxes then .err
  else if aAxes.any fun x => decide (x ≥ a.shape.length) then .err
  else if bAxes.any fun x => decide (x ≥ b.shape.length) then .err
  else if (aAxes.zip bAxes).any fun e => a.shape.getD e.1 0 != b.shape.getD e.2 0 then .err
  else (inferDot aAxes bAxes a.shape b.shape).bind fun _ => .ok (contract aAxes bAxes a b)

/-- The tensor library's `MatMul` of matrices (assumed), behind `linAlgBinOp`. -/
noncomputable def matMulT (x y : T ℝ) : Res (T ℝ) :=
  match x.shape, y.shape with
  | [n, k], [k', m] =>
    if k = k' then .ok ⟨[n, m], fun i => ∑ l ∈ Finset.range k, x.at_ [i.getD 0 0, l] * y.at_ [l, i.getD 1 0]⟩ else .err
  | _, _ => .err

/-- The vector case of `tensordotOp.SymDiff`, op_math.go 1197-1232. -/
noncomputable def vecMul (other g : T ℝ) : Res (T ℝ) :=
  (if isColVec other.shape then .ok other else reshape other [Int.ofNat (other.shape.getD 0 0), 1]).bind fun x =>
  (if isRowVec g.shape then .ok g else reshape g [1, Int.ofNat (g.shape.getD 0 0)]).bind fun y => matMulT x y

/-- `Transpose` with the outcome of a Go call. -/
def transposeRes {α : Type} (t : T α) (axes : List Nat) : Res (T α) :=
  match transposeNode t.shape.length axes with
  | .same => .ok t
  | .tr p => .ok (transposeT p t)
  | .err => .err
  | .panic => .panic

/-- `tensordotOp.SymDiff`, op_math.go 1097-1252, for one operand (`in`, the first one if `first`). -/
noncomputable def dotDiff (first : Bool) (iAxes otherAxes inShape : List Nat) (other g : T ℝ) : Res (T ℝ) :=
  let dO := dOtherAxes otherAxes other.shape
  let dG := dGradAxes first dO.length g.shape.length
  (if isScalarEquiv g.shape then elem (· * ·) other g
   else if isVector other.shape && isVector g.shape && dO.isEmpty then vecMul other g
   else tensordot dO dG other g).bind fun c =>
  transposeRes c (dotPattern iAxes otherAxes inShape.length)

/-! ### Lists of axes -/

theorem contains_eq (l : List Nat) (v : Nat) : contains l v = if v ∈ l then some (l.idxOf v) else none := by
  induction l with
  | nil => rfl
  | cons x l ih =>
    simp only [contains]
    by_cases h : v = x
    · subst h; simp
    · rw [if_neg h, ih]
      by_cases h' : v ∈ l
      · rw [if_pos h', if_pos (by simp [h']), List.idxOf_cons_ne _ (Ne.symm h)]; rfl
      · rw [if_neg h', if_neg (by simp [h, h'])]; rfl

theorem dup_false (l : List Nat) : containsDuplicate l = false ↔ l.Nodup := by
  unfold containsDuplicate
  rw [List.nodup_iff_injective_get]
  constructor
  · intro h i j e
    by_contra hne
    simp only [List.any_eq_false] at h
    have := h (l.get i, i.1) (by rw [List.mem_zipIdx_iff_getElem?]; simp)
    simp only [Bool.not_eq_true, List.any_eq_false] at this
    have := this (l.get j, j.1) (by rw [List.mem_zipIdx_iff_getElem?]; simp)
    rw [e] at this
    simp only [beq_self_eq_true, Bool.true_and, bne_eq_false_iff_eq] at this
    exact hne (Fin.ext this)
  · intro h
    simp only [List.any_eq_false, Bool.not_eq_true]
    rintro ⟨x, i⟩ hi
    rintro ⟨y, j⟩ hj
    rw [List.mem_zipIdx_iff_getElem?] at hi hj
    simp only at hi hj
    obtain ⟨h1, e1⟩ := List.getElem?_eq_some_iff.1 hi
    obtain ⟨h2, e2⟩ := List.getElem?_eq_some_iff.1 hj
    rw [Bool.eq_false_iff]
    intro c
    simp only [Bool.and_eq_true, beq_iff_eq, bne_iff_ne, ne_eq] at c
    have := @h ⟨i, h1⟩ ⟨j, h2⟩ (by simp [e1, e2, c.1])
    exact c.2 (by simpa using this)

theorem sortInts_perm (l : List Nat) : (sortInts l).Perm l := List.perm_insertionSort _ _

theorem sortInts_sorted (l : List Nat) : (sortInts l).Pairwise (· ≤ ·) := List.pairwise_insertionSort _ _

/-- In a sorted list without duplicates the search finds the position. -/
theorem search_eq (l : List Nat) (hs : l.Pairwise (· ≤ ·)) (hn : l.Nodup) (v : Nat) (hv : v ∈ l) : searchInts l v = l.idxOf v := by
  induction l with
  | nil => simp at hv
  | cons x l ih =>
    rw [List.pairwise_cons] at hs
    rw [List.nodup_cons] at hn
    unfold searchInts
    by_cases h : v = x
    · subst h; simp
    · have hl : v ∈ l := by simpa [h] using hv
      have hx : x < v := Nat.lt_of_le_of_ne (hs.1 v hl) (Ne.symm h)
      rw [List.takeWhile_cons_of_pos (by simpa using hx), List.length_cons, List.idxOf_cons_ne _ (Ne.symm h)]
      exact congrArg (· + 1) (ih hs.2 hn.2 hl)

theorem fold_get_pair (l : List (Nat × Nat)) (acc : List Nat) (hnd : (l.map Prod.fst).Nodup) (e : Nat × Nat) (he : e ∈ l)
    (hb : e.1 < acc.length) : (l.foldl (fun acc e => acc.set e.1 e.2) acc)[e.1]? = some e.2 := by
  induction l generalizing acc with
  | nil => simp at he
  | cons f l ih =>
    rw [List.map_cons, List.nodup_cons] at hnd
    rw [List.foldl_cons]
    rcases List.mem_cons.1 he with rfl | h
    · rw [fold_get_notin, List.getElem?_set_self hb]
      intro e' he' c
      exact hnd.1 (c ▸ List.mem_map_of_mem he')
    · exact ih _ hnd.2 h (by simpa using hb)

/-- Sorting one list moves the other along: the entry that belonged to `b` is now at the place of `b`. -/
theorem coSort_eq (B A : List Nat) (hn : B.Nodup) (hl : A.length = B.length) :
    coSort B A = (sortInts B).map fun b => A.getD (B.idxOf b) 0 := by
  have hp := sortInts_perm B
  have hsn : (sortInts B).Nodup := (List.Perm.nodup_iff hp).2 hn
  have hlen : (coSort B A).length = A.length := by unfold coSort; rw [fold_length]
  refine List.ext_getElem? (fun t => ?_)
  by_cases ht : t < (sortInts B).length
  · have hb : (sortInts B)[t] ∈ B := (List.Perm.mem_iff hp).1 (List.getElem_mem ht)
    set b := (sortInts B)[t] with hbd
    have hk : B.idxOf b < B.length := List.idxOf_lt_length_iff.2 hb
    have hs : searchInts (sortInts B) b = t := by
      rw [search_eq _ (sortInts_sorted B) hsn _ ((List.Perm.mem_iff hp).2 hb), hbd]
      exact List.Nodup.idxOf_getElem hsn t ht
    rw [List.getElem?_map, List.getElem?_eq_getElem ht, Option.map_some]
    have hmem : (b, A.getD (B.idxOf b) 0) ∈ B.zip A := by
      rw [List.mem_iff_getElem]
      refine ⟨B.idxOf b, by simp [hl, hk], ?_⟩
      rw [List.getElem_zip, getD_eq _ _ (by omega)]
      simp
    have := fold_get_pair ((B.zip A).map fun e => (searchInts (sortInts B) e.1, e.2)) A ?_
      (t, A.getD (B.idxOf b) 0) ?_ ?_
    · exact this
    · rw [List.map_map]
      have e1 : ((Prod.fst ∘ fun e : Nat × Nat => (searchInts (sortInts B) e.1, e.2))) = (fun v => searchInts (sortInts B) v) ∘ Prod.fst := rfl
      rw [e1, ← List.map_map, List.map_fst_zip (by omega)]
      refine (List.nodup_map_iff_inj_on hn).2 ?_
      intro x hx y hy e
      rw [search_eq _ (sortInts_sorted B) hsn _ ((List.Perm.mem_iff hp).2 hx),
        search_eq _ (sortInts_sorted B) hsn _ ((List.Perm.mem_iff hp).2 hy)] at e
      exact (List.idxOf_inj ((List.Perm.mem_iff hp).2 hx)).1 e
    · rw [List.mem_map]
      exact ⟨_, hmem, by rw [hs]⟩
    · have := hp.length_eq; show t < A.length; omega
  · rw [List.getElem?_eq_none (by have := hp.length_eq; omega), List.getElem?_eq_none (by rw [List.length_map]; omega)]

theorem drop_eq_map (D l : List Nat) (k : Nat) :
    dropAxes D k l = ((List.range' k l.length).filter fun a => decide (a ∉ D)).map fun a => l.getD (a - k) 0 := by
  induction l generalizing k with
  | nil => rfl
  | cons x l ih =>
    have e : ((List.range' (k + 1) l.length).filter fun a => decide (a ∉ D)).map (fun a => (x :: l).getD (a - k) 0) =
        ((List.range' (k + 1) l.length).filter fun a => decide (a ∉ D)).map (fun a => l.getD (a - (k + 1)) 0) := by
      refine List.map_congr_left (fun a ha => ?_)
      have : k + 1 ≤ a := (List.mem_range'_1.1 (List.mem_filter.1 ha).1).1
      obtain ⟨m, rfl⟩ := Nat.exists_eq_add_of_le this
      have e2 : k + 1 + m - k = m + 1 := by omega
      rw [e2, List.getD_cons_succ]
      congr 1; omega
    simp only [dropAxes, List.length_cons, List.range'_succ]
    by_cases h : k ∈ D
    · rw [if_pos h, List.filter_cons_of_neg (by simpa using h), e, ih]
    · rw [if_neg h, List.filter_cons_of_pos (by simpa using h), List.map_cons, e, ih]; simp

theorem drop_eq_map0 (D l : List Nat) :
    dropAxes D 0 l = ((List.range l.length).filter fun a => decide (a ∉ D)).map (l.getD · 0) := by
  rw [drop_eq_map, List.range_eq_range']; rfl

theorem sort_filter (B : List Nat) (m : Nat) (hn : B.Nodup) (h : ∀ b ∈ B, b < m) :
    (List.range m).filter (fun a => decide (a ∈ B)) = sortInts B := by
  refine List.Perm.eq_of_pairwise (le := (· ≤ ·)) (fun a b _ _ h1 h2 => Nat.le_antisymm h1 h2) ?_ (sortInts_sorted B) ?_
  · exact (List.pairwise_le_range).filter _
  · exact (perm_filter B m hn h).symm.trans (sortInts_perm B).symm

/-- Dropping all axes except those in `B` leaves the entries at `B`, in ascending order. -/
theorem drop_compl (B l : List Nat) (m : Nat) (hm : l.length = m) (hn : B.Nodup) (h : ∀ b ∈ B, b < m) :
    dropAxes ((List.range m).filter fun a => decide (a ∉ B)) 0 l = (sortInts B).map (l.getD · 0) := by
  rw [drop_eq_map0, hm, ← sort_filter B m hn h]
  congr 1
  refine List.filter_congr (fun a ha => ?_)
  simp only [List.mem_filter, ha, true_and, decide_eq_true_eq, not_not]

theorem dOther_eq (B o : List Nat) (h : isScalarEquiv o = false) :
    dOtherAxes B o = (List.range o.length).filter fun a => decide (a ∉ B) := by
  unfold dOtherAxes
  rw [h]
  refine List.filter_congr (fun a _ => ?_)
  rw [contains_eq]
  by_cases ha : a ∈ B <;> simp [ha]

theorem drop_last (u v : List Nat) : dropAxes ((List.range v.length).map fun k => u.length + k) 0 (u ++ v) = u := by
  have : ∀ (u v : List Nat) (k : Nat), dropAxes ((List.range v.length).map fun j => k + u.length + j) k (u ++ v) = u := by
    intro u
    induction u with
    | nil =>
      intro v k
      exact drop_all v k _ (fun j h1 h2 => List.mem_map.2 ⟨j - k, List.mem_range.2 (by omega), by simp; omega⟩)
    | cons x u ih =>
      intro v k
      have e : ((List.range v.length).map fun j => k + (x :: u).length + j) = (List.range v.length).map fun j => k + 1 + u.length + j := by
        refine List.map_congr_left (fun j _ => ?_)
        simp only [List.length_cons]; omega
      rw [List.cons_append, dropAxes, if_neg, e, ih v (k + 1)]
      rw [List.mem_map]
      rintro ⟨j, _, hj⟩
      simp only [List.length_cons] at hj; omega
  have := this u v 0
  simpa using this

theorem map_last (u v : List Nat) : ((List.range v.length).map fun k => u.length + k).map ((u ++ v).getD · 0) = v := by
  rw [List.map_map]
  refine List.ext_getElem (by simp) (fun k h1 h2 => ?_)
  simp [h2]

theorem drop_first (u v : List Nat) : dropAxes (List.range u.length) 0 (u ++ v) = v := by
  have : ∀ (u v : List Nat) (k m : Nat), m = k + u.length → dropAxes (List.range m) k (u ++ v) = v := by
    intro u
    induction u with
    | nil => intro v k m hm; exact drop_below _ _ _ (fun a ha => by simp at hm; simpa [hm] using ha)
    | cons x u ih =>
      intro v k m hm
      rw [List.cons_append, dropAxes, if_pos (List.mem_range.2 (by simp at hm; omega)), ih v (k + 1) m (by simp at hm; omega)]
  exact this u v 0 _ (by simp)

theorem map_first (u v : List Nat) : (List.range u.length).map ((u ++ v).getD · 0) = u := by
  refine List.ext_getElem (by simp) (fun k h1 h2 => ?_)
  simp [List.getElem?_append_left h2, h2]

/-! ### The pattern -/

theorem contains_some {co : List Nat} {p k : Nat} (h : contains co p = some k) : co[k]? = some p := by
  rw [contains_eq] at h
  split at h
  · rename_i hm
    cases h
    rw [List.getElem?_eq_getElem (List.idxOf_lt_length_iff.2 hm)]
    simp
  · cases h

theorem patternFrom_length (co : List Nat) (n p c : Nat) : (patternFrom co n p c).length = n := by
  induction n generalizing p c with
  | zero => rfl
  | succ n ih =>
    unfold patternFrom
    split <;> simp [ih]

/-- Reading a list laid out as "entries at `co`, then the others" through the pattern restores the order. -/
theorem patternFrom_map (co l u : List Nat) (p c : Nat) (full : List Nat)
    (hfull : ∀ q, p ≤ q → full.getD q 0 = l.getD (q - p) 0)
    (h1 : ∀ k q, co[k]? = some q → u.getD k 0 = full.getD q 0) (h2 : u.drop c = dropAxes co p l) :
    (patternFrom co l.length p c).map (u.getD · 0) = l := by
  induction l generalizing p c with
  | nil => rfl
  | cons x l ih =>
    have hx : full.getD p 0 = x := by have := hfull p (le_refl p); simpa using this
    have hf' : ∀ q, p + 1 ≤ q → full.getD q 0 = l.getD (q - (p + 1)) 0 := by
      intro q hq
      rw [hfull q (by omega)]
      obtain ⟨m, rfl⟩ := Nat.exists_eq_add_of_le hq
      have e2 : p + 1 + m - p = m + 1 := by omega
      rw [e2, List.getD_cons_succ]
      congr 1; omega
    rw [List.length_cons]
    unfold patternFrom
    cases hc : contains co p with
    | some k =>
      simp only [List.map_cons]
      have hm : p ∈ co := List.mem_of_getElem? (contains_some hc)
      rw [dropAxes, if_pos hm] at h2
      rw [h1 k p (contains_some hc), hx, ih (p + 1) c hf' h2]
    | none =>
      simp only [List.map_cons]
      have hm : p ∉ co := by
        rw [contains_eq] at hc
        split at hc
        · cases hc
        · assumption
      rw [dropAxes, if_neg hm] at h2
      have hcl : c < u.length := by
        by_contra hcl
        rw [List.drop_eq_nil_of_le (by omega)] at h2
        cases h2
      rw [List.drop_eq_getElem_cons hcl] at h2
      rw [getD_eq u c hcl, (List.cons.inj h2).1, ih (p + 1) (c + 1) hf' (List.cons.inj h2).2]

theorem patternFrom_mem (co : List Nat) (n p c x : Nat) (l : List Nat) (hl : l.length = n) (hx : x ∈ patternFrom co n p c) :
    (∃ q, p ≤ q ∧ co[x]? = some q) ∨ (c ≤ x ∧ x < c + (dropAxes co p l).length) := by
  induction n generalizing p c l with
  | zero => simp [patternFrom] at hx
  | succ n ih =>
    cases l with
    | nil => simp at hl
    | cons y l =>
      unfold patternFrom at hx
      cases hc : contains co p with
      | some k =>
        rw [hc] at hx
        simp only [List.mem_cons] at hx
        have hm : p ∈ co := List.mem_of_getElem? (contains_some hc)
        rw [dropAxes, if_pos hm]
        rcases hx with rfl | hx
        · exact Or.inl ⟨p, le_refl p, contains_some hc⟩
        · rcases ih (p + 1) c l (by simpa using hl) hx with ⟨q, h1, h2⟩ | h
          · exact Or.inl ⟨q, by omega, h2⟩
          · exact Or.inr h
      | none =>
        rw [hc] at hx
        simp only [List.mem_cons] at hx
        have hm : p ∉ co := by
          rw [contains_eq] at hc
          split at hc
          · cases hc
          · assumption
        rw [dropAxes, if_neg hm, List.length_cons]
        rcases hx with rfl | hx
        · exact Or.inr ⟨le_refl _, by omega⟩
        · rcases ih (p + 1) (c + 1) l (by simpa using hl) hx with ⟨q, h1, h2⟩ | h
          · exact Or.inl ⟨q, by omega, h2⟩
          · exact Or.inr ⟨by omega, by omega⟩

theorem patternFrom_nodup (co : List Nat) (n p c : Nat) (hc : co.length ≤ c) : (patternFrom co n p c).Nodup := by
  induction n generalizing p c with
  | zero => exact List.nodup_nil
  | succ n ih =>
    unfold patternFrom
    cases h : contains co p with
    | some k =>
      refine List.nodup_cons.2 ⟨fun hk => ?_, ih _ _ hc⟩
      have hk' := contains_some h
      rcases patternFrom_mem co n (p + 1) c k (List.replicate n 0) (by simp) hk with ⟨q, h1, h2⟩ | h1
      · rw [hk'] at h2; cases h2; omega
      · obtain ⟨h3, _⟩ := List.getElem?_eq_some_iff.1 hk'
        omega
    | none =>
      refine List.nodup_cons.2 ⟨fun hk => ?_, ih _ _ (by omega)⟩
      rcases patternFrom_mem co n (p + 1) (c + 1) c (List.replicate n 0) (by simp) hk with ⟨q, h1, h2⟩ | h1
      · obtain ⟨h3, _⟩ := List.getElem?_eq_some_iff.1 h2
        omega
      · omega

theorem perm_of_nodup (l : List Nat) (hn : l.Nodup) (h : ∀ a ∈ l, a < l.length) : IsPerm l := by
  have hs : l.Subperm (List.range l.length) := List.subperm_of_subset hn (fun a ha => List.mem_range.2 (h a ha))
  exact hs.perm_of_length_le (by simp)

theorem coSort_perm (B A : List Nat) (hn : B.Nodup) (hl : A.length = B.length) : (coSort B A).Perm A := by
  rw [coSort_eq B A hn hl]
  have e : B.map (fun b => A.getD (B.idxOf b) 0) = A := by
    refine List.ext_getElem (by simp [hl]) (fun k h1 h2 => ?_)
    rw [List.getElem_map, List.Nodup.idxOf_getElem hn, getD_eq _ _ h2]
  exact ((sortInts_perm B).map _).trans (by rw [e])

theorem dotPattern_perm (A B : List Nat) (n : Nat) (hA : A.Nodup) (hAn : ∀ a ∈ A, a < n) (hB : B.Nodup) (hl : A.length = B.length) :
    IsPerm (dotPattern A B n) := by
  have hp := coSort_perm B A hB hl
  unfold dotPattern
  refine perm_of_nodup _ (patternFrom_nodup _ _ _ _ (by rw [hp.length_eq])) (fun x hx => ?_)
  rw [patternFrom_length]
  have hlen : A.length ≤ n := by
    have := (perm_filter A n hA hAn).length_eq
    have h2 := List.length_filter_le (fun a => decide (a ∈ A)) (List.range n)
    rw [List.length_range] at h2
    omega
  rcases patternFrom_mem _ n 0 _ x (List.replicate n 0) (by simp) hx with ⟨q, _, h⟩ | ⟨_, h⟩
  · obtain ⟨h1, _⟩ := List.getElem?_eq_some_iff.1 h
    rw [hp.length_eq] at h1; omega
  · rw [dropAxes_congr (B := A) _ 0 (fun a _ => by rw [List.Perm.mem_iff hp]), drop_length_eq A _ hA (by simpa using hAn),
      List.length_replicate] at h
    omega

/-- The entries of `l` in the order of the contraction that `SymDiff` performs. -/
def laid (A B l : List Nat) : List Nat := (sortInts B).map (fun b => l.getD (A.getD (B.idxOf b) 0) 0) ++ dropAxes A 0 l

theorem laid_pattern (A B l : List Nat) (hB : B.Nodup) (hl : A.length = B.length) :
    permute (dotPattern A B l.length) (laid A B l) = l := by
  unfold permute dotPattern
  have hc := coSort_eq B A hB hl
  have hp := coSort_perm B A hB hl
  refine patternFrom_map _ l _ 0 _ l (fun q _ => rfl) (fun k q hk => ?_) ?_
  · rw [hc, List.getElem?_map] at hk
    obtain ⟨b, hb, e⟩ := Option.map_eq_some_iff.1 hk
    obtain ⟨h1, h2⟩ := List.getElem?_eq_some_iff.1 hb
    unfold laid
    rw [List.getD_eq_getElem?_getD, List.getElem?_append_left (by rw [List.length_map]; exact h1), List.getElem?_map, hb]
    show l.getD (A.getD (B.idxOf b) 0) 0 = _
    rw [e]
  · have : A.length = ((sortInts B).map (fun b => l.getD (A.getD (B.idxOf b) 0) 0)).length := by
      rw [List.length_map, (sortInts_perm B).length_eq, hl]
    unfold laid
    rw [this, List.drop_left]
    exact dropAxes_congr _ 0 (fun a _ => by rw [List.Perm.mem_iff hp])

theorem laid_length (A B l : List Nat) (hA : A.Nodup) (hAn : ∀ a ∈ A, a < l.length) (hl : A.length = B.length) :
    (laid A B l).length = l.length := by
  unfold laid
  rw [List.length_append, List.length_map, (sortInts_perm B).length_eq, drop_length_eq A l hA hAn, ← hl]
  have := (perm_filter A l.length hA hAn).length_eq
  have h2 := List.length_filter_le (fun a => decide (a ∈ A)) (List.range l.length)
  rw [List.length_range] at h2
  omega

theorem transposeRes_of_val {α : Type} (t r : T α) (axes : List Nat) (h : transposeVal t axes = some r) : transposeRes t axes = .ok r := by
  unfold transposeVal at h
  unfold transposeRes
  split at h <;> simp_all

/-- The final transposition puts the axes into the order of the operand. -/
theorem transpose_laid {α : Type} (A B s : List Nat) (C : T α) (hs : s ≠ []) (hA : A.Nodup) (hAn : ∀ a ∈ A, a < s.length) (hB : B.Nodup)
    (hl : A.length = B.length) (hC : C.shape = laid A B s) :
    ∃ r, transposeRes C (dotPattern A B s.length) = .ok r ∧ r.shape = s ∧ ∀ i, InB s i → r.at_ i = C.at_ (laid A B i) := by
  have hP := dotPattern_perm A B s.length hA hAn hB hl
  have hlen : (dotPattern A B s.length).length = s.length := patternFrom_length _ _ _ _
  have hCl : C.shape.length = s.length := by rw [hC, laid_length A B s hA hAn hl]
  have hne : dotPattern A B s.length ≠ [] := by
    intro e; rw [e] at hlen; exact hs (List.length_eq_zero_iff.1 hlen.symm)
  obtain ⟨r, h1, h2, h3⟩ := transpose_node_partial C (by intro e; rw [e] at hCl; exact hs (List.length_eq_zero_iff.1 hCl.symm))
    (dotPattern A B s.length) (Or.inr ⟨hP, by rw [hlen, hCl]⟩)
  rw [if_neg hne] at h2 h3
  have hsh : r.shape = s := by
    rw [h2]
    show permute _ C.shape = s
    rw [hC, laid_pattern A B s hB hl]
  refine ⟨r, transposeRes_of_val _ _ _ h1, hsh, fun i hi => ?_⟩
  rw [h3 i (by rw [hsh]; exact hi)]
  show C.at_ (scatter (dotPattern A B s.length) i) = _
  congr 1
  have e : permute (dotPattern A B s.length) (laid A B i) = i := by
    have := laid_pattern A B i hB hl
    rwa [hi.length] at this
  rw [← e, scatter_permute hP _ (by rw [laid_length A B i hA (by rw [hi.length]; exact hAn) hl, hi.length, hlen]), e]

/-! ### Shape and value -/

/-- The operands can be contracted along the axes. -/
structure Contractible (aAxes bAxes sa sb : List Nat) : Prop where
  ra : sa ≠ []
  rb : sb ≠ []
  len : aAxes.length = bAxes.length
  na : aAxes.Nodup
  nb : bAxes.Nodup
  la : ∀ a ∈ aAxes, a < sa.length
  lb : ∀ b ∈ bAxes, b < sb.length
  sizes : aAxes.map (sa.getD · 0) = bAxes.map (sb.getD · 0)

theorem Contractible.symm {A B sa sb : List Nat} (h : Contractible A B sa sb) : Contractible B A sb sa :=
  ⟨h.rb, h.ra, h.len.symm, h.nb, h.na, h.lb, h.la, h.sizes.symm⟩

theorem axes_le (A : List Nat) (n : Nat) (hA : A.Nodup) (h : ∀ a ∈ A, a < n) : A.length ≤ n := by
  have := (perm_filter A n hA h).length_eq
  have h2 := List.length_filter_le (fun a => decide (a ∈ A)) (List.range n)
  rw [List.length_range] at h2
  omega

/-- **C42 (shape).** The shape inferred when the graph is built is that of the contraction. -/
theorem inferDot_shape {A B sa sb : List Nat} (h : Contractible A B sa sb) :
    inferDot A B sa sb = .ok (dropAxes A 0 sa ++ dropAxes B 0 sb) := by
  have e : (dropAxes A 0 sa ++ dropAxes B 0 sb).length = sa.length + sb.length - 2 * A.length := by
    rw [List.length_append, drop_length_eq A sa h.na h.la, drop_length_eq B sb h.nb h.lb]
    have h1 := axes_le A _ h.na h.la
    have h2 := axes_le B _ h.nb h.lb
    have := h.len
    omega
  unfold inferDot
  simp only [e, gt_iff_lt, lt_irrefl, if_false, Nat.sub_self, List.replicate_zero, List.append_nil]

theorem zip_any (A B : List Nat) (f g : Nat → Nat) (hl : A.length = B.length) :
    ((A.zip B).any fun e => f e.1 != g e.2) = false ↔ A.map f = B.map g := by
  induction A generalizing B with
  | nil => cases B with
    | nil => simp
    | cons _ _ => simp at hl
  | cons a A ih => cases B with
    | nil => simp at hl
    | cons b B => simp [ih B (by simpa using hl)]

/-- **C42 (acceptance and value).** `Tensordot` succeeds exactly for operands that can be contracted, and then contracts them. -/
theorem tensordot_ok (A B : List Nat) (a b r : T ℝ) :
    tensordot A B a b = .ok r ↔ Contractible A B a.shape b.shape ∧ r = contract A B a b := by
  unfold tensordot
  by_cases h1 : a.shape.length < 1 ∨ b.shape.length < 1
  · rw [if_pos h1]
    refine ⟨fun c => (by cases c), fun ⟨hc, _⟩ => ?_⟩
    rcases h1 with h1 | h1
    · exact absurd (List.length_eq_zero_iff.1 (by omega)) hc.ra
    · exact absurd (List.length_eq_zero_iff.1 (by omega)) hc.rb
  rw [if_neg h1]
  by_cases h2 : A.length ≠ B.length
  · rw [if_pos h2]
    exact ⟨fun c => (by cases c), fun ⟨hc, _⟩ => absurd hc.len h2⟩
  rw [if_neg h2]
  push Not at h1 h2
  by_cases h3 : (containsDuplicate A || containsDuplicate B) = true
  · rw [if_pos h3]
    refine ⟨fun c => (by cases c), fun ⟨hc, _⟩ => ?_⟩
    rw [(dup_false A).2 hc.na, (dup_false B).2 hc.nb] at h3
    cases h3
  rw [if_neg h3]
  by_cases h4 : (A.any fun x => decide (x ≥ a.shape.length)) = true
  · rw [if_pos h4]
    refine ⟨fun c => (by cases c), fun ⟨hc, _⟩ => ?_⟩
    simp only [List.any_eq_true, decide_eq_true_eq] at h4
    obtain ⟨x, hx, hx'⟩ := h4
    have := hc.la x hx; omega
  rw [if_neg h4]
  by_cases h5 : (B.any fun x => decide (x ≥ b.shape.length)) = true
  · rw [if_pos h5]
    refine ⟨fun c => (by cases c), fun ⟨hc, _⟩ => ?_⟩
    simp only [List.any_eq_true, decide_eq_true_eq] at h5
    obtain ⟨x, hx, hx'⟩ := h5
    have := hc.lb x hx; omega
  rw [if_neg h5]
  by_cases h6 : ((A.zip B).any fun e => a.shape.getD e.1 0 != b.shape.getD e.2 0) = true
  · rw [if_pos h6]
    refine ⟨fun c => (by cases c), fun ⟨hc, _⟩ => ?_⟩
    rw [(zip_any A B _ _ h2).2 hc.sizes] at h6
    cases h6
  rw [if_neg h6]
  simp only [Bool.or_eq_true, not_or, Bool.not_eq_true] at h3
  simp only [List.any_eq_true, decide_eq_true_eq, not_exists, not_and, Nat.not_le, ge_iff_le] at h4 h5
  have hc : Contractible A B a.shape b.shape := by
    refine ⟨?_, ?_, h2, (dup_false A).1 h3.1, (dup_false B).1 h3.2, h4, h5, (zip_any A B _ _ h2).1 (by simpa using h6)⟩
    · intro e; rw [e] at h1; simp at h1
    · intro e; rw [e] at h1; simp at h1
  rw [inferDot_shape hc]
  simp only [Res.bind, Res.ok.injEq]
  exact ⟨fun e => ⟨hc, e.symm⟩, fun e => e.2.symm⟩

/-! ### Gradient of the contraction -/

theorem sumOver_pairs (s t s' : List Nat) (D : List Nat → List Nat → List Nat) (E : List Nat → List Nat → Prop) [∀ i j, Decidable (E i j)]
    (hD : ∀ i j, InB s i → InB t j → InB s' (D i j)) (G : List Nat → ℝ) (F : List Nat → List Nat → ℝ) :
    (sumOver s' fun p => G p * sumOver s fun i => sumOver t fun j => if D i j = p ∧ E i j then F i j else 0) =
      sumOver s fun i => sumOver t fun j => if E i j then G (D i j) * F i j else 0 := by
  have e : (sumOver s' fun p => G p * sumOver s fun i => sumOver t fun j => if D i j = p ∧ E i j then F i j else 0) =
      sumOver s' fun p => sumOver s fun i => sumOver t fun j => if D i j = p ∧ E i j then G p * F i j else 0 := by
    refine sumOver_congr _ _ _ (fun p _ => ?_)
    rw [mul_sumOver]
    refine sumOver_congr _ _ _ (fun i _ => ?_)
    rw [mul_sumOver]
    refine sumOver_congr _ _ _ (fun j _ => ?_)
    split <;> simp
  rw [e, sumOver_comm]
  refine sumOver_congr _ _ _ (fun i hi => ?_)
  rw [sumOver_comm]
  refine sumOver_congr _ _ _ (fun j hj => ?_)
  by_cases hE : E i j
  · simp only [hE, and_true, if_true]
    exact sumOver_single s' (D i j) (fun p => G p * F i j) (hD i j hi hj)
  · simp only [hE, and_false, if_false]
    exact sumOver_zero _ _ (fun _ _ => rfl)

theorem inB_append {s t i j : List Nat} (h1 : InB s i) (h2 : InB t j) : InB (s ++ t) (i ++ j) := by
  induction s generalizing i with
  | nil => cases i with
    | nil => exact h2
    | cons _ _ => exact h1.elim
  | cons d s ih => cases i with
    | nil => exact h1.elim
    | cons a i => exact ⟨h1.1, ih h1.2⟩

theorem hasDerivAt_sum2 (s t : List Nat) (f : List Nat → List Nat → ℝ → ℝ) (f' : List Nat → List Nat → ℝ)
    (h : ∀ i j, HasDerivAt (f i j) (f' i j) 0) :
    HasDerivAt (fun τ => sumOver s fun i => sumOver t fun j => f i j τ) (sumOver s fun i => sumOver t fun j => f' i j) 0 := by
  unfold sumOver
  exact HasDerivAt.fun_sum (fun i _ => HasDerivAt.fun_sum (fun j _ => h _ _))

/-- The gradient of a contraction with respect to the first operand. -/
theorem contract_grad_fst (A B : List Nat) (a b g r : T ℝ) (h : Contractible A B a.shape b.shape)
    (hg : g.shape = dropAxes A 0 a.shape ++ dropAxes B 0 b.shape) (hr : r.shape = a.shape)
    (hv : ∀ i, InB a.shape i → r.at_ i = sumOver b.shape fun j =>
      if A.map (i.getD · 0) = B.map (j.getD · 0) then g.at_ (dropAxes A 0 i ++ dropAxes B 0 j) * b.at_ j else 0) :
    IsGrad (fun x => tensordot A B x b) a g r := by
  refine ⟨hr, fun d hd => ⟨fun τ => contract A B (moveT a d τ) b, Filter.Eventually.of_forall fun τ => ⟨?_, hg.symm⟩, ?_⟩⟩
  · exact (tensordot_ok A B _ b _).2 ⟨h, rfl⟩
  · refine HasDerivAt.congr_deriv (hasDerivAt_pair g _ (fun p => sumOver a.shape fun i => sumOver b.shape fun j =>
      if dropAxes A 0 i ++ dropAxes B 0 j = p ∧ A.map (i.getD · 0) = B.map (j.getD · 0) then d.at_ i * b.at_ j else 0) ?_) ?_
    · intro p _
      refine hasDerivAt_sum2 a.shape b.shape (fun i j τ =>
        if dropAxes A 0 i ++ dropAxes B 0 j = p ∧ A.map (i.getD · 0) = B.map (j.getD · 0)
        then (a.at_ i + τ * d.at_ i) * b.at_ j else 0) _ (fun i j => ?_)
      by_cases c : dropAxes A 0 i ++ dropAxes B 0 j = p ∧ A.map (i.getD · 0) = B.map (j.getD · 0)
      · simp only [if_pos c]
        exact (hasDerivAt_line (a.at_ i) (d.at_ i)).mul_const (b.at_ j)
      · simp only [if_neg c]
        exact hasDerivAt_const _ _
    · rw [sumOver_pairs a.shape b.shape g.shape (fun i j => dropAxes A 0 i ++ dropAxes B 0 j)
        (fun i j => A.map (i.getD · 0) = B.map (j.getD · 0))
        (fun i j hi hj => by rw [hg]; exact inB_append (inB_drop A _ _ 0 hi) (inB_drop B _ _ 0 hj)), pair_eq, hr]
      refine sumOver_congr _ _ _ (fun i hi => ?_)
      rw [hv i hi, mul_comm, mul_sumOver]
      refine sumOver_congr _ _ _ (fun j _ => ?_)
      split
      · ring
      · simp

/-- The gradient of a contraction with respect to the second operand. -/
theorem contract_grad_snd (A B : List Nat) (a b g r : T ℝ) (h : Contractible A B a.shape b.shape)
    (hg : g.shape = dropAxes A 0 a.shape ++ dropAxes B 0 b.shape) (hr : r.shape = b.shape)
    (hv : ∀ j, InB b.shape j → r.at_ j = sumOver a.shape fun i =>
      if B.map (j.getD · 0) = A.map (i.getD · 0) then g.at_ (dropAxes A 0 i ++ dropAxes B 0 j) * a.at_ i else 0) :
    IsGrad (fun y => tensordot A B a y) b g r := by
  refine ⟨hr, fun d hd => ⟨fun τ => contract A B a (moveT b d τ), Filter.Eventually.of_forall fun τ => ⟨?_, hg.symm⟩, ?_⟩⟩
  · exact (tensordot_ok A B a _ _).2 ⟨h, rfl⟩
  · refine HasDerivAt.congr_deriv (hasDerivAt_pair g _ (fun p => sumOver a.shape fun i => sumOver b.shape fun j =>
      if dropAxes A 0 i ++ dropAxes B 0 j = p ∧ A.map (i.getD · 0) = B.map (j.getD · 0) then a.at_ i * d.at_ j else 0) ?_) ?_
    · intro p _
      refine hasDerivAt_sum2 a.shape b.shape (fun i j τ =>
        if dropAxes A 0 i ++ dropAxes B 0 j = p ∧ A.map (i.getD · 0) = B.map (j.getD · 0)
        then a.at_ i * (b.at_ j + τ * d.at_ j) else 0) _ (fun i j => ?_)
      by_cases c : dropAxes A 0 i ++ dropAxes B 0 j = p ∧ A.map (i.getD · 0) = B.map (j.getD · 0)
      · simp only [if_pos c]
        exact (hasDerivAt_line (b.at_ j) (d.at_ j)).const_mul (a.at_ i)
      · simp only [if_neg c]
        exact hasDerivAt_const _ _
    · rw [sumOver_pairs a.shape b.shape g.shape (fun i j => dropAxes A 0 i ++ dropAxes B 0 j)
        (fun i j => A.map (i.getD · 0) = B.map (j.getD · 0))
        (fun i j hi hj => by rw [hg]; exact inB_append (inB_drop A _ _ 0 hi) (inB_drop B _ _ 0 hj)), pair_eq, hr, sumOver_comm]
      refine sumOver_congr _ _ _ (fun j hj => ?_)
      rw [hv j hj, mul_comm, mul_sumOver]
      refine sumOver_congr _ _ _ (fun i _ => ?_)
      by_cases c : B.map (j.getD · 0) = A.map (i.getD · 0)
      · rw [if_pos c, if_pos c.symm]; ring
      · rw [if_neg c, if_neg (Ne.symm c)]; simp

/-! ### The symbolic gradient -/

/-- The axes of the result: those of `in` (`x`) and of the other operand (`y`), in the order of the arguments. -/
def cat (first : Bool) (x y : List Nat) : List Nat := if first then x ++ y else y ++ x

theorem cat_length (first : Bool) (x y : List Nat) : (cat first x y).length = x.length + y.length := by
  cases first <;> simp [cat]; omega

theorem drop_cat (first : Bool) (x y : List Nat) (n m : Nat) (hn : y.length = n) (hm : x.length + y.length = m) :
    dropAxes (dGradAxes first n m) 0 (cat first x y) = x := by
  subst hn hm
  cases first with
  | true =>
    simp only [dGradAxes, cat, if_true, Nat.add_sub_cancel]
    exact drop_last x y
  | false =>
    simp only [dGradAxes, cat]
    exact drop_first y x

theorem map_cat (first : Bool) (x y : List Nat) (n m : Nat) (hn : y.length = n) (hm : x.length + y.length = m) :
    (dGradAxes first n m).map ((cat first x y).getD · 0) = y := by
  subst hn hm
  cases first with
  | true =>
    simp only [dGradAxes, cat, if_true, Nat.add_sub_cancel]
    exact map_last x y
  | false =>
    simp only [dGradAxes, cat]
    exact map_first y x

theorem cat_surj (first : Bool) (q : List Nat) (n m : Nat) (h : q.length = m + n) :
    ∃ x y, q = cat first x y ∧ x.length = m ∧ y.length = n := by
  cases first with
  | true => exact ⟨q.take m, q.drop m, by simp [cat], by simp; omega, by simp; omega⟩
  | false => exact ⟨q.drop n, q.take n, by simp [cat], by simp; omega, by simp; omega⟩

theorem cat_inj (first : Bool) {x y x' y' : List Nat} (hy : y.length = y'.length) (hx : x.length = x'.length) :
    cat first x y = cat first x' y' ↔ x = x' ∧ y = y' := by
  cases first with
  | true => simp only [cat, if_true]; exact ⟨fun h => List.append_inj h hx, fun h => by rw [h.1, h.2]⟩
  | false =>
    simp only [cat]
    exact ⟨fun h => (List.append_inj h hy).symm, fun h => by rw [h.1, h.2]⟩

theorem inB_cat (first : Bool) {s t i j : List Nat} (h1 : InB s i) (h2 : InB t j) : InB (cat first s t) (cat first i j) := by
  cases first with
  | true => exact inB_append h1 h2
  | false => exact inB_append h2 h1

theorem dGrad_bound (first : Bool) (n m : Nat) (h : n ≤ m) : ∀ a ∈ dGradAxes first n m, a < m := by
  intro a ha
  cases first with
  | true =>
    simp only [dGradAxes, if_true, List.mem_map, List.mem_range] at ha
    obtain ⟨k, hk, rfl⟩ := ha; omega
  | false => simp only [dGradAxes] at ha; have := List.mem_range.1 ha; omega

theorem dGrad_nodup (first : Bool) (n m : Nat) : (dGradAxes first n m).Nodup := by
  cases first with
  | true =>
    simp only [dGradAxes, if_true]
    exact (List.nodup_map_iff_inj_on List.nodup_range).2 (fun x _ y _ e => by simpa using e)
  | false => exact List.nodup_range

theorem dGrad_length (first : Bool) (n m : Nat) : (dGradAxes first n m).length = n := by
  cases first <;> simp [dGradAxes]

/-- Agreement on the contracted axes, as seen from the sorted axes of the other operand. -/
theorem agree_iff (A B i j : List Nat) (hB : B.Nodup) (hl : A.length = B.length) :
    (sortInts B).map (j.getD · 0) = (sortInts B).map (fun b => i.getD (A.getD (B.idxOf b) 0) 0) ↔
      A.map (i.getD · 0) = B.map (j.getD · 0) := by
  have e : A.map (i.getD · 0) = B.map (fun b => i.getD (A.getD (B.idxOf b) 0) 0) := by
    refine List.ext_getElem (by simp [hl]) (fun k h1 h2 => ?_)
    rw [List.length_map] at h1
    rw [List.getElem_map, List.getElem_map, List.Nodup.idxOf_getElem hB, getD_eq A k h1]
  rw [e, List.map_inj_left, List.map_inj_left]
  constructor
  · intro h b hb; exact (h b ((List.Perm.mem_iff (sortInts_perm B)).2 hb)).symm
  · intro h b hb; exact (h b ((List.Perm.mem_iff (sortInts_perm B)).1 hb)).symm

theorem inB_laid (A B s i : List Nat) (hl : A.length = B.length) (hAn : ∀ a ∈ A, a < s.length) (hi : InB s i) :
    InB (laid A B s) (laid A B i) := by
  refine inB_append ?_ (inB_drop A _ _ 0 hi)
  rw [inB_iff]
  refine ⟨by simp, fun k hk => ?_⟩
  rw [List.length_map] at hk
  rw [getD_eq _ _ (by simpa using hk), getD_eq _ _ (by simpa using hk), List.getElem_map, List.getElem_map]
  refine ((inB_iff s i).1 hi).2 _ (hAn _ ?_)
  have hb : (sortInts B)[k] ∈ B := (List.Perm.mem_iff (sortInts_perm B)).1 (List.getElem_mem hk)
  have := List.idxOf_lt_length_iff.2 hb
  rw [getD_eq _ _ (by omega)]
  exact List.getElem_mem _

theorem sorted_all (B l : List Nat) (hn : B.Nodup) (h : ∀ b ∈ B, b < l.length) (he : dropAxes B 0 l = []) :
    (sortInts B).map (l.getD · 0) = l := by
  rw [← drop_compl B l l.length rfl hn h]
  have hD : (List.range l.length).filter (fun a => decide (a ∉ B)) = [] := by
    rw [drop_eq_map0] at he
    exact List.map_eq_nil_iff.1 he
  rw [hD, drop_empty]

theorem drop_nil_of_length {B l m : List Nat} (hn : B.Nodup) (h : ∀ b ∈ B, b < l.length) (hm : m.length = l.length)
    (he : dropAxes B 0 l = []) : dropAxes B 0 m = [] := by
  apply List.length_eq_zero_iff.1
  rw [drop_length_eq B m hn (by rw [hm]; exact h), hm, ← drop_length_eq B l hn h, he]; rfl

/-- What the gradient should be: at a position of the operand, the sum over the positions of the other operand that agree with
it on the contracted axes. -/
noncomputable def dotGradAt (first : Bool) (A B : List Nat) (other g : T ℝ) (i : List Nat) : ℝ :=
  sumOver other.shape fun j =>
    if A.map (i.getD · 0) = B.map (j.getD · 0) then g.at_ (cat first (dropAxes A 0 i) (dropAxes B 0 j)) * other.at_ j else 0

theorem dot_default (first : Bool) (A B s : List Nat) (other g : T ℝ) (h : Contractible A B s other.shape)
    (hg : g.shape = cat first (dropAxes A 0 s) (dropAxes B 0 other.shape)) (ho : dOtherAxes B other.shape = (List.range other.shape.length).filter fun a => decide (a ∉ B)) (hgn : g.shape ≠ []) :
    ∃ C, tensordot (dOtherAxes B other.shape) (dGradAxes first (dOtherAxes B other.shape).length g.shape.length) other g = .ok C ∧
      C.shape = laid A B s ∧ ∀ i, InB s i → C.at_ (laid A B i) = dotGradAt first A B other g i := by
  rw [ho]
  set D := (List.range other.shape.length).filter fun a => decide (a ∉ B) with hD
  have hDm : ∀ l : List Nat, l.length = other.shape.length → D.map (l.getD · 0) = dropAxes B 0 l := by
    intro l hl; rw [drop_eq_map0, hl]
  have hDl : ∀ l : List Nat, l.length = other.shape.length → (dropAxes B 0 l).length = D.length := by
    intro l hl; rw [← hDm l hl, List.length_map]
  have hgl : g.shape.length = (dropAxes A 0 s).length + D.length := by
    rw [hg, cat_length, hDl _ rfl]
  have hmapg : (dGradAxes first D.length g.shape.length).map (g.shape.getD · 0) = dropAxes B 0 other.shape := by
    have := map_cat first (dropAxes A 0 s) (dropAxes B 0 other.shape) D.length g.shape.length (hDl _ rfl) (by rw [hgl, hDl _ rfl])
    rw [← hg] at this; exact this
  have hdropg : dropAxes (dGradAxes first D.length g.shape.length) 0 g.shape = dropAxes A 0 s := by
    have := drop_cat first (dropAxes A 0 s) (dropAxes B 0 other.shape) D.length g.shape.length (hDl _ rfl) (by rw [hgl, hDl _ rfl])
    rw [← hg] at this; exact this
  have hc : Contractible D (dGradAxes first D.length g.shape.length) other.shape g.shape := by
    refine ⟨h.rb, hgn, (dGrad_length _ _ _).symm, List.nodup_range.filter _, dGrad_nodup _ _ _, ?_, dGrad_bound _ _ _ (by omega), ?_⟩
    · intro a ha; exact List.mem_range.1 (List.mem_filter.1 ha).1
    · rw [hDm _ rfl, hmapg]
  refine ⟨_, (tensordot_ok _ _ _ _ _).2 ⟨hc, rfl⟩, ?_, fun i hi => ?_⟩
  · show dropAxes D 0 other.shape ++ dropAxes _ 0 g.shape = _
    rw [hdropg, drop_compl B _ _ rfl h.nb h.lb]
    unfold laid
    rw [(agree_iff A B s other.shape h.nb h.len).2 h.sizes]
  · show (sumOver other.shape fun j => sumOver g.shape fun q =>
      if dropAxes D 0 j ++ dropAxes (dGradAxes first D.length g.shape.length) 0 q = laid A B i ∧
        D.map (j.getD · 0) = (dGradAxes first D.length g.shape.length).map (q.getD · 0) then other.at_ j * g.at_ q else 0) = _
    unfold dotGradAt
    refine sumOver_congr _ _ _ (fun j hj => ?_)
    have hjl := hj.length
    have key : ∀ q, InB g.shape q →
        ((dropAxes D 0 j ++ dropAxes (dGradAxes first D.length g.shape.length) 0 q = laid A B i ∧
          D.map (j.getD · 0) = (dGradAxes first D.length g.shape.length).map (q.getD · 0)) ↔
        (A.map (i.getD · 0) = B.map (j.getD · 0) ∧ cat first (dropAxes A 0 i) (dropAxes B 0 j) = q)) := by
      intro q hq
      obtain ⟨x, y, rfl, hx, hy⟩ := cat_surj first q D.length (dropAxes A 0 s).length (by rw [hq.length, hgl])
      have hix : (dropAxes A 0 i).length = x.length := by
        rw [hx]; exact (inB_drop A _ _ 0 hi).length
      rw [drop_cat first x y _ _ hy (by rw [hgl, hx, hy]), map_cat first x y _ _ hy (by rw [hgl, hx, hy]), hDm j hjl,
        drop_compl B j _ hjl h.nb h.lb, cat_inj first (by rw [hDl j hjl, hy]) hix, ← agree_iff A B i j h.nb h.len]
      unfold laid
      constructor
      · rintro ⟨e1, e2⟩
        have := List.append_inj e1 (by simp)
        exact ⟨this.1, this.2.symm, e2⟩
      · rintro ⟨e1, e2, e3⟩
        exact ⟨by rw [e1, e2], e3⟩
    have e : (sumOver g.shape fun q =>
      if dropAxes D 0 j ++ dropAxes (dGradAxes first D.length g.shape.length) 0 q = laid A B i ∧
        D.map (j.getD · 0) = (dGradAxes first D.length g.shape.length).map (q.getD · 0) then other.at_ j * g.at_ q else 0) =
      sumOver g.shape fun q => if A.map (i.getD · 0) = B.map (j.getD · 0) ∧ cat first (dropAxes A 0 i) (dropAxes B 0 j) = q
        then other.at_ j * g.at_ q else 0 := by
      refine sumOver_congr _ _ _ (fun q hq => ?_)
      by_cases c : A.map (i.getD · 0) = B.map (j.getD · 0) ∧ cat first (dropAxes A 0 i) (dropAxes B 0 j) = q
      · rw [if_pos c, if_pos ((key q hq).2 c)]
      · rw [if_neg c, if_neg (fun c' => c ((key q hq).1 c'))]
    rw [e]
    by_cases hE : A.map (i.getD · 0) = B.map (j.getD · 0)
    · simp only [hE, true_and, if_true]
      rw [sumOver_single g.shape _ (fun q => other.at_ j * g.at_ q)
        (by rw [hg]; exact inB_cat first (inB_drop A _ _ 0 hi) (inB_drop B _ _ 0 hj)), mul_comm]
    · simp only [hE, false_and, if_false]
      exact sumOver_zero _ _ (fun _ _ => rfl)

/-- Everything of the other operand contracted: the sum has one term. -/
theorem dotGradAt_all (first : Bool) (A B s : List Nat) (other g : T ℝ) (h : Contractible A B s other.shape)
    (he : dropAxes B 0 other.shape = []) (i : List Nat) (hi : InB s i) :
    dotGradAt first A B other g i = g.at_ (dropAxes A 0 i) *
      other.at_ ((sortInts B).map fun b => i.getD (A.getD (B.idxOf b) 0) 0) := by
  set j0 := (sortInts B).map fun b => i.getD (A.getD (B.idxOf b) 0) 0 with hj0
  have hsh : (sortInts B).map (fun b => s.getD (A.getD (B.idxOf b) 0) 0) = other.shape := by
    rw [← (agree_iff A B s other.shape h.nb h.len).2 h.sizes]
    exact sorted_all B _ h.nb h.lb he
  have hin : InB other.shape j0 := by
    rw [← hsh, hj0, inB_iff]
    refine ⟨by simp, fun k hk => ?_⟩
    rw [List.length_map] at hk
    rw [getD_eq _ _ (by simpa using hk), getD_eq _ _ (by simpa using hk), List.getElem_map, List.getElem_map]
    refine ((inB_iff s i).1 hi).2 _ (h.la _ ?_)
    have hb : (sortInts B)[k] ∈ B := (List.Perm.mem_iff (sortInts_perm B)).1 (List.getElem_mem hk)
    have := List.idxOf_lt_length_iff.2 hb
    have hl := h.len
    rw [getD_eq _ _ (by omega)]
    exact List.getElem_mem _
  unfold dotGradAt
  have e : (sumOver other.shape fun j => if A.map (i.getD · 0) = B.map (j.getD · 0)
      then g.at_ (cat first (dropAxes A 0 i) (dropAxes B 0 j)) * other.at_ j else 0) =
      sumOver other.shape fun j => if j0 = j then g.at_ (dropAxes A 0 i) * other.at_ j else 0 := by
    refine sumOver_congr _ _ _ (fun j hj => ?_)
    have hd : dropAxes B 0 j = [] := drop_nil_of_length h.nb h.lb hj.length he
    have hcat : cat first (dropAxes A 0 i) (dropAxes B 0 j) = dropAxes A 0 i := by
      rw [hd]; cases first <;> simp [cat]
    have hiff : A.map (i.getD · 0) = B.map (j.getD · 0) ↔ j0 = j := by
      rw [← agree_iff A B i j h.nb h.len, sorted_all B j h.nb (by rw [hj.length]; exact h.lb) hd, eq_comm]
    rw [hcat]
    by_cases c : j0 = j
    · rw [if_pos c, if_pos (hiff.2 c)]
    · rw [if_neg c, if_neg (fun c' => c (hiff.1 c'))]
  rw [e, sumOver_single _ _ _ hin]

theorem cat_nil {first : Bool} {x y : List Nat} (h : cat first x y = []) : x = [] ∧ y = [] := by
  cases first <;> simp [cat] at h <;> simp [h]

theorem dot_scalar (first : Bool) (A B s : List Nat) (other g : T ℝ) (h : Contractible A B s other.shape)
    (hg : g.shape = cat first (dropAxes A 0 s) (dropAxes B 0 other.shape)) (hgn : g.shape = []) :
    ∃ C, elem (· * ·) other g = .ok C ∧ C.shape = laid A B s ∧ ∀ i, InB s i → C.at_ (laid A B i) = dotGradAt first A B other g i := by
  rw [hgn] at hg
  obtain ⟨hA, hB⟩ := cat_nil hg.symm
  obtain ⟨C, h1, h2, h3⟩ := elem_scalar_right (fun x y : ℝ => x * y) other g hgn
  have hls : laid A B s = other.shape := by
    unfold laid
    rw [hA, List.append_nil, ← (agree_iff A B s other.shape h.nb h.len).2 h.sizes, sorted_all B _ h.nb h.lb hB]
  refine ⟨C, h1, by rw [h2, hls], fun i hi => ?_⟩
  · rw [h3 _ (by rw [← hls]; exact inB_laid A B s i h.len h.la hi)]
    have hd : dropAxes A 0 i = [] := drop_nil_of_length h.na h.la hi.length hA
    rw [dotGradAt_all first A B s other g h hB i hi, hd]
    unfold laid
    rw [hd, List.append_nil, mul_comm]

theorem dot_vector (first : Bool) (A B s : List Nat) (other g : T ℝ) (n m : Nat) (h : Contractible A B s other.shape)
    (hg : g.shape = cat first (dropAxes A 0 s) (dropAxes B 0 other.shape)) (hn : other.shape = [n]) (hm : g.shape = [m])
    (hB : dropAxes B 0 other.shape = []) :
    ∃ C, vecMul other g = .ok C ∧ C.shape = laid A B s ∧ ∀ i, InB s i → C.at_ (laid A B i) = dotGradAt first A B other g i := by
  have hA : dropAxes A 0 s = [m] := by
    rw [← hm, hg, hB]; cases first <;> simp [cat]
  have hr1 : reshape other [Int.ofNat (other.shape.getD 0 0), 1] = .ok (other.reshape [n, 1]) := by
    have := reshapeTo_ofNat other.shape [n, 1] (by rw [hn]; simp [size])
    unfold reshape
    rw [hn] at this ⊢
    simp only [List.map_cons, List.map_nil] at this
    show (reshapeTo [n] [Int.ofNat n, 1]).bind _ = _
    rw [show ([Int.ofNat n, 1] : List Int) = [Int.ofNat n, Int.ofNat 1] from rfl, this]
    rfl
  have hr2 : reshape g [1, Int.ofNat (g.shape.getD 0 0)] = .ok (g.reshape [1, m]) := by
    have := reshapeTo_ofNat g.shape [1, m] (by rw [hm]; simp [size])
    unfold reshape
    rw [hm] at this ⊢
    simp only [List.map_cons, List.map_nil] at this
    show (reshapeTo [m] [1, Int.ofNat m]).bind _ = _
    rw [show ([1, Int.ofNat m] : List Int) = [Int.ofNat 1, Int.ofNat m] from rfl, this]
    rfl
  have hv : vecMul other g = .ok ⟨[n, m], fun i => ∑ l ∈ Finset.range 1, (other.reshape [n, 1]).at_ [i.getD 0 0, l] *
      (g.reshape [1, m]).at_ [l, i.getD 1 0]⟩ := by
    unfold vecMul
    rw [hr1, hr2, hn, hm]
    rfl
  refine ⟨_, hv, ?_, fun i hi => ?_⟩
  · show [n, m] = _
    unfold laid
    rw [hA, ← (agree_iff A B s other.shape h.nb h.len).2 h.sizes, sorted_all B _ h.nb h.lb hB, hn]
    rfl
  · rw [dotGradAt_all first A B s other g h hB i hi]
    have hli := inB_laid A B s i h.len h.la hi
    have hls : laid A B s = [n, m] := by
      unfold laid
      rw [hA, ← (agree_iff A B s other.shape h.nb h.len).2 h.sizes, sorted_all B _ h.nb h.lb hB, hn]
      rfl
    have hdi : (dropAxes A 0 i).length = 1 := by
      rw [(inB_drop A _ _ 0 hi).length, hA]; rfl
    have hll := hli.length
    rw [hls] at hli hll
    obtain ⟨y, hy⟩ := List.length_eq_one_iff.1 hdi
    have hj : ((sortInts B).map fun b => i.getD (A.getD (B.idxOf b) 0) 0).length = 1 := by
      unfold laid at hll
      rw [List.length_append, hdi] at hll
      simpa using hll
    obtain ⟨x, hx⟩ := List.length_eq_one_iff.1 hj
    have hlaid : laid A B i = [x, y] := by unfold laid; rw [hx, hy]; rfl
    rw [hlaid, hx, hy]
    show (∑ l ∈ Finset.range 1, (other.reshape [n, 1]).at_ [x, l] * (g.reshape [1, m]).at_ [l, y]) = _
    rw [Finset.sum_range_one]
    show (other.reshape [n, 1]).at_ [x, 0] * (g.reshape [1, m]).at_ [0, y] = _
    rw [reshape_at, reshape_at]
    unfold T.flat
    rw [hn, hm]
    simp [ravel, size, unravel]
    ring

/-- The cases in which `SymDiff` of a contraction works, apart from results with only unit axes: the other operand has not just
unit axes (unless everything is contracted, or its single axis is not contracted), and two "vectors" that are multiplied to a
matrix have one axis each. -/
structure DotCovered (B o gs : List Nat) : Prop where
  other : isScalarEquiv o = false ∨ gs = [] ∨ (o.length = 1 ∧ B = [])
  vec : B.length = o.length → isVector o = true → isVector gs = true → o.length = 1 ∧ gs.length = 1

theorem dO_empty {B o : List Nat} (ho : o ≠ []) (hn : B.Nodup) (hb : ∀ b ∈ B, b < o.length) (h : (dOtherAxes B o).isEmpty = true) :
    isScalarEquiv o = false ∧ B.length = o.length ∧ dropAxes B 0 o = [] := by
  have h' : dOtherAxes B o = [] := List.isEmpty_iff.1 h
  have hs : isScalarEquiv o = false := by
    by_contra hs
    simp only [Bool.not_eq_false] at hs
    unfold dOtherAxes at h'
    rw [if_pos hs] at h'
    have := congrArg List.length h'
    rw [List.length_replicate] at this
    exact ho (List.length_eq_zero_iff.1 this)
  have hd : dropAxes B 0 o = [] := by
    rw [dOther_eq B o hs] at h'
    rw [drop_eq_map0, h']; rfl
  refine ⟨hs, ?_, hd⟩
  have := drop_length_eq B o hn hb
  rw [hd] at this
  have := axes_le B _ hn hb
  simp at *; omega

theorem dO_empty_of {B o : List Nat} (hs : isScalarEquiv o = false) (hn : B.Nodup) (hb : ∀ b ∈ B, b < o.length)
    (h : (dOtherAxes B o).isEmpty = false) : B.length ≠ o.length := by
  intro e
  have hd : dropAxes B 0 o = [] := by
    apply List.length_eq_zero_iff.1
    rw [drop_length_eq B o hn hb]; omega
  rw [drop_eq_map0, ← dOther_eq B o hs] at hd
  rw [List.map_eq_nil_iff.1 hd] at h
  cases h

/-- The contraction inside `SymDiff` succeeds in the covered cases and has the expected elements. -/
theorem dotDiff_covered (first : Bool) (A B s : List Nat) (other g : T ℝ) (h : Contractible A B s other.shape)
    (hg : g.shape = cat first (dropAxes A 0 s) (dropAxes B 0 other.shape)) (hgs : isScalarEquiv g.shape = false ∨ g.shape = [])
    (hc : DotCovered B other.shape g.shape) :
    ∃ r, dotDiff first A B s other g = .ok r ∧ r.shape = s ∧ ∀ i, InB s i → r.at_ i = dotGradAt first A B other g i := by
  have main : ∃ C, (if isScalarEquiv g.shape then elem (· * ·) other g
      else if isVector other.shape && isVector g.shape && (dOtherAxes B other.shape).isEmpty then vecMul other g
      else tensordot (dOtherAxes B other.shape) (dGradAxes first (dOtherAxes B other.shape).length g.shape.length) other g) = .ok C ∧
      C.shape = laid A B s ∧ ∀ i, InB s i → C.at_ (laid A B i) = dotGradAt first A B other g i := by
    rcases hgs with hgs | hgs
    · have hgn : g.shape ≠ [] := by intro e; rw [e] at hgs; cases hgs
      rw [if_neg (by rw [hgs]; simp)]
      by_cases hv : (isVector other.shape && isVector g.shape && (dOtherAxes B other.shape).isEmpty) = true
      · rw [if_pos hv]
        simp only [Bool.and_eq_true] at hv
        obtain ⟨⟨h1, h2⟩, h3⟩ := hv
        obtain ⟨_, h4, h5⟩ := dO_empty h.rb h.nb h.lb h3
        obtain ⟨h6, h7⟩ := hc.vec h4 h1 h2
        obtain ⟨n, hn⟩ := List.length_eq_one_iff.1 h6
        obtain ⟨m, hm⟩ := List.length_eq_one_iff.1 h7
        exact dot_vector first A B s other g n m h hg hn hm h5
      · rw [if_neg hv]
        refine dot_default first A B s other g h hg ?_ hgn
        rcases hc.other with ho | ho | ⟨ho, hB⟩
        · exact dOther_eq B _ ho
        · exact absurd ho hgn
        · obtain ⟨n, hn⟩ := List.length_eq_one_iff.1 ho
          subst hB
          rw [hn]
          unfold dOtherAxes
          split <;> rfl
    · rw [if_pos (by rw [hgs]; rfl)]
      exact dot_scalar first A B s other g h hg hgs
  obtain ⟨C, h1, h2, h3⟩ := main
  obtain ⟨r, h4, h5, h6⟩ := transpose_laid A B s C h.ra h.na h.la h.nb h.len h2
  refine ⟨r, ?_, h5, fun i hi => by rw [h6 i hi, h3 i hi]⟩
  unfold dotDiff
  simp only [h1, Res.bind]
  exact h4

/-- **C42 (gradient, first operand).** In the covered cases the symbolic gradient is the gradient of the contraction.
Missing: operands and results with only unit axes, and matrices with a unit axis that count as vectors. -/
theorem tensordot_grad_fst_partial (A B : List Nat) (a b g : T ℝ) (h : Contractible A B a.shape b.shape)
    (hg : g.shape = dropAxes A 0 a.shape ++ dropAxes B 0 b.shape) (hgs : isScalarEquiv g.shape = false ∨ g.shape = [])
    (hc : DotCovered B b.shape g.shape) :
    ∃ r, dotDiff true A B a.shape b g = .ok r ∧ IsGrad (fun x => tensordot A B x b) a g r := by
  obtain ⟨r, h1, h2, h3⟩ := dotDiff_covered true A B a.shape b g h hg hgs hc
  exact ⟨r, h1, contract_grad_fst A B a b g r h hg h2 h3⟩

/-- **C42 (gradient, second operand).** Missing: as for the first operand. -/
theorem tensordot_grad_snd_partial (A B : List Nat) (a b g : T ℝ) (h : Contractible A B a.shape b.shape)
    (hg : g.shape = dropAxes A 0 a.shape ++ dropAxes B 0 b.shape) (hgs : isScalarEquiv g.shape = false ∨ g.shape = [])
    (hc : DotCovered A a.shape g.shape) :
    ∃ r, dotDiff false B A b.shape a g = .ok r ∧ IsGrad (fun y => tensordot A B a y) b g r := by
  obtain ⟨r, h1, h2, h3⟩ := dotDiff_covered false B A b.shape a g h.symm hg hgs hc
  exact ⟨r, h1, contract_grad_snd A B a b g r h hg h2 h3⟩

/-! ### Outside the covered cases -/

theorem transposeRes_rank {α : Type} (t : T α) (axes : List Nat) (h1 : axes ≠ []) (h2 : axes.length ≠ t.shape.length) :
    transposeRes t axes = .err := by
  unfold transposeRes transposeNode
  rw [if_pos ⟨List.length_pos_iff.2 h1, h2⟩]

theorem matMulT_rank (x y r : T ℝ) (h : matMulT x y = .ok r) : r.shape.length = 2 := by
  unfold matMulT at h
  split at h
  · split at h
    · cases h; rfl
    · cases h
  · cases h

theorem vecMul_rank (x y r : T ℝ) (h : vecMul x y = .ok r) : r.shape.length = 2 := by
  unfold vecMul at h
  cases e1 : (if isColVec x.shape then Res.ok x else reshape x [Int.ofNat (x.shape.getD 0 0), 1]) with
  | ok x' =>
    rw [e1] at h
    simp only [Res.bind] at h
    cases e2 : (if isRowVec y.shape then Res.ok y else reshape y [1, Int.ofNat (y.shape.getD 0 0)]) with
    | ok y' => rw [e2] at h; exact matMulT_rank _ _ _ h
    | err => rw [e2] at h; cases h
    | panic => rw [e2] at h; cases h
  | err => rw [e1] at h; cases h
  | panic => rw [e1] at h; cases h

theorem transposeRes_ok_rank {α : Type} (t r : T α) (A B : List Nat) (n : Nat) (hn : n ≠ 0) (h : transposeRes t (dotPattern A B n) = .ok r) :
    t.shape.length = n := by
  by_contra hne
  have hl : (dotPattern A B n).length = n := patternFrom_length _ _ _ _
  rw [transposeRes_rank t _ (by intro e; rw [e] at hl; exact hn hl.symm) (by rw [hl]; exact Ne.symm hne)] at h
  cases h

theorem dotDiff_ok {first : Bool} {A B s : List Nat} {other g r : T ℝ} (hs : s ≠ []) (h : dotDiff first A B s other g = .ok r) :
    ∃ C, (if isScalarEquiv g.shape then elem (· * ·) other g
      else if isVector other.shape && isVector g.shape && (dOtherAxes B other.shape).isEmpty then vecMul other g
      else tensordot (dOtherAxes B other.shape) (dGradAxes first (dOtherAxes B other.shape).length g.shape.length) other g) = .ok C ∧
      transposeRes C (dotPattern A B s.length) = .ok r ∧ C.shape.length = s.length := by
  unfold dotDiff at h
  simp only at h
  cases e : (if isScalarEquiv g.shape then elem (· * ·) other g
      else if isVector other.shape && isVector g.shape && (dOtherAxes B other.shape).isEmpty then vecMul other g
      else tensordot (dOtherAxes B other.shape) (dGradAxes first (dOtherAxes B other.shape).length g.shape.length) other g) with
  | ok C =>
    rw [e] at h
    exact ⟨C, rfl, h, transposeRes_ok_rank C r A B s.length (by intro e; exact hs (List.length_eq_zero_iff.1 e)) h⟩
  | err => rw [e] at h; cases h
  | panic => rw [e] at h; cases h

/-- For a result that has not just unit axes, `SymDiff` succeeds only in the covered cases. -/
theorem dotDiff_only_covered (first : Bool) (A B s : List Nat) (other g r : T ℝ) (h : Contractible A B s other.shape)
    (hg : g.shape = cat first (dropAxes A 0 s) (dropAxes B 0 other.shape)) (hgs : isScalarEquiv g.shape = false)
    (hr : dotDiff first A B s other g = .ok r) : DotCovered B other.shape g.shape := by
  obtain ⟨C, h1, _, h3⟩ := dotDiff_ok h.ra hr
  have hgn : g.shape ≠ [] := by intro e; rw [e] at hgs; cases hgs
  have hgl : g.shape.length = (s.length - A.length) + (other.shape.length - B.length) := by
    rw [hg, cat_length, drop_length_eq A s h.na h.la, drop_length_eq B _ h.nb h.lb]
  have hAl := axes_le A _ h.na h.la
  have hlen := h.len
  rw [if_neg (by rw [hgs]; simp)] at h1
  by_cases hv : (isVector other.shape && isVector g.shape && (dOtherAxes B other.shape).isEmpty) = true
  · rw [if_pos hv] at h1
    simp only [Bool.and_eq_true] at hv
    obtain ⟨hs', h4, _⟩ := dO_empty h.rb h.nb h.lb hv.2
    refine ⟨Or.inl hs', fun _ _ _ => ?_⟩
    have h5 := vecMul_rank _ _ _ h1
    have h6 := List.length_pos_iff.2 h.rb
    have h7 := List.length_pos_iff.2 hgn
    omega
  · rw [if_neg hv] at h1
    obtain ⟨hcon, hC⟩ := (tensordot_ok _ _ _ _ _).1 h1
    by_cases ho : isScalarEquiv other.shape = true
    · have hd : dOtherAxes B other.shape = List.replicate other.shape.length 0 := by unfold dOtherAxes; rw [if_pos ho]
      have ho1 : other.shape.length = 1 := by
        have hnd := hcon.na
        rw [hd, List.nodup_replicate] at hnd
        have := List.length_pos_iff.2 h.rb
        omega
      have hB : B = [] := by
        by_contra hB
        have hBl := List.length_pos_iff.2 hB
        have hBle := axes_le B _ h.nb h.lb
        have hCl : C.shape.length = (other.shape.length - 1) + (g.shape.length - 1) := by
          rw [hC]
          show (dropAxes _ 0 other.shape ++ dropAxes _ 0 g.shape).length = _
          rw [List.length_append, drop_length_eq _ _ hcon.na hcon.la, drop_length_eq _ _ hcon.nb hcon.lb, dGrad_length, hd,
            List.length_replicate, ho1]
        omega
      refine ⟨Or.inr (Or.inr ⟨ho1, hB⟩), fun e => ?_⟩
      rw [hB] at e
      simp at e; omega
    · simp only [Bool.not_eq_true] at ho
      refine ⟨Or.inl ho, fun e1 e2 e3 => ?_⟩
      rw [e2, e3] at hv
      simp only [Bool.true_and, Bool.not_eq_true] at hv
      exact absurd e1 (dO_empty_of ho h.nb h.lb hv)

/-- **C42 (gradient), exactly.** For a result that has not just unit axes, `SymDiff` succeeds in the covered cases and no others. -/
theorem dotDiff_iff (first : Bool) (A B s : List Nat) (other g : T ℝ) (h : Contractible A B s other.shape)
    (hg : g.shape = cat first (dropAxes A 0 s) (dropAxes B 0 other.shape)) (hgs : isScalarEquiv g.shape = false) :
    (∃ r, dotDiff first A B s other g = .ok r) ↔ DotCovered B other.shape g.shape := by
  constructor
  · rintro ⟨r, hr⟩; exact dotDiff_only_covered first A B s other g r h hg hgs hr
  · intro hc
    obtain ⟨r, h1, _⟩ := dotDiff_covered first A B s other g h hg (Or.inl hgs) hc
    exact ⟨r, h1⟩

theorem ones_unique {s i j : List Nat} (hs : isScalarEquiv s = true) (hi : InB s i) (hj : InB s j) : i = j := by
  induction s generalizing i j with
  | nil =>
    rw [List.length_eq_zero_iff.1 hi.length, List.length_eq_zero_iff.1 hj.length]
  | cons d s ih =>
    cases i with
    | nil => exact hi.elim
    | cons a i => cases j with
      | nil => exact hj.elim
      | cons b j =>
        simp only [isScalarEquiv, List.all_cons, Bool.and_eq_true, beq_iff_eq] at hs
        have h1 := hi.1
        have h2 := hj.1
        rw [ih (by simpa [isScalarEquiv] using hs.2) hi.2 hj.2]
        congr 1
        have := hs.1
        omega

theorem ones_eq_replicate {s : List Nat} (h : isScalarEquiv s = true) : s = List.replicate s.length 1 := by
  rw [List.eq_replicate_iff]
  refine ⟨rfl, fun b hb => ?_⟩
  simp only [isScalarEquiv, List.all_eq_true, beq_iff_eq] at h
  exact h b hb

theorem inB_zeros (n : Nat) : InB (List.replicate n 1) (List.replicate n 0) := by
  induction n with
  | zero => trivial
  | succ n ih => exact ⟨by decide, ih⟩

theorem mem_of_drop (A s : List Nat) (k : Nat) (hs : k < s.length) (hk : k ∉ A) : s.getD k 0 ∈ dropAxes A 0 s := by
  rw [drop_eq_map0]
  exact List.mem_map.2 ⟨k, List.mem_filter.2 ⟨List.mem_range.2 hs, by simpa using hk⟩, rfl⟩

/-- Whenever `SymDiff` succeeds the elements are the expected ones, also where only unit axes are left. -/
theorem dotDiff_sound (first : Bool) (A B s : List Nat) (other g r : T ℝ) (h : Contractible A B s other.shape)
    (hg : g.shape = cat first (dropAxes A 0 s) (dropAxes B 0 other.shape)) (hr : dotDiff first A B s other g = .ok r) :
    r.shape = s ∧ ∀ i, InB s i → r.at_ i = dotGradAt first A B other g i := by
  by_cases hgs : isScalarEquiv g.shape = false ∨ g.shape = []
  · have hc : DotCovered B other.shape g.shape := by
      rcases hgs with hgs | hgs
      · exact dotDiff_only_covered first A B s other g r h hg hgs hr
      · exact ⟨Or.inr (Or.inl hgs), fun _ _ hv => by rw [hgs] at hv; cases hv⟩
    obtain ⟨r', h1, h2, h3⟩ := dotDiff_covered first A B s other g h hg hgs hc
    rw [hr] at h1
    cases h1
    exact ⟨h2, h3⟩
  · push Not at hgs
    obtain ⟨hg1, hgn⟩ := hgs
    simp only [ne_eq, Bool.not_eq_false] at hg1
    obtain ⟨C, h1, h2, h3⟩ := dotDiff_ok h.ra hr
    rw [if_pos hg1] at h1
    have hse : shapeEq other.shape g.shape = true := by
      by_contra hse
      rw [elem_mismatch _ other g h.rb hgn (by simpa using hse)] at h1
      cases h1
    have ho : isScalarEquiv other.shape = true := by
      rcases shapeEq_cases hse with e | ⟨n, e, e' | e'⟩ | ⟨n, e, e' | e'⟩
      · rw [e]; exact hg1
      all_goals
        simp only [e, e'] at hg1 ⊢
        simpa [isScalarEquiv] using hg1
    have hCe : C = ⟨other.shape, fun i => other.at_ i * g.flat (ravel other.shape i)⟩ := by
      unfold elem at h1
      cases ei : inferElem other.shape g.shape with
      | ok t =>
        rw [ei] at h1
        simp only [Res.bind] at h1
        unfold elemVal at h1
        rw [if_neg h.rb, if_neg hgn, if_pos hse] at h1
        cases h1; rfl
      | err => rw [ei] at h1; cases h1
      | panic => rw [ei] at h1; cases h1
    have hsone : isScalarEquiv s = true := by
      unfold isScalarEquiv at ho hg1 ⊢
      simp only [List.all_eq_true, beq_iff_eq] at ho hg1 ⊢
      intro x hx
      obtain ⟨k, hk, rfl⟩ := List.getElem_of_mem hx
      by_cases hkA : k ∈ A
      · have hm : s.getD k 0 ∈ A.map (s.getD · 0) := List.mem_map.2 ⟨k, hkA, rfl⟩
        rw [h.sizes] at hm
        obtain ⟨b, hb, e⟩ := List.mem_map.1 hm
        have hb' := h.lb b hb
        rw [getD_eq _ _ hk, getD_eq _ _ hb'] at e
        rw [← e]
        exact ho _ (List.getElem_mem hb')
      · have hm := mem_of_drop A s k hk hkA
        rw [getD_eq _ _ hk] at hm
        apply hg1
        rw [hg]
        cases first <;> simp [cat, hm]
    have hlaid : C.shape = laid A B s := by
      have e1 : isScalarEquiv (laid A B s) = true := by
        unfold isScalarEquiv at hsone ⊢
        simp only [List.all_eq_true, beq_iff_eq] at hsone ⊢
        intro x hx
        unfold laid at hx
        rcases List.mem_append.1 hx with hx | hx
        · obtain ⟨b, hb, rfl⟩ := List.mem_map.1 hx
          have hb' : b ∈ B := (List.Perm.mem_iff (sortInts_perm B)).1 hb
          have hbi := List.idxOf_lt_length_iff.2 hb'
          have hl := h.len
          have hA' : A.getD (B.idxOf b) 0 ∈ A := by rw [getD_eq _ _ (by omega)]; exact List.getElem_mem _
          rw [getD_eq _ _ (h.la _ hA')]
          exact hsone _ (List.getElem_mem _)
        · rw [drop_eq_map0] at hx
          obtain ⟨k, hk, rfl⟩ := List.mem_map.1 hx
          have hk' := List.mem_range.1 (List.mem_filter.1 hk).1
          rw [getD_eq _ _ hk']
          exact hsone _ (List.getElem_mem _)
      rw [ones_eq_replicate e1, laid_length A B s h.na h.la h.len, ← h3, hCe]
      exact ones_eq_replicate ho
    obtain ⟨r', h4, h5, h6⟩ := transpose_laid A B s C h.ra h.na h.la h.nb h.len hlaid
    rw [h2] at h4
    cases h4
    refine ⟨h5, fun i hi => ?_⟩
    rw [h6 i hi]
    have hin : InB other.shape (laid A B i) := by
      have := inB_laid A B s i h.len h.la hi
      rw [← hlaid, hCe] at this; exact this
    have hzo : InB other.shape (List.replicate other.shape.length 0) := by
      have := inB_zeros other.shape.length
      rwa [← ones_eq_replicate ho] at this
    have hzi : i = List.replicate s.length 0 := by
      refine ones_unique hsone hi ?_
      have := inB_zeros s.length
      rwa [← ones_eq_replicate hsone] at this
    have hagree : ∀ j, InB other.shape j → A.map (i.getD · 0) = B.map (j.getD · 0) := by
      intro j hj
      rw [ones_unique ho hj hzo, hzi]
      have e : ∀ n k : Nat, (List.replicate n 0).getD k 0 = 0 := by
        intro n k
        rw [List.getD_eq_getElem?_getD, List.getElem?_replicate]
        split <;> rfl
      simp only [e, List.map_const', h.len]
    have hpos : ∀ j, InB other.shape j → InB g.shape (cat first (dropAxes A 0 i) (dropAxes B 0 j)) := by
      intro j hj
      rw [hg]
      exact inB_cat first (inB_drop A _ _ 0 hi) (inB_drop B _ _ 0 hj)
    have hlast : dotGradAt first A B other g i = g.at_ (cat first (dropAxes A 0 i) (dropAxes B 0 (laid A B i))) * other.at_ (laid A B i) := by
      unfold dotGradAt
      rw [← sumOver_single other.shape (laid A B i) (fun j => g.at_ (cat first (dropAxes A 0 i) (dropAxes B 0 j)) * other.at_ j) hin]
      refine sumOver_congr _ _ _ (fun j hj => ?_)
      rw [if_pos (hagree j hj), if_pos (ones_unique ho hin hj)]
    rw [hlast, hCe]
    show other.at_ (laid A B i) * g.flat (ravel other.shape (laid A B i)) = _
    have hz : ravel other.shape (laid A B i) < size g.shape := by
      have e1 : ∀ t : List Nat, isScalarEquiv t = true → size t = 1 := by
        intro t ht
        rw [ones_eq_replicate ht]
        generalize t.length = n
        induction n with
        | zero => rfl
        | succ n ih => simp [List.replicate_succ, size, ih]
      have := ravel_lt hin
      rw [e1 _ ho] at this
      rw [e1 _ hg1]; exact this
    unfold T.flat
    rw [ones_unique hg1 (inB_unravel hz) (hpos _ hin), mul_comm]

/-- **C42 (gradient, soundness).** Whatever the shapes: if `SymDiff` succeeds, its result is the gradient. -/
theorem tensordot_grad_fst_sound (A B : List Nat) (a b g r : T ℝ) (h : Contractible A B a.shape b.shape)
    (hg : g.shape = dropAxes A 0 a.shape ++ dropAxes B 0 b.shape) (hr : dotDiff true A B a.shape b g = .ok r) :
    IsGrad (fun x => tensordot A B x b) a g r := by
  obtain ⟨h2, h3⟩ := dotDiff_sound true A B a.shape b g r h hg hr
  exact contract_grad_fst A B a b g r h hg h2 h3

theorem tensordot_grad_snd_sound (A B : List Nat) (a b g r : T ℝ) (h : Contractible A B a.shape b.shape)
    (hg : g.shape = dropAxes A 0 a.shape ++ dropAxes B 0 b.shape) (hr : dotDiff false B A b.shape a g = .ok r) :
    IsGrad (fun y => tensordot A B a y) b g r := by
  obtain ⟨h2, h3⟩ := dotDiff_sound false B A b.shape a g r h.symm hg hr
  exact contract_grad_snd A B a b g r h hg h2 h3

/-! ### Refutations and examples -/

/-- **C42, refuted (1).** Contracting the unit axis of a `1×n` matrix (`n ≠ 1`) with a vector of one element is accepted, but
the gradient of the matrix cannot be built. -/
theorem tensordot_unit_vector (n : Nat) (hn : n ≠ 1) (a b g : T ℝ) (ha : a.shape = [1, n]) (hb : b.shape = [1]) (hg : g.shape = [n]) :
    (∃ r, tensordot [0] [0] a b = .ok r ∧ r.shape = g.shape) ∧ ¬ ∃ r, dotDiff true [0] [0] a.shape b g = .ok r := by
  have hc : Contractible [0] [0] a.shape b.shape := by
    rw [ha, hb]; exact ⟨by simp, by simp, rfl, by simp, by simp, by simp, by simp, by simp⟩
  have hsh : g.shape = cat true (dropAxes [0] 0 a.shape) (dropAxes [0] 0 b.shape) := by rw [ha, hb, hg]; rfl
  refine ⟨⟨_, (tensordot_ok _ _ _ _ _).2 ⟨hc, rfl⟩, by rw [hg]; show dropAxes _ 0 a.shape ++ dropAxes _ 0 b.shape = _; rw [ha, hb]; rfl⟩, ?_⟩
  rw [dotDiff_iff true [0] [0] a.shape b g hc hsh (by rw [hg]; simpa [isScalarEquiv] using hn)]
  rintro ⟨h1, -⟩
  rcases h1 with h1 | h1 | h1
  · rw [hb] at h1; cases h1
  · rw [hg] at h1; cases h1
  · cases h1.2

/-- **C42, refuted (2).** Contracting both axes of an `n×1` matrix (`n > 1`) with the first two axes of an `n×1×m` tensor is
accepted, but the gradient of that tensor cannot be built. -/
theorem tensordot_column (n m : Nat) (hn : 1 < n) (hm : m ≠ 1) (a b g : T ℝ) (ha : a.shape = [n, 1, m]) (hb : b.shape = [n, 1]) (hg : g.shape = [m]) :
    (∃ r, tensordot [0, 1] [0, 1] a b = .ok r ∧ r.shape = g.shape) ∧ ¬ ∃ r, dotDiff true [0, 1] [0, 1] a.shape b g = .ok r := by
  have hc : Contractible [0, 1] [0, 1] a.shape b.shape := by
    rw [ha, hb]; exact ⟨by simp, by simp, rfl, by simp, by simp, by simp, by simp, by simp⟩
  have hsh : g.shape = cat true (dropAxes [0, 1] 0 a.shape) (dropAxes [0, 1] 0 b.shape) := by rw [ha, hb, hg]; rfl
  refine ⟨⟨_, (tensordot_ok _ _ _ _ _).2 ⟨hc, rfl⟩, by rw [hg]; show dropAxes _ 0 a.shape ++ dropAxes _ 0 b.shape = _; rw [ha, hb]; rfl⟩, ?_⟩
  rw [dotDiff_iff true _ _ a.shape b g hc hsh (by rw [hg]; simpa [isScalarEquiv] using hm)]
  rintro ⟨-, h2⟩
  have := (h2 (by rw [hb]; rfl) (by rw [hb]; simp [isVector, hn]) (by rw [hg]; rfl)).1
  rw [hb] at this; cases this

/-- **C42, refuted (3).** Contracting the long axes of two `n×1` matrices (`n ≠ 1`) gives a `1×1` matrix; neither gradient can be
built, because the product with a scalar-equivalent gradient is formed element by element. -/
theorem tensordot_one_by_one (n : Nat) (hn : n ≠ 1) (a b g : T ℝ) (ha : a.shape = [n, 1]) (hb : b.shape = [n, 1]) (hg : g.shape = [1, 1]) :
    (∃ r, tensordot [0] [0] a b = .ok r ∧ r.shape = g.shape) ∧ dotDiff true [0] [0] a.shape b g = .err ∧
      dotDiff false [0] [0] b.shape a g = .err := by
  have hc : Contractible [0] [0] a.shape b.shape := by
    rw [ha, hb]; exact ⟨by simp, by simp, rfl, by simp, by simp, by simp, by simp, by simp⟩
  have hel : ∀ x : T ℝ, x.shape = [n, 1] → elem (· * ·) x g = .err := by
    intro x hx
    exact elem_mismatch _ x g (by rw [hx]; simp) (by rw [hg]; simp) (by rw [hx, hg]; simpa [shapeEq] using hn)
  refine ⟨⟨_, (tensordot_ok _ _ _ _ _).2 ⟨hc, rfl⟩, by rw [hg]; show dropAxes _ 0 a.shape ++ dropAxes _ 0 b.shape = _; rw [ha, hb]; rfl⟩, ?_, ?_⟩
  · unfold dotDiff
    simp only [hel b hb]
    rw [if_pos (by rw [hg]; rfl)]; rfl
  · unfold dotDiff
    simp only [hel a ha]
    rw [if_pos (by rw [hg]; rfl)]; rfl

/-- The pattern for a `2×3×4×5` operand whose axes 3 and 1 were contracted with the axes 2 and 0 of the other one. -/
example : dotPattern [3, 1] [2, 0] 4 = [2, 0, 3, 1] := by decide

/-- Axes of an example: `a` is `2×3×4×5`, `b` is `3×6×5`; the gradient of `a` exists for all elements. -/
example (a b g : T ℝ) (ha : a.shape = [2, 3, 4, 5]) (hb : b.shape = [3, 6, 5]) (hg : g.shape = [2, 4, 6]) :
    ∃ r, dotDiff true [3, 1] [2, 0] a.shape b g = .ok r ∧ IsGrad (fun x => tensordot [3, 1] [2, 0] x b) a g r :=
  tensordot_grad_fst_partial _ _ a b g
    (by rw [ha, hb]; exact ⟨by simp, by simp, rfl, by simp, by simp, by simp, by simp, by simp⟩)
    (by rw [ha, hb, hg]; rfl) (Or.inl (by rw [hg]; rfl)) ⟨Or.inl (by rw [hb]; rfl), fun h => by rw [hb] at h; cases h⟩

/-- Matrix product as a contraction. -/
example : (contract [1] [0] ⟨[2, 2], fun i => i.getD 0 0 * 2 + i.getD 1 0 + 1⟩ ⟨[2, 2], fun i => i.getD 0 0 * 2 + i.getD 1 0 + 5⟩).at_ [1, 0] = 43 := by
  simp only [contract, sumOver, size, unravel]
  simp [Finset.sum_range_succ, dropAxes]
  norm_num

end Verif.Shape
