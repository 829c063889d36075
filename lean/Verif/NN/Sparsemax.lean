import Verif.NN.Conv
import Verif.NN.MaxPool
import Mathlib.Algebra.BigOperators.Group.List.Basic
import Mathlib.Tactic.FieldSimp
import Mathlib.Tactic.Linarith
/-!
`Sparsemax` (property C36), op_sparsemax.go 1-308: the float64 kernel (the float32 one is the same text).

Simplified: the running index `it` of the loops is `i*to + j`, so the kernel works on one row after the other; here every
row is taken as a list. `sort.Slice` is any function that returns its argument in descending order. `tensor.Transpose`
(tensor library) rejects axis lists that are not permutations.
-/
set_option autoImplicit false
namespace Verif.NN
open Verif.Tensor Verif.Shape

noncomputable section

/-- The largest value of a row, op_sparsemax.go 230-242; `lo` is `-math.MaxFloat64`. -/
def rowMax (lo : ℝ) (r : List ℝ) : ℝ := r.foldl (fun m x => if x > m then x else m) lo

/-- `stableInput`, op_sparsemax.go 244-253. -/
def stableRow (lo : ℝ) (r : List ℝ) : List ℝ := r.map fun x => x - rowMax lo r

/-- The variables of the loop that finds the threshold. -/
structure Thr where
  cumSum : ℝ
  prevCum : ℝ
  maxIndex : Nat

/-- The body of that loop, op_sparsemax.go 276-288. -/
def thrStep (sorted : List ℝ) (j : Nat) (s : Thr) : Option Thr :=
  (sorted[j]?).bind fun v =>
    let k := 1 + ((j + 1 : Nat) : ℝ) * v
    let prevCum := s.prevCum + v
    if k > prevCum then some ⟨s.cumSum + v, prevCum, j + 1⟩ else some ⟨s.cumSum, prevCum, s.maxIndex⟩

/-- The threshold of a row, op_sparsemax.go 271-291. -/
def threshold (sorted : List ℝ) : Option ℝ :=
  (forN sorted.length (thrStep sorted) ⟨0, 0, 0⟩).map fun s => (s.cumSum - 1) / (s.maxIndex : ℝ)

/-- One row of the output, op_sparsemax.go 293-306. -/
def sparseRow (lo : ℝ) (sort : List ℝ → List ℝ) (r : List ℝ) : Option (List ℝ) :=
  (threshold (sort (stableRow lo r))).map fun τ =>
    (stableRow lo r).map fun v => if v - τ > 0 then v - τ else 0

/-- `float64sparseMax`, op_sparsemax.go 216-308: the rows are those of the last axis; a scalar panics. -/
def sparseData (lo : ℝ) (sort : List ℝ → List ℝ) (shape : List Nat) (l : List ℝ) : Option (List ℝ) :=
  match shape.getLast? with
  | none => none
  | some n =>
    let m := if size shape.dropLast = 0 then 1 else size shape.dropLast
    ((List.range m).mapM fun i => (slice l (i * n) (i * n + n)).bind (sparseRow lo sort)).map List.flatten

/-- The axes that `Do` passes to `tensor.Transpose`, op_sparsemax.go 88-89: zeros, with a one at `axis`. -/
def sparseAxes (dims axis : Nat) : List Nat := (List.replicate dims 0).set axis 1

/-- `sparsemaxOp.Do`, op_sparsemax.go 80-116. The result always gets the shape of the input. -/
def sparsemax (lo : ℝ) (sort : List ℝ → List ℝ) (axis : Int) (t : T ℝ) : Option (T ℝ) :=
  if axis = -1 then (sparseData lo sort t.shape (data t)).map (ofData t.shape)
  else if axis < 0 ∨ axis ≥ t.shape.length then none -- axes[op.axis]
  else
    let axes := sparseAxes t.shape.length axis.toNat
    if axes.isPerm (List.range axes.length) then
      let t' := transposeT axes t
      (sparseData lo sort t'.shape (data t')).map (ofData t.shape)
    else none

/-- What is assumed of `sort.Slice`: a descending rearrangement. -/
def Sorts (sort : List ℝ → List ℝ) : Prop := ∀ l, (sort l).Perm l ∧ (sort l).Pairwise (fun a b => b ≤ a)

/-! ### The threshold -/

theorem sum_map_range (f : ℝ → ℝ) (l : List ℝ) :
    (l.map f).sum = ∑ i ∈ Finset.range l.length, f (l.getD i 0) := by
  induction l with
  | nil => simp
  | cons a l ih =>
    rw [List.map_cons, List.sum_cons, List.length_cons, Finset.sum_range_succ', ih, add_comm]
    simp

/-- After `n` steps: `k` is the length of the prefix taken, the prefix satisfies its condition at the last element, and
nothing after it can. -/
structure ThrInv (s : Nat → ℝ) (n : Nat) (t : Thr) : Prop where
  le : t.maxIndex ≤ n
  cum : t.cumSum = ∑ i ∈ Finset.range t.maxIndex, s i
  prev : t.prevCum = ∑ i ∈ Finset.range n, s i
  last : t.maxIndex = 0 ∨ (∑ i ∈ Finset.range t.maxIndex, s i) < 1 + t.maxIndex * s (t.maxIndex - 1)
  stop : t.maxIndex < n → t.maxIndex * s t.maxIndex ≤ (∑ i ∈ Finset.range t.maxIndex, s i) - 1
  pos : 0 < n → 0 < t.maxIndex

theorem anti_sum_le (s : Nat → ℝ) (k m : Nat) (b : ℝ) (h : ∀ i, k ≤ i → i < k + m → b ≤ s i) :
    (∑ i ∈ Finset.range k, s i) + m * b ≤ ∑ i ∈ Finset.range (k + m), s i := by
  induction m with
  | zero => simp
  | succ m ih =>
    have := ih (fun i h1 h2 => h i h1 (by omega))
    rw [← Nat.add_assoc, Finset.sum_range_succ]
    have hb := h (k + m) (by omega) (by omega)
    push_cast
    linarith

theorem thr_inv (l : List ℝ) (h : l.Pairwise (fun a b => b ≤ a)) :
    ∃ t, forN l.length (thrStep l) ⟨0, 0, 0⟩ = some t ∧ ThrInv (fun i => l.getD i 0) l.length t := by
  have hanti : ∀ i j : Nat, i ≤ j → j < l.length → l.getD j 0 ≤ l.getD i 0 := by
    intro i j hij hj
    rcases Nat.lt_or_eq_of_le hij with hlt | rfl
    · have := List.pairwise_iff_getElem.1 h i j (by omega) hj hlt
      simpa [List.getD_eq_getElem?_getD, List.getElem?_eq_getElem hj, List.getElem?_eq_getElem (show i < l.length by omega)] using this
    · exact le_refl _
  refine forN_inv (ThrInv (fun i => l.getD i 0)) l.length ?_ ?_
  · intro j hj t ht
    have hv : l[j]? = some (l.getD j 0) := by
      rw [List.getD_eq_getElem?_getD, List.getElem?_eq_getElem hj]; rfl
    simp only [thrStep, hv, Option.bind_some]
    by_cases hk : t.maxIndex < j
    · -- the prefix has ended already
      have hstop := ht.stop hk
      have hsum := anti_sum_le (fun i => l.getD i 0) t.maxIndex (j - t.maxIndex) (l.getD j 0)
        (fun i _ h2 => hanti i j (by omega) hj)
      rw [show t.maxIndex + (j - t.maxIndex) = j by omega] at hsum
      have hsk := hanti t.maxIndex j (by omega) hj
      have hkk : (t.maxIndex : ℝ) * l.getD j 0 ≤ t.maxIndex * l.getD t.maxIndex 0 :=
        mul_le_mul_of_nonneg_left hsk (Nat.cast_nonneg _)
      have hcast : ((j - t.maxIndex : Nat) : ℝ) = (j : ℝ) - t.maxIndex := Nat.cast_sub (by omega)
      rw [hcast] at hsum
      rw [if_neg (by rw [ht.prev]; push_cast; simp only [not_lt, gt_iff_lt] at *; nlinarith)]
      refine ⟨_, rfl, ⟨by simp only; omega, ht.cum, ?_, ht.last, fun _ => hstop, fun _ => ht.pos (by omega)⟩⟩
      simp only; rw [Finset.sum_range_succ, ht.prev]
    · have hkj : t.maxIndex = j := by have := ht.le; omega
      by_cases hc : 1 + ((j + 1 : Nat) : ℝ) * l.getD j 0 > t.prevCum + l.getD j 0
      · rw [if_pos hc]
        refine ⟨_, rfl, ⟨le_refl _, ?_, ?_, Or.inr ?_, fun h' => absurd h' (by simp), fun _ => Nat.succ_pos _⟩⟩
        · simp only; rw [Finset.sum_range_succ, ht.cum, hkj]
        · simp only; rw [Finset.sum_range_succ, ht.prev]
        · simp only; rw [Finset.sum_range_succ, ← ht.prev]; simpa using hc
      · rw [if_neg hc]
        rw [ht.prev] at hc
        refine ⟨_, rfl, ⟨by simp only; omega, ht.cum, ?_, ht.last, fun _ => ?_, fun _ => ?_⟩⟩
        · simp only; rw [Finset.sum_range_succ, ht.prev]
        · simp only; rw [hkj]; push_cast at hc; simp only [not_lt, gt_iff_lt] at hc; nlinarith
        · simp only
          rcases Nat.eq_zero_or_pos j with h0 | h0
          · exfalso; subst h0; simp at hc
          · omega
  · exact ⟨Nat.le_refl _, by simp, by simp, Or.inl rfl, fun h' => absurd h' (by simp), fun h' => absurd h' (by simp)⟩

/-- The threshold of a descending list: cutting it off and subtracting it leaves a total of one. -/
theorem threshold_spec (l : List ℝ) (hne : l ≠ []) (h : l.Pairwise (fun a b => b ≤ a)) :
    ∃ τ, threshold l = some τ ∧ (l.map fun v => max (v - τ) 0).sum = 1 := by
  obtain ⟨t, e, ht⟩ := thr_inv l h
  have hanti : ∀ i j : Nat, i ≤ j → j < l.length → l.getD j 0 ≤ l.getD i 0 := by
    intro i j hij hj
    rcases Nat.lt_or_eq_of_le hij with hlt | rfl
    · have := List.pairwise_iff_getElem.1 h i j (by omega) hj hlt
      simpa [List.getD_eq_getElem?_getD, List.getElem?_eq_getElem hj, List.getElem?_eq_getElem (show i < l.length by omega)] using this
    · exact le_refl _
  have hlen : 0 < l.length := List.length_pos_iff.2 hne
  have hk := ht.pos hlen
  have hkR : (0 : ℝ) < t.maxIndex := Nat.cast_pos.2 hk
  refine ⟨(t.cumSum - 1) / t.maxIndex, by unfold threshold; rw [e]; rfl, ?_⟩
  generalize hτ : (t.cumSum - 1) / (t.maxIndex : ℝ) = τ
  have hτ' : (t.maxIndex : ℝ) * τ = t.cumSum - 1 := by rw [← hτ]; field_simp
  rw [sum_map_range]
  obtain ⟨m, hm⟩ : ∃ m, l.length = t.maxIndex + m := ⟨l.length - t.maxIndex, by have := ht.le; omega⟩
  rw [hm, Finset.sum_range_add]
  have h1 : ∑ i ∈ Finset.range t.maxIndex, max (l.getD i 0 - τ) 0 = 1 := by
    have : ∀ i ∈ Finset.range t.maxIndex, max (l.getD i 0 - τ) 0 = l.getD i 0 - τ := by
      intro i hi
      have hi := Finset.mem_range.1 hi
      have hl : (∑ i ∈ Finset.range t.maxIndex, l.getD i 0) < 1 + t.maxIndex * l.getD (t.maxIndex - 1) 0 := by
        rcases ht.last with h0 | h0
        · omega
        · exact h0
      have hc := ht.cum
      have hlast : τ < l.getD (t.maxIndex - 1) 0 := by
        have : (t.maxIndex : ℝ) * τ < t.maxIndex * l.getD (t.maxIndex - 1) 0 := by rw [hτ', hc]; linarith
        exact lt_of_mul_lt_mul_left this hkR.le
      have := hanti i (t.maxIndex - 1) (by omega) (by have := ht.le; omega)
      exact max_eq_left (by linarith)
    rw [Finset.sum_congr rfl this, Finset.sum_sub_distrib, Finset.sum_const, Finset.card_range, nsmul_eq_mul, hτ']
    have := ht.cum
    rw [← this]; ring
  have h2 : ∑ i ∈ Finset.range m, max (l.getD (t.maxIndex + i) 0 - τ) 0 = 0 := by
    refine Finset.sum_eq_zero fun i hi => ?_
    have hi := Finset.mem_range.1 hi
    have hs := ht.stop (by omega)
    have hle : l.getD t.maxIndex 0 ≤ τ := by
      have : (t.maxIndex : ℝ) * l.getD t.maxIndex 0 ≤ t.maxIndex * τ := by
        rw [hτ', ht.cum]; exact hs
      exact le_of_mul_le_mul_left this hkR
    have := hanti t.maxIndex (t.maxIndex + i) (by omega) (by omega)
    exact max_eq_right (by linarith)
  rw [h1, h2, add_zero]

/-! ### One row -/

/-- Every row of the output is the input row lowered by one number and cut off at zero, with total one. -/
theorem sparseRow_spec (lo : ℝ) (sort : List ℝ → List ℝ) (hsort : Sorts sort) (r : List ℝ) (hne : r ≠ []) :
    ∃ p θ, sparseRow lo sort r = some p ∧ p = r.map (fun v => max (v - θ) 0) ∧ p.sum = 1 := by
  obtain ⟨hp, hs⟩ := hsort (stableRow lo r)
  have hne' : sort (stableRow lo r) ≠ [] := by
    intro hnil
    rw [hnil] at hp
    have := hp.length_eq
    simp only [stableRow, List.length_map, List.length_nil] at this
    exact hne (List.length_eq_zero_iff.1 this.symm)
  obtain ⟨τ, e1, e2⟩ := threshold_spec _ hne' hs
  refine ⟨r.map (fun v => max (v - (rowMax lo r + τ)) 0), rowMax lo r + τ, ?_, rfl, ?_⟩
  · unfold sparseRow
    rw [e1, Option.map_some]
    congr 1
    rw [stableRow, List.map_map]
    refine List.map_congr_left fun v _ => ?_
    simp only [Function.comp_apply]
    rw [show v - (rowMax lo r + τ) = v - rowMax lo r - τ by ring]
    by_cases h : v - rowMax lo r - τ > 0
    · rw [if_pos h, max_eq_left (le_of_lt h)]
    · rw [if_neg h, max_eq_right (not_lt.1 h)]
  · rw [((hp.map _).sum_eq)] at e2
    rw [← e2, stableRow, List.map_map]
    congr 1
    refine List.map_congr_left fun v _ => ?_
    simp only [Function.comp_apply]
    congr 1; ring

/-- A point of the probability simplex with `n` coordinates. -/
def Simplex (n : Nat) (q : List ℝ) : Prop := q.length = n ∧ (∀ x ∈ q, 0 ≤ x) ∧ q.sum = 1

/-- The squared distance of two rows. -/
def dist2 (a b : List ℝ) : ℝ := ∑ i ∈ Finset.range a.length, (a.getD i 0 - b.getD i 0) ^ 2

theorem sum_range_id (l : List ℝ) : l.sum = ∑ i ∈ Finset.range l.length, l.getD i 0 := by
  have := sum_map_range id l
  simpa using this

theorem map_getD (f : ℝ → ℝ) (l : List ℝ) {i : Nat} (hi : i < l.length) : (l.map f).getD i 0 = f (l.getD i 0) := by
  simp [List.getD_eq_getElem?_getD, hi]

/-- Lowering by `θ` and cutting off at zero, with total one, is closest to the row, and by how much. -/
theorem cutoff_closest (r : List ℝ) (θ : ℝ) (h1 : (r.map fun v => max (v - θ) 0).sum = 1) (q : List ℝ)
    (hq : Simplex r.length q) :
    dist2 r (r.map fun v => max (v - θ) 0) + dist2 q (r.map fun v => max (v - θ) 0) ≤ dist2 r q := by
  obtain ⟨q1, q2, q3⟩ := hq
  unfold dist2
  rw [q1, ← Finset.sum_add_distrib]
  have hz : ∑ i ∈ Finset.range r.length, (q.getD i 0 - (r.map fun v => max (v - θ) 0).getD i 0) = 0 := by
    rw [Finset.sum_sub_distrib]
    have a := sum_range_id q
    have b := sum_range_id (r.map fun v => max (v - θ) 0)
    rw [q1] at a
    rw [List.length_map] at b
    rw [← a, ← b, q3, h1, sub_self]
  have hle : ∀ i ∈ Finset.range r.length,
      (r.getD i 0 - (r.map fun v => max (v - θ) 0).getD i 0) ^ 2 + (q.getD i 0 - (r.map fun v => max (v - θ) 0).getD i 0) ^ 2 ≤
      (r.getD i 0 - q.getD i 0) ^ 2 + 2 * θ * (q.getD i 0 - (r.map fun v => max (v - θ) 0).getD i 0) := by
    intro i hi
    have hi := Finset.mem_range.1 hi
    rw [map_getD _ _ hi]
    have hqi : 0 ≤ q.getD i 0 := by
      rw [List.getD_eq_getElem?_getD, List.getElem?_eq_getElem (by rw [q1]; exact hi)]
      exact q2 _ (List.getElem_mem _)
    rcases le_total (r.getD i 0 - θ) 0 with h | h
    · rw [max_eq_right h]; nlinarith
    · rw [max_eq_left h]; nlinarith
  refine (Finset.sum_le_sum hle).trans ?_
  rw [Finset.sum_add_distrib, ← Finset.mul_sum, hz, mul_zero, add_zero]

theorem dist2_eq_zero {a b : List ℝ} (hl : a.length = b.length) (h : dist2 a b ≤ 0) : a = b := by
  unfold dist2 at h
  have h0 : ∑ i ∈ Finset.range a.length, (a.getD i 0 - b.getD i 0) ^ 2 = 0 :=
    le_antisymm h (Finset.sum_nonneg fun _ _ => sq_nonneg _)
  rw [Finset.sum_eq_zero_iff_of_nonneg (fun _ _ => sq_nonneg _)] at h0
  refine List.ext_getElem hl fun i h1 h2 => ?_
  have := pow_eq_zero_iff (two_ne_zero) |>.1 (h0 i (Finset.mem_range.2 h1))
  simpa [List.getD_eq_getElem?_getD, h1, h2, sub_eq_zero] using this

theorem dist2_nonneg (a b : List ℝ) : 0 ≤ dist2 a b := Finset.sum_nonneg fun _ _ => sq_nonneg _

/-- **C36.** Every row of the output is a point of the simplex; it is closer to the input row than any other point of the
simplex; and larger inputs get outputs at least as large, so that the support consists of largest inputs (equal inputs
get equal outputs). -/
theorem sparsemax_projection (lo : ℝ) (sort : List ℝ → List ℝ) (hsort : Sorts sort) (r : List ℝ) (hne : r ≠ []) :
    ∃ p, sparseRow lo sort r = some p ∧ Simplex r.length p ∧
      (∀ q, Simplex r.length q → dist2 r p ≤ dist2 r q ∧ (dist2 r q ≤ dist2 r p → q = p)) ∧
      (∀ i j : Nat, i < r.length → j < r.length → r.getD i 0 ≤ r.getD j 0 → p.getD i 0 ≤ p.getD j 0) ∧
      (∀ i j : Nat, i < r.length → j < r.length → 0 < p.getD i 0 → p.getD j 0 = 0 → r.getD j 0 < r.getD i 0) := by
  obtain ⟨p, θ, e1, e2, e3⟩ := sparseRow_spec lo sort hsort r hne
  subst e2
  refine ⟨_, e1, ⟨by simp, ?_, e3⟩, fun q hq => ?_, ?_, ?_⟩
  · intro x hx
    obtain ⟨v, _, rfl⟩ := List.mem_map.1 hx
    exact le_max_right _ _
  · have := cutoff_closest r θ e3 q hq
    have h0 := dist2_nonneg q (r.map fun v => max (v - θ) 0)
    exact ⟨by linarith, fun h => dist2_eq_zero (by rw [hq.1, List.length_map]) (by linarith)⟩
  · intro i j hi hj hij
    rw [map_getD _ _ hi, map_getD _ _ hj]
    exact max_le_max (by linarith) le_rfl
  · intro i j hi hj h1 h2
    rw [map_getD _ _ hi] at h1
    rw [map_getD _ _ hj] at h2
    have a : r.getD j 0 - θ ≤ 0 := by
      have := le_max_left (r.getD j 0 - θ) 0; rw [h2] at this; exact this
    have b : 0 < r.getD i 0 - θ := by
      rcases lt_max_iff.1 h1 with h | h
      · exact h
      · exact absurd h (lt_irrefl _)
    linarith

/-! ### Whole tensors -/

/-- Row `i` of a tensor whose last axis has length `n`. -/
def rowOf (n : Nat) (t : T ℝ) (i : Nat) : List ℝ := (List.range n).map fun j => t.flat (i * n + j)

theorem mapM_some {α β : Type} (f : α → Option β) (g : α → β) (l : List α) (h : ∀ x ∈ l, f x = some (g x)) :
    l.mapM f = some (l.map g) := by
  induction l with
  | nil => rfl
  | cons a l ih =>
    rw [List.mapM_cons, h a (by simp), ih fun x hx => h x (by simp [hx])]
    rfl

theorem flatten_getD (n : Nat) (L : List (List ℝ)) (hL : ∀ x ∈ L, x.length = n) (i j : Nat) (hi : i < L.length) (hj : j < n) :
    L.flatten.getD (i * n + j) 0 = (L.getD i []).getD j 0 := by
  induction L generalizing i with
  | nil => simp at hi
  | cons a L ih =>
    have ha := hL a (by simp)
    cases i with
    | zero =>
      rw [List.flatten_cons, Nat.zero_mul, Nat.zero_add, List.getD_cons_zero, List.getD_eq_getElem?_getD,
        List.getElem?_append_left (by omega), List.getD_eq_getElem?_getD]
    | succ i =>
      rw [List.flatten_cons, List.getD_cons_succ, List.getD_eq_getElem?_getD,
        List.getElem?_append_right (by rw [ha, Nat.succ_mul]; omega), ← List.getD_eq_getElem?_getD]
      rw [show (i + 1) * n + j - a.length = i * n + j by rw [ha, Nat.succ_mul]; omega]
      exact ih (fun x hx => hL x (by simp [hx])) i (by simpa using hi)

theorem slice_row (t : T ℝ) (m n i : Nat) (hs : size t.shape = m * n) (hi : i < m) :
    slice (data t) (i * n) (i * n + n) = some (rowOf n t i) := by
  have hle : i * n + n ≤ m * n := by rw [← Nat.succ_mul]; exact Nat.mul_le_mul_right _ hi
  unfold slice
  rw [if_pos ⟨by omega, by rw [data_length, hs]; exact hle⟩]
  congr 1
  rw [Nat.add_sub_cancel_left]
  refine List.ext_getElem? fun j => ?_
  rw [List.getElem?_take, List.getElem?_drop]
  by_cases hj : j < n
  · rw [if_pos hj, rowOf, data, List.getElem?_map, List.getElem?_map, List.getElem?_range hj,
      List.getElem?_range (by rw [hs]; omega)]
    rfl
  · rw [if_neg hj, rowOf, List.getElem?_map, List.getElem?_eq_none (by simp; omega)]
    rfl

/-- The kernel, for tensors with at least one row and rows of at least one element. -/
theorem sparseData_spec (lo : ℝ) (sort : List ℝ → List ℝ) (hsort : Sorts sort) (t : T ℝ) (s : List Nat) (n : Nat)
    (hsh : t.shape = s ++ [n]) (hm : 0 < size s) (hn : 0 < n) (hz : size t.shape = size s * n) :
    ∃ l, sparseData lo sort t.shape (data t) = some l ∧ l.length = size t.shape ∧
      ∀ i < size s, ∃ p, sparseRow lo sort (rowOf n t i) = some p ∧ p.length = n ∧
        ∀ j < n, l.getD (i * n + j) 0 = p.getD j 0 := by
  have hrow : ∀ i, ∃ p, sparseRow lo sort (rowOf n t i) = some p ∧ p.length = n := by
    intro i
    obtain ⟨p, e1, e2, _⟩ := sparsemax_projection lo sort hsort (rowOf n t i) (by
      intro h; have := congrArg List.length h; simp [rowOf] at this; omega)
    exact ⟨p, e1, by rw [e2.1]; simp [rowOf]⟩
  choose P hP hPl using hrow
  have hmap : (List.range (size s)).mapM (fun i => (slice (data t) (i * n) (i * n + n)).bind (sparseRow lo sort)) =
      some ((List.range (size s)).map P) := by
    refine mapM_some _ _ _ fun i hi => ?_
    rw [slice_row t (size s) n i hz (List.mem_range.1 hi), Option.bind_some, hP]
  refine ⟨((List.range (size s)).map P).flatten, ?_, ?_, ?_⟩
  · unfold sparseData
    rw [hsh]
    simp only [List.getLast?_append, List.getLast?_singleton, Option.some_or, List.dropLast_concat]
    rw [if_neg (by omega), hmap]
    rfl
  · rw [List.length_flatten, List.map_map]
    have : (List.length ∘ P) = fun _ => n := by funext i; exact hPl i
    rw [this, List.map_const', List.sum_replicate, List.length_range, smul_eq_mul, hz]
  · intro i hi
    refine ⟨P i, hP i, hPl i, fun j hj => ?_⟩
    rw [flatten_getD n _ (by
      intro x hx; obtain ⟨k, _, rfl⟩ := List.mem_map.1 hx; exact hPl k) i j (by simpa using hi) hj]
    congr 1
    simp [List.getD_eq_getElem?_getD, hi]

theorem size_concat (s : List Nat) (n : Nat) : size (s ++ [n]) = size s * n := by
  induction s with
  | nil => simp [size]
  | cons a s ih => simp only [List.cons_append, size, ih]; ring

/-- **C36 (tensors).** `Sparsemax(x)` on a tensor of shape `s ++ [n]`, none of the sizes zero: the result has the shape of the
input, and each of its rows along the last axis is the projection of the corresponding row of the input on the simplex. -/
theorem sparsemax_exact (lo : ℝ) (sort : List ℝ → List ℝ) (hsort : Sorts sort) (t : T ℝ) (s : List Nat) (n : Nat)
    (hsh : t.shape = s ++ [n]) (hm : 0 < size s) (hn : 0 < n) :
    ∃ out, sparsemax lo sort (-1) t = some out ∧ out.shape = t.shape ∧
      ∀ i < size s, Simplex n (rowOf n out i) ∧
        (∀ q, Simplex n q → dist2 (rowOf n t i) (rowOf n out i) ≤ dist2 (rowOf n t i) q ∧
          (dist2 (rowOf n t i) q ≤ dist2 (rowOf n t i) (rowOf n out i) → q = rowOf n out i)) := by
  have hz : size t.shape = size s * n := by rw [hsh, size_concat]
  obtain ⟨l, e1, e2, e3⟩ := sparseData_spec lo sort hsort t s n hsh hm hn hz
  refine ⟨ofData t.shape l, by unfold sparsemax; rw [if_pos rfl, e1]; rfl, rfl, fun i hi => ?_⟩
  obtain ⟨p, f1, f2, f3⟩ := e3 i hi
  have hrow : rowOf n (ofData t.shape l) i = p := by
    refine List.ext_getElem (by simp [rowOf, f2]) fun j h1 h2 => ?_
    have hj : j < n := by simpa [rowOf] using h1
    have hk : i * n + j < size t.shape := by rw [hz]; exact cell_lt hi hj
    simp only [rowOf, List.getElem_map, List.getElem_range]
    rw [ofData, ofFlat_flat _ _ _ hk, f3 j hj, List.getD_eq_getElem?_getD, List.getElem?_eq_getElem h2]
    rfl
  obtain ⟨p', g1, g2, g3, _⟩ := sparsemax_projection lo sort hsort (rowOf n t i) (by
      intro h; have := congrArg List.length h; simp [rowOf] at this; omega)
  rw [f1] at g1
  cases g1
  rw [show (rowOf n t i).length = n by simp [rowOf]] at g2 g3
  rw [hrow]
  exact ⟨g2, g3⟩

/-! ### The axis argument -/

/-- With an axis other than the default, tensors of rank other than two are always rejected. -/
theorem sparsemax_axis_rejects (lo : ℝ) (sort : List ℝ → List ℝ) (axis : Int) (ha : axis ≠ -1) (t : T ℝ)
    (hr : t.shape.length ≠ 2) : sparsemax lo sort axis t = none := by
  unfold sparsemax
  rw [if_neg ha]
  by_cases hb : axis < 0 ∨ axis ≥ t.shape.length
  · rw [if_pos hb]
  · rw [if_neg hb]
    simp only
    rw [if_neg]
    intro hp
    have hp := List.isPerm_iff.1 hp
    obtain ⟨a, rfl⟩ : ∃ a : Nat, axis = a := ⟨axis.toNat, by omega⟩
    simp only [Int.toNat_natCast, sparseAxes] at hp
    generalize hd : t.shape.length = d at *
    have ha' : a < d := by omega
    rw [List.length_set, List.length_replicate] at hp
    match d, hr, ha', hp with
    | 1, _, h, hp =>
      have : a = 0 := by omega
      subst this
      have := hp.mem_iff (a := 1)
      simp at this
    | d + 3, _, h, hp =>
      have hnd : ((List.replicate (d + 3) 0).set a 1).Nodup := hp.nodup_iff.2 List.nodup_range
      have hget : ∀ k, k < d + 3 → k ≠ a → ((List.replicate (d + 3) 0).set a 1)[k]? = some 0 := by
        intro k hk hka
        rw [List.getElem?_set_ne (fun e => hka e.symm), List.getElem?_replicate, if_pos hk]
      obtain ⟨x, y, hxy, hx, hy, hxa, hya⟩ : ∃ x y : Nat, x ≠ y ∧ x < d + 3 ∧ y < d + 3 ∧ x ≠ a ∧ y ≠ a := by
        rcases Nat.lt_trichotomy a 1 with h1 | h1 | h1
        · exact ⟨1, 2, by omega, by omega, by omega, by omega, by omega⟩
        · exact ⟨0, 2, by omega, by omega, by omega, by omega, by omega⟩
        · exact ⟨0, 1, by omega, by omega, by omega, by omega, by omega⟩
      refine hxy (hnd.getElem_inj_iff (hi := by simpa using hx) (hj := by simpa using hy) |>.1 ?_)
      have h1 := hget x hx hxa
      have h2 := hget y hy hya
      rw [List.getElem?_eq_getElem (by simpa using hx)] at h1
      rw [List.getElem?_eq_getElem (by simpa using hy)] at h2
      rw [Option.some.inj h1, Option.some.inj h2]

/-- **C53 (defect).** Along axis 0 of a matrix the columns are projected, but the result is laid out as the transposed matrix
and labelled with the shape of the input: entry `k` of the result, in row-major order, is entry `k` of the transposed matrix
of projected columns. -/
theorem sparsemax_axis0 (lo : ℝ) (sort : List ℝ → List ℝ) (hsort : Sorts sort) (t : T ℝ) (a b : Nat) (hsh : t.shape = [a, b])
    (ha : 0 < a) (hb : 0 < b) :
    ∃ out, sparsemax lo sort 0 t = some out ∧ out.shape = [a, b] ∧
      ∀ c < b, ∃ p, sparseRow lo sort ((List.range a).map fun k => t.at_ [k, c]) = some p ∧
        ∀ k < a, out.flat (c * a + k) = p.getD k 0 := by
  have hax : sparseAxes 2 0 = [1, 0] := rfl
  have hsh' : (transposeT [1, 0] t).shape = [b, a] := by simp [transposeT, permute, hsh]
  obtain ⟨l, e1, e2, e3⟩ := sparseData_spec lo sort hsort (transposeT [1, 0] t) [b] a (by rw [hsh']; rfl)
    (by simpa [size] using hb) ha (by rw [hsh']; simp [size])
  refine ⟨ofData t.shape l, ?_, hsh, fun c hc => ?_⟩
  · unfold sparsemax
    rw [if_neg (by decide), if_neg (by rw [hsh]; simp)]
    simp only [Int.toNat_zero]
    rw [hsh]
    simp only [List.length_cons, List.length_nil, Nat.zero_add, Nat.reduceAdd]
    rw [hax, if_pos (by decide), e1]
    rfl
  · obtain ⟨p, f1, f2, f3⟩ := e3 c (by simpa [size] using hc)
    refine ⟨p, ?_, fun k hk => ?_⟩
    · rw [← f1]
      congr 1
      refine List.map_congr_left fun k hk => ?_
      have hk := List.mem_range.1 hk
      have : c * a + k = ravel [b, a] [c, k] := by simp [ravel, size]
      rw [this]
      have hfl := flat_ravel (transposeT [1, 0] t) (i := [c, k]) (by rw [hsh']; exact ⟨hc, hk, trivial⟩)
      rw [hsh'] at hfl
      rw [hfl]
      simp [transposeT, scatter, List.range_succ, List.idxOf, List.findIdx, List.findIdx.go]
    · rw [ofData, ofFlat_flat _ _ _ (by rw [hsh]; simp only [size, Nat.mul_one]; rw [Nat.mul_comm a b]; exact cell_lt hc hk)]
      exact f3 k hk

/-- **C53 (refutation).** For the matrix ((0, 10), (0, 0)) and axis 0 the first column of the result sums to 3/2. -/
theorem sparsemax_axis0_wrong (lo : ℝ) (sort : List ℝ → List ℝ) (hsort : Sorts sort) :
    ∃ out, sparsemax lo sort 0 (ofData [2, 2] [0, 10, 0, 0]) = some out ∧ out.flat 0 + out.flat 2 = 3 / 2 := by
  obtain ⟨out, e1, _, e3⟩ := sparsemax_axis0 lo sort hsort (ofData [2, 2] [0, 10, 0, 0]) 2 2 rfl (by decide) (by decide)
  refine ⟨out, e1, ?_⟩
  obtain ⟨p, f1, f2⟩ := e3 0 (by decide)
  obtain ⟨p', g1, g2⟩ := e3 1 (by decide)
  have col0 : ((List.range 2).map fun k => (ofData [2, 2] ([0, 10, 0, 0] : List ℝ)).at_ [k, 0]) = [0, 0] := by
    simp [ofData, ofFlat, ravel, size, List.range_succ]
  have col1 : ((List.range 2).map fun k => (ofData [2, 2] ([0, 10, 0, 0] : List ℝ)).at_ [k, 1]) = [10, 0] := by
    simp [ofData, ofFlat, ravel, size, List.range_succ]
  rw [col0] at f1
  rw [col1] at g1
  obtain ⟨q, θ, h1, h2, h3⟩ := sparseRow_spec lo sort hsort [0, 0] (by simp)
  obtain ⟨q', θ', h1', h2', h3'⟩ := sparseRow_spec lo sort hsort [10, 0] (by simp)
  rw [f1] at h1; cases h1
  rw [g1] at h1'; cases h1'
  have a := f2 0 (by decide)
  have b := g2 0 (by decide)
  simp only [Nat.zero_mul, Nat.zero_add, Nat.one_mul, Nat.add_zero] at a b
  rw [a, b, h2, h2']
  rw [h2] at h3
  rw [h2'] at h3'
  simp only [List.map_cons, List.map_nil, List.sum_cons, List.sum_nil, add_zero, List.getD_cons_zero] at h3 h3' ⊢
  have : max (10 - θ') 0 = 1 := by
    rcases le_total (10 - θ') 0 with h | h
    · rw [max_eq_right h, max_eq_right (by linarith)] at h3'; norm_num at h3'
    · rcases le_total (0 - θ') 0 with h' | h'
      · rw [max_eq_right h'] at h3'; linarith
      · rw [max_eq_left h, max_eq_left h'] at h3'; linarith
  rw [this]
  linarith

end

end Verif.NN
