import Verif.NN.Sparsemax
import Verif.NN.MaxPoolGrad
/-!
The gradient of `Sparsemax` (property C54): `sparsemaxDiffOp.Do`, op_sparsemax.go 450-512, and `sparsemaxOp.DoDiff`, 311-341.

The tensor library is assumed to reject `Sum(·, 1)` on vectors and to reject subtracting tensors of different shapes.
-/
set_option autoImplicit false
namespace Verif.NN
open Verif.Tensor Verif.Shape

noncomputable section

/-- `nonZeros`, op_sparsemax.go 468: one where the output is not zero. -/
def nonZero (x : ℝ) : ℝ := if x ≠ 0 then 1 else 0

/-- One row of the gradient, op_sparsemax.go 473-509. -/
def sparseDiffRow (out g : List ℝ) : List ℝ :=
  let a := ∑ i ∈ Finset.range out.length, nonZero (out.getD i 0) * g.getD i 0
  let b := ∑ i ∈ Finset.range out.length, nonZero (out.getD i 0)
  (List.range out.length).map fun i => nonZero (out.getD i 0) * (g.getD i 0 - a / b)

/-- `sparsemaxDiffOp.Do`, op_sparsemax.go 450-512, for an output and a gradient of the same shape: the sums are along axis 1
and are repeated along it for matrices only. -/
def sparsemaxDiff (out g : T ℝ) : Option (T ℝ) :=
  match out.shape with
  | [_, n] =>
    if g.shape = out.shape then
      some ⟨out.shape, fun ix => (sparseDiffRow (rowOf n out (ix.getD 0 0)) (rowOf n g (ix.getD 0 0))).getD (ix.getD 1 0) 0⟩
    else none
  | _ => none

/-- The first check of `sparsemaxOp.DoDiff`, op_sparsemax.go 312-314, on the number of inputs of the node. -/
def sparseDoDiffAccepts (inputs : Nat) : Bool := inputs == 2

/-- `sparsemaxOp.Arity`, op_sparsemax.go 38-40. -/
def sparseArity : Nat := 1

theorem nonZero_cut (v θ : ℝ) : nonZero (max (v - θ) 0) = if θ < v then 1 else 0 := by
  unfold nonZero
  by_cases h : θ < v
  · rw [if_pos h, max_eq_left (by linarith), if_pos (by linarith [sub_pos.2 h] : v - θ ≠ 0)]
  · rw [if_neg h, max_eq_right (by linarith)]; simp

/-- The threshold is the only number that leaves a total of one. -/
theorem sparseRow_of_cut (lo : ℝ) (sort : List ℝ → List ℝ) (hsort : Sorts sort) (r : List ℝ) (hne : r ≠ []) (θ : ℝ)
    (h : (r.map fun v => max (v - θ) 0).sum = 1) : sparseRow lo sort r = some (r.map fun v => max (v - θ) 0) := by
  obtain ⟨p, e1, e2, e3, _⟩ := sparsemax_projection lo sort hsort r hne
  have hs : Simplex r.length (r.map fun v => max (v - θ) 0) :=
    ⟨by simp, by intro x hx; obtain ⟨v, _, rfl⟩ := List.mem_map.1 hx; exact le_max_right _ _, h⟩
  have := cutoff_closest r θ h p e2
  have h0 := dist2_nonneg p (r.map fun v => max (v - θ) 0)
  rw [e1, (e3 _ hs).2 (by linarith)]

theorem sum_filter_ite (n : Nat) (P : Nat → Prop) [DecidablePred P] (f : Nat → ℝ) :
    ∑ i ∈ (Finset.range n).filter P, f i = ∑ i ∈ Finset.range n, if P i then f i else 0 := Finset.sum_filter _ _

/-- **C54.** Where no input equals the threshold, the gradient operation of `Sparsemax` computes the derivative: for every
direction `d` and all output gradients `g`, the weighted sum of the outputs, as a function of the step along `d`, has at 0
the derivative that the operation gives. -/
theorem sparsemax_derivative (lo : ℝ) (sort : List ℝ → List ℝ) (hsort : Sorts sort) (r g d : List ℝ) (hne : r ≠ [])
    (hgen : ∀ θ, (r.map fun v => max (v - θ) 0).sum = 1 → ∀ v ∈ r, v ≠ θ) :
    ∃ p, sparseRow lo sort r = some p ∧ (sparseDiffRow p g).length = r.length ∧
      HasDerivAt (fun t => ∑ i ∈ Finset.range r.length,
          g.getD i 0 * ((sparseRow lo sort (moved r d t)).getD []).getD i 0)
        (∑ i ∈ Finset.range r.length, (sparseDiffRow p g).getD i 0 * d.getD i 0) 0 := by
  classical
  obtain ⟨p, θ, e1, e2, e3⟩ := sparseRow_spec lo sort hsort r hne
  subst e2
  refine ⟨_, e1, by simp [sparseDiffRow], ?_⟩
  set n := r.length with hn
  set S : Nat → Prop := fun i => θ < r.getD i 0 with hS
  set k : ℝ := ∑ i ∈ Finset.range n, if S i then 1 else 0 with hk
  set D : ℝ := (∑ i ∈ Finset.range n, if S i then d.getD i 0 else 0) / k with hD
  have htot : (∑ i ∈ Finset.range n, if S i then r.getD i 0 - θ else 0) = 1 := by
    rw [← e3, sum_map_range]
    refine Finset.sum_congr rfl fun i _ => ?_
    by_cases h : S i
    · rw [if_pos h, max_eq_left (by simp only [hS] at h; linarith)]
    · rw [if_neg h, max_eq_right (by simp only [hS] at h; linarith)]
  have hkpos : 0 < k := by
    by_contra hc
    have hnone : ∀ i ∈ Finset.range n, ¬ S i := by
      intro i hi hSi
      apply hc
      rw [hk]
      refine Finset.sum_pos' (fun j _ => by split <;> norm_num) ⟨i, hi, by rw [if_pos hSi]; norm_num⟩
    rw [Finset.sum_eq_zero fun i hi => if_neg (hnone i hi)] at htot
    norm_num at htot
  have hkD : k * D = ∑ i ∈ Finset.range n, if S i then d.getD i 0 else 0 := by rw [hD]; field_simp
  -- near 0 the same inputs stay above the moved threshold
  have hev : ∀ᶠ t : ℝ in nhds 0, ∀ i ∈ Finset.range n,
      (S i → 0 < r.getD i 0 + t * d.getD i 0 - (θ + t * D)) ∧ (¬ S i → r.getD i 0 + t * d.getD i 0 - (θ + t * D) < 0) := by
    rw [Filter.eventually_all_finset]
    intro i hi
    have hi := Finset.mem_range.1 hi
    by_cases h : S i
    · have h' : 0 < r.getD i 0 - θ := by simp only [hS] at h; linarith
      filter_upwards [eventually_pos (e := d.getD i 0 - D) h'] with t ht
      exact ⟨fun _ => by nlinarith, fun hn => absurd h hn⟩
    · have hne' : r.getD i 0 ≠ θ := by
        have hm : r.getD i 0 ∈ r := by
          rw [List.getD_eq_getElem?_getD, List.getElem?_eq_getElem (by rw [← hn]; exact hi)]
          exact List.getElem_mem _
        exact hgen θ e3 _ hm
      have h' : 0 < θ - r.getD i 0 := by
        simp only [hS, not_lt] at h
        exact sub_pos.2 (lt_of_le_of_ne h hne')
      filter_upwards [eventually_pos (e := D - d.getD i 0) h'] with t ht
      exact ⟨fun hs => absurd hs h, fun _ => by nlinarith⟩
  have hval : ∀ᶠ t : ℝ in nhds 0, (∑ i ∈ Finset.range n, g.getD i 0 * ((sparseRow lo sort (moved r d t)).getD []).getD i 0) =
      ∑ i ∈ Finset.range n, g.getD i 0 * (if S i then (r.getD i 0 - θ) + t * (d.getD i 0 - D) else 0) := by
    filter_upwards [hev] with t ht
    have hcut : ∀ i ∈ Finset.range n, max ((moved r d t).getD i 0 - (θ + t * D)) 0 =
        if S i then (r.getD i 0 - θ) + t * (d.getD i 0 - D) else 0 := by
      intro i hi
      rw [moved_getD r d t (Finset.mem_range.1 hi)]
      by_cases h : S i
      · rw [if_pos h, max_eq_left ((ht i hi).1 h).le]; ring
      · rw [if_neg h, max_eq_right ((ht i hi).2 h).le]
    have hsum : ((moved r d t).map fun v => max (v - (θ + t * D)) 0).sum = 1 := by
      rw [sum_map_range, moved_length, ← hn, Finset.sum_congr rfl hcut]
      have : ∀ i ∈ Finset.range n, (if S i then (r.getD i 0 - θ) + t * (d.getD i 0 - D) else 0) =
          (if S i then r.getD i 0 - θ else 0) + t * ((if S i then d.getD i 0 else 0) - D * (if S i then 1 else 0)) := by
        intro i _; by_cases h : S i <;> simp [h]
      rw [Finset.sum_congr rfl this, Finset.sum_add_distrib, htot, ← Finset.mul_sum, Finset.sum_sub_distrib, ← Finset.mul_sum,
        ← hk, ← hkD]
      ring
    have hrow := sparseRow_of_cut lo sort hsort (moved r d t) (by
      intro h; have := congrArg List.length h; rw [moved_length] at this
      exact hne (List.length_eq_zero_iff.1 this)) (θ + t * D) hsum
    rw [hrow, Option.getD_some]
    refine Finset.sum_congr rfl fun i hi => ?_
    rw [map_getD _ _ (by rw [moved_length]; exact Finset.mem_range.1 hi), hcut i hi]
  have hder : HasDerivAt (fun t : ℝ => ∑ i ∈ Finset.range n, g.getD i 0 * (if S i then (r.getD i 0 - θ) + t * (d.getD i 0 - D) else 0))
      (∑ i ∈ Finset.range n, g.getD i 0 * (if S i then d.getD i 0 - D else 0)) 0 := by
    apply HasDerivAt.fun_sum
    intro i _
    by_cases h : S i
    · simp only [if_pos h]
      have := (((hasDerivAt_id (0 : ℝ)).mul_const (d.getD i 0 - D)).const_add (r.getD i 0 - θ)).const_mul (g.getD i 0)
      simpa using this
    · simp only [if_neg h, mul_zero]
      exact hasDerivAt_const _ _
  have hgrad : (∑ i ∈ Finset.range n, (sparseDiffRow (r.map fun v => max (v - θ) 0) g).getD i 0 * d.getD i 0) =
      ∑ i ∈ Finset.range n, g.getD i 0 * (if S i then d.getD i 0 - D else 0) := by
    have hnz : ∀ i ∈ Finset.range n, nonZero ((r.map fun v => max (v - θ) 0).getD i 0) = if S i then 1 else 0 := by
      intro i hi
      rw [map_getD _ _ (Finset.mem_range.1 hi), nonZero_cut]
    set A : ℝ := ∑ i ∈ Finset.range n, (if S i then 1 else 0) * g.getD i 0 with hA
    have hent : ∀ i ∈ Finset.range n, (sparseDiffRow (r.map fun v => max (v - θ) 0) g).getD i 0 =
        (if S i then 1 else 0) * (g.getD i 0 - A / k) := by
      intro i hi
      have hi' := Finset.mem_range.1 hi
      unfold sparseDiffRow
      simp only [List.length_map, ← hn]
      rw [List.getD_eq_getElem?_getD, List.getElem?_map, List.getElem?_range hi', Option.map_some, Option.getD_some, hnz i hi,
        Finset.sum_congr rfl hnz, Finset.sum_congr rfl fun j hj => by rw [hnz j hj]]
    rw [Finset.sum_congr rfl fun i hi => by rw [hent i hi]]
    have h1 : ∀ i ∈ Finset.range n, (if S i then (1 : ℝ) else 0) * (g.getD i 0 - A / k) * d.getD i 0 =
        (if S i then 1 else 0) * g.getD i 0 * d.getD i 0 - A / k * (if S i then d.getD i 0 else 0) := by
      intro i _; by_cases h : S i <;> simp [h]; ring
    have h2 : ∀ i ∈ Finset.range n, g.getD i 0 * (if S i then d.getD i 0 - D else 0) =
        (if S i then 1 else 0) * g.getD i 0 * d.getD i 0 - D * ((if S i then 1 else 0) * g.getD i 0) := by
      intro i _; by_cases h : S i <;> simp [h]; ring
    rw [Finset.sum_congr rfl h1, Finset.sum_congr rfl h2, Finset.sum_sub_distrib, Finset.sum_sub_distrib, ← Finset.mul_sum,
      ← Finset.mul_sum, ← hkD, ← hA]
    field_simp
  rw [hgrad]
  exact hder.congr_of_eventuallyEq hval

/-- **C54 (tensors).** The gradient operation works for matrices, row by row, and for no other rank. -/
theorem sparsemaxDiff_rows (out g : T ℝ) (m n : Nat) (ho : out.shape = [m, n]) (hg : g.shape = [m, n]) :
    ∃ dx, sparsemaxDiff out g = some dx ∧ dx.shape = [m, n] ∧
      ∀ i j, i < m → j < n → dx.at_ [i, j] = (sparseDiffRow (rowOf n out i) (rowOf n g i)).getD j 0 := by
  unfold sparsemaxDiff
  rw [ho]
  simp only
  rw [if_pos hg]
  exact ⟨_, rfl, rfl, fun i j _ _ => rfl⟩

/-- **C54 (defect).** Sparsemax of a vector, or of a tensor of rank three and more, is computed, but its gradient fails. -/
theorem sparsemaxDiff_rank (out g : T ℝ) (h : out.shape.length ≠ 2) : sparsemaxDiff out g = none := by
  unfold sparsemaxDiff
  match hs : out.shape, h with
  | [], _ => rfl
  | [_], _ => rfl
  | [_, _], h => simp at h
  | _ :: _ :: _ :: _, _ => rfl

/-- **C54 (defect).** The define-by-run gradient asks for two inputs, but a sparsemax node has one: it always fails. -/
theorem sparsemax_doDiff_fails : sparseDoDiffAccepts sparseArity = false := rfl

/-! ### Examples -/

/-- A sorting function, so that the hypothesis `Sorts` can be met. -/
theorem exists_sorts : ∃ sort, Sorts sort := by
  classical
  refine ⟨fun l => l.mergeSort (fun a b => decide (b ≤ a)), fun l => ⟨List.mergeSort_perm _ _, ?_⟩⟩
  have := List.pairwise_mergeSort (le := fun a b : ℝ => decide (b ≤ a))
    (by intro a b c h1 h2; simp only [decide_eq_true_eq] at *; exact le_trans h2 h1)
    (by intro a b; simp only [Bool.or_eq_true, decide_eq_true_eq]; exact le_total b a) l
  simpa using this

/-- Sparsemax of (1, 1, -5) is (1/2, 1/2, 0). -/
example (lo : ℝ) (sort : List ℝ → List ℝ) (hsort : Sorts sort) :
    sparseRow lo sort [1, 1, -5] = some [1 / 2, 1 / 2, 0] := by
  have := sparseRow_of_cut lo sort hsort [1, 1, -5] (by simp) (1 / 2) (by norm_num)
  rw [this]; norm_num

/-- At (1, 1, -5) the derivative condition holds. -/
example (lo : ℝ) (sort : List ℝ → List ℝ) (hsort : Sorts sort) :
    ∃ p, sparseRow lo sort [1, 1, -5] = some p ∧ HasDerivAt (fun t => ∑ i ∈ Finset.range 3,
      ([1, 0, 0] : List ℝ).getD i 0 * ((sparseRow lo sort (moved [1, 1, -5] [1, 0, 0] t)).getD []).getD i 0)
      (∑ i ∈ Finset.range 3, (sparseDiffRow p [1, 0, 0]).getD i 0 * ([1, 0, 0] : List ℝ).getD i 0) 0 := by
  obtain ⟨p, h1, _, h2⟩ := sparsemax_derivative lo sort hsort [1, 1, -5] [1, 0, 0] [1, 0, 0] (by simp) (by
    intro θ h v hv hθ
    subst hθ
    simp only [List.map_cons, List.map_nil, List.sum_cons, List.sum_nil, add_zero] at h
    simp only [List.mem_cons, List.not_mem_nil, or_false] at hv
    rcases hv with rfl | rfl | rfl <;> norm_num at h)
  exact ⟨p, h1, h2⟩

end

end Verif.NN
