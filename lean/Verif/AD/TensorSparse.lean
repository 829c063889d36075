import Verif.AD.SymbolicMore
import Verif.NN.SparsemaxGrad
/-!
`Sparsemax` as an operation of a differentiable graph (property C17, with C36 and C54): `sparsemaxOp` (op_sparsemax.go 80-116 and
341-356) with the default axis, on matrices. Away from ties with the threshold it can be differentiated, and the node that `SymDiff`
adds computes its gradient.
-/
set_option autoImplicit false
namespace Verif.AD
open Verif.Shape Verif.Tensor Verif.NN
open Filter (Eventually)
open scoped Topology

noncomputable section

/-! ### One row -/

/-- A row from its entries. -/
def rowFn (n : Nat) (f : Nat → ℝ) : List ℝ := (List.range n).map f

theorem rowFn_length (n : Nat) (f : Nat → ℝ) : (rowFn n f).length = n := by simp [rowFn]

theorem rowFn_getD (n : Nat) (f : Nat → ℝ) {j : Nat} (h : j < n) : (rowFn n f).getD j 0 = f j := by
  rw [rowFn, List.getD_eq_getElem?_getD, List.getElem?_map, List.getElem?_range h]
  rfl

/-- No element of the row is at the threshold. -/
def Untied (r : List ℝ) : Prop := ∀ θ, (r.map fun v => max (v - θ) 0).sum = 1 → ∀ v ∈ r, v ≠ θ

/-- The entries of the projected row move, along every curve, with the velocity that the gradient operation gives for the velocity of the row. -/
theorem sparseRow_curve (lo : ℝ) (sort : List ℝ → List ℝ) (hsort : Sorts sort) (n : Nat) (hn : 0 < n) (ρ : Nat → ℝ → ℝ) (v : Nat → ℝ)
    (t₀ : ℝ) (hd : ∀ j < n, HasDerivAt (ρ j) (v j) t₀) (hgen : Untied (rowFn n fun j => ρ j t₀)) :
    ∃ p, sparseRow lo sort (rowFn n fun j => ρ j t₀) = some p ∧ p.length = n ∧ ∀ j < n,
      HasDerivAt (fun t => ((sparseRow lo sort (rowFn n fun j => ρ j t)).getD []).getD j 0) ((sparseDiffRow p (rowFn n v)).getD j 0) t₀ := by
  classical
  have hne : ∀ t, (rowFn n fun j => ρ j t) ≠ [] := fun t h => by
    have := congrArg List.length h
    rw [rowFn_length] at this
    simp at this
    omega
  obtain ⟨p, θ, e1, e2, e3⟩ := sparseRow_spec lo sort hsort _ (hne t₀)
  subst e2
  refine ⟨_, e1, by rw [List.length_map, rowFn_length], ?_⟩
  set S : Nat → Prop := fun i => θ < ρ i t₀ with hS
  set k : ℝ := ∑ i ∈ Finset.range n, if S i then 1 else 0 with hk
  have htot : (∑ i ∈ Finset.range n, if S i then ρ i t₀ - θ else 0) = 1 := by
    rw [← e3, sum_map_range, rowFn_length]
    refine Finset.sum_congr rfl fun i hi => ?_
    rw [rowFn_getD n _ (Finset.mem_range.1 hi)]
    by_cases h : S i
    · rw [if_pos h, max_eq_left (by simp only [hS] at h; linarith)]
    · rw [if_neg h, max_eq_right (by simp only [hS] at h; linarith)]
  have hkpos : 0 < k := by
    by_contra hc
    have hnone : ∀ i ∈ Finset.range n, ¬ S i := by
      intro i hi hSi
      apply hc
      rw [hk]
      refine Finset.sum_pos' (fun j _ => by split <;> norm_num) ⟨i, hi, by rw [if_pos hSi]; norm_num⟩
    rw [Finset.sum_eq_zero fun i hi => if_neg (hnone i hi)] at htot
    norm_num at htot
  -- the moved threshold
  set Θ : ℝ → ℝ := fun t => ((∑ i ∈ Finset.range n, if S i then ρ i t else 0) - 1) / k with hΘ
  have hkΘ : ∀ t, k * Θ t = (∑ i ∈ Finset.range n, if S i then ρ i t else 0) - 1 := fun t => by rw [hΘ]; field_simp
  have hsplit : ∀ (f : Nat → ℝ) (c : ℝ), (∑ i ∈ Finset.range n, if S i then f i - c else 0) =
      (∑ i ∈ Finset.range n, if S i then f i else 0) - k * c := by
    intro f c
    rw [hk, Finset.sum_mul, ← Finset.sum_sub_distrib]
    refine Finset.sum_congr rfl fun i _ => ?_
    by_cases h : S i <;> simp [h]
  have hΘ0 : Θ t₀ = θ := by
    rw [hsplit] at htot
    have := hkΘ t₀
    have : k * Θ t₀ = k * θ := by linarith
    exact mul_left_cancel₀ hkpos.ne' this
  have hΘd : HasDerivAt Θ ((∑ i ∈ Finset.range n, if S i then v i else 0) / k) t₀ := by
    refine HasDerivAt.div_const (HasDerivAt.sub_const _ (HasDerivAt.fun_sum fun i hi => ?_)) _
    by_cases h : S i
    · simp only [if_pos h]; exact hd i (Finset.mem_range.1 hi)
    · simp only [if_neg h]; exact hasDerivAt_const _ _
  have hev : ∀ᶠ t in 𝓝 t₀, ∀ i ∈ Finset.range n, (S i → 0 < ρ i t - Θ t) ∧ (¬ S i → ρ i t - Θ t < 0) := by
    rw [Filter.eventually_all_finset]
    intro i hi
    have hi := Finset.mem_range.1 hi
    have hc : ContinuousAt (fun t => ρ i t - Θ t) t₀ := (hd i hi).continuousAt.sub hΘd.continuousAt
    by_cases h : S i
    · have h' : 0 < ρ i t₀ - Θ t₀ := by rw [hΘ0]; simp only [hS] at h; linarith
      filter_upwards [hc.eventually (lt_mem_nhds h')] with t ht
      exact ⟨fun _ => ht, fun hn => absurd h hn⟩
    · have hne' : ρ i t₀ ≠ θ := hgen θ e3 _ (by rw [rowFn]; exact List.mem_map.2 ⟨i, List.mem_range.2 hi, rfl⟩)
      have h' : ρ i t₀ - Θ t₀ < 0 := by
        rw [hΘ0]
        simp only [hS, not_lt] at h
        exact sub_neg.2 (lt_of_le_of_ne h hne')
      filter_upwards [hc.eventually (gt_mem_nhds h')] with t ht
      exact ⟨fun hs => absurd hs h, fun _ => ht⟩
  intro j hj
  have hval : ∀ᶠ t in 𝓝 t₀, ((sparseRow lo sort (rowFn n fun j => ρ j t)).getD []).getD j 0 = if S j then ρ j t - Θ t else 0 := by
    filter_upwards [hev] with t ht
    have hcut : ∀ i ∈ Finset.range n, max ((rowFn n fun j => ρ j t).getD i 0 - Θ t) 0 = if S i then ρ i t - Θ t else 0 := by
      intro i hi
      rw [rowFn_getD n _ (Finset.mem_range.1 hi)]
      by_cases h : S i
      · rw [if_pos h, max_eq_left ((ht i hi).1 h).le]
      · rw [if_neg h, max_eq_right ((ht i hi).2 h).le]
    have hsum : ((rowFn n fun j => ρ j t).map fun v => max (v - Θ t) 0).sum = 1 := by
      rw [sum_map_range, rowFn_length, Finset.sum_congr rfl hcut, hsplit, hkΘ]
      ring
    rw [sparseRow_of_cut lo sort hsort _ (hne t) (Θ t) hsum, Option.getD_some, map_getD _ _ (by rw [rowFn_length]; exact hj),
      hcut j (Finset.mem_range.2 hj)]
  refine HasDerivAt.congr_of_eventuallyEq ?_ hval
  have hnz : ∀ i ∈ Finset.range n, nonZero (((rowFn n fun j => ρ j t₀).map fun v => max (v - θ) 0).getD i 0) = if S i then 1 else 0 := by
    intro i hi
    rw [map_getD _ _ (by rw [rowFn_length]; exact Finset.mem_range.1 hi), nonZero_cut, rowFn_getD n _ (Finset.mem_range.1 hi)]
  have hent : (sparseDiffRow ((rowFn n fun j => ρ j t₀).map fun v => max (v - θ) 0) (rowFn n v)).getD j 0 =
      (if S j then 1 else 0) * (v j - (∑ i ∈ Finset.range n, if S i then v i else 0) / k) := by
    unfold sparseDiffRow
    simp only [List.length_map, rowFn_length]
    rw [List.getD_eq_getElem?_getD, List.getElem?_map, List.getElem?_range hj, Option.map_some, Option.getD_some,
      hnz j (Finset.mem_range.2 hj), rowFn_getD n _ hj, Finset.sum_congr rfl hnz]
    congr 3
    refine Finset.sum_congr rfl fun i hi => ?_
    rw [hnz i hi, rowFn_getD n _ (Finset.mem_range.1 hi)]
    by_cases h : S i <;> simp [h]
  rw [hent]
  by_cases h : S j
  · simp only [if_pos h, one_mul]
    exact (hd j hj).sub hΘd
  · simp only [if_neg h, zero_mul]
    exact hasDerivAt_const _ _

theorem sparseDiffRow_getD (p g : List ℝ) {j : Nat} (hj : j < p.length) :
    (sparseDiffRow p g).getD j 0 = nonZero (p.getD j 0) * (g.getD j 0 -
      (∑ i ∈ Finset.range p.length, nonZero (p.getD i 0) * g.getD i 0) / ∑ i ∈ Finset.range p.length, nonZero (p.getD i 0)) := by
  unfold sparseDiffRow
  rw [List.getD_eq_getElem?_getD, List.getElem?_map, List.getElem?_range hj]
  rfl

/-- The matrix of derivatives of a row is symmetric. -/
theorem sparseDiffRow_symm (p g d : List ℝ) :
    ∑ j ∈ Finset.range p.length, g.getD j 0 * (sparseDiffRow p d).getD j 0 =
      ∑ j ∈ Finset.range p.length, (sparseDiffRow p g).getD j 0 * d.getD j 0 := by
  have h : ∀ a b : List ℝ, ∑ j ∈ Finset.range p.length, a.getD j 0 * (sparseDiffRow p b).getD j 0 =
      (∑ j ∈ Finset.range p.length, nonZero (p.getD j 0) * a.getD j 0 * b.getD j 0) -
        (∑ i ∈ Finset.range p.length, nonZero (p.getD i 0) * a.getD i 0) *
          (∑ i ∈ Finset.range p.length, nonZero (p.getD i 0) * b.getD i 0) / ∑ i ∈ Finset.range p.length, nonZero (p.getD i 0) := by
    intro a b
    rw [mul_div_assoc, Finset.sum_mul, ← Finset.sum_sub_distrib]
    refine Finset.sum_congr rfl fun j hj => ?_
    rw [sparseDiffRow_getD p b (Finset.mem_range.1 hj)]
    ring
  have hc : ∑ j ∈ Finset.range p.length, (sparseDiffRow p g).getD j 0 * d.getD j 0 =
      ∑ j ∈ Finset.range p.length, d.getD j 0 * (sparseDiffRow p g).getD j 0 := Finset.sum_congr rfl fun j _ => mul_comm _ _
  rw [hc, h g d, h d g]
  congr 1
  · exact Finset.sum_congr rfl fun j _ => by ring
  · rw [mul_comm]

/-! ### Matrices -/

theorem rowOf_eq (n : Nat) (t : T ℝ) (m : Nat) (ht : t.shape = [m, n]) (i : Nat) (hi : i < m) :
    rowOf n t i = rowFn n fun j => t.at_ [i, j] := by
  refine List.map_congr_left fun j hj => ?_
  have hj := List.mem_range.1 hj
  have := flat_ravel t (i := [i, j]) (by rw [ht]; exact ⟨hi, hj, trivial⟩)
  rw [ht] at this
  simpa [ravel, size] using this

/-- The result for a matrix: its rows are the projected rows. -/
theorem sparsemax_matrix (lo : ℝ) (sort : List ℝ → List ℝ) (hsort : Sorts sort) (m n : Nat) (hm : 0 < m) (hn : 0 < n) (t : T ℝ)
    (ht : t.shape = [m, n]) : ∃ y, sparsemax lo sort (-1) t = some y ∧ y.shape = [m, n] ∧ ∀ i < m,
      sparseRow lo sort (rowFn n fun j => t.at_ [i, j]) = some (rowOf n y i) ∧
      ∀ j < n, y.at_ [i, j] = ((sparseRow lo sort (rowFn n fun j => t.at_ [i, j])).getD []).getD j 0 := by
  have hz : size t.shape = size [m] * n := by rw [ht]; simp [size]
  obtain ⟨l, e1, e2, e3⟩ := sparseData_spec lo sort hsort t [m] n (by rw [ht]; rfl) (by simpa [size] using hm) hn hz
  refine ⟨ofData t.shape l, by unfold sparsemax; rw [if_pos rfl, e1]; rfl, ht, fun i hi => ?_⟩
  obtain ⟨p, f1, f2, f3⟩ := e3 i (by simpa [size] using hi)
  rw [rowOf_eq n t m ht i hi] at f1
  have hat : ∀ j < n, (ofData t.shape l).at_ [i, j] = p.getD j 0 := by
    intro j hj
    rw [← f3 j hj]
    show l.getD (ravel t.shape [i, j]) 0 = _
    rw [ht]
    simp [ravel, size]
  rw [f1]
  refine ⟨?_, fun j hj => hat j hj⟩
  rw [rowOf_eq n (ofData t.shape l) m ht i hi]
  congr 1
  refine List.ext_getElem (by rw [rowFn_length, f2]) fun j h1 h2 => ?_
  have hj : j < n := by rw [← f2]; exact h1
  have := hat j hj
  simp only [rowFn, List.getElem_map, List.getElem_range, this]
  rw [List.getD_eq_getElem?_getD, List.getElem?_eq_getElem h1]
  rfl

/-- `sparsemaxOp` (op_sparsemax.go) with the default axis. -/
def sparseTOp (lo : ℝ) (sort : List ℝ → List ℝ) : TOp := .one (fun x => optRes (sparsemax lo sort (-1) x)) fun _ y g => sparsemaxDiff y g

/-- **C17 (sparsemax).** Sparsemax of a matrix can be differentiated where no element of a row is at the threshold of its row. -/
theorem sparseTOp_good_partial (lo : ℝ) (sort : List ℝ → List ℝ) (hsort : Sorts sort) (m n : Nat) (hm : 0 < m) (hn : 0 < n) (x : T ℝ)
    (hx : x.shape = [m, n]) (hgen : ∀ i < m, Untied ((List.range n).map fun j => x.at_ [i, j])) :
    ∃ y, sparsemax lo sort (-1) x = some y ∧ y.shape = [m, n] ∧ (sparseTOp lo sort).Good [x] y := by
  obtain ⟨y, y1, y2, y3⟩ := sparsemax_matrix lo sort hsort m n hm hn x hx
  -- along every curve
  have hcurve : ∀ (γ : ℝ → T ℝ) (v : T ℝ) (t₀ : ℝ), (∀ᶠ t in 𝓝 t₀, (γ t).shape = [m, n]) → (γ t₀) = x →
      (∀ i, InB [m, n] i → HasDerivAt (fun t => (γ t).at_ i) (v.at_ i) t₀) →
      (∀ᶠ t in 𝓝 t₀, optRes (sparsemax lo sort (-1) (γ t)) = .ok ((sparsemax lo sort (-1) (γ t)).getD y) ∧
        ((sparsemax lo sort (-1) (γ t)).getD y).shape = [m, n]) ∧
      ∀ i < m, ∀ j < n, HasDerivAt (fun t => ((sparsemax lo sort (-1) (γ t)).getD y).at_ [i, j])
        ((sparseDiffRow (rowOf n y i) (rowFn n fun j => v.at_ [i, j])).getD j 0) t₀ := by
    intro γ v t₀ hs h0 hd
    refine ⟨?_, fun i hi j hj => ?_⟩
    · filter_upwards [hs] with t ht
      obtain ⟨z, z1, z2, -⟩ := sparsemax_matrix lo sort hsort m n hm hn (γ t) ht
      rw [z1]
      exact ⟨rfl, z2⟩
    · obtain ⟨p, p1, p2, p3⟩ := sparseRow_curve lo sort hsort n hn (fun j t => (γ t).at_ [i, j]) (fun j => v.at_ [i, j]) t₀
        (fun j hj => hd _ ⟨hi, hj, trivial⟩) (by simp only [h0]; exact hgen i hi)
      simp only [h0] at p1
      rw [(y3 i hi).1] at p1
      cases p1
      refine (p3 j hj).congr_of_eventuallyEq ?_
      filter_upwards [hs] with t ht
      obtain ⟨z, z1, z2, z3⟩ := sparsemax_matrix lo sort hsort m n hm hn (γ t) ht
      rw [z1]
      exact (z3 i hi).2 j hj
  refine ⟨y, y1, y2, good_one _ _ x y (by rw [y1]; rfl) (fun g hg => ?_)
    (fun v ix => (sparseDiffRow (rowOf n y (ix.getD 0 0)) (rowFn n fun j => v.at_ [ix.getD 0 0, j])).getD (ix.getD 1 0) 0) fun γ v t₀ h0 hM => ?_⟩
  · obtain ⟨r, r1, r2, r3⟩ := sparsemaxDiff_rows y g m n y2 (hg.trans y2)
    refine ⟨r, r1, r2.trans hx.symm, fun d hd => ⟨_, (hcurve (moveT x d) d 0 (.of_forall fun _ => hx) (by
      cases x; simp [moveT]) fun i _ => hasDerivAt_line _ _).1.mono fun t ht => ⟨ht.1, ht.2.trans (hg.trans y2).symm⟩, ?_⟩⟩
    have hc := (hcurve (moveT x d) d 0 (.of_forall fun _ => hx) (by cases x; simp [moveT]) fun i _ => hasDerivAt_line _ _).2
    refine (hasDerivAt_pair g _ (fun ix => (sparseDiffRow (rowOf n y (ix.getD 0 0)) (rowFn n fun j => d.at_ [ix.getD 0 0, j])).getD (ix.getD 1 0) 0)
      fun ix hix => ?_).congr_deriv ?_
    · rw [hg, y2] at hix
      match ix, hix with
      | [i, j], ⟨hi, hj, _⟩ => exact hc i hi j hj
    · rw [pair_eq, hg, y2, r2, sumOver_mat, sumOver_mat]
      refine Finset.sum_congr rfl fun i hi => ?_
      have hi := Finset.mem_range.1 hi
      have hs := sparseDiffRow_symm (rowOf n y i) (rowOf n g i) (rowFn n fun j => d.at_ [i, j])
      have hl : (rowOf n y i).length = n := by simp [rowOf]
      rw [hl] at hs
      refine Eq.trans (Finset.sum_congr rfl fun j hj => ?_) (hs.trans (Finset.sum_congr rfl fun j hj => ?_))
      · rw [rowOf_eq n g m (hg.trans y2) i hi, rowFn_getD n _ (Finset.mem_range.1 hj)]
        rfl
      · rw [r3 i j hi (Finset.mem_range.1 hj), rowFn_getD n _ (Finset.mem_range.1 hj)]
  · obtain ⟨c1, c2⟩ := hcurve γ v t₀ (hM.shape.mono fun t ht => by rw [ht, h0, hx]) h0 (fun i hi => hM.der i (by rw [h0, hx]; exact hi))
    refine ⟨_, c1.mono fun t ht => ⟨ht.1, ht.2.trans y2.symm⟩, fun ix hix => ?_⟩
    rw [y2] at hix
    match ix, hix with
    | [i, j], ⟨hi, hj, _⟩ => exact c2 i hi j hj

/-! ### The gradient node -/

theorem sparse_shp {lo : ℝ} {sort : List ℝ → List ℝ} {x y : T ℝ} (h : optRes (sparsemax lo sort (-1) x) = .ok y) : y.shape = x.shape := by
  unfold sparsemax at h
  rw [if_pos rfl] at h
  cases hl : sparseData lo sort x.shape (data x) with
  | none => rw [hl] at h; cases h
  | some l => rw [hl] at h; cases h; rfl

theorem sparsemaxDiff_shp {y g r : T ℝ} (h : optErr (sparsemaxDiff y g) = .ok r) : r.shape = y.shape := by
  rw [optErr_ok] at h
  unfold sparsemaxDiff at h
  split at h
  · next m n e =>
    by_cases c : g.shape = y.shape
    · rw [if_pos c] at h; cases h; rfl
    · rw [if_neg c] at h; cases h
  · cases h

/-- `sparsemaxOp.SymDiff` (op_sparsemax.go 341-356): one `sparsemaxDiffOp` node on the result and the gradient; its shape is that of the
first of them (`sparsemaxDiffOp.InferShape`, 391-395). -/
def sparseSym (lo : ℝ) (sort : List ℝ → List ℝ) : SymOp where
  op := .of1 (fun x => optRes (sparsemax lo sort (-1) x)) id (fun _ _ h => sparse_shp h)
  diffs := [true]
  sym := fun _ args out g => match args with
    | [_] => some [.app (.of2 (fun y g => optErr (sparsemaxDiff y g)) (fun y _ => y) (fun _ _ _ h => sparsemaxDiff_shp h)) [out, g]]
    | _ => none

theorem sparseSym_of (lo : ℝ) (sort : List ℝ → List ℝ) : (sparseSym lo sort).Of (sparseTOp lo sort) where
  run := by
    funext xs
    match xs with
    | [] | [_] | _ :: _ :: _ => rfl
  diffs := rfl
  fresh := by
    intro sh args out gx es hg h
    match args, h with
    | [x], h =>
      simp only [sparseSym, Option.some.injEq] at h
      subst h
      simp [XT.Old, XT.app1]
  sym := by
    intro ρ sh args out gx xs y g ts _ ha ho hg _ _ hs
    match xs, args, ha, hs with
    | [x], [a], .cons hx .nil, hs =>
      simp only [sparseTOp, TOp.one, Option.map_eq_some_iff] at hs
      obtain ⟨r, hr, rfl⟩ := hs
      refine ⟨_, rfl, .cons ?_ .nil⟩
      simp only [XT.eval, XT.evalL, ho, hg, Res.bind, POp.of2, hr, optErr]

def sparseDOp (lo : ℝ) (sort : List ℝ → List ℝ) : DOp := ⟨sparseTOp lo sort, sparseSym lo sort, sparseSym_of lo sort⟩

/-! ### An example -/

/-- The row (0, 0) is not tied with its threshold, which is -1/2. -/
theorem untied_zeros : Untied [0, 0] := by
  intro θ h v hv
  simp only [List.map_cons, List.map_nil, List.sum_cons, List.sum_nil, add_zero] at h
  rintro rfl
  simp only [List.mem_cons, List.not_mem_nil, or_false, or_self] at hv
  subst hv
  norm_num at h

/-- Non-trivial instance: at the matrix ((0, 0)) sparsemax can be differentiated, and its gradient for (1, 0) is (1/2, -1/2). -/
example (lo : ℝ) (sort : List ℝ → List ℝ) (hsort : Sorts sort) :
    ∃ y, sparsemax lo sort (-1) (zeroT [1, 2]) = some y ∧ (sparseTOp lo sort).Good [zeroT [1, 2]] y ∧
      ∃ r, sparsemaxDiff y ⟨[1, 2], fun i => if i.getD 1 0 = 0 then 1 else 0⟩ = some r ∧ r.at_ [0, 0] = 1 / 2 ∧ r.at_ [0, 1] = -1 / 2 := by
  have hr : ((List.range 2).map fun j => (zeroT [1, 2]).at_ [0, j]) = [0, 0] := rfl
  obtain ⟨y, y1, y2, y3⟩ := sparseTOp_good_partial lo sort hsort 1 2 (by decide) (by decide) (zeroT [1, 2]) rfl (fun i hi => by
    have : i = 0 := by omega
    subst this
    rw [hr]
    exact untied_zeros)
  obtain ⟨y', z1, -, z3⟩ := sparsemax_matrix lo sort hsort 1 2 (by decide) (by decide) (zeroT [1, 2]) rfl
  rw [y1] at z1
  cases z1
  have hrow : rowOf 2 y 0 = [1 / 2, 1 / 2] := by
    have h1 := (z3 0 (by decide)).1
    rw [show (rowFn 2 fun j => (zeroT [1, 2]).at_ [0, j]) = [0, 0] from rfl,
      sparseRow_of_cut lo sort hsort [0, 0] (by simp) (-1 / 2) (by norm_num)] at h1
    rw [← Option.some.inj h1]
    norm_num
  obtain ⟨r, r1, -, r3⟩ := sparsemaxDiff_rows y ⟨[1, 2], fun i => if i.getD 1 0 = 0 then 1 else 0⟩ 1 2 y2 rfl
  refine ⟨y, y1, y3, r, r1, ?_, ?_⟩
  · rw [r3 0 0 (by decide) (by decide), hrow]
    norm_num [sparseDiffRow, rowOf, T.flat, unravel, size, nonZero, Finset.sum_range_succ, List.range_succ]
  · rw [r3 0 1 (by decide) (by decide), hrow]
    norm_num [sparseDiffRow, rowOf, T.flat, unravel, size, nonZero, Finset.sum_range_succ, List.range_succ]

end
end Verif.AD
