import Mathlib.Data.Nat.Log
import Verif.NN.BatchNorm
import Verif.Shape.Gather
/-!
Model of group normalisation, `/repo/op_group_norm.go` (property C69).

Simplifications as in `BatchNorm.lean`. A vector of eight lanes (`groupNormVecSize`) is a function of the lane; the operations of
`vecf64` act lane by lane. `ceilLog2F64` is the exact ceiling of the logarithm.
-/
set_option autoImplicit false
namespace Verif.NN
open Verif.Shape Verif.Tensor Finset

noncomputable section

/-- One level of the stacks `m0stk`, `m1stk`, `m2stk` (lines 168-175): count, means and sums of squared distances per lane. -/
structure Mom where
  m0 : Nat
  m1 : Nat → ℝ
  m2 : Nat → ℝ

/-- A fresh level. -/
def Mom.zero : Mom := ⟨0, fun _ => 0, fun _ => 0⟩

/-- `addMomentsF64`, op_group_norm.go 244-256. -/
def addMoments (m0add : Nat) (m1add m2add : ℝ) (a : Nat × ℝ × ℝ) : Nat × ℝ × ℝ :=
  let n := a.1 + m0add
  let c : ℝ := if n ≠ 0 then (m0add : ℝ) / (n : ℝ) else 0
  let delta := m1add - a.2.1
  (n, a.2.1 + c * delta, a.2.2 + (m2add + delta * delta * c * (a.1 : ℝ)))

/-- `addMomentsVecF64`, op_group_norm.go 258-285, when `m1` and `m2` are different slices. -/
def addMomentsVec (add a : Mom) : Mom :=
  let n := a.m0 + add.m0
  let c : ℝ := if n ≠ 0 then (add.m0 : ℝ) / (n : ℝ) else 0
  let delta := fun l => add.m1 l - a.m1 l
  { m0 := n
    m1 := fun l => a.m1 l + delta l * c
    m2 := fun l => a.m2 l + (delta l * delta l * c * (a.m0 : ℝ) + add.m2 l) }

/-- `addMomentsVecF64`, op_group_norm.go 258-285, when the slice of the means is passed both as `m1` and as `m2` (line 222): both updates
go to it, and `a.m2` is left alone. -/
def addMomentsVecAliased (add a : Mom) : Mom :=
  let n := a.m0 + add.m0
  let c : ℝ := if n ≠ 0 then (add.m0 : ℝ) / (n : ℝ) else 0
  let delta := fun l => add.m1 l - a.m1 l
  { m0 := n
    m1 := fun l => (a.m1 l + delta l * c) + (delta l * delta l * c * (a.m0 : ℝ) + add.m2 l)
    m2 := a.m2 }

/-- `ceilLog2F64`, op_group_norm.go 287-293. -/
def ceilLog2 (x : Nat) : Nat := if x ≤ 2 then 1 else Nat.clog 2 x

/-- The moments of one chunk of up to 16 vectors, op_group_norm.go 183-207. -/
def chunkMoments (x : Nat → ℝ) (m0 : Nat) : Mom :=
  let r := loop m0 (fun j (a : (Nat → ℝ) × (Nat → ℝ)) =>
    let delta := fun l => x (j * 8 + l) - a.1 l
    let m1 := fun l => a.1 l + delta l * (1 / ((j : ℝ) + 1))
    (m1, fun l => a.2 l + (x (j * 8 + l) - m1 l) * delta l)) (fun _ => 0, fun _ => 0)
  ⟨m0, r.1, r.2⟩

/-- `stk[j] = v`. -/
def putM (stk : Nat → Mom) (j : Nat) (v : Mom) : Nat → Mom := fun i => if i = j then v else stk i

/-- The carry loop, op_group_norm.go 212-218, with the number of rounds left until `depth`. -/
def carry : Nat → Nat → Nat → (Nat → Mom) → Nat → Mom
  | 0, _, _, stk => stk
  | k + 1, j, mask, stk =>
    if mask % 2 = 0 then
      let stk := putM stk j (addMomentsVec (stk (j - 1)) (stk j))
      carry k (j + 1) (mask / 2) (putM stk (j - 1) Mom.zero)
    else stk

/-- One chunk, op_group_norm.go 177-219. -/
def chunkStep (x : Nat → ℝ) (nn depth i : Nat) (stk : Nat → Mom) : Nat → Mom :=
  let m0 := min 16 (nn - i * 16)
  let stk := putM stk 0 (addMomentsVec (chunkMoments (fun k => x (i * 16 * 8 + k)) m0) (stk 0))
  carry (depth - 1) 1 (i + 1) stk

/-- `rowwiseMomentsF64`, op_group_norm.go 163-242, as called with `ddof` 0. -/
def rowwiseMoments (x : Nat → ℝ) (n : Nat) : ℝ × ℝ :=
  let nn := n / 8
  let m := (nn + 16 - 1) / 16
  let depth := ceilLog2 m
  let stk := loop m (chunkStep x nn depth) fun _ => Mom.zero
  let stk := loop (depth - 1) (fun i stk => putM stk 0 (addMomentsVecAliased (stk (i + 1)) (stk 0))) stk
  let t := loop (n - nn * 8) (fun i (a : Nat × ℝ × ℝ) =>
    let delta := x (nn * 8 + i) - a.2.1
    let m0 := a.1 + 1
    let m1 := a.2.1 + delta / (m0 : ℝ)
    (m0, m1, a.2.2 + delta * (x (nn * 8 + i) - m1))) (0, 0, 0)
  let t := loop 8 (fun l a => addMoments nn ((stk 0).m1 l) ((stk 0).m2 l) a) t
  (t.2.1, t.2.2 / (n : ℝ))

/-- The arrays a run of `GroupNormOp` writes: the result and the caches `mean` and `rstd`. -/
structure GNState where
  y : Nat → ℝ
  mean : Nat → ℝ
  rstd : Nat → ℝ

/-- One group, op_group_norm.go 135-158. -/
def gnGroup (ε : ℝ) (d imageSize : Nat) (x : Nat → ℝ) (i : Nat) (st : GNState) : GNState :=
  let innerSize := d * imageSize
  let mv := rowwiseMoments (fun k => x (i * innerSize + k)) innerSize
  let rstd := 1 / Real.sqrt (max mv.2 0 + ε)
  let y := loop d (fun j => loop imageSize fun k y =>
    put y ((i * d + j) * imageSize + k) (rstd * x ((i * d + j) * imageSize + k) + -rstd * mv.1)) st.y
  { y := y, mean := put st.mean i mv.1, rstd := put st.rstd i rstd }

/-- `GroupNormOp.UsePreallocDo` and `f64s`, op_group_norm.go 99-161; `order` is the order of the goroutines. -/
def gnPrealloc (numGroups : Nat) (ε : ℝ) (order : List Nat) (shape : List Nat) (x : Nat → ℝ) (st : GNState) : Res GNState :=
  match shape with
  | _ :: channels :: rest =>
    if numGroups = 0 then .panic
    else .ok (runInParallel order (gnGroup ε (channels / numGroups) (size rest) x) st)
  | _ => .panic

/-- `GroupNormOp.Do`, op_group_norm.go 92-97: into a tensor of zeros. -/
def gnDo (numGroups : Nat) (ε : ℝ) (order : List Nat) (shape : List Nat) (x mean rstd : Nat → ℝ) : Res GNState :=
  gnPrealloc numGroups ε order shape x ⟨fun _ => 0, mean, rstd⟩

/-- `computeInternalGradientsF64`, op_group_norm.go 638-658. -/
def gnInternal (order : List Nat) (imageSize : Nat) (inp dy : Nat → ℝ) : (Nat → ℝ) × (Nat → ℝ) :=
  runInParallel order (fun i => loop imageSize fun j (a : (Nat → ℝ) × (Nat → ℝ)) =>
    (put a.1 i (a.1 i + dy (i * imageSize + j) * inp (i * imageSize + j)), put a.2 i (a.2 i + dy (i * imageSize + j))))
    (fun _ => 0, fun _ => 0)

/-- One group of the gradient, op_group_norm.go 605-633. -/
def gnDiffGroup (d imageSize : Nat) (inp dy : Nat → ℝ) (st : GNState) (dsb : (Nat → ℝ) × (Nat → ℝ)) (i : Nat) (dx : Nat → ℝ) :
    Nat → ℝ :=
  let s : ℝ := 1 / ((d * imageSize : Nat) : ℝ)
  let a := loop d (fun j (a : ℝ × ℝ) => (a.1 + dsb.1 (i * d + j), a.2 + dsb.2 (i * d + j))) (0, 0)
  let c1 := st.rstd i
  let c2 := (a.2 * st.mean i - a.1) * c1 * c1 * c1 * s
  let c3 := -c2 * st.mean i - a.2 * c1 * s
  loop d (fun j => loop imageSize fun k dx =>
    put dx ((i * d + j) * imageSize + k) (c1 * dy ((i * d + j) * imageSize + k) + c2 * inp ((i * d + j) * imageSize + k) + c3)) dx

/-- `groupNormDiffOp.f64s`, op_group_norm.go 583-636; `st` holds the caches of the forward run. -/
def gnDiff (numGroups : Nat) (order order' : List Nat) (shape : List Nat) (inp dy : Nat → ℝ) (st : GNState) (dx : Nat → ℝ) :
    Res (Nat → ℝ) :=
  match shape with
  | _ :: channels :: rest =>
    let dsb := gnInternal order' (size rest) inp dy
    if numGroups = 0 then .panic
    else .ok (runInParallel order (gnDiffGroup (channels / numGroups) (size rest) inp dy st dsb) dx)
  | _ => .panic

/-- `GroupNormOp.DoDiff`, op_group_norm.go 465-488: hands the value of the result where the gradient is expected (the gradient is the third
argument, which `groupNormDiffOp.Do`, 546-556, does not look at), adds to the derivative of the operand and makes the sum the
derivative of the result as well. Returns the derivatives of the operand and of the result. -/
def gnDoDiff (numGroups : Nat) (order order' : List Nat) (shape : List Nat) (inp xd : Nat → ℝ) (st : GNState) (_yd : Nat → ℝ) :
    Res ((Nat → ℝ) × (Nat → ℝ)) :=
  (gnDiff numGroups order order' shape inp st.y st inp).bind fun r =>
    let sum := fun i => xd i + r i
    .ok (sum, sum)

/-! ### Moments -/

/-- The numbers `n`, mean, sum of squared distances belong to `n` numbers with sum `S` and sum of squares `Q`. -/
def Good (n : Nat) (S Q : ℝ) (a : Nat × ℝ × ℝ) : Prop := a.1 = n ∧ (n : ℝ) * a.2.1 = S ∧ a.2.2 + (n : ℝ) * a.2.1 ^ 2 = Q

theorem good_add {n n' : Nat} {S S' Q Q' : ℝ} {a b : Nat × ℝ × ℝ} (ha : Good n S Q a) (hb : Good n' S' Q' b) :
    Good (n + n') (S + S') (Q + Q') (addMoments b.1 b.2.1 b.2.2 a) := by
  obtain ⟨a0, a1, a2⟩ := a
  obtain ⟨b0, b1, b2⟩ := b
  obtain ⟨rfl, rfl, rfl⟩ := ha
  obtain ⟨rfl, rfl, rfl⟩ := hb
  simp only [addMoments, Good]
  by_cases h : a0 + b0 = 0
  · have h1 : a0 = 0 := by omega
    have h2 : b0 = 0 := by omega
    subst h1 h2
    simp
  · have h' : (a0 : ℝ) + (b0 : ℝ) ≠ 0 := by exact_mod_cast h
    rw [if_pos h]
    push_cast
    refine ⟨trivial, ?_, ?_⟩
    · field_simp; ring
    · field_simp; ring

theorem good_one (x : ℝ) : Good 1 x (x ^ 2) (1, x, 0) := by simp [Good]

/-- Welford's step is the merge with one number. -/
theorem welford (a : Nat × ℝ × ℝ) (x : ℝ) :
    (a.1 + 1, a.2.1 + (x - a.2.1) / ((a.1 + 1 : Nat) : ℝ), a.2.2 + (x - a.2.1) * (x - (a.2.1 + (x - a.2.1) / ((a.1 + 1 : Nat) : ℝ)))) =
      addMoments 1 x 0 a := by
  have h : ((a.1 : ℝ) + 1) ≠ 0 := by positivity
  simp only [addMoments, Nat.add_eq_zero_iff, one_ne_zero, and_false, not_false_eq_true, ne_eq, if_true, Prod.mk.injEq, true_and]
  push_cast
  constructor
  · field_simp
  · field_simp; ring

theorem chunk_good (x : Nat → ℝ) (m0 l : Nat) : Good m0 (∑ j ∈ range m0, x (j * 8 + l)) (∑ j ∈ range m0, x (j * 8 + l) ^ 2)
    ((chunkMoments x m0).m0, (chunkMoments x m0).m1 l, (chunkMoments x m0).m2 l) := by
  unfold chunkMoments
  induction m0 with
  | zero => simp [loop, Good]
  | succ m0 ih =>
    have := good_add ih (good_one (x (m0 * 8 + l)))
    rw [← welford] at this
    rw [loop_succ, sum_range_succ, sum_range_succ]
    obtain ⟨h1, h2, h3⟩ := this
    simp only at h1 h2 h3 ⊢
    refine ⟨rfl, ?_, ?_⟩
    · rw [← h2]; push_cast; ring
    · rw [← h3]; push_cast; ring

theorem good_addVec {n n' : Nat} {S S' Q Q' : ℝ} {a b : Mom} (l : Nat) (ha : Good n S Q (a.m0, a.m1 l, a.m2 l))
    (hb : Good n' S' Q' (b.m0, b.m1 l, b.m2 l)) : Good (n + n') (S + S') (Q + Q')
      ((addMomentsVec b a).m0, (addMomentsVec b a).m1 l, (addMomentsVec b a).m2 l) := by
  have := good_add ha hb
  obtain ⟨h1, h2, h3⟩ := this
  simp only [addMoments, addMomentsVec] at h1 h2 h3 ⊢
  refine ⟨h1, ?_, ?_⟩
  · rw [← h2]; ring
  · rw [← h3]; ring

/-- The tail loop and the merge of the lanes, for any first level of `nn` vectors. -/
theorem tail_good (x : Nat → ℝ) (lo k : Nat) : Good k (∑ i ∈ range k, x (lo + i)) (∑ i ∈ range k, x (lo + i) ^ 2)
    (loop k (fun i (a : Nat × ℝ × ℝ) =>
      let delta := x (lo + i) - a.2.1
      let m0 := a.1 + 1
      let m1 := a.2.1 + delta / (m0 : ℝ)
      (m0, m1, a.2.2 + delta * (x (lo + i) - m1))) (0, 0, 0)) := by
  induction k with
  | zero => simp [loop, Good]
  | succ k ih =>
    have := good_add ih (good_one (x (lo + k)))
    rw [← welford] at this
    rw [loop_succ, sum_range_succ, sum_range_succ]
    exact this

theorem lanes_good (nn k : Nat) (S Q : Nat → ℝ) (v : Mom) (S0 Q0 : ℝ) (a : Nat × ℝ × ℝ) (n0 : Nat) (ha : Good n0 S0 Q0 a)
    (hv : ∀ l, Good nn (S l) (Q l) (nn, v.m1 l, v.m2 l)) :
    Good (n0 + k * nn) (S0 + ∑ l ∈ range k, S l) (Q0 + ∑ l ∈ range k, Q l) (loop k (fun l a => addMoments nn (v.m1 l) (v.m2 l) a) a) := by
  induction k with
  | zero => simpa [loop] using ha
  | succ k ih =>
    rw [loop_succ, sum_range_succ, sum_range_succ]
    have := good_add ih (hv k)
    rw [show n0 + (k + 1) * nn = n0 + k * nn + nn by ring, ← add_assoc, ← add_assoc]
    exact this

theorem sum_lanes (n : Nat) (F : Nat → ℝ) : (∑ i ∈ range (n - n / 8 * 8), F (n / 8 * 8 + i)) +
    (∑ l ∈ range 8, ∑ j ∈ range (n / 8), F (j * 8 + l)) = ∑ i ∈ range n, F i := by
  have hn : n = n / 8 * 8 + (n - n / 8 * 8) := by omega
  conv_rhs => rw [hn, sum_range_add]
  rw [sum_comm, ← sum_range_mul, add_comm]

theorem level0_good (x : Nat → ℝ) (nn l : Nat) (i : Nat) (hi : i ≤ (nn + 16 - 1) / 16) :
    Good (min (16 * i) nn) (∑ j ∈ range (min (16 * i) nn), x (j * 8 + l)) (∑ j ∈ range (min (16 * i) nn), x (j * 8 + l) ^ 2)
      ((loop i (chunkStep x nn 1) (fun _ => Mom.zero) 0).m0, (loop i (chunkStep x nn 1) (fun _ => Mom.zero) 0).m1 l,
        (loop i (chunkStep x nn 1) (fun _ => Mom.zero) 0).m2 l) := by
  induction i with
  | zero => simp [loop, Good, Mom.zero]
  | succ i ih =>
    have ih := ih (by omega)
    rw [loop_succ]
    simp only [chunkStep, Nat.sub_self, carry, putM, if_true]
    have hc := chunk_good (fun k => x (i * 16 * 8 + k)) (min 16 (nn - i * 16)) l
    have h := good_addVec l ih hc
    have e : min (16 * (i + 1)) nn = min (16 * i) nn + min 16 (nn - i * 16) := by omega
    have e' : min (16 * i) nn = 16 * i := by omega
    rw [e, sum_range_add, sum_range_add]
    have : ∀ j, i * 16 * 8 + (j * 8 + l) = (min (16 * i) nn + j) * 8 + l := fun j => by rw [e']; ring
    simp only [this] at h
    exact h

/-- The mean of `n` numbers. -/
def meanN (x : Nat → ℝ) (n : Nat) : ℝ := (∑ i ∈ range n, x i) / (n : ℝ)

/-- Their variance. -/
def varN (x : Nat → ℝ) (n : Nat) : ℝ := (∑ i ∈ range n, (x i - meanN x n) ^ 2) / (n : ℝ)

/-- **C69 (moments).** Up to 263 numbers, the recursive summation gives their mean and their variance. -/
theorem rowwiseMoments_small (x : Nat → ℝ) (n : Nat) (h0 : 0 < n) (hn : n / 8 ≤ 32) : rowwiseMoments x n = (meanN x n, varN x n) := by
  unfold rowwiseMoments
  have hm : (n / 8 + 16 - 1) / 16 ≤ 2 := by omega
  have hd : ceilLog2 ((n / 8 + 16 - 1) / 16) = 1 := by unfold ceilLog2; rw [if_pos hm]
  simp only [hd, Nat.sub_self]
  set nn := n / 8 with hnn
  set stk := loop ((nn + 16 - 1) / 16) (chunkStep x nn 1) (fun _ => Mom.zero) with hstk
  have hl : ∀ l, Good nn (∑ j ∈ range nn, x (j * 8 + l)) (∑ j ∈ range nn, x (j * 8 + l) ^ 2) (nn, (stk 0).m1 l, (stk 0).m2 l) := by
    intro l
    have := level0_good x nn l _ (le_refl _)
    rw [show min (16 * ((nn + 16 - 1) / 16)) nn = nn by omega] at this
    exact ⟨rfl, this.2⟩
  have h := lanes_good nn 8 _ _ (stk 0) _ _ _ _ (tail_good x (nn * 8) (n - nn * 8)) hl
  rw [hnn, sum_lanes n x, sum_lanes n (fun i => x i ^ 2), ← hnn, show n - nn * 8 + 8 * nn = n by omega] at h
  have h0' : loop 0 (fun i stk => putM stk 0 (addMomentsVecAliased (stk (i + 1)) (stk 0))) stk = stk := rfl
  rw [h0']
  obtain ⟨_, h2, h3⟩ := h
  have hn0 : (n : ℝ) ≠ 0 := by exact_mod_cast h0.ne'
  have e1 : (loop 8 (fun l a => addMoments nn ((stk 0).m1 l) ((stk 0).m2 l) a) (loop (n - nn * 8) (fun i (a : Nat × ℝ × ℝ) =>
      let delta := x (nn * 8 + i) - a.2.1
      let m0 := a.1 + 1
      let m1 := a.2.1 + delta / (m0 : ℝ)
      (m0, m1, a.2.2 + delta * (x (nn * 8 + i) - m1))) (0, 0, 0))).2.1 = meanN x n := by
    unfold meanN; rw [eq_div_iff hn0, mul_comm]; exact h2
  refine Prod.ext e1 ?_
  simp only
  unfold varN
  congr 1
  rw [e1] at h3
  have e2 : (n : ℝ) * meanN x n = ∑ i ∈ range n, x i := by unfold meanN; rw [mul_div_cancel₀ _ hn0]
  have e3 : ∑ i ∈ range n, (x i - meanN x n) ^ 2 = ∑ i ∈ range n, x i ^ 2 - (n : ℝ) * meanN x n ^ 2 := by
    have : ∀ i, (x i - meanN x n) ^ 2 = x i ^ 2 - 2 * meanN x n * x i + meanN x n ^ 2 := fun i => by ring
    simp only [this]
    rw [sum_add_distrib, sum_sub_distrib, ← mul_sum, ← e2, sum_const, card_range, nsmul_eq_mul]
    ring
  rw [e3, ← h3]; ring

/-! ### More than 263 numbers -/

/-- `1` first, `-1` eight places later, `0` elsewhere: their mean is 0. -/
def badInput : Nat → ℝ := fun k => if k = 0 then 1 else if k = 8 then -1 else 0

/-- The means of all levels are 0 and the sums of squares are not negative. -/
def Calm (stk : Nat → Mom) : Prop := ∀ j, ∀ l < 8, (stk j).m1 l = 0 ∧ 0 ≤ (stk j).m2 l

/-- Level `j` holds the two numbers that are not 0. -/
def Loaded (stk : Nat → Mom) (j : Nat) : Prop := 0 < (stk j).m0 ∧ 0 < (stk j).m2 0

theorem addVec_calm {a b : Mom} {l : Nat} (ha : a.m1 l = 0 ∧ 0 ≤ a.m2 l) (hb : b.m1 l = 0 ∧ 0 ≤ b.m2 l) :
    (addMomentsVec b a).m1 l = 0 ∧ 0 ≤ (addMomentsVec b a).m2 l ∧ (addMomentsVec b a).m2 l = a.m2 l + b.m2 l ∧
    (addMomentsVec b a).m0 = a.m0 + b.m0 := by
  simp only [addMomentsVec, ha.1, hb.1, sub_zero, zero_mul, add_zero, zero_add]
  exact ⟨trivial, add_nonneg ha.2 hb.2, trivial, trivial⟩

theorem carry1_calm {j : Nat} {stk : Nat → Mom} (hc : Calm stk) :
    Calm (putM (putM stk j (addMomentsVec (stk (j - 1)) (stk j))) (j - 1) Mom.zero) := by
  intro i l hl
  unfold putM
  by_cases h1 : i = j - 1
  · rw [if_pos h1]; exact ⟨rfl, le_refl _⟩
  · rw [if_neg h1]
    by_cases h2 : i = j
    · rw [if_pos h2]
      have := addVec_calm (hc j l hl) (hc (j - 1) l hl)
      exact ⟨this.1, this.2.1⟩
    · rw [if_neg h2]; exact hc i l hl

theorem carry_calm (k j mask : Nat) (stk : Nat → Mom) (hc : Calm stk) : Calm (carry k j mask stk) := by
  induction k generalizing j mask stk with
  | zero => exact hc
  | succ k ih =>
    unfold carry
    by_cases hm : mask % 2 = 0
    · rw [if_pos hm]; exact ih _ _ _ (carry1_calm hc)
    · rw [if_neg hm]; exact hc

/-- A loaded level stays loaded or is carried upwards; the first one only when a carry happens. -/
theorem carry_loaded (k j mask : Nat) (stk : Nat → Mom) (hc : Calm stk) (hj : 1 ≤ j) (h : ∃ i, 1 ≤ i ∧ i < j + k ∧ Loaded stk i) :
    ∃ i, 1 ≤ i ∧ i < j + k ∧ Loaded (carry k j mask stk) i := by
  induction k generalizing j mask stk with
  | zero => exact h
  | succ k ih =>
    unfold carry
    by_cases hm : mask % 2 = 0
    · rw [if_pos hm]
      obtain ⟨i, h1, h2, h3⟩ := ih (j + 1) (mask / 2) _ (carry1_calm hc (j := j)) (by omega) (by
        obtain ⟨i, i1, i2, i3, i4⟩ := h
        have hs := addVec_calm (hc j 0 (by omega)) (hc (j - 1) 0 (by omega))
        by_cases hij : i = j - 1 ∨ i = j
        · refine ⟨j, hj, by omega, ?_⟩
          unfold Loaded putM
          rw [if_neg (by omega), if_pos rfl, hs.2.2.1, hs.2.2.2]
          rcases hij with rfl | rfl
          · exact ⟨by omega, by have := (hc j 0 (by omega)).2; linarith⟩
          · exact ⟨by omega, by have := (hc (i - 1) 0 (by omega)).2; linarith⟩
        · refine ⟨i, i1, by omega, ?_⟩
          unfold Loaded putM
          rw [if_neg (fun e => hij (Or.inl e)), if_neg (fun e => hij (Or.inr e))]
          exact ⟨i3, i4⟩)
      exact ⟨i, h1, by omega, h3⟩
    · rw [if_neg hm]; exact h

theorem chunk_bad (m0 : Nat) (h0 : 0 < m0) (i : Nat) (hi : i = 0 → 2 ≤ m0) (l : Nat) (hl : l < 8) :
    (chunkMoments (fun k => badInput (i * 16 * 8 + k)) m0).m1 l = 0 ∧
    0 ≤ (chunkMoments (fun k => badInput (i * 16 * 8 + k)) m0).m2 l ∧
    (i = 0 → l = 0 → 0 < (chunkMoments (fun k => badInput (i * 16 * 8 + k)) m0).m2 l) := by
  obtain ⟨_, h2, h3⟩ := chunk_good (fun k => badInput (i * 16 * 8 + k)) m0 l
  simp only at h2 h3
  have hm : (m0 : ℝ) ≠ 0 := by exact_mod_cast h0.ne'
  have hS : ∑ j ∈ range m0, badInput (i * 16 * 8 + (j * 8 + l)) = 0 := by
    by_cases hi0 : i = 0
    · subst hi0
      obtain ⟨k, rfl⟩ : ∃ k, m0 = k + 2 := ⟨m0 - 2, by have := hi rfl; omega⟩
      rw [sum_range_succ', sum_range_succ']
      have hz : ∑ j ∈ range k, badInput (0 * 16 * 8 + ((j + 1 + 1) * 8 + l)) = 0 := by
        refine sum_eq_zero fun j _ => ?_
        unfold badInput
        rw [if_neg (by omega), if_neg (by omega)]
      rw [hz]
      unfold badInput
      by_cases hl0 : l = 0
      · subst hl0; norm_num
      · rw [if_neg (by omega), if_neg (by omega), if_neg (by omega), if_neg (by omega)]; norm_num
    · refine sum_eq_zero fun j _ => ?_
      unfold badInput
      rw [if_neg (by omega), if_neg (by omega)]
  rw [hS] at h2
  have hm1 : (chunkMoments (fun k => badInput (i * 16 * 8 + k)) m0).m1 l = 0 := by
    rcases mul_eq_zero.1 h2 with h | h
    · exact absurd h hm
    · exact h
  rw [hm1] at h3
  have h3' : (chunkMoments (fun k => badInput (i * 16 * 8 + k)) m0).m2 l = ∑ j ∈ range m0, badInput (i * 16 * 8 + (j * 8 + l)) ^ 2 := by
    rw [← h3]; ring
  refine ⟨hm1, ?_, ?_⟩
  · rw [h3']; exact sum_nonneg fun j _ => sq_nonneg _
  · rintro rfl rfl
    rw [h3']
    refine sum_pos' (fun j _ => sq_nonneg _) ⟨0, by simpa using h0, ?_⟩
    simp [badInput]

theorem chunkMoments_m0 (x : Nat → ℝ) (m0 : Nat) : (chunkMoments x m0).m0 = m0 := rfl

theorem stack_bad (nn depth : Nat) (hnn : 32 < nn) (hd : 2 ≤ depth) (i : Nat) (hi : i ≤ (nn + 16 - 1) / 16) :
    Calm (loop i (chunkStep badInput nn depth) fun _ => Mom.zero) ∧
    (i = 1 → Loaded (loop i (chunkStep badInput nn depth) fun _ => Mom.zero) 0) ∧
    (2 ≤ i → ∃ j, 1 ≤ j ∧ j < depth ∧ Loaded (loop i (chunkStep badInput nn depth) fun _ => Mom.zero) j) := by
  induction i with
  | zero =>
    refine ⟨fun j l _ => ?_, by omega, by omega⟩
    simp [loop, Mom.zero]
  | succ i ih =>
    obtain ⟨c1, c2, c3⟩ := ih (by omega)
    clear ih
    rw [loop_succ]
    set stk := loop i (chunkStep badInput nn depth) (fun _ => Mom.zero) with hstk
    set m0 := min 16 (nn - i * 16) with hm0
    have hm : 0 < m0 := by clear c1 c2 c3; omega
    have hm2 : i = 0 → 2 ≤ m0 := by clear c1 c2 c3; omega
    unfold chunkStep
    simp only [← hm0]
    set stk' := putM stk 0 (addMomentsVec (chunkMoments (fun k => badInput (i * 16 * 8 + k)) m0) (stk 0)) with hstk'
    have hadd : ∀ l < 8, _ := fun l hl => addVec_calm (c1 0 l hl) ⟨(chunk_bad m0 hm i hm2 l hl).1, (chunk_bad m0 hm i hm2 l hl).2.1⟩
    have hc' : Calm stk' := by
      intro j l hl
      rw [hstk']; unfold putM
      by_cases hj : j = 0
      · rw [if_pos hj]; exact ⟨(hadd l hl).1, (hadd l hl).2.1⟩
      · rw [if_neg hj]; exact c1 j l hl
    refine ⟨carry_calm _ _ _ _ hc', ?_, ?_⟩
    · intro hi1
      have hi0 : i = 0 := by clear c1 c2 c3; omega
      obtain ⟨k, hk⟩ : ∃ k, depth - 1 = k + 1 := ⟨depth - 2, by omega⟩
      rw [hk, hi0]
      unfold carry
      rw [if_neg (by norm_num)]
      unfold Loaded
      rw [hstk']; unfold putM
      rw [if_pos rfl, (hadd 0 (by omega)).2.2.1, (hadd 0 (by omega)).2.2.2, chunkMoments_m0]
      refine ⟨by omega, ?_⟩
      have := (chunk_bad m0 hm i hm2 0 (by omega)).2.2 hi0 rfl
      have := (c1 0 0 (by omega)).2
      linarith
    · intro hi2
      by_cases hi1 : i = 1
      · have hL := c2 hi1
        obtain ⟨k, hk⟩ : ∃ k, depth - 1 = k + 1 := ⟨depth - 2, by omega⟩
        rw [hk]
        unfold carry
        rw [if_pos (by rw [hi1])]
        have hL' : Loaded stk' 0 := by
          unfold Loaded
          rw [hstk']; unfold putM
          rw [if_pos rfl, (hadd 0 (by omega)).2.2.1, (hadd 0 (by omega)).2.2.2]
          have := (chunk_bad m0 hm i hm2 0 (by omega)).2.1
          exact ⟨by have := hL.1; omega, by have := hL.2; linarith⟩
        obtain ⟨j, j1, j2, j3⟩ := carry_loaded k (1 + 1) ((i + 1) / 2) _ (carry1_calm hc' (j := 1)) (by omega) (by
          refine ⟨1, le_refl _, by omega, ?_⟩
          have hs := addVec_calm (hc' 1 0 (by omega)) (hc' 0 0 (by omega))
          unfold Loaded putM
          rw [if_neg (by norm_num), if_pos rfl, hs.2.2.1, hs.2.2.2]
          have := (hc' 1 0 (by omega)).2
          exact ⟨by have := hL'.1; omega, by have := hL'.2; linarith⟩)
        exact ⟨j, j1, by omega, j3⟩
      · have h2i : 2 ≤ i := by clear c3; omega
        obtain ⟨j, j1, j2, j3, j4⟩ := c3 h2i
        obtain ⟨j', k1, k2, k3⟩ := carry_loaded (depth - 1) 1 (i + 1) stk' hc' (le_refl _) ⟨j, j1, by omega, by
          unfold Loaded
          rw [hstk']; unfold putM
          rw [if_neg (by omega)]
          exact ⟨j3, j4⟩⟩
        exact ⟨j', k1, by omega, k3⟩

/-- The last loop adds the sums of squares to the means. -/
theorem final_bad (stk : Nat → Mom) (hc : Calm stk) (k : Nat) :
    let r := loop k (fun i stk => putM stk 0 (addMomentsVecAliased (stk (i + 1)) (stk 0))) stk
    (∀ j, 0 < j → r j = stk j) ∧ (∀ l < 8, 0 ≤ (r 0).m1 l) ∧ ((∃ j, 1 ≤ j ∧ j < k + 1 ∧ Loaded stk j) → 0 < (r 0).m1 0 ∧ 0 < (r 0).m0) := by
  induction k with
  | zero =>
    refine ⟨fun j _ => rfl, fun l hl => ((hc 0 l hl).1).ge, ?_⟩
    rintro ⟨j, h1, h2, _⟩
    omega
  | succ k ih =>
    obtain ⟨i1, i2, i3⟩ := ih
    simp only [loop_succ]
    set r := loop k (fun i stk => putM stk 0 (addMomentsVecAliased (stk (i + 1)) (stk 0))) stk with hr
    rw [i1 (k + 1) (by omega)]
    have hform : ∀ l < 8, (addMomentsVecAliased (stk (k + 1)) (r 0)).m1 l = (r 0).m1 l * (1 - (if (r 0).m0 + (stk (k + 1)).m0 ≠ 0 then
        ((stk (k + 1)).m0 : ℝ) / (((r 0).m0 + (stk (k + 1)).m0 : Nat) : ℝ) else 0)) + ((r 0).m1 l ^ 2 *
        (if (r 0).m0 + (stk (k + 1)).m0 ≠ 0 then ((stk (k + 1)).m0 : ℝ) / (((r 0).m0 + (stk (k + 1)).m0 : Nat) : ℝ) else 0) *
        ((r 0).m0 : ℝ) + (stk (k + 1)).m2 l) := by
      intro l hl
      simp only [addMomentsVecAliased, (hc (k + 1) l hl).1]
      ring
    set cc : ℝ := (if (r 0).m0 + (stk (k + 1)).m0 ≠ 0 then
        ((stk (k + 1)).m0 : ℝ) / (((r 0).m0 + (stk (k + 1)).m0 : Nat) : ℝ) else 0) with hcc
    have hc0 : 0 ≤ cc := by rw [hcc]; by_cases h : (r 0).m0 + (stk (k + 1)).m0 ≠ 0 <;> simp only [h, if_true, if_false, ne_eq, not_false_eq_true, not_true_eq_false, le_refl] <;> positivity
    have hc1 : cc ≤ 1 ∧ (0 < (r 0).m0 → cc < 1) := by
      rw [hcc]
      by_cases h : (r 0).m0 + (stk (k + 1)).m0 ≠ 0
      · rw [if_pos h]
        have hp : (0 : ℝ) < (((r 0).m0 + (stk (k + 1)).m0 : Nat) : ℝ) := by exact_mod_cast Nat.pos_of_ne_zero h
        rw [div_le_one hp, div_lt_one hp]
        constructor
        · push_cast; have : (0 : ℝ) ≤ ((r 0).m0 : ℝ) := by positivity
          linarith
        · intro h'; push_cast; have : (0 : ℝ) < ((r 0).m0 : ℝ) := by exact_mod_cast h'
          linarith
      · rw [if_neg h]; exact ⟨by norm_num, fun _ => by norm_num⟩
    refine ⟨fun j hj => ?_, fun l hl => ?_, ?_⟩
    · unfold putM; rw [if_neg (by omega)]; exact i1 j hj
    · unfold putM; rw [if_pos rfl, hform l hl]
      have h1 := i2 l hl
      have h2 := (hc (k + 1) l hl).2
      have : 0 ≤ 1 - cc := by linarith [hc1.1]
      positivity
    · rintro ⟨j, j1, j2, j3⟩
      unfold putM; rw [if_pos rfl, hform 0 (by omega)]
      have hm0 : (addMomentsVecAliased (stk (k + 1)) (r 0)).m0 = (r 0).m0 + (stk (k + 1)).m0 := rfl
      rw [hm0]
      have h1 := i2 0 (by omega)
      have h2 := (hc (k + 1) 0 (by omega)).2
      have hcc' : 0 ≤ 1 - cc := by linarith [hc1.1]
      by_cases hjk : j = k + 1
      · subst hjk
        have := j3.2
        refine ⟨?_, by have := j3.1; omega⟩
        positivity
      · obtain ⟨k1, k2⟩ := i3 ⟨j, j1, by omega, j3⟩
        have : 0 < 1 - cc := by linarith [hc1.2 k2]
        refine ⟨?_, by omega⟩
        positivity

/-- The merge of the lanes weighs the means, whatever the sums of squares. -/
theorem lanes_mean (nn k : Nat) (v : Mom) (a : Nat × ℝ × ℝ) :
    (loop k (fun l a => addMoments nn (v.m1 l) (v.m2 l) a) a).1 = a.1 + k * nn ∧
    ((a.1 + k * nn : Nat) : ℝ) * (loop k (fun l a => addMoments nn (v.m1 l) (v.m2 l) a) a).2.1 =
      (a.1 : ℝ) * a.2.1 + (nn : ℝ) * ∑ l ∈ range k, v.m1 l := by
  have := lanes_good nn k (fun l => (nn : ℝ) * v.m1 l) (fun l => v.m2 l + (nn : ℝ) * v.m1 l ^ 2) v ((a.1 : ℝ) * a.2.1)
    (a.2.2 + (a.1 : ℝ) * a.2.1 ^ 2) a a.1 ⟨rfl, rfl, rfl⟩ (fun l => ⟨rfl, rfl, rfl⟩)
  exact ⟨this.1, by rw [this.2.1, mul_sum]⟩

theorem badInput_mean (n : Nat) (hn : 8 < n) : meanN badInput n = 0 := by
  unfold meanN
  obtain ⟨k, rfl⟩ : ∃ k, n = 9 + k := ⟨n - 9, by omega⟩
  rw [sum_range_add]
  have h1 : ∑ i ∈ range k, badInput (9 + i) = 0 := sum_eq_zero fun i _ => by
    unfold badInput; rw [if_neg (by omega), if_neg (by omega)]
  have h2 : ∑ i ∈ range 9, badInput i = 0 := by norm_num [sum_range_succ, badInput]
  rw [h1, h2]; simp

/-- **C69 (defect).** From 264 numbers on, the mean returned is not the mean of some inputs: the merge of the levels adds the sums of
squares to the means. -/
theorem rowwiseMoments_wrong (n : Nat) (hn : 32 < n / 8) : meanN badInput n = 0 ∧ 0 < (rowwiseMoments badInput n).1 := by
  refine ⟨badInput_mean n (by omega), ?_⟩
  unfold rowwiseMoments
  set nn := n / 8 with hnn
  have hm : 2 < (nn + 16 - 1) / 16 := by omega
  have hd : 2 ≤ ceilLog2 ((nn + 16 - 1) / 16) := by
    unfold ceilLog2; rw [if_neg (by omega)]
    have : 1 < Nat.clog 2 ((nn + 16 - 1) / 16) := by
      rw [Nat.lt_clog_iff_pow_lt (by norm_num)]; simpa using hm
    exact this
  simp only
  set depth := ceilLog2 ((nn + 16 - 1) / 16) with hdepth
  obtain ⟨s1, _, s3⟩ := stack_bad nn depth hn hd _ (le_refl _)
  obtain ⟨j, j1, j2, j3⟩ := s3 (by omega)
  set stk := loop ((nn + 16 - 1) / 16) (chunkStep badInput nn depth) (fun _ => Mom.zero) with hstk
  obtain ⟨_, f2, f3⟩ := final_bad stk s1 (depth - 1)
  set r := loop (depth - 1) (fun i stk => putM stk 0 (addMomentsVecAliased (stk (i + 1)) (stk 0))) stk with hr
  have f4 := (f3 ⟨j, j1, by omega, j3⟩).1
  have ht := tail_good badInput (nn * 8) (n - nn * 8)
  have hz : ∑ i ∈ range (n - nn * 8), badInput (nn * 8 + i) = 0 := sum_eq_zero fun i _ => by
    unfold badInput; rw [if_neg (by omega), if_neg (by omega)]
  rw [hz] at ht
  obtain ⟨t1, t2, _⟩ := ht
  simp only at t1 t2
  set t := loop (n - nn * 8) (fun i (a : Nat × ℝ × ℝ) =>
    (a.1 + 1, a.2.1 + (badInput (nn * 8 + i) - a.2.1) / ((a.1 + 1 : Nat) : ℝ), a.2.2 + (badInput (nn * 8 + i) - a.2.1) *
      (badInput (nn * 8 + i) - (a.2.1 + (badInput (nn * 8 + i) - a.2.1) / ((a.1 + 1 : Nat) : ℝ))))) (0, 0, 0) with htd
  have hl := (lanes_mean nn 8 (r 0) t).2
  rw [t1, t2, zero_add] at hl
  have hpos : 0 < (nn : ℝ) * ∑ l ∈ range 8, (r 0).m1 l := by
    have h1 : (0 : ℝ) < (nn : ℝ) := by exact_mod_cast (by omega : 0 < nn)
    have h2 : 0 < ∑ l ∈ range 8, (r 0).m1 l :=
      sum_pos' (fun l hl => f2 l (mem_range.1 hl)) ⟨0, by simp, f4⟩
    exact mul_pos h1 h2
  rw [← hl] at hpos
  by_contra hneg
  push Not at hneg
  have := mul_nonpos_of_nonneg_of_nonpos (a := ((n - nn * 8 + 8 * nn : Nat) : ℝ)) (by positivity) hneg
  exact absurd hpos (not_lt.2 this)

/-- **C69 (moments, exact).** The moments of `n` numbers are right for all inputs exactly up to 263 of them. -/
theorem rowwiseMoments_iff (n : Nat) (h0 : 0 < n) : (∀ x, rowwiseMoments x n = (meanN x n, varN x n)) ↔ n < 264 := by
  constructor
  · intro h
    by_contra hn
    obtain ⟨e1, e2⟩ := rowwiseMoments_wrong n (by omega)
    rw [h badInput, e1] at e2
    exact lt_irrefl _ e2
  · intro hn x
    exact rowwiseMoments_small x n h0 (by omega)

/-! ### Groups -/

theorem par_proj {σ τ : Type} (π : σ → τ) (cb : Nat → σ → σ) (cb' : Nat → τ → τ) (h : ∀ i s, π (cb i s) = cb' i (π s))
    (order : List Nat) (s : σ) : π (runInParallel order cb s) = runInParallel order cb' (π s) := by
  unfold runInParallel
  induction order generalizing s with
  | nil => rfl
  | cons a l ih => rw [List.foldl_cons, ih, h, List.foldl_cons]

/-- Writing every element of every group once, in any order of the groups; nothing else is written. -/
theorem write_groups {N d S : Nat} {order : List Nat} (ho : order.Perm (List.range N)) (v : Nat → Nat → Nat → ℝ) (out : Nat → ℝ) :
    (∀ i j k, i < N → j < d → k < S → runInParallel order (fun i y => loop d (fun j => loop S fun k y =>
      put y ((i * d + j) * S + k) (v i j k)) y) out (bnIndex d S i j k) = v i j k) ∧
    ∀ p, N * (d * S) ≤ p → runInParallel order (fun i y => loop d (fun j => loop S fun k y =>
      put y ((i * d + j) * S + k) (v i j k)) y) out p = out p := by
  have hidx : ∀ i j k, (i * d + j) * S + k = bnIndex d S i j k := fun i j k => by unfold bnIndex; ring
  have hn : ((order ×ˢ (List.range d ×ˢ List.range S)).map fun t => bnIndex d S t.1 t.2.1 t.2.2).Nodup := by
    refine List.Nodup.map_on ?_ ((ho.nodup_iff.2 List.nodup_range).product (List.nodup_range.product List.nodup_range))
    rintro ⟨i, j, k⟩ h ⟨i', j', k'⟩ h' e
    simp only [List.mem_product, List.mem_range, ho.mem_iff] at h h'
    obtain ⟨e1, e2, e3⟩ := bnIndex_inj h.2.1 h.2.2 h'.2.1 h'.2.2 e
    have e1' : i = i' := e1
    simp [e1', e2, e3]
  have h := foldl_put (order ×ˢ (List.range d ×ˢ List.range S)) (fun t => bnIndex d S t.1 t.2.1 t.2.2) (fun t _ => v t.1 t.2.1 t.2.2) out hn
  have hf : (order ×ˢ (List.range d ×ˢ List.range S)).foldl (fun o t => put o (bnIndex d S t.1 t.2.1 t.2.2) (v t.1 t.2.1 t.2.2)) out =
      runInParallel order (fun i y => loop d (fun j => loop S fun k y => put y ((i * d + j) * S + k) (v i j k)) y) out := by
    rw [foldl_product]
    simp only [foldl_product, hidx]
    rfl
  rw [hf] at h
  refine ⟨fun i j k hi hj hk => h.1 (i, j, k) (by simp only [List.mem_product, List.mem_range, ho.mem_iff]; exact ⟨hi, hj, hk⟩), fun p hp => ?_⟩
  refine h.2 p fun hm => ?_
  obtain ⟨⟨i, j, k⟩, ht, e⟩ := List.mem_map.1 hm
  simp only [List.mem_product, List.mem_range, ho.mem_iff] at ht
  have := bnIndex_lt ht.1 ht.2.1 ht.2.2
  rw [← mul_assoc] at hp
  simp only at e
  omega

/-- The mean and the variance of group `i`. -/
def gnMean (d S : Nat) (x : Nat → ℝ) (i : Nat) : ℝ := meanN (fun k => x (i * (d * S) + k)) (d * S)

def gnVar (d S : Nat) (x : Nat → ℝ) (i : Nat) : ℝ := varN (fun k => x (i * (d * S) + k)) (d * S)

theorem varN_nonneg (x : Nat → ℝ) (n : Nat) : 0 ≤ varN x n := by unfold varN; positivity

theorem gn_run (ε : ℝ) {N d S : Nat} {order : List Nat} (ho : order.Perm (List.range N)) (x : Nat → ℝ) (st : GNState) :
    let r := runInParallel order (gnGroup ε d S x) st
    (∀ i j k, i < N → j < d → k < S → r.y (bnIndex d S i j k) = (x (bnIndex d S i j k) - r.mean i) * r.rstd i) ∧
    (∀ p, N * (d * S) ≤ p → r.y p = st.y p) ∧
    ∀ i < N, r.mean i = (rowwiseMoments (fun k => x (i * (d * S) + k)) (d * S)).1 ∧
      r.rstd i = 1 / Real.sqrt (max (rowwiseMoments (fun k => x (i * (d * S) + k)) (d * S)).2 0 + ε) := by
  intro r
  have hy := par_proj GNState.y (gnGroup ε d S x) (fun i y => loop d (fun j => loop S fun k y =>
    put y ((i * d + j) * S + k) ((fun i j k => 1 / Real.sqrt (max (rowwiseMoments (fun k => x (i * (d * S) + k)) (d * S)).2 0 + ε) *
      x ((i * d + j) * S + k) + -(1 / Real.sqrt (max (rowwiseMoments (fun k => x (i * (d * S) + k)) (d * S)).2 0 + ε)) *
        (rowwiseMoments (fun k => x (i * (d * S) + k)) (d * S)).1) i j k)) y) (fun i s => rfl) order st
  have hm : ∀ i < N, (r.mean i, r.rstd i) = ((rowwiseMoments (fun k => x (i * (d * S) + k)) (d * S)).1,
      1 / Real.sqrt (max (rowwiseMoments (fun k => x (i * (d * S) + k)) (d * S)).2 0 + ε)) := by
    intro i hi
    have hp := par_spec (α := ℝ × ℝ) (gnGroup ε d S x) (fun i s => (s.mean i, s.rstd i))
      (fun i _ => ((rowwiseMoments (fun k => x (i * (d * S) + k)) (d * S)).1,
        1 / Real.sqrt (max (rowwiseMoments (fun k => x (i * (d * S) + k)) (d * S)).2 0 + ε)))
      (fun c s => by simp only [gnGroup, put_same]) (fun c c' s h => by simp only [gnGroup, put_other _ _ h])
      order (ho.nodup_iff.2 List.nodup_range) st i
    rw [if_pos (ho.mem_iff.2 (List.mem_range.2 hi))] at hp
    exact hp
  refine ⟨fun i j k hi hj hk => ?_, fun p hp => ?_, fun i hi => Prod.mk.injEq _ _ _ _ ▸ hm i hi⟩
  · have h := (Prod.mk.injEq _ _ _ _ ▸ hm i hi : _ ∧ _)
    rw [h.1, h.2]
    rw [hy, (write_groups ho _ st.y).1 i j k hi hj hk]
    have hidx : (i * d + j) * S + k = bnIndex d S i j k := by unfold bnIndex; ring
    rw [hidx]; ring
  · rw [hy, (write_groups ho _ st.y).2 p hp]

/-- The normalised element. -/
def gnOut (ε : ℝ) (d S : Nat) (x : Nat → ℝ) (i j k : Nat) : ℝ :=
  (x (bnIndex d S i j k) - gnMean d S x i) / Real.sqrt (gnVar d S x i + ε)

/-- **C69 (value, partial).** For groups of up to 263 elements, with the channels a multiple of the groups: every element comes out as its
distance from the mean of its group divided by the root of the variance plus epsilon; element `k` of channel `j` of group `g` of
image `b` belongs to group `b * numGroups + g` of the caches. For every order of the goroutines. Missing: larger groups and other
numbers of channels, for which it is false. -/
theorem gn_value_partial (G d B : Nat) (rest : List Nat) (ε : ℝ) (hG : 0 < G) (h0 : 0 < d * size rest) (hs : d * size rest < 264)
    {order : List Nat} (ho : order.Perm (List.range (G * B))) (x mean rstd : Nat → ℝ) :
    ∃ st, gnDo G ε order (B :: (G * d) :: rest) x mean rstd = .ok st ∧
      (∀ b g j k, b < B → g < G → j < d → k < size rest → st.y (bnIndex (G * d) (size rest) b (g * d + j) k) =
        gnOut ε d (size rest) x (b * G + g) j k) ∧
      ∀ i < G * B, st.mean i = gnMean d (size rest) x i ∧ st.rstd i = 1 / Real.sqrt (gnVar d (size rest) x i + ε) := by
  unfold gnDo gnPrealloc
  simp only [hG.ne', if_false, Nat.mul_div_cancel_left d hG]
  refine ⟨_, rfl, ?_⟩
  obtain ⟨r1, _, r3⟩ := gn_run ε ho (d := d) (S := size rest) x ⟨fun _ => 0, mean, rstd⟩
  have hm : ∀ i, rowwiseMoments (fun k => x (i * (d * size rest) + k)) (d * size rest) = (gnMean d (size rest) x i, gnVar d (size rest) x i) :=
    fun i => rowwiseMoments_small _ _ h0 (by omega)
  have hc : ∀ i < G * B, _ := fun i hi => r3 i hi
  simp only [hm] at hc
  have hc' : ∀ i < G * B, (runInParallel order (gnGroup ε d (size rest) x) ⟨fun _ => 0, mean, rstd⟩).mean i = gnMean d (size rest) x i ∧
      (runInParallel order (gnGroup ε d (size rest) x) ⟨fun _ => 0, mean, rstd⟩).rstd i = 1 / Real.sqrt (gnVar d (size rest) x i + ε) := by
    intro i hi
    obtain ⟨h1, h2⟩ := hc i hi
    have hv : 0 ≤ gnVar d (size rest) x i := varN_nonneg _ _
    rw [max_eq_left hv] at h2
    exact ⟨h1, h2⟩
  refine ⟨fun b g j k hb hg hj hk => ?_, hc'⟩
  have hidx : bnIndex (G * d) (size rest) b (g * d + j) k = bnIndex d (size rest) (b * G + g) j k := by unfold bnIndex; ring
  have hi : b * G + g < G * B := by nlinarith
  rw [hidx, r1 _ j k hi hj hk, (hc' _ hi).1, (hc' _ hi).2, mul_one_div]
  rfl

/-- **C69 (defect, size).** With 264 elements or more per group the result is not normalised: there is an input, for every number of images
and groups, whose first group does not come out with sum 0. -/
theorem gn_large_wrong (G d B : Nat) (rest : List Nat) (ε : ℝ) (hG : 0 < G) (hB : 0 < B) (hε : 0 < ε) (hs : 264 ≤ d * size rest)
    {order : List Nat} (ho : order.Perm (List.range (G * B))) (mean rstd : Nat → ℝ) :
    ∃ st, gnDo G ε order (B :: (G * d) :: rest) badInput mean rstd = .ok st ∧
      (∑ j ∈ range d, ∑ k ∈ range (size rest), st.y (bnIndex d (size rest) 0 j k)) < 0 ∧
      (∑ j ∈ range d, ∑ k ∈ range (size rest), gnOut ε d (size rest) badInput 0 j k) = 0 := by
  unfold gnDo gnPrealloc
  simp only [hG.ne', if_false, Nat.mul_div_cancel_left d hG]
  refine ⟨_, rfl, ?_⟩
  obtain ⟨r1, _, r3⟩ := gn_run ε ho (d := d) (S := size rest) badInput ⟨fun _ => 0, mean, rstd⟩
  set r := runInParallel order (gnGroup ε d (size rest) badInput) ⟨fun _ => 0, mean, rstd⟩ with hr
  have hi : 0 < G * B := Nat.mul_pos hG hB
  obtain ⟨c1, c2⟩ := r3 0 hi
  obtain ⟨w1, w2⟩ := rowwiseMoments_wrong (d * size rest) (by omega)
  simp only [zero_mul, zero_add] at c1 c2
  have hsum : ∑ j ∈ range d, ∑ k ∈ range (size rest), badInput (bnIndex d (size rest) 0 j k) = 0 := by
    have h := sum_range_mul d (size rest) badInput
    have e : ∀ j k, bnIndex d (size rest) 0 j k = j * size rest + k := fun j k => by unfold bnIndex; ring
    simp only [e]
    rw [← h]
    unfold meanN at w1
    rcases div_eq_zero_iff.1 w1 with h | h
    · exact h
    · exfalso; have : (d * size rest) = 0 := by exact_mod_cast h
      omega
  have hrs : 0 < r.rstd 0 := by
    rw [c2]
    have : 0 < max (rowwiseMoments (fun k => badInput k) (d * size rest)).2 0 + ε := by
      have := le_max_right (rowwiseMoments (fun k => badInput k) (d * size rest)).2 0
      linarith
    positivity
  have hmean : 0 < r.mean 0 := by rw [c1]; exact w2
  constructor
  · have : ∑ j ∈ range d, ∑ k ∈ range (size rest), r.y (bnIndex d (size rest) 0 j k) =
        ∑ j ∈ range d, ∑ k ∈ range (size rest), (badInput (bnIndex d (size rest) 0 j k) - r.mean 0) * r.rstd 0 :=
      sum_congr rfl fun j hj => sum_congr rfl fun k hk => r1 0 j k hi (mem_range.1 hj) (mem_range.1 hk)
    rw [this]
    simp only [← sum_mul, sum_sub_distrib, hsum, sum_const, card_range, nsmul_eq_mul]
    have h1 : (0 : ℝ) < (d : ℝ) * ((size rest : ℝ) * r.mean 0) := by
      have : (0 : ℝ) < ((d * size rest : Nat) : ℝ) := by exact_mod_cast (by omega : 0 < d * size rest)
      push_cast at this
      rw [← mul_assoc]
      exact mul_pos this hmean
    nlinarith
  · unfold gnOut
    have hg : gnMean d (size rest) badInput 0 = 0 := by unfold gnMean; simp only [zero_mul, zero_add]; exact w1
    simp only [hg, sub_zero, ← sum_div, hsum, zero_div]

/-- **C69 (defect, channels).** When the number of channels is not a multiple of the number of groups (nothing checks it), the last element of
the result is never written: it is 0, whatever the operand. -/
theorem gn_indivisible (G C B : Nat) (rest : List Nat) (ε : ℝ) (hG : 0 < G) (hB : 0 < B) (hS : 0 < size rest) (hC : C % G ≠ 0)
    {order : List Nat} (ho : order.Perm (List.range (G * B))) (x mean rstd : Nat → ℝ) :
    ∃ st, gnDo G ε order (B :: C :: rest) x mean rstd = .ok st ∧ st.y (B * (C * size rest) - 1) = 0 := by
  unfold gnDo gnPrealloc
  simp only [hG.ne', if_false]
  refine ⟨_, rfl, ?_⟩
  obtain ⟨_, r2, _⟩ := gn_run ε ho (d := C / G) (S := size rest) x ⟨fun _ => 0, mean, rstd⟩
  refine r2 _ ?_
  have h1 : G * (C / G) + 1 ≤ C := by
    have := Nat.div_add_mod C G
    have : 0 < C % G := Nat.pos_of_ne_zero hC
    omega
  have h2 : G * B * (C / G * size rest) = B * (G * (C / G) * size rest) := by ring
  rw [h2]
  have h3 : B * (G * (C / G) * size rest) < B * (C * size rest) := by
    refine Nat.mul_lt_mul_of_pos_left ?_ hB
    exact Nat.mul_lt_mul_of_pos_right (by omega) hS
  omega

theorem loop_put_pair (S i : Nat) (F H : Nat → ℝ) (a : (Nat → ℝ) × (Nat → ℝ)) :
    (loop S (fun j (a : (Nat → ℝ) × (Nat → ℝ)) => (put a.1 i (a.1 i + F j), put a.2 i (a.2 i + H j))) a).1 i = a.1 i + ∑ j ∈ range S, F j ∧
    (loop S (fun j (a : (Nat → ℝ) × (Nat → ℝ)) => (put a.1 i (a.1 i + F j), put a.2 i (a.2 i + H j))) a).2 i = a.2 i + ∑ j ∈ range S, H j ∧
    ∀ p, p ≠ i → (loop S (fun j (a : (Nat → ℝ) × (Nat → ℝ)) => (put a.1 i (a.1 i + F j), put a.2 i (a.2 i + H j))) a).1 p = a.1 p ∧
      (loop S (fun j (a : (Nat → ℝ) × (Nat → ℝ)) => (put a.1 i (a.1 i + F j), put a.2 i (a.2 i + H j))) a).2 p = a.2 p := by
  induction S with
  | zero => simp [loop]
  | succ n ih =>
    obtain ⟨h1, h2, h3⟩ := ih
    rw [loop_succ]
    refine ⟨?_, ?_, fun p hp => ⟨?_, ?_⟩⟩
    · simp only [put_same, h1, sum_range_succ]; ring
    · simp only [put_same, h2, sum_range_succ]; ring
    · simp only [put_other _ _ hp, (h3 p hp).1]
    · simp only [put_other _ _ hp, (h3 p hp).2]

theorem gnInternal_spec {N : Nat} {order : List Nat} (ho : order.Perm (List.range N)) (S : Nat) (inp dy : Nat → ℝ) (i : Nat) (hi : i < N) :
    (gnInternal order S inp dy).1 i = ∑ j ∈ range S, dy (i * S + j) * inp (i * S + j) ∧
      (gnInternal order S inp dy).2 i = ∑ j ∈ range S, dy (i * S + j) := by
  have hp := par_spec (α := ℝ × ℝ) (fun i => loop S fun j (a : (Nat → ℝ) × (Nat → ℝ)) =>
      (put a.1 i (a.1 i + dy (i * S + j) * inp (i * S + j)), put a.2 i (a.2 i + dy (i * S + j))))
    (fun i a => (a.1 i, a.2 i)) (fun i a => (a.1 + ∑ j ∈ range S, dy (i * S + j) * inp (i * S + j), a.2 + ∑ j ∈ range S, dy (i * S + j)))
    (fun c s => by
      obtain ⟨h1, h2, _⟩ := loop_put_pair S c (fun j => dy (c * S + j) * inp (c * S + j)) (fun j => dy (c * S + j)) s
      exact Prod.ext h1 h2)
    (fun c c' s h => by
      obtain ⟨_, _, h3⟩ := loop_put_pair S c' (fun j => dy (c' * S + j) * inp (c' * S + j)) (fun j => dy (c' * S + j)) s
      exact Prod.ext (h3 c h).1 (h3 c h).2)
    order (ho.nodup_iff.2 List.nodup_range) (fun _ => 0, fun _ => 0) i
  rw [if_pos (ho.mem_iff.2 (List.mem_range.2 hi))] at hp
  simp only [zero_add, Prod.mk.injEq] at hp
  exact hp

/-- What the gradient operation computes for an element of group `i`, from the caches. -/
def gnGradAt (d S : Nat) (inp dy : Nat → ℝ) (mean rstd : ℝ) (i j k : Nat) : ℝ :=
  let ds := ∑ j ∈ range d, ∑ k ∈ range S, dy (bnIndex d S i j k) * inp (bnIndex d S i j k)
  let db := ∑ j ∈ range d, ∑ k ∈ range S, dy (bnIndex d S i j k)
  let c2 := (db * mean - ds) * rstd * rstd * rstd * (1 / ((d * S : Nat) : ℝ))
  rstd * dy (bnIndex d S i j k) + c2 * inp (bnIndex d S i j k) + (-c2 * mean - db * rstd * (1 / ((d * S : Nat) : ℝ)))

theorem gnDiff_spec (G d B : Nat) (rest : List Nat) (hG : 0 < G) {order order' : List Nat} (ho : order.Perm (List.range (G * B)))
    (ho' : order'.Perm (List.range (B * (G * d)))) (inp dy : Nat → ℝ) (st : GNState) (dx : Nat → ℝ) :
    ∃ r, gnDiff G order order' (B :: (G * d) :: rest) inp dy st dx = .ok r ∧
      (∀ i j k, i < G * B → j < d → k < size rest →
        r (bnIndex d (size rest) i j k) = gnGradAt d (size rest) inp dy (st.mean i) (st.rstd i) i j k) ∧
      ∀ p, G * B * (d * size rest) ≤ p → r p = dx p := by
  unfold gnDiff
  simp only [hG.ne', if_false, Nat.mul_div_cancel_left d hG]
  refine ⟨_, rfl, ?_⟩
  set S := size rest
  set dsb := gnInternal order' S inp dy with hdsb
  have hf : gnDiffGroup d S inp dy st dsb = fun i y => loop d (fun j => loop S fun k y => put y ((i * d + j) * S + k)
      ((fun i j k => st.rstd i * dy ((i * d + j) * S + k) +
        (((∑ j ∈ range d, dsb.2 (i * d + j)) * st.mean i - ∑ j ∈ range d, dsb.1 (i * d + j)) * st.rstd i * st.rstd i * st.rstd i *
          (1 / ((d * S : Nat) : ℝ))) * inp ((i * d + j) * S + k) +
        (-(((∑ j ∈ range d, dsb.2 (i * d + j)) * st.mean i - ∑ j ∈ range d, dsb.1 (i * d + j)) * st.rstd i * st.rstd i * st.rstd i *
          (1 / ((d * S : Nat) : ℝ))) * st.mean i - (∑ j ∈ range d, dsb.2 (i * d + j)) * st.rstd i * (1 / ((d * S : Nat) : ℝ)))) i j k)) y := by
    funext i y
    unfold gnDiffGroup
    simp only [loop_pair, zero_add]
  rw [hf]
  obtain ⟨w1, w2⟩ := write_groups ho (d := d) (S := S) (fun i j k => st.rstd i * dy ((i * d + j) * S + k) +
        (((∑ j ∈ range d, dsb.2 (i * d + j)) * st.mean i - ∑ j ∈ range d, dsb.1 (i * d + j)) * st.rstd i * st.rstd i * st.rstd i *
          (1 / ((d * S : Nat) : ℝ))) * inp ((i * d + j) * S + k) +
        (-(((∑ j ∈ range d, dsb.2 (i * d + j)) * st.mean i - ∑ j ∈ range d, dsb.1 (i * d + j)) * st.rstd i * st.rstd i * st.rstd i *
          (1 / ((d * S : Nat) : ℝ))) * st.mean i - (∑ j ∈ range d, dsb.2 (i * d + j)) * st.rstd i * (1 / ((d * S : Nat) : ℝ)))) dx
  refine ⟨fun i j k hi hj hk => ?_, w2⟩
  rw [w1 i j k hi hj hk]
  have hidx : ∀ j k, (i * d + j) * S + k = bnIndex d S i j k := fun j k => by unfold bnIndex; ring
  have hlt : ∀ j < d, i * d + j < B * (G * d) := fun j hj => by
    have : (i + 1) * d ≤ G * B * d := Nat.mul_le_mul_right d hi
    have e : G * B * d = B * (G * d) := by ring
    rw [e, add_mul, one_mul] at this
    omega
  have h1 : ∑ j ∈ range d, dsb.1 (i * d + j) = ∑ j ∈ range d, ∑ k ∈ range S, dy (bnIndex d S i j k) * inp (bnIndex d S i j k) :=
    sum_congr rfl fun j hj => by
      rw [(gnInternal_spec ho' S inp dy _ (hlt j (mem_range.1 hj))).1]
      simp only [hidx]
  have h2 : ∑ j ∈ range d, dsb.2 (i * d + j) = ∑ j ∈ range d, ∑ k ∈ range S, dy (bnIndex d S i j k) :=
    sum_congr rfl fun j hj => by
      rw [(gnInternal_spec ho' S inp dy _ (hlt j (mem_range.1 hj))).2]
      simp only [hidx]
  simp only [h1, h2, hidx]
  rfl

theorem gnMean_eq (d S : Nat) (x : Nat → ℝ) (i : Nat) :
    gnMean d S x i = (∑ j ∈ range d, ∑ k ∈ range S, x (bnIndex d S i j k)) / ((d * S : Nat) : ℝ) := by
  unfold gnMean meanN
  rw [sum_range_mul]
  congr 1
  refine sum_congr rfl fun j _ => sum_congr rfl fun k _ => ?_
  congr 1; unfold bnIndex; ring

theorem gnVar_eq (d S : Nat) (x : Nat → ℝ) (i : Nat) :
    gnVar d S x i = (∑ j ∈ range d, ∑ k ∈ range S, (x (bnIndex d S i j k) - gnMean d S x i) ^ 2) / ((d * S : Nat) : ℝ) := by
  unfold gnVar varN
  rw [sum_range_mul]
  congr 1
  refine sum_congr rfl fun j _ => sum_congr rfl fun k _ => ?_
  have : i * (d * S) + (j * S + k) = bnIndex d S i j k := by unfold bnIndex; ring
  rw [← this]
  rfl

/-- The loss whose gradient with respect to the result of the normalisation is `dy`. -/
def gnLoss (ε : ℝ) (N d S : Nat) (dy x : Nat → ℝ) : ℝ :=
  ∑ i ∈ range N, ∑ j ∈ range d, ∑ k ∈ range S, dy (bnIndex d S i j k) * gnOut ε d S x i j k

/-- **C69 (gradient, partial).** For groups of up to 263 elements, with the channels a multiple of the groups, the gradient of the symbolic
mode is the derivative of the normalisation, in every direction and for every order of the goroutines. -/
theorem gn_grad_partial (G d B : Nat) (rest : List Nat) (ε : ℝ) (hε : 0 < ε) (hG : 0 < G) (hd : 0 < d) (hS : 0 < size rest)
    (hs : d * size rest < 264) {order order' order'' : List Nat} (ho : order.Perm (List.range (G * B)))
    (ho' : order'.Perm (List.range (G * B))) (ho'' : order''.Perm (List.range (B * (G * d)))) (x dy mean rstd dx0 : Nat → ℝ) :
    ∃ st dx, gnDo G ε order (B :: (G * d) :: rest) x mean rstd = .ok st ∧
      gnDiff G order' order'' (B :: (G * d) :: rest) x dy st dx0 = .ok dx ∧
      ∀ v : Nat → ℝ, HasDerivAt (fun t : ℝ => gnLoss ε (G * B) d (size rest) dy fun i => x i + t * v i)
        (∑ i ∈ range (G * B), ∑ j ∈ range d, ∑ k ∈ range (size rest),
          dx (bnIndex d (size rest) i j k) * v (bnIndex d (size rest) i j k)) 0 := by
  obtain ⟨st, e1, _, e3⟩ := gn_value_partial G d B rest ε hG (Nat.mul_pos hd hS) hs ho x mean rstd
  obtain ⟨dx, d1, d2, _⟩ := gnDiff_spec G d B rest hG ho' ho'' x dy st dx0
  refine ⟨st, dx, e1, d1, fun v => ?_⟩
  set S := size rest with hSd
  unfold gnLoss
  refine HasDerivAt.fun_sum fun i hi => ?_
  have hi := mem_range.1 hi
  obtain ⟨m1, m2⟩ := e3 i hi
  have hcard : ((range d ×ˢ range S).card : ℝ) = ((d * S : Nat) : ℝ) := by rw [card_product, card_range, card_range]
  have hne : (range d ×ˢ range S).Nonempty := ⟨(0, 0), by simp [hd, hS]⟩
  have key := norm_hasDerivAt (range d ×ˢ range S) hne ε (fun p => x (bnIndex d S i p.1 p.2))
    (fun p => v (bnIndex d S i p.1 p.2)) (fun p => dy (bnIndex d S i p.1 p.2)) (by
      have : (0 : ℝ) ≤ (∑ q ∈ range d ×ˢ range S, (x (bnIndex d S i q.1 q.2) - (∑ j ∈ range d ×ˢ range S, x (bnIndex d S i j.1 j.2)) /
        ((range d ×ˢ range S).card : ℝ)) ^ 2) / ((range d ×ˢ range S).card : ℝ) := by positivity
      linarith)
  simp only [hcard, sum_product] at key
  have hfun : (fun t : ℝ => ∑ j ∈ range d, ∑ k ∈ range S, dy (bnIndex d S i j k) * gnOut ε d S (fun i => x i + t * v i) i j k) =
      fun t : ℝ => ∑ j ∈ range d, ∑ k ∈ range S, dy (bnIndex d S i j k) * ((x (bnIndex d S i j k) + t * v (bnIndex d S i j k) -
        (∑ j ∈ range d, ∑ k ∈ range S, (x (bnIndex d S i j k) + t * v (bnIndex d S i j k))) / ((d * S : Nat) : ℝ)) /
        Real.sqrt ((∑ j ∈ range d, ∑ k ∈ range S, (x (bnIndex d S i j k) + t * v (bnIndex d S i j k) -
          (∑ j ∈ range d, ∑ k ∈ range S, (x (bnIndex d S i j k) + t * v (bnIndex d S i j k))) / ((d * S : Nat) : ℝ)) ^ 2) /
            ((d * S : Nat) : ℝ) + ε)) := by
    funext t
    simp only [gnOut, gnVar_eq, gnMean_eq]
  rw [hfun]
  refine key.congr_deriv ?_
  refine sum_congr rfl fun j hj => sum_congr rfl fun k hk => ?_
  rw [d2 i j k hi (mem_range.1 hj) (mem_range.1 hk), m1, m2]
  have hv := gnVar_eq d S x i
  rw [gnMean_eq] at hv
  rw [← hv, ← gnMean_eq d S x i]
  have hA : ∑ x_1 ∈ range d, ∑ x_2 ∈ range S, (x (bnIndex d S i x_1 x_2) - gnMean d S x i) * dy (bnIndex d S i x_1 x_2) =
      (∑ j ∈ range d, ∑ k ∈ range S, dy (bnIndex d S i j k) * x (bnIndex d S i j k)) -
        (∑ j ∈ range d, ∑ k ∈ range S, dy (bnIndex d S i j k)) * gnMean d S x i := by
    simp only [sum_mul, ← sum_sub_distrib]
    refine sum_congr rfl fun j _ => sum_congr rfl fun k _ => ?_
    ring
  rw [hA]
  unfold gnGradAt
  simp only
  ring

/-- **C69 (defect, define by run).** The define-by-run derivative does not depend on the gradient that comes in: what is added to the
derivative of the operand is `(x - mean) * ε / (variance + ε)²`, whatever the incoming gradient, which is moreover overwritten with
the derivative of the operand. -/
theorem gn_dodiff_wrong (G d B : Nat) (rest : List Nat) (ε : ℝ) (hε : 0 < ε) (hG : 0 < G) (hd : 0 < d) (hS : 0 < size rest)
    (hs : d * size rest < 264) {order order' order'' : List Nat} (ho : order.Perm (List.range (G * B)))
    (ho' : order'.Perm (List.range (G * B))) (ho'' : order''.Perm (List.range (B * (G * d)))) (x mean rstd xd : Nat → ℝ) :
    ∃ st dx, gnDo G ε order (B :: (G * d) :: rest) x mean rstd = .ok st ∧
      (∀ yd, gnDoDiff G order' order'' (B :: (G * d) :: rest) x xd st yd = .ok (dx, dx)) ∧
      ∀ i j k, i < G * B → j < d → k < size rest → dx (bnIndex d (size rest) i j k) = xd (bnIndex d (size rest) i j k) +
        (x (bnIndex d (size rest) i j k) - gnMean d (size rest) x i) * ε / (gnVar d (size rest) x i + ε) ^ 2 := by
  obtain ⟨st, e1, e2, e3⟩ := gn_value_partial G d B rest ε hG (Nat.mul_pos hd hS) hs ho x mean rstd
  obtain ⟨dx, d1, d2, _⟩ := gnDiff_spec G d B rest hG ho' ho'' x st.y st x
  refine ⟨st, fun i => xd i + dx i, e1, fun yd => by unfold gnDoDiff; rw [d1]; rfl, fun i j k hi hj hk => ?_⟩
  simp only
  rw [d2 i j k hi hj hk]
  congr 1
  set S := size rest with hSd
  obtain ⟨m1, m2⟩ := e3 i hi
  have hB : 0 < B := by
    rcases Nat.eq_zero_or_pos B with h | h
    · subst h; omega
    · exact h
  have hy : ∀ j k, j < d → k < S → st.y (bnIndex d S i j k) = (x (bnIndex d S i j k) - gnMean d S x i) * st.rstd i := by
    intro j k hj hk
    have h := e2 (i / G) (i % G) j k (Nat.div_lt_of_lt_mul hi) (Nat.mod_lt _ hG) hj hk
    have hi' : i / G * G + i % G = i := by rw [mul_comm]; exact Nat.div_add_mod i G
    have hidx : bnIndex (G * d) S (i / G) (i % G * d + j) k = bnIndex d S (i / G * G + i % G) j k := by unfold bnIndex; ring
    rw [hidx, hi'] at h
    rw [h, m2, mul_one_div]
    rfl
  have hv0 : 0 ≤ gnVar d S x i := varN_nonneg _ _
  have hn : ((d * S : Nat) : ℝ) ≠ 0 := by exact_mod_cast (Nat.mul_pos hd hS).ne'
  have hsum : ∑ j ∈ range d, ∑ k ∈ range S, x (bnIndex d S i j k) = gnMean d S x i * ((d * S : Nat) : ℝ) := by
    rw [gnMean_eq, div_mul_cancel₀ _ hn]
  have hsq : ∑ j ∈ range d, ∑ k ∈ range S, (x (bnIndex d S i j k) - gnMean d S x i) ^ 2 = gnVar d S x i * ((d * S : Nat) : ℝ) := by
    rw [gnVar_eq, div_mul_cancel₀ _ hn]
  have hcent : ∑ j ∈ range d, ∑ k ∈ range S, (x (bnIndex d S i j k) - gnMean d S x i) = 0 := by
    simp only [sum_sub_distrib, hsum, sum_const, card_range, nsmul_eq_mul]; push_cast; ring
  have hdb : ∑ j ∈ range d, ∑ k ∈ range S, st.y (bnIndex d S i j k) = 0 := by
    rw [sum_congr rfl fun j hj => sum_congr rfl fun k hk => hy j k (mem_range.1 hj) (mem_range.1 hk)]
    simp only [← sum_mul, hcent, zero_mul]
  have hds : ∑ j ∈ range d, ∑ k ∈ range S, st.y (bnIndex d S i j k) * x (bnIndex d S i j k) =
      gnVar d S x i * ((d * S : Nat) : ℝ) * st.rstd i := by
    rw [← hsq, sum_mul]
    have h2 : ∑ j ∈ range d, (∑ k ∈ range S, (x (bnIndex d S i j k) - gnMean d S x i) ^ 2) * st.rstd i =
        ∑ j ∈ range d, ∑ k ∈ range S, ((x (bnIndex d S i j k) - gnMean d S x i) * st.rstd i * x (bnIndex d S i j k) -
          (x (bnIndex d S i j k) - gnMean d S x i) * (st.rstd i * gnMean d S x i)) :=
      sum_congr rfl fun j _ => by rw [sum_mul]; exact sum_congr rfl fun k _ => by ring
    rw [h2]
    simp only [sum_sub_distrib, ← sum_mul]
    have h3 : (∑ j ∈ range d, ∑ k ∈ range S, x (bnIndex d S i j k)) - ∑ j ∈ range d, ∑ k ∈ range S, gnMean d S x i = 0 := by
      rw [← hcent]; simp only [sum_sub_distrib]
    rw [h3, zero_mul, sub_zero]
    refine sum_congr rfl fun j hj => sum_congr rfl fun k hk => ?_
    rw [hy j k (mem_range.1 hj) (mem_range.1 hk)]
  unfold gnGradAt
  simp only
  rw [hdb, hds, hy j k hj hk, m1, m2]
  have hq : Real.sqrt (gnVar d S x i + ε) ^ 2 = gnVar d S x i + ε := Real.sq_sqrt (by linarith)
  have hq0 : Real.sqrt (gnVar d S x i + ε) ≠ 0 := (Real.sqrt_pos.2 (by linarith)).ne'
  have hve : gnVar d S x i + ε ≠ 0 := by linarith
  set q := Real.sqrt (gnVar d S x i + ε)
  set V := gnVar d S x i
  have hq4 : (V + ε) ^ 2 = q ^ 4 := by rw [← hq]; ring
  have hεq : ε = q ^ 2 - V := by rw [hq]; ring
  rw [hq4]
  rw [hεq]
  field_simp
  ring

/-- Two groups of two channels of one pixel: with the elements 1, 3 and 5, 5 and epsilon 3 the first comes out as -1/2. -/
example : ∃ st, gnDo 2 3 [1, 0] [1, 4] (fun i => if i = 0 then 1 else if i = 1 then 3 else 5) (fun _ => 0) (fun _ => 0) = .ok st ∧
    st.y 0 = -1 / 2 ∧ st.y 3 = 0 := by
  obtain ⟨st, h1, h2, _⟩ := gn_value_partial 2 2 1 [] 3 (by decide) (by decide) (by decide) (order := [1, 0]) (by decide)
    (fun i => if i = 0 then 1 else if i = 1 then 3 else 5) (fun _ => 0) (fun _ => 0)
  refine ⟨st, h1, ?_, ?_⟩
  · have h := h2 0 0 0 0 (by decide) (by decide) (by decide) (by decide)
    have e : bnIndex (2 * 2) (size []) 0 (0 * 2 + 0) 0 = 0 := by decide
    rw [e] at h
    rw [h]
    unfold gnOut
    rw [gnVar_eq, gnMean_eq]
    simp [sum_range_succ, bnIndex, size]
    norm_num
    have : Real.sqrt 4 = 2 := by rw [show (4 : ℝ) = 2 ^ 2 by norm_num]; exact Real.sqrt_sq (by norm_num)
    rw [this]
    norm_num
  · have h := h2 0 1 1 0 (by decide) (by decide) (by decide) (by decide)
    have e : bnIndex (2 * 2) (size []) 0 (1 * 2 + 1) 0 = 3 := by decide
    rw [e] at h
    rw [h]
    unfold gnOut
    rw [gnVar_eq, gnMean_eq]
    simp [sum_range_succ, bnIndex, size]

/-- One group of three channels over four channels: the fourth channel is not written. -/
example : ∃ st, gnDo 3 1 [0, 1, 2] [1, 4, 2] (fun _ => 7) (fun _ => 0) (fun _ => 0) = .ok st ∧ st.y 7 = 0 :=
  gn_indivisible 3 4 1 [2] 1 (by decide) (by decide) (by decide) (by decide) (by decide) _ _ _

end

end Verif.NN
