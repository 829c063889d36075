import Mathlib.Analysis.Calculus.Deriv.Add
import Mathlib.Analysis.Calculus.Deriv.Mul
import Mathlib.Analysis.Calculus.Deriv.Pow
import Mathlib.Analysis.Calculus.Deriv.Inv
import Mathlib.Analysis.SpecialFunctions.Sqrt
import Mathlib.Algebra.BigOperators.Field
import Mathlib.Tactic.FieldSimp
import Mathlib.Tactic.Linarith
import Verif.Shape.Model
/-!
Model of batch normalisation, `/repo/op_nn.go` 1158-1942 (property C68).

Simplifications: arrays are functions from positions to reals (that the positions used are inside the arrays is `bnIndex_lt`); the
float32 branches are the same text except for evaluation, see `Verif.NN.BatchNorm32`; `runInParallel` (utils.go 315-328) runs its
callbacks one after the other in an arbitrary order, each as a whole (they touch disjoint parts of the arrays).
Division by zero follows Lean (0 for 0/0) where Go gives NaN.
-/
set_option autoImplicit false
namespace Verif.NN
open Verif.Shape Verif.Tensor Finset

noncomputable section

/-- A Go loop `for i := 0; i < n; i++`. -/
def loop {σ : Type} (n : Nat) (f : Nat → σ → σ) (s : σ) : σ := (List.range n).foldl (fun s i => f i s) s

/-- `runInParallel(0, n, cb)`, utils.go 315-328, with the order in which the goroutines happen to run. -/
def runInParallel {σ : Type} (order : List Nat) (cb : Nat → σ → σ) (s : σ) : σ := order.foldl (fun s i => cb i s) s

/-- The arrays of a `BatchNormOp`, op_nn.go 1158-1172. -/
structure BNState where
  saveMean : Nat → ℝ
  saveVar : Nat → ℝ
  runningMean : Nat → ℝ
  runningVar : Nat → ℝ

/-- The rest of a `BatchNormOp`. -/
structure BNOp where
  momentum : ℝ
  epsilon : ℝ
  training : Bool

/-- `a[i] = v`. -/
def put (a : Nat → ℝ) (i : Nat) (v : ℝ) : Nat → ℝ := fun j => if j = i then v else a j

/-- The last two statements of the callbacks of `updateStatsF64`, op_nn.go 1377-1380 and 1404-1407. -/
def bnRunning (m : ℝ) (n : Nat) (c : Nat) (st : BNState) : BNState :=
  let st := { st with runningMean := put st.runningMean c (m * st.saveMean c + (1 - m) * st.runningMean c) }
  { st with runningVar := put st.runningVar c (m * (st.saveVar c / ((n : ℝ) - 1)) + (1 - m) * st.runningVar c) }

/-- `updateStatsF64` for one channel when the image size is 1, op_nn.go 1362-1381. -/
def bnStats1 (m : ℝ) (batchSize channels n : Nat) (inputA : Nat → ℝ) (c : Nat) (st : BNState) : BNState :=
  let st := loop batchSize (fun s st => { st with saveMean := put st.saveMean c (st.saveMean c + inputA (s * channels + c)) }) st
  let st := { st with saveMean := put st.saveMean c (st.saveMean c / (n : ℝ)) }
  let st := loop batchSize (fun s st => { st with saveVar := put st.saveVar c (st.saveVar c +
    (inputA (s * channels + c) - st.saveMean c) * (inputA (s * channels + c) - st.saveMean c)) }) st
  bnRunning m n c st

/-- `updateStatsF64` for one channel when the image size is more than 1, op_nn.go 1383-1408. -/
def bnStatsN (m : ℝ) (batchSize channels spatialDim n : Nat) (inputA : Nat → ℝ) (c : Nat) (st : BNState) : BNState :=
  let st := loop batchSize (fun s => loop spatialDim fun d st =>
    { st with saveMean := put st.saveMean c (st.saveMean c + inputA (s * channels * spatialDim + c * spatialDim + d)) }) st
  let st := { st with saveMean := put st.saveMean c (st.saveMean c / (n : ℝ)) }
  let st := loop batchSize (fun s => loop spatialDim fun d st =>
    let x := inputA (s * channels * spatialDim + c * spatialDim + d)
    { st with saveVar := put st.saveVar c (st.saveVar c + (x - st.saveMean c) * (x - st.saveMean c)) }) st
  bnRunning m n c st

/-- `updateStatsF64`, op_nn.go 1346-1412. -/
def updateStats (op : BNOp) (order : List Nat) (batchSize channels spatialDim : Nat) (inputA : Nat → ℝ) (st : BNState) : BNState :=
  let st := { st with saveMean := fun _ => 0, saveVar := fun _ => 0 }
  let n := spatialDim * batchSize
  if spatialDim = 1 then runInParallel order (bnStats1 op.momentum batchSize channels n inputA) st
  else runInParallel order (bnStatsN op.momentum batchSize channels spatialDim n inputA) st

/-- `calculateAlphaAndBetaF64`, op_nn.go 1416-1440. -/
def alphaBeta (op : BNOp) (order : List Nat) (batchSize spatialDim : Nat) (st : BNState) (ab : (Nat → ℝ) × (Nat → ℝ)) :
    (Nat → ℝ) × (Nat → ℝ) :=
  let n := spatialDim * batchSize
  runInParallel order (fun c ab =>
    let mean := if op.training then st.saveMean c else st.runningMean c
    let invStd := if op.training then 1 / Real.sqrt (st.saveVar c / (n : ℝ) + op.epsilon)
      else 1 / Real.sqrt (st.runningVar c + op.epsilon)
    let alpha := put ab.1 c invStd
    (alpha, put ab.2 c (-(mean * alpha c)))) ab

/-- `BatchNormOp.f64s`, op_nn.go 1442-1484: scales and shifts what stands in `output`. `order`, `order'` are the orders of the
goroutines over the channels and over the batch. -/
def bnF64s (op : BNOp) (order order' : List Nat) (shape : List Nat) (input output : Nat → ℝ) (st : BNState)
    (ab : (Nat → ℝ) × (Nat → ℝ)) : Res ((Nat → ℝ) × BNState × ((Nat → ℝ) × (Nat → ℝ))) :=
  match shape with
  | batchSize :: channels :: rest =>
    if channels * batchSize = 0 then .panic
    else
      let spatialDim := size (batchSize :: channels :: rest) / (channels * batchSize)
      let st := if op.training then updateStats op order batchSize channels spatialDim input st
        else { st with saveMean := fun _ => 0, saveVar := fun _ => 0 }
      let ab := alphaBeta op order batchSize spatialDim st ab
      let out :=
        if spatialDim = 1 then
          runInParallel order' (fun s out => loop channels (fun c out =>
            put out (s * channels + c) (out (s * channels + c) * ab.1 c + ab.2 c)) out) output
        else
          runInParallel order (fun c out => loop batchSize (fun s => loop spatialDim fun d out =>
            let i := s * channels * spatialDim + c * spatialDim + d
            put out i (out i * ab.1 c + ab.2 c)) out) output
      .ok (out, st, ab)
  | _ => .panic

/-- `BatchNormOp.Do`, op_nn.go 1198-1211: on a copy of the operand. -/
def bnDo (op : BNOp) (order order' : List Nat) (shape : List Nat) (input : Nat → ℝ) (st : BNState)
    (ab : (Nat → ℝ) × (Nat → ℝ)) := bnF64s op order order' shape input input st ab

/-- `BatchNormOp.UsePreallocDo`, op_nn.go 1264-1278. -/
def bnPrealloc (op : BNOp) (order order' : List Nat) (shape : List Nat) (prealloc input : Nat → ℝ) (st : BNState)
    (ab : (Nat → ℝ) × (Nat → ℝ)) := bnF64s op order order' shape input prealloc st ab

/-- One channel of `batchnormDiffOp.f64s` when the image size is 1, op_nn.go 1741-1784. -/
def bnDiff1 (op : BNOp) (channels n : Nat) (inp dy : Nat → ℝ) (st : BNState) (c : Nat) (ig : Nat → ℝ) : Nat → ℝ :=
  let mean := if op.training then st.saveMean c else st.runningVar c
  let invstd := if op.training then 1 / Real.sqrt (st.saveVar c / (n : ℝ) + op.epsilon)
    else 1 / Real.sqrt (st.runningVar c + op.epsilon)
  let acc := loop n (fun s (acc : ℝ × ℝ) =>
    (acc.1 + dy (s * channels + c), acc.2 + (inp (s * channels + c) - mean) * dy (s * channels + c))) (0, 0)
  let gradMean := acc.1 / (n : ℝ)
  if op.training then
    let k := acc.2 * invstd * invstd / (n : ℝ)
    loop n (fun s ig =>
      let i := s * channels + c
      let ig := put ig i ((inp i - mean) * k)
      put ig i ((dy i - ig i - gradMean) * invstd)) ig
  else loop n (fun s ig => put ig (s * channels + c) (dy (s * channels + c) * invstd)) ig

/-- One channel of `batchnormDiffOp.f64s` when the image size is more than 1, op_nn.go 1786-1828. -/
def bnDiffN (op : BNOp) (batchSize channels spatialDim n : Nat) (inp dy : Nat → ℝ) (st : BNState) (c : Nat) (ig : Nat → ℝ) :
    Nat → ℝ :=
  let acc := loop batchSize (fun s => loop spatialDim fun d (acc : ℝ × ℝ) =>
    let i := s * channels * spatialDim + c * spatialDim + d
    (acc.1 + dy i, acc.2 + (inp i * dy i - st.saveMean c * dy i))) (0, 0)
  let invstd := 1 / Real.sqrt (st.saveVar c / (n : ℝ) + op.epsilon)
  let k := acc.2 * invstd * invstd / (n : ℝ)
  let gradMean := acc.1 / (n : ℝ)
  if op.training then
    loop batchSize (fun s => loop spatialDim fun d ig =>
      let i := s * channels * spatialDim + c * spatialDim + d
      let ig := put ig i ((inp i - st.saveMean c) * k)
      put ig i ((dy i - gradMean - ig i) * invstd)) ig
  else
    loop batchSize (fun s => loop spatialDim fun d ig =>
      let i := s * channels * spatialDim + c * spatialDim + d
      put ig i (dy i * invstd)) ig

/-- `batchnormDiffOp.f64s`, op_nn.go 1723-1832. -/
def bnDiff (op : BNOp) (order : List Nat) (shape : List Nat) (inp dy : Nat → ℝ) (st : BNState) (ig : Nat → ℝ) : Res (Nat → ℝ) :=
  match shape with
  | batchSize :: channels :: rest =>
    if batchSize * channels = 0 then .panic
    else
      let spatialDim := size (batchSize :: channels :: rest) / (batchSize * channels)
      let n := batchSize * spatialDim
      if spatialDim = 1 then .ok (runInParallel order (bnDiff1 op channels n inp dy st) ig)
      else .ok (runInParallel order (bnDiffN op batchSize channels spatialDim n inp dy st) ig)
  | _ => .panic

/-- `BatchNormOp.DoDiff`, op_nn.go 1234-1241: reads the second and third of the operands of an operation of one operand. -/
def bnDoDiff {α : Type} (inputs : List α) (k : α → α → α → Res Unit) : Res Unit :=
  match inputs with
  | x :: s :: b :: _ => k x s b
  | _ => .panic

/-! ### Loops -/

theorem loop_succ {σ : Type} (n : Nat) (f : Nat → σ → σ) (s : σ) : loop (n + 1) f s = f n (loop n f s) := by
  simp [loop, List.range_succ]

theorem loop_proj {σ τ : Type} (π : σ → τ) (n : Nat) (f : Nat → σ → σ) (g : Nat → τ → τ) (s : σ)
    (h : ∀ i s, π (f i s) = g i (π s)) : π (loop n f s) = loop n g (π s) := by
  induction n with
  | zero => rfl
  | succ n ih => rw [loop_succ, loop_succ, h, ih]

theorem loop_sum (n : Nat) (F : Nat → ℝ) (a : ℝ) : loop n (fun i a => a + F i) a = a + ∑ i ∈ range n, F i := by
  induction n with
  | zero => simp [loop]
  | succ n ih => rw [loop_succ, ih, sum_range_succ]; ring

theorem loop_sum_eq {n : Nat} {f : Nat → ℝ → ℝ} {F : Nat → ℝ} {a : ℝ} (h : ∀ i a, f i a = a + F i) :
    loop n f a = a + ∑ i ∈ range n, F i := by
  rw [← loop_sum]
  congr 1
  funext i a; exact h i a

/-- Callbacks that touch disjoint parts: in whatever order they run, each acts on its part once. -/
theorem par_spec {σ α : Type} (cb : Nat → σ → σ) (π : Nat → σ → α) (G : Nat → α → α)
    (h1 : ∀ c s, π c (cb c s) = G c (π c s)) (h2 : ∀ c c' s, c ≠ c' → π c (cb c' s) = π c s) (order : List Nat)
    (hn : order.Nodup) (s : σ) (c : Nat) : π c (runInParallel order cb s) = if c ∈ order then G c (π c s) else π c s := by
  unfold runInParallel
  induction order generalizing s with
  | nil => simp
  | cons a l ih =>
    rw [List.nodup_cons] at hn
    rw [List.foldl_cons, ih hn.2]
    by_cases hca : c = a
    · subst hca
      rw [if_neg hn.1, if_pos (by simp), h1]
    · have : c ∈ a :: l ↔ c ∈ l := by simp [hca]
      rw [h2 c a s hca]
      by_cases hl : c ∈ l
      · rw [if_pos hl, if_pos (this.2 hl)]
      · rw [if_neg hl, if_neg (fun h => hl (this.1 h))]

/-! ### Positions -/

/-- The position of pixel `d` of channel `c` of image `s`. -/
def bnIndex (C S s c d : Nat) : Nat := s * C * S + c * S + d

theorem bnIndex_lt {B C S s c d : Nat} (hs : s < B) (hc : c < C) (hd : d < S) : bnIndex C S s c d < B * C * S := by
  unfold bnIndex
  have h1 : c * S + d < C * S := by nlinarith
  have h2 : (s + 1) * (C * S) ≤ B * (C * S) := Nat.mul_le_mul_right _ hs
  nlinarith

theorem bnIndex_inj {C S s c d s' c' d' : Nat} (hc : c < C) (hd : d < S) (hc' : c' < C) (hd' : d' < S)
    (h : bnIndex C S s c d = bnIndex C S s' c' d') : s = s' ∧ c = c' ∧ d = d' := by
  unfold bnIndex at h
  have hS : 0 < S := by omega
  have e1 : (s * C + c) * S + d = (s' * C + c') * S + d' := by
    have : ∀ a b e : Nat, (a * C + b) * S + e = a * C * S + b * S + e := fun a b e => by ring
    rw [this, this]; exact h
  have hd1 : d = d' := by
    have := congrArg (· % S) e1
    simpa [Nat.mul_add_mod', Nat.mod_eq_of_lt hd, Nat.mod_eq_of_lt hd', Nat.add_mod, Nat.mul_mod_left] using this
  subst hd1
  have e2 : s * C + c = s' * C + c' := by
    have := Nat.add_right_cancel e1
    exact Nat.eq_of_mul_eq_mul_right hS this
  have hc1 : c = c' := by
    have := congrArg (· % C) e2
    simpa [Nat.add_mod, Nat.mul_mod_left, Nat.mod_eq_of_lt hc, Nat.mod_eq_of_lt hc'] using this
  subst hc1
  have hC : 0 < C := by omega
  exact ⟨Nat.eq_of_mul_eq_mul_right hC (Nat.add_right_cancel e2), rfl, rfl⟩

/-! ### Writes -/

theorem put_same (a : Nat → ℝ) (i : Nat) (v : ℝ) : put a i v i = v := if_pos rfl

theorem put_other (a : Nat → ℝ) {i j : Nat} (v : ℝ) (h : j ≠ i) : put a i v j = a j := if_neg h

theorem put_put (a : Nat → ℝ) (i : Nat) (v w : ℝ) : put (put a i v) i w = put a i w := by
  funext j; unfold put; by_cases h : j = i <;> simp [h]

theorem put_id (a : Nat → ℝ) (i : Nat) : put a i (a i) = a := by
  funext j; unfold put; by_cases h : j = i <;> simp [h]

theorem foldl_put {ι : Type} (l : List ι) (p : ι → Nat) (v : ι → ℝ → ℝ) (out : Nat → ℝ) (hn : (l.map p).Nodup) :
    (∀ j ∈ l, l.foldl (fun o j => put o (p j) (v j (o (p j)))) out (p j) = v j (out (p j))) ∧
    ∀ k, k ∉ l.map p → l.foldl (fun o j => put o (p j) (v j (o (p j)))) out k = out k := by
  induction l generalizing out with
  | nil => simp
  | cons a l ih =>
    rw [List.map_cons, List.nodup_cons] at hn
    obtain ⟨i1, i2⟩ := ih (put out (p a) (v a (out (p a)))) hn.2
    refine ⟨fun j hj => ?_, fun k hk => ?_⟩
    · rw [List.foldl_cons]
      rcases List.mem_cons.1 hj with rfl | hj
      · rw [i2 _ hn.1, put_same]
      · rw [i1 j hj, put_other]
        rintro h
        exact hn.1 (h ▸ List.mem_map_of_mem hj)
    · rw [List.foldl_cons, i2 k (fun h => hk (by simp only [List.map_cons, List.mem_cons]; exact Or.inr h)), put_other]
      rintro rfl
      exact hk (by simp)

theorem foldl_product {α β σ : Type} (l : List α) (l' : List β) (f : σ → α × β → σ) (a : σ) :
    (l ×ˢ l').foldl f a = l.foldl (fun a x => l'.foldl (fun a y => f a (x, y)) a) a := by
  induction l generalizing a with
  | nil => rfl
  | cons x l ih => rw [List.product_cons, List.foldl_append, List.foldl_map, ih, List.foldl_cons]

/-- The positions of all pixels, channel by channel. -/
theorem positions_nodup {B C S : Nat} {order : List Nat} (ho : order.Perm (List.range C)) :
    ((order ×ˢ (List.range B ×ˢ List.range S)).map fun j => bnIndex C S j.2.1 j.1 j.2.2).Nodup := by
  refine List.Nodup.map_on ?_ ((ho.nodup_iff.2 List.nodup_range).product (List.nodup_range.product List.nodup_range))
  rintro ⟨c, s, d⟩ h ⟨c', s', d'⟩ h' e
  simp only [List.mem_product, List.mem_range, ho.mem_iff] at h h'
  obtain ⟨e1, e2, e3⟩ := bnIndex_inj h.1 h.2.2 h'.1 h'.2.2 e
  have e1' : s = s' := e1
  simp [e1', e2, e3]

/-- Writing every pixel of every channel once. -/
theorem write_all {B C S : Nat} {order : List Nat} (ho : order.Perm (List.range C)) (v : Nat → Nat → Nat → ℝ → ℝ) (out : Nat → ℝ)
    {s c d : Nat} (hs : s < B) (hc : c < C) (hd : d < S) :
    runInParallel order (fun c out => loop B (fun s => loop S fun d out =>
      put out (bnIndex C S s c d) (v c s d (out (bnIndex C S s c d)))) out) out (bnIndex C S s c d) =
      v c s d (out (bnIndex C S s c d)) := by
  have h := (foldl_put (order ×ˢ (List.range B ×ˢ List.range S)) (fun j => bnIndex C S j.2.1 j.1 j.2.2)
    (fun j => v j.1 j.2.1 j.2.2) out (positions_nodup ho)).1 (c, s, d)
    (by simp only [List.mem_product, List.mem_range, ho.mem_iff]; exact ⟨hc, hs, hd⟩)
  rw [foldl_product] at h
  simp only [foldl_product] at h
  exact h

/-- The same, image by image, for images of one pixel. -/
theorem write_all' {B C : Nat} {order : List Nat} (ho : order.Perm (List.range B)) (v : Nat → Nat → ℝ → ℝ) (out : Nat → ℝ)
    {s c : Nat} (hs : s < B) (hc : c < C) :
    runInParallel order (fun s out => loop C (fun c out => put out (s * C + c) (v c s (out (s * C + c)))) out) out (s * C + c) =
      v c s (out (s * C + c)) := by
  have hn : ((order ×ˢ List.range C).map fun j => j.1 * C + j.2).Nodup := by
    refine List.Nodup.map_on ?_ ((ho.nodup_iff.2 List.nodup_range).product List.nodup_range)
    rintro ⟨s, c⟩ h ⟨s', c'⟩ h' e
    simp only [List.mem_product, List.mem_range, ho.mem_iff] at h h'
    have := bnIndex_inj (S := 1) (d := 0) (d' := 0) h.2 Nat.one_pos h'.2 Nat.one_pos (s := s) (s' := s') (by simpa [bnIndex] using e)
    simp [this.1, this.2.1]
  have h := (foldl_put (order ×ˢ List.range C) (fun j => j.1 * C + j.2) (fun j => v j.2 j.1) out hn).1 (s, c)
    (by simp only [List.mem_product, List.mem_range, ho.mem_iff]; exact ⟨hs, hc⟩)
  rw [foldl_product] at h
  exact h

/-! ### Statistics -/

/-- The mean of a channel. -/
def bnMean (B C S : Nat) (x : Nat → ℝ) (c : Nat) : ℝ :=
  (∑ s ∈ range B, ∑ d ∈ range S, x (bnIndex C S s c d)) / ((B * S : Nat) : ℝ)

/-- The sum of the squared distances from the mean. -/
def bnSq (B C S : Nat) (x : Nat → ℝ) (c : Nat) : ℝ :=
  ∑ s ∈ range B, ∑ d ∈ range S, (x (bnIndex C S s c d) - bnMean B C S x c) ^ 2

/-- The variance of a channel. -/
def bnVar (B C S : Nat) (x : Nat → ℝ) (c : Nat) : ℝ := bnSq B C S x c / ((B * S : Nat) : ℝ)

theorem loop_mean (n c : Nat) (F : Nat → ℝ) (st : BNState) :
    loop n (fun s st => { st with saveMean := put st.saveMean c (st.saveMean c + F s) }) st =
      { st with saveMean := put st.saveMean c (st.saveMean c + ∑ s ∈ range n, F s) } := by
  induction n with
  | zero => simp [loop, put_id]
  | succ n ih => rw [loop_succ, ih, sum_range_succ]; simp only [put_put, put_same, add_assoc]

theorem loop_var (n c : Nat) (F : Nat → ℝ → ℝ) (st : BNState) :
    loop n (fun s st => { st with saveVar := put st.saveVar c (st.saveVar c + F s (st.saveMean c)) }) st =
      { st with saveVar := put st.saveVar c (st.saveVar c + ∑ s ∈ range n, F s (st.saveMean c)) } := by
  induction n with
  | zero => simp [loop, put_id]
  | succ n ih => rw [loop_succ, ih, sum_range_succ]; simp only [put_put, put_same, add_assoc]

/-- The four numbers of a channel. -/
def bnAt (c : Nat) (st : BNState) : ℝ × ℝ × ℝ × ℝ := (st.saveMean c, st.saveVar c, st.runningMean c, st.runningVar c)

/-- What the callback does to them. -/
def bnStep (m : ℝ) (n : Nat) (x : ℝ) (sq : ℝ → ℝ) (a : ℝ × ℝ × ℝ × ℝ) : ℝ × ℝ × ℝ × ℝ :=
  let M := (a.1 + x) / (n : ℝ)
  let V := a.2.1 + sq M
  (M, V, m * M + (1 - m) * a.2.2.1, m * (V / ((n : ℝ) - 1)) + (1 - m) * a.2.2.2)

theorem bnStatsN_at (m : ℝ) (B C S n : Nat) (x : Nat → ℝ) (c : Nat) (st : BNState) :
    bnAt c (bnStatsN m B C S n x c st) = bnStep m n (∑ s ∈ range B, ∑ d ∈ range S, x (bnIndex C S s c d))
      (fun M => ∑ s ∈ range B, ∑ d ∈ range S, (x (bnIndex C S s c d) - M) * (x (bnIndex C S s c d) - M)) (bnAt c st) ∧
    ∀ c', c' ≠ c → bnAt c' (bnStatsN m B C S n x c st) = bnAt c' st := by
  have i1 : (fun s => loop S fun d (st : BNState) =>
      { st with saveMean := put st.saveMean c (st.saveMean c + x (s * C * S + c * S + d)) }) = fun s (st : BNState) =>
      { st with saveMean := put st.saveMean c (st.saveMean c + ∑ d ∈ range S, x (bnIndex C S s c d)) } := by
    funext s st; exact loop_mean S c (fun d => x (bnIndex C S s c d)) st
  have i2 : (fun s => loop S fun d (st : BNState) =>
      { st with saveVar := put st.saveVar c (st.saveVar c + (x (s * C * S + c * S + d) - st.saveMean c) *
        (x (s * C * S + c * S + d) - st.saveMean c)) }) = fun s (st : BNState) =>
      { st with saveVar := put st.saveVar c (st.saveVar c + ∑ d ∈ range S, (x (bnIndex C S s c d) - st.saveMean c) *
        (x (bnIndex C S s c d) - st.saveMean c)) } := by
    funext s st; exact loop_var S c (fun d M => (x (bnIndex C S s c d) - M) * (x (bnIndex C S s c d) - M)) st
  unfold bnStatsN
  dsimp only
  rw [i1, i2, loop_mean B c (fun s => ∑ d ∈ range S, x (bnIndex C S s c d))]
  rw [loop_var B c (fun s M => ∑ d ∈ range S, (x (bnIndex C S s c d) - M) * (x (bnIndex C S s c d) - M))]
  simp only [bnRunning, bnAt, bnStep, put_same]
  refine ⟨trivial, fun c' hc => ?_⟩
  simp only [put_other _ _ hc]

theorem bnStats1_eq (m : ℝ) (B C n : Nat) (x : Nat → ℝ) (c : Nat) (st : BNState) : bnStats1 m B C n x c st = bnStatsN m B C 1 n x c st := by
  unfold bnStats1 bnStatsN
  simp [loop]

theorem updateStats_spec (op : BNOp) {order : List Nat} (B C S : Nat) (ho : order.Perm (List.range C)) (x : Nat → ℝ) (st : BNState)
    {c : Nat} (hc : c < C) :
    let st' := updateStats op order B C S x st
    st'.saveMean c = bnMean B C S x c ∧ st'.saveVar c = bnSq B C S x c ∧
    st'.runningMean c = op.momentum * bnMean B C S x c + (1 - op.momentum) * st.runningMean c ∧
    st'.runningVar c = op.momentum * (bnSq B C S x c / (((B * S : Nat) : ℝ) - 1)) + (1 - op.momentum) * st.runningVar c := by
  have key : bnAt c (updateStats op order B C S x st) = bnStep op.momentum (S * B) (∑ s ∈ range B, ∑ d ∈ range S, x (bnIndex C S s c d))
      (fun M => ∑ s ∈ range B, ∑ d ∈ range S, (x (bnIndex C S s c d) - M) * (x (bnIndex C S s c d) - M))
      (0, 0, st.runningMean c, st.runningVar c) := by
    have hp := par_spec (bnStatsN op.momentum B C S (S * B) x) bnAt
      (fun c => bnStep op.momentum (S * B) (∑ s ∈ range B, ∑ d ∈ range S, x (bnIndex C S s c d))
      (fun M => ∑ s ∈ range B, ∑ d ∈ range S, (x (bnIndex C S s c d) - M) * (x (bnIndex C S s c d) - M)))
      (fun c s => (bnStatsN_at _ _ _ _ _ _ _ _).1) (fun c c' s h => (bnStatsN_at _ _ _ _ _ _ _ _).2 _ h)
      order (ho.nodup_iff.2 List.nodup_range) { st with saveMean := fun _ => 0, saveVar := fun _ => 0 } c
    rw [if_pos (ho.mem_iff.2 (List.mem_range.2 hc))] at hp
    unfold updateStats
    by_cases hS : S = 1
    · subst hS
      rw [if_pos rfl]
      have : bnStats1 op.momentum B C (1 * B) x = bnStatsN op.momentum B C 1 (1 * B) x := by funext c st; exact bnStats1_eq _ _ _ _ _ _ _
      rw [this]; exact hp
    · rw [if_neg hS]; exact hp
  simp only [bnAt, bnStep, Prod.mk.injEq, zero_add] at key
  obtain ⟨k1, k2, k3, k4⟩ := key
  have hM : (∑ s ∈ range B, ∑ d ∈ range S, x (bnIndex C S s c d)) / ((S * B : Nat) : ℝ) = bnMean B C S x c := by
    rw [Nat.mul_comm]; rfl
  rw [hM] at k1 k2 k3 k4
  have hV : (∑ s ∈ range B, ∑ d ∈ range S, (x (bnIndex C S s c d) - bnMean B C S x c) * (x (bnIndex C S s c d) - bnMean B C S x c)) =
      bnSq B C S x c := by
    unfold bnSq; simp only [pow_two]
  rw [hV] at k2 k4
  rw [Nat.mul_comm] at k4
  exact ⟨k1, k2, k3, k4⟩

/-! ### Value -/

/-- The mean that normalises channel `c`: that of the batch while training, the running one otherwise. -/
def normMean (op : BNOp) (B C S : Nat) (x : Nat → ℝ) (st : BNState) (c : Nat) : ℝ :=
  if op.training then bnMean B C S x c else st.runningMean c

/-- The variance that normalises channel `c`. -/
def normVar (op : BNOp) (B C S : Nat) (x : Nat → ℝ) (st : BNState) (c : Nat) : ℝ :=
  if op.training then bnVar B C S x c else st.runningVar c

theorem alphaBeta_spec (op : BNOp) {order : List Nat} (B C S : Nat) (ho : order.Perm (List.range C)) (st : BNState)
    (ab : (Nat → ℝ) × (Nat → ℝ)) {c : Nat} (hc : c < C) :
    let inv := if op.training then 1 / Real.sqrt (st.saveVar c / ((B * S : Nat) : ℝ) + op.epsilon)
      else 1 / Real.sqrt (st.runningVar c + op.epsilon)
    (alphaBeta op order B S st ab).1 c = inv ∧
      (alphaBeta op order B S st ab).2 c = -((if op.training then st.saveMean c else st.runningMean c) * inv) := by
  have hp := par_spec (α := ℝ × ℝ) (fun c (ab : (Nat → ℝ) × (Nat → ℝ)) =>
      let mean := if op.training then st.saveMean c else st.runningMean c
      let invStd := if op.training then 1 / Real.sqrt (st.saveVar c / ((S * B : Nat) : ℝ) + op.epsilon)
        else 1 / Real.sqrt (st.runningVar c + op.epsilon)
      let alpha := put ab.1 c invStd
      (alpha, put ab.2 c (-(mean * alpha c)))) (fun c ab => (ab.1 c, ab.2 c))
    (fun c _ =>
      let inv := if op.training then 1 / Real.sqrt (st.saveVar c / ((S * B : Nat) : ℝ) + op.epsilon)
        else 1 / Real.sqrt (st.runningVar c + op.epsilon)
      (inv, -((if op.training then st.saveMean c else st.runningMean c) * inv)))
    (fun c s => by simp only [put_same]) (fun c c' s h => by simp only [put_other _ _ h])
    order (ho.nodup_iff.2 List.nodup_range) ab c
  rw [if_pos (ho.mem_iff.2 (List.mem_range.2 hc)), Nat.mul_comm S B] at hp
  rw [Prod.mk.injEq] at hp
  unfold alphaBeta
  rw [Nat.mul_comm S B]
  exact hp

theorem spatial_eq {B C : Nat} (rest : List Nat) (h : 0 < C * B) : size (B :: C :: rest) / (C * B) = size rest := by
  have : size (B :: C :: rest) = C * B * size rest := by simp [size]; ring
  rw [this, Nat.mul_div_cancel_left _ h]

/-- What `BatchNormOp.f64s` computes, in both modes, for every order of the goroutines. -/
theorem bnF64s_spec (op : BNOp) {order order' : List Nat} (B C : Nat) (rest : List Nat) (hB : 0 < B) (hC : 0 < C)
    (ho : order.Perm (List.range C)) (ho' : order'.Perm (List.range B)) (x output : Nat → ℝ) (st : BNState)
    (ab : (Nat → ℝ) × (Nat → ℝ)) : ∃ out st' ab', bnF64s op order order' (B :: C :: rest) x output st ab = .ok (out, st', ab') ∧
      st' = (if op.training then updateStats op order B C (size rest) x st
        else { st with saveMean := fun _ => 0, saveVar := fun _ => 0 }) ∧
      ∀ s c d, s < B → c < C → d < size rest → out (bnIndex C (size rest) s c d) =
        (output (bnIndex C (size rest) s c d) - normMean op B C (size rest) x st c) *
          (1 / Real.sqrt (normVar op B C (size rest) x st c + op.epsilon)) := by
  have hCB : 0 < C * B := Nat.mul_pos hC hB
  unfold bnF64s
  simp only [Nat.pos_iff_ne_zero.1 hCB, if_false, spatial_eq rest hCB]
  refine ⟨_, _, _, rfl, rfl, fun s c d hs hc hd => ?_⟩
  set S := size rest with hSd
  set st' := (if op.training then updateStats op order B C S x st else { st with saveMean := fun _ => 0, saveVar := fun _ => 0 }) with hst
  have hab : (alphaBeta op order B S st' ab).1 c = 1 / Real.sqrt (normVar op B C S x st c + op.epsilon) ∧
      (alphaBeta op order B S st' ab).2 c = -(normMean op B C S x st c * (1 / Real.sqrt (normVar op B C S x st c + op.epsilon))) := by
    have h := alphaBeta_spec op B C S ho st' ab hc
    simp only at h
    rw [h.1, h.2]
    unfold normVar normMean
    by_cases ht : op.training = true
    · have hu := updateStats_spec op B C S ho x st hc
      simp only at hu
      simp only [ht, if_true] at hst ⊢
      rw [hst, hu.1, hu.2.1]
      exact ⟨rfl, rfl⟩
    · simp only [ht] at hst ⊢
      rw [hst]
      simp
  have fin : ∀ o, o * (alphaBeta op order B S st' ab).1 c + (alphaBeta op order B S st' ab).2 c =
      (o - normMean op B C S x st c) * (1 / Real.sqrt (normVar op B C S x st c + op.epsilon)) := by
    intro o; rw [hab.1, hab.2]; ring
  by_cases hS : S = 1
  · rw [if_pos hS]
    have hd0 : d = 0 := by omega
    have hi : bnIndex C S s c d = s * C + c := by rw [hS, hd0]; simp [bnIndex]
    rw [hi]
    have := write_all' ho' (fun c _ o => o * (alphaBeta op order B S st' ab).1 c + (alphaBeta op order B S st' ab).2 c) output hs hc
    rw [this, fin]
  · rw [if_neg hS]
    have := write_all ho (fun c _ _ o => o * (alphaBeta op order B S st' ab).1 c + (alphaBeta op order B S st' ab).2 c) output hs hc hd
    simp only [bnIndex] at this ⊢
    rw [this, fin]

/-- The normalised pixel. -/
def bnOut (ε : ℝ) (B C S : Nat) (x : Nat → ℝ) (s c d : Nat) : ℝ :=
  (x (bnIndex C S s c d) - bnMean B C S x c) / Real.sqrt (bnVar B C S x c + ε)

/-- **C68 (value, training).** For every batch, every order of the goroutines and every state: every pixel comes out as its distance
from the mean of its channel over the batch divided by the root of the variance plus epsilon; the batch statistics are saved
and the running ones moved towards them (the variance without bias, for at least two pixels). -/
theorem bn_value (op : BNOp) (ht : op.training = true) {order order' : List Nat} (B C : Nat) (rest : List Nat) (hB : 0 < B) (hC : 0 < C)
    (ho : order.Perm (List.range C)) (ho' : order'.Perm (List.range B)) (x : Nat → ℝ) (st : BNState) (ab : (Nat → ℝ) × (Nat → ℝ)) :
    ∃ out st' ab', bnDo op order order' (B :: C :: rest) x st ab = .ok (out, st', ab') ∧
      (∀ s c d, s < B → c < C → d < size rest → out (bnIndex C (size rest) s c d) = bnOut op.epsilon B C (size rest) x s c d) ∧
      ∀ c < C, st'.saveMean c = bnMean B C (size rest) x c ∧ st'.saveVar c = bnSq B C (size rest) x c ∧
        st'.runningMean c = op.momentum * bnMean B C (size rest) x c + (1 - op.momentum) * st.runningMean c ∧
        st'.runningVar c = op.momentum * (bnSq B C (size rest) x c / (((B * size rest : Nat) : ℝ) - 1)) +
          (1 - op.momentum) * st.runningVar c := by
  obtain ⟨out, st', ab', e1, e2, e3⟩ := bnF64s_spec op B C rest hB hC ho ho' x x st ab
  refine ⟨out, st', ab', e1, fun s c d hs hc hd => ?_, fun c hc => ?_⟩
  · rw [e3 s c d hs hc hd]
    simp only [normMean, normVar, ht, if_true, bnOut]
    rw [mul_one_div]
  · rw [e2]; simp only [ht, if_true]
    exact updateStats_spec op B C (size rest) ho x st hc

/-- **C68 (value, evaluation).** Outside training the running statistics normalise, and are not changed. -/
theorem bn_value_eval (op : BNOp) (ht : op.training = false) {order order' : List Nat} (B C : Nat) (rest : List Nat) (hB : 0 < B)
    (hC : 0 < C) (ho : order.Perm (List.range C)) (ho' : order'.Perm (List.range B)) (x : Nat → ℝ) (st : BNState)
    (ab : (Nat → ℝ) × (Nat → ℝ)) : ∃ out st' ab', bnDo op order order' (B :: C :: rest) x st ab = .ok (out, st', ab') ∧
      (∀ s c d, s < B → c < C → d < size rest → out (bnIndex C (size rest) s c d) =
        (x (bnIndex C (size rest) s c d) - st.runningMean c) / Real.sqrt (st.runningVar c + op.epsilon)) ∧
      st'.runningMean = st.runningMean ∧ st'.runningVar = st.runningVar ∧ st'.saveVar = fun _ => 0 := by
  obtain ⟨out, st', ab', e1, e2, e3⟩ := bnF64s_spec op B C rest hB hC ho ho' x x st ab
  refine ⟨out, st', ab', e1, fun s c d hs hc hd => ?_, ?_⟩
  · rw [e3 s c d hs hc hd]
    simp only [normMean, normVar, ht, Bool.false_eq_true, if_false]
    rw [mul_one_div]
  · rw [e2]; simp [ht]

/-- **C68 (defect).** Given a preallocated result, batch normalisation normalises what stands in it instead of the operand: every
pixel is wrong unless it already held the operand's pixel. (The tape machine does not offer one after `Reset`: `Verif.Tape.no_prealloc`.) -/
theorem bn_prealloc_wrong_iff (op : BNOp) {order order' : List Nat} (B C : Nat) (rest : List Nat) (hB : 0 < B) (hC : 0 < C)
    (ho : order.Perm (List.range C)) (ho' : order'.Perm (List.range B)) (x prealloc : Nat → ℝ) (st : BNState)
    (ab : (Nat → ℝ) × (Nat → ℝ)) : ∃ out out' st' ab', bnDo op order order' (B :: C :: rest) x st ab = .ok (out, st', ab') ∧
      bnPrealloc op order order' (B :: C :: rest) prealloc x st ab = .ok (out', st', ab') ∧
      ∀ s c d, s < B → c < C → d < size rest → 0 < normVar op B C (size rest) x st c + op.epsilon →
        (out' (bnIndex C (size rest) s c d) = out (bnIndex C (size rest) s c d) ↔
          prealloc (bnIndex C (size rest) s c d) = x (bnIndex C (size rest) s c d)) := by
  obtain ⟨out, st', ab', e1, e2, e3⟩ := bnF64s_spec op B C rest hB hC ho ho' x x st ab
  obtain ⟨out', st'', ab'', f1, f2, f3⟩ := bnF64s_spec op B C rest hB hC ho ho' x prealloc st ab
  have hab : ab'' = ab' := by
    have hCB : C * B ≠ 0 := (Nat.mul_pos hC hB).ne'
    unfold bnF64s at e1 f1
    simp only [hCB, if_false, Res.ok.injEq, Prod.mk.injEq] at e1 f1
    rw [← e1.2.2, ← f1.2.2]
  refine ⟨out, out', st', ab', e1, ?_, fun s c d hs hc hd hv => ?_⟩
  · rw [← hab, e2, ← f2]; exact f1
  · rw [e3 s c d hs hc hd, f3 s c d hs hc hd]
    have hp : (0 : ℝ) < 1 / Real.sqrt (normVar op B C (size rest) x st c + op.epsilon) := by positivity
    constructor
    · intro h
      have := mul_right_cancel₀ hp.ne' h
      linarith
    · intro h; rw [h]

/-! ### The output is normalised -/

theorem bnVar_nonneg (B C S : Nat) (x : Nat → ℝ) (c : Nat) : 0 ≤ bnVar B C S x c := by
  unfold bnVar bnSq
  positivity

theorem bn_centred (B C S : Nat) (hn : 0 < B * S) (x : Nat → ℝ) (c : Nat) :
    ∑ s ∈ range B, ∑ d ∈ range S, (x (bnIndex C S s c d) - bnMean B C S x c) = 0 := by
  have hn' : ((B * S : Nat) : ℝ) ≠ 0 := by exact_mod_cast hn.ne'
  simp only [sum_sub_distrib, sum_const, card_range, nsmul_eq_mul]
  have : bnMean B C S x c * ((B * S : Nat) : ℝ) = ∑ s ∈ range B, ∑ d ∈ range S, x (bnIndex C S s c d) := by
    unfold bnMean; rw [div_mul_cancel₀ _ hn']
  rw [← this]
  push_cast
  ring

/-- **C68 (what it is for).** While training, every channel comes out with mean 0 and variance `v / (v + ε)`. -/
theorem bn_normalised (ε : ℝ) (hε : 0 < ε) (B C S : Nat) (hn : 0 < B * S) (x : Nat → ℝ) (c : Nat) :
    ∑ s ∈ range B, ∑ d ∈ range S, bnOut ε B C S x s c d = 0 ∧
    (∑ s ∈ range B, ∑ d ∈ range S, bnOut ε B C S x s c d ^ 2) / ((B * S : Nat) : ℝ) = bnVar B C S x c / (bnVar B C S x c + ε) := by
  have hv : 0 < bnVar B C S x c + ε := by have := bnVar_nonneg B C S x c; linarith
  unfold bnOut
  constructor
  · simp only [← sum_div]
    rw [bn_centred B C S hn, zero_div]
  · simp only [div_pow, Real.sq_sqrt hv.le, ← sum_div]
    rw [div_right_comm]; rfl

/-! ### Gradient -/

theorem loop_pair (n : Nat) (F G : Nat → ℝ) (a : ℝ × ℝ) :
    loop n (fun i a => (a.1 + F i, a.2 + G i)) a = (a.1 + ∑ i ∈ range n, F i, a.2 + ∑ i ∈ range n, G i) := by
  induction n with
  | zero => simp [loop]
  | succ n ih => rw [loop_succ, ih, sum_range_succ, sum_range_succ]; simp only [add_assoc]

theorem loop_pair2 (B S : Nat) (F G : Nat → Nat → ℝ) :
    loop B (fun s => loop S fun d (a : ℝ × ℝ) => (a.1 + F s d, a.2 + G s d)) (0, 0) =
      (∑ s ∈ range B, ∑ d ∈ range S, F s d, ∑ s ∈ range B, ∑ d ∈ range S, G s d) := by
  have : (fun s => loop S fun d (a : ℝ × ℝ) => (a.1 + F s d, a.2 + G s d)) =
      fun s a => (a.1 + ∑ d ∈ range S, F s d, a.2 + ∑ d ∈ range S, G s d) := by
    funext s a; exact loop_pair S (F s) (G s) a
  rw [this, loop_pair]; simp

/-- What the gradient computes for one pixel, given the statistics it uses. -/
def bnGradAt (B C S : Nat) (x dy : Nat → ℝ) (mean inv : ℝ) (s c d : Nat) : ℝ :=
  let n : ℝ := ((B * S : Nat) : ℝ)
  (dy (bnIndex C S s c d) - (∑ s ∈ range B, ∑ d ∈ range S, dy (bnIndex C S s c d)) / n -
    (x (bnIndex C S s c d) - mean) *
      ((∑ s ∈ range B, ∑ d ∈ range S, (x (bnIndex C S s c d) - mean) * dy (bnIndex C S s c d)) * inv * inv / n)) * inv

theorem bnDiff_spec (op : BNOp) {order : List Nat} (B C : Nat) (rest : List Nat) (hB : 0 < B) (hC : 0 < C)
    (ho : order.Perm (List.range C)) (x dy : Nat → ℝ) (st : BNState) (ig : Nat → ℝ) :
    ∃ dx, bnDiff op order (B :: C :: rest) x dy st ig = .ok dx ∧
      ∀ s c d, s < B → c < C → d < size rest → dx (bnIndex C (size rest) s c d) =
        if op.training then bnGradAt B C (size rest) x dy (st.saveMean c)
          (1 / Real.sqrt (st.saveVar c / ((B * size rest : Nat) : ℝ) + op.epsilon)) s c d
        else dy (bnIndex C (size rest) s c d) * (1 / Real.sqrt ((if size rest = 1 then st.runningVar c
          else st.saveVar c / ((B * size rest : Nat) : ℝ)) + op.epsilon)) := by
  have hBC : 0 < B * C := Nat.mul_pos hB hC
  have hsp : size (B :: C :: rest) / (B * C) = size rest := by
    rw [Nat.mul_comm B C]; exact spatial_eq rest (by rw [Nat.mul_comm]; exact hBC)
  unfold bnDiff
  simp only [hBC.ne', if_false, hsp]
  set S := size rest with hSd
  by_cases hS : S = 1
  · rw [if_pos hS]
    refine ⟨_, rfl, fun s c d hs hc hd => ?_⟩
    have hd0 : d = 0 := by omega
    clear_value S
    subst hS hd0
    have hi : ∀ s c, bnIndex C 1 s c 0 = s * C + c := fun s c => by simp [bnIndex]
    obtain ⟨V, hV⟩ : ∃ V : Nat → Nat → Nat → ℝ → ℝ, V = fun c s d _ => if op.training then bnGradAt B C 1 x dy (st.saveMean c)
          (1 / Real.sqrt (st.saveVar c / ((B * 1 : Nat) : ℝ) + op.epsilon)) s c d
          else dy (bnIndex C 1 s c d) * (1 / Real.sqrt (st.runningVar c + op.epsilon)) := ⟨_, rfl⟩
    have hcb : bnDiff1 op C (B * 1) x dy st = fun c ig => loop B (fun s => loop 1 fun d ig =>
        put ig (bnIndex C 1 s c d) (V c s d (ig (bnIndex C 1 s c d)))) ig := by
      funext c ig
      unfold bnDiff1
      have h1 : ∀ (f : Nat → (Nat → ℝ) → (Nat → ℝ)), loop 1 f = fun o => f 0 o := fun f => rfl
      simp only [h1, loop_pair, hi, Nat.mul_one, zero_add, hV]
      by_cases ht : op.training = true
      · simp only [ht, if_true, put_put, put_same, bnGradAt, range_one, sum_singleton, hi, Nat.mul_one]
        congr 1
        funext s ig
        congr 1
        ring
      · simp only [ht, Bool.false_eq_true, if_false]
    rw [hcb, write_all ho V ig hs hc hd, hV]
    simp
  · rw [if_neg hS]
    refine ⟨_, rfl, fun s c d hs hc hd => ?_⟩
    obtain ⟨V, hV⟩ : ∃ V : Nat → Nat → Nat → ℝ → ℝ, V = fun c s d _ => if op.training then bnGradAt B C S x dy (st.saveMean c)
          (1 / Real.sqrt (st.saveVar c / ((B * S : Nat) : ℝ) + op.epsilon)) s c d
          else dy (bnIndex C S s c d) * (1 / Real.sqrt (st.saveVar c / ((B * S : Nat) : ℝ) + op.epsilon)) := ⟨_, rfl⟩
    have hcb : bnDiffN op B C S (B * S) x dy st = fun c ig => loop B (fun s => loop S fun d ig =>
        put ig (bnIndex C S s c d) (V c s d (ig (bnIndex C S s c d)))) ig := by
      funext c ig
      unfold bnDiffN
      have hp := loop_pair2 B S (fun s d => dy (bnIndex C S s c d))
        (fun s d => x (bnIndex C S s c d) * dy (bnIndex C S s c d) - st.saveMean c * dy (bnIndex C S s c d))
      simp only [bnIndex] at hp
      simp only [hp, hV]
      by_cases ht : op.training = true
      · simp only [ht, if_true, put_put, put_same, bnGradAt, bnIndex, sub_mul]
      · simp only [ht, Bool.false_eq_true, if_false, bnIndex]
    rw [hcb, write_all ho V ig hs hc hd, hV]
    simp [hS]

/-- The derivative of normalisation over a finite set of pixels. -/
theorem norm_hasDerivAt {ι : Type} (S : Finset ι) (hS : S.Nonempty) (ε : ℝ) (x v g : ι → ℝ)
    (hpos : 0 < (∑ i ∈ S, (x i - (∑ j ∈ S, x j) / (S.card : ℝ)) ^ 2) / (S.card : ℝ) + ε) :
    let μ := (∑ j ∈ S, x j) / (S.card : ℝ)
    let inv := 1 / Real.sqrt ((∑ i ∈ S, (x i - μ) ^ 2) / (S.card : ℝ) + ε)
    HasDerivAt (fun t : ℝ => ∑ i ∈ S, g i * (((x i + t * v i) - (∑ j ∈ S, (x j + t * v j)) / (S.card : ℝ)) /
        Real.sqrt ((∑ k ∈ S, ((x k + t * v k) - (∑ j ∈ S, (x j + t * v j)) / (S.card : ℝ)) ^ 2) / (S.card : ℝ) + ε)))
      (∑ i ∈ S, (g i - (∑ j ∈ S, g j) / (S.card : ℝ) - (x i - μ) * ((∑ j ∈ S, (x j - μ) * g j) * inv * inv / (S.card : ℝ))) * inv * v i)
      0 := by
  intro μ inv
  have hN : (S.card : ℝ) ≠ 0 := by exact_mod_cast (card_pos.2 hS).ne'
  set N : ℝ := (S.card : ℝ) with hNd
  set ν := (∑ j ∈ S, v j) / N with hν
  have hmean : ∀ t : ℝ, (∑ j ∈ S, (x j + t * v j)) / N = μ + t * ν := by
    intro t; rw [sum_add_distrib, ← mul_sum, add_div, mul_div_assoc]
  have hterm : ∀ (t : ℝ) (i : ι), (x i + t * v i) - (μ + t * ν) = (x i - μ) + t * (v i - ν) := fun t i => by ring
  simp only [hmean, hterm]
  set V : ℝ → ℝ := fun t => (∑ k ∈ S, ((x k - μ) + t * (v k - ν)) ^ 2) / N + ε with hV
  have hV0 : V 0 = (∑ i ∈ S, (x i - μ) ^ 2) / N + ε := by simp [hV]
  have hVp : 0 < V 0 := by rw [hV0]; exact hpos
  have hc0 : ∑ i ∈ S, (x i - μ) = 0 := by
    rw [sum_sub_distrib, sum_const, nsmul_eq_mul]
    have : N * μ = ∑ j ∈ S, x j := by rw [mul_div_cancel₀ _ hN]
    rw [← hNd, this, sub_self]
  have hVd : HasDerivAt V (2 * (∑ k ∈ S, (x k - μ) * v k) / N) 0 := by
    have h1 : ∀ k ∈ S, HasDerivAt (fun t : ℝ => ((x k - μ) + t * (v k - ν)) ^ 2) (2 * (x k - μ) * (v k - ν)) 0 := by
      intro k _
      have hl : HasDerivAt (fun t : ℝ => (x k - μ) + t * (v k - ν)) (v k - ν) 0 := by
        simpa using ((hasDerivAt_id (0 : ℝ)).mul_const (v k - ν)).const_add (x k - μ)
      exact (hl.fun_pow 2).congr_deriv (by simp)
    have h2 := ((HasDerivAt.fun_sum h1).div_const N).add_const ε
    refine h2.congr_deriv ?_
    have : ∑ k ∈ S, 2 * (x k - μ) * (v k - ν) = 2 * (∑ k ∈ S, (x k - μ) * v k) := by
      have e : ∀ k, 2 * (x k - μ) * (v k - ν) = 2 * ((x k - μ) * v k) - 2 * ν * (x k - μ) := fun k => by ring
      simp only [e]
      rw [sum_sub_distrib, ← mul_sum, ← mul_sum, hc0]; ring
    rw [this]
  have hsq : HasDerivAt (fun t => Real.sqrt (V t)) (2 * (∑ k ∈ S, (x k - μ) * v k) / N / (2 * Real.sqrt (V 0))) 0 :=
    hVd.sqrt hVp.ne'
  have hsp : 0 < Real.sqrt (V 0) := Real.sqrt_pos.2 hVp
  have hi : ∀ i ∈ S, HasDerivAt (fun t : ℝ => g i * (((x i - μ) + t * (v i - ν)) / Real.sqrt (V t)))
      (g i * (((v i - ν) * Real.sqrt (V 0) - (x i - μ) * (2 * (∑ k ∈ S, (x k - μ) * v k) / N / (2 * Real.sqrt (V 0)))) /
        Real.sqrt (V 0) ^ 2)) 0 := by
    intro i _
    have hl : HasDerivAt (fun t : ℝ => (x i - μ) + t * (v i - ν)) (v i - ν) 0 := by
      simpa using ((hasDerivAt_id (0 : ℝ)).mul_const (v i - ν)).const_add (x i - μ)
    have := (hl.div hsq hsp.ne').const_mul (g i)
    simpa using this
  refine (HasDerivAt.fun_sum hi).congr_deriv ?_
  have hinv : inv = 1 / Real.sqrt (V 0) := by rw [hV0]
  rw [hinv]
  set q := Real.sqrt (V 0) with hq
  set A := ∑ j ∈ S, (x j - μ) * g j with hA
  set W := ∑ k ∈ S, (x k - μ) * v k with hW
  set Γ := ∑ j ∈ S, g j with hΓ
  have l : ∀ i, g i * (((v i - ν) * q - (x i - μ) * (2 * W / N / (2 * q))) / q ^ 2) =
      (g i * v i) * (1 / q) - g i * (ν / q) - ((x i - μ) * g i) * (W / N / q ^ 3) := by
    intro i; field_simp
  have r : ∀ i, (g i - Γ / N - (x i - μ) * (A * (1 / q) * (1 / q) / N)) * (1 / q) * v i =
      (g i * v i) * (1 / q) - v i * (Γ / N / q) - ((x i - μ) * v i) * (A / N / q ^ 3) := by
    intro i; field_simp
  simp only [l, r]
  simp only [sum_sub_distrib, ← sum_mul]
  rw [← hA, ← hW, ← hΓ, hν]
  field_simp

/-- The pairing of a gradient with the result of normalising the batch. -/
def bnLoss (ε : ℝ) (B C S : Nat) (dy x : Nat → ℝ) : ℝ :=
  ∑ c ∈ range C, ∑ s ∈ range B, ∑ d ∈ range S, dy (bnIndex C S s c d) * bnOut ε B C S x s c d

/-- **C68 (gradient, training).** Run after the forward computation, the gradient computed is the derivative of the normalisation, the
dependence of mean and variance on the operand included, for every direction `v`, every batch, every order of the goroutines and
whatever the array for the gradient held. -/
theorem bn_grad (op : BNOp) (ht : op.training = true) {order order' order'' : List Nat} (B C : Nat) (rest : List Nat) (hB : 0 < B)
    (hC : 0 < C) (hS : 0 < size rest) (hε : 0 < op.epsilon) (ho : order.Perm (List.range C)) (ho' : order'.Perm (List.range B))
    (ho'' : order''.Perm (List.range C)) (x dy ig : Nat → ℝ) (st : BNState) (ab : (Nat → ℝ) × (Nat → ℝ)) :
    ∃ out st' ab' dx, bnDo op order order' (B :: C :: rest) x st ab = .ok (out, st', ab') ∧
      bnDiff op order'' (B :: C :: rest) x dy st' ig = .ok dx ∧
      ∀ v : Nat → ℝ, HasDerivAt (fun t : ℝ => bnLoss op.epsilon B C (size rest) dy fun i => x i + t * v i)
        (∑ c ∈ range C, ∑ s ∈ range B, ∑ d ∈ range (size rest), dx (bnIndex C (size rest) s c d) * v (bnIndex C (size rest) s c d)) 0 := by
  obtain ⟨out, st', ab', e1, _, e3⟩ := bn_value op ht B C rest hB hC ho ho' x st ab
  obtain ⟨dx, d1, d2⟩ := bnDiff_spec op B C rest hB hC ho'' x dy st' ig
  refine ⟨out, st', ab', dx, e1, d1, fun v => ?_⟩
  set S := size rest with hSd
  unfold bnLoss
  refine HasDerivAt.fun_sum fun c hc => ?_
  have hc := mem_range.1 hc
  obtain ⟨m1, m2, _⟩ := e3 c hc
  have hcard : ((range B ×ˢ range S).card : ℝ) = ((B * S : Nat) : ℝ) := by rw [card_product, card_range, card_range]
  have hne : (range B ×ˢ range S).Nonempty := ⟨(0, 0), by simp [hB, hS]⟩
  have key := norm_hasDerivAt (range B ×ˢ range S) hne op.epsilon (fun p => x (bnIndex C S p.1 c p.2))
    (fun p => v (bnIndex C S p.1 c p.2)) (fun p => dy (bnIndex C S p.1 c p.2)) (by
      have : (0 : ℝ) ≤ (∑ i ∈ range B ×ˢ range S, (x (bnIndex C S i.1 c i.2) - (∑ j ∈ range B ×ˢ range S, x (bnIndex C S j.1 c j.2)) /
        ((range B ×ˢ range S).card : ℝ)) ^ 2) / ((range B ×ˢ range S).card : ℝ) := by positivity
      linarith)
  simp only [hcard, sum_product] at key
  refine key.congr_deriv ?_
  refine sum_congr rfl fun s hs => sum_congr rfl fun d hd => ?_
  rw [d2 s c d (mem_range.1 hs) hc (mem_range.1 hd), if_pos ht, m1, m2]
  unfold bnGradAt bnSq
  rfl

/-- **C68 (gradient, evaluation).** Outside training the derivative is the incoming gradient over the root of the running variance plus
epsilon. For images of one pixel that is what is computed; otherwise (defect) the running variance is left out, so that the
gradient is right exactly when it is 0 or the incoming gradient is. -/
theorem bn_grad_eval_iff (op : BNOp) (ht : op.training = false) {order order' order'' : List Nat} (B C : Nat) (rest : List Nat)
    (hB : 0 < B) (hC : 0 < C) (hε : 0 < op.epsilon) (ho : order.Perm (List.range C)) (ho' : order'.Perm (List.range B))
    (ho'' : order''.Perm (List.range C)) (x dy ig : Nat → ℝ) (st : BNState) (hv : ∀ c, 0 ≤ st.runningVar c)
    (ab : (Nat → ℝ) × (Nat → ℝ)) :
    ∃ out st' ab' dx, bnDo op order order' (B :: C :: rest) x st ab = .ok (out, st', ab') ∧
      bnDiff op order'' (B :: C :: rest) x dy st' ig = .ok dx ∧
      ∀ s c d, s < B → c < C → d < size rest →
        (dx (bnIndex C (size rest) s c d) = dy (bnIndex C (size rest) s c d) * (1 / Real.sqrt (st.runningVar c + op.epsilon)) ↔
          (size rest = 1 ∨ st.runningVar c = 0 ∨ dy (bnIndex C (size rest) s c d) = 0)) := by
  obtain ⟨out, st', ab', e1, _, _, e4, e5⟩ := bn_value_eval op ht B C rest hB hC ho ho' x st ab
  obtain ⟨dx, d1, d2⟩ := bnDiff_spec op B C rest hB hC ho'' x dy st' ig
  refine ⟨out, st', ab', dx, e1, d1, fun s c d hs hc hd => ?_⟩
  rw [d2 s c d hs hc hd]
  simp only [ht, Bool.false_eq_true, if_false, e4, e5, zero_div]
  by_cases hS : size rest = 1
  · simp [hS]
  · simp only [hS, if_false, false_or, zero_add]
    generalize dy (bnIndex C (size rest) s c d) = g
    have h1 : 0 < Real.sqrt op.epsilon := Real.sqrt_pos.2 hε
    have h2 : 0 < Real.sqrt (st.runningVar c + op.epsilon) := Real.sqrt_pos.2 (by have := hv c; linarith)
    rw [mul_one_div, mul_one_div, div_eq_div_iff h1.ne' h2.ne']
    constructor
    · intro h
      by_cases hg : g = 0
      · exact Or.inr hg
      · left
        have := mul_left_cancel₀ hg h
        have := (Real.sqrt_inj (by have := hv c; linarith) hε.le).1 this
        linarith
    · rintro (h | h)
      · rw [h, zero_add]
      · rw [h]; simp

/-- **C68 (defect).** Define-by-run differentiation of batch normalisation panics, whatever its single operand. -/
theorem bn_dodiff_panics {α : Type} (x : α) (k : α → α → α → Res Unit) : bnDoDiff [x] k = .panic := rfl

/-- A batch of two images with one channel of one pixel: 1 and 3 come out as -1/√(1+ε) and 1/√(1+ε). -/
example : bnOut 3 2 1 1 (fun i => if i = 0 then 1 else 3) 0 0 0 = -1 / 2 ∧ bnOut 3 2 1 1 (fun i => if i = 0 then 1 else 3) 1 0 0 = 1 / 2 := by
  have h4 : Real.sqrt 4 = 2 := by rw [show (4 : ℝ) = 2 ^ 2 by norm_num]; exact Real.sqrt_sq (by norm_num)
  constructor <;>
    norm_num [bnOut, bnMean, bnVar, bnSq, bnIndex, sum_range_succ, h4]

/-- The hypotheses of the theorems can be met: one goroutine order for the two channels and the two images. -/
example : [1, 0].Perm (List.range 2) := by decide

end

end Verif.NN
