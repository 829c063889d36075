import Verif.NN.MaxPoolGrad
import Verif.Shape.Gather
/-!
Average pooling and its gradient (property C65): `/repo/op_avg_pool.go`. The structure of the operator, its output sizes and the
arrays are those of max pooling (`avgPoolOp`, op_avg_pool.go 74-126 and 251-258, is the same text as `maxPoolOp`), so `Pool`, `PSt`
and `DSt` of `Verif.NN.MaxPool` are used. The float64 kernels are modelled; the float32 ones are the same text.
-/
set_option autoImplicit false
namespace Verif.NN
open Verif.Tensor

noncomputable section

/-- The innermost body, op_avg_pool.go 372-376. -/
def avgCell (inData : List ℝ) (inW : Nat) (poolIndex : Nat) (hi wi : Int) (s : PSt) : Option PSt :=
  let i := hi * inW + wi
  (load inData (s.inOff + i)).bind fun x => (s.out[s.outOff + poolIndex]?).bind fun o =>
    if s.maskOff + poolIndex < s.mask.length then
      some { s with out := s.out.set (s.outOff + poolIndex) (o + x), mask := s.mask.set (s.maskOff + poolIndex) i }
    else none

/-- The body for one output position, op_avg_pool.go 359-379. -/
def avgWindow (op : Pool) (inData : List ℝ) (inH inW outW : Nat) (ph pw : Nat) (s : PSt) : Option PSt :=
  let hStart : Int := ph * op.strideH - op.padH
  let wStart : Int := pw * op.strideW - op.padW
  let hEnd := min (hStart + op.h) inH
  let wEnd := min (wStart + op.w) inW
  let hStart := max hStart 0
  let wStart := max wStart 0
  let poolIndex := ph * outW + pw
  (forN (hEnd - hStart).toNat (fun a => forN (wEnd - wStart).toNat (fun b =>
    avgCell inData inW poolIndex (hStart + a) (wStart + b))) s).bind fun s =>
      (s.out[s.outOff + poolIndex]?).map fun o => { s with out := s.out.set (s.outOff + poolIndex) (o / (inW : ℝ)) }

/-- One channel, op_avg_pool.go 357-387. -/
def avgChannel (op : Pool) (inData : List ℝ) (inH inW outH outW : Nat) (outStride inStride maskStride : Nat) (s : PSt) :
    Option PSt :=
  (forN outH (fun ph => forN outW (fun pw => avgWindow op inData inH inW outW ph pw)) s).bind fun s =>
    if s.inOff + inStride ≤ inData.length ∧ s.outOff + outStride ≤ s.out.length ∧ s.maskOff + maskStride ≤ s.mask.length then
      some { s with inOff := s.inOff + inStride, outOff := s.outOff + outStride, maskOff := s.maskOff + maskStride }
    else none

/-- `avgPoolOp.f64s`, op_avg_pool.go 333-382. -/
def avgPoolKernel (op : Pool) (batches channels outH outW inH inW : Nat) (outStride inStride maskStride : Nat)
    (outData : List ℝ) (inData : List ℝ) (maskData : List Int) : Option (List ℝ × List Int) :=
  if maskData.length < outData.length then none
  else
    let out := outData.map (fun _ => 0)
    let mask := List.replicate outData.length (-1) ++ maskData.drop outData.length
    (forN batches (fun _ => forN channels (fun _ =>
      avgChannel op inData inH inW outH outW outStride inStride maskStride)) ⟨0, 0, 0, out, mask⟩).map
        fun s => (s.out, s.mask)

/-- `avgPoolOp.do` through `Do`, op_avg_pool.go 145-154 and 260-288, for a contiguous input of shape `(b, c, h, w)`. -/
def avgPool (op : Pool) (b c h w : Nat) (inData : List ℝ) (maskData : List Int) : Option (List ℝ × List Int) :=
  if op.outH h < 0 ∨ op.outW w < 0 then none
  else
    let oh := (op.outH h).toNat
    let ow := (op.outW w).toNat
    avgPoolKernel op b c oh ow h w (oh * ow) (h * w) (oh * ow) (List.replicate (b * (c * (oh * ow))) 0) inData maskData

/-- `AveragePool1D`, op_avg_pool.go 14-16: it calls `MaxPool2D`. -/
def averagePool1D (kernel pad stride : Nat) (lo : ℝ) (b c h w : Nat) (inData : List ℝ) (maskData : List Int) :
    Option (List ℝ × List Int) :=
  (newPool 1 kernel [0, pad] 1 stride).bind fun op => maxPool op lo b c h w inData maskData

/-- The second pass of the gradient for one position of the input, op_avg_pool.go 588-609. -/
def filterCell (op : Pool) (inH inW ph pw : Nat) (s : DSt) : Option DSt :=
  let hStart : Int := ph * op.strideH - op.padH
  let wStart : Int := pw * op.strideW - op.padW
  let hEnd := min (hStart + op.h) inH
  let wEnd := min (wStart + op.w) inW
  let hStart := max hStart 0
  let wStart := max wStart 0
  let poolIndex := ph * inW + pw
  (forN (hEnd - hStart).toNat (fun a => forN (wEnd - wStart).toNat (fun b total =>
    (load s.inDiff (s.inOff + ((hStart + a) * inW + (wStart + b)))).map fun x => total + x)) 0).bind fun total =>
      (store s.inDiff (s.inOff + poolIndex) (total / (inW : ℝ))).map fun a => { s with inDiff := a }

/-- One channel of the gradient, op_avg_pool.go 577-615: the scatter of max pooling, then the filter over the input. -/
def avgDiffChannel (op : Pool) (outDiff : List ℝ) (mask : List Int) (pooledH pooledW inH inW outStride inStride maskStride : Nat)
    (s : DSt) : Option DSt :=
  ((forN pooledH (fun ph => forN pooledW (fun pw => diffCell outDiff mask pooledW ph pw)) s).bind
    (forN inH (fun ph => forN inW (fun pw => filterCell op inH inW ph pw)))).bind fun s =>
    if s.outOff + outStride ≤ outDiff.length ∧ s.inOff + inStride ≤ s.inDiff.length ∧ s.maskOff + maskStride ≤ mask.length then
      some { s with outOff := s.outOff + outStride, inOff := s.inOff + inStride, maskOff := s.maskOff + maskStride }
    else none

/-- `avgPoolDiffOp.f64s`, op_avg_pool.go 558-617, through `do`, 476-505, with the mask left by the forward run. -/
def avgPoolDiff (op : Pool) (b c h w : Nat) (inDiff outDiff : List ℝ) (mask : List Int) : Option (List ℝ) :=
  let oh := (op.outH h).toNat
  let ow := (op.outW w).toNat
  (forN b (fun _ => forN c (fun _ => avgDiffChannel op outDiff mask oh ow h w (oh * ow) (h * w) (oh * ow)))
    ⟨0, 0, 0, inDiff.map (fun _ => 0)⟩).map fun s => s.inDiff

/-! ### The value -/

instance (op : Pool) (pt pl h w i j y x : Nat) : Decidable (InWindow op pt pl h w i j y x) := by
  unfold InWindow; infer_instance

/-- The sum over the window of output `(i, j)`. -/
def windowSum (op : Pool) (pt pl h w i j : Nat) (img : Nat → Nat → ℝ) : ℝ :=
  ∑ y ∈ Finset.range h, ∑ x ∈ Finset.range w, if InWindow op pt pl h w i j y x then img y x else 0

/-- `m` is the position of the last pixel of the window, or `-1`. -/
def LastOf (op : Pool) (pt pl h w i j : Nat) (m : Int) : Prop :=
  (m = -1 ∧ ∀ y x, ¬ InWindow op pt pl h w i j y x) ∨
    ∃ y x, InWindow op pt pl h w i j y x ∧ m = ((y * w + x : Nat) : Int) ∧
      ∀ y' x', InWindow op pt pl h w i j y' x' → y' ≤ y ∧ x' ≤ x

theorem sum_shift (lo n N : Nat) (h : n = 0 ∨ lo + n ≤ N) (F : Nat → ℝ) :
    (∑ a ∈ Finset.range n, F (lo + a)) = ∑ y ∈ Finset.range N, if lo ≤ y ∧ y < lo + n then F y else 0 := by
  rcases h with rfl | h
  · simp only [Finset.range_zero, Finset.sum_empty, Nat.add_zero]
    symm
    refine Finset.sum_eq_zero (fun y _ => if_neg (by omega))
  · obtain ⟨r, rfl⟩ := Nat.exists_eq_add_of_le h
    rw [Finset.sum_range_add, Finset.sum_range_add]
    have e1 : (∑ x ∈ Finset.range lo, if lo ≤ x ∧ x < lo + n then F x else 0) = 0 :=
      Finset.sum_eq_zero (fun y hy => if_neg (by have := Finset.mem_range.1 hy; omega))
    have e2 : (∑ x ∈ Finset.range r, if lo ≤ lo + n + x ∧ lo + n + x < lo + n then F (lo + n + x) else 0) = 0 :=
      Finset.sum_eq_zero (fun y hy => if_neg (by omega))
    rw [e1, e2, zero_add, add_zero]
    refine Finset.sum_congr rfl (fun a ha => ?_)
    rw [if_pos (by have := Finset.mem_range.1 ha; omega)]

/-- One output position: its cell gets the sum of its window over the width of the input, the mask the last pixel. -/
theorem avgWindow_spec (op : Pool) (inData : List ℝ) (inH inW outW ph pw : Nat) (s0 : PSt)
    (hin : s0.inOff + inH * inW ≤ inData.length) (hoff : s0.maskOff = s0.outOff)
    (h1 : s0.out[s0.outOff + (ph * outW + pw)]? = some 0) (h2 : s0.mask[s0.outOff + (ph * outW + pw)]? = some (-1)) :
    ∃ s' m, avgWindow op inData inH inW outW ph pw s0 = some s' ∧ SameBut (s0.outOff + (ph * outW + pw)) s0 s' ∧
      s'.out[s0.outOff + (ph * outW + pw)]? = some (windowSum op op.padH op.padW inH inW ph pw
        (fun y x => inData.getD (s0.inOff + (y * inW + x)) 0) / inW) ∧
      s'.mask[s0.outOff + (ph * outW + pw)]? = some m ∧ LastOf op op.padH op.padW inH inW ph pw m := by
  unfold avgWindow
  simp only
  generalize hhs : (ph * op.strideH : Int) - op.padH = hs
  generalize hws : (pw * op.strideW : Int) - op.padW = ws
  generalize hP : s0.outOff + (ph * outW + pw) = P at h1 h2 ⊢
  obtain ⟨hS, hhS⟩ : ∃ n : Nat, max hs 0 = n := Int.eq_ofNat_of_zero_le (le_max_right _ _)
  obtain ⟨wS, hwS⟩ : ∃ n : Nat, max ws 0 = n := Int.eq_ofNat_of_zero_le (le_max_right _ _)
  generalize hhN : (min (hs + op.h) inH - max hs 0).toNat = hN
  generalize hwN : (min (ws + op.w) inW - max ws 0).toNat = wN
  have hwin : ∀ y x, InWindow op op.padH op.padW inH inW ph pw y x ↔ hS ≤ y ∧ y < hS + hN ∧ wS ≤ x ∧ x < wS + wN := by
    intro y x
    unfold InWindow
    rw [hhs, hws]
    omega
  let img : Nat → Nat → ℝ := fun y x => inData.getD (s0.inOff + (y * inW + x)) 0
  have key := nest2_inv (a := hN) (b := wN) (s0 := s0)
    (f := fun a b => avgCell inData inW (ph * outW + pw) (max hs 0 + a) (max ws 0 + b))
    (fun n s => SameBut P s0 s ∧ s.out[P]? = some (∑ t ∈ Finset.range n, img (hS + t / wN) (wS + t % wN)) ∧
      s.mask[P]? = some (if n = 0 then -1 else (((hS + (n - 1) / wN) * inW + (wS + (n - 1) % wN) : Nat) : Int))) ?_ ?_
  · obtain ⟨s', e1, e2, e3, e4⟩ := key
    have hPl : P < s'.out.length := by
      rcases Nat.lt_or_ge P s'.out.length with h | h
      · exact h
      · rw [List.getElem?_eq_none h] at e3; simp at e3
    have hPo : s'.outOff + (ph * outW + pw) = P := by rw [e2.outOff]; exact hP
    refine ⟨{ s' with out := s'.out.set P ((∑ t ∈ Finset.range (hN * wN), img (hS + t / wN) (wS + t % wN)) / (inW : ℝ)) }, _,
      by rw [e1, Option.bind_some, hPo, e3, Option.map_some], ⟨e2.inOff, e2.outOff, e2.maskOff, ?_, e2.maskLen, ?_, e2.mask⟩,
      ?_, e4, ?_⟩
    · simp [e2.outLen]
    · intro k hk; simp only; rw [List.getElem?_set_ne (fun e => hk e.symm), e2.out k hk]
    · simp only
      rw [List.getElem?_set_self hPl]
      congr 2
      rw [Verif.Shape.sum_range_mul]
      unfold windowSum
      have hsh : ∀ F : Nat → ℝ, (∑ b ∈ Finset.range wN, F (wS + b)) = ∑ x ∈ Finset.range inW, if wS ≤ x ∧ x < wS + wN then F x else 0 :=
        fun F => sum_shift wS wN inW (by omega) F
      have hsv : ∀ F : Nat → ℝ, (∑ b ∈ Finset.range hN, F (hS + b)) = ∑ x ∈ Finset.range inH, if hS ≤ x ∧ x < hS + hN then F x else 0 :=
        fun F => sum_shift hS hN inH (by omega) F
      have c1 : (∑ q ∈ Finset.range hN, ∑ r ∈ Finset.range wN, img (hS + (q * wN + r) / wN) (wS + (q * wN + r) % wN)) =
          ∑ q ∈ Finset.range hN, ∑ x ∈ Finset.range inW, if wS ≤ x ∧ x < wS + wN then img (hS + q) x else 0 := by
        refine Finset.sum_congr rfl (fun q _ => ?_)
        rw [← hsh]
        refine Finset.sum_congr rfl (fun r hr => ?_)
        rw [(divmod_cell (Finset.mem_range.1 hr)).1, (divmod_cell (Finset.mem_range.1 hr)).2]
      rw [c1, hsv (fun y => ∑ x ∈ Finset.range inW, if wS ≤ x ∧ x < wS + wN then img y x else 0)]
      refine Finset.sum_congr rfl (fun y _ => ?_)
      by_cases hy : hS ≤ y ∧ y < hS + hN
      · rw [if_pos hy]
        refine Finset.sum_congr rfl (fun x _ => ?_)
        by_cases hx : wS ≤ x ∧ x < wS + wN
        · rw [if_pos hx, if_pos ((hwin y x).2 ⟨hy.1, hy.2, hx.1, hx.2⟩)]
        · rw [if_neg hx, if_neg (fun h => hx ⟨((hwin y x).1 h).2.2.1, ((hwin y x).1 h).2.2.2⟩)]
      · rw [if_neg hy]
        symm
        exact Finset.sum_eq_zero (fun x _ => if_neg (fun h => hy ⟨((hwin y x).1 h).1, ((hwin y x).1 h).2.1⟩))
    · by_cases hz : hN * wN = 0
      · rw [if_pos hz]
        refine Or.inl ⟨rfl, fun y x h => ?_⟩
        have := (hwin y x).1 h
        rcases Nat.mul_eq_zero.1 hz with h | h <;> omega
      · rw [if_neg hz]
        have hh0 : 0 < hN := Nat.pos_of_ne_zero (fun h => hz (by rw [h, Nat.zero_mul]))
        have hw0 : 0 < wN := Nat.pos_of_ne_zero (fun h => hz (by rw [h, Nat.mul_zero]))
        have hlast : hN * wN - 1 = (hN - 1) * wN + (wN - 1) := by
          obtain ⟨a, rfl⟩ : ∃ a, hN = a + 1 := ⟨hN - 1, by omega⟩
          rw [Nat.succ_mul, Nat.add_sub_cancel]; omega
        rw [hlast, (divmod_cell (by omega : wN - 1 < wN)).1, (divmod_cell (by omega : wN - 1 < wN)).2]
        refine Or.inr ⟨hS + (hN - 1), wS + (wN - 1), (hwin _ _).2 ⟨by omega, by omega, by omega, by omega⟩, rfl, fun y' x' h => ?_⟩
        have := (hwin y' x').1 h
        omega
  · rintro i j s hi hj ⟨hsb, hv, hm⟩
    have hidx : (s.inOff : Int) + ((max hs 0 + i) * inW + (max ws 0 + j)) =
        ((s0.inOff + ((hS + i) * inW + (wS + j)) : Nat) : Int) := by
      rw [hhS, hwS, hsb.inOff]; push_cast; rfl
    have hrow : hS + i < inH := by omega
    have hcol : wS + j < inW := by omega
    have hlt : s0.inOff + ((hS + i) * inW + (wS + j)) < inData.length := by
      have : (hS + i + 1) * inW ≤ inH * inW := Nat.mul_le_mul_right _ hrow
      rw [Nat.succ_mul] at this
      omega
    have hload : load inData (s.inOff + ((max hs 0 + i) * inW + (max ws 0 + j))) = some (img (hS + i) (wS + j)) := by
      rw [hidx]
      unfold load
      simp only [img]
      rw [if_neg (by omega), Int.toNat_natCast, List.getElem?_eq_getElem hlt, List.getD_eq_getElem?_getD,
        List.getElem?_eq_getElem hlt]
      rfl
    have hPo : s.outOff + (ph * outW + pw) = P := by rw [hsb.outOff]; exact hP
    have hPm : s.maskOff + (ph * outW + pw) = P := by rw [hsb.maskOff, hoff]; exact hP
    have hPl : P < s.out.length := by
      rcases Nat.lt_or_ge P s.out.length with h | h
      · exact h
      · rw [List.getElem?_eq_none h] at hv; simp at hv
    have hPml : P < s.mask.length := by
      rcases Nat.lt_or_ge P s.mask.length with h | h
      · exact h
      · rw [List.getElem?_eq_none h] at hm; simp at hm
    unfold avgCell
    simp only
    rw [hload, Option.bind_some, hPo, hPm, hv, Option.bind_some, if_pos hPml]
    refine ⟨_, rfl, ⟨hsb.inOff, hsb.outOff, hsb.maskOff, ?_, ?_, ?_, ?_⟩, ?_, ?_⟩
    · simp [hsb.outLen]
    · simp [hsb.maskLen]
    · intro k hk; simp only; rw [List.getElem?_set_ne (fun e => hk e.symm), hsb.out k hk]
    · intro k hk; simp only; rw [List.getElem?_set_ne (fun e => hk e.symm), hsb.mask k hk]
    · simp only
      rw [List.getElem?_set_self hPl, Finset.sum_range_succ, (divmod_cell hj).1, (divmod_cell hj).2]
    · simp only [List.getElem?_set_self hPml]
      congr 1
      rw [if_neg (by omega), Nat.add_sub_cancel, (divmod_cell hj).1, (divmod_cell hj).2, hhS, hwS]
      push_cast; rfl
  · exact ⟨SameBut.refl _ _, by simpa using h1, by simpa using h2⟩

/-- The outcome for cell `k` of the output. -/
def AvgOut (op : Pool) (inData : List ℝ) (inH inW outH outW k : Nat) (v : ℝ) (m : Int) : Prop :=
  v = windowSum op op.padH op.padW inH inW (k % (outH * outW) / outW) (k % (outH * outW) % outW)
    (fun y x => inData.getD (k / (outH * outW) * (inH * inW) + (y * inW + x)) 0) / inW ∧
  LastOf op op.padH op.padW inH inW (k % (outH * outW) / outW) (k % (outH * outW) % outW) m

/-- The first `n` cells are done, the rest is as initialised. -/
structure AvgProgress (op : Pool) (inData : List ℝ) (inH inW outH outW N M n : Nat) (s : PSt) : Prop where
  outLen : s.out.length = N
  maskLen : s.mask.length = M
  done : ∀ k < n, k < N → ∃ v m, s.out[k]? = some v ∧ s.mask[k]? = some m ∧ AvgOut op inData inH inW outH outW k v m
  todo : ∀ k < N, n ≤ k → s.out[k]? = some 0 ∧ s.mask[k]? = some (-1)

theorem avgChannel_spec (op : Pool) (inData : List ℝ) (inH inW outH outW N M K q : Nat)
    (hin : inData.length = K * (inH * inW)) (hN : N = K * (outH * outW)) (hM : N ≤ M) (hq : q < K) (s : PSt)
    (hs : AvgProgress op inData inH inW outH outW N M (q * (outH * outW)) s) (h1 : s.inOff = q * (inH * inW))
    (h2 : s.outOff = q * (outH * outW)) (h3 : s.maskOff = q * (outH * outW)) :
    ∃ s', avgChannel op inData inH inW outH outW (outH * outW) (inH * inW) (outH * outW) s = some s' ∧
      AvgProgress op inData inH inW outH outW N M ((q + 1) * (outH * outW)) s' ∧ s'.inOff = (q + 1) * (inH * inW) ∧
      s'.outOff = (q + 1) * (outH * outW) ∧ s'.maskOff = (q + 1) * (outH * outW) := by
  have hblock : (q + 1) * (inH * inW) ≤ inData.length := by rw [hin]; exact Nat.mul_le_mul_right _ hq
  have hblockO : (q + 1) * (outH * outW) ≤ N := by rw [hN]; exact Nat.mul_le_mul_right _ hq
  have key := nest2_inv (a := outH) (b := outW) (s0 := s)
    (f := fun ph pw => avgWindow op inData inH inW outW ph pw)
    (fun n s' => AvgProgress op inData inH inW outH outW N M (q * (outH * outW) + n) s' ∧ s'.inOff = s.inOff ∧
      s'.outOff = s.outOff ∧ s'.maskOff = s.maskOff) ?_ ⟨by simpa using hs, rfl, rfl, rfl⟩
  · obtain ⟨s', e1, e2, e3, e4, e5⟩ := key
    unfold avgChannel
    rw [e1, Option.bind_some]
    rw [Nat.succ_mul] at hblock hblockO
    rw [if_pos ⟨by rw [e3, h1]; exact hblock, by rw [e4, h2, e2.outLen]; exact hblockO,
      by rw [e5, h3, e2.maskLen]; omega⟩]
    refine ⟨_, rfl, ?_, ?_, ?_, ?_⟩
    · rw [Nat.succ_mul]; exact ⟨e2.outLen, e2.maskLen, e2.done, e2.todo⟩
    · simp only; rw [e3, h1, Nat.succ_mul]
    · simp only; rw [e4, h2, Nat.succ_mul]
    · simp only; rw [e5, h3, Nat.succ_mul]
  · rintro ph pw t hph hpw ⟨hp, t1, t2, t3⟩
    have hcell : ph * outW + pw < outH * outW := cell_lt hph hpw
    have hPN : q * (outH * outW) + (ph * outW + pw) < N := by
      rw [Nat.succ_mul] at hblockO; omega
    have htodo := hp.todo _ hPN (Nat.le_refl _)
    have hoff : t.outOff = q * (outH * outW) := t2.trans h2
    obtain ⟨t', m, e1, e2, e3, e4, e5⟩ := avgWindow_spec op inData inH inW outW ph pw t
      (by rw [t1, h1]; rw [Nat.succ_mul] at hblock; exact hblock) (by rw [t3, h3, hoff])
      (by rw [hoff]; exact htodo.1) (by rw [hoff]; exact htodo.2)
    rw [hoff] at e2 e3 e4
    refine ⟨t', e1, ⟨e2.outLen.trans hp.outLen, e2.maskLen.trans hp.maskLen, ?_, ?_⟩, e2.inOff.trans t1,
      e2.outOff.trans t2, e2.maskOff.trans t3⟩
    · intro k hk hkN
      by_cases hkP : k = q * (outH * outW) + (ph * outW + pw)
      · subst hkP
        refine ⟨_, m, e3, e4, ?_⟩
        unfold AvgOut
        rw [(divmod_cell hcell).1, (divmod_cell hcell).2, (divmod_cell hpw).1, (divmod_cell hpw).2]
        rw [t1, h1]
        exact ⟨rfl, e5⟩
      · obtain ⟨v', m', f1, f2, f3⟩ := hp.done k (by omega) hkN
        exact ⟨v', m', by rw [e2.out k hkP]; exact f1, by rw [e2.mask k hkP]; exact f2, f3⟩
    · intro k hkN hk
      have hkP : k ≠ q * (outH * outW) + (ph * outW + pw) := by omega
      rw [e2.out k hkP, e2.mask k hkP]
      exact hp.todo k hkN (by omega)

theorem avgPoolKernel_spec (op : Pool) (B C outH outW inH inW : Nat) (outData inData : List ℝ) (maskData : List Int)
    (hin : inData.length = B * C * (inH * inW)) (hout : outData.length = B * C * (outH * outW))
    (hmask : outData.length ≤ maskData.length) :
    ∃ out mask, avgPoolKernel op B C outH outW inH inW (outH * outW) (inH * inW) (outH * outW) outData inData maskData =
        some (out, mask) ∧ out.length = outData.length ∧ mask.length = maskData.length ∧
      ∀ k < out.length, ∃ v m, out[k]? = some v ∧ mask[k]? = some m ∧ AvgOut op inData inH inW outH outW k v m := by
  unfold avgPoolKernel
  rw [if_neg (Nat.not_lt.2 hmask)]
  simp only
  have key := nest2_inv (a := B) (b := C)
    (s0 := (⟨0, 0, 0, outData.map (fun _ => 0),
      List.replicate outData.length (-1) ++ maskData.drop outData.length⟩ : PSt))
    (f := fun _ _ => avgChannel op inData inH inW outH outW (outH * outW) (inH * inW) (outH * outW))
    (fun n s => AvgProgress op inData inH inW outH outW outData.length maskData.length (n * (outH * outW)) s ∧
      s.inOff = n * (inH * inW) ∧ s.outOff = n * (outH * outW) ∧ s.maskOff = n * (outH * outW)) ?_ ?_
  · obtain ⟨s', e1, e2, _⟩ := key
    refine ⟨s'.out, s'.mask, by rw [e1]; rfl, e2.outLen, e2.maskLen, fun k hk => ?_⟩
    rw [e2.outLen] at hk
    exact e2.done k (by rw [← hout]; exact hk) hk
  · rintro i j s hi hj ⟨p1, p2, p3, p4⟩
    exact avgChannel_spec op inData inH inW outH outW _ _ (B * C) (i * C + j) hin hout hmask (cell_lt hi hj) s p1 p2 p3 p4
  · refine ⟨⟨by simp, by simp; omega, by intro k hk; simp at hk, fun k hk _ => ⟨?_, ?_⟩⟩, by simp, by simp, by simp⟩
    · rw [List.getElem?_map, List.getElem?_eq_getElem hk]; rfl
    · simp only
      rw [List.getElem?_append_left (by simpa using hk), List.getElem?_replicate, if_pos hk]

/-- **C65 (exact value).** For every input of shape `(b, c, h, w)` and every operator whose output sizes are not negative, average
pooling does not panic; output `(bi, ch, i, j)` is the sum over its window (placed by `padH`, `padW`) divided by the *width of the
input*, and the recorded index is the last pixel of the window, `-1` if there is none. -/
theorem avgPool_value (op : Pool) (b c h w : Nat) (inData : List ℝ) (maskData : List Int)
    (hh : 0 ≤ op.outH h) (hw : 0 ≤ op.outW w) (hin : inData.length = b * c * (h * w))
    (hmask : maskData.length = b * c * ((op.outH h).toNat * (op.outW w).toNat)) :
    ∃ out mask, avgPool op b c h w inData maskData = some (out, mask) ∧
      out.length = b * c * ((op.outH h).toNat * (op.outW w).toNat) ∧ mask.length = out.length ∧
      ∀ bi ch i j : Nat, bi < b → ch < c → (i : Int) < op.outH h → (j : Int) < op.outW w →
        out[ravel [b, c, (op.outH h).toNat, (op.outW w).toNat] [bi, ch, i, j]]? =
          some (windowSum op op.padH op.padW h w i j (fun y x => inData.getD (ravel [b, c, h, w] [bi, ch, y, x]) 0) / w) ∧
        ∃ m, mask[ravel [b, c, (op.outH h).toNat, (op.outW w).toNat] [bi, ch, i, j]]? = some m ∧
          LastOf op op.padH op.padW h w i j m := by
  generalize hoh : (op.outH h).toNat = oh at *
  generalize how : (op.outW w).toNat = ow at *
  obtain ⟨out, mask, e1, e2, e3, e4⟩ := avgPoolKernel_spec op b c oh ow h w (List.replicate (b * (c * (oh * ow))) 0) inData
    maskData hin (by simp; ring) (by simp [hmask]; ring_nf; exact Nat.le_refl _)
  refine ⟨out, mask, ?_, ?_, ?_, fun bi ch i j hb hc hi hj => ?_⟩
  · unfold avgPool
    rw [if_neg (by omega), hoh, how]
    exact e1
  · rw [e2]; simp; ring
  · rw [e3, e2, hmask]; simp; ring
  · have hI : i < oh := by omega
    have hJ : j < ow := by omega
    have hr : ravel [b, c, oh, ow] [bi, ch, i, j] = (bi * c + ch) * (oh * ow) + (i * ow + j) := by
      simp only [ravel, size]; ring
    have hcell := cell_lt hI hJ
    have hq : bi * c + ch < b * c := cell_lt hb hc
    have hk : (bi * c + ch) * (oh * ow) + (i * ow + j) < out.length := by
      rw [e2]; simp only [List.length_replicate]
      have := cell_lt hq hcell
      rw [show b * (c * (oh * ow)) = b * c * (oh * ow) by ring]; exact this
    obtain ⟨v, m, f1, f2, f3⟩ := e4 _ hk
    unfold AvgOut at f3
    rw [(divmod_cell hcell).1, (divmod_cell hcell).2, (divmod_cell hJ).1, (divmod_cell hJ).2] at f3
    rw [hr]
    have hin' : ∀ y x, (bi * c + ch) * (h * w) + (y * w + x) = ravel [b, c, h, w] [bi, ch, y, x] := by
      intro y x; simp only [ravel, size]; ring
    simp only [hin'] at f3
    exact ⟨by rw [f1, f3.1], m, f2, f3.2⟩

/-- The mean over the window, as average pooling should give it: the sum divided by the size of the kernel. -/
def windowMean (op : Pool) (pt pl h w i j : Nat) (img : Nat → Nat → ℝ) : ℝ :=
  windowSum op pt pl h w i j img / ((op.h * op.w : Nat) : ℝ)

/-- **C65 (value, partial).** With symmetric padding and a kernel of exactly `w` elements, every output is the mean over its window.
Missing: every other kernel size (`avgPool_wrong_iff`) and explicit padding (`avgPool_explicit_wrong`). -/
theorem avgPool_mean_partial (op : Pool) (hsym : op.symmetric) (b c h w : Nat) (hk : op.h * op.w = w) (inData : List ℝ)
    (maskData : List Int) (hh : 0 ≤ op.outH h) (hw : 0 ≤ op.outW w) (hin : inData.length = b * c * (h * w))
    (hmask : maskData.length = b * c * ((op.outH h).toNat * (op.outW w).toNat)) :
    ∃ out mask, avgPool op b c h w inData maskData = some (out, mask) ∧
      ∀ bi ch i j : Nat, bi < b → ch < c → (i : Int) < op.outH h → (j : Int) < op.outW w →
        out[ravel [b, c, (op.outH h).toNat, (op.outW w).toNat] [bi, ch, i, j]]? =
          some (windowMean op op.padNorth op.padWest h w i j
            (fun y x => inData.getD (ravel [b, c, h, w] [bi, ch, y, x]) 0)) := by
  obtain ⟨out, mask, e1, _, _, e4⟩ := avgPool_value op b c h w inData maskData hh hw hin hmask
  have hpH : op.padH = op.padNorth := by simp [Pool.padH, show op.explicitPadding = false from hsym]
  have hpW : op.padW = op.padWest := by simp [Pool.padW, show op.explicitPadding = false from hsym]
  rw [hpH, hpW] at e4
  refine ⟨out, mask, e1, fun bi ch i j hb hc hi hj => ?_⟩
  rw [(e4 bi ch i j hb hc hi hj).1]
  unfold windowMean
  rw [hk]

/-- **C65 (defect).** For a kernel with another number of elements than the width of the input (both positive), every output whose
window does not add up to zero differs from the mean. -/
theorem avgPool_wrong_iff (op : Pool) (hsym : op.symmetric) (b c h w : Nat) (hw0 : 0 < w) (hk0 : 0 < op.h * op.w) (inData : List ℝ)
    (maskData : List Int) (hh : 0 ≤ op.outH h) (hw : 0 ≤ op.outW w) (hin : inData.length = b * c * (h * w))
    (hmask : maskData.length = b * c * ((op.outH h).toNat * (op.outW w).toNat)) :
    ∃ out mask, avgPool op b c h w inData maskData = some (out, mask) ∧
      ∀ bi ch i j : Nat, bi < b → ch < c → (i : Int) < op.outH h → (j : Int) < op.outW w →
        (out[ravel [b, c, (op.outH h).toNat, (op.outW w).toNat] [bi, ch, i, j]]? =
          some (windowMean op op.padNorth op.padWest h w i j
            (fun y x => inData.getD (ravel [b, c, h, w] [bi, ch, y, x]) 0)) ↔
        op.h * op.w = w ∨ windowSum op op.padNorth op.padWest h w i j
            (fun y x => inData.getD (ravel [b, c, h, w] [bi, ch, y, x]) 0) = 0) := by
  obtain ⟨out, mask, e1, _, _, e4⟩ := avgPool_value op b c h w inData maskData hh hw hin hmask
  have hpH : op.padH = op.padNorth := by simp [Pool.padH, show op.explicitPadding = false from hsym]
  have hpW : op.padW = op.padWest := by simp [Pool.padW, show op.explicitPadding = false from hsym]
  rw [hpH, hpW] at e4
  refine ⟨out, mask, e1, fun bi ch i j hb hc hi hj => ?_⟩
  rw [(e4 bi ch i j hb hc hi hj).1, Option.some.injEq]
  unfold windowMean
  generalize windowSum op op.padNorth op.padWest h w i j _ = S
  have h1 : (w : ℝ) ≠ 0 := by exact_mod_cast hw0.ne'
  have h2 : ((op.h * op.w : Nat) : ℝ) ≠ 0 := by exact_mod_cast hk0.ne'
  rw [div_eq_div_iff h1 h2]
  constructor
  · intro e
    by_cases hS : S = 0
    · exact Or.inr hS
    · left
      have := mul_left_cancel₀ hS e
      exact_mod_cast this
  · rintro (e | e)
    · rw [e]
    · rw [e]; ring

/-- Pooling a 2×2 image with a 1×1 kernel should be the identity, and halves it. -/
example (x0 x1 x2 x3 : ℝ) : avgPool ⟨1, 1, 0, 0, 0, 0, false, 1, 1⟩ 1 1 2 2 [x0, x1, x2, x3] [0, 0, 0, 0] =
    some ([x0 / 2, x1 / 2, x2 / 2, x3 / 2], [0, 1, 2, 3]) := by
  simp [avgPool, avgPoolKernel, avgChannel, avgWindow, avgCell, forN, Pool.outH, Pool.outW, Pool.padH, Pool.padW, load, Int.tdiv,
    List.replicate]

/-- **C65 (defect).** With explicit padding the window is shifted: one row of padding above a 1×1 image and none below, kernel
1×1. The first output should be the padding and the second the pixel; they come out the other way round. -/
theorem avgPool_explicit_wrong (x : ℝ) : (newPool 1 1 [1, 0, 0, 0] 1 1).bind (fun op => avgPool op 1 1 1 1 [x] [0, 0]) =
    some ([x, 0], [0, -1]) := by
  simp [newPool, avgPool, avgPoolKernel, avgChannel, avgWindow, avgCell, forN, Pool.outH, Pool.outW, Pool.padH, Pool.padW, load, Int.tdiv,
    List.replicate]

/-- **C65 (defect).** `AveragePool1D` is max pooling: on the row `1, 3` with a window of two it gives `3`, not `2`. -/
theorem averagePool1D_is_max (kernel pad stride : Nat) (lo : ℝ) (b c h w : Nat) (inData : List ℝ) (maskData : List Int) :
    (∃ op, newPool 1 kernel [0, pad] 1 stride = some op ∧
      averagePool1D kernel pad stride lo b c h w inData maskData = maxPool op lo b c h w inData maskData) ∧
    averagePool1D 2 0 1 (-100) 1 1 1 2 [1, 3] [0] = some ([3], [1]) := by
  refine ⟨⟨_, rfl, rfl⟩, ?_⟩
  norm_num [averagePool1D, newPool, maxPool, pool, poolChannel, poolWindow, poolCell, forN, Pool.outH, Pool.outW, Pool.padH, Pool.padW,
    load, Int.tdiv, List.replicate, show Int.toNat 2 = 2 from rfl]

/-! ### The gradient -/

theorem forN_post {σ : Type} {f : Nat → σ → Option σ} (P : Nat → σ → Prop) : ∀ (n : Nat) (s0 s' : σ),
    (∀ i < n, ∀ s s', P i s → f i s = some s' → P (i + 1) s') → P 0 s0 → forN n f s0 = some s' → P n s' := by
  intro n
  induction n with
  | zero => intro s0 s' _ h0 e; cases e; exact h0
  | succ n ih =>
    intro s0 s' h h0 e
    simp only [forN] at e
    cases e1 : forN n f s0 with
    | none => rw [e1] at e; simp at e
    | some s1 =>
      rw [e1, Option.bind_some] at e
      exact h n (Nat.lt_succ_self n) s1 s' (ih s0 s1 (fun i hi => h i (Nat.lt_succ_of_lt hi)) h0 e1) e

theorem nest2_post {σ : Type} {a b : Nat} {f : Nat → Nat → σ → Option σ} {s0 s' : σ} (I : Nat → σ → Prop)
    (hf : ∀ i j s s', i < a → j < b → I (i * b + j) s → f i j s = some s' → I (i * b + j + 1) s') (h0 : I 0 s0)
    (h : forN a (fun i => forN b (f i)) s0 = some s') : I (a * b) s' := by
  refine forN_post (fun i s => I (i * b) s) a s0 s' ?_ (by simpa using h0) h
  intro i hi s s' hs e
  have := forN_post (f := f i) (fun j s => I (i * b + j) s) b s s' (fun j hj s s' hs e => hf i j s s' hi hj hs e) hs e
  rw [Nat.succ_mul]
  exact this

/-- The window that the second pass uses for position `(y, x)` of the *input* is empty. -/
def NoFilter (op : Pool) (h w y x : Nat) : Prop := ∀ y' x', ¬ InWindow op op.padH op.padW h w y x y' x'

/-- One position of the second pass: only that cell changes, to zero if its window is empty. -/
theorem filterCell_post (op : Pool) (inH inW ph pw : Nat) (s s' : DSt) (h : filterCell op inH inW ph pw s = some s') :
    s'.outOff = s.outOff ∧ s'.inOff = s.inOff ∧ s'.maskOff = s.maskOff ∧ s'.inDiff.length = s.inDiff.length ∧
      (∀ k, k ≠ s.inOff + (ph * inW + pw) → s'.inDiff[k]? = s.inDiff[k]?) ∧
      (NoFilter op inH inW ph pw → s'.inDiff[s.inOff + (ph * inW + pw)]? = some 0) := by
  unfold filterCell at h
  simp only at h
  generalize hhs : (ph * op.strideH : Int) - op.padH = hs at h
  generalize hws : (pw * op.strideW : Int) - op.padW = ws at h
  generalize hhN : (min (hs + op.h) inH - max hs 0).toNat = hN at h
  generalize hwN : (min (ws + op.w) inW - max ws 0).toNat = wN at h
  obtain ⟨total, e1, e2⟩ := Option.bind_eq_some_iff.1 h
  obtain ⟨a, e3, e4⟩ := Option.map_eq_some_iff.1 e2
  obtain ⟨hl, hlen, hget⟩ := store_getElem? e3
  subst e4
  refine ⟨rfl, rfl, rfl, hlen, fun k hk => ?_, fun hno => ?_⟩
  · rw [hget k, if_neg hk]
  · have hz : hN = 0 ∨ wN = 0 := by
      by_contra hn
      push Not at hn
      refine hno (max hs 0).toNat (max ws 0).toNat ?_
      unfold InWindow
      rw [hhs, hws]
      omega
    have ht : total = 0 := by
      rcases hz with rfl | rfl
      · cases e1; rfl
      · exact forN_post (fun _ t => t = 0) hN 0 total (fun i _ t t' ht e => by cases e; exact ht) rfl e1
    simp only
    rw [hget, if_pos rfl, ht, zero_div]

theorem diffCell_post (g : List ℝ) (mask : List Int) (pW ph pw : Nat) (s s' : DSt) (h : diffCell g mask pW ph pw s = some s') :
    s'.outOff = s.outOff ∧ s'.inOff = s.inOff ∧ s'.maskOff = s.maskOff ∧ s'.inDiff.length = s.inDiff.length ∧
      ∀ k, k < s.inOff → s'.inDiff[k]? = s.inDiff[k]? := by
  unfold diffCell at h
  simp only at h
  obtain ⟨m, _, h⟩ := Option.bind_eq_some_iff.1 h
  by_cases hm : m < 0
  · rw [if_pos hm] at h; simp at h
  · rw [if_neg hm] at h
    obtain ⟨old, _, h⟩ := Option.bind_eq_some_iff.1 h
    obtain ⟨gv, _, h⟩ := Option.bind_eq_some_iff.1 h
    obtain ⟨a, e3, rfl⟩ := Option.map_eq_some_iff.1 h
    obtain ⟨_, hlen, hget⟩ := store_getElem? e3
    exact ⟨rfl, rfl, rfl, hlen, fun k hk => by simp only; rw [hget k, if_neg (by omega)]⟩

/-- **C65 (defect).** Whenever the gradient is computed at all, the gradient of every pixel `(y, x)` for which the window of *output*
position `(y, x)` would lie outside the image is zero, whatever the incoming gradient. With a stride of two these are the lower and
right halves of the image. -/
theorem avgPoolDiff_zero (op : Pool) (b c h w : Nat) (inDiff g : List ℝ) (mask : List Int) (r : List ℝ)
    (hr : avgPoolDiff op b c h w inDiff g mask = some r) (bi ch y x : Nat) (hb : bi < b) (hc : ch < c) (hy : y < h) (hx : x < w)
    (hno : NoFilter op h w y x) : r[ravel [b, c, h, w] [bi, ch, y, x]]? = some 0 := by
  unfold avgPoolDiff at hr
  simp only at hr
  obtain ⟨sf, hr', rfl⟩ := Option.map_eq_some_iff.1 hr
  clear hr
  rename' hr' => hr
  generalize (op.outH h).toNat = oh at hr
  generalize (op.outW w).toNat = ow at hr
  have key := nest2_post (a := b) (b := c)
    (fun n (s : DSt) => s.inOff = n * (h * w) ∧ ∀ q < n, ∀ y x, y < h → x < w → NoFilter op h w y x →
      s.inDiff[q * (h * w) + (y * w + x)]? = some 0) ?_ ⟨by simp, by intro q hq; omega⟩ hr
  · have := key.2 (bi * c + ch) (cell_lt hb hc) y x hy hx hno
    rw [show ravel [b, c, h, w] [bi, ch, y, x] = (bi * c + ch) * (h * w) + (y * w + x) by simp only [ravel, size]; ring]
    exact this
  · rintro i j s s' hi hj ⟨p1, p2⟩ hstep
    generalize hn : i * c + j = n at p1 p2 ⊢
    unfold avgDiffChannel at hstep
    obtain ⟨s2, e2, e3⟩ := Option.bind_eq_some_iff.1 hstep
    obtain ⟨s1, e1, e2⟩ := Option.bind_eq_some_iff.1 e2
    have k1 := nest2_post (f := fun ph pw => diffCell g mask ow ph pw)
      (fun _ t => t.inOff = s.inOff ∧ ∀ k, k < s.inOff → t.inDiff[k]? = s.inDiff[k]?)
      (fun _ _ t t' _ _ ht e => by
        obtain ⟨_, d2, _, _, d5⟩ := diffCell_post _ _ _ _ _ _ _ e
        exact ⟨d2.trans ht.1, fun k hk => by rw [d5 k (by rw [ht.1]; exact hk), ht.2 k hk]⟩)
      ⟨rfl, fun _ _ => rfl⟩ e1
    have k2 := nest2_post (f := fun ph pw => filterCell op h w ph pw)
      (fun m t => t.inOff = s.inOff ∧ (∀ k, k < s.inOff → t.inDiff[k]? = s.inDiff[k]?) ∧
        ∀ y x, y < h → x < w → y * w + x < m → NoFilter op h w y x → t.inDiff[s.inOff + (y * w + x)]? = some 0)
      (fun ph pw t t' hph hpw ht e => by
        obtain ⟨_, d2, _, _, d5, d6⟩ := filterCell_post _ _ _ _ _ _ _ e
        refine ⟨d2.trans ht.1, fun k hk => by rw [d5 k (by rw [ht.1]; omega), ht.2.1 k hk], fun y x hy hx hlt hno => ?_⟩
        by_cases heq : y * w + x = ph * w + pw
        · have hpy : y = ph := by
            have a1 := (divmod_cell (q := y) hx).1
            have a2 := (divmod_cell (q := ph) hpw).1
            rw [← a1, ← a2, heq]
          subst hpy
          obtain rfl : x = pw := by omega
          rw [← ht.1]; exact d6 hno
        · rw [d5 _ (by rw [ht.1]; omega)]
          exact ht.2.2 y x hy hx (by omega) hno)
      ⟨k1.1, k1.2, fun _ _ _ _ h => by omega⟩ e2
    by_cases hcond : s2.outOff + oh * ow ≤ g.length ∧ s2.inOff + h * w ≤ s2.inDiff.length ∧ s2.maskOff + oh * ow ≤ mask.length
    · rw [if_pos hcond] at e3
      cases e3
      refine ⟨?_, fun q hq y x hy hx hno => ?_⟩
      · simp only
        rw [k2.1, p1, Nat.succ_mul]
      · simp only
        rcases Nat.lt_or_ge q n with hqn | hqn
        · have hlt : q * (h * w) + (y * w + x) < s.inOff := by
            rw [p1]
            exact cell_lt hqn (cell_lt hy hx)
          rw [k2.2.1 _ hlt]
          exact p2 q hqn y x hy hx hno
        · obtain rfl : q = n := by omega
          rw [← p1]
          exact k2.2.2 y x hy hx (cell_lt hy hx) hno
    · rw [if_neg hcond] at e3; simp at e3

/-- **C65.** What the array for the gradient held before does not matter. -/
theorem avgPoolDiff_fresh (op : Pool) (b c h w : Nat) (d d' g : List ℝ) (mask : List Int) (hl : d.length = d'.length) :
    avgPoolDiff op b c h w d g mask = avgPoolDiff op b c h w d' g mask := by
  unfold avgPoolDiff
  rw [List.map_const', List.map_const', hl]

/-- The columns of an image whose gradient is zero with a stride of two and no padding: `x ≥ w/2`. -/
theorem noFilter_stride2 (op : Pool) (h w y x : Nat) (hp : op.padW = 0) (hs : 2 ≤ op.strideW) (hx : w ≤ 2 * x) :
    NoFilter op h w y x := by
  rintro y' x' ⟨_, _, _, h4, _, h6⟩
  rw [hp] at h4
  have : x * 2 ≤ x * op.strideW := Nat.mul_le_mul_left _ hs
  have : ((x * op.strideW : Nat) : Int) ≤ x' := by push_cast; simpa using h4
  omega

/-- **C65 (defect).** Pooling the row `x0 … x3` with windows of two and a stride of two: the operation gives
`(x0+x1)/4, (x2+x3)/4`; for the incoming gradient `g0, g1` the last pixel should get `g1/4` and gets nothing. -/
theorem avgPool_grad_wrong (x0 x1 x2 x3 g0 g1 : ℝ) (hg : g1 ≠ 0) :
    ∃ mask r, avgPool ⟨1, 2, 0, 0, 0, 0, false, 1, 2⟩ 1 1 1 4 [x0, x1, x2, x3] [0, 0] = some ([(x0 + x1) / 4, (x2 + x3) / 4], mask) ∧
      avgPoolDiff ⟨1, 2, 0, 0, 0, 0, false, 1, 2⟩ 1 1 1 4 [0, 0, 0, 0] [g0, g1] mask = some r ∧ r[3]? = some 0 ∧
      HasDerivAt (fun z => g0 * ((x0 + x1) / 4) + g1 * ((x2 + z) / 4)) (g1 / 4) x3 ∧ g1 / 4 ≠ 0 := by
  refine ⟨[1, 3], [g0 / 4, g1 / 4, 0, 0], ?_, ?_, rfl, ?_, by positivity⟩
  · norm_num [avgPool, avgPoolKernel, avgChannel, avgWindow, avgCell, forN, Pool.outH, Pool.outW, Pool.padH, Pool.padW, load, Int.tdiv,
      List.replicate, show Int.toNat 2 = 2 from rfl, show Int.toNat 3 = 3 from rfl,
      show Int.toNat (-2) = 0 from rfl]
  · norm_num [avgPoolDiff, avgDiffChannel, diffCell, filterCell, forN, Pool.outH, Pool.outW, Pool.padH, Pool.padW, load, store, Int.tdiv,
      List.replicate, show Int.toNat 2 = 2 from rfl, show Int.toNat 3 = 3 from rfl,
      show Int.toNat (-2) = 0 from rfl]
  · have h1 := ((((hasDerivAt_id x3).const_add x2).div_const 4).const_mul g1).const_add (g0 * ((x0 + x1) / 4))
    refine h1.congr_deriv (by ring)

end

end Verif.NN
