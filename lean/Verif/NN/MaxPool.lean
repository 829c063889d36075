import Verif.NN.Im2col
/-!
Max pooling and its gradient (property C34): `maxPoolOp`, op_nn.go 616-956, `maxPoolDiffOp`, 958-1123, and the checks of
`MaxPool2D`, nn.go 322-375.

Arrays are lists of reals (data) and integers (the mask); reading or writing outside panics (`none`). The float64 kernels
are modelled; the float32 ones are the same text. `lo` is `-maxFloat64`, an arbitrary real here. The shapes are those of
contiguous BCHW tensors, so the second stride is height times width.
-/
set_option autoImplicit false
namespace Verif.NN
open Verif.Tensor

/-- `maxPoolOp`, op_nn.go 645-661, without the sizes of the input and the mask. -/
structure Pool where
  h : Nat
  w : Nat
  padNorth : Nat
  padWest : Nat
  padSouth : Nat
  padEast : Nat
  explicitPadding : Bool
  strideH : Nat
  strideW : Nat
  deriving DecidableEq

/-- `newMaxPoolOp`, op_nn.go 663-695. -/
def newPool (kh kw : Nat) (pad : List Nat) (sh sw : Nat) : Option Pool :=
  match pad with
  | [n, s, w, e] => some ⟨kh, kw, n, w, s, e, true, sh, sw⟩
  | p0 :: p1 :: _ => some ⟨kh, kw, p0, p1, p0, p1, false, sh, sw⟩
  | _ => none

/-- `calcShape`, op_nn.go 810-816. -/
def Pool.outH (op : Pool) (h : Nat) : Int :=
  Int.tdiv ((h : Int) + op.padSouth + op.padNorth - ((op.h : Int) - 1) - 1) op.strideH + 1
def Pool.outW (op : Pool) (w : Nat) : Int :=
  Int.tdiv ((w : Int) + op.padEast + op.padWest - ((op.w : Int) - 1) - 1) op.strideW + 1

/-- `padH` and `padW`, op_nn.go 919-924. -/
def Pool.padH (op : Pool) : Nat := if op.explicitPadding then op.padSouth else op.padNorth
def Pool.padW (op : Pool) : Nat := if op.explicitPadding then op.padEast else op.padWest

/-- The arrays that the loops write, and the positions at which the slices `inData`, `outData` and `maskData` start. -/
structure PSt where
  inOff : Nat
  outOff : Nat
  maskOff : Nat
  out : List ℝ
  mask : List Int

noncomputable section

/-- The innermost body, op_nn.go 940-944. -/
def poolCell (inData : List ℝ) (inW : Nat) (poolIndex : Nat) (hi wi : Int) (s : PSt) : Option PSt :=
  let i := hi * inW + wi
  (load inData (s.inOff + i)).bind fun x => (s.out[s.outOff + poolIndex]?).bind fun o =>
    if x > o then
      if s.outOff + poolIndex < s.out.length ∧ s.maskOff + poolIndex < s.mask.length then
        some { s with out := s.out.set (s.outOff + poolIndex) x, mask := s.mask.set (s.maskOff + poolIndex) i }
      else none
    else some s

/-- The body for one output position, op_nn.go 930-946. -/
def poolWindow (op : Pool) (inData : List ℝ) (inH inW outW : Nat) (ph pw : Nat) (s : PSt) : Option PSt :=
  let hStart : Int := ph * op.strideH - op.padH
  let wStart : Int := pw * op.strideW - op.padW
  let hEnd := min (hStart + op.h) inH
  let wEnd := min (wStart + op.w) inW
  let hStart := max hStart 0
  let wStart := max wStart 0
  let poolIndex := ph * outW + pw
  forN (hEnd - hStart).toNat (fun a => forN (wEnd - wStart).toNat (fun b =>
    poolCell inData inW poolIndex (hStart + a) (wStart + b))) s

/-- One channel, op_nn.go 928-953, with the slices moved on at the end. Slicing past the end panics. -/
def poolChannel (op : Pool) (inData : List ℝ) (inH inW outH outW : Nat) (outStride inStride maskStride : Nat) (s : PSt) :
    Option PSt :=
  (forN outH (fun ph => forN outW (fun pw => poolWindow op inData inH inW outW ph pw)) s).bind fun s =>
    if s.inOff + inStride ≤ inData.length ∧ s.outOff + outStride ≤ s.out.length ∧ s.maskOff + maskStride ≤ s.mask.length then
      some { s with inOff := s.inOff + inStride, outOff := s.outOff + outStride, maskOff := s.maskOff + maskStride }
    else none

/-- `maxPoolOp.f64s`, op_nn.go 909-956: output and mask are initialised, then filled. -/
def pool (op : Pool) (lo : ℝ) (batches channels outH outW inH inW : Nat) (outStride inStride maskStride : Nat)
    (outData : List ℝ) (inData : List ℝ) (maskData : List Int) : Option (List ℝ × List Int) :=
  if maskData.length < outData.length then none
  else
    let out := outData.map (fun _ => lo)
    let mask := List.replicate outData.length (-1) ++ maskData.drop outData.length
    (forN batches (fun _ => forN channels (fun _ =>
      poolChannel op inData inH inW outH outW outStride inStride maskStride)) ⟨0, 0, 0, out, mask⟩).map
        fun s => (s.out, s.mask)

/-- `maxPoolOp.do` through `Do`, op_nn.go 713-723 and 828-858, for a contiguous input of shape `(b, c, h, w)`: the output
and the mask have the shape computed by `calcShape`. A negative size panics. -/
def maxPool (op : Pool) (lo : ℝ) (b c h w : Nat) (inData : List ℝ) (maskData : List Int) : Option (List ℝ × List Int) :=
  if op.outH h < 0 ∨ op.outW w < 0 then none
  else
    let oh := (op.outH h).toNat
    let ow := (op.outW w).toNat
    pool op lo b c oh ow h w (oh * ow) (h * w) (oh * ow) (List.replicate (b * (c * (oh * ow))) 0) inData maskData

/-- The state of the loops of `maxPoolDiffOp.f64s`. -/
structure DSt where
  outOff : Nat
  inOff : Nat
  maskOff : Nat
  inDiff : List ℝ

/-- The innermost body, op_nn.go 1109-1112. -/
def diffCell (outDiff : List ℝ) (mask : List Int) (pooledW ph pw : Nat) (s : DSt) : Option DSt :=
  let index := ph * pooledW + pw
  (mask[s.maskOff + index]?).bind fun inIndex =>
    if inIndex < 0 then none
    else (s.inDiff[s.inOff + inIndex.toNat]?).bind fun old => (outDiff[s.outOff + index]?).bind fun g =>
      (store s.inDiff (s.inOff + inIndex.toNat) (old + g)).map fun a => { s with inDiff := a }

/-- One channel, op_nn.go 1107-1117. -/
def diffChannel (outDiff : List ℝ) (mask : List Int) (pooledH pooledW outStride inStride maskStride : Nat) (s : DSt) :
    Option DSt :=
  (forN pooledH (fun ph => forN pooledW (fun pw => diffCell outDiff mask pooledW ph pw)) s).bind fun s =>
    if s.outOff + outStride ≤ outDiff.length ∧ s.inOff + inStride ≤ s.inDiff.length ∧ s.maskOff + maskStride ≤ mask.length then
      some { s with outOff := s.outOff + outStride, inOff := s.inOff + inStride, maskOff := s.maskOff + maskStride }
    else none

/-- `maxPoolDiffOp.f64s`, op_nn.go 1095-1120: the gradient of the input is zeroed, then added to. -/
def poolDiff (batches channels pooledH pooledW inStride outStride maskStride : Nat) (inDiff outDiff : List ℝ)
    (mask : List Int) : Option (List ℝ) :=
  (forN batches (fun _ => forN channels (fun _ =>
    diffChannel outDiff mask pooledH pooledW outStride inStride maskStride)) ⟨0, 0, 0, inDiff.map (fun _ => 0)⟩).map
      fun s => s.inDiff

/-- `maxPoolDiffOp.do`, op_nn.go 1042-1065, with the mask left by the forward run. -/
def maxPoolDiff (op : Pool) (b c h w : Nat) (inDiff outDiff : List ℝ) (mask : List Int) : Option (List ℝ) :=
  let oh := (op.outH h).toNat
  let ow := (op.outW w).toNat
  poolDiff b c oh ow (h * w) (oh * ow) (oh * ow) inDiff outDiff mask

/-! ### Specification -/

/-- Pixel `(y, x)` of an `h × w` image lies in the window of output `(i, j)`, with `pt` rows of padding above the image and
`pl` columns to its left. -/
def InWindow (op : Pool) (pt pl h w i j y x : Nat) : Prop :=
  (i * op.strideH : Int) - pt ≤ y ∧ (y : Int) < (i * op.strideH : Int) - pt + op.h ∧ y < h ∧
  (j * op.strideW : Int) - pl ≤ x ∧ (x : Int) < (j * op.strideW : Int) - pl + op.w ∧ x < w

/-! ### Loops -/

/-- Two nested loops with an invariant that counts the iterations. -/
theorem nest2_inv {σ : Type} {a b : Nat} {f : Nat → Nat → σ → Option σ} {s0 : σ} (I : Nat → σ → Prop)
    (hf : ∀ i j s, i < a → j < b → I (i * b + j) s → ∃ s', f i j s = some s' ∧ I (i * b + j + 1) s') (h0 : I 0 s0) :
    ∃ s', forN a (fun i => forN b (f i)) s0 = some s' ∧ I (a * b) s' := by
  refine forN_inv (fun i s => I (i * b) s) a ?_ (by simpa using h0)
  intro i hi s hs
  have := forN_inv (f := f i) (s0 := s) (fun j s => I (i * b + j) s) b (fun j hj s hs => hf i j s hi hj hs) hs
  rw [Nat.succ_mul]
  exact this

/-- Outcome of scanning the pixels in `V`: nothing above `lo` seen, or a maximal pixel and its position. -/
def Best (lo : ℝ) (inp : Nat → ℝ) (inW : Nat) (V : Nat → Nat → Prop) (v : ℝ) (m : Int) : Prop :=
  (v = lo ∧ m = -1 ∧ ∀ y x, V y x → inp (y * inW + x) ≤ lo) ∨
    ∃ y x, V y x ∧ m = ((y * inW + x : Nat) : Int) ∧ v = inp (y * inW + x) ∧ lo < v ∧
      ∀ y' x', V y' x' → inp (y' * inW + x') ≤ v

theorem Best.congr {lo : ℝ} {inp : Nat → ℝ} {inW : Nat} {V V' : Nat → Nat → Prop} {v : ℝ} {m : Int}
    (h : ∀ y x, V y x ↔ V' y x) (hb : Best lo inp inW V v m) : Best lo inp inW V' v m := by
  rcases hb with ⟨a, b, c⟩ | ⟨y, x, a, b, c, d, e⟩
  · exact Or.inl ⟨a, b, fun y x hv => c y x ((h y x).2 hv)⟩
  · exact Or.inr ⟨y, x, (h y x).1 a, b, c, d, fun y' x' hv => e y' x' ((h y' x').2 hv)⟩

theorem Best.lo_le {lo : ℝ} {inp : Nat → ℝ} {inW : Nat} {V : Nat → Nat → Prop} {v : ℝ} {m : Int}
    (hb : Best lo inp inW V v m) : lo ≤ v ∧ ∀ y x, V y x → inp (y * inW + x) ≤ v := by
  rcases hb with ⟨a, _, c⟩ | ⟨y, x, _, _, _, d, e⟩
  · exact ⟨le_of_eq a.symm, fun y x hv => a ▸ c y x hv⟩
  · exact ⟨le_of_lt d, e⟩

/-- One more pixel, larger than what was found so far. -/
theorem Best.take {lo : ℝ} {inp : Nat → ℝ} {inW : Nat} {V : Nat → Nat → Prop} {v : ℝ} {m : Int}
    (hb : Best lo inp inW V v m) (y x : Nat) (h : inp (y * inW + x) > v) :
    Best lo inp inW (fun y' x' => V y' x' ∨ (y' = y ∧ x' = x)) (inp (y * inW + x)) ((y * inW + x : Nat) : Int) := by
  refine Or.inr ⟨y, x, Or.inr ⟨rfl, rfl⟩, rfl, rfl, lt_of_le_of_lt hb.lo_le.1 h, fun y' x' hv => ?_⟩
  rcases hv with hv | ⟨rfl, rfl⟩
  · exact le_of_lt (lt_of_le_of_lt (hb.lo_le.2 y' x' hv) h)
  · exact le_refl _

/-- One more pixel, not larger. -/
theorem Best.keep {lo : ℝ} {inp : Nat → ℝ} {inW : Nat} {V : Nat → Nat → Prop} {v : ℝ} {m : Int}
    (hb : Best lo inp inW V v m) (y x : Nat) (h : ¬ inp (y * inW + x) > v) :
    Best lo inp inW (fun y' x' => V y' x' ∨ (y' = y ∧ x' = x)) v m := by
  rcases hb with ⟨a, b, c⟩ | ⟨y0, x0, a, b, c, d, e⟩
  · refine Or.inl ⟨a, b, fun y' x' hv => ?_⟩
    rcases hv with hv | ⟨rfl, rfl⟩
    · exact c y' x' hv
    · exact a ▸ not_lt.1 h
  · refine Or.inr ⟨y0, x0, Or.inl a, b, c, d, fun y' x' hv => ?_⟩
    rcases hv with hv | ⟨rfl, rfl⟩
    · exact e y' x' hv
    · exact not_lt.1 h

/-- The two states differ at most in cell `P` of the output and of the mask. -/
structure SameBut (P : Nat) (s s' : PSt) : Prop where
  inOff : s'.inOff = s.inOff
  outOff : s'.outOff = s.outOff
  maskOff : s'.maskOff = s.maskOff
  outLen : s'.out.length = s.out.length
  maskLen : s'.mask.length = s.mask.length
  out : ∀ k : Nat, k ≠ P → s'.out[k]? = s.out[k]?
  mask : ∀ k : Nat, k ≠ P → s'.mask[k]? = s.mask[k]?

theorem SameBut.refl (P : Nat) (s : PSt) : SameBut P s s := ⟨rfl, rfl, rfl, rfl, rfl, fun _ _ => rfl, fun _ _ => rfl⟩

theorem window_step {hS wS wN i j y x : Nat} (hj : j < wN) :
    (hS ≤ y ∧ wS ≤ x ∧ x < wS + wN ∧ (y - hS) * wN + (x - wS) < i * wN + j + 1) ↔
      ((hS ≤ y ∧ wS ≤ x ∧ x < wS + wN ∧ (y - hS) * wN + (x - wS) < i * wN + j) ∨ (y = hS + i ∧ x = wS + j)) := by
  constructor
  · rintro ⟨h1, h2, h3, h4⟩
    by_cases h5 : (y - hS) * wN + (x - wS) < i * wN + j
    · exact Or.inl ⟨h1, h2, h3, h5⟩
    · right
      have h6 : (y - hS) * wN + (x - wS) = i * wN + j := by omega
      obtain ⟨a, rfl⟩ := Nat.exists_eq_add_of_le h1
      obtain ⟨c, rfl⟩ := Nat.exists_eq_add_of_le h2
      simp only [Nat.add_sub_cancel_left] at h6
      have hc : c < wN := by omega
      have e1 : (a * wN + c) / wN = a := by
        rw [Nat.mul_comm, Nat.mul_add_div (by omega), Nat.div_eq_of_lt hc]; rfl
      have e2 : (i * wN + j) / wN = i := by
        rw [Nat.mul_comm, Nat.mul_add_div (by omega), Nat.div_eq_of_lt hj]; rfl
      have : a = i := by rw [← e1, ← e2, h6]
      subst this
      exact ⟨rfl, by omega⟩
  · rintro (⟨h1, h2, h3, h4⟩ | ⟨rfl, rfl⟩)
    · exact ⟨h1, h2, h3, by omega⟩
    · refine ⟨by omega, by omega, by omega, ?_⟩
      simp

theorem window_end {hS hN wS wN y x : Nat} :
    (hS ≤ y ∧ wS ≤ x ∧ x < wS + wN ∧ (y - hS) * wN + (x - wS) < hN * wN) ↔
      (hS ≤ y ∧ y < hS + hN ∧ wS ≤ x ∧ x < wS + wN) := by
  constructor
  · rintro ⟨h1, h2, h3, h4⟩
    refine ⟨h1, ?_, h2, h3⟩
    by_contra hn
    have : hN * wN ≤ (y - hS) * wN := Nat.mul_le_mul_right _ (by omega)
    omega
  · rintro ⟨h1, h2, h3, h4⟩
    refine ⟨h1, h3, h4, ?_⟩
    have : (y - hS + 1) * wN ≤ hN * wN := Nat.mul_le_mul_right _ (by omega)
    rw [Nat.succ_mul] at this
    omega

/-- One output position: its cell gets the outcome of scanning its window, nothing else changes. -/
theorem poolWindow_spec (op : Pool) (lo : ℝ) (inData : List ℝ) (inH inW outW ph pw : Nat) (s0 : PSt)
    (hin : s0.inOff + inH * inW ≤ inData.length) (hoff : s0.maskOff = s0.outOff)
    (h1 : s0.out[s0.outOff + (ph * outW + pw)]? = some lo) (h2 : s0.mask[s0.outOff + (ph * outW + pw)]? = some (-1)) :
    ∃ s' v m, poolWindow op inData inH inW outW ph pw s0 = some s' ∧ SameBut (s0.outOff + (ph * outW + pw)) s0 s' ∧
      s'.out[s0.outOff + (ph * outW + pw)]? = some v ∧ s'.mask[s0.outOff + (ph * outW + pw)]? = some m ∧
      Best lo (fun i => inData.getD (s0.inOff + i) 0) inW (InWindow op op.padH op.padW inH inW ph pw) v m := by
  unfold poolWindow
  simp only
  generalize hhs : (ph * op.strideH : Int) - op.padH = hs
  generalize hws : (pw * op.strideW : Int) - op.padW = ws
  generalize hP : s0.outOff + (ph * outW + pw) = P at h1 h2 ⊢
  obtain ⟨hS, hhS⟩ : ∃ n : Nat, max hs 0 = n := Int.eq_ofNat_of_zero_le (le_max_right _ _)
  obtain ⟨wS, hwS⟩ : ∃ n : Nat, max ws 0 = n := Int.eq_ofNat_of_zero_le (le_max_right _ _)
  generalize hhN : (min (hs + op.h) inH - max hs 0).toNat = hN
  generalize hwN : (min (ws + op.w) inW - max ws 0).toNat = wN
  let V : Nat → Nat → Nat → Prop := fun n y x => hS ≤ y ∧ wS ≤ x ∧ x < wS + wN ∧ (y - hS) * wN + (x - wS) < n
  have key := nest2_inv (a := hN) (b := wN) (s0 := s0)
    (f := fun a b => poolCell inData inW (ph * outW + pw) (max hs 0 + a) (max ws 0 + b))
    (fun n s => SameBut P s0 s ∧ ∃ v m, s.out[P]? = some v ∧ s.mask[P]? = some m ∧
      Best lo (fun i => inData.getD (s0.inOff + i) 0) inW (V n) v m) ?_ ?_
  · obtain ⟨s', e1, e2, v, m, e3, e4, e5⟩ := key
    refine ⟨s', v, m, e1, e2, e3, e4, e5.congr fun y x => ?_⟩
    show (hS ≤ y ∧ wS ≤ x ∧ x < wS + wN ∧ (y - hS) * wN + (x - wS) < hN * wN) ↔ _
    rw [window_end]
    unfold InWindow
    rw [hhs, hws]
    omega
  · rintro i j s hi hj ⟨hsb, v, m, hv, hm, hbest⟩
    have hidx : (s.inOff : Int) + ((max hs 0 + i) * inW + (max ws 0 + j)) =
        ((s0.inOff + ((hS + i) * inW + (wS + j)) : Nat) : Int) := by
      rw [hhS, hwS, hsb.inOff]; push_cast; rfl
    have hrow : hS + i < inH := by omega
    have hcol : wS + j < inW := by omega
    have hlt : s0.inOff + ((hS + i) * inW + (wS + j)) < inData.length := by
      have : (hS + i + 1) * inW ≤ inH * inW := Nat.mul_le_mul_right _ hrow
      rw [Nat.succ_mul] at this
      omega
    have hload : load inData (s.inOff + ((max hs 0 + i) * inW + (max ws 0 + j))) =
        some (inData.getD (s0.inOff + ((hS + i) * inW + (wS + j))) 0) := by
      rw [hidx]
      unfold load
      rw [if_neg (by omega), Int.toNat_natCast, List.getElem?_eq_getElem hlt, List.getD_eq_getElem?_getD,
        List.getElem?_eq_getElem hlt]
      rfl
    have hPo : s.outOff + (ph * outW + pw) = P := by rw [hsb.outOff]; exact hP
    have hPm : s.maskOff + (ph * outW + pw) = P := by rw [hsb.maskOff, hoff]; exact hP
    have hPl : P < s.out.length := by
      rcases Nat.lt_or_ge P s.out.length with h | h
      · exact h
      · rw [List.getElem?_eq_none h] at hv; simp at hv
    have hPml : P < s.mask.length := by
      rcases Nat.lt_or_ge P s.mask.length with h | h
      · exact h
      · rw [List.getElem?_eq_none h] at hm; simp at hm
    have hVstep : ∀ y x, (V (i * wN + j) y x ∨ (y = hS + i ∧ x = wS + j)) ↔ V (i * wN + j + 1) y x :=
      fun y x => (window_step hj).symm
    unfold poolCell
    simp only
    rw [hload, Option.bind_some, hPo, hPm, hv, Option.bind_some]
    by_cases hgt : inData.getD (s0.inOff + ((hS + i) * inW + (wS + j))) 0 > v
    · rw [if_pos hgt, if_pos ⟨hPl, hPml⟩]
      refine ⟨_, rfl, ⟨hsb.inOff, hsb.outOff, hsb.maskOff, ?_, ?_, ?_, ?_⟩, _, _, ?_, ?_,
        (hbest.take (hS + i) (wS + j) hgt).congr hVstep⟩
      · simp [hsb.outLen]
      · simp [hsb.maskLen]
      · intro k hk; simp only; rw [List.getElem?_set_ne (fun e => hk e.symm), hsb.out k hk]
      · intro k hk; simp only; rw [List.getElem?_set_ne (fun e => hk e.symm), hsb.mask k hk]
      · simp [hPl]
      · simp only [List.getElem?_set_self hPml]
        congr 1
        rw [hhS, hwS]; push_cast; rfl
    · rw [if_neg hgt]
      exact ⟨s, rfl, hsb, v, m, hv, hm, (hbest.keep (hS + i) (wS + j) hgt).congr hVstep⟩
  · refine ⟨SameBut.refl _ _, lo, -1, h1, h2, Or.inl ⟨rfl, rfl, ?_⟩⟩
    rintro y x ⟨_, _, _, h⟩
    omega

/-- The outcome for cell `k` of the output: the scan of its window in its channel. -/
def Cell (op : Pool) (lo : ℝ) (inData : List ℝ) (inH inW outH outW k : Nat) (v : ℝ) (m : Int) : Prop :=
  Best lo (fun i => inData.getD (k / (outH * outW) * (inH * inW) + i) 0) inW
    (InWindow op op.padH op.padW inH inW (k % (outH * outW) / outW) (k % (outH * outW) % outW)) v m

/-- The first `n` cells are done, the rest is as initialised. -/
structure Progress (op : Pool) (lo : ℝ) (inData : List ℝ) (inH inW outH outW N M n : Nat) (s : PSt) : Prop where
  outLen : s.out.length = N
  maskLen : s.mask.length = M
  done : ∀ k < n, k < N → ∃ v m, s.out[k]? = some v ∧ s.mask[k]? = some m ∧ Cell op lo inData inH inW outH outW k v m
  todo : ∀ k < N, n ≤ k → s.out[k]? = some lo ∧ s.mask[k]? = some (-1)

theorem divmod_cell {q p S : Nat} (hp : p < S) : (q * S + p) / S = q ∧ (q * S + p) % S = p := by
  constructor
  · rw [Nat.mul_comm, Nat.mul_add_div (by omega), Nat.div_eq_of_lt hp]; rfl
  · rw [Nat.mul_comm, Nat.mul_add_mod, Nat.mod_eq_of_lt hp]

theorem cell_lt {a b i j : Nat} (hi : i < a) (hj : j < b) : i * b + j < a * b := by
  have : (i + 1) * b ≤ a * b := Nat.mul_le_mul_right _ hi
  rw [Nat.succ_mul] at this; omega

theorem poolChannel_spec (op : Pool) (lo : ℝ) (inData : List ℝ) (inH inW outH outW N M K q : Nat)
    (hin : inData.length = K * (inH * inW)) (hN : N = K * (outH * outW)) (hM : N ≤ M) (hq : q < K) (s : PSt)
    (hs : Progress op lo inData inH inW outH outW N M (q * (outH * outW)) s) (h1 : s.inOff = q * (inH * inW))
    (h2 : s.outOff = q * (outH * outW)) (h3 : s.maskOff = q * (outH * outW)) :
    ∃ s', poolChannel op inData inH inW outH outW (outH * outW) (inH * inW) (outH * outW) s = some s' ∧
      Progress op lo inData inH inW outH outW N M ((q + 1) * (outH * outW)) s' ∧ s'.inOff = (q + 1) * (inH * inW) ∧
      s'.outOff = (q + 1) * (outH * outW) ∧ s'.maskOff = (q + 1) * (outH * outW) := by
  have hblock : (q + 1) * (inH * inW) ≤ inData.length := by rw [hin]; exact Nat.mul_le_mul_right _ hq
  have hblockO : (q + 1) * (outH * outW) ≤ N := by rw [hN]; exact Nat.mul_le_mul_right _ hq
  have key := nest2_inv (a := outH) (b := outW) (s0 := s)
    (f := fun ph pw => poolWindow op inData inH inW outW ph pw)
    (fun n s' => Progress op lo inData inH inW outH outW N M (q * (outH * outW) + n) s' ∧ s'.inOff = s.inOff ∧
      s'.outOff = s.outOff ∧ s'.maskOff = s.maskOff) ?_ ⟨by simpa using hs, rfl, rfl, rfl⟩
  · obtain ⟨s', e1, e2, e3, e4, e5⟩ := key
    unfold poolChannel
    rw [e1, Option.bind_some]
    rw [Nat.succ_mul] at hblock hblockO
    rw [if_pos ⟨by rw [e3, h1]; exact hblock, by rw [e4, h2, e2.outLen]; exact hblockO,
      by rw [e5, h3, e2.maskLen]; omega⟩]
    refine ⟨_, rfl, ?_, ?_, ?_, ?_⟩
    · rw [Nat.succ_mul]; exact ⟨e2.outLen, e2.maskLen, e2.done, e2.todo⟩
    · simp only; rw [e3, h1, Nat.succ_mul]
    · simp only; rw [e4, h2, Nat.succ_mul]
    · simp only; rw [e5, h3, Nat.succ_mul]
  · rintro ph pw t hph hpw ⟨hp, t1, t2, t3⟩
    have hcell : ph * outW + pw < outH * outW := cell_lt hph hpw
    have hPN : q * (outH * outW) + (ph * outW + pw) < N := by
      rw [Nat.succ_mul] at hblockO; omega
    have htodo := hp.todo _ hPN (Nat.le_refl _)
    have hoff : t.outOff = q * (outH * outW) := t2.trans h2
    obtain ⟨t', v, m, e1, e2, e3, e4, e5⟩ := poolWindow_spec op lo inData inH inW outW ph pw t
      (by rw [t1, h1]; rw [Nat.succ_mul] at hblock; exact hblock) (by rw [t3, h3, hoff])
      (by rw [hoff]; exact htodo.1) (by rw [hoff]; exact htodo.2)
    rw [hoff] at e2 e3 e4
    refine ⟨t', e1, ⟨e2.outLen.trans hp.outLen, e2.maskLen.trans hp.maskLen, ?_, ?_⟩, e2.inOff.trans t1,
      e2.outOff.trans t2, e2.maskOff.trans t3⟩
    · intro k hk hkN
      by_cases hkP : k = q * (outH * outW) + (ph * outW + pw)
      · subst hkP
        refine ⟨v, m, e3, e4, ?_⟩
        unfold Cell
        rw [(divmod_cell hcell).1, (divmod_cell hcell).2, (divmod_cell hpw).1, (divmod_cell hpw).2]
        rw [t1, h1] at e5
        exact e5
      · obtain ⟨v', m', f1, f2, f3⟩ := hp.done k (by omega) hkN
        exact ⟨v', m', by rw [e2.out k hkP]; exact f1, by rw [e2.mask k hkP]; exact f2, f3⟩
    · intro k hkN hk
      have hkP : k ≠ q * (outH * outW) + (ph * outW + pw) := by omega
      rw [e2.out k hkP, e2.mask k hkP]
      exact hp.todo k hkN (by omega)

theorem pool_spec (op : Pool) (lo : ℝ) (B C outH outW inH inW : Nat) (outData inData : List ℝ) (maskData : List Int)
    (hin : inData.length = B * C * (inH * inW)) (hout : outData.length = B * C * (outH * outW))
    (hmask : outData.length ≤ maskData.length) :
    ∃ out mask, pool op lo B C outH outW inH inW (outH * outW) (inH * inW) (outH * outW) outData inData maskData =
        some (out, mask) ∧ out.length = outData.length ∧ mask.length = maskData.length ∧
      ∀ k < out.length, ∃ v m, out[k]? = some v ∧ mask[k]? = some m ∧ Cell op lo inData inH inW outH outW k v m := by
  unfold pool
  rw [if_neg (Nat.not_lt.2 hmask)]
  simp only
  have key := nest2_inv (a := B) (b := C)
    (s0 := (⟨0, 0, 0, outData.map (fun _ => lo),
      List.replicate outData.length (-1) ++ maskData.drop outData.length⟩ : PSt))
    (f := fun _ _ => poolChannel op inData inH inW outH outW (outH * outW) (inH * inW) (outH * outW))
    (fun n s => Progress op lo inData inH inW outH outW outData.length maskData.length (n * (outH * outW)) s ∧
      s.inOff = n * (inH * inW) ∧ s.outOff = n * (outH * outW) ∧ s.maskOff = n * (outH * outW)) ?_ ?_
  · obtain ⟨s', e1, e2, _⟩ := key
    refine ⟨s'.out, s'.mask, by rw [e1]; rfl, e2.outLen, e2.maskLen, fun k hk => ?_⟩
    rw [e2.outLen] at hk
    exact e2.done k (by rw [← hout]; exact hk) hk
  · rintro i j s hi hj ⟨p1, p2, p3, p4⟩
    exact poolChannel_spec op lo inData inH inW outH outW _ _ (B * C) (i * C + j) hin hout hmask (cell_lt hi hj) s p1 p2 p3 p4
  · refine ⟨⟨by simp, by simp; omega, by intro k hk; simp at hk, fun k hk _ => ⟨?_, ?_⟩⟩, by simp, by simp, by simp⟩
    · rw [List.getElem?_map, List.getElem?_eq_getElem hk]; rfl
    · simp only
      rw [List.getElem?_append_left (by simpa using hk), List.getElem?_replicate, if_pos hk]

/-! ### The pooled values and the mask -/

/-- **C34.** For every input of shape `(b, c, h, w)` and every operator whose output sizes are not negative, pooling does not
panic, and every output `(bi, ch, i, j)` either has an empty window (or only pixels that are not above `lo`), in which case it is
`lo` and the recorded index is `-1`, or the recorded index is the position in its channel of a pixel of the window that is
maximal, and the output is the value of that pixel. The window is placed by `padH` and `padW`. -/
theorem pool_scan (op : Pool) (lo : ℝ) (b c h w : Nat) (inData : List ℝ) (maskData : List Int)
    (hh : 0 ≤ op.outH h) (hw : 0 ≤ op.outW w) (hin : inData.length = b * c * (h * w))
    (hmask : maskData.length = b * c * ((op.outH h).toNat * (op.outW w).toNat)) :
    ∃ out mask, maxPool op lo b c h w inData maskData = some (out, mask) ∧
      out.length = b * c * ((op.outH h).toNat * (op.outW w).toNat) ∧ mask.length = out.length ∧
      ∀ bi ch i j : Nat, bi < b → ch < c → (i : Int) < op.outH h → (j : Int) < op.outW w →
        ∃ v m, out[ravel [b, c, (op.outH h).toNat, (op.outW w).toNat] [bi, ch, i, j]]? = some v ∧
          mask[ravel [b, c, (op.outH h).toNat, (op.outW w).toNat] [bi, ch, i, j]]? = some m ∧
          ((v = lo ∧ m = -1 ∧ ∀ y x, InWindow op op.padH op.padW h w i j y x →
              inData.getD (ravel [b, c, h, w] [bi, ch, y, x]) 0 ≤ lo) ∨
            ∃ y x, InWindow op op.padH op.padW h w i j y x ∧ m = (ravel [h, w] [y, x] : Nat) ∧
              v = inData.getD (ravel [b, c, h, w] [bi, ch, y, x]) 0 ∧
              ∀ y' x', InWindow op op.padH op.padW h w i j y' x' →
                inData.getD (ravel [b, c, h, w] [bi, ch, y', x']) 0 ≤ v) := by
  generalize hoh : (op.outH h).toNat = oh at *
  generalize how : (op.outW w).toNat = ow at *
  obtain ⟨out, mask, e1, e2, e3, e4⟩ := pool_spec op lo b c oh ow h w (List.replicate (b * (c * (oh * ow))) 0) inData
    maskData hin (by simp; ring) (by simp [hmask]; ring_nf; exact Nat.le_refl _)
  refine ⟨out, mask, ?_, ?_, ?_, fun bi ch i j hb hc hi hj => ?_⟩
  · unfold maxPool
    rw [if_neg (by omega), hoh, how]
    exact e1
  · rw [e2]; simp; ring
  · rw [e3, e2, hmask]; simp; ring
  · have hI : i < oh := by omega
    have hJ : j < ow := by omega
    have hr : ravel [b, c, oh, ow] [bi, ch, i, j] = (bi * c + ch) * (oh * ow) + (i * ow + j) := by
      simp only [ravel, size]; ring
    have hcell := cell_lt hI hJ
    have hq : bi * c + ch < b * c := cell_lt hb hc
    have hk : (bi * c + ch) * (oh * ow) + (i * ow + j) < out.length := by
      rw [e2]; simp only [List.length_replicate]
      have := cell_lt hq hcell
      rw [show b * (c * (oh * ow)) = b * c * (oh * ow) by ring]; exact this
    obtain ⟨v, m, f1, f2, f3⟩ := e4 _ hk
    unfold Cell at f3
    rw [(divmod_cell hcell).1, (divmod_cell hcell).2, (divmod_cell hJ).1, (divmod_cell hJ).2] at f3
    rw [hr]
    refine ⟨v, m, f1, f2, ?_⟩
    have hin' : ∀ y x, (bi * c + ch) * (h * w) + (y * w + x) = ravel [b, c, h, w] [bi, ch, y, x] := by
      intro y x; simp only [ravel, size]; ring
    have hin2 : ∀ y x, y * w + x = ravel [h, w] [y, x] := by
      intro y x; simp only [ravel, size]; ring
    rcases f3 with ⟨a1, a2, a3⟩ | ⟨y, x, a1, a2, a3, _, a5⟩
    · refine Or.inl ⟨a1, a2, fun y x hyx => ?_⟩
      rw [← hin']; exact a3 y x hyx
    · refine Or.inr ⟨y, x, a1, by rw [a2, hin2], by rw [a3, ← hin'], fun y' x' hyx => ?_⟩
      rw [← hin']; exact a5 y' x' hyx

/-- **C34 (size).** If the window fits at all, the output rows are exactly the positions at which it fits into the padded
image; the same for the columns (`pool_width`). -/
theorem pool_height (op : Pool) (h : Nat) (hs : 0 < op.strideH) (hk : 1 ≤ op.h) (hfit : op.h ≤ h + op.padNorth + op.padSouth)
    (r : Nat) : (r : Int) < op.outH h ↔ r * op.strideH + op.h ≤ h + op.padNorth + op.padSouth := by
  unfold Pool.outH
  have hn : (h : Int) + op.padSouth + op.padNorth - ((op.h : Int) - 1) - 1 = ((h + op.padNorth + op.padSouth - op.h : Nat) : Int) := by
    omega
  rw [hn, ← Int.ofNat_tdiv, show ((r : Int) < ((h + op.padNorth + op.padSouth - op.h) / op.strideH : Nat) + 1 ↔
    r ≤ (h + op.padNorth + op.padSouth - op.h) / op.strideH) by omega, Nat.le_div_iff_mul_le hs]
  omega

theorem pool_width (op : Pool) (w : Nat) (hs : 0 < op.strideW) (hk : 1 ≤ op.w) (hfit : op.w ≤ w + op.padWest + op.padEast)
    (r : Nat) : (r : Int) < op.outW w ↔ r * op.strideW + op.w ≤ w + op.padWest + op.padEast := by
  unfold Pool.outW
  have hn : (w : Int) + op.padEast + op.padWest - ((op.w : Int) - 1) - 1 = ((w + op.padWest + op.padEast - op.w : Nat) : Int) := by
    omega
  rw [hn, ← Int.ofNat_tdiv, show ((r : Int) < ((w + op.padWest + op.padEast - op.w) / op.strideW : Nat) + 1 ↔
    r ≤ (w + op.padWest + op.padEast - op.w) / op.strideW) by omega, Nat.le_div_iff_mul_le hs]
  omega

/-- Symmetric padding (`len(pad) == 2`). -/
def Pool.symmetric (op : Pool) : Prop := op.explicitPadding = false

/-- **C34 (value).** With symmetric padding, for an input all of whose elements are above `lo`, every output whose window
contains a pixel is the maximum over its window (placed by the paddings above and to the left), and the recorded index is in
range and names a pixel of the window with that value. Missing: explicit paddings (`pool_explicit_wrong`) and windows that lie
in the padding (`pool_empty_window`). -/
theorem pool_max_partial (op : Pool) (hsym : op.symmetric) (lo : ℝ) (b c h w : Nat) (inData : List ℝ) (maskData : List Int)
    (hh : 0 ≤ op.outH h) (hw : 0 ≤ op.outW w) (hin : inData.length = b * c * (h * w)) (hlo : ∀ x ∈ inData, lo < x)
    (hmask : maskData.length = b * c * ((op.outH h).toNat * (op.outW w).toNat)) :
    ∃ out mask, maxPool op lo b c h w inData maskData = some (out, mask) ∧
      ∀ bi ch i j : Nat, bi < b → ch < c → (i : Int) < op.outH h → (j : Int) < op.outW w →
        (∃ y x, InWindow op op.padNorth op.padWest h w i j y x) →
        ∃ y x, InWindow op op.padNorth op.padWest h w i j y x ∧ ravel [h, w] [y, x] < h * w ∧
          mask[ravel [b, c, (op.outH h).toNat, (op.outW w).toNat] [bi, ch, i, j]]? = some (ravel [h, w] [y, x] : Int) ∧
          out[ravel [b, c, (op.outH h).toNat, (op.outW w).toNat] [bi, ch, i, j]]? =
            some (inData.getD (ravel [b, c, h, w] [bi, ch, y, x]) 0) ∧
          ∀ y' x', InWindow op op.padNorth op.padWest h w i j y' x' →
            inData.getD (ravel [b, c, h, w] [bi, ch, y', x']) 0 ≤ inData.getD (ravel [b, c, h, w] [bi, ch, y, x]) 0 := by
  obtain ⟨out, mask, e1, _, _, e4⟩ := pool_scan op lo b c h w inData maskData hh hw hin hmask
  have hpH : op.padH = op.padNorth := by simp [Pool.padH, show op.explicitPadding = false from hsym]
  have hpW : op.padW = op.padWest := by simp [Pool.padW, show op.explicitPadding = false from hsym]
  rw [hpH, hpW] at e4
  refine ⟨out, mask, e1, fun bi ch i j hb hc hi hj ⟨y0, x0, hy0⟩ => ?_⟩
  obtain ⟨v, m, f1, f2, f3⟩ := e4 bi ch i j hb hc hi hj
  have hlt : ∀ y x, InWindow op op.padNorth op.padWest h w i j y x → ravel [b, c, h, w] [bi, ch, y, x] < inData.length := by
    intro y x hyx
    have := ravel_lt (s := [b, c, h, w]) (i := [bi, ch, y, x]) ⟨hb, hc, hyx.2.2.1, hyx.2.2.2.2.2, trivial⟩
    rw [hin]
    simp only [size, Nat.mul_one] at this
    rw [show b * c * (h * w) = b * (c * (h * w)) by ring]; exact this
  rcases f3 with ⟨_, _, a3⟩ | ⟨y, x, a1, a2, a3, a4⟩
  · have h1 := a3 y0 x0 hy0
    have hl := hlt y0 x0 hy0
    have h2 := hlo (inData.getD (ravel [b, c, h, w] [bi, ch, y0, x0]) 0) (by
      rw [List.getD_eq_getElem?_getD, List.getElem?_eq_getElem hl]; exact List.getElem_mem hl)
    exact absurd h1 (not_le.2 h2)
  · refine ⟨y, x, a1, ?_, by rw [f2, a2], by rw [f1, a3], fun y' x' h' => a3 ▸ a4 y' x' h'⟩
    have := ravel_lt (s := [h, w]) (i := [y, x]) ⟨a1.2.2.1, a1.2.2.2.2.2, trivial⟩
    simpa [size] using this

/-- **C34 (defect).** An output whose window lies in the padding (which the checks of `MaxPool2D` allow as soon as the
padding reaches the kernel size) is `-maxFloat`, and its recorded index is `-1`. -/
theorem pool_empty_window (op : Pool) (lo : ℝ) (b c h w : Nat) (inData : List ℝ) (maskData : List Int)
    (hh : 0 ≤ op.outH h) (hw : 0 ≤ op.outW w) (hin : inData.length = b * c * (h * w))
    (hmask : maskData.length = b * c * ((op.outH h).toNat * (op.outW w).toNat))
    (bi ch i j : Nat) (hb : bi < b) (hc : ch < c) (hi : (i : Int) < op.outH h) (hj : (j : Int) < op.outW w)
    (hempty : ∀ y x, ¬ InWindow op op.padH op.padW h w i j y x) :
    ∃ out mask, maxPool op lo b c h w inData maskData = some (out, mask) ∧
      out[ravel [b, c, (op.outH h).toNat, (op.outW w).toNat] [bi, ch, i, j]]? = some lo ∧
      mask[ravel [b, c, (op.outH h).toNat, (op.outW w).toNat] [bi, ch, i, j]]? = some (-1) := by
  obtain ⟨out, mask, e1, _, _, e4⟩ := pool_scan op lo b c h w inData maskData hh hw hin hmask
  obtain ⟨v, m, f1, f2, f3⟩ := e4 bi ch i j hb hc hi hj
  rcases f3 with ⟨a1, a2, _⟩ | ⟨y, x, a1, _⟩
  · exact ⟨out, mask, e1, by rw [f1, a1], by rw [f2, a2]⟩
  · exact absurd a1 (hempty y x)

end

end Verif.NN
