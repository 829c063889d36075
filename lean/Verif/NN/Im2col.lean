import Verif.NN.Loop
import Mathlib.Data.Real.Basic
import Mathlib.Tactic.Ring
import Mathlib.Algebra.BigOperators.Ring.Finset
/-!
`im2colOp` and `col2imOp` (property C32), op_nn.go 158-610, and the checks of `Im2Col`, nn.go 167-199.

Arrays are lists of reals; writing or reading outside panics (`none`). The float64 kernels are modelled; the float32 ones
are the same text. The goroutines of `do` work on the slices of different batch entries; they are modelled as running one
after the other, in any order. Integers are unbounded.
-/
set_option autoImplicit false
namespace Verif.NN
open Verif.Tensor

/-- `im2colOp`, op_nn.go 158-163. `Im2Col` (nn.go 183-197) rejects kernels, strides and dilations that are not positive
and negative paddings. -/
structure Conv where
  h : Nat
  w : Nat
  padH : Nat
  padW : Nat
  strideH : Nat
  strideW : Nat
  dilationH : Nat
  dilationW : Nat
  deriving DecidableEq

/-- One coordinate of `retHW`, op_nn.go 311-315. Go's division rounds towards zero. -/
def retLen (len k pad stride dilation : Nat) : Int :=
  Int.tdiv ((len : Int) + 2 * pad - (dilation * ((k : Int) - 1) + 1)) stride + 1

/-- `retHW`, op_nn.go 311-315. -/
def Conv.retH (op : Conv) (height : Nat) : Int := retLen height op.h op.padH op.strideH op.dilationH
def Conv.retW (op : Conv) (width : Nat) : Int := retLen width op.w op.padW op.strideW op.dilationW

/-- `inputRow`, op_nn.go 390 and 582; `inputCol`, 397 and 588. -/
def Conv.row (op : Conv) (r kr : Nat) : Int := -(op.padH : Int) + kr * op.dilationH + r * op.strideH
def Conv.col (op : Conv) (c kc : Nat) : Int := -(op.padW : Int) + kc * op.dilationW + c * op.strideW

/-- `a[i] = v`. -/
def store (a : List ℝ) (i : Nat) (v : ℝ) : Option (List ℝ) := if i < a.length then some (a.set i v) else none

/-- `a[i]` for an integer index. -/
def load (a : List ℝ) (i : Int) : Option ℝ := if i < 0 then none else a[i.toNat]?

/-- The innermost body of `im2colOp.f64s`, op_nn.go 390-406. The state is `colIdx` and `col`. -/
def colStep (op : Conv) (height width chanStride : Nat) (im : List ℝ) (r c ch kr kc : Nat) (s : Nat × List ℝ) :
    Option (Nat × List ℝ) :=
  let inputRow := op.row r kr
  if inputRow < 0 ∨ inputRow ≥ height then (store s.2 s.1 0).map (fun a => (s.1 + 1, a))
  else
    let inputCol := op.col c kc
    if inputCol < 0 ∨ inputCol ≥ width then (store s.2 s.1 0).map (fun a => (s.1 + 1, a))
    else (load im (chanStride * ch + inputRow * width + inputCol)).bind
      (fun v => (store s.2 s.1 v).map (fun a => (s.1 + 1, a)))

/-- `im2colOp.f64s`, op_nn.go 384-413. -/
def im2colB (op : Conv) (chans height width chanStride : Nat) (retHeight retWidth : Int) (im col : List ℝ) :
    Option (List ℝ) :=
  (nest5 retHeight.toNat retWidth.toNat chans op.h op.w (colStep op height width chanStride im) (0, col)).map Prod.snd

/-- The innermost body of `col2imOp.f64s`, op_nn.go 582-595. The state is `colIdx` and `im`. -/
def imStep (op : Conv) (height width chanStride : Nat) (col : List ℝ) (r c ch kr kc : Nat) (s : Nat × List ℝ) :
    Option (Nat × List ℝ) :=
  let inputRow := op.row r kr
  if inputRow < 0 ∨ inputRow ≥ height then some (s.1 + 1, s.2)
  else
    let inputCol := op.col c kc
    if inputCol ≥ 0 ∧ inputCol < width then
      let imIdx := chanStride * ch + inputRow * width + inputCol
      (load s.2 imIdx).bind (fun old => (col[s.1]?).bind (fun v =>
        (store s.2 imIdx.toNat (old + v)).map (fun a => (s.1 + 1, a))))
    else some (s.1 + 1, s.2)

/-- `col2imOp.f64s`, op_nn.go 571-603: `im` is zeroed first. -/
def col2imB (op : Conv) (chans height width chanStride : Nat) (retHeight retWidth : Int) (col im : List ℝ) :
    Option (List ℝ) :=
  (nest5 retHeight.toNat retWidth.toNat chans op.h op.w (imStep op height width chanStride col)
    (0, im.map (fun _ => 0))).map Prod.snd

/-- `a[s:e]`. -/
def slice (a : List ℝ) (s e : Nat) : Option (List ℝ) :=
  if s ≤ e ∧ e ≤ a.length then some ((a.drop s).take (e - s)) else none

/-- One goroutine: reads `src[i*ss : min((i+1)*ss, len)]` and updates `dst[i*ds : min((i+1)*ds, len)]` in place,
op_nn.go 343-356 and 505-519. -/
def runBatch (f : List ℝ → List ℝ → Option (List ℝ)) (src : List ℝ) (ss ds : Nat) (dst : List ℝ) (i : Nat) :
    Option (List ℝ) :=
  (slice src (i * ss) (min (i * ss + ss) src.length)).bind fun a =>
    (slice dst (i * ds) (min (i * ds + ds) dst.length)).bind fun b =>
      (f a b).map fun b' => dst.take (i * ds) ++ b' ++ dst.drop (min (i * ds + ds) dst.length)

/-- All goroutines, in the given order. -/
def runBatches (f : List ℝ → List ℝ → Option (List ℝ)) (src : List ℝ) (ss ds : Nat) (dst : List ℝ) (order : List Nat) :
    Option (List ℝ) :=
  order.foldlM (runBatch f src ss ds) dst

/-- Size of one batch entry of the columns: `calcShape`, op_nn.go 293-309, without the batch. -/
def Conv.colSize (op : Conv) (c h w : Nat) : Nat := (op.retH h).toNat * ((op.retW w).toNat * (c * op.w * op.h))

/-- `im2colOp.do`, op_nn.go 317-382, for a contiguous BCHW input of shape `(b, c, h, w)` (its strides are the row-major
ones) and a contiguous output. -/
def im2col (op : Conv) (c h w : Nat) (order : List Nat) (im col : List ℝ) : Option (List ℝ) :=
  runBatches (im2colB op c h w (h * w) (op.retH h) (op.retW w)) im (c * (h * w)) (op.colSize c h w) col order

/-- `col2imOp.do`, op_nn.go 504-569, for contiguous tensors; `h` and `w` there are the sizes of the columns. -/
def col2im (op : Conv) (c h w : Nat) (order : List Nat) (col im : List ℝ) : Option (List ℝ) :=
  runBatches (col2imB op c h w (h * w) (op.retH h) (op.retW w)) col (op.colSize c h w) (c * (h * w)) im order

/-! ### Specification -/

/-- The pixel of an image of `c` channels of size `h × w` that column entry `k` is taken from, `none` in the padding:
`k` is the row-major position of (output row, output column, channel, kernel row, kernel column), and the pixel is
`stride * output + dilation * kernel - padding` in each direction. -/
def source (op : Conv) (c h w : Nat) (k : Nat) : Option Nat :=
  match unravel [(op.retH h).toNat, (op.retW w).toNat, c, op.h, op.w] k with
  | [r, q, ch, kr, kc] =>
    let y : Int := r * op.strideH + kr * op.dilationH - op.padH
    let x : Int := q * op.strideW + kc * op.dilationW - op.padW
    if 0 ≤ y ∧ y < h ∧ 0 ≤ x ∧ x < w then some (ravel [c, h, w] [ch, y.toNat, x.toNat]) else none
  | _ => none

/-- The inner product of two arrays of length `n`. -/
noncomputable def dot (n : Nat) (a b : List ℝ) : ℝ := ∑ k ∈ Finset.range n, a.getD k 0 * b.getD k 0

/-! ### One image -/

theorem store_getElem? {a a' : List ℝ} {i : Nat} {v : ℝ} (h : store a i v = some a') :
    i < a.length ∧ a'.length = a.length ∧ ∀ k : Nat, a'[k]? = if k = i then some v else a[k]? := by
  unfold store at h
  split at h
  · rename_i hi
    cases h
    refine ⟨hi, by simp, fun k => ?_⟩
    by_cases hk : k = i
    · subst hk; simp [hi]
    · rw [if_neg hk, List.getElem?_set_ne (fun e => hk e.symm)]
  · simp at h

theorem store_some {a : List ℝ} {i : Nat} (v : ℝ) (h : i < a.length) : ∃ a', store a i v = some a' := by
  unfold store; rw [if_pos h]; exact ⟨_, rfl⟩

/-- The entries from the old position up to the new one have been set to `v`. -/
def Fill (v : Nat → ℝ) (s s' : Nat × List ℝ) : Prop :=
  s.1 ≤ s'.1 ∧ s'.2.length = s.2.length ∧
    ∀ k : Nat, s'.2[k]? = if s.1 ≤ k ∧ k < s'.1 then some (v k) else s.2[k]?

theorem Fill.refl (v : Nat → ℝ) (s : Nat × List ℝ) : Fill v s s := by
  refine ⟨Nat.le_refl _, rfl, fun k => ?_⟩
  rw [if_neg]; omega

theorem Fill.trans (v : Nat → ℝ) (a b c : Nat × List ℝ) (h1 : Fill v a b) (h2 : Fill v b c) : Fill v a c := by
  obtain ⟨l1, e1, f1⟩ := h1
  obtain ⟨l2, e2, f2⟩ := h2
  refine ⟨Nat.le_trans l1 l2, e2.trans e1, fun k => ?_⟩
  rw [f2 k, f1 k]
  by_cases ha : a.1 ≤ k ∧ k < b.1
  · rw [if_neg (by omega), if_pos ha, if_pos (by omega)]
  · by_cases hb : b.1 ≤ k ∧ k < c.1
    · rw [if_pos hb, if_pos (by omega)]
    · rw [if_neg hb, if_neg ha, if_neg (by omega)]

theorem fill_store {v : Nat → ℝ} {s : Nat × List ℝ} {x : ℝ} (h : s.1 < s.2.length) (hv : v s.1 = x) :
    ∃ s', (store s.2 s.1 x).map (fun a => (s.1 + 1, a)) = some s' ∧ Fill v s s' ∧ s'.1 = s.1 + 1 := by
  obtain ⟨a', ha⟩ := store_some x h
  obtain ⟨_, hl, hg⟩ := store_getElem? ha
  refine ⟨(s.1 + 1, a'), by simp [ha], ⟨Nat.le_succ _, hl, fun k => ?_⟩, rfl⟩
  show a'[k]? = _
  rw [hg k]
  by_cases hk : k = s.1
  · subst hk; rw [if_pos rfl, if_pos ⟨Nat.le_refl _, Nat.lt_succ_self _⟩, hv]
  · rw [if_neg hk, if_neg (by simp only; omega)]

theorem row_eq (op : Conv) (r kr : Nat) : op.row r kr = r * op.strideH + kr * op.dilationH - op.padH := by
  unfold Conv.row; ring

theorem col_eq (op : Conv) (c kc : Nat) : op.col c kc = c * op.strideW + kc * op.dilationW - op.padW := by
  unfold Conv.col; ring

/-- `source` at a position given by its indices. -/
theorem source_ravel (op : Conv) (c h w : Nat) {r q ch kr kc : Nat}
    (hb : InB [(op.retH h).toNat, (op.retW w).toNat, c, op.h, op.w] [r, q, ch, kr, kc]) :
    source op c h w (ravel [(op.retH h).toNat, (op.retW w).toNat, c, op.h, op.w] [r, q, ch, kr, kc]) =
      if 0 ≤ op.row r kr ∧ op.row r kr < h ∧ 0 ≤ op.col q kc ∧ op.col q kc < w then
        some (ravel [c, h, w] [ch, (op.row r kr).toNat, (op.col q kc).toNat]) else none := by
  unfold source
  rw [unravel_ravel hb, row_eq, col_eq]

theorem imIdx_eq {h w ch : Nat} {y x : Int} (hy : 0 ≤ y) (hx : 0 ≤ x) (c : Nat) :
    ((h * w : Nat) : Int) * ch + y * w + x = (ravel [c, h, w] [ch, y.toNat, x.toNat] : Nat) := by
  obtain ⟨a, rfl⟩ := Int.eq_ofNat_of_zero_le hy
  obtain ⟨b, rfl⟩ := Int.eq_ofNat_of_zero_le hx
  simp only [ravel, size, Int.toNat_natCast]
  push_cast
  ring

theorem source_lt (op : Conv) (c h w : Nat) {k p : Nat}
    (hk : k < size [(op.retH h).toNat, (op.retW w).toNat, c, op.h, op.w]) (hs : source op c h w k = some p) :
    p < size [c, h, w] := by
  have hb := inB_unravel hk
  have hr := ravel_unravel hk
  revert hs
  unfold source
  split
  · rename_i r q ch kr kc hu
    rw [hu] at hb
    intro hs
    simp only at hs
    split at hs
    · rename_i hc
      cases hs
      refine ravel_lt ⟨hb.2.2.1, ?_, ?_, trivial⟩ <;> omega
    · simp at hs
  · intro hs; simp at hs

/-- What the columns of one image contain. -/
noncomputable def colVal (op : Conv) (c h w : Nat) (im : List ℝ) (k : Nat) : ℝ :=
  match source op c h w k with
  | some p => im.getD p 0
  | none => 0

theorem im2colB_spec (op : Conv) (c h w : Nat) (im col : List ℝ) (him : im.length = c * (h * w))
    (hcol : col.length = size [(op.retH h).toNat, (op.retW w).toNat, c, op.h, op.w]) :
    ∃ out, im2colB op c h w (h * w) (op.retH h) (op.retW w) im col = some out ∧ out.length = col.length ∧
      ∀ k < out.length, out[k]? = some (colVal op c h w im k) := by
  have := nest5_rel (pos := Prod.fst) (R := Fill (colVal op c h w im)) (Fill.refl _) (Fill.trans _)
    (a := (op.retH h).toNat) (b := (op.retW w).toNat) (c := c) (d := op.h) (e := op.w)
    (body := colStep op h w (h * w) im) (s0 := (0, col)) ?_ rfl
  · obtain ⟨s', h1, ⟨_, h2, h3⟩, h4⟩ := this
    refine ⟨s'.2, by unfold im2colB; rw [h1]; rfl, h2, fun k hk => ?_⟩
    rw [h3 k, if_pos]
    simp only at h2
    rw [h4, ← hcol, ← h2]
    exact ⟨Nat.zero_le _, hk⟩
  · rintro r q ch kr kc s hb ⟨_, hl, _⟩ hp
    have hlt : s.1 < s.2.length := by
      rw [hl]; show s.1 < col.length; rw [hcol, hp]; exact ravel_lt hb
    have hsrc := source_ravel op c h w hb
    rw [← hp] at hsrc
    unfold colStep
    simp only
    by_cases hrow : op.row r kr < 0 ∨ op.row r kr ≥ h
    · rw [if_pos hrow]
      refine fill_store hlt ?_
      rw [if_neg (by omega)] at hsrc
      simp only [colVal, hsrc]
    · rw [if_neg hrow]
      by_cases hcl : op.col q kc < 0 ∨ op.col q kc ≥ w
      · rw [if_pos hcl]
        refine fill_store hlt ?_
        rw [if_neg (by omega)] at hsrc
        simp only [colVal, hsrc]
      · rw [if_neg hcl]
        rw [if_pos (by omega)] at hsrc
        rw [imIdx_eq (by omega) (by omega) c]
        have hplt : ravel [c, h, w] [ch, (op.row r kr).toNat, (op.col q kc).toNat] < im.length := by
          rw [him]
          have := ravel_lt (s := [c, h, w]) (i := [ch, (op.row r kr).toNat, (op.col q kc).toNat])
            ⟨hb.2.2.1, by omega, by omega, trivial⟩
          simpa [size] using this
        have hload : load im (ravel [c, h, w] [ch, (op.row r kr).toNat, (op.col q kc).toNat] : Nat) =
            some (im.getD (ravel [c, h, w] [ch, (op.row r kr).toNat, (op.col q kc).toNat]) 0) := by
          unfold load
          rw [if_neg (by omega), Int.toNat_natCast, List.getElem?_eq_getElem hplt, List.getD_eq_getElem?_getD,
            List.getElem?_eq_getElem hplt]
          rfl
        rw [hload, Option.bind_some]
        refine fill_store hlt ?_
        simp only [colVal, hsrc]

/-- The entries of the image have been increased by the column entries passed whose source they are. -/
def Acc (t : Nat → Option Nat) (y : List ℝ) (s s' : Nat × List ℝ) : Prop :=
  s.1 ≤ s'.1 ∧ s'.2.length = s.2.length ∧
    ∀ p : Nat, s'.2.getD p 0 = s.2.getD p 0 + ∑ k ∈ Finset.Ico s.1 s'.1, if t k = some p then y.getD k 0 else 0

theorem Acc.refl (t : Nat → Option Nat) (y : List ℝ) (s : Nat × List ℝ) : Acc t y s s :=
  ⟨Nat.le_refl _, rfl, fun p => by simp⟩

theorem Acc.trans (t : Nat → Option Nat) (y : List ℝ) (a b c : Nat × List ℝ) (h1 : Acc t y a b) (h2 : Acc t y b c) :
    Acc t y a c := by
  obtain ⟨l1, e1, f1⟩ := h1
  obtain ⟨l2, e2, f2⟩ := h2
  refine ⟨Nat.le_trans l1 l2, e2.trans e1, fun p => ?_⟩
  rw [f2 p, f1 p, add_assoc, Finset.sum_Ico_consecutive _ l1 l2]

theorem acc_skip {t : Nat → Option Nat} {y : List ℝ} {s : Nat × List ℝ} (h : t s.1 = none) :
    Acc t y s (s.1 + 1, s.2) :=
  ⟨Nat.le_succ _, rfl, fun p => by simp [h]⟩

theorem col2imB_spec (op : Conv) (c h w : Nat) (col im : List ℝ) (him : im.length = c * (h * w))
    (hcol : col.length = size [(op.retH h).toNat, (op.retW w).toNat, c, op.h, op.w]) :
    ∃ out, col2imB op c h w (h * w) (op.retH h) (op.retW w) col im = some out ∧ out.length = im.length ∧
      ∀ p : Nat, out.getD p 0 = ∑ k ∈ Finset.range col.length, if source op c h w k = some p then col.getD k 0 else 0 := by
  have := nest5_rel (pos := Prod.fst) (R := Acc (source op c h w) col) (Acc.refl _ _) (Acc.trans _ _)
    (a := (op.retH h).toNat) (b := (op.retW w).toNat) (c := c) (d := op.h) (e := op.w)
    (body := imStep op h w (h * w) col) (s0 := (0, im.map (fun _ => 0))) ?_ rfl
  · obtain ⟨s', h1, ⟨_, h2, h3⟩, h4⟩ := this
    refine ⟨s'.2, by unfold col2imB; rw [h1]; rfl, by rw [h2]; simp, fun p => ?_⟩
    rw [h3 p, h4, ← hcol]
    have : (im.map (fun _ => (0 : ℝ))).getD p 0 = 0 := by
      rw [List.getD_eq_getElem?_getD, List.getElem?_map]
      cases im[p]? <;> rfl
    simp only [this, zero_add]
    rw [Finset.range_eq_Ico]
  · rintro r q ch kr kc s hb ⟨_, hl, _⟩ hp
    have hlt : s.1 < col.length := by rw [hcol, hp]; exact ravel_lt hb
    have hsrc := source_ravel op c h w hb
    rw [← hp] at hsrc
    unfold imStep
    simp only
    by_cases hrow : op.row r kr < 0 ∨ op.row r kr ≥ h
    · rw [if_pos hrow]
      rw [if_neg (by omega)] at hsrc
      exact ⟨_, rfl, acc_skip hsrc, rfl⟩
    · rw [if_neg hrow]
      by_cases hcl : op.col q kc ≥ 0 ∧ op.col q kc < w
      · rw [if_pos hcl]
        rw [if_pos (by omega)] at hsrc
        rw [imIdx_eq (by omega) (by omega) c]
        generalize hP : ravel [c, h, w] [ch, (op.row r kr).toNat, (op.col q kc).toNat] = P at hsrc ⊢
        have hplt : P < s.2.length := by
          rw [hl]
          simp only [List.length_map, him]
          have := ravel_lt (s := [c, h, w]) (i := [ch, (op.row r kr).toNat, (op.col q kc).toNat])
            ⟨hb.2.2.1, by omega, by omega, trivial⟩
          rw [hP] at this
          simpa [size] using this
        have hload : load s.2 (P : Int) = some (s.2.getD P 0) := by
          unfold load
          rw [if_neg (by omega), Int.toNat_natCast, List.getElem?_eq_getElem hplt, List.getD_eq_getElem?_getD,
            List.getElem?_eq_getElem hplt]
          rfl
        rw [hload, Option.bind_some, List.getElem?_eq_getElem hlt, Option.bind_some, Int.toNat_natCast]
        obtain ⟨a', ha⟩ := store_some (s.2.getD P 0 + col[s.1]) hplt
        obtain ⟨_, hla, hg⟩ := store_getElem? ha
        refine ⟨(s.1 + 1, a'), by rw [ha]; rfl, ⟨Nat.le_succ _, hla, fun p => ?_⟩, rfl⟩
        simp only [Nat.Ico_succ_singleton, Finset.sum_singleton, hsrc]
        rw [List.getD_eq_getElem?_getD, hg p]
        by_cases hpP : p = P
        · subst hpP
          simp [List.getElem?_eq_getElem hlt]
        · rw [if_neg hpP, if_neg (by simpa using fun e => hpP e.symm), add_zero, List.getD_eq_getElem?_getD]
      · rw [if_neg hcl]
        rw [if_neg (by omega)] at hsrc
        exact ⟨_, rfl, acc_skip hsrc, rfl⟩

/-- Gathering along `source` and scattering along it are adjoint. -/
theorem gather_scatter (t : Nat → Option Nat) (n m : Nat) (x y : Nat → ℝ) (ht : ∀ k < n, ∀ p, t k = some p → p < m) :
    ∑ k ∈ Finset.range n, (match t k with | some p => x p | none => 0) * y k =
      ∑ p ∈ Finset.range m, x p * ∑ k ∈ Finset.range n, if t k = some p then y k else 0 := by
  simp only [Finset.mul_sum]
  rw [Finset.sum_comm]
  refine Finset.sum_congr rfl fun k hk => ?_
  cases hk' : t k with
  | none => simp
  | some p =>
    have hp : p < m := ht k (Finset.mem_range.1 hk) p hk'
    rw [Finset.sum_eq_single p]
    · simp
    · intro b _ hb
      rw [if_neg (by simpa using fun e => hb e.symm), mul_zero]
    · intro hn; exact absurd (Finset.mem_range.2 hp) hn

/-! ### All images of the batch -/

theorem slice_getElem? {a b : List ℝ} {s e : Nat} (h : slice a s e = some b) (k : Nat) (hk : k < e - s) :
    b[k]? = a[s + k]? := by
  unfold slice at h
  split at h
  · cases h
    rw [List.getElem?_take_of_lt hk, List.getElem?_drop]
  · simp at h

theorem slice_block {a : List ℝ} {b m i : Nat} (ha : a.length = b * m) (hi : i < b) :
    min (i * m + m) a.length = i * m + m ∧
      ∃ s, slice a (i * m) (i * m + m) = some s ∧ s.length = m ∧ ∀ k < m, s[k]? = a[i * m + k]? := by
  have hle : i * m + m ≤ a.length := by
    rw [ha, ← Nat.succ_mul]; exact Nat.mul_le_mul_right _ hi
  refine ⟨Nat.min_eq_left hle, ?_⟩
  have hs : slice a (i * m) (i * m + m) = some ((a.drop (i * m)).take m) := by
    unfold slice; rw [if_pos ⟨Nat.le_add_right _ _, hle⟩, Nat.add_sub_cancel_left]
  refine ⟨_, hs, by simp; omega, fun k hk => ?_⟩
  exact slice_getElem? hs k (by rw [Nat.add_sub_cancel_left]; exact hk)

/-- Result of one goroutine. -/
theorem runBatch_spec {f : List ℝ → List ℝ → Option (List ℝ)} {src dst : List ℝ} {b ss ds i : Nat}
    (hs : src.length = b * ss) (hd : dst.length = b * ds) (hi : i < b)
    (hf : ∀ x y : List ℝ, x.length = ss → y.length = ds → ∃ z, f x y = some z ∧ z.length = ds) :
    ∃ x y z out, x.length = ss ∧ (∀ k < ss, x[k]? = src[i * ss + k]?) ∧ y.length = ds ∧
      (∀ k < ds, y[k]? = dst[i * ds + k]?) ∧ f x y = some z ∧ z.length = ds ∧
      runBatch f src ss ds dst i = some out ∧ out.length = dst.length ∧
      (∀ k < ds, out[i * ds + k]? = z[k]?) ∧ ∀ k : Nat, (k < i * ds ∨ i * ds + ds ≤ k) → out[k]? = dst[k]? := by
  obtain ⟨m1, x, hx, hxl, hxk⟩ := slice_block hs hi
  obtain ⟨m2, y, hy, hyl, hyk⟩ := slice_block hd hi
  obtain ⟨z, hz, hzl⟩ := hf x y hxl hyl
  have hle : i * ds + ds ≤ dst.length := by rw [hd, ← Nat.succ_mul]; exact Nat.mul_le_mul_right _ hi
  refine ⟨x, y, z, dst.take (i * ds) ++ z ++ dst.drop (i * ds + ds), hxl, hxk, hyl, hyk, hz, hzl, ?_, ?_, ?_, ?_⟩
  · unfold runBatch
    rw [m1, m2, hx, Option.bind_some, hy, Option.bind_some, hz, Option.map_some]
  · simp only [List.length_append, List.length_take, List.length_drop, hzl]; omega
  · intro k hk
    rw [List.getElem?_append_left (by simp [hzl]; omega), List.getElem?_append_right (by simp)]
    congr 1
    simp; omega
  · intro k hk
    rcases hk with hk | hk
    · rw [List.getElem?_append_left (by simp [hzl]; omega), List.getElem?_append_left (by simp; omega),
        List.getElem?_take_of_lt hk]
    · rw [List.getElem?_append_right (by simp [hzl]; omega), List.getElem?_drop]
      congr 1
      simp [hzl]; omega

/-- All goroutines, in any order, when the result of one does not depend on what was in its output. -/
theorem runBatches_spec {f : List ℝ → List ℝ → Option (List ℝ)} {src : List ℝ} {b ss ds : Nat}
    (hs : src.length = b * ss)
    (hf : ∀ x y : List ℝ, x.length = ss → y.length = ds → ∃ z, f x y = some z ∧ z.length = ds)
    (v : Nat → Nat → ℝ)
    (hv : ∀ i < b, ∀ x y z : List ℝ, x.length = ss → y.length = ds → (∀ k < ss, x[k]? = src[i * ss + k]?) →
      f x y = some z → ∀ k < ds, z[k]? = some (v i k)) :
    ∀ (order : List Nat) (dst : List ℝ), dst.length = b * ds → (∀ i ∈ order, i < b) →
    ∃ out, runBatches f src ss ds dst order = some out ∧ out.length = dst.length ∧
      ∀ i < b, ∀ k < ds, out[i * ds + k]? = if i ∈ order then some (v i k) else dst[i * ds + k]? := by
  intro order
  induction order with
  | nil => intro dst _ _; exact ⟨dst, rfl, rfl, fun i _ k _ => by simp⟩
  | cons j order ih =>
    intro dst hd hall
    have hj : j < b := hall j (by simp)
    obtain ⟨x, y, z, mid, hxl, hxk, hyl, hyk, hz, hzl, hrun, hml, hin, hout⟩ := runBatch_spec hs hd hj hf
    obtain ⟨out, e1, e2, e3⟩ := ih mid (hml.trans hd) (fun i hi => hall i (by simp [hi]))
    refine ⟨out, ?_, e2.trans hml, fun i hi k hk => ?_⟩
    · unfold runBatches at e1 ⊢
      rw [List.foldlM_cons, hrun]
      exact e1
    · rw [e3 i hi k hk]
      by_cases hio : i ∈ order
      · simp [hio]
      · rw [if_neg hio]
        by_cases hij : i = j
        · subst hij
          rw [if_pos (by simp), hin k hk, hv i hi x y z hxl hyl hxk hz k hk]
        · rw [if_neg (by simp [hio, hij]), hout]
          rcases Nat.lt_or_gt_of_ne hij with h1 | h1
          · left
            have : (i + 1) * ds ≤ j * ds := Nat.mul_le_mul_right _ h1
            rw [Nat.succ_mul] at this; omega
          · right
            have : (j + 1) * ds ≤ i * ds := Nat.mul_le_mul_right _ h1
            rw [Nat.succ_mul] at this; omega

theorem colSize_eq (op : Conv) (c h w : Nat) :
    op.colSize c h w = size [(op.retH h).toNat, (op.retW w).toNat, c, op.h, op.w] := by
  simp only [Conv.colSize, size, Nat.mul_one]
  ring

/-- **C32.** `im2col` of a batch of `b` images of shape `(c, h, w)`, for every order in which the images are worked on and
whatever the preallocated output contains, does not panic, and entry `k` of the columns of image `i` is the pixel of image
`i` that `source` names, zero in the padding. -/
theorem im2col_exact (op : Conv) (b c h w : Nat) (order : List Nat) (ho : order.Perm (List.range b)) (im col : List ℝ)
    (him : im.length = b * (c * (h * w))) (hcol : col.length = b * op.colSize c h w) :
    ∃ out, im2col op c h w order im col = some out ∧ out.length = col.length ∧
      ∀ i < b, ∀ k < op.colSize c h w, out[i * op.colSize c h w + k]? =
        some (match source op c h w k with | some p => im.getD (i * (c * (h * w)) + p) 0 | none => 0) := by
  obtain ⟨out, h1, h2, h3⟩ := runBatches_spec (f := im2colB op c h w (h * w) (op.retH h) (op.retW w)) (src := im)
    (b := b) (ss := c * (h * w)) (ds := op.colSize c h w) him
    (fun x y hx hy => by
      obtain ⟨o, e1, e2, _⟩ := im2colB_spec op c h w x y hx (hy.trans (colSize_eq op c h w))
      exact ⟨o, e1, e2.trans hy⟩)
    (fun i k => match source op c h w k with | some p => im.getD (i * (c * (h * w)) + p) 0 | none => 0)
    (fun i hi x y z hx hy hxs hz k hk => by
      obtain ⟨o, e1, e2, e3⟩ := im2colB_spec op c h w x y hx (hy.trans (colSize_eq op c h w))
      rw [e1] at hz; cases hz
      rw [e3 k (by rw [e2, hy]; exact hk)]
      congr 1
      unfold colVal
      cases hs : source op c h w k with
      | none => rfl
      | some p =>
        have hp : p < c * (h * w) := by
          have := source_lt op c h w (by rw [← colSize_eq]; exact hk) hs
          simpa [size] using this
        simp only
        rw [List.getD_eq_getElem?_getD, List.getD_eq_getElem?_getD, hxs p hp])
    order col hcol (fun i hi => List.mem_range.1 (ho.mem_iff.1 hi))
  refine ⟨out, h1, h2, fun i hi k hk => ?_⟩
  rw [h3 i hi k hk, if_pos (ho.mem_iff.2 (List.mem_range.2 hi))]

/-- **C32.** `col2im` of the columns of a batch: pixel `p` of image `i` is the sum of the column entries of image `i` whose
source it is. -/
theorem col2im_exact (op : Conv) (b c h w : Nat) (order : List Nat) (ho : order.Perm (List.range b)) (im col : List ℝ)
    (him : im.length = b * (c * (h * w))) (hcol : col.length = b * op.colSize c h w) :
    ∃ out, col2im op c h w order col im = some out ∧ out.length = im.length ∧
      ∀ i < b, ∀ p < c * (h * w), out[i * (c * (h * w)) + p]? =
        some (∑ k ∈ Finset.range (op.colSize c h w),
          if source op c h w k = some p then col.getD (i * op.colSize c h w + k) 0 else 0) := by
  obtain ⟨out, h1, h2, h3⟩ := runBatches_spec (f := col2imB op c h w (h * w) (op.retH h) (op.retW w)) (src := col)
    (b := b) (ss := op.colSize c h w) (ds := c * (h * w)) hcol
    (fun x y hx hy => by
      obtain ⟨o, e1, e2, _⟩ := col2imB_spec op c h w x y hy (hx.trans (colSize_eq op c h w))
      exact ⟨o, e1, e2.trans hy⟩)
    (fun i p => ∑ k ∈ Finset.range (op.colSize c h w),
          if source op c h w k = some p then col.getD (i * op.colSize c h w + k) 0 else 0)
    (fun i hi x y z hx hy hxs hz p hp => by
      obtain ⟨o, e1, e2, e3⟩ := col2imB_spec op c h w x y hy (hx.trans (colSize_eq op c h w))
      rw [e1] at hz; cases hz
      have hpl : p < z.length := by rw [e2, hy]; exact hp
      have := e3 p
      rw [List.getD_eq_getElem?_getD, List.getElem?_eq_getElem hpl] at this
      rw [List.getElem?_eq_getElem hpl]
      congr 1
      simp only [Option.getD_some] at this
      rw [this, hx]
      refine Finset.sum_congr rfl fun k hk => ?_
      rw [List.getD_eq_getElem?_getD, List.getD_eq_getElem?_getD, hxs k (Finset.mem_range.1 hk)])
    order im him (fun i hi => List.mem_range.1 (ho.mem_iff.1 hi))
  refine ⟨out, h1, h2, fun i hi k hk => ?_⟩
  rw [h3 i hi k hk, if_pos (ho.mem_iff.2 (List.mem_range.2 hi))]

theorem getD_of {l : List ℝ} {k : Nat} {v : ℝ} (h : l[k]? = some v) : l.getD k 0 = v := by
  rw [List.getD_eq_getElem?_getD, h]; rfl

/-- **C32.** For all images `x` and column blocks `y`, `⟨im2col x, y⟩ = ⟨x, col2im y⟩`, whatever the preallocated outputs
held and in whatever orders the images are worked on. -/
theorem im2col_adjoint (op : Conv) (b c h w : Nat) (o1 o2 : List Nat) (h1 : o1.Perm (List.range b))
    (h2 : o2.Perm (List.range b)) (x y px py : List ℝ) (hx : x.length = b * (c * (h * w)))
    (hy : y.length = b * op.colSize c h w) (hpx : px.length = x.length) (hpy : py.length = y.length) :
    ∃ cx iy, im2col op c h w o1 x py = some cx ∧ col2im op c h w o2 y px = some iy ∧ cx.length = y.length ∧
      iy.length = x.length ∧ dot y.length cx y = dot x.length x iy := by
  obtain ⟨cx, a1, a2, a3⟩ := im2col_exact op b c h w o1 h1 x py hx (hpy.trans hy)
  obtain ⟨iy, b1, b2, b3⟩ := col2im_exact op b c h w o2 h2 px y (hpx.trans hx) hy
  refine ⟨cx, iy, a1, b1, a2.trans hpy, b2.trans hpx, ?_⟩
  unfold dot
  rw [hy, hx, sum_blocks, sum_blocks]
  refine Finset.sum_congr rfl fun i hi => ?_
  have hi := Finset.mem_range.1 hi
  have := gather_scatter (source op c h w) (op.colSize c h w) (c * (h * w))
    (fun p => x.getD (i * (c * (h * w)) + p) 0) (fun k => y.getD (i * op.colSize c h w + k) 0)
    (fun k hk p hp => by
      have := source_lt op c h w (by rw [← colSize_eq]; exact hk) hp
      simpa [size] using this)
  calc _ = _ := Finset.sum_congr rfl fun k hk => by
        have := a3 i hi k (Finset.mem_range.1 hk)
        rw [getD_of this]
    _ = _ := this
    _ = _ := Finset.sum_congr rfl fun p hp => by
        have := b3 i hi p (Finset.mem_range.1 hp)
        rw [getD_of this]

/-- `im2colOp.SymDiff`, op_nn.go 237-264: `col2im` with the same parameters and the sizes of the image, applied to the
gradient (into a new tensor). -/
def im2colSymDiff (op : Conv) (b c h w : Nat) (order : List Nat) (grad : List ℝ) : Option (List ℝ) :=
  col2im op c h w order grad (List.replicate (b * (c * (h * w))) 0)

/-- `im2colOp.DoDiff`, op_nn.go 266-291: `col2im` into the derivative that the input already has. -/
def im2colDoDiff (op : Conv) (c h w : Nat) (order : List Nat) (old grad : List ℝ) : Option (List ℝ) :=
  col2im op c h w order grad old

/-- **C32.** The symbolic gradient of `im2col` is its transpose: for every direction `x'` and output gradient `g`, the
derivative of the columns in that direction (they are linear) paired with `g` is `x'` paired with the gradient. -/
theorem im2col_gradient (op : Conv) (b c h w : Nat) (o1 o2 : List Nat) (h1 : o1.Perm (List.range b))
    (h2 : o2.Perm (List.range b)) (x' g pc : List ℝ) (hx : x'.length = b * (c * (h * w)))
    (hg : g.length = b * op.colSize c h w) (hp : pc.length = g.length) :
    ∃ cx gx, im2col op c h w o1 x' pc = some cx ∧ im2colSymDiff op b c h w o2 g = some gx ∧
      dot g.length cx g = dot x'.length x' gx := by
  obtain ⟨cx, iy, a, b', _, _, e⟩ := im2col_adjoint op b c h w o1 o2 h1 h2 x' g
    (List.replicate (b * (c * (h * w))) 0) pc hx hg (by simp [hx]) hp
  exact ⟨cx, iy, a, b', e⟩

/-- **C32 (defect).** In the define-by-run machine derivatives are accumulated, but the derivative that an image already
has is lost: the result does not depend on it. -/
theorem im2col_doDiff_overwrites (op : Conv) (b c h w : Nat) (order : List Nat) (ho : order.Perm (List.range b))
    (old old' g : List ℝ) (h1 : old.length = b * (c * (h * w))) (h2 : old'.length = old.length)
    (hg : g.length = b * op.colSize c h w) :
    im2colDoDiff op c h w order old g = im2colDoDiff op c h w order old' g := by
  obtain ⟨o, e1, e2, e3⟩ := col2im_exact op b c h w order ho old g h1 hg
  obtain ⟨o', e1', e2', e3'⟩ := col2im_exact op b c h w order ho old' g (h2.trans h1) hg
  unfold im2colDoDiff
  rw [e1, e1']
  congr 1
  refine List.ext_getElem? fun n => ?_
  rcases Nat.lt_or_ge n o.length with hn | hn
  · rw [e2, h1] at hn
    have hpos : 0 < c * (h * w) := by
      rcases Nat.eq_zero_or_pos (c * (h * w)) with h0 | h0
      · rw [h0] at hn; simp at hn
      · exact h0
    have hi : n / (c * (h * w)) < b := (Nat.div_lt_iff_lt_mul hpos).2 hn
    have hk : n % (c * (h * w)) < c * (h * w) := Nat.mod_lt _ hpos
    have hsplit : n / (c * (h * w)) * (c * (h * w)) + n % (c * (h * w)) = n := by
      rw [Nat.mul_comm]; exact Nat.div_add_mod n _
    have a := e3 _ hi _ hk
    have a' := e3' _ hi _ hk
    rw [hsplit] at a a'
    rw [a, a']
  · rw [List.getElem?_eq_none hn, List.getElem?_eq_none (by rw [e2', h2, ← e2]; exact hn)]

/-! ### The sizes -/

/-- **C33 (sizes).** When the dilated kernel fits into the padded image at all, output position `r` exists exactly when the
window that starts at `r * stride` lies inside the padded image. -/
theorem retLen_exact (len k pad stride dilation : Nat) (hk : 1 ≤ k) (hs : 0 < stride)
    (hfit : dilation * (k - 1) + 1 ≤ len + 2 * pad) (r : Nat) :
    (r : Int) < retLen len k pad stride dilation ↔ r * stride + dilation * (k - 1) + 1 ≤ len + 2 * pad := by
  obtain ⟨k, rfl⟩ : ∃ m, k = m + 1 := ⟨k - 1, by omega⟩
  simp only [Nat.add_sub_cancel] at *
  have hn : (len : Int) + 2 * pad - (dilation * (((k + 1 : Nat) : Int) - 1) + 1) =
      ((len + 2 * pad - (dilation * k + 1) : Nat) : Int) := by
    rw [Nat.cast_sub hfit]; push_cast; ring
  unfold retLen
  rw [hn, ← Int.ofNat_tdiv]
  rw [show ((r : Int) < ((len + 2 * pad - (dilation * k + 1)) / stride : Nat) + 1 ↔
    r ≤ (len + 2 * pad - (dilation * k + 1)) / stride) by omega]
  rw [Nat.le_div_iff_mul_le hs]
  omega

/-- **C33 (defect).** When the kernel is larger than the padded image, but by less than a stride, no window fits and yet one
output position is produced, because Go's division rounds towards zero. -/
theorem retLen_phantom (len k pad stride dilation : Nat) (hk : 1 ≤ k) (h1 : len + 2 * pad < dilation * (k - 1) + 1)
    (h2 : dilation * (k - 1) + 1 < len + 2 * pad + stride) : retLen len k pad stride dilation = 1 := by
  obtain ⟨k, rfl⟩ : ∃ m, k = m + 1 := ⟨k - 1, by omega⟩
  simp only [Nat.add_sub_cancel] at *
  have hn : (len : Int) + 2 * pad - (dilation * (((k + 1 : Nat) : Int) - 1) + 1) =
      -((dilation * k + 1 - (len + 2 * pad) : Nat) : Int) := by
    rw [Nat.cast_sub (Nat.le_of_lt h1)]; push_cast; ring
  unfold retLen
  rw [hn, Int.neg_tdiv, ← Int.ofNat_tdiv, Nat.div_eq_of_lt (by omega)]
  rfl

example : retLen 1 2 0 2 1 = 1 := by decide
example : retLen 5 3 1 2 1 = 3 := by decide

/-- A 2×2 kernel with padding 1 and stride 2 on 3×3 images. -/
def exConv : Conv := ⟨2, 2, 1, 1, 2, 2, 1, 1⟩

example : exConv.colSize 1 3 3 = 16 ∧ source exConv 1 3 3 0 = none ∧ source exConv 1 3 3 3 = some 0 ∧
    source exConv 1 3 3 12 = some 4 ∧ source exConv 1 3 3 15 = some 8 := by decide

example : ∃ cx gx, im2col exConv 1 3 3 [1, 0] (List.replicate 18 1) (List.replicate 32 5) = some cx ∧
    im2colSymDiff exConv 2 1 3 3 [0, 1] (List.replicate 32 2) = some gx ∧
    dot 32 cx (List.replicate 32 2) = dot 18 (List.replicate 18 1) gx := by
  have := im2col_gradient exConv 2 1 3 3 [1, 0] [0, 1] (by decide) (by decide) (List.replicate 18 1) (List.replicate 32 2)
    (List.replicate 32 5) (by simp) (by simp; decide) (by simp)
  simpa using this

end Verif.NN
