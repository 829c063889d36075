import Verif.NN.Im2col
import Verif.LinAlg.Theorems
import Verif.Shape.Reshape
import Verif.Shape.Transpose
/-!
`Conv2d` and `Conv1d` (property C33), nn.go 201-310: the composition of `im2col`, reshaping, matrix multiplication and
transposition, over the models of these operations.

Simplified: the value of a node is used for the node; types, groups and error texts are left out.
-/
set_option autoImplicit false
namespace Verif.NN
open Verif.Tensor Verif.Shape Verif.LinAlg

noncomputable section

/-- The checks of `Im2Col` on its parameters, nn.go 167-197, and `makeIm2ColOp`, op_nn.go 165-176. -/
def mkConv (kernel pad stride dilation : List Int) : Option Conv :=
  match kernel, pad, stride, dilation with
  | [k0, k1], [p0, p1], [s0, s1], [d0, d1] =>
    if k0 ≤ 0 ∨ k1 ≤ 0 ∨ s0 ≤ 0 ∨ s1 ≤ 0 ∨ p0 < 0 ∨ p1 < 0 ∨ d0 ≤ 0 ∨ d1 ≤ 0 then none
    else some ⟨k0.toNat, k1.toNat, p0.toNat, p1.toNat, s0.toNat, s1.toNat, d0.toNat, d1.toNat⟩
  | _, _, _, _ => none

/-- The row-major data of a tensor. -/
def data (t : T ℝ) : List ℝ := (List.range (size t.shape)).map t.flat

/-- A tensor from its row-major data. -/
def ofData (s : List Nat) (l : List ℝ) : T ℝ := ofFlat s (fun k => l.getD k 0)

/-- `im2colOp.Do`, op_nn.go 201-215: the output, of the shape computed by `calcShape` (op_nn.go 293-309), is created and
filled. Creating a tensor with a negative size panics. -/
def im2colT (op : Conv) (order : List Nat) (im : T ℝ) : Option (T ℝ) :=
  match im.shape with
  | [b, c, h, w] =>
    if op.retH h < 0 ∨ op.retW w < 0 then none
    else
      let shp := [b, (op.retH h).toNat, (op.retW w).toNat, c * op.w * op.h]
      (im2col op c h w order (data im) (List.replicate (size shp) 0)).map (ofData shp)
  | _ => none

/-- A matrix node. -/
def toM (t : T ℝ) : Option M :=
  match t.shape with
  | [r, c] => some ⟨r, c, fun i j => t.at_ [i, j]⟩
  | _ => none

def ofM (m : M) : T ℝ := ⟨[m.r, m.c], fun i => m.f (i.getD 0 0) (i.getD 1 0)⟩

def ofRes {α : Type} : Res α → Option α
  | .ok a => some a
  | _ => none

/-- `Conv2d` after the columns are computed, nn.go 246-300: the size check, the flattened filter, the patches, the product
with the transposed filter, the reshaping and the transposition. -/
def convTail (filter colIm : T ℝ) : Option (T ℝ) :=
  match filter.shape, colIm.shape with
  | [layer, kernel, row, col], [batch, m, n, z] =>
    if z ≠ kernel * row * col then none
    else
      (ofRes (reshape filter [(layer : Int), ((kernel * row * col : Nat) : Int)])).bind fun flattened =>
      (ofRes (reshape colIm [((batch * m * n : Nat) : Int), (z : Int)])).bind fun patch =>
      (toM patch).bind fun pm => (toM flattened).bind fun fm =>
      (matMul false true pm fm).bind fun prod =>
      (ofRes (reshape (ofM prod) [(batch : Int), (m : Int), (n : Int), (layer : Int)])).bind fun res =>
      transposeVal res [0, 3, 1, 2]
  | _, _ => none

/-- `Conv2d`, nn.go 211-305. `order` is the order in which the goroutines of `im2col` run. -/
def conv2d (im filter : T ℝ) (kernelShape : List Int) (pad : Option (List Int)) (stride : List Int)
    (dilation : Option (List Int)) (order : List Nat) : Option (T ℝ) :=
  if im.shape.length ≠ 4 ∨ filter.shape.length ≠ 4 then none
  else
    (mkConv kernelShape (pad.getD [0, 0]) stride (dilation.getD [1, 1])).bind fun op =>
      (im2colT op order im).bind (convTail filter)

/-- `Conv1d`, nn.go 308-310. -/
def conv1d (im filter : T ℝ) (kernel pad stride dilation : Int) (order : List Nat) : Option (T ℝ) :=
  conv2d im filter [1, kernel] (some [0, pad]) [1, stride] (some [1, dilation]) order

/-! ### Specification -/

/-- The image with zeros around it, at any integer position. -/
def padded (im : T ℝ) (h w b ch : Nat) (y x : Int) : ℝ :=
  if 0 ≤ y ∧ y < h ∧ 0 ≤ x ∧ x < w then im.at_ [b, ch, y.toNat, x.toNat] else 0

/-- The textbook convolution (cross-correlation) at output `(b, l, i, j)`. -/
def textbook (op : Conv) (im filter : T ℝ) (c h w b l i j : Nat) : ℝ :=
  ∑ ch ∈ Finset.range c, ∑ kr ∈ Finset.range op.h, ∑ kc ∈ Finset.range op.w,
    filter.at_ [l, ch, kr, kc] *
      padded im h w b ch ((i * op.strideH + kr * op.dilationH : Int) - op.padH)
        ((j * op.strideW + kc * op.dilationW : Int) - op.padW)

/-! ### Lemmas -/

theorem reshape_nat {α : Type} (t : T α) (s : List Nat) (hn : t.shape ≠ []) (hz : size s = size t.shape) :
    reshape t (s.map Int.ofNat) = .ok (t.reshape s) := by
  have : reshapeTo t.shape (s.map Int.ofNat) = .ok s :=
    (reshape_ok_iff _ _ _ hn).2 (.exact (by
      intro x hx
      obtain ⟨y, _, rfl⟩ := List.mem_map.1 hx
      exact Int.natCast_nonneg y) (by
      rw [List.map_map]
      have : (Int.toNat ∘ Int.ofNat) = id := by funext y; rfl
      rw [this, List.map_id]) hz)
  unfold reshape
  rw [this]
  rfl

theorem data_length (t : T ℝ) : (data t).length = size t.shape := by simp [data]

theorem data_getD (t : T ℝ) (k : Nat) (hk : k < size t.shape) : (data t).getD k 0 = t.flat k := by
  unfold data
  rw [List.getD_eq_getElem?_getD, List.getElem?_map, List.getElem?_range hk]
  rfl

theorem toM_reshape (t : T ℝ) (r c : Nat) :
    toM (t.reshape [r, c]) = some ⟨r, c, fun i j => t.flat (i * c + j)⟩ := by
  simp only [toM, T.reshape, ofFlat, ravel, size, Nat.mul_one, Nat.add_zero]

theorem ofFlat_flat {α : Type} (s : List Nat) (f : Nat → α) (k : Nat) (hk : k < size s) : (ofFlat s f).flat k = f k := by
  show f (ravel s (unravel s k)) = f k
  rw [ravel_unravel hk]

theorem ofM_flat (m : M) (i j : Nat) (hi : i < m.r) (hj : j < m.c) : (ofM m).flat (i * m.c + j) = m.f i j := by
  have h : InB [m.r, m.c] [i, j] := ⟨hi, hj, trivial⟩
  have := flat_ravel (ofM m) (i := [i, j]) h
  simp only [ofM, ravel, size, Nat.mul_one, Nat.add_zero] at this ⊢
  rw [this]
  rfl

/-- Everything after the columns, in terms of the flat data of the columns and the filter. -/
theorem convTail_spec (filter colIm : T ℝ) (layer kernel row col batch m n z : Nat)
    (hf : filter.shape = [layer, kernel, row, col]) (hc : colIm.shape = [batch, m, n, z]) (hz : z = kernel * row * col) :
    ∃ out, convTail filter colIm = some out ∧ out.shape = [batch, layer, m, n] ∧
      ∀ b l i j, b < batch → l < layer → i < m → j < n → out.at_ [b, l, i, j] =
        ∑ k ∈ Finset.range z, colIm.flat (((b * m + i) * n + j) * z + k) * filter.flat (l * z + k) := by
  unfold convTail
  rw [hf, hc]
  simp only
  rw [if_neg (by simpa using hz)]
  have e1 := reshape_nat filter [layer, kernel * row * col] (by simp [hf]) (by rw [hf]; simp only [size]; ring)
  have e2 := reshape_nat colIm [batch * m * n, z] (by simp [hc]) (by rw [hc]; simp only [size]; ring)
  simp only [List.map_cons, List.map_nil, Int.ofNat_eq_natCast] at e1 e2
  rw [e1, e2]
  simp only [ofRes, Option.bind_some, toM_reshape]
  rw [matMul_eq false true _ _ (by simp [M.flip, M.T, hz])]
  simp only [Option.bind_some, M.flip, M.T]
  generalize hP : (M.mk (batch * m * n) layer fun i j =>
    ∑ k ∈ Finset.range z, colIm.flat (i * z + k) * filter.flat (j * (kernel * row * col) + k)) = P
  have hPr : P.r = batch * m * n := by rw [← hP]
  have hPc : P.c = layer := by rw [← hP]
  have e3 := reshape_nat (ofM P) [batch, m, n, layer] (by simp [ofM])
    (by simp only [ofM, size, hPr, hPc]; ring)
  simp only [List.map_cons, List.map_nil, Int.ofNat_eq_natCast] at e3
  simp only [Bool.false_eq_true, if_false, if_true] at hP ⊢
  rw [hP, e3]
  simp only [Option.bind_some]
  have ht : transposeNode 4 [0, 3, 1, 2] = .tr [0, 3, 1, 2] := by decide
  refine ⟨transposeT [0, 3, 1, 2] ((ofM P).reshape [batch, m, n, layer]), ?_, rfl, ?_⟩
  · unfold transposeVal
    have hl : ((ofM P).reshape [batch, m, n, layer]).shape.length = 4 := rfl
    rw [hl, ht]
  · intro b l i j hb hl hi hj
    show ((ofM P).reshape [batch, m, n, layer]).at_ (scatter [0, 3, 1, 2] [b, l, i, j]) = _
    have hs : scatter [0, 3, 1, 2] [b, l, i, j] = [b, i, j, l] := rfl
    rw [hs, reshape_at]
    have hr : ravel [batch, m, n, layer] [b, i, j, l] = ((b * m + i) * n + j) * P.c + l := by
      simp only [ravel, size, hPc]; ring
    have hlt : (b * m + i) * n + j < P.r := by
      rw [hPr]
      have := ravel_lt (s := [batch, m, n]) (i := [b, i, j]) ⟨hb, hi, hj, trivial⟩
      simp only [ravel, size] at this
      have e : batch * (m * (n * 1)) = batch * m * n := by ring
      have e' : b * (m * (n * 1)) + (i * (n * 1) + (j * 1 + 0)) = (b * m + i) * n + j := by ring
      rw [e, e'] at this
      exact this
    rw [hr, ofM_flat P _ _ hlt (by rw [hPc]; exact hl), ← hP, hz]

/-- The columns of a tensor of images. -/
theorem im2colT_spec (op : Conv) (b c h w : Nat) (order : List Nat) (ho : order.Perm (List.range b)) (im : T ℝ)
    (him : im.shape = [b, c, h, w]) (hh : 0 ≤ op.retH h) (hw : 0 ≤ op.retW w) :
    ∃ out, im2colT op order im = some out ∧
      out.shape = [b, (op.retH h).toNat, (op.retW w).toNat, c * op.w * op.h] ∧
      ∀ i < b, ∀ k < op.colSize c h w, out.flat (i * op.colSize c h w + k) =
        match source op c h w k with | some p => im.flat (i * (c * (h * w)) + p) | none => 0 := by
  have hsz : size [b, (op.retH h).toNat, (op.retW w).toNat, c * op.w * op.h] = b * op.colSize c h w := by
    simp only [size, Conv.colSize, Nat.mul_one]
  obtain ⟨out, h1, h2, h3⟩ := im2col_exact op b c h w order ho (data im)
    (List.replicate (size [b, (op.retH h).toNat, (op.retW w).toNat, c * op.w * op.h]) 0)
    (by rw [data_length, him]; simp only [size, Nat.mul_one]) (by rw [List.length_replicate, hsz])
  refine ⟨ofData _ out, ?_, rfl, fun i hi k hk => ?_⟩
  · unfold im2colT
    rw [him]
    simp only
    rw [if_neg (by omega), h1]
    rfl
  · have hlt : i * op.colSize c h w + k < size [b, (op.retH h).toNat, (op.retW w).toNat, c * op.w * op.h] := by
      rw [hsz]
      have : (i + 1) * op.colSize c h w ≤ b * op.colSize c h w := Nat.mul_le_mul_right _ hi
      rw [Nat.succ_mul] at this; omega
    show (ofFlat _ (fun k => out.getD k 0)).flat _ = _
    rw [ofFlat_flat _ _ _ hlt, getD_of (h3 i hi k hk)]
    cases hs : source op c h w k with
    | none => rfl
    | some p =>
      have hp : p < c * (h * w) := by
        have := source_lt op c h w (by rw [← colSize_eq]; exact hk) hs
        simpa [size] using this
      simp only
      rw [data_getD]
      rw [him]
      simp only [size, Nat.mul_one]
      have : (i + 1) * (c * (h * w)) ≤ b * (c * (h * w)) := Nat.mul_le_mul_right _ hi
      rw [Nat.succ_mul] at this; omega

/-- The parameters that pass the checks. -/
theorem mkConv_some (op : Conv) (h1 : 0 < op.h) (h2 : 0 < op.w) (h3 : 0 < op.strideH) (h4 : 0 < op.strideW)
    (h5 : 0 < op.dilationH) (h6 : 0 < op.dilationW) :
    mkConv [op.h, op.w] [op.padH, op.padW] [op.strideH, op.strideW] [op.dilationH, op.dilationW] = some op := by
  unfold mkConv
  simp only
  rw [if_neg (by omega)]
  simp

/-- **C33 (defect).** `Conv2d` never compares the kernel shape with the filter: a filter of another kernel, or of another
number of channels, is accepted as soon as the products agree, and its elements are then matched with the pixels by their
row-major position, as if it had been reshaped to the kernel shape. -/
theorem conv2d_mismatch (op : Conv) (b c h w layers kernel row col : Nat) (order : List Nat)
    (ho : order.Perm (List.range b)) (im filter : T ℝ) (him : im.shape = [b, c, h, w])
    (hfi : filter.shape = [layers, kernel, row, col]) (hprod : c * op.h * op.w = kernel * row * col)
    (h1 : 0 < op.h) (h2 : 0 < op.w) (h3 : 0 < op.strideH) (h4 : 0 < op.strideW) (h5 : 0 < op.dilationH)
    (h6 : 0 < op.dilationW) (hh : 0 ≤ op.retH h) (hw : 0 ≤ op.retW w) :
    ∃ out, conv2d im filter [op.h, op.w] (some [op.padH, op.padW]) [op.strideH, op.strideW]
        (some [op.dilationH, op.dilationW]) order = some out ∧
      out.shape = [b, layers, (op.retH h).toNat, (op.retW w).toNat] ∧
      ∀ bi l i j : Nat, bi < b → l < layers → (i : Int) < op.retH h → (j : Int) < op.retW w →
        out.at_ [bi, l, i, j] = textbook op im (filter.reshape [layers, c, op.h, op.w]) c h w bi l i j := by
  obtain ⟨colIm, e1, e2, e3⟩ := im2colT_spec op b c h w order ho im him hh hw
  obtain ⟨out, f1, f2, f3⟩ := convTail_spec filter colIm layers kernel row col b (op.retH h).toNat (op.retW w).toNat
    (c * op.w * op.h) hfi e2 (by rw [← hprod]; ring)
  refine ⟨out, ?_, f2, fun bi l i j hb hl hi hj => ?_⟩
  · unfold conv2d
    rw [if_neg (by simp [him, hfi])]
    simp only [Option.getD_some]
    rw [mkConv_some op h1 h2 h3 h4 h5 h6, Option.bind_some, e1, Option.bind_some, f1]
  have hi' : i < (op.retH h).toNat := by omega
  have hj' : j < (op.retW w).toNat := by omega
  rw [f3 bi l i j hb hl hi' hj']
  have hz : c * op.w * op.h = c * (op.h * op.w) := by ring
  rw [hz, sum_blocks]
  unfold textbook
  refine Finset.sum_congr rfl fun ch hch => ?_
  rw [sum_blocks]
  refine Finset.sum_congr rfl fun kr hkr => ?_
  refine Finset.sum_congr rfl fun kc hkc => ?_
  rw [Finset.mem_range] at hch hkr hkc
  have hin : InB [(op.retH h).toNat, (op.retW w).toNat, c, op.h, op.w] [i, j, ch, kr, kc] :=
    ⟨hi', hj', hch, hkr, hkc, trivial⟩
  have hk := ravel_lt hin
  rw [← colSize_eq] at hk
  have hpos : ((bi * (op.retH h).toNat + i) * (op.retW w).toNat + j) * (c * (op.h * op.w)) +
      (ch * (op.h * op.w) + (kr * op.w + kc)) = bi * op.colSize c h w +
        ravel [(op.retH h).toNat, (op.retW w).toNat, c, op.h, op.w] [i, j, ch, kr, kc] := by
    simp only [Conv.colSize, ravel, size]; ring
  rw [hpos, e3 bi hb _ hk, source_ravel op c h w hin, row_eq, col_eq]
  have hff : filter.flat (l * (c * (op.h * op.w)) + (ch * (op.h * op.w) + (kr * op.w + kc))) =
      (filter.reshape [layers, c, op.h, op.w]).at_ [l, ch, kr, kc] := by
    rw [reshape_at]
    congr 1
    simp only [ravel, size]; ring
  rw [hff, mul_comm]
  congr 1
  unfold padded
  generalize hy : ((i * op.strideH + kr * op.dilationH : Int) - op.padH) = y
  generalize hx : ((j * op.strideW + kc * op.dilationW : Int) - op.padW) = x
  by_cases hc : 0 ≤ y ∧ y < h ∧ 0 ≤ x ∧ x < w
  · rw [if_pos hc, if_pos hc]
    have hb4 : InB im.shape [bi, ch, y.toNat, x.toNat] := by
      rw [him]; exact ⟨hb, hch, by omega, by omega, trivial⟩
    simp only
    rw [← flat_ravel im hb4, him]
    congr 1
    simp only [ravel, size]; ring
  · rw [if_neg hc, if_neg hc]

/-- **C33.** Without paddings and dilations `Conv2d` pads by nothing and does not dilate. -/
theorem conv2d_defaults (im filter : T ℝ) (kernel stride : List Int) (order : List Nat) :
    conv2d im filter kernel none stride none order = conv2d im filter kernel (some [0, 0]) stride (some [1, 1]) order := rfl

/-- **C33.** Filters whose number of elements per layer differs from channels times kernel size are rejected. -/
theorem conv2d_rejects (op : Conv) (b c h w layers kernel row col : Nat) (order : List Nat)
    (ho : order.Perm (List.range b)) (im filter : T ℝ) (him : im.shape = [b, c, h, w])
    (hfi : filter.shape = [layers, kernel, row, col]) (hprod : c * op.h * op.w ≠ kernel * row * col)
    (h1 : 0 < op.h) (h2 : 0 < op.w) (h3 : 0 < op.strideH) (h4 : 0 < op.strideW) (h5 : 0 < op.dilationH)
    (h6 : 0 < op.dilationW) (hh : 0 ≤ op.retH h) (hw : 0 ≤ op.retW w) :
    conv2d im filter [op.h, op.w] (some [op.padH, op.padW]) [op.strideH, op.strideW]
        (some [op.dilationH, op.dilationW]) order = none := by
  obtain ⟨colIm, e1, e2, _⟩ := im2colT_spec op b c h w order ho im him hh hw
  unfold conv2d
  rw [if_neg (by simp [him, hfi])]
  simp only [Option.getD_some]
  rw [mkConv_some op h1 h2 h3 h4 h5 h6, Option.bind_some, e1, Option.bind_some]
  unfold convTail
  rw [hfi, e2]
  simp only
  rw [if_pos (fun e => hprod (by rw [← e]; ring))]

/-- **C33.** For a batch of images of shape `(b, c, h, w)` and filters of shape `(l, c, kh, kw)`, with the kernel shape
`(kh, kw)`, any positive stride and dilation and any padding for which the output sizes are not negative, `Conv2d` succeeds,
its result has shape `(b, l, retH, retW)`, and the element at `(b, l, i, j)` is the textbook sum. The order in which the
images are worked on does not matter. Missing: filters that do not fit the kernel shape, see `conv2d_mismatch`. -/
theorem conv2d_exact_partial (op : Conv) (b c h w layers : Nat) (order : List Nat) (ho : order.Perm (List.range b))
    (im filter : T ℝ) (him : im.shape = [b, c, h, w]) (hfi : filter.shape = [layers, c, op.h, op.w])
    (h1 : 0 < op.h) (h2 : 0 < op.w) (h3 : 0 < op.strideH) (h4 : 0 < op.strideW) (h5 : 0 < op.dilationH)
    (h6 : 0 < op.dilationW) (hh : 0 ≤ op.retH h) (hw : 0 ≤ op.retW w) :
    ∃ out, conv2d im filter [op.h, op.w] (some [op.padH, op.padW]) [op.strideH, op.strideW]
        (some [op.dilationH, op.dilationW]) order = some out ∧
      out.shape = [b, layers, (op.retH h).toNat, (op.retW w).toNat] ∧
      ∀ bi l i j : Nat, bi < b → l < layers → (i : Int) < op.retH h → (j : Int) < op.retW w →
        out.at_ [bi, l, i, j] = textbook op im filter c h w bi l i j := by
  obtain ⟨out, e1, e2, e3⟩ := conv2d_mismatch op b c h w layers c op.h op.w order ho im filter him hfi rfl h1 h2 h3 h4 h5 h6
    hh hw
  refine ⟨out, e1, e2, fun bi l i j hb hl hi hj => ?_⟩
  rw [e3 bi l i j hb hl hi hj]
  unfold textbook
  refine Finset.sum_congr rfl fun ch hch => ?_
  refine Finset.sum_congr rfl fun kr hkr => ?_
  refine Finset.sum_congr rfl fun kc hkc => ?_
  rw [Finset.mem_range] at hch hkr hkc
  congr 1
  rw [reshape_at, ← hfi, flat_ravel filter (by rw [hfi]; exact ⟨hl, hch, hkr, hkc, trivial⟩)]

/-- **C33 (one-dimensional).** `Conv1d` convolves along the last axis only. -/
theorem conv1d_exact_partial (b c h w layers k pad stride dilation : Nat) (order : List Nat)
    (ho : order.Perm (List.range b)) (im filter : T ℝ) (him : im.shape = [b, c, h, w])
    (hfi : filter.shape = [layers, c, 1, k]) (hk : 0 < k) (hs : 0 < stride) (hd : 0 < dilation)
    (hw : 0 ≤ retLen w k pad stride dilation) :
    ∃ out, conv1d im filter k pad stride dilation order = some out ∧
      out.shape = [b, layers, h, (retLen w k pad stride dilation).toNat] ∧
      ∀ bi l i j : Nat, bi < b → l < layers → i < h → (j : Int) < retLen w k pad stride dilation →
        out.at_ [bi, l, i, j] = ∑ ch ∈ Finset.range c, ∑ kc ∈ Finset.range k,
          filter.at_ [l, ch, 0, kc] * padded im h w bi ch i ((j * stride + kc * dilation : Int) - pad) := by
  have hret : (Conv.mk 1 k 0 pad 1 stride 1 dilation).retH h = h := by
    simp [Conv.retH, retLen]
  obtain ⟨out, e1, e2, e3⟩ := conv2d_exact_partial ⟨1, k, 0, pad, 1, stride, 1, dilation⟩ b c h w layers order ho im filter
    him hfi Nat.one_pos hk Nat.one_pos hs Nat.one_pos hd (by rw [hret]; omega) hw
  rw [hret] at e2 e3
  refine ⟨out, e1, by rw [e2]; rfl, fun bi l i j hb hl hi hj => ?_⟩
  rw [e3 bi l i j hb hl (by omega) hj]
  unfold textbook
  refine Finset.sum_congr rfl fun ch _ => ?_
  simp

/-- Images of ones and a filter of the kernel 2×2, all ones: with padding 1 and stride 2 the corner sees one pixel. -/
example : ∃ out, conv2d ⟨[1, 1, 3, 3], fun _ => 1⟩ ⟨[1, 1, 2, 2], fun _ => 1⟩ [2, 2] (some [1, 1]) [2, 2] none [0] = some out ∧
    out.shape = [1, 1, 2, 2] ∧ out.at_ [0, 0, 0, 0] = 1 ∧ out.at_ [0, 0, 1, 1] = 4 := by
  obtain ⟨out, e1, e2, e3⟩ := conv2d_exact_partial exConv 1 1 3 3 1 [0] (by decide) ⟨[1, 1, 3, 3], fun _ => 1⟩
    ⟨[1, 1, 2, 2], fun _ => 1⟩ rfl rfl (by decide) (by decide) (by decide) (by decide) (by decide) (by decide) (by decide)
    (by decide)
  refine ⟨out, e1, e2, ?_, ?_⟩
  · rw [e3 0 0 0 0 (by decide) (by decide) (by decide) (by decide)]
    simp only [textbook, exConv, padded, Finset.sum_range_succ, Finset.sum_range_zero]
    norm_num
  · rw [e3 0 0 1 1 (by decide) (by decide) (by decide) (by decide)]
    simp only [textbook, exConv, padded, Finset.sum_range_succ, Finset.sum_range_zero]
    norm_num

/-- A filter with a 2×1 kernel is accepted for the kernel shape 1×2, and an image smaller than the kernel gives an output. -/
example : ∃ out, conv2d ⟨[1, 1, 1, 2], fun i => i.getD 3 0⟩ ⟨[1, 1, 2, 1], fun i => i.getD 2 0 + 5⟩ [1, 2] none [1, 1] none
    [0] = some out ∧ out.shape = [1, 1, 1, 1] := by
  obtain ⟨out, e1, e2, _⟩ := conv2d_mismatch ⟨1, 2, 0, 0, 1, 1, 1, 1⟩ 1 1 1 2 1 1 2 1 [0] (by decide)
    ⟨[1, 1, 1, 2], fun i => i.getD 3 0⟩ ⟨[1, 1, 2, 1], fun i => i.getD 2 0 + 5⟩ rfl rfl rfl (by decide) (by decide)
    (by decide) (by decide) (by decide) (by decide) (by decide) (by decide)
  exact ⟨out, e1, e2⟩

end

end Verif.NN
