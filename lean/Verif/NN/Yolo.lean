import Verif.Shape.Model
import Mathlib.Analysis.SpecialFunctions.Log.Basic
import Mathlib.Data.Finset.Prod
import Mathlib.Data.Int.Interval
import Mathlib.Algebra.Order.Floor.Ring
import Mathlib.Tactic.Linarith
import Mathlib.Tactic.Ring
import Mathlib.Tactic.FieldSimp
import Mathlib.Tactic.NormNum
/-!
`YOLOv3` (op_yolo.go), the 32 bit version, with real numbers. Tensors are contiguous; `Reshape` keeps the flat contents, `T` followed by
`Transpose` moves them (assumed of `tensor`).
-/
set_option autoImplicit false
namespace Verif.NN.Yolo
open Verif.Shape

noncomputable section

/-! ### Model: decoding -/

/-- `_sigmoidf32` (math_nooptim.go 36-44), without its cut-offs. -/
def sig (x : ℝ) : ℝ := 1 / (1 + Real.exp (-x))

/-- `T(0, 2, 1)` and `Transpose()` of a tensor of shape `(B, K, P)`, on the flat contents. -/
def perm3 (K P : Nat) (d : Nat → ℝ) : Nat → ℝ := fun i => d (i / (K * P) * (K * P) + i % K * P + i % (K * P) / K)

/-- The function `f` applied in place to the slice `(nil, rows, attrs)` of a tensor of shape `(B, R, attrs)`: `p` says which (row, attribute)
belong to the slice. -/
def onSlice (R attrs : Nat) (p : Nat → Nat → Prop) [∀ r a, Decidable (p r a)] (f : Nat → ℝ → ℝ) (d : Nat → ℝ) : Nat → ℝ :=
  fun i => if p (i / attrs % R) (i % attrs) then f i (d i) else d i

/-- The loop that adds the position of the cell (op_yolo.go 331-355): row `i` of cells to attribute 1, then for every anchor the rows
`i*A+n, i*A+n+step, …` to attribute 0. -/
def addCell (grid A attrs : Nat) (d : Nat → ℝ) : Nat → ℝ :=
  (List.range grid).foldl (fun d i =>
    (List.range A).foldl (fun d n =>
        onSlice (grid * grid * A) attrs (fun r a => i * A + n ≤ r ∧ (r - (i * A + n)) % (grid * A) = 0 ∧ a = 0) (fun _ v => v + i) d)
      (onSlice (grid * grid * A) attrs (fun r a => i * (grid * A) ≤ r ∧ r < i * (grid * A) + grid * A ∧ a = 1) (fun _ v => v + i) d)) d

/-- `evaluateYOLO_f32` (op_yolo.go 294-398) on `n` elements. `anchorsTensor` has shape `(1, grid²A, 2)`, so the product with the slice of a larger batch
fails (assumed of `tensor.Mul`). -/
def evaluate (B stride grid C A : Nat) (anchors : List ℝ) (n : Nat) (d : Nat → ℝ) : Res (Nat → ℝ) :=
  let attrs := 5 + C
  let R := grid * grid * A
  if n ≠ B * (attrs * A) * (grid * grid) then .err
  else
    let d := perm3 (attrs * A) (grid * grid) d
    let d := onSlice R attrs (fun _ a => a < 2) (fun _ => sig) d
    let d := onSlice R attrs (fun _ a => 4 ≤ a) (fun _ => sig) d
    let d := addCell grid A attrs d
    let d := onSlice R attrs (fun _ a => 2 ≤ a ∧ a < 4) (fun _ => Real.exp) d
    if B ≠ 1 then .err
    else
      let d := onSlice R attrs (fun _ a => 2 ≤ a ∧ a < 4)
        (fun i v => v * (anchors.getD ((i / attrs * 2 + (i % attrs - 2)) % (2 * A)) 0 / stride)) d
      .ok (onSlice R attrs (fun _ a => a < 4) (fun _ v => v * stride) d)

/-- The loop over the masks (op_yolo.go 163-168, 192-197). -/
def currentAnchors (anchors : List ℝ) : List Nat → Nat → List ℝ → Res (List ℝ)
  | [], _, acc => .ok acc
  | k :: ks, i, acc =>
    if anchors.length / 2 ≤ k then .err
    else if anchors.length ≤ i * 2 + 1 then .panic
    else currentAnchors anchors ks (i + 1) (acc ++ [anchors.getD (i * 2) 0, anchors.getD (i * 2 + 1) 0])

structure Op where
  anchors : List ℝ
  masks : List Nat
  thresh : ℝ
  dims : Nat
  classes : Nat

/-- `Do` without training (op_yolo.go 151-170): shape and contents of the result. The result is the operand itself, so these are also the shape and
contents of the operand afterwards. -/
def Op.eval (op : Op) (shape : List Nat) (d : Nat → ℝ) : Res (List Nat × (Nat → ℝ)) :=
  match shape with
  | [B, ch, h, w] =>
    if h = 0 then .panic
    else (currentAnchors op.anchors op.masks 0 []).bind fun cur =>
      (evaluate B (op.dims / h) h op.classes op.masks.length cur (B * ch * h * w) d).bind fun r =>
        .ok ([B, h * h * op.masks.length, 5 + op.classes], r)
  | _ => .err

/-- `InferShape` without training (op_yolo.go 79-89). -/
def Op.infer (op : Op) (shape : List Nat) : Res (List Nat) :=
  match shape with
  | s0 :: s1 :: s2 :: s3 :: _ => if op.masks.length = 0 then .panic else .ok [s0, s2 * s3 * op.masks.length, s1 / op.masks.length]
  | _ => .err

/-! ### Model: rectangles -/

/-- `image.Rectangle`. -/
structure Rect where
  x0 : Int
  y0 : Int
  x1 : Int
  y1 : Int
  deriving DecidableEq

/-- `image.Rect` puts the coordinates in order (assumed). -/
def mkRect (x0 y0 x1 y1 : Int) : Rect := ⟨min x0 x1, min y0 y1, max x0 x1, max y0 y1⟩

/-- `Intersect` (assumed): the zero rectangle if nothing is left. -/
def Rect.inter (r s : Rect) : Rect :=
  let t : Rect := ⟨max r.x0 s.x0, max r.y0 s.y0, min r.x1 s.x1, min r.y1 s.y1⟩
  if t.x1 ≤ t.x0 ∨ t.y1 ≤ t.y0 then ⟨0, 0, 0, 0⟩ else t

def Rect.area (r : Rect) : Int := (r.x1 - r.x0) * (r.y1 - r.y0)

/-- `iou_f32` (op_yolo.go 400-406); `none` is the quotient of zeros, which no comparison accepts. -/
def iou (r s : Rect) : Option ℝ :=
  if r.area + s.area - (r.inter s).area = 0 then none
  else some (((r.inter s).area : ℝ) / ((r.area + s.area - (r.inter s).area : Int) : ℝ))

/-- `int(x)`. -/
def goInt (x : ℝ) : Int := if 0 ≤ x then ⌊x⌋ else ⌈x⌉

/-- `rectifyBox_f32` (op_yolo.go 496-498). -/
def rectify (x y h w : ℝ) (img : Int) : Rect :=
  mkRect (max (goInt (x - w / 2)) 0) (max (goInt (y - h / 2)) 0) (min (goInt (x + w / 2 + 1)) img) (min (goInt (y + h / 2 + 1)) img)

open Classical in
/-- The loop over the targets in `getBestIOU_f32` (op_yolo.go 414-421), on the overlaps. -/
def bestLoop (ious : List (Option ℝ)) : ℝ × Int :=
  (ious.zipIdx).foldl (fun best e => match e.1 with
    | some v => if v > best.1 then (v, (e.2 : Int)) else best
    | none => best) (0, -1)

open Classical in
/-- The loop over the anchors in `getBestAnchors_f32` (op_yolo.go 433-440), on the overlaps. -/
def anchorLoop (ious : List (Option ℝ)) : Nat × ℝ :=
  (ious.zipIdx).foldl (fun best e => match e.1 with
    | some v => if v ≥ best.2 then (e.2, v) else best
    | none => best) (0, 0)

/-- `findIntElement` (op_yolo.go 487-494). -/
def findInt : List Nat → Nat → Nat → Int
  | [], _, _ => -1
  | a :: l, e, i => if a = e then (i : Int) else findInt l e (i + 1)

/-! ### Model: training -/

/-- The overlaps of box `b` with the `m` targets (op_yolo.go 408-424). Simplified: the number of target values is `5 m`. -/
def boxIous (C : Nat) (dims : Int) (m : Nat) (boxes t : Nat → ℝ) (b : Nat) : List (Option ℝ) :=
  (List.range m).map fun j => iou
    (rectify (boxes (b * (5 + C))) (boxes (b * (5 + C) + 1)) (boxes (b * (5 + C) + 2)) (boxes (b * (5 + C) + 3)) dims)
    (rectify (t (j * 5 + 1) * dims) (t (j * 5 + 2) * dims) (t (j * 5 + 3) * dims) (t (j * 5 + 4) * dims) dims)

/-- `getBestAnchors_f32` (op_yolo.go 426-448) for target `j`: position in the masks, cell. -/
def bestAnchor (anchors : List ℝ) (masks : List Nat) (dims : Int) (grid : Nat) (t : Nat → ℝ) (j : Nat) : Int × Int × Int :=
  let best := (anchorLoop ((List.range (anchors.length / 2)).map fun i => iou
    (rectify 0 0 (anchors.getD (2 * i) 0) (anchors.getD (2 * i + 1) 0) dims)
    (rectify 0 0 (t (j * 5 + 3) * dims) (t (j * 5 + 4) * dims) dims))).1
  let k := findInt masks best 0
  if k = -1 then (k, 0, 0) else (k, goInt (t (j * 5 + 1) * grid), goInt (t (j * 5 + 2) * grid))

/-- `1e-16`. -/
def eps : ℝ := 1 / 10 ^ 16

/-- `bceLoss32` (op_yolo.go 500-505). -/
def bce (one : Bool) (pred : ℝ) : ℝ := if one then -Real.log (pred + eps) else -Real.log (1 - pred + eps)

/-- `mseLoss32` (op_yolo.go 507-509). -/
def mse (target pred scale : ℝ) : ℝ := (scale * (target - pred)) ^ 2 / 2

/-- `invsigm32` (op_yolo.go 511-513). -/
def invsigm (x : ℝ) : ℝ := -Real.log (1 - x + eps) + Real.log (x + eps)

def set (d : Nat → ℝ) (i : Nat) (v : ℝ) : Nat → ℝ := Function.update d i v

open Classical in
/-- The first loop of `prepareOutputYOLO_f32` (op_yolo.go 455-459). -/
def noObject (C n : Nat) (dims : Int) (m : Nat) (thresh : ℝ) (boxes t : Nat → ℝ) (out : Nat → ℝ) : Nat → ℝ :=
  (List.range n).foldl (fun out b => if (bestLoop (boxIous C dims m boxes t b)).1 ≤ thresh then
    set out (b * (5 + C) + 4) (bce false (boxes (b * (5 + C) + 4))) else out) out

/-- The loop over the classes (op_yolo.go 475-481). -/
def classLoop (C : Nat) (label : Int) (idx : Nat) (boxes out : Nat → ℝ) : Nat → ℝ :=
  (List.range C).foldl (fun out j => set out (idx + 5 + j) (bce (decide ((j : Int) = label)) (boxes (idx + 4)))) out

/-- The body of the second loop (op_yolo.go 460-483) for target `i`. Simplified: targets lie in the image, so the indices are not negative. -/
def object (anchors : List ℝ) (masks : List Nat) (C : Nat) (dims : Int) (grid : Nat) (input boxes t out : Nat → ℝ) (i : Nat) : Nat → ℝ :=
  let b := bestAnchor anchors masks dims grid t i
  if b.1 = -1 then out
  else
    let scale := 2 - t (i * 5 + 3) * t (i * 5 + 4)
    let gx := invsigm (t (i * 5 + 1) * grid - b.2.1)
    let gy := invsigm (t (i * 5 + 2) * grid - b.2.2)
    let gw := Real.log (t (i * 5 + 3) / anchors.getD b.1.toNat 0 + eps)
    let gh := Real.log (t (i * 5 + 4) / anchors.getD (b.1.toNat + 1) 0 + eps)
    let idx := b.2.2.toNat * grid * masks.length + b.2.1.toNat * masks.length + b.1.toNat
    let out := set out idx (mse gx (input idx) scale)
    let out := set out (idx + 1) (mse gy (input (idx + 1)) scale)
    let out := set out (idx + 2) (mse gw (input (idx + 2)) scale)
    let out := set out (idx + 3) (mse gh (input (idx + 3)) scale)
    let out := set out (idx + 4) (bce true (boxes (idx + 4)))
    classLoop C (goInt (t i)) idx boxes out

/-- `prepareOutputYOLO_f32` (op_yolo.go 450-485) for `n` boxes and `m` targets. -/
def prepare (op : Op) (grid n m : Nat) (input boxes t : Nat → ℝ) : Nat → ℝ :=
  (List.range m).foldl (object op.anchors op.masks op.classes op.dims grid input boxes t)
    (noObject op.classes n op.dims m op.thresh boxes t fun _ => 0)

/-- The boxes of the training mode (op_yolo.go 229-249) for a batch of one, `d` being the contents without the targets: the contents are rearranged before `evaluateYOLO_f32`,
which rearranges them again. First component: `clonedInput`. -/
def Op.trainBoxes (op : Op) (grid : Nat) (cur : List ℝ) (d : Nat → ℝ) : Res ((Nat → ℝ) × (Nat → ℝ)) :=
  let K := (5 + op.classes) * op.masks.length
  let d' := perm3 K (grid * grid) d
  (evaluate 1 (op.dims / grid) grid op.classes op.masks.length cur (1 * K * (grid * grid)) d').bind fun r => .ok (d', r)

/-! ### Decoding -/

theorem addCell_at (grid A attrs : Nat) (hA : 0 < A) (d : Nat → ℝ) (x y n a : Nat) (hx : x < grid) (hy : y < grid) (hn : n < A) (ha : a < attrs) :
    addCell grid A attrs d (((y * grid + x) * A + n) * attrs + a) =
      d (((y * grid + x) * A + n) * attrs + a) + (if a = 0 then (x : ℝ) else if a = 1 then (y : ℝ) else 0) := by
  obtain ⟨i₀, hi₀⟩ : ∃ i₀, i₀ = ((y * grid + x) * A + n) * attrs + a := ⟨_, rfl⟩
  have hat : 0 < attrs := by omega
  have hmod : i₀ % attrs = a := by rw [hi₀, Nat.add_comm, Nat.add_mul_mod_self_right, Nat.mod_eq_of_lt ha]
  have hrow : (y * grid + x) * A + n < grid * grid * A := by
    have h1 : y * grid + x + 1 ≤ grid * grid := by
      calc y * grid + x + 1 ≤ y * grid + grid := by omega
        _ = (y + 1) * grid := by ring
        _ ≤ grid * grid := Nat.mul_le_mul_right _ hy
    calc (y * grid + x) * A + n < (y * grid + x) * A + A := by omega
      _ = (y * grid + x + 1) * A := by ring
      _ ≤ grid * grid * A := Nat.mul_le_mul_right _ h1
  have hdiv : i₀ / attrs % (grid * grid * A) = (y * grid + x) * A + n := by
    have : i₀ / attrs = (y * grid + x) * A + n := by
      rw [hi₀, Nat.add_comm, Nat.add_mul_div_right _ _ hat, Nat.div_eq_of_lt ha]; omega
    rw [this, Nat.mod_eq_of_lt hrow]
  rw [← hi₀]
  have hslice : ∀ (p : Nat → Nat → Prop) [∀ r a, Decidable (p r a)] (f : Nat → ℝ → ℝ) (e : Nat → ℝ),
      onSlice (grid * grid * A) attrs p f e i₀ = if p ((y * grid + x) * A + n) a then f i₀ (e i₀) else e i₀ := by
    intro p _ f e
    unfold onSlice
    rw [hdiv, hmod]
  -- the slice of a row of cells
  have hrowcell : ∀ i, (i * (grid * A) ≤ (y * grid + x) * A + n ∧ (y * grid + x) * A + n < i * (grid * A) + grid * A) ↔ i = y := by
    intro i
    have e : (y * grid + x) * A + n = y * (grid * A) + (x * A + n) := by ring
    have hlt : x * A + n < grid * A := by
      calc x * A + n < x * A + A := by omega
        _ = (x + 1) * A := by ring
        _ ≤ grid * A := Nat.mul_le_mul_right _ hx
    rw [e]
    constructor
    · rintro ⟨h1, h2⟩
      have q : (y * (grid * A) + (x * A + n)) / (grid * A) = y := by
        rw [Nat.add_comm, Nat.add_mul_div_right _ _ (by omega), Nat.div_eq_of_lt hlt]; omega
      have q2 : (y * (grid * A) + (x * A + n)) / (grid * A) = i := by
        rw [Nat.div_eq_iff (by omega)]
        refine ⟨h1, by omega⟩
      omega
    · rintro rfl
      omega
  have hcol : ∀ i k, i < grid → k < A → ((i * A + k ≤ (y * grid + x) * A + n ∧ ((y * grid + x) * A + n - (i * A + k)) % (grid * A) = 0) ↔ (i = x ∧ k = n)) := by
    intro i k hi hk
    have e : (y * grid + x) * A + n = y * (grid * A) + (x * A + n) := by ring
    have hlt : ∀ (u v : Nat), u < grid → v < A → u * A + v < grid * A := by
      intro u v hu hv
      calc u * A + v < u * A + A := by omega
        _ = (u + 1) * A := by ring
        _ ≤ grid * A := Nat.mul_le_mul_right _ hu
    rw [e]
    constructor
    · rintro ⟨h1, h2⟩
      have h3 := Nat.sub_add_cancel h1
      have h4 : (y * (grid * A) + (x * A + n)) % (grid * A) = (i * A + k) % (grid * A) := by
        rw [← h3, Nat.add_mod, h2, Nat.zero_add, Nat.mod_mod]
      rw [Nat.add_comm, Nat.add_mul_mod_self_right, Nat.mod_eq_of_lt (hlt x n hx hn), Nat.mod_eq_of_lt (hlt i k hi hk)] at h4
      have h5 : (x * A + n) / A = (i * A + k) / A := by rw [h4]
      rw [Nat.add_comm, Nat.add_mul_div_right _ _ hA, Nat.div_eq_of_lt hn, Nat.add_comm, Nat.add_comm (i * A), Nat.add_mul_div_right _ _ hA, Nat.div_eq_of_lt hk] at h5
      have h6 : x = i := by omega
      subst h6
      exact ⟨rfl, by omega⟩
    · rintro ⟨rfl, rfl⟩
      refine ⟨by omega, ?_⟩
      rw [Nat.add_sub_cancel, Nat.mul_mod_left]
  have hin : ∀ (i : Nat) (hi : i < grid) (m : Nat) (hm : m ≤ A) (e : Nat → ℝ), (List.range m).foldl (fun d n =>
        onSlice (grid * grid * A) attrs (fun r a => i * A + n ≤ r ∧ (r - (i * A + n)) % (grid * A) = 0 ∧ a = 0) (fun _ v => v + i) d) e i₀ =
      e i₀ + if i = x ∧ n < m ∧ a = 0 then (i : ℝ) else 0 := by
    intro i hi m
    induction m with
    | zero => intro _ e; simp
    | succ m ih =>
      intro hm e
      rw [List.range_succ, List.foldl_append, List.foldl_cons, List.foldl_nil, hslice, ih (by omega)]
      have hc := hcol i m hi (by omega)
      by_cases h1 : i = x ∧ m = n ∧ a = 0
      · obtain ⟨p1, p2, p3⟩ := h1
        obtain ⟨q1, q2⟩ := hc.2 ⟨p1, p2⟩
        rw [if_pos ⟨q1, q2, p3⟩, if_neg (by omega), if_pos ⟨p1, by omega, p3⟩]
        ring
      · rw [if_neg (fun h => h1 (by have := hc.1 ⟨h.1, h.2.1⟩; exact ⟨this.1, this.2, h.2.2⟩))]
        congr 1
        by_cases h2 : i = x ∧ n < m ∧ a = 0
        · rw [if_pos h2, if_pos ⟨h2.1, by omega, h2.2.2⟩]
        · rw [if_neg h2, if_neg]
          rintro ⟨p1, p2, p3⟩
          by_cases hmn : m = n
          · exact h1 ⟨p1, hmn, p3⟩
          · exact h2 ⟨p1, by omega, p3⟩
  have hout : ∀ m, m ≤ grid → ∀ e : Nat → ℝ, (List.range m).foldl (fun d i =>
    (List.range A).foldl (fun d n =>
        onSlice (grid * grid * A) attrs (fun r a => i * A + n ≤ r ∧ (r - (i * A + n)) % (grid * A) = 0 ∧ a = 0) (fun _ v => v + i) d)
      (onSlice (grid * grid * A) attrs (fun r a => i * (grid * A) ≤ r ∧ r < i * (grid * A) + grid * A ∧ a = 1) (fun _ v => v + i) d)) e i₀ =
      e i₀ + (if x < m ∧ a = 0 then (x : ℝ) else 0) + (if y < m ∧ a = 1 then (y : ℝ) else 0) := by
    intro m
    induction m with
    | zero => intro _ e; simp
    | succ m ih =>
      intro hm e
      rw [List.range_succ, List.foldl_append, List.foldl_cons, List.foldl_nil, hin m (by omega) A (Nat.le_refl _), hslice, ih (by omega)]
      have hr := hrowcell m
      by_cases ha0 : a = 0
      · have ha1 : a ≠ 1 := by omega
        simp only [ha0, ha1, and_true, and_false, if_false, add_zero, hn, true_and]
        have : ¬ (0 = 1) := by decide
        simp only [this, and_false, if_false, add_zero]
        by_cases hmx : m = x
        · subst hmx
          simp
        · rw [if_neg hmx]
          by_cases h : x < m
          · rw [if_pos h, if_pos (by omega)]; ring
          · rw [if_neg h, if_neg (by omega)]; ring
      · simp only [ha0, and_false, if_false, add_zero]
        by_cases ha1 : a = 1
        · simp only [ha1, and_true]
          by_cases hmy : m = y
          · rw [if_pos (hr.2 hmy)]
            subst hmy
            simp
          · rw [if_neg (fun h => hmy (hr.1 h))]
            congr 1
            by_cases h : y < m
            · rw [if_pos h, if_pos (by omega)]
            · rw [if_neg h, if_neg (by omega)]
        · simp [ha1]
  have := hout grid (Nat.le_refl _) d
  unfold addCell
  rw [this]
  by_cases ha0 : a = 0
  · subst ha0; simp [hx]
  · by_cases ha1 : a = 1
    · subst ha1; simp [hy]
    · simp [ha0, ha1]

theorem perm3_at (attrs grid A : Nat) (d : Nat → ℝ) (x y n a : Nat) (hx : x < grid) (hy : y < grid) (hn : n < A) (ha : a < attrs) :
    perm3 (attrs * A) (grid * grid) d (((y * grid + x) * A + n) * attrs + a) = d (((n * attrs + a) * grid + y) * grid + x) := by
  have hk : n * attrs + a < attrs * A := by
    calc n * attrs + a < n * attrs + attrs := by omega
      _ = (n + 1) * attrs := by ring
      _ ≤ A * attrs := Nat.mul_le_mul_right _ hn
      _ = attrs * A := by ring
  have hp : y * grid + x < grid * grid := by
    calc y * grid + x < y * grid + grid := by omega
      _ = (y + 1) * grid := by ring
      _ ≤ grid * grid := Nat.mul_le_mul_right _ hy
  have e : ((y * grid + x) * A + n) * attrs + a = (n * attrs + a) + (y * grid + x) * (attrs * A) := by ring
  have hlt : (n * attrs + a) + (y * grid + x) * (attrs * A) < attrs * A * (grid * grid) := by
    calc (n * attrs + a) + (y * grid + x) * (attrs * A) < attrs * A + (y * grid + x) * (attrs * A) := by omega
      _ = (y * grid + x + 1) * (attrs * A) := by ring
      _ ≤ (grid * grid) * (attrs * A) := Nat.mul_le_mul_right _ hp
      _ = attrs * A * (grid * grid) := by ring
  unfold perm3
  rw [e, Nat.div_eq_of_lt hlt, Nat.mod_eq_of_lt hlt, Nat.add_mul_mod_self_right, Nat.mod_eq_of_lt hk,
    Nat.add_mul_div_right _ _ (by omega), Nat.div_eq_of_lt hk]
  congr 1
  ring

/-- What YOLOv3 makes of the raw output `v` for attribute `a` of the box with anchor `(pw, ph)` in cell `(x, y)`. -/
def boxSpec (stride pw ph : ℝ) (x y a : Nat) (v : ℝ) : ℝ :=
  if a = 0 then (sig v + x) * stride
  else if a = 1 then (sig v + y) * stride
  else if a = 2 then pw * Real.exp v
  else if a = 3 then ph * Real.exp v
  else sig v

theorem evaluate_at (stride grid C A : Nat) (anchors : List ℝ) (d : Nat → ℝ) (hs : 0 < stride) :
    ∃ out, evaluate 1 stride grid C A anchors (1 * ((5 + C) * A) * (grid * grid)) d = .ok out ∧
      ∀ x y n a, x < grid → y < grid → n < A → a < 5 + C →
        out (((y * grid + x) * A + n) * (5 + C) + a) =
          boxSpec stride (anchors.getD (2 * n) 0) (anchors.getD (2 * n + 1) 0) x y a (d (((n * (5 + C) + a) * grid + y) * grid + x)) := by
  unfold evaluate
  simp only [ne_eq, not_true_eq_false, if_false]
  refine ⟨_, rfl, ?_⟩
  intro x y n a hx hy hn ha
  have hA : 0 < A := by omega
  have hmod : (((y * grid + x) * A + n) * (5 + C) + a) % (5 + C) = a := by
    rw [Nat.add_comm, Nat.add_mul_mod_self_right, Nat.mod_eq_of_lt ha]
  have hdiv : (((y * grid + x) * A + n) * (5 + C) + a) / (5 + C) = (y * grid + x) * A + n := by
    rw [Nat.add_comm, Nat.add_mul_div_right _ _ (by omega), Nat.div_eq_of_lt ha]; omega
  have hslice : ∀ (p : Nat → Prop) [∀ a, Decidable (p a)] (f : Nat → ℝ → ℝ) (e : Nat → ℝ),
      onSlice (grid * grid * A) (5 + C) (fun _ a => p a) f e (((y * grid + x) * A + n) * (5 + C) + a) =
        if p a then f (((y * grid + x) * A + n) * (5 + C) + a) (e (((y * grid + x) * A + n) * (5 + C) + a))
        else e (((y * grid + x) * A + n) * (5 + C) + a) := by
    intro p _ f e
    unfold onSlice
    rw [hmod]
  have hanchor : 2 ≤ a → a < 4 → (((y * grid + x) * A + n) * 2 + (a - 2)) % (2 * A) = 2 * n + (a - 2) := by
    intro h1 h2
    have e : ((y * grid + x) * A + n) * 2 + (a - 2) = (2 * n + (a - 2)) + (y * grid + x) * (2 * A) := by ring
    rw [e, Nat.add_mul_mod_self_right, Nat.mod_eq_of_lt (by omega)]
  have hstride : (stride : ℝ) ≠ 0 := by exact_mod_cast hs.ne'
  rw [hslice (fun a => a < 4), hslice (fun a => 2 ≤ a ∧ a < 4), hslice (fun a => 2 ≤ a ∧ a < 4), addCell_at grid A (5 + C) hA _ x y n a hx hy hn ha,
    hslice (fun a => 4 ≤ a), hslice (fun a => a < 2), perm3_at (5 + C) grid A d x y n a hx hy hn ha, hmod, hdiv]
  unfold boxSpec
  by_cases h4 : 4 ≤ a
  · simp [h4, show ¬ a < 4 by omega, show ¬ a < 2 by omega, show a ≠ 0 by omega, show a ≠ 1 by omega, show a ≠ 2 by omega, show a ≠ 3 by omega]
  · have h5 : a = 0 ∨ a = 1 ∨ a = 2 ∨ a = 3 := by omega
    rcases h5 with h | h | h | h
    · subst h; simp
    · subst h; simp
    · rw [hanchor (by omega) (by omega)]
      subst h
      simp
      field_simp
    · rw [hanchor (by omega) (by omega)]
      subst h
      simp
      field_simp

theorem currentAnchors_ok (anchors : List ℝ) : ∀ (masks : List Nat) (i : Nat) (acc : List ℝ), (∀ k ∈ masks, k < anchors.length / 2) →
    2 * (i + masks.length) ≤ anchors.length → acc = anchors.take (2 * i) →
    currentAnchors anchors masks i acc = .ok (anchors.take (2 * (i + masks.length)))
  | [], i, acc, _, _, ha => by rw [currentAnchors, ha]; simp
  | k :: ks, i, acc, hk, hl, ha => by
    have hk0 := hk k (by simp)
    rw [List.length_cons] at hl
    rw [currentAnchors, if_neg (by omega), if_neg (by omega), currentAnchors_ok anchors ks (i + 1) _ (fun k' h => hk k' (by simp [h])) (by omega)]
    · rw [List.length_cons]
      congr 3
      omega
    · rw [ha, Nat.mul_comm i 2, show 2 * (i + 1) = 2 * i + 1 + 1 by ring, List.take_add_one, List.take_add_one, List.getElem?_eq_getElem (by omega), List.getElem?_eq_getElem (by omega),
        List.getD_eq_getElem?_getD, List.getD_eq_getElem?_getD, List.getElem?_eq_getElem (by omega), List.getElem?_eq_getElem (by omega)]
      simp only [Option.toList, Option.getD, List.append_assoc, List.cons_append, List.nil_append]

/-- What the op should return: every box with the anchor its mask names. -/
def Decoded (op : Op) (g : Nat) (d out : Nat → ℝ) : Prop :=
  ∀ x y n a k, x < g → y < g → op.masks[n]? = some k → a < 5 + op.classes →
    out (((y * g + x) * op.masks.length + n) * (5 + op.classes) + a) =
      boxSpec ((op.dims / g : Nat) : ℝ) (op.anchors.getD (2 * k) 0) (op.anchors.getD (2 * k + 1) 0) x y a
        (d (((n * (5 + op.classes) + a) * g + y) * g + x))

/-- The op succeeds on one image, has the inferred shape, and decodes the boxes correctly exactly if the `n`-th mask names an anchor with the sizes of the `n`-th
anchor of the list. -/
theorem yolo_decodes_partial (op : Op) (g : Nat) (d : Nat → ℝ) (hg : 0 < g) (hgd : g ≤ op.dims) (hm : op.masks ≠ [])
    (hmask : ∀ k ∈ op.masks, k < op.anchors.length / 2) (hlen : 2 * op.masks.length ≤ op.anchors.length) :
    ∃ out, op.eval [1, (5 + op.classes) * op.masks.length, g, g] d = .ok ([1, g * g * op.masks.length, 5 + op.classes], out) ∧
      op.infer [1, (5 + op.classes) * op.masks.length, g, g] = .ok [1, g * g * op.masks.length, 5 + op.classes] ∧
      (Decoded op g d out ↔ ∀ n k, op.masks[n]? = some k →
        op.anchors.getD (2 * k) 0 = op.anchors.getD (2 * n) 0 ∧ op.anchors.getD (2 * k + 1) 0 = op.anchors.getD (2 * n + 1) 0) := by
  have hpos : 0 < op.masks.length := List.length_pos_iff.2 hm
  have hcur := currentAnchors_ok op.anchors op.masks 0 [] hmask (by omega) (by simp)
  have hst : 0 < op.dims / g := Nat.div_pos hgd hg
  obtain ⟨out, ho, hat⟩ := evaluate_at (op.dims / g) g op.classes op.masks.length (op.anchors.take (2 * (0 + op.masks.length))) d hst
  refine ⟨out, ?_, ?_, ?_⟩
  · unfold Op.eval
    simp only [if_neg hg.ne', hcur, Res.bind]
    rw [show 1 * ((5 + op.classes) * op.masks.length) * g * g = 1 * ((5 + op.classes) * op.masks.length) * (g * g) by ring, ho]
  · unfold Op.infer
    simp only [if_neg hpos.ne']
    rw [Nat.mul_div_cancel _ hpos]
  · have hget : ∀ n j, n < op.masks.length → j < 2 → (op.anchors.take (2 * (0 + op.masks.length))).getD (2 * n + j) 0 = op.anchors.getD (2 * n + j) 0 := by
      intro n j hn hj
      rw [List.getD_eq_getElem?_getD, List.getD_eq_getElem?_getD, List.getElem?_take_of_lt (by omega)]
    have hlt : ∀ n k, op.masks[n]? = some k → n < op.masks.length := by
      intro n k h
      exact (List.getElem?_eq_some_iff.1 h).1
    constructor
    · intro h n k hk
      have hn := hlt n k hk
      have h2 := h 0 0 n 2 k hg hg hk (by omega)
      have h3 := h 0 0 n 3 k hg hg hk (by omega)
      rw [hat 0 0 n 2 hg hg hn (by omega)] at h2
      rw [hat 0 0 n 3 hg hg hn (by omega)] at h3
      have e0 := hget n 0 hn (by omega)
      have e1 := hget n 1 hn (by omega)
      rw [Nat.add_zero] at e0
      simp only [boxSpec, show (2 : Nat) ≠ 0 by decide, show (2 : Nat) ≠ 1 by decide, show (3 : Nat) ≠ 0 by decide, show (3 : Nat) ≠ 1 by decide,
        show (3 : Nat) ≠ 2 by decide, if_true, if_false, e0, e1] at h2 h3
      exact ⟨(mul_right_cancel₀ (Real.exp_pos _).ne' h2).symm, (mul_right_cancel₀ (Real.exp_pos _).ne' h3).symm⟩
    · intro h x y n a k hx hy hk ha
      have hn := hlt n k hk
      have e0 := hget n 0 hn (by omega)
      have e1 := hget n 1 hn (by omega)
      rw [Nat.add_zero] at e0
      rw [hat x y n a hx hy hn ha, e0, e1, (h n k hk).1, (h n k hk).2]

/-- The usual masks of the coarse output of YOLOv3-tiny pick the wrong anchors. -/
example : ∃ out, (⟨[10, 14, 23, 27, 37, 58, 81, 82, 135, 169, 344, 319], [3, 4, 5], 1 / 2, 416, 80⟩ : Op).eval [1, 255, 13, 13] (fun _ => 0) = .ok ([1, 507, 85], out) ∧
    ¬ Decoded ⟨[10, 14, 23, 27, 37, 58, 81, 82, 135, 169, 344, 319], [3, 4, 5], 1 / 2, 416, 80⟩ 13 (fun _ => 0) out := by
  obtain ⟨out, h1, _, h3⟩ := yolo_decodes_partial ⟨[10, 14, 23, 27, 37, 58, 81, 82, 135, 169, 344, 319], [3, 4, 5], 1 / 2, 416, 80⟩ 13 (fun _ => 0)
    (by decide) (by decide) (by simp) (by simp) (by simp)
  refine ⟨out, h1, fun h => ?_⟩
  have := (h3.1 h 0 3 rfl).1
  norm_num at this

/-- With the anchors of the output picked beforehand and masks `0, 1, 2` the boxes are right. -/
example : ∃ out, (⟨[81, 82, 135, 169, 344, 319], [0, 1, 2], 1 / 2, 416, 80⟩ : Op).eval [1, 255, 13, 13] (fun _ => 0) = .ok ([1, 507, 85], out) ∧
    Decoded ⟨[81, 82, 135, 169, 344, 319], [0, 1, 2], 1 / 2, 416, 80⟩ 13 (fun _ => 0) out := by
  obtain ⟨out, h1, _, h3⟩ := yolo_decodes_partial ⟨[81, 82, 135, 169, 344, 319], [0, 1, 2], 1 / 2, 416, 80⟩ 13 (fun _ => 0)
    (by decide) (by decide) (by simp) (by simp) (by simp)
  refine ⟨out, h1, h3.2 ?_⟩
  intro n k hk
  match n, hk with
  | 0, hk => simp at hk; subst hk; simp
  | 1, hk => simp at hk; subst hk; simp
  | 2, hk => simp at hk; subst hk; simp

/-- More than one image at a time never works. -/
theorem yolo_batch_fails (op : Op) (B ch h w : Nat) (d : Nat → ℝ) (hB : B ≠ 1) (r : List Nat × (Nat → ℝ)) : op.eval [B, ch, h, w] d ≠ .ok r := by
  unfold Op.eval
  by_cases h0 : h = 0
  · simp [h0]
  · simp only [if_neg h0]
    cases hc : currentAnchors op.anchors op.masks 0 [] with
    | err => simp [Res.bind]
    | panic => simp [Res.bind]
    | ok cur =>
      simp only [Res.bind, evaluate]
      by_cases hn : B * ch * h * w ≠ B * ((5 + op.classes) * op.masks.length) * (h * h)
      · simp [hn]
      · rw [if_neg hn, if_pos hB]
        simp

/-- The operand does not keep its contents, although `OverwritesInput` is `-1` (op_yolo.go 98): the result shares its memory. -/
theorem yolo_overwrites : ∃ out, (⟨[10, 14], [0], 1 / 2, 416, 0⟩ : Op).eval [1, 5, 1, 1] (fun _ => 0) = .ok ([1, 1, 5], out) ∧ out 4 ≠ 0 := by
  have hst : 0 < 416 / 1 := by decide
  obtain ⟨out, ho, hat⟩ := evaluate_at (416 / 1) 1 0 1 [10, 14] (fun _ => 0) hst
  refine ⟨out, ?_, ?_⟩
  · have : currentAnchors [10, 14] [0] 0 [] = .ok [10, 14] := by simp [currentAnchors]
    have ho' : evaluate 1 416 1 0 1 [10, 14] 5 (fun _ => 0) = .ok out := by simpa using ho
    simp [Op.eval, this, Res.bind, ho']
  · have := hat 0 0 0 4 (by decide) (by decide) (by decide) (by decide)
    norm_num [boxSpec, sig] at this
    rw [this]
    norm_num

/-! ### Overlap -/

/-- The points of a rectangle. -/
def pixels (r : Rect) : Finset (Int × Int) := Finset.Ico r.x0 r.x1 ×ˢ Finset.Ico r.y0 r.y1

/-- The coordinates are in order. -/
def Rect.Ordered (r : Rect) : Prop := r.x0 ≤ r.x1 ∧ r.y0 ≤ r.y1

theorem mkRect_ordered (a b c d : Int) : (mkRect a b c d).Ordered := ⟨min_le_max, min_le_max⟩

theorem card_pixels (r : Rect) (h : r.Ordered) : ((pixels r).card : Int) = r.area := by
  obtain ⟨h1, h2⟩ := h
  unfold pixels Rect.area
  rw [Finset.card_product, Int.card_Ico, Int.card_Ico, Nat.cast_mul, Int.toNat_of_nonneg (by omega), Int.toNat_of_nonneg (by omega)]

theorem pixels_inter (r s : Rect) : pixels (r.inter s) = pixels r ∩ pixels s := by
  ext ⟨x, y⟩
  unfold Rect.inter
  simp only [Finset.mem_inter]
  by_cases h : min r.x1 s.x1 ≤ max r.x0 s.x0 ∨ min r.y1 s.y1 ≤ max r.y0 s.y0
  · rw [if_pos h]
    simp only [pixels, Finset.mem_product, Finset.mem_Ico]
    omega
  · rw [if_neg h]
    simp only [pixels, Finset.mem_product, Finset.mem_Ico]
    omega

theorem inter_ordered (r s : Rect) : (r.inter s).Ordered := by
  unfold Rect.inter Rect.Ordered
  simp only []
  by_cases h : min r.x1 s.x1 ≤ max r.x0 s.x0 ∨ min r.y1 s.y1 ≤ max r.y0 s.y0
  · rw [if_pos h]; simp
  · rw [if_neg h]; simp only []; omega

/-- `iou_f32` is the number of common points over the number of points of either rectangle. -/
theorem iou_pixels (r s : Rect) (hr : r.Ordered) (hs : s.Ordered) :
    iou r s = if pixels r ∪ pixels s = ∅ then none else some (((pixels r ∩ pixels s).card : ℝ) / ((pixels r ∪ pixels s).card : ℝ)) := by
  have h1 := card_pixels r hr
  have h2 := card_pixels s hs
  have h3 := card_pixels (r.inter s) (inter_ordered r s)
  rw [pixels_inter] at h3
  have h4 := Finset.card_union_add_card_inter (pixels r) (pixels s)
  have h5 : ((pixels r ∪ pixels s).card : Int) = r.area + s.area - (r.inter s).area := by
    have : ((pixels r ∪ pixels s).card : Int) + ((pixels r ∩ pixels s).card : Int) = (pixels r).card + (pixels s).card := by exact_mod_cast h4
    omega
  unfold iou
  rw [← h5, ← h3]
  by_cases he : pixels r ∪ pixels s = ∅
  · rw [if_pos he, if_pos (by rw [he]; simp)]
  · rw [if_neg he, if_neg (by exact_mod_cast (Finset.card_ne_zero.2 (Finset.nonempty_iff_ne_empty.2 he)))]
    push_cast
    rfl

theorem iou_range (r s : Rect) (hr : r.Ordered) (hs : s.Ordered) (v : ℝ) (h : iou r s = some v) : 0 ≤ v ∧ v ≤ 1 := by
  rw [iou_pixels r s hr hs] at h
  by_cases he : pixels r ∪ pixels s = ∅
  · rw [if_pos he] at h; cases h
  · rw [if_neg he] at h
    injection h with h
    have hpos : (0 : ℝ) < ((pixels r ∪ pixels s).card : ℝ) := by
      exact_mod_cast Finset.card_pos.2 (Finset.nonempty_iff_ne_empty.2 he)
    have hle : ((pixels r ∩ pixels s).card : ℝ) ≤ ((pixels r ∪ pixels s).card : ℝ) := by
      exact_mod_cast Finset.card_le_card (Finset.inter_subset_union)
    rw [← h]
    exact ⟨by positivity, (div_le_one hpos).2 hle⟩

theorem iou_comm (r s : Rect) (hr : r.Ordered) (hs : s.Ordered) : iou r s = iou s r := by
  rw [iou_pixels r s hr hs, iou_pixels s r hs hr, Finset.union_comm, Finset.inter_comm]

theorem iou_self (r : Rect) (hr : r.x0 < r.x1 ∧ r.y0 < r.y1) : iou r r = some 1 := by
  have ho : r.Ordered := ⟨hr.1.le, hr.2.le⟩
  have hne : pixels r ≠ ∅ := by
    rw [← Finset.nonempty_iff_ne_empty]
    exact ⟨(r.x0, r.y0), by simp [pixels, hr.1, hr.2]⟩
  rw [iou_pixels r r ho ho, Finset.union_self, Finset.inter_self, if_neg hne, div_self]
  exact_mod_cast Finset.card_ne_zero.2 (Finset.nonempty_iff_ne_empty.2 hne)

example : iou ⟨0, 0, 4, 4⟩ ⟨2, 2, 6, 6⟩ = some (1 / 7) := by
  norm_num [iou, Rect.inter, Rect.area]

/-- The best overlap: none exceeds it, and it is that of the first target that attains it; without a positive overlap it is 0, with target -1. -/
theorem bestLoop_spec (ious : List (Option ℝ)) :
    (∀ w, some w ∈ ious → w ≤ (bestLoop ious).1) ∧
    (((bestLoop ious) = (0, -1)) ∨ ∃ n : Nat, (bestLoop ious).2 = n ∧ ious[n]? = some (some (bestLoop ious).1) ∧ 0 < (bestLoop ious).1 ∧
      ∀ k w, k < n → ious[k]? = some (some w) → w < (bestLoop ious).1) := by
  induction ious using List.reverseRecOn with
  | nil => exact ⟨by simp, .inl (by simp [bestLoop])⟩
  | append_singleton l a ih =>
    have hstep : bestLoop (l ++ [a]) = match a with
        | some v => if v > (bestLoop l).1 then (v, (l.length : Int)) else bestLoop l
        | none => bestLoop l := by
      unfold bestLoop
      rw [List.zipIdx_append, List.foldl_append]
      simp
    have hnn : 0 ≤ (bestLoop l).1 := by
      rcases ih.2 with h | ⟨n, _, _, h, _⟩
      · rw [h]
      · exact h.le
    have hkeep : ∀ {b : ℝ × Int}, bestLoop (l ++ [a]) = b → b = bestLoop l → (∀ w, a = some w → w ≤ (bestLoop l).1) →
        (∀ w, some w ∈ l ++ [a] → w ≤ b.1) ∧ ((b = (0, -1)) ∨ ∃ n : Nat, b.2 = n ∧ (l ++ [a])[n]? = some (some b.1) ∧ 0 < b.1 ∧
          ∀ k w, k < n → (l ++ [a])[k]? = some (some w) → w < b.1) := by
      intro b _ hb ha
      subst hb
      refine ⟨?_, ?_⟩
      · intro w hw
        rcases List.mem_append.1 hw with h | h
        · exact ih.1 w h
        · exact ha w (show some w = a by simpa using h).symm
      · rcases ih.2 with h | ⟨n, h1, h2, h3, h4⟩
        · exact .inl h
        · have hn := (List.getElem?_eq_some_iff.1 h2).1
          refine .inr ⟨n, h1, by rw [List.getElem?_append_left hn]; exact h2, h3, fun k w hk hw => h4 k w hk ?_⟩
          rw [List.getElem?_append_left (by omega)] at hw
          exact hw
    cases a with
    | none => rw [hstep]; exact hkeep hstep rfl (by simp)
    | some v =>
      simp only at hstep
      by_cases hv : v > (bestLoop l).1
      · rw [if_pos hv] at hstep
        rw [hstep]
        refine ⟨?_, .inr ⟨l.length, rfl, by simp, lt_of_le_of_lt hnn hv, ?_⟩⟩
        · intro w hw
          rcases List.mem_append.1 hw with h | h
          · exact (lt_of_le_of_lt (ih.1 w h) hv).le
          · simp at h; rw [h]
        · intro k w hk hw
          rw [List.getElem?_append_left hk] at hw
          exact lt_of_le_of_lt (ih.1 w (List.mem_of_getElem? hw)) hv
      · rw [if_neg hv] at hstep
        rw [hstep]
        exact hkeep hstep rfl (by intro w hw; injection hw with hw; rw [← hw]; exact not_lt.1 hv)

/-- The best anchor: none overlaps more, and it is the last with that overlap. -/
theorem anchorLoop_spec (ious : List (Option ℝ)) (hnn : ∀ w, some w ∈ ious → 0 ≤ w) :
    (∀ w, some w ∈ ious → w ≤ (anchorLoop ious).2) ∧
    (((∀ w, some w ∉ ious) ∧ anchorLoop ious = (0, 0)) ∨ (ious[(anchorLoop ious).1]? = some (some (anchorLoop ious).2) ∧
      ∀ k w, (anchorLoop ious).1 < k → ious[k]? = some (some w) → w < (anchorLoop ious).2)) := by
  induction ious using List.reverseRecOn with
  | nil => exact ⟨by simp, .inl (by simp [anchorLoop])⟩
  | append_singleton l a ih =>
    have ih := ih (fun w hw => hnn w (by simp [hw]))
    have hstep : anchorLoop (l ++ [a]) = match (generalizing := false) a with
        | some v => if v ≥ (anchorLoop l).2 then (l.length, v) else anchorLoop l
        | none => anchorLoop l := by
      unfold anchorLoop
      rw [List.zipIdx_append, List.foldl_append]
      simp
    cases a with
    | none =>
      simp only at hstep
      rw [hstep]
      refine ⟨fun w hw => ih.1 w (by simpa using hw), ?_⟩
      rcases ih.2 with ⟨h1, h2⟩ | ⟨h1, h2⟩
      · exact .inl ⟨by simpa using h1, h2⟩
      · have hn := (List.getElem?_eq_some_iff.1 h1).1
        refine .inr ⟨by rw [List.getElem?_append_left hn]; exact h1, fun k w hk hw => ?_⟩
        by_cases hkl : k < l.length
        · rw [List.getElem?_append_left hkl] at hw
          exact h2 k w hk hw
        · rw [List.getElem?_append_right (by omega)] at hw
          have := List.mem_of_getElem? hw
          simp at this
    | some v =>
      simp only at hstep
      by_cases hv : v ≥ (anchorLoop l).2
      · rw [if_pos hv] at hstep
        rw [hstep]
        refine ⟨?_, .inr ⟨by simp, ?_⟩⟩
        · intro w hw
          rcases List.mem_append.1 hw with h | h
          · exact le_trans (ih.1 w h) hv
          · simp at h; rw [h]
        · intro k w hk hw
          have := (List.getElem?_eq_some_iff.1 hw).1
          simp at this hk
          omega
      · rw [if_neg hv] at hstep
        rw [hstep]
        refine ⟨?_, ?_⟩
        · intro w hw
          rcases List.mem_append.1 hw with h | h
          · exact ih.1 w h
          · simp at h; rw [h]; exact (not_le.1 hv).le
        · rcases ih.2 with ⟨_, h2⟩ | ⟨h1, h2⟩
          · exact absurd (hnn v (by simp)) (by rw [h2] at hv; exact hv)
          · have hn := (List.getElem?_eq_some_iff.1 h1).1
            refine .inr ⟨by rw [List.getElem?_append_left hn]; exact h1, fun k w hk hw => ?_⟩
            by_cases hkl : k < l.length
            · rw [List.getElem?_append_left hkl] at hw
              exact h2 k w hk hw
            · rw [List.getElem?_append_right (by omega)] at hw
              have := List.mem_of_getElem? hw
              simp at this
              rw [this]
              exact not_le.1 hv

/-- The rectangle of a box with centre `(x, y)`, width `w` and height `h`, cut to the image. -/
def boxRect (x y w h : ℝ) (img : Int) : Rect :=
  mkRect (max (goInt (x - w / 2)) 0) (max (goInt (y - h / 2)) 0) (min (goInt (x + w / 2 + 1)) img) (min (goInt (y + h / 2 + 1)) img)

theorem goInt_int (n : Int) : goInt (n : ℝ) = n := by
  unfold goInt
  rw [Int.floor_intCast, Int.ceil_intCast, ite_self]

theorem goInt_eq (x : ℝ) (n : Int) (h : x = n) : goInt x = n := by rw [h, goInt_int]

/-- `getBestIOU_f32` passes width and height in the wrong order: it compares the rectangles with both exchanged. -/
theorem boxIous_swapped (C : Nat) (dims : Int) (m : Nat) (boxes t : Nat → ℝ) (b : Nat) :
    boxIous C dims m boxes t b = (List.range m).map fun j => iou
      (boxRect (boxes (b * (5 + C))) (boxes (b * (5 + C) + 1)) (boxes (b * (5 + C) + 3)) (boxes (b * (5 + C) + 2)) dims)
      (boxRect (t (j * 5 + 1) * dims) (t (j * 5 + 2) * dims) (t (j * 5 + 4) * dims) (t (j * 5 + 3) * dims) dims) := rfl

/-- A box and a target that overlap, for which the loop sees no overlap. -/
theorem best_iou_partial : ∃ boxes t : Nat → ℝ,
    (bestLoop (boxIous 0 100 1 boxes t 0)).1 = 0 ∧
    iou (boxRect (boxes 0) (boxes 1) (boxes 2) (boxes 3) 100) (boxRect (t 1 * 100) (t 2 * 100) (t 3 * 100) (t 4 * 100) 100) = some (121 / 781) := by
  refine ⟨fun i => if i = 0 then 30 else if i = 1 then 50 else if i = 2 then 40 else 10,
    fun i => if i = 1 then 60 / 100 else if i = 2 then 50 / 100 else if i = 3 then 40 / 100 else 10 / 100, ?_, ?_⟩
  · rw [boxIous_swapped]
    norm_num [boxRect]
    rw [goInt_eq 25 25 (by norm_num), goInt_eq 30 30 (by norm_num), goInt_eq 36 36 (by norm_num), goInt_eq 71 71 (by norm_num),
      goInt_eq 55 55 (by norm_num), goInt_eq 66 66 (by norm_num)]
    norm_num [mkRect, iou, Rect.inter, Rect.area, bestLoop]
  · norm_num [boxRect]
    rw [goInt_eq 10 10 (by norm_num), goInt_eq 45 45 (by norm_num), goInt_eq 51 51 (by norm_num), goInt_eq 56 56 (by norm_num),
      goInt_eq 40 40 (by norm_num), goInt_eq 81 81 (by norm_num)]
    norm_num [mkRect, iou, Rect.inter, Rect.area]

/-! ### Training -/

theorem perm3_one (K : Nat) (d : Nat → ℝ) : perm3 K 1 d = d := by
  funext i
  unfold perm3
  rw [Nat.mul_one, Nat.mul_one]
  congr 1
  by_cases hK : K = 0
  · subst hK; simp
  · rw [Nat.div_eq_of_lt (Nat.mod_lt i (by omega)), Nat.add_zero, Nat.mul_comm]
    exact Nat.div_add_mod i K

/-- With a single cell the boxes seen by the loss are those the op computes without training. -/
theorem train_single_cell (op : Op) (cur : List ℝ) (d : Nat → ℝ) :
    op.trainBoxes 1 cur d = (evaluate 1 (op.dims / 1) 1 op.classes op.masks.length cur (1 * ((5 + op.classes) * op.masks.length) * (1 * 1)) d).bind
      fun r => .ok (d, r) := by
  unfold Op.trainBoxes
  simp only [Nat.mul_one, perm3_one]

/-- With more cells the loss sees other boxes: the contents are rearranged twice. Here the objectness of the second cell is computed from the raw width of the last. -/
theorem train_boxes_partial : ∃ d : Nat → ℝ, ∃ out inp boxes : Nat → ℝ,
    evaluate 1 (416 / 2) 2 0 1 [10, 14] 20 d = .ok out ∧
    (⟨[10, 14], [0], 1 / 2, 416, 0⟩ : Op).trainBoxes 2 [10, 14] d = .ok (inp, boxes) ∧ out 9 = sig (d 17) ∧ boxes 9 = sig (d 11) ∧ boxes 9 ≠ out 9 := by
  have hst : 0 < 416 / 2 := by decide
  obtain ⟨out, ho, hat⟩ := evaluate_at (416 / 2) 2 0 1 [10, 14] (fun i => if i = 11 then 1 else 0) hst
  obtain ⟨boxes, hb, hbat⟩ := evaluate_at (416 / 2) 2 0 1 [10, 14] (perm3 5 4 fun i => if i = 11 then 1 else 0) hst
  have h1 := hat 1 0 0 4 (by decide) (by decide) (by decide) (by decide)
  have h2 := hbat 1 0 0 4 (by decide) (by decide) (by decide) (by decide)
  norm_num [boxSpec] at h1
  norm_num [boxSpec, perm3] at h2
  refine ⟨fun i => if i = 11 then 1 else 0, out, perm3 5 4 fun i => if i = 11 then 1 else 0, boxes, by simpa using ho, ?_, by simpa using h1, by simpa using h2, ?_⟩
  · simp only [Op.trainBoxes]
    have : evaluate 1 (416 / 2) 2 0 1 [10, 14] (1 * (5 * 1) * (2 * 2)) (perm3 5 4 fun i => if i = 11 then 1 else 0) = .ok boxes := by simpa using hb
    simp only [List.length_singleton, Nat.add_zero, Nat.mul_one]
    norm_num at this ⊢
    rw [this]
    rfl
  · rw [h1, h2]
    unfold sig
    intro h
    have h3 : Real.exp (-1) = 1 := by
      have p := Real.exp_pos (-1)
      rw [neg_zero, Real.exp_zero] at h
      field_simp at h
      linarith
    rw [Real.exp_eq_one_iff] at h3
    norm_num at h3

theorem set_ne (d : Nat → ℝ) (i j : Nat) (v : ℝ) (h : j ≠ i) : set d i v j = d j := Function.update_of_ne h _ _

theorem set_eq (d : Nat → ℝ) (i : Nat) (v : ℝ) : set d i v i = v := Function.update_self _ _ _

theorem noObject_other (C n : Nat) (dims : Int) (m : Nat) (thresh : ℝ) (boxes t out : Nat → ℝ) (i : Nat) (hi : i % (5 + C) ≠ 4) :
    noObject C n dims m thresh boxes t out i = out i := by
  unfold noObject
  induction n with
  | zero => rfl
  | succ n ih =>
    rw [List.range_succ, List.foldl_append, List.foldl_cons, List.foldl_nil]
    split
    · rw [set_ne, ih]
      rintro rfl
      apply hi
      rw [Nat.add_comm, Nat.add_mul_mod_self_right, Nat.mod_eq_of_lt (by omega)]
    · exact ih

/-- A box that overlaps no target by more than the threshold, and is not responsible for one, is charged for its objectness only. -/
theorem noObject_at (C n : Nat) (dims : Int) (m : Nat) (thresh : ℝ) (boxes t out : Nat → ℝ) (b : Nat) (hb : b < n)
    (h : (bestLoop (boxIous C dims m boxes t b)).1 ≤ thresh) :
    noObject C n dims m thresh boxes t out (b * (5 + C) + 4) = bce false (boxes (b * (5 + C) + 4)) := by
  unfold noObject
  induction n with
  | zero => omega
  | succ n ih =>
    rw [List.range_succ, List.foldl_append, List.foldl_cons, List.foldl_nil]
    by_cases hbn : b = n
    · subst hbn
      rw [if_pos h, set_eq]
    · split
      · rw [set_ne, ih (by omega)]
        intro e
        have : b * (5 + C) = n * (5 + C) := by omega
        exact hbn (Nat.eq_of_mul_eq_mul_right (by omega) this)
      · exact ih (by omega)

theorem classLoop_outside (C : Nat) (label : Int) (idx : Nat) (boxes out : Nat → ℝ) (i : Nat) (hi : i < idx + 5 ∨ idx + 5 + C ≤ i) :
    classLoop C label idx boxes out i = out i := by
  unfold classLoop
  induction C with
  | zero => rfl
  | succ C ih =>
    rw [List.range_succ, List.foldl_append, List.foldl_cons, List.foldl_nil, set_ne _ _ _ _ (by omega), ih (by omega)]

theorem classLoop_at (C : Nat) (label : Int) (idx : Nat) (boxes out : Nat → ℝ) (j : Nat) (hj : j < C) :
    classLoop C label idx boxes out (idx + 5 + j) = bce (decide ((j : Int) = label)) (boxes (idx + 4)) := by
  unfold classLoop
  induction C with
  | zero => omega
  | succ C ih =>
    rw [List.range_succ, List.foldl_append, List.foldl_cons, List.foldl_nil]
    by_cases h : j = C
    · subst h; rw [set_eq]
    · rw [set_ne _ _ _ _ (by omega), ih (by omega)]

/-- The number of the box responsible for target `i`: cell and position in the masks. -/
def boxOf (op : Op) (grid : Nat) (t : Nat → ℝ) (i : Nat) : Nat :=
  let b := bestAnchor op.anchors op.masks op.dims grid t i
  b.2.2.toNat * grid * op.masks.length + b.2.1.toNat * op.masks.length + b.1.toNat

theorem object_outside (op : Op) (grid : Nat) (input boxes t out : Nat → ℝ) (i k : Nat)
    (hk : k < boxOf op grid t i ∨ boxOf op grid t i + 5 + op.classes ≤ k) :
    object op.anchors op.masks op.classes op.dims grid input boxes t out i k = out k := by
  unfold object
  unfold boxOf at hk
  simp only [] at hk ⊢
  split
  · rfl
  · rw [classLoop_outside _ _ _ _ _ _ (by omega), set_ne _ _ _ _ (by omega), set_ne _ _ _ _ (by omega), set_ne _ _ _ _ (by omega), set_ne _ _ _ _ (by omega),
      set_ne _ _ _ _ (by omega)]

/-- The losses of the responsible box are written without multiplying its number by the number of attributes: a box with number 2 or more is
never charged for its coordinates, whatever it predicts. -/
theorem coordinates_uncharged (op : Op) (grid n : Nat) (input boxes t : Nat → ℝ) (h2 : 2 ≤ boxOf op grid t 0) (a : Nat) (ha : a < 4) :
    prepare op grid n 1 input boxes t (boxOf op grid t 0 * (5 + op.classes) + a) = 0 := by
  unfold prepare
  rw [List.range_one, List.foldl_cons, List.foldl_nil, object_outside, noObject_other]
  · rw [Nat.add_comm, Nat.add_mul_mod_self_right, Nat.mod_eq_of_lt (by omega)]
    omega
  · right
    obtain ⟨q, hq⟩ : ∃ q, boxOf op grid t 0 = q := ⟨_, rfl⟩
    rw [hq] at h2 ⊢
    have h3 : 2 * (4 + op.classes) ≤ q * (4 + op.classes) := Nat.mul_le_mul_right _ h2
    have h4 : q * (5 + op.classes) = q * (4 + op.classes) + q := by ring
    omega

/-- A target in the last of four cells: its box has number 3. -/
theorem target_example : bestAnchor [10, 14] [0] 100 2 (fun i => if i = 0 then 0 else if i < 3 then 3 / 4 else if i = 3 then 10 / 100 else 14 / 100) 0 = (0, 1, 1) := by
  have g : goInt (3 / 4 * 2) = 1 := by
    unfold goInt
    rw [if_pos (by norm_num), Int.floor_eq_iff]
    norm_num
  unfold bestAnchor
  norm_num [anchorLoop, findInt, rectify, iou]
  rw [goInt_eq (-7) (-7) (by norm_num), goInt_eq (-5) (-5) (by norm_num), goInt_eq 8 8 (by norm_num), goInt_eq 6 6 (by norm_num)]
  norm_num [mkRect, Rect.inter, Rect.area, findInt]
  norm_num at g
  exact g

example (input boxes : Nat → ℝ) : prepare ⟨[10, 14], [0], 1 / 2, 100, 1⟩ 2 4 1 input boxes
    (fun i => if i = 0 then 0 else if i < 3 then 3 / 4 else if i = 3 then 10 / 100 else 14 / 100) 18 = 0 := by
  have hb : boxOf ⟨[10, 14], [0], 1 / 2, 100, 1⟩ 2 (fun i => if i = 0 then 0 else if i < 3 then 3 / 4 else if i = 3 then 10 / 100 else 14 / 100) 0 = 3 := by
    have := target_example
    simp only [boxOf]
    push_cast
    rw [this]
    rfl
  have := coordinates_uncharged ⟨[10, 14], [0], 1 / 2, 100, 1⟩ 2 4 input boxes
    (fun i => if i = 0 then 0 else if i < 3 then 3 / 4 else if i = 3 then 10 / 100 else 14 / 100) (by rw [hb]; decide) 0 (by decide)
  rw [hb] at this
  exact this

/-- The box with number 0 is charged as it should be for centre and objectness. -/
theorem first_box_charged_partial (op : Op) (grid n : Nat) (input boxes t : Nat → ℝ) (hk : (bestAnchor op.anchors op.masks op.dims grid t 0).1 ≠ -1)
    (h0 : boxOf op grid t 0 = 0) :
    prepare op grid n 1 input boxes t 0 =
      ((2 - t 3 * t 4) * (invsigm (t 1 * grid - (bestAnchor op.anchors op.masks op.dims grid t 0).2.1) - input 0)) ^ 2 / 2 ∧
    prepare op grid n 1 input boxes t 1 =
      ((2 - t 3 * t 4) * (invsigm (t 2 * grid - (bestAnchor op.anchors op.masks op.dims grid t 0).2.2) - input 1)) ^ 2 / 2 ∧
    prepare op grid n 1 input boxes t 4 = -Real.log (boxes 4 + eps) := by
  unfold boxOf at h0
  simp only [] at h0
  unfold prepare
  rw [List.range_one, List.foldl_cons, List.foldl_nil]
  unfold object
  simp only []
  rw [if_neg hk, h0]
  refine ⟨?_, ?_, ?_⟩
  · rw [classLoop_outside _ _ _ _ _ _ (by omega), set_ne _ _ _ _ (by omega), set_ne _ _ _ _ (by omega), set_ne _ _ _ _ (by omega), set_ne _ _ _ _ (by omega), set_eq]
    simp [mse]
  · rw [classLoop_outside _ _ _ _ _ _ (by omega), set_ne _ _ _ _ (by omega), set_ne _ _ _ _ (by omega), set_ne _ _ _ _ (by omega), Nat.zero_add, set_eq]
    simp [mse]
  · rw [classLoop_outside _ _ _ _ _ _ (by omega), Nat.zero_add, set_eq]
    simp [bce]

/-- The class losses do not look at the predicted classes: changing those changes nothing. -/
theorem classes_ignored (op : Op) (grid n : Nat) (input boxes boxes' t : Nat → ℝ) (h0 : boxOf op grid t 0 = 0)
    (h : ∀ b a, a < 5 → boxes (b * (5 + op.classes) + a) = boxes' (b * (5 + op.classes) + a)) :
    prepare op grid n 1 input boxes t = prepare op grid n 1 input boxes' t := by
  have hi : ∀ b, boxIous op.classes op.dims 1 boxes t b = boxIous op.classes op.dims 1 boxes' t b := by
    intro b
    unfold boxIous
    have e0 := h b 0 (by decide)
    rw [Nat.add_zero] at e0
    rw [e0, h b 1 (by decide), h b 2 (by decide), h b 3 (by decide)]
  have h4 : boxes 4 = boxes' 4 := by simpa using h 0 4 (by decide)
  unfold boxOf at h0
  simp only [] at h0
  unfold prepare
  rw [List.range_one, List.foldl_cons, List.foldl_nil, List.foldl_cons, List.foldl_nil]
  have hn : noObject op.classes n op.dims 1 op.thresh boxes t (fun _ => 0) = noObject op.classes n op.dims 1 op.thresh boxes' t (fun _ => 0) := by
    unfold noObject
    congr 1
    funext out b
    rw [hi b, h b 4 (by decide)]
  rw [hn]
  unfold object
  simp only []
  rw [h0]
  unfold classLoop
  simp only [Nat.zero_add, h4]

/-- The class of the second target is read from the centre of the first, which is a fraction of the image: whatever class `t 5` it has, its box is trained
not to be of any class `c ≠ 0`. -/
theorem second_class (op : Op) (grid : Nat) (input boxes t out : Nat → ℝ) (c : Nat) (hc : 0 < c) (hC : c < op.classes) (h1 : 0 ≤ t 1) (h1' : t 1 < 1)
    (hk : (bestAnchor op.anchors op.masks op.dims grid t 1).1 ≠ -1) :
    object op.anchors op.masks op.classes op.dims grid input boxes t out 1 (boxOf op grid t 1 + 5 + c) = -Real.log (1 - boxes (boxOf op grid t 1 + 4) + eps) := by
  have hg : goInt (t 1) = 0 := by
    unfold goInt
    rw [if_pos h1, Int.floor_eq_iff]
    simp [h1, h1']
  unfold object boxOf
  simp only []
  rw [if_neg hk, classLoop_at _ _ _ _ _ _ hC, hg]
  unfold bce
  have : c ≠ 0 := by omega
  simp [this]

/-- A predicted centre is charged nothing if it decodes to the target, up to `1e-16`. -/
theorem invsigm_spec (f : ℝ) (h0 : 0 ≤ f) (h1 : f ≤ 1) : sig (invsigm f) = (f + eps) / (1 + 2 * eps) := by
  have he : 0 < eps := by unfold eps; positivity
  have p1 : 0 < 1 - f + eps := by linarith
  have p2 : 0 < f + eps := by linarith
  unfold sig invsigm
  rw [show -(-Real.log (1 - f + eps) + Real.log (f + eps)) = Real.log (1 - f + eps) - Real.log (f + eps) by ring, Real.exp_sub, Real.exp_log p1, Real.exp_log p2]
  field_simp
  ring

/-- The target of the width is a fraction of the image, the anchor is in pixels: a predicted width `v` that decodes exactly to the target, `anchor * exp v = w * dims`, is
charged. -/
theorem width_charged (w anchor dims scale v : ℝ) (ha : 0 < anchor) (hw : 0 < w) (hs : scale ≠ 0) (hd : eps * anchor < w * (dims - 1))
    (hv : anchor * Real.exp v = w * dims) : 0 < mse (Real.log (w / anchor + eps)) v scale := by
  have he : 0 < eps := by unfold eps; positivity
  have hne : Real.log (w / anchor + eps) - v ≠ 0 := by
    intro h
    have h1 : Real.exp v = w / anchor + eps := by
      rw [← sub_eq_zero.1 h, Real.exp_log (by positivity)]
    rw [h1] at hv
    have : anchor * (w / anchor + eps) = w + eps * anchor := by field_simp
    rw [this] at hv
    linarith
  unfold mse
  have := mul_ne_zero hs hne
  positivity

/-- The same in the output of the op, for the box with number 0. -/
theorem first_box_width_charged (op : Op) (grid n : Nat) (input boxes t : Nat → ℝ) (hk : (bestAnchor op.anchors op.masks op.dims grid t 0).1 ≠ -1)
    (h0 : boxOf op grid t 0 = 0) (ha : 0 < op.anchors.getD 0 0) (hw : 0 < t 3) (hs : t 3 * t 4 < 2)
    (hd : eps * op.anchors.getD 0 0 < t 3 * (op.dims - 1)) (hv : op.anchors.getD 0 0 * Real.exp (input 2) = t 3 * op.dims) :
    0 < prepare op grid n 1 input boxes t 2 := by
  unfold boxOf at h0
  simp only [] at h0
  unfold prepare
  rw [List.range_one, List.foldl_cons, List.foldl_nil]
  unfold object
  simp only []
  have hb : (bestAnchor op.anchors op.masks op.dims grid t 0).1.toNat = 0 := by omega
  rw [if_neg hk, h0, hb, classLoop_outside _ _ _ _ _ _ (by omega), set_ne _ _ _ _ (by omega), set_ne _ _ _ _ (by omega), Nat.zero_add, Nat.zero_add, Nat.zero_add, set_eq]
  simp only [Nat.zero_mul, Nat.zero_add]
  exact width_charged (t 3) _ op.dims _ (input 2) ha hw (by linarith) hd hv

example : 0 < mse (Real.log ((1 / 4) / 81 + eps)) (Real.log (104 / 81)) 1 :=
  width_charged (1 / 4) 81 416 1 _ (by norm_num) (by norm_num) (by norm_num) (by norm_num [eps]) (by rw [Real.exp_log (by norm_num)]; norm_num)

end

end Verif.NN.Yolo
