import Verif.NN.Yolo
/-!
The targets of `YOLOv3` in training mode (op_yolo.go 172-227, 426-487): they are read from the last channel of the operand, five numbers
per box after their count.
-/
set_option autoImplicit false
namespace Verif.NN.Yolo
open Verif.Shape

noncomputable section

/-- `input.At(0, input.Shape()[1]-1, r, c)` for an operand of shape `(B, ch, g, w)` (assumed of `tensor`): an error outside. -/
def lastAt (ch g w : Nat) (d : Nat → ℝ) (r c : Nat) : Res ℝ :=
  if r < g ∧ c < w then .ok (d (((ch - 1) * g + r) * w + c)) else .err

/-- The loop op_yolo.go 206-212 (and, up to the conversion, 217-223): `k` more values, the next being number `i`. Rows and columns both
come from the grid size `Shape()[2]`. -/
def targetLoop (ch g w : Nat) (d : Nat → ℝ) : Nat → Nat → Res (List ℝ)
  | 0, _ => .ok []
  | k + 1, i => (lastAt ch g w d (i / g) (i % g)).bind fun v => (targetLoop ch g w d k (i + 1)).bind fun vs => .ok (v :: vs)

/-- Reading the targets (op_yolo.go 181-227). `make` with a negative length panics. -/
def readTargets (ch g w : Nat) (d : Nat → ℝ) : Res (List ℝ) :=
  (lastAt ch g w d 0 0).bind fun n => if goInt n < 0 then .panic else targetLoop ch g w d (goInt n).toNat 1

/-- The indices that `getBestAnchors_f32` uses for `n` target values (op_yolo.go 427-432): `bestAnchors` has `n / 5` places, and for
`j = 0, 5, ...` the values `j + 3` and `j + 4` and the place `j / 5` are taken. -/
def anchorIndices (n : Nat) : Nat → Nat → Res Unit
  | 0, _ => .ok ()
  | fuel + 1, j => if j < n then (if j + 4 < n ∧ j / 5 < n / 5 then anchorIndices n fuel (j + 5) else .panic) else .ok ()

theorem targetLoop_square (ch g : Nat) (d : Nat → ℝ) (hg : 0 < g) (k i : Nat) :
    targetLoop ch g g d k i = if k = 0 ∨ i + k ≤ g * g then
      .ok ((List.range k).map fun m => d ((ch - 1) * (g * g) + (i + m))) else .err := by
  induction k generalizing i with
  | zero => simp [targetLoop]
  | succ k ih =>
    have hpos : (((ch - 1) * g + i / g) * g + i % g) = (ch - 1) * (g * g) + i := by
      have := Nat.div_add_mod i g
      calc ((ch - 1) * g + i / g) * g + i % g = (ch - 1) * (g * g) + (g * (i / g) + i % g) := by ring
        _ = _ := by rw [this]
    unfold targetLoop lastAt
    by_cases hi : i < g * g
    · have h1 : i / g < g ∧ i % g < g := ⟨Nat.div_lt_of_lt_mul hi, Nat.mod_lt _ hg⟩
      rw [if_pos h1, hpos]
      simp only [Res.bind]
      rw [ih]
      by_cases hk : i + (k + 1) ≤ g * g
      · rw [if_pos (by omega), if_pos (by omega)]
        simp only [Res.bind]
        congr 1
        rw [List.range_succ_eq_map, List.map_cons, List.map_map]
        congr 1
        apply List.map_congr_left
        intro m _
        simp only [Function.comp_apply]
        congr 1
        omega
      · rw [if_neg (by omega), if_neg (by omega)]
    · have h1 : ¬ (i / g < g ∧ i % g < g) := by
        rintro ⟨h, _⟩
        exact hi (by rw [Nat.div_lt_iff_lt_mul hg] at h; exact h)
      rw [if_neg h1, if_neg (by omega)]
      rfl

/-- **C77 (reading the targets).** For a square grid, exactly: a negative count panics, a count of `grid * grid` or more is an error, and
otherwise the targets are the values behind the count in the last channel of the first image, row by row. -/
theorem targets_read (ch g : Nat) (d : Nat → ℝ) (hg : 0 < g) :
    readTargets ch g g d =
      if goInt (d ((ch - 1) * (g * g))) < 0 then .panic
      else if goInt (d ((ch - 1) * (g * g))) = 0 ∨ goInt (d ((ch - 1) * (g * g))) < g * g then
        .ok ((List.range (goInt (d ((ch - 1) * (g * g)))).toNat).map fun m => d ((ch - 1) * (g * g) + (1 + m)))
      else .err := by
  have h0 : lastAt ch g g d 0 0 = .ok (d ((ch - 1) * (g * g))) := by
    unfold lastAt
    rw [if_pos ⟨hg, hg⟩]
    congr 2
    ring
  unfold readTargets
  rw [h0]
  simp only [Res.bind]
  by_cases hn : goInt (d ((ch - 1) * (g * g))) < 0
  · rw [if_pos hn, if_pos hn]
  · rw [if_neg hn, if_neg hn, targetLoop_square ch g d hg]
    have e : ((goInt (d ((ch - 1) * (g * g)))).toNat = 0 ∨ 1 + (goInt (d ((ch - 1) * (g * g)))).toNat ≤ g * g) ↔
        (goInt (d ((ch - 1) * (g * g))) = 0 ∨ goInt (d ((ch - 1) * (g * g))) < g * g) := by
      have hc : ((g * g : Nat) : Int) = (g : Int) * g := by push_cast; rfl
      omega
    by_cases hc : goInt (d ((ch - 1) * (g * g))) = 0 ∨ goInt (d ((ch - 1) * (g * g))) < g * g
    · rw [if_pos (e.2 hc), if_pos hc]
    · rw [if_neg (fun h => hc (e.1 h)), if_neg hc]

/-- **C77 (targets arrive).** Targets written to the last channel of the first image, their number and then the values, row by row, are the
ones that are used, if they fit: fewer than `grid * grid` values. -/
theorem targets_arrive (ch g : Nat) (d : Nat → ℝ) (hg : 0 < g) (ts : List ℝ) (hfit : ts.length < g * g)
    (hcount : d ((ch - 1) * (g * g)) = ts.length) (hvals : ∀ (m : Nat) (h : m < ts.length), d ((ch - 1) * (g * g) + (1 + m)) = ts[m]) :
    readTargets ch g g d = .ok ts := by
  have hgo : goInt (d ((ch - 1) * (g * g))) = (ts.length : Int) := goInt_eq _ _ (by rw [hcount]; simp)
  rw [targets_read ch g d hg, hgo, if_neg (by omega), if_pos (.inr (by exact_mod_cast hfit))]
  congr 1
  refine List.ext_getElem (by simp) fun m h1 h2 => ?_
  simp only [List.getElem_map, List.getElem_range]
  exact hvals m h2

/-- A grid of 1 takes no target at all. -/
theorem targets_single_cell (ch : Nat) (d : Nat → ℝ) (h : 1 ≤ d (ch - 1)) : readTargets ch 1 1 d = .err := by
  have h1 : 1 ≤ goInt (d (ch - 1)) := by
    unfold goInt
    rw [if_pos (by linarith)]
    exact Int.le_floor.2 (by exact_mod_cast h)
  rw [targets_read ch 1 d (by omega)]
  simp only [Nat.mul_one]
  rw [if_neg (by omega), if_neg (by push_cast; omega)]

theorem anchorIndices_iff (n fuel j : Nat) (hj : 5 ∣ j) (hf : n ≤ j + fuel) : anchorIndices n fuel j = .ok () ↔ j ≥ n ∨ 5 ∣ n := by
  induction fuel generalizing j with
  | zero => simp only [anchorIndices, true_iff]; left; omega
  | succ fuel ih =>
    unfold anchorIndices
    by_cases h : j < n
    · rw [if_pos h]
      by_cases h2 : j + 4 < n ∧ j / 5 < n / 5
      · rw [if_pos h2, ih (j + 5) (by omega) (by omega)]
        omega
      · rw [if_neg h2]
        constructor
        · intro e; cases e
        · intro e; exfalso; omega
    · rw [if_neg h]
      simp only [true_iff]
      left; omega

/-- **C77 (whole boxes).** The values must come in fives: for any other number the op panics. -/
theorem targets_in_fives (n : Nat) : anchorIndices n n 0 = .ok () ↔ 5 ∣ n := by
  rw [anchorIndices_iff n n 0 (by omega) (by omega)]
  omega

/-! ### Targets inside and outside of the image -/

/-- Cell of a coordinate: `int(target * gridSize)` (op_yolo.go 443-444). -/
theorem cell_inside (x : ℝ) (g : Nat) (h0 : 0 ≤ x) (h1 : x < 1) (hg : 0 < g) : 0 ≤ goInt (x * g) ∧ goInt (x * g) < g := by
  have hg' : (0 : ℝ) < g := by exact_mod_cast hg
  have hx : 0 ≤ x * g := by positivity
  unfold goInt
  rw [if_pos hx]
  refine ⟨Int.floor_nonneg.2 hx, Int.floor_lt.2 ?_⟩
  have : x * g < 1 * g := by nlinarith
  simpa using this

/-- `bboxIdx` (op_yolo.go 469) with the integers of the code. -/
def boxIdx (g A : Nat) (gi gj k : Int) : Int := gj * g * A + gi * A + k

/-- **C77 (inside).** For a target inside the image all places that its losses are written to exist. -/
theorem inside_fits (g A C : Nat) (x y : ℝ) (hx : 0 ≤ x ∧ x < 1) (hy : 0 ≤ y ∧ y < 1) (hg : 0 < g) (k : Nat) (hk : k < A) :
    0 ≤ boxIdx g A (goInt (x * g)) (goInt (y * g)) k ∧
      boxIdx g A (goInt (x * g)) (goInt (y * g)) k + 4 + C < ((g * g * A * (5 + C) : Nat) : Int) := by
  obtain ⟨a0, a1⟩ := cell_inside x g hx.1 hx.2 hg
  obtain ⟨b0, b1⟩ := cell_inside y g hy.1 hy.2 hg
  obtain ⟨i, hi⟩ := Int.eq_ofNat_of_zero_le a0
  obtain ⟨j, hj⟩ := Int.eq_ofNat_of_zero_le b0
  rw [hi] at a1 ⊢
  rw [hj] at b1 ⊢
  have hi' : i + 1 ≤ g := by exact_mod_cast a1
  have hj' : j + 1 ≤ g := by exact_mod_cast b1
  have e : boxIdx g A i j k = ((j * g * A + i * A + k : Nat) : Int) := by unfold boxIdx; push_cast; rfl
  rw [e]
  refine ⟨by positivity, ?_⟩
  have h1 : j * g * A + i * A + k + 1 ≤ g * g * A := by
    have h2 : (i + 1) * A ≤ g * A := Nat.mul_le_mul_right _ hi'
    have h3 : (j + 1) * (g * A) ≤ g * (g * A) := Nat.mul_le_mul_right _ hj'
    have h4 : g * (g * A) = g * g * A := by ring
    have h5 : (j + 1) * (g * A) = j * g * A + g * A := by ring
    have h6 : (i + 1) * A = i * A + A := by ring
    omega
  have h7 : (g * g * A) * 1 ≤ (g * g * A) * (4 + C) := Nat.mul_le_mul_left _ (by omega)
  have h8 : g * g * A * (5 + C) = g * g * A + g * g * A * (4 + C) := by ring
  have h9 : 1 * (4 + C) ≤ (g * g * A) * (4 + C) := Nat.mul_le_mul_right _ (by omega)
  have : j * g * A + i * A + k + 4 + C < g * g * A * (5 + C) := by omega
  exact_mod_cast this

theorem findInt_lt (masks : List Nat) (v at0 : Nat) (h : findInt masks v at0 ≠ -1) :
    (at0 : Int) ≤ findInt masks v at0 ∧ findInt masks v at0 < at0 + masks.length := by
  induction masks generalizing at0 with
  | nil => exact absurd rfl h
  | cons x xs ih =>
    unfold findInt at h ⊢
    by_cases e : x = v
    · rw [if_pos e]
      simp only [List.length_cons]
      push_cast
      omega
    · rw [if_neg e] at h ⊢
      have := ih (at0 + 1) h
      simp only [List.length_cons]
      push_cast at this ⊢
      omega

/-- **C77 (no panic inside).** So no target inside the image for which an anchor is found makes the op write outside of the losses, for
all anchors, masks and sizes: the box it charges is the one of its cell and anchor, and all its places exist. -/
theorem inside_no_panic (op : Op) (g : Nat) (t : Nat → ℝ) (i : Nat) (hg : 0 < g)
    (hx : 0 ≤ t (i * 5 + 1) ∧ t (i * 5 + 1) < 1) (hy : 0 ≤ t (i * 5 + 2) ∧ t (i * 5 + 2) < 1)
    (hk : (bestAnchor op.anchors op.masks op.dims g t i).1 ≠ -1) :
    (boxOf op g t i : Int) = boxIdx g op.masks.length (goInt (t (i * 5 + 1) * g)) (goInt (t (i * 5 + 2) * g))
        (bestAnchor op.anchors op.masks op.dims g t i).1 ∧
      boxOf op g t i + 4 + op.classes < g * g * op.masks.length * (5 + op.classes) := by
  obtain ⟨k, hkm, hb⟩ : ∃ k : Nat, k < op.masks.length ∧ bestAnchor op.anchors op.masks op.dims g t i =
      ((k : Int), goInt (t (i * 5 + 1) * g), goInt (t (i * 5 + 2) * g)) := by
    unfold bestAnchor at hk ⊢
    simp only [] at hk ⊢
    split at hk
    · rename_i h; exact absurd h hk
    · rename_i h
      rw [if_neg h]
      have := findInt_lt op.masks _ 0 h
      obtain ⟨k, e⟩ := Int.eq_ofNat_of_zero_le (show (0 : Int) ≤ _ from this.1)
      rw [e] at this ⊢
      exact ⟨k, by have := this.2; push_cast at this; omega, rfl⟩
  have h := inside_fits g op.masks.length op.classes _ _ hx hy hg k hkm
  obtain ⟨a0, _⟩ := cell_inside _ g hx.1 hx.2 hg
  obtain ⟨b0, _⟩ := cell_inside _ g hy.1 hy.2 hg
  have e : (boxOf op g t i : Int) = boxIdx g op.masks.length (goInt (t (i * 5 + 1) * g)) (goInt (t (i * 5 + 2) * g)) k := by
    unfold boxOf boxIdx
    rw [hb]
    simp only []
    push_cast
    rw [Int.toNat_of_nonneg a0, Int.toNat_of_nonneg b0, Int.toNat_of_nonneg (by omega : (0 : Int) ≤ k)]
  refine ⟨by rw [e, hb], ?_⟩
  have h2 := h.2
  rw [← e] at h2
  exact_mod_cast h2

/-- **C77 (defect: the right edge).** A target whose centre is on the right edge of the image is charged to the first cell of the next
row. -/
theorem right_edge (g A : Nat) (gj k : Int) : boxIdx g A (goInt (1 * g)) gj k = boxIdx g A 0 (gj + 1) k := by
  have : goInt (1 * (g : ℝ)) = (g : Int) := goInt_eq _ _ (by simp)
  rw [this]
  unfold boxIdx
  ring

/-- **C77 (defect: left of the image).** A centre left of the image by a cell or more, in the first row, makes the op panic: the index is
negative. -/
theorem left_of_image (g A : Nat) (x : ℝ) (k : Nat) (hx : x * g ≤ -1) (hk : k < A) : boxIdx g A (goInt (x * g)) 0 k < 0 := by
  have h : goInt (x * g) ≤ -1 := by
    unfold goInt
    rw [if_neg (by linarith)]
    exact Int.ceil_le.2 (by exact_mod_cast hx)
  unfold boxIdx
  have : goInt (x * g) * (A : Int) ≤ -1 * A := Int.mul_le_mul_of_nonneg_right h (by omega)
  have hk' : (k : Int) < A := by exact_mod_cast hk
  simp only [zero_mul, zero_add]
  linarith

/-- Less than a cell to the left is taken for the first cell. -/
theorem left_of_cell (g : Nat) (x : ℝ) (h0 : -1 < x * g) (h1 : x * g < 0) : goInt (x * g) = 0 := by
  unfold goInt
  rw [if_neg (by linarith)]
  refine le_antisymm (Int.ceil_le.2 (by simpa using h1.le)) ?_
  have : (-1 : Int) < ⌈x * g⌉ := Int.lt_ceil.2 (by simpa using h0)
  omega

/-- **C77 (below the image).** A centre below the image, by less than the factor `5 + classes`, is accepted: the losses are written at the
number of a box that does not exist, which is the place of an attribute of another box. -/
theorem below_image (g A C : Nat) (x y : ℝ) (k : Nat) (hk : k < A) (hx : 0 ≤ x ∧ x < 1) (hg : 0 < g) (hy : 1 ≤ y)
    (hfit : (goInt (y * g) + 1) * g * A + 4 + C ≤ ((g * g * A * (5 + C) : Nat) : Int)) :
    ((g * g * A : Nat) : Int) ≤ boxIdx g A (goInt (x * g)) (goInt (y * g)) k ∧
      boxIdx g A (goInt (x * g)) (goInt (y * g)) k + 4 + C < ((g * g * A * (5 + C) : Nat) : Int) := by
  obtain ⟨a0, a1⟩ := cell_inside x g hx.1 hx.2 hg
  have hg' : (0 : ℝ) < g := by exact_mod_cast hg
  have b0 : (g : Int) ≤ goInt (y * g) := by
    unfold goInt
    rw [if_pos (by positivity)]
    exact Int.le_floor.2 (by push_cast; nlinarith)
  obtain ⟨i, hi⟩ := Int.eq_ofNat_of_zero_le a0
  obtain ⟨j, hj⟩ := Int.eq_ofNat_of_zero_le (le_trans (by omega) b0)
  rw [hi] at a1 ⊢
  rw [hj] at b0 hfit ⊢
  have hi' : i + 1 ≤ g := by exact_mod_cast a1
  have hj' : g ≤ j := by exact_mod_cast b0
  have e : boxIdx g A i j k = ((j * g * A + i * A + k : Nat) : Int) := by unfold boxIdx; push_cast; rfl
  have hf : (j + 1) * g * A + 4 + C ≤ g * g * A * (5 + C) := by exact_mod_cast hfit
  rw [e]
  have h2 : (i + 1) * A ≤ g * A := Nat.mul_le_mul_right _ hi'
  have h3 : g * (g * A) ≤ j * (g * A) := Nat.mul_le_mul_right _ hj'
  have h4 : g * (g * A) = g * g * A := by ring
  have h5 : (j + 1) * g * A = j * g * A + g * A := by ring
  have h6 : (i + 1) * A = i * A + A := by ring
  have h7 : j * (g * A) = j * g * A := by ring
  refine ⟨by exact_mod_cast (by omega : g * g * A ≤ j * g * A + i * A + k), ?_⟩
  exact_mod_cast (by omega : j * g * A + i * A + k + 4 + C < g * g * A * (5 + C))

/-- Further below, the op panics: the index is past the end. -/
theorem far_below_image (g A C : Nat) (gi : Int) (y : ℝ) (k : Nat) (hgi : 0 ≤ gi) (hy : (5 + C : ℝ) ≤ y) :
    ((g * g * A * (5 + C) : Nat) : Int) ≤ boxIdx g A gi (goInt (y * g)) k := by
  have hy0 : (0 : ℝ) ≤ y := le_trans (by positivity) hy
  have b0 : (((5 + C) * g : Nat) : Int) ≤ goInt (y * g) := by
    unfold goInt
    rw [if_pos (by positivity)]
    refine Int.le_floor.2 ?_
    push_cast
    exact mul_le_mul_of_nonneg_right hy (by positivity)
  unfold boxIdx
  have h1 : (((5 + C) * g : Nat) : Int) * (g * A) ≤ goInt (y * g) * (g * A) := Int.mul_le_mul_of_nonneg_right b0 (by positivity)
  have h2 : (((5 + C) * g : Nat) : Int) * (g * A) = ((g * g * A * (5 + C) : Nat) : Int) := by push_cast; ring
  have h3 : goInt (y * g) * (g * A) = goInt (y * g) * g * A := by ring
  have h4 : 0 ≤ gi * A := by positivity
  omega

/-! ### Concrete cases -/

/-- One target in the third of three channels of a grid of 3: class 1, centre in the middle. -/
example : readTargets 3 3 3 (fun i => if i = 18 then 5 else if i = 19 then 1 else if i = 20 ∨ i = 21 then 1 / 2 else if i = 22 ∨ i = 23 then 1 / 4 else 0) =
    .ok [1, 1 / 2, 1 / 2, 1 / 4, 1 / 4] := by
  refine targets_arrive 3 3 _ (by decide) _ (by decide) (by norm_num) fun m h => ?_
  have : m = 0 ∨ m = 1 ∨ m = 2 ∨ m = 3 ∨ m = 4 := by simp at h; omega
  rcases this with rfl | rfl | rfl | rfl | rfl <;> norm_num

/-- Two targets do not fit there. -/
example : readTargets 1 3 3 (fun i => if i = 0 then 10 else 0) = .err := by
  have h : goInt (10 : ℝ) = 10 := goInt_eq _ _ (by norm_num)
  rw [targets_read 1 3 _ (by decide)]
  simp [h]

example : anchorIndices 7 7 0 = .panic ∧ anchorIndices 10 10 0 = .ok () := by decide

/-- A centre at `(1/2, 3/2)` of a grid of 2 with one anchor and no classes: box 7 of boxes 0 to 3. -/
example : ((2 * 2 * 1 : Nat) : Int) ≤ boxIdx 2 1 (goInt ((1 / 2 : ℝ) * (2 : Nat))) (goInt ((3 / 2 : ℝ) * (2 : Nat))) (0 : Nat) := by
  have h : goInt ((3 / 2 : ℝ) * (2 : Nat)) = 3 := goInt_eq _ _ (by norm_num)
  exact (below_image 2 1 0 (1 / 2) (3 / 2) 0 (by decide) ⟨by norm_num, by norm_num⟩ (by decide) (by norm_num) (by rw [h]; norm_num)).1

end

end Verif.NN.Yolo
