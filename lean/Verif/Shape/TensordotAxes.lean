import Verif.Shape.Tensordot
/-!
Axes of a contraction as Go integers (C42): `Tensordot` (operations.go 589-633) rejects axes that are too large but not negative ones,
with which it indexes the shapes.
-/
set_option autoImplicit false
namespace Verif.Shape
open Verif.Tensor

/-! ### Model -/

/-- `containsDuplicate`, operations.go 660-674, on integers. -/
def duplicateInts (l : List Int) : Bool :=
  l.zipIdx.any fun e => l.zipIdx.any fun e' => e.1 == e'.1 && e.2 != e'.2

/-- The loop comparing the sizes, operations.go 623-627: a negative index panics. -/
def compareSizes (sa sb : List Nat) : List (Int × Int) → Res Unit
  | [] => .ok ()
  | e :: l =>
    if e.1 < 0 ∨ e.2 < 0 then .panic
    else if sa.getD e.1.toNat 0 ≠ sb.getD e.2.toNat 0 then .err
    else compareSizes sa sb l

/-- `Tensordot`, operations.go 589-633, with integers for axes. -/
noncomputable def tensordotInts (aAxes bAxes : List Int) (a b : T ℝ) : Res (T ℝ) :=
  if a.shape.length < 1 ∨ b.shape.length < 1 then .err
  else if aAxes.length ≠ bAxes.length then .err
  else if duplicateInts aAxes || duplicateInts bAxes then .err
  else if aAxes.any fun x => decide (x ≥ (a.shape.length : Int)) then .err
  else if bAxes.any fun x => decide (x ≥ (b.shape.length : Int)) then .err
  else (compareSizes a.shape b.shape (aAxes.zip bAxes)).bind fun _ =>
    (inferDot (aAxes.map Int.toNat) (bAxes.map Int.toNat) a.shape b.shape).bind fun _ =>
    .ok (contract (aAxes.map Int.toNat) (bAxes.map Int.toNat) a b)

/-! ### Theorems -/

theorem duplicateInts_nat (l : List Nat) : duplicateInts (l.map Int.ofNat) = containsDuplicate l := by
  have h : ∀ x y : Nat, (Int.ofNat x == Int.ofNat y) = (x == y) := by
    intro x y
    rw [Bool.eq_iff_iff]
    simp
  unfold duplicateInts containsDuplicate
  rw [List.zipIdx_map, List.any_map]
  refine congrArg (fun f => l.zipIdx.any f) (funext fun e => ?_)
  show (List.map _ _).any _ = _
  rw [List.any_map]
  refine congrArg (fun f => l.zipIdx.any f) (funext fun e' => ?_)
  show (Int.ofNat e.1 == Int.ofNat e'.1 && e.2 != e'.2) = _
  rw [h]

theorem compareSizes_nat (sa sb A B : List Nat) : compareSizes sa sb ((A.map Int.ofNat).zip (B.map Int.ofNat)) =
    if (A.zip B).any fun e => sa.getD e.1 0 != sb.getD e.2 0 then .err else .ok () := by
  induction A generalizing B with
  | nil => rfl
  | cons x A ih =>
    cases B with
    | nil => rfl
    | cons y B =>
      simp only [List.map_cons, List.zip_cons_cons, compareSizes]
      rw [if_neg (by simp), ih]
      show (if sa.getD x 0 ≠ sb.getD y 0 then Res.err else _) = _
      by_cases c : sa.getD x 0 = sb.getD y 0
      · rw [if_neg (not_not.2 c)]
        have : (((x, y) :: A.zip B).any fun e => sa.getD e.1 0 != sb.getD e.2 0) = (A.zip B).any fun e => sa.getD e.1 0 != sb.getD e.2 0 := by
          rw [List.any_cons]
          show ((sa.getD x 0 != sb.getD y 0) || _) = _
          rw [c]
          simp
        simp only [this]
      · rw [if_pos c]
        have : (((x, y) :: A.zip B).any fun e => sa.getD e.1 0 != sb.getD e.2 0) = true := by
          rw [List.any_cons]
          show ((sa.getD x 0 != sb.getD y 0) || _) = _
          rw [show (sa.getD x 0 != sb.getD y 0) = true from bne_iff_ne.2 c, Bool.true_or]
        simp only [this, if_true]

theorem any_nat (A : List Nat) (n : Nat) : ((A.map Int.ofNat).any fun x => decide (x ≥ (n : Int))) = A.any fun x => decide (x ≥ n) := by
  rw [List.any_map]
  congr 1
  funext x
  simp [Function.comp]

/-- On axes that are not negative this is the contraction of Shape/Tensordot. -/
theorem tensordotInts_nat (A B : List Nat) (a b : T ℝ) : tensordotInts (A.map Int.ofNat) (B.map Int.ofNat) a b = tensordot A B a b := by
  have e : ∀ l : List Nat, (l.map Int.ofNat).map Int.toNat = l := by
    intro l
    rw [List.map_map]
    exact (List.map_congr_left fun x _ => rfl).trans (List.map_id l)
  unfold tensordotInts tensordot
  rw [duplicateInts_nat, duplicateInts_nat, any_nat, any_nat, compareSizes_nat, e, e, List.length_map, List.length_map]
  by_cases c : ((A.zip B).any fun e => a.shape.getD e.1 0 != b.shape.getD e.2 0) = true
  · simp only [c, if_true, Res.bind]
  · simp only [c, Res.bind, Bool.false_eq_true, if_false]

theorem compareSizes_ok (sa sb : List Nat) (l : List (Int × Int)) (h : compareSizes sa sb l = .ok ()) : ∀ e ∈ l, 0 ≤ e.1 ∧ 0 ≤ e.2 := by
  induction l with
  | nil => simp
  | cons x l ih =>
    unfold compareSizes at h
    by_cases c : x.1 < 0 ∨ x.2 < 0
    · rw [if_pos c] at h; cases h
    · rw [if_neg c] at h
      by_cases c' : sa.getD x.1.toNat 0 ≠ sb.getD x.2.toNat 0
      · rw [if_pos c'] at h; cases h
      · rw [if_neg c'] at h
        intro e he
        rcases List.mem_cons.1 he with rfl | he
        · push Not at c; exact c
        · exact ih h e he

theorem mem_zip_left {A B : List Int} (hl : A.length = B.length) {x : Int} (hx : x ∈ A) : ∃ y, (x, y) ∈ A.zip B := by
  obtain ⟨k, hk, rfl⟩ := List.getElem_of_mem hx
  exact ⟨B[k], by rw [← List.getElem_zip (h := by simp [← hl, hk])]; exact List.getElem_mem _⟩

theorem mem_zip_right {A B : List Int} (hl : A.length = B.length) {y : Int} (hy : y ∈ B) : ∃ x, (x, y) ∈ A.zip B := by
  obtain ⟨k, hk, rfl⟩ := List.getElem_of_mem hy
  exact ⟨A[k], by rw [← List.getElem_zip (h := by simp [hl, hk])]; exact List.getElem_mem _⟩

theorem nat_of_nonneg {A : List Int} (h : ∀ x ∈ A, 0 ≤ x) : A = (A.map Int.toNat).map Int.ofNat := by
  rw [List.map_map]
  conv_lhs => rw [← List.map_id A]
  refine List.map_congr_left fun x hx => ?_
  show x = ((x.toNat : Nat) : Int)
  rw [Int.toNat_of_nonneg (h x hx)]

/-- **C42 (integer axes).** A contraction succeeds exactly for axes that are not negative and contractible, with the contraction. -/
theorem tensordotInts_ok (A B : List Int) (a b r : T ℝ) : tensordotInts A B a b = .ok r ↔
    ∃ A' B' : List Nat, A = A'.map Int.ofNat ∧ B = B'.map Int.ofNat ∧ Contractible A' B' a.shape b.shape ∧ r = contract A' B' a b := by
  constructor
  · intro h
    have h0 := h
    unfold tensordotInts at h
    by_cases c1 : a.shape.length < 1 ∨ b.shape.length < 1
    · rw [if_pos c1] at h; cases h
    rw [if_neg c1] at h
    by_cases c2 : A.length ≠ B.length
    · rw [if_pos c2] at h; cases h
    rw [if_neg c2] at h
    by_cases c3 : (duplicateInts A || duplicateInts B) = true
    · rw [if_pos c3] at h; cases h
    rw [if_neg c3] at h
    by_cases c4 : (A.any fun x => decide (x ≥ (a.shape.length : Int))) = true
    · rw [if_pos c4] at h; cases h
    rw [if_neg c4] at h
    by_cases c5 : (B.any fun x => decide (x ≥ (b.shape.length : Int))) = true
    · rw [if_pos c5] at h; cases h
    rw [if_neg c5] at h
    cases e : compareSizes a.shape b.shape (A.zip B) with
    | err => rw [e] at h; cases h
    | panic => rw [e] at h; cases h
    | ok u =>
      have hn := compareSizes_ok _ _ _ e
      push Not at c2
      have hA : ∀ x ∈ A, 0 ≤ x := fun x hx => by obtain ⟨y, hy⟩ := mem_zip_left c2 hx; exact (hn _ hy).1
      have hB : ∀ x ∈ B, 0 ≤ x := fun x hx => by obtain ⟨y, hy⟩ := mem_zip_right c2 hx; exact (hn _ hy).2
      refine ⟨A.map Int.toNat, B.map Int.toNat, nat_of_nonneg hA, nat_of_nonneg hB, ?_⟩
      rw [nat_of_nonneg hA, nat_of_nonneg hB, tensordotInts_nat] at h0
      exact (tensordot_ok _ _ _ _ _).1 h0
  · rintro ⟨A', B', rfl, rfl, h⟩
    rw [tensordotInts_nat]
    exact (tensordot_ok _ _ _ _ _).2 h

/-- **C42, refuted (integer axes).** A single negative axis panics instead of giving an error, whatever the other one is (if it is not
too large). -/
theorem tensordot_negative (x y : Int) (a b : T ℝ) (ha : a.shape ≠ []) (hb : b.shape ≠ []) (hx : x < a.shape.length) (hy : y < b.shape.length)
    (h : x < 0 ∨ y < 0) : tensordotInts [x] [y] a b = .panic := by
  have ha' := List.length_pos_iff.2 ha
  have hb' := List.length_pos_iff.2 hb
  unfold tensordotInts
  rw [if_neg (by omega), if_neg (by simp), if_neg (by simp [duplicateInts]), if_neg (by simpa using hx), if_neg (by simpa using hy)]
  show (compareSizes a.shape b.shape [(x, y)]).bind _ = _
  unfold compareSizes
  rw [if_pos h]
  rfl

/-- Numpy's last axis: a panic. -/
example (a b : T ℝ) (ha : a.shape = [2, 3]) (hb : b.shape = [3, 4]) : tensordotInts [-1] [0] a b = .panic :=
  tensordot_negative _ _ a b (by rw [ha]; simp) (by rw [hb]; simp) (by rw [ha]; simp) (by rw [hb]; simp) (Or.inl (by decide))

/-- Sizes are compared pair by pair, so a mismatch before the negative axis gives an error. -/
example (a b : T ℝ) (ha : a.shape = [2, 3]) (hb : b.shape = [3, 4]) : tensordotInts [0, -1] [0, 1] a b = .err := by
  unfold tensordotInts
  rw [ha, hb]
  rfl

end Verif.Shape
