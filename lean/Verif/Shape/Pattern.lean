/-!
C24: broadcast patterns, `/repo/broadcast.go` 10-64.
-/
set_option autoImplicit false
namespace Verif.Shape

/-- `bcAllowableAxes`, broadcast.go 10-12. -/
def bcAllowableAxes : BitVec 8 := 4#8

/-- One pass of a loop of `NewBroadcastPattern`: `start |= byte(1) << a` (broadcast.go 34, 37); shifting
a byte by 8 or more yields 0 in Go, as `<<<` does. -/
def orBit (start a : BitVec 8) : BitVec 8 := start ||| (1#8 <<< a.toNat)

/-- `NewBroadcastPattern`, broadcast.go 30-40. Axes are bytes; `a += bcAllowableAxes` wraps. -/
def newPattern (leftAxes rightAxes : List (BitVec 8)) : BitVec 8 :=
  rightAxes.foldl orBit (leftAxes.foldl (fun start a => orBit start (a + bcAllowableAxes)) 0#8)

/-- `bc`, broadcast.go 42-48. -/
def bc (pat : BitVec 8) (left : Bool) (axis : BitVec 8) : Bool :=
  let operand := if left then axis + bcAllowableAxes else axis
  ((pat >>> operand.toNat) &&& 1#8) == 1#8

/-- `on`, broadcast.go 50-64: the axes of the left and of the right operand. -/
def on (pat : BitVec 8) : List Nat × List Nat :=
  ((List.range 4).filter (fun i => bc pat true (BitVec.ofNat 8 i)),
   (List.range 4).filter (fun i => bc pat false (BitVec.ofNat 8 i)))

theorem testBit_and_one (w : BitVec 8) (k : Nat) :
    (((w >>> k) &&& 1#8) == 1#8) = w.getLsbD k := by
  rw [Bool.eq_iff_iff, beq_iff_eq]
  constructor
  · intro h
    have := congrArg (fun x : BitVec 8 => x.getLsbD 0) h
    simpa [BitVec.getLsbD_and, BitVec.getLsbD_ushiftRight] using this
  · intro h
    apply BitVec.eq_of_getLsbD_eq
    intro j hj
    rw [BitVec.getLsbD_and, BitVec.getLsbD_ushiftRight, BitVec.getLsbD_one]
    by_cases h0 : j = 0
    · subst h0; simp [h]
    · simp [h0]

theorem getLsbD_orBit (w a : BitVec 8) (k : Nat) (hk : k < 8) :
    (orBit w a).getLsbD k = (w.getLsbD k || decide (a.toNat = k)) := by
  unfold orBit
  rw [BitVec.getLsbD_or, BitVec.getLsbD_shiftLeft, BitVec.getLsbD_one]
  congr 1
  by_cases h : a.toNat = k
  · simp [h, hk]
  · by_cases h2 : k < a.toNat
    · simp [h2, h]
    · have : ¬ (k - a.toNat = 0) := by omega
      simp [h, this]

theorem getLsbD_foldl {β : Type} (f : β → BitVec 8) (l : List β) (w : BitVec 8) (k : Nat) (hk : k < 8) :
    (l.foldl (fun s a => orBit s (f a)) w).getLsbD k = true ↔
      w.getLsbD k = true ∨ ∃ a ∈ l, (f a).toNat = k := by
  induction l generalizing w with
  | nil => simp
  | cons a l ih =>
    rw [List.foldl_cons, ih, getLsbD_orBit _ _ _ hk]
    simp only [Bool.or_eq_true, decide_eq_true_eq, List.mem_cons, exists_eq_or_imp, or_assoc]

theorem newPattern_bit (l r : List (BitVec 8)) (k : Nat) (hk : k < 8) :
    (newPattern l r).getLsbD k = true ↔
      (∃ a ∈ l, (a + bcAllowableAxes).toNat = k) ∨ (∃ a ∈ r, a.toNat = k) := by
  unfold newPattern
  have h1 := getLsbD_foldl (fun a : BitVec 8 => a) r (l.foldl (fun start a => orBit start (a + bcAllowableAxes)) 0#8) k hk
  have h2 := getLsbD_foldl (fun a : BitVec 8 => a + bcAllowableAxes) l 0#8 k hk
  have e : (fun s a => orBit s ((fun a : BitVec 8 => a) a)) = orBit := rfl
  rw [e] at h1
  rw [h1, h2]
  simp

/-- The characteristic property of a broadcast pattern: per operand exactly the requested axes, ascending
and without repetition, for all lists of axes below the documented limit of four. -/
theorem pattern_exact (l r : List (BitVec 8)) (hl : ∀ a ∈ l, a.toNat < 4) (hr : ∀ a ∈ r, a.toNat < 4) :
    (on (newPattern l r)).1 = (List.range 4).filter (fun i => decide (i ∈ l.map BitVec.toNat)) ∧
    (on (newPattern l r)).2 = (List.range 4).filter (fun i => decide (i ∈ r.map BitVec.toNat)) := by
  have plus : ∀ a : BitVec 8, a.toNat < 4 → (a + bcAllowableAxes).toNat = a.toNat + 4 := by
    intro a ha
    rw [BitVec.toNat_add]; simp [bcAllowableAxes]; omega
  constructor
  · apply List.filter_congr
    intro i hi
    have hi : i < 4 := List.mem_range.mp hi
    have ei : (BitVec.ofNat 8 i).toNat = i := by simp; omega
    rw [Bool.eq_iff_iff, decide_eq_true_eq]
    simp only [bc, if_true, testBit_and_one]
    rw [plus _ (by omega), ei, newPattern_bit l r (i + 4) (by omega), List.mem_map]
    constructor
    · rintro (⟨a, ha, h⟩ | ⟨a, ha, h⟩)
      · rw [plus a (hl a ha)] at h; exact ⟨a, ha, by omega⟩
      · have := hr a ha; omega
    · rintro ⟨a, ha, h⟩
      exact Or.inl ⟨a, ha, by rw [plus a (hl a ha)]; omega⟩
  · apply List.filter_congr
    intro i hi
    have hi : i < 4 := List.mem_range.mp hi
    have ei : (BitVec.ofNat 8 i).toNat = i := by simp; omega
    rw [Bool.eq_iff_iff, decide_eq_true_eq]
    simp only [bc, testBit_and_one, Bool.false_eq_true, if_false]
    rw [ei, newPattern_bit l r i (by omega), List.mem_map]
    constructor
    · rintro (⟨a, ha, h⟩ | ⟨a, ha, h⟩)
      · rw [plus a (hl a ha)] at h; omega
      · exact ⟨a, ha, h⟩
    · rintro ⟨a, ha, h⟩
      exact Or.inr ⟨a, ha, h⟩

example : on (newPattern [2#8, 0#8, 2#8] [3#8]) = ([0, 2], [3]) := by decide

/-- Membership form of `pattern_exact`. -/
theorem pattern_mem (l r : List (BitVec 8)) (hl : ∀ a ∈ l, a.toNat < 4) (hr : ∀ a ∈ r, a.toNat < 4) (i : Nat) :
    (i ∈ (on (newPattern l r)).1 ↔ ∃ a ∈ l, a.toNat = i) ∧
    (i ∈ (on (newPattern l r)).2 ↔ ∃ a ∈ r, a.toNat = i) := by
  obtain ⟨h1, h2⟩ := pattern_exact l r hl hr
  rw [h1, h2]
  simp only [List.mem_filter, List.mem_range, decide_eq_true_eq, List.mem_map]
  exact ⟨⟨fun h => h.2, fun h => ⟨by obtain ⟨a, ha, e⟩ := h; have := hl a ha; omega, h⟩⟩,
    ⟨fun h => h.2, fun h => ⟨by obtain ⟨a, ha, e⟩ := h; have := hr a ha; omega, h⟩⟩⟩

/-- Ascending and duplicate free. -/
theorem on_sorted (p : BitVec 8) : (on p).1.Pairwise (· < ·) ∧ (on p).2.Pairwise (· < ·) :=
  ⟨List.Pairwise.filter _ List.pairwise_lt_range, List.Pairwise.filter _ List.pairwise_lt_range⟩

theorem on_lt (p : BitVec 8) : (∀ a ∈ (on p).1, a < 4) ∧ (∀ a ∈ (on p).2, a < 4) := by
  constructor <;> (intro a ha; exact List.mem_range.mp (List.mem_filter.mp ha).1)

/-- What the code does with axes past the limit, without any warning: axis `4 + i` of the right operand
becomes axis `i` of the *left* operand. -/
theorem right_axis_four_is_left_axis_zero :
    on (newPattern [] [4#8]) = ([0], []) := by decide

/-- ... and axis 4 of the left operand is dropped. -/
theorem left_axis_four_dropped : on (newPattern [4#8] []) = ([], []) := by decide

/-- The full statement (all axis lists) is therefore false of the code. -/
theorem pattern_not_exact : ¬ ∀ l r : List (BitVec 8), ∀ i : Nat,
    (i ∈ (on (newPattern l r)).1 ↔ ∃ a ∈ l, a.toNat = i) := by
  intro h
  have := (h [] [4#8] 0).mp (by decide)
  simp at this

end Verif.Shape
