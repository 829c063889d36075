import Verif.Bitmap.Spec
/-! Helper lemmas for the bitmap. -/
set_option autoImplicit false
namespace Verif.Bitmap

/-- Representation invariant: enough words for `max` bits. -/
def WF (bm : Bitmap) : Prop := ∃ m : Nat, bm.max = m ∧ m ≤ bm.n.length * 64

theorem wf_new (size : Nat) : WF (new size) := by
  refine ⟨size, rfl, ?_⟩
  simp only [new, bits, List.length_replicate]
  split <;> omega

theorem one_getLsbD (k : Nat) : (1#64).getLsbD k = decide (k = 0) := by
  simp [BitVec.getLsbD_one]

theorem shl_getLsbD (p k : Nat) (hp : p < 64) : (1#64 <<< p).getLsbD k = decide (k = p) := by
  simp only [BitVec.getLsbD_shiftLeft, one_getLsbD]
  by_cases h : k = p
  · subst h; simp [hp]
  · by_cases h2 : k < p
    · simp [h2, h]
    · have : k - p ≠ 0 := by omega
      simp [h, this]

theorem probe_eq (w : BitVec 64) (p : Nat) : (((w >>> p) &&& 1#64) == 1#64) = w.getLsbD p := by
  have key : ((w >>> p) &&& 1#64) = if w.getLsbD p then 1#64 else 0#64 := by
    apply BitVec.eq_of_getLsbD_eq
    intro i hi
    rw [BitVec.getLsbD_and, BitVec.getLsbD_ushiftRight, one_getLsbD]
    by_cases h : i = 0
    · subst h; cases hw : w.getLsbD p <;> simp [hw]
    · cases hw : w.getLsbD p <;> simp [h, BitVec.getLsbD_one]
  rw [key]; cases w.getLsbD p <;> decide

theorem probe_zero_eq (w : BitVec 64) (p : Nat) : (((w >>> p) &&& 1#64) == 0#64) = !w.getLsbD p := by
  have key : ((w >>> p) &&& 1#64) = if w.getLsbD p then 1#64 else 0#64 := by
    apply BitVec.eq_of_getLsbD_eq
    intro i hi
    rw [BitVec.getLsbD_and, BitVec.getLsbD_ushiftRight, one_getLsbD]
    by_cases h : i = 0
    · subst h; cases hw : w.getLsbD p <;> simp [hw]
    · cases hw : w.getLsbD p <;> simp [h, BitVec.getLsbD_one]
  rw [key]; cases w.getLsbD p <;> decide

/-- The abstraction: bit `i` of the whole word list. -/
def bit (bm : Bitmap) (i : Nat) : Bool :=
  match bm.n[i / 64]? with
  | some w => w.getLsbD (i % 64)
  | none => false

theorem isSet_eq (bm : Bitmap) (hwf : WF bm) (i : Nat) (hi : (i : Int) < bm.max) :
    bm.isSet i = some (bit bm i) := by
  obtain ⟨m, hm, hlen⟩ := hwf
  have hb : i / 64 < bm.n.length := by omega
  simp only [Bitmap.isSet, bit, bits, Int.toNat_natCast]
  rw [if_neg (by omega), List.getElem?_eq_getElem hb]
  simp only [probe_eq]

theorem set_spec (bm : Bitmap) (hwf : WF bm) (i : Nat) (hi : (i : Int) < bm.max) :
    ∃ bm', bm.set i = some bm' ∧ WF bm' ∧ bm'.max = bm.max ∧
      ∀ j, bit bm' j = if j = i then true else bit bm j := by
  obtain ⟨m, hm, hlen⟩ := hwf
  have hb : i / 64 < bm.n.length := by omega
  have hp : i % 64 < 64 := Nat.mod_lt _ (by omega)
  refine ⟨{ bm with n := bm.n.set (i/64) (bm.n[i/64] ||| (1#64 <<< (i%64))) }, ?_, ?_, rfl, ?_⟩
  · simp only [Bitmap.set, bits, Int.toNat_natCast]
    rw [if_neg (by omega), List.getElem?_eq_getElem hb]
  · exact ⟨m, hm, by simpa using hlen⟩
  · intro j
    simp only [bit, List.getElem?_set]
    by_cases hj : i / 64 = j / 64
    · simp only [hj, ↓reduceIte]
      have hb' : j / 64 < bm.n.length := by omega
      simp only [hb', ↓reduceIte, List.getElem?_eq_getElem, BitVec.getLsbD_or, shl_getLsbD _ _ hp]
      by_cases hji : j = i
      · subst hji; simp
      · have : j % 64 ≠ i % 64 := by omega
        simp [this, hji]
    · rw [if_neg hj]
      have : j ≠ i := by intro h; subst h; exact hj rfl
      simp [this]

theorem clear_spec (bm : Bitmap) (hwf : WF bm) (i : Nat) (hi : (i : Int) < bm.max) :
    ∃ bm', bm.clear i = some bm' ∧ WF bm' ∧ bm'.max = bm.max ∧
      ∀ j, bit bm' j = if j = i then false else bit bm j := by
  obtain ⟨m, hm, hlen⟩ := hwf
  have hb : i / 64 < bm.n.length := by omega
  have hp : i % 64 < 64 := Nat.mod_lt _ (by omega)
  refine ⟨{ bm with n := bm.n.set (i/64) (bm.n[i/64] &&& ~~~(1#64 <<< (i%64))) }, ?_, ?_, rfl, ?_⟩
  · simp only [Bitmap.clear, bits, Int.toNat_natCast]
    rw [if_neg (by omega), List.getElem?_eq_getElem hb]
  · exact ⟨m, hm, by simpa using hlen⟩
  · intro j
    have hp' : j % 64 < 64 := Nat.mod_lt _ (by omega)
    simp only [bit, List.getElem?_set]
    by_cases hj : i / 64 = j / 64
    · simp only [hj, ↓reduceIte]
      have hb' : j / 64 < bm.n.length := by omega
      simp only [hb', ↓reduceIte, List.getElem?_eq_getElem, BitVec.getLsbD_and, BitVec.getLsbD_not,
        shl_getLsbD _ _ hp]
      by_cases hji : j = i
      · subst hji; simp
      · have : j % 64 ≠ i % 64 := by omega
        simp [this, hji, hp']
    · rw [if_neg hj]
      have : j ≠ i := by intro h; subst h; exact hj rfl
      simp [this]

theorem bit_new (size i : Nat) : bit (new size) i = false := by
  simp only [bit, new]
  cases h : (List.replicate (if size % bits > 0 then size / bits + 1 else size / bits) 0#64)[i/64]? with
  | none => rfl
  | some w =>
    have := List.mem_of_getElem? h
    have := List.eq_of_mem_replicate this
    subst this; simp

/-- Running forward from any well-formed bitmap. -/
theorem run_spec : ∀ (ops : List Op) (bm : Bitmap), WF bm →
    (∀ o ∈ ops, 0 ≤ o.index ∧ o.index < bm.max) →
    ∃ bm', run bm ops = some bm' ∧ WF bm' ∧ bm'.max = bm.max ∧
      ∀ i : Nat, bit bm' i = match ops.reverse.find? (fun o => o.index == (i : Int)) with
        | some o => o.isSetOp
        | none => bit bm i := by
  intro ops
  induction ops with
  | nil => intro bm hwf _; exact ⟨bm, rfl, hwf, rfl, fun i => rfl⟩
  | cons o os ih =>
    intro bm hwf hin
    have ho := hin o (by simp)
    have hstep : ∃ bm1, step bm o = some bm1 ∧ WF bm1 ∧ bm1.max = bm.max ∧
        ∀ j : Nat, bit bm1 j = if (j : Int) = o.index then o.isSetOp else bit bm j := by
      cases o with
      | set k =>
        simp only [Op.index] at ho
        obtain ⟨k, rfl⟩ := Int.eq_ofNat_of_zero_le ho.1
        obtain ⟨b, h1, h2, h3, h4⟩ := set_spec bm hwf k ho.2
        refine ⟨b, h1, h2, h3, fun j => ?_⟩
        rw [h4 j]; simp only [Op.index, Op.isSetOp, Int.natCast_inj]
      | clear k =>
        simp only [Op.index] at ho
        obtain ⟨k, rfl⟩ := Int.eq_ofNat_of_zero_le ho.1
        obtain ⟨b, h1, h2, h3, h4⟩ := clear_spec bm hwf k ho.2
        refine ⟨b, h1, h2, h3, fun j => ?_⟩
        rw [h4 j]; simp only [Op.index, Op.isSetOp, Int.natCast_inj]
    obtain ⟨bm1, e1, w1, m1, b1⟩ := hstep
    obtain ⟨bm2, e2, w2, m2, b2⟩ := ih bm1 w1 (by
      intro o' ho'; rw [m1]; exact hin o' (by simp [ho']))
    refine ⟨bm2, by simp [run, e1, e2], w2, by rw [m2, m1], fun i => ?_⟩
    rw [b2 i]
    simp only [List.reverse_cons, List.find?_append]
    cases hf : os.reverse.find? (fun o => o.index == (i : Int)) with
    | some o' => simp
    | none =>
      rw [b1 i]
      by_cases hoi : (i : Int) = o.index
      · simp [hoi]
      · have : (o.index == (i : Int)) = false := by simp; omega
        simp [hoi, this]

/-- Calls never change the range a bitmap accepts. -/
theorem run_max : ∀ (ops : List Op) (bm bm' : Bitmap), run bm ops = some bm' → bm'.max = bm.max := by
  intro ops
  induction ops with
  | nil => intro bm bm' h; simp [run] at h; rw [h]
  | cons o os ih =>
    intro bm bm' h
    simp only [run, Option.bind_eq_some_iff] at h
    obtain ⟨b1, h1, h2⟩ := h
    rw [ih b1 bm' h2]
    cases o with
    | set i =>
      simp only [step, Bitmap.set] at h1
      split at h1
      · exact absurd h1 (by simp)
      · split at h1
        · exact absurd h1 (by simp)
        · simp at h1; rw [← h1]
    | clear i =>
      simp only [step, Bitmap.clear] at h1
      split at h1
      · exact absurd h1 (by simp)
      · split at h1
        · exact absurd h1 (by simp)
        · simp at h1; rw [← h1]

/-! ### Searching for zero runs -/

theorem scanBlock_range (b : BitVec 64) (a : Nat) : ∀ (len s c : Nat), s + len = 64 → c ≤ a → c ≤ s →
    (∀ t, t < c → b.getLsbD (s - 1 - t) = false) → (c = s ∨ (c < s ∧ b.getLsbD (s - 1 - c) = true)) →
    (scanBlock b a (List.range' s len) c = true ↔
      ∃ j, s ≤ j + a + 1 + c - c ∧ s < j + a + 2 ∧ j + (a + 1) ≤ 64 ∧ (∀ t, t < a + 1 → b.getLsbD (j + t) = false) ∧ s ≤ j + c ) := by
  intro len
  induction len with
  | zero =>
    intro s c hs hca hcs hz hm
    simp only [List.range', scanBlock]
    constructor
    · intro h; exact absurd h (by simp)
    · rintro ⟨j, h1, h2, h3, h4, h5⟩; omega
  | succ len ih =>
    intro s c hs hca hcs hz hm
    simp only [List.range', scanBlock, probe_zero_eq]
    cases hb : b.getLsbD s with
    | true =>
      simp only [Bool.not_true, Bool.false_eq_true, ↓reduceIte, Nat.not_lt_zero, gt_iff_lt]
      rw [ih (s+1) 0 (by omega) (by omega) (by omega) (by intro t ht; omega)
        (Or.inr ⟨by omega, by simpa using hb⟩)]
      constructor
      · rintro ⟨j, h1, h2, h3, h4, h5⟩
        exact ⟨j, by omega, by omega, h3, h4, by omega⟩
      · rintro ⟨j, h1, h2, h3, h4, h5⟩
        have : s < j := by
          apply Classical.byContradiction
          intro hlt
          have := h4 (s - j) (by omega)
          rw [show j + (s - j) = s by omega, hb] at this
          exact absurd this (by simp)
        exact ⟨j, by omega, by omega, h3, h4, by omega⟩
    | false =>
      simp only [Bool.not_false, ↓reduceIte, gt_iff_lt]
      by_cases hc : a < c + 1
      · simp only [hc, ↓reduceIte, true_iff]
        have hca' : c = a := by omega
        subst hca'
        refine ⟨s - c, by omega, by omega, by omega, ?_, by omega⟩
        intro t ht
        by_cases htc : t = c
        · subst htc; rw [show s - t + t = s by omega]; exact hb
        · have := hz (c - 1 - t) (by omega)
          rw [show s - 1 - (c - 1 - t) = s - c + t by omega] at this
          exact this
      · simp only [hc, ↓reduceIte]
        rw [ih (s+1) (c+1) (by omega) (by omega) (by omega) (by
          intro t ht
          by_cases h0 : t = 0
          · subst h0; simpa using hb
          · have := hz (t - 1) (by omega)
            rw [show s - 1 - (t - 1) = s + 1 - 1 - t by omega] at this
            exact this) (by
          rcases hm with hm | ⟨hm1, hm2⟩
          · left; omega
          · right; exact ⟨by omega, by rw [show s + 1 - 1 - (c + 1) = s - 1 - c by omega]; exact hm2⟩)]
        constructor
        · rintro ⟨j, h1, h2, h3, h4, h5⟩
          exact ⟨j, by omega, by omega, h3, h4, by omega⟩
        · rintro ⟨j, h1, h2, h3, h4, h5⟩
          exact ⟨j, by omega, by omega, h3, h4, by omega⟩

theorem scanBlock_iff (b : BitVec 64) (a : Nat) :
    scanBlock b a (List.range 64) 0 = true ↔ HasZeroRun b (a + 1) := by
  rw [List.range_eq_range', scanBlock_range b a 64 0 0 (by omega) (by omega) (by omega)
    (by intro t ht; omega) (Or.inl rfl)]
  constructor
  · rintro ⟨j, _, _, h3, h4, _⟩; exact ⟨j, h3, h4⟩
  · rintro ⟨j, h3, h4⟩; exact ⟨j, by omega, by omega, h3, h4, by omega⟩

theorem mem_take_takeWhile {α} (p : α → Bool) : ∀ (l : List α) (i : Nat) (h : i < (l.takeWhile p).length),
    ∃ h' : i < l.length, p l[i] = true := by
  intro l
  induction l with
  | nil => intro i h; simp at h
  | cons a l ih =>
    intro i h
    by_cases hp : p a
    · simp only [List.takeWhile_cons, hp, ↓reduceIte, List.length_cons] at h
      cases i with
      | zero => exact ⟨by simp, by simpa using hp⟩
      | succ i =>
        obtain ⟨h', hh⟩ := ih i (by omega)
        exact ⟨by simp; omega, by simpa using hh⟩
    · simp [List.takeWhile_cons, hp] at h

theorem leadingZeros_sound (b : BitVec 64) (a : Nat) (h : leadingZeros b > a) : HasZeroRun b (a + 1) := by
  have hle : leadingZeros b ≤ 64 := by
    unfold leadingZeros
    calc _ ≤ (List.range 64).length := List.Sublist.length_le (List.takeWhile_sublist _)
      _ = 64 := by simp
  refine ⟨64 - (a + 1), by omega, fun t ht => ?_⟩
  have : 63 - (64 - (a+1) + t) < leadingZeros b := by omega
  obtain ⟨h', hh⟩ := mem_take_takeWhile _ _ _ this
  simp only [List.getElem_range, Bool.not_eq_eq_eq_not, Bool.not_true] at hh
  rw [show 63 - (63 - (64 - (a + 1) + t)) = 64 - (a + 1) + t by omega] at hh
  exact hh

theorem onesCount_full (b : BitVec 64) (h : onesCount b = 64) (k : Nat) : ¬ HasZeroRun b (k + 1) := by
  rintro ⟨j, h1, h2⟩
  have h64 : (List.range 64).countP (fun j => b.getLsbD j) = (List.range 64).length := by
    simpa [onesCount] using h
  rw [List.countP_eq_length] at h64
  have := h64 j (by simp; omega)
  have h0 := h2 0 (by omega)
  simp at h0
  rw [h0] at this; exact absurd this (by simp)

theorem blocksFrom_spec (a : Nat) : ∀ (n : List (BitVec 64)) (i : Nat),
    (blocksWithZeroFrom a n i = -1 ∧ ∀ b ∈ n, ¬ HasZeroRun b (a + 1)) ∨
    (∃ k : Nat, ∃ h : k < n.length, blocksWithZeroFrom a n i = ((i + k : Nat) : Int) ∧ HasZeroRun n[k] (a + 1) ∧
      ∀ i' : Nat, ∀ h' : i' < n.length, i' < k → ¬ HasZeroRun n[i'] (a + 1)) := by
  intro n
  induction n with
  | nil => intro i; left; exact ⟨rfl, by simp⟩
  | cons b bs ih =>
    intro i
    by_cases hz : HasZeroRun b (a + 1)
    · right
      refine ⟨0, by simp, ?_, by simpa using hz, by intro i' _ h; omega⟩
      have hne : onesCount b ≠ 64 := fun h => onesCount_full b h a hz
      simp only [blocksWithZeroFrom, hne, ne_eq, not_false_eq_true, ↓reduceIte,
        (scanBlock_iff b a).2 hz]
      simp
    · have hlz : ¬ leadingZeros b > a := fun h => hz (leadingZeros_sound b a h)
      have hsc : scanBlock b a (List.range 64) 0 = false := by
        cases h : scanBlock b a (List.range 64) 0 with
        | false => rfl
        | true => exact absurd ((scanBlock_iff b a).1 h) hz
      have hstep : blocksWithZeroFrom a (b :: bs) i = blocksWithZeroFrom a bs (i + 1) := by
        simp only [blocksWithZeroFrom, hlz, hsc]
        simp
      rw [hstep]
      rcases ih (i + 1) with ⟨h1, h2⟩ | ⟨k, hk, h1, h2, h3⟩
      · left
        refine ⟨h1, ?_⟩
        intro b' hb'
        rcases List.mem_cons.mp hb' with e | e
        · subst e; exact hz
        · exact h2 b' e
      · right
        refine ⟨k + 1, by simp; omega, by rw [h1]; congr 1; omega, by simpa using h2, ?_⟩
        intro i' hi' hlt
        cases i' with
        | zero => simpa using hz
        | succ i' => simpa using h3 i' (by simp at hi'; omega) (by omega)


end Verif.Bitmap
