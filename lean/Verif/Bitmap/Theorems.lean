import Verif.Bitmap.Lemmas
/-! Property C23: the bitmap behaves as a finite set of indices. -/
set_option autoImplicit false
namespace Verif.Bitmap

/-- **C23 (set semantics).** Starting from a fresh bitmap of any size, any history of in-range calls runs
without panic, and afterwards every in-range query answers whether the last call about that index was a `Set`.
-/
theorem bitmap_refines_set (size : Nat) (ops : List Op)
    (hin : ∀ o ∈ ops, 0 ≤ o.index ∧ o.index < size) :
    ∃ bm, run (new size) ops = some bm ∧
      ∀ i : Int, 0 ≤ i → i < size → bm.isSet i = some (member ops i) := by
  obtain ⟨bm, h1, h2, h3, h4⟩ := run_spec ops (new size) (wf_new size) hin
  refine ⟨bm, h1, fun i hi0 hi => ?_⟩
  obtain ⟨k, rfl⟩ := Int.eq_ofNat_of_zero_le hi0
  rw [isSet_eq bm h2 k (by rw [h3]; exact hi), h4 k]
  simp only [member, bit_new]
  rfl

example : ∃ bm, run (new 130) [.set 3, .set 129, .clear 3, .set 64] = some bm ∧
    bm.isSet 3 = some false ∧ bm.isSet 129 = some true ∧ bm.isSet 64 = some true ∧ bm.isSet 0 = some false := by
  obtain ⟨bm, h, hs⟩ := bitmap_refines_set 130 [.set 3, .set 129, .clear 3, .set 64] (by decide)
  exact ⟨bm, h, hs 3 (by decide) (by decide), hs 129 (by decide) (by decide), hs 64 (by decide) (by decide),
    hs 0 (by decide) (by decide)⟩

/-- **C23 (range check).** In every reachable state exactly the out-of-range indices are rejected, by all three
calls. -/
theorem bitmap_rejects_out_of_range (size : Nat) (ops : List Op) (bm : Bitmap)
    (h : run (new size) ops = some bm) (i : Int) :
    (bm.set i = none ↔ ¬ (0 ≤ i ∧ i < size)) ∧ (bm.clear i = none ↔ ¬ (0 ≤ i ∧ i < size)) ∧
    (bm.isSet i = none ↔ ¬ (0 ≤ i ∧ i < size)) := by
  have hmax : bm.max = size := run_max ops _ _ h
  have hin : ∀ (ops : List Op) (b b' : Bitmap), run b ops = some b' → ∀ o ∈ ops, 0 ≤ o.index ∧ o.index < b.max := by
    intro ops
    induction ops with
    | nil => intro b b' _ o ho; simp at ho
    | cons o os ih =>
      intro b b' h o' ho'
      simp only [run, Option.bind_eq_some_iff] at h
      obtain ⟨b1, h1, h2⟩ := h
      have hm1 : b1.max = b.max := run_max [o] b b1 (by simp [run, h1])
      cases List.mem_cons.mp ho' with
      | inl e =>
        subst e
        cases o' with
        | set i =>
          simp only [step, Bitmap.set] at h1
          split at h1
          · exact absurd h1 (by simp)
          · simp only [Op.index]; omega
        | clear i =>
          simp only [step, Bitmap.clear] at h1
          split at h1
          · exact absurd h1 (by simp)
          · simp only [Op.index]; omega
      | inr e => rw [← hm1]; exact ih b1 b' h2 o' e
  obtain ⟨bm', e, w, _, _⟩ := run_spec ops (new size) (wf_new size) (hin ops _ _ h)
  rw [h] at e; cases e
  by_cases hi : 0 ≤ i ∧ i < size
  · obtain ⟨k, rfl⟩ := Int.eq_ofNat_of_zero_le hi.1
    obtain ⟨b1, e1, _⟩ := set_spec bm w k (by omega)
    obtain ⟨b2, e2, _⟩ := clear_spec bm w k (by omega)
    have e3 := isSet_eq bm w k (by omega)
    simp [e1, e2, e3, hi]
  · have hc : i ≥ bm.max ∨ i < 0 := by omega
    simp only [Bitmap.set, Bitmap.clear, Bitmap.isSet, if_pos hc]
    simp only [hi, not_false_eq_true, and_self]

example : (new 70).set 70 = none ∧ (new 70).set (-1) = none ∧ (new 70).set 69 ≠ none := by decide

/-- **C23 (search), partial.** `BlocksWithZero(k)` returns the first word with a run of `k + 1` zero bits.
Missing with respect to the documentation ("`atleast` specifies how many consecutive zeroes need be found"): it
should be `k`, see `blocksWithZero_not_atleast`. -/
theorem blocksWithZero_first_partial (bm : Bitmap) (k : Nat) :
    IsFirstBlock bm.n (k + 1) (bm.blocksWithZero k) := by
  rcases blocksFrom_spec k bm.n 0 with h | ⟨i, h, h1, h2, h3⟩
  · exact Or.inl h
  · exact Or.inr ⟨i, h, by simpa [Bitmap.blocksWithZero] using h1, h2, h3⟩

/-- **C23 (defect).** The documented meaning is off by one: a word with a single zero bit is not found when one
zero is asked for. -/
theorem blocksWithZero_not_atleast :
    ¬ ∀ (bm : Bitmap) (k : Nat), 0 < k → IsFirstBlock bm.n k (bm.blocksWithZero k) := by
  intro h
  have h1 := h ⟨[0x7fffffffffffffff#64], 64⟩ 1 (by omega)
  have hr : (Bitmap.mk [0x7fffffffffffffff#64] 64).blocksWithZero 1 = -1 := by decide +kernel
  rw [hr] at h1
  rcases h1 with ⟨_, h2⟩ | ⟨i, _, h2, _⟩
  · apply h2 (0x7fffffffffffffff#64) (by simp)
    refine ⟨63, by omega, ?_⟩
    intro t ht
    have : t = 0 := by omega
    subst this; decide
  · omega

example : (Bitmap.mk [0xffffffffffffffff#64, 0xff0fffffffffffff#64] 128).blocksWithZero 3 = 1 := by decide +kernel

end Verif.Bitmap
