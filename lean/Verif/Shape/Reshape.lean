import Verif.Shape.Model
/-!
C40: `Reshape`.
-/
set_option autoImplicit false
namespace Verif.Shape
open Verif.Tensor

theorem negs_none (l : List Int) (h : ∀ x ∈ l, 0 ≤ x) (k : Nat) (acc : Nat × Nat) : negs k l acc = acc := by
  induction l generalizing k acc with
  | nil => rfl
  | cons x l ih =>
    obtain ⟨n, i⟩ := acc
    have hx := h x (by simp)
    simp only [negs]
    rw [if_neg (by omega), ih (fun y hy => h y (by simp [hy]))]

theorem negs_one (pre post : List Int) (x : Int) (hp : ∀ y ∈ pre, 0 ≤ y) (hx : x < 0)
    (hq : ∀ y ∈ post, 0 ≤ y) (k n i : Nat) :
    negs k (pre ++ x :: post) (n, i) = (n + 1, k + pre.length) := by
  induction pre generalizing k with
  | nil => simp only [List.nil_append, negs]; rw [if_pos hx, negs_none _ hq]; simp
  | cons y pre ih =>
    have hy := hp y (by simp)
    simp only [List.cons_append, negs]
    rw [if_neg (by omega), ih (fun z hz => hp z (by simp [hz]))]
    simp; omega

theorem negs_fst (l : List Int) (k n i : Nat) :
    (negs k l (n, i)).1 = n + l.countP (fun x => decide (x < 0)) := by
  induction l generalizing k n i with
  | nil => rfl
  | cons x l ih =>
    simp only [negs]
    split
    · rename_i h; rw [ih]; simp [h]; omega
    · rename_i h; rw [ih]; simp [h]

theorem countP_zero (l : List Int) (h : l.countP (fun x => decide (x < 0)) = 0) : ∀ x ∈ l, 0 ≤ x := by
  intro x hx
  rw [List.countP_eq_zero] at h
  have := h x hx
  simp at this; omega

theorem countP_one (l : List Int) (h : l.countP (fun x => decide (x < 0)) = 1) :
    ∃ pre x post, l = pre ++ x :: post ∧ (∀ y ∈ pre, 0 ≤ y) ∧ x < 0 ∧ ∀ y ∈ post, 0 ≤ y := by
  induction l with
  | nil => simp at h
  | cons a l ih =>
    by_cases ha : a < 0
    · refine ⟨[], a, l, rfl, by simp, ha, countP_zero l ?_⟩
      simp [ha] at h; simpa using h
    · obtain ⟨pre, x, post, e, h1, h2, h3⟩ := ih (by simpa [ha] using h)
      refine ⟨a :: pre, x, post, by simp [e], ?_, h2, h3⟩
      intro y hy
      rcases List.mem_cons.mp hy with rfl | hy
      · omega
      · exact h1 y hy

theorem prodSkip_after (l : List Int) (h : ∀ x ∈ l, 0 ≤ x) (skip k : Nat) (hk : skip < k) :
    prodSkip skip k l = (size (l.map Int.toNat) : Int) := by
  induction l generalizing k with
  | nil => simp [prodSkip, size]
  | cons x l ih =>
    have hx := h x (by simp)
    simp only [prodSkip, List.map_cons, size]
    rw [if_neg (by omega), ih (fun y hy => h y (by simp [hy])) _ (by omega)]
    rw [Int.natCast_mul, Int.toNat_of_nonneg hx]

theorem prodSkip_one (pre post : List Int) (x : Int) (hp : ∀ y ∈ pre, 0 ≤ y) (hq : ∀ y ∈ post, 0 ≤ y)
    (k : Nat) :
    prodSkip (k + pre.length) k (pre ++ x :: post) =
      ((size (pre.map Int.toNat) * size (post.map Int.toNat) : Nat) : Int) := by
  induction pre generalizing k with
  | nil =>
    simp only [List.nil_append, prodSkip, List.length_nil, Nat.add_zero, if_true, List.map_nil, size]
    rw [prodSkip_after _ hq _ _ (by omega)]; simp
  | cons y pre ih =>
    have hy := hp y (by simp)
    have := ih (fun z hz => hp z (by simp [hz])) (k + 1)
    simp only [List.cons_append, prodSkip, List.length_cons, List.map_cons, size]
    rw [if_neg (by omega), show k + (pre.length + 1) = k + 1 + pre.length by omega, this]
    rw [← Int.toNat_of_nonneg hy, ← Int.natCast_mul, Int.toNat_natCast, Nat.mul_assoc]

/-- What may be requested of an operand of shape `n`, and what comes out: a shape without negative entries
of the same total size, or a shape with one negative entry which is replaced by the size that makes the
totals equal (the other entries multiply to a non-zero number, so it is unique). -/
inductive Allowed (n : List Nat) (to : List Int) (s : List Nat) : Prop
  | exact (h : ∀ x ∈ to, 0 ≤ x) (hs : s = to.map Int.toNat) (hz : size s = size n)
  | inferred (pre post : List Int) (x : Int) (q : Nat) (hto : to = pre ++ x :: post)
      (hp : ∀ y ∈ pre, 0 ≤ y) (hx : x < 0) (hq : ∀ y ∈ post, 0 ≤ y)
      (hs : s = pre.map Int.toNat ++ q :: post.map Int.toNat)
      (hne : ∀ y ∈ pre ++ post, y ≠ 0) (hz : size s = size n)

theorem size_ne_zero {l : List Nat} : size l ≠ 0 ↔ ∀ x ∈ l, x ≠ 0 := by
  induction l with
  | nil => simp [size]
  | cons a l ih => simp [size, ih, Nat.mul_eq_zero, not_or]

/-- The result of `reshapeTo` when there is exactly one negative entry. -/
theorem reshapeTo_one (n : List Nat) (pre post : List Int) (x : Int) (hp : ∀ y ∈ pre, 0 ≤ y) (hx : x < 0)
    (hq : ∀ y ∈ post, 0 ≤ y) :
    reshapeTo n (pre ++ x :: post) =
      let p := size (pre.map Int.toNat) * size (post.map Int.toNat)
      if p = 0 then .panic
      else if size n % p ≠ 0 then .err
      else .ok (pre.map Int.toNat ++ size n / p :: post.map Int.toNat) := by
  unfold reshapeTo
  rw [negs_one pre post x hp hx hq]
  simp only [Nat.zero_add, Nat.lt_irrefl, if_false, if_true, gt_iff_lt]
  have e := prodSkip_one pre post x hp hq 0
  rw [Nat.zero_add] at e
  rw [e]
  generalize hpe : size (pre.map Int.toNat) * size (post.map Int.toNat) = p at *
  have e3 : Int.tmod (size n : Int) (p : Int) = ((size n % p : Nat) : Int) := rfl
  have e4 : Int.tdiv (size n : Int) (p : Int) = ((size n / p : Nat) : Int) := rfl
  rw [e3, e4]
  by_cases h0 : p = 0
  · simp [h0, Res.bind]
  by_cases h1 : size n % p = 0
  · have h2 : (pre ++ x :: post).set pre.length (((size n / p : Nat)) : Int) = pre ++ ((size n / p : Nat) : Int) :: post := by
      simp
    rw [h2]
    have h0' : ¬ ((p : Int) = 0) := by omega
    have h1' : ¬ (((size n % p : Nat) : Int) ≠ 0) := by omega
    rw [if_neg h0', if_neg h1', if_neg h0, if_neg (by omega)]
    simp only [Res.bind, List.map_append, List.map_cons, Int.toNat_natCast]
    rw [if_neg]
    rintro ⟨_, hne⟩
    apply hne
    rw [size_append]
    simp only [size]
    have hpp : size (pre.map Int.toNat) * (size n / p * size (post.map Int.toNat)) = size n / p * (size (pre.map Int.toNat) * size (post.map Int.toNat)) := by
      rw [← Nat.mul_assoc, Nat.mul_comm (size (pre.map Int.toNat)), Nat.mul_assoc]
    rw [hpp, hpe, Nat.div_mul_cancel (Nat.dvd_of_mod_eq_zero h1)]
  · have h0' : ¬ ((p : Int) = 0) := by omega
    have h1' : (((size n % p : Nat) : Int) ≠ 0) := by omega
    rw [if_neg h0', if_pos h1', if_neg h0, if_pos h1]
    rfl

/-- C40, operands with at least one axis: `Reshape` succeeds exactly on the allowed requests, and then with
the allowed shape. -/
theorem reshape_ok_iff (n : List Nat) (to : List Int) (s : List Nat) (hn : n ≠ []) :
    reshapeTo n to = .ok s ↔ Allowed n to s := by
  have hl : n.length > 0 := List.length_pos_iff.mpr hn
  have hc := negs_fst to 0 0 0
  rw [Nat.zero_add] at hc
  constructor
  · intro h
    rcases Nat.lt_trichotomy (to.countP (fun x => decide (x < 0))) 1 with h1 | h1 | h1
    · have hnn := countP_zero to (by omega)
      unfold reshapeTo at h
      rw [negs_none _ hnn] at h
      simp only [gt_iff_lt, Nat.not_lt_zero, if_false, Nat.zero_ne_one, Res.bind] at h
      split at h
      · cases h
      · rename_i hz
        injection h with h
        subst h
        refine Allowed.exact hnn rfl ?_
        apply Classical.byContradiction
        intro hne
        exact hz ⟨hl, fun e => hne e.symm⟩
    · obtain ⟨pre, x, post, e, hp, hx, hq⟩ := countP_one to h1
      subst e
      rw [reshapeTo_one n pre post x hp hx hq] at h
      simp only at h
      split at h
      · cases h
      split at h
      · cases h
      rename_i hp0 hm
      injection h with h
      refine Allowed.inferred pre post x _ rfl hp hx hq h.symm ?_ ?_
      · have h1 : size (pre.map Int.toNat) ≠ 0 := fun h0 => hp0 (by rw [h0, Nat.zero_mul])
        have h2 : size (post.map Int.toNat) ≠ 0 := fun h0 => hp0 (by rw [h0, Nat.mul_zero])
        rw [size_ne_zero] at h1 h2
        intro y hy h0
        rcases List.mem_append.mp hy with hy | hy
        · exact h1 0 (List.mem_map.mpr ⟨y, hy, by simp [h0]⟩) rfl
        · exact h2 0 (List.mem_map.mpr ⟨y, hy, by simp [h0]⟩) rfl
      · rw [← h, size_append]
        simp only [size]
        rw [← Nat.mul_assoc, Nat.mul_comm (size (pre.map Int.toNat)), Nat.mul_assoc,
          Nat.div_mul_cancel (Nat.dvd_of_mod_eq_zero (by omega))]
    · unfold reshapeTo at h
      rw [show negs 0 to (0, 0) = ((negs 0 to (0,0)).1, (negs 0 to (0,0)).2) from rfl] at h
      simp only [hc] at h
      rw [if_pos h1] at h
      cases h
  · intro h
    cases h with
    | exact h hs hz =>
      unfold reshapeTo
      rw [negs_none _ h]
      simp only [gt_iff_lt, Nat.not_lt_zero, if_false, Nat.zero_ne_one, Res.bind]
      rw [if_neg (by rw [← hs, hz]; simp), hs]
    | inferred pre post x q hto hp hx hq hs hne hz =>
      subst hto
      rw [reshapeTo_one n pre post x hp hx hq]
      have h1 : size (pre.map Int.toNat) ≠ 0 := by
        rw [size_ne_zero]
        intro y hy h0
        obtain ⟨z, hz', e⟩ := List.mem_map.mp hy
        exact hne z (by simp [hz']) (by have := hp z hz'; omega)
      have h2 : size (post.map Int.toNat) ≠ 0 := by
        rw [size_ne_zero]
        intro y hy h0
        obtain ⟨z, hz', e⟩ := List.mem_map.mp hy
        exact hne z (by simp [hz']) (by have := hq z hz'; omega)
      have h3 : size (pre.map Int.toNat) * size (post.map Int.toNat) ≠ 0 := Nat.mul_ne_zero h1 h2
      have h4 : size n = q * (size (pre.map Int.toNat) * size (post.map Int.toNat)) := by
        rw [← hz, hs, size_append]
        simp only [size]
        rw [← Nat.mul_assoc, Nat.mul_comm (size (pre.map Int.toNat)), Nat.mul_assoc]
      simp only
      rw [if_neg h3, h4, Nat.mul_mod_left, if_neg (by simp), Nat.mul_div_cancel _ (Nat.pos_of_ne_zero h3), hs]

example : Allowed [2, 3, 4] [6, -1, 2] [6, 2, 2] :=
  .inferred [6] [2] (-1) 2 rfl (by decide) (by decide) (by decide) rfl (by decide) rfl

/-- The size standing in for a negative entry is the only one with the right total. -/
theorem inferred_unique (pre post : List Nat) (q q' : Nat) (h0 : ∀ y ∈ pre ++ post, y ≠ 0)
    (h : size (pre ++ q :: post) = size (pre ++ q' :: post)) : q = q' := by
  rw [size_append, size_append] at h
  simp only [size] at h
  have h1 : size pre ≠ 0 := size_ne_zero.mpr (fun y hy => h0 y (by simp [hy]))
  have h2 : size post ≠ 0 := size_ne_zero.mpr (fun y hy => h0 y (by simp [hy]))
  exact Nat.eq_of_mul_eq_mul_right (Nat.pos_of_ne_zero h2) (Nat.eq_of_mul_eq_mul_left (Nat.pos_of_ne_zero h1) h)

/-- C40: a successful `Reshape` of an operand that has axes keeps the number of elements and the elements
themselves, in row-major order. -/
theorem reshape_preserves_partial {α : Type} (t r : T α) (to : List Int) (hn : t.shape ≠ [])
    (h : reshape t to = .ok r) :
    size r.shape = size t.shape ∧ Allowed t.shape to r.shape ∧ ∀ k, k < size t.shape → r.flat k = t.flat k := by
  unfold reshape at h
  cases e : reshapeTo t.shape to with
  | err => rw [e] at h; cases h
  | panic => rw [e] at h; cases h
  | ok s =>
    rw [e] at h
    simp only [Res.bind] at h
    injection h with h
    have ha := (reshape_ok_iff _ _ _ hn).mp e
    have hs : size s = size t.shape := by cases ha <;> assumption
    subst h
    refine ⟨hs, ha, fun k hk => ?_⟩
    show t.flat (ravel s (unravel s k)) = t.flat k
    rw [ravel_unravel (by rw [hs]; exact hk)]

/-- The request that crashes instead of being rejected: one negative entry and a zero elsewhere. -/
theorem reshape_panic_iff (n : List Nat) (to : List Int) :
    reshapeTo n to = .panic ↔
      ∃ pre x post, to = pre ++ x :: post ∧ (∀ y ∈ pre, 0 ≤ y) ∧ x < 0 ∧ (∀ y ∈ post, 0 ≤ y) ∧ 0 ∈ pre ++ post := by
  have hc := negs_fst to 0 0 0
  rw [Nat.zero_add] at hc
  have key : ∀ (pre post : List Int), (∀ y ∈ pre, 0 ≤ y) → (∀ y ∈ post, 0 ≤ y) →
      (size (pre.map Int.toNat) * size (post.map Int.toNat) = 0 ↔ (0 : Int) ∈ pre ++ post) := by
    intro pre post hp hq
    rw [← size_append, ← List.map_append]
    constructor
    · intro h
      apply Classical.byContradiction
      intro hne
      refine size_ne_zero.mpr ?_ h
      intro y hy h0
      obtain ⟨z, hz, e⟩ := List.mem_map.mp hy
      have : 0 ≤ z := (List.mem_append.mp hz).elim (hp z) (hq z)
      exact hne (by rwa [show z = 0 by omega] at hz)
    · intro h
      apply Classical.byContradiction
      intro hne
      exact size_ne_zero.mp hne 0 (List.mem_map.mpr ⟨0, h, rfl⟩) rfl
  constructor
  · intro h
    rcases Nat.lt_trichotomy (to.countP (fun x => decide (x < 0))) 1 with h1 | h1 | h1
    · unfold reshapeTo at h
      rw [negs_none _ (countP_zero to (by omega))] at h
      simp only [gt_iff_lt, Nat.not_lt_zero, if_false, Nat.zero_ne_one, Res.bind] at h
      split at h <;> cases h
    · obtain ⟨pre, x, post, e, hp, hx, hq⟩ := countP_one to h1
      refine ⟨pre, x, post, e, hp, hx, hq, ?_⟩
      subst e
      rw [reshapeTo_one n pre post x hp hx hq] at h
      simp only at h
      split at h
      · rename_i h0; exact (key pre post hp hq).mp h0
      · split at h <;> cases h
    · unfold reshapeTo at h
      rw [show negs 0 to (0, 0) = ((negs 0 to (0,0)).1, (negs 0 to (0,0)).2) from rfl] at h
      simp only [hc] at h
      rw [if_pos h1] at h
      cases h
  · rintro ⟨pre, x, post, e, hp, hx, hq, h0⟩
    subst e
    rw [reshapeTo_one n pre post x hp hx hq]
    simp only
    rw [if_pos ((key pre post hp hq).mpr h0)]

example : reshapeTo [6] [0, -1] = .panic := by decide

/-- A scalar operand is not checked at all: the node is built, with a shape that has six elements. The
full statement (for every operand) is false of the code. -/
theorem reshape_scalar_unchecked :
    ∃ r, reshape (⟨[], fun _ => (7 : Nat)⟩ : T Nat) [2, 3] = .ok r ∧ size r.shape = 6 ∧
      size ([] : List Nat) = 1 := ⟨_, rfl, by decide, rfl⟩

end Verif.Shape
