import Verif.Shape.Reshape
/-!
C25: broadcasting.
-/
set_option autoImplicit false
namespace Verif.Shape
open Verif.Tensor

/-! ### Specification -/

/-- `l` (positions counted from `k`) with the entries at the positions in `axes` replaced by `v`. -/
def setAxes (v : Nat) (axes : List Nat) : Nat → List Nat → List Nat
  | _, [] => []
  | k, x :: xs => (if k ∈ axes then v else x) :: setAxes v axes (k + 1) xs

/-- `l` (positions counted from `k`) without the entries at the positions in `axes`. -/
def dropAxes (axes : List Nat) : Nat → List Nat → List Nat
  | _, [] => []
  | k, x :: xs => if k ∈ axes then dropAxes axes (k + 1) xs else x :: dropAxes axes (k + 1) xs

/-- A shape agrees with the target `t` on every axis except the broadcast ones, where it has size 1 ... -/
def HasUnit (s axes t : List Nat) : Prop := s = setAxes 1 axes 0 t

/-- ... or which it lacks. -/
def Lacks (s axes t : List Nat) : Prop := s = dropAxes axes 0 t

instance (s axes t : List Nat) : Decidable (HasUnit s axes t) := inferInstanceAs (Decidable (_ = _))
instance (s axes t : List Nat) : Decidable (Lacks s axes t) := inferInstanceAs (Decidable (_ = _))

/-! ### Lemmas -/

@[simp] theorem setAxes_length (v : Nat) (axes l : List Nat) (k : Nat) : (setAxes v axes k l).length = l.length := by
  induction l generalizing k with
  | nil => rfl
  | cons x l ih => simp [setAxes, ih]

theorem setAxes_get (v : Nat) (axes l : List Nat) (k j : Nat) :
    (setAxes v axes k l)[j]? = if k + j ∈ axes then l[j]?.map (fun _ => v) else l[j]? := by
  induction l generalizing k j with
  | nil => simp [setAxes]
  | cons x l ih =>
    cases j with
    | zero => simp only [setAxes, List.getElem?_cons_zero, Nat.add_zero]; split <;> rfl
    | succ j =>
      simp only [setAxes, List.getElem?_cons_succ, ih]
      rw [show k + 1 + j = k + (j + 1) by omega]

theorem size_set_drop (axes l : List Nat) (k : Nat) : size (setAxes 1 axes k l) = size (dropAxes axes k l) := by
  induction l generalizing k with
  | nil => rfl
  | cons x l ih =>
    simp only [setAxes, dropAxes]
    split <;> simp [size, ih]

theorem drop_length_le (axes l : List Nat) (k : Nat) : (dropAxes axes k l).length ≤ l.length := by
  induction l generalizing k with
  | nil => simp [dropAxes]
  | cons x l ih =>
    have := ih (k + 1)
    simp only [dropAxes]; split <;> simp <;> omega

theorem drop_length_lt (axes l : List Nat) (k a : Nat) (ha : a ∈ axes) (hk : k ≤ a) (hl : a < k + l.length) :
    (dropAxes axes k l).length < l.length := by
  induction l generalizing k with
  | nil => simp at hl; omega
  | cons x l ih =>
    have h1 := drop_length_le axes l (k + 1)
    by_cases e : k = a
    · subst e
      simp only [dropAxes]; rw [if_pos ha]; simp; omega
    · have := ih (k + 1) (by omega) (by simp at hl; omega)
      simp only [dropAxes]; split <;> simp <;> omega

theorem inB_drop (axes t i : List Nat) (k : Nat) (h : InB t i) : InB (dropAxes axes k t) (dropAxes axes k i) := by
  induction t generalizing i k with
  | nil => cases i with
    | nil => trivial
    | cons _ _ => exact h.elim
  | cons d t ih => cases i with
    | nil => exact h.elim
    | cons j i =>
      simp only [dropAxes]
      split
      · exact ih i (k + 1) h.2
      · exact ⟨h.1, ih i (k + 1) h.2⟩

theorem inB_set (axes t i : List Nat) (k : Nat) (h : InB t i) :
    InB (setAxes 1 axes k t) (setAxes 0 axes k i) := by
  induction t generalizing i k with
  | nil => cases i with
    | nil => trivial
    | cons _ _ => exact h.elim
  | cons d t ih => cases i with
    | nil => exact h.elim
    | cons j i =>
      refine ⟨?_, ih i (k + 1) h.2⟩
      have := h.1
      split <;> omega

/-- Unit axes do not move elements in the row-major layout. -/
theorem ravel_drop (axes t i : List Nat) (k : Nat) (h : InB t i) :
    ravel (setAxes 1 axes k t) (setAxes 0 axes k i) = ravel (dropAxes axes k t) (dropAxes axes k i) := by
  induction t generalizing i k with
  | nil => cases i <;> rfl
  | cons d t ih => cases i with
    | nil => exact h.elim
    | cons j i =>
      simp only [setAxes, dropAxes, ravel]
      rw [ih i (k + 1) h.2]
      split
      · simp
      · simp [ravel, size_set_drop]

theorem fill_skip (l : List Nat) (a : Nat) (ha : a ≠ 0) (r : List Nat) :
    l.foldl (fun ns s => fillFirst s ns) (a :: r) = a :: l.foldl (fun ns s => fillFirst s ns) r := by
  induction l generalizing r with
  | nil => rfl
  | cons s l ih =>
    simp only [List.foldl_cons]
    have : fillFirst s (a :: r) = a :: fillFirst s r := by
      cases a with
      | zero => exact absurd rfl ha
      | succ a => rfl
    rw [this, ih]

/-- The zero-filling loop of `calcBroadcastShape` puts the operand's sizes on the other axes. -/
theorem fill_drop (axes t : List Nat) (k : Nat) (hp : ∀ d ∈ t, d ≠ 0) :
    (dropAxes axes k t).foldl (fun ns s => fillFirst s ns)
      (setAxes 1 axes k (List.replicate t.length 0)) = setAxes 1 axes k t := by
  induction t generalizing k with
  | nil => rfl
  | cons d t ih =>
    have hd := hp d (by simp)
    have ih := ih (k + 1) (fun x hx => hp x (by simp [hx]))
    simp only [dropAxes, List.length_cons, List.replicate_succ, setAxes]
    split
    · rw [fill_skip _ 1 (by omega), ih]
    · simp only [List.foldl_cons, fillFirst]
      rw [fill_skip _ d hd, ih]

theorem onesAt_get (dims : Nat) (along : List Nat) (j : Nat) :
    (onesAt dims along)[j]? = if j < dims then some (if j ∈ along then 1 else 0) else none := by
  have : ∀ (s : List Nat), (along.foldl (fun s i => s.set i 1) s)[j]? =
      if j ∈ along then s[j]?.map (fun _ => 1) else s[j]? := by
    induction along with
    | nil => intro s; simp
    | cons a along ih =>
      intro s
      rw [List.foldl_cons, ih, List.getElem?_set]
      by_cases h : a = j
      · subst h
        by_cases h2 : a < s.length
        · simp [h2]
        · simp [h2]
      · have h' : j ≠ a := fun e => h e.symm
        simp [h, h', List.mem_cons]
  rw [onesAt, this]
  by_cases h : j < dims
  · by_cases h2 : j ∈ along <;> simp [h, h2]
  · by_cases h2 : j ∈ along <;> simp [h, h2]

theorem onesAt_eq (dims : Nat) (along : List Nat) : onesAt dims along = setAxes 1 along 0 (List.replicate dims 0) := by
  apply List.ext_getElem?
  intro j
  rw [onesAt_get, setAxes_get]
  by_cases h : j < dims
  · by_cases h2 : j ∈ along <;> simp [h, h2]
  · by_cases h2 : j ∈ along <;> simp [h, h2]

theorem drop_nil (axes t : List Nat) (k : Nat) (h : dropAxes axes k t = []) :
    setAxes 1 axes k t = t.map (fun _ => 1) := by
  induction t generalizing k with
  | nil => rfl
  | cons d t ih =>
    simp only [dropAxes] at h
    split at h
    · rename_i hk; simp [setAxes, hk, ih _ h]
    · cases h

/-- `calcBroadcastShape` on an operand that has unit axes. -/
theorem calc_unit (axes t : List Nat) (hne : t ≠ []) :
    calcBroadcastShape (setAxes 1 axes 0 t) t.length axes = setAxes 1 axes 0 t := by
  unfold calcBroadcastShape
  have : setAxes 1 axes 0 t ≠ [] := by
    intro h; apply hne; apply List.eq_nil_of_length_eq_zero
    rw [← setAxes_length 1 axes t 0, h]; rfl
  simp [this]

/-- `calcBroadcastShape` on an operand that lacks the axes. -/
theorem calc_lacks (axes t : List Nat) (hp : ∀ d ∈ t, d ≠ 0) (hl : (dropAxes axes 0 t).length < t.length) :
    calcBroadcastShape (dropAxes axes 0 t) t.length axes = setAxes 1 axes 0 t := by
  unfold calcBroadcastShape
  have hl' : ¬ (dropAxes axes 0 t).length = t.length := by omega
  simp only [hl', if_false]
  split
  · rename_i h
    rw [drop_nil _ _ _ h]
    apply List.ext_getElem?
    intro j
    rw [List.getElem?_map, onesAt_get, List.getElem?_map]
    by_cases hj : j < t.length
    · simp [hj]
    · simp [hj]
  · rw [onesAt_eq, fill_drop _ _ _ hp]

theorem reshapeTo_ofNat (n s : List Nat) (h : size s = size n) : reshapeTo n (s.map Int.ofNat) = .ok s := by
  have hm : (s.map Int.ofNat).map Int.toNat = s := by
    rw [List.map_map]
    conv => rhs; rw [← List.map_id s]
    apply List.map_congr_left; intro a _; rfl
  have hnn : ∀ x ∈ s.map Int.ofNat, (0 : Int) ≤ x := by
    intro x hx
    obtain ⟨a, _, e⟩ := List.mem_map.mp hx
    subst e; exact Int.natCast_nonneg a
  unfold reshapeTo
  rw [negs_none _ hnn]
  simp only [gt_iff_lt, Nat.not_lt_zero, if_false, Nat.zero_ne_one, Res.bind, hm]
  rw [if_neg]
  rintro ⟨_, h'⟩; exact h' h.symm

/-- `repeatedApply` on unit axes. -/
theorem repeated_unit {α : Type} (f : Nat → Nat) (axes : List Nat) (hs : axes.Nodup) (t : T α)
    (h1 : ∀ a ∈ axes, t.shape[a]? = some 1) :
    ∃ r, repeatedApply axes (axes.map f) t = .ok r ∧
      (∀ j, r.shape[j]? = if j ∈ axes then some (f j) else t.shape[j]?) ∧
      ∀ i : List Nat, i.length = t.shape.length → (∀ a ∈ axes, i.getD a 0 < f a) →
        r.at_ i = t.at_ (setAxes 0 axes 0 i) := by
  induction axes generalizing t with
  | nil =>
    refine ⟨t, rfl, by simp, fun i _ _ => ?_⟩
    congr 1
    apply List.ext_getElem?
    intro j; rw [setAxes_get]; simp
  | cons a axes ih =>
    have ha := h1 a (by simp)
    have hlt : a < t.shape.length := by
      apply Classical.byContradiction; intro h
      rw [List.getElem?_eq_none (by omega)] at ha; cases ha
    have hrs : repeatShape t.shape a (f a) = .ok (t.shape.set a (f a)) := by
      unfold repeatShape
      have c1 : (isVector t.shape && decide (t.shape.length ≤ a)) = false := by
        simp; intro _; omega
      have c2 : t.shape ≠ [] := by intro e; rw [e] at hlt; simp at hlt
      simp only [c1, Bool.false_eq_true, if_false, c2, ha, Nat.one_mul]
    have hnd := List.nodup_cons.mp hs
    let t1 : T α := ⟨t.shape.set a (f a), fun i => t.at_ (i.set a (i.getD a 0 / f a))⟩
    have hr1 : repeat_ t a (f a) = .ok t1 := by
      unfold repeat_; rw [hrs]; rfl
    obtain ⟨r, hr, hsh, hat⟩ := ih hnd.2 t1 (by
      intro b hb
      have hne : a ≠ b := fun e => hnd.1 (e ▸ hb)
      show (t.shape.set a (f a))[b]? = some 1
      rw [List.getElem?_set_ne hne]
      exact h1 b (by simp [hb]))
    refine ⟨r, ?_, ?_, ?_⟩
    · simp only [List.map_cons, repeatedApply, hr1, Res.bind, hr]
    · intro j
      rw [hsh]
      by_cases hj : j = a
      · subst hj
        rw [if_neg hnd.1, if_pos (by simp)]
        show (t.shape.set j (f j))[j]? = _
        rw [List.getElem?_set_self hlt]
      · have : (t1.shape)[j]? = t.shape[j]? := List.getElem?_set_ne (fun e => hj e.symm)
        rw [this]
        simp [hj]
    · intro i hi hb
      rw [hat i (by simpa [t1] using hi) (fun b hb' => hb b (by simp [hb']))]
      show t.at_ ((setAxes 0 axes 0 i).set a ((setAxes 0 axes 0 i).getD a 0 / f a)) = _
      congr 1
      apply List.ext_getElem?
      intro j
      have hia : i.getD a 0 / f a = 0 := Nat.div_eq_of_lt (hb a (by simp))
      have hget : (setAxes 0 axes 0 i).getD a 0 = i.getD a 0 := by
        rw [List.getD_eq_getElem?_getD, setAxes_get, Nat.zero_add, if_neg hnd.1, List.getD_eq_getElem?_getD]
      rw [hget, hia, setAxes_get, Nat.zero_add]
      by_cases hj : j = a
      · subst hj
        rw [List.getElem?_set_self (by simp; omega), if_pos (by simp)]
        rw [List.getElem?_eq_getElem (by omega)]; rfl
      · rw [List.getElem?_set_ne (fun e => hj e.symm), setAxes_get, Nat.zero_add]
        simp [hj]

theorem inB_getD {s i : List Nat} (h : InB s i) {a d : Nat} (ha : s[a]? = some d) : i.getD a 0 < d := by
  induction s generalizing i a with
  | nil => simp at ha
  | cons e s ih => cases i with
    | nil => exact h.elim
    | cons j i =>
      cases a with
      | zero => simp at ha; subst ha; simpa using h.1
      | succ a => simpa using ih h.2 (by simpa using ha)

/-- One half of `Broadcast`. -/
theorem half_correct {α : Type} (axes t yshape : List Nat) (x : T α) (hs : axes.Nodup)
    (hlt : ∀ a ∈ axes, a < t.length) (hp : ∀ d ∈ t, d ≠ 0)
    (hy : ∀ a ∈ axes, yshape[a]? = t[a]?) (hx : HasUnit x.shape axes t ∨ Lacks x.shape axes t) :
    ∃ r, broadcastHalf axes x t.length yshape = .ok r ∧ r.shape = t ∧
      ∀ i, InB t i → r.at_ i =
        x.at_ (if x.shape.length = t.length then setAxes 0 axes 0 i else dropAxes axes 0 i) := by
  by_cases hne : axes = []
  · subst hne
    have e0 : ∀ (l : List Nat) k, dropAxes [] k l = l := by
      intro l; induction l with
      | nil => intro _; rfl
      | cons a l ih => intro k; simp [dropAxes, ih]
    have e1 : ∀ (v : Nat) (l : List Nat) k, setAxes v [] k l = l := by
      intro v l; induction l with
      | nil => intro _; rfl
      | cons a l ih => intro k; simp [setAxes, ih]
    have ex : x.shape = t := by
      rcases hx with h | h
      · rw [HasUnit, e1] at h; exact h
      · rw [Lacks, e0] at h; exact h
    refine ⟨x, by simp [broadcastHalf], ex, fun i _ => ?_⟩
    rw [e0, e1]; simp
  · obtain ⟨a0, ha0⟩ := List.exists_mem_of_ne_nil _ hne
    have hlt0 := hlt a0 ha0
    have htne : t ≠ [] := by intro e; rw [e] at hlt0; simp at hlt0
    have hdl : (dropAxes axes 0 t).length < t.length := drop_length_lt axes t 0 a0 ha0 (by omega) (by omega)
    have hcalc : calcBroadcastShape x.shape t.length axes = setAxes 1 axes 0 t := by
      rcases hx with h | h
      · rw [h]; exact calc_unit axes t htne
      · rw [h]; exact calc_lacks axes t hp hdl
    have hsz : size (setAxes 1 axes 0 t) = size x.shape := by
      rcases hx with h | h
      · rw [h]
      · rw [h, size_set_drop]
    have hany : axes.any (fun a => decide (a ≥ t.length)) = false := by
      simp; intro a ha; exact hlt a ha
    obtain ⟨r, hr, hsh, hat⟩ := repeated_unit (fun a => sizeOf a yshape) axes hs (x.reshape (setAxes 1 axes 0 t)) (by
      intro a ha
      show (setAxes 1 axes 0 t)[a]? = some 1
      rw [setAxes_get, Nat.zero_add, if_pos ha, List.getElem?_eq_getElem (hlt a ha)]; rfl)
    refine ⟨r, ?_, ?_, ?_⟩
    · unfold broadcastHalf
      rw [if_neg hne, hany, hcalc]
      simp only [Bool.false_eq_true, if_false, reshape, reshapeTo_ofNat _ _ hsz, Res.bind, hr]
    · apply List.ext_getElem?
      intro j
      rw [hsh]
      by_cases hj : j ∈ axes
      · rw [if_pos hj, ← hy j hj]
        have : j < yshape.length := by
          apply Classical.byContradiction; intro h
          have := hy j hj
          rw [List.getElem?_eq_none (by omega), List.getElem?_eq_getElem (hlt j hj)] at this; cases this
        simp [sizeOf, this]
      · rw [if_neg hj]
        show (setAxes 1 axes 0 t)[j]? = _
        rw [setAxes_get, Nat.zero_add, if_neg hj]
    · intro i hi
      have hilen := hi.length
      rw [hat i (by show i.length = (setAxes 1 axes 0 t).length; simpa using hilen) (by
        intro a ha
        have h1 := hy a ha
        rw [List.getElem?_eq_getElem (hlt a ha)] at h1
        have : sizeOf a yshape = t[a]'(hlt a ha) := by simp [sizeOf, h1]
        rw [this]
        exact inB_getD hi (List.getElem?_eq_getElem (hlt a ha)))]
      rw [reshape_at]
      rcases hx with h | h
      · rw [if_pos (by rw [h]; simp)]
        rw [HasUnit] at h
        rw [← h]
        exact flat_ravel x (by rw [h]; exact inB_set axes t i 0 hi)
      · rw [if_neg (by rw [h]; omega), ravel_drop axes t i 0 hi]
        rw [Lacks] at h
        rw [← h]
        exact flat_ravel x (by rw [h]; exact inB_drop axes t i 0 hi)

/-- C25, for operands of the target's rank on both sides, or broadcasting of one side only: `Broadcast`
succeeds, both results have the target shape, and every element is the operand's element at the
coordinate with the broadcast axes zeroed (operand with unit axes) or dropped (operand without them). -/
theorem broadcast_correct_partial {α : Type} (x y : T α) (pat : BitVec 8) (t : List Nat)
    (hlt : ∀ a ∈ (on pat).1 ++ (on pat).2, a < t.length) (hp : ∀ d ∈ t, d ≠ 0)
    (hx : HasUnit x.shape (on pat).1 t ∨ Lacks x.shape (on pat).1 t)
    (hy : HasUnit y.shape (on pat).2 t ∨ Lacks y.shape (on pat).2 t)
    (hboth : ∀ a, a ∈ (on pat).1 → a ∈ (on pat).2 → t[a]? = some 1)
    (hrank : (x.shape.length = t.length ∧ y.shape.length = t.length) ∨ (on pat).1 = [] ∨ (on pat).2 = []) :
    ∃ x' y', broadcast x y pat = .ok (x', y') ∧ x'.shape = t ∧ y'.shape = t ∧
      (∀ i, InB t i → x'.at_ i =
        x.at_ (if x.shape.length = t.length then setAxes 0 (on pat).1 0 i else dropAxes (on pat).1 0 i)) ∧
      (∀ i, InB t i → y'.at_ i =
        y.at_ (if y.shape.length = t.length then setAxes 0 (on pat).2 0 i else dropAxes (on pat).2 0 i)) := by
  obtain ⟨s1, s2⟩ := on_sorted pat
  have n1 : (on pat).1.Nodup := s1.imp (fun h => Nat.ne_of_lt h)
  have n2 : (on pat).2.Nodup := s2.imp (fun h => Nat.ne_of_lt h)
  have hb : ∀ L R, (on pat).1 = L → (on pat).2 = R → broadcast x y pat =
      (broadcastHalf L x y.shape.length y.shape).bind fun x' =>
        (broadcastHalf R y x.shape.length x'.shape).bind fun y' => .ok (x', y') := by
    intro L R h1 h2; subst h1 h2; rfl
  generalize hL' : (on pat).1 = L at *
  generalize hR : (on pat).2 = R at *
  have unitLen : ∀ (z : T α) (axes : List Nat), HasUnit z.shape axes t → z.shape.length = t.length := by
    intro z axes h; rw [h]; simp
  have empt : ∀ (z : T α), (HasUnit z.shape [] t ∨ Lacks z.shape [] t) → z.shape = t := by
    intro z h
    obtain ⟨r, h1, h2, _⟩ := half_correct [] t t z List.nodup_nil (by simp) hp (by simp) h
    simp [broadcastHalf] at h1
    rw [h1]; exact h2
  -- the left half
  have left : ∃ x', broadcastHalf L x y.shape.length y.shape = .ok x' ∧ x'.shape = t ∧
      ∀ i, InB t i → x'.at_ i = x.at_ (if x.shape.length = t.length then setAxes 0 L 0 i else dropAxes L 0 i) := by
    by_cases hL : L = []
    · subst hL
      obtain ⟨r, h1, h2, h3⟩ := half_correct [] t t x List.nodup_nil (by simp) hp (by simp) hx
      refine ⟨r, ?_, h2, h3⟩
      simpa [broadcastHalf] using h1
    · have hylen : y.shape.length = t.length := by
        rcases hrank with h | h | h
        · exact h.2
        · exact absurd h hL
        · subst h; rw [empt y hy]
      rw [hylen]
      refine half_correct L t y.shape x n1 (fun a ha => hlt a (by simp [ha])) hp ?_ hx
      intro a ha
      rcases hy with h | h
      · rw [h, setAxes_get, Nat.zero_add]
        split
        · rename_i haR; rw [hboth a ha haR]; rfl
        · rfl
      · by_cases hRe : R = []
        · subst hRe; rw [empt y (Or.inr h)]
        · exfalso
          obtain ⟨b, hb⟩ := List.exists_mem_of_ne_nil _ hRe
          have := drop_length_lt R t 0 b hb (by omega) (by have := hlt b (by simp [hb]); omega)
          rw [Lacks] at h
          rw [← h] at this; omega
  obtain ⟨x', hx1, hx2, hx3⟩ := left
  have right : ∃ y', broadcastHalf R y x.shape.length x'.shape = .ok y' ∧ y'.shape = t ∧
      ∀ i, InB t i → y'.at_ i = y.at_ (if y.shape.length = t.length then setAxes 0 R 0 i else dropAxes R 0 i) := by
    by_cases hRe : R = []
    · subst hRe
      obtain ⟨r, h1, h2, h3⟩ := half_correct [] t t y List.nodup_nil (by simp) hp (by simp) hy
      refine ⟨r, ?_, h2, h3⟩
      simpa [broadcastHalf] using h1
    · have hxlen : x.shape.length = t.length := by
        rcases hrank with h | h | h
        · exact h.1
        · subst h; rw [empt x hx]
        · exact absurd h hRe
      rw [hxlen]
      refine half_correct R t x'.shape y n2 (fun a ha => hlt a (by simp [ha])) hp ?_ hy
      intro a _; rw [hx2]
  obtain ⟨y', hy1, hy2, hy3⟩ := right
  refine ⟨x', y', ?_, hx2, hy2, hx3, hy3⟩
  rw [hb L R rfl rfl, hx1]
  simp only [Res.bind, hy1]

/-! Both hypotheses are met by non-trivial operands: `(2,1)` against `(1,3)` (both sides), and a vector
`(3)` against `(2,3)` lacking axis 0. -/
example : HasUnit [2, 1] [1] [2, 3] ∧ HasUnit [1, 3] [0] [2, 3] ∧ Lacks [3] [0] [2, 3] := by
  refine ⟨?_, ?_, ?_⟩ <;> decide

/-- Shape of the result of `broadcast`, for the witnesses below. -/
def shapesOf {α : Type} : Res (T α × T α) → Option (List Nat × List Nat)
  | .ok (a, b) => some (a.shape, b.shape)
  | _ => none

/-- With both sides broadcast and operands of different rank the results can differ in shape: `x` of shape
`(3)` lacks axis 1 of `(3,1)`, `y` of shape `(1,1)` is broadcast along axis 0; the code compares with the
original rank of `x` and returns shapes `(3,1)` and `(3)`. -/
theorem broadcast_mixed_rank_wrong :
    Lacks [3] [1] [3, 1] ∧ HasUnit [1, 1] [0] [3, 1] ∧ on (newPattern [1#8] [0#8]) = ([1], [0]) ∧
    shapesOf (broadcast (⟨[3], fun _ => (0 : Nat)⟩ : T Nat) ⟨[1, 1], fun _ => 0⟩ (newPattern [1#8] [0#8])) =
      some ([3, 1], [3]) := by
  refine ⟨?_, ?_, ?_, ?_⟩ <;> decide

/-- With both operands lacking an axis (outer combination of `(3)` and `(2)` to `(2,3)`) broadcasting is not
possible: it is rejected because the axis check uses the operands' own ranks. -/
theorem broadcast_outer_rejected :
    Lacks [3] [0] [2, 3] ∧ Lacks [2] [1] [2, 3] ∧
    shapesOf (broadcast (⟨[3], fun _ => (0 : Nat)⟩ : T Nat) ⟨[2], fun _ => 0⟩ (newPattern [0#8] [1#8])) = none := by
  refine ⟨?_, ?_, ?_⟩ <;> decide

/-- The full statement, for operands of any rank, is false of the code. -/
theorem broadcast_not_correct : ¬ ∀ (x y : T Nat) (pat : BitVec 8) (t : List Nat),
    (∀ a ∈ (on pat).1 ++ (on pat).2, a < t.length) → (∀ d ∈ t, d ≠ 0) →
    (HasUnit x.shape (on pat).1 t ∨ Lacks x.shape (on pat).1 t) →
    (HasUnit y.shape (on pat).2 t ∨ Lacks y.shape (on pat).2 t) →
    (∀ a, a ∈ (on pat).1 → a ∈ (on pat).2 → t[a]? = some 1) →
    shapesOf (broadcast x y pat) = some (t, t) := by
  intro h
  have h1 := h ⟨[3], fun _ => 0⟩ ⟨[1, 1], fun _ => 0⟩ (newPattern [1#8] [0#8]) [3, 1] (by decide) (by decide)
    (Or.inr (by unfold Lacks; decide)) (Or.inl (by unfold HasUnit; decide))
    (by
      have e : on (newPattern [1#8] [0#8]) = ([1], [0]) := by decide
      rw [e]; intro a ha hb
      simp at ha hb; omega)
  rw [broadcast_mixed_rank_wrong.2.2.2] at h1
  revert h1; decide

/-! ### Automatic patterns -/

theorem mem_largerAxes (k : Nat) (a b : List Nat) (hk : k + a.length ≤ 256) (x : BitVec 8) :
    x ∈ largerAxes k a b ↔ ∃ j p q, a[j]? = some p ∧ b[j]? = some q ∧ p > q ∧ x.toNat = k + j := by
  induction a generalizing b k with
  | nil => simp [largerAxes]
  | cons p a ih =>
    cases b with
    | nil => simp [largerAxes]
    | cons q b =>
      have hk' : k + 1 + a.length ≤ 256 := by simp at hk; omega
      have hk2 : k < 256 := by simp at hk; omega
      have ih := ih (k + 1) b hk'
      have step : (∃ j p' q', (p :: a)[j]? = some p' ∧ (q :: b)[j]? = some q' ∧ p' > q' ∧ x.toNat = k + j) ↔
          (p > q ∧ x.toNat = k) ∨ (∃ j p' q', a[j]? = some p' ∧ b[j]? = some q' ∧ p' > q' ∧ x.toNat = k + 1 + j) := by
        constructor
        · rintro ⟨j, p', q', h1, h2, h3, h4⟩
          cases j with
          | zero => simp at h1 h2; subst h1 h2; exact Or.inl ⟨h3, by omega⟩
          | succ j => exact Or.inr ⟨j, p', q', by simpa using h1, by simpa using h2, h3, by omega⟩
        · rintro (⟨h3, h4⟩ | ⟨j, p', q', h1, h2, h3, h4⟩)
          · exact ⟨0, p, q, rfl, rfl, h3, by omega⟩
          · exact ⟨j + 1, p', q', by simpa using h1, by simpa using h2, h3, by omega⟩
      rw [step, ← ih]
      simp only [largerAxes]
      have hx : x = BitVec.ofNat 8 k ↔ x.toNat = k := by
        constructor
        · intro h; rw [h]; simp; omega
        · intro h; apply BitVec.eq_of_toNat_eq; rw [h]; simp; omega
      split
      · rename_i h; rw [List.mem_cons, hx]; simp [h]
      · rename_i h; simp [h]

/-- Two shapes of equal rank that numpy would broadcast: on every axis equal, or one of them is 1. -/
def Broadcastable (a b : List Nat) : Prop :=
  a.length = b.length ∧ ∀ (j p q : Nat), a[j]? = some p → b[j]? = some q → p = q ∨ p = 1 ∨ q = 1

/-- Pointwise maximum. -/
def maxShape (a b : List Nat) : List Nat := List.zipWith max a b

/-- `Auto` with a generated `BroadcastXxx` function, for operands of equal rank at most four and positive
sizes: both operands end up with the pointwise maximum of the shapes, and every element comes from the
coordinate in which the axes of size 1 are zeroed. -/
theorem auto_correct_partial {α : Type} (x y : T α) (hb : Broadcastable x.shape y.shape)
    (hr : x.shape.length ≤ 4) (hpx : ∀ d ∈ x.shape, d ≠ 0) (hpy : ∀ d ∈ y.shape, d ≠ 0) :
    ∃ x' y', autoBroadcast x y = .ok (x', y') ∧ x'.shape = maxShape x.shape y.shape ∧
      y'.shape = maxShape x.shape y.shape ∧
      (∀ i, InB (maxShape x.shape y.shape) i → x'.at_ i = x.at_ (List.zipWith (fun j d => if d = 1 then 0 else j) i x.shape)) ∧
      (∀ i, InB (maxShape x.shape y.shape) i → y'.at_ i = y.at_ (List.zipWith (fun j d => if d = 1 then 0 else j) i y.shape)) := by
  obtain ⟨hlen, hbc⟩ := hb
  have lt4 : ∀ (a b : List Nat), a.length ≤ 4 → ∀ z ∈ largerAxes 0 a b, z.toNat < 4 := by
    intro a b ha z hz
    obtain ⟨j, p, q, h1, _, _, h4⟩ := (mem_largerAxes 0 a b (by omega) z).mp hz
    have : j < a.length := by
      apply Classical.byContradiction; intro h; rw [List.getElem?_eq_none (by omega)] at h1; cases h1
    omega
  have hmem := pattern_mem (largerAxes 0 y.shape x.shape) (largerAxes 0 x.shape y.shape)
    (lt4 _ _ (by omega)) (lt4 _ _ hr)
  have mem1 : ∀ j : Nat, j ∈ (on (newPattern (largerAxes 0 y.shape x.shape) (largerAxes 0 x.shape y.shape))).1 ↔
      ∃ p q, x.shape[j]? = some p ∧ y.shape[j]? = some q ∧ q > p := by
    intro j
    rw [(hmem j).1]
    constructor
    · rintro ⟨a, ha, e⟩
      obtain ⟨j', q, p, h1, h2, h3, h4⟩ := (mem_largerAxes 0 _ _ (by omega) a).mp ha
      have : j' = j := by omega
      subst this; exact ⟨p, q, h2, h1, h3⟩
    · rintro ⟨p, q, h1, h2, h3⟩
      have hj : j < x.shape.length := by
        apply Classical.byContradiction; intro h; rw [List.getElem?_eq_none (by omega)] at h1; cases h1
      have e : (BitVec.ofNat 8 j).toNat = j := by simp; omega
      exact ⟨BitVec.ofNat 8 j, (mem_largerAxes 0 _ _ (by omega) _).mpr ⟨j, q, p, h2, h1, h3, by omega⟩, e⟩
  have mem2 : ∀ j : Nat, j ∈ (on (newPattern (largerAxes 0 y.shape x.shape) (largerAxes 0 x.shape y.shape))).2 ↔
      ∃ p q, x.shape[j]? = some p ∧ y.shape[j]? = some q ∧ p > q := by
    intro j
    rw [(hmem j).2]
    constructor
    · rintro ⟨a, ha, e⟩
      obtain ⟨j', p, q, h1, h2, h3, h4⟩ := (mem_largerAxes 0 _ _ (by omega) a).mp ha
      have : j' = j := by omega
      subst this; exact ⟨p, q, h1, h2, h3⟩
    · rintro ⟨p, q, h1, h2, h3⟩
      have hj : j < x.shape.length := by
        apply Classical.byContradiction; intro h; rw [List.getElem?_eq_none (by omega)] at h1; cases h1
      have e : (BitVec.ofNat 8 j).toNat = j := by simp; omega
      exact ⟨BitVec.ofNat 8 j, (mem_largerAxes 0 _ _ (by omega) _).mpr ⟨j, p, q, h1, h2, h3, by omega⟩, e⟩
  have pos : ∀ (l : List Nat), (∀ d ∈ l, d ≠ 0) → ∀ (j p : Nat), l[j]? = some p → p ≠ 0 := by
    intro l hl j p h; exact hl p (List.mem_of_getElem? h)
  -- abbreviations
  generalize hpat : newPattern (largerAxes 0 y.shape x.shape) (largerAxes 0 x.shape y.shape) = pat at *
  have tget : ∀ j : Nat, (maxShape x.shape y.shape)[j]? =
      match x.shape[j]?, y.shape[j]? with
      | some p, some q => some (max p q)
      | _, _ => none := by
    intro j; rw [maxShape, List.getElem?_zipWith]
    cases x.shape[j]? <;> cases y.shape[j]? <;> rfl
  have tlen : (maxShape x.shape y.shape).length = x.shape.length := by simp [maxShape]; omega
  have dec : ∀ j : Nat, (x.shape[j]? = none ∧ y.shape[j]? = none) ∨
      ∃ p q, x.shape[j]? = some p ∧ y.shape[j]? = some q ∧ p ≠ 0 ∧ q ≠ 0 ∧ (p = q ∨ p = 1 ∨ q = 1) := by
    intro j
    by_cases hj : j < x.shape.length
    · have h1 := List.getElem?_eq_getElem hj
      have h2 := List.getElem?_eq_getElem (show j < y.shape.length by omega)
      exact Or.inr ⟨_, _, h1, h2, pos _ hpx _ _ h1, pos _ hpy _ _ h2, hbc _ _ _ h1 h2⟩
    · exact Or.inl ⟨List.getElem?_eq_none (by omega), List.getElem?_eq_none (by omega)⟩
  have ux : HasUnit x.shape (on pat).1 (maxShape x.shape y.shape) := by
    apply List.ext_getElem?
    intro j
    rw [setAxes_get, Nat.zero_add, tget]
    rcases dec j with ⟨h1, h2⟩ | ⟨p, q, h1, h2, hp, hq, h3⟩
    · simp [h1, h2]
    · have := mem1 j
      rw [h1, h2] at this
      simp only [h1, h2]
      by_cases hlt : q > p
      · rw [if_pos (this.mpr ⟨p, q, rfl, rfl, hlt⟩)]; clear this; simp; omega
      · rw [if_neg (fun h => by obtain ⟨_, _, e1, e2, e3⟩ := this.mp h; cases e1; cases e2; exact hlt e3)]
        clear this; simp; omega
  have uy : HasUnit y.shape (on pat).2 (maxShape x.shape y.shape) := by
    apply List.ext_getElem?
    intro j
    rw [setAxes_get, Nat.zero_add, tget]
    rcases dec j with ⟨h1, h2⟩ | ⟨p, q, h1, h2, hp, hq, h3⟩
    · simp [h1, h2]
    · have := mem2 j
      rw [h1, h2] at this
      simp only [h1, h2]
      by_cases hlt : p > q
      · rw [if_pos (this.mpr ⟨p, q, rfl, rfl, hlt⟩)]; clear this; simp; omega
      · rw [if_neg (fun h => by obtain ⟨_, _, e1, e2, e3⟩ := this.mp h; cases e1; cases e2; exact hlt e3)]
        clear this; simp; omega
  have hall : ∀ a ∈ (on pat).1 ++ (on pat).2, a < (maxShape x.shape y.shape).length := by
    intro a ha
    rw [tlen]
    apply Classical.byContradiction; intro h
    have hn : x.shape[a]? = none := List.getElem?_eq_none (by omega)
    rcases List.mem_append.mp ha with ha | ha
    · obtain ⟨p, q, h1, _⟩ := (mem1 a).mp ha; rw [hn] at h1; cases h1
    · obtain ⟨p, q, h1, _⟩ := (mem2 a).mp ha; rw [hn] at h1; cases h1
  have htp : ∀ d ∈ maxShape x.shape y.shape, d ≠ 0 := by
    intro d hd
    obtain ⟨j, hj⟩ := List.mem_iff_getElem?.mp hd
    rw [tget] at hj
    rcases dec j with ⟨h1, h2⟩ | ⟨p, q, h1, h2, hp, hq, h3⟩
    · simp [h1] at hj
    · simp only [h1, h2] at hj; injection hj with hj; omega
  obtain ⟨x', y', e, sx, sy, ax, ay⟩ := broadcast_correct_partial x y pat (maxShape x.shape y.shape) hall htp
    (Or.inl ux) (Or.inl uy) (by
      intro a h1 h2
      obtain ⟨p, q, e1, e2, e3⟩ := (mem1 a).mp h1
      obtain ⟨p', q', e1', e2', e3'⟩ := (mem2 a).mp h2
      rw [e1] at e1'; rw [e2] at e2'; cases e1'; cases e2'; omega)
    (Or.inl ⟨tlen.symm, by omega⟩)
  have auto : autoBroadcast x y = .ok (x', y') := by
    unfold autoBroadcast autoBroadcastPattern
    rw [if_neg (by simpa using hlen)]
    simp only [Res.bind, hpat, e]
  refine ⟨x', y', auto, sx, sy, ?_, ?_⟩
  · intro i hi
    rw [ax i hi, if_pos tlen.symm]
    congr 1
    apply List.ext_getElem?
    intro j
    rw [setAxes_get, Nat.zero_add, List.getElem?_zipWith]
    rcases dec j with ⟨h1, h2⟩ | ⟨p, q, h1, h2, hp, hq, h3⟩
    · have : i[j]? = none := by
        apply List.getElem?_eq_none
        have := hi.length
        rw [List.getElem?_eq_none_iff] at h1; omega
      simp [h1, this]
    · have hj : j < i.length := by
        have := hi.length
        apply Classical.byContradiction; intro h
        rw [List.getElem?_eq_none (by omega)] at h1; cases h1
      have hit := tget j
      simp only [h1, h2] at hit
      have hb := inB_getD hi hit
      have hm := mem1 j
      rw [h1, h2] at hm
      simp only [h1, List.getElem?_eq_getElem hj]
      have hij : i.getD j 0 = i[j] := by simp [hj]
      by_cases hlt : q > p
      · rw [if_pos (hm.mpr ⟨p, q, rfl, rfl, hlt⟩), if_pos (by clear hm; omega)]; rfl
      · rw [if_neg (fun h => by obtain ⟨_, _, e1, e2, e3⟩ := hm.mp h; cases e1; cases e2; exact hlt e3)]
        by_cases h1' : p = 1
        · rw [if_pos h1']; congr 1; clear hm; omega
        · rw [if_neg h1']
  · intro i hi
    rw [ay i hi, if_pos (by omega)]
    congr 1
    apply List.ext_getElem?
    intro j
    rw [setAxes_get, Nat.zero_add, List.getElem?_zipWith]
    rcases dec j with ⟨h1, h2⟩ | ⟨p, q, h1, h2, hp, hq, h3⟩
    · have : i[j]? = none := by
        apply List.getElem?_eq_none
        have := hi.length
        rw [List.getElem?_eq_none_iff] at h1; omega
      simp [h2, this]
    · have hj : j < i.length := by
        have := hi.length
        apply Classical.byContradiction; intro h
        rw [List.getElem?_eq_none (by omega)] at h1; cases h1
      have hit := tget j
      simp only [h1, h2] at hit
      have hb := inB_getD hi hit
      have hm := mem2 j
      rw [h1, h2] at hm
      simp only [h2, List.getElem?_eq_getElem hj]
      have hij : i.getD j 0 = i[j] := by simp [hj]
      by_cases hlt : p > q
      · rw [if_pos (hm.mpr ⟨p, q, rfl, rfl, hlt⟩), if_pos (by clear hm; omega)]; rfl
      · rw [if_neg (fun h => by obtain ⟨_, _, e1, e2, e3⟩ := hm.mp h; cases e1; cases e2; exact hlt e3)]
        by_cases h1' : q = 1
        · rw [if_pos h1']; congr 1; clear hm; omega
        · rw [if_neg h1']

example : Broadcastable [2, 1, 3] [1, 4, 3] := by
  refine ⟨rfl, ?_⟩
  intro j p q h1 h2
  match j, h1, h2 with
  | 0, h1, h2 => simp at h1 h2; omega
  | 1, h1, h2 => simp at h1 h2; omega
  | 2, h1, h2 => simp at h1 h2; omega
  | j + 3, h1, h2 => simp at h1

/-- Past rank four `Auto` goes wrong silently: the fifth axis is not broadcast. -/
theorem auto_rank_five_wrong :
    shapesOf (autoBroadcast (⟨[2, 2, 2, 2, 1], fun _ => (0 : Nat)⟩ : T Nat) ⟨[2, 2, 2, 2, 3], fun _ => 0⟩) =
      some ([2, 2, 2, 2, 1], [2, 2, 2, 2, 3]) := by decide

end Verif.Shape
