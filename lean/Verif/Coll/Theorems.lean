import Verif.Coll.Model
/-!
Properties C06 (graph walk) and C07 (node lists and sets).
-/
set_option autoImplicit false
namespace Verif.Coll

/-! ### Node lists -/

/-- **C07.** `Contains` decides membership. -/
theorem contains_iff (ns : List Ptr) (n : Ptr) : contains ns n = true ↔ n ∈ ns := by
  induction ns with
  | nil => simp [contains]
  | cons x xs ih =>
    simp only [contains, List.mem_cons]
    split
    · next h => simp [h]
    · next h => rw [ih]; constructor
                · exact Or.inr
                · rintro (e | e)
                  · exact absurd e.symm h
                  · exact e

/-- **C07.** `Add` adds the node to the set of elements, keeps the order and never makes a duplicate. -/
theorem add_spec (ns : List Ptr) (n : Ptr) :
    (∀ x, x ∈ add ns n ↔ x ∈ ns ∨ x = n) ∧ ns <+: add ns n ∧ (ns.Nodup → (add ns n).Nodup) := by
  unfold add
  by_cases h : contains ns n = true
  · rw [if_pos h]
    refine ⟨fun x => ⟨Or.inl, ?_⟩, List.prefix_refl _, id⟩
    rintro (e | e)
    · exact e
    · subst e; exact (contains_iff ns x).1 h
  · rw [if_neg h]
    refine ⟨fun x => by simp, List.prefix_append _ _, fun hn => ?_⟩
    rw [List.nodup_append]
    refine ⟨hn, by simp, ?_⟩
    intro a ha b hb e
    simp at hb
    exact h ((contains_iff ns n).2 (by rw [← hb, ← e]; exact ha))

theorem subset_of_length {a b : List Ptr} (ha : a.Nodup) (hs : ∀ x ∈ a, x ∈ b) (hl : b.length ≤ a.length) :
    ∀ x ∈ b, x ∈ a := by
  induction a generalizing b with
  | nil =>
    have : b = [] := List.length_eq_zero_iff.mp (by simpa using hl)
    subst this; simp
  | cons y ys ih =>
    have hy : y ∈ b := hs y (by simp)
    rw [List.nodup_cons] at ha
    have hlen : (b.erase y).length = b.length - 1 := List.length_erase_of_mem hy
    have hpos : 0 < b.length := List.length_pos_of_mem hy
    have := ih (b := b.erase y) ha.2 (by
      intro x hx
      have hne : x ≠ y := fun e => ha.1 (e ▸ hx)
      exact (List.mem_erase_of_ne hne).2 (hs x (by simp [hx]))) (by simp at hl; omega)
    intro x hx
    by_cases hxy : x = y
    · subst hxy; simp
    · exact List.mem_cons_of_mem _ (this x ((List.mem_erase_of_ne hxy).2 hx))

theorem length_le_of_subset {a b : List Ptr} (ha : a.Nodup) (hs : ∀ x ∈ a, x ∈ b) : a.length ≤ b.length := by
  induction a generalizing b with
  | nil => simp
  | cons y ys ih =>
    have hy : y ∈ b := hs y (by simp)
    rw [List.nodup_cons] at ha
    have hlen : (b.erase y).length = b.length - 1 := List.length_erase_of_mem hy
    have hpos : 0 < b.length := List.length_pos_of_mem hy
    have := ih (b := b.erase y) ha.2 (by
      intro x hx
      have hne : x ≠ y := fun e => ha.1 (e ▸ hx)
      exact (List.mem_erase_of_ne hne).2 (hs x (by simp [hx])))
    simp; omega

/-- **C07.** On duplicate-free lists `Equals` decides equality as sets. -/
theorem equals_iff {ns other : List Ptr} (h1 : ns.Nodup) (h2 : other.Nodup) :
    equals ns other = true ↔ ∀ x, x ∈ ns ↔ x ∈ other := by
  unfold equals
  constructor
  · intro h
    by_cases hl : ns.length ≠ other.length
    · rw [if_pos hl] at h; simp at h
    · rw [if_neg hl, List.all_eq_true] at h
      have hs : ∀ x ∈ ns, x ∈ other := fun x hx => (contains_iff _ _).1 (h x hx)
      exact fun x => ⟨hs x, subset_of_length h1 hs (by omega) x⟩
  · intro h
    have e1 := length_le_of_subset h1 (fun x hx => (h x).1 hx)
    have e2 := length_le_of_subset h2 (fun x hx => (h x).2 hx)
    rw [if_neg (by omega), List.all_eq_true]
    exact fun x hx => (contains_iff _ _).2 ((h x).1 hx)

/-- **C07 (limit).** With duplicates `Equals` is not even symmetric. -/
theorem equals_not_symmetric : equals [1, 1] [1, 2] = true ∧ equals [1, 2] [1, 1] = false := by decide

theorem index_spec (ns : List Ptr) (n : Ptr) :
    (∀ i, index ns n = some i → ns[i]? = some n ∧ ∀ j, j < i → ns[j]? ≠ some n) ∧ (index ns n = none ↔ n ∉ ns) := by
  induction ns with
  | nil => simp [index]
  | cons x xs ih =>
    simp only [index]
    by_cases h : x = n
    · rw [if_pos h]
      refine ⟨fun i hi => ?_, by simp [h]⟩
      simp only [Option.some.injEq] at hi; subst hi
      exact ⟨by simp [h], fun j hj => by omega⟩
    · rw [if_neg h]
      constructor
      · intro i hi
        cases hx : index xs n with
        | none => rw [hx] at hi; simp at hi
        | some k =>
          rw [hx] at hi; simp at hi; subst hi
          obtain ⟨h1, h2⟩ := ih.1 k hx
          refine ⟨by simpa using h1, fun j hj => ?_⟩
          cases j with
          | zero => simpa using h
          | succ j => simpa using h2 j (by omega)
      · simp only [Option.map_eq_none_iff, ih.2, List.mem_cons, not_or]
        exact ⟨fun hx => ⟨fun e => h e.symm, hx⟩, fun hx => hx.2⟩

theorem swap_length (ns : List Ptr) (i o : Nat) : (swap ns i o).length = ns.length := by simp [swap]

theorem swap_get (ns : List Ptr) {i o : Nat} (hi : i < ns.length) (ho : o < ns.length) (j : Nat) :
    (swap ns i o)[j]? = if j = o then ns[i]? else if j = i then ns[o]? else ns[j]? := by
  simp only [swap, List.getElem?_set, List.getD_eq_getElem?_getD, List.length_set]
  by_cases h1 : o = j
  · subst h1; simp [ho, hi]
  · simp only [h1, ↓reduceIte, if_neg (fun e : j = o => h1 e.symm)]
    by_cases h2 : i = j
    · subst h2; simp [hi, ho]
    · simp [h2, if_neg (fun e : j = i => h2 e.symm)]

theorem reverseLoop_get (l : Nat) : ∀ (k : Nat) (ns : List Ptr), ns.length = l → k ≤ l / 2 → ∀ j, j < l →
    (reverseLoop l k ns)[j]? = if j < k ∨ l - k ≤ j then ns[l - 1 - j]? else ns[j]? := by
  intro k
  induction k with
  | zero =>
    intro ns hl _ j hj
    rw [if_neg (by omega)]; rfl
  | succ k ih =>
    intro ns hl hk j hj
    simp only [reverseLoop]
    have hki : k < ns.length := by omega
    have hko : l - 1 - k < ns.length := by omega
    rw [ih _ (by rw [swap_length]; exact hl) (by omega) j hj]
    rw [swap_get ns hki hko, swap_get ns hki hko]
    repeat' split
    all_goals first | rfl | (exfalso; omega) | (congr 1; omega)

theorem reverseLoop_length (l : Nat) : ∀ (k : Nat) (ns : List Ptr), (reverseLoop l k ns).length = ns.length := by
  intro k
  induction k with
  | zero => intro ns; rfl
  | succ k ih => intro ns; simp only [reverseLoop, ih, swap_length]

/-- **C07.** The in-place reversal loop reverses the list. -/
theorem reverse_eq (ns : List Ptr) : reverse ns = ns.reverse := by
  apply List.ext_getElem?
  intro j
  by_cases hj : j < ns.length
  · unfold reverse
    rw [reverseLoop_get ns.length (ns.length / 2) ns rfl (Nat.le_refl _) j hj, List.getElem?_reverse hj]
    split
    · rfl
    · next h =>
      have : j = ns.length - 1 - j := by omega
      rw [← this]
  · rw [List.getElem?_eq_none (by unfold reverse; rw [reverseLoop_length]; omega),
        List.getElem?_eq_none (by rw [List.length_reverse]; omega)]

/-- **C07.** `replace` exchanges every occurrence and nothing else. -/
theorem replace_eq (ns : List Ptr) (what wth : Ptr) :
    replace ns what wth = ns.map (fun n => if n = what then wth else n) := by
  induction ns with
  | nil => rfl
  | cons x xs ih => simp only [replace, ih, List.map_cons]

theorem filter_cut {ns : List Ptr} {i : Nat} {n : Ptr} (h : ns[i]? = some n) :
    (cutAt ns i).filter (fun x => x != n) = ns.filter (fun x => x != n) := by
  have hi : i < ns.length := by
    rcases Nat.lt_or_ge i ns.length with h' | h'
    · exact h'
    · rw [List.getElem?_eq_none h'] at h; simp at h
  rw [List.getElem?_eq_getElem hi] at h
  simp only [Option.some.injEq] at h
  have : ns = ns.take i ++ n :: ns.drop (i + 1) := by
    conv => lhs; rw [← List.take_append_drop i ns, List.drop_eq_getElem_cons hi, h]
  conv => rhs; rw [this]
  simp [cutAt, List.filter_append]

theorem removeLoop_eq : ∀ (fuel : Nat) (ns : List Ptr) (n : Ptr), ns.length < fuel →
    removeLoop fuel ns n = ns.filter (fun x => x != n) := by
  intro fuel
  induction fuel with
  | zero => intro ns n h; omega
  | succ fuel ih =>
    intro ns n h
    simp only [removeLoop]
    cases hi : index ns n with
    | none =>
      have := (index_spec ns n).2.1 hi
      symm
      simp only [List.filter_eq_self, bne_iff_ne, ne_eq]
      intro a ha e; exact this (e ▸ ha)
    | some i =>
      have h1 := ((index_spec ns n).1 i hi).1
      have hlt : i < ns.length := by
        rcases Nat.lt_or_ge i ns.length with h' | h'
        · exact h'
        · rw [List.getElem?_eq_none h'] at h1; simp at h1
      simp only
      rw [ih (cutAt ns i) n (by simp [cutAt]; omega), filter_cut h1]

/-- **C07.** `remove` drops every occurrence of the node and keeps the rest in order. -/
theorem remove_eq (ns : List Ptr) (n : Ptr) : remove ns n = ns.filter (fun x => x != n) :=
  removeLoop_eq _ ns n (Nat.lt_succ_self _)

example : reverse [1, 2, 3, 4, 5] = [5, 4, 3, 2, 1] ∧ remove [1, 2, 1, 3, 1] 1 = [2, 3] ∧ add [1, 2] 3 = [1, 2, 3] ∧
    replace [1, 2, 1] 1 9 = [9, 2, 9] ∧ equals [1, 2] [2, 1] = true := by decide

/-! ### Node sets -/

theorem mem_sAdd (s : List Ptr) (i x : Ptr) : x ∈ sAdd s i ↔ x ∈ s ∨ x = i := by
  unfold sAdd
  split
  · next h =>
    rw [List.contains_eq_mem, decide_eq_true_eq] at h
    constructor
    · exact Or.inl
    · rintro (e | e)
      · exact e
      · subst e; exact h
  · simp

theorem nodup_sAdd {s : List Ptr} (h : s.Nodup) (i : Ptr) : (sAdd s i).Nodup := by
  unfold sAdd
  split
  · exact h
  · next hc =>
    rw [List.contains_eq_mem, decide_eq_true_eq] at hc
    rw [List.nodup_append]
    refine ⟨h, by simp, ?_⟩
    intro a ha b hb e
    simp at hb
    exact hc (by rw [← hb, ← e]; exact ha)

theorem foldl_sAdd (a : List Ptr) : ∀ (s : List Ptr), s.Nodup →
    (∀ x, x ∈ a.foldl sAdd s ↔ x ∈ s ∨ x ∈ a) ∧ (a.foldl sAdd s).Nodup := by
  induction a with
  | nil => intro s h; exact ⟨by simp, h⟩
  | cons y ys ih =>
    intro s h
    obtain ⟨h1, h2⟩ := ih (sAdd s y) (nodup_sAdd h y)
    refine ⟨fun x => ?_, h2⟩
    rw [List.foldl_cons, h1, mem_sAdd, List.mem_cons, or_assoc]

theorem foldl_filter (p : Ptr → Bool) (a : List Ptr) : ∀ (s : List Ptr), s.Nodup →
    (∀ x, x ∈ a.foldl (fun acc e => if p e then sAdd acc e else acc) s ↔ x ∈ s ∨ (x ∈ a ∧ p x = true)) ∧
    (a.foldl (fun acc e => if p e then sAdd acc e else acc) s).Nodup := by
  induction a with
  | nil => intro s h; exact ⟨by simp, h⟩
  | cons y ys ih =>
    intro s h
    rw [List.foldl_cons]
    by_cases hp : p y = true
    · rw [if_pos hp]
      obtain ⟨h1, h2⟩ := ih (sAdd s y) (nodup_sAdd h y)
      refine ⟨fun x => ?_, h2⟩
      rw [h1, mem_sAdd, List.mem_cons]
      constructor
      · rintro ((h | h) | h)
        · exact Or.inl h
        · subst h; exact Or.inr ⟨Or.inl rfl, hp⟩
        · exact Or.inr ⟨Or.inr h.1, h.2⟩
      · rintro (h | ⟨h | h, h'⟩)
        · exact Or.inl (Or.inl h)
        · exact Or.inl (Or.inr h)
        · exact Or.inr ⟨h, h'⟩
    · rw [if_neg hp]
      obtain ⟨h1, h2⟩ := ih s h
      refine ⟨fun x => ?_, h2⟩
      rw [h1, List.mem_cons]
      constructor
      · rintro (h | h)
        · exact Or.inl h
        · exact Or.inr ⟨Or.inr h.1, h.2⟩
      · rintro (h | ⟨h | h, h'⟩)
        · exact Or.inl h
        · subst h; exact absurd h' hp
        · exact Or.inr ⟨h, h'⟩

/-- **C07.** Every constructor and operation on node sets yields a set (no duplicates) with the mathematical elements. -/
theorem set_ops {s other : List Ptr} (a : List Ptr) (i x : Ptr) :
    (x ∈ newSet a ↔ x ∈ a) ∧
    (x ∈ sAdd s i ↔ x ∈ s ∨ x = i) ∧
    (x ∈ sRemove s i ↔ x ∈ s ∧ x ≠ i) ∧
    (x ∈ union s other ↔ x ∈ s ∨ x ∈ other) ∧
    (x ∈ intersect s other ↔ x ∈ s ∧ x ∈ other) ∧
    (x ∈ difference s other ↔ x ∈ s ∧ x ∉ other) ∧
    (x ∈ symmetricDifference s other ↔ (x ∈ s ∧ x ∉ other) ∨ (x ∈ other ∧ x ∉ s)) := by
  have hd : ∀ (s other : List Ptr) (x : Ptr), x ∈ difference s other ↔ x ∈ s ∧ x ∉ other := by
    intro s other x
    unfold difference
    rw [(foldl_filter (fun e => !other.contains e) s [] List.nodup_nil).1]
    simp
  have hu : ∀ (s other : List Ptr) (x : Ptr), x ∈ union s other ↔ x ∈ s ∨ x ∈ other := by
    intro s other x
    unfold union
    obtain ⟨h1, h2⟩ := foldl_sAdd s [] List.nodup_nil
    rw [(foldl_sAdd other _ h2).1, h1]
    simp
  refine ⟨?_, mem_sAdd s i x, ?_, hu s other x, ?_, hd s other x, ?_⟩
  · unfold newSet; rw [(foldl_sAdd a [] List.nodup_nil).1]; simp
  · simp [sRemove]
  · unfold intersect
    split
    · rw [(foldl_filter (fun e => other.contains e) s [] List.nodup_nil).1]; simp
    · rw [(foldl_filter (fun e => s.contains e) other [] List.nodup_nil).1]; simp [and_comm]
  · unfold symmetricDifference
    rw [hu, hd, hd]

/-- **C07.** Results are duplicate free, so `Cardinality` is the number of elements. -/
theorem set_ops_nodup {s : List Ptr} (hs : s.Nodup) (other a : List Ptr) (i : Ptr) :
    (newSet a).Nodup ∧ (sAdd s i).Nodup ∧ (sRemove s i).Nodup ∧ (union s other).Nodup ∧ (intersect s other).Nodup ∧
    (difference s other).Nodup ∧ (symmetricDifference s other).Nodup := by
  have hu : ∀ (s other : List Ptr), (union s other).Nodup := by
    intro s other
    unfold union
    exact (foldl_sAdd other _ (foldl_sAdd s [] List.nodup_nil).2).2
  refine ⟨(foldl_sAdd a [] List.nodup_nil).2, nodup_sAdd hs i, hs.filter _, hu s other, ?_, ?_, hu _ _⟩
  · unfold intersect
    split
    · exact (foldl_filter (fun e => other.contains e) s [] List.nodup_nil).2
    · exact (foldl_filter (fun e => s.contains e) other [] List.nodup_nil).2
  · exact (foldl_filter (fun e => !other.contains e) s [] List.nodup_nil).2

/-- **C07.** Set comparisons decide the mathematical relations, whatever the iteration orders of the maps. -/
theorem set_compare {s other : List Ptr} (h1 : s.Nodup) (h2 : other.Nodup) :
    (isSubset s other = true ↔ ∀ x, x ∈ s → x ∈ other) ∧
    (isSuperset s other = true ↔ ∀ x, x ∈ other → x ∈ s) ∧
    (containsAll s other = true ↔ ∀ x, x ∈ other → x ∈ s) ∧
    (sEqual s other = true ↔ ∀ x, x ∈ s ↔ x ∈ other) := by
  refine ⟨by simp [isSubset], by simp [isSuperset, isSubset], by simp [containsAll], ?_⟩
  have : sEqual s other = equals s other := by
    unfold sEqual equals
    congr 1
    congr 1
    funext n
    rw [Bool.eq_iff_iff, contains_iff]; simp
  rw [this]
  exact equals_iff h1 h2

example : union [1, 2] [2, 3] = [1, 2, 3] ∧ intersect [1, 2] [2, 3] = [2] ∧ symmetricDifference [1, 2] [2, 3] = [1, 3] ∧
    sEqual [1, 2] [2, 1] = true ∧ isSubset [1] [1, 2] = true ∧ isSubset [1, 2] [1] = false := by decide

/-! ### Walking -/

/-- Reachability through operands. -/
inductive Reach (children : Ptr → List Ptr) : Ptr → Ptr → Prop
  | refl (a : Ptr) : Reach children a a
  | step {a b c : Ptr} : b ∈ children a → Reach children b c → Reach children a c

/-- A visited set that contains with every node all its operands. -/
def Closed (children : Ptr → List Ptr) (w : List Ptr) : Prop := ∀ a ∈ w, ∀ b ∈ children a, b ∈ w

theorem Closed.reach {children : Ptr → List Ptr} {w : List Ptr} (h : Closed children w) {a b : Ptr} (ha : a ∈ w)
    (hr : Reach children a b) : b ∈ w := by
  induction hr with
  | refl => exact ha
  | step hb _ ih => exact ih (h _ ha _ hb)

theorem Reach.rank {children : Ptr → List Ptr} {rank : Ptr → Nat} (hr : ∀ a, ∀ b ∈ children a, rank b < rank a)
    {a b : Ptr} (h : Reach children a b) : rank b ≤ rank a := by
  induction h with
  | refl => exact Nat.le_refl _
  | step hb _ ih => have := hr _ _ hb; omega

/-- What one call of `walkGraph`, or one loop of calls, does to a walk: it emits, once each, exactly the nodes of `R` not
visited before. -/
structure Visits (children : Ptr → List Ptr) (R : Ptr → Prop) (w w' : Walk) : Prop where
  emitted : ∃ e, w'.out = w.out ++ e ∧ e.Nodup ∧ ∀ x, x ∈ e ↔ R x ∧ x ∉ w.walked
  walked : ∀ x, x ∈ w'.walked ↔ x ∈ w.walked ∨ R x

theorem loop_visits {children : Ptr → List Ptr} {f : Ptr → Walk → Option Walk} :
    ∀ (cs : List Ptr), (∀ c ∈ cs, ∀ w : Walk, Closed children w.walked → ∃ w', f c w = some w' ∧
      Visits children (Reach children c) w w' ∧ Closed children w'.walked) →
    ∀ w : Walk, Closed children w.walked → ∃ w', loop f cs w = some w' ∧
      Visits children (fun x => ∃ c ∈ cs, Reach children c x) w w' ∧ Closed children w'.walked := by
  intro cs
  induction cs with
  | nil =>
    intro _ w hw
    exact ⟨w, rfl, ⟨⟨[], by simp, List.nodup_nil, by simp⟩, by simp⟩, hw⟩
  | cons c cs ih =>
    intro hf w hw
    obtain ⟨w1, e1, v1, c1⟩ := hf c (by simp) w hw
    obtain ⟨w2, e2, v2, c2⟩ := ih (fun c' hc' => hf c' (by simp [hc'])) w1 c1
    refine ⟨w2, by simp only [loop, e1, e2], ⟨?_, ?_⟩, c2⟩
    · obtain ⟨a, ha, hna, hma⟩ := v1.emitted
      obtain ⟨b, hb, hnb, hmb⟩ := v2.emitted
      refine ⟨a ++ b, by rw [hb, ha, List.append_assoc], ?_, ?_⟩
      · rw [List.nodup_append]
        refine ⟨hna, hnb, ?_⟩
        intro x hx y hy e
        subst e
        exact ((hmb x).1 hy).2 ((v1.walked x).2 (Or.inr ((hma x).1 hx).1))
      · intro x
        rw [List.mem_append, hma, hmb, v1.walked]
        constructor
        · rintro (⟨h1, h2⟩ | ⟨⟨c', hc', h1⟩, h2⟩)
          · exact ⟨⟨c, by simp, h1⟩, h2⟩
          · exact ⟨⟨c', by simp [hc'], h1⟩, fun h => h2 (Or.inl h)⟩
        · rintro ⟨⟨c', hc', h1⟩, h2⟩
          by_cases hx : Reach children c x
          · exact Or.inl ⟨hx, h2⟩
          · rcases List.mem_cons.mp hc' with e | e
            · subst e; exact absurd h1 hx
            · exact Or.inr ⟨⟨c', e, h1⟩, by rintro (h | h)
                                            · exact h2 h
                                            · exact hx h⟩
    · intro x
      rw [v2.walked, v1.walked]
      constructor
      · rintro ((h | h) | ⟨c', hc', h⟩)
        · exact Or.inl h
        · exact Or.inr ⟨c, by simp, h⟩
        · exact Or.inr ⟨c', by simp [hc'], h⟩
      · rintro (h | ⟨c', hc', h⟩)
        · exact Or.inl (Or.inl h)
        · rcases List.mem_cons.mp hc' with e | e
          · subst e; exact Or.inl (Or.inr h)
          · exact Or.inr ⟨c', e, h⟩

theorem walkGraph_visits {children : Ptr → List Ptr} {rank : Ptr → Nat}
    (hr : ∀ a, ∀ b ∈ children a, rank b < rank a) : ∀ (fuel : Nat) (start : Ptr), rank start < fuel →
    ∀ w : Walk, Closed children w.walked → ∃ w', walkGraph children fuel start w = some w' ∧
      Visits children (Reach children start) w w' ∧ Closed children w'.walked ∧
      (start ∉ w.walked → ∃ e, w'.out = w.out ++ start :: e) := by
  intro fuel
  induction fuel with
  | zero => intro start h; omega
  | succ fuel ih =>
    intro start hlt w hw
    simp only [walkGraph]
    by_cases hc : w.walked.contains start = true
    · rw [if_pos hc]
      rw [List.contains_eq_mem, decide_eq_true_eq] at hc
      have hadd : sAdd w.walked start = w.walked := by
        unfold sAdd; rw [if_pos (by rw [List.contains_eq_mem]; simpa using hc)]
      rw [hadd]
      refine ⟨w, rfl, ⟨⟨[], by simp, List.nodup_nil, ?_⟩, ?_⟩, hw, fun h => absurd hc h⟩
      · intro x
        simp only [List.not_mem_nil, false_iff]
        rintro ⟨h1, h2⟩
        exact h2 (hw.reach hc h1)
      · intro x
        exact ⟨Or.inl, by rintro (h | h)
                          · exact h
                          · exact hw.reach hc h⟩
    · rw [if_neg hc]
      rw [List.contains_eq_mem, decide_eq_true_eq] at hc
      obtain ⟨w', e', v, c'⟩ := loop_visits (children := children) (f := walkGraph children fuel) (children start) (by
        intro c hcc w1 hw1
        obtain ⟨w2, h1, h2, h3, _⟩ := ih c (by have := hr start c hcc; omega) w1 hw1
        exact ⟨w2, h1, h2, h3⟩) { w with out := w.out ++ [start] } hw
      simp only [e']
      have hnr : ∀ c ∈ children start, ¬ Reach children c start := by
        intro c hcc h
        have h1 := Reach.rank hr h
        have h2 := hr start c hcc
        omega
      obtain ⟨e, ho, hn, hm⟩ := v.emitted
      refine ⟨_, rfl, ⟨⟨start :: e, ?_, ?_, ?_⟩, ?_⟩, ?_, ?_⟩
      · simp only [ho, List.append_assoc, List.singleton_append]
      · rw [List.nodup_cons]
        refine ⟨fun h => ?_, hn⟩
        obtain ⟨⟨c, hcc, h1⟩, _⟩ := (hm start).1 h
        exact hnr c hcc h1
      · intro x
        rw [List.mem_cons, hm]
        constructor
        · rintro (h | ⟨⟨c, hcc, h1⟩, h2⟩)
          · subst h; exact ⟨Reach.refl _, hc⟩
          · exact ⟨Reach.step hcc h1, h2⟩
        · rintro ⟨h1, h2⟩
          cases h1 with
          | refl => exact Or.inl rfl
          | step hb hrest => exact Or.inr ⟨⟨_, hb, hrest⟩, h2⟩
      · intro x
        simp only [mem_sAdd, v.walked]
        constructor
        · rintro ((h | ⟨c, hcc, h⟩) | h)
          · exact Or.inl h
          · exact Or.inr (Reach.step hcc h)
          · subst h; exact Or.inr (Reach.refl _)
        · rintro (h | h)
          · exact Or.inl (Or.inl h)
          · cases h with
            | refl => exact Or.inr rfl
            | step hb hrest => exact Or.inl (Or.inr ⟨_, hb, hrest⟩)
      · intro a ha b hb
        simp only [mem_sAdd] at ha ⊢
        rcases ha with h | h
        · exact Or.inl (c' a h b hb)
        · subst h; exact Or.inl ((v.walked b).2 (Or.inr ⟨b, hb, Reach.refl b⟩))
      · intro _
        exact ⟨e, by simp only [ho, List.append_assoc, List.singleton_append]⟩

/-- **C06 (one start).** On every acyclic graph (a rank decreases along operands) the walk terminates, emits the start
first, and emits every reachable node exactly once and nothing else, however much operands are shared. -/
theorem walk_once {children : Ptr → List Ptr} {rank : Ptr → Nat} (hr : ∀ a, ∀ b ∈ children a, rank b < rank a)
    (start : Ptr) {fuel : Nat} (hf : rank start < fuel) :
    ∃ out, walkFrom children fuel start = some out ∧ out.head? = some start ∧ out.Nodup ∧
      ∀ x, x ∈ out ↔ Reach children start x := by
  obtain ⟨w', e, v, _, hh⟩ := walkGraph_visits hr fuel start hf ⟨[], []⟩ (by intro a ha; simp at ha)
  obtain ⟨l, ho, hn, hm⟩ := v.emitted
  simp only [List.nil_append] at ho
  obtain ⟨t, ht⟩ := hh (by simp)
  refine ⟨w'.out, by simp only [walkFrom, e, Option.map_some], ?_, by rw [ho]; exact hn, ?_⟩
  · rw [ht]; rfl
  · intro x; rw [ho, hm]; simp

/-- **C06 (several roots).** With one shared visited set every node reachable from some root is emitted exactly once. -/
theorem walk_roots_once {children : Ptr → List Ptr} {rank : Ptr → Nat} (hr : ∀ a, ∀ b ∈ children a, rank b < rank a)
    (roots : List Ptr) {fuel : Nat} (hf : ∀ r ∈ roots, rank r < fuel) :
    ∃ out, walkRoots children fuel roots = some out ∧ out.Nodup ∧
      ∀ x, x ∈ out ↔ ∃ r ∈ roots, Reach children r x := by
  obtain ⟨w', e, v, _⟩ := loop_visits (children := children) (f := walkGraph children fuel) roots (by
    intro c hc w hw
    obtain ⟨w2, h1, h2, h3, _⟩ := walkGraph_visits hr fuel c (hf c hc) w hw
    exact ⟨w2, h1, h2, h3⟩) ⟨[], []⟩ (by intro a ha; simp at ha)
  obtain ⟨l, ho, hn, hm⟩ := v.emitted
  simp only [List.nil_append] at ho
  refine ⟨w'.out, by simp only [walkRoots, e, Option.map_some], by rw [ho]; exact hn, ?_⟩
  intro x; rw [ho, hm]; simp

/-- A graph with sharing: 4 uses 2 and 3, both use 1, which uses 0; 3 also uses 0. -/
def demoChildren : Ptr → List Ptr
  | 4 => [2, 3]
  | 3 => [1, 0]
  | 2 => [1]
  | 1 => [0]
  | _ => []

example : (∀ a, ∀ b ∈ demoChildren a, b < a) ∧ walkFrom demoChildren 5 4 = some [4, 2, 1, 0, 3] ∧
    walkRoots demoChildren 5 [2, 3] = some [2, 1, 0, 3] := by
  refine ⟨?_, by decide, by decide⟩
  intro a b hb
  unfold demoChildren at hb
  split at hb <;> simp at hb
  · rcases hb with rfl | rfl <;> decide
  · rcases hb with rfl | rfl <;> decide
  · subst hb; decide
  · subst hb; decide

end Verif.Coll
