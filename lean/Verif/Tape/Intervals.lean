import Verif.Tape.Model
import Mathlib.Data.List.Range
import Mathlib.Tactic.Linarith
/-!
C08: the live intervals of `buildIntervals` are exactly the stretches between definition and last use.
-/
set_option autoImplicit false
namespace Verif.Tape

theorem upd_same {α : Type} (f : Nat → α) (i : Nat) (v : α) : upd f i v i = v := by simp [upd]
theorem upd_ne {α : Type} (f : Nat → α) (i j : Nat) (v : α) (h : j ≠ i) : upd f i v j = f j := by simp [upd, h]

/-- A sorted program as the sort produces it from a graph: operands come before their users, are not statements, and
arguments, random nodes and constants have none; the operand an operation may overwrite is one of its operands. -/
structure WF (P : Prog) : Prop where
  before : ∀ i, i < P.length → ∀ c ∈ (P.node i).children, c < i
  leaf : ∀ i, (P.node i).live = true → (P.node i).children = []
  nostmt : ∀ i, i < P.length → ∀ c ∈ (P.node i).children, (P.node c).stmt = false
  over : ∀ i, (P.node i).overwrites < (P.node i).children.length

/-- The node at `j` reads the value of the node at `a`. -/
def Uses (P : Prog) (j a : Nat) : Prop := j < P.length ∧ a ∈ (P.node j).children

instance (P : Prog) (j a : Nat) : Decidable (Uses P j a) := inferInstanceAs (Decidable (_ ∧ _))

/-- The value of the node is wanted until the end of the program: inputs, constants, gradients of inputs. -/
def Kept (P : Prog) (a : Nat) : Prop := (P.node a).live = true ∨ (P.node a).derivOfInput = true

/-! ### Sorting -/

theorem mem_insertU (x y : Int) (l : List Int) : y ∈ insertU x l ↔ y = x ∨ y ∈ l := by
  induction l with
  | nil => simp [insertU]
  | cons z zs ih =>
    simp only [insertU]
    split
    · simp
    · split
      · rename_i h; subst h; simp
      · simp only [List.mem_cons, ih]; tauto

theorem mem_setInts (y : Int) (l : List Int) : y ∈ setInts l ↔ y ∈ l := by
  unfold setInts
  induction l with
  | nil => simp
  | cons z zs ih => simp [mem_insertU, ih]

theorem sorted_insertU (x : Int) (l : List Int) (h : l.Pairwise (· < ·)) : (insertU x l).Pairwise (· < ·) := by
  induction l with
  | nil => simp [insertU]
  | cons z zs ih =>
    rw [List.pairwise_cons] at h
    simp only [insertU]
    split
    · rename_i hx
      rw [List.pairwise_cons, List.pairwise_cons]
      exact ⟨fun a ha => by rcases List.mem_cons.1 ha with e | e; · omega
                            · have := h.1 a e; omega, h⟩
    · split
      · rw [List.pairwise_cons]; exact h
      · rw [List.pairwise_cons]
        refine ⟨fun a ha => ?_, ih h.2⟩
        rcases (mem_insertU x a zs).1 ha with e | e
        · omega
        · exact h.1 a e

theorem sorted_setInts (l : List Int) : (setInts l).Pairwise (· < ·) := by
  unfold setInts
  induction l with
  | nil => simp
  | cons z zs ih => exact sorted_insertU _ _ ih

theorem last_of_sorted (l : List Int) (h : l.Pairwise (· < ·)) (hne : l ≠ []) :
    l.getLastD 0 ∈ l ∧ ∀ x ∈ l, x ≤ l.getLastD 0 := by
  induction l with
  | nil => exact absurd rfl hne
  | cons z zs ih =>
    rw [List.pairwise_cons] at h
    cases zs with
    | nil => simp
    | cons y ys =>
      have := ih h.2 (by simp)
      simp only [List.getLastD_cons] at this ⊢
      refine ⟨List.mem_cons_of_mem _ this.1, fun x hx => ?_⟩
      rcases List.mem_cons.1 hx with e | e
      · have := h.1 _ this.1; omega
      · exact this.2 x e

/-! ### The loop -/

/-- State of the interval map after the positions from `k` on were processed. -/
structure BI (P : Prog) (k : Nat) (iv : Nat → Interval) : Prop where
  done : ∀ a, k ≤ a → a < P.length → (iv a).start = a ∧
    (iv a).ranges = [((a : Int), if (P.node a).live then (P.length : Int) else a)] ∧
    (iv a).end_ = (if (P.node a).live then (P.length : Int) else a)
  todo : ∀ a, a < k → (iv a).start = -1 ∧ (iv a).ranges = [] ∧ (iv a).end_ = -1
  uses : ∀ a u, u ∈ (iv a).uses ↔
    (∃ j, k ≤ j ∧ Uses P j a ∧ u = (j : Int)) ∨
    (k ≤ a ∧ a < P.length ∧ (P.node a).live = false ∧ (P.node a).derivOfInput = true ∧ u = (P.length : Int))
  result : ∀ a, (iv a).result = 0

theorem addUse_foldl (i : Int) (cs : List Nat) (iv : Nat → Interval) :
    ∀ a, ((cs.foldl (fun iv c => upd iv c ((iv c).addUse i)) iv a).start = (iv a).start ∧
      (cs.foldl (fun iv c => upd iv c ((iv c).addUse i)) iv a).ranges = (iv a).ranges ∧
      (cs.foldl (fun iv c => upd iv c ((iv c).addUse i)) iv a).end_ = (iv a).end_ ∧
      (cs.foldl (fun iv c => upd iv c ((iv c).addUse i)) iv a).result = (iv a).result) ∧
      ∀ u, u ∈ (cs.foldl (fun iv c => upd iv c ((iv c).addUse i)) iv a).uses ↔ u ∈ (iv a).uses ∨ (a ∈ cs ∧ u = i) := by
  induction cs generalizing iv with
  | nil => intro a; simp
  | cons c cs ih =>
    intro a
    simp only [List.foldl_cons]
    have := ih (upd iv c ((iv c).addUse i)) a
    by_cases h : a = c
    · subst h
      rw [upd_same] at this
      refine ⟨this.1, fun u => ?_⟩
      rw [this.2 u]
      simp only [Interval.addUse, List.mem_append, List.mem_cons, true_or, true_and]
      tauto
    · rw [upd_ne _ _ _ _ h] at this
      refine ⟨this.1, fun u => ?_⟩
      rw [this.2 u]
      simp [h]

theorem addRange_new (i : Interval) (a b : Int) (h1 : i.start = -1) (h2 : i.ranges = []) (h3 : i.end_ = -1)
    (hb : -1 < b) : (i.addRange a b).start = a ∧ (i.addRange a b).ranges = [(a, b)] ∧ (i.addRange a b).end_ = b ∧
      (i.addRange a b).uses = i.uses ∧ (i.addRange a b).result = i.result := by
  have hb' : b > i.end_ := by omega
  simp [Interval.addRange, h2, hb', Interval.setFrom, h1]

theorem buildStep_spec (P : Prog) (W : WF P) (k : Nat) (hk : k < P.length) (iv : Nat → Interval)
    (h : BI P (k + 1) iv) : BI P k (buildStep P iv k) := by
  obtain ⟨s1, s2, s3⟩ := h.todo k (by omega)
  unfold buildStep
  by_cases hl : (P.node k).live = true
  · simp only [hl, ↓reduceIte]
    obtain ⟨r1, r2, r3, r4, r5⟩ := addRange_new (iv k) k P.length s1 s2 s3 (by omega)
    have hch := W.leaf k hl
    constructor
    · intro a ha hal
      by_cases e : a = k
      · subst e; rw [upd_same]; exact ⟨r1, by rw [r2, hl]; rfl, by rw [r3, hl]; rfl⟩
      · rw [upd_ne _ _ _ _ e]; exact h.done a (by omega) hal
    · intro a ha
      rw [upd_ne _ _ _ _ (by omega)]; exact h.todo a (by omega)
    · intro a u
      have hu : u ∈ (upd iv k ((iv k).addRange k P.length) a).uses ↔ u ∈ (iv a).uses := by
        by_cases e : a = k
        · subst e; rw [upd_same, r4]
        · rw [upd_ne _ _ _ _ e]
      rw [hu, h.uses]
      constructor
      · rintro (⟨j, hj, hu, e⟩ | ⟨x, y⟩)
        · exact .inl ⟨j, by omega, hu, e⟩
        · exact .inr ⟨by omega, y⟩
      · rintro (⟨j, hj, huj, e⟩ | ⟨x, y, z, w⟩)
        · rcases Nat.lt_or_ge k j with h' | h'
          · exact .inl ⟨j, h', huj, e⟩
          · have : j = k := by omega
            subst this; exact absurd huj.2 (by rw [hch]; simp)
        · rcases Nat.lt_or_ge k a with h' | h'
          · exact .inr ⟨h', y, z, w⟩
          · have : a = k := by omega
            subst this; rw [hl] at z; cases z
    · intro a
      by_cases e : a = k
      · subst e; rw [upd_same, r5]; exact h.result _
      · rw [upd_ne _ _ _ _ e]; exact h.result _
  · have hl' : (P.node k).live = false := by simpa using hl
    simp only [hl', Bool.false_eq_true, ↓reduceIte]
    obtain ⟨r1, r2, r3, r4, r5⟩ := addRange_new (iv k) k k s1 s2 s3 (by omega)
    set iv1 := upd iv k ((iv k).addRange k k) with hiv1
    set iv2 := (P.node k).children.foldl (fun iv c => upd iv c ((iv c).addUse (k : Int))) iv1 with hiv2
    have F := addUse_foldl (k : Int) (P.node k).children iv1
    have e1 : ∀ a, a ≠ k → iv1 a = iv a := fun a e => upd_ne _ _ _ _ e
    have e1k : iv1 k = (iv k).addRange k k := upd_same _ _ _
    have hch := W.before k hk
    -- what `iv2` looks like
    have B2 : (∀ a, k ≤ a → a < P.length → (iv2 a).start = a ∧
          (iv2 a).ranges = [((a : Int), if (P.node a).live then (P.length : Int) else a)] ∧
          (iv2 a).end_ = (if (P.node a).live then (P.length : Int) else a)) ∧
        (∀ a, a < k → (iv2 a).start = -1 ∧ (iv2 a).ranges = [] ∧ (iv2 a).end_ = -1) ∧
        (∀ a u, u ∈ (iv2 a).uses ↔ u ∈ (iv a).uses ∨ (a ∈ (P.node k).children ∧ u = (k : Int))) ∧
        (∀ a, (iv2 a).result = 0) := by
      refine ⟨fun a ha hal => ?_, fun a ha => ?_, fun a u => ?_, fun a => ?_⟩
      · obtain ⟨⟨f1, f2, f3, _⟩, _⟩ := F a
        rw [← hiv2] at f1 f2 f3
        rw [f1, f2, f3]
        by_cases e : a = k
        · subst e; rw [e1k, r1, r2, r3, hl']; simp
        · rw [e1 a e]; exact h.done a (by omega) hal
      · obtain ⟨⟨f1, f2, f3, _⟩, _⟩ := F a
        rw [← hiv2] at f1 f2 f3
        rw [f1, f2, f3, e1 a (by omega)]
        exact h.todo a (by omega)
      · have f := (F a).2 u
        rw [← hiv2] at f
        rw [f]
        by_cases e : a = k
        · subst e; rw [e1k, r4]
        · rw [e1 a e]
      · have f := (F a).1.2.2.2
        rw [← hiv2] at f
        rw [f]
        by_cases e : a = k
        · subst e; rw [e1k, r5]; exact h.result _
        · rw [e1 a e]; exact h.result _
    obtain ⟨b1, b2, b3, b4⟩ := B2
    have key : ∀ a u, (u ∈ (iv a).uses ∨ (a ∈ (P.node k).children ∧ u = (k : Int))) ↔
        (∃ j, k ≤ j ∧ Uses P j a ∧ u = (j : Int)) ∨
        (k + 1 ≤ a ∧ a < P.length ∧ (P.node a).live = false ∧ (P.node a).derivOfInput = true ∧ u = (P.length : Int)) := by
      intro a u
      rw [h.uses]
      constructor
      · rintro ((⟨j, hj, hu, e⟩ | x) | ⟨hm, e⟩)
        · exact .inl ⟨j, by omega, hu, e⟩
        · exact .inr x
        · exact .inl ⟨k, Nat.le_refl _, ⟨hk, hm⟩, e⟩
      · rintro (⟨j, hj, hu, e⟩ | x)
        · rcases Nat.lt_or_ge k j with h' | h'
          · exact .inl (.inl ⟨j, h', hu, e⟩)
          · have : j = k := by omega
            subst this; exact .inr ⟨hu.2, e⟩
        · exact .inl (.inr x)
    by_cases hd : (P.node k).derivOfInput = true
    · simp only [hd, ↓reduceIte]
      have e3 : ∀ a, a ≠ k → upd iv2 k ((iv2 k).addUse P.length) a = iv2 a := fun a e => upd_ne _ _ _ _ e
      constructor
      · intro a ha hal
        by_cases e : a = k
        · subst e; rw [upd_same]; exact b1 a ha hal
        · rw [e3 a e]; exact b1 a ha hal
      · intro a ha; rw [e3 a (by omega)]; exact b2 a ha
      · intro a u
        by_cases e : a = k
        · subst e
          rw [upd_same]
          simp only [Interval.addUse, List.mem_append, List.mem_singleton, b3, key]
          constructor
          · rintro ((x | ⟨x, y⟩) | x)
            · exact .inl x
            · omega
            · exact .inr ⟨Nat.le_refl _, hk, hl', hd, x⟩
          · rintro (x | ⟨_, _, _, _, x⟩)
            · exact .inl (.inl x)
            · exact .inr x
        · rw [e3 a e, b3, key]
          constructor
          · rintro (x | ⟨x, y⟩)
            · exact .inl x
            · exact .inr ⟨by omega, y⟩
          · rintro (x | ⟨x, y⟩)
            · exact .inl x
            · exact .inr ⟨by omega, y⟩
      · intro a
        by_cases e : a = k
        · subst e; rw [upd_same]; exact b4 a
        · rw [e3 a e]; exact b4 a
    · simp only [hd, Bool.false_eq_true, ↓reduceIte]
      refine ⟨b1, b2, fun a u => ?_, b4⟩
      rw [b3, key]
      constructor
      · rintro (x | ⟨x, y⟩)
        · exact .inl x
        · exact .inr ⟨by omega, y⟩
      · rintro (x | ⟨x, y, z, w, v⟩)
        · exact .inl x
        · rcases Nat.lt_or_ge k a with h' | h'
          · exact .inr ⟨h', y, z, w, v⟩
          · have : a = k := by omega
            subst this; exact absurd w hd

theorem build_loop (P : Prog) (W : WF P) :
    BI P 0 ((List.range P.length).reverse.foldl (buildStep P) (fun _ => {})) := by
  rw [List.foldl_reverse, List.range_eq_range']
  have : ∀ m, m ≤ P.length → BI P (P.length - m)
      ((List.range' (P.length - m) m).foldr (fun x y => buildStep P y x) (fun _ => {})) := by
    intro m
    induction m with
    | zero =>
      intro _
      constructor
      · intro a h1 h2; omega
      · intro a _; exact ⟨rfl, rfl, rfl⟩
      · intro a u
        simp only [List.range'_zero, List.foldr_nil, List.not_mem_nil, false_iff]
        rintro (⟨j, hj, hu, _⟩ | ⟨h1, h2, _⟩)
        · have := hu.1; omega
        · omega
      · intro a; rfl
    | succ m ih =>
      intro hm
      have e : P.length - (m + 1) + 1 = P.length - m := by omega
      rw [List.range'_succ, List.foldr_cons, e]
      apply buildStep_spec P W _ (by omega)
      rw [e]
      exact ih (by omega)
  have h := this P.length (Nat.le_refl _)
  simpa using h

theorem ranges_max (l : List (Int × Int)) (e : Int) :
    l = [] ∨ (∃ r, l = [r]) → l.foldl (fun e r => if r.2 > e then r.2 else e) e =
      match l with | [] => e | r :: _ => max e r.2 := by
  rintro (h | ⟨r, h⟩) <;> subst h
  · rfl
  · simp only [List.foldl_cons, List.foldl_nil]
    split <;> omega

theorem buildIntervals_result (P : Prog) (W : WF P) (a : Nat) : (buildIntervals P a).result = 0 := by
  have h := (build_loop P W).result a
  simp only [buildIntervals, Interval.fix]
  split <;> exact h

/-- **C08.** The live interval computed for a node starts at the node, and the node is live at a later instruction
exactly if some instruction after it still reads the value, or the value is an input, a constant or the gradient of an
input. -/
theorem interval_exact (P : Prog) (W : WF P) (a : Nat) (ha : a < P.length) :
    (buildIntervals P a).start = a ∧
    ∀ k : Int, (buildIntervals P a).liveAt k = true ↔
      (a : Int) ≤ k ∧ ((k < P.length ∧ Kept P a) ∨ ∃ j, Uses P j a ∧ k < j) := by
  have B := build_loop P W
  obtain ⟨d1, d2, d3⟩ := B.done a (Nat.zero_le _) ha
  have du := B.uses a
  simp only [buildIntervals]
  set I := (List.range P.length).reverse.foldl (buildStep P) (fun _ => {}) a with hI
  have hs : I.fix.start = a := by
    unfold Interval.fix; split <;> exact d1
  refine ⟨hs, fun k => ?_⟩
  simp only [Interval.liveAt, decide_eq_true_eq, hs]
  apply and_congr_right
  intro hak
  by_cases hu : I.uses = []
  · have : I.fix.end_ = (if (P.node a).live then (P.length : Int) else a) := by
      unfold Interval.fix; rw [if_pos hu]; exact d3
    rw [this]
    by_cases hl : (P.node a).live = true
    · rw [if_pos hl]
      constructor
      · intro h; exact .inl ⟨h, .inl hl⟩
      · rintro (⟨h, _⟩ | ⟨j, hj, hk⟩)
        · exact h
        · have := hj.1; omega
    · rw [if_neg hl]
      have hl' : (P.node a).live = false := by simpa using hl
      constructor
      · intro h; omega
      · rintro (⟨h, hk | hk⟩ | ⟨j, hj, hk⟩)
        · exact absurd hk hl
        · have := (du P.length).2 (.inr ⟨Nat.zero_le _, ha, hl', hk, rfl⟩)
          rw [hu] at this; simp at this
        · have := (du j).2 (.inl ⟨j, Nat.zero_le _, hj, rfl⟩)
          rw [hu] at this; simp at this
  · have hne : setInts I.uses ≠ [] := by
      obtain ⟨x, hx⟩ := List.exists_mem_of_ne_nil _ hu
      exact List.ne_nil_of_mem ((mem_setInts x _).2 hx)
    obtain ⟨l1, l2⟩ := last_of_sorted _ (sorted_setInts I.uses) hne
    rw [mem_setInts] at l1
    have he : I.fix.end_ = max ((setInts I.uses).getLastD 0) (if (P.node a).live then (P.length : Int) else a) := by
      unfold Interval.fix; rw [if_neg hu]
      simp only
      rw [ranges_max _ _ (.inr ⟨_, d2⟩), d2]
    rw [he, lt_max_iff]
    constructor
    · rintro (h | h)
      · rcases (du _).1 l1 with ⟨j, _, hj, e⟩ | ⟨_, _, _, hd, e⟩
        · exact .inr ⟨j, hj, by omega⟩
        · exact .inl ⟨by omega, .inr hd⟩
      · by_cases hl : (P.node a).live = true
        · rw [if_pos hl] at h; exact .inl ⟨h, .inl hl⟩
        · rw [if_neg hl] at h; omega
    · rintro (⟨h, hk⟩ | ⟨j, hj, hk⟩)
      · by_cases hl : (P.node a).live = true
        · right; rw [if_pos hl]; exact h
        · have hl' : (P.node a).live = false := by simpa using hl
          rcases hk with hk | hk
          · exact absurd hk hl
          · left
            have := l2 _ ((mem_setInts _ _).2 ((du P.length).2 (.inr ⟨Nat.zero_le _, ha, hl', hk, rfl⟩)))
            omega
      · left
        have := l2 _ ((mem_setInts _ _).2 ((du j).2 (.inl ⟨j, Nat.zero_le _, hj, rfl⟩)))
        omega

/-- Concrete case: `x`, `y = neg x`, `z = y + x`, `w = neg y`; `y` is live until instruction 3, `x` to the end, and the
roots `z`, `w` are not live after their definition. -/
example :
    let P : Prog := [{ kind := .arg }, { children := [0], overwrites := 0 }, { children := [1, 0], overwrites := 0 },
      { children := [1], overwrites := 0 }]
    (buildIntervals P 1).liveAt 2 = true ∧ (buildIntervals P 1).liveAt 3 = false ∧
    (buildIntervals P 0).liveAt 3 = true ∧ (buildIntervals P 2).liveAt 2 = false ∧
    (buildIntervals P 1).uses = [2, 3] := by decide

end Verif.Tape
