import Verif.BFC.Links
/-!
What the code of the repository keeps in every state, including those in which its free list has been
damaged by `coalesce`: the free list is a chain `g ++ e` of cells whose part `g` consists of genuinely free
memory.  `e` is empty in an undamaged list; in a damaged one it is the final cell, which is not `last`, and
which the allocator can no longer take out of the list without crashing.
-/
set_option autoImplicit false
namespace Verif.BFC

/-- A `prev` pointer is right, or leads out of the list (nothing is required of the first cell's). -/
def WP (I : List Nat) (pv x : Option Nat) : Prop := pv = none ∨ x = pv ∨ ∀ r, x = some r → r ∉ I

structure Str (l : FL) (g e : List Nat) : Prop where
  sg : seg (WP (g ++ e)) l.heap none (g ++ e) none
  fst : l.first = (g ++ e).head?
  nd : (g ++ e).Nodup
  lt : ∀ p ∈ g ++ e, p < l.fresh
  pl : ∀ p ∈ g ++ e, ∀ r, (l.heap p).prev = some r → r < l.fresh
  md : (e = [] ∧ (g = [] ∨ l.last = g.getLast?)) ∨
    (∃ z la, e = [z] ∧ l.last = some la ∧ la ∉ g ++ e ∧ la < l.fresh)

/-- Address and size of a cell. -/
def bk (h : Nat → Blk) (p : Nat) : Int × Int := ((h p).addr, (h p).size)

/-- Two address ranges do not overlap. -/
def Disj (a b : Int × Int) : Prop := a.1 + a.2 ≤ b.1 ∨ b.1 + b.2 ≤ a.1

theorem Disj.symm {a b : Int × Int} (h : Disj a b) : Disj b a := Or.symm h

theorem not_overlaps {h : Nat → Blk} {a b : Nat} (hd : Disj (bk h a) (bk h b)) (ha : 0 < (h a).size)
    (hb : 0 < (h b).size) : overlaps h a b = false ∧ (h a).addr ≠ (h b).addr := by
  have hd' : (h a).addr + (h a).size ≤ (h b).addr ∨ (h b).addr + (h b).size ≤ (h a).addr := hd
  have hne : (h a).addr ≠ (h b).addr := by omega
  have hab : a ≠ b := fun e => hne (by rw [e])
  refine ⟨?_, hne⟩
  unfold overlaps
  rw [if_neg hab, if_neg hne]
  split
  · rw [decide_eq_false_iff_not]; simp only [Blk.cap]; omega
  · rw [decide_eq_false_iff_not]; simp only [Blk.cap]; omega

/-- What an insertion needs. -/
structure PreIns (l : FL) (n : Nat) (g e : List Nat) : Prop where
  str : Str l g e
  nm : n ∉ g ++ e
  nl : n < l.fresh
  nn : (l.heap n).next = none
  np : (l.heap n).prev = none
  pn : ∀ q ∈ g ++ e, (l.heap q).prev ≠ some n
  ln : g ++ e ≠ [] → l.last ≠ some n
  dj : ∀ p ∈ g, Disj (bk l.heap p) (bk l.heap n)
  ps : ∀ p ∈ g, 0 < (l.heap p).size
  ns : 0 < (l.heap n).size

/-- What an insertion does: the new cell is linked in, or is lost; nothing else changes in `g`. -/
structure Ins (l l' : FL) (n : Nat) (g g' e : List Nat) : Prop where
  str : Str l' g' e
  sh : g' = g ∨ ∃ A B, g = A ++ B ∧ g' = A ++ n :: B
  bkk : ∀ p ∈ n :: g, bk l'.heap p = bk l.heap p
  fr : l'.fresh = l.fresh
  cl : l'.clobbered = l.clobbered

theorem Str.congr {l l' : FL} {g e : List Nat} (H : Str l g e)
    (hs : ∀ p ∈ g ++ e, (l'.heap p).next = (l.heap p).next ∧ (l'.heap p).prev = (l.heap p).prev)
    (hf : l'.first = l.first) (hl : l'.last = l.last) (hfr : l.fresh ≤ l'.fresh) : Str l' g e where
  sg := seg_congr _ _ _ hs H.sg
  fst := by rw [hf, H.fst]
  nd := H.nd
  lt := fun p hp => Nat.lt_of_lt_of_le (H.lt p hp) hfr
  pl := fun p hp r hr => Nat.lt_of_lt_of_le (H.pl p hp r (by rw [← (hs p hp).2]; exact hr)) hfr
  md := by
    rcases H.md with h | ⟨z, la, h1, h2, h3, h4⟩
    · exact Or.inl ⟨h.1, by rw [hl]; exact h.2⟩
    · exact Or.inr ⟨z, la, h1, by rw [hl]; exact h2, h3, by omega⟩

/-- Linking in a new cell. -/
theorem Str.link {l l' : FL} {n : Nat} {g e g' A B : List Nat} (H : PreIns l n g e)
    (hAB : g ++ e = A ++ B) (hg' : g' ++ e = A ++ n :: B)
    (L : LinkIns l.heap l'.heap A n B)
    (hf : l'.first = (A ++ n :: B).head?) (hfr : l'.fresh = l.fresh)
    (hm : (e = [] ∧ l'.last = g'.getLast?) ∨
      (∃ z la, e = [z] ∧ l'.last = some la ∧ la ∉ g' ++ e ∧ la < l.fresh)) : Str l' g' e := by
  have S := H.str
  have hnm : n ∉ A ++ B := by rw [← hAB]; exact H.nm
  have mem : ∀ p, p ∈ A ++ n :: B ↔ p = n ∨ p ∈ A ++ B := by intro p; simp; grind
  have sgs : seg (WP (A ++ n :: B)) l.heap none (A ++ B) none := by
    rw [← hAB]
    refine seg_mono none _ none ?_ S.sg
    intro p hp a hw
    rcases hw with h | h | h
    · exact Or.inl h
    · exact Or.inr (Or.inl h)
    · refine Or.inr (Or.inr ?_)
      intro r hr hin
      rcases (mem r).mp hin with e1 | e1
      · subst e1; exact H.pn p hp hr
      · exact h r hr (by rw [hAB]; exact e1)
  have nd' : (A ++ n :: B).Nodup := by
    have := S.nd
    rw [hAB] at this
    exact (List.perm_middle.nodup_iff).mpr (List.nodup_cons.mpr ⟨hnm, this⟩)
  refine ⟨?_, ?_, ?_, ?_, ?_, ?_⟩
  · rw [hg']
    exact seg_insert A B n (by rw [← hAB]; exact S.nd) L (Or.inr (Or.inl rfl)) (Or.inr (Or.inl rfl)) sgs
  · rw [hg']; exact hf
  · rw [hg']; exact nd'
  · rw [hg', hfr]
    intro p hp
    rcases (mem p).mp hp with h | h
    · subst h; exact H.nl
    · exact S.lt p (by rw [hAB]; exact h)
  · rw [hg', hfr]
    intro p hp r hr
    rcases (mem p).mp hp with h | h
    · subst h
      rw [L.np] at hr
      exact S.lt r (by rw [hAB]; exact List.mem_append_left _ (List.mem_of_getLast? hr))
    · rcases List.mem_append.mp h with h1 | h1
      · rw [L.ap p h1] at hr; exact S.pl p (by rw [hAB]; exact h) r hr
      · rw [L.bp p h1] at hr
        split at hr
        · injection hr with hr; subst hr; exact H.nl
        · exact S.pl p (by rw [hAB]; exact h) r hr
  · rw [hfr]
    rcases hm with h | h
    · exact Or.inl ⟨h.1, Or.inr h.2⟩
    · exact Or.inr h

theorem bk_upd (h : Nat → Blk) (p q : Nat) (f : Blk → Blk) (hf : q = p → bk (upd h p f) p = bk h p) :
    bk (upd h p f) q = bk h q := by
  by_cases e : q = p
  · subst e; exact hf rfl
  · simp [bk, upd, e]

/-- The decomposition of the chain at a position of `g`. -/
theorem split_at_g {g e A B : List Nat} {b : Nat} (hids : g ++ e = A ++ b :: B) (hnd : (g ++ e).Nodup)
    (hb : b ∈ g) : ∃ G, g = A ++ b :: G ∧ B = G ++ e := by
  rcases List.append_eq_append_iff.mp hids with ⟨X, h1, h2⟩ | ⟨X, h1, h2⟩
  · -- g is a prefix of A: then b is after g
    exfalso
    rw [hids] at hnd
    have : b ∉ A := by
      have := (List.nodup_append.mp hnd).2.2
      intro hA; exact this b hA b (by simp) rfl
    exact this (by rw [h1]; simp [hb])
  · cases X with
    | nil =>
      exfalso
      simp at h1 h2
      rw [hids] at hnd
      have := (List.nodup_append.mp hnd).2.2
      exact this b (by rw [← h1]; exact hb) b (by simp) rfl
    | cons x X =>
      simp at h2
      obtain ⟨h2, h3⟩ := h2
      subst h2
      exact ⟨X, h1, h3⟩

/-- The search loop. -/
theorem insertLoop_weak {l l' : FL} {n : Nat} {g e : List Nat} (H : PreIns l n g e) (fuel b : Nat)
    (A B : List Nat) (hids : g ++ e = A ++ b :: B) (hr : insertLoop l n fuel b = some l') :
    ∃ g', Ins l l' n g g' e := by
  induction fuel generalizing b A B with
  | zero => simp [insertLoop] at hr
  | succ fuel ih =>
    have S := H.str
    have hbm : b ∈ g ++ e := by rw [hids]; simp
    have hsg := S.sg
    rw [hids, seg_append] at hsg
    have hnext : (l.heap b).next = B.head? := by have := hsg.2.2.1; simpa using this
    have same : ∀ f : Blk → Blk, (∀ x, (f x).next = x.next ∧ (f x).prev = x.prev) → b ∉ g → b ≠ n →
        ∃ g', Ins l { l with heap := upd l.heap b f } n g g' e := by
      intro f hf hbg hbn
      refine ⟨g, ⟨S.congr (fun p _ => ?_) rfl rfl (Nat.le_refl _), Or.inl rfl, ?_, rfl, rfl⟩⟩
      · by_cases hp : p = b
        · subst hp; simp only [upd_same]; exact hf _
        · simp only [upd_other _ _ _ _ hp, and_self]
      · intro p hp
        have : p ≠ b := by
          rcases List.mem_cons.mp hp with h | h
          · rw [h]; exact fun e => hbn e.symm
          · intro e; rw [e] at h; exact hbg h
        simp [bk, upd, this]
    have hbn : b ≠ n := fun e => H.nm (by rw [← e]; exact hbm)
    by_cases hbg : b ∈ g
    · obtain ⟨hno, hne⟩ := not_overlaps (H.dj b hbg) (H.ps b hbg) H.ns
      simp only [insertLoop, hno, Bool.false_eq_true, and_false, if_false] at hr
      by_cases hlt : (l.heap b).addr < (l.heap n).addr
      · rw [if_pos hlt, hnext] at hr
        cases B with
        | nil => simp at hr
        | cons c B =>
          simp only [List.head?_cons] at hr
          by_cases hge : (l.heap c).addr ≥ (l.heap n).cap
          · rw [if_pos hge] at hr
            injection hr with hr
            subst hr
            obtain ⟨G, hg, hG⟩ := split_at_g hids S.nd hbg
            have hnd := S.nd
            rw [hids] at hnd
            have hnd1 := List.nodup_append.mp hnd
            have hnd2 := List.nodup_cons.mp hnd1.2.1
            have hnd3 := List.nodup_cons.mp hnd2.2
            have hcb : c ≠ b := fun e => hnd2.1 (by simp [e])
            have hcn : c ≠ n := fun e => H.nm (by rw [hids, ← e]; simp)
            have hnA : n ∉ A := fun h => H.nm (by rw [hids]; simp [h])
            have hnB : n ∉ B := fun h => H.nm (by rw [hids]; simp [h])
            have hbA : b ∉ A := fun h => hnd1.2.2 b h b (by simp) rfl
            have hcA : c ∉ A := fun h => hnd1.2.2 c h c (by simp) rfl
            have hbB : b ∉ B := fun h => hnd2.1 (by simp [h])
            refine ⟨A ++ b :: n :: G, ?_, Or.inr ⟨A ++ [b], G, by simp [hg], by simp⟩, ?_, rfl, rfl⟩
            · refine Str.link (A := A ++ [b]) (B := c :: B) H (by simp [hids]) ?_ ?_ ?_ rfl ?_
              · rw [hG]; simp
              · refine ⟨?_, ?_, ?_, ?_, ?_, ?_⟩
                · intro p hp
                  have : p ≠ n ∧ p ≠ c := by
                    rcases List.mem_append.mp hp with h | h
                    · exact ⟨fun e => hnA (e ▸ h), fun e => hcA (e ▸ h)⟩
                    · simp at h; subst h; exact ⟨hbn, fun e => hcb e.symm⟩
                  simp only [upd]
                  rw [if_neg this.2, if_neg this.1]
                  split
                  · rename_i h; subst h; rfl
                  · rfl
                · intro p hp
                  have : p ≠ n ∧ p ≠ c := by
                    rcases List.mem_append.mp hp with h | h
                    · exact ⟨fun e => hnA (e ▸ h), fun e => hcA (e ▸ h)⟩
                    · simp at h; subst h; exact ⟨hbn, fun e => hcb e.symm⟩
                  simp only [upd, List.getLast?_append, List.getLast?_singleton, Option.some_or]
                  rw [if_neg this.2, if_neg this.1]
                  by_cases hpb : p = b
                  · subst hpb; simp
                  · have : ¬ (some b = some p) := by simp; exact fun e => hpb e.symm
                    rw [if_neg hpb, if_neg this]
                · intro p hp
                  have hpn : p ≠ n := by
                    intro e; subst e; rcases List.mem_cons.mp hp with h | h
                    · exact hcn h.symm
                    · exact hnB h
                  have hpb : p ≠ b := by
                    intro e; subst e; rcases List.mem_cons.mp hp with h | h
                    · exact hcb h.symm
                    · exact hbB h
                  simp only [upd]
                  by_cases hpc : p = c
                  · subst hpc; simp [hpn, hpb]
                  · simp [hpc, hpn, hpb]
                · intro p hp
                  have hpn : p ≠ n := by
                    intro e; subst e; rcases List.mem_cons.mp hp with h | h
                    · exact hcn h.symm
                    · exact hnB h
                  have hpb : p ≠ b := by
                    intro e; subst e; rcases List.mem_cons.mp hp with h | h
                    · exact hcb h.symm
                    · exact hbB h
                  simp only [upd, List.head?_cons]
                  by_cases hpc : p = c
                  · subst hpc; simp
                  · have : ¬ (some c = some p) := by simp; exact fun e => hpc e.symm
                    simp [hpc, hpn, hpb, this]
                · have : n ≠ c := fun e => hcn e.symm
                  simp [upd, this]
                · have : n ≠ c := fun e => hcn e.symm
                  simp [upd, this]
              · show l.first = _
                rw [S.fst, hids]
                cases A <;> simp
              · rcases S.md with ⟨he, h⟩ | ⟨z, la, h1, h2, h3, h4⟩
                · refine Or.inl ⟨he, ?_⟩
                  rw [he, List.append_nil] at hG
                  subst hG
                  rcases h with h | h
                  · rw [h] at hg; simp at hg
                  · show l.last = _
                    rw [h, hg]
                    simp [List.getLast?_append, List.getLast?_cons_cons]
                · refine Or.inr ⟨z, la, h1, h2, ?_, h4⟩
                  have hla : la ≠ n := fun e => H.ln (by rw [hids]; simp) (by rw [h2, e])
                  intro hin
                  apply h3
                  rw [hg]
                  simp at hin ⊢
                  rcases hin with h | h | h | h | h
                  · exact Or.inl h
                  · exact Or.inr (Or.inl h)
                  · exact absurd h hla
                  · exact Or.inr (Or.inr (Or.inl h))
                  · exact Or.inr (Or.inr (Or.inr h))
            · intro p _
              simp only [bk, upd]
              (repeat' split) <;> simp_all
          · rw [if_neg hge] at hr
            exact ih c (A ++ [b]) B (by simp [hids]) hr
      · rw [if_neg hlt, if_neg hne] at hr
        cases hr
    · -- the final, damaged cell
      have hbe : b ∈ e := (List.mem_append.mp hbm).resolve_left hbg
      rcases S.md with ⟨he, _⟩ | ⟨z, la, h1, h2, h3, h4⟩
      · rw [he] at hbe; simp at hbe
      · rw [h1] at hbe; simp at hbe; subst hbe
        have hB : B = [] := by
          cases B with
          | nil => rfl
          | cons c B =>
            exfalso
            rw [h1] at hids
            have h5 : (g ++ [b]).getLast? = (A ++ b :: c :: B).getLast? := by rw [hids]
            have h6 : (A ++ b :: c :: B).getLast? = (c :: B).getLast? := by
              rw [List.getLast?_append, List.getLast?_cons_cons]
              obtain ⟨y, hy⟩ : ∃ y, (c :: B).getLast? = some y := ⟨_, List.getLast?_eq_some_getLast (by simp)⟩
              rw [hy]; rfl
            rw [h6] at h5
            simp only [List.getLast?_append, List.getLast?_singleton, Option.some_or] at h5
            have hnd := S.nd
            rw [h1, hids] at hnd
            exact (List.nodup_cons.mp (List.nodup_append.mp hnd).2.1).1 (List.mem_of_getLast? h5.symm)
        subst hB
        simp only [insertLoop, hnext, List.head?_nil] at hr
        split at hr
        · split at hr
          · injection hr with hr; subst hr
            exact ⟨g, S, Or.inl rfl, fun p _ => rfl, rfl, rfl⟩
          · injection hr with hr; subst hr
            exact same _ (fun x => ⟨rfl, rfl⟩) hbg hbn
        · split at hr
          · cases hr
          · split at hr
            · split at hr
              · injection hr with hr; subst hr
                exact ⟨g, S, Or.inl rfl, fun p _ => rfl, rfl, rfl⟩
              · injection hr with hr; subst hr
                exact same _ (fun x => ⟨rfl, rfl⟩) hbg hbn
            · split at hr
              · split at hr
                · injection hr with hr; subst hr
                  exact same _ (fun x => ⟨rfl, rfl⟩) hbg hbn
                · injection hr with hr; subst hr
                  exact same _ (fun x => ⟨rfl, rfl⟩) hbg hbn
              · cases hr

/-- `insert`. -/
theorem insert_weak {l l' : FL} {n : Nat} {g e : List Nat} (H : PreIns l n g e)
    (hr : l.insert n = some l') : ∃ g', Ins l l' n g g' e := by
  have S := H.str
  unfold FL.insert at hr
  cases hids : g ++ e with
  | nil =>
    obtain ⟨hg, he⟩ := List.append_eq_nil_iff.mp hids
    subst hg he
    have hf : l.first = none := by rw [S.fst]; rfl
    rw [hf] at hr
    injection hr with hr; subst hr
    refine ⟨[n], ?_, Or.inr ⟨[], [], rfl, rfl⟩, fun p _ => rfl, rfl, rfl⟩
    refine ⟨⟨Or.inl rfl, by simpa using H.nn, trivial⟩, rfl, by simp, ?_, ?_, Or.inl ⟨rfl, Or.inr rfl⟩⟩
    · intro p hp; simp at hp; subst hp; exact H.nl
    · intro p hp r hr; simp at hp; subst hp
      have := H.np
      simp only at hr; rw [this] at hr; cases hr
  | cons f rest =>
    have hf : l.first = some f := by rw [S.fst, hids]; rfl
    have hne : g ++ e ≠ [] := by rw [hids]; simp
    rw [hf] at hr
    have hfm : f ∈ g ++ e := by rw [hids]; simp
    have hfn : f ≠ n := fun h => H.nm (by rw [← h]; exact hfm)
    cases hla : l.last with
    | none => rw [hla] at hr; cases hr
    | some la =>
      rw [hla] at hr
      simp only at hr
      have hlan : la ≠ n := fun h => H.ln hne (by rw [hla, h])
      split at hr
      · -- at or behind the last cell
        rcases S.md with ⟨he, h⟩ | ⟨z, la', h1, h2, h3, h4⟩
        · subst he
          have hgl : l.last = g.getLast? := by
            rcases h with h | h
            · exact absurd (by rw [h]; rfl) hne
            · exact h
          rw [hla] at hgl
          have hlag : la ∈ g := List.mem_of_getLast? hgl.symm
          obtain ⟨hno, _⟩ := not_overlaps (H.dj la hlag).symm H.ns (H.ps la hlag)
          rw [hno] at hr
          simp only [Bool.false_eq_true, if_false] at hr
          injection hr with hr; subst hr
          have hnm : n ∉ g := by have := H.nm; simpa using this
          refine ⟨g ++ [n], ?_, Or.inr ⟨g, [], by simp, rfl⟩, ?_, rfl, rfl⟩
          · refine Str.link (A := g) (B := []) H rfl (by simp) ?_ ?_ rfl (Or.inl ⟨rfl, by simp⟩)
            · refine ⟨?_, ?_, by simp, by simp, ?_, ?_⟩
              · intro p hp
                have hpn : p ≠ n := fun e => hnm (e ▸ hp)
                simp only [upd, if_neg hpn]
                split
                · rename_i h; subst h; rfl
                · rfl
              · intro p hp
                have hpn : p ≠ n := fun e => hnm (e ▸ hp)
                rw [← hgl]
                simp only [upd, if_neg hpn]
                by_cases hpl : p = la
                · subst hpl; simp
                · have : ¬ (some la = some p) := by simp; exact fun e => hpl e.symm
                  rw [if_neg hpl, if_neg this]
              · simp [upd]
              · rw [← hgl]; simp [upd]
            · simp only [List.append_nil] at hids
              rw [hids]; rfl
          · intro p _
            simp only [bk, upd]
            (repeat' split) <;> simp_all
        · rw [hla] at h2; injection h2 with h2; subst h2
          have hlaf : ∀ p ∈ g ++ e, p ≠ la := fun p hp e => h3 (e ▸ hp)
          have hpn : ∀ p ∈ g ++ e, p ≠ n := fun p hp e => H.nm (e ▸ hp)
          split at hr
          · split at hr
            · injection hr with hr; subst hr
              exact ⟨g, S, Or.inl rfl, fun p _ => rfl, rfl, rfl⟩
            · injection hr with hr; subst hr
              refine ⟨g, S.congr (fun p hp => ?_) rfl rfl (Nat.le_refl _), Or.inl rfl, ?_, rfl, rfl⟩
              · simp only [FL.addSize, upd_other _ _ _ _ (hlaf p hp), and_self]
              · intro p hp
                have : p ≠ la := by
                  rcases List.mem_cons.mp hp with h | h
                  · rw [h]; exact fun e => hlan e.symm
                  · exact hlaf p (by simp [h])
                simp [FL.addSize, bk, upd, this]
          · injection hr with hr; subst hr
            refine ⟨g, ?_, Or.inl rfl, ?_, rfl, rfl⟩
            · have S1 : Str { l with heap := upd (upd l.heap la (fun x => { x with next := some n })) n (fun x => { x with prev := some la, next := none }) } g e := by
                refine S.congr (fun p hp => ?_) rfl rfl (Nat.le_refl _)
                simp only [upd_other _ _ _ _ (hpn p hp), upd_other _ _ _ _ (hlaf p hp), and_self]
              exact ⟨S1.sg, by rw [hids]; rfl, S1.nd, S1.lt, S1.pl, Or.inr ⟨z, n, h1, rfl, H.nm, H.nl⟩⟩
            · intro p hp
              simp only [bk, upd]
              (repeat' split) <;> simp_all
      · split at hr
        · -- before the first cell
          split at hr
          · rename_i hov
            have hfg : f ∉ g := by
              intro h
              have := (not_overlaps (H.dj f h).symm H.ns (H.ps f h)).1
              rw [this] at hov; cases hov
            split at hr
            · injection hr with hr; subst hr
              exact ⟨g, S, Or.inl rfl, fun p _ => rfl, rfl, rfl⟩
            · injection hr with hr; subst hr
              refine ⟨g, S.congr (fun p hp => ?_) (by simp [FL.addSize, hf]) rfl (Nat.le_refl _), Or.inl rfl, ?_, rfl, rfl⟩
              · simp only [FL.addSize, upd]
                split
                · rename_i h; subst h; exact ⟨rfl, rfl⟩
                · exact ⟨rfl, rfl⟩
              · intro p hp
                have : p ≠ f := by
                  rcases List.mem_cons.mp hp with h | h
                  · rw [h]; exact fun e => hfn e.symm
                  · exact fun e => hfg (e ▸ h)
                simp [FL.addSize, bk, upd, this]
          · injection hr with hr; subst hr
            refine ⟨n :: g, ?_, Or.inr ⟨[], g, rfl, rfl⟩, ?_, rfl, rfl⟩
            · refine Str.link (A := []) (B := g ++ e) H rfl rfl ?_ rfl rfl ?_
              · refine ⟨by simp, by simp, ?_, ?_, ?_, ?_⟩
                · intro p hp
                  have hpn : p ≠ n := fun e => H.nm (e ▸ hp)
                  simp only [upd, if_neg hpn]
                  split
                  · rename_i h; subst h; rfl
                  · rfl
                · intro p hp
                  have hpn : p ≠ n := fun e => H.nm (e ▸ hp)
                  rw [hids]
                  simp only [upd, if_neg hpn, List.head?_cons]
                  by_cases hpf : p = f
                  · subst hpf; simp
                  · have : ¬ (some f = some p) := by simp; exact fun e => hpf e.symm
                    rw [if_neg hpf]
                    exact (if_neg this).symm
                · rw [hids]; simp [upd]
                · have : n ≠ f := fun e => hfn e.symm
                  simp [upd, this, H.np]
              · rcases S.md with ⟨he, h⟩ | ⟨z, la', h1, h2, h3, h4⟩
                · subst he
                  refine Or.inl ⟨rfl, ?_⟩
                  have hgl : l.last = g.getLast? := by
                    rcases h with h | h
                    · exact absurd (by rw [h]; rfl) hne
                    · exact h
                  show some la = _
                  rw [← hla, hgl]
                  cases g with
                  | nil => exact absurd rfl hne
                  | cons a g => rw [List.getLast?_cons_cons]
                · rw [hla] at h2; injection h2 with h2; subst h2
                  refine Or.inr ⟨z, la, h1, rfl, ?_, h4⟩
                  simp only [List.cons_append, List.mem_cons, not_or]
                  exact ⟨hlan, h3⟩
            · intro p _
              simp only [bk, upd]
              (repeat' split) <;> simp_all
        · exact insertLoop_weak H l.fresh f [] rest (by rw [hids]; rfl) hr

/-- Reading off the links at a position of the chain. -/
theorem Str.at_ {l : FL} {g e A B : List Nat} {b : Nat} (S : Str l g e) (hids : g ++ e = A ++ b :: B) :
    (l.heap b).next = B.head? ∧ WP (g ++ e) A.getLast? (l.heap b).prev := by
  have h := S.sg
  rw [hids, seg_append] at h
  refine ⟨by simpa using h.2.2.1, ?_⟩
  rw [hids]
  simpa using h.2.1

/-- What taking a cell out of the list does: afterwards the rest of `g` is still genuine, or (damaged list)
only a part of it. -/
structure Rem (l l' : FL) (p : Nat) (g g' e' : List Nat) : Prop where
  str : Str l' g' e'
  sub : g'.Sublist (g.erase p)
  pm : p ∈ g
  bkk : ∀ q, bk l'.heap q = bk l.heap q
  fr : l'.fresh = l.fresh
  cl : l'.clobbered = l.clobbered

theorem erase_mid {A B : List Nat} {p : Nat} (hn : p ∉ A) : (A ++ p :: B).erase p = A ++ B := by
  rw [List.erase_append_right _ hn, List.erase_cons_head]

theorem remove_weak {l l' : FL} {p : Nat} {g e : List Nat} (S : Str l g e) (hp : p ∈ g ++ e)
    (hr : l.remove p = some l') : ∃ g' e', Rem l l' p g g' e' := by
  obtain ⟨A, B, hids⟩ := List.append_of_mem hp
  obtain ⟨hnext, hprev⟩ := S.at_ hids
  have hnd := S.nd
  rw [hids] at hnd
  have hnd1 := List.nodup_append.mp hnd
  have hnd2 := List.nodup_cons.mp hnd1.2.1
  have hpA : p ∉ A := fun h => hnd1.2.2 p h p (by simp) rfl
  have hpB : p ∉ B := hnd2.1
  have hAB : ∀ a ∈ A, ∀ b ∈ B, a ≠ b := fun a ha b hb => hnd1.2.2 a ha b (by simp [hb])
  -- `p` must be in the genuine part
  have hpg : p ∈ g := by
    apply Classical.byContradiction
    intro hpg
    have hpe : p ∈ e := (List.mem_append.mp hp).resolve_left hpg
    rcases S.md with ⟨he, _⟩ | ⟨z, la, h1, h2, h3, h4⟩
    · rw [he] at hpe; simp at hpe
    · rw [h1] at hpe; simp at hpe; subst hpe
      have hn : (l.heap p).next = none := by
        obtain ⟨h5, _⟩ := S.at_ (A := g) (b := p) (B := []) (by rw [h1])
        simpa using h5
      have hlp : l.last ≠ some p := by rw [h2]; intro h; injection h with h; exact h3 (by rw [h]; exact hp)
      unfold FL.remove at hr
      by_cases hf : l.first = some p
      · simp [hf, hlp, hn] at hr
      · rw [if_neg hf] at hr
        cases hpr : (l.heap p).prev with
        | none => simp [hpr] at hr
        | some q =>
          simp only [hpr, Option.bind_some, if_neg hlp] at hr
          have : (upd l.heap q (fun x => { x with next := (l.heap p).next }) p).next = none := by
            simp only [upd]; split
            · exact hn
            · exact hn
          simp [this] at hr
  obtain ⟨G, hg, hG⟩ := split_at_g hids S.nd hpg
  have hlast : l.last = some p → e = [] ∧ B = [] := by
    intro h
    rcases S.md with ⟨he, h'⟩ | ⟨z, la, h1, h2, h3, h4⟩
    · refine ⟨he, ?_⟩
      rw [he, List.append_nil] at hG; subst hG
      rcases h' with h' | h'
      · rw [h'] at hg; simp at hg
      · rw [h, hg] at h'
        cases B with
        | nil => rfl
        | cons c B =>
          exfalso
          rw [List.getLast?_append, List.getLast?_cons_cons] at h'
          obtain ⟨y, hy⟩ : ∃ y, (c :: B).getLast? = some y := ⟨_, List.getLast?_eq_some_getLast (by simp)⟩
          rw [hy] at h'
          simp at h'; subst h'
          exact hpB (List.mem_of_getLast? hy)
    · rw [h] at h2; injection h2 with h2
      exact absurd (by rw [← h2]; exact hp) h3
  have lastB : l.last ≠ some p → B = [] → False := by
    intro h hB
    have hGe : G = [] ∧ e = [] := by
      rw [hB] at hG; exact List.append_eq_nil_iff.mp hG.symm
    rcases S.md with ⟨_, h'⟩ | ⟨z, la, h1, _, _, _⟩
    · rcases h' with h' | h'
      · rw [h'] at hg; simp at hg
      · rw [hg, hGe.1] at h'
        simp at h'; exact h h'
    · rw [hGe.2] at h1; cases h1
  have ids' : (A ++ G) ++ e = A ++ B := by rw [hG]; simp
  have sub : (A ++ G).Sublist (g.erase p) := by rw [hg, erase_mid hpA]; exact List.Sublist.refl _
  have wsub : ∀ pv x, WP (g ++ e) pv x → WP (A ++ B) pv x := by
    intro pv x h
    rcases h with h | h | h
    · exact Or.inl h
    · exact Or.inr (Or.inl h)
    · exact Or.inr (Or.inr (fun r hr hin => h r hr (by rw [hids]; simp at hin ⊢; grind)))
  have sgs : seg (WP (A ++ B)) l.heap none (A ++ p :: B) none := by
    rw [← hids]
    exact seg_mono none _ none (fun q _ a h => wsub a _ h) S.sg
  have memAB : ∀ q, q ∈ A ++ B → q ∈ g ++ e := by
    intro q hq; rw [hids]; simp at hq ⊢; grind
  unfold FL.remove at hr
  by_cases hf : l.first = some p
  · -- first cell
    have hA : A = [] := by
      rw [S.fst, hids] at hf
      cases A with
      | nil => rfl
      | cons a A => simp at hf; subst hf; simp at hpA
    subst hA
    rw [if_pos hf] at hr
    simp only [Option.bind_some] at hr
    by_cases hl : l.last = some p
    · obtain ⟨he, hB⟩ := hlast hl
      subst he hB
      rw [if_pos hl] at hr
      simp only [Option.map_some] at hr
      injection hr with hr; subst hr
      have hGn : G = [] := by simpa using hG.symm
      subst hGn
      refine ⟨[], [], ⟨trivial, by simpa using hnext, by simp, by simp, by simp, Or.inl ⟨rfl, Or.inl rfl⟩⟩, by simp, hpg, ?_, rfl, rfl⟩
      intro q; apply bk_upd; intro _; simp [bk, upd]
    · rw [if_neg hl] at hr
      cases hB : B with
      | nil => exact absurd hB (fun h => lastB hl h)
      | cons c B' =>
        have hn : (l.heap p).next = some c := by rw [hnext, hB]; rfl
        simp only [hn, Option.map_some] at hr
        injection hr with hr; subst hr
        refine ⟨[] ++ G, e, ⟨?_, ?_, ?_, ?_, ?_, ?_⟩, sub, hpg, ?_, rfl, rfl⟩
        · rw [ids']
          refine seg_remove [] B p hnd (by simp) (by simp) ?_ ?_ ?_ sgs
          · intro q hq
            have : q ≠ p := fun e => hpB (e ▸ hq)
            simp only [upd, if_neg this]
            split
            · rename_i h; subst h; rfl
            · rfl
          · intro q hq
            have : q ≠ p := fun e => hpB (e ▸ List.mem_of_mem_tail hq)
            have hqc : q ≠ c := by
              rw [hB] at hq hnd2
              intro e; subst e; exact (List.nodup_cons.mp hnd2.2).1 hq
            simp only [upd, if_neg this, if_neg hqc]
          · intro q _; exact Or.inl rfl
        · rw [ids', hB]; rfl
        · rw [ids']; exact hnd2.2
        · rw [ids']; intro q hq; exact S.lt q (memAB q hq)
        · rw [ids']; intro q hq r hr
          have : q ≠ p := fun e => hpB (e ▸ (by simpa using hq))
          simp only [upd, if_neg this] at hr
          split at hr
          · exact S.pl p hp r hr
          · exact S.pl q (memAB q hq) r hr
        · rcases S.md with ⟨he, h'⟩ | ⟨z, la, h1, h2, h3, h4⟩
          · refine Or.inl ⟨he, Or.inr ?_⟩
            rw [he, List.append_nil] at hG; subst hG
            rcases h' with h' | h'
            · rw [h'] at hg; simp at hg
            · show l.last = _
              rw [h', hg, hB]
              simp [List.getLast?_cons_cons]
          · exact Or.inr ⟨z, la, h1, h2, by rw [ids']; exact fun h => h3 (memAB la h), h4⟩
        · intro q
          rw [bk_upd, bk_upd]
          · intro _; simp [bk, upd]
          · intro _; simp [bk, upd]
  · rw [if_neg hf] at hr
    have hAne : A ≠ [] := by
      intro h
      apply hf; rw [S.fst, hids, h]; rfl
    obtain ⟨A', a, hAa⟩ : ∃ A' a, A = A' ++ [a] := ⟨A.dropLast, A.getLast hAne, (List.dropLast_concat_getLast hAne).symm⟩
    have hAl : A.getLast? = some a := by rw [hAa]; simp
    cases hpr : (l.heap p).prev with
    | none => simp [hpr] at hr
    | some r0 =>
      simp only [hpr, Option.bind_some] at hr
      have hr0lt : r0 < l.fresh := S.pl p hp r0 hpr
      rw [hAl, hpr] at hprev
      have hr0p : r0 ≠ p := by
        rcases hprev with h | h | h
        · cases h
        · injection h with h; subst h
          intro e; subst e; exact hpA (by rw [hAa]; simp)
        · intro e; subst e; exact h _ rfl hp
      by_cases hra : r0 = a
      · -- the right predecessor
        subst hra
        have hnp : (upd l.heap r0 (fun x => { x with next := (l.heap p).next }) p) = l.heap p :=
          upd_other _ _ _ _ (fun e => hr0p e.symm)
        rw [hnp] at hr
        by_cases hl : l.last = some p
        · obtain ⟨he, hB⟩ := hlast hl
          subst he hB
          rw [if_pos hl] at hr
          simp only [Option.map_some] at hr
          injection hr with hr; subst hr
          have hGn : G = [] := by simpa using hG.symm
          subst hGn
          refine ⟨A ++ [], [], ⟨?_, ?_, ?_, ?_, ?_, ?_⟩, sub, hpg, ?_, rfl, rfl⟩
          · rw [ids']
            refine seg_remove A [] p hnd ?_ ?_ (by simp) (by simp) (by simp) sgs
            · intro q hq
              have : q ≠ p := fun e => hpA (e ▸ hq)
              simp only [upd, if_neg this]
              split
              · rename_i h; subst h; rfl
              · rfl
            · intro q hq
              have : q ≠ p := fun e => hpA (e ▸ hq)
              rw [hAl]
              simp only [upd, if_neg this]
              by_cases hqa : q = r0
              · subst hqa; simp [hnext]
              · have : ¬ (some r0 = some q) := by simp; exact fun e => hqa e.symm
                rw [if_neg hqa, if_neg this]
          · rw [ids']
            show l.first = _
            rw [S.fst, hids]
            cases A with
            | nil => exact absurd rfl hAne
            | cons x A => rfl
          · rw [ids']; simpa using hnd1.1
          · rw [ids']; intro q hq; exact S.lt q (memAB q hq)
          · rw [ids']; intro q hq r hr
            have : q ≠ p := fun e => hpA (e ▸ (by simpa using hq))
            simp only [upd, if_neg this] at hr
            split at hr
            · rename_i h; subst h; exact S.pl q (memAB q hq) r hr
            · exact S.pl q (memAB q hq) r hr
          · refine Or.inl ⟨rfl, Or.inr ?_⟩
            simp only [List.append_nil]
            rw [hAl]; exact hpr
          · intro q
            rw [bk_upd, bk_upd]
            · intro _; simp [bk, upd]
            · intro _; simp [bk, upd]
        · rw [if_neg hl] at hr
          cases hB : B with
          | nil => exact absurd hB (fun h => lastB hl h)
          | cons c B' =>
            have hn : (l.heap p).next = some c := by rw [hnext, hB]; rfl
            simp only [hn, Option.map_some] at hr
            injection hr with hr; subst hr
            have hcB : c ∈ B := by rw [hB]; simp
            have hcp : c ≠ p := fun e => hpB (e ▸ hcB)
            have hcr : c ≠ r0 := fun e => hAB r0 (by rw [hAa]; simp) c hcB e.symm
            refine ⟨A ++ G, e, ⟨?_, ?_, ?_, ?_, ?_, ?_⟩, sub, hpg, ?_, rfl, rfl⟩
            · rw [ids']
              refine seg_remove A B p hnd ?_ ?_ ?_ ?_ ?_ sgs
              · intro q hq
                have h1 : q ≠ p := fun e => hpA (e ▸ hq)
                have h2 : q ≠ c := hAB q hq c hcB
                simp only [upd, if_neg h1, if_neg h2]
                split
                · rename_i h; subst h; rfl
                · rfl
              · intro q hq
                have h1 : q ≠ p := fun e => hpA (e ▸ hq)
                have h2 : q ≠ c := hAB q hq c hcB
                rw [hAl, hB]
                simp only [upd, if_neg h1, if_neg h2, List.head?_cons]
                by_cases hqa : q = r0
                · subst hqa; simp
                · have : ¬ (some r0 = some q) := by simp; exact fun e => hqa e.symm
                  rw [if_neg hqa, if_neg this]
              · intro q hq
                have h1 : q ≠ p := fun e => hpB (e ▸ hq)
                have h2 : q ≠ r0 := fun e => hAB r0 (by rw [hAa]; simp) q hq e.symm
                simp only [upd, if_neg h1]
                split
                · rename_i h; subst h; simp
                · simp
              · intro q hq
                have hq' := List.mem_of_mem_tail hq
                have h1 : q ≠ p := fun e => hpB (e ▸ hq')
                have h2 : q ≠ r0 := fun e => hAB r0 (by rw [hAa]; simp) q hq' e.symm
                have h3 : q ≠ c := by
                  rw [hB] at hq hnd2
                  intro e; subst e; exact (List.nodup_cons.mp hnd2.2).1 hq
                simp only [upd, if_neg h1, if_neg h2, if_neg h3]
              · intro q hq
                rw [hB] at hq; simp at hq; subst hq
                refine Or.inr (Or.inl ?_)
                rw [hAl]
                simp [upd, hcp, hpr]
            · rw [ids']
              show l.first = _
              rw [S.fst, hids]
              cases A with
              | nil => exact absurd rfl hAne
              | cons x A => rfl
            · rw [ids']; exact List.nodup_append.mpr ⟨hnd1.1, hnd2.2, hAB⟩
            · rw [ids']; intro q hq; exact S.lt q (memAB q hq)
            · rw [ids']; intro q hq r hr
              have h1 : q ≠ p := by
                intro e; subst e
                rcases List.mem_append.mp hq with h | h
                · exact hpA h
                · exact hpB h
              simp only [upd, if_neg h1] at hr
              split at hr
              · rw [hpr] at hr; injection hr with hr; subst hr; exact hr0lt
              · split at hr
                · rename_i h; subst h; exact S.pl q (memAB q hq) r hr
                · exact S.pl q (memAB q hq) r hr
            · rcases S.md with ⟨he, h'⟩ | ⟨z, la, h1, h2, h3, h4⟩
              · refine Or.inl ⟨he, Or.inr ?_⟩
                rw [he, List.append_nil] at hG; subst hG
                rcases h' with h' | h'
                · rw [h'] at hg; simp at hg
                · show l.last = _
                  rw [h', hg, hB]
                  simp only [List.getLast?_append, List.getLast?_cons_cons]
              · exact Or.inr ⟨z, la, h1, h2, by rw [ids']; exact fun h => h3 (memAB la h), h4⟩
            · intro q
              rw [bk_upd, bk_upd, bk_upd]
              · intro _; simp [bk, upd]
              · intro _; simp [bk, upd]
              · intro _; simp [bk, upd]
      · -- a stale predecessor: the chain is cut behind `p`
        have hr0I : r0 ∉ g ++ e := by
          rcases hprev with h | h | h
          · cases h
          · injection h with h; exact absurd h hra
          · exact h r0 rfl
        have hnp : (upd l.heap r0 (fun x => { x with next := (l.heap p).next }) p) = l.heap p :=
          upd_other _ _ _ _ (fun e => hr0p e.symm)
        rw [hnp] at hr
        have hsub : A.Sublist (g.erase p) := by
          rw [hg, erase_mid hpA]; exact List.sublist_append_left _ _
        have hAp : ∀ q, q ∈ A ++ [p] → q ∈ g ++ e := by
          intro q hq; rw [hids]; simp at hq ⊢; grind
        -- common part: any heap that agrees with the old one on `A`, and has cut `p`
        have cut : ∀ l2 : FL, (∀ q ∈ A, (l2.heap q).next = (l.heap q).next ∧ (l2.heap q).prev = (l.heap q).prev) →
            (l2.heap p).next = none → (l2.heap p).prev = none → l2.first = l.first → l2.fresh = l.fresh →
            (∃ la, l2.last = some la ∧ la ∉ A ++ [p] ∧ la < l.fresh) → Str l2 A [p] := by
          intro l2 h1 h2 h3 h4 h5 h6
          refine ⟨?_, ?_, ?_, ?_, ?_, ?_⟩
          · have hseg : seg (WP (A ++ [p])) l.heap none (A ++ p :: B) none := by
              rw [← hids]
              refine seg_mono none _ none ?_ S.sg
              intro q _ pv hw
              rcases hw with h | h | h
              · exact Or.inl h
              · exact Or.inr (Or.inl h)
              · exact Or.inr (Or.inr (fun r hr hin => h r hr (hAp r hin)))
            rw [seg_append] at hseg ⊢
            refine ⟨?_, ?_, ?_, trivial⟩
            · have := seg_congr (h' := l2.heap) none A _ h1 hseg.1
              simpa using this
            · rw [h3]; exact Or.inr (Or.inr (by simp))
            · rw [h2]; rfl
          · rw [h4, S.fst, hids]
            cases A with
            | nil => exact absurd rfl hAne
            | cons x A => rfl
          · refine List.nodup_append.mpr ⟨hnd1.1, by simp, ?_⟩
            intro x hx y hy; simp at hy; subst hy; exact fun e => hpA (e ▸ hx)
          · intro q hq; rw [h5]; exact S.lt q (hAp q hq)
          · intro q hq r hqr
            rw [h5]
            rcases List.mem_append.mp hq with h | h
            · rw [(h1 q h).2] at hqr; exact S.pl q (hAp q hq) r hqr
            · simp at h; rw [h, h3] at hqr; cases hqr
          · obtain ⟨la, a1, a2, a3⟩ := h6
            exact Or.inr ⟨p, la, rfl, a1, a2, by omega⟩
        by_cases hl : l.last = some p
        · rw [if_pos hl] at hr
          simp only [Option.map_some] at hr
          injection hr with hr; subst hr
          refine ⟨A, [p], cut _ ?_ (by simp [upd]) (by simp [upd]) rfl rfl ?_, hsub, hpg, ?_, rfl, rfl⟩
          · intro q hq
            have h1 : q ≠ p := fun e => hpA (e ▸ hq)
            have h2 : q ≠ r0 := fun e => hr0I (by rw [← e]; exact hAp q (by simp [hq]))
            simp [upd, h1, h2]
          · exact ⟨r0, hpr, fun h => hr0I (hAp _ h), hr0lt⟩
          · intro q
            rw [bk_upd, bk_upd]
            · intro _; simp [bk, upd]
            · intro _; simp [bk, upd]
        · rw [if_neg hl] at hr
          cases hB : B with
          | nil => exact absurd hB (fun h => lastB hl h)
          | cons c B' =>
            have hn : (l.heap p).next = some c := by rw [hnext, hB]; rfl
            simp only [hn, Option.map_some] at hr
            injection hr with hr; subst hr
            have hcB : c ∈ B := by rw [hB]; simp
            refine ⟨A, [p], cut _ ?_ (by simp [upd]) (by simp [upd]) rfl rfl ?_, hsub, hpg, ?_, rfl, rfl⟩
            · intro q hq
              have h1 : q ≠ p := fun e => hpA (e ▸ hq)
              have h2 : q ≠ r0 := fun e => hr0I (by rw [← e]; exact hAp q (by simp [hq]))
              have h3 : q ≠ c := hAB q hq c hcB
              simp [upd, h1, h2, h3]
            · rcases S.md with ⟨he, h'⟩ | ⟨z, la, h1, h2, h3, h4⟩
              · rw [he, List.append_nil] at hG; subst hG
                rcases h' with h' | h'
                · rw [h'] at hg; simp at hg
                · rw [hg, hB, List.getLast?_append, List.getLast?_cons_cons] at h'
                  obtain ⟨y, hy⟩ : ∃ y, (c :: B').getLast? = some y := ⟨_, List.getLast?_eq_some_getLast (by simp)⟩
                  rw [hy] at h'
                  have hyB : y ∈ B := by rw [hB]; exact List.mem_of_getLast? hy
                  refine ⟨y, h', ?_, ?_⟩
                  · intro hin
                    rcases List.mem_append.mp hin with h | h
                    · exact hAB y h y hyB rfl
                    · simp at h; subst h; exact hpB hyB
                  · exact S.lt y (by rw [hids]; simp [hyB])
              · exact ⟨la, h2, fun h => h3 (hAp la h), h4⟩
            · intro q
              rw [bk_upd, bk_upd, bk_upd]
              · intro _; simp [bk, upd]
              · intro _; simp [bk, upd]
              · intro _; simp [bk, upd]

end Verif.BFC
