import Verif.BFC.Weak
/-!
The memory ranges of the free list and of the client, and the effect of every operation of the allocator on
them.  Valid for the code as it is, damaged lists included.
-/
set_option autoImplicit false
namespace Verif.BFC

/-- Free ranges `F` and used ranges `U` tile a part of `[0, R)`. -/
structure Lay (bs R : Int) (F U : List (Int × Int)) : Prop where
  dj : (F ++ U).Pairwise Disj
  ok : ∀ b ∈ F ++ U, 0 ≤ b.1 ∧ 0 < b.2 ∧ b.1 + b.2 ≤ R
  fa : ∀ b ∈ F, bs ∣ b.1 ∨ b.2 < bs
  ua : ∀ b ∈ U, bs ∣ b.1

section
variable {bs R : Int} {F F' U U' : List (Int × Int)} {a b : Int × Int}

theorem pw_perm {L L' : List (Int × Int)} (h : L.Perm L') (hp : L.Pairwise Disj) : L'.Pairwise Disj :=
  (h.pairwise_iff (fun h => Disj.symm h)).mp hp

theorem Lay.perm (H : Lay bs R F U) (h : F.Perm F') (h2 : U.Perm U') : Lay bs R F' U' where
  dj := pw_perm (h.append h2) H.dj
  ok := fun b hb => H.ok b ((h.append h2).mem_iff.mpr hb)
  fa := fun b hb => H.fa b (h.mem_iff.mpr hb)
  ua := fun b hb => H.ua b (h2.mem_iff.mpr hb)

theorem Lay.sub (H : Lay bs R F U) (h : F'.Sublist F) : Lay bs R F' U where
  dj := H.dj.sublist (h.append (List.Sublist.refl _))
  ok := fun b hb => H.ok b ((h.append (List.Sublist.refl _)).subset hb)
  fa := fun b hb => H.fa b (h.subset hb)
  ua := H.ua

theorem Lay.join (H : Lay bs R (a :: b :: F) U) (hab : a.1 + a.2 = b.1) (ha : bs ∣ a.1) :
    Lay bs R ((a.1, a.2 + b.2) :: F) U := by
  have h1 := List.pairwise_cons.mp H.dj
  have h2 := List.pairwise_cons.mp h1.2
  have oa := H.ok a (by simp)
  have ob := H.ok b (by simp)
  refine ⟨List.pairwise_cons.mpr ⟨?_, h2.2⟩, ?_, ?_, H.ua⟩
  · intro c hc
    have c1 := h1.1 c (by simp at hc ⊢; grind)
    have c2 := h2.1 c hc
    simp only [Disj] at c1 c2 ⊢
    have := H.ok c (by simp at hc ⊢; grind)
    omega
  · intro c hc
    simp only [List.cons_append, List.mem_cons] at hc
    rcases hc with rfl | hc
    · dsimp only; omega
    · exact H.ok c (by simp at hc ⊢; grind)
  · intro c hc
    simp only [List.mem_cons] at hc
    rcases hc with rfl | hc
    · exact Or.inl ha
    · exact H.fa c (by simp [hc])

theorem Lay.split (H : Lay bs R (a :: F) U) {s : Int} (hs : 0 < s) (hs2 : s < a.2) (ha : bs ∣ a.1)
    (hr : bs ∣ s ∨ a.2 - s < bs) : Lay bs R ((a.1 + s, a.2 - s) :: (a.1, s) :: F) U := by
  have h1 := List.pairwise_cons.mp H.dj
  have oa := H.ok a (by simp)
  refine ⟨?_, ?_, ?_, H.ua⟩
  · refine List.pairwise_cons.mpr ⟨?_, List.pairwise_cons.mpr ⟨?_, h1.2⟩⟩
    · intro c hc
      rcases List.mem_cons.mp hc with rfl | hc
      · simp only [Disj]; omega
      · have := h1.1 c hc
        simp only [Disj] at this ⊢; omega
    · intro c hc
      have := h1.1 c hc
      simp only [Disj] at this ⊢; omega
  · intro c hc
    simp only [List.cons_append, List.mem_cons] at hc
    rcases hc with rfl | rfl | hc
    · simp only; omega
    · simp only; omega
    · exact H.ok c (by simp at hc ⊢; grind)
  · intro c hc
    simp only [List.mem_cons] at hc
    rcases hc with rfl | rfl | hc
    · rcases hr with h | h
      · exact Or.inl (Int.dvd_add ha h)
      · exact Or.inr h
    · exact Or.inl ha
    · exact H.fa c (by simp [hc])

theorem Lay.use (H : Lay bs R (a :: F) U) (ha : bs ∣ a.1) : Lay bs R F (a :: U) where
  dj := pw_perm List.perm_middle.symm H.dj
  ok := fun c hc => H.ok c (List.perm_middle.mem_iff.mp hc)
  fa := fun c hc => H.fa c (by simp [hc])
  ua := by
    intro c hc
    rcases List.mem_cons.mp hc with rfl | h
    · exact ha
    · exact H.ua c h

theorem Lay.unuse (H : Lay bs R F (a :: U)) : Lay bs R (a :: F) U where
  dj := pw_perm List.perm_middle H.dj
  ok := fun c hc => H.ok c (List.perm_middle.mem_iff.mpr hc)
  fa := by
    intro c hc
    rcases List.mem_cons.mp hc with rfl | h
    · exact Or.inl (H.ua _ (by simp))
    · exact H.fa c h
  ua := fun c hc => H.ua c (by simp [hc])
end

/-! ### Merging two neighbours -/

/-- Address and size of the cells after a merge. -/
theorem merge_bk (rp : Bool) (l : FL) (p q r : Nat) :
    bk (l.merge rp p q).heap r = if r = p then ((l.heap p).addr, (l.heap p).size + (l.heap q).size) else bk l.heap r := by
  unfold FL.merge
  simp only
  rw [bk_upd _ q r]
  · have : ∀ h : Nat → Blk, ∀ x : Nat, bk (upd h x (fun y => { y with prev := some p })) r = bk h r := by
      intro h x; apply bk_upd; intro _; simp [bk, upd]
    split
    · rw [this]; by_cases e : r = p <;> simp [bk, upd, e]
    · by_cases e : r = p <;> simp [bk, upd, e]
  · intro _; simp [bk, upd]

/-- The pointers after a merge: `p` skips `q`; the cell after it is repaired or not. -/
theorem merge_links (rp : Bool) (l : FL) (p q r : Nat) (hr : r ≠ q) :
    ((l.merge rp p q).heap r).next = (if r = p then (l.heap q).next else (l.heap r).next) ∧
    ((l.merge rp p q).heap r).prev = (if rp = true ∧ (l.heap q).next = some r then some p else (l.heap r).prev) := by
  unfold FL.merge
  simp only [upd_other _ q r _ hr]
  cases rp with
  | false =>
    by_cases e : r = p
    · subst e; simp [upd]
    · simp [upd, e]
  | true =>
    cases hn : (l.heap q).next with
    | none => by_cases e : r = p <;> simp [upd, e]
    | some c =>
      by_cases e : r = p
      · subst e
        by_cases ec : r = c
        · subst ec; simp [upd]
        · have : c ≠ r := fun h => ec h.symm
          simp [upd, ec, this]
      · by_cases ec : r = c
        · subst ec; simp [upd, e]
        · have : c ≠ r := fun h => ec h.symm
          simp [upd, e, ec, this]

theorem bk_eq (h : Nat → Blk) (p : Nat) : bk h p = ((h p).addr, (h p).size) := rfl

theorem map_bk_congr {h h' : Nat → Blk} {L : List Nat} (H : ∀ p ∈ L, bk h' p = bk h p) :
    L.map (bk h') = L.map (bk h) := List.map_congr_left H

theorem merge_weak {l : FL} {p q : Nat} {g e : List Nat} {bs R : Int} {U : List (Int × Int)} (rp : Bool)
    (S : Str l g e) (L : Lay bs R (g.map (bk l.heap)) U) (hp : p ∈ g ++ e) (hn : (l.heap p).next = some q)
    (hc : (l.heap p).cap = (l.heap q).addr) (ha : bs ∣ (l.heap p).addr) :
    ∃ g' e', Str (l.merge rp p q) g' e' ∧ Lay bs R (g'.map (bk (l.merge rp p q).heap)) U ∧ p ∈ g' ++ e' := by
  obtain ⟨A, B0, hids⟩ := List.append_of_mem hp
  obtain ⟨hnx, hprev⟩ := S.at_ hids
  obtain ⟨B, rfl⟩ : ∃ B, B0 = q :: B := by
    rw [hn] at hnx
    cases B0 with
    | nil => simp at hnx
    | cons x B => simp at hnx; subst hnx; exact ⟨B, rfl⟩
  have hqn := (S.at_ (A := A ++ [p]) (b := q) (B := B) (by simp [hids])).1
  have hnd := S.nd
  rw [hids] at hnd
  have hnd1 := List.nodup_append.mp hnd
  have hnd2 := List.nodup_cons.mp hnd1.2.1
  have hnd3 := List.nodup_cons.mp hnd2.2
  have hpq : p ≠ q := fun e => hnd2.1 (by simp [e])
  have hpA : p ∉ A := fun h => hnd1.2.2 p h p (by simp) rfl
  have hqA : q ∉ A := fun h => hnd1.2.2 q h q (by simp) rfl
  have hpB : p ∉ B := fun h => hnd2.1 (by simp [h])
  have hqB : q ∉ B := hnd3.1
  have hAB : ∀ a ∈ A, ∀ b ∈ B, a ≠ b := fun a ha b hb => hnd1.2.2 a ha b (by simp [hb])
  have mem' : ∀ r, r ∈ A ++ p :: B → r ∈ g ++ e ∧ r ≠ q := by
    intro r hr
    constructor
    · rw [hids]; simp at hr ⊢; grind
    · intro h; subst h; simp at hr; grind
  -- the new chain
  have segs : seg (WP (A ++ p :: B)) (l.merge rp p q).heap none (A ++ p :: B) none := by
    have h0 : seg (fun pv x => WP (A ++ p :: q :: B) pv x) l.heap none (A ++ p :: q :: B) none := by
      rw [← hids]; exact S.sg
    have w : ∀ pv x, WP (A ++ p :: q :: B) pv x → WP (A ++ p :: B) pv x := by
      intro pv x h
      rcases h with h | h | h
      · exact Or.inl h
      · exact Or.inr (Or.inl h)
      · exact Or.inr (Or.inr fun r hr hin => h r hr (by simp at hin ⊢; grind))
    rw [seg_append] at h0 ⊢
    obtain ⟨h1, h2, h3, h4, h5, h6⟩ := h0
    refine ⟨?_, ?_, ?_, ?_⟩
    · have hsc : ∀ r ∈ A, ((l.merge rp p q).heap r).next = (l.heap r).next ∧ ((l.merge rp p q).heap r).prev = (l.heap r).prev := by
        intro r hr
        obtain ⟨m1, m2⟩ := merge_links rp l p q r (fun e => hqA (e ▸ hr))
        rw [m1, m2, if_neg (fun (e : r = p) => hpA (e ▸ hr)), if_neg]
        · exact ⟨rfl, rfl⟩
        · rintro ⟨_, h⟩
          rw [hqn] at h
          exact hAB r hr r (List.mem_of_mem_head? h) rfl
      have := seg_congr (h' := (l.merge rp p q).heap) none A _ hsc (seg_mono none A _ (fun r _ pv => w pv _) h1)
      simpa using this
    · obtain ⟨m1, m2⟩ := merge_links rp l p q p hpq
      rw [m2, if_neg]
      · exact w _ _ h2
      · rintro ⟨_, h⟩
        rw [hqn] at h
        exact hpB (List.mem_of_mem_head? h)
    · obtain ⟨m1, m2⟩ := merge_links rp l p q p hpq
      rw [m1, if_pos rfl, hqn]; simp
    · refine seg_right (some q) (some p) B none hnd3.2 ?_ ?_ ?_ (seg_mono _ B _ (fun r _ pv => w pv _) h6)
      · intro r hr
        obtain ⟨m1, m2⟩ := merge_links rp l p q r (fun e => hqB (e ▸ hr))
        rw [m1, if_neg (fun (e : r = p) => hpB (e ▸ hr))]
      · intro r hr
        obtain ⟨m1, m2⟩ := merge_links rp l p q r (fun e => hqB (e ▸ List.mem_of_mem_tail hr))
        rw [m2, if_neg]
        rintro ⟨_, h⟩
        rw [hqn] at h
        cases B with
        | nil => simp at hr
        | cons c B => simp at h; subst h; exact (List.nodup_cons.mp hnd3.2).1 hr
      · intro r hr
        obtain ⟨m1, m2⟩ := merge_links rp l p q r (fun e => hqB (e ▸ List.mem_of_mem_head? hr))
        rw [m2]
        split
        · exact Or.inr (Or.inl rfl)
        · cases B with
          | nil => simp at hr
          | cons c B =>
            simp at hr; subst hr
            obtain ⟨h7, _⟩ := h6
            rcases h7 with h | h | h
            · cases h
            · refine Or.inr (Or.inr ?_)
              intro s hs hin
              rw [h] at hs; injection hs with hs; subst hs
              simp at hin; grind
            · exact w _ _ (Or.inr (Or.inr h))
  have hfirst : (l.merge rp p q).first = (A ++ p :: B).head? := by
    show l.first = _
    rw [S.fst, hids]; cases A <;> rfl
  have nd' : (A ++ p :: B).Nodup := by
    refine List.nodup_append.mpr ⟨hnd1.1, List.nodup_cons.mpr ⟨hpB, hnd3.2⟩, ?_⟩
    intro a ha b hb; exact hnd1.2.2 a ha b (by simp at hb ⊢; grind)
  have lt' : ∀ r ∈ A ++ p :: B, r < (l.merge rp p q).fresh := fun r hr => S.lt r (mem' r hr).1
  have pl' : ∀ r ∈ A ++ p :: B, ∀ s, ((l.merge rp p q).heap r).prev = some s → s < (l.merge rp p q).fresh := by
    intro r hr s hs
    rw [(merge_links rp l p q r (mem' r hr).2).2] at hs
    split at hs
    · injection hs with hs; subst hs; exact S.lt _ hp
    · exact S.pl r (mem' r hr).1 s hs
  have hqm : q ∈ g ++ e := by rw [hids]; simp
  by_cases hqg : q ∈ g
  · obtain ⟨G, hg, hG⟩ := split_at_g (A := A ++ [p]) (b := q) (B := B) (by simp [hids]) S.nd hqg
    have hg : g = A ++ p :: q :: G := by rw [hg]; simp
    refine ⟨A ++ p :: G, e, ?_, ?_, by simp⟩
    · have hid' : (A ++ p :: G) ++ e = A ++ p :: B := by rw [hG]; simp
      refine ⟨by rw [hid']; exact segs, by rw [hid']; exact hfirst, by rw [hid']; exact nd', by rw [hid']; exact lt',
        by rw [hid']; exact pl', ?_⟩
      have hlast : (l.merge rp p q).last = if l.last = some q then some p else l.last := rfl
      rcases S.md with ⟨he, h'⟩ | ⟨z, la, h1, h2, h3, h4⟩
      · refine Or.inl ⟨he, Or.inr ?_⟩
        have h' : l.last = g.getLast? := by
          rcases h' with h' | h'
          · rw [h'] at hg; simp at hg
          · exact h'
        rw [hlast]
        cases hGc : G with
        | nil =>
          have : l.last = some q := by rw [h', hg, hGc]; simp
          rw [if_pos this]; simp
        | cons c G' =>
          have hl : l.last = (c :: G').getLast? := by
            rw [h', hg, hGc]
            rw [List.getLast?_append, List.getLast?_cons_cons, List.getLast?_cons_cons]
            obtain ⟨y, hy⟩ : ∃ y, (c :: G').getLast? = some y := ⟨_, List.getLast?_eq_some_getLast (by simp)⟩
            rw [hy]; rfl
          have : ¬ l.last = some q := by
            intro h
            rw [hl] at h
            have := List.mem_of_getLast? h
            exact hqB (by rw [hG, hGc]; simp at this ⊢; grind)
          rw [if_neg this, hl]
          rw [List.getLast?_append, List.getLast?_cons_cons]
          obtain ⟨y, hy⟩ : ∃ y, (c :: G').getLast? = some y := ⟨_, List.getLast?_eq_some_getLast (by simp)⟩
          rw [hy]; rfl
      · refine Or.inr ⟨z, la, h1, ?_, ?_, h4⟩
        · rw [hlast, if_neg]
          · exact h2
          · rw [h2]; intro h; injection h with h; subst h; exact h3 hqm
        · rw [hid']; exact fun h => h3 (mem' la h).1
    · rw [hg] at L
      have L1 : Lay bs R (bk l.heap p :: bk l.heap q :: (A ++ G).map (bk l.heap)) U := by
        refine L.perm ?_ (List.Perm.refl _)
        have : (A ++ p :: q :: G).Perm (p :: q :: (A ++ G)) := by
          refine List.perm_middle.trans (List.Perm.cons p List.perm_middle)
        simpa using this.map (bk l.heap)
      have L2 := L1.join (by simpa [bk, Blk.cap] using hc) ha
      refine L2.perm ?_ (List.Perm.refl _)
      have e1 : (A ++ G).map (bk (l.merge rp p q).heap) = (A ++ G).map (bk l.heap) := by
        apply map_bk_congr
        intro r hr
        rw [merge_bk rp l p q r, if_neg]
        intro h; subst h
        rcases List.mem_append.mp hr with h | h
        · exact hpA h
        · exact hpB (by rw [hG]; simp [h])
      have e2 : bk (l.merge rp p q).heap p = ((bk l.heap p).1, (bk l.heap p).2 + (bk l.heap q).2) := by
        rw [merge_bk rp l p q p, if_pos rfl]; rfl
      rw [← e2, ← e1]
      have : (p :: (A ++ G)).Perm (A ++ p :: G) := List.perm_middle.symm
      simpa using this.map (bk (l.merge rp p q).heap)
  · -- the cell swallowed is the end of a damaged list
    have hqe : q ∈ e := (List.mem_append.mp hqm).resolve_left hqg
    rcases S.md with ⟨he, h'⟩ | ⟨z, la, h1, h2, h3, h4⟩
    · rw [he] at hqe; simp at hqe
    · have hqz : q = z := by rw [h1] at hqe; simpa using hqe
      subst hqz
      have hgA : g = A ++ [p] ∧ B = [] := by
        have h5 : g ++ [q] = (A ++ [p]) ++ q :: B := by rw [← h1, hids]; simp
        have h6 : B = [] := by
          cases hB : B with
          | nil => rfl
          | cons c B' =>
            exfalso
            have := congrArg List.getLast? h5
            rw [hB] at this
            simp only [List.getLast?_append, List.getLast?_cons_cons, List.getLast?_singleton] at this
            obtain ⟨y, hy⟩ : ∃ y, (c :: B').getLast? = some y := ⟨_, List.getLast?_eq_some_getLast (by simp)⟩
            rw [hy] at this
            simp at this
            exact hqB (by rw [hB, this]; exact List.mem_of_getLast? hy)
        subst h6
        exact ⟨List.append_cancel_right h5, rfl⟩
      obtain ⟨hg, hB⟩ := hgA
      subst hB
      refine ⟨A, [p], ⟨segs, hfirst, nd', lt', pl', ?_⟩, ?_, by simp⟩
      · refine Or.inr ⟨p, la, rfl, ?_, fun h => h3 (mem' la h).1, h4⟩
        show (if l.last = some q then some p else l.last) = _
        rw [if_neg]
        · exact h2
        · rw [h2]; intro h; injection h with h; subst h; exact h3 hqm
      · have : A.map (bk (l.merge rp p q).heap) = A.map (bk l.heap) := by
          apply map_bk_congr
          intro r hr
          rw [merge_bk rp l p q r, if_neg (fun (e : r = p) => hpA (e ▸ hr))]
        rw [this]
        refine L.sub ?_
        rw [hg]; simp

/-- The state of the free list, with the client's ranges `U`. -/
def W (bs R : Int) (U : List (Int × Int)) (l : FL) (g e : List Nat) : Prop :=
  Str l g e ∧ Lay bs R (g.map (bk l.heap)) U

theorem inner_weak (rp : Bool) {bs R : Int} {U : List (Int × Int)} {p : Nat} : ∀ (fuel : Nat) {l l' : FL}
    {g e : List Nat}, W bs R U l g e → p ∈ g ++ e → bs ∣ (l.heap p).addr →
    innerLoop rp fuel l p = some l' → ∃ g' e', W bs R U l' g' e' ∧ p ∈ g' ++ e'
  | 0, _, _, _, _, _, _, _, h => by simp [innerLoop] at h
  | fuel + 1, l, l', g, e, H, hp, ha, h => by
    rw [innerLoop] at h
    split at h
    · injection h with h; subst h; exact ⟨g, e, H, hp⟩
    · rename_i q hq
      split at h
      · rename_i hc
        obtain ⟨g', e', S', L', hp'⟩ := merge_weak rp H.1 H.2 hp hq hc ha
        have hpq : p ≠ q := by
          intro e1; subst e1
          obtain ⟨A, B, hids⟩ := List.append_of_mem hp
          have := (H.1.at_ hids).1
          rw [hq] at this
          have hnd := H.1.nd
          rw [hids] at hnd
          exact (List.nodup_cons.mp (List.nodup_append.mp hnd).2.1).1 (List.mem_of_mem_head? this.symm)
        refine inner_weak rp fuel ⟨S', L'⟩ hp' ?_ h
        have := merge_bk rp l p q p
        rw [if_pos rfl] at this
        have : ((l.merge rp p q).heap p).addr = (l.heap p).addr := congrArg Prod.fst this
        rw [this]; exact ha
      · split at h
        · cases h
        · injection h with h; subst h; exact ⟨g, e, H, hp⟩

theorem Str.next_mem {l : FL} {g e : List Nat} (S : Str l g e) {p q : Nat} (hp : p ∈ g ++ e)
    (hn : (l.heap p).next = some q) : q ∈ g ++ e := by
  obtain ⟨A, B, hids⟩ := List.append_of_mem hp
  have := (S.at_ hids).1
  rw [hn] at this
  rw [hids]
  have := List.mem_of_mem_head? this.symm
  simp [this]

theorem outer_weak (rp : Bool) {bs R : Int} {U : List (Int × Int)} : ∀ (fuel : Nat) {l l' : FL}
    {g e : List Nat} {x : Option Nat}, W bs R U l g e → (∀ p, x = some p → p ∈ g ++ e) →
    outerLoop rp bs fuel l x = some l' → ∃ g' e', W bs R U l' g' e'
  | fuel, l, l', g, e, none, H, hx, h => by
    have : l = l' := by cases fuel <;> (rw [outerLoop] at h; injection h)
    subst this; exact ⟨g, e, H⟩
  | 0, l, l', g, e, some p, H, hx, h => by simp [outerLoop] at h
  | fuel + 1, l, l', g, e, some p, H, hx, h => by
    rw [outerLoop] at h
    split at h
    · exact outer_weak rp fuel H (fun q hq => H.1.next_mem (hx p rfl) hq) h
    · rename_i ha
      simp only [ne_eq, Classical.not_not] at ha
      cases hi : innerLoop rp (l.fresh + 1) l p with
      | none => rw [hi] at h; cases h
      | some l1 =>
        rw [hi, Option.bind_some] at h
        obtain ⟨g1, e1, H1, hp1⟩ := inner_weak rp _ H (hx p rfl) (Int.dvd_of_emod_eq_zero ha) hi
        exact outer_weak rp fuel H1 (fun q hq => H1.1.next_mem hp1 hq) h

theorem coalesce_weak (rp : Bool) {bs R : Int} {U : List (Int × Int)} {l l' : FL} {g e : List Nat}
    (H : W bs R U l g e) (h : l.coalesce rp bs = some l') : ∃ g' e', W bs R U l' g' e' := by
  refine outer_weak rp _ H ?_ h
  intro p hp
  rw [H.1.fst] at hp
  exact List.mem_of_mem_head? hp

theorem bestFitLoop_mem {l : FL} {g e : List Nat} (S : Str l g e) (size : Int) : ∀ (fuel : Nat) (x : Option Nat),
    (∀ p, x = some p → p ∈ g ++ e) → ∀ p, bestFitLoop l.heap size fuel x = some (some p) →
    p ∈ g ++ e ∧ size ≤ (l.heap p).size
  | fuel, none, _, p, h => by cases fuel <;> (rw [bestFitLoop] at h; simp at h)
  | 0, some q, _, p, h => by simp [bestFitLoop] at h
  | fuel + 1, some q, hx, p, h => by
    rw [bestFitLoop] at h
    split at h
    · rename_i hs
      simp at h; subst h; exact ⟨hx _ rfl, hs⟩
    · exact bestFitLoop_mem S size fuel _ (fun r hr => S.next_mem (hx q rfl) hr) p h

theorem bestFit_mem {l : FL} {g e : List Nat} (S : Str l g e) {size : Int} {p : Nat}
    (h : l.bestFit size = some (some p)) : p ∈ g ++ e ∧ size ≤ (l.heap p).size := by
  refine bestFitLoop_mem S size _ _ ?_ p h
  intro q hq
  rw [S.fst] at hq
  exact List.mem_of_mem_head? hq

/-! ### The end of a damaged list cannot be taken out -/

theorem insertLoop_end {l l' : FL} {n z : Nat} (hz : z ≠ n) : ∀ (fuel b : Nat),
    l.last ≠ some z → (l.heap z).next = none → insertLoop l n fuel b = some l' →
    l'.last ≠ some z ∧ (l'.heap z).next = none
  | 0, b, _, _, h => by simp [insertLoop] at h
  | fuel + 1, b, h1, h2, h => by
    rw [insertLoop] at h
    simp only at h
    split at h
    · split at h <;> (injection h with h; subst h)
      · exact ⟨h1, h2⟩
      · refine ⟨h1, ?_⟩
        simp only [FL.addSize, upd]; split
        · rename_i e; subst e; exact h2
        · exact h2
    · split at h
      · split at h
        · cases h
        · rename_i c hc
          split at h
          · injection h with h; subst h
            refine ⟨h1, ?_⟩
            have hb : z ≠ b := by intro e; subst e; rw [h2] at hc; cases hc
            simp only [upd, hz, hb, if_false]
            split
            · rename_i e; subst e; simp [hz, hb, h2]
            · exact h2
          · exact insertLoop_end hz fuel c h1 h2 h
      · split at h
        · split at h <;> (injection h with h; subst h)
          · exact ⟨h1, h2⟩
          · refine ⟨h1, ?_⟩
            simp only [upd]; split
            · rename_i e; subst e; exact h2
            · exact h2
        · split at h
          · split at h <;> (injection h with h; subst h)
            · refine ⟨h1, ?_⟩
              simp only [upd]; split
              · rename_i e; subst e; exact h2
              · exact h2
            · refine ⟨h1, ?_⟩
              simp only [upd]; split
              · rename_i e; subst e; exact h2
              · exact h2
          · cases h

theorem insert_end {l l' : FL} {n z : Nat} (hz : z ≠ n) (h1 : l.last ≠ some z) (h2 : (l.heap z).next = none)
    (h : l.insert n = some l') : l'.last ≠ some z ∧ (l'.heap z).next = none := by
  unfold FL.insert at h
  split at h
  · injection h with h; subst h
    exact ⟨by simp; exact fun e => hz e.symm, h2⟩
  · rename_i f hf
    split at h
    · cases h
    · rename_i la hla
      have hlz : z ≠ la := by intro e; subst e; exact h1 hla
      simp only at h
      split at h
      · split at h
        · split at h <;> (injection h with h; subst h)
          · exact ⟨h1, h2⟩
          · exact ⟨h1, by simp [FL.addSize, upd, hlz, h2]⟩
        · injection h with h; subst h
          refine ⟨by simp; exact fun e => hz e.symm, ?_⟩
          simp [upd, hz, hlz, h2]
      · split at h
        · split at h
          · split at h <;> (injection h with h; subst h)
            · exact ⟨h1, h2⟩
            · refine ⟨h1, ?_⟩
              simp only [FL.addSize, upd]; split
              · rename_i e; subst e; exact h2
              · exact h2
          · injection h with h; subst h
            refine ⟨h1, ?_⟩
            simp only [upd, if_neg hz]
            split
            · rename_i e; subst e; exact h2
            · exact h2
        · exact insertLoop_end hz _ _ h1 h2 h

theorem splitInsert_end {l l' : FL} {z : Nat} {p : Nat} {s : Int} (hz : z < l.fresh) (h1 : l.last ≠ some z)
    (h2 : (l.heap z).next = none) (h : l.splitInsert p s = some l') :
    l'.last ≠ some z ∧ (l'.heap z).next = none := by
  unfold FL.splitInsert at h
  split at h
  · simp only at h
    refine insert_end (l := FL.newBlock _ _ _) (by omega) ?_ ?_ h
    · exact h1
    · have : z ≠ l.fresh := by omega
      simp only [FL.newBlock, upd, if_neg this]
      split
      · rename_i e; subst e; exact h2
      · exact h2
  · injection h with h; subst h; exact ⟨h1, h2⟩

theorem insertLoop_fresh {l l' : FL} {n : Nat} : ∀ (fuel b : Nat),
    insertLoop l n fuel b = some l' → l'.fresh = l.fresh
  | 0, b, h => by simp [insertLoop] at h
  | fuel + 1, b, h => by
    rw [insertLoop] at h
    simp only at h
    split at h
    · split at h <;> (injection h with h; subst h; rfl)
    · split at h
      · split at h
        · cases h
        · split at h
          · injection h with h; subst h; rfl
          · exact insertLoop_fresh fuel _ h
      · split at h
        · split at h <;> (injection h with h; subst h; rfl)
        · split at h
          · split at h <;> (injection h with h; subst h; rfl)
          · cases h

theorem insert_fresh {l l' : FL} {n : Nat} (h : l.insert n = some l') : l'.fresh = l.fresh := by
  unfold FL.insert at h
  split at h
  · injection h with h; subst h; rfl
  · split at h
    · cases h
    · simp only at h
      split at h
      · split at h
        · split at h <;> (injection h with h; subst h; rfl)
        · injection h with h; subst h; rfl
      · split at h
        · split at h
          · split at h <;> (injection h with h; subst h; rfl)
          · injection h with h; subst h; rfl
        · exact insertLoop_fresh _ _ h

theorem splitInsert_fresh {l l' : FL} {p : Nat} {s : Int} (h : l.splitInsert p s = some l') : l.fresh ≤ l'.fresh := by
  unfold FL.splitInsert at h
  split at h
  · have := insert_fresh h
    rw [this]; simp [FL.newBlock]
  · injection h with h; subst h; exact Nat.le_refl _

theorem remove_end {l : FL} {z : Nat} (h1 : l.last ≠ some z) (h2 : (l.heap z).next = none) : l.remove z = none := by
  unfold FL.remove
  by_cases hf : l.first = some z
  · simp [hf, h1, h2]
  · rw [if_neg hf]
    cases hpr : (l.heap z).prev with
    | none => rfl
    | some q =>
      simp only [Option.bind_some, if_neg h1]
      have : (upd l.heap q (fun x => { x with next := (l.heap z).next }) z).next = none := by
        simp only [upd]; split <;> exact h2
      rw [this]; rfl

theorem splitOrRemove_end {l : FL} {z : Nat} {a s : Int} (hz : z < l.fresh) (h1 : l.last ≠ some z)
    (h2 : (l.heap z).next = none) : l.splitOrRemove z a s = none := by
  unfold FL.splitOrRemove
  cases e1 : l.splitInsert z a with
  | none => rfl
  | some l1 =>
    rw [Option.bind_some]
    obtain ⟨a1, a2⟩ := splitInsert_end hz h1 h2 e1
    cases e2 : l1.splitInsert z s with
    | none => rfl
    | some l2 =>
      rw [Option.bind_some]
      obtain ⟨b1, b2⟩ := splitInsert_end (Nat.lt_of_lt_of_le hz (splitInsert_fresh e1)) a1 a2 e2
      exact remove_end b1 b2

end Verif.BFC
