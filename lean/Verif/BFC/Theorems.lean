import Verif.BFC.Strong
/-!
C27: what holds of the allocator while its free list is undamaged: always for the repaired program, and for the
code of the repository as long as `coalesce` has left no stale pointer behind.  And the histories on which the
code as it is breaks.
-/
set_option autoImplicit false
namespace Verif.BFC

/-- Total size of a list of ranges. -/
def tot (F : List (Int × Int)) : Int := (F.map (·.2)).sum

theorem tot_perm {F F' : List (Int × Int)} (h : F.Perm F') : tot F = tot F' := by
  unfold tot
  induction h with
  | nil => rfl
  | cons x _ ih => simp [ih]
  | swap x y l => simp; omega
  | trans _ _ h1 h2 => rw [h1, h2]

/-- A sound free list, its layout, and the total of the free memory. -/
structure J (bs R : Int) (U : List (Int × Int)) (T : Int) (l : FL) (ids : List Nat) : Prop where
  sg : Sg l ids
  lay : Lay bs R (ids.map (bk l.heap)) U
  sum : tot (ids.map (bk l.heap)) = T

variable {bs R T : Int} {U : List (Int × Int)}

/-- Every range of the first list is part of one of the second. -/
def Cov (l : FL) (ids : List Nat) (l' : FL) (ids' : List Nat) : Prop :=
  ∀ q ∈ ids, ∃ p ∈ ids', (l'.heap p).addr ≤ (l.heap q).addr ∧ (l.heap q).cap ≤ (l'.heap p).cap

theorem Cov.refl (l : FL) (ids : List Nat) : Cov l ids l ids := fun q hq => ⟨q, hq, Int.le_refl _, Int.le_refl _⟩

theorem Cov.trans {l l' l'' : FL} {i i' i'' : List Nat} (h : Cov l i l' i') (h' : Cov l' i' l'' i'') : Cov l i l'' i'' := by
  intro q hq
  obtain ⟨p, hp, a, b⟩ := h q hq
  obtain ⟨r, hr, c, d⟩ := h' p hp
  exact ⟨r, hr, by omega, by omega⟩

theorem merge_J {l : FL} {p q : Nat} {A B : List Nat} (H : J bs R U T l (A ++ p :: q :: B))
    (hc : (l.heap p).cap = (l.heap q).addr) (ha : bs ∣ (l.heap p).addr) :
    J bs R U T (l.merge true p q) (A ++ p :: B) ∧ ((l.merge true p q).heap p).addr = (l.heap p).addr ∧
    (l.merge true p q).fresh = l.fresh ∧ (l.merge true p q).clobbered = l.clobbered ∧
    Cov l (A ++ p :: q :: B) (l.merge true p q) (A ++ p :: B) := by
  obtain ⟨S', hfr, hcl⟩ := merge_strong H.sg hc
  have hnd1 := List.nodup_append.mp H.sg.nd
  have hnd2 := List.nodup_cons.mp hnd1.2.1
  have hpA : p ∉ A := fun h => hnd1.2.2 p h p (by simp) rfl
  have hpB : p ∉ B := fun h => hnd2.1 (by simp [h])
  have P1 : ((A ++ p :: q :: B).map (bk l.heap)).Perm (bk l.heap p :: bk l.heap q :: (A ++ B).map (bk l.heap)) := by
    have : (A ++ p :: q :: B).Perm (p :: q :: (A ++ B)) :=
      List.perm_middle.trans (List.Perm.cons p List.perm_middle)
    simpa using this.map (bk l.heap)
  have e1 : (A ++ B).map (bk (l.merge true p q).heap) = (A ++ B).map (bk l.heap) := by
    apply map_bk_congr
    intro r hr
    rw [merge_bk true l p q r, if_neg]
    intro h; subst h
    rcases List.mem_append.mp hr with h | h
    · exact hpA h
    · exact hpB h
  have e2 : bk (l.merge true p q).heap p = ((bk l.heap p).1, (bk l.heap p).2 + (bk l.heap q).2) := by
    rw [merge_bk true l p q p, if_pos rfl]; rfl
  have P2 : (((bk l.heap p).1, (bk l.heap p).2 + (bk l.heap q).2) :: (A ++ B).map (bk l.heap)).Perm
      ((A ++ p :: B).map (bk (l.merge true p q).heap)) := by
    rw [← e2, ← e1]
    have : (p :: (A ++ B)).Perm (A ++ p :: B) := List.perm_middle.symm
    simpa using this.map (bk (l.merge true p q).heap)
  have hcov : Cov l (A ++ p :: q :: B) (l.merge true p q) (A ++ p :: B) := by
    have f1 : ((l.merge true p q).heap p).addr = (l.heap p).addr := congrArg Prod.fst e2
    have f2 : ((l.merge true p q).heap p).size = (l.heap p).size + (l.heap q).size := congrArg Prod.snd e2
    have sp := H.sg.ps p (by simp)
    have sq := H.sg.ps q (by simp)
    intro r hr
    by_cases h1 : r = p
    · subst h1; exact ⟨r, by simp, by omega, by simp only [Blk.cap]; omega⟩
    · by_cases h2 : r = q
      · subst h2; refine ⟨p, by simp, ?_, ?_⟩ <;> simp only [Blk.cap] at hc ⊢ <;> omega
      · have e3 : bk (l.merge true p q).heap r = bk l.heap r := by rw [merge_bk true l p q r, if_neg h1]
        have g1 : ((l.merge true p q).heap r).addr = (l.heap r).addr := congrArg Prod.fst e3
        have g2 : ((l.merge true p q).heap r).size = (l.heap r).size := congrArg Prod.snd e3
        refine ⟨r, ?_, by omega, by simp only [Blk.cap]; omega⟩
        simp only [List.mem_append, List.mem_cons] at hr ⊢
        tauto
  refine ⟨⟨S', ?_, ?_⟩, congrArg Prod.fst e2, hfr, hcl, hcov⟩
  · exact ((H.lay.perm P1 (List.Perm.refl _)).join (by simpa [bk, Blk.cap] using hc) ha).perm P2 (List.Perm.refl _)
  · rw [← tot_perm P2, ← H.sum, tot_perm P1]
    simp [tot]; omega

theorem inner_J {p : Nat} : ∀ (fuel : Nat) {l : FL} {A B : List Nat}, J bs R U T l (A ++ p :: B) →
    bs ∣ (l.heap p).addr → B.length < fuel →
    ∃ l' B', innerLoop true fuel l p = some l' ∧ J bs R U T l' (A ++ p :: B') ∧ B'.length ≤ B.length ∧
      l'.fresh = l.fresh ∧ l'.clobbered = l.clobbered ∧ Cov l (A ++ p :: B) l' (A ++ p :: B')
  | 0, l, A, B, _, _, hf => by omega
  | fuel + 1, l, A, B, H, ha, hf => by
    rw [innerLoop]
    have hn := (H.sg.at_ rfl).1
    cases B with
    | nil =>
      have hn : (l.heap p).next = none := hn
      rw [hn]
      exact ⟨l, [], rfl, H, Nat.le_refl _, rfl, rfl, Cov.refl _ _⟩
    | cons q B =>
      have hn : (l.heap p).next = some q := hn
      rw [hn]
      simp only
      by_cases hc : (l.heap p).cap = (l.heap q).addr
      · rw [if_pos hc]
        obtain ⟨H', h1, h2, h3, h4⟩ := merge_J H hc ha
        obtain ⟨l', B', j1, j2, j3, j4, j5, j6⟩ := inner_J fuel H' (by rw [h1]; exact ha) (by simp at hf; omega)
        exact ⟨l', B', j1, j2, by simp; omega, by rw [j4, h2], by rw [j5, h3], h4.trans j6⟩
      · rw [if_neg hc]
        have hso := (List.pairwise_cons.mp (List.pairwise_append.mp H.sg.so).2.1).1 q (by simp)
        have hov := (not_overlaps (h := l.heap) (a := p) (b := q) (Or.inl hso) (H.sg.ps p (by simp)) (H.sg.ps q (by simp))).1
        rw [hov]
        exact ⟨l, q :: B, by simp, H, Nat.le_refl _, rfl, rfl, Cov.refl _ _⟩

theorem outer_J : ∀ (fuel : Nat) {l : FL} {A B : List Nat}, J bs R U T l (A ++ B) → B.length < fuel →
    ∃ l' ids', outerLoop true bs fuel l B.head? = some l' ∧ J bs R U T l' ids' ∧
      l'.fresh = l.fresh ∧ l'.clobbered = l.clobbered ∧ Cov l (A ++ B) l' ids'
  | 0, l, A, B, _, hf => by omega
  | fuel + 1, l, A, [], H, hf => ⟨l, A ++ [], by simp [outerLoop], H, rfl, rfl, Cov.refl _ _⟩
  | fuel + 1, l, A, p :: B, H, hf => by
    rw [List.head?_cons, outerLoop]
    split
    · have hn := (H.sg.at_ rfl).1
      rw [hn]
      have H' : J bs R U T l ((A ++ [p]) ++ B) := by simpa using H
      have := outer_J fuel H' (by simp at hf; omega)
      simpa using this
    · rename_i ha
      simp only [ne_eq, Classical.not_not] at ha
      have hlen := H.sg.length_le
      obtain ⟨l1, B1, j1, j2, j3, j4, j5, j6⟩ := inner_J (l.fresh + 1) H (Int.dvd_of_emod_eq_zero ha) (by simp at hlen; omega)
      rw [j1, Option.bind_some]
      have hn := (j2.sg.at_ rfl).1
      rw [hn]
      have H' : J bs R U T l1 ((A ++ [p]) ++ B1) := by simpa using j2
      obtain ⟨l', ids', k1, k2, k3, k4, k5⟩ := outer_J fuel H' (by simp at hf; omega)
      exact ⟨l', ids', k1, k2, by rw [k3, j4], by rw [k4, j5], j6.trans (by simpa using k5)⟩

theorem coalesce_J {l : FL} {ids : List Nat} (H : J bs R U T l ids) :
    ∃ l' ids', l.coalesce true bs = some l' ∧ J bs R U T l' ids' ∧ l'.fresh = l.fresh ∧ l'.clobbered = l.clobbered ∧
      Cov l ids l' ids' := by
  unfold FL.coalesce
  rw [H.sg.fst]
  have := H.sg.length_le
  exact outer_J (A := []) _ H (by omega)

theorem bestFitLoop_J {l : FL} {size : Int} : ∀ (fuel : Nat) {A B : List Nat}, Sg l (A ++ B) → B.length < fuel →
    bestFitLoop l.heap size fuel B.head? = some (B.find? (fun p => decide (size ≤ (l.heap p).size)))
  | 0, A, B, _, hf => by omega
  | fuel + 1, A, [], H, hf => by simp [bestFitLoop]
  | fuel + 1, A, p :: B, H, hf => by
    rw [List.head?_cons, bestFitLoop]
    split
    · rename_i h
      rw [List.find?_cons_of_pos (by simpa using h)]
    · rename_i h
      rw [List.find?_cons_of_neg (by simpa using h)]
      have hn := (H.at_ rfl).1
      rw [hn]
      have H' : Sg l ((A ++ [p]) ++ B) := by simpa using H
      exact bestFitLoop_J fuel H' (by simp at hf; omega)

theorem bestFit_J {l : FL} {size : Int} {ids : List Nat} (S : Sg l ids) :
    l.bestFit size = some (ids.find? (fun p => decide (size ≤ (l.heap p).size))) := by
  unfold FL.bestFit
  rw [S.fst]
  have := S.length_le
  exact bestFitLoop_J (A := []) _ S (by omega)

theorem fresh_preS {l : FL} {ids : List Nat} (S : Sg l ids) {a s : Int}
    (L : Lay bs R ((a, s) :: ids.map (bk l.heap)) U) : PreS (l.newBlock a s) l.fresh ids := by
  have ne : ∀ p ∈ ids, p ≠ l.fresh := fun p hp h => by have := S.lt p hp; omega
  have hsame : ∀ p, p ≠ l.fresh → (l.newBlock a s).heap p = l.heap p := fun p hp => by simp [FL.newBlock, upd, hp]
  have hnew : (l.newBlock a s).heap l.fresh = ⟨a, s, none, none⟩ := by simp [FL.newBlock, upd]
  have hd := List.pairwise_cons.mp L.dj
  refine ⟨⟨?_, S.fst, S.lst, S.nd, ?_, ?_, ?_, S.ln⟩, fun h => ne _ h rfl, by simp [FL.newBlock], by rw [hnew], by rw [hnew], ?_, ?_⟩
  · refine seg_congr _ _ _ ?_ S.sg
    intro p hp; rw [hsame p (ne p hp)]; exact ⟨rfl, rfl⟩
  · intro p hp
    have := S.lt p hp
    simp [FL.newBlock]; omega
  · refine S.so.imp_of_mem ?_
    intro a b ha hb h
    rw [hsame a (ne a ha), hsame b (ne b hb)]; exact h
  · intro p hp; rw [hsame p (ne p hp)]; exact S.ps p hp
  · intro p hp
    rw [bk, bk, hnew, hsame p (ne p hp)]
    exact (hd.1 (bk l.heap p) (by simp; exact Or.inl ⟨p, hp, rfl⟩)).symm
  · rw [hnew]; exact (L.ok (a, s) (by simp)).2.1

theorem insert_new_J {l : FL} {ids : List Nat} (S : Sg l ids) {a s : Int}
    (L : Lay bs R ((a, s) :: ids.map (bk l.heap)) U) :
    ∃ l' ids', (l.newBlock a s).insert l.fresh = some l' ∧
      J bs R U (tot (ids.map (bk l.heap)) + s) l' ids' ∧ (∀ p ∈ ids, p ∈ ids' ∧ bk l'.heap p = bk l.heap p) ∧
      l'.clobbered = l.clobbered ∧ ∃ q ∈ ids', bk l'.heap q = (a, s) := by
  obtain ⟨A, B, l', hids, hi, I⟩ := insert_strong (fresh_preS S L)
  have ne : ∀ p ∈ ids, p ≠ l.fresh := fun p hp h => by have := S.lt p hp; omega
  have hb : ∀ p ∈ ids, bk l'.heap p = bk l.heap p := by
    intro p hp
    rw [I.bkk p]
    simp only [bk, FL.newBlock, upd_other _ _ _ _ (ne p hp)]
  have hbn : bk l'.heap l.fresh = (a, s) := by
    rw [I.bkk _]; simp [bk, FL.newBlock, upd]
  have P : ((a, s) :: ids.map (bk l.heap)).Perm ((A ++ l.fresh :: B).map (bk l'.heap)) := by
    rw [← hbn, ← map_bk_congr hb, hids]
    have : (l.fresh :: (A ++ B)).Perm (A ++ l.fresh :: B) := List.perm_middle.symm
    simpa using this.map (bk l'.heap)
  refine ⟨l', A ++ l.fresh :: B, hi, ⟨I.sg, L.perm P (List.Perm.refl _), ?_⟩, ?_, by rw [I.cl]; rfl, l.fresh, by simp, hbn⟩
  · rw [← tot_perm P]; simp [tot]; omega
  · intro p hp
    refine ⟨?_, hb p hp⟩
    rw [hids] at hp; simp at hp ⊢; grind

theorem splitInsert_J {l : FL} {ids : List Nat} (H : J bs R U T l ids) {p : Nat} {s : Int} (hp : p ∈ ids)
    (ha : bs ∣ (l.heap p).addr) (hs : 0 < s) (hr : bs ∣ s ∨ (l.heap p).size - s < bs) :
    ∃ l' ids', l.splitInsert p s = some l' ∧ J bs R U T l' ids' ∧ p ∈ ids' ∧
      bk l'.heap p = ((l.heap p).addr, if (l.heap p).size > s then s else (l.heap p).size) ∧
      l'.clobbered = l.clobbered ∧ (∀ q ∈ ids, q ≠ p → q ∈ ids' ∧ bk l'.heap q = bk l.heap q) ∧
      ((l.heap p).size > s → ∃ q ∈ ids', q ≠ p ∧ bk l'.heap q = ((l.heap p).addr + s, (l.heap p).size - s)) := by
  unfold FL.splitInsert
  split
  · rename_i hgt
    let l1 : FL := { l with heap := upd l.heap p (fun x => { x with size := s }) }
    have hbp : bk l1.heap p = ((l.heap p).addr, s) := by simp [l1, bk, upd]
    have hbo : ∀ q, q ≠ p → bk l1.heap q = bk l.heap q := fun q hq => by simp [l1, bk, upd, hq]
    have had : ∀ q, (l1.heap q).addr = (l.heap q).addr := by
      intro q
      by_cases h : q = p
      · subst h; exact congrArg Prod.fst hbp
      · exact congrArg Prod.fst (hbo q h)
    have hsz : ∀ q, 0 < (l.heap q).size → 0 < (l1.heap q).size ∧ (l1.heap q).size ≤ (l.heap q).size := by
      intro q hq
      by_cases h : q = p
      · subst h
        have : (l1.heap q).size = s := congrArg Prod.snd hbp
        omega
      · have : (l1.heap q).size = (l.heap q).size := congrArg Prod.snd (hbo q h)
        omega
    have S1 : Sg l1 ids := by
      refine ⟨?_, H.sg.fst, H.sg.lst, H.sg.nd, H.sg.lt, ?_, ?_, H.sg.ln⟩
      · refine seg_congr _ _ _ ?_ H.sg.sg
        intro q _
        simp only [l1, upd]; split
        · rename_i h; subst h; exact ⟨rfl, rfl⟩
        · exact ⟨rfl, rfl⟩
      · refine H.sg.so.imp_of_mem ?_
        intro a b ha hb h
        rw [had, had]
        have := (hsz a (H.sg.ps a ha)).2
        omega
      · intro q hq; exact (hsz q (H.sg.ps q hq)).1
    have hbe : (ids.erase p).map (bk l1.heap) = (ids.erase p).map (bk l.heap) := by
      apply map_bk_congr
      intro q hq
      exact hbo q ((List.Nodup.mem_erase_iff H.sg.nd).mp hq).1
    have P1 := perm_cons_erase_map (l := l) hp
    have P2 := perm_cons_erase_map (l := l1) hp
    rw [hbp, hbe] at P2
    have L1 : Lay bs R (((l.heap p).addr + s, (l.heap p).size - s) :: ids.map (bk l1.heap)) U :=
      ((H.lay.perm P1 (List.Perm.refl _)).split hs hgt ha hr).perm (List.Perm.cons _ P2.symm) (List.Perm.refl _)
    obtain ⟨l', ids', h1, h2, h3, h4, q, hq, hqb⟩ := insert_new_J (l := l1) S1 L1
    have hqp : q ≠ p := by
      rintro rfl
      have e := hqb.symm.trans ((h3 q hp).2.trans hbp)
      have := congrArg Prod.fst e
      simp only at this
      omega
    refine ⟨l', ids', h1, ⟨h2.sg, h2.lay, ?_⟩, (h3 p hp).1, ?_, h4, fun r hr hne => ⟨(h3 r hr).1, (h3 r hr).2.trans (hbo r hne)⟩,
      fun _ => ⟨q, hq, hqp, hqb⟩⟩
    · rw [h2.sum, ← H.sum, tot_perm P1, tot_perm P2]
      simp [tot, bk]; omega
    · rw [(h3 p hp).2, hbp]
  · rename_i hgt
    exact ⟨l, ids, rfl, H, hp, rfl, rfl, fun r hr _ => ⟨hr, rfl⟩, fun h => absurd h hgt⟩

theorem splitOrRemove_J {l : FL} {ids : List Nat} (H : J bs R U T l ids) (hb : 0 < bs) {p : Nat} {s : Int}
    (hs : 0 < s) (hp : p ∈ ids) (hsz : align bs s ≤ (l.heap p).size) :
    ∃ l' ids', l.splitOrRemove p (align bs s) s = some l' ∧
      J bs R (((l'.heap p).addr, s) :: U) (T - s) l' ids' ∧ l'.clobbered = l.clobbered ∧
      (∀ q ∈ ids, q ≠ p → q ∈ ids' ∧ bk l'.heap q = bk l.heap q) ∧
      (align bs s < (l.heap p).size → ∃ q ∈ ids', bk l'.heap q = ((l.heap p).addr + align bs s, (l.heap p).size - align bs s)) := by
  obtain ⟨a1, a2, a3, a4⟩ := align_ge hb hs
  have hal : bs ∣ (l.heap p).addr := by
    rcases H.lay.fa (bk l.heap p) (List.mem_map.mpr ⟨p, hp, rfl⟩) with h | h
    · exact h
    · simp only [bk] at h; omega
  unfold FL.splitOrRemove
  obtain ⟨l1, i1, e1, H1, hp1, hb1, hc1, ho1, hn1⟩ := splitInsert_J H hp hal (s := align bs s) (by omega) (Or.inl a2)
  rw [e1, Option.bind_some]
  have hs1 : (l1.heap p).size = align bs s := by
    have := congrArg Prod.snd hb1
    simp only [bk] at this
    rw [this]; split <;> omega
  have ha1 : (l1.heap p).addr = (l.heap p).addr := congrArg Prod.fst hb1
  obtain ⟨l2, i2, e2, H2, hp2, hb2, hc2, ho2, hn2⟩ := splitInsert_J H1 hp1 (s := s) (by rw [ha1]; exact hal) hs (Or.inr (by omega))
  rw [e2, Option.bind_some]
  have hs2 : (l2.heap p).size = s := by
    have := congrArg Prod.snd hb2
    simp only [bk] at this
    rw [this]; split <;> omega
  have ha2 : (l2.heap p).addr = (l1.heap p).addr := congrArg Prod.fst hb2
  obtain ⟨A, B, hids⟩ := List.append_of_mem hp2
  rw [hids] at H2 ho2
  obtain ⟨l', h1, h2, h3, h4, h5⟩ := remove_strong H2.sg
  have hpe : ((A ++ p :: B).map (bk l2.heap)).Perm (bk l2.heap p :: (A ++ B).map (bk l2.heap)) := by
    have : (A ++ p :: B).Perm (p :: (A ++ B)) := List.perm_middle
    exact this.map (bk l2.heap)
  have hbk : bk l2.heap p = ((l'.heap p).addr, s) := by
    have : (l'.heap p).addr = (l2.heap p).addr := congrArg Prod.fst (h3 p)
    rw [this, bk, hs2]
  have hm : (A ++ B).map (bk l'.heap) = (A ++ B).map (bk l2.heap) := map_bk_congr (fun q _ => h3 q)
  have hkeep : ∀ q, q ∈ A ++ p :: B → q ≠ p → q ∈ A ++ B := by
    intro q hq hne
    simp only [List.mem_append, List.mem_cons] at hq ⊢
    tauto
  refine ⟨l', A ++ B, h1, ⟨h2, ?_, ?_⟩, by rw [h5, hc2, hc1], fun q hq hne => ?_, fun hlt => ?_⟩
  · have := (H2.lay.perm hpe (List.Perm.refl _)).use (by
      show bs ∣ (l2.heap p).addr
      rw [ha2, ha1]; exact hal)
    rw [hbk] at this
    rw [hm]; exact this
  · rw [hm]
    have := H2.sum
    rw [tot_perm hpe, hbk] at this
    simp [tot] at this ⊢; omega
  · obtain ⟨k1, k2⟩ := ho1 q hq hne
    obtain ⟨k3, k4⟩ := ho2 q k1 hne
    exact ⟨hkeep q k3 hne, by rw [h3 q, k4, k2]⟩
  · obtain ⟨q, k1, k2, k3⟩ := hn1 hlt
    obtain ⟨k4, k5⟩ := ho2 q k1 k2
    exact ⟨q, hkeep q k4 k2, by rw [h3 q, k5, k3]⟩

/-- A sound allocator state. -/
structure Good (b : BFC) (ids : List Nat) : Prop where
  bp : 0 < b.blockSize
  j : J b.blockSize b.reserved b.used (b.reserved - tot b.used) b.fl ids
  al : b.allocated = tot b.used
  cb : b.fl.clobbered = false

theorem take_good {b : BFC} {ids : List Nat} {p : Nat} {s : Int} (G : Good b ids) (hs : 0 < s) (hp : p ∈ ids)
    (hsz : align b.blockSize s ≤ (b.fl.heap p).size) :
    ∃ b' o ids', take b p (align b.blockSize s) s = some (b', o) ∧ Good b' ids' ∧
      b'.reserved = b.reserved ∧ b'.blockSize = b.blockSize ∧ b'.start = b.start ∧
      (∀ q ∈ ids, q ≠ p → q ∈ ids' ∧ bk b'.fl.heap q = bk b.fl.heap q) ∧
      (align b.blockSize s < (b.fl.heap p).size → ∃ q ∈ ids', bk b'.fl.heap q =
        ((b.fl.heap p).addr + align b.blockSize s, (b.fl.heap p).size - align b.blockSize s)) := by
  obtain ⟨l', ids', h1, h2, h3, h4, h5⟩ := splitOrRemove_J G.j G.bp hs hp hsz
  unfold take
  rw [h1, Option.map_some]
  have hk : ∀ y ∈ b.used, y.1 ≠ (l'.heap p).addr := by
    intro y hy e
    exact (List.pairwise_cons.mp h2.lay.keys).1 y hy e.symm
  have hd := del_id hk
  refine ⟨_, _, ids', rfl, ⟨G.bp, ?_, ?_, by rw [← G.cb]; exact h3⟩, rfl, rfl, rfl, h4, h5⟩
  · simp only [hd]
    refine ⟨h2.sg, h2.lay, ?_⟩
    rw [h2.sum]; simp [tot]; omega
  · simp only [hd, G.al]; simp [tot]; omega

theorem alloc_good {b : BFC} {ids : List Nat} (s : Int) (G : Good b ids) :
    ∃ b' o ids', alloc true b s = some (b', o) ∧ Good b' ids' ∧
      b'.reserved = b.reserved ∧ b'.blockSize = b.blockSize ∧ b'.start = b.start ∧
      (o = .oom → ∀ p ∈ ids', (b'.fl.heap p).size < align b.blockSize s) := by
  unfold alloc
  split
  · exact ⟨b, _, ids, rfl, G, rfl, rfl, rfl, by simp⟩
  · rename_i hle
    simp only
    have takeOut : ∀ {b : BFC} {p : Nat} {x y : Int} {b' : BFC} {o : Out}, take b p x y = some (b', o) → o ≠ .oom := by
      intro b p x y b' o h
      unfold take at h
      cases e : b.fl.splitOrRemove p x y with
      | none => rw [e] at h; cases h
      | some l => rw [e] at h; simp at h; rw [← h.2]; simp
    rw [bestFit_J G.j.sg, Option.bind_some]
    cases hf : ids.find? (fun p => decide (align b.blockSize s ≤ (b.fl.heap p).size)) with
    | some p =>
      have h1 := List.mem_of_find?_eq_some hf
      have h2 := List.find?_some hf
      simp at h2
      obtain ⟨b', o, ids', k1, k2, k3, k4, k5, _⟩ := take_good G (by omega) h1 h2
      exact ⟨b', o, ids', k1, k2, k3, k4, k5, fun h => absurd h (takeOut k1)⟩
    | none =>
      simp only
      obtain ⟨l, i, h1, h2, h3, h4, _⟩ := coalesce_J G.j
      rw [h1, Option.bind_some, bestFit_J h2.sg, Option.bind_some]
      have G' : Good { b with fl := l } i := ⟨G.bp, h2, G.al, by rw [← G.cb]; exact h4⟩
      cases hf2 : i.find? (fun p => decide (align b.blockSize s ≤ (l.heap p).size)) with
      | none =>
        refine ⟨_, _, i, rfl, G', rfl, rfl, rfl, fun _ p hp => ?_⟩
        have := List.find?_eq_none.mp hf2 p hp
        simp at this; exact this
      | some p =>
        have k1 := List.mem_of_find?_eq_some hf2
        have k2 := List.find?_some hf2
        simp at k2
        obtain ⟨b', o, ids', m1, m2, m3, m4, m5, _⟩ := take_good G' (s := s) (by omega) k1 k2
        exact ⟨b', o, ids', m1, m2, m3, m4, m5, fun h => absurd h (takeOut m1)⟩

theorem free_good {b : BFC} {ids : List Nat} (th : Nat → Nat → Bool) (a : Int) (G : Good b ids) :
    ∃ b' ids', free true th b a = some b' ∧ Good b' ids' ∧
      b'.reserved = b.reserved ∧ b'.blockSize = b.blockSize ∧ b'.start = b.start ∧ Cov b.fl ids b'.fl ids' := by
  unfold free
  simp only
  cases hl : look b.used (a - b.start) with
  | none => exact ⟨b, ids, rfl, G, rfl, rfl, rfl, Cov.refl _ _⟩
  | some s =>
    simp only
    have hmem := look_mem hl
    have hperm := del_perm G.j.lay.keys hmem
    have L := (G.j.lay.perm (List.Perm.refl _) hperm).unuse
    obtain ⟨l, i, h1, h2, h3, h4, _⟩ := insert_new_J G.j.sg L
    have hcov : Cov b.fl ids l i := by
      intro q hq
      obtain ⟨m1, m2⟩ := h3 q hq
      have g1 : (l.heap q).addr = (b.fl.heap q).addr := congrArg Prod.fst m2
      have g2 : (l.heap q).size = (b.fl.heap q).size := congrArg Prod.snd m2
      exact ⟨q, m1, by omega, by simp only [Blk.cap]; omega⟩
    rw [h1, Option.bind_some]
    have ht : tot b.used = s + tot (del b.used (a - b.start)) := by
      rw [tot_perm hperm]; simp [tot]
    have h2' : J b.blockSize b.reserved (del b.used (a - b.start)) (b.reserved - tot (del b.used (a - b.start))) l i := by
      refine ⟨h2.sg, h2.lay, ?_⟩
      rw [h2.sum, G.j.sum]; omega
    split
    · obtain ⟨l2, i2, k1, k2, k3, k4, k5⟩ := coalesce_J h2'
      rw [k1, Option.map_some]
      refine ⟨_, i2, rfl, ⟨G.bp, k2, ?_, by rw [← G.cb, ← h4]; exact k4⟩, rfl, rfl, rfl, hcov.trans k5⟩
      have := G.al
      simp only; omega
    · refine ⟨_, i, rfl, ⟨G.bp, h2', ?_, by rw [← G.cb]; exact h4⟩, rfl, rfl, rfl, hcov⟩
      have := G.al
      simp only; omega

theorem reserve_good {st sz : Int} (hb : 0 < bs) (hs : 0 < sz) :
    ∃ b ids, reserve bs st sz = some b ∧ Good b ids ∧ b.reserved = sz ∧ b.blockSize = bs ∧ b.start = st ∧
      ∃ q ∈ ids, bk b.fl.heap q = (0, sz) := by
  unfold reserve
  have S : Sg FL.empty [] := ⟨trivial, rfl, rfl, List.nodup_nil, by simp, by simp, by simp, rfl⟩
  have L : Lay bs sz ((0, sz) :: ([] : List Nat).map (bk FL.empty.heap)) [] := by
    refine ⟨by simp, by simp; omega, by simp, by simp⟩
  obtain ⟨l, i, h1, h2, h3, h4, h5⟩ := insert_new_J S L
  simp only
  have h1 : (FL.empty.newBlock 0 sz).insert 0 = some l := h1
  rw [h1, Option.map_some]
  refine ⟨_, i, rfl, ⟨hb, ⟨h2.sg, h2.lay, ?_⟩, by simp [tot], h4⟩, rfl, rfl, rfl, h5⟩
  rw [h2.sum]; simp [tot]

theorem run_good (th : Nat → Nat → Bool) : ∀ (ops : List Op) {b : BFC} {ids : List Nat}, Good b ids →
    ∃ b' outs ids', run true th b ops = some (b', outs) ∧ Good b' ids' ∧
      b'.reserved = b.reserved ∧ b'.blockSize = b.blockSize ∧ b'.start = b.start
  | [], b, ids, G => ⟨b, [], ids, rfl, G, rfl, rfl, rfl⟩
  | o :: os, b, ids, G => by
    rw [run]
    have : ∃ b1 r ids1, step true th b o = some (b1, r) ∧ Good b1 ids1 ∧
        b1.reserved = b.reserved ∧ b1.blockSize = b.blockSize ∧ b1.start = b.start := by
      cases o with
      | alloc s =>
        obtain ⟨b1, r, i1, h1, h2, h3, h4, h5, _⟩ := alloc_good s G
        exact ⟨b1, r, i1, h1, h2, h3, h4, h5⟩
      | free a =>
        obtain ⟨b1, i1, h1, h2, h3, h4, h5, _⟩ := free_good th a G
        exact ⟨b1, .none, i1, by simp [step, h1], h2, h3, h4, h5⟩
    obtain ⟨b1, r, i1, h1, h2, h3, h4, h5⟩ := this
    obtain ⟨b2, rs, i2, k1, k2, k3, k4, k5⟩ := run_good th os h2
    rw [h1, Option.bind_some]
    simp only
    rw [k1]
    exact ⟨b2, r :: rs, i2, rfl, k2, by rw [k3, h3], by rw [k4, h4], by rw [k5, h5]⟩

/-! ### The free list as the code itself would enumerate it -/

/-- The ranges met when following `next` from a cell, at most `fuel` of them. -/
def chain (h : Nat → Blk) : Nat → Option Nat → List (Int × Int)
  | 0, _ => []
  | _, none => []
  | fuel + 1, some p => ((h p).addr, (h p).size) :: chain h fuel (h p).next

/-- The ranges met when following `prev`. -/
def chainBack (h : Nat → Blk) : Nat → Option Nat → List (Int × Int)
  | 0, _ => []
  | _, none => []
  | fuel + 1, some p => ((h p).addr, (h p).size) :: chainBack h fuel (h p).prev

/-- The free ranges of an allocator, first to last. -/
def freeRanges (b : BFC) : List (Int × Int) := chain b.fl.heap b.fl.fresh b.fl.first

theorem chain_seg {l : FL} : ∀ (fuel : Nat) {A B : List Nat}, Sg l (A ++ B) → B.length ≤ fuel →
    chain l.heap fuel B.head? = B.map (bk l.heap)
  | fuel, A, [], S, h => by cases fuel <;> rfl
  | 0, A, p :: B, S, h => by simp at h
  | fuel + 1, A, p :: B, S, h => by
    rw [List.head?_cons, chain, (S.at_ rfl).1]
    have S' : Sg l ((A ++ [p]) ++ B) := by simpa using S
    rw [chain_seg fuel S' (by simp at h; omega)]
    rfl

theorem chainBack_seg {l : FL} : ∀ (fuel : Nat) (B : List Nat) {A : List Nat}, A.length ≤ fuel → Sg l (A ++ B) →
    chainBack l.heap fuel A.getLast? = (A.map (bk l.heap)).reverse := by
  intro fuel
  induction fuel with
  | zero =>
    intro B A h S
    have : A = [] := List.length_eq_zero_iff.mp (by omega)
    subst this; rfl
  | succ fuel ih =>
    intro B A h S
    rcases List.eq_nil_or_concat A with rfl | ⟨A', a, rfl⟩
    · rfl
    · rw [List.concat_eq_append] at *
      rw [List.getLast?_concat, chainBack]
      have S' : Sg l (A' ++ a :: B) := by simpa using S
      rw [(S'.at_ rfl).2, ih (a :: B) (by simp at h; omega) S']
      simp [bk]

theorem freeRanges_good {b : BFC} {ids : List Nat} (G : Good b ids) : freeRanges b = ids.map (bk b.fl.heap) := by
  unfold freeRanges
  rw [G.j.sg.fst]
  exact chain_seg (A := []) _ G.j.sg G.j.sg.length_le

/-- What C26 and C27 ask of a state, in terms of the ranges alone. -/
structure Sound (b : BFC) : Prop where
  /-- free ranges are sorted by address and disjoint -/
  sorted : (freeRanges b).Pairwise (fun r s => r.1 + r.2 ≤ s.1)
  /-- no used range overlaps a free one or another used one -/
  disjoint : (freeRanges b ++ b.used).Pairwise (fun r s => r.1 + r.2 ≤ s.1 ∨ s.1 + s.2 ≤ r.1)
  /-- all ranges are inside the reservation -/
  inside : ∀ r ∈ freeRanges b ++ b.used, 0 ≤ r.1 ∧ 0 < r.2 ∧ r.1 + r.2 ≤ b.reserved
  /-- nothing is lost -/
  conserved : ((freeRanges b ++ b.used).map (·.2)).sum = b.reserved
  /-- the counter kept by the allocator is the memory in use -/
  counter : b.allocated = (b.used.map (·.2)).sum
  /-- ranges in use are aligned -/
  aligned : ∀ r ∈ b.used, b.blockSize ∣ r.1
  /-- the list reads the same backwards -/
  backwards : chainBack b.fl.heap b.fl.fresh b.fl.last = (freeRanges b).reverse
  /-- the length kept by the list is right -/
  length : b.fl.len = (freeRanges b).length

theorem Good.sound {b : BFC} {ids : List Nat} (G : Good b ids) : Sound b := by
  have hf := freeRanges_good G
  refine ⟨?_, ?_, ?_, ?_, G.al, G.j.lay.ua, ?_, ?_⟩
  · rw [hf, List.pairwise_map]; exact G.j.sg.so
  · rw [hf]; exact G.j.lay.dj
  · rw [hf]; exact G.j.lay.ok
  · rw [hf, List.map_append, List.sum_append]
    have := G.j.sum
    simp only [tot] at this; omega
  · rw [hf, G.j.sg.lst]
    exact chainBack_seg _ [] G.j.sg.length_le (by simpa using G.j.sg)
  · rw [hf, G.j.sg.ln]; simp

/-! ### The code without damage is the repaired program -/

theorem merge_unclobbered {l : FL} {p q : Nat} (h : (l.merge false p q).clobbered = false) :
    l.merge false p q = l.merge true p q ∧ l.clobbered = false := by
  have hc : l.clobbered = false ∧ (l.heap q).next.isSome = false := by
    simpa [FL.merge] using h
  refine ⟨?_, hc.1⟩
  have hn : (l.heap q).next = none := by simpa using hc.2
  unfold FL.merge
  simp [hn]

theorem inner_mono : ∀ (fuel : Nat) {l l' : FL} {p : Nat}, innerLoop false fuel l p = some l' →
    l'.clobbered = false → innerLoop true fuel l p = some l' ∧ l.clobbered = false
  | 0, l, l', p, h, _ => by simp [innerLoop] at h
  | fuel + 1, l, l', p, h, hc => by
    rw [innerLoop] at h ⊢
    split at h
    · injection h with h; subst h
      exact ⟨rfl, hc⟩
    · rename_i q hq
      split at h
      · rename_i he
        rw [if_pos he]
        obtain ⟨h1, h2⟩ := inner_mono fuel h hc
        obtain ⟨h3, h4⟩ := merge_unclobbered h2
        exact ⟨by rw [← h3]; exact h1, h4⟩
      · rename_i he
        rw [if_neg he]
        split at h
        · cases h
        · rename_i ho
          rw [if_neg ho]
          injection h with h; subst h
          exact ⟨rfl, hc⟩

theorem outer_mono {bs : Int} : ∀ (fuel : Nat) {l l' : FL} {x : Option Nat}, outerLoop false bs fuel l x = some l' →
    l'.clobbered = false → outerLoop true bs fuel l x = some l' ∧ l.clobbered = false
  | fuel, l, l', none, h, hc => by
    have : l = l' := by cases fuel <;> (rw [outerLoop] at h; injection h)
    subst this
    exact ⟨by cases fuel <;> rfl, hc⟩
  | 0, l, l', some p, h, _ => by simp [outerLoop] at h
  | fuel + 1, l, l', some p, h, hc => by
    rw [outerLoop] at h ⊢
    split at h
    · rename_i ha; rw [if_pos ha]; exact outer_mono fuel h hc
    · rename_i ha; rw [if_neg ha]
      cases hi : innerLoop false (l.fresh + 1) l p with
      | none => rw [hi] at h; cases h
      | some l1 =>
        rw [hi, Option.bind_some] at h
        obtain ⟨h1, h2⟩ := outer_mono fuel h hc
        obtain ⟨h3, h4⟩ := inner_mono _ hi h2
        rw [h3, Option.bind_some]
        exact ⟨h1, h4⟩

theorem coalesce_mono {bs : Int} {l l' : FL} (h : l.coalesce false bs = some l') (hc : l'.clobbered = false) :
    l.coalesce true bs = some l' ∧ l.clobbered = false := outer_mono _ h hc

theorem insertLoop_cl {l l' : FL} {n : Nat} : ∀ (fuel b : Nat),
    insertLoop l n fuel b = some l' → l'.clobbered = l.clobbered
  | 0, b, h => by simp [insertLoop] at h
  | fuel + 1, b, h => by
    rw [insertLoop] at h
    simp only at h
    split at h
    · split at h <;> (injection h with h; subst h; rfl)
    · split at h
      · split at h
        · cases h
        · split at h
          · injection h with h; subst h; rfl
          · exact insertLoop_cl fuel _ h
      · split at h
        · split at h <;> (injection h with h; subst h; rfl)
        · split at h
          · split at h <;> (injection h with h; subst h; rfl)
          · cases h

theorem insert_cl {l l' : FL} {n : Nat} (h : l.insert n = some l') : l'.clobbered = l.clobbered := by
  unfold FL.insert at h
  split at h
  · injection h with h; subst h; rfl
  · split at h
    · cases h
    · simp only at h
      split at h
      · split at h
        · split at h <;> (injection h with h; subst h; rfl)
        · injection h with h; subst h; rfl
      · split at h
        · split at h
          · split at h <;> (injection h with h; subst h; rfl)
          · injection h with h; subst h; rfl
        · exact insertLoop_cl _ _ h

theorem splitInsert_cl {l l' : FL} {p : Nat} {s : Int} (h : l.splitInsert p s = some l') : l'.clobbered = l.clobbered := by
  unfold FL.splitInsert at h
  split at h
  · rw [insert_cl h]; rfl
  · injection h with h; subst h; rfl

theorem remove_cl {l l' : FL} {p : Nat} (h : l.remove p = some l') : l'.clobbered = l.clobbered := by
  unfold FL.remove at h
  have two : ∀ l1 : FL, l1.clobbered = l.clobbered → ∀ l2 : FL, (if l1.last = some p then some { l1 with last := (l1.heap p).prev }
      else
        match (l1.heap p).next with
        | none => none
        | some q => some { l1 with heap := upd l1.heap q (fun x => { x with prev := (l1.heap p).prev }) }) = some l2 →
      l2.clobbered = l.clobbered := by
    intro l1 h1 l2 h2
    split at h2
    · injection h2 with h2; subst h2; exact h1
    · split at h2
      · cases h2
      · injection h2 with h2; subst h2; exact h1
  obtain ⟨l1, h1, h2⟩ := Option.bind_eq_some_iff.mp h
  obtain ⟨l2, h3, h4⟩ := Option.map_eq_some_iff.mp h2
  subst h4
  refine two l1 ?_ l2 h3
  split at h1
  · injection h1 with h1; subst h1; rfl
  · split at h1
    · cases h1
    · injection h1 with h1; subst h1; rfl

theorem take_cl {b b' : BFC} {p : Nat} {x s : Int} {o : Out} (h : take b p x s = some (b', o)) :
    b'.fl.clobbered = b.fl.clobbered := by
  unfold take at h
  cases e : b.fl.splitOrRemove p x s with
  | none => rw [e] at h; cases h
  | some l =>
    rw [e] at h; simp at h; rw [← h.1]
    unfold FL.splitOrRemove at e
    cases e1 : b.fl.splitInsert p x with
    | none => rw [e1] at e; cases e
    | some l1 =>
      rw [e1, Option.bind_some] at e
      cases e2 : l1.splitInsert p s with
      | none => rw [e2] at e; cases e
      | some l2 =>
        rw [e2, Option.bind_some] at e
        simp only
        rw [remove_cl e, splitInsert_cl e2, splitInsert_cl e1]

theorem step_mono {th : Nat → Nat → Bool} {b b' : BFC} {o : Op} {r : Out} (h : step false th b o = some (b', r))
    (hc : b'.fl.clobbered = false) : step true th b o = some (b', r) ∧ b.fl.clobbered = false := by
  cases o with
  | alloc s =>
    simp only [step, alloc] at h ⊢
    split at h
    · rename_i hs
      rw [if_pos hs]; simp at h
      rw [← h.1] at hc
      exact ⟨by rw [← h.1, ← h.2], hc⟩
    · rename_i hs
      rw [if_neg hs]
      cases e1 : b.fl.bestFit (align b.blockSize s) with
      | none => rw [e1] at h; cases h
      | some x =>
        rw [e1, Option.bind_some] at h
        rw [Option.bind_some]
        cases x with
        | some p => exact ⟨h, by rw [← take_cl h]; exact hc⟩
        | none =>
          simp only at h ⊢
          cases e2 : b.fl.coalesce false b.blockSize with
          | none => rw [e2] at h; cases h
          | some l =>
            rw [e2, Option.bind_some] at h
            have hlc : l.clobbered = false := by
              cases e3 : l.bestFit (align b.blockSize s) with
              | none => rw [e3] at h; cases h
              | some y =>
                rw [e3, Option.bind_some] at h
                cases y with
                | none => simp at h; rw [← h.1] at hc; exact hc
                | some p => rw [← hc]; exact (take_cl h).symm
            obtain ⟨h1, h2⟩ := coalesce_mono e2 hlc
            rw [h1, Option.bind_some]
            exact ⟨h, h2⟩
  | free a =>
    simp only [step] at h ⊢
    cases e : free false th b a with
    | none => rw [e] at h; cases h
    | some b2 =>
      rw [e, Option.map_some] at h
      injection h with h; injection h with h1 h2; subst h1; subst h2
      suffices free true th b a = some b2 ∧ b.fl.clobbered = false by
        rw [this.1]; exact ⟨rfl, this.2⟩
      unfold free at e ⊢
      simp only at e ⊢
      split at e
      · injection e with e; subst e; exact ⟨rfl, hc⟩
      · rename_i s hl
        cases e1 : (b.fl.newBlock (a - b.start) s).insert b.fl.fresh with
        | none => rw [e1] at e; cases e
        | some l =>
          rw [e1, Option.bind_some] at e
          rw [Option.bind_some]
          have hcl : l.clobbered = b.fl.clobbered := by rw [insert_cl e1]; rfl
          split at e
          · rename_i ht
            rw [if_pos ht]
            cases e2 : l.coalesce false b.blockSize with
            | none => rw [e2] at e; cases e
            | some l2 =>
              rw [e2, Option.map_some] at e
              injection e with e; subst e
              obtain ⟨h1, h2⟩ := coalesce_mono e2 hc
              rw [h1]
              exact ⟨rfl, by rw [← hcl]; exact h2⟩
          · rename_i ht
            rw [if_neg ht]
            injection e with e; subst e
            exact ⟨rfl, by rw [← hcl]; exact hc⟩

theorem run_mono {th : Nat → Nat → Bool} : ∀ (ops : List Op) {b b' : BFC} {outs : List Out},
    run false th b ops = some (b', outs) → b'.fl.clobbered = false →
    run true th b ops = some (b', outs) ∧ b.fl.clobbered = false
  | [], b, b', outs, h, hc => by
    rw [run] at h ⊢; injection h with h; injection h with h1 h2; subst h1; subst h2; exact ⟨rfl, hc⟩
  | o :: os, b, b', outs, h, hc => by
    rw [run] at h ⊢
    cases e1 : step false th b o with
    | none => rw [e1] at h; cases h
    | some x =>
      obtain ⟨b1, r⟩ := x
      rw [e1, Option.bind_some] at h
      simp only at h
      cases e2 : run false th b1 os with
      | none => rw [e2] at h; cases h
      | some y =>
        obtain ⟨b2, rs⟩ := y
        rw [e2, Option.map_some] at h
        injection h with h; injection h with h1 h2; subst h1; subst h2
        obtain ⟨k1, k2⟩ := run_mono os e2 hc
        obtain ⟨m1, m2⟩ := step_mono e1 k2
        rw [m1, Option.bind_some]
        simp only
        rw [k1]
        exact ⟨rfl, m2⟩

/-! ### Theorems -/

/-- **C27 (repaired program).** With the missing pointer reset in `coalesce`, no call ever crashes or loops,
and after any history all memory is accounted for: free and used ranges are disjoint and together make up the
reservation, the free list is sorted and reads the same in both directions, and its length and the allocator's
counter are right. -/
theorem repaired_sound (thresh : Nat → Nat → Bool) (blockSize start size : Int) (hb : 0 < blockSize) (hs : 0 < size)
    (ops : List Op) :
    ∃ b0 b outs, reserve blockSize start size = some b0 ∧ run true thresh b0 ops = some (b, outs) ∧
      b.reserved = size ∧ b.blockSize = blockSize ∧ b.start = start ∧ Sound b := by
  obtain ⟨b0, i0, h0, G0, r1, r2, r3, _⟩ := reserve_good (st := start) hb hs
  obtain ⟨b, outs, i, h1, G, k1, k2, k3⟩ := run_good thresh ops G0
  exact ⟨b0, b, outs, h0, h1, by rw [k1, r1], by rw [k2, r2], by rw [k3, r3], G.sound⟩

/-- **C27 (code as it is, partial).** The same for every history of the code after which no merge has left a
stale pointer behind. -/
theorem code_sound_partial (thresh : Nat → Nat → Bool) (blockSize start size : Int) (hb : 0 < blockSize)
    (hs : 0 < size) (ops : List Op) (b0 b : BFC) (outs : List Out) (h0 : reserve blockSize start size = some b0)
    (h : run false thresh b0 ops = some (b, outs)) (hc : b.fl.clobbered = false) : Sound b := by
  obtain ⟨b0', i0, h0', G0, _⟩ := reserve_good (st := start) hb hs
  rw [h0] at h0'; injection h0' with h0'; subst h0'
  obtain ⟨b', outs', i, h1, G, _⟩ := run_good thresh ops G0
  rw [(run_mono ops h hc).1] at h1
  injection h1 with h1; injection h1 with h1 h2; subst h1
  exact G.sound

/-- Running out of memory is reported only when, after merging, no free range is large enough. -/
theorem repaired_oom (thresh : Nat → Nat → Bool) (blockSize start size : Int) (hb : 0 < blockSize) (hs : 0 < size)
    (ops : List Op) (b0 b b' : BFC) (outs : List Out) (s : Int) (h0 : reserve blockSize start size = some b0)
    (h : run true thresh b0 ops = some (b, outs)) (ho : alloc true b s = some (b', .oom)) :
    ∀ r ∈ freeRanges b', r.2 < align blockSize s := by
  obtain ⟨b0', i0, h0', G0, r1, r2, r3, _⟩ := reserve_good (st := start) hb hs
  rw [h0] at h0'; injection h0' with h0'; subst h0'
  obtain ⟨b1, outs', i, h1, G, k1, k2, k3⟩ := run_good thresh ops G0
  rw [h] at h1
  injection h1 with h1; injection h1 with h1 _; subst h1
  obtain ⟨b2, o, i2, m1, G2, m2, m3, m4, m5⟩ := alloc_good s G
  rw [ho] at m1
  injection m1 with m1; injection m1 with m1 m6; subst m1; subst m6
  rw [freeRanges_good G2]
  intro r hr
  obtain ⟨p, hp, rfl⟩ := List.mem_map.mp hr
  have := m5 rfl p hp
  rw [k2, r2] at this
  exact this

/-- Freeing an address that is not in use changes nothing. -/
theorem free_unknown (repair : Bool) (thresh : Nat → Nat → Bool) (b : BFC) (a : Int)
    (h : ∀ r ∈ b.used, r.1 + b.start ≠ a) : free repair thresh b a = some b := by
  unfold free
  simp only
  cases hl : look b.used (a - b.start) with
  | none => rfl
  | some s =>
    exfalso
    have := look_mem hl
    exact h _ this (by simp)

/-! ### The history on which the code fails -/

/-- Reserve 2048 bytes in blocks of 256; take four blocks, give back the first, second and fourth. -/
def badOps : List Op :=
  [.alloc 256, .alloc 256, .alloc 256, .alloc 256, .free 0, .free 256, .free 768]

def badState (repair : Bool) (more : List Op) : Option (BFC × List Out) :=
  (reserve 256 0 2048).bind fun b => run repair codeThresh b (badOps ++ more)

/-- Size of the memory free or used. -/
def accounted (b : BFC) : Int := ((freeRanges b ++ b.used).map (·.2)).sum

/-- **C27, negation for the code.** After the history above, taking 1024 bytes hands out the range
`[768, 1792)` and leaves it on the free list: the memory accounted for exceeds the reservation. -/
theorem code_not_conserved :
    (badState false [.alloc 1024]).map (fun r => (r.2.getLast?, r.1.used.contains (768, 1024), (freeRanges r.1).contains (768, 1024), decide (accounted r.1 = 2048)))
      = some (some (Out.addr 768), true, true, false) := by decide +kernel

/-- And the next allocation of that size crashes, where the repaired program answers. -/
theorem code_crashes :
    badState false [.alloc 1024, .alloc 1024] = none ∧ (badState true [.alloc 1024, .alloc 1024]).isSome = true := by
  constructor
  · have : (badState false [.alloc 1024, .alloc 1024]).isNone = true := by decide +kernel
    simpa using this
  · decide +kernel

/-- So the code does not satisfy `repaired_sound`. -/
theorem code_not_sound : ¬ ∀ (blockSize start size : Int), 0 < blockSize → 0 < size → ∀ ops : List Op,
    ∃ b0 b outs, reserve blockSize start size = some b0 ∧ run false codeThresh b0 ops = some (b, outs) ∧ Sound b := by
  intro h
  obtain ⟨b0, b, outs, h0, h1, _⟩ := h 256 0 2048 (by decide) (by decide) (badOps ++ [.alloc 1024, .alloc 1024])
  have := code_crashes.1
  rw [badState, h0, Option.bind_some, h1] at this
  cases this

/-! ### Examples -/

/-- A history of the code that satisfies every hypothesis of `held_disjoint_partial` and `code_sound_partial`, after
which the client holds two ranges. -/
def goodOps : List Op := [.alloc 100, .alloc 300, .free 4096, .alloc 256]

def goodState : Option (BFC × List Out) := (reserve 256 4096 2048).bind fun b => run false codeThresh b goodOps

example : goodState.map (fun r => (r.2, held [] (goodOps.zip r.2))) =
    some ([.addr 4096, .addr 4352, .none, .addr 4864], [(4864, 256), (4352, 300)]) := by decide +kernel

example : goodState.map (fun r => (r.1.fl.clobbered, freeRanges r.1, r.1.used)) =
    some (false, [(0, 100), (100, 156), (556, 212), (1024, 1024)], [(768, 256), (256, 300)]) := by decide +kernel

/-- The repaired program on the history that breaks the code. -/
example : (badState true [.alloc 1024]).map (fun r => (freeRanges r.1, r.1.used, accounted r.1)) =
    some ([(0, 512), (1792, 256)], [(768, 1024), (512, 256)], 2048) := by decide +kernel

end Verif.BFC
