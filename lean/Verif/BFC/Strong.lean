import Verif.BFC.Code
import Mathlib.Data.List.Nodup
import Mathlib.Data.List.Perm.Subperm
/-!
The free list while no stale pointer has been left behind: a sorted doubly linked list, on which no operation
of the allocator crashes or loops.
-/
set_option autoImplicit false
namespace Verif.BFC

/-- Every `prev` pointer is right. -/
def EP (pv x : Option Nat) : Prop := x = pv

/-- A sound free list with the cells `ids`. -/
structure Sg (l : FL) (ids : List Nat) : Prop where
  sg : seg EP l.heap none ids none
  fst : l.first = ids.head?
  lst : l.last = ids.getLast?
  nd : ids.Nodup
  lt : ∀ p ∈ ids, p < l.fresh
  so : ids.Pairwise (fun p q => (l.heap p).addr + (l.heap p).size ≤ (l.heap q).addr)
  ps : ∀ p ∈ ids, 0 < (l.heap p).size
  ln : l.len = ids.length

theorem Sg.at_ {l : FL} {ids A B : List Nat} {b : Nat} (S : Sg l ids) (h : ids = A ++ b :: B) :
    (l.heap b).next = B.head? ∧ (l.heap b).prev = A.getLast? := by
  have h1 := S.sg
  rw [h, seg_append] at h1
  refine ⟨by simpa using h1.2.2.1, ?_⟩
  have := h1.2.1
  simpa [EP] using this

theorem Sg.length_le {l : FL} {ids : List Nat} (S : Sg l ids) : ids.length ≤ l.fresh := by
  have : ids.Subperm (List.range l.fresh) :=
    List.subperm_of_subset S.nd (fun p hp => List.mem_range.mpr (S.lt p hp))
  simpa using this.length_le

/-- What an insertion into a sound list needs. -/
structure PreS (l : FL) (n : Nat) (ids : List Nat) : Prop where
  sg : Sg l ids
  nm : n ∉ ids
  nl : n < l.fresh
  nn : (l.heap n).next = none
  np : (l.heap n).prev = none
  dj : ∀ p ∈ ids, Disj (bk l.heap p) (bk l.heap n)
  ns : 0 < (l.heap n).size

/-- The new cell is linked in between `A` and `B`. -/
structure InsS (l l' : FL) (n : Nat) (A B : List Nat) : Prop where
  sg : Sg l' (A ++ n :: B)
  bkk : ∀ p, bk l'.heap p = bk l.heap p
  fr : l'.fresh = l.fresh
  cl : l'.clobbered = l.clobbered

theorem Sg.link {l l' : FL} {n : Nat} {A B : List Nat} (H : PreS l n (A ++ B))
    (hA : ∀ p ∈ A, (l.heap p).addr + (l.heap p).size ≤ (l.heap n).addr)
    (hB : ∀ p ∈ B, (l.heap n).addr + (l.heap n).size ≤ (l.heap p).addr)
    (L : LinkIns l.heap l'.heap A n B)
    (hf : l'.first = (A ++ n :: B).head?) (hl : l'.last = (A ++ n :: B).getLast?) (hfr : l'.fresh = l.fresh)
    (hbk : ∀ p, bk l'.heap p = bk l.heap p) (hln : l'.len = l.len + 1) (hcl : l'.clobbered = l.clobbered) :
    InsS l l' n A B := by
  have S := H.sg
  have ha : ∀ p, (l'.heap p).addr = (l.heap p).addr := fun p => congrArg Prod.fst (hbk p)
  have hs : ∀ p, (l'.heap p).size = (l.heap p).size := fun p => congrArg Prod.snd (hbk p)
  refine ⟨⟨seg_insert A B n S.nd L rfl rfl S.sg, hf, hl, ?_, ?_, ?_, ?_, ?_⟩, hbk, hfr, hcl⟩
  · exact (List.perm_middle.nodup_iff).mpr (List.nodup_cons.mpr ⟨H.nm, S.nd⟩)
  · intro p hp
    rw [hfr]
    rcases List.mem_cons.mp (List.perm_middle.mem_iff.mp hp) with h | h
    · rw [h]; exact H.nl
    · exact S.lt p h
  · have h1 := List.pairwise_append.mp S.so
    refine List.pairwise_append.mpr ⟨?_, List.pairwise_cons.mpr ⟨?_, ?_⟩, ?_⟩
    · exact h1.1.imp (fun {a b} h => by rw [ha, ha, hs]; exact h)
    · intro p hp; rw [ha, ha, hs]; exact hB p hp
    · exact h1.2.1.imp (fun {a b} h => by rw [ha, ha, hs]; exact h)
    · intro a haA b hb
      rw [ha, ha, hs]
      rcases List.mem_cons.mp hb with h | h
      · rw [h]; exact hA a haA
      · exact h1.2.2 a haA b h
  · intro p hp
    rw [hs]
    rcases List.mem_cons.mp (List.perm_middle.mem_iff.mp hp) with h | h
    · rw [h]; exact H.ns
    · exact S.ps p h
  · rw [hln, S.ln]; simp; omega

theorem insertLoop_strong {l : FL} {n : Nat} {ids : List Nat} (H : PreS l n ids)
    {la : Nat} (hla : ids.getLast? = some la) (hlt : (l.heap n).addr < (l.heap la).addr) :
    ∀ (fuel : Nat) (A : List Nat) (b : Nat) (B : List Nat), ids = A ++ b :: B → B.length < fuel →
    (l.heap b).addr < (l.heap n).addr →
    ∃ A' B' l', ids = A' ++ B' ∧ insertLoop l n fuel b = some l' ∧ InsS l l' n A' B'
  | 0, A, b, B, _, hfu, _ => by omega
  | fuel + 1, A, b, B, hids, hfu, hb => by
    have S := H.sg
    have hbm : b ∈ ids := by rw [hids]; simp
    have hbn : b ≠ n := fun e => H.nm (e ▸ hbm)
    obtain ⟨hnx, hpv⟩ := S.at_ hids
    have hov := (not_overlaps (H.dj b hbm) (S.ps b hbm) H.ns).1
    have hnd := S.nd
    rw [hids] at hnd
    have hnd1 := List.nodup_append.mp hnd
    have hnd2 := List.nodup_cons.mp hnd1.2.1
    rw [insertLoop]
    simp only [hov, Bool.false_eq_true, and_false, if_false, if_pos hb]
    cases B with
    | nil =>
      rw [hids] at hla; simp at hla; subst hla
      omega
    | cons c B =>
      have hc : (l.heap b).next = some c := by rw [hnx]; rfl
      have hcm : c ∈ ids := by rw [hids]; simp
      have hcn : c ≠ n := fun e => H.nm (e ▸ hcm)
      rw [hc]
      simp only
      by_cases hge : (l.heap c).addr ≥ (l.heap n).cap
      · rw [if_pos hge]
        have hbc : b ≠ c := fun e => hnd2.1 (by simp [e])
        refine ⟨A ++ [b], c :: B, _, by simp [hids], rfl, ?_⟩
        have hH : PreS l n ((A ++ [b]) ++ c :: B) := by
          have : ids = (A ++ [b]) ++ c :: B := by simp [hids]
          rw [← this]; exact H
        have hso := S.so
        rw [hids] at hso
        have hso1 := List.pairwise_append.mp hso
        have hso2 := List.pairwise_cons.mp hso1.2.1
        have hso3 := List.pairwise_cons.mp hso2.2
        have hdb := H.dj b hbm
        have hpb := S.ps b hbm
        have hnp := H.ns
        have hcapb : (l.heap b).addr + (l.heap b).size ≤ (l.heap n).addr := by
          simp only [Disj, bk] at hdb; omega
        have bA : ∀ p ∈ A ++ [b], p ≠ n ∧ p ≠ c := by
          intro p hp
          refine ⟨fun e => H.nm (by rw [← e, hids]; simp at hp ⊢; grind), ?_⟩
          intro e; subst e
          rcases List.mem_append.mp hp with h | h
          · exact hnd1.2.2 _ h _ (by simp) rfl
          · simp at h; exact hbc h.symm
        have bB : ∀ p ∈ c :: B, p ≠ n ∧ p ≠ b := by
          intro p hp
          refine ⟨fun e => H.nm (by rw [← e, hids]; simp at hp ⊢; grind), ?_⟩
          intro e; subst e; exact hnd2.1 hp
        refine Sg.link hH ?_ ?_ ⟨?_, ?_, ?_, ?_, ?_, ?_⟩ ?_ ?_ rfl ?_ rfl rfl
        · intro p hp
          rcases List.mem_append.mp hp with h | h
          · have h4 := hso1.2.2 p h b (by simp)
            omega
          · simp at h; subst h; exact hcapb
        · intro p hp
          simp only [Blk.cap] at hge
          rcases List.mem_cons.mp hp with h | h
          · rw [h]; exact hge
          · have h4 := hso3.1 p h
            have h5 := S.ps c hcm
            omega
        · intro p hp
          obtain ⟨h1, h2⟩ := bA p hp
          simp only [upd, if_neg h1, if_neg h2]
          split
          · rename_i h; subst h; rfl
          · rfl
        · intro p hp
          obtain ⟨h1, h2⟩ := bA p hp
          simp only [upd, if_neg h1, if_neg h2, List.getLast?_concat]
          by_cases hpb : p = b
          · subst hpb; simp
          · have : ¬ (some b = some p) := by simp; exact fun e => hpb e.symm
            rw [if_neg hpb, if_neg this]
        · intro p hp
          obtain ⟨h1, h2⟩ := bB p hp
          simp only [upd, if_neg h1, if_neg h2, if_neg hcn, if_neg (fun e : c = b => hbc e.symm)]
          split
          · rename_i h; subst h; rfl
          · rfl
        · intro p hp
          obtain ⟨h1, h2⟩ := bB p hp
          simp only [upd, if_neg h1, if_neg h2, if_neg hcn, if_neg (fun e : c = b => hbc e.symm), List.head?_cons]
          by_cases hpc : p = c
          · subst hpc; simp
          · have : ¬ (some c = some p) := by simp; exact fun e => hpc e.symm
            rw [if_neg hpc]
            exact (if_neg this).symm
        · have h1 : n ≠ c := fun e => hcn e.symm
          simp [upd, h1]
        · have h1 : n ≠ c := fun e => hcn e.symm
          simp [upd, h1]
        · show l.first = _
          rw [S.fst, hids]; cases A <;> rfl
        · show l.last = _
          rw [S.lst, hids]
          simp
        · intro p
          rw [bk_upd, bk_upd, bk_upd]
          · intro _; simp [bk, upd]
          · intro _; simp [bk, upd]
          · intro _; simp [bk, upd]
      · rw [if_neg hge]
        refine insertLoop_strong H hla hlt fuel (A ++ [b]) c B (by simp [hids]) (by simp at hfu; omega) ?_
        have hdc := H.dj c hcm
        have := S.ps c hcm
        simp only [Disj, bk] at hdc
        simp only [Blk.cap] at hge
        omega

theorem insert_strong {l : FL} {n : Nat} {ids : List Nat} (H : PreS l n ids) :
    ∃ A B l', ids = A ++ B ∧ l.insert n = some l' ∧ InsS l l' n A B := by
  have S := H.sg
  unfold FL.insert
  cases hc : ids with
  | nil =>
    subst hc
    have : l.first = none := S.fst
    rw [this]
    refine ⟨[], [], _, rfl, rfl, Sg.link (A := []) (B := []) H (by simp) (by simp) ⟨by simp, by simp, by simp, by simp, H.nn, H.np⟩ rfl rfl rfl (fun _ => rfl) rfl rfl⟩
  | cons f rest =>
    have hf : l.first = some f := by rw [S.fst, hc]; rfl
    obtain ⟨la, hla⟩ : ∃ la, ids.getLast? = some la := by
      rw [hc]; exact ⟨_, List.getLast?_eq_some_getLast (by simp)⟩
    have hll : l.last = some la := by rw [S.lst, hla]
    have hlam : la ∈ ids := List.mem_of_getLast? hla
    have hlan : la ≠ n := fun e => H.nm (e ▸ hlam)
    have hfm : f ∈ ids := by rw [hc]; simp
    have hfn : f ≠ n := fun e => H.nm (e ▸ hfm)
    rw [hf, hll]
    simp only
    rw [← hc]
    have hso := S.so
    split
    · rename_i hge
      have hov := (not_overlaps ((H.dj la hlam).symm) H.ns (S.ps la hlam)).1
      rw [hov]
      have hdl := H.dj la hlam
      have hpl := S.ps la hlam
      have hcap : (l.heap la).addr + (l.heap la).size ≤ (l.heap n).addr := by
        have := H.ns
        simp only [Disj, bk] at hdl; omega
      simp only [Bool.false_eq_true, if_false]
      have hns : ∀ p ∈ ids, p ≠ n := fun p hp e => H.nm (e ▸ hp)
      have hH : PreS l n (ids ++ []) := by rw [List.append_nil]; exact H
      refine ⟨ids, [], _, by simp, rfl, Sg.link hH ?_ (by simp) ⟨?_, ?_, by simp, by simp, ?_, ?_⟩ ?_ (by simp) rfl ?_ rfl rfl⟩
      · intro p hp
        obtain ⟨X, hX⟩ : ∃ X, ids = X ++ [la] := by
          obtain ⟨X, hX⟩ := List.getLast?_eq_some_iff.mp hla
          exact ⟨X, hX⟩
        rw [hX] at hp hso
        rcases List.mem_append.mp hp with h | h
        · have := (List.pairwise_append.mp hso).2.2 p h la (by simp)
          omega
        · simp at h; rw [h]; exact hcap
      · intro p hp
        simp only [upd, if_neg (hns p hp)]
        split
        · rename_i h; subst h; rfl
        · rfl
      · intro p hp
        simp only [upd, if_neg (hns p hp), hla]
        by_cases hpb : p = la
        · subst hpb; simp
        · have : ¬ (some la = some p) := by simp; exact fun e => hpb e.symm
          rw [if_neg hpb]
          exact (if_neg this).symm
      · simp [upd]
      · simp [upd, hla]
      · show some f = _
        rw [hc]; rfl
      · intro p
        rw [bk_upd, bk_upd]
        · intro _; simp [bk, upd]
        · intro _; simp [bk, upd]
    · rename_i hnge
      split
      · rename_i hlt
        have hov := (not_overlaps ((H.dj f hfm).symm) H.ns (S.ps f hfm)).1
        rw [hov]
        have hdl := H.dj f hfm
        have hpl := S.ps f hfm
        have hcap : (l.heap n).addr + (l.heap n).size ≤ (l.heap f).addr := by
          have := H.ns
          simp only [Disj, bk] at hdl; omega
        simp only [Bool.false_eq_true, if_false]
        have hns : ∀ p ∈ ids, p ≠ n := fun p hp e => H.nm (e ▸ hp)
        refine ⟨[], ids, _, by simp, rfl, Sg.link (A := []) H (by simp) ?_ ⟨by simp, by simp, ?_, ?_, ?_, ?_⟩ rfl ?_ rfl ?_ rfl rfl⟩
        · intro p hp
          rw [hc] at hp hso
          rcases List.mem_cons.mp hp with h | h
          · rw [h]; exact hcap
          · have := (List.pairwise_cons.mp hso).1 p h
            omega
        · intro p hp
          simp only [upd, if_neg (hns p hp)]
          split
          · rename_i h; subst h; rfl
          · rfl
        · intro p hp
          rw [hc]
          simp only [upd, if_neg (hns p hp), List.head?_cons]
          by_cases hpb : p = f
          · subst hpb; simp
          · have : ¬ (some f = some p) := by simp; exact fun e => hpb e.symm
            rw [if_neg hpb]
            exact (if_neg this).symm
        · simp [upd, hc]
        · have : n ≠ f := fun e => hfn e.symm
          simp [upd, this, H.np]
        · show some la = _
          rw [← hla, hc]; simp
        · intro p
          rw [bk_upd, bk_upd]
          · intro _; simp [bk, upd]
          · intro _; simp [bk, upd]
      · rename_i hnlt
        have hfa : (l.heap f).addr < (l.heap n).addr := by
          have := (not_overlaps (H.dj f hfm) (S.ps f hfm) H.ns).2
          omega
        have hlen := S.length_le
        refine insertLoop_strong H hla (by omega) l.fresh [] f rest (by simp [hc]) ?_ hfa
        rw [hc] at hlen; simp at hlen; omega

/-- Taking a cell out of a sound list. -/
theorem remove_strong {l : FL} {p : Nat} {A B : List Nat} (S : Sg l (A ++ p :: B)) :
    ∃ l', l.remove p = some l' ∧ Sg l' (A ++ B) ∧ (∀ q, bk l'.heap q = bk l.heap q) ∧
      l'.fresh = l.fresh ∧ l'.clobbered = l.clobbered := by
  obtain ⟨hnext, hprev⟩ := S.at_ rfl
  have hnd1 := List.nodup_append.mp S.nd
  have hnd2 := List.nodup_cons.mp hnd1.2.1
  have hpA : p ∉ A := fun h => hnd1.2.2 p h p (by simp) rfl
  have hpB : p ∉ B := hnd2.1
  have hAB : ∀ a ∈ A, ∀ b ∈ B, a ≠ b := fun a ha b hb => hnd1.2.2 a ha b (by simp [hb])
  have first_iff : l.first = some p ↔ A = [] := by
    rw [S.fst]
    cases A with
    | nil => simp
    | cons a A => simp; intro h; subst h; simp at hpA
  have last_iff : l.last = some p ↔ B = [] := by
    rw [S.lst]
    cases B with
    | nil => simp
    | cons b B =>
      rw [List.getLast?_append, List.getLast?_cons_cons]
      obtain ⟨y, hy⟩ : ∃ y, (b :: B).getLast? = some y := ⟨_, List.getLast?_eq_some_getLast (by simp)⟩
      rw [hy]; simp
      intro h; subst h; exact hpB (List.mem_of_getLast? hy)
  have finish : ∀ l' : FL, (∀ q ∈ A, (l'.heap q).prev = (l.heap q).prev) →
      (∀ q ∈ A, (l'.heap q).next = if A.getLast? = some q then B.head? else (l.heap q).next) →
      (∀ q ∈ B, (l'.heap q).next = (l.heap q).next) →
      (∀ q ∈ B, (l'.heap q).prev = if B.head? = some q then A.getLast? else (l.heap q).prev) →
      l'.first = (A ++ B).head? → l'.last = (A ++ B).getLast? → (∀ q, bk l'.heap q = bk l.heap q) →
      l'.fresh = l.fresh → l'.len = l.len - 1 → Sg l' (A ++ B) := by
    intro l' h1 h2 h3 h4 h5 h6 h7 h8 h9
    have ha : ∀ p, (l'.heap p).addr = (l.heap p).addr := fun p => congrArg Prod.fst (h7 p)
    have hs : ∀ p, (l'.heap p).size = (l.heap p).size := fun p => congrArg Prod.snd (h7 p)
    have sub : (A ++ B).Sublist (A ++ p :: B) := (List.Sublist.refl A).append (List.sublist_cons_self _ _)
    refine ⟨seg_remove A B p S.nd h1 h2 h3 ?_ ?_ S.sg, h5, h6, S.nd.sublist sub, ?_, ?_, ?_, ?_⟩
    · intro q hq
      rw [h4 q (List.mem_of_mem_tail hq), if_neg]
      intro e
      cases B with
      | nil => simp at e
      | cons b B => simp at e; subst e; exact (List.nodup_cons.mp hnd2.2).1 hq
    · intro q hq
      rw [h4 q (List.mem_of_mem_head? hq), if_pos hq]
      rfl
    · intro q hq; rw [h8]; exact S.lt q (sub.subset hq)
    · exact (S.so.sublist sub).imp (fun {a b} h => by rw [ha, ha, hs]; exact h)
    · intro q hq; rw [hs]; exact S.ps q (sub.subset hq)
    · rw [h9, S.ln]; simp; omega
  unfold FL.remove
  by_cases hA : A = []
  · rw [if_pos (first_iff.mpr hA)]
    simp only [Option.bind_some]
    by_cases hB : B = []
    · rw [if_pos (last_iff.mpr hB)]
      refine ⟨_, rfl, ?_, ?_, rfl, rfl⟩
      · subst hA; subst hB
        refine finish _ (by simp) (by simp) (by simp) (by simp) (by simpa using hnext) (by simpa using hprev) ?_ rfl rfl
        intro q; apply bk_upd; intro _; simp [bk, upd]
      · intro q; apply bk_upd; intro _; simp [bk, upd]
    · rw [if_neg (fun h => hB (last_iff.mp h))]
      cases hBc : B with
      | nil => exact absurd hBc hB
      | cons c B' =>
        have hn : (l.heap p).next = some c := by rw [hnext, hBc]; rfl
        rw [← hBc]
        have hbk : ∀ q, bk (upd (upd l.heap c (fun x => { x with prev := (l.heap p).prev })) p (fun x => { x with next := none, prev := none })) q = bk l.heap q := by
          intro q
          rw [bk_upd, bk_upd]
          · intro _; simp [bk, upd]
          · intro _; simp [bk, upd]
        simp only [hn, Option.map_some]
        refine ⟨_, rfl, finish _ ?_ ?_ ?_ ?_ ?_ ?_ hbk rfl rfl, hbk, rfl, rfl⟩
        · rw [hA]; simp
        · rw [hA]; simp
        · intro q hq
          have h1 : q ≠ p := fun e => hpB (e ▸ hq)
          simp only [upd, if_neg h1]
          split
          · rename_i h; subst h; rfl
          · rfl
        · intro q hq
          have h1 : q ≠ p := fun e => hpB (e ▸ hq)
          rw [hBc]
          simp only [upd, if_neg h1, List.head?_cons]
          by_cases hqc : q = c
          · subst hqc; simp [hprev]
          · have : ¬ (some c = some q) := by simp; exact fun e => hqc e.symm
            rw [if_neg hqc]
            exact (if_neg this).symm
        · rw [hA, hBc]; rfl
        · show l.last = _
          rw [S.lst, hA, hBc]; simp
  · rw [if_neg (fun h => hA (first_iff.mp h))]
    obtain ⟨A', a, hAa⟩ : ∃ A' a, A = A' ++ [a] := ⟨A.dropLast, A.getLast hA, (List.dropLast_concat_getLast hA).symm⟩
    have hAl : A.getLast? = some a := by rw [hAa]; simp
    have haA : a ∈ A := by rw [hAa]; simp
    have hap : a ≠ p := fun e => hpA (e ▸ haA)
    have hpr : (l.heap p).prev = some a := by rw [hprev, hAl]
    simp only [hpr, Option.bind_some]
    have hnp : (upd l.heap a (fun x => { x with next := (l.heap p).next }) p) = l.heap p :=
      upd_other _ _ _ _ (fun e => hap e.symm)
    rw [hnp]
    have hfirst : l.first = (A ++ B).head? := by
      rw [S.fst]
      cases A with
      | nil => exact absurd rfl hA
      | cons x A => rfl
    by_cases hB : B = []
    · rw [if_pos (last_iff.mpr hB)]
      have hbk : ∀ q, bk (upd (upd l.heap a (fun x => { x with next := (l.heap p).next })) p (fun x => { x with next := none, prev := none })) q = bk l.heap q := by
        intro q
        rw [bk_upd, bk_upd]
        · intro _; simp [bk, upd]
        · intro _; simp [bk, upd]
      refine ⟨_, rfl, finish _ ?_ ?_ ?_ ?_ hfirst ?_ hbk rfl rfl, hbk, rfl, rfl⟩
      · intro q hq
        have h1 : q ≠ p := fun e => hpA (e ▸ hq)
        simp only [upd, if_neg h1]
        split
        · rename_i h; subst h; rfl
        · rfl
      · intro q hq
        have h1 : q ≠ p := fun e => hpA (e ▸ hq)
        rw [hAl]
        simp only [upd, if_neg h1]
        by_cases hqa : q = a
        · subst hqa; simp [hnext]
        · have : ¬ (some a = some q) := by simp; exact fun e => hqa e.symm
          rw [if_neg hqa, if_neg this]
      · rw [hB]; simp
      · rw [hB]; simp
      · rw [hB, List.append_nil, hAl]; exact hpr
    · rw [if_neg (fun h => hB (last_iff.mp h))]
      cases hBc : B with
      | nil => exact absurd hBc hB
      | cons c B' =>
        have hn : (l.heap p).next = some c := by rw [hnext, hBc]; rfl
        rw [← hBc]
        have hcB : c ∈ B := by rw [hBc]; simp
        have hcp : c ≠ p := fun e => hpB (e ▸ hcB)
        have hca : c ≠ a := fun e => hAB a haA c hcB e.symm
        have hbk : ∀ q, bk (upd (upd (upd l.heap a (fun x => { x with next := some c })) c (fun x => { x with prev := some a })) p (fun x => { x with next := none, prev := none })) q = bk l.heap q := by
          intro q
          rw [bk_upd, bk_upd, bk_upd]
          · intro _; simp [bk, upd]
          · intro _; simp [bk, upd]
          · intro _; simp [bk, upd]
        simp only [hn, hpr, Option.map_some]
        refine ⟨_, rfl, finish _ ?_ ?_ ?_ ?_ hfirst ?_ hbk rfl rfl, hbk, rfl, rfl⟩
        · intro q hq
          have h1 : q ≠ p := fun e => hpA (e ▸ hq)
          have h2 : q ≠ c := hAB q hq c hcB
          simp only [upd, if_neg h1, if_neg h2]
          split
          · rename_i h; subst h; rfl
          · rfl
        · intro q hq
          have h1 : q ≠ p := fun e => hpA (e ▸ hq)
          have h2 : q ≠ c := hAB q hq c hcB
          rw [hAl, hBc]
          simp only [upd, if_neg h1, if_neg h2, List.head?_cons]
          by_cases hqa : q = a
          · subst hqa; simp
          · have : ¬ (some a = some q) := by simp; exact fun e => hqa e.symm
            rw [if_neg hqa, if_neg this]
        · intro q hq
          have h1 : q ≠ p := fun e => hpB (e ▸ hq)
          have h2 : q ≠ a := fun e => hAB a haA q hq e.symm
          simp only [upd, if_neg h1, if_neg h2, if_neg hca]
          split
          · rename_i h; subst h; rfl
          · rfl
        · intro q hq
          have h1 : q ≠ p := fun e => hpB (e ▸ hq)
          have h2 : q ≠ a := fun e => hAB a haA q hq e.symm
          rw [hBc]
          simp only [upd, if_neg h1, if_neg h2, if_neg hca, List.head?_cons]
          by_cases hqc : q = c
          · subst hqc; simp [hAl]
          · have : ¬ (some c = some q) := by simp; exact fun e => hqc e.symm
            rw [if_neg hqc]
            exact (if_neg this).symm
        · show l.last = _
          rw [S.lst, hBc]
          simp only [List.getLast?_append, List.getLast?_cons_cons]

/-- Merging two neighbours of a sound list, with the pointer reset that the code forgets. -/
theorem merge_strong {l : FL} {p q : Nat} {A B : List Nat} (S : Sg l (A ++ p :: q :: B))
    (hc : (l.heap p).cap = (l.heap q).addr) :
    Sg (l.merge true p q) (A ++ p :: B) ∧ (l.merge true p q).fresh = l.fresh ∧
    (l.merge true p q).clobbered = l.clobbered := by
  have hqn := (S.at_ (A := A ++ [p]) (b := q) (B := B) (by simp)).1
  have hnd := S.nd
  have hnd1 := List.nodup_append.mp hnd
  have hnd2 := List.nodup_cons.mp hnd1.2.1
  have hnd3 := List.nodup_cons.mp hnd2.2
  have hpq : p ≠ q := fun e => hnd2.1 (by simp [e])
  have hpA : p ∉ A := fun h => hnd1.2.2 p h p (by simp) rfl
  have hqA : q ∉ A := fun h => hnd1.2.2 q h q (by simp) rfl
  have hpB : p ∉ B := fun h => hnd2.1 (by simp [h])
  have hqB : q ∉ B := hnd3.1
  have hAB : ∀ a ∈ A, ∀ b ∈ B, a ≠ b := fun a ha b hb => hnd1.2.2 a ha b (by simp [hb])
  have mem' : ∀ r, r ∈ A ++ p :: B → r ∈ A ++ p :: q :: B ∧ r ≠ q := by
    intro r hr
    constructor
    · simp at hr ⊢; grind
    · intro h; subst h; simp at hr; grind
  have hbk := merge_bk true l p q
  have hoth : ∀ r, r ≠ p → ((l.merge true p q).heap r).addr = (l.heap r).addr ∧
      ((l.merge true p q).heap r).size = (l.heap r).size := by
    intro r hr
    have := hbk r
    rw [if_neg hr] at this
    exact ⟨congrArg Prod.fst this, congrArg Prod.snd this⟩
  have hpp : ((l.merge true p q).heap p).addr = (l.heap p).addr ∧
      ((l.merge true p q).heap p).size = (l.heap p).size + (l.heap q).size := by
    have := hbk p
    rw [if_pos rfl] at this
    exact ⟨congrArg Prod.fst this, congrArg Prod.snd this⟩
  have hpsp := S.ps p (by simp)
  have hpsq := S.ps q (by simp)
  simp only [Blk.cap] at hc
  have hso1 := List.pairwise_append.mp S.so
  have hso2 := List.pairwise_cons.mp hso1.2.1
  have hso3 := List.pairwise_cons.mp hso2.2
  refine ⟨⟨?_, ?_, ?_, ?_, ?_, ?_, ?_, ?_⟩, rfl, by simp [FL.merge]⟩
  · have h0 := S.sg
    rw [seg_append] at h0 ⊢
    obtain ⟨h1, h2, h3, h4, h5, h6⟩ := h0
    refine ⟨?_, ?_, ?_, ?_⟩
    · have hsc : ∀ r ∈ A, ((l.merge true p q).heap r).next = (l.heap r).next ∧ ((l.merge true p q).heap r).prev = (l.heap r).prev := by
        intro r hr
        obtain ⟨m1, m2⟩ := merge_links true l p q r (fun e => hqA (e ▸ hr))
        rw [m1, m2, if_neg (fun (e : r = p) => hpA (e ▸ hr)), if_neg]
        · exact ⟨rfl, rfl⟩
        · rintro ⟨_, h⟩
          rw [hqn] at h
          exact hAB r hr r (List.mem_of_mem_head? h) rfl
      have := seg_congr (h' := (l.merge true p q).heap) none A _ hsc h1
      simpa using this
    · obtain ⟨m1, m2⟩ := merge_links true l p q p hpq
      rw [m2, if_neg]
      · exact h2
      · rintro ⟨_, h⟩
        rw [hqn] at h
        exact hpB (List.mem_of_mem_head? h)
    · obtain ⟨m1, m2⟩ := merge_links true l p q p hpq
      rw [m1, if_pos rfl, hqn]; simp
    · refine seg_right (some q) (some p) B none hnd3.2 ?_ ?_ ?_ h6
      · intro r hr
        obtain ⟨m1, m2⟩ := merge_links true l p q r (fun e => hqB (e ▸ hr))
        rw [m1, if_neg (fun (e : r = p) => hpB (e ▸ hr))]
      · intro r hr
        obtain ⟨m1, m2⟩ := merge_links true l p q r (fun e => hqB (e ▸ List.mem_of_mem_tail hr))
        rw [m2, if_neg]
        rintro ⟨_, h⟩
        rw [hqn] at h
        cases B with
        | nil => simp at hr
        | cons c B => simp at h; subst h; exact (List.nodup_cons.mp hnd3.2).1 hr
      · intro r hr
        obtain ⟨m1, m2⟩ := merge_links true l p q r (fun e => hqB (e ▸ List.mem_of_mem_head? hr))
        rw [m2, if_pos ⟨rfl, by rw [hqn]; exact hr⟩]
        rfl
  · show l.first = _
    rw [S.fst]; cases A <;> rfl
  · show (if l.last = some q then some p else l.last) = _
    rw [S.lst]
    cases B with
    | nil => simp
    | cons c B =>
      have e1 : (A ++ p :: q :: c :: B).getLast? = (c :: B).getLast? := by
        rw [List.getLast?_append, List.getLast?_cons_cons, List.getLast?_cons_cons]
        obtain ⟨y, hy⟩ : ∃ y, (c :: B).getLast? = some y := ⟨_, List.getLast?_eq_some_getLast (by simp)⟩
        rw [hy]; rfl
      have e2 : (A ++ p :: c :: B).getLast? = (c :: B).getLast? := by
        rw [List.getLast?_append, List.getLast?_cons_cons]
        obtain ⟨y, hy⟩ : ∃ y, (c :: B).getLast? = some y := ⟨_, List.getLast?_eq_some_getLast (by simp)⟩
        rw [hy]; rfl
      rw [e1, e2, if_neg]
      intro h; exact hqB (List.mem_of_getLast? h)
  · refine List.nodup_append.mpr ⟨hnd1.1, List.nodup_cons.mpr ⟨hpB, hnd3.2⟩, ?_⟩
    intro a ha b hb; exact hnd1.2.2 a ha b (by simp at hb ⊢; grind)
  · intro r hr; exact S.lt r (mem' r hr).1
  · refine List.pairwise_append.mpr ⟨?_, List.pairwise_cons.mpr ⟨?_, ?_⟩, ?_⟩
    · refine hso1.1.imp_of_mem ?_
      intro a b ha hb h
      rw [(hoth a (fun e => hpA (e ▸ ha))).1, (hoth a (fun e => hpA (e ▸ ha))).2, (hoth b (fun e => hpA (e ▸ hb))).1]
      exact h
    · intro b hb
      rw [hpp.1, hpp.2, (hoth b (fun e => hpB (e ▸ hb))).1]
      have := hso3.1 b hb
      omega
    · refine hso3.2.imp_of_mem ?_
      intro a b ha hb h
      rw [(hoth a (fun e => hpB (e ▸ ha))).1, (hoth a (fun e => hpB (e ▸ ha))).2, (hoth b (fun e => hpB (e ▸ hb))).1]
      exact h
    · intro a ha b hb
      rw [(hoth a (fun e => hpA (e ▸ ha))).1, (hoth a (fun e => hpA (e ▸ ha))).2]
      rcases List.mem_cons.mp hb with h | h
      · rw [h, hpp.1]; exact hso1.2.2 a ha p (by simp)
      · rw [(hoth b (fun e => hpB (e ▸ h))).1]; exact hso1.2.2 a ha b (by simp [h])
  · intro r hr
    by_cases h : r = p
    · rw [h, hpp.2]; omega
    · rw [(hoth r h).2]; exact S.ps r (mem' r hr).1
  · show l.len - 1 = _
    rw [S.ln]; simp; omega

end Verif.BFC
