import Verif.BFC.Layout
/-!
C26: what holds for every history of the allocator as it is in the repository.  The ranges handed out and not
yet freed never overlap, lie inside the reservation and start at a multiple of the block size.
-/
set_option autoImplicit false
namespace Verif.BFC

theorem fresh_pre {bs R : Int} {U : List (Int × Int)} {l : FL} {g e : List Nat} (S : Str l g e)
    {a s : Int} (L : Lay bs R ((a, s) :: g.map (bk l.heap)) U) : PreIns (l.newBlock a s) l.fresh g e := by
  have ne : ∀ p ∈ g ++ e, p ≠ l.fresh := fun p hp h => by have := S.lt p hp; omega
  have hsame : ∀ p, p ≠ l.fresh → (l.newBlock a s).heap p = l.heap p := fun p hp => by simp [FL.newBlock, upd, hp]
  have hnew : (l.newBlock a s).heap l.fresh = ⟨a, s, none, none⟩ := by simp [FL.newBlock, upd]
  have hd := List.pairwise_cons.mp L.dj
  refine ⟨?_, fun h => ne _ h rfl, by simp [FL.newBlock], by rw [hnew], by rw [hnew], ?_, ?_, ?_, ?_, ?_⟩
  · refine S.congr ?_ rfl rfl (by simp [FL.newBlock])
    intro p hp; rw [hsame p (ne p hp)]; exact ⟨rfl, rfl⟩
  · intro q hq h
    rw [hsame q (ne q hq)] at h
    have := S.pl q hq _ h; omega
  · intro hne h
    have h : l.last = some l.fresh := h
    rcases S.md with ⟨he, h'⟩ | ⟨z, la, h1, h2, h3, h4⟩
    · rcases h' with h' | h'
      · exact hne (by rw [he, h']; rfl)
      · rw [h'] at h
        exact ne _ (List.mem_append_left _ (List.mem_of_getLast? h)) rfl
    · rw [h2] at h; injection h with h; omega
  · intro p hp
    rw [bk, bk, hnew, hsame p (ne p (List.mem_append_left _ hp))]
    exact (hd.1 (bk l.heap p) (by simp; exact Or.inl ⟨p, hp, rfl⟩)).symm
  · intro p hp
    rw [hsame p (ne p (List.mem_append_left _ hp))]
    exact (L.ok (bk l.heap p) (by simp; exact Or.inr (Or.inl ⟨p, hp, rfl⟩))).2.1
  · rw [hnew]; exact (L.ok (a, s) (by simp)).2.1

/-- Adding a free range. -/
theorem insert_new_weak {bs R : Int} {U : List (Int × Int)} {l l' : FL} {g e : List Nat} (S : Str l g e)
    {a s : Int} (L : Lay bs R ((a, s) :: g.map (bk l.heap)) U) (h : (l.newBlock a s).insert l.fresh = some l') :
    ∃ g', W bs R U l' g' e ∧ (∀ p ∈ g, p ∈ g' ∧ bk l'.heap p = bk l.heap p) ∧
      l'.fresh = l.fresh + 1 ∧ l'.clobbered = l.clobbered := by
  have ne : ∀ p ∈ g, p ≠ l.fresh := fun p hp h => by have := S.lt p (List.mem_append_left _ hp); omega
  obtain ⟨g', I⟩ := insert_weak (fresh_pre S L) h
  have hb : ∀ p ∈ g, bk l'.heap p = bk l.heap p := by
    intro p hp
    rw [I.bkk p (by simp [hp])]
    simp only [bk, FL.newBlock, upd_other _ _ _ _ (ne p hp)]
  have hbn : bk l'.heap l.fresh = (a, s) := by
    rw [I.bkk _ (by simp)]
    simp [bk, FL.newBlock, upd]
  refine ⟨g', ⟨I.str, ?_⟩, ?_, by rw [I.fr]; rfl, by rw [I.cl]; rfl⟩
  · rcases I.sh with h1 | ⟨A, B, h1, h2⟩
    · rw [h1, map_bk_congr hb]
      exact L.sub (List.sublist_cons_self _ _)
    · rw [h2]
      refine L.perm ?_ (List.Perm.refl _)
      rw [← hbn, ← map_bk_congr hb, h1]
      have : (l.fresh :: (A ++ B)).Perm (A ++ l.fresh :: B) := List.perm_middle.symm
      simpa using this.map (bk l'.heap)
  · intro p hp
    refine ⟨?_, hb p hp⟩
    rcases I.sh with h1 | ⟨A, B, h1, h2⟩
    · rw [h1]; exact hp
    · rw [h2]; rw [h1] at hp; simp at hp ⊢; grind

theorem perm_cons_erase_map {l : FL} {g : List Nat} {p : Nat} (hp : p ∈ g) :
    (g.map (bk l.heap)).Perm (bk l.heap p :: (g.erase p).map (bk l.heap)) := by
  simpa using (List.perm_cons_erase hp).map (bk l.heap)

theorem splitInsert_weak {bs R : Int} {U : List (Int × Int)} {l l' : FL} {g e : List Nat} (H : W bs R U l g e)
    {p : Nat} {s : Int} (hp : p ∈ g) (ha : bs ∣ (l.heap p).addr) (hs : 0 < s)
    (hr : bs ∣ s ∨ (l.heap p).size - s < bs) (h : l.splitInsert p s = some l') :
    ∃ g', W bs R U l' g' e ∧ p ∈ g' ∧
      bk l'.heap p = ((l.heap p).addr, if (l.heap p).size > s then s else (l.heap p).size) := by
  unfold FL.splitInsert at h
  split at h
  · rename_i hgt
    obtain ⟨S, L⟩ := H
    have hnd := (List.nodup_append.mp S.nd).1
    let l1 : FL := { l with heap := upd l.heap p (fun x => { x with size := s }) }
    have S1 : Str l1 g e := by
      refine S.congr ?_ rfl rfl (Nat.le_refl _)
      intro q _
      simp only [l1, upd]; split
      · rename_i h; subst h; exact ⟨rfl, rfl⟩
      · exact ⟨rfl, rfl⟩
    have hbp : bk l1.heap p = ((l.heap p).addr, s) := by simp [l1, bk, upd]
    have hbe : (g.erase p).map (bk l1.heap) = (g.erase p).map (bk l.heap) := by
      apply map_bk_congr
      intro q hq
      have : q ≠ p := ((List.Nodup.mem_erase_iff hnd).mp hq).1
      simp [l1, bk, upd, this]
    have L1 : Lay bs R (((l.heap p).addr + s, (l.heap p).size - s) :: g.map (bk l1.heap)) U := by
      have h0 := (L.perm (perm_cons_erase_map hp) (List.Perm.refl _)).split hs hgt ha hr
      refine h0.perm (List.Perm.cons _ ?_) (List.Perm.refl _)
      refine List.Perm.trans ?_ (perm_cons_erase_map (l := l1) hp).symm
      rw [hbp, hbe]; exact List.Perm.refl _
    obtain ⟨g', H', hk, _, _⟩ := insert_new_weak (l := l1) S1 L1 h
    refine ⟨g', H', (hk p hp).1, ?_⟩
    rw [(hk p hp).2, hbp, if_pos hgt]
  · rename_i hgt
    injection h with h; subst h
    exact ⟨g, H, hp, by rw [if_neg hgt]; rfl⟩

theorem align_ge {bs s : Int} (hb : 0 < bs) (hs : 0 < s) :
    s ≤ align bs s ∧ bs ∣ align bs s ∧ align bs s - s < bs ∧ bs ≤ align bs s := by
  unfold align
  have h1 := Int.emod_nonneg s (show bs ≠ 0 by omega)
  have h2 := Int.emod_lt_of_pos s hb
  have h3 := Int.mul_ediv_add_emod s bs
  simp only
  split
  · rename_i h
    have hd := Int.dvd_of_emod_eq_zero h
    exact ⟨by omega, hd, by omega, Int.le_of_dvd hs hd⟩
  · have hd : bs ∣ s - s % bs := ⟨s / bs, by omega⟩
    refine ⟨by omega, Int.dvd_add hd (Int.dvd_refl _), by omega, ?_⟩
    have : 0 ≤ s / bs := Int.ediv_nonneg (by omega) (by omega)
    have : 0 ≤ bs * (s / bs) := Int.mul_nonneg (by omega) this
    omega

/-- Taking a block: afterwards it belongs to the client. -/
theorem splitOrRemove_weak {bs R : Int} {U : List (Int × Int)} {l l' : FL} {g e : List Nat} (H : W bs R U l g e)
    (hb : 0 < bs) {p : Nat} {s : Int} (hs : 0 < s) (hp : p ∈ g ++ e) (hsz : align bs s ≤ (l.heap p).size)
    (h : l.splitOrRemove p (align bs s) s = some l') :
    ∃ g' e', W bs R (((l'.heap p).addr, s) :: U) l' g' e' := by
  obtain ⟨a1, a2, a3, a4⟩ := align_ge hb hs
  have hpg : p ∈ g := by
    apply Classical.byContradiction
    intro hpg
    have hpe : p ∈ e := (List.mem_append.mp hp).resolve_left hpg
    rcases H.1.md with ⟨he, _⟩ | ⟨z, la, h1, h2, h3, h4⟩
    · rw [he] at hpe; simp at hpe
    · rw [h1] at hpe; simp at hpe; subst hpe
      have hn : (l.heap p).next = none := by
        have := (H.1.at_ (A := g) (b := p) (B := []) (by rw [h1])).1
        simpa using this
      rw [splitOrRemove_end (H.1.lt p hp) ?_ hn] at h
      · cases h
      · rw [h2]; intro h; injection h with h; subst h; exact h3 hp
  have hal : bs ∣ (l.heap p).addr := by
    rcases H.2.fa (bk l.heap p) (List.mem_map.mpr ⟨p, hpg, rfl⟩) with h | h
    · exact h
    · simp only [bk] at h; omega
  unfold FL.splitOrRemove at h
  cases e1 : l.splitInsert p (align bs s) with
  | none => rw [e1] at h; cases h
  | some l1 =>
    rw [e1, Option.bind_some] at h
    obtain ⟨g1, H1, hp1, hb1⟩ := splitInsert_weak H hpg hal (by omega) (Or.inl a2) e1
    have hs1 : (l1.heap p).size = align bs s := by
      have := congrArg Prod.snd hb1
      simp only [bk] at this
      rw [this]; split <;> omega
    have ha1 : (l1.heap p).addr = (l.heap p).addr := congrArg Prod.fst hb1
    cases e2 : l1.splitInsert p s with
    | none => rw [e2] at h; cases h
    | some l2 =>
      rw [e2, Option.bind_some] at h
      obtain ⟨g2, H2, hp2, hb2⟩ := splitInsert_weak H1 hp1 (by rw [ha1]; exact hal) hs (Or.inr (by omega)) e2
      have hs2 : (l2.heap p).size = s := by
        have := congrArg Prod.snd hb2
        simp only [bk] at this
        rw [this]; split <;> omega
      have ha2 : (l2.heap p).addr = (l1.heap p).addr := congrArg Prod.fst hb2
      obtain ⟨g', e', Rm⟩ := remove_weak H2.1 (List.mem_append_left _ hp2) h
      have hbk : bk l'.heap p = ((l'.heap p).addr, s) := by
        rw [bk]
        have := congrArg Prod.snd (Rm.bkk p)
        simp only [bk] at this
        rw [this, hs2]
      refine ⟨g', e', Rm.str, ?_⟩
      have L2 := (H2.2.perm (perm_cons_erase_map hp2) (List.Perm.refl _)).use (by
        show bs ∣ (l2.heap p).addr
        rw [ha2, ha1]; exact hal)
      rw [← Rm.bkk p, hbk] at L2
      refine L2.sub ?_
      rw [map_bk_congr (fun q _ => Rm.bkk q)]
      exact Rm.sub.map _

/-! ### The client's map -/

theorem look_mem {m : List (Int × Int)} {k v : Int} (h : look m k = some v) : (k, v) ∈ m := by
  unfold look at h
  cases hf : m.find? (fun e => e.1 == k) with
  | none => rw [hf] at h; cases h
  | some x =>
    rw [hf] at h; simp at h
    have h1 := List.mem_of_find?_eq_some hf
    have h2 := List.find?_some hf
    simp at h2
    rw [← h, ← h2]; exact h1

theorem look_none {m : List (Int × Int)} {k : Int} (h : look m k = none) : ∀ v, (k, v) ∉ m := by
  intro v hv
  unfold look at h
  simp at h
  exact h _ _ hv rfl

theorem del_perm {m : List (Int × Int)} {k v : Int} (hk : m.Pairwise (fun a b => a.1 ≠ b.1)) (h : (k, v) ∈ m) :
    m.Perm ((k, v) :: del m k) := by
  induction m with
  | nil => simp at h
  | cons x m ih =>
    have hk' := List.pairwise_cons.mp hk
    rcases List.mem_cons.mp h with h | h
    · subst h
      have : del ((k, v) :: m) k = m := by
        unfold del
        rw [List.filter_cons_of_neg (by simp)]
        rw [List.filter_eq_self]
        intro y hy; simp; exact fun e => hk'.1 y hy e.symm
      rw [this]
    · have hx : x.1 ≠ k := hk'.1 _ h
      have : del (x :: m) k = x :: del m k := by
        unfold del
        rw [List.filter_cons_of_pos (by simp [hx])]
      rw [this]
      exact (List.Perm.cons x (ih hk'.2 h)).trans (List.Perm.swap _ _ _)

theorem del_id {m : List (Int × Int)} {k : Int} (h : ∀ y ∈ m, y.1 ≠ k) : del m k = m := by
  unfold del
  rw [List.filter_eq_self]
  intro y hy; simp [h y hy]

theorem Lay.keys {bs R : Int} {F U : List (Int × Int)} (L : Lay bs R F U) : U.Pairwise (fun a b => a.1 ≠ b.1) := by
  have h := (List.pairwise_append.mp L.dj).2.1
  refine h.imp_of_mem ?_
  intro a b ha hb hd e
  have oa := L.ok a (by simp [ha])
  have ob := L.ok b (by simp [hb])
  simp only [Disj] at hd
  omega

/-- What holds of an allocator state of the code: damaged or not. -/
def Ok (b : BFC) : Prop :=
  0 < b.blockSize ∧ ∃ g e, W b.blockSize b.reserved b.used b.fl g e

theorem take_ok {b b' : BFC} {p : Nat} {s : Int} {o : Out} {g e : List Nat} (hb : 0 < b.blockSize)
    (H : W b.blockSize b.reserved b.used b.fl g e) (hs : 0 < s) (hp : p ∈ g ++ e)
    (hsz : align b.blockSize s ≤ (b.fl.heap p).size) (h : take b p (align b.blockSize s) s = some (b', o)) :
    Ok b' ∧ b'.start = b.start ∧ b'.blockSize = b.blockSize ∧ b'.reserved = b.reserved ∧
    ∃ a, o = .addr (a + b.start) ∧ b'.used = (a, s) :: b.used ∧ ∀ y ∈ b.used, y.1 ≠ a := by
  unfold take at h
  cases e1 : b.fl.splitOrRemove p (align b.blockSize s) s with
  | none => rw [e1] at h; cases h
  | some l =>
    rw [e1, Option.map_some] at h
    injection h with h; injection h with h h2; subst h; subst h2
    obtain ⟨g', e', H'⟩ := splitOrRemove_weak H hb hs hp hsz e1
    have hk : ∀ y ∈ b.used, y.1 ≠ (l.heap p).addr := by
      intro y hy e
      exact (List.pairwise_cons.mp H'.2.keys).1 y hy e.symm
    have hd := del_id hk
    refine ⟨⟨hb, g', e', ?_⟩, rfl, rfl, rfl, (l.heap p).addr, rfl, by simp only [hd], hk⟩
    simp only [hd]; exact H'

/-- One call of `alloc`. -/
theorem alloc_ok {rp : Bool} {b b' : BFC} {s : Int} {o : Out} (H : Ok b) (h : alloc rp b s = some (b', o)) :
    Ok b' ∧ b'.start = b.start ∧ b'.blockSize = b.blockSize ∧ b'.reserved = b.reserved ∧
    ((b'.used = b.used ∧ (o = .oom ∨ o = .bad ∧ s ≤ 0)) ∨
     0 < s ∧ ∃ a, o = .addr (a + b.start) ∧ b'.used = (a, s) :: b.used ∧ ∀ y ∈ b.used, y.1 ≠ a) := by
  obtain ⟨hb, g, e, H⟩ := H
  unfold alloc at h
  split at h
  · rename_i hle
    injection h with h; injection h with h h2; subst h; subst h2
    exact ⟨⟨hb, g, e, H⟩, rfl, rfl, rfl, Or.inl ⟨rfl, Or.inr ⟨rfl, hle⟩⟩⟩
  · rename_i hle
    have hs : 0 < s := by omega
    simp only at h
    cases e1 : b.fl.bestFit (align b.blockSize s) with
    | none => rw [e1] at h; cases h
    | some x =>
      rw [e1, Option.bind_some] at h
      cases x with
      | some p =>
        obtain ⟨hp, hsz⟩ := bestFit_mem H.1 e1
        obtain ⟨r1, r2, r3, r4, r5⟩ := take_ok hb H hs hp hsz h
        exact ⟨r1, r2, r3, r4, Or.inr ⟨hs, r5⟩⟩
      | none =>
        simp only at h
        cases e2 : b.fl.coalesce rp b.blockSize with
        | none => rw [e2] at h; cases h
        | some l =>
          rw [e2, Option.bind_some] at h
          obtain ⟨g1, x1, H1⟩ := coalesce_weak rp H e2
          cases e3 : l.bestFit (align b.blockSize s) with
          | none => rw [e3] at h; cases h
          | some y =>
            rw [e3, Option.bind_some] at h
            cases y with
            | none =>
              simp only at h
              injection h with h; injection h with h h2; subst h; subst h2
              exact ⟨⟨hb, g1, x1, H1⟩, rfl, rfl, rfl, Or.inl ⟨rfl, Or.inl rfl⟩⟩
            | some p =>
              obtain ⟨hp, hsz⟩ := bestFit_mem H1.1 e3
              obtain ⟨r1, r2, r3, r4, r5⟩ := take_ok (b := { b with fl := l }) hb H1 hs hp hsz h
              exact ⟨r1, r2, r3, r4, Or.inr ⟨hs, r5⟩⟩

/-- One call of `free`. -/
theorem free_ok {rp : Bool} {th : Nat → Nat → Bool} {b b' : BFC} {a : Int} (H : Ok b)
    (h : free rp th b a = some b') :
    Ok b' ∧ b'.start = b.start ∧ b'.blockSize = b.blockSize ∧ b'.reserved = b.reserved ∧
    b'.used = del b.used (a - b.start) := by
  obtain ⟨hb, g, e, H⟩ := H
  unfold free at h
  simp only at h
  split at h
  · rename_i hl
    injection h with h; subst h
    refine ⟨⟨hb, g, e, H⟩, rfl, rfl, rfl, ?_⟩
    rw [del_id]
    intro y hy e
    exact look_none hl y.2 (by rw [← e]; exact hy)
  · rename_i s hl
    have hmem := look_mem hl
    have L := (H.2.perm (List.Perm.refl _) (del_perm H.2.keys hmem)).unuse
    cases e1 : (b.fl.newBlock (a - b.start) s).insert b.fl.fresh with
    | none => rw [e1] at h; cases h
    | some l =>
      rw [e1, Option.bind_some] at h
      obtain ⟨g1, H1, _⟩ := insert_new_weak H.1 L e1
      split at h
      · cases e2 : l.coalesce rp b.blockSize with
        | none => rw [e2] at h; cases h
        | some l2 =>
          rw [e2, Option.map_some] at h
          injection h with h; subst h
          obtain ⟨g2, x2, H2⟩ := coalesce_weak rp H1 e2
          exact ⟨⟨hb, g2, x2, H2⟩, rfl, rfl, rfl, rfl⟩
      · injection h with h; subst h
        exact ⟨⟨hb, g1, e, H1⟩, rfl, rfl, rfl, rfl⟩

theorem reserve_ok {bs st sz : Int} {b : BFC} (hb : 0 < bs) (hs : 0 < sz) (h : reserve bs st sz = some b) :
    Ok b ∧ b.start = st ∧ b.blockSize = bs ∧ b.reserved = sz ∧ b.used = [] := by
  unfold reserve at h
  have S : Str FL.empty [] [] := ⟨trivial, rfl, List.nodup_nil, by simp, by simp, Or.inl ⟨rfl, Or.inl rfl⟩⟩
  have L : Lay bs sz ((0, sz) :: ([] : List Nat).map (bk FL.empty.heap)) [] := by
    refine ⟨by simp, by simp; omega, by simp, by simp⟩
  simp only at h
  cases e1 : (FL.empty.newBlock 0 sz).insert 0 with
  | none => rw [e1] at h; cases h
  | some l =>
    rw [e1, Option.map_some] at h
    injection h with h; subst h
    obtain ⟨g1, H1, _⟩ := insert_new_weak S L e1
    exact ⟨⟨hb, g1, [], H1⟩, rfl, rfl, rfl, rfl⟩

/-! ### Histories, seen from the client -/

/-- The ranges the client holds, from its own calls and the results it got: an allocation that returned an
address adds the range asked for at that address; freeing an address ends what is held there. -/
def held : List (Int × Int) → List (Op × Out) → List (Int × Int)
  | H, [] => H
  | H, (.alloc s, .addr a) :: es => held ((a, s) :: H) es
  | H, (.free a, _) :: es => held (H.filter (fun r => r.1 != a)) es
  | H, _ :: es => held H es

theorem run_ok {rp : Bool} {th : Nat → Nat → Bool} : ∀ (ops : List Op) {b b' : BFC} {outs : List Out},
    Ok b → run rp th b ops = some (b', outs) →
    Ok b' ∧ b'.start = b.start ∧ b'.blockSize = b.blockSize ∧ b'.reserved = b.reserved ∧
    outs.length = ops.length ∧
    b'.used.map (fun r => (r.1 + b.start, r.2)) = held (b.used.map (fun r => (r.1 + b.start, r.2))) (ops.zip outs)
  | [], b, b', outs, H, h => by
    rw [run] at h; injection h with h; injection h with h1 h2; subst h1; subst h2
    exact ⟨H, rfl, rfl, rfl, rfl, rfl⟩
  | o :: os, b, b', outs, H, h => by
    rw [run] at h
    cases e1 : step rp th b o with
    | none => rw [e1] at h; cases h
    | some x =>
      obtain ⟨b1, r⟩ := x
      rw [e1, Option.bind_some] at h
      simp only at h
      cases e2 : run rp th b1 os with
      | none => rw [e2] at h; cases h
      | some y =>
        obtain ⟨b2, rs⟩ := y
        rw [e2, Option.map_some] at h
        injection h with h; injection h with h1 h2; subst h1; subst h2
        cases o with
        | alloc s =>
          obtain ⟨k1, k2, k3, k4, k5⟩ := alloc_ok H e1
          obtain ⟨j1, j2, j3, j4, j5, j6⟩ := run_ok os k1 e2
          refine ⟨j1, by rw [j2, k2], by rw [j3, k3], by rw [j4, k4], by simp [j5], ?_⟩
          rw [k2] at j6
          rw [j6, List.zip_cons_cons]
          rcases k5 with ⟨u, ho⟩ | ⟨_, a, ho, u, _⟩
          · rw [u]; rcases ho with ho | ⟨ho, _⟩ <;> subst ho <;> rfl
          · subst ho; rw [u]; rfl
        | free a =>
          simp only [step] at e1
          cases e3 : free rp th b a with
          | none => rw [e3] at e1; cases e1
          | some b3 =>
            rw [e3, Option.map_some] at e1
            injection e1 with e1; injection e1 with e4 e5; subst e4; subst e5
            obtain ⟨k1, k2, k3, k4, k5⟩ := free_ok H e3
            obtain ⟨j1, j2, j3, j4, j5, j6⟩ := run_ok os k1 e2
            refine ⟨j1, by rw [j2, k2], by rw [j3, k3], by rw [j4, k4], by simp [j5], ?_⟩
            rw [k2] at j6
            rw [j6, List.zip_cons_cons, held, k5]
            congr 1
            unfold del
            rw [List.filter_map]
            congr 1
            apply List.filter_congr
            intro y _
            simp only [Function.comp]
            rw [Bool.eq_iff_iff]; simp; omega

/-- **C26 (code as it is).** Whatever the client does, the ranges it holds never overlap, lie inside the
memory that was reserved, and start at a multiple of the block size from its start. A panic ends the history.
Partial: that they are also disjoint from the free list is false of the code (`code_not_conserved`).
-/
theorem held_disjoint_partial (thresh : Nat → Nat → Bool) (blockSize start size : Int) (hb : 0 < blockSize) (hs : 0 < size)
    (b0 b : BFC) (h0 : reserve blockSize start size = some b0) (ops : List Op) (outs : List Out)
    (h : run false thresh b0 ops = some (b, outs)) :
    (held [] (ops.zip outs)).Pairwise (fun r s => r.1 + r.2 ≤ s.1 ∨ s.1 + s.2 ≤ r.1) ∧
    ∀ r ∈ held [] (ops.zip outs), start ≤ r.1 ∧ 0 < r.2 ∧ r.1 + r.2 ≤ start + size ∧ blockSize ∣ r.1 - start := by
  obtain ⟨H, r1, r2, r3, r4⟩ := reserve_ok hb hs h0
  obtain ⟨⟨_, g, e, _, L⟩, j2, j3, j4, _, j6⟩ := run_ok ops H h
  rw [r4, r1, List.map_nil] at j6
  rw [← j6]
  have hd := (List.pairwise_append.mp L.dj).2.1
  constructor
  · rw [List.pairwise_map]
    refine hd.imp ?_
    intro a b hab
    simp only [Disj] at hab ⊢; omega
  · intro r hr
    obtain ⟨y, hy, rfl⟩ := List.mem_map.mp hr
    have ho := L.ok y (by simp [hy])
    have hu := L.ua y hy
    rw [j3, r2] at hu
    rw [j4, r3] at ho
    refine ⟨by simp only; omega, ho.2.1, by simp only; omega, ?_⟩
    have : y.1 + start - start = y.1 := by omega
    simp only [this]; exact hu

end Verif.BFC
