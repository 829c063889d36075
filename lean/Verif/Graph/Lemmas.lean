import Verif.Graph.Model
/-! Invariant of the graph store and its preservation (helper lemmas for the C01, C03, C05 theorems). -/
set_option autoImplicit false
namespace Verif.Graph

variable {L : Type} {P : Params L} {g : G L}

/-- Invariant of every state reachable without removals. -/
structure GInv (P : Params L) (g : G L) : Prop where
  len : g.all.length = g.counter
  ids : ∀ (p : Ptr) (c : Cell L), g.heap[p]? = some c → (c.id = -1 ∧ p ∉ g.all) ∨ (∃ i : Nat, c.id = (i : Int) ∧ g.all[i]? = some p)
  pos : ∀ (i : Nat) (p : Ptr), g.all[i]? = some p → ∃ c, g.heap[p]? = some c ∧ c.id = (i : Int)
  byid : ∀ k i, g.byID k = some i → k = i ∧ i < g.all.length
  bucket : ∀ p ∈ g.all, ∀ c : Cell L, g.heap[p]? = some c →
    g.byHash c.hash = some (some p) ∨ (g.byHash c.hash = some none ∧ p ∈ g.evac c.hash)
  single : ∀ h p, g.byHash h = some (some p) → p ∈ g.all ∧ ∃ c, g.heap[p]? = some c ∧ c.hash = h
  coll : ∀ h, g.byHash h = some none → ∀ p ∈ g.evac h, p ∈ g.all ∧ ∃ c, g.heap[p]? = some c ∧ c.hash = h
  sep : ∀ h, g.byHash h = some none → (g.evac h).Pairwise (fun e p => nodeEq P g p e = false)
  consts : ∀ q ∈ g.constants, q ∈ g.all ∧ ∃ c, g.heap[q]? = some c ∧ P.isConst c.label
  kids : ∀ (p : Ptr) (c : Cell L), g.heap[p]? = some c → ∀ q ∈ c.children, ∃ d, g.heap[q]? = some d ∧ 0 ≤ d.id ∧
    (c.id ≠ -1 → d.id < c.id)
  toSound : ∀ u ns, g.to u = some ns → u ∈ g.all ∧ ∀ v ∈ ns, v ∈ g.all ∧ ∃ c, g.heap[v]? = some c ∧ u ∈ c.children
  toDef : ∀ u ∈ g.all, (g.to u).isSome

/-- Every operand of a node (other than the excepted ones) has the node in its reverse index. -/
def Complete (g : G L) (ex : Ptr → Prop) : Prop :=
  ∀ v ∈ g.all, ¬ ex v → ∀ c, g.heap[v]? = some c → ∀ u ∈ c.children, ∃ ns, g.to u = some ns ∧ v ∈ ns

/-- Objects outside the graph (other than the excepted ones) have no operands. -/
def Raw (g : G L) (ex : Ptr → Prop) : Prop :=
  ∀ p c, ¬ ex p → g.heap[p]? = some c → c.id = -1 → c.children = []

theorem inv_empty : GInv P (empty : G L) := by
  constructor <;> simp [empty]

theorem upd_same {α β : Type} [DecidableEq α] (f : α → β) (a : α) (b : β) : upd f a b a = b := by simp [upd]
theorem upd_ne {α β : Type} [DecidableEq α] (f : α → β) (a : α) (b : β) (x : α) (h : x ≠ a) : upd f a b x = f x := by
  simp [upd, h]

theorem nodeEq_self (p : Ptr) : nodeEq P g p p = true := by simp [nodeEq]

theorem GInv.live (hI : GInv P g) : ∀ p ∈ g.all, ∃ c, g.heap[p]? = some c := by
  intro p hp
  obtain ⟨i, hi⟩ := List.mem_iff_getElem?.mp hp
  obtain ⟨c, hc, _⟩ := hI.pos i p hi
  exact ⟨c, hc⟩

/-- Members have non-negative IDs and vice versa. -/
theorem GInv.mem_iff (hI : GInv P g) {p : Ptr} {c : Cell L} (hc : g.heap[p]? = some c) :
    p ∈ g.all ↔ 0 ≤ c.id := by
  rcases hI.ids p c hc with ⟨h1, h2⟩ | ⟨i, h1, h2⟩
  · constructor
    · intro h; exact absurd h h2
    · intro h; omega
  · constructor
    · intro _; omega
    · intro _; exact List.mem_of_getElem? h2

theorem heap_addToAll (g : G L) (p q : Ptr) :
    (addToAll g p).heap[q]? = if p = q then (g.heap[q]?).map (fun c => { c with id := g.counter }) else g.heap[q]? := by
  simp only [addToAll, List.getElem?_modify]
  split <;> rename_i h
  · subst h; rfl
  · cases g.heap[q]? <;> rfl

theorem nodeEq_congr {g g' : G L} {a b : Ptr} {x x' y y' : Cell L}
    (hx : g.heap[a]? = some x) (hx' : g'.heap[a]? = some x') (hy : g.heap[b]? = some y) (hy' : g'.heap[b]? = some y')
    (h1 : x'.label = x.label) (h2 : x'.children = x.children) (h3 : y'.label = y.label) (h4 : y'.children = y.children) :
    nodeEq P g' a b = nodeEq P g a b := by
  simp only [nodeEq, hx, hx', hy, hy', h1, h2, h3, h4]

/-- Inserting a node object that is not in the graph. -/
theorem inv_insert (hI : GInv P g) {p : Ptr} {n : Cell L} (hp : g.heap[p]? = some n) (hraw : p ∉ g.all)
    (byHash' : UInt32 → Option (Option Ptr)) (evac' : UInt32 → List Ptr) (constants' : List Ptr)
    (hcase : (byHash' = upd g.byHash n.hash (some (some p)) ∧ evac' = g.evac ∧ g.byHash n.hash = none) ∨
      (∃ l, byHash' = upd g.byHash n.hash (some none) ∧ evac' = upd g.evac n.hash (l ++ [p]) ∧
        ((g.byHash n.hash = some none ∧ l = g.evac n.hash) ∨ (∃ e, g.byHash n.hash = some (some e) ∧ l = [e])) ∧
        ∀ e ∈ l, nodeEq P g p e = false))
    (hconst : ∀ q ∈ constants', q ∈ g.constants ∨ (q = p ∧ P.isConst n.label)) :
    GInv P (ensureTo (addToAll { g with byHash := byHash', evac := evac', constants := constants' } p) p) := by
  have hid : n.id = -1 := by
    rcases hI.ids p n hp with ⟨h1, _⟩ | ⟨i, _, h2⟩
    · exact h1
    · exact absurd (List.mem_of_getElem? h2) hraw
  have hto : g.to p = none := by
    cases h : g.to p with
    | none => rfl
    | some ns => exact absurd (hI.toSound p ns h).1 hraw
  -- the new heap
  have hheap : ∀ q, (ensureTo (addToAll { g with byHash := byHash', evac := evac', constants := constants' } p) p).heap[q]? =
      if p = q then (g.heap[q]?).map (fun c => { c with id := (g.counter : Int) }) else g.heap[q]? := by
    intro q
    have := heap_addToAll { g with byHash := byHash', evac := evac', constants := constants' } p q
    simp only [ensureTo]
    split <;> exact this
  have hto' : (ensureTo (addToAll { g with byHash := byHash', evac := evac', constants := constants' } p) p).to =
      upd g.to p (some []) := by
    simp only [ensureTo, addToAll, hto]
  have hall : (ensureTo (addToAll { g with byHash := byHash', evac := evac', constants := constants' } p) p).all = g.all ++ [p] := by
    simp only [ensureTo, addToAll, hto]
  have hcnt : (ensureTo (addToAll { g with byHash := byHash', evac := evac', constants := constants' } p) p).counter = g.counter + 1 := by
    simp only [ensureTo, addToAll, hto]
  have hbid : (ensureTo (addToAll { g with byHash := byHash', evac := evac', constants := constants' } p) p).byID = g.byID := by
    simp only [ensureTo, addToAll, hto]
  have hbh : (ensureTo (addToAll { g with byHash := byHash', evac := evac', constants := constants' } p) p).byHash = byHash' := by
    simp only [ensureTo, addToAll, hto]
  have hev : (ensureTo (addToAll { g with byHash := byHash', evac := evac', constants := constants' } p) p).evac = evac' := by
    simp only [ensureTo, addToAll, hto]
  have hcs : (ensureTo (addToAll { g with byHash := byHash', evac := evac', constants := constants' } p) p).constants = constants' := by
    simp only [ensureTo, addToAll, hto]
  generalize hg' : (ensureTo (addToAll { g with byHash := byHash', evac := evac', constants := constants' } p) p) = g' at *
  have hcell : ∀ q c', g'.heap[q]? = some c' → ∃ c, g.heap[q]? = some c ∧ c'.label = c.label ∧
      c'.children = c.children ∧ c'.hash = c.hash ∧ (q ≠ p → c' = c) ∧ (q = p → c'.id = (g.counter : Int) ∧ c = n) := by
    intro q c' h
    rw [hheap q] at h
    by_cases hpq : p = q
    · subst hpq
      rw [if_pos rfl, hp] at h
      simp only [Option.map_some, Option.some.injEq] at h
      subst h
      exact ⟨n, hp, rfl, rfl, rfl, fun h => absurd rfl h, fun _ => ⟨rfl, rfl⟩⟩
    · rw [if_neg hpq] at h
      exact ⟨c', h, rfl, rfl, rfl, fun _ => rfl, fun h => absurd h.symm hpq⟩
  have hcell2 : ∀ q c, g.heap[q]? = some c → ∃ c', g'.heap[q]? = some c' ∧ c'.label = c.label ∧
      c'.children = c.children ∧ c'.hash = c.hash ∧ (q ≠ p → c' = c) ∧ (q = p → c'.id = (g.counter : Int)) := by
    intro q c h
    by_cases hpq : p = q
    · refine ⟨{ c with id := (g.counter : Int) }, ?_, rfl, rfl, rfl, fun h => absurd hpq.symm h, fun _ => rfl⟩
      rw [hheap q, if_pos hpq, h]; rfl
    · refine ⟨c, ?_, rfl, rfl, rfl, fun _ => rfl, fun h => absurd h.symm hpq⟩
      rw [hheap q, if_neg hpq, h]
  have hne : ∀ a b, a ∈ g.all ∨ a = p → b ∈ g.all → nodeEq P g' a b = nodeEq P g a b := by
    intro a b ha hb
    have hax : ∃ x, g.heap[a]? = some x := by
      rcases ha with ha | ha
      · exact hI.live a ha
      · subst ha; exact ⟨n, hp⟩
    obtain ⟨x, hx⟩ := hax
    obtain ⟨y, hy⟩ := hI.live b hb
    obtain ⟨x', hx', e1, e2, _⟩ := hcell2 a x hx
    obtain ⟨y', hy', e3, e4, _⟩ := hcell2 b y hy
    exact nodeEq_congr hx hx' hy hy' e1 e2 e3 e4
  constructor
  · rw [hall, hcnt]; simp [hI.len]
  · intro q c' hq
    obtain ⟨c, hc, _, _, _, hn, hpe⟩ := hcell q c' hq
    rw [hall]
    by_cases hqp : q = p
    · right
      refine ⟨g.counter, (hpe hqp).1, ?_⟩
      rw [← hI.len]; simp [hqp]
    · have := hn hqp; subst this
      rcases hI.ids q c' hc with ⟨h1, h2⟩ | ⟨i, h1, h2⟩
      · left; exact ⟨h1, by simp [h2, hqp]⟩
      · right
        refine ⟨i, h1, ?_⟩
        have hlt : i < g.all.length := by
          rcases Nat.lt_or_ge i g.all.length with h | h
          · exact h
          · rw [List.getElem?_eq_none h] at h2; simp at h2
        rw [List.getElem?_append_left hlt]; exact h2
  · intro i q hq
    rw [hall] at hq
    rcases Nat.lt_trichotomy i g.all.length with h | h | h
    · rw [List.getElem?_append_left h] at hq
      obtain ⟨c, hc, hci⟩ := hI.pos i q hq
      obtain ⟨c', hc', _, _, _, hn, _⟩ := hcell2 q c hc
      have hqp : q ≠ p := fun e => hraw (e ▸ List.mem_of_getElem? hq)
      exact ⟨c', hc', by rw [hn hqp]; exact hci⟩
    · subst h; simp at hq; subst hq
      obtain ⟨c', hc', _, _, _, _, hpe⟩ := hcell2 p n hp
      exact ⟨c', hc', by rw [hpe rfl, hI.len]⟩
    · rw [List.getElem?_eq_none (by simp; omega)] at hq; simp at hq
  · intro k i h
    rw [hbid] at h; rw [hall]
    obtain ⟨h1, h2⟩ := hI.byid k i h
    exact ⟨h1, by simp; omega⟩
  · -- bucket
    intro q hq c' hc'
    obtain ⟨c, hc, _, _, hh, hn, hpe⟩ := hcell q c' hc'
    rw [hbh, hev, hh]
    rw [hall] at hq
    by_cases hqp : q = p
    · have := (hpe hqp).2; subst this; subst hqp
      rcases hcase with ⟨e1, _, _⟩ | ⟨l, e1, e2, _⟩
      · left; rw [e1, upd_same]
      · right; rw [e1, e2, upd_same, upd_same]; simp
    · have hmem : q ∈ g.all := by
        rcases List.mem_append.mp hq with h | h
        · exact h
        · simp at h; exact absurd h hqp
      have hb := hI.bucket q hmem c hc
      by_cases hhash : c.hash = n.hash
      · rcases hcase with ⟨e1, _, e3⟩ | ⟨l, e1, e2, hl, _⟩
        · rw [hhash, e3] at hb; simp at hb
        · right
          rw [e1, e2, hhash, upd_same, upd_same]
          refine ⟨rfl, List.mem_append_left _ ?_⟩
          rcases hl with ⟨e3, e4⟩ | ⟨e, e3, e4⟩
          · rw [hhash, e3] at hb; simp at hb; rw [e4]; exact hb
          · rw [hhash, e3] at hb; simp at hb; rw [e4, hb]; simp
      · rcases hcase with ⟨e1, e2, _⟩ | ⟨l, e1, e2, _⟩
        · rw [e1, e2, upd_ne _ _ _ _ hhash]; exact hb
        · rw [e1, e2, upd_ne _ _ _ _ hhash, upd_ne _ _ _ _ hhash]; exact hb
  · -- single
    intro h q hq
    rw [hbh] at hq; rw [hall]
    by_cases hh : h = n.hash
    · subst hh
      rcases hcase with ⟨e1, _, _⟩ | ⟨l, e1, e2, hl, _⟩
      · rw [e1, upd_same] at hq; simp at hq; subst hq
        obtain ⟨c', hc', _, _, e, _⟩ := hcell2 p n hp
        exact ⟨by simp, c', hc', e⟩
      · rw [e1, upd_same] at hq; simp at hq
    · have hq' : g.byHash h = some (some q) := by
        rcases hcase with ⟨e1, _, _⟩ | ⟨l, e1, e2, _⟩ <;> rw [e1, upd_ne _ _ _ _ hh] at hq <;> exact hq
      obtain ⟨h1, c, hc, h2⟩ := hI.single h q hq'
      obtain ⟨c', hc', _, _, e, _⟩ := hcell2 q c hc
      exact ⟨by simp [h1], c', hc', by rw [e, h2]⟩
  · -- coll
    intro h hh q hq
    rw [hbh] at hh; rw [hev] at hq; rw [hall]
    have key : (q ∈ g.all ∧ ∃ c, g.heap[q]? = some c ∧ c.hash = h) ∨ (q = p ∧ h = n.hash) := by
      by_cases hhash : h = n.hash
      · subst hhash
        rcases hcase with ⟨e1, _, _⟩ | ⟨l, e1, e2, hl, _⟩
        · rw [e1, upd_same] at hh; simp at hh
        · rw [e2, upd_same] at hq
          rcases List.mem_append.mp hq with hq | hq
          · left
            rcases hl with ⟨e3, e4⟩ | ⟨e, e3, e4⟩
            · subst e4; exact hI.coll _ e3 q hq
            · subst e4; simp at hq; subst hq; exact hI.single _ q e3
          · simp at hq; exact Or.inr ⟨hq, rfl⟩
      · left
        rcases hcase with ⟨e1, e2, _⟩ | ⟨l, e1, e2, _⟩
        · rw [e1, upd_ne _ _ _ _ hhash] at hh; rw [e2] at hq; exact hI.coll h hh q hq
        · rw [e1, upd_ne _ _ _ _ hhash] at hh; rw [e2, upd_ne _ _ _ _ hhash] at hq; exact hI.coll h hh q hq
    rcases key with ⟨h1, c, hc, h2⟩ | ⟨h1, h2⟩
    · obtain ⟨c', hc', _, _, e, _⟩ := hcell2 q c hc
      exact ⟨by simp [h1], c', hc', by rw [e, h2]⟩
    · subst h1
      obtain ⟨c', hc', _, _, e, _⟩ := hcell2 q n hp
      exact ⟨by simp, c', hc', by rw [e, h2]⟩
  · -- sep
    intro h hh
    rw [hbh] at hh; rw [hev]
    by_cases hhash : h = n.hash
    · subst hhash
      rcases hcase with ⟨e1, _, _⟩ | ⟨l, e1, e2, hl, hsep⟩
      · rw [e1, upd_same] at hh; simp at hh
      · rw [e2, upd_same, List.pairwise_append]
        have hlmem : ∀ e ∈ l, e ∈ g.all := by
          intro e he
          rcases hl with ⟨e3, e4⟩ | ⟨e', e3, e4⟩
          · subst e4; exact (hI.coll _ e3 e he).1
          · subst e4; simp at he; subst he; exact (hI.single _ _ e3).1
        refine ⟨?_, by simp, ?_⟩
        · rcases hl with ⟨e3, e4⟩ | ⟨e', e3, e4⟩
          · subst e4
            exact (hI.sep _ e3).imp_of_mem (fun {a b} ha hb hab => by
              rw [hne b a (Or.inl (hlmem b hb)) (hlmem a ha)]; exact hab)
          · subst e4; simp
        · intro a ha b hb
          simp at hb; subst hb
          rw [hne b a (Or.inr rfl) (hlmem a ha)]; exact hsep a ha
    · have hq : g.byHash h = some none ∧ evac' h = g.evac h := by
        rcases hcase with ⟨e1, e2, _⟩ | ⟨l, e1, e2, _⟩
        · rw [e1, upd_ne _ _ _ _ hhash] at hh; exact ⟨hh, by rw [e2]⟩
        · rw [e1, upd_ne _ _ _ _ hhash] at hh; exact ⟨hh, by rw [e2, upd_ne _ _ _ _ hhash]⟩
      rw [hq.2]
      exact (hI.sep _ hq.1).imp_of_mem (fun {a b} ha hb hab => by
        rw [hne b a (Or.inl (hI.coll _ hq.1 b hb).1) (hI.coll _ hq.1 a ha).1]; exact hab)
  · -- consts
    intro q hq
    rw [hcs] at hq; rw [hall]
    rcases hconst q hq with h | ⟨h1, h2⟩
    · obtain ⟨h1, c, hc, h2⟩ := hI.consts q h
      obtain ⟨c', hc', e, _⟩ := hcell2 q c hc
      exact ⟨by simp [h1], c', hc', by rw [e]; exact h2⟩
    · subst h1
      obtain ⟨c', hc', e, _⟩ := hcell2 q n hp
      exact ⟨by simp, c', hc', by rw [e]; exact h2⟩
  · -- kids
    intro q c' hc' k hk
    obtain ⟨c, hc, _, hch, _, hn, hpe⟩ := hcell q c' hc'
    rw [hch] at hk
    obtain ⟨d, hd, h0, hlt⟩ := hI.kids q c hc k hk
    have hkall : k ∈ g.all := (hI.mem_iff hd).2 h0
    have hkp : k ≠ p := fun e => hraw (e ▸ hkall)
    obtain ⟨d', hd', _, _, _, hdn, _⟩ := hcell2 k d hd
    have := hdn hkp; subst this
    refine ⟨d', hd', h0, fun hne => ?_⟩
    by_cases hqp : q = p
    · rw [(hpe hqp).1]
      rcases hI.ids k d' hd with ⟨h1, _⟩ | ⟨i, h1, h2⟩
      · omega
      · have : i < g.all.length := by
          rcases Nat.lt_or_ge i g.all.length with h | h
          · exact h
          · rw [List.getElem?_eq_none h] at h2; simp at h2
        rw [hI.len] at this; omega
    · have := hn hqp; subst this; exact hlt hne
  · -- toSound
    intro u ns hu
    rw [hto'] at hu; rw [hall]
    by_cases hup : u = p
    · subst hup; rw [upd_same] at hu; simp at hu; subst hu; simp
    · rw [upd_ne _ _ _ _ hup] at hu
      obtain ⟨h1, h2⟩ := hI.toSound u ns hu
      refine ⟨by simp [h1], fun v hv => ?_⟩
      obtain ⟨h3, c, hc, h4⟩ := h2 v hv
      obtain ⟨c', hc', _, e, _⟩ := hcell2 v c hc
      exact ⟨by simp [h3], c', hc', by rw [e]; exact h4⟩
  · -- toDef
    intro u hu
    rw [hto']; rw [hall] at hu
    by_cases hup : u = p
    · subst hup; rw [upd_same]; rfl
    · rw [upd_ne _ _ _ _ hup]
      rcases List.mem_append.mp hu with h | h
      · exact hI.toDef u h
      · simp at h; exact absurd h hup


theorem getElem?_append_cell {l : List (Cell L)} {n : Cell L} {q : Ptr} {c : Cell L}
    (h : (l ++ [n])[q]? = some c) : l[q]? = some c ∨ (q = l.length ∧ c = n) := by
  rcases Nat.lt_trichotomy q l.length with hq | hq | hq
  · left; rwa [List.getElem?_append_left hq] at h
  · right; subst hq; simp at h; exact ⟨rfl, h.symm⟩
  · rw [List.getElem?_eq_none (by simp; omega)] at h; simp at h

theorem getElem?_append_of_some {l : List (Cell L)} {n : Cell L} {q : Ptr} {c : Cell L}
    (h : l[q]? = some c) : (l ++ [n])[q]? = some c := by
  have : q < l.length := by
    rcases Nat.lt_or_ge q l.length with h' | h'
    · exact h'
    · rw [List.getElem?_eq_none h'] at h; simp at h
  rw [List.getElem?_append_left this]; exact h

/-- Allocating a node object outside the graph. -/
theorem inv_alloc (hI : GInv P g) (n : Cell L) (hid : n.id = -1) (hk : ∀ q ∈ n.children, q ∈ g.all) :
    GInv P { g with heap := g.heap ++ [n] } := by
  have hlen : g.heap.length ∉ g.all := by
    intro h
    obtain ⟨c, hc⟩ := hI.live _ h
    rw [List.getElem?_eq_none (Nat.le_refl _)] at hc; simp at hc
  have hlive : ∀ q ∈ g.all, ∃ c, g.heap[q]? = some c ∧ (g.heap ++ [n])[q]? = some c := by
    intro q hq
    obtain ⟨c, hc⟩ := hI.live q hq
    exact ⟨c, hc, getElem?_append_of_some hc⟩
  constructor
  · exact hI.len
  · intro p c hc
    rcases getElem?_append_cell hc with h | ⟨h1, h2⟩
    · exact hI.ids p c h
    · subst h1; subst h2; exact Or.inl ⟨hid, hlen⟩
  · intro i p hp
    obtain ⟨c, hc, hi⟩ := hI.pos i p hp
    exact ⟨c, getElem?_append_of_some hc, hi⟩
  · exact hI.byid
  · intro p hp c hc
    obtain ⟨c', h1, h2⟩ := hlive p hp
    have : c = c' := by
      have hc' : (g.heap ++ [n])[p]? = some c := hc
      rw [h2] at hc'; simpa using hc'.symm
    subst this
    exact hI.bucket p hp c h1
  · intro h p hp
    obtain ⟨h1, c, hc, h2⟩ := hI.single h p hp
    exact ⟨h1, c, getElem?_append_of_some hc, h2⟩
  · intro h hh p hp
    obtain ⟨h1, c, hc, h2⟩ := hI.coll h hh p hp
    exact ⟨h1, c, getElem?_append_of_some hc, h2⟩
  · intro h hh
    refine (hI.sep h hh).imp_of_mem (fun {a b} ha hb hab => ?_)
    obtain ⟨x, hx, hx'⟩ := hlive b (hI.coll h hh b hb).1
    obtain ⟨y, hy, hy'⟩ := hlive a (hI.coll h hh a ha).1
    rw [← hab]
    exact nodeEq_congr (g := g) (g' := { g with heap := g.heap ++ [n] }) hx hx' hy hy' rfl rfl rfl rfl
  · intro q hq
    obtain ⟨h1, c, hc, h2⟩ := hI.consts q hq
    exact ⟨h1, c, getElem?_append_of_some hc, h2⟩
  · intro p c hc q hq
    rcases getElem?_append_cell hc with h | ⟨h1, h2⟩
    · obtain ⟨d, hd, h3⟩ := hI.kids p c h q hq
      exact ⟨d, getElem?_append_of_some hd, h3⟩
    · subst h2
      have := hk q hq
      obtain ⟨d, hd⟩ := hI.live q this
      exact ⟨d, getElem?_append_of_some hd, (hI.mem_iff hd).1 this, fun h => absurd hid h⟩
  · intro u ns hu
    obtain ⟨h1, h2⟩ := hI.toSound u ns hu
    refine ⟨h1, fun v hv => ?_⟩
    obtain ⟨h3, c, hc, h4⟩ := h2 v hv
    exact ⟨h3, c, getElem?_append_of_some hc, h4⟩
  · exact hI.toDef

/-- What an `AddNode` that inserts does: `r` is the new member. -/
structure Ins (g g' : G L) (n : Cell L) (r : Ptr) : Prop where
  all : g'.all = g.all ++ [r]
  fresh : r ∉ g.all
  to : ∀ u, u ≠ r → g'.to u = g.to u
  toNew : g'.to r = some []
  keep : ∀ q c, g.heap[q]? = some c → q ≠ r → g'.heap[q]? = some c
  back : ∀ q c, g'.heap[q]? = some c → q ≠ r → g.heap[q]? = some c
  cell : ∃ c, g'.heap[r]? = some c ∧ c.label = n.label ∧ c.children = n.children ∧ c.hash = n.hash ∧
    c.id = (g.counter : Int)
  byID : g'.byID = g.byID
  roots : g'.roots = g.roots
  leaves : g'.leaves = g.leaves

theorem ins_of_insert (hI : GInv P g) {p : Ptr} {n : Cell L} (hp : g.heap[p]? = some n) (hraw : p ∉ g.all)
    (byHash' : UInt32 → Option (Option Ptr)) (evac' : UInt32 → List Ptr) (constants' : List Ptr) :
    Ins g (ensureTo (addToAll { g with byHash := byHash', evac := evac', constants := constants' } p) p) n p := by
  have hto : g.to p = none := by
    cases h : g.to p with
    | none => rfl
    | some ns => exact absurd (hI.toSound p ns h).1 hraw
  have hheap : ∀ q, (ensureTo (addToAll { g with byHash := byHash', evac := evac', constants := constants' } p) p).heap[q]? =
      if p = q then (g.heap[q]?).map (fun c => { c with id := (g.counter : Int) }) else g.heap[q]? := by
    intro q
    have := heap_addToAll { g with byHash := byHash', evac := evac', constants := constants' } p q
    simp only [ensureTo]
    split <;> exact this
  constructor
  · simp only [ensureTo, addToAll, hto]
  · exact hraw
  · intro u hu; simp only [ensureTo, addToAll, hto]; exact upd_ne _ _ _ _ hu
  · simp only [ensureTo, addToAll, hto]; exact upd_same _ _ _
  · intro q c hc hq; rw [hheap q, if_neg (fun h => hq h.symm)]; exact hc
  · intro q c hc hq; rwa [hheap q, if_neg (fun h => hq h.symm)] at hc
  · exact ⟨{ n with id := (g.counter : Int) }, by rw [hheap p, if_pos rfl, hp]; rfl, rfl, rfl, rfl, rfl⟩
  · simp only [ensureTo, addToAll, hto]
  · simp only [ensureTo, addToAll, hto]
  · simp only [ensureTo, addToAll, hto]

/-- Same hash and judged equal by `nodeEq`. -/
def Same (P : Params L) (g : G L) (p : Ptr) (n : Cell L) (q : Ptr) : Prop :=
  (∃ c, g.heap[q]? = some c ∧ c.hash = n.hash) ∧ nodeEq P g p q = true

/-- Outcome of `AddNode` on a state satisfying the invariant. -/
theorem addNode_spec (hI : GInv P g) {p : Ptr} {n : Cell L} (hp : g.heap[p]? = some n) :
    ∃ g' r, addNode P g p = some (g', r) ∧ GInv P g' ∧
      ((g' = g ∧ r ∈ g.all ∧ ((P.isConst n.label ∧ ∃ c, g.heap[r]? = some c ∧ P.isConst c.label ∧
            P.name c.label = P.name n.label) ∨ Same P g p n r)) ∨
       (Ins g g' n r ∧ (r = p ∨ (P.isConst n.label ∧ r = g.heap.length)) ∧ p ∉ g.all ∧
          (∀ q ∈ g.all, ¬ Same P g p n q))) := by
  have hens : ∀ r ∈ g.all, ensureTo g r = g := by
    intro r hr
    have := hI.toDef r hr
    simp only [ensureTo]
    cases h : g.to r with
    | none => rw [h] at this; simp at this
    | some _ => rfl
  simp only [addNode, hp]
  cases hc : g.constants.find? (nameMatch P g n) with
  | some q =>
    have hq := List.mem_of_find?_eq_some hc
    have hprop := List.find?_some hc
    have hqall := (hI.consts q hq).1
    refine ⟨g, q, ?_, hI, Or.inl ⟨rfl, hqall, Or.inl ?_⟩⟩
    · simp only [addNodeBody, hc, hens q hqall]
    · obtain ⟨_, c, hcell, hcc⟩ := hI.consts q hq
      simp only [nameMatch, hcell, Bool.and_eq_true, beq_iff_eq] at hprop
      exact ⟨hprop.2, c, hcell, hcc, hprop.1⟩
  | none =>
    cases hb : g.byHash n.hash with
    | some o =>
      cases o with
      | none =>
        cases hf : (g.evac n.hash).find? (fun e => nodeEq P g p e) with
        | some e =>
          have he := List.mem_of_find?_eq_some hf
          have hprop := List.find?_some hf
          obtain ⟨h1, c, hc', h2⟩ := hI.coll _ hb e he
          refine ⟨g, e, ?_, hI, Or.inl ⟨rfl, h1, Or.inr ⟨⟨c, hc', h2⟩, hprop⟩⟩⟩
          simp only [addNodeBody, hc, hb, hf, hens e h1]
        | none =>
          have hnone : ∀ e ∈ g.evac n.hash, nodeEq P g p e = false := by
            intro e he
            have := List.find?_eq_none.mp hf e he
            simpa using this
          have hraw : p ∉ g.all := by
            intro hpm
            rcases hI.bucket p hpm n hp with h | ⟨_, h⟩
            · rw [hb] at h; simp at h
            · have := hnone p h; rw [nodeEq_self] at this; simp at this
          have hsimp : addNodeBody P g p n =
              (addToAll { g with byHash := g.byHash, evac := upd g.evac n.hash (g.evac n.hash ++ [p]), constants := g.constants } p, p) := by
            simp only [addNodeBody, hc, hb, hf]
          have hupd : g.byHash = upd g.byHash n.hash (some none) := by
            funext h; simp only [upd]; split
            · rename_i e; rw [e, hb]
            · rfl
          refine ⟨_, p, by rw [hsimp], ?_, Or.inr ⟨ins_of_insert hI hp hraw _ _ _, Or.inl rfl, hraw, ?_⟩⟩
          · exact inv_insert hI hp hraw _ _ _ (Or.inr ⟨_, hupd, rfl, Or.inl ⟨hb, rfl⟩, hnone⟩) (fun q hq => Or.inl hq)
          · rintro q hq ⟨⟨c, hc1, hc2⟩, heq⟩
            rcases hI.bucket q hq c hc1 with h | ⟨_, h⟩
            · rw [hc2, hb] at h; simp at h
            · rw [hc2] at h; rw [hnone q h] at heq; simp at heq
      | some ex =>
        obtain ⟨hexm, cex, hcex, hhex⟩ := hI.single _ _ hb
        cases he : nodeEq P g p ex with
        | true =>
          refine ⟨g, ex, ?_, hI, Or.inl ⟨rfl, hexm, Or.inr ⟨⟨cex, hcex, hhex⟩, he⟩⟩⟩
          simp only [addNodeBody, hc, hb, he, hens ex hexm, ↓reduceIte]
        | false =>
          have hraw : p ∉ g.all := by
            intro hpm
            rcases hI.bucket p hpm n hp with h | ⟨h, _⟩
            · rw [hb] at h; simp at h; subst h; rw [nodeEq_self] at he; simp at he
            · rw [hb] at h; simp at h
          have hsimp : addNodeBody P g p n =
              (addToAll { g with byHash := upd g.byHash n.hash (some none), evac := upd g.evac n.hash ([ex] ++ [p]), constants := g.constants } p, p) := by
            simp only [addNodeBody, hc, hb, he]; rfl
          refine ⟨_, p, by rw [hsimp], ?_, Or.inr ⟨ins_of_insert hI hp hraw _ _ _, Or.inl rfl, hraw, ?_⟩⟩
          · exact inv_insert hI hp hraw _ _ _ (Or.inr ⟨_, rfl, rfl, Or.inr ⟨ex, hb, rfl⟩, by simpa using he⟩)
              (fun q hq => Or.inl hq)
          · rintro q hq ⟨⟨c, hc1, hc2⟩, heq⟩
            rcases hI.bucket q hq c hc1 with h | ⟨h, _⟩
            · rw [hc2, hb] at h; simp at h; subst h; rw [he] at heq; simp at heq
            · rw [hc2, hb] at h; simp at h
    | none =>
      have hraw : p ∉ g.all := by
        intro hpm
        rcases hI.bucket p hpm n hp with h | ⟨h, _⟩ <;> (rw [hb] at h; simp at h)
      have hno : ∀ q ∈ g.all, ¬ Same P g p n q := by
        rintro q hq ⟨⟨c, hc1, hc2⟩, _⟩
        rcases hI.bucket q hq c hc1 with h | ⟨h, _⟩ <;> (rw [hc2, hb] at h; simp at h)
      cases hk : P.isConst n.label with
      | false =>
        have hsimp : addNodeBody P g p n =
            (addToAll { g with byHash := upd g.byHash n.hash (some (some p)), evac := g.evac, constants := g.constants } p, p) := by
          simp only [addNodeBody, hc, hb, hk]; rfl
        refine ⟨_, p, by rw [hsimp], ?_, Or.inr ⟨ins_of_insert hI hp hraw _ _ _, Or.inl rfl, hraw, hno⟩⟩
        exact inv_insert hI hp hraw _ _ _ (Or.inl ⟨rfl, rfl, hb⟩) (fun q hq => Or.inl hq)
      | true =>
        have hI1 := inv_alloc hI { n with id := -1 } rfl (by
          intro q hq
          obtain ⟨d, hd, h0, _⟩ := hI.kids p n hp q hq
          exact (hI.mem_iff hd).2 h0)
        have hcl : g.heap.length ∉ g.all := by
          intro h
          obtain ⟨c, hc⟩ := hI.live _ h
          rw [List.getElem?_eq_none (Nat.le_refl _)] at hc; simp at hc
        have hsimp : addNodeBody P g p n =
            (addToAll { ({ g with heap := g.heap ++ [{ n with id := -1 }] } : G L) with
              byHash := upd g.byHash n.hash (some (some g.heap.length)), evac := g.evac,
              constants := nodesAdd g.constants g.heap.length } g.heap.length, g.heap.length) := by
          simp only [addNodeBody, hc, hb, hk]; rfl
        have hnew : (g.heap ++ [{ n with id := -1 }])[g.heap.length]? = some { n with id := -1 } := by simp
        have hins := ins_of_insert hI1 hnew hcl (upd g.byHash n.hash (some (some g.heap.length))) g.evac
          (nodesAdd g.constants g.heap.length)
        refine ⟨_, g.heap.length, by rw [hsimp], ?_, Or.inr ⟨?_, Or.inr ⟨rfl, rfl⟩, hraw, hno⟩⟩
        · refine inv_insert hI1 hnew hcl _ _ _ (Or.inl ⟨rfl, rfl, hb⟩) (fun q hq => ?_)
          simp only [nodesAdd] at hq
          split at hq
          · exact Or.inl hq
          · rcases List.mem_append.mp hq with h | h
            · exact Or.inl h
            · simp at h; exact Or.inr ⟨h, hk⟩
        · exact {
            all := hins.all, fresh := hins.fresh, to := hins.to, toNew := hins.toNew
            keep := fun q c hc hq => hins.keep q c (getElem?_append_of_some hc) hq
            back := fun q c hc hq => by
              rcases getElem?_append_cell (hins.back q c hc hq) with h | ⟨h, _⟩
              · exact h
              · exact absurd h hq
            cell := hins.cell, byID := hins.byID, roots := hins.roots, leaves := hins.leaves }

/-- Adding a non-constant member again returns it and changes nothing. -/
theorem addNode_mem (hI : GInv P g) {p : Ptr} {n : Cell L} (hp : g.heap[p]? = some n) (hm : p ∈ g.all)
    (hk : P.isConst n.label = false) : addNode P g p = some (g, p) := by
  have hens : ensureTo g p = g := by
    have := hI.toDef p hm
    simp only [ensureTo]
    cases h : g.to p with
    | none => rw [h] at this; simp at this
    | some _ => rfl
  have hc : g.constants.find? (nameMatch P g n) = none := by
    rw [List.find?_eq_none]; intro q _; simp only [nameMatch]; split <;> simp [hk]
  simp only [addNode, hp]
  rcases hI.bucket p hm n hp with h | ⟨h1, h2⟩
  · simp only [addNodeBody, hc, h, nodeEq_self, ↓reduceIte, hens]
  · have hf : (g.evac n.hash).find? (fun e => nodeEq P g p e) = some p := by
      have hpw := hI.sep _ h1
      generalize g.evac n.hash = l at hpw h2
      induction l with
      | nil => simp at h2
      | cons a l ih =>
        rw [List.pairwise_cons] at hpw
        rw [List.find?_cons]
        by_cases hap : a = p
        · subst hap; simp [nodeEq_self]
        · have hpl : p ∈ l := by
            rcases List.mem_cons.mp h2 with h | h
            · exact absurd h.symm hap
            · exact h
          rw [hpw.1 p hpl]; exact ih hpw.2 hpl
    simp only [addNodeBody, hc, h1, hf, hens]

/-- The search loop under the invariant. -/
theorem findIdx_spec (hI : GInv P g) (id : Int) :
    (∀ i, findIdx g id = some i → id = i ∧ i < g.all.length) ∧
    (findIdx g id = none → ∀ i : Nat, i < g.all.length → id ≠ i) := by
  simp only [findIdx]
  constructor
  · intro i h
    rw [List.findIdx?_eq_some_iff_getElem] at h
    obtain ⟨hlt, h1, _⟩ := h
    obtain ⟨c, hc, hi⟩ := hI.pos i _ (List.getElem?_eq_getElem hlt)
    rw [hc] at h1; simp at h1
    exact ⟨by omega, hlt⟩
  · intro h i hlt e
    rw [List.findIdx?_eq_none_iff] at h
    obtain ⟨c, hc, hi⟩ := hI.pos i _ (List.getElem?_eq_getElem hlt)
    have := h _ (List.getElem_mem hlt)
    rw [hc] at this; simp at this; omega

/-- Changing only the position cache. -/
theorem inv_byID (hI : GInv P g) (b : Int → Option Nat) (hb : ∀ k i, b k = some i → k = i ∧ i < g.all.length) :
    GInv P { g with byID := b } :=
  { len := hI.len, ids := hI.ids, pos := hI.pos, byid := hb, bucket := hI.bucket, single := hI.single,
    coll := hI.coll, sep := hI.sep, consts := hI.consts, kids := hI.kids, toSound := hI.toSound, toDef := hI.toDef }

/-- Lookup under the invariant: the answer is exact and only the cache changes. -/
theorem node_spec (hI : GInv P g) (id : Int) :
    (∃ b, (node g id).1 = { g with byID := b }) ∧ GInv P (node g id).1 ∧
    (∀ p, (node g id).2 = some p ↔ ∃ i : Nat, id = i ∧ g.all[i]? = some p) := by
  simp only [node]
  cases hb : g.byID id with
  | some idx =>
    obtain ⟨h1, h2⟩ := hI.byid id idx hb
    refine ⟨⟨g.byID, rfl⟩, hI, fun p => ?_⟩
    subst h1
    simp only [Int.natCast_inj]
    constructor
    · intro h; exact ⟨idx, rfl, h⟩
    · rintro ⟨i, rfl, h⟩; exact h
  | none =>
    obtain ⟨hf1, hf2⟩ := findIdx_spec hI id
    cases hf : findIdx g id with
    | some i =>
      obtain ⟨h1, h2⟩ := hf1 i hf
      refine ⟨⟨_, rfl⟩, inv_byID hI _ ?_, fun p => ?_⟩
      · intro k j hk
        simp only [upd] at hk
        split at hk
        · rename_i e; simp at hk; subst hk; rw [e]; exact ⟨h1, h2⟩
        · exact hI.byid k j hk
      · subst h1
        simp only [Int.natCast_inj]
        constructor
        · intro h; exact ⟨i, rfl, h⟩
        · rintro ⟨j, rfl, h⟩; exact h
    | none =>
      refine ⟨⟨g.byID, rfl⟩, hI, fun p => ?_⟩
      simp only [reduceCtorEq, false_iff]
      rintro ⟨i, rfl, h⟩
      rcases Nat.lt_or_ge i g.all.length with hlt | hge
      · exact hf2 hf i hlt rfl
      · rw [List.getElem?_eq_none hge] at h; simp at h

/-- `Has` answers yes for a member and only touches the cache. -/
theorem ensureIn_mem (hI : GInv P g) {p : Ptr} (hp : p ∈ g.all) :
    ∃ b, ensureIn P g p = some ({ g with byID := b }, p) ∧ GInv P { g with byID := b } := by
  obtain ⟨i, hi⟩ := List.mem_iff_getElem?.mp hp
  obtain ⟨c, hc, hid⟩ := hI.pos i p hi
  obtain ⟨⟨b, hb⟩, hI', hn⟩ := node_spec hI c.id
  refine ⟨b, ?_, hb ▸ hI'⟩
  have hsome : (node g c.id).2 = some p := (hn p).2 ⟨i, hid, hi⟩
  simp only [ensureIn, hc, has, hsome, hb]
  rfl

/-- `SetEdge` between members. -/
theorem setEdge_mem (hI : GInv P g) {m u : Ptr} (hm : m ∈ g.all) (hu : u ∈ g.all)
    (hmu : ∃ c, g.heap[m]? = some c ∧ u ∈ c.children) :
    ∃ g', setEdge P g m u = some g' ∧ GInv P g' ∧ g'.heap = g.heap ∧ g'.all = g.all ∧ g'.roots = g.roots ∧
      g'.leaves = g.leaves ∧
      (∃ ns, g.to u = some ns ∧ g'.to = upd g.to u (some (ns ++ [m]))) := by
  have hne : m ≠ u := by
    rintro rfl
    obtain ⟨c, hc, hin⟩ := hmu
    obtain ⟨d, hd, h0, hlt⟩ := hI.kids m c hc m hin
    rw [hc] at hd; cases hd
    have := hlt (by omega); omega
  obtain ⟨b1, h1, hI1⟩ := ensureIn_mem hI hm
  obtain ⟨b2, h2, hI2⟩ := ensureIn_mem (g := { g with byID := b1 }) hI1 hu
  obtain ⟨ns, hns⟩ := Option.isSome_iff_exists.mp (hI.toDef u hu)
  refine ⟨{ g with byID := b2, to := upd g.to u (some ((g.to u).getD [] ++ [m])) },
    by simp only [setEdge, hne, ↓reduceIte, h1, h2], ?_, rfl, rfl, rfl, rfl, ns, hns, ?_⟩
  · refine { len := hI2.len, ids := hI2.ids, pos := hI2.pos, byid := hI2.byid, bucket := hI2.bucket,
             single := hI2.single, coll := hI2.coll, sep := hI2.sep, consts := hI2.consts, kids := hI2.kids,
             toSound := ?_, toDef := ?_ }
    · intro w l hw
      simp only [hns, Option.getD_some] at hw
      by_cases hwu : w = u
      · subst hwu; rw [upd_same] at hw; simp at hw; subst hw
        obtain ⟨e1, e2⟩ := hI.toSound w ns hns
        refine ⟨e1, fun v hv => ?_⟩
        rcases List.mem_append.mp hv with h | h
        · exact e2 v h
        · simp at h; subst h; exact ⟨hm, hmu⟩
      · rw [upd_ne _ _ _ _ hwu] at hw; exact hI.toSound w l hw
    · intro w hw
      simp only [upd]
      split
      · rfl
      · exact hI.toDef w hw
  · simp only [hns, Option.getD_some]

/-- The loop of `fixEdges` for a member. -/
theorem fixEdgesLoop_spec : ∀ (cs : List Ptr) (g : G L), GInv P g → ∀ {m : Ptr}, m ∈ g.all →
    (∀ u ∈ cs, u ∈ g.all ∧ ∃ c, g.heap[m]? = some c ∧ u ∈ c.children) →
    ∃ g', fixEdgesLoop P g m cs = some g' ∧ GInv P g' ∧ g'.heap = g.heap ∧ g'.all = g.all ∧ g'.roots = g.roots ∧
      g'.leaves = g.leaves ∧
      (∀ u ns, g.to u = some ns → ∃ ns', g'.to u = some ns' ∧ (∀ v ∈ ns, v ∈ ns')) ∧
      (∀ u ∈ cs, ∃ ns', g'.to u = some ns' ∧ m ∈ ns') := by
  intro cs
  induction cs with
  | nil =>
    intro g hI m hm _
    exact ⟨g, rfl, hI, rfl, rfl, rfl, rfl, fun u ns h => ⟨ns, h, fun v hv => hv⟩, by simp⟩
  | cons u cs ih =>
    intro g hI m hm hcs
    obtain ⟨hu, hmu⟩ := hcs u (by simp)
    obtain ⟨g1, e1, hI1, hh1, ha1, hr1, hl1, ns, hns, hto1⟩ := setEdge_mem hI hm hu hmu
    obtain ⟨g2, e2, hI2, hh2, ha2, hr2, hl2, hk2, hn2⟩ := ih g1 hI1 (m := m) (ha1 ▸ hm) (by
      intro w hw; rw [ha1, hh1]; exact hcs w (by simp [hw]))
    refine ⟨g2, by simp only [fixEdgesLoop, e1, e2], hI2, by rw [hh2, hh1], by rw [ha2, ha1], by rw [hr2, hr1],
      by rw [hl2, hl1], ?_, ?_⟩
    · intro w l hw
      by_cases hwu : w = u
      · subst hwu
        rw [hns] at hw; cases hw
        obtain ⟨ns', e3, e4⟩ := hk2 w (ns ++ [m]) (by rw [hto1, upd_same])
        exact ⟨ns', e3, fun v hv => e4 v (by simp [hv])⟩
      · exact hk2 w l (by rw [hto1, upd_ne _ _ _ _ hwu]; exact hw)
    · intro w hw
      rcases List.mem_cons.mp hw with h | h
      · subst h
        obtain ⟨ns', e3, e4⟩ := hk2 w (ns ++ [m]) (by rw [hto1, upd_same])
        exact ⟨ns', e3, e4 m (by simp)⟩
      · exact hn2 w h


/-- The full invariant between API calls. -/
structure WGraph (P : Params L) (g : G L) : Prop where
  inv : GInv P g
  raw : Raw g (fun _ => False)
  complete : Complete g (fun _ => False)

theorem W_empty : WGraph P (empty : G L) :=
  ⟨inv_empty, by intro p c _ h; simp [empty] at h, by intro v hv; simp [empty] at hv⟩

theorem Ins.prefix {g' : G L} {n : Cell L} {r : Ptr} (h : Ins g g' n r) : g.all <+: g'.all := by
  rw [h.all]; exact List.prefix_append _ _

theorem Ins.cells {g' : G L} {n : Cell L} {r : Ptr} (hI : GInv P g) (h : Ins g g' n r) (q : Ptr) (hq : q ∈ g.all) :
    g'.heap[q]? = g.heap[q]? := by
  have hqr : q ≠ r := fun e => h.fresh (e ▸ hq)
  obtain ⟨c, hc⟩ := hI.live q hq
  rw [hc]; exact h.keep q c hc hqr

/-- The complete-index property through an insertion; `r` itself is still open. -/
theorem Ins.complete {g' : G L} {n : Cell L} {r : Ptr} (hI : GInv P g) (h : Ins g g' n r)
    (hC : Complete g (fun _ => False)) : Complete g' (fun v => v = r) := by
  intro v hv hvr c hc u hu
  have hvold : v ∈ g.all := by
    rw [h.all] at hv
    rcases List.mem_append.mp hv with h' | h'
    · exact h'
    · simp at h'; exact absurd h' hvr
  have hc0 := h.back v c hc hvr
  obtain ⟨ns, h1, h2⟩ := hC v hvold (fun h => h) c hc0 u hu
  have hur : u ≠ r := fun e => h.fresh (e ▸ (hI.toSound u ns h1).1)
  exact ⟨ns, by rw [h.to u hur]; exact h1, h2⟩

theorem raw_mono {e1 e2 : Ptr → Prop} (h : ∀ p, e1 p → e2 p) (hr : Raw g e1) : Raw g e2 :=
  fun p c hp hc hid => hr p c (fun h1 => hp (h p h1)) hc hid

theorem Ins.raw {g' : G L} {n : Cell L} {r : Ptr} {ex : Ptr → Prop} (h : Ins g g' n r) (hr : Raw g ex) :
    Raw g' ex := by
  intro q c hq hc hid
  by_cases hqr : q = r
  · subst hqr
    obtain ⟨c', hc', _, _, _, e⟩ := h.cell
    rw [hc] at hc'; cases hc'; omega
  · exact hr q c hq (h.back q c hc hqr) hid

/-- `AddNode` keeps the full invariant. -/
theorem W_addNode (hW : WGraph P g) {p : Ptr} {n : Cell L} (hp : g.heap[p]? = some n) :
    ∃ g' r, addNode P g p = some (g', r) ∧ WGraph P g' ∧ r ∈ g'.all ∧ g.all <+: g'.all ∧
      g.heap.length ≤ g'.heap.length ∧ (g' = g ∨ Ins g g' n r) ∧
      (∀ q ∈ g.all, g'.heap[q]? = g.heap[q]?) := by
  obtain ⟨g', r, h1, hI', h2⟩ := addNode_spec hW.inv hp
  refine ⟨g', r, h1, ?_⟩
  rcases h2 with ⟨rfl, hr, _⟩ | ⟨hins, hr, hnp, _⟩
  · exact ⟨hW, hr, List.prefix_refl _, Nat.le_refl _, Or.inl rfl, fun _ _ => rfl⟩
  · have hid : n.id = -1 := by
      rcases hW.inv.ids p n hp with ⟨h, _⟩ | ⟨i, _, h⟩
      · exact h
      · exact absurd (List.mem_of_getElem? h) hnp
    have hch : n.children = [] := hW.raw p n (fun h => h) hp hid
    refine ⟨⟨hI', hins.raw hW.raw, ?_⟩, by rw [hins.all]; simp, hins.prefix, ?_, Or.inr hins, hins.cells hW.inv⟩
    · intro v hv _ c hc u hu
      by_cases hvr : v = r
      · subst hvr
        obtain ⟨c', hc', _, e, _⟩ := hins.cell
        rw [hc] at hc'; cases hc'
        rw [e, hch] at hu; simp at hu
      · exact hins.complete hW.inv hW.complete v hv hvr c hc u hu
    · apply Classical.byContradiction
      intro hlt
      have hlt : g'.heap.length < g.heap.length := by omega
      obtain ⟨c, hc, _⟩ := hins.cell
      by_cases hgr : g'.heap.length = r
      · rw [← hgr, List.getElem?_eq_none (Nat.le_refl _)] at hc; simp at hc
      · have := hins.keep g'.heap.length _ (List.getElem?_eq_getElem hlt) hgr
        rw [List.getElem?_eq_none (Nat.le_refl _)] at this; simp at this

/-- `fixChildren` keeps the full invariant and returns members. -/
theorem W_fixChildren : ∀ (cs : List Ptr) (g : G L), WGraph P g → ∀ g' cs', fixChildren P g cs = some (g', cs') →
    WGraph P g' ∧ (∀ c ∈ cs', c ∈ g'.all) ∧ cs'.length = cs.length ∧ g.all <+: g'.all ∧
    (∀ q ∈ g.all, g'.heap[q]? = g.heap[q]?) := by
  intro cs
  induction cs with
  | nil =>
    intro g hW g' cs' h
    simp only [fixChildren, Option.some.injEq, Prod.mk.injEq] at h
    obtain ⟨rfl, rfl⟩ := h
    exact ⟨hW, by simp, rfl, List.prefix_refl _, fun _ _ => rfl⟩
  | cons c cs ih =>
    intro g hW g' cs' h
    cases hc : g.heap[c]? with
    | none => simp [fixChildren, addNode, hc] at h
    | some n =>
      obtain ⟨g1, r, e1, hW1, hr, hpre, _, _, hk1⟩ := W_addNode hW hc
      simp only [fixChildren, e1] at h
      cases h2 : fixChildren P g1 cs with
      | none => simp [h2] at h
      | some x =>
        obtain ⟨g2, cs2⟩ := x
        simp only [h2, Option.some.injEq, Prod.mk.injEq] at h
        obtain ⟨rfl, rfl⟩ := h
        obtain ⟨hW2, hm, hl, hp2, hk2⟩ := ih g1 hW1 g2 cs2 h2
        refine ⟨hW2, ?_, by simp [hl], hpre.trans hp2, ?_⟩
        · intro x hx
          rcases List.mem_cons.mp hx with e | e
          · subst e; exact hp2.subset hr
          · exact hm x e
        · intro q hq
          rw [hk2 q (hpre.subset hq), hk1 q hq]

theorem heap_returnNode (g : G L) (p q : Ptr) :
    (returnNode P g p).heap[q]? = if p = q then (g.heap[q]?).map (fun c => { c with children := [], hash := P.hash c.label [] }) else g.heap[q]? := by
  simp only [returnNode, List.getElem?_modify]
  split <;> rename_i h
  · subst h; rfl
  · cases g.heap[q]? <;> rfl

theorem inv_returnNode (hI : GInv P g) {p : Ptr} (hp : p ∉ g.all) : GInv P (returnNode P g p) := by
  have hcell : ∀ (q : Ptr) (c' : Cell L), (returnNode P g p).heap[q]? = some c' → ∃ c : Cell L, g.heap[q]? = some c ∧ c'.id = c.id ∧
      c'.label = c.label ∧ (∀ x ∈ c'.children, x ∈ c.children) := by
    intro q c' h
    rw [heap_returnNode] at h
    by_cases hpq : p = q
    · rw [if_pos hpq] at h
      cases hq : g.heap[q]? with
      | none => rw [hq] at h; simp at h
      | some c => rw [hq] at h; simp at h; subst h; exact ⟨c, rfl, rfl, rfl, by simp⟩
    · rw [if_neg hpq] at h; exact ⟨c', h, rfl, rfl, fun x hx => hx⟩
  have hsame : ∀ q ∈ g.all, (returnNode P g p).heap[q]? = g.heap[q]? := by
    intro q hq
    rw [heap_returnNode, if_neg (fun e : p = q => hp (e ▸ hq))]
  have hall : (returnNode P g p).all = g.all := rfl
  constructor
  · exact hI.len
  · intro q c' hc'
    obtain ⟨c, hc, e, _⟩ := hcell q c' hc'
    rw [e]; exact hI.ids q c hc
  · intro i q hq
    rw [hsame q (List.mem_of_getElem? hq)]; exact hI.pos i q hq
  · exact hI.byid
  · intro q hq c hc
    rw [hsame q hq] at hc; exact hI.bucket q hq c hc
  · intro h q hq
    obtain ⟨h1, h2⟩ := hI.single h q hq
    exact ⟨h1, by rw [hsame q h1]; exact h2⟩
  · intro h hh q hq
    obtain ⟨h1, h2⟩ := hI.coll h hh q hq
    exact ⟨h1, by rw [hsame q h1]; exact h2⟩
  · intro h hh
    refine (hI.sep h hh).imp_of_mem (fun {a b} ha hb hab => ?_)
    have ha' := (hI.coll h hh a ha).1
    have hb' := (hI.coll h hh b hb).1
    obtain ⟨x, hx⟩ := hI.live b hb'
    obtain ⟨y, hy⟩ := hI.live a ha'
    rw [← hab]
    exact nodeEq_congr hx (by rw [hsame b hb']; exact hx) hy (by rw [hsame a ha']; exact hy) rfl rfl rfl rfl
  · intro q hq
    obtain ⟨h1, h2⟩ := hI.consts q hq
    exact ⟨h1, by rw [hsame q h1]; exact h2⟩
  · intro q c' hc' k hk
    obtain ⟨c, hc, e, _, hsub⟩ := hcell q c' hc'
    obtain ⟨d, hd, h0, hlt⟩ := hI.kids q c hc k (hsub k hk)
    have hkall := (hI.mem_iff hd).2 h0
    exact ⟨d, by rw [hsame k hkall]; exact hd, h0, by rw [e]; exact hlt⟩
  · intro u ns hu
    obtain ⟨h1, h2⟩ := hI.toSound u ns hu
    refine ⟨h1, fun v hv => ?_⟩
    obtain ⟨h3, h4⟩ := h2 v hv
    exact ⟨h3, by rw [hsame v h3]; exact h4⟩
  · exact hI.toDef

theorem raw_returnNode {p : Ptr} {ex : Ptr → Prop} (hr : Raw g (fun q => q = p ∨ ex q)) : Raw (returnNode P g p) ex := by
  intro q c hq hc hid
  rw [heap_returnNode] at hc
  by_cases hpq : p = q
  · rw [if_pos hpq] at hc
    cases h : g.heap[q]? with
    | none => rw [h] at hc; simp at hc
    | some x => rw [h] at hc; simp at hc; subst hc; rfl
  · rw [if_neg hpq] at hc
    exact hr q c (by rintro (h | h)
                     · exact hpq h.symm
                     · exact hq h) hc hid

theorem complete_returnNode {p : Ptr} {ex : Ptr → Prop} (hp : p ∉ g.all) (hC : Complete g ex) :
    Complete (returnNode P g p) ex := by
  intro v hv hex c hc u hu
  have hpv : p ≠ v := fun e => hp (e ▸ hv)
  rw [heap_returnNode, if_neg hpv] at hc
  exact hC v hv hex c hc u hu

/-- `fixEdges` on a member closes the reverse index for it. -/
theorem W_fixEdges (hI : GInv P g) {m : Ptr} (hm : m ∈ g.all) (hr : Raw g (fun _ => False))
    (hC : Complete g (fun v => v = m)) :
    ∃ g', fixEdges P g m = some g' ∧ WGraph P g' ∧ g'.heap = g.heap ∧ g'.all = g.all ∧ g'.roots = g.roots := by
  obtain ⟨c, hc⟩ := hI.live m hm
  simp only [fixEdges, hc]
  by_cases hch : c.children = []
  · rw [if_pos hch]
    refine ⟨_, rfl, ⟨?_, hr, ?_⟩, rfl, rfl, rfl⟩
    · exact { len := hI.len, ids := hI.ids, pos := hI.pos, byid := hI.byid, bucket := hI.bucket, single := hI.single,
              coll := hI.coll, sep := hI.sep, consts := hI.consts, kids := hI.kids, toSound := hI.toSound, toDef := hI.toDef }
    · intro v hv _ c' hc' u hu
      by_cases hvm : v = m
      · subst hvm
        have hc'' : g.heap[v]? = some c' := hc'
        rw [hc] at hc''; cases hc''
        rw [hch] at hu; simp at hu
      · exact hC v hv hvm c' hc' u hu
  · rw [if_neg hch]
    obtain ⟨g', h1, hI', hh, ha, hr', _, hk, hn⟩ := fixEdgesLoop_spec c.children g hI hm (by
      intro u hu
      obtain ⟨d, hd, h0, _⟩ := hI.kids m c hc u hu
      exact ⟨(hI.mem_iff hd).2 h0, c, hc, hu⟩)
    refine ⟨g', h1, ⟨hI', ?_, ?_⟩, hh, ha, hr'⟩
    · intro q d hq hd hid
      rw [hh] at hd; exact hr q d hq hd hid
    · intro v hv _ d hd u hu
      rw [hh] at hd; rw [ha] at hv
      by_cases hvm : v = m
      · subst hvm
        rw [hc] at hd; cases hd
        exact hn u hu
      · obtain ⟨ns, e1, e2⟩ := hC v hv hvm d hd u hu
        obtain ⟨ns', e3, e4⟩ := hk u ns e1
        exact ⟨ns', e3, e4 v e2⟩

theorem hashes_some : ∀ (cs : List Ptr), (∀ c ∈ cs, ∃ x, g.heap[c]? = some x) → ∃ hs, hashes g cs = some hs := by
  intro cs
  induction cs with
  | nil => intro _; exact ⟨[], rfl⟩
  | cons c cs ih =>
    intro h
    obtain ⟨x, hx⟩ := h c (by simp)
    obtain ⟨hs, hhs⟩ := ih (fun c' hc' => h c' (by simp [hc']))
    exact ⟨x.hash :: hs, by simp only [hashes, hx, hhs]⟩

/-- Applying an operation: full invariant, and what is returned. -/
theorem W_newUniqueNode (hW : WGraph P g) {l : L} {cs : List Ptr} {g' : G L} {m : Ptr}
    (h : newUniqueNode P g l cs = some (g', m)) :
    WGraph P g' ∧ m ∈ g'.all ∧ g.all <+: g'.all ∧ (∀ q ∈ g.all, g'.heap[q]? = g.heap[q]?) := by
  simp only [newUniqueNode] at h
  cases h1 : fixChildren P g cs with
  | none => simp [h1] at h
  | some x =>
    obtain ⟨g1, cs1⟩ := x
    simp only [h1] at h
    obtain ⟨hW1, hm1, _, hp1, hk1⟩ := W_fixChildren cs g hW g1 cs1 h1
    obtain ⟨hs, hhs⟩ := hashes_some cs1 (fun c hc => hW1.inv.live c (hm1 c hc))
    simp only [newNode, hhs] at h
    have hI2 := inv_alloc hW1.inv { label := l, children := cs1, hash := P.hash l hs, id := -1 } rfl hm1
    have hr2 : Raw ({ g1 with heap := g1.heap ++ [{ label := l, children := cs1, hash := P.hash l hs, id := -1 }] } : G L)
        (fun q => q = g1.heap.length ∨ False) := by
      intro q c hq hc hid
      rcases getElem?_append_cell hc with h | ⟨h, _⟩
      · exact hW1.raw q c (fun h => h) h hid
      · exact absurd (Or.inl h) hq
    have hC2 : Complete ({ g1 with heap := g1.heap ++ [{ label := l, children := cs1, hash := P.hash l hs, id := -1 }] } : G L)
        (fun _ => False) := by
      intro v hv _ c hc u hu
      obtain ⟨c0, hc0⟩ := hW1.inv.live v hv
      have := getElem?_append_of_some (n := { label := l, children := cs1, hash := P.hash l hs, id := -1 }) hc0
      have hc' : (g1.heap ++ [{ label := l, children := cs1, hash := P.hash l hs, id := -1 }])[v]? = some c := hc
      rw [this] at hc'; cases hc'
      exact hW1.complete v hv (fun h => h) _ hc0 u hu
    have hk2 : ∀ q ∈ g1.all, (g1.heap ++ [{ label := l, children := cs1, hash := P.hash l hs, id := -1 }])[q]? = g1.heap[q]? := by
      intro q hq
      obtain ⟨c0, hc0⟩ := hW1.inv.live q hq
      rw [getElem?_append_of_some hc0, hc0]
    have hnew : (g1.heap ++ [{ label := l, children := cs1, hash := P.hash l hs, id := -1 }])[g1.heap.length]? =
        some { label := l, children := cs1, hash := P.hash l hs, id := -1 } := by simp
    have hnall : g1.heap.length ∉ g1.all := by
      intro h
      obtain ⟨c, hc⟩ := hW1.inv.live _ h
      rw [List.getElem?_eq_none (Nat.le_refl _)] at hc; simp at hc
    generalize hg2 : ({ g1 with heap := g1.heap ++ [{ label := l, children := cs1, hash := P.hash l hs, id := -1 }] } : G L) = g2 at *
    have hall2 : g2.all = g1.all := by rw [← hg2]
    have hnew2 : g2.heap[g1.heap.length]? = some { label := l, children := cs1, hash := P.hash l hs, id := -1 } := by
      rw [← hg2]; exact hnew
    have hk2' : ∀ q ∈ g1.all, g2.heap[q]? = g1.heap[q]? := by rw [← hg2]; exact hk2
    obtain ⟨g3, r, e3, hI3, hcase⟩ := addNode_spec hI2 hnew2
    simp only [e3] at h
    rw [← hall2] at hnall
    rcases hcase with ⟨rfl, hr, _⟩ | ⟨hins, hrp, _, _⟩
    · -- an existing node was returned
      have hne : g1.heap.length ≠ r := fun e => hnall (e ▸ hr)
      rw [if_neg hne] at h
      have hI4 := inv_returnNode hI3 hnall
      have hC4 := complete_returnNode (P := P) hnall hC2
      obtain ⟨g5, e5, hW5, hh5, ha5, _⟩ := W_fixEdges hI4 (m := r) hr (raw_returnNode hr2)
        (fun v hv hvm => hC4 v hv (fun h => h))
      simp only [e5, Option.some.injEq, Prod.mk.injEq] at h
      obtain ⟨rfl, rfl⟩ := h
      refine ⟨hW5, by rw [ha5]; exact hr, by rw [ha5]; show g.all <+: g3.all; rw [hall2]; exact hp1, ?_⟩
      intro q hq
      have hq1 := hp1.subset hq
      have hq3 : q ∈ g3.all := by rw [hall2]; exact hq1
      rw [hh5, heap_returnNode, if_neg (fun e : g1.heap.length = q => hnall (e ▸ hq3)), hk2' q hq1, hk1 q hq]
    · have hrm : r ∈ g3.all := by rw [hins.all]; simp
      have hp3 : g1.all <+: g3.all := by rw [← hall2]; exact hins.prefix
      have hC3 := hins.complete hI2 hC2
      have hr3 := hins.raw hr2
      have hk3 : ∀ q ∈ g1.all, g3.heap[q]? = g1.heap[q]? := by
        intro q hq
        rw [hins.cells hI2 q (by rw [hall2]; exact hq), hk2' q hq]
      rcases hrp with hrn | ⟨_, hrl⟩
      · rw [if_pos hrn.symm] at h
        obtain ⟨g5, e5, hW5, hh5, ha5, _⟩ := W_fixEdges hI3 (m := r) hrm (by
          intro q c _ hc hid
          by_cases hqr : q = r
          · subst hqr
            obtain ⟨c', hc', _, _, _, e⟩ := hins.cell
            rw [hc] at hc'; cases hc'; omega
          · exact hr3 q c (by rintro (e | e)
                              · exact hqr (by rw [e, hrn])
                              · exact e) hc hid) hC3
        simp only [e5, Option.some.injEq, Prod.mk.injEq] at h
        obtain ⟨rfl, rfl⟩ := h
        refine ⟨hW5, by rw [ha5]; exact hrm, by rw [ha5]; exact hp1.trans hp3, ?_⟩
        intro q hq
        rw [hh5, hk3 q (hp1.subset hq), hk1 q hq]
      · have hne : g1.heap.length ≠ r := by
          rw [hrl, ← hg2]; simp
        rw [if_neg hne] at h
        have hn3 : g1.heap.length ∉ g3.all := by
          rw [hins.all]; intro hm
          rcases List.mem_append.mp hm with h' | h'
          · exact hnall h'
          · simp at h'; exact hne h'
        have hI4 := inv_returnNode hI3 hn3
        have hC4 := complete_returnNode (P := P) hn3 hC3
        obtain ⟨g5, e5, hW5, hh5, ha5, _⟩ := W_fixEdges hI4 (m := r) hrm (raw_returnNode hr3) hC4
        simp only [e5, Option.some.injEq, Prod.mk.injEq] at h
        obtain ⟨rfl, rfl⟩ := h
        refine ⟨hW5, by rw [ha5]; exact hrm, by rw [ha5]; exact hp1.trans hp3, ?_⟩
        intro q hq
        have hq1 := hp1.subset hq
        have hq3 := hp3.subset hq1
        rw [hh5, heap_returnNode, if_neg (fun e : g1.heap.length = q => hn3 (e ▸ hq3)), hk3 q hq1, hk1 q hq]


/-- The call is not a removal. -/
def Op.keeps : Op L → Bool
  | .remove _ => false
  | _ => true

theorem GInv.withRoots (hI : GInv P g) (r : Option (List Ptr)) : GInv P { g with roots := r } :=
  { len := hI.len, ids := hI.ids, pos := hI.pos, byid := hI.byid, bucket := hI.bucket, single := hI.single,
    coll := hI.coll, sep := hI.sep, consts := hI.consts, kids := hI.kids, toSound := hI.toSound, toDef := hI.toDef }

/-- One call keeps the invariant, the members and their contents. -/
theorem W_step (hW : WGraph P g) {o : Op L} (ho : o.keeps = true) {g' : G L} (h : step P g o = some g') :
    WGraph P g' ∧ g.all <+: g'.all ∧ (∀ q ∈ g.all, g'.heap[q]? = g.heap[q]?) := by
  cases o with
  | newConst l =>
    simp only [step, newNode, hashes, Option.map_some, Option.some.injEq] at h
    subst h
    have hk : ∀ q ∈ g.all, (g.heap ++ [({ label := l, children := [], hash := P.hash l [], id := -1 } : Cell L)])[q]? = g.heap[q]? := by
      intro q hq
      obtain ⟨c0, hc0⟩ := hW.inv.live q hq
      rw [getElem?_append_of_some hc0, hc0]
    refine ⟨⟨inv_alloc hW.inv _ rfl (by simp), ?_, ?_⟩, List.prefix_refl _, hk⟩
    · intro q c hq hc hid
      rcases getElem?_append_cell hc with h | ⟨_, h⟩
      · exact hW.raw q c hq h hid
      · rw [h]
    · intro v hv hf c hc u hu
      have hc' : (g.heap ++ [({ label := l, children := [], hash := P.hash l [], id := -1 } : Cell L)])[v]? = some c := hc
      rw [hk v hv] at hc'
      exact hW.complete v hv hf c hc' u hu
  | unique l cs =>
    simp only [step] at h
    cases h1 : newUniqueNode P g l cs with
    | none => simp [h1] at h
    | some x =>
      obtain ⟨g1, m⟩ := x
      simp only [h1, Option.map_some, Option.some.injEq] at h
      subst h
      obtain ⟨h2, _, h3, h4⟩ := W_newUniqueNode hW h1
      exact ⟨h2, h3, h4⟩
  | add p =>
    simp only [step] at h
    cases hp : g.heap[p]? with
    | none => simp [addNode, hp] at h
    | some n =>
      obtain ⟨g1, r, e1, hW1, _, hpre, _, _, hk⟩ := W_addNode hW hp
      simp only [e1, Option.map_some, Option.some.injEq] at h
      subst h
      exact ⟨hW1, hpre, hk⟩
  | lookup id =>
    simp only [step, Option.some.injEq] at h
    obtain ⟨⟨b, hb⟩, hI', _⟩ := node_spec hW.inv id
    subst h
    rw [hb] at hI' ⊢
    exact ⟨⟨hI', hW.raw, hW.complete⟩, List.prefix_refl _, fun _ _ => rfl⟩
  | remove p => simp [Op.keeps] at ho
  | roots =>
    simp only [step, Option.some.injEq] at h
    subst h
    simp only [rootsOf]
    split
    · exact ⟨hW, List.prefix_refl _, fun _ _ => rfl⟩
    · exact ⟨⟨hW.inv.withRoots _, hW.raw, hW.complete⟩, List.prefix_refl _, fun _ _ => rfl⟩

theorem W_run : ∀ (ops : List (Op L)) (g : G L), WGraph P g → (∀ o ∈ ops, o.keeps = true) → ∀ g',
    run P g ops = some g' → WGraph P g' ∧ g.all <+: g'.all ∧ (∀ q ∈ g.all, g'.heap[q]? = g.heap[q]?) := by
  intro ops
  induction ops with
  | nil =>
    intro g hW _ g' h
    simp only [run, Option.some.injEq] at h
    subst h
    exact ⟨hW, List.prefix_refl _, fun _ _ => rfl⟩
  | cons o os ih =>
    intro g hW hk g' h
    simp only [run] at h
    cases h1 : step P g o with
    | none => simp [h1] at h
    | some g1 =>
      simp only [h1] at h
      obtain ⟨hW1, hp1, hk1⟩ := W_step hW (hk o (by simp)) h1
      obtain ⟨hW2, hp2, hk2⟩ := ih g1 hW1 (fun o' ho' => hk o' (by simp [ho'])) g' h
      exact ⟨hW2, hp1.trans hp2, fun q hq => by rw [hk2 q (hp1.subset hq), hk1 q hq]⟩

theorem GInv.nodup (hI : GInv P g) : g.all.Nodup := by
  rw [List.Nodup, List.pairwise_iff_getElem]
  intro i j hi hj hij heq
  obtain ⟨c, hc, e1⟩ := hI.pos i _ (List.getElem?_eq_getElem hi)
  obtain ⟨d, hd, e2⟩ := hI.pos j _ (List.getElem?_eq_getElem hj)
  rw [heq, hd] at hc; cases hc; omega

/-- Membership in the reverse index. -/
theorem W_to_iff (hW : WGraph P g) {u v : Ptr} (hv : v ∈ g.all) (hu : u ∈ g.all) :
    v ∈ (g.to u).getD [] ↔ ∃ c, g.heap[v]? = some c ∧ u ∈ c.children := by
  obtain ⟨ns, hns⟩ := Option.isSome_iff_exists.mp (hW.inv.toDef u hu)
  simp only [hns, Option.getD_some]
  constructor
  · intro h; exact ((hW.inv.toSound u ns hns).2 v h).2
  · rintro ⟨c, hc, h⟩
    obtain ⟨ns', e1, e2⟩ := hW.complete v hv (fun h => h) c hc u h
    rw [hns] at e1; cases e1; exact e2

theorem mem_insertPtr (p q : Ptr) : ∀ ns : List Ptr, q ∈ insertPtr p ns ↔ q = p ∨ q ∈ ns := by
  intro ns
  induction ns with
  | nil => simp [insertPtr]
  | cons x xs ih =>
    simp only [insertPtr]
    split
    · simp
    · rw [List.mem_cons, ih, List.mem_cons]
      constructor
      · rintro (h | h | h)
        · exact Or.inr (Or.inl h)
        · exact Or.inl h
        · exact Or.inr (Or.inr h)
      · rintro (h | h | h)
        · exact Or.inr (Or.inl h)
        · exact Or.inl h
        · exact Or.inr (Or.inr h)

theorem mem_sortPtr (q : Ptr) (ns : List Ptr) : q ∈ sortPtr ns ↔ q ∈ ns := by
  induction ns with
  | nil => simp [sortPtr]
  | cons x xs ih => simp only [sortPtr, mem_insertPtr, ih, List.mem_cons]

theorem mem_uniqPtr (q : Ptr) : ∀ ns : List Ptr, q ∈ uniqPtr ns ↔ q ∈ ns := by
  intro ns
  fun_induction uniqPtr ns with
  | case1 => simp
  | case2 => simp
  | case3 q' ps ih => rw [ih]; simp
  | case4 p q' ps h ih => rw [List.mem_cons, ih]; simp

theorem mem_nodesSet (v : Ptr) (ns : List Ptr) : v ∈ nodesSet ns ↔ v ∈ ns := by
  rw [nodesSet, mem_uniqPtr, mem_sortPtr]

/-! ### Canonical nodes for equal expressions -/

/-- The member `AddNode` finds for a node with label `l`, `k` operands and hash `h` that is not itself a member. -/
def canon (P : Params L) (g : G L) (l : L) (k : Nat) (h : UInt32) : Option Ptr :=
  let test : Ptr → Bool := fun e => match g.heap[e]? with
    | some c => P.eq l k c.label c.children.length
    | none => false
  match g.byHash h with
  | none => none
  | some none => (g.evac h).find? test
  | some (some e) => if test e then some e else none

theorem nodeEq_raw {p e : Ptr} {n : Cell L} (hp : g.heap[p]? = some n) (hne : p ≠ e) :
    nodeEq P g p e = (match g.heap[e]? with
    | some c => P.eq n.label n.children.length c.label c.children.length
    | none => false) := by
  have : (p == e) = false := by simp [hne]
  simp only [nodeEq, this, hp, Bool.false_or]
  cases g.heap[e]? <;> rfl

theorem find?_congr' {α : Type} {p q : α → Bool} : ∀ {l : List α}, (∀ a ∈ l, p a = q a) → l.find? p = l.find? q := by
  intro l
  induction l with
  | nil => intro _; rfl
  | cons a l ih =>
    intro h
    rw [List.find?_cons, List.find?_cons, h a (by simp), ih (fun b hb => h b (by simp [hb]))]

/-- `AddNode` of a fresh non-constant node is a `canon` lookup. -/
theorem addNode_fresh (hI : GInv P g) {p : Ptr} {n : Cell L} (hp : g.heap[p]? = some n) (hraw : p ∉ g.all)
    (hk : P.isConst n.label = false) (hrefl : P.eq n.label n.children.length n.label n.children.length = true) :
    (∀ e, canon P g n.label n.children.length n.hash = some e → addNode P g p = some (g, e) ∧ e ∈ g.all) ∧
    (canon P g n.label n.children.length n.hash = none → ∃ g', addNode P g p = some (g', p) ∧ Ins g g' n p ∧
      GInv P g' ∧ canon P g' n.label n.children.length n.hash = some p) := by
  have hc : g.constants.find? (nameMatch P g n) = none := by
    rw [List.find?_eq_none]; intro q _; simp only [nameMatch]; split <;> simp [hk]
  have hens : ∀ r ∈ g.all, ensureTo g r = g := by
    intro r hr
    have := hI.toDef r hr
    simp only [ensureTo]
    cases h : g.to r with
    | none => rw [h] at this; simp at this
    | some _ => rfl
  obtain ⟨g0, r0, e0, hI0, hcase0⟩ := addNode_spec hI hp
  cases hb : g.byHash n.hash with
  | none =>
    have hcan : canon P g n.label n.children.length n.hash = none := by simp only [canon, hb]
    refine ⟨fun e he => by rw [hcan] at he; simp at he, fun _ => ?_⟩
    have hform : addNode P g p = some (ensureTo (addToAll { g with
        byHash := upd g.byHash n.hash (some (some p)), evac := g.evac, constants := g.constants } p) p, p) := by
      simp only [addNode, hp, addNodeBody, hc, hb, hk]; rfl
    have hins := ins_of_insert hI hp hraw (upd g.byHash n.hash (some (some p))) g.evac g.constants
    rw [hform] at e0; cases e0
    refine ⟨_, hform, hins, hI0, ?_⟩
    obtain ⟨c, hc1, hl, hch, _⟩ := hins.cell
    have hto : g.to p = none := by
      cases h : g.to p with
      | none => rfl
      | some ns => exact absurd (hI.toSound p ns h).1 hraw
    have hbh : (ensureTo (addToAll { g with
        byHash := upd g.byHash n.hash (some (some p)), evac := g.evac, constants := g.constants } p) p).byHash n.hash = some (some p) := by
      simp only [ensureTo, addToAll, hto]; exact upd_same _ _ _
    simp only [canon, hbh, hc1, hl, hch, hrefl, ↓reduceIte]
  | some o =>
    cases o with
    | none =>
      have hfind : (g.evac n.hash).find? (fun e => nodeEq P g p e) = canon P g n.label n.children.length n.hash := by
        simp only [canon, hb]
        apply find?_congr'
        intro e he
        have hne : p ≠ e := fun h => hraw (h ▸ (hI.coll _ hb e he).1)
        exact nodeEq_raw hp hne
      constructor
      · intro e he
        have he' := hfind.trans he
        have hmem := List.mem_of_find?_eq_some he'
        have hall := (hI.coll _ hb e hmem).1
        refine ⟨?_, hall⟩
        simp only [addNode, hp, addNodeBody, hc, hb, he', hens e hall]
      · intro hnone
        have he' := hfind.trans hnone
        have hform : addNode P g p = some (ensureTo (addToAll { g with
            byHash := g.byHash, evac := upd g.evac n.hash (g.evac n.hash ++ [p]), constants := g.constants } p) p, p) := by
          simp only [addNode, hp, addNodeBody, hc, hb, he']
        have hins := ins_of_insert hI hp hraw g.byHash (upd g.evac n.hash (g.evac n.hash ++ [p])) g.constants
        rw [hform] at e0; cases e0
        refine ⟨_, hform, hins, hI0, ?_⟩
        obtain ⟨c, hc1, hl, hch, _⟩ := hins.cell
        have hto : g.to p = none := by
          cases h : g.to p with
          | none => rfl
          | some ns => exact absurd (hI.toSound p ns h).1 hraw
        generalize hg' : ensureTo (addToAll { g with
            byHash := g.byHash, evac := upd g.evac n.hash (g.evac n.hash ++ [p]), constants := g.constants } p) p = g' at *
        have hbh : g'.byHash n.hash = some none := by
          rw [← hg']; simp only [ensureTo, addToAll, hto]; exact hb
        have hev : g'.evac n.hash = g.evac n.hash ++ [p] := by
          rw [← hg']; simp only [ensureTo, addToAll, hto]; exact upd_same _ _ _
        simp only [canon, hbh, hev, List.find?_append]
        have hold : (g.evac n.hash).find? (fun e => match g'.heap[e]? with
            | some c => P.eq n.label n.children.length c.label c.children.length
            | none => false) = none := by
          rw [← hnone]
          simp only [canon, hb]
          apply find?_congr'
          intro e he
          rw [hins.cells hI e (hI.coll _ hb e he).1]
        rw [hold]
        simp [hc1, hl, hch, hrefl]
    | some ex =>
      obtain ⟨hexm, cex, hcex, hhex⟩ := hI.single _ _ hb
      have hne : p ≠ ex := fun h => hraw (h ▸ hexm)
      have heq := nodeEq_raw (P := P) hp hne
      rw [hcex] at heq
      simp only at heq
      cases ht : P.eq n.label n.children.length cex.label cex.children.length with
      | true =>
        have hcan : canon P g n.label n.children.length n.hash = some ex := by
          simp only [canon, hb, hcex, ht, ↓reduceIte]
        refine ⟨fun e he => ?_, fun h => by rw [hcan] at h; simp at h⟩
        rw [hcan] at he; cases he
        refine ⟨?_, hexm⟩
        simp only [addNode, hp, addNodeBody, hc, hb, heq, ht, hens ex hexm, ↓reduceIte]
      | false =>
        have hcan : canon P g n.label n.children.length n.hash = none := by
          simp only [canon, hb, hcex, ht]; rfl
        refine ⟨fun e he => (by rw [hcan] at he; simp at he), fun _ => ?_⟩
        have hform : addNode P g p = some (ensureTo (addToAll { g with
            byHash := upd g.byHash n.hash (some none), evac := upd g.evac n.hash [ex, p], constants := g.constants } p) p, p) := by
          simp only [addNode, hp, addNodeBody, hc, hb, heq, ht]; rfl
        have hins := ins_of_insert hI hp hraw (upd g.byHash n.hash (some none)) (upd g.evac n.hash [ex, p]) g.constants
        rw [hform] at e0; cases e0
        refine ⟨_, hform, hins, hI0, ?_⟩
        obtain ⟨c, hc1, hl, hch, _⟩ := hins.cell
        have hto : g.to p = none := by
          cases h : g.to p with
          | none => rfl
          | some ns => exact absurd (hI.toSound p ns h).1 hraw
        generalize hg' : ensureTo (addToAll { g with
            byHash := upd g.byHash n.hash (some none), evac := upd g.evac n.hash [ex, p], constants := g.constants } p) p = g' at *
        have hbh : g'.byHash n.hash = some none := by
          rw [← hg']; simp only [ensureTo, addToAll, hto]; exact upd_same _ _ _
        have hev : g'.evac n.hash = [ex, p] := by
          rw [← hg']; simp only [ensureTo, addToAll, hto]; exact upd_same _ _ _
        have hexc : g'.heap[ex]? = some cex := by rw [hins.cells hI ex hexm]; exact hcex
        simp only [canon, hbh, hev, List.find?_cons, hexc, ht, hc1, hl, hch, hrefl]

/-- `canon` only looks at the tables and at the members' labels. -/
theorem canon_congr {g g' : G L} (hI : GInv P g) (hb : g'.byHash = g.byHash) (he : g'.evac = g.evac)
    (hh : ∀ q ∈ g.all, g'.heap[q]? = g.heap[q]?) (l : L) (k : Nat) (h : UInt32) :
    canon P g' l k h = canon P g l k h := by
  simp only [canon, hb, he]
  cases hbh : g.byHash h with
  | none => rfl
  | some o =>
    cases o with
    | none =>
      apply find?_congr'
      intro e hem
      rw [hh e (hI.coll _ hbh e hem).1]
    | some ex => simp only [hh ex (hI.single _ _ hbh).1]

theorem fixEdgesLoop_tables : ∀ (cs : List Ptr) (g : G L) (m : Ptr), GInv P g → m ∈ g.all →
    (∀ u ∈ cs, u ∈ g.all ∧ ∃ c, g.heap[m]? = some c ∧ u ∈ c.children) → ∀ g',
    fixEdgesLoop P g m cs = some g' → g'.byHash = g.byHash ∧ g'.evac = g.evac := by
  intro cs
  induction cs with
  | nil => intro g m _ _ _ g' h; simp only [fixEdgesLoop, Option.some.injEq] at h; subst h; exact ⟨rfl, rfl⟩
  | cons u cs ih =>
    intro g m hI hm hcs g' h
    obtain ⟨hu, hmu⟩ := hcs u (by simp)
    obtain ⟨g1, e1, hI1, hh1, ha1, _⟩ := setEdge_mem hI hm hu hmu
    have ht1 : g1.byHash = g.byHash ∧ g1.evac = g.evac := by
      obtain ⟨b1, h1, hIb⟩ := ensureIn_mem hI hm
      obtain ⟨b2, h2, _⟩ := ensureIn_mem (g := { g with byID := b1 }) hIb hu
      simp only [setEdge, h1, h2] at e1
      split at e1
      · simp at e1
      · simp only [Option.some.injEq] at e1; subst e1; exact ⟨rfl, rfl⟩
    simp only [fixEdgesLoop, e1] at h
    obtain ⟨h3, h4⟩ := ih g1 m hI1 (ha1 ▸ hm) (by intro w hw; rw [ha1, hh1]; exact hcs w (by simp [hw])) g' h
    exact ⟨h3.trans ht1.1, h4.trans ht1.2⟩

theorem fixEdges_tables (hI : GInv P g) {m : Ptr} (hm : m ∈ g.all) {g' : G L} (h : fixEdges P g m = some g') :
    g'.byHash = g.byHash ∧ g'.evac = g.evac := by
  obtain ⟨c, hc⟩ := hI.live m hm
  simp only [fixEdges, hc] at h
  split at h
  · simp only [Option.some.injEq] at h; subst h; exact ⟨rfl, rfl⟩
  · exact fixEdgesLoop_tables c.children g m hI hm (by
      intro u hu
      obtain ⟨d, hd, h0, _⟩ := hI.kids m c hc u hu
      exact ⟨(hI.mem_iff hd).2 h0, c, hc, hu⟩) g' h

/-- Operands that are non-constant members are not replaced. -/
theorem fixChildren_mem : ∀ (cs : List Ptr) (g : G L), GInv P g →
    (∀ c ∈ cs, c ∈ g.all ∧ ∀ x, g.heap[c]? = some x → P.isConst x.label = false) →
    fixChildren P g cs = some (g, cs) := by
  intro cs
  induction cs with
  | nil => intro g _ _; rfl
  | cons c cs ih =>
    intro g hI h
    obtain ⟨hm, hk⟩ := h c (by simp)
    obtain ⟨x, hx⟩ := hI.live c hm
    simp only [fixChildren, addNode_mem hI hx hm (hk x hx), ih g hI (fun c' hc' => h c' (by simp [hc']))]

/-- Applying an operation to non-constant members is a `canon` lookup, and afterwards `canon` finds the result. -/
theorem newUniqueNode_canon (hW : WGraph P g) {l : L} {cs : List Ptr} (hk : P.isConst l = false)
    (hrefl : P.eq l cs.length l cs.length = true)
    (hcs : ∀ c ∈ cs, c ∈ g.all ∧ ∀ x, g.heap[c]? = some x → P.isConst x.label = false) :
    ∃ hs g' m, hashes g cs = some hs ∧ newUniqueNode P g l cs = some (g', m) ∧
      canon P g' l cs.length (P.hash l hs) = some m ∧
      (∀ e, canon P g l cs.length (P.hash l hs) = some e → m = e ∧ g'.all = g.all) ∧
      (∃ c, canon P g l cs.length (P.hash l hs) = none → g'.heap[m]? = some c ∧ c.label = l ∧ c.children = cs) := by
  obtain ⟨hs, hhs⟩ := hashes_some cs (fun c hc => hW.inv.live c (hcs c hc).1)
  have hfix := fixChildren_mem cs g hW.inv hcs
  have hI2 := inv_alloc hW.inv { label := l, children := cs, hash := P.hash l hs, id := -1 } rfl (fun q hq => (hcs q hq).1)
  have hnew : (g.heap ++ [({ label := l, children := cs, hash := P.hash l hs, id := -1 } : Cell L)])[g.heap.length]? =
      some { label := l, children := cs, hash := P.hash l hs, id := -1 } := by simp
  have hnall : g.heap.length ∉ g.all := by
    intro h
    obtain ⟨c, hc⟩ := hW.inv.live _ h
    rw [List.getElem?_eq_none (Nat.le_refl _)] at hc; simp at hc
  have hk2 : ∀ q ∈ g.all, (g.heap ++ [({ label := l, children := cs, hash := P.hash l hs, id := -1 } : Cell L)])[q]? = g.heap[q]? := by
    intro q hq
    obtain ⟨c0, hc0⟩ := hW.inv.live q hq
    rw [getElem?_append_of_some hc0, hc0]
  have hcan2 : canon P ({ g with heap := g.heap ++ [{ label := l, children := cs, hash := P.hash l hs, id := -1 }] } : G L)
      l cs.length (P.hash l hs) = canon P g l cs.length (P.hash l hs) := canon_congr (g := g)
      (g' := { g with heap := g.heap ++ [{ label := l, children := cs, hash := P.hash l hs, id := -1 }] }) hW.inv rfl rfl hk2 _ _ _
  have hC2 : Complete ({ g with heap := g.heap ++ [{ label := l, children := cs, hash := P.hash l hs, id := -1 }] } : G L) (fun _ => False) := by
    intro v hv hf c hc u hu
    have hc' : (g.heap ++ [({ label := l, children := cs, hash := P.hash l hs, id := -1 } : Cell L)])[v]? = some c := hc
    rw [hk2 v hv] at hc'
    exact hW.complete v hv hf c hc' u hu
  have hr2 : Raw ({ g with heap := g.heap ++ [{ label := l, children := cs, hash := P.hash l hs, id := -1 }] } : G L) (fun q => q = g.heap.length ∨ False) := by
    intro q c hq hc hid
    rcases getElem?_append_cell hc with h | ⟨h, _⟩
    · exact hW.raw q c (fun h => h) h hid
    · exact absurd (Or.inl h) hq
  generalize hg2 : ({ g with heap := g.heap ++ [{ label := l, children := cs, hash := P.hash l hs, id := -1 }] } : G L) = g2 at *
  have hall2 : g2.all = g.all := by rw [← hg2]
  have hnew2 : g2.heap[g.heap.length]? = some { label := l, children := cs, hash := P.hash l hs, id := -1 } := by
    rw [← hg2]; exact hnew
  obtain ⟨hyes, hno⟩ := addNode_fresh hI2 hnew2 (by rw [hall2]; exact hnall) hk hrefl
  cases hcan : canon P g2 l cs.length (P.hash l hs) with
  | some e =>
    obtain ⟨hadd, hem⟩ := hyes e hcan
    have hne : g.heap.length ≠ e := fun h => hnall (by rw [← hall2, h]; exact hem)
    have hI4 := inv_returnNode (p := g.heap.length) hI2 (by rw [hall2]; exact hnall)
    have hC4 := complete_returnNode (P := P) (p := g.heap.length) (by rw [hall2]; exact hnall) hC2
    obtain ⟨g5, e5, hW5, hh5, ha5, _⟩ := W_fixEdges hI4 (m := e) hem (raw_returnNode hr2)
      (fun v hv hvm => hC4 v hv (fun h => h))
    obtain ⟨ht1, ht2⟩ := fixEdges_tables hI4 hem e5
    refine ⟨hs, g5, e, hhs, by simp only [newUniqueNode, hfix, newNode, hhs, hg2, hadd, hne, ↓reduceIte, e5], ?_, ?_, ?_⟩
    · rw [← hcan]
      apply canon_congr hI2
      · rw [ht1]; rfl
      · rw [ht2]; rfl
      · intro q hq
        rw [hh5, heap_returnNode, if_neg]
        intro h; exact hnall (by rw [← hall2, h]; exact hq)
    · intro e' he'; rw [← hcan2, hcan] at he'
      exact ⟨by simpa using he', by rw [ha5]; exact hall2⟩
    · exact ⟨{ label := l, children := cs, hash := P.hash l hs, id := -1 }, fun h => by rw [← hcan2, hcan] at h; simp at h⟩
  | none =>
    obtain ⟨g3, hadd, hins, hI3, hcan3⟩ := hno hcan
    have hrm : g.heap.length ∈ g3.all := by rw [hins.all]; simp
    have hC3 := hins.complete hI2 hC2
    obtain ⟨g5, e5, hW5, hh5, ha5, _⟩ := W_fixEdges hI3 (m := g.heap.length) hrm (by
      intro q c _ hc hid
      by_cases hqr : q = g.heap.length
      · subst hqr
        obtain ⟨c', hc', _, _, _, e⟩ := hins.cell
        rw [hc] at hc'; cases hc'; omega
      · exact hins.raw hr2 q c (by rintro (e | e)
                                   · exact hqr e
                                   · exact e) hc hid) hC3
    obtain ⟨ht1, ht2⟩ := fixEdges_tables hI3 hrm e5
    refine ⟨hs, g5, g.heap.length, hhs, by simp only [newUniqueNode, hfix, newNode, hhs, hg2, hadd, ↓reduceIte, e5], ?_, ?_, ?_⟩
    · rw [← hcan3]
      exact canon_congr hI3 ht1 ht2 (fun q _ => by rw [hh5]) _ _ _
    · intro e' he'; rw [← hcan2, hcan] at he'; simp at he'
    · obtain ⟨c, hc1, hl, hch, _⟩ := hins.cell
      exact ⟨c, fun _ => ⟨by rw [hh5]; exact hc1, hl, hch⟩⟩

/-- The members registered under a hash. -/
def bucket (g : G L) (h : UInt32) : List Ptr :=
  match g.byHash h with
  | none => []
  | some none => g.evac h
  | some (some e) => [e]

/-- Equality of a label with a member's. -/
def labelTest (P : Params L) (g : G L) (l : L) (k : Nat) (e : Ptr) : Bool :=
  match g.heap[e]? with
  | some c => P.eq l k c.label c.children.length
  | none => false

theorem canon_bucket (l : L) (k : Nat) (h : UInt32) : canon P g l k h = (bucket g h).find? (labelTest P g l k) := by
  simp only [canon, bucket]
  cases hb : g.byHash h with
  | none => rfl
  | some o =>
    cases o with
    | none => rfl
    | some e =>
      simp only [List.find?_cons, List.find?_nil]
      change (if labelTest P g l k e = true then some e else none) = _
      cases labelTest P g l k e <;> rfl

theorem bucket_of_tables {g g' : G L} (hb : g'.byHash = g.byHash) (he : g'.evac = g.evac) (h : UInt32) :
    bucket g' h = bucket g h := by simp only [bucket, hb, he]

theorem ensureTo_tables (g : G L) (p : Ptr) : (ensureTo g p).byHash = g.byHash ∧ (ensureTo g p).evac = g.evac := by
  simp only [ensureTo]; split <;> exact ⟨rfl, rfl⟩

theorem node_tables (g : G L) (id : Int) : (node g id).1.byHash = g.byHash ∧ (node g id).1.evac = g.evac := by
  simp only [node]
  split
  · exact ⟨rfl, rfl⟩
  · split <;> exact ⟨rfl, rfl⟩

theorem addNode_bucket {p : Ptr} {g' : G L} {r : Ptr} (h : addNode P g p = some (g', r)) (k : UInt32) :
    bucket g k <+: bucket g' k := by
  simp only [addNode] at h
  cases hp : g.heap[p]? with
  | none => simp [hp] at h
  | some n =>
    simp only [hp, Option.some.injEq, Prod.mk.injEq] at h
    obtain ⟨h1, _⟩ := h
    subst h1
    rw [bucket_of_tables (ensureTo_tables _ _).1 (ensureTo_tables _ _).2]
    simp only [addNodeBody]
    split
    · exact List.prefix_refl _
    · split
      next hb =>
        split
        · exact List.prefix_refl _
        · by_cases hk : k = n.hash
          · subst hk
            simp only [bucket, addToAll, hb, upd_same]
            exact List.prefix_append _ _
          · simp only [bucket, addToAll, upd, if_neg hk]; exact List.prefix_refl _
      next ex hb =>
        split
        · exact List.prefix_refl _
        · by_cases hk : k = n.hash
          · subst hk
            simp only [bucket, addToAll, hb, upd_same]
            exact ⟨[p], rfl⟩
          · simp only [bucket, addToAll, upd, if_neg hk]; exact List.prefix_refl _
      next hb =>
        split
        · by_cases hk : k = n.hash
          · subst hk; simp only [bucket, hb]; exact List.nil_prefix
          · simp only [bucket, addToAll, upd, if_neg hk]; exact List.prefix_refl _
        · by_cases hk : k = n.hash
          · subst hk; simp only [bucket, hb]; exact List.nil_prefix
          · simp only [bucket, addToAll, upd, if_neg hk]; exact List.prefix_refl _

theorem ensureIn_bucket {p : Ptr} {g' : G L} {r : Ptr} (h : ensureIn P g p = some (g', r)) (k : UInt32) :
    bucket g k <+: bucket g' k := by
  simp only [ensureIn] at h
  split at h
  · simp at h
  · next c hc =>
    have ht := bucket_of_tables (node_tables g c.id).1 (node_tables g c.id).2 k
    split at h
    · simp only [Option.some.injEq, Prod.mk.injEq] at h
      rw [← h.1, ← ht]; exact List.prefix_refl _
    · rw [← ht]; exact addNode_bucket h k

theorem setEdge_bucket {a b : Ptr} {g' : G L} (h : setEdge P g a b = some g') (k : UInt32) :
    bucket g k <+: bucket g' k := by
  simp only [setEdge] at h
  split at h
  · simp at h
  · split at h
    · simp at h
    · next g1 s1 h1 =>
      split at h
      · simp at h
      · next g2 s2 h2 =>
        simp only [Option.some.injEq] at h
        subst h
        exact (ensureIn_bucket h1 k).trans (ensureIn_bucket h2 k)

theorem fixEdgesLoop_bucket : ∀ (cs : List Ptr) (g : G L) (m : Ptr) (g' : G L), fixEdgesLoop P g m cs = some g' →
    ∀ k, bucket g k <+: bucket g' k := by
  intro cs
  induction cs with
  | nil => intro g m g' h k; simp only [fixEdgesLoop, Option.some.injEq] at h; subst h; exact List.prefix_refl _
  | cons c cs ih =>
    intro g m g' h k
    simp only [fixEdgesLoop] at h
    split at h
    · simp at h
    · next g1 h1 => exact (setEdge_bucket h1 k).trans (ih g1 m g' h k)

theorem fixChildren_bucket : ∀ (cs : List Ptr) (g : G L) (g' : G L) (cs' : List Ptr),
    fixChildren P g cs = some (g', cs') → ∀ k, bucket g k <+: bucket g' k := by
  intro cs
  induction cs with
  | nil =>
    intro g g' cs' h k
    simp only [fixChildren, Option.some.injEq, Prod.mk.injEq] at h
    rw [h.1]; exact List.prefix_refl _
  | cons c cs ih =>
    intro g g' cs' h k
    simp only [fixChildren] at h
    split at h
    · simp at h
    · next g1 c1 h1 =>
      split at h
      · simp at h
      · next g2 cs2 h2 =>
        simp only [Option.some.injEq, Prod.mk.injEq] at h
        rw [← h.1]
        exact (addNode_bucket h1 k).trans (ih g1 g2 cs2 h2 k)

theorem newUniqueNode_bucket {l : L} {cs : List Ptr} {g' : G L} {m : Ptr} (h : newUniqueNode P g l cs = some (g', m))
    (k : UInt32) : bucket g k <+: bucket g' k := by
  simp only [newUniqueNode] at h
  split at h
  · simp at h
  · next g1 cs1 h1 =>
    refine (fixChildren_bucket cs g g1 cs1 h1 k).trans ?_
    split at h
    · simp at h
    · next g2 n h2 =>
      simp only [newNode] at h2
      split at h2
      · simp at h2
      · next hs hhs =>
        simp only [Option.some.injEq, Prod.mk.injEq] at h2
        have e2 : bucket g1 k = bucket g2 k := by rw [← h2.1]; rfl
        rw [e2]
        split at h
        · simp at h
        · next g3 m3 h3 =>
          refine (addNode_bucket h3 k).trans ?_
          have e3 : bucket g3 k = bucket (if n = m3 then g3 else returnNode P g3 n) k := by split <;> rfl
          rw [e3]
          split at h
          · simp at h
          · next g4 h4 =>
            simp only [Option.some.injEq, Prod.mk.injEq] at h
            rw [← h.1]
            simp only [fixEdges] at h4
            split at h4
            · simp at h4
            · split at h4
              · simp only [Option.some.injEq] at h4; subst h4; exact List.prefix_refl _
              · exact fixEdgesLoop_bucket _ _ _ _ h4 k

theorem step_bucket {o : Op L} (ho : o.keeps = true) {g' : G L} (h : step P g o = some g') (k : UInt32) :
    bucket g k <+: bucket g' k := by
  cases o with
  | newConst l => simp only [step, newNode, hashes, Option.map_some, Option.some.injEq] at h; subst h; exact List.prefix_refl _
  | unique l cs =>
    simp only [step, Option.map_eq_some_iff] at h
    obtain ⟨⟨g1, m⟩, h1, h2⟩ := h
    subst h2; exact newUniqueNode_bucket h1 k
  | add p =>
    simp only [step, Option.map_eq_some_iff] at h
    obtain ⟨⟨g1, m⟩, h1, h2⟩ := h
    subst h2; exact addNode_bucket h1 k
  | lookup id =>
    simp only [step, Option.some.injEq] at h
    subst h
    rw [bucket_of_tables (node_tables g id).1 (node_tables g id).2]; exact List.prefix_refl _
  | remove p => simp [Op.keeps] at ho
  | roots =>
    simp only [step, Option.some.injEq, rootsOf] at h
    subst h
    split <;> exact List.prefix_refl _

theorem run_bucket : ∀ (ops : List (Op L)) (g g' : G L), (∀ o ∈ ops, o.keeps = true) → run P g ops = some g' →
    ∀ k, bucket g k <+: bucket g' k := by
  intro ops
  induction ops with
  | nil => intro g g' _ h k; simp only [run, Option.some.injEq] at h; subst h; exact List.prefix_refl _
  | cons o os ih =>
    intro g g' hk h k
    simp only [run] at h
    split at h
    · simp at h
    · next g1 h1 =>
      exact (step_bucket (hk o (by simp)) h1 k).trans (ih g1 g' (fun o' ho' => hk o' (by simp [ho'])) h k)

theorem inv_bucket_mem (hI : GInv P g) {h : UInt32} {e : Ptr} (he : e ∈ bucket g h) : e ∈ g.all := by
  simp only [bucket] at he
  cases hb : g.byHash h with
  | none => rw [hb] at he; simp at he
  | some o =>
    rw [hb] at he
    cases o with
    | none => exact (hI.coll _ hb e he).1
    | some x => simp only [List.mem_singleton] at he; subst he; exact (hI.single _ _ hb).1

/-- What `canon` finds is found for ever. -/
theorem canon_stable (hW : WGraph P g) {ops : List (Op L)} (hk : ∀ o ∈ ops, o.keeps = true) {g' : G L}
    (h : run P g ops = some g') {l : L} {k : Nat} {hh : UInt32} {e : Ptr} (hc : canon P g l k hh = some e) :
    canon P g' l k hh = some e := by
  obtain ⟨_, _, hcells⟩ := W_run ops g hW hk g' h
  obtain ⟨t, ht⟩ := run_bucket ops g g' hk h hh
  rw [canon_bucket] at hc ⊢
  rw [← ht, List.find?_append]
  have : (bucket g hh).find? (labelTest P g' l k) = (bucket g hh).find? (labelTest P g l k) := by
    apply find?_congr'
    intro q hq
    simp only [labelTest, hcells q (inv_bucket_mem hW.inv hq)]
  rw [this, hc]; rfl

end Verif.Graph
