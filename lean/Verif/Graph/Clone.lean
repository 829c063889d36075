import Verif.Graph.Denote
/-! Cloning a graph (property C46): `ExprGraph.Clone`, graph.go 61-134, and `Node.Clone`, node.go 398-432. -/
set_option autoImplicit false
namespace Verif.Graph

variable {L : Type} {P : Params L}

/-- The derivative links of the nodes (node.go 41-42), which the store itself does not use. -/
structure Links where
  derivOf : Ptr → List Ptr
  deriv : Ptr → Option Ptr

/-- `mapping`, graph.go 65-74: the clone of the `i`-th node is the `i`-th new object. A node that is not in the map gives
a nil pointer, which is represented by the address just after the new objects. -/
def mapping (g : G L) (p : Ptr) : Ptr := g.heap.length + g.all.idxOf p

/-- The first two loops, graph.go 67-91, and `Node.Clone`, node.go 403-432, for one node. -/
def cloneCell (g : G L) (c : Cell L) : Cell L :=
  { label := c.label, hash := c.hash, id := c.id, children := c.children.map (mapping g) }

/-- `Clone`, graph.go 61-134. The new objects go to the end of the heap; the original is not touched. A node of the list
without an object (a nil pointer; Go panics) is dropped, this does not occur. -/
def clone (g : G L) : G L :=
  { heap := g.heap ++ g.all.filterMap (fun p => (g.heap[p]?).map (cloneCell g))
    all := g.all.map (mapping g)
    byID := fun _ => none
    byHash := fun h => (g.byHash h).map (fun o => o.bind (fun v => if g.all.contains v then some (mapping g v) else none))
    evac := fun h => (g.evac h).map (mapping g)
    to := fun q =>
      if q < g.heap.length then none
      else match g.all[q - g.heap.length]? with
        | some p => (g.to p).map (·.map (mapping g))
        | none => none
    leaves := g.leaves.map (mapping g)
    constants := g.constants.map (mapping g)
    roots := some ((g.roots.getD []).map (mapping g))
    counter := g.counter }

/-- The second loop, graph.go 84-91, for the derivative links. -/
def cloneLinks (g : G L) (k : Links) : Links :=
  { derivOf := fun q =>
      if q < g.heap.length then k.derivOf q
      else match g.all[q - g.heap.length]? with
        | some p => (k.derivOf p).map (mapping g)
        | none => []
    deriv := fun q =>
      if q < g.heap.length then k.deriv q
      else match g.all[q - g.heap.length]? with
        | some p => (k.deriv p).map (mapping g)
        | none => none }

/-! ### Lemmas -/

theorem filterMap_some {α β : Type} (f : α → Option β) : ∀ (l : List α) (i : Nat) (a : α), (∀ x ∈ l, (f x).isSome) →
    l[i]? = some a → (l.filterMap f)[i]? = f a := by
  intro l
  induction l with
  | nil => intro i a _ h; simp at h
  | cons x xs ih =>
    intro i a hs h
    obtain ⟨y, hy⟩ := Option.isSome_iff_exists.mp (hs x (by simp))
    rw [List.filterMap_cons_some hy]
    cases i with
    | zero => simp at h; subst h; simp [hy]
    | succ i =>
      simp only [List.getElem?_cons_succ] at h ⊢
      exact ih i a (fun z hz => hs z (by simp [hz])) h

theorem idxOf_of_getElem? {g : G L} (hI : GInv P g) {i : Nat} {p : Ptr} (h : g.all[i]? = some p) : g.all.idxOf p = i := by
  have hlt : i < g.all.length := by
    rcases Nat.lt_or_ge i g.all.length with h' | h'
    · exact h'
    · rw [List.getElem?_eq_none h'] at h; simp at h
  have hp : g.all[i] = p := by rw [List.getElem?_eq_getElem hlt] at h; simpa using h
  rw [← hp]
  exact List.Nodup.idxOf_getElem hI.nodup i hlt

theorem mapping_of_getElem? {g : G L} (hI : GInv P g) {i : Nat} {p : Ptr} (h : g.all[i]? = some p) :
    mapping g p = g.heap.length + i := by
  rw [mapping, idxOf_of_getElem? hI h]

theorem clone_cell {g : G L} (hI : GInv P g) {p : Ptr} (hp : p ∈ g.all) :
    ∃ c, g.heap[p]? = some c ∧ (clone g).heap[mapping g p]? = some (cloneCell g c) := by
  obtain ⟨i, hi⟩ := List.mem_iff_getElem?.mp hp
  obtain ⟨c, hc, _⟩ := hI.pos i p hi
  refine ⟨c, hc, ?_⟩
  rw [mapping_of_getElem? hI hi]
  simp only [clone]
  rw [List.getElem?_append_right (by omega), Nat.add_sub_cancel_left]
  rw [filterMap_some _ g.all i p ?_ hi, hc]
  · rfl
  · intro x hx
    obtain ⟨d, hd⟩ := hI.live x hx
    rw [hd]; rfl

/-- What the lists of a graph built by API calls point to. -/
structure Listed (g : G L) : Prop where
  leaves : ∀ p ∈ g.leaves, p ∈ g.all
  roots : ∀ r, g.roots = some r → ∀ p ∈ r, p ∈ g.all

/-- Calls that keep these lists. -/
def SameLists (g g' : G L) : Prop := g'.leaves = g.leaves ∧ g'.roots = g.roots

theorem SameLists.trans {a b c : G L} (h1 : SameLists a b) (h2 : SameLists b c) : SameLists a c :=
  ⟨h2.1.trans h1.1, h2.2.trans h1.2⟩

theorem SameLists.refl (a : G L) : SameLists a a := ⟨rfl, rfl⟩

theorem addNode_lists {g g' : G L} {p r : Ptr} (h : addNode P g p = some (g', r)) : SameLists g g' := by
  have hens : ∀ (g : G L) p, SameLists g (ensureTo g p) := by
    intro g p
    unfold ensureTo
    cases g.to p <;> exact ⟨rfl, rfl⟩
  unfold addNode at h
  cases hp : g.heap[p]? with
  | none => simp [hp] at h
  | some n =>
    simp only [hp, Option.some.injEq, Prod.mk.injEq] at h
    obtain ⟨h1, _⟩ := h
    rw [← h1]
    refine SameLists.trans ?_ (hens _ _)
    unfold addNodeBody
    cases g.constants.find? (nameMatch P g n) with
    | some q => exact ⟨rfl, rfl⟩
    | none =>
      cases g.byHash n.hash with
      | none =>
        cases P.isConst n.label <;> exact ⟨rfl, rfl⟩
      | some o =>
        cases o with
        | none =>
          cases (g.evac n.hash).find? (fun e => nodeEq P g p e) <;> exact ⟨rfl, rfl⟩
        | some e =>
          simp only
          cases nodeEq P g p e <;> exact ⟨rfl, rfl⟩

theorem node_lists (g : G L) (id : Int) : SameLists g (node g id).1 := by
  unfold node
  cases g.byID id with
  | some i => exact ⟨rfl, rfl⟩
  | none => cases findIdx g id <;> exact ⟨rfl, rfl⟩

theorem ensureIn_lists {g g' : G L} {p r : Ptr} (h : ensureIn P g p = some (g', r)) : SameLists g g' := by
  unfold ensureIn at h
  cases hp : g.heap[p]? with
  | none => simp [hp] at h
  | some c =>
    simp only [hp] at h
    cases hh : (has g c.id).2 with
    | true =>
      simp only [hh, if_true, Option.some.injEq, Prod.mk.injEq] at h
      rw [← h.1]
      exact node_lists g c.id
    | false =>
      simp only [hh, Bool.false_eq_true, if_false] at h
      exact (node_lists g c.id).trans (addNode_lists h)

theorem setEdge_lists {g g' : G L} {a b : Ptr} (h : setEdge P g a b = some g') : SameLists g g' := by
  unfold setEdge at h
  split at h
  · simp at h
  · cases h1 : ensureIn P g a with
    | none => simp [h1] at h
    | some r1 =>
      obtain ⟨g1, a'⟩ := r1
      simp only [h1] at h
      cases h2 : ensureIn P g1 b with
      | none => simp [h2] at h
      | some r2 =>
        obtain ⟨g2, b'⟩ := r2
        simp only [h2, Option.some.injEq] at h
        rw [← h]
        exact (ensureIn_lists h1).trans ((ensureIn_lists h2).trans ⟨rfl, rfl⟩)

theorem fixEdgesLoop_lists : ∀ (cs : List Ptr) (g g' : G L) (m : Ptr), fixEdgesLoop P g m cs = some g' → SameLists g g' := by
  intro cs
  induction cs with
  | nil => intro g g' m h; simp only [fixEdgesLoop, Option.some.injEq] at h; rw [← h]; exact SameLists.refl g
  | cons c cs ih =>
    intro g g' m h
    simp only [fixEdgesLoop] at h
    cases h1 : setEdge P g m c with
    | none => simp [h1] at h
    | some g1 =>
      simp only [h1] at h
      exact (setEdge_lists h1).trans (ih g1 g' m h)

theorem fixChildren_lists : ∀ (cs : List Ptr) (g g' : G L) (cs' : List Ptr), fixChildren P g cs = some (g', cs') →
    SameLists g g' := by
  intro cs
  induction cs with
  | nil => intro g g' cs' h; simp only [fixChildren, Option.some.injEq, Prod.mk.injEq] at h; rw [← h.1]; exact SameLists.refl g
  | cons c cs ih =>
    intro g g' cs' h
    simp only [fixChildren] at h
    cases h1 : addNode P g c with
    | none => simp [h1] at h
    | some r1 =>
      obtain ⟨g1, c'⟩ := r1
      simp only [h1] at h
      cases h2 : fixChildren P g1 cs with
      | none => simp [h2] at h
      | some r2 =>
        obtain ⟨g2, cs2⟩ := r2
        simp only [h2, Option.some.injEq, Prod.mk.injEq] at h
        rw [← h.1]
        exact (addNode_lists h1).trans (ih g1 g2 cs2 h2)

theorem newUniqueNode_lists {g g' : G L} {l : L} {cs : List Ptr} {m : Ptr} (h : newUniqueNode P g l cs = some (g', m)) :
    g'.roots = g.roots ∧ (g'.leaves = g.leaves ∨ g'.leaves = g.leaves ++ [m]) := by
  simp only [newUniqueNode] at h
  cases h1 : fixChildren P g cs with
  | none => simp [h1] at h
  | some r1 =>
    obtain ⟨g1, cs1⟩ := r1
    simp only [h1] at h
    have e1 := fixChildren_lists cs g g1 cs1 h1
    cases h2 : newNode P g1 l cs1 with
    | none => simp [h2] at h
    | some r2 =>
      obtain ⟨g2, n⟩ := r2
      simp only [h2] at h
      have e2 : SameLists g1 g2 := by
        unfold newNode at h2
        cases hh : hashes g1 cs1 with
        | none => simp [hh] at h2
        | some hs =>
          simp only [hh, Option.some.injEq, Prod.mk.injEq] at h2
          rw [← h2.1]; exact ⟨rfl, rfl⟩
      cases h3 : addNode P g2 n with
      | none => simp [h3] at h
      | some r3 =>
        obtain ⟨g3, m'⟩ := r3
        simp only [h3] at h
        have e3 := addNode_lists h3
        generalize hg4 : (if n = m' then g3 else returnNode P g3 n) = g4 at h
        have e4 : SameLists g3 g4 := by
          rw [← hg4]; split <;> exact ⟨rfl, rfl⟩
        have e := e1.trans (e2.trans (e3.trans e4))
        cases h5 : fixEdges P g4 m' with
        | none => simp [h5] at h
        | some g5 =>
          simp only [h5, Option.some.injEq, Prod.mk.injEq] at h
          obtain ⟨ha, hb⟩ := h
          subst ha; subst hb
          unfold fixEdges at h5
          cases hc : g4.heap[m']? with
          | none => simp [hc] at h5
          | some c =>
            simp only [hc] at h5
            by_cases hk : c.children = []
            · simp only [hk, if_true, Option.some.injEq] at h5
              rw [← h5]
              exact ⟨e.2, Or.inr (by simp [e.1])⟩
            · simp only [hk, if_false] at h5
              have e5 := fixEdgesLoop_lists _ _ _ _ h5
              exact ⟨(e.trans e5).2, Or.inl (e.trans e5).1⟩

theorem newUniqueNode_mem {g g' : G L} (hW : WGraph P g) {l : L} {cs : List Ptr} {m : Ptr}
    (h : newUniqueNode P g l cs = some (g', m)) : m ∈ g'.all ∧ g.all <+: g'.all := by
  obtain ⟨_, h2, h3, _⟩ := W_newUniqueNode hW h
  exact ⟨h2, h3⟩

theorem Listed_run : ∀ (ops : List (Op L)) (g g' : G L), WGraph P g → Listed g → (∀ o ∈ ops, o.keeps = true) →
    run P g ops = some g' → Listed g' := by
  intro ops
  induction ops with
  | nil => intro g g' _ hL _ h; simp only [run, Option.some.injEq] at h; rw [← h]; exact hL
  | cons o os ih =>
    intro g g' hW hL hk h
    simp only [run] at h
    cases h1 : step P g o with
    | none => simp [h1] at h
    | some g1 =>
      simp only [h1] at h
      obtain ⟨hW1, hp1, _⟩ := W_step hW (hk o (by simp)) h1
      refine ih g1 g' hW1 ?_ (fun o' ho' => hk o' (by simp [ho'])) h
      have keep : SameLists g g1 → Listed g1 := by
        rintro ⟨e1, e2⟩
        refine ⟨fun p hp => hp1.subset (hL.leaves p (e1 ▸ hp)), fun r hr p hp => ?_⟩
        rw [e2] at hr
        exact hp1.subset (hL.roots r hr p hp)
      cases o with
      | newConst l =>
        simp only [step, Option.map_eq_some_iff] at h1
        obtain ⟨⟨g2, n⟩, h2, rfl⟩ := h1
        apply keep
        unfold newNode at h2
        simp only [hashes, Option.some.injEq, Prod.mk.injEq] at h2
        rw [← h2.1]; exact ⟨rfl, rfl⟩
      | unique l cs =>
        simp only [step, Option.map_eq_some_iff] at h1
        obtain ⟨⟨g2, m⟩, h2, rfl⟩ := h1
        obtain ⟨er, el⟩ := newUniqueNode_lists h2
        obtain ⟨hm, _⟩ := newUniqueNode_mem hW h2
        refine ⟨fun p hp => ?_, fun r hr p hp => ?_⟩
        · rcases el with el | el
          · rw [el] at hp; exact hp1.subset (hL.leaves p hp)
          · rw [el] at hp
            rcases List.mem_append.1 hp with hp | hp
            · exact hp1.subset (hL.leaves p hp)
            · rw [List.mem_singleton.1 hp]; exact hm
        · rw [er] at hr
          exact hp1.subset (hL.roots r hr p hp)
      | add p =>
        simp only [step, Option.map_eq_some_iff] at h1
        obtain ⟨⟨g2, m⟩, h2, rfl⟩ := h1
        exact keep (addNode_lists h2)
      | lookup id =>
        simp only [step, Option.some.injEq] at h1
        rw [← h1] at keep ⊢
        exact keep (node_lists g id)
      | remove p => simp [Op.keeps] at hk
      | roots =>
        simp only [step, Option.some.injEq] at h1
        rw [← h1]
        unfold rootsOf
        cases hr : g.roots with
        | some r => exact hL
        | none =>
          refine ⟨hL.leaves, fun r hr' p hp => ?_⟩
          simp only [Option.some.injEq] at hr'
          rw [← hr', List.mem_filter] at hp
          cases hto : g.to p with
          | none => simp [hto] at hp
          | some ns => exact (hW.inv.toSound p ns hto).1

theorem Reachable.listed {g : G L} (h : Reachable P g) : Listed g := by
  obtain ⟨ops, hk, hr⟩ := h
  exact Listed_run ops empty g W_empty ⟨by simp [empty], by simp [empty]⟩ hk hr

/-! ### The clone is isomorphic and separate -/

/-- **C46 (independent).** The clone's nodes are new objects, different for different nodes, and no object of the original
is changed. -/
theorem clone_separate {g : G L} (h : Reachable P g) :
    (∀ q ∈ (clone g).all, g.heap[q]? = none) ∧
    (∀ p ∈ g.all, ∀ q ∈ g.all, mapping g p = mapping g q → p = q) ∧
    (∀ (p : Ptr) (c : Cell L), g.heap[p]? = some c → (clone g).heap[p]? = some c) := by
  refine ⟨fun q hq => ?_, fun p hp q hq e => ?_, fun p c hc => ?_⟩
  · simp only [clone, List.mem_map] at hq
    obtain ⟨p, _, rfl⟩ := hq
    exact List.getElem?_eq_none (by simp only [mapping]; omega)
  · obtain ⟨i, hi⟩ := List.mem_iff_getElem?.mp hp
    obtain ⟨j, hj⟩ := List.mem_iff_getElem?.mp hq
    rw [mapping_of_getElem? h.W.inv hi, mapping_of_getElem? h.W.inv hj] at e
    have : i = j := Nat.add_left_cancel e
    subst this
    rw [hi] at hj; simpa using hj
  · have hlt : p < g.heap.length := by
      rcases Nat.lt_or_ge p g.heap.length with h' | h'
      · exact h'
      · rw [List.getElem?_eq_none h'] at hc; simp at hc
    simp only [clone]
    rw [List.getElem?_append_left hlt, hc]

/-- **C46 (isomorphic nodes).** The nodes of the clone are the clones in the same order; each has the ID, the label and the
hash of its original, and its operands are the clones of the original's operands, which are members. -/
theorem clone_nodes {g : G L} (h : Reachable P g) :
    (clone g).all = g.all.map (mapping g) ∧
    ∀ p ∈ g.all, ∃ c, g.heap[p]? = some c ∧ (∀ q ∈ c.children, q ∈ g.all) ∧
      (clone g).heap[mapping g p]? = some { c with children := c.children.map (mapping g) } := by
  refine ⟨rfl, fun p hp => ?_⟩
  obtain ⟨c, hc, hcl⟩ := clone_cell h.W.inv hp
  refine ⟨c, hc, fun q hq => ?_, hcl⟩
  obtain ⟨d, hd, h0, _⟩ := h.W.inv.kids p c hc q hq
  exact (h.W.inv.mem_iff hd).2 h0

/-- Looking up an ID in the clone gives the clone of what it gives in the original. -/
theorem clone_lookup {g : G L} (h : Reachable P g) (id : Int) :
    (node (clone g) id).2 = (node g id).2.map (mapping g) := by
  have hI := h.W.inv
  obtain ⟨_, _, hn⟩ := node_spec hI id
  have hfi : findIdx (clone g) id = findIdx g id := by
    unfold findIdx
    have : (clone g).all = g.all.map (mapping g) := rfl
    rw [this, List.findIdx?_map]
    have hcongr : ∀ (l : List Ptr), (∀ p ∈ l, p ∈ g.all) →
        l.findIdx? ((fun p => match (clone g).heap[p]? with | some c => c.id == id | none => false) ∘ mapping g)
        = l.findIdx? (fun p => match g.heap[p]? with | some c => c.id == id | none => false) := by
      intro l
      induction l with
      | nil => intro _; rfl
      | cons x xs ih =>
        intro hl
        obtain ⟨c, hc, hcl⟩ := clone_cell hI (hl x (by simp))
        rw [List.findIdx?_cons, List.findIdx?_cons, ih (fun p hp => hl p (by simp [hp]))]
        simp only [Function.comp, hc, hcl, cloneCell]
    exact hcongr g.all (fun p hp => hp)
  have hnode : (node (clone g) id).2 = (findIdx g id).bind fun i => (clone g).all[i]? := by
    unfold node
    have : (clone g).byID id = none := rfl
    rw [this]
    simp only [hfi]
    cases findIdx g id <;> rfl
  rw [hnode]
  have hall : ∀ i : Nat, (clone g).all[i]? = (g.all[i]?).map (mapping g) := by
    intro i; exact List.getElem?_map
  obtain ⟨hf1, hf2⟩ := findIdx_spec hI id
  cases hf : findIdx g id with
  | some i =>
    obtain ⟨rfl, hlt⟩ := hf1 i hf
    simp only [Option.bind_some, hall]
    have : (node g (i : Int)).2 = g.all[i]? := by
      rw [List.getElem?_eq_getElem hlt]
      exact (hn _).2 ⟨i, rfl, List.getElem?_eq_getElem hlt⟩
    rw [this]
  | none =>
    simp only [Option.bind_none]
    cases hres : (node g id).2 with
    | none => rfl
    | some p =>
      obtain ⟨i, rfl, hi⟩ := (hn p).1 hres
      have hlt : i < g.all.length := by
        rcases Nat.lt_or_ge i g.all.length with h' | h'
        · exact h'
        · rw [List.getElem?_eq_none h'] at hi; simp at hi
      exact absurd rfl (hf2 hf i hlt)

/-- **C46 (edges).** The recorded users of a clone are the clones of the recorded users; nothing is recorded for any other
object. -/
theorem clone_to {g : G L} (h : Reachable P g) :
    (∀ p ∈ g.all, (clone g).to (mapping g p) = (g.to p).map (·.map (mapping g))) ∧
    (∀ q, q ∉ (clone g).all → (clone g).to q = none) := by
  refine ⟨fun p hp => ?_, fun q hq => ?_⟩
  · obtain ⟨i, hi⟩ := List.mem_iff_getElem?.mp hp
    simp only [clone]
    rw [mapping_of_getElem? h.W.inv hi, if_neg (Nat.not_lt.2 (Nat.le_add_right _ _)), Nat.add_sub_cancel_left, hi]
  · simp only [clone]
    split
    · rfl
    · rename_i hge
      cases hi : g.all[q - g.heap.length]? with
      | none => rfl
      | some p =>
        exfalso; apply hq
        simp only [clone, List.mem_map]
        exact ⟨p, List.mem_of_getElem? hi, by rw [mapping_of_getElem? h.W.inv hi]; exact Nat.add_sub_of_le (Nat.not_lt.1 hge)⟩

/-- **C46 (tables).** Leaves, constants and the members registered under every hash correspond, and the clone continues
with the same next ID. -/
theorem clone_tables {g : G L} (h : Reachable P g) :
    (clone g).leaves = g.leaves.map (mapping g) ∧ (∀ p ∈ g.leaves, p ∈ g.all) ∧
    (clone g).constants = g.constants.map (mapping g) ∧ (∀ p ∈ g.constants, p ∈ g.all) ∧
    (∀ k, bucket (clone g) k = (bucket g k).map (mapping g)) ∧ (∀ k, ∀ p ∈ bucket g k, p ∈ g.all) ∧
    (clone g).counter = g.counter := by
  refine ⟨rfl, h.listed.leaves, rfl, fun p hp => (h.W.inv.consts p hp).1, fun k => ?_,
    fun k p hp => inv_bucket_mem h.W.inv hp, rfl⟩
  unfold bucket
  have : (clone g).byHash k = (g.byHash k).map
    (fun o => o.bind (fun v => if g.all.contains v then some (mapping g v) else none)) := rfl
  rw [this]
  cases hb : g.byHash k with
  | none => rfl
  | some o =>
    cases o with
    | none => rfl
    | some e =>
      have he := (h.W.inv.single k e hb).1
      simp [he]

/-- **C46 (sharing).** An expression that the original would share is shared by the clone, with the clone of the same
node. -/
theorem clone_canon {g : G L} (h : Reachable P g) (l : L) (k : Nat) (hh : UInt32) :
    canon P (clone g) l k hh = (canon P g l k hh).map (mapping g) := by
  rw [canon_bucket, canon_bucket, (clone_tables h).2.2.2.2.1]
  have hm := (clone_tables h).2.2.2.2.2.1 hh
  generalize bucket g hh = b at hm
  induction b with
  | nil => rfl
  | cons e es ih =>
    obtain ⟨c, hc, hcl⟩ := clone_cell h.W.inv (hm e (by simp))
    have ht : labelTest P (clone g) l k (mapping g e) = labelTest P g l k e := by
      simp only [labelTest, hc, hcl, cloneCell, List.length_map]
    rw [List.map_cons, List.find?_cons, List.find?_cons, ht]
    cases labelTest P g l k e with
    | true => rfl
    | false => exact ih (fun p hp => hm p (by simp [hp]))

/-- **C46 (meaning).** A clone means what its original means, for every interpretation of the labels. -/
theorem clone_val {D : Type} (den : L → List D → D) (bad : D) {g : G L} (h : Reachable P g) {p : Ptr} (hp : p ∈ g.all) :
    val den bad (clone g) (mapping g p) = val den bad g p := by
  have hF : ∀ (n : Nat) (p : Ptr), p ∈ g.all → valF den bad (clone g) n (mapping g p) = valF den bad g n p := by
    intro n
    induction n with
    | zero => intro p _; rfl
    | succ n ih =>
      intro p hp
      obtain ⟨c, hc, hk, hcl⟩ := (clone_nodes h).2 p hp
      simp only [valF, hc, hcl]
      congr 1
      rw [List.map_map]
      exact List.map_congr_left fun q hq => ih q (hk q hq)
  have hr : rank (clone g) (mapping g p) = rank g p := by
    obtain ⟨c, hc, _, hcl⟩ := (clone_nodes h).2 p hp
    simp only [rank, hc, hcl]
  rw [val, hr, hF _ p hp, val]

/-- **C46 (derivatives).** The derivative links of the clones are the clones of the derivative links; the links of the
original are untouched. -/
theorem clone_links {g : G L} (h : Reachable P g) (k : Links) :
    (∀ p ∈ g.all, (cloneLinks g k).derivOf (mapping g p) = (k.derivOf p).map (mapping g) ∧
      (cloneLinks g k).deriv (mapping g p) = (k.deriv p).map (mapping g)) ∧
    (∀ p ∈ g.all, (cloneLinks g k).derivOf p = k.derivOf p ∧ (cloneLinks g k).deriv p = k.deriv p) := by
  refine ⟨fun p hp => ?_, fun p hp => ?_⟩
  · obtain ⟨i, hi⟩ := List.mem_iff_getElem?.mp hp
    simp only [cloneLinks]
    rw [mapping_of_getElem? h.W.inv hi, if_neg (Nat.not_lt.2 (Nat.le_add_right _ _)), if_neg (Nat.not_lt.2 (Nat.le_add_right _ _)),
      Nat.add_sub_cancel_left, hi]
    exact ⟨rfl, rfl⟩
  · obtain ⟨c, hc⟩ := h.W.inv.live p hp
    have hlt : p < g.heap.length := by
      rcases Nat.lt_or_ge p g.heap.length with h' | h'
      · exact h'
      · rw [List.getElem?_eq_none h'] at hc; simp at hc
    simp only [cloneLinks, hlt, if_true, and_self]

/-- **C46 (roots, partial).** If the roots of the original were asked for before cloning, the clone reports their clones.
Missing: the other case, see `clone_roots_lost`. -/
theorem clone_roots_partial {g : G L} (h : Reachable P g) (r : List Ptr) (hr : g.roots = some r) :
    (rootsOf (clone g)).2 = (rootsOf g).2.map (mapping g) ∧ ∀ p ∈ (rootsOf g).2, p ∈ g.all := by
  simp only [rootsOf, hr, clone, Option.getD_some]
  exact ⟨trivial, h.listed.roots r hr⟩

/-- **C46 (defect).** If the roots of a graph were not asked for before cloning, the clone reports no roots at all, and
goes on to report none, although the original (if it has any node) has roots. -/
theorem clone_roots_lost {g : G L} (h : Reachable P g) (hr : g.roots = none) (hne : g.all ≠ []) :
    (rootsOf (clone g)).2 = [] ∧ (rootsOf (rootsOf (clone g)).1).2 = [] ∧ (rootsOf g).2 ≠ [] := by
  have h1 : (rootsOf (clone g)).2 = [] ∧ (rootsOf (clone g)).1 = clone g := by
    simp [rootsOf, clone, hr]
  refine ⟨h1.1, by rw [h1.2, h1.1], fun hnil => ?_⟩
  have hlen : g.all.length - 1 < g.all.length := by
    have := List.length_pos_iff.2 hne; omega
  have hlast := List.getElem?_eq_getElem hlen
  obtain ⟨c, hc, hid⟩ := h.W.inv.pos _ _ hlast
  have hroot := (roots_exact h hr g.all[g.all.length - 1]).2 ⟨List.getElem_mem hlen, fun v hv hop => ?_⟩
  · rw [hnil] at hroot; simp at hroot
  · obtain ⟨j, hj⟩ := List.mem_iff_getElem?.mp hv
    obtain ⟨d, hd, hjd⟩ := h.W.inv.pos j v hj
    simp only [operandsOf, hd] at hop
    obtain ⟨c', hc', _, hlt⟩ := h.W.inv.kids v d hd _ hop
    rw [hc] at hc'; cases hc'
    have := hlt (by omega)
    have hjl : j < g.all.length := by
      rcases Nat.lt_or_ge j g.all.length with h' | h'
      · exact h'
      · rw [List.getElem?_eq_none h'] at hj; simp at hj
    omega

/-- The graph of `demoOps`, cloned: five new objects `6` to `10`. -/
example : ∃ g, run demo empty demoOps = some g ∧ g.heap.length = 6 ∧ (clone g).all = [6, 7, 8, 9, 10] ∧
    operandsOf (clone g) 10 = [8, 9] ∧ operandsOf (clone g) 8 = [6, 7] ∧ (node (clone g) 3).2 = some 9 ∧
    (clone g).to 8 = some [10] ∧ (rootsOf g).2 = [4] ∧ (rootsOf (clone g)).2 = [] :=
  ⟨_, rfl, by decide, by decide, by decide, by decide, by decide, by decide, by decide, by decide⟩

end Verif.Graph
