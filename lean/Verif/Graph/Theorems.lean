import Verif.Graph.Lemmas
/-!
Properties C01 (IDs and lookup), C02 (removal), C03 (canonical nodes), C05 (edges, roots).

The observations are: `g.all` (the list `AllNodes()` returns), the node objects `g.heap`, and the answers of the API
functions `node`, `toNodes`, `fromNodes`, `hasEdgeFromTo`, `rootsOf`, `addNode`, `newUniqueNode`.
-/
set_option autoImplicit false
namespace Verif.Graph

variable {L : Type} {P : Params L}

/-- The ID field of a node object. -/
def idOf (g : G L) (p : Ptr) : Option Int := (g.heap[p]?).map (·.id)

/-- The operands of a node object. -/
def operandsOf (g : G L) (p : Ptr) : List Ptr := match g.heap[p]? with | some c => c.children | none => []

/-- A state some program can reach without removing nodes. -/
def Reachable (P : Params L) (g : G L) : Prop :=
  ∃ ops : List (Op L), (∀ o ∈ ops, o.keeps = true) ∧ run P empty ops = some g

theorem Reachable.W {g : G L} (h : Reachable P g) : WGraph P g := by
  obtain ⟨ops, hk, hr⟩ := h
  exact (W_run ops empty W_empty hk g hr).1

/-! A small instance used for the concrete cases: labels are a name and a constant flag, every node has hash 7, so
everything collides. -/

/-- Worst-case parameters: all hashes collide. -/
def demo : Params (String × Bool) where
  hash := fun _ _ => 7
  eq := fun a k b k' => a == b && k == k'
  isConst := fun l => l.2
  name := fun l => l.1

/-- inputs `x`, `y`; constant `two`; `z = add x y`; `w = mul z two`; a lookup in between. -/
def demoOps : List (Op (String × Bool)) :=
  [.unique ("x", false) [], .unique ("y", false) [], .newConst ("two", true), .unique ("add", false) [0, 1],
   .lookup 2, .unique ("mul", false) [3, 2], .unique ("add", false) [0, 1]]

/-- **C01 (unique, dense IDs).** In every reachable state the node at position `i` of the node list has ID `i`, and no
node occurs twice; so no two nodes share an ID. -/
theorem ids_dense {g : G L} (h : Reachable P g) :
    (∀ (i : Nat) (p : Ptr), g.all[i]? = some p → idOf g p = some (i : Int)) ∧ g.all.Nodup := by
  refine ⟨fun i p hi => ?_, h.W.inv.nodup⟩
  obtain ⟨c, hc, e⟩ := h.W.inv.pos i p hi
  simp [idOf, hc, e]

/-- **C01 (IDs are permanent).** Continuing any history keeps every node at its position with its ID and operands. -/
theorem ids_stable {g g' : G L} (h : Reachable P g) (ops : List (Op L)) (hk : ∀ o ∈ ops, o.keeps = true)
    (hr : run P g ops = some g') :
    g.all <+: g'.all ∧ ∀ p ∈ g.all, idOf g' p = idOf g p ∧ operandsOf g' p = operandsOf g p := by
  obtain ⟨_, h1, h2⟩ := W_run ops g h.W hk g' hr
  refine ⟨h1, fun p hp => ?_⟩
  simp only [idOf, operandsOf, h2 p hp, and_self]

/-- **C01 (lookup is exact).** Looking up an ID returns the member that owns it and nothing else, whatever lookups were
made before. -/
theorem lookup_exact {g : G L} (h : Reachable P g) (id : Int) (p : Ptr) :
    (node g id).2 = some p ↔ p ∈ g.all ∧ idOf g p = some id := by
  obtain ⟨_, _, hn⟩ := node_spec h.W.inv id
  rw [hn p]
  constructor
  · rintro ⟨i, rfl, hi⟩
    exact ⟨List.mem_of_getElem? hi, (ids_dense h).1 i p hi⟩
  · rintro ⟨hm, hid⟩
    obtain ⟨i, hi⟩ := List.mem_iff_getElem?.mp hm
    have := (ids_dense h).1 i p hi
    rw [hid] at this
    simp only [Option.some.injEq] at this
    exact ⟨i, this, hi⟩

/-- **C01 (absent IDs).** A lookup finds nothing exactly when the ID was never handed out. -/
theorem lookup_none {g : G L} (h : Reachable P g) (id : Int) :
    (node g id).2 = none ↔ ¬ (0 ≤ id ∧ id < g.all.length) := by
  obtain ⟨_, _, hn⟩ := node_spec h.W.inv id
  constructor
  · rintro hnone ⟨h0, hlt⟩
    obtain ⟨k, rfl⟩ := Int.eq_ofNat_of_zero_le h0
    have hk : k < g.all.length := by omega
    have := (hn g.all[k]).2 ⟨k, rfl, List.getElem?_eq_getElem hk⟩
    rw [hnone] at this; simp at this
  · intro hout
    cases hres : (node g id).2 with
    | none => rfl
    | some p =>
      obtain ⟨i, rfl, hi⟩ := (hn p).1 hres
      have : i < g.all.length := by
        rcases Nat.lt_or_ge i g.all.length with h | h
        · exact h
        · rw [List.getElem?_eq_none h] at hi; simp at hi
      exact absurd ⟨by omega, by omega⟩ hout

/-- **C01 (lookups are harmless).** A lookup does not change the answer of any other lookup. -/
theorem lookup_stable {g : G L} (h : Reachable P g) (a b : Int) :
    (node (node g a).1 b).2 = (node g b).2 := by
  obtain ⟨⟨c, hc⟩, hI', _⟩ := node_spec h.W.inv a
  obtain ⟨_, _, h1⟩ := node_spec hI' b
  obtain ⟨_, _, h2⟩ := node_spec h.W.inv b
  apply Option.ext
  intro p
  rw [h1 p, h2 p, hc]

example : ∃ g, run demo empty demoOps = some g ∧ g.all = [0, 1, 3, 2, 4] ∧ (node g 3).2 = some 2 ∧
    (node g 5).2 = none ∧ idOf g 4 = some 4 := by
  refine ⟨_, rfl, ?_⟩
  decide

/-! ### Canonical nodes -/

/-- **C03 (AddNode).** For a non-constant node object: if some member has the same hash and is judged equal, a member
with these two properties is returned and the graph does not change at all; otherwise the node itself is returned and
appended. -/
theorem addNode_canonical {g : G L} (h : Reachable P g) {p : Ptr} {n : Cell L} (hp : g.heap[p]? = some n)
    (hk : P.isConst n.label = false) :
    ∃ g' r, addNode P g p = some (g', r) ∧
      ((∃ q ∈ g.all, Same P g p n q) → g' = g ∧ r ∈ g.all ∧ Same P g p n r) ∧
      ((¬ ∃ q ∈ g.all, Same P g p n q) → r = p ∧ p ∉ g.all ∧ g'.all = g.all ++ [p]) := by
  obtain ⟨g', r, h1, _, h2⟩ := addNode_spec h.W.inv hp
  refine ⟨g', r, h1, ?_, ?_⟩
  · rintro ⟨q, hq, hs⟩
    rcases h2 with ⟨e, hr, (⟨hc, _⟩ | hsame)⟩ | ⟨_, _, _, hno⟩
    · rw [hk] at hc; simp at hc
    · exact ⟨e, hr, hsame⟩
    · exact absurd hs (hno q hq)
  · intro hno
    rcases h2 with ⟨e, hr, (⟨hc, _⟩ | hsame)⟩ | ⟨hins, hrp, hnp, _⟩
    · rw [hk] at hc; simp at hc
    · exact absurd ⟨r, hr, hsame⟩ hno
    · rcases hrp with e | ⟨hc, _⟩
      · subst e; exact ⟨rfl, hnp, hins.all⟩
      · rw [hk] at hc; simp at hc

/-- **C03 (constants).** Adding a constant returns a member that is a constant of the same name, or equal with equal
hash, or a newly appended node with the constant's own label. -/
theorem addNode_constant {g : G L} (h : Reachable P g) {p : Ptr} {n : Cell L} (hp : g.heap[p]? = some n)
    (hk : P.isConst n.label = true) :
    ∃ g' r, addNode P g p = some (g', r) ∧ r ∈ g'.all ∧
      ((g' = g ∧ ((∃ c, g.heap[r]? = some c ∧ P.isConst c.label ∧ P.name c.label = P.name n.label) ∨ Same P g p n r)) ∨
       (g'.all = g.all ++ [r] ∧ ∃ c, g'.heap[r]? = some c ∧ c.label = n.label)) := by
  obtain ⟨g', r, h1, _, h2⟩ := addNode_spec h.W.inv hp
  refine ⟨g', r, h1, ?_⟩
  rcases h2 with ⟨e, hr, (⟨_, hc⟩ | hsame)⟩ | ⟨hins, _, _, _⟩
  · exact ⟨by rw [e]; exact hr, Or.inl ⟨e, Or.inl hc⟩⟩
  · exact ⟨by rw [e]; exact hr, Or.inl ⟨e, Or.inr hsame⟩⟩
  · obtain ⟨c, hc, hl, _⟩ := hins.cell
    exact ⟨by rw [hins.all]; simp, Or.inr ⟨hins.all, c, hc, hl⟩⟩

/-- **C03 (members).** Adding a non-constant node that is already a member returns that very node and changes nothing,
even when its hash collides with other members. -/
theorem addNode_member {g : G L} (h : Reachable P g) {p : Ptr} {n : Cell L} (hp : g.heap[p]? = some n)
    (hm : p ∈ g.all) (hk : P.isConst n.label = false) : addNode P g p = some (g, p) :=
  addNode_mem h.W.inv hp hm hk

/-- **C03 (expressions).** Applying the same (non-constant) operation to the same non-constant members twice returns the
same node both times and adds nothing the second time, whatever else is done to the graph in between (any history `ops`
without removals), for every hash function; label equality only has to be reflexive. -/
theorem apply_twice {g : G L} (h : Reachable P g) {l : L} {cs : List Ptr} (hk : P.isConst l = false)
    (hrefl : P.eq l cs.length l cs.length = true)
    (hcs : ∀ c ∈ cs, c ∈ g.all ∧ ∀ x, g.heap[c]? = some x → P.isConst x.label = false) :
    ∃ g1 m, newUniqueNode P g l cs = some (g1, m) ∧
      ∀ (ops : List (Op L)) (g2 : G L), (∀ o ∈ ops, o.keeps = true) → run P g1 ops = some g2 →
        ∃ g3, newUniqueNode P g2 l cs = some (g3, m) ∧ g3.all = g2.all := by
  obtain ⟨hs, g1, m, hhs, e1, hcan1, _, _⟩ := newUniqueNode_canon h.W hk hrefl hcs
  obtain ⟨hW1, hm1, hpre, hkeep⟩ := W_newUniqueNode h.W e1
  refine ⟨g1, m, e1, fun ops g2 hops hr => ?_⟩
  obtain ⟨hW2, hpre2, hkeep2⟩ := W_run ops g1 hW1 hops g2 hr
  have hkeep' : ∀ q ∈ g.all, g2.heap[q]? = g.heap[q]? := fun q hq => by
    rw [hkeep2 q (hpre.subset hq), hkeep q hq]
  have hcs2 : ∀ c ∈ cs, c ∈ g2.all ∧ ∀ x, g2.heap[c]? = some x → P.isConst x.label = false := by
    intro c hc
    obtain ⟨h1, h2⟩ := hcs c hc
    refine ⟨hpre2.subset (hpre.subset h1), fun x hx => h2 x ?_⟩
    rw [hkeep' c h1] at hx; exact hx
  have hhs2 : ∀ (cs : List Ptr), (∀ c ∈ cs, c ∈ g.all) → hashes g2 cs = hashes g cs := by
    intro cs
    induction cs with
    | nil => intro _; rfl
    | cons c cs ih =>
      intro hc
      simp only [hashes, hkeep' c (hc c (by simp)), ih (fun c' hc' => hc c' (by simp [hc']))]
  obtain ⟨hs', g3, m', hhs', e3, _, hmeq, _⟩ := newUniqueNode_canon hW2 hk hrefl hcs2
  rw [hhs2 cs (fun c hc => (hcs c hc).1), hhs] at hhs'
  cases hhs'
  obtain ⟨e, ha⟩ := hmeq m (canon_stable hW1 hops hr hcan1)
  subst e
  exact ⟨g3, e3, ha⟩

example : ∃ g1 g2 g3, (run demo empty (demoOps.take 3)).bind (fun g => newUniqueNode demo g ("add", false) [0, 1]) = some (g1, 3) ∧
    run demo g1 [.lookup 2, .unique ("mul", false) [3, 2]] = some g2 ∧
    newUniqueNode demo g2 ("add", false) [0, 1] = some (g3, 3) ∧ g3.all = [0, 1, 3, 2, 4] ∧ g2.all = g3.all :=
  ⟨_, _, _, rfl, rfl, rfl, by decide, by decide⟩

/-! ### Removal -/

/-- **C02 (defect).** Removing a node changes what other IDs mean: after building `add x y` and removing `x`, the ID of
the sum (2) is looked up to nothing although the sum is still in the graph. -/
theorem remove_breaks_lookup :
    ¬ ∀ (L : Type) (P : Params L) (g g' : G L) (p q : Ptr) (id : Int), Reachable P g → p ∈ g.all →
      removeNode g p = some g' → q ∈ g'.all → idOf g' q = some id → (node g' id).2 = some q := by
  intro h
  have hr : ∃ g, run demo empty (demoOps.take 4) = some g := ⟨_, rfl⟩
  obtain ⟨g, hg⟩ := hr
  have hrm : ∃ g', removeNode g 0 = some g' := by
    cases hg; exact ⟨_, rfl⟩
  obtain ⟨g', hg'⟩ := hrm
  have := h _ demo g g' 0 3 2 ⟨_, by decide, hg⟩ (by cases hg; decide) hg' (by cases hg; cases hg'; decide)
    (by cases hg; cases hg'; decide)
  revert this
  cases hg; cases hg'; decide

/-- **C02 (defect, wrong node).** With one more node the looked-up node is a different one: ID 1 (`y`) yields `add`. -/
theorem remove_lookup_wrong_node :
    ∃ g g', run demo empty (demoOps.take 4) = some g ∧ removeNode g 0 = some g' ∧
      idOf g' 1 = some 1 ∧ (1 : Ptr) ∈ g'.all ∧ (node g' 1).2 = some 3 :=
  ⟨_, _, rfl, rfl, by decide, by decide, by decide⟩

theorem filter_findIdx_aux (g : G L) (ps : List Ptr) (id : Int) (hI : GInv P g) (p : Ptr) :
    (∃ i, (g.all.filter (fun x => !ps.contains x)).findIdx?
        (fun q => match g.heap[q]? with | some c => c.id == id | none => false) = some i ∧
        (g.all.filter (fun x => !ps.contains x))[i]? = some p) ↔
      (p ∈ g.all ∧ p ∉ ps ∧ idOf g p = some id) := by
  constructor
  · rintro ⟨i, h1, h2⟩
    rw [List.findIdx?_eq_some_iff_getElem] at h1
    obtain ⟨hlt, h3, _⟩ := h1
    rw [List.getElem?_eq_getElem hlt] at h2
    simp only [Option.some.injEq] at h2
    have hm := List.getElem_mem hlt
    rw [h2] at hm h3
    rw [List.mem_filter] at hm
    obtain ⟨c, hc⟩ := hI.live p hm.1
    rw [hc] at h3; simp at h3
    exact ⟨hm.1, by simpa using hm.2, by simp [idOf, hc, h3]⟩
  · rintro ⟨h1, h2, h3⟩
    have hmem : p ∈ g.all.filter (fun x => !ps.contains x) := by
      rw [List.mem_filter]; exact ⟨h1, by simpa using h2⟩
    cases hf : (g.all.filter (fun x => !ps.contains x)).findIdx?
        (fun q => match g.heap[q]? with | some c => c.id == id | none => false) with
    | none =>
      rw [List.findIdx?_eq_none_iff] at hf
      have := hf p hmem
      obtain ⟨c, hc⟩ := hI.live p h1
      simp [idOf, hc] at h3
      rw [hc] at this; simp [h3] at this
    | some i =>
      refine ⟨i, rfl, ?_⟩
      rw [List.findIdx?_eq_some_iff_getElem] at hf
      obtain ⟨hlt, h4, _⟩ := hf
      have hm := List.getElem_mem hlt
      rw [List.mem_filter] at hm
      obtain ⟨c, hc⟩ := hI.live _ hm.1
      rw [hc] at h4; simp at h4
      obtain ⟨k1, hk1⟩ := List.mem_iff_getElem?.mp hm.1
      obtain ⟨k2, hk2⟩ := List.mem_iff_getElem?.mp h1
      obtain ⟨c1, hc1, e1⟩ := hI.pos _ _ hk1
      obtain ⟨c2, hc2, e2⟩ := hI.pos _ _ hk2
      rw [hc] at hc1; cases hc1
      simp [idOf, hc2] at h3
      have : k1 = k2 := by omega
      subst this
      rw [hk1] at hk2
      rw [List.getElem?_eq_getElem hlt]; exact hk2

/-- Removing several nodes one after the other. -/
def removeAll (g : G L) : List Ptr → Option (G L)
  | [] => some g
  | p :: ps =>
    match removeNode g p with
    | none => none
    | some g => removeAll g ps

theorem removeAll_form : ∀ (ps : List Ptr) (g g' : G L), removeAll g ps = some g' →
    (∀ p ∈ ps, ∃ c, g.heap[p]? = some c ∧ c.id ≠ -1) →
    g'.heap = g.heap ∧ g'.byID = g.byID ∧ g'.all = g.all.filter (fun x => !ps.contains x) := by
  intro ps
  induction ps with
  | nil => intro g g' h _; simp [removeAll] at h; subst h; exact ⟨rfl, rfl, by rw [List.filter_eq_self.mpr]; simp⟩
  | cons p ps ih =>
    intro g g' h hps
    obtain ⟨c, hc, hid⟩ := hps p (by simp)
    simp only [removeAll, removeNode, hc, hid, ↓reduceIte] at h
    obtain ⟨h1, h2, h3⟩ := ih _ g' h (fun q hq => hps q (by simp [hq]))
    refine ⟨h1, h2, ?_⟩
    rw [h3]
    simp only [nodesRemove, List.filter_filter]
    congr 1
    funext x
    simp only [List.contains_cons, Bool.not_or, bne]
    rw [Bool.and_comm]

/-- **C02, partial.** If no lookup has been made before (explicitly, or implicitly by connecting operands), removals are
harmless: after removing any members, a lookup finds exactly the remaining member that owns the ID. Missing: histories
with lookups before the removal, where the statement is false (`remove_breaks_lookup`). -/
theorem remove_then_lookup_partial {g g' : G L} (h : Reachable P g) (hfresh : ∀ k, g.byID k = none)
    (ps : List Ptr) (hps : ∀ p ∈ ps, p ∈ g.all) (hr : removeAll g ps = some g') (id : Int) (p : Ptr) :
    (node g' id).2 = some p ↔ p ∈ g.all ∧ p ∉ ps ∧ idOf g p = some id := by
  obtain ⟨h1, h2, h3⟩ := removeAll_form ps g g' hr (by
    intro p hp
    obtain ⟨c, hc⟩ := h.W.inv.live p (hps p hp)
    have := (h.W.inv.mem_iff hc).1 (hps p hp)
    exact ⟨c, hc, by omega⟩)
  rw [← filter_findIdx_aux g ps id h.W.inv p]
  simp only [node, h2, hfresh]
  have hfi : findIdx g' id = (g.all.filter (fun x => !ps.contains x)).findIdx?
        (fun q => match g.heap[q]? with | some c => c.id == id | none => false) := by
    simp only [findIdx, h1, h3]; rfl
  rw [hfi]
  cases hres : (g.all.filter (fun x => !ps.contains x)).findIdx?
        (fun q => match g.heap[q]? with | some c => c.id == id | none => false) with
  | none => simp
  | some i => simp [h3]

example : ∃ g g', run demo empty [.unique ("x", false) [], .unique ("y", false) [], .unique ("z", false) []] = some g ∧
    removeAll g [1] = some g' ∧ (∀ k ∈ [0, 1, 2], g.byID k = none) ∧ (node g' 0).2 = some 0 ∧ (node g' 1).2 = none ∧
    (node g' 2).2 = some 2 :=
  ⟨_, _, rfl, rfl, by decide, by decide, by decide, by decide⟩

/-! ### Edges and roots -/

/-- **C05 (acyclic).** Operands are members and have smaller IDs than the node that uses them. -/
theorem operands_before {g : G L} (h : Reachable P g) {p q : Ptr} (hp : p ∈ g.all) (hq : q ∈ operandsOf g p) :
    q ∈ g.all ∧ ∃ i j : Nat, idOf g q = some (i : Int) ∧ idOf g p = some (j : Int) ∧ i < j := by
  obtain ⟨c, hc⟩ := h.W.inv.live p hp
  simp only [operandsOf, hc] at hq
  obtain ⟨d, hd, h0, hlt⟩ := h.W.inv.kids p c hc q hq
  have hqm := (h.W.inv.mem_iff hd).2 h0
  refine ⟨hqm, ?_⟩
  obtain ⟨i, hi⟩ := List.mem_iff_getElem?.mp hqm
  obtain ⟨j, hj⟩ := List.mem_iff_getElem?.mp hp
  have e1 := (ids_dense h).1 i q hi
  have e2 := (ids_dense h).1 j p hj
  refine ⟨i, j, e1, e2, ?_⟩
  simp [idOf, hd] at e1
  simp [idOf, hc] at e2
  have := hlt (by omega)
  omega

/-- **C05 (direct users).** `To(id)` of a member lists exactly the members that have it as an operand. -/
theorem to_exact {g : G L} (h : Reachable P g) {u : Ptr} {id : Int} (hu : u ∈ g.all) (hid : idOf g u = some id) :
    ∃ ns, toNodes g id = some ns ∧ ∀ v, v ∈ ns ↔ v ∈ g.all ∧ u ∈ operandsOf g v := by
  have hl := (lookup_exact h id u).2 ⟨hu, hid⟩
  refine ⟨nodesSet ((g.to u).getD []), by simp only [toNodes, hl], fun v => ?_⟩
  rw [mem_nodesSet]
  constructor
  · intro hv
    obtain ⟨ns, hns⟩ := Option.isSome_iff_exists.mp (h.W.inv.toDef u hu)
    rw [hns, Option.getD_some] at hv
    obtain ⟨h1, c, hc, h2⟩ := (h.W.inv.toSound u ns hns).2 v hv
    exact ⟨h1, by simp only [operandsOf, hc]; exact h2⟩
  · rintro ⟨hv, hop⟩
    rw [W_to_iff h.W hv hu]
    obtain ⟨c, hc⟩ := h.W.inv.live v hv
    simp only [operandsOf, hc] at hop
    exact ⟨c, hc, hop⟩

/-- **C05 (edge queries agree).** For members `u`, `v` with IDs `a`, `b`: there is an edge from `a` to `b` exactly when
`v` is an operand of `u`, exactly when `u` is listed among the users of `v`, exactly when `v` is listed by `From(a)`. -/
theorem edges_agree {g : G L} (h : Reachable P g) {u v : Ptr} {a b : Int} (hu : u ∈ g.all) (hv : v ∈ g.all)
    (ha : idOf g u = some a) (hb : idOf g v = some b) :
    (hasEdgeFromTo g a b = true ↔ v ∈ operandsOf g u) ∧
    (hasEdgeFromTo g a b = true ↔ ∃ ns, toNodes g b = some ns ∧ u ∈ ns) ∧
    (hasEdgeFromTo g a b = true ↔ ∃ ns, fromNodes g a = some ns ∧ v ∈ ns) := by
  have hla := (lookup_exact h a u).2 ⟨hu, ha⟩
  have hlb := (lookup_exact h b v).2 ⟨hv, hb⟩
  obtain ⟨c, hc⟩ := h.W.inv.live u hu
  have h1 : hasEdgeFromTo g a b = true ↔ v ∈ operandsOf g u := by
    simp only [hasEdgeFromTo, hla, hlb, hc, operandsOf, List.contains_eq_mem, decide_eq_true_eq]
  refine ⟨h1, ?_, ?_⟩
  · rw [h1]
    obtain ⟨ns, hns, hmem⟩ := to_exact h hv hb
    constructor
    · intro hop; exact ⟨ns, hns, (hmem u).2 ⟨hu, hop⟩⟩
    · rintro ⟨ns', e, hm⟩; rw [hns] at e; cases e; exact ((hmem u).1 hm).2
  · rw [h1]
    simp only [fromNodes, hla, hc, Option.map_some, operandsOf, Option.some.injEq]
    constructor
    · intro hop; exact ⟨_, rfl, hop⟩
    · rintro ⟨ns, rfl, hm⟩; exact hm

/-- **C05 (roots).** Where `Roots` was not called before, it returns exactly the members nobody uses. -/
theorem roots_exact {g : G L} (h : Reachable P g) (hfirst : g.roots = none) (p : Ptr) :
    p ∈ (rootsOf g).2 ↔ p ∈ g.all ∧ ∀ v ∈ g.all, p ∉ operandsOf g v := by
  simp only [rootsOf, hfirst, List.mem_filter, List.mem_range]
  constructor
  · rintro ⟨_, h2⟩
    cases hto : g.to p with
    | none => rw [hto] at h2; simp at h2
    | some ns =>
      rw [hto] at h2
      simp only [List.isEmpty_iff] at h2
      subst h2
      have hp := (h.W.inv.toSound p [] hto).1
      refine ⟨hp, fun v hv hop => ?_⟩
      obtain ⟨c, hc⟩ := h.W.inv.live v hv
      simp only [operandsOf, hc] at hop
      have := (W_to_iff h.W hv hp).2 ⟨c, hc, hop⟩
      rw [hto] at this; simp at this
  · rintro ⟨hp, hno⟩
    obtain ⟨c, hc⟩ := h.W.inv.live p hp
    refine ⟨?_, ?_⟩
    · rcases Nat.lt_or_ge p g.heap.length with hlt | hge
      · exact hlt
      · rw [List.getElem?_eq_none hge] at hc; simp at hc
    · obtain ⟨ns, hns⟩ := Option.isSome_iff_exists.mp (h.W.inv.toDef p hp)
      rw [hns]
      cases ns with
      | nil => rfl
      | cons v ns =>
        obtain ⟨hv, c', hc', hop⟩ := (h.W.inv.toSound p _ hns).2 v (by simp)
        exact absurd (by simp only [operandsOf, hc']; exact hop) (hno v hv)

/-- **C05 (defect).** `Roots` is cached: after asking once, a node that has become an operand is still reported as a
root, and the new root is missing. -/
theorem roots_stale :
    ¬ ∀ (L : Type) (P : Params L) (g : G L) (p : Ptr), Reachable P g →
      (p ∈ (rootsOf g).2 ↔ p ∈ g.all ∧ ∀ v ∈ g.all, p ∉ operandsOf g v) := by
  intro h
  have hr : ∃ g, run demo empty [.unique ("x", false) [], .roots, .unique ("neg", false) [0]] = some g := ⟨_, rfl⟩
  obtain ⟨g, hg⟩ := hr
  have := h _ demo g 0 ⟨_, by decide, hg⟩
  revert this
  cases hg; decide

example : ∃ g, run demo empty demoOps = some g ∧ toNodes g 0 = some [3] ∧ toNodes g 2 = some [4] ∧
    hasEdgeFromTo g 4 2 = true ∧ hasEdgeFromTo g 2 4 = false ∧ (rootsOf g).2 = [4] ∧ operandsOf g 4 = [3, 2] :=
  ⟨_, rfl, by decide +kernel, by decide +kernel, by decide, by decide, by decide, by decide⟩

end Verif.Graph
