import Verif.Graph.Theorems
/-!
C49: what `RemoveNode` (graph.go 199-211) takes out of the graph and what it leaves behind, and a further part of
C02: IDs below the removed one keep their meaning.
-/
set_option autoImplicit false
namespace Verif.Graph

variable {L : Type} {P : Params L}

theorem removeNode_form {g g' : G L} (h : Reachable P g) {p : Ptr} (hp : p ∈ g.all) (hr : removeNode g p = some g') :
    ∃ c, g.heap[p]? = some c ∧ g' = { g with
      byHash := upd g.byHash c.hash none
      to := upd g.to p none
      evac := upd g.evac c.hash (nodesRemove (g.evac c.hash) p)
      all := nodesRemove g.all p } := by
  obtain ⟨c, hc⟩ := h.W.inv.live p hp
  have hid := (h.W.inv.mem_iff hc).1 hp
  have hne : c.id ≠ -1 := by omega
  refine ⟨c, hc, ?_⟩
  simp only [removeNode, hc, hne, ↓reduceIte, Option.some.injEq] at hr
  exact hr.symm

/-- **C49 (the node is gone).** After removal of a member nothing the graph keeps leads to it under its own key: it is
not listed, no hash is looked up to it, it has no entry in the reverse edge index, and a first call of `Roots` does not
report it. -/
theorem remove_forgets {g g' : G L} (h : Reachable P g) {p : Ptr} (hp : p ∈ g.all) (hr : removeNode g p = some g') :
    p ∉ g'.all ∧ (∀ k, g'.byHash k ≠ some (some p)) ∧ (∀ k, g'.byHash k = some none → p ∉ g'.evac k) ∧
    g'.to p = none ∧ (g.roots = none → p ∉ (rootsOf g').2) := by
  obtain ⟨c, hc, rfl⟩ := removeNode_form h hp hr
  have hto : upd g.to p none p = none := upd_same _ _ _
  refine ⟨by simp [nodesRemove], ?_, ?_, hto, ?_⟩
  · intro k hk
    by_cases e : k = c.hash
    · subst e; simp only [upd_same] at hk; cases hk
    · dsimp only at hk; rw [upd_ne _ _ _ _ e] at hk
      obtain ⟨_, c', hc', e'⟩ := h.W.inv.single k p hk
      rw [hc] at hc'; cases hc'; exact e e'.symm
  · intro k hk
    by_cases e : k = c.hash
    · subst e; simp only [upd_same] at hk; cases hk
    · dsimp only at hk ⊢; rw [upd_ne _ _ _ _ e] at hk ⊢
      intro hm
      obtain ⟨_, c', hc', e'⟩ := h.W.inv.coll k hk p hm
      rw [hc] at hc'; cases hc'; exact e e'.symm
  · intro hroots hm
    simp only [rootsOf, hroots, List.mem_filter, hto] at hm
    simp at hm

/-- **C49 (the others stay).** Node objects are not touched, the other members keep their order, and the users recorded
for them stay the same. -/
theorem remove_keeps {g g' : G L} (h : Reachable P g) {p : Ptr} (hp : p ∈ g.all) (hr : removeNode g p = some g') :
    g'.heap = g.heap ∧ (∃ A B, g.all = A ++ p :: B ∧ g'.all = A ++ B) ∧ ∀ q, q ≠ p → g'.to q = g.to q := by
  obtain ⟨c, hc, rfl⟩ := removeNode_form h hp hr
  refine ⟨rfl, ?_, fun q hq => upd_ne _ _ _ _ hq⟩
  obtain ⟨A, B, hAB⟩ := List.append_of_mem hp
  have hnd := h.W.inv.nodup
  rw [hAB] at hnd
  have h1 := List.nodup_append.mp hnd
  have h2 := List.nodup_cons.mp h1.2.1
  refine ⟨A, B, hAB, ?_⟩
  simp only [nodesRemove, hAB, List.filter_append]
  rw [List.filter_cons_of_neg (by simp)]
  congr 1
  · rw [List.filter_eq_self]
    intro a ha; simp; intro e; subst e; exact h1.2.2 _ ha _ (by simp) rfl
  · rw [List.filter_eq_self]
    intro a ha; simp; intro e; subst e; exact h2.1 ha

/-- **C02, partial (lower IDs).** Whatever was looked up before, removing a node does not change the lookup of any
smaller ID. Missing: larger IDs, for which the statement is false (`remove_breaks_lookup`). -/
theorem remove_lookup_below_partial {g g' : G L} (h : Reachable P g) {p : Ptr} (hp : p ∈ g.all)
    (hr : removeNode g p = some g') (id k : Int) (hk : idOf g p = some k) (hlt : id < k) :
    (node g' id).2 = (node g id).2 := by
  obtain ⟨A, B, hA, hA'⟩ := (remove_keeps h hp hr).2.1
  have hheap := (remove_keeps h hp hr).1
  have hbyid : g'.byID = g.byID := by
    obtain ⟨c, hc, e⟩ := removeNode_form h hp hr
    rw [e]
  have hkA : k = A.length := by
    have := (ids_dense h).1 A.length p (by rw [hA]; simp)
    rw [hk] at this; injection this
  have hget : ∀ i : Nat, (i : Int) < k → g'.all[i]? = g.all[i]? := by
    intro i hi
    have : i < A.length := by omega
    rw [hA, hA', List.getElem?_append_left this, List.getElem?_append_left this]
  simp only [node, hbyid]
  cases hb : g.byID id with
  | some i =>
    obtain ⟨e, _⟩ := h.W.inv.byid id i hb
    exact hget i (by omega)
  | none =>
    have pred : ∀ q ∈ g.all, ∀ i : Nat, g.all[i]? = some q →
        ((match g.heap[q]? with | some c => c.id == id | none => false) = true ↔ (i : Int) = id) := by
      intro q _ i hi
      obtain ⟨c, hc, e⟩ := h.W.inv.pos i q hi
      rw [hc]; simp [e]
    -- the prefix `A` is the same in both lists; behind it no node has the ID
    have hB : ∀ q ∈ p :: B, (match g.heap[q]? with | some c => c.id == id | none => false) = false := by
      intro q hq
      obtain ⟨j, hj⟩ := List.mem_iff_getElem?.mp hq
      have hj' : g.all[A.length + j]? = some q := by
        rw [hA, List.getElem?_append_right (by omega)]; simpa using hj
      cases hv : (match g.heap[q]? with | some c => c.id == id | none => false) with
      | false => rfl
      | true =>
        have := (pred q (List.mem_of_getElem? hj') _ hj').1 hv
        omega
    have hfi : findIdx g' id = findIdx g id := by
      have gen : ∀ f : Ptr → Bool, (∀ q ∈ p :: B, f q = false) → (A ++ B).findIdx? f = (A ++ p :: B).findIdx? f := by
        intro f hf
        have n1 : (p :: B).findIdx? f = none := by rw [List.findIdx?_eq_none_iff]; exact hf
        have n2 : B.findIdx? f = none := by
          rw [List.findIdx?_eq_none_iff]; intro q hq; exact hf q (by simp [hq])
        rw [List.findIdx?_append, List.findIdx?_append, n1, n2]
      unfold findIdx
      rw [hheap, hA, hA']
      exact gen _ hB
    rw [hfi]
    cases hf : findIdx g id with
    | none => rfl
    | some i =>
      have : ∃ q, g.all[i]? = some q ∧ (match g.heap[q]? with | some c => c.id == id | none => false) = true := by
        unfold findIdx at hf
        rw [List.findIdx?_eq_some_iff_getElem] at hf
        obtain ⟨hl, h1, _⟩ := hf
        exact ⟨_, List.getElem?_eq_getElem hl, h1⟩
      obtain ⟨q, hq, hv⟩ := this
      have := (pred q (List.mem_of_getElem? hq) i hq).1 hv
      exact hget i (by omega)

/-- **C49 (defect: edges stay).** Contrary to its documentation `RemoveNode` does not remove the edges of the node: the
operands still list it as a user, and so the only remaining node is not a root. -/
theorem remove_leaves_edges :
    ∃ g g', run demo empty [.unique ("x", false) [], .unique ("neg", false) [0]] = some g ∧ removeNode g 1 = some g' ∧
      g'.all = [0] ∧ toNodes g' 0 = some [1] ∧ (rootsOf g').2 = [] :=
  ⟨_, _, rfl, rfl, by decide, by decide, by decide⟩

/-- **C49 (defect: others are forgotten).** Removing one of two nodes with the same hash makes the graph forget the
hash of the other: declaring the same expression again yields a second copy of a node that is still in the graph. -/
theorem remove_breaks_canonical :
    ∃ g g' g'' , run demo empty [.unique ("x", false) [], .unique ("y", false) []] = some g ∧
      removeNode g 0 = some g' ∧ newUniqueNode demo g' ("y", false) [] = some (g'', 2) ∧ g''.all = [1, 2] :=
  ⟨_, _, _, rfl, rfl, rfl, by decide⟩

/-- The same sequence without the removal finds the existing node. -/
example : ∃ g g'', run demo empty [.unique ("x", false) [], .unique ("y", false) []] = some g ∧
      newUniqueNode demo g ("y", false) [] = some (g'', 1) ∧ g''.all = [0, 1] :=
  ⟨_, _, rfl, rfl, by decide⟩

/-- **C49 (defect: cached roots).** A root that was reported once is still reported after it is removed. -/
theorem remove_root_cached :
    ∃ g g', run demo empty [.unique ("x", false) [], .roots] = some g ∧ removeNode g 0 = some g' ∧
      g'.all = [] ∧ (rootsOf g').2 = [0] :=
  ⟨_, _, rfl, rfl, by decide, by decide⟩

/-- Concrete case of `remove_forgets` and `remove_lookup_below_partial`: removing the last node of three after looking
all of them up. -/
example : ∃ g g', run demo empty [.unique ("x", false) [], .unique ("y", false) [], .unique ("z", false) [], .lookup 0,
      .lookup 1, .lookup 2] = some g ∧ removeNode g 2 = some g' ∧ g'.all = [0, 1] ∧ (node g' 0).2 = some 0 ∧
      (node g' 1).2 = some 1 ∧ (node g' 2).2 = none ∧ (rootsOf g').2 = [0, 1] :=
  ⟨_, _, rfl, rfl, by decide, by decide, by decide, by decide, by decide⟩

end Verif.Graph
