import Verif.Graph.Clone
import Verif.Coll.Theorems
/-! Subgraphs (property C47): `subgraph`, `Subgraph`, `SubgraphRoots`, `ExactSubgraphRoots`, `walkFromRoots`, graph.go
626-753, and the check of the inputs in `CompileFunction`, compile.go 65-80. -/
set_option autoImplicit false
namespace Verif.Graph

variable {L : Type} {P : Params L}

/-! ### Model -/

/-- `walkFromRoots`, graph.go 736-753: the given nodes followed by everything the walk emits. The recursion depth is
bounded by the number of nodes; `none` when that is not enough. -/
def walkFromRoots (g : G L) (ns : List Ptr) : Option (List Ptr) :=
  (Coll.walkRoots (operandsOf g) (g.all.length + 1) ns).map (ns ++ ·)

/-- The first loop of `subgraph`, graph.go 632-641: the statements that use a selected node. `stmt` is the field
`isStmt`. -/
def missing (g : G L) (stmt : Ptr → Bool) (ns : List Ptr) : List Ptr :=
  ns.flatMap (fun n => ((g.to n).getD []).filter stmt)

/-- `n.children[0]` for a statement, `n` otherwise, graph.go 648-652 and 671-675. -/
def rootOf (g : G L) (stmt : Ptr → Bool) (n : Ptr) : Ptr :=
  if stmt n then (operandsOf g n).headD n else n

/-- The loop that builds the roots when none are given, graph.go 646-666, for one node. -/
def ownRoots (g : G L) (stmt : Ptr → Bool) (ns : List Ptr) (n : Ptr) : List Ptr :=
  if ((g.to n).getD []).isEmpty then [rootOf g stmt n]
  else if ((g.to n).getD []).any (fun q => ns.contains q) then [] else [n]

/-- `subgraph`, graph.go 627-704. The tables `byHash`, `evac`, `to` and the constants are those of the whole graph;
the counter starts again at zero. -/
def subgraph (g : G L) (stmt : Ptr → Bool) (ns : List Ptr) (findMissing : Bool) (opts : Option (List Ptr)) : G L :=
  let found := if findMissing then missing g stmt ns else []
  let ns := ns ++ found
  let roots := match opts with
    | none => found ++ ns.flatMap (ownRoots g stmt ns)
    | some rs => rs.map (rootOf g stmt)
  let leaves := ns.filter (fun n => (operandsOf g n).isEmpty)
  { g with
    all := nodesSet ns
    byID := fun _ => none
    leaves := nodesSet leaves
    roots := some (nodesSet roots)
    counter := 0 }

/-- `ExactSubgraphRoots`, graph.go 731-734. -/
def exactSubgraphRoots (g : G L) (stmt : Ptr → Bool) (ns : List Ptr) : Option (G L) :=
  (walkFromRoots g ns).map (fun sub => subgraph g stmt sub false (some ns))

/-- `SubgraphRoots`, graph.go 716-719. -/
def subgraphRoots (g : G L) (stmt : Ptr → Bool) (ns : List Ptr) : Option (G L) :=
  (walkFromRoots g ns).map (fun sub => subgraph g stmt sub true (some ns))

/-- `Subgraph`, graph.go 708-713: for a single node the result of `SubgraphRoots` is computed and dropped. -/
def subgraphOf (g : G L) (stmt : Ptr → Bool) (ns : List Ptr) : Option (G L) :=
  if ns.length = 1 then (subgraphRoots g stmt ns).map (fun _ => subgraph g stmt ns true none)
  else some (subgraph g stmt ns true none)

/-- The first part of `CompileFunction`, compile.go 70-80: the subgraph that is compiled, or `none` when some declared
input is not in it. -/
def compileGraph (g : G L) (stmt : Ptr → Bool) (inputs outputs : List Ptr) : Option (G L) :=
  match exactSubgraphRoots g stmt outputs with
  | none => none
  | some sg => if (inputs.filter (fun i => !sg.all.contains i)).isEmpty then some sg else none

/-! ### Lemmas -/

theorem sorted_insertPtr (p : Ptr) : ∀ ns : List Ptr, ns.Pairwise (· ≤ ·) → (insertPtr p ns).Pairwise (· ≤ ·) := by
  intro ns
  induction ns with
  | nil => intro _; simp [insertPtr]
  | cons q qs ih =>
    intro h
    rw [List.pairwise_cons] at h
    simp only [insertPtr]
    split
    · rename_i hle
      rw [List.pairwise_cons, List.pairwise_cons]
      refine ⟨fun x hx => ?_, h⟩
      rcases List.mem_cons.1 hx with rfl | hx
      · exact hle
      · exact Nat.le_trans hle (h.1 x hx)
    · rename_i hle
      rw [List.pairwise_cons]
      refine ⟨fun x hx => ?_, ih h.2⟩
      rcases (mem_insertPtr p x qs).1 hx with rfl | hx
      · exact Nat.le_of_lt (Nat.not_le.1 hle)
      · exact h.1 x hx

theorem sorted_sortPtr (ns : List Ptr) : (sortPtr ns).Pairwise (· ≤ ·) := by
  induction ns with
  | nil => simp [sortPtr]
  | cons p ps ih => exact sorted_insertPtr p _ ih

theorem strict_uniqPtr : ∀ ns : List Ptr, ns.Pairwise (· ≤ ·) → (uniqPtr ns).Pairwise (· < ·) := by
  intro ns
  fun_induction uniqPtr ns with
  | case1 => intro _; simp
  | case2 => intro _; simp
  | case3 q ps ih => intro h; exact ih (List.pairwise_cons.1 h).2
  | case4 p q ps hne ih =>
    intro h
    obtain ⟨h1, h2⟩ := List.pairwise_cons.1 h
    rw [List.pairwise_cons]
    refine ⟨fun x hx => ?_, ih h2⟩
    rw [mem_uniqPtr] at hx
    have hpq : p ≤ q := h1 q (by simp)
    have hqx : q ≤ x := by
      rcases List.mem_cons.1 hx with rfl | hx
      · exact Nat.le_refl _
      · exact (List.pairwise_cons.1 h2).1 x hx
    exact Nat.lt_of_lt_of_le (Nat.lt_of_le_of_ne hpq hne) hqx

theorem nodesSet_nodup (ns : List Ptr) : (nodesSet ns).Nodup := by
  have := strict_uniqPtr _ (sorted_sortPtr ns)
  exact this.imp (fun h => Nat.ne_of_lt h)

theorem operands_rank {g : G L} (h : Reachable P g) : ∀ a, ∀ b ∈ operandsOf g a, rank g b < rank g a := by
  intro a b hb
  unfold operandsOf at hb
  cases hc : g.heap[a]? with
  | none => simp [hc] at hb
  | some c =>
    simp only [hc] at hb
    obtain ⟨d, hd, h0, hlt⟩ := h.W.inv.kids a c hc b hb
    have hid : c.id ≠ -1 := by
      intro e
      have := h.W.raw a c (fun h => h) hc e
      rw [this] at hb; simp at hb
    have := hlt hid
    simp only [rank, hc, hd]
    omega

theorem rank_lt {g : G L} (h : Reachable P g) {p : Ptr} (hp : p ∈ g.all) : rank g p < g.all.length := by
  obtain ⟨i, hi⟩ := List.mem_iff_getElem?.mp hp
  obtain ⟨c, hc, hid⟩ := h.W.inv.pos i p hi
  have hlt : i < g.all.length := by
    rcases Nat.lt_or_ge i g.all.length with h' | h'
    · exact h'
    · rw [List.getElem?_eq_none h'] at hi; simp at hi
  simp only [rank, hc, hid]
  omega

theorem operands_mem {g : G L} (h : Reachable P g) {a b : Ptr} (hb : b ∈ operandsOf g a) : b ∈ g.all := by
  unfold operandsOf at hb
  cases hc : g.heap[a]? with
  | none => simp [hc] at hb
  | some c =>
    simp only [hc] at hb
    obtain ⟨d, hd, h0, _⟩ := h.W.inv.kids a c hc b hb
    exact (h.W.inv.mem_iff hd).2 h0

theorem reach_mem {g : G L} (h : Reachable P g) {a b : Ptr} (hr : Coll.Reach (operandsOf g) a b) (ha : a ∈ g.all) :
    b ∈ g.all := by
  induction hr with
  | refl => exact ha
  | step hb _ ih => exact ih (operands_mem h hb)

theorem reach_trans {ch : Ptr → List Ptr} {a b c : Ptr} (h1 : Coll.Reach ch a b) (h2 : Coll.Reach ch b c) :
    Coll.Reach ch a c := by
  induction h1 with
  | refl => exact h2
  | step hb _ ih => exact Coll.Reach.step hb (ih h2)

theorem walkFromRoots_spec {g : G L} (h : Reachable P g) (ns : List Ptr) (hns : ∀ r ∈ ns, r ∈ g.all) :
    ∃ sub, walkFromRoots g ns = some sub ∧ ∀ x, x ∈ sub ↔ ∃ r ∈ ns, Coll.Reach (operandsOf g) r x := by
  obtain ⟨out, h1, _, h3⟩ := Coll.walk_roots_once (operands_rank h) ns (fuel := g.all.length + 1)
    (fun r hr => Nat.lt_succ_of_lt (rank_lt h (hns r hr)))
  refine ⟨ns ++ out, by simp only [walkFromRoots, h1, Option.map_some], fun x => ?_⟩
  rw [List.mem_append, h3]
  constructor
  · rintro (hx | hx)
    · exact ⟨x, hx, Coll.Reach.refl x⟩
    · exact hx
  · exact Or.inr

/-! ### The exact subgraph -/

/-- **C47.** The exact subgraph of members of a reachable graph exists; its nodes are exactly those reachable from the
given roots, each listed once; its leaves are exactly its nodes without operands; with a node it contains the node's
operands, so nothing outside it is needed to evaluate it; and the node objects are those of the graph. -/
theorem exact_nodes {g : G L} (h : Reachable P g) (stmt : Ptr → Bool) (ns : List Ptr) (hns : ∀ r ∈ ns, r ∈ g.all) :
    ∃ sg, exactSubgraphRoots g stmt ns = some sg ∧
      (∀ x, x ∈ sg.all ↔ ∃ r ∈ ns, Coll.Reach (operandsOf g) r x) ∧ sg.all.Nodup ∧
      (∀ x, x ∈ sg.leaves ↔ x ∈ sg.all ∧ operandsOf g x = []) ∧ sg.leaves.Nodup ∧
      (∀ x ∈ sg.all, ∀ y ∈ operandsOf g x, y ∈ sg.all) ∧
      (∀ x ∈ sg.all, x ∈ g.all) ∧ sg.heap = g.heap := by
  obtain ⟨sub, h1, h2⟩ := walkFromRoots_spec h ns hns
  refine ⟨subgraph g stmt sub false (some ns), by simp only [exactSubgraphRoots, h1, Option.map_some], ?_⟩
  have hall : ∀ x, x ∈ (subgraph g stmt sub false (some ns)).all ↔ ∃ r ∈ ns, Coll.Reach (operandsOf g) r x := by
    intro x
    simp only [subgraph, mem_nodesSet, List.append_nil, Bool.false_eq_true, if_false]
    exact h2 x
  refine ⟨hall, nodesSet_nodup _, ?_, nodesSet_nodup _, ?_, ?_, rfl⟩
  · intro x
    simp only [subgraph, mem_nodesSet, List.append_nil, Bool.false_eq_true, if_false, List.mem_filter, List.isEmpty_iff]
  · intro x hx y hy
    obtain ⟨r, hr, hrx⟩ := (hall x).1 hx
    exact (hall y).2 ⟨r, hr, reach_trans hrx (Coll.Reach.step hy (Coll.Reach.refl y))⟩
  · intro x hx
    obtain ⟨r, hr, hrx⟩ := (hall x).1 hx
    exact reach_mem h hrx (hns r hr)

/-- **C47 (roots).** Without statements among the given roots, `Roots` of the exact subgraph is the set of the given roots;
every node that no node of the subgraph uses is one of them. -/
theorem exact_roots {g : G L} (h : Reachable P g) (stmt : Ptr → Bool) (ns : List Ptr) (hns : ∀ r ∈ ns, r ∈ g.all)
    (hst : ∀ r ∈ ns, stmt r = false) :
    ∃ sg, exactSubgraphRoots g stmt ns = some sg ∧ (∀ x, x ∈ (rootsOf sg).2 ↔ x ∈ ns) ∧ (rootsOf sg).2.Nodup ∧
      (∀ x ∈ sg.all, (∀ y ∈ sg.all, x ∉ operandsOf g y) → x ∈ (rootsOf sg).2) := by
  obtain ⟨sg, h1, hall, _, _, _, _, _, _⟩ := exact_nodes h stmt ns hns
  have hsg : ∃ sub, walkFromRoots g ns = some sub ∧ sg = subgraph g stmt sub false (some ns) := by
    simp only [exactSubgraphRoots, Option.map_eq_some_iff] at h1
    obtain ⟨sub, e1, e2⟩ := h1
    exact ⟨sub, e1, e2.symm⟩
  obtain ⟨sub, _, rfl⟩ := hsg
  have hroots : (rootsOf (subgraph g stmt sub false (some ns))).2 = nodesSet (ns.map (rootOf g stmt)) := rfl
  have hmap : ns.map (rootOf g stmt) = ns := by
    have h0 : ns.map (rootOf g stmt) = ns.map id :=
      List.map_congr_left fun r hr => by simp [rootOf, hst r hr]
    rw [h0, List.map_id]
  refine ⟨_, h1, ?_, by rw [hroots]; exact nodesSet_nodup _, ?_⟩
  · intro x; rw [hroots, mem_nodesSet, hmap]
  · intro x hx hno
    rw [hroots, mem_nodesSet, hmap]
    obtain ⟨r, hr, hrx⟩ := (hall x).1 hx
    -- the last step of the path, if there is one, is a use inside the subgraph
    have key : ∀ a b, Coll.Reach (operandsOf g) a b → a = b ∨ ∃ y, Coll.Reach (operandsOf g) a y ∧ b ∈ operandsOf g y := by
      intro a b hab
      induction hab with
      | refl a => exact Or.inl rfl
      | @step a b c hb hbc ih =>
        rcases ih with rfl | ⟨y, hy1, hy2⟩
        · exact Or.inr ⟨a, Coll.Reach.refl a, hb⟩
        · exact Or.inr ⟨y, Coll.Reach.step hb hy1, hy2⟩
    rcases key r x hrx with rfl | ⟨y, hy1, hy2⟩
    · exact hr
    · exact absurd hy2 (hno y ((hall y).2 ⟨r, hr, hy1⟩))

/-- **C47 (lookup).** An ID is found in the exact subgraph exactly when it is the ID of one of its nodes. -/
theorem exact_lookup {g : G L} (h : Reachable P g) (stmt : Ptr → Bool) (ns : List Ptr) (hns : ∀ r ∈ ns, r ∈ g.all) :
    ∃ sg, exactSubgraphRoots g stmt ns = some sg ∧
      ∀ id p, (node sg id).2 = some p ↔ p ∈ sg.all ∧ idOf g p = some id := by
  obtain ⟨sg, h1, hall, hnd, _, _, _, hmem, hheap⟩ := exact_nodes h stmt ns hns
  refine ⟨sg, h1, fun id p => ?_⟩
  have hb : sg.byID id = none := by
    simp only [exactSubgraphRoots, Option.map_eq_some_iff] at h1
    obtain ⟨sub, _, rfl⟩ := h1
    rfl
  have hnode : (node sg id).2 = (findIdx sg id).bind fun i => sg.all[i]? := by
    unfold node
    rw [hb]
    cases findIdx sg id <;> rfl
  have hcell : ∀ q ∈ sg.all, ∃ c, sg.heap[q]? = some c := by
    intro q hq; rw [hheap]; exact h.W.inv.live q (hmem q hq)
  rw [hnode]
  constructor
  · intro e
    cases hf : findIdx sg id with
    | none => simp [hf] at e
    | some i =>
      simp only [hf, Option.bind_some] at e
      unfold findIdx at hf
      rw [List.findIdx?_eq_some_iff_getElem] at hf
      obtain ⟨hlt, ht, _⟩ := hf
      rw [List.getElem?_eq_getElem hlt] at e
      simp only [Option.some.injEq] at e
      rw [e] at ht
      have hp : p ∈ sg.all := e ▸ List.getElem_mem hlt
      obtain ⟨c, hc⟩ := hcell p hp
      simp only [hc, beq_iff_eq] at ht
      rw [hheap] at hc
      exact ⟨hp, by simp [idOf, hc, ht]⟩
  · rintro ⟨hp, hid⟩
    have hall' : ∀ q ∈ sg.all, idOf g q = some id → q = p := by
      intro q hq hqid
      have := (lookup_exact h id q).2 ⟨hmem q hq, hqid⟩
      have h2 := (lookup_exact h id p).2 ⟨hmem p hp, hid⟩
      rw [this] at h2; simpa using h2
    cases hf : findIdx sg id with
    | none =>
      unfold findIdx at hf
      rw [List.findIdx?_eq_none_iff] at hf
      have := hf p hp
      obtain ⟨c, hc⟩ := hcell p hp
      simp only [hc] at this
      rw [hheap] at hc
      simp only [idOf, hc, Option.map_some, Option.some.injEq] at hid
      simp [hid] at this
    | some i =>
      simp only [Option.bind_some]
      unfold findIdx at hf
      rw [List.findIdx?_eq_some_iff_getElem] at hf
      obtain ⟨hlt, ht, _⟩ := hf
      rw [List.getElem?_eq_getElem hlt]
      congr 1
      apply hall' _ (List.getElem_mem hlt)
      obtain ⟨c, hc⟩ := hcell _ (List.getElem_mem hlt)
      simp only [hc, beq_iff_eq] at ht
      rw [hheap] at hc
      simp [idOf, hc, ht]

/-- **C47 (compiling a function).** `CompileFunction` accepts exactly when every declared input is reachable from some
output, and then compiles the nodes reachable from the outputs. -/
theorem compile_accepts {g : G L} (h : Reachable P g) (stmt : Ptr → Bool) (inputs outputs : List Ptr)
    (ho : ∀ r ∈ outputs, r ∈ g.all) :
    ((compileGraph g stmt inputs outputs).isSome ↔ ∀ i ∈ inputs, ∃ r ∈ outputs, Coll.Reach (operandsOf g) r i) ∧
    ∀ sg, compileGraph g stmt inputs outputs = some sg → ∀ x, x ∈ sg.all ↔ ∃ r ∈ outputs, Coll.Reach (operandsOf g) r x := by
  obtain ⟨sg, h1, hall, _⟩ := exact_nodes h stmt outputs ho
  have hiff : (inputs.filter (fun i => !sg.all.contains i)).isEmpty = true ↔ ∀ i ∈ inputs, i ∈ sg.all := by
    rw [List.isEmpty_iff, List.filter_eq_nil_iff]
    simp
  constructor
  · simp only [compileGraph, h1]
    constructor
    · intro hs i hi
      split at hs
      · rename_i he; exact (hall i).1 (hiff.1 he i hi)
      · simp at hs
    · intro hi
      rw [if_pos (hiff.2 fun i hin => (hall i).2 (hi i hin))]
      rfl
  · intro sg' hsg'
    simp only [compileGraph, h1] at hsg'
    split at hsg'
    · simp only [Option.some.injEq] at hsg'; rw [← hsg']; exact hall
    · simp at hsg'

/-! ### What does not hold -/

/-- Labels for a graph with statements: `x`, `z = neg x`, `y = exp x`, `set(z, y)`. -/
def stmtOps : List (Op (String × Bool)) :=
  [.unique ("x", false) [], .unique ("neg", false) [0], .unique ("exp", false) [0], .unique ("set", false) [1, 2]]

/-- Is the node the statement of `stmtOps`. -/
def stmtOf (p : Ptr) : Bool := p == 3

/-- **C47 (defect).** In a subgraph `To` still lists users outside the subgraph: the reverse index is that of the whole
graph. -/
theorem subgraph_to_outside :
    ¬ ∀ (L : Type) (P : Params L) (g sg : G L) (stmt : Ptr → Bool) (ns : List Ptr), Reachable P g →
      (∀ r ∈ ns, r ∈ g.all) → exactSubgraphRoots g stmt ns = some sg →
      ∀ x ∈ sg.all, ∀ us, toNodes sg ((idOf sg x).getD 0) = some us → ∀ u ∈ us, u ∈ sg.all := by
  intro hall
  obtain ⟨g, hg⟩ : ∃ g, run demo empty stmtOps = some g := ⟨_, rfl⟩
  obtain ⟨sg, hsg⟩ : ∃ sg, exactSubgraphRoots g (fun _ => false) [1] = some sg := by cases hg; exact ⟨_, rfl⟩
  have := hall _ demo g sg (fun _ => false) [1] ⟨_, by decide, hg⟩ (by cases hg; decide) hsg 0 (by cases hg; cases hsg; decide)
    [1, 2] (by cases hg; cases hsg; decide +kernel) 2 (by decide)
  revert this
  cases hg; cases hsg; decide +kernel

/-- **C47 (defect).** `SubgraphRoots` adds the statements that use a selected node, but not what the statements need: for
`z = neg x; set(z, exp x)` the subgraph of `z` contains the `set` statement and not its operand `exp x`, which the
documentation says is included. -/
theorem subgraphRoots_not_closed :
    ∃ g sg, run demo empty stmtOps = some g ∧ subgraphRoots g stmtOf [1] = some sg ∧ sg.all = [0, 1, 3] ∧
      operandsOf sg 3 = [1, 2] ∧ 2 ∉ sg.all :=
  ⟨_, _, rfl, rfl, by decide +kernel, by decide, by decide +kernel⟩

/-- **C47 (defect).** `Subgraph` of a single node is documented to take the node as the root of the subgraph; it returns the
node alone (and the statements using it), whatever its operands are, because the result for the root is dropped. -/
theorem subgraph_single {g : G L} (h : Reachable P g) (stmt : Ptr → Bool) (hst : ∀ p, stmt p = false) (n : Ptr)
    (hn : n ∈ g.all) : ∃ sg, subgraphOf g stmt [n] = some sg ∧ sg.all = [n] := by
  obtain ⟨sub, h1, _⟩ := walkFromRoots_spec h [n] (by simpa using hn)
  refine ⟨subgraph g stmt [n] true none, by simp only [subgraphOf, List.length_singleton, if_true, subgraphRoots, h1, Option.map_some], ?_⟩
  have : missing g stmt [n] = [] := by simp [missing, hst]
  simp [subgraph, this, nodesSet, sortPtr, insertPtr, uniqPtr]

/-- so it is not closed under operands as soon as the node has any. -/
theorem subgraph_single_not_closed {g : G L} (h : Reachable P g) (stmt : Ptr → Bool) (hst : ∀ p, stmt p = false)
    (n m : Ptr) (hn : n ∈ g.all) (hm : m ∈ operandsOf g n) :
    ∃ sg, subgraphOf g stmt [n] = some sg ∧ n ∈ sg.all ∧ m ∉ sg.all := by
  obtain ⟨sg, h1, h2⟩ := subgraph_single h stmt hst n hn
  refine ⟨sg, h1, by simp [h2], ?_⟩
  rw [h2, List.mem_singleton]
  intro e
  have := operands_rank h n m hm
  rw [e] at this
  exact absurd this (Nat.lt_irrefl _)

example : ∃ g sg, run demo empty demoOps = some g ∧ exactSubgraphRoots g (fun _ => false) [3] = some sg ∧
    sg.all = [0, 1, 3] ∧ sg.leaves = [0, 1] ∧ (rootsOf sg).2 = [3] ∧
    (compileGraph g (fun _ => false) [0, 2] [3]).isNone ∧ (compileGraph g (fun _ => false) [0, 2] [4]).isSome :=
  ⟨_, _, rfl, rfl, by decide +kernel, by decide +kernel, by decide +kernel, by decide +kernel, by decide +kernel⟩

end Verif.Graph
