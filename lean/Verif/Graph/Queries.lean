import Verif.Graph.Theorems

/-! Queries over a whole graph: `Edges`, `Edge`, `Node` as an interface value, `To` with its write, `Inputs`, `ByName`,
`Constant` and `Roots` in graphs with statements (graph.go). -/

set_option autoImplicit false

namespace Verif.Graph

variable {L : Type} {P : Params L}

/-! ## Edges -/

/-- `Edges`, graph.go 492-506: the pairs (from, to) in the order of the iterator; an empty list stands for
`graph.Empty`. -/
def edgesOf (g : G L) : List (Ptr × Ptr) :=
  g.all.flatMap (fun n => ((g.to n).getD []).map (fun t => (n, t)))

/-- `Edge`, graph.go 585-598: `none` stands for nil. -/
def edgeOf (g : G L) (u v : Int) : Option (Ptr × Ptr) :=
  match (node g u).2, (node g v).2 with
  | some pu, some pv =>
    match g.heap[pu]? with
    | some c => if c.children.contains pv then some (pu, pv) else none
    | none => none
  | _, _ => none

/-- What the documentation of gonum asks of a list of edges: a pair is listed exactly when the graph has the edge from
its first to its second component, as told by `HasEdgeFromTo`. -/
def EdgesAsAsked (g : G L) : Prop :=
  ∀ (u v : Ptr) (i j : Int), u ∈ g.all → v ∈ g.all → idOf g u = some i → idOf g v = some j →
    ((u, v) ∈ edgesOf g ↔ hasEdgeFromTo g i j = true)

/-- **C103 (edges, exactly).** The pairs listed by `Edges` are exactly the pairs (operand, user). -/
theorem edges_listed {g : G L} (h : Reachable P g) (u v : Ptr) :
    (u, v) ∈ edgesOf g ↔ v ∈ g.all ∧ u ∈ operandsOf g v := by
  simp only [edgesOf, List.mem_flatMap, List.mem_map, Prod.mk.injEq]
  constructor
  · rintro ⟨n, hn, t, ht, rfl, rfl⟩
    obtain ⟨ns, hns⟩ := Option.isSome_iff_exists.mp (h.W.inv.toDef n hn)
    rw [hns, Option.getD_some] at ht
    obtain ⟨h1, c, hc, h2⟩ := (h.W.inv.toSound n ns hns).2 t ht
    exact ⟨h1, by simp only [operandsOf, hc]; exact h2⟩
  · rintro ⟨hv, hop⟩
    have hu := (operands_before h hv hop).1
    obtain ⟨c, hc⟩ := h.W.inv.live v hv
    simp only [operandsOf, hc] at hop
    exact ⟨u, hu, v, (W_to_iff h.W hv hu).2 ⟨c, hc, hop⟩, rfl, rfl⟩

/-- What `HasEdgeFromTo` says of two members. -/
theorem fromTo_members {g : G L} (h : Reachable P g) {u v : Ptr} {i j : Int} (hu : u ∈ g.all) (hv : v ∈ g.all)
    (hi : idOf g u = some i) (hj : idOf g v = some j) : hasEdgeFromTo g i j = true ↔ v ∈ operandsOf g u := by
  have e1 := (lookup_exact h i u).2 ⟨hu, hi⟩
  have e2 := (lookup_exact h j v).2 ⟨hv, hj⟩
  simp only [hasEdgeFromTo, e1, e2, operandsOf]
  cases g.heap[u]? <;> simp

/-- **C103 (a single edge).** `Edge(i, j)` is an edge exactly when the first node has the second among its operands; it
then joins the nodes with these two identifiers, in this order. -/
theorem edge_single {g : G L} (h : Reachable P g) (i j : Int) (u v : Ptr) :
    edgeOf g i j = some (u, v) ↔
      u ∈ g.all ∧ v ∈ g.all ∧ idOf g u = some i ∧ idOf g v = some j ∧ v ∈ operandsOf g u := by
  constructor
  · intro he
    cases e1 : (node g i).2 with
    | none => simp only [edgeOf, e1] at he; cases he
    | some pu =>
      cases e2 : (node g j).2 with
      | none => simp only [edgeOf, e1, e2] at he; cases he
      | some pv =>
        have l1 := (lookup_exact h i pu).1 e1
        have l2 := (lookup_exact h j pv).1 e2
        obtain ⟨c, hc⟩ := h.W.inv.live pu l1.1
        simp only [edgeOf, e1, e2, hc] at he
        by_cases hm : c.children.contains pv = true
        · rw [if_pos hm] at he
          cases he
          refine ⟨l1.1, l2.1, l1.2, l2.2, ?_⟩
          simp only [operandsOf, hc]
          simpa using hm
        · rw [if_neg hm] at he; cases he
  · rintro ⟨hu, hv, hi, hj, hop⟩
    have e1 := (lookup_exact h i u).2 ⟨hu, hi⟩
    have e2 := (lookup_exact h j v).2 ⟨hv, hj⟩
    obtain ⟨c, hc⟩ := h.W.inv.live u hu
    simp only [operandsOf, hc] at hop
    simp only [edgeOf, e1, e2, hc]
    rw [if_pos (by simpa using hop)]

/-- **C103 (defect: every listed edge is the wrong way round).** For every edge `Edges` lists, `HasEdgeFromTo` and `Edge`
deny that there is an edge from its first to its second node, and affirm the opposite one. -/
theorem edges_reversed {g : G L} (h : Reachable P g) {u v : Ptr} {i j : Int} (hi : idOf g u = some i)
    (hj : idOf g v = some j) (hl : (u, v) ∈ edgesOf g) :
    hasEdgeFromTo g i j = false ∧ edgeOf g i j = none ∧ hasEdgeFromTo g j i = true ∧ edgeOf g j i = some (v, u) := by
  obtain ⟨hv, hop⟩ := (edges_listed h u v).1 hl
  obtain ⟨hu, a, b, ha, hb, hab⟩ := operands_before h hv hop
  have hnot : v ∉ operandsOf g u := by
    intro hx
    obtain ⟨_, a', b', ha', hb', hab'⟩ := operands_before h hu hx
    rw [ha] at hb'; rw [hb] at ha'
    simp only [Option.some.injEq] at ha' hb'
    omega
  refine ⟨?_, ?_, (fromTo_members h hv hu hj hi).2 hop, (edge_single h j i v u).2 ⟨hv, hu, hj, hi, hop⟩⟩
  · cases hx : hasEdgeFromTo g i j with
    | false => rfl
    | true => exact absurd ((fromTo_members h hu hv hi hj).1 hx) hnot
  · cases hx : edgeOf g i j with
    | none => rfl
    | some e =>
      obtain ⟨x, y⟩ := e
      obtain ⟨h1, h2, h3, h4, h5⟩ := (edge_single h i j x y).1 hx
      have ex := (lookup_exact h i x).2 ⟨h1, h3⟩
      have ey := (lookup_exact h j y).2 ⟨h2, h4⟩
      rw [(lookup_exact h i u).2 ⟨hu, hi⟩] at ex
      rw [(lookup_exact h j v).2 ⟨hv, hj⟩] at ey
      cases ex; cases ey
      exact absurd h5 hnot

/-- **C103 (defect, for all graphs).** The list of edges is the one asked for only in graphs without any edge. -/
theorem edges_as_asked {g : G L} (h : Reachable P g) :
    EdgesAsAsked g ↔ ∀ v ∈ g.all, operandsOf g v = [] := by
  constructor
  · intro ha v hv
    cases hx : operandsOf g v with
    | nil => rfl
    | cons u us =>
      exfalso
      have hop : u ∈ operandsOf g v := by rw [hx]; exact List.mem_cons_self
      obtain ⟨hu, a, b, h1, h2, _⟩ := operands_before h hv hop
      have hl := (edges_listed h u v).2 ⟨hv, hop⟩
      have := (edges_reversed h h1 h2 hl).1
      rw [(ha u v a b hu hv h1 h2).1 hl] at this
      cases this
  · intro hn u v i j hu hv hi hj
    constructor
    · intro hl
      have := ((edges_listed h u v).1 hl).2
      rw [hn v hv] at this; cases this
    · intro hf
      have := (fromTo_members h hu hv hi hj).1 hf
      rw [hn u hu] at this; cases this

/-- Two inputs, their sum, and the sum built once more. -/
def qOps : List (Op (String × Bool)) :=
  [.unique ("x", false) [], .unique ("y", false) [], .unique ("add", false) [0, 1], .unique ("add", false) [0, 1]]

example : ∃ g, run demo empty qOps = some g ∧ edgesOf g = [(0, 2), (0, 2), (1, 2), (1, 2)] ∧
    edgeOf g 0 2 = none ∧ edgeOf g 2 0 = some (2, 0) ∧ edgeOf g 5 0 = none :=
  ⟨_, rfl, by decide +kernel, by decide +kernel, by decide +kernel, by decide +kernel⟩

/-- **C103 (defect).** An edge can be listed more than once: building an expression a second time returns the node that
is there, and records all its edges again. -/
theorem edges_repeated :
    ¬ ∀ (L : Type) (P : Params L) (g : G L), Reachable P g → (edgesOf g).Nodup := by
  intro h
  have hr : ∃ g, run demo empty qOps = some g := ⟨_, rfl⟩
  obtain ⟨g, hg⟩ := hr
  have := h _ demo g ⟨_, by decide, hg⟩
  revert this
  cases hg; decide +kernel

/-! ## `Node` as an interface value -/

/-- A value of interface type `graph.Node`: `none` is the nil interface, `some none` an interface holding a nil
`*Node`. -/
abbrev IfaceNode := Option (Option Ptr)

/-- `Node`, graph.go 518-527: the `*Node` returned by `node` is converted to `graph.Node`. -/
def nodeIface (g : G L) (id : Int) : IfaceNode := some (node g id).2

/-- **C103 (defect).** `Node(id)` is never the nil interface, so a comparison with nil never tells that a node is
missing; and for a missing node it holds the nil pointer. -/
theorem node_never_nil {g : G L} (h : Reachable P g) (id : Int) :
    nodeIface g id ≠ none ∧ (nodeIface g id = some none ↔ ∀ p ∈ g.all, idOf g p ≠ some id) ∧
      ∀ p, nodeIface g id = some (some p) ↔ p ∈ g.all ∧ idOf g p = some id := by
  refine ⟨by simp [nodeIface], ?_, fun p => ?_⟩
  · simp only [nodeIface, Option.some.injEq]
    constructor
    · intro hn p hp hid
      rw [(lookup_exact h id p).2 ⟨hp, hid⟩] at hn; cases hn
    · intro hn
      cases hx : (node g id).2 with
      | none => rfl
      | some p => exact absurd ((lookup_exact h id p).1 hx).2 (hn p ((lookup_exact h id p).1 hx).1)
  · simp only [nodeIface, Option.some.injEq]
    exact lookup_exact h id p

example : ∃ g, run demo empty qOps = some g ∧ nodeIface g 1 = some (some 1) ∧ nodeIface g 7 = some none :=
  ⟨_, rfl, by decide +kernel, by decide +kernel⟩

/-! ## `To` writes -/

/-- `To`, graph.go 614-624, with the write of line 622. -/
def toWrite (g : G L) (id : Int) : G L × Option (List Ptr) :=
  match (node g id).2 with
  | none => ((node g id).1, none)
  | some p =>
    let ns := nodesSet ((g.to p).getD [])
    ({ (node g id).1 with to := upd g.to p (some ns) }, some ns)

theorem node_keeps (g : G L) (id : Int) :
    (node g id).1.heap = g.heap ∧ (node g id).1.all = g.all ∧ (node g id).1.to = g.to := by
  unfold node
  cases g.byID id with
  | some i => exact ⟨rfl, rfl, rfl⟩
  | none =>
    cases findIdx g id with
    | some i => exact ⟨rfl, rfl, rfl⟩
    | none => exact ⟨rfl, rfl, rfl⟩

theorem upd_other {α β : Type} [DecidableEq α] (f : α → β) {a x : α} (b : β) (h : x ≠ a) : upd f a b x = f x := by
  simp [upd, h]

/-- **C103 (`To` keeps the edges).** Asking for the users of a node changes neither nodes nor operands, nor which edges
are listed. -/
theorem to_keeps_edges {g : G L} (h : Reachable P g) (id : Int) :
    (toWrite g id).2 = toNodes g id ∧ (toWrite g id).1.heap = g.heap ∧ (toWrite g id).1.all = g.all ∧
      ∀ e, e ∈ edgesOf (toWrite g id).1 ↔ e ∈ edgesOf g := by
  obtain ⟨k1, k2, k3⟩ := node_keeps g id
  cases hx : (node g id).2 with
  | none =>
    refine ⟨by simp only [toWrite, toNodes, hx], by simp only [toWrite, hx, k1], by simp only [toWrite, hx, k2], ?_⟩
    intro e
    simp only [toWrite, hx, edgesOf, k2, k3]
  | some p =>
    refine ⟨by simp only [toWrite, toNodes, hx], by simp only [toWrite, hx, k1], by simp only [toWrite, hx, k2], ?_⟩
    rintro ⟨u, v⟩
    simp only [toWrite, hx, edgesOf, k2, List.mem_flatMap, List.mem_map, Prod.mk.injEq]
    have hp := ((lookup_exact h id p).1 hx).1
    have key : ∀ n t, t ∈ ((upd g.to p (some (nodesSet ((g.to p).getD [])))) n).getD [] ↔ t ∈ (g.to n).getD [] := by
      intro n t
      by_cases hn : n = p
      · subst hn
        rw [upd_same, Option.getD_some, mem_nodesSet]
      · rw [upd_other _ _ hn]
    constructor
    · rintro ⟨n, hn, t, ht, e1, e2⟩
      exact ⟨n, hn, t, (key n t).1 ht, e1, e2⟩
    · rintro ⟨n, hn, t, ht, e1, e2⟩
      exact ⟨n, hn, t, (key n t).2 ht, e1, e2⟩

/-- … but it can change how often an edge is listed. -/
theorem to_changes_listing :
    ¬ ∀ (L : Type) (P : Params L) (g : G L) (id : Int), Reachable P g → edgesOf (toWrite g id).1 = edgesOf g := by
  intro h
  have hr : ∃ g, run demo empty qOps = some g := ⟨_, rfl⟩
  obtain ⟨g, hg⟩ := hr
  have := h _ demo g 0 ⟨_, by decide, hg⟩
  revert this
  cases hg; decide +kernel

example : ∃ g, run demo empty qOps = some g ∧ edgesOf (toWrite g 0).1 = [(0, 2), (1, 2), (1, 2)] :=
  ⟨_, rfl, by decide +kernel⟩

/-! ## `Roots` in graphs with statements -/

/-- The nodes one turn of the loop of `Roots` appends, graph.go 242-252; `stmt` is the field `isStmt`. -/
def rootsTurn (g : G L) (stmt : Ptr → Bool) (n : Ptr) : List Ptr :=
  match g.to n, g.heap[n]? with
  | some tos, some c =>
    (if tos.isEmpty then [n] else []) ++
      (match c.children with
       | [child] => if stmt n && ((g.to child).getD []).length == 1 then [child] else []
       | _ => [])
  | _, _ => []

/-- `Roots`, graph.go 236-256, with the answer kept from an earlier call where there is one (the write that keeps it is
in `rootsOf`). Go visits the keys of the map in an arbitrary order; the model
takes the order of the heap. -/
def rootsStmt (g : G L) (stmt : Ptr → Bool) : List Ptr :=
  match g.roots with
  | some r => r
  | none => (List.range g.heap.length).flatMap (rootsTurn g stmt)

/-- Without statements this is the function studied before. -/
theorem rootsStmt_plain (g : G L) (stmt : Ptr → Bool) (h : Reachable P g) (hs : ∀ p ∈ g.all, stmt p = false)
    (hfirst : g.roots = none) (p : Ptr) : p ∈ rootsStmt g stmt ↔ p ∈ (rootsOf g).2 := by
  simp only [rootsStmt, rootsOf, hfirst, List.mem_flatMap, List.mem_range, List.mem_filter, rootsTurn]
  constructor
  · rintro ⟨n, hn, hm⟩
    cases hto : g.to n with
    | none => rw [hto] at hm; cases hm
    | some tos =>
      have hmem := (h.W.inv.toSound n tos hto).1
      obtain ⟨c, hc⟩ := h.W.inv.live n hmem
      simp only [hto, hc, hs n hmem, Bool.false_and, Bool.false_eq_true, if_false, List.mem_append] at hm
      rcases hm with hm | hm
      · by_cases ht : tos.isEmpty = true
        · rw [if_pos ht] at hm
          simp only [List.mem_singleton] at hm
          subst hm
          exact ⟨hn, by rw [hto]; exact ht⟩
        · rw [if_neg ht] at hm; cases hm
      · exfalso
        split at hm <;> cases hm
  · rintro ⟨hn, hm⟩
    refine ⟨p, hn, ?_⟩
    cases hto : g.to p with
    | none => rw [hto] at hm; cases hm
    | some tos =>
      rw [hto] at hm
      have hmem := (h.W.inv.toSound p tos hto).1
      obtain ⟨c, hc⟩ := h.W.inv.live p hmem
      simp only [hc, List.mem_append]
      left
      rw [if_pos hm]; exact List.mem_singleton.2 rfl

/-- **C103 (roots, exactly).** On the first call, `Roots` lists the members nobody uses, and the members that are the
only operand of a statement and have one recorded use. -/
theorem roots_with_statements {g : G L} (h : Reachable P g) (stmt : Ptr → Bool) (hfirst : g.roots = none) (p : Ptr) :
    p ∈ rootsStmt g stmt ↔ p ∈ g.all ∧ ((∀ v ∈ g.all, p ∉ operandsOf g v) ∨
      ∃ s ∈ g.all, stmt s = true ∧ operandsOf g s = [p] ∧ g.to p = some [s]) := by
  have hunused : ∀ q tos, g.to q = some tos → q ∈ g.all → (tos.isEmpty = true ↔ ∀ v ∈ g.all, q ∉ operandsOf g v) := by
    intro q tos hto hq
    constructor
    · intro ht v hv hop
      obtain ⟨c, hc⟩ := h.W.inv.live v hv
      simp only [operandsOf, hc] at hop
      have := (W_to_iff h.W hv hq).2 ⟨c, hc, hop⟩
      rw [hto] at this
      rw [List.isEmpty_iff] at ht
      subst ht
      simp at this
    · intro hno
      cases tos with
      | nil => rfl
      | cons v vs =>
        obtain ⟨h1, c, hc, h2⟩ := (h.W.inv.toSound q _ hto).2 v List.mem_cons_self
        exact absurd (by simp only [operandsOf, hc]; exact h2) (hno v h1)
  simp only [rootsStmt, hfirst, List.mem_flatMap, List.mem_range]
  constructor
  · rintro ⟨n, hn, hm⟩
    cases hto : g.to n with
    | none => simp only [rootsTurn, hto] at hm; cases hm
    | some tos =>
      have hmem := (h.W.inv.toSound n tos hto).1
      obtain ⟨c, hc⟩ := h.W.inv.live n hmem
      simp only [rootsTurn, hto, hc, List.mem_append] at hm
      rcases hm with hm | hm
      · by_cases ht : tos.isEmpty = true
        · rw [if_pos ht, List.mem_singleton] at hm
          subst hm
          exact ⟨hmem, Or.inl ((hunused p tos hto hmem).1 ht)⟩
        · rw [if_neg ht] at hm; cases hm
      · cases hch : c.children with
        | nil => rw [hch] at hm; cases hm
        | cons x xs =>
          cases xs with
          | cons y ys => rw [hch] at hm; cases hm
          | nil =>
            rw [hch] at hm
            simp only at hm
            by_cases hb : (stmt n && ((g.to x).getD []).length == 1) = true
            · rw [if_pos hb, List.mem_singleton] at hm
              subst hm
              simp only [Bool.and_eq_true, beq_iff_eq] at hb
              have hop : p ∈ operandsOf g n := by simp [operandsOf, hc, hch]
              have hp := (operands_before h hmem hop).1
              refine ⟨hp, Or.inr ⟨n, hmem, hb.1, by simp [operandsOf, hc, hch], ?_⟩⟩
              have hin := (W_to_iff h.W hmem hp).2 ⟨c, hc, by rw [hch]; exact List.mem_cons_self⟩
              obtain ⟨ns, hns⟩ := Option.isSome_iff_exists.mp (h.W.inv.toDef p hp)
              rw [hns, Option.getD_some] at hin hb
              obtain ⟨z, hz⟩ := List.length_eq_one_iff.1 hb.2
              rw [hz, List.mem_singleton] at hin
              rw [hns, hz, hin]
            · rw [if_neg hb] at hm; cases hm
  · rintro ⟨hp, hor⟩
    have hlen : ∀ q ∈ g.all, q < g.heap.length := by
      intro q hq
      obtain ⟨c, hc⟩ := h.W.inv.live q hq
      rcases Nat.lt_or_ge q g.heap.length with hlt | hge
      · exact hlt
      · rw [List.getElem?_eq_none hge] at hc; cases hc
    rcases hor with hno | ⟨s, hs, hst, hop, hto⟩
    · refine ⟨p, hlen p hp, ?_⟩
      obtain ⟨tos, hto⟩ := Option.isSome_iff_exists.mp (h.W.inv.toDef p hp)
      obtain ⟨c, hc⟩ := h.W.inv.live p hp
      simp only [rootsTurn, hto, hc, List.mem_append]
      left
      rw [if_pos ((hunused p tos hto hp).2 hno)]; exact List.mem_singleton.2 rfl
    · refine ⟨s, hlen s hs, ?_⟩
      obtain ⟨tos, hts⟩ := Option.isSome_iff_exists.mp (h.W.inv.toDef s hs)
      obtain ⟨c, hc⟩ := h.W.inv.live s hs
      simp only [operandsOf, hc] at hop
      simp only [rootsTurn, hts, hc, List.mem_append, hop, hst, hto]
      right
      simp

/-- **C103 (roots, what a program may rely on).** Every listed node is a member whose users, if any, are one
statement. -/
theorem roots_sound {g : G L} (h : Reachable P g) (stmt : Ptr → Bool) (hfirst : g.roots = none) {p : Ptr}
    (hp : p ∈ rootsStmt g stmt) : p ∈ g.all ∧ ∀ v ∈ g.all, p ∈ operandsOf g v → stmt v = true := by
  obtain ⟨hm, hor⟩ := (roots_with_statements h stmt hfirst p).1 hp
  refine ⟨hm, fun v hv hop => ?_⟩
  rcases hor with hno | ⟨s, hs, hst, _, hto⟩
  · exact absurd hop (hno v hv)
  · obtain ⟨c, hc⟩ := h.W.inv.live v hv
    simp only [operandsOf, hc] at hop
    have := (W_to_iff h.W hv hm).2 ⟨c, hc, hop⟩
    rw [hto, Option.getD_some, List.mem_singleton] at this
    rw [this]; exact hst

/-- `x`, `neg x`, and statements reading `neg x`: once, twice into different places, or the same one built twice. -/
def readOps (reads : List String) : List (Op (String × Bool)) :=
  [.unique ("x", false) [], .unique ("neg", false) [0]] ++ reads.map (fun r => .unique (r, false) [1])

example : ∃ g, run demo empty (readOps ["read a"]) = some g ∧ rootsStmt g (fun p => p == 2) = [2, 1] ∧
    g.to 1 = some [2] :=
  ⟨_, rfl, by decide +kernel, by decide +kernel⟩

/-- **C103 (defect).** A node used by statements only need not be listed: two reads of one node hide it, and so does one
read built twice. -/
theorem roots_hidden :
    (∃ g, run demo empty (readOps ["read a", "read b"]) = some g ∧ g.all = [0, 1, 2, 3] ∧ operandsOf g 2 = [1] ∧
      operandsOf g 3 = [1] ∧ rootsStmt g (fun p => p == 2 || p == 3) = [2, 3]) ∧
    (∃ g, run demo empty (readOps ["read a", "read a"]) = some g ∧ g.all = [0, 1, 2] ∧ operandsOf g 2 = [1] ∧
      rootsStmt g (fun p => p == 2) = [2] ∧ rootsStmt (toWrite g 1).1 (fun p => p == 2) = [2, 1]) :=
  ⟨⟨_, rfl, by decide +kernel, by decide +kernel, by decide +kernel, by decide +kernel⟩,
    ⟨_, rfl, by decide +kernel, by decide +kernel, by decide +kernel, by decide +kernel⟩⟩

/-- A use recorded once is a use by one node: whoever has one recorded use has exactly one user. -/
theorem one_use {g : G L} (h : Reachable P g) {p s : Ptr} (hp : p ∈ g.all) (hto : g.to p = some [s]) :
    ∀ v, (v ∈ g.all ∧ p ∈ operandsOf g v) ↔ v = s := by
  intro v
  constructor
  · rintro ⟨hv, hop⟩
    obtain ⟨c, hc⟩ := h.W.inv.live v hv
    simp only [operandsOf, hc] at hop
    have := (W_to_iff h.W hv hp).2 ⟨c, hc, hop⟩
    rw [hto, Option.getD_some, List.mem_singleton] at this
    exact this
  · rintro rfl
    obtain ⟨h1, c, hc, h2⟩ := (h.W.inv.toSound p _ hto).2 v List.mem_cons_self
    exact ⟨h1, by simp only [operandsOf, hc]; exact h2⟩

/-! ## `Inputs`, `ByName` and `Constant` -/

/-- `Inputs`, graph.go 259-266 and `isInput`, node.go 323. `arg` stands for `isArg`, `rnd` for `isRandom`. -/
def inputsOf (g : G L) (arg rnd : L → Bool) (stmt : Ptr → Bool) : List Ptr :=
  g.all.filter (fun p => match g.heap[p]? with | some c => (arg c.label || rnd c.label) && !stmt p | none => false)

/-- `ByName`, graph.go 289-296, with the internal name of a label. -/
def byNameOf (g : G L) (nm : L → String) (name : String) : List Ptr :=
  g.all.filter (fun p => match g.heap[p]? with | some c => nm c.label == name | none => false)

/-- **C103 (lists of nodes).** `ByName` lists each member with the name exactly once, by increasing identifier. -/
theorem byName_exact {g : G L} (h : Reachable P g) (nm : L → String) (name : String) :
    (∀ p, p ∈ byNameOf g nm name ↔ p ∈ g.all ∧ ∃ c, g.heap[p]? = some c ∧ nm c.label = name) ∧
    (byNameOf g nm name).Pairwise (fun p q => ∃ i j : Nat, idOf g p = some (i : Int) ∧ idOf g q = some (j : Int) ∧ i < j) := by
  constructor
  · intro p
    simp only [byNameOf, List.mem_filter]
    constructor
    · rintro ⟨hp, hm⟩
      obtain ⟨c, hc⟩ := h.W.inv.live p hp
      rw [hc] at hm
      exact ⟨hp, c, hc, by simpa using hm⟩
    · rintro ⟨hp, c, hc, hn⟩
      exact ⟨hp, by rw [hc]; simpa using hn⟩
  · apply List.Pairwise.filter
    rw [List.pairwise_iff_getElem]
    intro i j hi hj hij
    exact ⟨i, j, (ids_dense h).1 i _ (List.getElem?_eq_getElem hi), (ids_dense h).1 j _ (List.getElem?_eq_getElem hj), hij⟩

/-- **C103 (inputs).** `Inputs` lists exactly the members that are inputs or random nodes and no statements. -/
theorem inputs_exact {g : G L} (h : Reachable P g) (arg rnd : L → Bool) (stmt : Ptr → Bool) (p : Ptr) :
    p ∈ inputsOf g arg rnd stmt ↔
      p ∈ g.all ∧ stmt p = false ∧ ∃ c, g.heap[p]? = some c ∧ (arg c.label = true ∨ rnd c.label = true) := by
  simp only [inputsOf, List.mem_filter]
  constructor
  · rintro ⟨hp, hm⟩
    obtain ⟨c, hc⟩ := h.W.inv.live p hp
    rw [hc] at hm
    simp only [Bool.and_eq_true, Bool.or_eq_true, Bool.not_eq_true'] at hm
    exact ⟨hp, hm.2, c, hc, hm.1⟩
  · rintro ⟨hp, hs, c, hc, hor⟩
    refine ⟨hp, ?_⟩
    rw [hc]
    simp only [Bool.and_eq_true, Bool.or_eq_true, Bool.not_eq_true']
    exact ⟨hor, hs⟩

/-- `Constant`, graph.go 299-308: `same q` says that the constant `q` has a value equal to the given one, `l` is the label
of the node `NewConstant` makes for it. -/
def constantOf (P : Params L) (g : G L) (same : L → Bool) (l : L) : Option (G L × Ptr) :=
  match g.constants.find? (fun q => match g.heap[q]? with | some c => same c.label | none => false) with
  | some q => some (g, q)
  | none =>
    match newNode P g l [] with
    | none => none
    | some (g', n) => addNode P g' n

/-- **C103 (constants found).** Where a recorded constant has an equal value, `Constant` changes nothing and returns such
a constant, a member. -/
theorem constant_found {g : G L} (h : Reachable P g) (same : L → Bool) (l : L) {q : Ptr} {c : Cell L}
    (hq : q ∈ g.constants) (hc : g.heap[q]? = some c) (hs : same c.label = true) :
    ∃ r d, constantOf P g same l = some (g, r) ∧ r ∈ g.all ∧ g.heap[r]? = some d ∧ same d.label = true ∧
      P.isConst d.label = true := by
  cases hf : g.constants.find? (fun q => match g.heap[q]? with | some c => same c.label | none => false) with
  | none =>
    have := List.find?_eq_none.1 hf q hq
    rw [hc] at this
    exact absurd hs this
  | some r =>
    have hr := List.mem_of_find?_eq_some hf
    have ht := List.find?_some hf
    obtain ⟨h1, d, hd, h2⟩ := h.W.inv.consts r hr
    rw [hd] at ht
    exact ⟨r, d, by simp only [constantOf, hf], h1, hd, ht, h2⟩

/-- **C103 (defect: a constant with the right name and the wrong value).** Where no recorded constant has an equal value
but one has the name of the new constant (its printed value), `Constant` returns that one, for every value. So the
constant 1 of one type is returned when the constant 1 of another type is asked for. -/
theorem constant_wrong {g : G L} (h : Reachable P g) (same : L → Bool) (l : L) (hl : P.isConst l = true)
    (hno : ∀ q ∈ g.constants, ∀ c, g.heap[q]? = some c → same c.label = false) {q : Ptr} {c : Cell L}
    (hq : q ∈ g.constants) (hc : g.heap[q]? = some c) (hn : P.name c.label = P.name l) :
    ∃ g' r d, constantOf P g same l = some (g', r) ∧ r ∈ g.all ∧ g.heap[r]? = some d ∧ P.name d.label = P.name l ∧
      same d.label = false := by
  have hf : g.constants.find? (fun q => match g.heap[q]? with | some c => same c.label | none => false) = none := by
    rw [List.find?_eq_none]
    intro q' hq'
    obtain ⟨_, d, hd, _⟩ := h.W.inv.consts q' hq'
    simp only [hd, hno q' hq' d hd]
    simp
  let n : Cell L := { label := l, children := [], hash := P.hash l [], id := -1 }
  let g1 : G L := { g with heap := g.heap ++ [n] }
  have hold : ∀ q' ∈ g.constants, g1.heap[q']? = g.heap[q']? := by
    intro q' hq'
    obtain ⟨_, d, hd, _⟩ := h.W.inv.consts q' hq'
    have hlt := (List.getElem?_eq_some_iff.1 hd).1
    exact List.getElem?_append_left hlt
  cases hm : g1.constants.find? (nameMatch P g1 n) with
  | none =>
    have := List.find?_eq_none.1 hm q hq
    simp only [nameMatch, hold q hq, hc] at this
    exact absurd (by simp [n, hn, hl]) this
  | some r =>
    have hr : r ∈ g.constants := List.mem_of_find?_eq_some hm
    have ht := List.find?_some hm
    obtain ⟨h1, d, hd, _⟩ := h.W.inv.consts r hr
    simp only [nameMatch, hold r hr, hd, Bool.and_eq_true, beq_iff_eq] at ht
    refine ⟨ensureTo g1 r, r, d, ?_, h1, hd, ht.1, hno r hr d hd⟩
    have hnew : g1.heap[g.heap.length]? = some n := by simp [g1]
    have hb : addNodeBody P g1 g.heap.length n = (g1, r) := by simp only [addNodeBody, hm]
    have he : newNode P g l [] = some (g1, g.heap.length) := by simp only [newNode, hashes]; rfl
    simp only [constantOf, hf, he, addNode, hnew, hb]

/-- Constants are labelled by printed value and type; the checksum sees both. -/
def typedConsts : Params (String × String) where
  hash := fun l _ => (l.1.length * 100 + l.2.length).toUInt32
  eq := fun a k b k' => a == b && k == k'
  isConst := fun _ => true
  name := fun l => l.1

example : ∃ g, run typedConsts empty [.newConst ("1", "float32"), .add 0] = some g ∧
    (constantOf typedConsts g (fun l => l == ("1", "float64")) ("1", "float64")).map
      (fun r => (r.2, r.1.heap[r.2]?.map (·.label))) = some (1, some ("1", "float32")) ∧
    (constantOf typedConsts g (fun l => l == ("22", "float64")) ("22", "float64")).map
      (fun r => (r.2, r.1.heap[r.2]?.map (·.label))) = some (3, some ("22", "float64")) :=
  ⟨_, rfl, by decide +kernel, by decide +kernel⟩

example : ∃ g, run demo empty qOps = some g ∧ byNameOf g (·.1) "x" = [0] ∧ byNameOf g (·.1) "add" = [2] ∧
    inputsOf g (fun l => l.1 == "x") (fun l => l.1 == "y") (fun _ => false) = [0, 1] :=
  ⟨_, rfl, by decide +kernel, by decide +kernel, by decide +kernel⟩

end Verif.Graph
