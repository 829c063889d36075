import Verif.Graph.Theorems
import Verif.Graph.Denote
/-!
Property C131: several graphs in one program. The node objects of all graphs live in one heap, and a graph changes the
objects it is given (`addToAll` writes the ID into the object). `ApplyOp` chooses the graph of a new node from its
operands (op.go 169-185) and refuses operands of different graphs with `Nodes.AllSameGraph` (collections.go 136-155).
Modelled with the graph store of `Model.lean`, whose heap is here the common one.
-/
set_option autoImplicit false
namespace Verif.Graph

variable {L : Type} {P : Params L}

/-- The first operand that has a graph, op.go 172-177; `home` is the field `g` of the nodes. -/
def firstHome (home : Ptr → Option Nat) : List Ptr → Option Nat
  | [] => none
  | c :: cs =>
    match home c with
    | some k => some k
    | none => firstHome home cs

/-- The graph of the first operand that is not a constant, collections.go 141-147; `none` is the nil graph. -/
def firstProper (home : Ptr → Option Nat) (isConst : Ptr → Bool) : List Ptr → Option Nat
  | [] => none
  | c :: cs => if isConst c then firstProper home isConst cs else home c

/-- `AllSameGraph`, collections.go 136-155. -/
def allSameGraph (home : Ptr → Option Nat) (isConst : Ptr → Bool) (ns : List Ptr) : Bool :=
  if ns.isEmpty then false
  else ns.all (fun n => !(home n != firstProper home isConst ns && !isConst n))

/-- Lines 170-185 of `ApplyOp`, op.go: the graph of the new node, `none` for the two errors. -/
def chooseGraph (home : Ptr → Option Nat) (isConst : Ptr → Bool) (cs : List Ptr) : Option Nat :=
  match firstHome home cs with
  | none => none
  | some k => if allSameGraph home isConst cs then some k else none

/-- All graphs of a program: the node objects, the tables of every graph (the field `heap` of these is not used), and
the graph every node object says it is in (field `g` of `Node`, node.go 25-63). -/
structure World (L : Type) where
  heap : List (Cell L)
  tabs : Nat → G L
  home : Ptr → Option Nat

/-- No graph has a node yet. -/
def World.empty : World L := { heap := [], tabs := fun _ => Graph.empty, home := fun _ => none }

/-- Graph number `k` with the common heap. -/
def World.graph (w : World L) (k : Nat) : G L := { w.tabs k with heap := w.heap }

/-- Writing graph number `k` back. New objects that are members have been created with `In(g)` (op.go 208) or as a copy
of a constant with `n.g = g` (graph.go 179); the others are graphless. -/
def World.put (w : World L) (k : Nat) (g : G L) : World L :=
  { heap := g.heap
    tabs := upd w.tabs k g
    home := fun p => if p < w.heap.length then w.home p else if g.all.contains p then some k else none }

/-- Whether a node object is a constant, node.go 325. -/
def World.isConst (P : Params L) (w : World L) (p : Ptr) : Bool :=
  match w.heap[p]? with
  | some c => P.isConst c.label
  | none => false

/-- The calls of a program with several graphs. -/
inductive Call (L : Type) where
  /-- `NewConstant` (gorgonia.go 87-126): a graphless object. -/
  | newConst (l : L)
  /-- `NewScalar(g, ...)` and the like: an input of graph `k`. -/
  | input (k : Nat) (l : L)
  /-- `g.AddNode(c)` for a constant, as in `g.Constant` (graph.go 299-308). -/
  | addConst (k : Nat) (p : Ptr)
  /-- `ApplyOp`. -/
  | apply (l : L) (cs : List Ptr)

/-- One call; a refused `ApplyOp` leaves everything as it is; `none` is a panic. -/
def World.step (P : Params L) (w : World L) : Call L → Option (World L)
  | .newConst l =>
    if P.isConst l then
      match newNode P (w.graph 0) l [] with
      | none => none
      | some (g, _) => some { w with heap := g.heap }
    else some w
  | .input k l =>
    match newUniqueNode P (w.graph k) l [] with
    | none => none
    | some (g, _) => some (w.put k g)
  | .addConst k p =>
    if w.isConst P p then
      match addNode P (w.graph k) p with
      | none => none
      | some (g, _) => some (w.put k g)
    else some w
  | .apply l cs =>
    match chooseGraph w.home (w.isConst P) cs with
    | none => some w
    | some k =>
      match newUniqueNode P (w.graph k) l cs with
      | none => none
      | some (g, _) => some (w.put k g)

/-- A program. -/
def World.run (P : Params L) (w : World L) : List (Call L) → Option (World L)
  | [] => some w
  | o :: os =>
    match w.step P o with
    | none => none
    | some w => World.run P w os

/-! ### The choice of the graph -/

theorem firstHome_none (home : Ptr → Option Nat) : ∀ cs : List Ptr,
    firstHome home cs = none ↔ ∀ c ∈ cs, home c = none
  | [] => by simp [firstHome]
  | c :: cs => by
    simp only [firstHome, List.mem_cons, forall_eq_or_imp]
    cases h : home c with
    | none => simp [firstHome_none home cs]
    | some k => simp

theorem firstHome_some (home : Ptr → Option Nat) (k : Nat) : ∀ cs : List Ptr,
    firstHome home cs = some k → ∃ c ∈ cs, home c = some k
  | [], h => by simp [firstHome] at h
  | c :: cs, h => by
    simp only [firstHome] at h
    cases hc : home c with
    | none =>
      rw [hc] at h
      obtain ⟨d, hd, e⟩ := firstHome_some home k cs h
      exact ⟨d, List.mem_cons_of_mem _ hd, e⟩
    | some j =>
      rw [hc] at h
      exact ⟨c, List.mem_cons_self, by rw [hc]; exact h⟩

theorem firstProper_eq (home : Ptr → Option Nat) (isConst : Ptr → Bool) : ∀ cs : List Ptr,
    (∃ a ∈ cs, isConst a = false) → ∃ a ∈ cs, isConst a = false ∧ firstProper home isConst cs = home a
  | [], h => by simp at h
  | c :: cs, h => by
    by_cases hc : isConst c = true
    · have : ∃ a ∈ cs, isConst a = false := by
        obtain ⟨a, ha, e⟩ := h
        rcases List.mem_cons.mp ha with rfl | ha
        · rw [hc] at e; cases e
        · exact ⟨a, ha, e⟩
      obtain ⟨a, ha, e1, e2⟩ := firstProper_eq home isConst cs this
      exact ⟨a, List.mem_cons_of_mem _ ha, e1, by simp only [firstProper, hc, if_true, e2]⟩
    · exact ⟨c, List.mem_cons_self, by simpa using hc, by simp only [firstProper]; rw [if_neg hc]⟩

theorem allSameGraph_iff (home : Ptr → Option Nat) (isConst : Ptr → Bool) (cs : List Ptr) :
    allSameGraph home isConst cs = true ↔
      cs ≠ [] ∧ ∀ a ∈ cs, ∀ b ∈ cs, isConst a = false → isConst b = false → home a = home b := by
  have key : allSameGraph home isConst cs = true ↔
      cs ≠ [] ∧ ∀ n ∈ cs, isConst n = false → home n = firstProper home isConst cs := by
    simp only [allSameGraph]
    cases cs with
    | nil => simp
    | cons c cs =>
      simp only [List.isEmpty_cons, Bool.false_eq_true, if_false, List.all_eq_true, ne_eq, reduceCtorEq, not_false_eq_true,
        true_and]
      constructor
      · intro h n hn hk
        have := h n hn
        simpa [hk] using this
      · intro h n hn
        cases hk : isConst n with
        | true => simp
        | false => simp [h n hn hk]
  rw [key]
  refine and_congr_right fun _ => ⟨fun h a ha b hb ea eb => (h a ha ea).trans (h b hb eb).symm, fun h n hn e => ?_⟩
  obtain ⟨a, ha, ea, h'⟩ := firstProper_eq home isConst cs ⟨n, hn, e⟩
  rw [h']
  exact h n hn a ha e ea

/-- **C131 (refusal).** An operation is refused exactly when no operand has a graph, or two operands that are not
constants disagree about it. -/
theorem chooseGraph_none (home : Ptr → Option Nat) (isConst : Ptr → Bool) (cs : List Ptr) :
    chooseGraph home isConst cs = none ↔
      (∀ c ∈ cs, home c = none) ∨
      (∃ a ∈ cs, ∃ b ∈ cs, isConst a = false ∧ isConst b = false ∧ home a ≠ home b) := by
  simp only [chooseGraph]
  cases h : firstHome home cs with
  | none => exact ⟨fun _ => Or.inl ((firstHome_none home cs).1 h), fun _ => rfl⟩
  | some k =>
    obtain ⟨c, hc, e⟩ := firstHome_some home k cs h
    have hne : cs ≠ [] := List.ne_nil_of_mem hc
    have h1 : ¬ ∀ c ∈ cs, home c = none := fun h => by rw [h c hc] at e; cases e
    simp only [h1, false_or]
    by_cases ha : allSameGraph home isConst cs = true
    · simp only [ha, if_true, reduceCtorEq, false_iff]
      rintro ⟨a, ha', b, hb, ea, eb, hn⟩
      exact hn (((allSameGraph_iff home isConst cs).1 ha).2 a ha' b hb ea eb)
    · rw [if_neg ha]
      simp only [true_iff]
      rw [allSameGraph_iff] at ha
      refine Classical.byContradiction fun hn => ha ⟨hne, fun a h1 b h2 e1 e2 => Classical.byContradiction fun h3 =>
        hn ⟨a, h1, b, h2, e1, e2, h3⟩⟩

/-- **C131 (the right graph).** If the operands that are not constants have a graph, and the constants are graphless or
in a graph of the others, an accepted operation is put into the graph of all those operands. -/
theorem chooseGraph_right (home : Ptr → Option Nat) (isConst : Ptr → Bool) (cs : List Ptr) (k : Nat)
    (hc : ∀ c ∈ cs, isConst c = true → ∀ d ∈ cs, isConst d = false → home c = none ∨ home c = home d)
    (h : chooseGraph home isConst cs = some k) {d : Ptr} (hd : d ∈ cs) (hk : isConst d = false) : home d = some k := by
  simp only [chooseGraph] at h
  cases h1 : firstHome home cs with
  | none => rw [h1] at h; simp at h
  | some j =>
    simp only [h1] at h
    by_cases ha : allSameGraph home isConst cs = true
    · rw [if_pos ha] at h
      obtain ⟨c, hc', e⟩ := firstHome_some home j cs h1
      obtain ⟨_, ha⟩ := (allSameGraph_iff home isConst cs).1 ha
      rw [← h, ← e]
      by_cases hcc : isConst c = true
      · rcases hc c hc' hcc d hd hk with h2 | h2
        · rw [h2] at e; cases e
        · exact h2.symm
      · exact ha d hd c hc' hk (by simpa using hcc)
    · rw [if_neg ha] at h; cases h

/-- **C131 (defect: the choice).** A constant of another graph that comes first decides: the operation is put there,
although its only other operand is in graph 1; in the other order it is put into graph 1. -/
theorem chooseGraph_wrong :
    chooseGraph (fun p => if p = 0 then some 0 else some 1) (fun p => p == 0) [0, 5] = some 0 ∧
    chooseGraph (fun p => if p = 0 then some 0 else some 1) (fun p => p == 0) [5, 0] = some 1 := by decide

example : chooseGraph (fun p => if p < 3 then some 0 else some 1) (fun p => p == 9) [1, 2, 9] = some 0 := by decide
example : chooseGraph (fun p => if p < 3 then some 0 else some 1) (fun p => p == 9) [1, 4] = none := by decide

/-! ### A graph reads and writes only the objects it is given -/

/-- Two heaps for one graph: they agree on the objects `S`, outside of it nothing has been written since `h0`. -/
structure Rel (S : Ptr → Prop) (h0 : List (Cell L)) (g g2 : G L) : Prop where
  tabs : g2 = { g with heap := g2.heap }
  len : g2.heap.length = g.heap.length
  on : ∀ q, S q → g2.heap[q]? = g.heap[q]?
  off : ∀ q, ¬ S q → g.heap[q]? = h0[q]?
  fresh : ∀ q, g.heap.length ≤ q → S q
  mem : ∀ q ∈ g.all, S q
  hash : ∀ h p, g.byHash h = some (some p) → S p
  evac : ∀ h, g.byHash h = some none → ∀ p ∈ g.evac h, S p
  consts : ∀ p ∈ g.constants, S p
  kids : ∀ q c, S q → g.heap[q]? = some c → ∀ u ∈ c.children, S u

variable {S : Ptr → Prop} {h0 : List (Cell L)} {g g2 : G L}

theorem Rel.nodeEq (r : Rel S h0 g g2) {a b : Ptr} (ha : S a) (hb : S b) : nodeEq P g2 a b = nodeEq P g a b := by
  simp only [Graph.nodeEq, r.on a ha, r.on b hb]

theorem Rel.nameMatch (r : Rel S h0 g g2) (n : Cell L) {q : Ptr} (hq : S q) : nameMatch P g2 n q = nameMatch P g n q := by
  simp only [Graph.nameMatch, r.on q hq]

theorem Rel.ensureTo (r : Rel S h0 g g2) (p : Ptr) : Rel S h0 (ensureTo g p) (ensureTo g2 p) := by
  have h1 : g2.to = g.to := by rw [r.tabs]
  simp only [Graph.ensureTo, h1]
  cases h : g.to p with
  | some _ => exact r
  | none =>
    refine { r with tabs := ?_ }
    simp only
    rw [r.tabs]

theorem Rel.addToAll (r : Rel S h0 g g2) {p : Ptr} (hp : S p) : Rel S h0 (addToAll g p) (addToAll g2 p) := by
  have hc : g2.counter = g.counter := by rw [r.tabs]
  refine ⟨?_, ?_, ?_, ?_, ?_, ?_, r.hash, r.evac, r.consts, ?_⟩
  · simp only [Graph.addToAll]; rw [r.tabs]
  · simp only [Graph.addToAll, List.length_modify]; exact r.len
  · intro q hq
    rw [heap_addToAll, heap_addToAll, r.on q hq, hc]
  · intro q hq
    have hne : p ≠ q := fun e => hq (e ▸ hp)
    rw [heap_addToAll, if_neg hne]
    exact r.off q hq
  · intro q hq
    simp only [Graph.addToAll, List.length_modify] at hq
    exact r.fresh q hq
  · intro q hq
    simp only [Graph.addToAll, List.mem_append, List.mem_singleton] at hq
    rcases hq with h | rfl
    · exact r.mem q h
    · exact hp
  · intro q c hq h u hu
    rw [heap_addToAll] at h
    by_cases e : p = q
    · rw [if_pos e] at h
      cases h1 : g.heap[q]? with
      | none => rw [h1] at h; cases h
      | some d =>
        rw [h1] at h
        simp only [Option.map_some, Option.some.injEq] at h
        subst h
        exact r.kids q d hq h1 u hu
    · rw [if_neg e] at h
      exact r.kids q c hq h u hu

theorem Rel.alloc (r : Rel S h0 g g2) (n : Cell L) (hn : ∀ u ∈ n.children, S u) :
    Rel S h0 { g with heap := g.heap ++ [n] } { g2 with heap := g2.heap ++ [n] } := by
  refine ⟨?_, ?_, ?_, ?_, ?_, r.mem, r.hash, r.evac, r.consts, ?_⟩
  · simp only; rw [r.tabs]
  · simp only [List.length_append, r.len]
  · intro q hq
    simp only [List.getElem?_append, r.len, r.on q hq]
  · intro q hq
    have h1 : q < g.heap.length := Nat.lt_of_not_le fun h => hq (r.fresh q h)
    simp only [List.getElem?_append, h1, if_true]
    exact r.off q hq
  · intro q hq
    simp only [List.length_append] at hq
    exact r.fresh q (by omega)
  · intro q c hq h u hu
    rcases getElem?_append_cell h with h | ⟨_, h⟩
    · exact r.kids q c hq h u hu
    · rw [h] at hu; exact hn u hu

theorem Rel.find (S : Ptr → Prop) {f f2 : Ptr → Bool} : ∀ {l : List Ptr}, (∀ q ∈ l, S q) → (∀ q, S q → f2 q = f q) →
    l.find? f2 = l.find? f ∧ ∀ q, l.find? f = some q → S q := by
  intro l hl hf
  exact ⟨find?_congr' fun a ha => hf a (hl a ha), fun q hq => hl q (List.mem_of_find?_eq_some hq)⟩

theorem Rel.addNodeBody (r : Rel S h0 g g2) {p : Ptr} {n : Cell L} (hp : S p) (hn : g.heap[p]? = some n) :
    Rel S h0 (addNodeBody P g p n).1 (addNodeBody P g2 p n).1 ∧ (addNodeBody P g2 p n).2 = (addNodeBody P g p n).2 ∧
      S (addNodeBody P g p n).2 := by
  obtain ⟨H, rfl⟩ : ∃ H, g2 = { g with heap := H } := ⟨_, r.tabs⟩
  have hlen : H.length = g.heap.length := r.len
  obtain ⟨f1, f2⟩ := Rel.find S (f := Graph.nameMatch P g n) (f2 := Graph.nameMatch P { g with heap := H } n) r.consts
    (fun q hq => r.nameMatch n hq)
  simp only [Graph.addNodeBody, f1]
  cases h1 : g.constants.find? (Graph.nameMatch P g n) with
  | some q => exact ⟨r, by trivial, f2 q h1⟩
  | none =>
    cases h2 : g.byHash n.hash with
    | none =>
      simp only
      by_cases hc : P.isConst n.label = true
      · simp only [if_pos hc, hlen]
        have hcs : S g.heap.length := r.fresh _ (Nat.le_refl _)
        have r1 := r.alloc { n with id := -1 } (r.kids p n hp hn)
        have r2 : Rel S h0 { g with heap := g.heap ++ [{ n with id := -1 }], constants := nodesAdd g.constants g.heap.length }
            { g with heap := H ++ [{ n with id := -1 }], constants := nodesAdd g.constants g.heap.length } := by
          refine { r1 with tabs := ?_, consts := ?_ }
          · rfl
          · intro q hq
            simp only [nodesAdd] at hq
            split at hq
            · exact r.consts q hq
            · simp only [List.mem_append, List.mem_singleton] at hq
              rcases hq with h | rfl
              · exact r.consts q h
              · exact hcs
        have r3 := r2.addToAll hcs
        refine ⟨{ r3 with tabs := ?_, hash := ?_, evac := ?_ }, by trivial, hcs⟩
        · rfl
        · intro h q hq
          simp only [upd, Graph.addToAll] at hq
          split at hq
          · simp only [Option.some.injEq] at hq; rw [← hq]; exact hcs
          · exact r.hash h q hq
        · intro h hb q hq
          simp only [upd, Graph.addToAll] at hb
          split at hb
          · simp at hb
          · exact r.evac h hb q hq
      · simp only [if_neg hc]
        have r3 := r.addToAll hp
        refine ⟨{ r3 with tabs := ?_, hash := ?_, evac := ?_ }, by trivial, hp⟩
        · rfl
        · intro h q hq
          simp only [upd, Graph.addToAll] at hq
          split at hq
          · simp only [Option.some.injEq] at hq; rw [← hq]; exact hp
          · exact r.hash h q hq
        · intro h hb q hq
          simp only [upd, Graph.addToAll] at hb
          split at hb
          · simp at hb
          · exact r.evac h hb q hq
    | some o =>
      cases o with
      | none =>
        simp only
        obtain ⟨f3, f4⟩ := Rel.find S (f := fun e => Graph.nodeEq P g p e) (f2 := fun e => Graph.nodeEq P { g with heap := H } p e)
          (r.evac n.hash h2) (fun q hq => r.nodeEq hp hq)
        rw [f3]
        cases h3 : (g.evac n.hash).find? (fun e => Graph.nodeEq P g p e) with
        | some e => exact ⟨r, by trivial, f4 e h3⟩
        | none =>
          have r1 : Rel S h0 { g with evac := upd g.evac n.hash (g.evac n.hash ++ [p]) }
              { g with heap := H, evac := upd g.evac n.hash (g.evac n.hash ++ [p]) } := by
            refine { r with tabs := ?_, evac := ?_ }
            · rfl
            · intro h hb q hq
              simp only [upd] at hq
              split at hq
              · simp only [List.mem_append, List.mem_singleton] at hq
                rcases hq with h | rfl
                · exact r.evac _ h2 q h
                · exact hp
              · exact r.evac h hb q hq
          exact ⟨r1.addToAll hp, by trivial, hp⟩
      | some x =>
        have hx : S x := r.hash _ _ h2
        simp only [r.nodeEq hp hx]
        by_cases h3 : Graph.nodeEq P g p x = true
        · simp only [if_pos h3]; exact ⟨r, by trivial, hx⟩
        · simp only [if_neg h3]
          have r1 : Rel S h0 { g with evac := upd g.evac n.hash [x, p], byHash := upd g.byHash n.hash (some none) }
              { g with heap := H, evac := upd g.evac n.hash [x, p], byHash := upd g.byHash n.hash (some none) } := by
            refine { r with tabs := ?_, evac := ?_, hash := ?_ }
            · rfl
            · intro h q hq
              simp only [upd] at hq
              split at hq
              · simp at hq
              · exact r.hash h q hq
            · intro h hb q hq
              simp only [upd] at hq hb
              split at hq
              · simp only [List.mem_cons, List.not_mem_nil, or_false] at hq
                rcases hq with rfl | rfl
                · exact hx
                · exact hp
              · next hne => rw [if_neg hne] at hb; exact r.evac h hb q hq
          exact ⟨r1.addToAll hp, by trivial, hp⟩

theorem Rel.addNode (r : Rel S h0 g g2) {p : Ptr} (hp : S p) {g' : G L} {m : Ptr} (h : addNode P g p = some (g', m)) :
    ∃ g2', addNode P g2 p = some (g2', m) ∧ Rel S h0 g' g2' ∧ S m := by
  simp only [Graph.addNode] at h ⊢
  rw [r.on p hp]
  cases hn : g.heap[p]? with
  | none => rw [hn] at h; cases h
  | some n =>
    rw [hn] at h
    simp only [Option.some.injEq, Prod.mk.injEq] at h
    obtain ⟨h1, h2⟩ := h
    obtain ⟨r1, e, hs⟩ := r.addNodeBody (P := P) hp hn
    refine ⟨Graph.ensureTo (Graph.addNodeBody P g2 p n).1 m, by simp only [e, h2], ?_, h2 ▸ hs⟩
    rw [← h1, h2]
    exact r1.ensureTo _

theorem Rel.node (r : Rel S h0 g g2) (id : Int) : Rel S h0 (node g id).1 (node g2 id).1 ∧ (node g2 id).2 = (node g id).2 := by
  obtain ⟨H, rfl⟩ : ∃ H, g2 = { g with heap := H } := ⟨_, r.tabs⟩
  have hf : findIdx { g with heap := H } id = findIdx g id := by
    simp only [findIdx]
    have : ∀ l : List Ptr, (∀ q ∈ l, S q) →
        l.findIdx? (fun p => match H[p]? with | some c => c.id == id | none => false) =
        l.findIdx? (fun p => match g.heap[p]? with | some c => c.id == id | none => false) := by
      intro l
      induction l with
      | nil => intro _; rfl
      | cons a l ih =>
        intro hl
        have ha : H[a]? = g.heap[a]? := r.on a (hl a List.mem_cons_self)
        simp only [List.findIdx?_cons, ha, ih (fun q hq => hl q (List.mem_cons_of_mem _ hq))]
    exact this g.all r.mem
  simp only [Graph.node, hf]
  cases h1 : g.byID id with
  | some i => exact ⟨r, by trivial⟩
  | none =>
    cases h2 : findIdx g id with
    | none => exact ⟨r, by trivial⟩
    | some i => exact ⟨{ r with tabs := rfl }, by trivial⟩

theorem Rel.ensureIn (r : Rel S h0 g g2) {p : Ptr} (hp : S p) {g' : G L} {m : Ptr} (h : ensureIn P g p = some (g', m)) :
    ∃ g2', ensureIn P g2 p = some (g2', m) ∧ Rel S h0 g' g2' ∧ S m := by
  simp only [Graph.ensureIn, has] at h ⊢
  rw [r.on p hp]
  cases hn : g.heap[p]? with
  | none => rw [hn] at h; cases h
  | some c =>
    rw [hn] at h
    obtain ⟨r1, e⟩ := r.node c.id
    simp only [e] at h ⊢
    by_cases hb : (Graph.node g c.id).2.isSome = true
    · simp only [hb, if_true, Option.some.injEq, Prod.mk.injEq] at h ⊢
      exact ⟨_, ⟨rfl, h.2⟩, h.1 ▸ r1, h.2 ▸ hp⟩
    · simp only [hb, if_false, Bool.false_eq_true] at h ⊢
      exact r1.addNode hp h

theorem Rel.setEdge (r : Rel S h0 g g2) {a b : Ptr} (ha : S a) (hb : S b) {g' : G L} (h : setEdge P g a b = some g') :
    ∃ g2', setEdge P g2 a b = some g2' ∧ Rel S h0 g' g2' := by
  simp only [Graph.setEdge] at h ⊢
  by_cases e : a = b
  · rw [if_pos e] at h; cases h
  · rw [if_neg e] at h ⊢
    cases h1 : Graph.ensureIn P g a with
    | none => rw [h1] at h; cases h
    | some x =>
      obtain ⟨g1, a1⟩ := x
      obtain ⟨g21, e1, r1, _⟩ := r.ensureIn ha h1
      simp only [h1, e1] at h ⊢
      cases h2 : Graph.ensureIn P g1 b with
      | none => rw [h2] at h; cases h
      | some y =>
        obtain ⟨g3, b1⟩ := y
        obtain ⟨g23, e2, r2, _⟩ := r1.ensureIn hb h2
        simp only [h2, e2, Option.some.injEq] at h ⊢
        refine ⟨_, rfl, ?_⟩
        obtain ⟨H, rfl⟩ : ∃ H, g23 = { g3 with heap := H } := ⟨_, r2.tabs⟩
        rw [← h]
        exact { r2 with tabs := rfl }

theorem Rel.fixEdgesLoop {m : Ptr} (hm : S m) : ∀ (cs : List Ptr) {g g2 g' : G L}, Rel S h0 g g2 → (∀ c ∈ cs, S c) →
    fixEdgesLoop P g m cs = some g' → ∃ g2', fixEdgesLoop P g2 m cs = some g2' ∧ Rel S h0 g' g2' := by
  intro cs
  induction cs with
  | nil =>
    intro g g2 g' r _ h
    simp only [Graph.fixEdgesLoop, Option.some.injEq] at h
    exact ⟨g2, rfl, h ▸ r⟩
  | cons c cs ih =>
    intro g g2 g' r hcs h
    simp only [Graph.fixEdgesLoop] at h ⊢
    cases h1 : Graph.setEdge P g m c with
    | none => rw [h1] at h; cases h
    | some g1 =>
      obtain ⟨g21, e1, r1⟩ := r.setEdge hm (hcs c List.mem_cons_self) h1
      simp only [h1, e1] at h ⊢
      exact ih r1 (fun c hc => hcs c (List.mem_cons_of_mem _ hc)) h

theorem Rel.fixEdges (r : Rel S h0 g g2) {m : Ptr} (hm : S m) {g' : G L} (h : fixEdges P g m = some g') :
    ∃ g2', fixEdges P g2 m = some g2' ∧ Rel S h0 g' g2' := by
  simp only [Graph.fixEdges] at h ⊢
  rw [r.on m hm]
  cases hn : g.heap[m]? with
  | none => rw [hn] at h; cases h
  | some c =>
    simp only [hn] at h ⊢
    by_cases hc : c.children = []
    · rw [if_pos hc] at h ⊢
      simp only [Option.some.injEq] at h
      refine ⟨_, rfl, ?_⟩
      obtain ⟨H, rfl⟩ : ∃ H, g2 = { g with heap := H } := ⟨_, r.tabs⟩
      rw [← h]
      exact { r with tabs := rfl }
    · rw [if_neg hc] at h ⊢
      exact Rel.fixEdgesLoop hm _ r (r.kids m c hm hn) h

theorem Rel.fixChildren : ∀ (cs : List Ptr) {g g2 g' : G L} {cs' : List Ptr}, Rel S h0 g g2 → (∀ c ∈ cs, S c) →
    fixChildren P g cs = some (g', cs') →
    ∃ g2', fixChildren P g2 cs = some (g2', cs') ∧ Rel S h0 g' g2' ∧ ∀ c ∈ cs', S c := by
  intro cs
  induction cs with
  | nil =>
    intro g g2 g' cs' r _ h
    simp only [Graph.fixChildren, Option.some.injEq, Prod.mk.injEq] at h
    obtain ⟨h1, h2⟩ := h
    exact ⟨g2, by simp only [Graph.fixChildren, h2], h1 ▸ r, by rw [← h2]; simp⟩
  | cons c cs ih =>
    intro g g2 g' cs' r hcs h
    simp only [Graph.fixChildren] at h ⊢
    cases h1 : Graph.addNode P g c with
    | none => rw [h1] at h; cases h
    | some x =>
      obtain ⟨g1, c1⟩ := x
      obtain ⟨g21, e1, r1, s1⟩ := r.addNode (hcs c List.mem_cons_self) h1
      simp only [h1, e1] at h ⊢
      cases h2 : Graph.fixChildren P g1 cs with
      | none => rw [h2] at h; cases h
      | some y =>
        obtain ⟨g3, cs1⟩ := y
        obtain ⟨g23, e2, r2, s2⟩ := ih r1 (fun c hc => hcs c (List.mem_cons_of_mem _ hc)) h2
        simp only [h2, e2, Option.some.injEq, Prod.mk.injEq] at h ⊢
        refine ⟨g23, ⟨rfl, h.2⟩, h.1 ▸ r2, ?_⟩
        rw [← h.2]
        intro q hq
        rcases List.mem_cons.mp hq with rfl | hq
        · exact s1
        · exact s2 q hq

theorem Rel.hashes (r : Rel S h0 g g2) : ∀ (cs : List Ptr), (∀ c ∈ cs, S c) → hashes g2 cs = hashes g cs
  | [], _ => rfl
  | c :: cs, h => by
    simp only [Graph.hashes, r.on c (h c List.mem_cons_self),
      r.hashes cs (fun c hc => h c (List.mem_cons_of_mem _ hc))]

theorem Rel.returnNode (r : Rel S h0 g g2) {p : Ptr} (hp : S p) : Rel S h0 (returnNode P g p) (returnNode P g2 p) := by
  refine ⟨?_, ?_, ?_, ?_, ?_, r.mem, r.hash, r.evac, r.consts, ?_⟩
  · simp only [Graph.returnNode]; rw [r.tabs]
  · simp only [Graph.returnNode, List.length_modify]; exact r.len
  · intro q hq
    rw [heap_returnNode, heap_returnNode, r.on q hq]
  · intro q hq
    have hne : p ≠ q := fun e => hq (e ▸ hp)
    rw [heap_returnNode, if_neg hne]
    exact r.off q hq
  · intro q hq
    simp only [Graph.returnNode, List.length_modify] at hq
    exact r.fresh q hq
  · intro q c hq h u hu
    rw [heap_returnNode] at h
    by_cases e : p = q
    · rw [if_pos e] at h
      cases h1 : g.heap[q]? with
      | none => rw [h1] at h; cases h
      | some d =>
        rw [h1] at h
        simp only [Option.map_some, Option.some.injEq] at h
        subst h
        simp at hu
    · rw [if_neg e] at h
      exact r.kids q c hq h u hu

theorem Rel.newUniqueNode (r : Rel S h0 g g2) {l : L} {cs : List Ptr} (hcs : ∀ c ∈ cs, S c) {g' : G L} {m : Ptr}
    (h : newUniqueNode P g l cs = some (g', m)) :
    ∃ g2', newUniqueNode P g2 l cs = some (g2', m) ∧ Rel S h0 g' g2' := by
  simp only [Graph.newUniqueNode] at h ⊢
  cases h1 : Graph.fixChildren P g cs with
  | none => rw [h1] at h; cases h
  | some x =>
    obtain ⟨g1, cs1⟩ := x
    obtain ⟨g21, e1, r1, s1⟩ := Rel.fixChildren cs r hcs h1
    simp only [h1, e1] at h ⊢
    simp only [newNode, r1.hashes cs1 s1] at h ⊢
    cases h2 : Graph.hashes g1 cs1 with
    | none => rw [h2] at h; cases h
    | some hs =>
      simp only [h2] at h ⊢
      have r2 := r1.alloc { label := l, children := cs1, hash := P.hash l hs, id := -1 } s1
      have hf : S g1.heap.length := r1.fresh _ (Nat.le_refl _)
      rw [r1.len]
      cases h3 : Graph.addNode P { g1 with heap := g1.heap ++ [{ label := l, children := cs1, hash := P.hash l hs, id := -1 }] }
          g1.heap.length with
      | none => rw [h3] at h; cases h
      | some y =>
        obtain ⟨g4, m4⟩ := y
        obtain ⟨g24, e4, r4, s4⟩ := r2.addNode hf h3
        simp only [h3, e4] at h ⊢
        have r5 : Rel S h0 (if g1.heap.length = m4 then g4 else Graph.returnNode P g4 g1.heap.length)
            (if g1.heap.length = m4 then g24 else Graph.returnNode P g24 g1.heap.length) := by
          by_cases e : g1.heap.length = m4
          · rw [if_pos e, if_pos e]; exact r4
          · rw [if_neg e, if_neg e]; exact r4.returnNode hf
        cases h6 : Graph.fixEdges P (if g1.heap.length = m4 then g4 else Graph.returnNode P g4 g1.heap.length) m4 with
        | none => rw [h6] at h; cases h
        | some g7 =>
          obtain ⟨g27, e7, r7⟩ := r5.fixEdges s4 h6
          simp only [h6, e7, Option.some.injEq, Prod.mk.injEq] at h ⊢
          exact ⟨g27, ⟨rfl, h.2⟩, h.1 ▸ r7⟩

/-- The invariant of a graph does not depend on objects that are not members, as long as they look unused. -/
theorem WGraph.swap (hW : WGraph P g) (H : List (Cell L)) (hon : ∀ p ∈ g.all, H[p]? = g.heap[p]?)
    (hoff : ∀ p c, p ∉ g.all → H[p]? = some c → c.id = -1 ∧ c.children = []) : WGraph P { g with heap := H } := by
  have hI := hW.inv
  have hkid : ∀ p ∈ g.all, ∀ c, g.heap[p]? = some c → ∀ q ∈ c.children, q ∈ g.all := by
    intro p _ c hc q hq
    obtain ⟨d, hd, h0, _⟩ := hI.kids p c hc q hq
    exact (hI.mem_iff hd).2 h0
  refine ⟨⟨hI.len, ?_, ?_, hI.byid, ?_, ?_, ?_, ?_, ?_, ?_, ?_, hI.toDef⟩, ?_, ?_⟩
  · intro p c hc
    by_cases hp : p ∈ g.all
    · exact hI.ids p c (by rw [← hon p hp]; exact hc)
    · exact Or.inl ⟨(hoff p c hp hc).1, hp⟩
  · intro i p hi
    obtain ⟨c, hc, e⟩ := hI.pos i p hi
    exact ⟨c, by rw [show H[p]? = g.heap[p]? from hon p (List.mem_of_getElem? hi)]; exact hc, e⟩
  · intro p hp c hc
    exact hI.bucket p hp c (by rw [← hon p hp]; exact hc)
  · intro h p hb
    obtain ⟨hp, c, hc, e⟩ := hI.single h p hb
    exact ⟨hp, c, by rw [show H[p]? = g.heap[p]? from hon p hp]; exact hc, e⟩
  · intro h hb p he
    obtain ⟨hp, c, hc, e⟩ := hI.coll h hb p he
    exact ⟨hp, c, by rw [show H[p]? = g.heap[p]? from hon p hp]; exact hc, e⟩
  · intro h hb
    refine List.Pairwise.imp_of_mem ?_ (hI.sep h hb)
    intro a b ha hb' hab
    have h1 := (hI.coll h hb a ha).1
    have h2 := (hI.coll h hb b hb').1
    simp only [Graph.nodeEq] at hab ⊢
    rw [hon a h1, hon b h2]
    exact hab
  · intro q hq
    obtain ⟨hp, c, hc, e⟩ := hI.consts q hq
    exact ⟨hp, c, by rw [show H[q]? = g.heap[q]? from hon q hp]; exact hc, e⟩
  · intro p c hc q hq
    by_cases hp : p ∈ g.all
    · have hc' : g.heap[p]? = some c := by rw [← hon p hp]; exact hc
      obtain ⟨d, hd, h1, h2⟩ := hI.kids p c hc' q hq
      exact ⟨d, by rw [show H[q]? = g.heap[q]? from hon q (hkid p hp c hc' q hq)]; exact hd, h1, h2⟩
    · rw [(hoff p c hp hc).2] at hq; simp at hq
  · intro u ns hu
    obtain ⟨h1, h2⟩ := hI.toSound u ns hu
    refine ⟨h1, fun v hv => ?_⟩
    obtain ⟨h3, c, hc, h4⟩ := h2 v hv
    exact ⟨h3, c, by rw [show H[v]? = g.heap[v]? from hon v h3]; exact hc, h4⟩
  · intro p c _ hc hid
    by_cases hp : p ∈ g.all
    · exact hW.raw p c id (by rw [← hon p hp]; exact hc) hid
    · exact (hoff p c hp hc).2
  · intro v hv hx c hc
    exact hW.complete v hv hx c (by rw [← hon v hv]; exact hc)

theorem newUniqueNode_labels {l : L} {cs : List Ptr} {g' : G L} {m : Ptr} (h : newUniqueNode P g l cs = some (g', m))
    {p : Ptr} {c : Cell L} (hc : g.heap[p]? = some c) : ∃ c', g'.heap[p]? = some c' ∧ c'.label = c.label := by
  simp only [Graph.newUniqueNode] at h
  cases h1 : Graph.fixChildren P g cs with
  | none => rw [h1] at h; cases h
  | some x =>
    obtain ⟨g1, cs1⟩ := x
    obtain ⟨c1, hc1, e1⟩ := (fixChildren_ext cs g g1 cs1 h1).1 p c hc
    simp only [h1, newNode] at h
    cases h2 : Graph.hashes g1 cs1 with
    | none => rw [h2] at h; cases h
    | some hs =>
      simp only [h2] at h
      cases h3 : Graph.addNode P { g1 with heap := g1.heap ++ [{ label := l, children := cs1, hash := P.hash l hs, id := -1 }] }
          g1.heap.length with
      | none => rw [h3] at h; cases h
      | some y =>
        obtain ⟨g4, m4⟩ := y
        simp only [h3] at h
        obtain ⟨c4, hc4, e4⟩ := (addNode_ext h3).1 p c1 (getElem?_append_of_some hc1)
        cases h6 : Graph.fixEdges P (if g1.heap.length = m4 then g4 else Graph.returnNode P g4 g1.heap.length) m4 with
        | none => rw [h6] at h; cases h
        | some g7 =>
          simp only [h6, Option.some.injEq, Prod.mk.injEq] at h
          have h5 : ∃ c5, (if g1.heap.length = m4 then g4 else Graph.returnNode P g4 g1.heap.length).heap[p]? = some c5 ∧
              c5.label = c4.label := by
            by_cases e : g1.heap.length = m4
            · rw [if_pos e]; exact ⟨c4, hc4, rfl⟩
            · rw [if_neg e, heap_returnNode, hc4]
              split
              · exact ⟨_, rfl, rfl⟩
              · exact ⟨_, rfl, rfl⟩
          obtain ⟨c5, hc5, e5⟩ := h5
          obtain ⟨c7, hc7, e7⟩ := (fixEdges_ext h6).1 p c5 hc5
          rw [← h.1]
          exact ⟨c7, hc7, e7.1.trans (e5.trans (e4.1.trans e1.1))⟩

/-! ### Programs with several graphs -/

/-- Invariant of a program with several graphs. -/
structure WInv (P : Params L) (w : World L) : Prop where
  ok : ∀ k, ∃ H, WGraph P { w.tabs k with heap := H } ∧ ∀ p ∈ (w.tabs k).all, H[p]? = w.heap[p]?
  sep : ∀ j k p, p ∈ (w.tabs j).all → p ∈ (w.tabs k).all → j = k
  raw : ∀ p c, (∀ k, p ∉ (w.tabs k).all) → w.heap[p]? = some c → c.id = -1 ∧ c.children = []
  home1 : ∀ p k, w.home p = some k → p ∈ (w.tabs k).all
  home2 : ∀ p k, p ∈ (w.tabs k).all → w.home p = none → w.isConst P p = true

/-- The objects a call on graph `k` may touch. -/
def touched (w : World L) (k : Nat) (cs : List Ptr) (q : Ptr) : Prop :=
  w.heap.length ≤ q ∨ q ∈ (w.tabs k).all ∨ q ∈ cs

/-- The heap in which the members of other graphs look unused. -/
def maskHeap (w : World L) (k : Nat) (cs : List Ptr) : List (Cell L) :=
  w.heap.mapIdx fun p c => if p ∈ (w.tabs k).all ∨ p ∈ cs then c else { c with id := -1, children := [] }

theorem maskHeap_get (w : World L) (k : Nat) (cs : List Ptr) (p : Ptr) :
    (maskHeap w k cs)[p]? = (w.heap[p]?).map fun c =>
      if p ∈ (w.tabs k).all ∨ p ∈ cs then c else { c with id := -1, children := [] } := by
  simp only [maskHeap, List.getElem?_mapIdx]

theorem live_lt {w : World L} (hw : WInv P w) {k : Nat} {p : Ptr} (hp : p ∈ (w.tabs k).all) :
    ∃ c, w.heap[p]? = some c := by
  obtain ⟨H, hW, hH⟩ := hw.ok k
  obtain ⟨c, hc⟩ := hW.inv.live p hp
  exact ⟨c, by rw [← hH p hp]; exact hc⟩

/-- The two views of graph `k` before a call. -/
theorem rel_start {w : World L} (hw : WInv P w) (k : Nat) (cs : List Ptr)
    (hcs : ∀ c ∈ cs, ∀ j, c ∈ (w.tabs j).all → j = k) :
    WGraph P { w.tabs k with heap := maskHeap w k cs } ∧
    Rel (touched w k cs) w.heap (w.graph k) { w.tabs k with heap := maskHeap w k cs } := by
  obtain ⟨H, hW, hH⟩ := hw.ok k
  have hraw : ∀ p c, p ∈ cs → p ∉ (w.tabs k).all → w.heap[p]? = some c → c.id = -1 ∧ c.children = [] := by
    intro p c hp hn hc
    refine hw.raw p c (fun j hj => ?_) hc
    have := hcs p hp j hj
    subst this
    exact hn hj
  have hW2 : WGraph P { w.tabs k with heap := maskHeap w k cs } := by
    refine WGraph.swap (g := { w.tabs k with heap := H }) hW (maskHeap w k cs) ?_ ?_
    · intro p hp
      have hp' : p ∈ (w.tabs k).all := hp
      rw [maskHeap_get]
      show _ = H[p]?
      rw [hH p hp']
      cases w.heap[p]? with
      | none => rfl
      | some c => simp [hp']
    · intro p c hp hc
      have hp' : p ∉ (w.tabs k).all := hp
      rw [maskHeap_get] at hc
      cases h : w.heap[p]? with
      | none => rw [h] at hc; cases hc
      | some d =>
        rw [h] at hc
        simp only [Option.map_some, Option.some.injEq] at hc
        by_cases hm : p ∈ (w.tabs k).all ∨ p ∈ cs
        · rw [if_pos hm] at hc
          rcases hm with hm | hm
          · exact absurd hm hp'
          · rw [← hc]; exact hraw p d hm hp' h
        · rw [if_neg hm] at hc
          rw [← hc]; exact ⟨rfl, rfl⟩
  refine ⟨hW2, ⟨rfl, ?_, ?_, ?_, ?_, ?_, ?_, ?_, ?_, ?_⟩⟩
  · simp [maskHeap, World.graph]
  · intro q hq
    show (maskHeap w k cs)[q]? = w.heap[q]?
    rw [maskHeap_get]
    cases h : w.heap[q]? with
    | none => rfl
    | some c =>
      have hm : q ∈ (w.tabs k).all ∨ q ∈ cs := by
        rcases hq with h1 | h1
        · rw [List.getElem?_eq_none h1] at h; cases h
        · exact h1
      simp [hm]
  · intro q _; rfl
  · intro q hq; exact Or.inl hq
  · intro q hq; exact Or.inr (Or.inl hq)
  · intro h p hp; exact Or.inr (Or.inl (hW.inv.single h p hp).1)
  · intro h hb p hp; exact Or.inr (Or.inl (hW.inv.coll h hb p hp).1)
  · intro p hp; exact Or.inr (Or.inl (hW.inv.consts p hp).1)
  · intro q c hq hc u hu
    have hc' : w.heap[q]? = some c := hc
    rcases hq with h1 | h1 | h1
    · rw [List.getElem?_eq_none h1] at hc'; cases hc'
    · have hH' : ({ w.tabs k with heap := H } : G L).heap[q]? = some c := by
        show H[q]? = _
        rw [hH q h1]; exact hc'
      obtain ⟨d, hd, h0, _⟩ := hW.inv.kids q c hH' u hu
      exact Or.inr (Or.inl ((hW.inv.mem_iff hd).2 h0))
    · by_cases hm : q ∈ (w.tabs k).all
      · have hH' : ({ w.tabs k with heap := H } : G L).heap[q]? = some c := by
          show H[q]? = _
          rw [hH q hm]; exact hc'
        obtain ⟨d, hd, h0, _⟩ := hW.inv.kids q c hH' u hu
        exact Or.inr (Or.inl ((hW.inv.mem_iff hd).2 h0))
      · rw [(hraw q c h1 hm hc').2] at hu; simp at hu

/-- What a call on graph `k` does to the whole program. -/
theorem put_inv {w : World L} (hw : WInv P w) {k : Nat} {cs : List Ptr}
    (hcs : ∀ c ∈ cs, ∀ j, c ∈ (w.tabs j).all → j = k)
    (hcc : ∀ c ∈ cs, w.home c = none → w.isConst P c = true) {g' g2' : G L}
    (hR : Rel (touched w k cs) w.heap g' g2') (hW2 : WGraph P g2') (hpre : (w.tabs k).all <+: g'.all)
    (hkeep : ∀ q ∈ (w.tabs k).all, g2'.heap[q]? = w.heap[q]?)
    (hlab : ∀ (p : Ptr) (c : Cell L), w.heap[p]? = some c → ∃ c', g'.heap[p]? = some c' ∧ c'.label = c.label) :
    WInv P (w.put k g') ∧
    ∀ j, ∀ p ∈ (w.tabs j).all, p ∈ ((w.put k g').tabs j).all ∧ (w.put k g').heap[p]? = w.heap[p]? := by
  have hall : g2'.all = g'.all := by rw [hR.tabs]
  have hsame : ∀ j, j ≠ k → (w.put k g').tabs j = w.tabs j := fun j hj => by simp only [World.put, upd, if_neg hj]
  have hown : (w.put k g').tabs k = g' := by simp only [World.put, upd, if_true]
  have hfar : ∀ j, j ≠ k → ∀ p ∈ (w.tabs j).all, ¬ touched w k cs p := by
    intro j hj p hp ht
    rcases ht with h | h | h
    · obtain ⟨c, hc⟩ := live_lt hw hp
      rw [List.getElem?_eq_none h] at hc; cases hc
    · exact hj (hw.sep j k p hp h)
    · exact hj (hcs p h j hp)
  have hcell : ∀ j, ∀ p ∈ (w.tabs j).all, g'.heap[p]? = w.heap[p]? := by
    intro j p hp
    by_cases hj : j = k
    · subst hj
      rw [← hR.on p (Or.inr (Or.inl hp))]
      exact hkeep p hp
    · exact hR.off p (hfar j hj p hp)
  have hlabel : ∀ p, p < w.heap.length → (w.put k g').isConst P p = w.isConst P p := by
    intro p hp
    obtain ⟨c', h1, h2⟩ := hlab p w.heap[p] (List.getElem?_eq_getElem hp)
    simp only [World.isConst, World.put, h1, h2, List.getElem?_eq_getElem hp]
  have hpos : ∀ j, ∀ p ∈ (w.tabs j).all, p < w.heap.length := by
    intro j p hp
    obtain ⟨c, hc⟩ := live_lt hw hp
    exact (List.getElem?_eq_some_iff.mp hc).1
  refine ⟨⟨?_, ?_, ?_, ?_, ?_⟩, ?_⟩
  · intro j
    by_cases hj : j = k
    · subst hj
      rw [hown]
      refine ⟨g2'.heap, ?_, fun p hp => hR.on p (hR.mem p hp)⟩
      rw [← hR.tabs]; exact hW2
    · rw [hsame j hj]
      obtain ⟨H, h1, h2⟩ := hw.ok j
      exact ⟨H, h1, fun p hp => (h2 p hp).trans (hcell j p hp).symm⟩
  · have key : ∀ j, j ≠ k → ∀ p, p ∈ (w.tabs j).all → p ∉ g'.all := fun j hj p hp hq => hfar j hj p hp (hR.mem p hq)
    intro i j p hi hj
    by_cases ei : i = k
    · by_cases ej : j = k
      · rw [ei, ej]
      · subst ei
        rw [hown] at hi; rw [hsame j ej] at hj
        exact absurd hi (key j ej p hj)
    · rw [hsame i ei] at hi
      by_cases ej : j = k
      · subst ej
        rw [hown] at hj
        exact absurd hj (key i ei p hi)
      · rw [hsame j ej] at hj
        exact hw.sep i j p hi hj
  · intro p c hn hc
    have hc' : g'.heap[p]? = some c := hc
    have hnk : p ∉ g'.all := by have := hn k; rw [hown] at this; exact this
    by_cases hS : touched w k cs p
    · have h2 : g2'.heap[p]? = some c := by rw [hR.on p hS]; exact hc'
      rcases hW2.inv.ids p c h2 with ⟨h3, _⟩ | ⟨i, _, h3⟩
      · exact ⟨h3, hW2.raw p c id h2 h3⟩
      · rw [hall] at h3
        exact absurd (List.mem_of_getElem? h3) hnk
    · rw [hR.off p hS] at hc'
      refine hw.raw p c (fun j hj => ?_) hc'
      by_cases ej : j = k
      · subst ej; exact hS (Or.inr (Or.inl hj))
      · exact hn j (by rw [hsame j ej]; exact hj)
  · intro p j hp
    simp only [World.put] at hp
    by_cases hl : p < w.heap.length
    · rw [if_pos hl] at hp
      have := hw.home1 p j hp
      by_cases ej : j = k
      · subst ej; rw [hown]; exact hpre.subset this
      · rw [hsame j ej]; exact this
    · rw [if_neg hl] at hp
      split at hp
      · next hm =>
        simp only [Option.some.injEq] at hp
        subst hp
        rw [hown]
        simpa using hm
      · cases hp
  · intro p j hp hn
    simp only [World.put] at hn
    by_cases hl : p < w.heap.length
    · rw [if_pos hl] at hn
      rw [hlabel p hl]
      by_cases ej : j = k
      · subst ej
        rw [hown] at hp
        rcases hR.mem p hp with h | h | h
        · exact absurd hl (Nat.not_lt.mpr h)
        · exact hw.home2 p j h hn
        · exact hcc p h hn
      · rw [hsame j ej] at hp
        exact hw.home2 p j hp hn
    · rw [if_neg hl] at hn
      by_cases ej : j = k
      · subst ej
        rw [hown] at hp
        rw [if_pos (by simpa using hp)] at hn
        cases hn
      · rw [hsame j ej] at hp
        exact absurd (hpos j p hp) hl
  · intro j p hp
    refine ⟨?_, hcell j p hp⟩
    by_cases ej : j = k
    · subst ej; rw [hown]; exact hpre.subset hp
    · rw [hsame j ej]; exact hp

/-- The rule a program has to follow: a constant that is in a graph is used only with operands of that graph, and nothing
but constants is graphless. -/
def Proper (P : Params L) (w : World L) : Call L → Prop
  | .newConst _ => True
  | .input _ _ => True
  | .addConst k p => ∀ j, p ∈ (w.tabs j).all → j = k
  | .apply _ cs => ∀ c ∈ cs, (w.home c = none → w.isConst P c = true) ∧
      (w.isConst P c = true → ∀ j, c ∈ (w.tabs j).all ∨ w.home c = some j → ∀ d ∈ cs, ∀ i, w.home d = some i → i = j)

/-- All calls follow the rule. -/
def ProperRun (P : Params L) (w : World L) : List (Call L) → Prop
  | [] => True
  | o :: os => Proper P w o ∧ ∀ w', w.step P o = some w' → ProperRun P w' os

theorem WInv_empty : WInv P (World.empty : World L) := by
  refine ⟨fun k => ⟨[], W_empty, ?_⟩, ?_, ?_, ?_, ?_⟩ <;> simp [World.empty, Graph.empty]

theorem apply_inv {w : World L} (hw : WInv P w) {k : Nat} {l : L} {cs : List Ptr}
    (hcs : ∀ c ∈ cs, ∀ j, c ∈ (w.tabs j).all → j = k)
    (hcc : ∀ c ∈ cs, w.home c = none → w.isConst P c = true) {g' : G L} {m : Ptr}
    (h : newUniqueNode P (w.graph k) l cs = some (g', m)) :
    WInv P (w.put k g') ∧
    ∀ j, ∀ p ∈ (w.tabs j).all, p ∈ ((w.put k g').tabs j).all ∧ (w.put k g').heap[p]? = w.heap[p]? := by
  obtain ⟨hW, hR⟩ := rel_start hw k cs hcs
  obtain ⟨g2', h2, hR'⟩ := hR.newUniqueNode (fun c hc => Or.inr (Or.inr hc)) h
  obtain ⟨hW2, _, hpre, hkeep⟩ := W_newUniqueNode hW h2
  have hall : g2'.all = g'.all := by rw [hR'.tabs]
  refine put_inv hw hcs hcc hR' hW2 (hall ▸ hpre) ?_ ?_
  · intro q hq
    rw [hkeep q hq]
    exact hR.on q (Or.inr (Or.inl hq))
  · intro p c hc
    exact newUniqueNode_labels h hc

/-- One call that follows the rule. -/
theorem step_inv {w w' : World L} (hw : WInv P w) {o : Call L} (ho : Proper P w o) (h : w.step P o = some w') :
    WInv P w' ∧ ∀ j, ∀ p ∈ (w.tabs j).all, p ∈ (w'.tabs j).all ∧ w'.heap[p]? = w.heap[p]? := by
  cases o with
  | newConst l =>
    simp only [World.step] at h
    by_cases hl : P.isConst l = true
    · simp only [hl, if_true, newNode, Graph.hashes, Option.some.injEq] at h
      have hg : ∀ j, ∀ p ∈ (w.tabs j).all, w'.heap[p]? = w.heap[p]? := by
        intro j p hp
        obtain ⟨c, hc⟩ := live_lt hw hp
        rw [← h, hc]
        exact getElem?_append_of_some hc
      have ht : w'.tabs = w.tabs := by rw [← h]
      have hh : w'.home = w.home := by rw [← h]
      refine ⟨⟨?_, ?_, ?_, ?_, ?_⟩, fun j p hp => ⟨by rw [ht]; exact hp, hg j p hp⟩⟩
      · intro k
        obtain ⟨H, h1, h2⟩ := hw.ok k
        rw [ht]
        exact ⟨H, h1, fun p hp => (h2 p hp).trans (hg k p hp).symm⟩
      · rw [ht]; exact hw.sep
      · intro p c hn hc
        rw [ht] at hn
        rw [← h] at hc
        rcases getElem?_append_cell hc with hc | ⟨_, hc⟩
        · exact hw.raw p c hn hc
        · rw [hc]; exact ⟨rfl, rfl⟩
      · rw [ht, hh]; exact hw.home1
      · intro p k hp hn
        rw [ht] at hp; rw [hh] at hn
        have := hw.home2 p k hp hn
        simp only [World.isConst, hg k p hp] at this ⊢
        exact this
    · rw [if_neg hl] at h
      simp only [Option.some.injEq] at h
      subst h
      exact ⟨hw, fun j p hp => ⟨hp, rfl⟩⟩
  | input k l =>
    simp only [World.step] at h
    cases h1 : newUniqueNode P (w.graph k) l [] with
    | none => rw [h1] at h; cases h
    | some x =>
      obtain ⟨g', m⟩ := x
      simp only [h1, Option.some.injEq] at h
      subst h
      exact apply_inv hw (by simp) (by simp) h1
  | addConst k p =>
    simp only [World.step] at h
    by_cases hc : w.isConst P p = true
    · simp only [hc, if_true] at h
      cases h1 : addNode P (w.graph k) p with
      | none => rw [h1] at h; cases h
      | some x =>
        obtain ⟨g', m⟩ := x
        simp only [h1, Option.some.injEq] at h
        subst h
        have hcs : ∀ c ∈ [p], ∀ j, c ∈ (w.tabs j).all → j = k := by
          intro c hc j hj
          simp only [List.mem_singleton] at hc
          subst hc
          exact ho j hj
        obtain ⟨hW, hR⟩ := rel_start hw k [p] hcs
        obtain ⟨g2', h2, hR', _⟩ := hR.addNode (Or.inr (Or.inr (List.mem_singleton.mpr rfl))) h1
        have hall : g2'.all = g'.all := by rw [hR'.tabs]
        have hlive : ∃ n, ({ w.tabs k with heap := maskHeap w k [p] } : G L).heap[p]? = some n := by
          rw [hR.on p (Or.inr (Or.inr (List.mem_singleton.mpr rfl)))]
          simp only [World.isConst] at hc
          cases hp : w.heap[p]? with
          | none => rw [hp] at hc; cases hc
          | some n => exact ⟨n, hp⟩
        obtain ⟨n, hn⟩ := hlive
        obtain ⟨g3, m3, e3, hW2, _, hpre, _, _, hkeep⟩ := W_addNode hW hn
        rw [h2] at e3
        simp only [Option.some.injEq, Prod.mk.injEq] at e3
        obtain ⟨rfl, _⟩ := e3
        refine put_inv hw hcs ?_ hR' hW2 (hall ▸ hpre) ?_ ?_
        · intro c hm _
          simp only [List.mem_singleton] at hm
          subst hm
          exact hc
        · intro q hq
          rw [hkeep q hq]
          exact hR.on q (Or.inr (Or.inl hq))
        · intro q c hq
          obtain ⟨c', h3, h4⟩ := (addNode_ext h1).1 q c hq
          exact ⟨c', h3, h4.1⟩
    · rw [if_neg hc] at h
      simp only [Option.some.injEq] at h
      subst h
      exact ⟨hw, fun j p hp => ⟨hp, rfl⟩⟩
  | apply l cs =>
    simp only [World.step] at h
    cases hk : chooseGraph w.home (w.isConst P) cs with
    | none =>
      rw [hk] at h
      simp only [Option.some.injEq] at h
      subst h
      exact ⟨hw, fun j p hp => ⟨hp, rfl⟩⟩
    | some k =>
      simp only [hk] at h
      have hex : ∃ d ∈ cs, w.home d = some k := by
        simp only [chooseGraph] at hk
        cases hf : firstHome w.home cs with
        | none => rw [hf] at hk; cases hk
        | some i =>
          simp only [hf] at hk
          split at hk
          · rw [← Option.some.inj hk]; exact firstHome_some _ _ _ hf
          · cases hk
      cases h1 : newUniqueNode P (w.graph k) l cs with
      | none => rw [h1] at h; cases h
      | some x =>
        obtain ⟨g', m⟩ := x
        simp only [h1, Option.some.injEq] at h
        subst h
        refine apply_inv hw ?_ (fun c hc => (ho c hc).1) h1
        intro c hc j hj
        by_cases hcc : w.isConst P c = true
        · obtain ⟨d, hd, hdk⟩ := hex
          exact ((ho c hc).2 hcc j (Or.inl hj) d hd k hdk).symm
        · have hcf : w.isConst P c = false := by simpa using hcc
          have hj2 : w.home c = some j := by
            cases hh : w.home c with
            | none => exact absurd ((ho c hc).1 hh) hcc
            | some i => rw [hw.sep i j c (hw.home1 c i hh) hj]
          have hk2 : w.home c = some k := by
            refine chooseGraph_right w.home (w.isConst P) cs k ?_ hk hc hcf
            intro a ha hac d hd hdf
            cases hha : w.home a with
            | none => exact Or.inl rfl
            | some i =>
              right
              cases hhd : w.home d with
              | none => rw [(ho d hd).1 hhd] at hdf; cases hdf
              | some e => rw [(ho a ha).2 hac i (Or.inr hha) d hd e hhd]
          rw [hj2] at hk2
          exact Option.some.inj hk2

theorem run_inv : ∀ (os : List (Call L)) {w w' : World L}, WInv P w → ProperRun P w os → w.run P os = some w' →
    WInv P w' ∧ ∀ j, ∀ p ∈ (w.tabs j).all, p ∈ (w'.tabs j).all ∧ w'.heap[p]? = w.heap[p]? := by
  intro os
  induction os with
  | nil =>
    intro w w' hw _ h
    simp only [World.run, Option.some.injEq] at h
    subst h
    exact ⟨hw, fun j p hp => ⟨hp, rfl⟩⟩
  | cons o os ih =>
    intro w w' hw ho h
    simp only [World.run] at h
    cases h1 : w.step P o with
    | none => rw [h1] at h; cases h
    | some w1 =>
      simp only [h1] at h
      obtain ⟨hw1, k1⟩ := step_inv hw ho.1 h1
      obtain ⟨hw2, k2⟩ := ih hw1 (ho.2 w1 h1) h
      exact ⟨hw2, fun j p hp => ⟨(k2 j p (k1 j p hp).1).1, (k2 j p (k1 j p hp).1).2.trans (k1 j p hp).2⟩⟩

theorem node_agree (g : G L) (H : List (Cell L)) (hH : ∀ p ∈ g.all, H[p]? = g.heap[p]?) (id : Int) :
    (node { g with heap := H } id).2 = (node g id).2 := by
  have hf : findIdx { g with heap := H } id = findIdx g id := by
    simp only [findIdx]
    have : ∀ l : List Ptr, (∀ q ∈ l, H[q]? = g.heap[q]?) →
        l.findIdx? (fun p => match H[p]? with | some c => c.id == id | none => false) =
        l.findIdx? (fun p => match g.heap[p]? with | some c => c.id == id | none => false) := by
      intro l
      induction l with
      | nil => intro _; rfl
      | cons a l ih =>
        intro hl
        simp only [List.findIdx?_cons, hl a List.mem_cons_self, ih (fun q hq => hl q (List.mem_cons_of_mem _ hq))]
    exact this g.all hH
  simp only [Graph.node, hf]
  cases g.byID id with
  | some i => rfl
  | none =>
    cases findIdx g id with
    | none => rfl
    | some i => rfl

/-- **C131 (graphs do not disturb each other).** In a program that uses the constants of a graph with that graph only,
however the calls on the graphs are interleaved: no node is in two graphs; in every graph the node at place `i` has
ID `i`, looking up an ID finds exactly the member that has it, and operands of members are members of the same graph. -/
theorem graphs_apart {os : List (Call L)} {w : World L} (hp : ProperRun P World.empty os)
    (h : World.empty.run P os = some w) :
    (∀ j k p, p ∈ (w.tabs j).all → p ∈ (w.tabs k).all → j = k) ∧
    (∀ (k i : Nat) (p : Ptr), (w.tabs k).all[i]? = some p → (w.heap[p]?).map (·.id) = some (i : Int)) ∧
    (∀ k p id, (node (w.graph k) id).2 = some p ↔ p ∈ (w.tabs k).all ∧ (w.heap[p]?).map (·.id) = some id) ∧
    (∀ k p c, p ∈ (w.tabs k).all → w.heap[p]? = some c → ∀ q ∈ c.children, q ∈ (w.tabs k).all) := by
  obtain ⟨hw, _⟩ := run_inv os WInv_empty hp h
  have hid : ∀ (k i : Nat) (p : Ptr), (w.tabs k).all[i]? = some p → (w.heap[p]?).map (·.id) = some (i : Int) := by
    intro k i p hi
    obtain ⟨H, hW, hH⟩ := hw.ok k
    obtain ⟨c, hc, e⟩ := hW.inv.pos i p hi
    rw [← hH p (List.mem_of_getElem? hi), show H[p]? = some c from hc]
    simp [e]
  refine ⟨hw.sep, hid, ?_, ?_⟩
  · intro k p id
    obtain ⟨H, hW, hH⟩ := hw.ok k
    rw [← node_agree (w.graph k) H hH]
    obtain ⟨_, _, hn⟩ := node_spec hW.inv id
    have hn' : (node { w.graph k with heap := H } id).2 = some p ↔ ∃ i : Nat, id = i ∧ (w.tabs k).all[i]? = some p := hn p
    rw [hn']
    constructor
    · rintro ⟨i, rfl, hi⟩
      exact ⟨List.mem_of_getElem? hi, hid k i p hi⟩
    · rintro ⟨hm, he⟩
      obtain ⟨i, hi⟩ := List.mem_iff_getElem?.mp hm
      rw [hid k i p hi] at he
      exact ⟨i, (Option.some.inj he).symm, hi⟩
  · intro k p c hm hc q hq
    obtain ⟨H, hW, hH⟩ := hw.ok k
    obtain ⟨d, hd, h0, _⟩ := hW.inv.kids p c (by rw [← hc]; exact hH p hm) q hq
    exact (hW.inv.mem_iff hd).2 h0

/-- **C131 (no call changes an existing node).** Continuing such a program leaves every node of every graph in its graph,
with the same ID, operands and label. -/
theorem graphs_kept {os os' : List (Call L)} {w w' : World L} (hp : ProperRun P World.empty os)
    (h : World.empty.run P os = some w) (hp' : ProperRun P w os') (h' : w.run P os' = some w') :
    ∀ j, ∀ p ∈ (w.tabs j).all, p ∈ (w'.tabs j).all ∧ w'.heap[p]? = w.heap[p]? :=
  (run_inv os' (run_inv os WInv_empty hp h).1 hp' h').2

/-- Labels of the cases below, with a hash that tells them apart. -/
def apartP : Params (String × Bool) where
  hash := fun l hs => hs.foldl (fun a h => a * 31 + h) l.1.length.toUInt32
  eq := fun a k b k' => a == b && k == k'
  isConst := fun l => l.2
  name := fun l => l.1

/-- Two graphs: graph 1 has the inputs `yy` and `xxx`, graph 0 has the constant `c`. Object 0 is the constant the user
made, object 1 its copy in graph 0, objects 2 and 3 are `yy` and `xxx`. -/
def twoGraphs : List (Call (String × Bool)) :=
  [.newConst ("c", true), .addConst 0 0, .input 1 ("yy", false), .input 1 ("xxx", false)]

/-- **C131 (defect).** Multiplying graph 0's constant with `yy` is accepted and goes to graph 0: `yy` is then in both graphs
and has the ID of `xxx`, so that graph 1 has two nodes with ID 1 and none with ID 0, and looking up ID 1 in graph 1 finds
`yy`, not `xxx`. -/
theorem foreign_constant_wrong :
    (∃ w, World.empty.run apartP (twoGraphs ++ [.apply ("mult", false) [1, 2]]) = some w ∧
      (w.tabs 1).all = [2, 3] ∧ 2 ∈ (w.tabs 0).all ∧
      (w.heap[2]?).map (·.id) = some 1 ∧ (w.heap[3]?).map (·.id) = some 1 ∧
      (node (w.graph 1) 0).2 = none ∧ (node (w.graph 1) 1).2 = some 2) :=
  ⟨_, rfl, by decide +kernel⟩

/-- **C131 (defect, with a collision).** When the hash of the constant collides in graph 1 it is not copied: in either order
graph 0's only node is then also in graph 1 and has lost its ID in graph 0. -/
theorem foreign_constant_collision :
    ∃ w, World.empty.run demo (twoGraphs ++ [.apply ("mult", false) [2, 1]]) = some w ∧
      (w.tabs 0).all = [1] ∧ (w.tabs 1).all = [2, 3, 1, 4] ∧ (w.heap[1]?).map (·.id) = some 2 ∧
      (node (w.graph 0) 0).2 = none :=
  ⟨_, rfl, by decide +kernel⟩

/-- In the other order, or with the constant the user made, `yy` stays where it was. -/
example : ∀ cs ∈ [[2, 1], [0, 2], [2, 0]], ∃ w,
    World.empty.run apartP (twoGraphs ++ [.apply ("mult", false) cs]) = some w ∧
      (w.tabs 1).all = [2, 3, 4, 5] ∧ (w.tabs 0).all = [1] ∧
      (node (w.graph 1) 0).2 = some 2 ∧ (node (w.graph 1) 1).2 = some 3 := by
  intro cs hcs
  simp only [List.mem_cons, List.not_mem_nil, or_false] at hcs
  rcases hcs with rfl | rfl | rfl <;> exact ⟨_, rfl, by decide +kernel⟩

/-- Operands of two graphs are refused. -/
example : ∃ w, World.empty.run apartP (twoGraphs ++ [.input 0 ("zzzzz", false), .apply ("mult", false) [2, 4]]) = some w ∧
    (w.tabs 1).all = [2, 3] ∧ (w.tabs 0).all = [1, 4] ∧ w.heap.length = 5 := ⟨_, rfl, by decide +kernel⟩

/-- A program that follows the rule, building two graphs at once. -/
example : ∃ w, World.empty.run apartP [.input 1 ("yy", false), .input 0 ("xxx", false), .apply ("mult", false) [0, 0]] = some w ∧
    (w.tabs 1).all = [0, 2] ∧ (w.tabs 0).all = [1] ∧
    ∀ j k p, p ∈ (w.tabs j).all → p ∈ (w.tabs k).all → j = k := by
  refine ⟨_, rfl, by decide +kernel, by decide +kernel, (graphs_apart (P := apartP) (os := [.input 1 ("yy", false),
    .input 0 ("xxx", false), .apply ("mult", false) [0, 0]]) ?_ rfl).1⟩
  refine ⟨trivial, fun w h => ⟨trivial, fun w1 h1 => ⟨?_, fun _ _ => trivial⟩⟩⟩
  cases h; cases h1
  intro c hc
  have hc : c = 0 := by simpa using hc
  subst hc
  exact ⟨fun h => absurd h (by decide +kernel), fun h => absurd h (by decide +kernel)⟩

end Verif.Graph
