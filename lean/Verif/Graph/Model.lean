/-!
Model of the expression-graph store: `/repo/graph.go` and the node construction path of `/repo/node.go`.

* A `*Node` is an index into `heap` (a fresh object is an append). Go maps are functions; `g.byHash[h]` has three
  states: absent (`none`), present and nil (`some none`), present (`some (some p)`).
* What a node *is* (its operation with parameters, type, shape, name) is an abstract label `L`. The hash function, the
  label part of `nodeEq`, `isConstant` and the name are parameters `P`, so all results hold for every hash function,
  colliding or not.
* A Go panic is `none`.
Not modelled: values, groups, devices, the log/collision counters, the reuse of node objects through a pool other
than the clearing of a returned node.
-/
set_option autoImplicit false
namespace Verif.Graph

/-- Object identity of a node. -/
abbrev Ptr := Nat

/-- The parts of a node's behaviour the store depends on. -/
structure Params (L : Type) where
  /-- `Node.WriteHash`/`Hashcode`, node.go 533-566: from the node's own label and the hashes of its operands. -/
  hash : L → List UInt32 → UInt32
  /-- `nodeEq` after the pointer test, equalities.go 184-212: looks at labels and numbers of operands. -/
  eq : L → Nat → L → Nat → Bool
  /-- `isConstant`, node.go 325. -/
  isConst : L → Bool
  /-- the field `name`. -/
  name : L → String

/-- The modelled fields of `type Node struct`, node.go 25-63. `id` is `-1` until the node is in a graph. -/
structure Cell (L : Type) where
  label : L
  children : List Ptr
  hash : UInt32
  id : Int
  deriving DecidableEq

/-- `type ExprGraph struct`, graph.go 14-28, with the heap of node objects. -/
structure G (L : Type) where
  heap : List (Cell L)
  all : List Ptr
  byID : Int → Option Nat
  byHash : UInt32 → Option (Option Ptr)
  evac : UInt32 → List Ptr
  to : Ptr → Option (List Ptr)
  leaves : List Ptr
  constants : List Ptr
  roots : Option (List Ptr)
  counter : Nat

variable {L : Type}

/-- Map update. -/
def upd {α β : Type} [DecidableEq α] (f : α → β) (a : α) (b : β) : α → β := fun x => if x = a then b else f x

/-- `NewGraph`, graph.go 41-58. -/
def empty : G L :=
  { heap := [], all := [], byID := fun _ => none, byHash := fun _ => none, evac := fun _ => [],
    to := fun _ => none, leaves := [], constants := [], roots := none, counter := 0 }

/-- `nodeEq`, equalities.go 179-213. -/
def nodeEq (P : Params L) (g : G L) (a b : Ptr) : Bool :=
  a == b ||
    match g.heap[a]?, g.heap[b]? with
    | some x, some y => P.eq x.label x.children.length y.label y.children.length
    | _, _ => false

/-- `addToAll`, graph.go 188-195. -/
def addToAll (g : G L) (p : Ptr) : G L :=
  { g with
    all := g.all ++ [p]
    heap := g.heap.modify p (fun c => { c with id := g.counter })
    counter := g.counter + 1 }

/-- The deferred function of `AddNode`, graph.go 138-142. -/
def ensureTo (g : G L) (p : Ptr) : G L :=
  match g.to p with
  | some _ => g
  | none => { g with to := upd g.to p (some []) }

/-- `Nodes.Add`, collections.go 43-51. -/
def nodesAdd (ns : List Ptr) (n : Ptr) : List Ptr := if ns.contains n then ns else ns ++ [n]

/-- The test of the loop over the constants in `AddNode`, graph.go 146. -/
def nameMatch (P : Params L) (g : G L) (n : Cell L) (q : Ptr) : Bool :=
  match g.heap[q]? with
  | some c => P.name c.label == P.name n.label && P.isConst n.label
  | none => false

/-- `AddNode`, graph.go 137-186, without the deferred function. `n.clone()` of a constant (node.go 831-855) is a
fresh object with the same label. -/
def addNodeBody (P : Params L) (g : G L) (p : Ptr) (n : Cell L) : G L × Ptr :=
  match g.constants.find? (nameMatch P g n) with
  | some q => (g, q)
  | none =>
    match g.byHash n.hash with
    | some none =>
      match (g.evac n.hash).find? (fun e => nodeEq P g p e) with
      | some e => (g, e)
      | none => (addToAll { g with evac := upd g.evac n.hash (g.evac n.hash ++ [p]) } p, p)
    | some (some existing) =>
      if nodeEq P g p existing then (g, existing)
      else
        (addToAll { g with
          evac := upd g.evac n.hash [existing, p]
          byHash := upd g.byHash n.hash (some none) } p, p)
    | none =>
      if P.isConst n.label then
        let c := g.heap.length
        let g := { g with heap := g.heap ++ [{ n with id := -1 }], constants := nodesAdd g.constants c }
        let g := addToAll g c
        ({ g with byHash := upd g.byHash n.hash (some (some c)) }, c)
      else
        let g := addToAll g p
        ({ g with byHash := upd g.byHash n.hash (some (some p)) }, p)

/-- `AddNode`, graph.go 137-186. -/
def addNode (P : Params L) (g : G L) (p : Ptr) : Option (G L × Ptr) :=
  match g.heap[p]? with
  | none => none
  | some n =>
    let r := addNodeBody P g p n
    some (ensureTo r.1 r.2, r.2)

/-- `Nodes.remove`, collections.go 201-209: removes every occurrence. -/
def nodesRemove (ns : List Ptr) (n : Ptr) : List Ptr := ns.filter (fun x => x != n)

/-- `RemoveNode`, graph.go 199-211. -/
def removeNode (g : G L) (p : Ptr) : Option (G L) :=
  match g.heap[p]? with
  | none => none
  | some n =>
    if n.id = -1 then some g
    else some { g with
      byHash := upd g.byHash n.hash none
      to := upd g.to p none
      evac := upd g.evac n.hash (nodesRemove (g.evac n.hash) p)
      all := nodesRemove g.all p }

/-- First position of a node with the given ID: the loop of `node`, graph.go 536-541. -/
def findIdx (g : G L) (id : Int) : Option Nat :=
  g.all.findIdx? (fun p => match g.heap[p]? with | some c => c.id == id | none => false)

/-- `node(id)`, graph.go 529-543: consults and fills the position cache `byID`. -/
def node (g : G L) (id : Int) : G L × Option Ptr :=
  match g.byID id with
  | some idx => (g, g.all[idx]?)
  | none =>
    match findIdx g id with
    | some i => ({ g with byID := upd g.byID id (some i) }, g.all[i]?)
    | none => (g, none)

/-- `Has`, graph.go 546-549. -/
def has (g : G L) (id : Int) : G L × Bool :=
  let r := node g id
  (r.1, r.2.isSome)

/-- The two `if !g.Has(x.ID()) { x = g.AddNode(x) }` of `SetEdge`, graph.go 223-229. -/
def ensureIn (P : Params L) (g : G L) (p : Ptr) : Option (G L × Ptr) :=
  match g.heap[p]? with
  | none => none
  | some c =>
    let r := has g c.id
    if r.2 then some (r.1, p) else addNode P r.1 p

/-- `SetEdge`, graph.go 215-233. -/
def setEdge (P : Params L) (g : G L) (src dst : Ptr) : Option (G L) :=
  if src = dst then none
  else
    match ensureIn P g src with
    | none => none
    | some (g, src) =>
      match ensureIn P g dst with
      | none => none
      | some (g, dst) => some { g with to := upd g.to dst (some ((g.to dst).getD [] ++ [src])) }

/-- `fixChildren`, node.go 794-805, as a function on the operand list. -/
def fixChildren (P : Params L) (g : G L) : List Ptr → Option (G L × List Ptr)
  | [] => some (g, [])
  | c :: cs =>
    match addNode P g c with
    | none => none
    | some (g, c') =>
      match fixChildren P g cs with
      | none => none
      | some (g, cs') => some (g, c' :: cs')

/-- Loop of `fixEdges`, node.go 812-816. -/
def fixEdgesLoop (P : Params L) (g : G L) (m : Ptr) : List Ptr → Option (G L)
  | [] => some g
  | c :: cs =>
    match setEdge P g m c with
    | none => none
    | some g => fixEdgesLoop P g m cs

/-- `fixEdges`, node.go 807-820. -/
def fixEdges (P : Params L) (g : G L) (m : Ptr) : Option (G L) :=
  match g.heap[m]? with
  | none => none
  | some c =>
    if c.children = [] then some { g with leaves := g.leaves ++ [m] }
    else fixEdgesLoop P g m c.children

/-- Hashes of a list of nodes; `none` when one of them does not exist. -/
def hashes (g : G L) : List Ptr → Option (List UInt32)
  | [] => some []
  | p :: ps =>
    match g.heap[p]?, hashes g ps with
    | some c, some hs => some (c.hash :: hs)
    | _, _ => none

/-- `newNode`, node.go 271-285, for a node whose operands are already in the graph; the hash is a function of the
label and the operands' hashes, so it does not matter that Go computes it later (node.go 556-566). -/
def newNode (P : Params L) (g : G L) (l : L) (cs : List Ptr) : Option (G L × Ptr) :=
  match hashes g cs with
  | none => none
  | some hs => some ({ g with heap := g.heap ++ [{ label := l, children := cs, hash := P.hash l hs, id := -1 }] },
      g.heap.length)

/-- `returnNode`, perf.go 16-45, for a node that is not in the graph: the object goes back to the pool with its fields
cleared. The model keeps the label, drops the operands and makes the hash agree. -/
def returnNode (P : Params L) (g : G L) (p : Ptr) : G L :=
  { g with heap := g.heap.modify p (fun c => { c with children := [], hash := P.hash c.label [] }) }

/-- `NewUniqueNode`, node.go 288-301, called for a node of graph `g` by `ApplyOp` (op.go 169-214) and the node
constructors. The operands are fixed before the object is allocated; in Go it is the other way round, which only
changes the numbering of objects. -/
def newUniqueNode (P : Params L) (g : G L) (l : L) (cs : List Ptr) : Option (G L × Ptr) :=
  match fixChildren P g cs with
  | none => none
  | some (g, cs) =>
    match newNode P g l cs with
    | none => none
    | some (g, n) =>
      match addNode P g n with
      | none => none
      | some (g, m) =>
        let g := if n = m then g else returnNode P g n
        match fixEdges P g m with
        | none => none
        | some g => some (g, m)

/-- `Roots`, graph.go 236-256, for graphs without statement nodes. Go iterates over the map `to` in an arbitrary
order; the model lists the keys in the order of the heap. -/
def rootsOf (g : G L) : G L × List Ptr :=
  match g.roots with
  | some r => (g, r)
  | none =>
    let r := (List.range g.heap.length).filter (fun p => match g.to p with | some ns => ns.isEmpty | none => false)
    ({ g with roots := some r }, r)

/-- `HasEdgeFromTo`, graph.go 603-611 (the cache effect of the two lookups is dropped: it does not change later
answers, see `lookup_stable`). -/
def hasEdgeFromTo (g : G L) (u v : Int) : Bool :=
  match (node g u).2, (node g v).2 with
  | some pu, some pv =>
    match g.heap[pu]? with
    | some c => c.children.contains pv
    | none => false
  | _, _ => false

/-- `HasEdgeBetween`, graph.go 573-581. -/
def hasEdgeBetween (g : G L) (x y : Int) : Bool :=
  hasEdgeFromTo g x y || hasEdgeFromTo g y x

/-- One insertion of an insertion sort by address. -/
def insertPtr (p : Ptr) : List Ptr → List Ptr
  | [] => [p]
  | q :: qs => if p ≤ q then p :: q :: qs else q :: insertPtr p qs

/-- `sort.Sort(ns)`, collections.go 36, with the order of collections.go 27-29; equal elements are the same pointer, so
any sorting algorithm gives the same list. -/
def sortPtr : List Ptr → List Ptr
  | [] => []
  | p :: ps => insertPtr p (sortPtr ps)

/-- `set.Uniq` of github.com/xtgo/set: drops adjacent duplicates of a sorted list. -/
def uniqPtr : List Ptr → List Ptr
  | [] => []
  | [p] => [p]
  | p :: q :: ps => if p = q then uniqPtr (q :: ps) else p :: uniqPtr (q :: ps)

/-- `Nodes.Set`, collections.go 35-40. -/
def nodesSet (ns : List Ptr) : List Ptr := uniqPtr (sortPtr ns)

/-- `To`, graph.go 614-624: the direct users of a node; `none` when there is no such node. -/
def toNodes (g : G L) (id : Int) : Option (List Ptr) :=
  match (node g id).2 with
  | none => none
  | some p => some (nodesSet ((g.to p).getD []))

/-- `From`, graph.go 564-569. -/
def fromNodes (g : G L) (id : Int) : Option (List Ptr) :=
  match (node g id).2 with
  | none => none
  | some p => (g.heap[p]?).map (·.children)

/-- The calls a program can make. -/
inductive Op (L : Type) where
  /-- `NewConstant` and friends: a node object outside any graph (gorgonia.go `NewConstant`). -/
  | newConst (l : L)
  /-- applying an operation to nodes, or declaring an input (no operands). -/
  | unique (l : L) (cs : List Ptr)
  /-- `AddNode`. -/
  | add (p : Ptr)
  /-- `Node(id)`/`Has(id)`. -/
  | lookup (id : Int)
  /-- `RemoveNode`. -/
  | remove (p : Ptr)
  /-- `Roots()`. -/
  | roots

/-- Executing one call. -/
def step (P : Params L) (g : G L) : Op L → Option (G L)
  | .newConst l => (newNode P g l []).map (·.1)
  | .unique l cs => (newUniqueNode P g l cs).map (·.1)
  | .add p => (addNode P g p).map (·.1)
  | .lookup id => some (node g id).1
  | .remove p => removeNode g p
  | .roots => some (rootsOf g).1

/-- Executing a history. -/
def run (P : Params L) (g : G L) : List (Op L) → Option (G L)
  | [] => some g
  | o :: os =>
    match step P g o with
    | none => none
    | some g => run P g os

end Verif.Graph
