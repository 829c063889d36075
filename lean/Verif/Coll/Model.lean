/-!
Model of node lists (`/repo/collections.go`), node sets (`/repo/node_set.go`) and the graph walk (`/repo/walker.go`).

A `*Node` is a natural number (its address). A `Nodes` slice is a list; methods that write into the slice are functions
to the new list. A `NodeSet` is a Go map used as a set: the model is a list of keys in *some* iteration order, and the
results hold for every duplicate-free list, hence for every iteration order.
Not modelled: printing, `Nodes.Difference`/`Intersect` (they delegate to github.com/xtgo/set); `AllSameGraph` is in Graph/Worlds.
-/
set_option autoImplicit false
namespace Verif.Coll

abbrev Ptr := Nat

/-! ### Nodes -/

/-- `Nodes.Contains`, collections.go 54-61. -/
def contains (ns : List Ptr) (want : Ptr) : Bool :=
  match ns with
  | [] => false
  | n :: ns => if n = want then true else contains ns want

/-- `Nodes.Add`, collections.go 43-51. -/
def add (ns : List Ptr) (n : Ptr) : List Ptr := if contains ns n then ns else ns ++ [n]

/-- `Nodes.Equals`, collections.go 158-169. -/
def equals (ns other : List Ptr) : Bool :=
  if ns.length ≠ other.length then false else ns.all (fun n => contains other n)

/-- `Nodes.index`, collections.go 173-180; `-1` is `none`. -/
def index (ns : List Ptr) (n : Ptr) : Option Nat :=
  match ns with
  | [] => none
  | x :: xs => if x = n then some 0 else (index xs n).map (· + 1)

/-- One exchange `ns[i], ns[o] = ns[o], ns[i]`. -/
def swap (ns : List Ptr) (i o : Nat) : List Ptr := (ns.set i (ns.getD o 0)).set o (ns.getD i 0)

/-- The loop of `Nodes.reverse`, collections.go 182-188: `i` runs from `k-1` down to `0`. -/
def reverseLoop (l : Nat) : Nat → List Ptr → List Ptr
  | 0, ns => ns
  | k + 1, ns => reverseLoop l k (swap ns k (l - 1 - k))

/-- `Nodes.reverse`, collections.go 182-188 (also `reverseNodes`, walker.go 70-75). -/
def reverse (ns : List Ptr) : List Ptr := reverseLoop ns.length (ns.length / 2) ns

/-- `Nodes.replace`, collections.go 190-197. -/
def replace (ns : List Ptr) (what wth : Ptr) : List Ptr :=
  match ns with
  | [] => []
  | n :: ns => (if n = what then wth else n) :: replace ns what wth

/-- One round of `Nodes.remove`, collections.go 203-205: shift the tail left by one and cut the last element. -/
def cutAt (ns : List Ptr) (i : Nat) : List Ptr := ns.take i ++ ns.drop (i + 1)

/-- The loop of `Nodes.remove`, collections.go 201-209; at most `fuel` rounds. -/
def removeLoop : Nat → List Ptr → Ptr → List Ptr
  | 0, ns, _ => ns
  | fuel + 1, ns, what =>
    match index ns what with
    | none => ns
    | some i => removeLoop fuel (cutAt ns i) what

/-- `Nodes.remove`, collections.go 201-209: every round shortens the list. -/
def remove (ns : List Ptr) (what : Ptr) : List Ptr := removeLoop (ns.length + 1) ns what

/-! ### NodeSet -/

/-- `NodeSet.Add`, node_set.go 33-37. -/
def sAdd (s : List Ptr) (i : Ptr) : List Ptr := if s.contains i then s else s ++ [i]

/-- `NewNodeSet`, node_set.go 15-21. -/
def newSet (a : List Ptr) : List Ptr := a.foldl sAdd []

/-- `NodeSet.IsSubset`, node_set.go 56-63. -/
def isSubset (s other : List Ptr) : Bool := s.all (fun e => other.contains e)

/-- `NodeSet.IsSuperset`, node_set.go 66-68. -/
def isSuperset (s other : List Ptr) : Bool := isSubset other s

/-- `NodeSet.ContainsAll`, node_set.go 46-53. -/
def containsAll (s i : List Ptr) : Bool := i.all (fun e => s.contains e)

/-- `NodeSet.Union`, node_set.go 71-81. -/
def union (s other : List Ptr) : List Ptr := other.foldl sAdd (s.foldl sAdd [])

/-- `NodeSet.Intersect`, node_set.go 84-101. -/
def intersect (s other : List Ptr) : List Ptr :=
  if s.length < other.length then s.foldl (fun acc e => if other.contains e then sAdd acc e else acc) []
  else other.foldl (fun acc e => if s.contains e then sAdd acc e else acc) []

/-- `NodeSet.Difference`, node_set.go 104-112. -/
def difference (s other : List Ptr) : List Ptr :=
  s.foldl (fun acc e => if !other.contains e then sAdd acc e else acc) []

/-- `NodeSet.SymmetricDifference`, node_set.go 115-119. -/
def symmetricDifference (s other : List Ptr) : List Ptr := union (difference s other) (difference other s)

/-- `NodeSet.Remove`, node_set.go 127-129. -/
def sRemove (s : List Ptr) (i : Ptr) : List Ptr := s.filter (fun x => x != i)

/-- `NodeSet.Equal`, node_set.go 152-162. -/
def sEqual (s other : List Ptr) : Bool :=
  if s.length ≠ other.length then false else s.all (fun e => other.contains e)

/-! ### Walking -/

/-- State of a walk: the visited set and the nodes emitted so far. -/
structure Walk where
  walked : List Ptr
  out : List Ptr

/-- A loop that may run out of recursion depth. -/
def loop (f : Ptr → Walk → Option Walk) : List Ptr → Walk → Option Walk
  | [], w => some w
  | c :: cs, w =>
    match f c w with
    | none => none
    | some w => loop f cs w

/-- `walkGraph`, walker.go 24-38. `children` is the operand relation. The recursion depth is bounded by `fuel`; `none`
when that is not enough (Go recurses for ever on a cycle). -/
def walkGraph (children : Ptr → List Ptr) : Nat → Ptr → Walk → Option Walk
  | 0, _, _ => none
  | fuel + 1, start, w =>
    if w.walked.contains start then some { w with walked := sAdd w.walked start }
    else
      match loop (walkGraph children fuel) (children start) { w with out := w.out ++ [start] } with
      | none => none
      | some w => some { w with walked := sAdd w.walked start }

/-- `WalkGraph`, walker.go 13-22: everything sent on the channel, in order. -/
def walkFrom (children : Ptr → List Ptr) (fuel : Nat) (start : Ptr) : Option (List Ptr) :=
  (walkGraph children fuel start ⟨[], []⟩).map (·.out)

/-- Walking from several roots with one shared visited set: `walkFromRoots`, graph.go 742-749. -/
def walkRoots (children : Ptr → List Ptr) (fuel : Nat) (roots : List Ptr) : Option (List Ptr) :=
  (loop (walkGraph children fuel) roots ⟨[], []⟩).map (·.out)

end Verif.Coll
