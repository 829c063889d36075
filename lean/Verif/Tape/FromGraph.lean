import Verif.Tape.Theorems
import Verif.Graph.Clone
import Mathlib.Data.List.Nodup
/-!
From the graph to the result of a run: `NewTapeMachine(g)` (vm_tape.go 45-83) compiles `g` (compile.go 28-59), whose
nodes were inserted by `AddNode` (graph.go 137-186), and runs the program.

`Verif.Graph` models the store, `Verif.Tape` the compiler and the machine on a sorted list of nodes. Here the sorted list
is taken from the store. The order is any list of the members in which operands come before their users; the sort
itself (toposort.go) is the subject of other properties.
-/
set_option autoImplicit false
namespace Verif.Tape

open Verif.Graph (G Ptr Params Cell Reachable operandsOf)

variable {L V : Type}

/-- What the label of a node (its operation, type, shape, name) says to the compiler and to the machine: the methods of
the interface `Op`, op.go 44-83, and the kind of the node. -/
structure View (L V : Type) where
  kind : L → Kind
  returnsPtr : L → Bool
  callsExtern : L → Bool
  overwrites : L → Int
  sem : L → OpSem V

/-- The number of let statements among the users of a node, regalloc.go 186-199. -/
def letsOf (v : View L V) (g : G L) (p : Ptr) : Nat :=
  ((g.to p).getD []).countP fun q =>
    match g.heap[q]? with
    | some c => decide (v.kind c.label = .letS)
    | none => false

/-- A node of the sorted program: operands are replaced by their positions, the hash code is `Hashcode()`
(node.go 557-566). `deriv` are the nodes that are derivatives of inputs (analysis.go 281-288). -/
def nodeOf (v : View L V) (deriv : Ptr → Bool) (g : G L) (sorted : List Ptr) (p : Ptr) : Node :=
  match g.heap[p]? with
  | none => {}
  | some c =>
    { kind := v.kind c.label, children := c.children.map fun q => sorted.idxOf q, hash := c.hash.toNat,
      returnsPtr := v.returnsPtr c.label, callsExtern := v.callsExtern c.label, overwrites := v.overwrites c.label,
      lets := letsOf v g p, derivOfInput := deriv p }

/-- The sorted program, compile.go 30-35. -/
def progOf (v : View L V) (deriv : Ptr → Bool) (g : G L) (sorted : List Ptr) : Prog :=
  sorted.map (nodeOf v deriv g sorted)

/-- The operation of the node at a position of the sorted program. -/
def semAt (v : View L V) (g : G L) (sorted : List Ptr) (i : Nat) : OpSem V :=
  match sorted[i]? with
  | none => { f := fun _ => none }
  | some p => match g.heap[p]? with
    | none => { f := fun _ => none }
    | some c => v.sem c.label

/-- What a run of the program works with; `inp` is the memory the user bound to a node with `Let`. -/
def envOf (v : View L V) (inp : Ptr → Option Nat) (over : Nat → Int) (blank : V) (g : G L) (sorted : List Ptr) : Env V :=
  { sem := semAt v g sorted, inp := fun i => (sorted[i]?).bind inp, over := over, blank := blank }

/-! ### What is assumed of the order, the labels and the hash codes -/

/-- Every member is listed once, after its operands. -/
structure Order (g : G L) (sorted : List Ptr) : Prop where
  mem : ∀ p, p ∈ sorted ↔ p ∈ g.all
  once : sorted.Nodup
  before : ∀ p ∈ sorted, ∀ q ∈ operandsOf g p, sorted.idxOf q < sorted.idxOf p

/-- Labels fit the operands: inputs, random nodes and constants have none, an operation overwrites at most one of its
operands, statements are no operands, read statements have one operand, and there are no let statements and
no nodes made by `At`. -/
structure Fits (v : View L V) (g : G L) : Prop where
  leaf : ∀ p ∈ g.all, ∀ c, g.heap[p]? = some c → v.kind c.label ∈ [Kind.arg, .random, .const] → c.children = []
  over : ∀ p ∈ g.all, ∀ c, g.heap[p]? = some c → v.overwrites c.label < c.children.length
  stmt : ∀ p ∈ g.all, ∀ q ∈ operandsOf g p, ∀ c, g.heap[q]? = some c → v.kind c.label ∉ [Kind.letS, .readS]
  read : ∀ p ∈ g.all, ∀ c, g.heap[p]? = some c → v.kind c.label = .readS → c.children.length = 1
  nolet : ∀ p ∈ g.all, ∀ c, g.heap[p]? = some c → v.kind c.label ≠ .letS
  noat : ∀ p ∈ g.all, ∀ c, g.heap[p]? = some c → v.kind c.label ≠ .atS

/-- The hash does not collide on the graph: members with the same hash code are equal for `nodeEq`. -/
def NoCollision (P : Params L) (g : G L) : Prop :=
  ∀ p ∈ g.all, ∀ q ∈ g.all, ∀ c d, g.heap[p]? = some c → g.heap[q]? = some d → c.hash = d.hash →
    Graph.nodeEq P g p q = true

/-- Meaning of a graph, without reference to an order or a machine: an input denotes what was bound to it, an
operation the result of applying it to what its operands denote. -/
structure Denotes (v : View L V) (inp : Ptr → Option Nat) (mem : Nat → V) (g : G L) (d : Ptr → Option V) : Prop where
  input : ∀ p ∈ g.all, ∀ c, g.heap[p]? = some c → v.kind c.label = .arg → d p = (inp p).map mem
  op : ∀ p ∈ g.all, ∀ c, g.heap[p]? = some c → v.kind c.label ∈ [Kind.random, .const, .op] →
    d p = (c.children.mapM d).bind (v.sem c.label).f

/-! ### The store keeps equal nodes apart only when they differ -/

variable {P : Params L} {g : G L}

/-- **C109 (members differ).** Two different members of a graph are never equal for `nodeEq` with the same hash code, in the
direction in which they were compared when the later one was inserted. -/
theorem members_differ (h : Reachable P g) {p q : Ptr} (hp : p ∈ g.all) (hq : q ∈ g.all) (hne : p ≠ q)
    {c d : Cell L} (hc : g.heap[p]? = some c) (hd : g.heap[q]? = some d) (he : c.hash = d.hash) :
    Graph.nodeEq P g p q = false ∨ Graph.nodeEq P g q p = false := by
  have I := h.W.inv
  rcases I.bucket p hp c hc with h1 | ⟨h1, h2⟩
  · rcases I.bucket q hq d hd with h3 | ⟨h3, _⟩
    · rw [← he, h1] at h3; cases h3; exact absurd rfl hne
    · rw [← he, h1] at h3; cases h3
  · rcases I.bucket q hq d hd with h3 | ⟨_, h4⟩
    · rw [← he, h1] at h3; cases h3
    · rw [← he] at h4
      have S := I.sep c.hash h1
      obtain ⟨i, hi, ei⟩ := List.getElem_of_mem h2
      obtain ⟨j, hj, ej⟩ := List.getElem_of_mem h4
      rw [List.pairwise_iff_getElem] at S
      rcases Nat.lt_trichotomy i j with l | l | l
      · have := S i j hi hj l; rw [ei, ej] at this; exact .inr this
      · subst l; rw [ei] at ej; exact absurd ej hne
      · have := S j i hj hi l; rw [ei, ej] at this; exact .inl this

/-- **C109 (hash codes).** If the hash does not collide on the graph, different members have different hash codes. -/
theorem hashes_differ (h : Reachable P g) (hu : NoCollision P g) {p q : Ptr} (hp : p ∈ g.all) (hq : q ∈ g.all)
    {c d : Cell L} (hc : g.heap[p]? = some c) (hd : g.heap[q]? = some d) (he : c.hash = d.hash) : p = q := by
  by_contra hne
  rcases members_differ h hp hq hne hc hd he with h1 | h1
  · rw [hu p hp q hq c d hc hd he] at h1; cases h1
  · rw [hu q hq p hp d c hd hc he.symm] at h1; cases h1

/-! ### The sorted program -/

variable {v : View L V} {deriv : Ptr → Bool} {sorted : List Ptr}

theorem progOf_length : (progOf v deriv g sorted).length = sorted.length := by simp [progOf]

theorem progOf_node (i : Nat) (hi : i < sorted.length) :
    (progOf v deriv g sorted).node i = nodeOf v deriv g sorted sorted[i] := by
  simp [Prog.node, progOf, hi]

theorem member_cell (h : Reachable P g) (hs : Order g sorted) (i : Nat) (hi : i < sorted.length) :
    ∃ c, g.heap[sorted[i]]? = some c ∧ sorted[i] ∈ g.all ∧ operandsOf g sorted[i] = c.children := by
  have hm : sorted[i] ∈ g.all := (hs.mem _).1 (List.getElem_mem hi)
  obtain ⟨c, hc⟩ := h.W.inv.live _ hm
  exact ⟨c, hc, hm, by simp [operandsOf, hc]⟩

theorem operand_mem (h : Reachable P g) {p q : Ptr} {c : Cell L} (hc : g.heap[p]? = some c) (hq : q ∈ c.children) :
    q ∈ g.all := by
  obtain ⟨d, hd, h0, _⟩ := h.W.inv.kids p c hc q hq
  exact (h.W.inv.mem_iff hd).2 h0

theorem lets_zero (h : Reachable P g) (hf : Fits v g) (p : Ptr) : letsOf v g p = 0 := by
  unfold letsOf
  rw [List.countP_eq_zero]
  intro q hq
  cases ht : g.to p with
  | none => rw [ht] at hq; simp at hq
  | some ns =>
    rw [ht] at hq
    obtain ⟨hqm, c, hc, _⟩ := (h.W.inv.toSound p ns ht).2 q hq
    simp [hc, hf.nolet q hqm c hc]

theorem prog_wf (h : Reachable P g) (hs : Order g sorted) (hf : Fits v g) : WF (progOf v deriv g sorted) := by
  have out : ∀ i, sorted.length ≤ i → (progOf v deriv g sorted).node i = {} := fun i hi =>
    node_out _ i (by rw [progOf_length]; exact hi)
  refine ⟨?_, ?_, ?_, ?_⟩
  · intro i hi x hx
    rw [progOf_length] at hi
    obtain ⟨c, hc, hm, ho⟩ := member_cell h hs i hi
    rw [progOf_node i hi] at hx
    simp only [nodeOf, hc, List.mem_map] at hx
    obtain ⟨q, hq, rfl⟩ := hx
    have := hs.before sorted[i] (List.getElem_mem hi) q (by rw [ho]; exact hq)
    rwa [hs.once.idxOf_getElem i hi] at this
  · intro i hl
    rcases Nat.lt_or_ge i sorted.length with hi | hi
    · obtain ⟨c, hc, hm, ho⟩ := member_cell h hs i hi
      rw [progOf_node i hi] at hl ⊢
      simp only [nodeOf, hc, List.map_eq_nil_iff] at hl ⊢
      refine hf.leaf _ hm c hc ?_
      simp only [Node.live] at hl
      cases hk : v.kind c.label <;> rw [hk] at hl <;> simp_all
    · rw [out i hi]
  · intro i hi x hx
    rw [progOf_length] at hi
    obtain ⟨c, hc, hm, ho⟩ := member_cell h hs i hi
    rw [progOf_node i hi] at hx
    simp only [nodeOf, hc, List.mem_map] at hx
    obtain ⟨q, hq, rfl⟩ := hx
    have hqs : q ∈ sorted := (hs.mem q).2 (operand_mem h hc hq)
    have hlt := List.idxOf_lt_length_of_mem hqs
    obtain ⟨e, he, _, _⟩ := member_cell h hs _ hlt
    rw [progOf_node _ hlt]
    have hg : sorted[sorted.idxOf q] = q := List.getElem_idxOf hlt
    have := hf.stmt _ hm q (by rw [ho]; exact hq) e (by rw [← hg]; exact he)
    have hna := hf.noat q (operand_mem h hc hq) e (by rw [← hg]; exact he)
    rw [List.mem_cons, List.mem_singleton, not_or] at this
    simp only [nodeOf, he, Node.stmt]
    cases hk : v.kind e.label <;> simp_all
  · intro i
    rcases Nat.lt_or_ge i sorted.length with hi | hi
    · obtain ⟨c, hc, hm, ho⟩ := member_cell h hs i hi
      rw [progOf_node i hi]
      simpa only [nodeOf, hc, List.length_map] using hf.over _ hm c hc
    · rw [out i hi]; decide

theorem prog_nolet (h : Reachable P g) (hs : Order g sorted) (hf : Fits v g) : NoLet (progOf v deriv g sorted) := by
  intro i
  rcases Nat.lt_or_ge i sorted.length with hi | hi
  · obtain ⟨c, hc, _, _⟩ := member_cell h hs i hi
    rw [progOf_node i hi]
    simp only [nodeOf, hc, lets_zero h hf]
    decide
  · rw [node_out _ i (by rw [progOf_length]; exact hi)]; decide

/-- **C109 (nothing is merged).** Compiling a graph whose hash codes do not collide merges no nodes. -/
theorem prog_noclash (h : Reachable P g) (hs : Order g sorted) (hu : NoCollision P g) :
    NoClash (progOf v deriv g sorted) := by
  intro i j hi hj he
  rw [progOf_length] at hi hj
  obtain ⟨c, hc, hm, _⟩ := member_cell h hs i hi
  obtain ⟨d, hd, hm', _⟩ := member_cell h hs j hj
  rw [progOf_node i hi, progOf_node j hj] at he
  simp only [nodeOf, hc, hd] at he
  have := hashes_differ h hu hm hm' hc hd (UInt32.toNat_inj.1 he)
  exact (List.Nodup.getElem_inj_iff hs.once).1 this

/-! ### Running it -/

/-- The operations are what they claim, and `B` bounds the memory of the user and of constants: memory an operation
holds itself belongs to a constant and holds its value; a result in the memory of an operand has its content. -/
structure SemFits (v : View L V) (inp : Ptr → Option Nat) (mem : Nat → V) (B : Nat) : Prop where
  inp : ∀ p a, inp p = some a → a < B
  static : ∀ l a, (v.sem l).ret = .static a → v.kind l = .const ∧ a < B ∧ (v.sem l).f [] = some (mem a)
  share : ∀ l k, (v.sem l).ret = .alias k → ∀ vs y, (v.sem l).f vs = some y → vs[k]? = some y

variable {inp : Ptr → Option Nat} {over : Nat → Int} {blank : V} {mem : Nat → V} {B : Nat}

theorem semAt_eq (i : Nat) (hi : i < sorted.length) {c : Cell L} (hc : g.heap[sorted[i]]? = some c) :
    semAt v g sorted i = v.sem c.label := by
  simp [semAt, List.getElem?_eq_getElem hi, hc]

theorem prog_sem (h : Reachable P g) (hs : Order g sorted) (hf : Fits v g) (S : SemFits v inp mem B) :
    SemOK (progOf v deriv g sorted) (envOf v inp over blank g sorted) mem B := by
  refine ⟨?_, ?_, ?_, ?_⟩
  · intro i a he
    simp only [envOf] at he
    cases hi : sorted[i]? with
    | none => rw [hi] at he; cases he
    | some p => rw [hi] at he; exact S.inp p a he
  · intro i a hi hr
    rw [progOf_length] at hi
    obtain ⟨c, hc, hm, _⟩ := member_cell h hs i hi
    simp only [envOf, semAt_eq i hi hc] at hr ⊢
    obtain ⟨s1, s2, s3⟩ := S.static _ a hr
    refine ⟨?_, s2, s3⟩
    rw [progOf_node i hi]
    simp only [nodeOf, hc, s1]
  · intro i k hi hr
    rw [progOf_length] at hi
    obtain ⟨c, hc, hm, _⟩ := member_cell h hs i hi
    simp only [envOf, semAt_eq i hi hc] at hr ⊢
    exact S.share _ k hr
  · intro i hi hk
    rw [progOf_length] at hi
    obtain ⟨c, hc, hm, _⟩ := member_cell h hs i hi
    rw [progOf_node i hi] at hk ⊢
    simp only [nodeOf, hc, List.length_map] at hk ⊢
    exact hf.read _ hm c hc hk

theorem mapM_map_idx (d : Ptr → Option V) (ev : Nat → Option V) (idx : Ptr → Nat) :
    ∀ l : List Ptr, (∀ q ∈ l, ev (idx q) = d q) → (l.map idx).mapM ev = l.mapM d
  | [], _ => rfl
  | a :: l, hl => by
    rw [List.map_cons, List.mapM_cons, List.mapM_cons, hl a (by simp),
      mapM_map_idx d ev idx l (fun q hq => hl q (by simp [hq]))]

/-- The value the sorted program gives to a position is what the graph means. -/
theorem value_denotes (h : Reachable P g) (hs : Order g sorted) (hf : Fits v g) {d : Ptr → Option V}
    (D : Denotes v inp mem g d) (i : Nat) (hi : i < sorted.length)
    (hst : ((progOf v deriv g sorted).node i).stmt = false) :
    value (progOf v deriv g sorted) (envOf v inp over blank g sorted) mem i = d sorted[i] := by
  have W := prog_wf (deriv := deriv) h hs hf
  induction i using Nat.strong_induction_on with
  | _ i ih =>
    obtain ⟨c, hc, hm, ho⟩ := member_cell h hs i hi
    rw [value_eq _ W _ _ i (by rw [progOf_length]; exact hi)]
    have hn : (progOf v deriv g sorted).node i = nodeOf v deriv g sorted sorted[i] := progOf_node i hi
    have hkind : ((progOf v deriv g sorted).node i).kind = v.kind c.label := by rw [hn]; simp only [nodeOf, hc]
    have hkids : ((progOf v deriv g sorted).node i).children = c.children.map fun q => sorted.idxOf q := by
      rw [hn]; simp only [nodeOf, hc]
    have kids : (((progOf v deriv g sorted).node i).children).mapM
        (value (progOf v deriv g sorted) (envOf v inp over blank g sorted) mem) = c.children.mapM d := by
      rw [hkids]
      apply mapM_map_idx
      intro q hq
      have hqs : q ∈ sorted := (hs.mem q).2 (operand_mem h hc hq)
      have hlt := List.idxOf_lt_length_of_mem hqs
      have hb := hs.before sorted[i] (List.getElem_mem hi) q (by rw [ho]; exact hq)
      rw [hs.once.idxOf_getElem i hi] at hb
      have hst' := W.nostmt i (by rw [progOf_length]; exact hi) (sorted.idxOf q)
        (by rw [hkids]; exact List.mem_map.2 ⟨q, hq, rfl⟩)
      rw [ih _ hb hlt hst', List.getElem_idxOf hlt]
    unfold evalNode
    rw [hkind, kids]
    simp only [Node.stmt, hkind] at hst
    have hsem : (envOf v inp over blank g sorted).sem i = v.sem c.label := semAt_eq i hi hc
    have hinp : (envOf v inp over blank g sorted).inp i = inp sorted[i] := by
      simp [envOf, List.getElem?_eq_getElem hi]
    rw [hsem, hinp]
    cases hk : v.kind c.label <;> rw [hk] at hst
    · exact (D.input _ hm c hc hk).symm
    · exact (D.op _ hm c hc (by simp [hk])).symm
    · exact (D.op _ hm c hc (by simp [hk])).symm
    · exact (D.op _ hm c hc (by simp [hk])).symm
    · cases hst
    · cases hst
    · cases hst

/-- The kind of a member. -/
def kindOf (v : View L V) (g : G L) (p : Ptr) : Kind :=
  match g.heap[p]? with
  | some c => v.kind c.label
  | none => .op

theorem mapM_filterMap (d : Ptr → Option V) : ∀ l : List Ptr, (∀ q ∈ l, d q ≠ none) → l.mapM d = some (l.filterMap d)
  | [], _ => rfl
  | a :: l, hl => by
    cases ha : d a with
    | none => exact absurd ha (hl a (by simp))
    | some x =>
      rw [List.mapM_cons, mapM_filterMap d l (fun q hq => hl q (by simp [hq])), ha, List.filterMap_cons_some ha]
      rfl

theorem range_flatMap {β : Type} (F : Nat → List β) (G : Ptr → List β) (l : List Ptr)
    (hF : ∀ i (hi : i < l.length), F i = G l[i]) : (List.range l.length).flatMap F = l.flatMap G := by
  have e : l = (List.range l.length).map (fun i => l.getD i 0) := by
    apply List.ext_getElem
    · simp
    · intro i h1 h2
      simp [h1]
  have : l.flatMap G = ((List.range l.length).map (fun i => l.getD i 0)).flatMap G := by rw [← e]
  rw [this, List.flatMap_map]
  apply List.flatMap_congr
  intro i hi
  have hi := List.mem_range.1 hi
  simp [hF i hi, hi]

/-- **C109 (a graph is computed).** For every graph built by any sequence of calls, on which the hash does not collide,
in every order, and for every machine that has not run: the compiled program runs to its end without error; it applies
every operation exactly once, in the order, to what its operands denote, and every read statement reads what its operand
denotes; afterwards every node nobody uses, every constant and every derivative of an input is bound to what it
denotes, and the memory of the user is unchanged. `Safe` is needed where an operation returns the memory of an operand. -/
theorem graph_run_partial (h : Reachable P g) (hs : Order g sorted) (hu : NoCollision P g) (hf : Fits v g) (m : M V)
    (S : SemFits v inp m.mem B) (hsafe : Safe (progOf v deriv g sorted) (envOf v inp over blank g sorted))
    (hr : ∀ r, m.regs r = none) (hB : B ≤ m.next) {d : Ptr → Option V} (D : Denotes v inp m.mem g d)
    (hd : ∀ p ∈ g.all, kindOf v g p ≠ .readS → d p ≠ none) :
    ∃ m', runAll (envOf v inp over blank g sorted)
        (compile (progOf v deriv g sorted) (g.leaves.map fun p => sorted.idxOf p)) m 0 =
          (m', (compile (progOf v deriv g sorted) (g.leaves.map fun p => sorted.idxOf p)).length, false) ∧
      m'.seen = m.seen ++ sorted.flatMap (fun p => if kindOf v g p = .arg then [] else
        [(sorted.idxOf p, (operandsOf g p).filterMap d)]) ∧
      (∀ p ∈ g.all, kindOf v g p ∉ [Kind.arg, .readS] →
        (kindOf v g p ∈ [Kind.random, .const] ∨ deriv p = true ∨ ∀ q ∈ g.all, p ∉ operandsOf g q) →
        ∃ a, m'.bound (sorted.idxOf p) = some a ∧ d p = some (m'.mem a)) ∧
      (∀ x, x < B → m'.mem x = m.mem x) := by
  have W := prog_wf (deriv := deriv) h hs hf
  have N := prog_nolet (deriv := deriv) h hs hf
  have SO : SemOK (progOf v deriv g sorted) (envOf v inp over blank g sorted) m.mem B := prog_sem h hs hf S
  have hst : ∀ i (hi : i < sorted.length), ((progOf v deriv g sorted).node i).kind = kindOf v g sorted[i] := by
    intro i hi
    obtain ⟨c, hc, _, _⟩ := member_cell h hs i hi
    rw [progOf_node i hi]; simp only [nodeOf, hc, kindOf]
  have hnl : ∀ i (hi : i < sorted.length), kindOf v g sorted[i] ≠ .letS := by
    intro i hi
    obtain ⟨c, hc, hm, _⟩ := member_cell h hs i hi
    simp only [kindOf, hc]
    exact hf.nolet _ hm c hc
  have hna : ∀ i (hi : i < sorted.length), kindOf v g sorted[i] ≠ .atS := by
    intro i hi
    obtain ⟨c, hc, hm, _⟩ := member_cell h hs i hi
    simp only [kindOf, hc]
    exact hf.noat _ hm c hc
  have hnostmt : ∀ i (hi : i < sorted.length), kindOf v g sorted[i] ≠ .readS →
      ((progOf v deriv g sorted).node i).stmt = false := by
    intro i hi hk
    have h2 := hnl i hi
    have h3 := hna i hi
    unfold Node.stmt
    rw [hst i hi]
    cases hk' : kindOf v g sorted[i] <;> simp_all
  have hrs : ∀ i (hi : i < sorted.length), ((progOf v deriv g sorted).node i).stmt = false →
      kindOf v g sorted[i] ≠ .readS := by
    intro i hi hk e
    simp only [Node.stmt, hst i hi, e] at hk
    cases hk
  have val := fun i hi hk => value_denotes (deriv := deriv) (over := over) (blank := blank) h hs hf D i hi hk
  have H : Start (progOf v deriv g sorted) (envOf v inp over blank g sorted) B m
      (g.leaves.map fun p => sorted.idxOf p) := by
    refine ⟨W, ?_, prog_noclash h hs hu, N, SO, hsafe, hr, hB⟩
    intro l hl
    obtain ⟨p, hp, rfl⟩ := List.mem_map.1 hl
    rw [progOf_length]
    exact List.idxOf_lt_length_of_mem ((hs.mem p).2 (h.listed.leaves p hp))
  obtain ⟨m', r1, r2, r3, r4, _⟩ := run_computes_partial _ _ B m _ H (by
    intro i hi hk
    rw [progOf_length] at hi
    rw [val i hi hk]
    exact hd _ ((hs.mem _).1 (List.getElem_mem hi)) (hrs i hi hk))
  refine ⟨m', r1, ?_, ?_, r4⟩
  · rw [r2, progOf_length]
    congr 1
    apply range_flatMap
    intro i hi
    obtain ⟨c, hc, hm, ho⟩ := member_cell h hs i hi
    have kids : (((progOf v deriv g sorted).node i).children).mapM
        (value (progOf v deriv g sorted) (envOf v inp over blank g sorted) m.mem) =
          some ((operandsOf g sorted[i]).filterMap d) := by
      have hkids : ((progOf v deriv g sorted).node i).children = c.children.map fun q => sorted.idxOf q := by
        rw [progOf_node i hi]; simp only [nodeOf, hc]
      have hpos : ∀ q ∈ c.children, ∃ hlt : sorted.idxOf q < sorted.length,
          ((progOf v deriv g sorted).node (sorted.idxOf q)).stmt = false := fun q hq =>
        ⟨List.idxOf_lt_length_of_mem ((hs.mem q).2 (operand_mem h hc hq)),
          W.nostmt i (by rw [progOf_length]; exact hi) _ (by rw [hkids]; exact List.mem_map.2 ⟨q, hq, rfl⟩)⟩
      rw [hkids, mapM_map_idx d _ (fun q => sorted.idxOf q), ho]
      · apply mapM_filterMap
        intro q hq
        obtain ⟨hlt, hk⟩ := hpos q hq
        have := hrs _ hlt hk
        rw [List.getElem_idxOf hlt] at this
        exact hd q (operand_mem h hc hq) this
      · intro q hq
        obtain ⟨hlt, hk⟩ := hpos q hq
        rw [val _ hlt hk, List.getElem_idxOf hlt]
    unfold expectAt
    rw [hst i hi, kids, hs.once.idxOf_getElem i hi]
    have := hnl i hi
    cases hk : kindOf v g sorted[i] <;> simp_all
  · intro p hp hk hwant
    have hps := (hs.mem p).2 hp
    have hlt := List.idxOf_lt_length_of_mem hps
    have hget : sorted[sorted.idxOf p] = p := List.getElem_idxOf hlt
    obtain ⟨c, hc, _, _⟩ := member_cell h hs _ hlt
    have hkind := hst _ hlt
    rw [hget] at hkind hc
    simp only [List.mem_cons, List.not_mem_nil, or_false, not_or] at hk
    have hnst := hnostmt _ hlt (by rw [hget]; exact hk.2)
    obtain ⟨a, e1, e2⟩ := r3 (sorted.idxOf p) (by rw [progOf_length]; exact hlt) hnst (by rw [hkind]; exact hk.1) (by
      rcases hwant with hw | hw | hw
      · refine .inl (.inl ?_)
        simp only [Node.live, hkind]
        simp only [List.mem_cons, List.not_mem_nil, or_false] at hw
        rcases hw with e | e <;> rw [e]
      · refine .inl (.inr ?_)
        rw [progOf_node _ hlt, hget]
        simp only [nodeOf, hc, hw]
      · refine .inr ?_
        rintro j ⟨hj, hu⟩
        rw [progOf_length] at hj
        obtain ⟨e, he, hm, ho⟩ := member_cell h hs j hj
        rw [progOf_node j hj] at hu
        simp only [nodeOf, he, List.mem_map] at hu
        obtain ⟨q, hq, hqe⟩ := hu
        have hqs := (hs.mem q).2 (operand_mem h he hq)
        have : q = p := by
          have h1 := List.getElem_idxOf (List.idxOf_lt_length_of_mem hqs)
          rw [← h1, ← hget]
          congr 1
        subst this
        exact hw _ hm (by rw [ho]; exact hq))
    refine ⟨a, e1, ?_⟩
    rw [← e2, val _ hlt hnst, hget]

/-- **C109 (a graph is computed), no shared memory.** The same without the assumption, if no operation returns the memory of
an operand. -/
theorem graph_run (h : Reachable P g) (hs : Order g sorted) (hu : NoCollision P g) (hf : Fits v g) (m : M V)
    (S : SemFits v inp m.mem B) (hal : ∀ l k, (v.sem l).ret ≠ .alias k)
    (hr : ∀ r, m.regs r = none) (hB : B ≤ m.next) {d : Ptr → Option V} (D : Denotes v inp m.mem g d)
    (hd : ∀ p ∈ g.all, kindOf v g p ≠ .readS → d p ≠ none) :
    ∃ m', runAll (envOf v inp over blank g sorted)
        (compile (progOf v deriv g sorted) (g.leaves.map fun p => sorted.idxOf p)) m 0 =
          (m', (compile (progOf v deriv g sorted) (g.leaves.map fun p => sorted.idxOf p)).length, false) ∧
      m'.seen = m.seen ++ sorted.flatMap (fun p => if kindOf v g p = .arg then [] else
        [(sorted.idxOf p, (operandsOf g p).filterMap d)]) ∧
      (∀ p ∈ g.all, kindOf v g p ∉ [Kind.arg, .readS] →
        (kindOf v g p ∈ [Kind.random, .const] ∨ deriv p = true ∨ ∀ q ∈ g.all, p ∉ operandsOf g q) →
        ∃ a, m'.bound (sorted.idxOf p) = some a ∧ d p = some (m'.mem a)) ∧
      (∀ x, x < B → m'.mem x = m.mem x) := by
  refine graph_run_partial h hs hu hf m S ?_ hr hB D hd
  refine alias_free_safe _ (prog_wf h hs hf) (prog_nolet h hs hf) _ m.mem B (prog_sem h hs hf S) ?_
  intro i k hi
  rw [progOf_length] at hi
  obtain ⟨c, hc, _, _⟩ := member_cell h hs i hi
  simp only [envOf, semAt_eq i hi hc]
  exact hal _ k

/-! ### Orders and meanings exist -/

/-- The order in which nodes were inserted is one. -/
theorem insertion_order (h : Reachable P g) : Order g g.all := by
  have N := h.W.inv.nodup
  refine ⟨fun _ => Iff.rfl, N, ?_⟩
  intro p hp q hq
  obtain ⟨hqm, i, j, hi, hj, hlt⟩ := Graph.operands_before h hp hq
  have key : ∀ r ∈ g.all, ∀ k : Nat, Graph.idOf g r = some (k : Int) → g.all.idxOf r = k := by
    intro r hr k hk
    have hl := List.idxOf_lt_length_of_mem hr
    have := (Graph.ids_dense h).1 (g.all.idxOf r) r (by rw [List.getElem?_eq_getElem hl, List.getElem_idxOf hl])
    rw [hk] at this
    have := Option.some.inj this
    omega
  rw [key q hqm i hi, key p hp j hj]
  exact hlt

/-- Every graph has a meaning. -/
theorem denotes_exists (h : Reachable P g) (hf : Fits v g) (inp : Ptr → Option Nat) (mem : Nat → V) :
    ∃ d, Denotes v inp mem g d := by
  have hs := insertion_order h
  have W := prog_wf (v := v) (deriv := fun _ => false) h hs hf
  let val := value (progOf v (fun _ => false) g g.all) (envOf v inp (fun _ => 0) (mem 0) g g.all) mem
  refine ⟨fun p => val (g.all.idxOf p), ?_, ?_⟩
  · intro p hp c hc hk
    have hlt := List.idxOf_lt_length_of_mem hp
    have hget : g.all[g.all.idxOf p] = p := List.getElem_idxOf hlt
    show value _ _ _ _ = _
    rw [value_eq _ W _ _ _ (by rw [progOf_length]; exact hlt)]
    unfold evalNode
    rw [progOf_node _ hlt, hget]
    simp only [nodeOf, hc, hk, envOf, List.getElem?_eq_getElem hlt, hget, Option.bind_some]
  · intro p hp c hc hk
    have hlt := List.idxOf_lt_length_of_mem hp
    have hget : g.all[g.all.idxOf p] = p := List.getElem_idxOf hlt
    have e1 : val (g.all.idxOf p) = evalNode (progOf v (fun _ => false) g g.all)
        (envOf v inp (fun _ => 0) (mem 0) g g.all) mem val (g.all.idxOf p) :=
      value_eq _ W _ _ _ (by rw [progOf_length]; exact hlt)
    show val (g.all.idxOf p) = _
    rw [e1]
    unfold evalNode
    have hn : (progOf v (fun _ => false) g g.all).node (g.all.idxOf p) = nodeOf v (fun _ => false) g g.all p := by
      rw [progOf_node _ hlt, hget]
    have hkind : ((progOf v (fun _ => false) g g.all).node (g.all.idxOf p)).kind = v.kind c.label := by
      rw [hn]; simp only [nodeOf, hc]
    have hkids : ((progOf v (fun _ => false) g g.all).node (g.all.idxOf p)).children =
        c.children.map fun q => g.all.idxOf q := by
      rw [hn]; simp only [nodeOf, hc]
    have hsem : (envOf v inp (fun _ => 0) (mem 0) g g.all).sem (g.all.idxOf p) = v.sem c.label :=
      semAt_eq _ hlt (by rw [hget]; exact hc)
    rw [hkind, hkids, hsem, mapM_map_idx (fun q => val (g.all.idxOf q)) val (fun q => g.all.idxOf q) _ (fun _ _ => rfl)]
    simp only [List.mem_cons, List.not_mem_nil, or_false] at hk
    rcases hk with e | e | e <;> rw [e]

/-- A graph has one meaning. -/
theorem denotes_unique (h : Reachable P g) (hf : Fits v g) {d d' : Ptr → Option V} (D : Denotes v inp mem g d)
    (D' : Denotes v inp mem g d') (p : Ptr) (hp : p ∈ g.all) (hk : kindOf v g p ≠ .readS) : d p = d' p := by
  have hs := insertion_order h
  have hlt := List.idxOf_lt_length_of_mem hp
  have hget : g.all[g.all.idxOf p] = p := List.getElem_idxOf hlt
  obtain ⟨c, hc, hm, _⟩ := member_cell h hs _ hlt
  rw [hget] at hc hm
  have hst : ((progOf v (fun _ => false) g g.all).node (g.all.idxOf p)).stmt = false := by
    rw [progOf_node _ hlt, hget]
    have h1 := hf.nolet p hp c hc
    have h2 := hf.noat p hp c hc
    simp only [kindOf, hc] at hk
    unfold Node.stmt nodeOf
    rw [hc]
    cases hk' : v.kind c.label <;> simp_all
  have e1 := value_denotes (deriv := fun _ => false) (over := fun _ => 0) (blank := mem 0) h hs hf D _ hlt hst
  have e2 := value_denotes (deriv := fun _ => false) (over := fun _ => 0) (blank := mem 0) h hs hf D' _ hlt hst
  rw [hget] at e1 e2
  rw [← e1, ← e2]

/-! ### When the hash collides -/

theorem genStep_exec (Q : Prog) (repl : Nat → Nat) (iv : Nat → Interval) (s : CG) (k i : Nat) (rs : List Nat) (w : Nat)
    (a b : Bool) (hin : Instr.exec i rs w a b ∈ (genStep Q repl iv s k).code) :
    Instr.exec i rs w a b ∈ s.code ∨ repl i = i := by
  unfold genStep at hin
  simp only at hin
  split at hin
  · simp only [List.mem_append, List.mem_singleton, reduceCtorEq, or_false] at hin; exact .inl hin
  · simp only [List.mem_append, List.mem_singleton, reduceCtorEq, or_false] at hin; exact .inl hin
  · simp only [List.mem_append, List.mem_singleton, reduceCtorEq, or_false] at hin; exact .inl hin
  · exact .inl hin
  · by_cases hr : repl k = k
    · rw [if_pos hr] at hin
      simp only [List.mem_append, List.mem_singleton, Instr.exec.injEq] at hin
      rcases hin with hin | ⟨rfl, _⟩
      · split at hin
        · simp only [List.mem_append, List.mem_singleton, reduceCtorEq, or_false] at hin; exact .inl hin
        · exact .inl hin
      · exact .inr hr
    · rw [if_neg hr] at hin
      split at hin
      · simp only [List.mem_append, List.mem_singleton, reduceCtorEq, or_false] at hin; exact .inl hin
      · exact .inl hin

theorem exec_own (Q : Prog) (leaves : List Nat) (i : Nat) (rs : List Nat) (w : Nat) (a b : Bool)
    (hin : Instr.exec i rs w a b ∈ compile Q leaves) : analyze Q leaves i = i := by
  unfold compile gen at hin
  simp only at hin
  suffices H : ∀ (ks : List Nat) (s : CG),
      Instr.exec i rs w a b ∈ (ks.foldl (genStep Q (analyze Q leaves) (regalloc Q (analyze Q leaves)).iv) s).code →
      Instr.exec i rs w a b ∈ s.code ∨ analyze Q leaves i = i by
    rcases H _ _ hin with h1 | h1
    · cases h1
    · exact h1
  intro ks
  induction ks with
  | nil => intro s hs; exact .inl hs
  | cons k ks ih =>
    intro s hs
    rcases ih _ hs with h1 | h1
    · exact genStep_exec Q _ _ s k i rs w a b h1
    · exact .inr h1

theorem step_bound (E : Env V) (m m' : M V) (ins : Instr) (i : Nat) (hs : step E m ins = some m')
    (hn : ∀ rs w a b, ins ≠ .exec i rs w a b) : m'.bound i = m.bound i := by
  cases ins with
  | loadArg j w => simp only [step] at hs; split at hs <;> cases hs; rfl
  | alloc j w => simp only [step] at hs; split at hs <;> cases hs <;> rfl
  | exec j rs w a b =>
    have hij : i ≠ j := fun e => hn rs w a b (by rw [e])
    have hput : ∀ (m : M V) (w x : Nat), (m.put j w x).bound i = m.bound i := by
      intro m w x; simp [M.put, upd_ne _ _ _ _ hij]
    have hdo : ∀ (m m' : M V) (as : List Nat), doOp E m j w as = some m' → m'.bound i = m.bound i := by
      intro m m' as hd
      unfold doOp at hd
      split at hd
      · cases hd
      split at hd
      · cases hd; exact hput _ _ _
      · split at hd <;> cases hd; exact hput _ _ _
      · cases hd; exact hput _ _ _
    have hwr : ∀ (m m' : M V) (p : Nat) (as : List Nat), writeAt E m j w p as = some m' → m'.bound i = m.bound i := by
      intro m m' p as hd
      unfold writeAt at hd
      split at hd <;> cases hd
      exact hput _ _ _
    simp only [step, execOp] at hs
    split at hs
    · cases hs
    split at hs
    · split at hs
      · exact (hwr _ _ _ _ hs).trans rfl
      · exact (hdo _ _ _ hs).trans rfl
    · split at hs
      · split at hs
        · cases hs
        · exact (hwr _ _ _ _ hs).trans rfl
      · exact (hdo _ _ _ hs).trans rfl
  | «letI» _ _ => simp only [step] at hs; cases hs; rfl
  | read j r => simp only [step] at hs; split at hs <;> cases hs; rfl

theorem runall_bound (E : Env V) (code : List Instr) (i : Nat) (hn : ∀ rs w a b, Instr.exec i rs w a b ∉ code) :
    ∀ (n : Nat) (m : M V) (pc : Nat), (runall E code n m pc).1.bound i = m.bound i := by
  intro n
  induction n with
  | zero => intro m pc; rfl
  | succ n ih =>
    intro m pc
    unfold runall
    split
    · rfl
    · rename_i ins hins
      split
      · rfl
      · rename_i m' hm'
        rw [ih, step_bound E m m' ins i hm']
        intro rs w a b e
        exact hn rs w a b (e ▸ List.mem_of_getElem? hins)

/-- **C109 (collisions, defect).** The graph keeps nodes whose hash codes collide apart (graph.go 153-176, `evac`), the compiler
does not (analysis.go 31-47): if two different members have the same hash code, then one of them gets no value in any
run of the compiled program, whatever the operations, inputs and the state of the machine. -/
theorem collision_no_value (h : Reachable P g) (hs : Order g sorted) {p q : Ptr} (hp : p ∈ g.all) (hq : q ∈ g.all)
    (hne : p ≠ q) {c d : Cell L} (hc : g.heap[p]? = some c) (hd : g.heap[q]? = some d) (he : c.hash = d.hash) :
    ∃ r, (r = p ∨ r = q) ∧ ∀ (E : Env V) (m : M V) (pc : Nat),
      (runAll E (compile (progOf v deriv g sorted) (g.leaves.map fun p => sorted.idxOf p)) m pc).1.bound (sorted.idxOf r) =
        m.bound (sorted.idxOf r) := by
  have hpl := List.idxOf_lt_length_of_mem ((hs.mem p).2 hp)
  have hql := List.idxOf_lt_length_of_mem ((hs.mem q).2 hq)
  have gp : sorted[sorted.idxOf p] = p := List.getElem_idxOf hpl
  have gq : sorted[sorted.idxOf q] = q := List.getElem_idxOf hql
  have hl : ∀ l ∈ g.leaves.map (fun p => sorted.idxOf p), l < (progOf v deriv g sorted).length := by
    intro l hl
    obtain ⟨x, hx, rfl⟩ := List.mem_map.1 hl
    rw [progOf_length]
    exact List.idxOf_lt_length_of_mem ((hs.mem x).2 (h.listed.leaves x hx))
  have hm := (analyze_iff (progOf v deriv g sorted) _ hl (sorted.idxOf p) (sorted.idxOf q)
    (by rw [progOf_length]; exact hpl) (by rw [progOf_length]; exact hql)).1.2 (by
      rw [progOf_node _ hpl, progOf_node _ hql, gp, gq]
      simp only [nodeOf, hc, hd, he])
  by_cases h1 : analyze (progOf v deriv g sorted) (g.leaves.map fun p => sorted.idxOf p) (sorted.idxOf p) = sorted.idxOf p
  · refine ⟨q, .inr rfl, fun E m pc => runall_bound E _ _ ?_ _ m pc⟩
    intro rs w a b hin
    have h2 := exec_own _ _ _ _ _ _ _ hin
    rw [← hm, h1] at h2
    apply hne
    rw [← gp, ← gq]
    congr 1
  · refine ⟨p, .inl rfl, fun E m pc => runall_bound E _ _ ?_ _ m pc⟩
    intro rs w a b hin
    exact h1 (exec_own _ _ _ _ _ _ _ hin)

/-! ### Concrete graphs -/

/-- Labels are a number and a flag for constants; the hash code is the number modulo `k` plus the codes of the operands. -/
def numHash (k : Nat) : Params (Nat × Bool) where
  hash := fun l hs => hs.foldl (fun a h => 31 * a + h) (UInt32.ofNat (l.1 % k))
  eq := fun a n b n' => a == b && n == n'
  isConst := fun l => l.2
  name := fun l => toString l.1

/-- 0 and 1 are inputs, 2 adds, 3 multiplies, 102 subtracts. -/
def numView : View (Nat × Bool) Int where
  kind := fun l => if l.1 < 2 then .arg else .op
  returnsPtr := fun _ => true
  callsExtern := fun _ => false
  overwrites := fun l => if l.1 < 2 then -1 else 0
  sem := fun l => if l.1 = 2 then bin (· + ·) else if l.1 = 3 then bin (· * ·) else bin (· - ·)

/-- `x`, `y`, `s = x + y`, `t = x - y`, `s * t`, and `x + y` again. -/
def numOps : List (Graph.Op (Nat × Bool)) :=
  [.unique (0, false) [], .unique (1, false) [], .unique (2, false) [0, 1], .unique (102, false) [0, 1],
   .unique (3, false) [2, 3], .unique (2, false) [0, 1]]

/-- The memory and the address of the inputs: `x = 5`, `y = 3`. -/
def numM : M Int :=
  { regs := fun _ => none, mem := fun a => if a = 0 then 5 else 3, bound := fun _ => none, next := 2, seen := [] }

def numInp (p : Ptr) : Option Nat := if p < 2 then some p else none

/-- The graph built with the hash modulo `k`. -/
def numG (k : Nat) : G (Nat × Bool) := (Graph.run (numHash k) Graph.empty numOps).getD Graph.empty

/-- Result of the product node after a run. -/
def numRun (k : Nat) : Option Int :=
  let r := runAll (envOf numView numInp (fun _ => 0) 0 (numG k) (numG k).all)
    (compile (progOf numView (fun _ => false) (numG k) (numG k).all) (((numG k).leaves).map fun p => (numG k).all.idxOf p)) numM 0
  (r.1.bound 4).map r.1.mem

/-- Without collisions the second `x + y` is the first, nothing else is merged, and the product is `(5 + 3) * (5 - 3)`. -/
example : (numG 1000).all = [0, 1, 2, 3, 4] ∧ numRun 1000 = some 16 := by decide +kernel

theorem all_cells {α : Type} {x : Option α} {φ : α → Bool} (h : x.all φ = true) (c : α) (hc : x = some c) : φ c = true := by
  subst hc; simpa using h

theorem numG_reachable : Reachable (numHash 1000) (numG 1000) :=
  ⟨numOps, by decide, by
    unfold numG
    cases h : Graph.run (numHash 1000) Graph.empty numOps with
    | none => exact absurd (congrArg Option.isSome h) (by decide +kernel)
    | some g => rfl⟩

theorem numG_fits : Fits numView (numG 1000) := by
  have hall : (numG 1000).all = [0, 1, 2, 3, 4] := by decide +kernel
  refine ⟨?_, ?_, ?_, ?_, ?_, ?_⟩
  · intro p hp c hc hk
    have h : ∀ p ∈ [0, 1, 2, 3, 4], ((numG 1000).heap[p]?).all (fun c => decide
        (numView.kind c.label ∈ [Kind.arg, .random, .const] → c.children = [])) = true := by decide +kernel
    exact of_decide_eq_true (all_cells (h p (hall ▸ hp)) c hc) hk
  · intro p hp c hc
    have h : ∀ p ∈ [0, 1, 2, 3, 4], ((numG 1000).heap[p]?).all (fun c => decide
        (numView.overwrites c.label < c.children.length)) = true := by decide +kernel
    exact of_decide_eq_true (all_cells (h p (hall ▸ hp)) c hc)
  · intro p hp q hq c hc
    have h : ∀ p ∈ [0, 1, 2, 3, 4], ∀ q ∈ operandsOf (numG 1000) p, ((numG 1000).heap[q]?).all (fun c => decide
        (numView.kind c.label ∉ [Kind.letS, .readS])) = true := by decide +kernel
    exact of_decide_eq_true (all_cells (h p (hall ▸ hp) q hq) c hc)
  · intro p hp c hc hk
    have h : ∀ p ∈ [0, 1, 2, 3, 4], ((numG 1000).heap[p]?).all (fun c => decide
        (numView.kind c.label = .readS → c.children.length = 1)) = true := by decide +kernel
    exact of_decide_eq_true (all_cells (h p (hall ▸ hp)) c hc) hk
  · intro p hp c hc
    have h : ∀ p ∈ [0, 1, 2, 3, 4], ((numG 1000).heap[p]?).all (fun c => decide
        (numView.kind c.label ≠ .letS)) = true := by decide +kernel
    exact of_decide_eq_true (all_cells (h p (hall ▸ hp)) c hc)
  · intro p hp c hc
    have h : ∀ p ∈ [0, 1, 2, 3, 4], ((numG 1000).heap[p]?).all (fun c => decide
        (numView.kind c.label ≠ .atS)) = true := by decide +kernel
    exact of_decide_eq_true (all_cells (h p (hall ▸ hp)) c hc)

theorem numG_noCollision : NoCollision (numHash 1000) (numG 1000) := by
  have hall : (numG 1000).all = [0, 1, 2, 3, 4] := by decide +kernel
  intro p hp q hq c d hc hd he
  have h : ∀ p ∈ [0, 1, 2, 3, 4], ∀ q ∈ [0, 1, 2, 3, 4], ((numG 1000).heap[p]?).all (fun c =>
      ((numG 1000).heap[q]?).all fun d => decide (c.hash = d.hash → Graph.nodeEq (numHash 1000) (numG 1000) p q = true)) = true := by
    decide +kernel
  exact of_decide_eq_true (all_cells (all_cells (h p (hall ▸ hp) q (hall ▸ hq)) c hc) d hd) he

/-- The hypotheses of `graph_run` hold of it, in the order of insertion, for all inputs `x`, `y`. -/
example (x y : Int) (d : Ptr → Option Int) (D : Denotes numView numInp (fun a => if a = 0 then x else y) (numG 1000) d)
    (hd : ∀ p ∈ (numG 1000).all, kindOf numView (numG 1000) p ≠ .readS → d p ≠ none) :
    ∃ m' : M Int, m'.mem 0 = x ∧ ∃ a, m'.bound 4 = some a ∧ d 4 = some (m'.mem a) := by
  have hS : SemFits numView numInp (fun a => if a = 0 then x else y) 2 := by
    refine ⟨?_, ?_, ?_⟩
    · intro p a h
      unfold numInp at h
      split at h
      · rename_i hlt; cases h; exact hlt
      · cases h
    · intro l a h; simp only [numView] at h; split at h <;> (try split at h) <;> cases h
    · intro l k h; simp only [numView] at h; split at h <;> (try split at h) <;> cases h
  obtain ⟨m', _, _, h3, h4⟩ := graph_run (deriv := fun _ => false) (over := fun _ => 0) (blank := 0) numG_reachable
    (insertion_order numG_reachable) numG_noCollision numG_fits { numM with mem := fun a => if a = 0 then x else y } hS
    (by intro l k h; simp only [numView] at h; split at h <;> (try split at h) <;> cases h)
    (fun _ => rfl) (Nat.le_refl _) D hd
  obtain ⟨a, e1, e2⟩ := h3 4 (by decide +kernel) (by decide +kernel) (.inr (.inr (by decide +kernel)))
  have e : (numG 1000).all.idxOf 4 = 4 := by decide +kernel
  rw [e] at e1
  exact ⟨m', h4 0 (by decide), a, e1, e2⟩

/-- **C109 (defect), concrete case.** When the codes of `+` and `-` collide the graph has the same five nodes, but the machine
computes `(5 + 3) * (5 + 3)`. -/
theorem collision_wrong : (numG 100).all = [0, 1, 2, 3, 4] ∧
    (numG 100).heap.map (·.label) = (numG 1000).heap.map (·.label) ∧
    (numG 100).heap.map (·.children) = (numG 1000).heap.map (·.children) ∧ numRun 100 = some 64 := by decide +kernel

end Verif.Tape
