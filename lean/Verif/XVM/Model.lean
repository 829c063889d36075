import Mathlib.Logic.Function.Basic
import Mathlib.Logic.Relation
import Mathlib.Data.Finset.Card
import Mathlib.Data.Finset.Range
/-!
The goroutine-per-node machine, package `x/vm`: nodes, broadcasters, mergers, unbuffered channels, contexts.

Goroutines are processes; every rendezvous on an unbuffered channel is one step of the two processes involved, every
interleaving of steps is allowed, and `select` may take any ready case. Simplified: a goroutine that has not been started is
one that has not moved; values are immutable (an operation must not write to the values it is given, which are shared by all
subscribers); tracing is left out.
-/
set_option autoImplicit false
namespace Verif.XVM

/-- The graph as `NewMachine` (x/vm/machine.go 19-45) sees it. Nodes are numbered in the order of `g.Nodes()`. -/
structure Net (V : Type) where
  n : Nat
  /-- `op == nil` or `op.Arity() == 0`: made by `newInput` (x/vm/machine.go 31-34) -/
  isIn : Nat → Bool
  /-- `g.To(n.ID()).Len() != 0` (27) -/
  used : Nat → Bool
  /-- `g.From(id)`: the operands, in order, duplicates kept (x/vm/machine.go 78-90) -/
  ops : Nat → List Nat
  /-- `op.Arity()`, the length of `inputValues` (x/vm/node.go 117). A negative arity panics there and is not modelled. -/
  arity : Nat → Nat
  /-- `n.Value()` of an input (x/vm/node.go 129) -/
  inVal : Nat → V
  /-- `op.Do`, `none` is an error -/
  f : Nat → List V → Option V

variable {V : Type}

/-- `outputC != nil`: always for inputs (x/vm/node.go 130), for operations if they have a consumer (x/vm/machine.go 28 and 36). -/
def Net.outC (G : Net V) (i : Nat) : Bool := G.isIn i || G.used i

/-- Number of `output` goroutines of `merge` for a node: one per operand, none without `inputC` (x/vm/machine.go 73-92). -/
def Net.fan (G : Net V) (j : Nat) : Nat := if G.isIn j then 0 else (G.ops j).length

/-- The subscribers of publisher `i` in the order in which `createNetwork` (x/vm/machine.go 48-94) appends them: consumer and operand
position. -/
def Net.subs (G : Net V) (i : Nat) : List (Nat × Nat) :=
  (List.range G.n).flatMap fun j =>
    if G.isIn j then [] else ((List.range (G.ops j).length).filter fun p => (G.ops j)[p]? == some i).map fun p => (j, p)

/-- `createNetwork` dereferences the publisher of every operand (x/vm/machine.go 85-87); it panics if there is none. -/
def Net.buildable (G : Net V) : Prop :=
  ∀ j, j < G.n → G.isIn j = false → ∀ i ∈ G.ops j, i < G.n ∧ G.outC i = true

/-- Where a node goroutine is (x/vm/node.go 36-103). -/
inductive Ph
  /-- `receiveInput` with `receivedValues = c` (x/vm/node.go 45-67) -/
  | recv (c : Nat)
  /-- `computeFwd` (x/vm/node.go 69-77) -/
  | comp
  /-- `emitOutput` (x/vm/node.go 79-90) -/
  | emit
  /-- `Compute` has returned; whether with an error; blocked on `errC` (x/vm/machine.go 153-158) -/
  | fin (err : Bool)
  /-- reported to `runAllNodes` -/
  | rep (err : Bool)
  deriving DecidableEq

/-- Where a broadcaster is (x/vm/pubsub.go 70-86). -/
inductive Bc (V : Type)
  | wait
  /-- sending `v`; the first `k` subscribers have it -/
  | send (v : V) (k : Nat)
  | dead

/-- Where an `output` goroutine of `merge` is (x/vm/pubsub.go 46-63). -/
inductive Mg (V : Type)
  | wait
  | hold (v : V)
  | dead

structure St (V : Type) where
  ph : Nat → Ph
  /-- `inputValues` -/
  inp : Nat → Nat → V
  /-- `output` -/
  out : Nat → V
  bc : Nat → Bc V
  mg : Nat → Nat → Mg V
  /-- `total` in `runAllNodes` -/
  total : Nat
  /-- the context of the nodes is done -/
  cancel : Bool
  /-- the context of broadcasters and mergers is done -/
  stop : Bool
  /-- `Run` has returned -/
  ret : Bool

/-- Write one entry of a table. -/
def set2 {β : Type} (t : Nat → Nat → β) (j p : Nat) (x : β) : Nat → Nat → β := fun j' p' => if j' = j ∧ p' = p then x else t j' p'

/-- `inputValues` as passed to `Do`. -/
def Net.args (G : Net V) (s : St V) (j : Nat) : List V := (List.range (G.arity j)).map (s.inp j)

open Function in
/-- One step of the machine. -/
inductive Step (G : Net V) : St V → St V → Prop
  /-- rendezvous on `inputC` (x/vm/node.go 55-65, x/vm/pubsub.go 51-55) -/
  | recv {s : St V} {j p c : Nat} {v : V} (hj : j < G.n) (hp : p < G.fan j) (hph : s.ph j = .recv c) (hm : s.mg j p = .hold v)
      (ha : p < G.arity j) :
      Step G s { s with ph := update s.ph j (if c + 1 < G.arity j then .recv (c + 1) else .comp),
                        inp := set2 s.inp j p v, mg := set2 s.mg j p .wait }
  /-- "bad arity" (x/vm/node.go 56-59) -/
  | recvBad {s : St V} {j p c : Nat} {v : V} (hj : j < G.n) (hp : p < G.fan j) (hph : s.ph j = .recv c)
      (hm : s.mg j p = .hold v) (ha : ¬ p < G.arity j) :
      Step G s { s with ph := update s.ph j (.fin true), mg := set2 s.mg j p .wait }
  | compOk {s : St V} {j : Nat} {v : V} (hj : j < G.n) (hph : s.ph j = .comp) (hv : G.f j (G.args s j) = some v) :
      Step G s { s with ph := update s.ph j .emit, out := update s.out j v }
  | compErr {s : St V} {j : Nat} (hj : j < G.n) (hph : s.ph j = .comp) (hv : G.f j (G.args s j) = none) :
      Step G s { s with ph := update s.ph j (.fin true) }
  /-- rendezvous on `outputC` (x/vm/node.go 87, x/vm/pubsub.go 74) -/
  | emit {s : St V} {i : Nat} (hi : i < G.n) (hph : s.ph i = .emit) (ho : G.outC i = true) (hb : s.bc i = .wait) :
      Step G s { s with ph := update s.ph i (.fin false), bc := update s.bc i (.send (s.out i) 0) }
  /-- no output channel (x/vm/node.go 80-82) -/
  | emitTop {s : St V} {i : Nat} (hi : i < G.n) (hph : s.ph i = .emit) (ho : G.outC i = false) :
      Step G s { s with ph := update s.ph i (.fin false) }
  /-- rendezvous between broadcaster and merger (x/vm/pubsub.go 75-77, 50) -/
  | bsend {s : St V} {i k j p : Nat} {v : V} (hi : i < G.n) (hb : s.bc i = .send v k) (hs : (G.subs i)[k]? = some (j, p))
      (hm : s.mg j p = .wait) :
      Step G s { s with bc := update s.bc i (.send v (k + 1)), mg := set2 s.mg j p (.hold v) }
  | bdone {s : St V} {i : Nat} {v : V} (hi : i < G.n) (hb : s.bc i = .send v (G.subs i).length) :
      Step G s { s with bc := update s.bc i .wait }
  /-- rendezvous on `errC` (x/vm/machine.go 154-172) -/
  | report {s : St V} {i : Nat} {e : Bool} (hi : i < G.n) (hph : s.ph i = .fin e) (ht : 0 < s.total) :
      Step G s { s with ph := update s.ph i (.rep e), total := s.total - 1, cancel := s.cancel || e }
  /-- a node sees that its context is done (x/vm/node.go 52-54, 84-86) -/
  | nodeCancel {s : St V} {i : Nat} (hi : i < G.n) (hc : s.cancel = true)
      (hph : (∃ c, s.ph i = .recv c) ∨ s.ph i = .emit ∧ G.outC i = true) :
      Step G s { s with ph := update s.ph i (.fin true) }
  /-- the loop of `runAllNodes` ends and `Run` cancels the plumbing (x/vm/machine.go 169-174, 100). The loop is left only after a
  report (162-171), so never if there are no nodes. -/
  | mainEnd {s : St V} (hn : 0 < G.n) (ht : s.total = 0) (hs : s.stop = false) : Step G s { s with cancel := true, stop := true }
  /-- broadcaster sees that the context is done (x/vm/pubsub.go 78-79, 82-83); at the end of its list it first loops (`bdone`) -/
  | bdie {s : St V} {i : Nat} (hi : i < G.n) (ho : G.outC i = true) (hs : s.stop = true) (hb : s.bc i = .wait ∨ ∃ v k, s.bc i = .send v k ∧ k < (G.subs i).length) :
      Step G s { s with bc := update s.bc i .dead }
  /-- merger sees that the context is done (x/vm/pubsub.go 56-61) -/
  | mdie {s : St V} {j p : Nat} (hj : j < G.n) (hp : p < G.fan j) (hs : s.stop = true) (hm : s.mg j p = .wait ∨ ∃ v, s.mg j p = .hold v) :
      Step G s { s with mg := set2 s.mg j p .dead }
  /-- `wg.Wait` and return (x/vm/machine.go 101-103) -/
  | done {s : St V} (hn : 0 < G.n) (ht : s.total = 0) (hs : s.stop = true) (hr : s.ret = false) (hb : ∀ i, i < G.n → G.outC i = true → s.bc i = .dead)
      (hm : ∀ j p, j < G.n → p < G.fan j → s.mg j p = .dead) : Step G s { s with ret := true }

/-- The caller's context is cancelled: both derived contexts are done. -/
inductive Ext : St V → St V → Prop
  | ext {s : St V} (h : s.cancel = false ∨ s.stop = false) : Ext s { s with cancel := true, stop := true }

/-- The start of `Run`: inputs about to emit their value, operations waiting (x/vm/node.go 36-43); `inputValues` and the outputs of
operations may hold anything (left by an earlier run). -/
structure Start (G : Net V) (s : St V) : Prop where
  ph : ∀ i, i < G.n → s.ph i = if G.isIn i then .emit else .recv 0
  out : ∀ i, i < G.n → G.isIn i = true → s.out i = G.inVal i
  bc : ∀ i, s.bc i = .wait
  mg : ∀ j p, s.mg j p = .wait
  total : s.total = G.n
  cancel : s.cancel = false
  stop : s.stop = false
  ret : s.ret = false

/-- States reachable from a start, with or without cancellation from outside. -/
inductive Reach (G : Net V) : St V → Prop
  | start {s : St V} : Start G s → Reach G s
  | step {s t : St V} : Reach G s → Step G s t → Reach G t
  | ext {s t : St V} : Reach G s → Ext s t → Reach G t

/-- Value of a node's expression: inputs have their value, operations the result of `Do` on the values of their operands. -/
inductive Evals (G : Net V) : Nat → V → Prop
  | input {i : Nat} (h : G.isIn i = true) : Evals G i (G.inVal i)
  | op {i : Nat} {vs : List V} {v : V} (h : G.isIn i = false) (hl : vs.length = (G.ops i).length)
      (ho : ∀ (p : Nat) (h1 : p < (G.ops i).length) (h2 : p < vs.length), Evals G (G.ops i)[p] vs[p]) (hv : G.f i vs = some v) : Evals G i v

/-- The graphs the properties are about: operands have publishers, arities are the numbers of operands and not zero for
operations. -/
structure Good (G : Net V) : Prop where
  build : G.buildable
  arity : ∀ j, j < G.n → G.isIn j = false → G.arity j = (G.ops j).length ∧ G.ops j ≠ []

/-- No cycle of operands. -/
def Acyclic (G : Net V) : Prop := ∃ rk : Nat → Nat, ∀ j, j < G.n → G.isIn j = false → ∀ i ∈ G.ops j, rk i < rk j

end Verif.XVM
