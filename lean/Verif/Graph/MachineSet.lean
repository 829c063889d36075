import Verif.Graph.Worlds
import Verif.Shape.Model
/-!
Property C135: `Let` and `Set` of the tape machine (vm_tape.go 148-178), which are to check that the nodes are in the machine. The
nodes and graphs are those of `Worlds.lean`; values are addresses of memory, so that it can be told who shares what.
-/
set_option autoImplicit false
namespace Verif.Graph
open Verif.Shape (Res)

variable {L : Type} {P : Params L}

/-- What the machine and the nodes hold. `bound` is the field `boundTo` of the nodes, or the `Value` of the dual value in it: `bind`
(node.go 651-678) replaces that one in both cases. `konst` are the values in the ops of constants. `loc` is `locMap`, `regs` is `cpumem`
(vm_tape.go 18-34). -/
structure Vals where
  bound : Ptr → Option Nat
  konst : Ptr → Option Nat
  loc : Ptr → Option Nat
  regs : List (Option Nat)

/-- `Node.Value` (node.go 435-443). -/
def Vals.value (s : Vals) (p : Ptr) : Option Nat :=
  match s.konst p with
  | some v => some v
  | none => s.bound p

/-- `Node.bind` (node.go 651-678) of a value that is no dual value. -/
def Vals.bind (s : Vals) (p : Ptr) (v : Nat) : Vals := { s with bound := fun q => if q = p then some v else s.bound q }

/-- The test of `Let` and `Set` (vm_tape.go 149, 158, 161): `m.p.g.Has(n.ID())`, the machine being one for graph `k` (compile.go 56). The
position cache that `Has` fills is left out. -/
def inMachine (w : World L) (k : Nat) (p : Ptr) : Bool :=
  match w.heap[p]? with
  | some c => (has (w.graph k) c.id).2
  | none => false

/-- `m.getValue(m.locMap[b])` (vm_tape.go 170-174, 351-358): a node without a register has Go's zero value, register 0. -/
def Vals.fromRegister (s : Vals) (b : Ptr) : Res Nat :=
  match s.regs[(s.loc b).getD 0]? with
  | none => .panic
  | some none => .err
  | some (some v) => .ok v

/-- `tapeMachine.Set` (vm_tape.go 157-178). -/
def Vals.set (w : World L) (k : Nat) (s : Vals) (a b : Ptr) : Res Vals :=
  if !inMachine w k a then .err
  else if !inMachine w k b then .err
  else match s.value b with
    | some v => .ok (s.bind a v)
    | none => (s.fromRegister b).bind fun v => .ok (s.bind a v)

/-- `tapeMachine.Let` (vm_tape.go 148-154) of a value of the node's shape and type: `Let` (gorgonia.go 248-254, 273-281) refuses all but
inputs. -/
def Vals.letV (isInput : Ptr → Bool) (w : World L) (k : Nat) (s : Vals) (n : Ptr) (v : Nat) : Res Vals :=
  if !inMachine w k n then .err
  else if !isInput n then .err
  else .ok (s.bind n v)

/-! ### Which nodes pass the test -/

/-- **C135 (the test, exactly).** In a program that keeps its graphs apart (C131), a node passes the test of a machine for graph `k` iff
its ID is less than the number of nodes of that graph, whichever graph it is in. -/
theorem inMachine_iff {os : List (Call L)} {w : World L} (hp : ProperRun P World.empty os) (h : World.empty.run P os = some w)
    (k : Nat) (p : Ptr) (id : Int) (hid : (w.heap[p]?).map (·.id) = some id) :
    inMachine w k p = true ↔ 0 ≤ id ∧ id < ((w.tabs k).all.length : Int) := by
  obtain ⟨_, hpos, hlook, _⟩ := graphs_apart hp h
  cases hc : w.heap[p]? with
  | none => rw [hc] at hid; cases hid
  | some c =>
    rw [hc] at hid
    have e : c.id = id := by simpa using hid
    unfold inMachine
    rw [hc]
    simp only [has]
    rw [e]
    constructor
    · intro hs
      obtain ⟨q, hq⟩ := Option.isSome_iff_exists.1 hs
      obtain ⟨hm, hi⟩ := (hlook k q id).1 hq
      obtain ⟨i, hi'⟩ := List.mem_iff_getElem?.1 hm
      have := hpos k i q hi'
      rw [hi] at this
      have e2 : id = i := by simpa using this
      have hl : i < (w.tabs k).all.length := (List.getElem?_eq_some_iff.1 hi').1
      omega
    · rintro ⟨h0, h1⟩
      obtain ⟨i, rfl⟩ := Int.eq_ofNat_of_zero_le h0
      have hl : i < (w.tabs k).all.length := by omega
      have hi' : (w.tabs k).all[i]? = some (w.tabs k).all[i] := List.getElem?_eq_getElem hl
      have := (hlook k ((w.tabs k).all[i]) i).2 ⟨List.mem_of_getElem? hi', hpos k i _ hi'⟩
      exact Option.isSome_iff_exists.2 ⟨_, this⟩

/-- **C135 (own nodes).** All nodes of the machine's graph pass. -/
theorem own_passes {os : List (Call L)} {w : World L} (hp : ProperRun P World.empty os) (h : World.empty.run P os = some w)
    (k : Nat) (p : Ptr) (hm : p ∈ (w.tabs k).all) : inMachine w k p = true := by
  obtain ⟨i, hi⟩ := List.mem_iff_getElem?.1 hm
  have hl : i < (w.tabs k).all.length := (List.getElem?_eq_some_iff.1 hi).1
  exact (inMachine_iff hp h k p i ((graphs_apart hp h).2.1 k i p hi)).2 ⟨by omega, by omega⟩

/-- **C135 (defect: nodes of other graphs).** The node at place `i` of any other graph passes iff the machine's graph has more than `i`
nodes: of a graph that is not larger, every node passes. -/
theorem foreign_passes_iff {os : List (Call L)} {w : World L} (hp : ProperRun P World.empty os) (h : World.empty.run P os = some w)
    (j k i : Nat) (p : Ptr) (hi : (w.tabs j).all[i]? = some p) : inMachine w k p = true ↔ i < (w.tabs k).all.length := by
  rw [inMachine_iff hp h k p i ((graphs_apart hp h).2.1 j i p hi)]
  omega

/-- The refusals that do work: a node of another graph whose place the machine's graph does not have, and an object that has not got an
ID, are refused by both. -/
theorem refused {w : World L} {k : Nat} (s : Vals) (a b : Ptr) (h : inMachine w k a = false ∨ inMachine w k b = false) :
    Vals.set w k s a b = .err := by
  unfold Vals.set
  rcases h with h | h
  · rw [h]; rfl
  · rw [h]
    by_cases ha : (!inMachine w k a) = true
    · rw [if_pos ha]
    · rw [if_neg ha]; rfl

/-! ### What is set -/

/-- **C135 (the value).** If `b` has a value, an accepted `Set(a, b)` makes it the value of `a`, and of no other node changes anything. -/
theorem set_value {w : World L} {k : Nat} (s : Vals) (a b : Ptr) (v : Nat) (ha : inMachine w k a = true) (hb : inMachine w k b = true)
    (hv : s.value b = some v) (hk : s.konst a = none) :
    ∃ s', Vals.set w k s a b = .ok s' ∧ s'.value a = some v ∧ (∀ q, q ≠ a → s'.value q = s.value q) ∧ s'.regs = s.regs := by
  refine ⟨s.bind a v, ?_, ?_, ?_, rfl⟩
  · unfold Vals.set
    rw [ha, hb, hv]
    rfl
  · simp [Vals.value, Vals.bind, hk]
  · intro q hq
    simp [Vals.value, Vals.bind, hq]

/-- **C135 (defect: the value is shared).** `a` gets the memory of `b`, not a copy: whatever is written to `b`'s value later, `a` has it. -/
theorem set_shares {V : Type} {w : World L} {k : Nat} (s : Vals) (a b : Ptr) (v : Nat) (ha : inMachine w k a = true)
    (hb : inMachine w k b = true) (hv : s.value b = some v) (hk : s.konst a = none) (mem : Nat → V) (x : V) :
    ∃ s', Vals.set w k s a b = .ok s' ∧ (s'.value a).map (upd mem v x) = some x := by
  obtain ⟨s', h, h1, _⟩ := set_value s a b v ha hb hv hk
  exact ⟨s', h, by rw [h1]; simp [upd]⟩

/-- **C135 (defect: constants).** Setting a constant is accepted without effect: its value stays. -/
theorem set_constant {w : World L} {k : Nat} (s : Vals) (a b : Ptr) (v c : Nat) (ha : inMachine w k a = true) (hb : inMachine w k b = true)
    (hv : s.value b = some v) (hk : s.konst a = some c) : ∃ s', Vals.set w k s a b = .ok s' ∧ s'.value a = some c := by
  refine ⟨s.bind a v, ?_, ?_⟩
  · unfold Vals.set
    rw [ha, hb, hv]
    rfl
  · simp [Vals.value, Vals.bind, hk]

/-- **C135 (no value yet).** If `b` has no value, `a` gets what is in the register of `b`. -/
theorem set_register {w : World L} {k : Nat} (s : Vals) (a b : Ptr) (r v : Nat) (ha : inMachine w k a = true) (hb : inMachine w k b = true)
    (hv : s.value b = none) (hr : s.loc b = some r) (hreg : s.regs[r]? = some (some v)) (hk : s.konst a = none) :
    ∃ s', Vals.set w k s a b = .ok s' ∧ s'.value a = some v := by
  refine ⟨s.bind a v, ?_, ?_⟩
  · unfold Vals.set
    rw [ha, hb, hv]
    simp only [Bool.not_true, Bool.false_eq_true, if_false, Vals.fromRegister, hr, Option.getD_some, hreg, Res.bind]
  · simp [Vals.value, Vals.bind, hk]

/-- **C135 (defect: nodes the program does not compute).** A node that passes the test but has neither value nor register, such as one of
another graph or one that was made after the program was compiled, hands over what is in register 0, which belongs to another node. -/
theorem set_first_register {w : World L} {k : Nat} (s : Vals) (a b : Ptr) (v : Nat) (ha : inMachine w k a = true)
    (hb : inMachine w k b = true) (hv : s.value b = none) (hr : s.loc b = none) (hreg : s.regs[0]? = some (some v)) (hk : s.konst a = none) :
    ∃ s', Vals.set w k s a b = .ok s' ∧ s'.value a = some v := by
  refine ⟨s.bind a v, ?_, ?_⟩
  · unfold Vals.set
    rw [ha, hb, hv]
    simp only [Bool.not_true, Bool.false_eq_true, if_false, Vals.fromRegister, hr, Option.getD_none, hreg, Res.bind]
  · simp [Vals.value, Vals.bind, hk]

/-- **C135 (Let).** `Let` of the machine binds any input of any graph whose ID the machine's graph has, and refuses the other nodes. -/
theorem let_iff {w : World L} {k : Nat} (isInput : Ptr → Bool) (s : Vals) (n : Ptr) (v : Nat) :
    (∃ s', Vals.letV isInput w k s n v = .ok s' ∧ s'.bound n = some v ∧ ∀ q, q ≠ n → s'.bound q = s.bound q) ↔
      inMachine w k n = true ∧ isInput n = true := by
  unfold Vals.letV
  cases h1 : inMachine w k n <;> cases h2 : isInput n <;> simp [Vals.bind]
  intro q hq e
  exact absurd e hq

/-! ### Concrete cases -/

/-- Graph 1 with input `yy` (object 0), graph 0 with the input `xxx` (object 1) and a node computed from it (object 2). -/
def setGraphs : List (Call (String × Bool)) := [.input 1 ("yy", false), .input 0 ("xxx", false), .apply ("mult", false) [1, 1]]

/-- A machine for graph 0, whose register 0 holds the value of `xxx` (address 7) and register 1 the product (address 8): setting `xxx`'s
product to `yy` of the other graph is accepted and gives it the value of `xxx`; setting it to `xxx` shares. -/
example : ∃ w, World.empty.run apartP setGraphs = some w ∧ (w.tabs 1).all = [0] ∧ (w.tabs 0).all = [1, 2] ∧
    inMachine w 0 0 = true ∧ inMachine w 1 2 = false ∧
    ∃ s', Vals.set w 0 ⟨fun p => if p = 1 then some 7 else none, fun _ => none, fun p => if p = 1 then some 0 else if p = 2 then some 1 else none,
      [some 7, some 8]⟩ 2 0 = .ok s' ∧ s'.value 2 = some 7 := by
  refine ⟨_, rfl, by decide +kernel, by decide +kernel, by decide +kernel, by decide +kernel, _, rfl, by decide +kernel⟩

/-- The program follows the rule of C131, so that the theorems apply to it. -/
example : ∃ w, World.empty.run apartP setGraphs = some w ∧ (inMachine w 0 0 = true ↔ 0 < (w.tabs 0).all.length) := by
  refine ⟨_, rfl, foreign_passes_iff (P := apartP) (os := setGraphs) ?_ rfl 1 0 0 0 (by decide +kernel)⟩
  refine ⟨trivial, fun w h => ⟨trivial, fun w1 h1 => ⟨?_, fun _ _ => trivial⟩⟩⟩
  cases h; cases h1
  intro c hc
  have hc : c = 1 := by simpa using hc
  subst hc
  exact ⟨fun h => absurd h (by decide +kernel), fun h => absurd h (by decide +kernel)⟩

end Verif.Graph
