import Mathlib.Data.List.Basic
/-!
Model of compilation for, and execution by, the tape machine.

Modelled: analysis.go (value numbering, live intervals), regalloc.go (register allocation), compile.go (code
generation), vm_tape.go and vm_tape_nocuda.go (instructions, run loop, reset). The build is the default one without the
`cuda` tag (device.go: `CPU Device = 0`, the only device), so `insertDeviceInstr` (analysis.go 136-186) inserts nothing,
`devTransChildren`/`devTransRepl` are empty and all registers are CPU registers.

A node is represented by its position in the sorted list of nodes (`sortedNodes` of compile.go 30-35 after
`reverseNodes`); operands come before users. The sort itself is external (gonum); the order is an arbitrary list.

Left out: logging; the sizes `cpumem`/`gpumem`; `flushInstr` (compile.go 391-469; `DoWork` of a machine without batched
BLAS does nothing) and `free` (compile.go 503-588; `free.exec` of a CPU register does nothing, vm_tape.go 643-645);
the optional NaN/Inf/pointer checks, tracing and the binding of dual values in the run loop.
-/
set_option autoImplicit false
namespace Verif.Tape

/-- Function update (writing one entry of a map). -/
def upd {α : Type} (f : Nat → α) (i : Nat) (v : α) : Nat → α := fun j => if j = i then v else f j

/-- What a node is: an argument (`op == nil`), a random op, a constant, an ordinary op, or a statement (let, read, and the result of `At`,
whose op says that it is a statement, op_tensor.go 68, node.go 102-104). node.go 322-326, op_infidel.go 22-62. -/
inductive Kind | arg | random | const | op | letS | readS | atS
  deriving DecidableEq, Repr

/-- The parts of `Node` and of its `Op` that compilation looks at (op.go 44-83). `lets` is the number of let statements
among the users of the node (regalloc.go 186-199), `derivOfInput` says that the node is the derivative of some input
(analysis.go 281-288), `hash` is `Hashcode()`. -/
structure Node where
  kind : Kind := .op
  children : List Nat := []
  hash : Nat := 0
  returnsPtr : Bool := true
  callsExtern : Bool := false
  overwrites : Int := -1
  lets : Nat := 0
  derivOfInput : Bool := false
  deriving Inhabited

/-- `n.isInput() || n.isConstant()` (node.go 323-325). -/
def Node.live (n : Node) : Bool :=
  match n.kind with
  | .arg | .random | .const => true
  | _ => false

/-- `n.isStmt`. -/
def Node.stmt (n : Node) : Bool :=
  match n.kind with
  | .letS | .readS | .atS => true
  | _ => false

/-- The sorted program. -/
abbrev Prog := List Node

def Prog.node (P : Prog) (i : Nat) : Node := P.getD i {}

/-! ### Value numbering -/

/-- `df.uniques` after the leaves were entered (analysis.go 88-92): hash to node, later leaves replace earlier ones. -/
def seedUniques (P : Prog) (leaves : List Nat) : Nat → Option Nat :=
  leaves.foldl (fun u l => upd u (P.node l).hash (some l)) (fun _ => none)

/-- State of the loop analysis.go 97-101. -/
structure VN where
  uniques : Nat → Option Nat
  repl : Nat → Nat

/-- `df.vn(n)` and the entry in `replacements` (analysis.go 31-47, 98-99). -/
def vnStep (P : Prog) (s : VN) (i : Nat) : VN :=
  match s.uniques (P.node i).hash with
  | some r => { s with repl := upd s.repl i r }
  | none => { uniques := upd s.uniques (P.node i).hash (some i), repl := upd s.repl i i }

/-- `analyze` (analysis.go 83-122): the replacement of every node. -/
def analyze (P : Prog) (leaves : List Nat) : Nat → Nat :=
  ((List.range P.length).foldl (vnStep P) ⟨seedUniques P leaves, id⟩).repl

/-! ### Live intervals -/

/-- `interval` (regalloc.go 13-28); `result` is a register number. `reads` is only logged and left out. -/
structure Interval where
  start : Int := -1
  end_ : Int := -1
  result : Nat := 0
  ranges : List (Int × Int) := []
  uses : List Int := []
  deriving DecidableEq, Repr

/-- `setFrom` (regalloc.go 34-38). -/
def Interval.setFrom (i : Interval) (from_ : Int) : Interval :=
  if i.start = -1 ∨ (from_ < i.start ∧ from_ ≥ 0) then { i with start := from_ } else i

/-- `addRange` (regalloc.go 54-76). The panic for `to < from` is left out: all callers have `from ≤ to`. -/
def Interval.addRange (i : Interval) (from_ to_ : Int) : Interval :=
  if (from_, to_) ∈ i.ranges then i
  else
    let i := { i with ranges := i.ranges ++ [(from_, to_)] }
    let i := if to_ > i.end_ then { i with end_ := to_ } else i
    i.setFrom from_

/-- `addUsePositions` (regalloc.go 79-81). -/
def Interval.addUse (i : Interval) (up : Int) : Interval := { i with uses := i.uses ++ [up] }

/-- Insertion into a sorted list without repetition. -/
def insertU (x : Int) : List Int → List Int
  | [] => [x]
  | y :: ys => if x < y then x :: y :: ys else if x = y then y :: ys else y :: insertU x ys

/-- `set.Ints` (external, github.com/xtgo/set): sorts and removes duplicates. -/
def setInts (l : List Int) : List Int := l.foldr insertU []

/-- `fix` (regalloc.go 40-52). -/
def Interval.fix (i : Interval) : Interval :=
  if i.uses = [] then i
  else
    let u := setInts i.uses
    let e := u.getLastD 0
    { i with uses := u, end_ := i.ranges.foldl (fun e r => if r.2 > e then r.2 else e) e }

/-- `liveAt` (regalloc.go 91-97). -/
def Interval.liveAt (i : Interval) (id : Int) : Bool := decide (i.start ≤ id ∧ id < i.end_)

/-- `merge` (regalloc.go 110-126). -/
def Interval.merge (i other : Interval) : Interval :=
  let i := if other.start < i.start ∧ other.start ≥ 0 then { i with start := other.start } else i
  let i := if other.end_ > i.end_ then { i with end_ := other.end_ } else i
  let i := other.ranges.foldl (fun i r => i.addRange r.1 r.2) i
  { i with uses := setInts (i.uses ++ other.uses) }

/-- One round of the loop of `buildIntervals` (analysis.go 239-289), for the node at position `i`. -/
def buildStep (P : Prog) (iv : Nat → Interval) (i : Nat) : Nat → Interval :=
  let nd := P.node i
  if nd.live then upd iv i ((iv i).addRange i P.length)
  else
    let iv := upd iv i ((iv i).addRange i i)
    let iv := nd.children.foldl (fun iv c => upd iv c ((iv c).addUse i)) iv
    if nd.derivOfInput then upd iv i ((iv i).addUse P.length) else iv

/-- `buildIntervals` (analysis.go 222-303): from the last node to the first, then `fix`. -/
def buildIntervals (P : Prog) : Nat → Interval :=
  let iv := (List.range P.length).reverse.foldl (buildStep P) (fun _ => {})
  fun i => (iv i).fix

/-! ### Register allocation -/

/-- `regalloc` with the intervals it fills in (regalloc.go 132-143). -/
structure RA where
  cpucount : Nat
  iv : Nat → Interval

/-- Sets `intervals[r].result`. -/
def setResult (iv : Nat → Interval) (r reg : Nat) : Nat → Interval := upd iv r { iv r with result := reg }

/-- `newReg` for the CPU followed by the assignment to the interval's result (regalloc.go 145-161). -/
def RA.fresh (s : RA) (r : Nat) : RA := ⟨s.cpucount + 1, setResult s.iv r s.cpucount⟩

/-- `allocMutableOp` (regalloc.go 163-262) for instruction `i`, filling the interval of node `r`. `reads[overwrites]`
out of range would panic; the model then uses an empty interval (`WF` excludes it). -/
def RA.mutableOp (P : Prog) (repl : Nat → Nat) (s : RA) (i r : Nat) : RA :=
  let nd := P.node i
  let reads := nd.children.map fun c => s.iv (repl c)
  if nd.overwrites ≥ 0 then
    let o := reads.getD nd.overwrites.toNat {}
    if nd.lets = 1 ∨ o.liveAt i = false then
      if nd.callsExtern = false then { s with iv := setResult s.iv r o.result } else s.fresh r
    else s.fresh r
  else s.fresh r

/-- One round of the loop of `alloc` (regalloc.go 310-336). -/
def allocStep (P : Prog) (repl : Nat → Nat) (s : RA) (i : Nat) : RA :=
  let nd := P.node i
  let r := repl i
  let s : RA := if i ≠ r then { s with iv := upd s.iv i ((s.iv i).merge (s.iv r)) } else s
  if nd.kind = .arg then s.fresh r
  else if nd.stmt then { s with iv := setResult s.iv r 0 }
  else if nd.returnsPtr then s.mutableOp P repl i r
  else s.fresh r

/-- `alloc` (regalloc.go 305-337). -/
def regalloc (P : Prog) (repl : Nat → Nat) : RA :=
  (List.range P.length).foldl (allocStep P repl) ⟨0, buildIntervals P⟩

/-! ### Code generation -/

/-- The instructions (vm_tape.go 560-790). `exec` carries the node, the registers read, the register written,
`preAllocated` and `useUnsafe`. -/
inductive Instr
  | loadArg (node writeTo : Nat)
  | alloc (node writeTo : Nat)
  | exec (node : Nat) (reads : List Nat) (writeTo : Nat) (preAllocated useUnsafe : Bool)
  | letI (readFrom writeTo : Nat)
  | read (node readFrom : Nat)
  deriving DecidableEq, Repr

/-- `codegenerator`: the registers for which an `alloc` was emitted and the instructions so far (compile.go 107-126). -/
structure CG where
  allocated : List Nat
  code : List Instr

/-- Registers read by a node (compile.go 361-365). -/
def readRegs (P : Prog) (repl : Nat → Nat) (iv : Nat → Interval) (i : Nat) : List Nat :=
  (P.node i).children.map fun c => (iv (repl c)).result

/-- One round of the first loop of `gen` (compile.go 594-609): `addArg` (233-248), `addStmt` (250-345; note that it
takes the interval of the operand itself, not of its replacement) or `addNode` (347-501). -/
def genStep (P : Prog) (repl : Nat → Nat) (iv : Nat → Interval) (s : CG) (i : Nat) : CG :=
  let nd := P.node i
  let w := (iv (repl i)).result
  match nd.kind with
  | .arg => { s with code := s.code ++ [.loadArg i w] }
  | .letS => { s with code := s.code ++ [.letI (iv (nd.children.getD 1 0)).result (iv (nd.children.getD 0 0)).result] }
  | .readS => { s with code := s.code ++ [.read i (iv (nd.children.getD 0 0)).result] }
  | .atS => s -- `addStmt` has no case for it (compile.go 263-343)
  | _ =>
    let reads := readRegs P repl iv i
    let mutable := nd.kind ≠ .random ∧ nd.returnsPtr = true
    let pre := decide (mutable ∧ nd.callsExtern = true ∧ w ∉ s.allocated)
    let s := if pre then { allocated := w :: s.allocated, code := s.code ++ [.alloc i w] } else s
    let useUnsafe := decide (reads ≠ [] ∧ nd.overwrites ≥ 0 ∧ reads[nd.overwrites.toNat]? = some w)
    if repl i = i then { s with code := s.code ++ [.exec i reads w pre useUnsafe] } else s

/-- `gen` (compile.go 590-638): the instructions of the nodes in sorted order. -/
def gen (P : Prog) (repl : Nat → Nat) (iv : Nat → Interval) : List Instr :=
  ((List.range P.length).foldl (genStep P repl iv) ⟨[], []⟩).code

/-- `Compile` after sorting (compile.go 37-59). -/
def compile (P : Prog) (leaves : List Nat) : List Instr :=
  let repl := analyze P leaves
  gen P repl (regalloc P repl).iv

/-! ### The machine -/

/-- Where `Do` puts its result: in new memory, in the memory of an operand (`reshapeOp`, op_tensor.go 1153-1189; `Iop`,
op.go 307; `repeatOp` with one repetition, op_tensor.go 384), or in memory held by the op itself (constants,
op.go 236-290). -/
inductive Ret | fresh | alias (k : Nat) | static (addr : Nat)
  deriving DecidableEq, Repr

/-- Semantics of the op of a node. `f` is the value of `Do` (`none`: an error). `pre` says that the op is a
`UsePreallocDoer` that can put its result into the memory it is offered; otherwise the machine falls back to `Do`
(vm_tape_nocuda.go 57-69; that a failing `UsePreallocDo` leaves the memory alone is a simplification). `uns` says that
it is an `UnsafeDoer`. That an operation which writes in place reads its operands before overwriting them is assumed of
the external tensor package. -/
structure OpSem (V : Type) where
  f : List V → Option V
  pre : Bool := false
  uns : Bool := false
  ret : Ret := .fresh

/-- The machine (vm_tape.go 18-50): registers and bound values hold addresses of memory. `seen` is not in the code: it
records for each executed operation the operand values it was given, and for each read statement the value read. -/
structure M (V : Type) where
  regs : Nat → Option Nat
  mem : Nat → V
  bound : Nat → Option Nat
  next : Nat
  seen : List (Nat × List V)

/-- What does not change during a run: the ops, the address bound by the user to each argument, the operand an
`UnsafeDo` writes to, and the content of newly allocated memory. -/
structure Env (V : Type) where
  sem : Nat → OpSem V
  inp : Nat → Option Nat
  over : Nat → Int
  blank : V

variable {V : Type}

/-- Values in a list of registers; `none` if one holds nothing. -/
def getAddrs (m : M V) (rs : List Nat) : Option (List Nat) := rs.mapM m.regs

/-- `Do` followed by the write to the register and the binding (vm_tape_nocuda.go 81-111, node.go 651-678). -/
def M.put (m : M V) (node w a : Nat) : M V :=
  { m with regs := upd m.regs w (some a), bound := upd m.bound node (some a) }

/-- `op.Do(inputs...)`. -/
def doOp (E : Env V) (m : M V) (node w : Nat) (as : List Nat) : Option (M V) :=
  match (E.sem node).f (as.map m.mem) with
  | none => none
  | some y =>
    match (E.sem node).ret with
    | .fresh => some ({ m with mem := upd m.mem m.next y, next := m.next + 1 }.put node w m.next)
    | .alias k => match as[k]? with
      | none => none
      | some a => some (m.put node w a)
    | .static a => some (m.put node w a)

/-- An operation that writes its result into the memory at `p` and returns it. -/
def writeAt (E : Env V) (m : M V) (node w p : Nat) (as : List Nat) : Option (M V) :=
  match (E.sem node).f (as.map m.mem) with
  | none => none
  | some y => some ({ m with mem := upd m.mem p y }.put node w p)

/-- `execOp.exec` (vm_tape_nocuda.go 19-164). An empty operand register makes the operation fail. -/
def execOp (E : Env V) (m : M V) (node : Nat) (reads : List Nat) (w : Nat) (pre uns : Bool) : Option (M V) :=
  match getAddrs m reads with
  | none => none
  | some as =>
    let m := { m with seen := m.seen ++ [(node, as.map m.mem)] }
    match m.regs w with
    | some p =>
      if (E.sem node).pre then writeAt E m node w p as else doOp E m node w as
    | none =>
      if pre = false ∧ uns = true ∧ (E.sem node).uns = true then
        match as[(E.over node).toNat]? with
        | none => none
        | some p => writeAt E m node w p as
      else doOp E m node w as

/-- `exec` of an instruction (vm_tape.go 584-626, 666-689, 755, 773-793). `none` is an error. -/
def step (E : Env V) (m : M V) : Instr → Option (M V)
  | .loadArg i w => match E.inp i with
    | none => none
    | some a => some { m with regs := upd m.regs w (some a) }
  | .alloc _ w =>
    -- a register that already holds a value of the right type and shape is kept (vm_tape.go 594-597)
    match m.regs w with
    | some _ => some m
    | none => some { m with regs := upd m.regs w (some m.next), mem := upd m.mem m.next E.blank, next := m.next + 1 }
  | .exec i rs w pre uns => execOp E m i rs w pre uns
  | .letI _ _ => some m
  | .read i r => match m.regs r with
    | none => none
    | some a => some { m with seen := m.seen ++ [(i, [m.mem a])] }

/-- The run loop (vm_tape.go 258-347): `pc` is left at the failing instruction. Result: the state, the program counter,
and whether an error was reported. -/
def runall (E : Env V) (code : List Instr) : Nat → M V → Nat → M V × Nat × Bool
  | 0, m, pc => (m, pc, false)
  | fuel + 1, m, pc =>
    match code[pc]? with
    | none => (m, pc, false)
    | some ins =>
      match step E m ins with
      | none => (m, pc, true)
      | some m' => runall E code fuel m' (pc + 1)

/-- `RunAll` (vm_tape.go 213-249) of a machine whose program counter is `pc`. -/
def runAll (E : Env V) (code : List Instr) (m : M V) (pc : Nat) : M V × Nat × Bool :=
  runall E code code.length m pc

/-- `Reset` (vm_tape.go 123-134): program counter and registers. Bound values and memory stay. -/
def reset (m : M V) : M V := { m with regs := fun _ => none }

end Verif.Tape
