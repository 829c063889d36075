import Mathlib.Logic.Function.Iterate
/-!
Training and evaluation (`EvalMode` of `/repo/vm.go`, the constructors of the machines in `/repo/vm_tape.go` and `/repo/vm_genera.go`, `SetTraining` of dropout and of batch normalisation),
property C90, and the switches of the machines, property C91.

The mode is kept in the operations of the graph, not in the machine: `NewTapeMachine` (vm_tape.go 73-79) and `NewLispMachine` (vm_genera.go 64-70) set it for all operations of
the graph when the machine is made, and running reads it there (op_dropout.go 80, 97; op_nn.go 1427, 1450). What a batch does to the running mean and variance is left
open (`upd`); it is modelled in `NN/BatchNorm.lean`.
-/
set_option autoImplicit false
namespace Verif.RunLoop.Mode

/-- An operation with a mode: dropout (op_dropout.go 16-20) or batch normalisation with its statistics (op_nn.go 1158-1172). -/
inductive Op (σ : Type) where
  | dropout (training : Bool)
  | norm (training : Bool) (stats : σ)
deriving DecidableEq, Repr

variable {σ : Type}

def Op.training : Op σ → Bool
  | .dropout t => t
  | .norm t _ => t

def Op.stats? : Op σ → Option σ
  | .dropout _ => none
  | .norm _ s => some s

/-- `SetTraining`: op_dropout.go 32; op_nn.go 1317-1325, which for training also resets the statistics (1328-1345). -/
def Op.setTraining (fresh : σ) (t : Bool) : Op σ → Op σ
  | .dropout _ => .dropout t
  | .norm _ s => .norm t (if t then fresh else s)

/-- Making a machine for the graph, vm_tape.go 73-79, vm_genera.go 64-70. -/
def create (fresh : σ) (eval : Bool) (ops : List (Op σ)) : List (Op σ) := ops.map (Op.setTraining fresh !eval)

/-- Running a batch: normalisation updates its statistics while training. -/
def Op.run (upd : σ → σ) : Op σ → Op σ
  | .norm true s => .norm true (upd s)
  | o => o

/-- What happens to a graph: a machine is made (`eval`: with `EvalMode`), or the `i`-th machine runs. -/
inductive Ev where
  | create (eval : Bool)
  | run (i : Nat)
deriving DecidableEq, Repr

structure St (σ : Type) where
  ops : List (Op σ)
  /-- the machines made so far, oldest first: `EvalMode` or not -/
  evals : List Bool

def step (fresh : σ) (upd : σ → σ) : Ev → St σ → St σ
  | .create e, s => ⟨create fresh e s.ops, s.evals ++ [e]⟩
  | .run _, s => ⟨s.ops.map (Op.run upd), s.evals⟩

def exec (fresh : σ) (upd : σ → σ) : List Ev → St σ → St σ
  | [], s => s
  | e :: es, s => exec fresh upd es (step fresh upd e s)

theorem exec_append (fresh : σ) (upd : σ → σ) (es es' : List Ev) : ∀ s, exec fresh upd (es ++ es') s = exec fresh upd es' (exec fresh upd es s) := by
  induction es with
  | nil => intro s; rfl
  | cons e es ih => intro s; simp only [List.cons_append, exec]; exact ih _

theorem run_training (upd : σ → σ) (o : Op σ) : (o.run upd).training = o.training := by
  unfold Op.run
  split <;> rfl

theorem set_training (fresh : σ) (t : Bool) (o : Op σ) : (o.setTraining fresh t).training = t := by cases o <;> rfl

/-- The mode in the operations is that of the machine made last. -/
theorem exec_mode (fresh : σ) (upd : σ → σ) (es : List Ev) : ∀ (s : St σ), (∀ e, s.evals.getLast? = some e → ∀ o ∈ s.ops, o.training = !e) →
    ∀ e, (exec fresh upd es s).evals.getLast? = some e → ∀ o ∈ (exec fresh upd es s).ops, o.training = !e := by
  induction es with
  | nil => intro s h; exact h
  | cons ev es ih =>
    intro s h
    simp only [exec]
    apply ih
    cases ev with
    | create e =>
      intro e' he o ho
      simp only [step, List.getLast?_append, List.getLast?_singleton, Option.some_or, Option.some.injEq] at he
      subst he
      simp only [step, create, List.mem_map] at ho
      obtain ⟨o', _, rfl⟩ := ho
      exact set_training fresh _ o'
    | run i =>
      intro e he o ho
      simp only [step, List.mem_map] at ho he
      obtain ⟨o', ho', rfl⟩ := ho
      rw [run_training]
      exact h e he o' ho'

/-- **C90 (whose mode).** After any sequence of making machines for a graph and running them, whichever machine runs next runs each operation in the mode of the machine that
was made last. -/
theorem mode_of_last (fresh : σ) (upd : σ → σ) (es : List Ev) (ops : List (Op σ)) (e : Bool)
    (he : (exec fresh upd es ⟨ops, []⟩).evals.getLast? = some e) : ∀ o ∈ (exec fresh upd es ⟨ops, []⟩).ops, o.training = !e :=
  exec_mode fresh upd es ⟨ops, []⟩ (by simp) e he

/-- The machine in the `i`-th place finds its own mode. -/
def OwnMode (s : St σ) (i : Nat) : Prop := ∃ e, s.evals[i]? = some e ∧ ∀ o ∈ s.ops, o.training = !e

theorem exec_ops_ne (fresh : σ) (upd : σ → σ) (es : List Ev) : ∀ (s : St σ), s.ops ≠ [] → (exec fresh upd es s).ops ≠ [] := by
  induction es with
  | nil => intro s h; exact h
  | cons ev es ih =>
    intro s h
    simp only [exec]
    apply ih
    cases ev <;> simp [step, create, h]

/-- **C90 (exactly).** A machine runs in its own mode exactly if that is the mode of the machine made last. -/
theorem own_mode_iff (fresh : σ) (upd : σ → σ) (es : List Ev) (ops : List (Op σ)) (ho : ops ≠ []) (i : Nat)
    (hi : i < (exec fresh upd es ⟨ops, []⟩).evals.length) :
    OwnMode (exec fresh upd es ⟨ops, []⟩) i ↔ (exec fresh upd es ⟨ops, []⟩).evals[i]? = (exec fresh upd es ⟨ops, []⟩).evals.getLast? := by
  have hne : (exec fresh upd es ⟨ops, []⟩).evals ≠ [] := by
    intro e; rw [e] at hi; simp at hi
  obtain ⟨e, he⟩ : ∃ e, (exec fresh upd es ⟨ops, []⟩).evals.getLast? = some e := ⟨_, List.getLast?_eq_some_getLast hne⟩
  have hm := mode_of_last fresh upd es ops e he
  have hops := exec_ops_ne fresh upd es ⟨ops, []⟩ ho
  rw [he]
  constructor
  · rintro ⟨e', h1, h2⟩
    obtain ⟨o, hoo⟩ := List.exists_mem_of_ne_nil _ hops
    have := (hm o hoo).symm.trans (h2 o hoo)
    rw [h1]
    cases e <;> cases e' <;> simp_all
  · intro h
    exact ⟨e, h, hm⟩

/-- **C90 (one machine).** If all machines of a graph are made in the same mode, each runs in it. -/
theorem own_mode_partial (fresh : σ) (upd : σ → σ) (es : List Ev) (ops : List (Op σ)) (e : Bool)
    (hs : ∀ e' ∈ (exec fresh upd es ⟨ops, []⟩).evals, e' = e) (i : Nat) (hi : i < (exec fresh upd es ⟨ops, []⟩).evals.length) :
    OwnMode (exec fresh upd es ⟨ops, []⟩) i := by
  have hne : (exec fresh upd es ⟨ops, []⟩).evals ≠ [] := by
    intro e; rw [e] at hi; simp at hi
  refine ⟨e, ?_, ?_⟩
  · rw [List.getElem?_eq_getElem hi, hs _ (List.getElem_mem hi)]
  · apply mode_of_last
    rw [List.getLast?_eq_some_getLast hne, hs _ (List.getLast_mem hne)]

/-- **C90 (statistics lost).** Making a machine that trains resets the statistics of every normalisation of the graph, whatever had been learned. -/
theorem create_resets (fresh : σ) (s : St σ) (upd : σ → σ) : ∀ st, st ∈ (step fresh upd (.create false) s).ops.filterMap Op.stats? → st = fresh := by
  intro st h
  obtain ⟨o, ho, he⟩ := List.mem_filterMap.mp h
  simp only [step, create, List.mem_map] at ho
  obtain ⟨o', _, rfl⟩ := ho
  cases o' with
  | dropout t => cases he
  | norm t s => simp [Op.setTraining, Op.stats?] at he; exact he.symm

/-- Running machines: how often is all that matters. -/
theorem exec_runs (fresh : σ) (upd : σ → σ) (is : List Nat) : ∀ (s : St σ), exec fresh upd (is.map .run) s =
    ⟨s.ops.map (Op.run upd)^[is.length], s.evals⟩ := by
  induction is with
  | nil => intro s; simp [exec]
  | cons i is ih =>
    intro s
    simp only [List.map_cons, exec, step]
    rw [ih]
    simp [Function.iterate_succ]

theorem run_iterate (upd : σ → σ) (n : Nat) (s : σ) : (Op.run upd)^[n] (.norm true s) = .norm true (upd^[n] s) := by
  induction n generalizing s with
  | zero => rfl
  | succ n ih => rw [Function.iterate_succ_apply, Function.iterate_succ_apply]; exact ih _

theorem run_iterate_eval (upd : σ → σ) (n : Nat) (s : σ) : (Op.run upd)^[n] (.norm false s) = .norm false s := by
  induction n with
  | zero => rfl
  | succ n ih => rw [Function.iterate_succ_apply]; exact ih

/-- **C90 (train, then evaluate).** Training for `n` batches and then making a machine for evaluation keeps what has been learned, however often the second is run, and it
evaluates. -/
theorem train_then_eval_partial (fresh : σ) (upd : σ → σ) (t : Bool) (s0 : σ) (n m : Nat) :
    (exec fresh upd (.create false :: (List.replicate n 0).map .run ++ .create true :: (List.replicate m 1).map .run) ⟨[.norm t s0], []⟩).ops =
      [.norm false (upd^[n] fresh)] := by
  rw [exec_append]
  simp only [exec, step, create]
  rw [exec_runs, exec_runs]
  simp [Op.setTraining, run_iterate, run_iterate_eval]

/-- **C90 (negation).** If then the first machine, made for training, is run again, it does not train: the statistics stay as they are. -/
theorem train_stops (fresh : σ) (upd : σ → σ) (t : Bool) (s0 : σ) (n k : Nat) :
    (exec fresh upd (.create false :: (List.replicate n 0).map .run ++ .create true :: (List.replicate k 0).map .run) ⟨[.norm t s0], []⟩).ops =
      [.norm false (upd^[n] fresh)] ∧
    ¬ OwnMode (exec fresh upd (.create false :: (List.replicate n 0).map .run ++ .create true :: (List.replicate k 0).map .run) ⟨[.norm t s0], []⟩) 0 := by
  have key : exec fresh upd (.create false :: (List.replicate n 0).map .run ++ .create true :: (List.replicate k 0).map .run) ⟨[.norm t s0], []⟩ =
      ⟨[.norm false (upd^[n] fresh)], [false, true]⟩ := by
    rw [exec_append]
    simp only [exec, step, create]
    rw [exec_runs, exec_runs]
    simp [Op.setTraining, run_iterate, run_iterate_eval]
  rw [key]
  refine ⟨rfl, ?_⟩
  rintro ⟨e, h1, h2⟩
  simp at h1
  subst h1
  have := h2 _ List.mem_cons_self
  simp [Op.training] at this

/-- **C90 (negation).** If after training for `n` batches another machine for training is made, what has been learned is lost. -/
theorem retrain_forgets (fresh : σ) (upd : σ → σ) (t : Bool) (s0 : σ) (n : Nat) :
    (exec fresh upd (.create false :: (List.replicate n 0).map .run ++ [.create false]) ⟨[.norm t s0], []⟩).ops = [.norm true fresh] := by
  rw [exec_append]
  simp only [exec, step, create]
  rw [exec_runs]
  simp [Op.setTraining, run_iterate]

/-- Counting batches: three of training, then a machine for evaluation, and the first once more. -/
example : (exec 0 (· + 1) [.create false, .run 0, .run 0, .run 0, .create true, .run 0] ⟨[.norm false 7, .dropout true], []⟩).ops =
    [Op.norm false 3, Op.dropout false] := by decide

/-! ### Switches -/

/-- The positions of the switches, vm.go 29-39. -/
inductive Switch where
  | fwdOnly | bwdOnly | watchNaN | watchInf | watchPointer | allocVals | spare2 | spare3 | watchAll
deriving DecidableEq, Repr

def Switch.pos : Switch → Nat
  | .fwdOnly => 0 | .bwdOnly => 1 | .watchNaN => 2 | .watchInf => 3 | .watchPointer => 4 | .allocVals => 5 | .spare2 => 6 | .spare3 => 7 | .watchAll => 8

/-- `flags |= uint16(1) << pos`, vm_tape.go 86-119, vm_genera.go 77-108. -/
def turnOn (x : Switch) (f : BitVec 16) : BitVec 16 := f ||| (1#16 <<< x.pos)

/-- `flags &= ^(uint16(1) << pos)`. -/
def turnOff (x : Switch) (f : BitVec 16) : BitVec 16 := f &&& ~~~(1#16 <<< x.pos)

/-- `(flags >> pos) & 1 == 1`. -/
def isOn (x : Switch) (f : BitVec 16) : Bool := (f >>> x.pos) &&& 1#16 == 1#16

theorem pos_lt (x : Switch) : x.pos < 16 := by cases x <;> decide

theorem isOn_bit (x : Switch) (f : BitVec 16) : isOn x f = f.getLsbD x.pos := by
  unfold isOn
  have h : ∀ g : BitVec 16, (g &&& 1#16 == 1#16) = g.getLsbD 0 := by
    intro g
    cases hg : g.getLsbD 0 with
    | true =>
      rw [beq_iff_eq]
      apply BitVec.eq_of_getLsbD_eq
      intro i hi
      rw [BitVec.getLsbD_and]
      cases i with
      | zero => simp [hg]
      | succ i => simp [BitVec.getLsbD_one]
    | false =>
      rw [beq_eq_false_iff_ne]
      intro e
      have := congrArg (·.getLsbD 0) e
      simp only [BitVec.getLsbD_and, hg, Bool.false_and] at this
      exact absurd this (by decide)
  rw [h, BitVec.getLsbD_ushiftRight]
  simp

theorem one_shift (x y : Switch) : (1#16 <<< x.pos).getLsbD y.pos = decide (x = y) := by
  cases x <;> cases y <;> decide

/-- **C91 (switches).** An option turns on its own switch and leaves every other as it is, whatever the state of the flags; likewise for turning off. -/
theorem switch_on (x y : Switch) (f : BitVec 16) : isOn y (turnOn x f) = if x = y then true else isOn y f := by
  rw [isOn_bit, isOn_bit, turnOn, BitVec.getLsbD_or, one_shift]
  by_cases h : x = y <;> simp [h]

theorem switch_off (x y : Switch) (f : BitVec 16) : isOn y (turnOff x f) = if x = y then false else isOn y f := by
  rw [isOn_bit, isOn_bit, turnOff, BitVec.getLsbD_and, BitVec.getLsbD_not, one_shift]
  by_cases h : x = y <;> simp [h, pos_lt]

/-- The options of the define-by-run machine that choose what is run, vm.go 185-213. -/
def fwdOnlyOpt (f : BitVec 16) : BitVec 16 := turnOff .bwdOnly (turnOn .fwdOnly f)
def bwdOnlyOpt (f : BitVec 16) : BitVec 16 := turnOff .fwdOnly (turnOn .bwdOnly f)

/-- **C91 (last one counts).** `ExecuteFwdOnly` after anything, also after `ExecuteBwdOnly`, runs forwards only, and conversely; the other switches stay. -/
theorem fwdOnly_last (f : BitVec 16) (y : Switch) : isOn y (fwdOnlyOpt f) = match y with
    | .fwdOnly => true
    | .bwdOnly => false
    | y => isOn y f := by
  unfold fwdOnlyOpt
  rw [switch_off, switch_on]
  cases y <;> simp

theorem bwdOnly_last (f : BitVec 16) (y : Switch) : isOn y (bwdOnlyOpt f) = match y with
    | .bwdOnly => true
    | .fwdOnly => false
    | y => isOn y f := by
  unfold bwdOnlyOpt
  rw [switch_off, switch_on]
  cases y <;> simp

/-- Watching for NaN and tracing, on a machine that allocates. -/
example : isOn .watchNaN (turnOn .spare2 (turnOn .watchNaN (turnOn .allocVals 0#16))) = true ∧
    isOn .watchInf (turnOn .spare2 (turnOn .watchNaN (turnOn .allocVals 0#16))) = false := by decide

end Verif.RunLoop.Mode
