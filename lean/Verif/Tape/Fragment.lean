import Verif.Tape.Theorems
/-!
Property C136: `tapeMachine.Run` (vm_tape.go 180-211), which executes a list of instructions and then binds every node to what its
register holds in the end. `RunAll` has no such step (vm_tape.go 213-249): there a node is bound when it is computed.
-/
set_option autoImplicit false
namespace Verif.Tape

variable {V : Type}

/-- The loop over `locMap` in `Run` (vm_tape.go 195-208), `lm` being the register of each node that is not an input, and `ns` those nodes. An
empty register is an error. The order of the loop, which Go does not fix, makes no difference where there is no error. -/
def bindFinal (ns : List Nat) (lm : Nat → Nat) (m : M V) : Option (M V) :=
  if ns.all fun i => (m.regs (lm i)).isSome then
    some { m with bound := fun i => if i ∈ ns then m.regs (lm i) else m.bound i }
  else none

/-- `Run` (vm_tape.go 181-211). -/
def runFrag (E : Env V) (ns : List Nat) (lm : Nat → Nat) (m : M V) (frag : List Instr) : Option (M V) :=
  (runList E m frag).bind (bindFinal ns lm)

/-- The register an instruction writes to, and the node it binds. -/
def Instr.target : Instr → Option Nat
  | .loadArg _ w => some w
  | .alloc _ w => some w
  | .exec _ _ w _ _ => some w
  | .letI _ _ => none
  | .read _ _ => none

/-- The node that an instruction computes. -/
def Instr.computes : Instr → Option Nat
  | .exec i _ _ _ _ => some i
  | _ => none

theorem execOp_put (E : Env V) (m m' : M V) (i w : Nat) (rs : List Nat) (p u : Bool) (h : execOp E m i rs w p u = some m') :
    ∃ a, m'.regs = upd m.regs w (some a) ∧ m'.bound = upd m.bound i (some a) := by
  have hw : ∀ (x x' : M V) (q : Nat) (as : List Nat), writeAt E x i w q as = some x' → x.regs = m.regs → x.bound = m.bound →
      ∃ a, x'.regs = upd m.regs w (some a) ∧ x'.bound = upd m.bound i (some a) := by
    intro x x' q as hx e1 e2
    unfold writeAt at hx
    split at hx
    · cases hx
    · cases hx
      exact ⟨q, by simp only [M.put, e1], by simp only [M.put, e2]⟩
  have hd : ∀ (x x' : M V) (as : List Nat), doOp E x i w as = some x' → x.regs = m.regs → x.bound = m.bound →
      ∃ a, x'.regs = upd m.regs w (some a) ∧ x'.bound = upd m.bound i (some a) := by
    intro x x' as hx e1 e2
    unfold doOp at hx
    split at hx
    · cases hx
    · split at hx
      · cases hx
        exact ⟨x.next, by simp only [M.put, e1], by simp only [M.put, e2]⟩
      · split at hx
        · cases hx
        · rename_i a _
          cases hx
          exact ⟨a, by simp only [M.put, e1], by simp only [M.put, e2]⟩
      · rename_i a _
        cases hx
        exact ⟨a, by simp only [M.put, e1], by simp only [M.put, e2]⟩
  unfold execOp at h
  split at h
  · cases h
  · simp only [] at h
    split at h
    · split at h
      · exact hw _ _ _ _ h rfl rfl
      · exact hd _ _ _ h rfl rfl
    · split at h
      · split at h
        · cases h
        · exact hw _ _ _ _ h rfl rfl
      · exact hd _ _ _ h rfl rfl

/-- An instruction leaves the other registers and the other nodes alone. -/
theorem step_frame (E : Env V) (m m' : M V) (ins : Instr) (h : step E m ins = some m') (r i : Nat) :
    (ins.target ≠ some r → m'.regs r = m.regs r) ∧ (ins.computes ≠ some i → m'.bound i = m.bound i) := by
  cases ins with
  | loadArg j w =>
    simp only [step] at h
    split at h
    · cases h
    · cases h
      refine ⟨fun hne => ?_, fun _ => rfl⟩
      simp only [Instr.target, ne_eq, Option.some.injEq] at hne
      exact upd_ne _ _ _ _ (fun e => hne e.symm)
  | alloc j w =>
    simp only [step] at h
    split at h
    · cases h; exact ⟨fun _ => rfl, fun _ => rfl⟩
    · cases h
      refine ⟨fun hne => ?_, fun _ => rfl⟩
      simp only [Instr.target, ne_eq, Option.some.injEq] at hne
      exact upd_ne _ _ _ _ (fun e => hne e.symm)
  | exec j rs w p u =>
    obtain ⟨a, e1, e2⟩ := execOp_put E m m' j w rs p u h
    simp only [Instr.target, Instr.computes, ne_eq, Option.some.injEq]
    exact ⟨fun hne => by rw [e1]; exact upd_ne _ _ _ _ (fun e => hne e.symm),
      fun hne => by rw [e2]; exact upd_ne _ _ _ _ (fun e => hne e.symm)⟩
  | «letI» a b =>
    simp only [step] at h
    cases h
    exact ⟨fun _ => rfl, fun _ => rfl⟩
  | read j r' =>
    simp only [step] at h
    split at h
    · cases h
    · cases h; exact ⟨fun _ => rfl, fun _ => rfl⟩

theorem runList_frame (E : Env V) (r i : Nat) (frag : List Instr) : ∀ (m m' : M V), runList E m frag = some m' →
    ((∀ ins ∈ frag, ins.target ≠ some r) → m'.regs r = m.regs r) ∧ ((∀ ins ∈ frag, ins.computes ≠ some i) → m'.bound i = m.bound i) := by
  induction frag with
  | nil => intro m m' h; cases h; exact ⟨fun _ => rfl, fun _ => rfl⟩
  | cons ins is ih =>
    intro m m' h
    unfold runList at h
    split at h
    · cases h
    · rename_i m1 h1
      obtain ⟨a1, a2⟩ := step_frame E m m1 ins h1 r i
      obtain ⟨b1, b2⟩ := ih m1 m' h
      exact ⟨fun hf => (b1 fun x hx => hf x (List.mem_cons_of_mem _ hx)).trans (a1 (hf ins List.mem_cons_self)),
        fun hf => (b2 fun x hx => hf x (List.mem_cons_of_mem _ hx)).trans (a2 (hf ins List.mem_cons_self))⟩

/-- A node is bound to what is in its register, as long as neither is written again. -/
theorem last_writer (E : Env V) (m m' : M V) (before after : List Instr) (i w : Nat) (rs : List Nat) (p u : Bool)
    (h : runList E m (before ++ .exec i rs w p u :: after) = some m') (hw : ∀ ins ∈ after, ins.target ≠ some w)
    (hi : ∀ ins ∈ after, ins.computes ≠ some i) : m'.regs w = m'.bound i ∧ (m'.regs w).isSome := by
  rw [runList_append] at h
  cases h1 : runList E m before with
  | none => rw [h1] at h; cases h
  | some m1 =>
    rw [h1] at h
    simp only [Option.bind_some, runList] at h
    cases h2 : step E m1 (.exec i rs w p u) with
    | none => rw [h2] at h; cases h
    | some m2 =>
      rw [h2] at h
      obtain ⟨a, e1, e2⟩ := execOp_put E m1 m2 i w rs p u h2
      obtain ⟨b1, b2⟩ := runList_frame E w i after m2 m' h
      rw [b1 hw, b2 hi, e1, e2, upd_same, upd_same]
      exact ⟨rfl, rfl⟩

/-- **C136 (nodes whose register is their own).** If the register of a node is not written after the node has been computed, `Run` leaves
the node bound as `RunAll` would; memory and registers are as after the instructions in any case. -/
theorem frag_right (E : Env V) (ns : List Nat) (lm : Nat → Nat) (m m' : M V) (before after : List Instr) (i : Nat) (rs : List Nat) (p u : Bool)
    (h : runFrag E ns lm m (before ++ .exec i rs (lm i) p u :: after) = some m') (hw : ∀ ins ∈ after, ins.target ≠ some (lm i))
    (hi : ∀ ins ∈ after, ins.computes ≠ some i) :
    ∃ m1, runList E m (before ++ .exec i rs (lm i) p u :: after) = some m1 ∧ m'.bound i = m1.bound i ∧ m'.mem = m1.mem ∧ m'.regs = m1.regs := by
  unfold runFrag at h
  cases h1 : runList E m (before ++ .exec i rs (lm i) p u :: after) with
  | none => rw [h1] at h; cases h
  | some m1 =>
    rw [h1] at h
    obtain ⟨e, _⟩ := last_writer E m m1 before after i (lm i) rs p u h1 hw hi
    simp only [Option.bind_some, bindFinal] at h
    split at h
    · cases h
      refine ⟨m1, rfl, ?_, rfl, rfl⟩
      simp only []
      split
      · exact e
      · rfl
    · cases h

/-- **C136 (defect: shared registers).** After any `Run`, of whatever instructions from whatever state, all nodes that the compiler has
given the same register are bound to the same memory. -/
theorem frag_same (E : Env V) (ns : List Nat) (lm : Nat → Nat) (m m' : M V) (frag : List Instr) (h : runFrag E ns lm m frag = some m')
    (i j : Nat) (hi : i ∈ ns) (hj : j ∈ ns) (hij : lm i = lm j) : m'.bound i = m'.bound j := by
  unfold runFrag at h
  cases h1 : runList E m frag with
  | none => rw [h1] at h; cases h
  | some m1 =>
    rw [h1] at h
    simp only [Option.bind_some, bindFinal] at h
    split at h
    · cases h
      simp only [if_pos hi, if_pos hj, hij]
    · cases h

/-- **C136 (defect: parts of a program).** A fragment that leaves the register of one node of the program empty is reported as a failure,
although all its instructions have been executed: only a fragment that fills all registers can be run. -/
theorem frag_incomplete (E : Env V) (ns : List Nat) (lm : Nat → Nat) (m : M V) (frag : List Instr) (i : Nat) (hi : i ∈ ns)
    (hempty : m.regs (lm i) = none) (hw : ∀ ins ∈ frag, ins.target ≠ some (lm i)) : runFrag E ns lm m frag = none := by
  unfold runFrag
  cases h1 : runList E m frag with
  | none => rfl
  | some m1 =>
    have e := (runList_frame E (lm i) i frag m m1 h1).1 hw
    simp only [Option.bind_some, bindFinal]
    rw [if_neg]
    intro hall
    have := List.all_eq_true.1 hall i hi
    rw [e, hempty] at this
    cases this

/-- Which runs succeed, exactly: the instructions do, and no register of a node is left empty. -/
theorem frag_ok_iff (E : Env V) (ns : List Nat) (lm : Nat → Nat) (m : M V) (frag : List Instr) :
    (∃ m', runFrag E ns lm m frag = some m') ↔ ∃ m1, runList E m frag = some m1 ∧ ∀ i ∈ ns, m1.regs (lm i) ≠ none := by
  unfold runFrag
  cases h1 : runList E m frag with
  | none => simp
  | some m1 =>
    simp only [Option.bind_some, bindFinal, Option.some.injEq, exists_eq_left']
    constructor
    · rintro ⟨m', h⟩ i hi e
      split at h
      · rename_i hall
        have := List.all_eq_true.1 hall i hi
        rw [e] at this
        cases this
      · cases h
    · intro hne
      rw [if_pos]
      · exact ⟨_, rfl⟩
      · refine List.all_eq_true.2 fun i hi => ?_
        cases hr : m1.regs (lm i) with
        | none => exact absurd hr (hne i hi)
        | some a => rfl

/-- The operations of `exP` where results are put into new memory. -/
def frE : Env Int :=
  { exE with sem := fun i =>
      { f := fun vs => match vs with | [a, b] => some (if i = 2 then a + b else a * b) | _ => none } }

/-- **C136 (defect, concretely).** The program `s = x + y`, `t = s * y` with `x = 2`, `y = 3`: `s` and `t` have one register. `RunAll`
leaves `s` with 5 and `t` with 15; `Run` of the same instructions leaves both with 15. -/
theorem frag_wrong :
    let code := compile exP [0, 1]
    let all := runAll frE code exM 0
    let frag := runFrag frE [2, 3] (reg exP) exM code
    reg exP 2 = reg exP 3 ∧ all.2.2 = false ∧ (all.1.bound 2).map all.1.mem = some 5 ∧ (all.1.bound 3).map all.1.mem = some 15 ∧
      frag.bind (fun m => (m.bound 2).map m.mem) = some 15 ∧ frag.bind (fun m => (m.bound 3).map m.mem) = some 15 := by
  refine ⟨by decide, by decide, by decide, by decide, by decide, by decide⟩

/-- The first three instructions alone: the sum is computed, but if the product had its own register the run would be reported as failed. -/
example :
    let lm := fun i => if i = 3 then 7 else reg exP i
    runFrag frE [2, 3] lm exM ((compile exP [0, 1]).take 3) = none ∧
      (runList frE exM ((compile exP [0, 1]).take 3)).isSome := by
  refine ⟨frag_incomplete frE [2, 3] _ exM _ 3 (by decide) rfl (by decide), by decide⟩

end Verif.Tape
