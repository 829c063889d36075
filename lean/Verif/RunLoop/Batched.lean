import Verif.Blase.Queue
/-!
The tape machine together with a queue of BLAS calls (`/repo/vm_tape.go` `RunAll` and `runall`, `/repo/noextern.go`, `/repo/blase/work.go`),
properties C84 and C86.

Three goroutines: the worker (`runall`, vm_tape.go 251-347), the one that called `RunAll` (213-249) and the collector that
`ExternMetadata.init` starts (noextern.go 21-28, 95-101). An instruction is the list of BLAS calls it makes, or a flush, or one that fails.
A step is one channel operation or one access to the queue; `append` and `process` are one step each, and so is reading the length and capacity.
`attached` says whether the machine uses the queue (`m.b != nil`, vm_tape.go 51-53): that needs a method `Close` (blas.go 25-30), which
`blase` does not have. Watches and the closures run at the end (241-245) are left out.
-/
set_option autoImplicit false
namespace Verif.RunLoop
open Verif.Shape Verif.Blase

/-- Where a goroutine is inside `DoWork` (work.go 126-156): before the outer `select`, with a call just received there, at the head of the
inner loop (with the variable `blocking`), with a call just received there. -/
inductive DW where
  | outer
  | got (w : Call)
  | inner (blocking : Bool)
  | gotI (w : Call)
deriving DecidableEq, Repr

/-- Outcome of one step inside `DoWork`. -/
inductive Out where
  | next (d : DW) (c : Ctx)
  | ret
  | panic
deriving DecidableEq, Repr

/-- One step inside `DoWork`, work.go 126-156. -/
def dwStep (grow : Nat → Nat) (d : DW) (c : Ctx) : Out :=
  match d with
  | .outer => match c.work with
    | [] => .ret
    | w :: ws => .next (.got w) { c with work := ws }
  | .got w => .next (.inner w.blocking) { c with queue := c.queue ++ [w], cap := capAfter grow c.queue.length c.cap }
  | .inner b =>
    if decide (c.queue.length < c.cap) && !b then
      match c.work with
      | [] => .next .outer c
      | w :: ws => .next (.gotI w) { c with work := ws }
    else .next .outer c
  | .gotI w => match process (capAfter grow c.queue.length c.cap) (c.queue ++ [w]) c.done with
    | .ok r => .next (.inner w.blocking) { c with queue := r.1, cap := r.2.1, done := r.2.2 }
    | _ => .panic

/-- `ExternMetadata.DoWork`, noextern.go 49-54. -/
def dwStepA (grow : Nat → Nat) (attached : Bool) (d : DW) (c : Ctx) : Out := if attached then dwStep grow d c else .ret

/-- An instruction of the program, as far as the queue is concerned: `execOp`, `flushInstr` (vm_tape.go 737-740), an instruction that
returns an error. -/
inductive Instr where
  | exec (calls : List Call)
  | flush
  | fail
deriving DecidableEq, Repr

/-- Where the worker is: at the head of the loop of `runall`; making calls (`enqueue`, work.go 112-117, before the send and before the
signal); flushing; sending on `errChan` or `doneChan`; ended. -/
inductive Wk where
  | run
  | calls (cs : List Call)
  | flag (cs : List Call)
  | dw (d : DW)
  | sendErr
  | sendDone
  | fin
  | crashed
deriving DecidableEq, Repr

/-- Where `RunAll` is: in its `select`; in a `DoWork` after a signal (vm_tape.go 227); in the one after `doneChan` (237); in the deferred one (216), with
the result; returned; crashed. -/
inductive Mn where
  | select
  | dw (d : DW)
  | final (d : DW)
  | defer (ok : Bool) (d : DW)
  | ret (ok : Bool)
  | crashed
deriving DecidableEq, Repr

structure S where
  prog : List Instr
  wk : Wk
  mn : Mn
  /-- the collector holds a signal it wants to pass on -/
  token : Bool
  /-- the channel `workAvailable` of the queue holds a signal -/
  flag : Bool
  ctx : Ctx
  /-- calls handed over so far -/
  issued : List Call
deriving DecidableEq, Repr

def S.init (p : List Instr) : S := ⟨p, .run, .select, false, false, Ctx.new, []⟩

/-- The worker's next step; `none`: it waits or has ended. -/
def stepWk (grow : Nat → Nat) (att : Bool) (s : S) : Option S :=
  match s.wk with
  | .run => match s.prog with
    | [] => some { s with wk := .sendDone }
    | .exec cs :: p => some { s with prog := p, wk := .calls cs }
    | .flush :: p => some { s with prog := p, wk := .dw .outer }
    | .fail :: p => some { s with prog := p, wk := .sendErr }
  | .calls [] => some { s with wk := .run }
  | .calls (w :: cs) =>
    if s.ctx.work.length < workbufLen then
      some { s with wk := .flag cs, ctx := { s.ctx with work := s.ctx.work ++ [w] }, issued := s.issued ++ [w] }
    else none
  | .flag cs => some { s with flag := true, wk := .calls cs }
  | .dw d => match dwStepA grow att d s.ctx with
    | .next d c => some { s with wk := .dw d, ctx := c }
    | .ret => some { s with wk := .run }
    | .panic => some { s with wk := .crashed }
  | _ => none

/-- The collector takes a signal (noextern.go 97). -/
def stepTake (att : Bool) (s : S) : Option S :=
  if att && !s.token && s.flag then some { s with token := true, flag := false } else none

/-- The collector passes it to `RunAll` (noextern.go 98, vm_tape.go 226). -/
def stepPass (s : S) : Option S :=
  match s.token, s.mn with
  | true, .select => some { s with token := false, mn := .dw .outer }
  | _, _ => none

/-- `RunAll` works in one of its `DoWork`s. -/
def stepMn (grow : Nat → Nat) (att : Bool) (s : S) : Option S :=
  match s.mn with
  | .dw d => match dwStepA grow att d s.ctx with
    | .next d c => some { s with mn := .dw d, ctx := c }
    | .ret => some { s with mn := .select }
    | .panic => some { s with mn := .crashed }
  | .final d => match dwStepA grow att d s.ctx with
    | .next d c => some { s with mn := .final d, ctx := c }
    | .ret => some { s with mn := .defer true .outer }
    | .panic => some { s with mn := .crashed }
  | .defer r d => match dwStepA grow att d s.ctx with
    | .next d c => some { s with mn := .defer r d, ctx := c }
    | .ret => some { s with mn := .ret r }
    | .panic => some { s with mn := .crashed }
  | _ => none

/-- The worker meets `RunAll` on `errChan` or `doneChan` (vm_tape.go 234-236). -/
def stepEnd (s : S) : Option S :=
  match s.wk, s.mn with
  | .sendErr, .select => some { s with wk := .fin, mn := .defer false .outer }
  | .sendDone, .select => some { s with wk := .fin, mn := .final .outer }
  | _, _ => none

inductive L where
  | wk | take | pass | mn | finish
deriving DecidableEq, Repr

def step (grow : Nat → Nat) (att : Bool) (l : L) (s : S) : Option S :=
  match l with
  | .wk => stepWk grow att s
  | .take => stepTake att s
  | .pass => stepPass s
  | .mn => stepMn grow att s
  | .finish => stepEnd s

/-- A schedule. -/
def exec (grow : Nat → Nat) (att : Bool) : List L → S → Option S
  | [], s => some s
  | l :: ls, s => (step grow att l s).bind (exec grow att ls)

/-- The states some schedule leads to. -/
def Reach (grow : Nat → Nat) (att : Bool) (p : List Instr) (s : S) : Prop := ∃ ls, exec grow att ls (S.init p) = some s

theorem exec_append (grow : Nat → Nat) (att : Bool) (ls ls' : List L) : ∀ s, exec grow att (ls ++ ls') s =
    (exec grow att ls s).bind (exec grow att ls') := by
  induction ls with
  | nil => intro s; rfl
  | cons l ls ih =>
    intro s
    simp only [List.cons_append, exec]
    cases step grow att l s with
    | none => rfl
    | some s' => simp [ih]

/-- Invariants hold in all reachable states. -/
theorem reach_ind {grow : Nat → Nat} {att : Bool} {p : List Instr} (P : S → Prop) (h0 : P (S.init p))
    (hs : ∀ s l s', P s → step grow att l s = some s' → P s') {s : S} (h : Reach grow att p s) : P s := by
  obtain ⟨ls, h⟩ := h
  suffices ∀ (ls : List L) (s0 : S), P s0 → exec grow att ls s0 = some s → P s from this ls _ h0 h
  intro ls
  induction ls with
  | nil => intro s0 h0 h; simp only [exec] at h; injection h with h; subst h; exact h0
  | cons l ls ih =>
    intro s0 h0 h
    simp only [exec] at h
    cases e : step grow att l s0 with
    | none => simp [e] at h
    | some s1 => rw [e] at h; exact ih s1 (hs _ _ _ h0 e) h

/-! ### `DoWork` alone -/

/-- The steps of one goroutine in `DoWork`, undisturbed. -/
def runDW (grow : Nat → Nat) : Nat → DW → Ctx → Option (Res Ctx)
  | 0, _, _ => none
  | n + 1, d, c => match dwStep grow d c with
    | .next d c => runDW grow n d c
    | .ret => some (.ok c)
    | .panic => some .panic

theorem runDW_inner (grow : Nat → Nat) : ∀ (work : List Call) (b : Bool) (q : List Call) (cap : Nat) (done : List Call),
    ∃ n, runDW grow n (.inner b) ⟨work, q, cap, done⟩ = some (loops grow true b work q cap done) := by
  intro work
  induction work with
  | nil =>
    intro b q cap done
    refine ⟨2, ?_⟩
    by_cases hc : (decide (q.length < cap) && !b) = true
    · simp only [runDW, dwStep, if_pos hc, loops]
    · simp only [runDW, dwStep, if_neg hc, loops]
  | cons w ws ih =>
    intro b q cap done
    by_cases hc : (decide (q.length < cap) && !b) = true
    · have hlt : q.length ≠ cap := by
        simp at hc; omega
      have hcap : capAfter grow q.length cap = cap := by unfold capAfter; rw [if_neg hlt]
      by_cases hl : (q ++ [w]).length > workbufLen
      · refine ⟨2, ?_⟩
        simp only [runDW, dwStep, if_pos hc, loops, Bool.true_and, process, if_pos hl, Res.bind]
      · obtain ⟨n, hn⟩ := ih w.blocking [] cap (done ++ (q ++ [w]))
        refine ⟨n + 2, ?_⟩
        simp only [runDW, dwStep, if_pos hc, loops, Bool.true_and, process, if_neg hl, Res.bind, hcap]
        exact hn
    · obtain ⟨n, hn⟩ := ih w.blocking (q ++ [w]) (capAfter grow q.length cap) done
      refine ⟨n + 3, ?_⟩
      simp only [runDW, dwStep, if_neg hc, loops, Bool.true_and]
      exact hn

/-- The steps of `DoWork`, when no other goroutine interferes, compute `doWork` of `Blase/Queue.lean`. -/
theorem runDW_doWork (grow : Nat → Nat) (c : Ctx) : ∃ n, runDW grow n .outer c = some (doWork grow c) := by
  obtain ⟨work, q, cap, done⟩ := c
  cases work with
  | nil => exact ⟨1, rfl⟩
  | cons w ws =>
    obtain ⟨n, hn⟩ := runDW_inner grow ws w.blocking (q ++ [w]) (capAfter grow q.length cap) done
    refine ⟨n + 2, ?_⟩
    simp only [runDW, dwStep, doWork, loops, Bool.false_and, Bool.false_eq_true, if_false]
    exact hn

/-! ### The queue is not used -/

/-- Calls still to be made by the program. -/
def callsIn : List Instr → Nat
  | [] => 0
  | .exec cs :: p => cs.length + callsIn p
  | .flush :: p => callsIn p
  | .fail :: p => callsIn p

/-- Calls the worker is about to make. -/
def Wk.pending : Wk → Nat
  | .calls cs => cs.length
  | .flag cs => cs.length
  | _ => 0

/-- **C86 (queue not attached).** If the machine does not use the queue (which is so for `blase`, for want of a `Close`), no call is ever run, and every call
handed over stays in the channel. -/
theorem detached_runs_none (grow : Nat → Nat) (p : List Instr) {s : S} (h : Reach grow false p s) :
    s.ctx.done = [] ∧ s.ctx.queue = [] ∧ s.ctx.work = s.issued ∧ s.issued.length ≤ workbufLen ∧ s.token = false := by
  refine reach_ind (fun s => s.ctx.done = [] ∧ s.ctx.queue = [] ∧ s.ctx.work = s.issued ∧ s.issued.length ≤ workbufLen ∧
    s.token = false) ⟨rfl, rfl, rfl, Nat.zero_le _, rfl⟩ ?_ h
  rintro s l s' ⟨h1, h2, h3, h4, h5⟩ hs
  cases l with
  | wk =>
    simp only [step, stepWk, dwStepA, Bool.false_eq_true, if_false] at hs
    repeat' split at hs
    all_goals first
      | (cases hs; done)
      | (injection hs with hs; subst hs; exact ⟨h1, h2, h3, h4, h5⟩)
      | (injection hs with hs; subst hs; rename_i hl; refine ⟨h1, h2, by simp [h3], ?_, h5⟩; rw [h3] at hl; simp; omega)
  | take => simp [step, stepTake] at hs
  | pass =>
    simp only [step, stepPass] at hs
    rw [h5] at hs
    simp at hs
  | mn =>
    simp only [step, stepMn, dwStepA, Bool.false_eq_true, if_false] at hs
    repeat' split at hs
    all_goals first
      | (cases hs; done)
      | (injection hs with hs; subst hs; exact ⟨h1, h2, h3, h4, h5⟩)
  | finish =>
    simp only [step, stepEnd] at hs
    repeat' split at hs
    all_goals first
      | (cases hs; done)
      | (injection hs with hs; subst hs; exact ⟨h1, h2, h3, h4, h5⟩)

/-- **C86 (queue not attached, deadlock).** A program that makes more than three calls and meets no error never returns from `RunAll`: the worker waits for room in the
channel and nobody takes anything out of it. -/
theorem detached_never_returns (grow : Nat → Nat) (p : List Instr) (hf : Instr.fail ∉ p) (hc : workbufLen < callsIn p) {s : S}
    (h : Reach grow false p s) : s.mn = .select ∧ s.wk ≠ .fin := by
  have key := reach_ind (fun s => Instr.fail ∉ s.prog ∧ s.issued.length + s.wk.pending + callsIn s.prog = callsIn p ∧ s.mn = .select ∧
    s.wk ≠ .fin ∧ s.wk ≠ .sendErr ∧ (s.wk = .sendDone → s.prog = []) ∧ s.issued.length ≤ workbufLen ∧ s.token = false ∧ s.ctx.work = s.issued)
    (grow := grow) (att := false) (p := p) ⟨hf, by simp [S.init, Wk.pending], rfl, by simp [S.init], by simp [S.init], by simp [S.init],
      by simp [S.init], rfl, rfl⟩ ?_ h
  · exact ⟨key.2.2.1, key.2.2.2.1⟩
  rintro ⟨prog, wk, mn, token, flag, ctx, issued⟩ l s' ⟨h1, h2, h3, h4, h5, h6, h7, h8, h9⟩ hs
  simp only at h1 h2 h3 h4 h5 h6 h7 h8 h9
  subst h3 h8
  cases l with
  | wk =>
    simp only [step, stepWk, dwStepA, Bool.false_eq_true, if_false] at hs
    repeat' split at hs
    all_goals first
      | (cases hs; done)
      | (injection hs with hs; subst hs)
    · simp only [Wk.pending, callsIn] at h2
      exact ⟨h1, by simp only [Wk.pending, callsIn]; omega, rfl, by simp, by simp, by simp, h7, rfl, h9⟩
    · simp only [Wk.pending, callsIn] at h2
      exact ⟨fun hm => h1 (List.mem_cons_of_mem _ hm), by simp only [Wk.pending]; omega, rfl, by simp, by simp, by simp, h7, rfl, h9⟩
    · simp only [Wk.pending, callsIn] at h2
      exact ⟨fun hm => h1 (List.mem_cons_of_mem _ hm), by simp only [Wk.pending]; omega, rfl, by simp, by simp, by simp, h7, rfl, h9⟩
    · exact absurd List.mem_cons_self h1
    · simp only [Wk.pending, List.length_nil] at h2
      exact ⟨h1, by simp only [Wk.pending]; omega, rfl, by simp, by simp, by simp, h7, rfl, h9⟩
    · rename_i hl
      rw [h9] at hl
      simp only [Wk.pending, List.length_cons] at h2
      exact ⟨h1, by simp only [Wk.pending, List.length_append, List.length_singleton]; omega, rfl, by simp, by simp, by simp,
        by simp only [List.length_append, List.length_singleton]; omega, rfl, by simp [h9]⟩
    · simp only [Wk.pending] at h2
      exact ⟨h1, by simp only [Wk.pending]; omega, rfl, by simp, by simp, by simp, h7, rfl, h9⟩
    · simp only [Wk.pending] at h2
      exact ⟨h1, by simp only [Wk.pending]; omega, rfl, by simp, by simp, by simp, h7, rfl, h9⟩
  | take => simp [step, stepTake] at hs
  | pass => simp [step, stepPass] at hs
  | mn => simp [step, stepMn] at hs
  | finish =>
    simp only [step, stepEnd] at hs
    split at hs
    · exact absurd rfl h5
    · have := h6 rfl
      subst this
      simp only [Wk.pending, callsIn] at h2
      omega
    · cases hs

/-- With four products in a row every schedule ends with the worker waiting. -/
example (s : S) (h : Reach (2 * ·) false [.exec [⟨0, false⟩], .exec [⟨1, false⟩], .exec [⟨2, false⟩], .exec [⟨3, false⟩]] s) : s.mn = .select :=
  (detached_never_returns (2 * ·) _ (by decide) (by decide) h).1

/-! ### The queue is used: no deadlock -/

/-- A call in the channel has been announced, is about to be, or somebody is at work. -/
def Announced (s : S) : Prop :=
  s.ctx.work ≠ [] → s.flag = true ∨ s.token = true ∨ (∃ cs, s.wk = .flag cs) ∨ s.mn ≠ .select ∨ (∃ d, s.wk = .dw d) ∨ s.wk = .crashed

theorem dwStep_ret {grow : Nat → Nat} {d : DW} {c : Ctx} (h : dwStep grow d c = .ret) : c.work = [] := by
  cases d with
  | outer =>
    simp only [dwStep] at h
    split at h
    · assumption
    · cases h
  | got w => simp [dwStep] at h
  | inner b =>
    simp only [dwStep] at h
    repeat' split at h
    all_goals cases h
  | gotI w =>
    simp only [dwStep] at h
    split at h <;> cases h

/-- `RunAll` has left its loop. -/
def Mn.leaving : Mn → Bool
  | .select => false
  | .dw _ => false
  | _ => true

theorem announced (grow : Nat → Nat) (p : List Instr) {s : S} (h : Reach grow true p s) :
    Announced s ∧ (s.wk = .fin → s.mn.leaving = true) := by
  refine reach_ind (fun s => Announced s ∧ (s.wk = .fin → s.mn.leaving = true)) ⟨by simp [Announced, S.init, Ctx.new], by simp [S.init]⟩ ?_ h
  rintro ⟨prog, wk, mn, token, flag, ctx, issued⟩ l s' ⟨h1, h2⟩ hs
  simp only [Announced] at h1 h2
  cases l with
  | wk =>
    simp only [step, stepWk, dwStepA, if_true] at hs
    repeat' split at hs
    all_goals first
      | (cases hs; done)
      | (injection hs with hs; subst hs)
    all_goals try (refine ⟨fun hw => ?_, by simp⟩; simp only at hw ⊢)
    all_goals try (simp; done)
    all_goals try (have := h1 hw; simpa using this; done)
    · rename_i hr
      exact absurd (dwStep_ret hr) hw
  | take =>
    simp only [step, stepTake] at hs
    split at hs
    · injection hs with hs; subst hs
      exact ⟨fun _ => by simp, h2⟩
    · cases hs
  | pass =>
    simp only [step, stepPass] at hs
    split at hs
    · injection hs with hs; subst hs
      refine ⟨fun _ => by simp, fun e => ?_⟩
      have := h2 e
      simp [Mn.leaving] at this
    · cases hs
  | mn =>
    simp only [step, stepMn, dwStepA, if_true] at hs
    repeat' split at hs
    all_goals first
      | (cases hs; done)
      | (injection hs with hs; subst hs)
    · exact ⟨fun _ => by simp, fun e => by simpa [Mn.leaving] using h2 e⟩
    · rename_i hr
      refine ⟨fun hw => absurd (dwStep_ret hr) hw, fun e => by simpa [Mn.leaving] using h2 e⟩
    · exact ⟨fun _ => by simp, fun e => by simp [Mn.leaving]⟩
    · exact ⟨fun _ => by simp, fun e => by simp [Mn.leaving]⟩
    · exact ⟨fun _ => by simp, fun e => by simp [Mn.leaving]⟩
    · exact ⟨fun _ => by simp, fun e => by simp [Mn.leaving]⟩
    · exact ⟨fun _ => by simp, fun e => by simp [Mn.leaving]⟩
    · exact ⟨fun _ => by simp, fun e => by simp [Mn.leaving]⟩
    · exact ⟨fun _ => by simp, fun e => by simp [Mn.leaving]⟩
  | finish =>
    simp only [step, stepEnd] at hs
    repeat' split at hs
    all_goals first
      | (cases hs; done)
      | (injection hs with hs; subst hs; exact ⟨fun _ => by simp, by simp [Mn.leaving]⟩)

/-- **C86 (no deadlock).** If the queue is used, then in every state some schedule leads to, unless `RunAll` has returned or the program has crashed, some
goroutine can go on. -/
theorem progress (grow : Nat → Nat) (p : List Instr) {s : S} (h : Reach grow true p s) (hr : ∀ r, s.mn ≠ .ret r) (hc : s.mn ≠ .crashed)
    (hw : s.wk ≠ .crashed) : ∃ l s', step grow true l s = some s' := by
  obtain ⟨h1, h2⟩ := announced grow p h
  obtain ⟨prog, wk, mn, token, flag, ctx, issued⟩ := s
  simp only [Announced] at h1 h2 hr hc hw
  have main : mn ≠ .select → ∃ s', stepMn grow true ⟨prog, wk, mn, token, flag, ctx, issued⟩ = some s' := by
    intro hm
    cases mn with
    | select => exact absurd rfl hm
    | dw d => simp only [stepMn]; split <;> exact ⟨_, rfl⟩
    | final d => simp only [stepMn]; split <;> exact ⟨_, rfl⟩
    | defer r d => simp only [stepMn]; split <;> exact ⟨_, rfl⟩
    | ret r => exact absurd rfl (hr r)
    | crashed => exact absurd rfl hc
  by_cases hm : mn = .select
  · subst hm
    cases wk with
    | run =>
      refine ⟨.wk, ?_⟩
      simp only [step, stepWk]
      split <;> exact ⟨_, rfl⟩
    | calls cs =>
      cases cs with
      | nil => exact ⟨.wk, _, rfl⟩
      | cons w cs =>
        by_cases hl : ctx.work.length < workbufLen
        · refine ⟨.wk, ?_⟩
          simp only [step, stepWk, if_pos hl]
          exact ⟨_, rfl⟩
        · have hne : ctx.work ≠ [] := by
            intro e
            rw [e] at hl
            exact hl (by decide)
          rcases h1 hne with e | e | ⟨cs', e⟩ | e | ⟨d, e⟩ | e
          · by_cases ht : token = true
            · subst ht
              exact ⟨.pass, _, rfl⟩
            · refine ⟨.take, ?_⟩
              simp only [step, stepTake, e, Bool.eq_false_iff.mpr ht]
              exact ⟨_, rfl⟩
          · subst e
            exact ⟨.pass, _, rfl⟩
          · cases e
          · exact absurd rfl e
          · cases e
          · cases e
    | flag cs => exact ⟨.wk, _, rfl⟩
    | dw d =>
      refine ⟨.wk, ?_⟩
      simp only [step, stepWk]
      split <;> exact ⟨_, rfl⟩
    | sendErr => exact ⟨.finish, _, rfl⟩
    | sendDone => exact ⟨.finish, _, rfl⟩
    | fin => simp [Mn.leaving] at h2
    | crashed => exact absurd rfl hw
  · obtain ⟨s', e⟩ := main hm
    exact ⟨.mn, s', e⟩

/-! ### Every schedule ends -/

def DW.weight : DW → Nat
  | .outer => 1
  | .got _ => 3
  | .inner _ => 2
  | .gotI _ => 3

def Instr.weight : Instr → Nat
  | .exec cs => 9 * cs.length + 2
  | .flush => 3
  | .fail => 3

def progWeight : List Instr → Nat
  | [] => 0
  | i :: p => i.weight + progWeight p

def Wk.weight : Wk → Nat
  | .run => 2
  | .calls cs => 9 * cs.length + 3
  | .flag cs => 9 * cs.length + 7
  | .dw d => d.weight + 2
  | .sendErr => 1
  | .sendDone => 1
  | .fin => 0
  | .crashed => 0

def Mn.weight : Mn → Nat
  | .select => 6
  | .dw d => d.weight + 6
  | .final d => d.weight + 4
  | .defer _ d => d.weight + 2
  | .ret _ => 0
  | .crashed => 0

/-- What remains to be done. -/
def S.weight (s : S) : Nat :=
  progWeight s.prog + s.wk.weight + s.mn.weight + (if s.flag then 3 else 0) + (if s.token then 2 else 0) + 3 * s.ctx.work.length

theorem dwStep_weight {grow : Nat → Nat} {d d' : DW} {c c' : Ctx} (h : dwStep grow d c = .next d' c') :
    d'.weight + 3 * c'.work.length < d.weight + 3 * c.work.length := by
  cases d with
  | outer =>
    simp only [dwStep] at h
    split at h
    · cases h
    · rename_i w ws e
      injection h with h1 h2
      subst h1 h2
      rw [e]
      simp only [DW.weight, List.length_cons]
      omega
  | got w =>
    simp only [dwStep] at h
    injection h with h1 h2
    subst h1 h2
    simp [DW.weight]
  | inner b =>
    simp only [dwStep] at h
    repeat' split at h
    · injection h with h1 h2
      subst h1 h2
      simp [DW.weight]
    · rename_i w ws e
      injection h with h1 h2
      subst h1 h2
      rw [e]
      simp only [DW.weight, List.length_cons]
      omega
    · injection h with h1 h2
      subst h1 h2
      simp [DW.weight]
  | gotI w =>
    simp only [dwStep] at h
    split at h
    · injection h with h1 h2
      subst h1 h2
      simp [DW.weight]
    · cases h

theorem DW.weight_pos (d : DW) : 0 < d.weight := by cases d <;> simp [DW.weight]

/-- **C86 (termination).** Every step of every goroutine brings the end nearer: no schedule goes on for ever. -/
theorem step_weight (grow : Nat → Nat) (att : Bool) (l : L) (s s' : S) (h : step grow att l s = some s') : s'.weight < s.weight := by
  obtain ⟨prog, wk, mn, token, flag, ctx, issued⟩ := s
  have dwA : ∀ {d d' : DW} {c'' : Ctx}, dwStepA grow att d ctx = .next d' c'' →
      d'.weight + 3 * c''.work.length < d.weight + 3 * ctx.work.length := by
    intro d d' c'' e
    unfold dwStepA at e
    split at e
    · exact dwStep_weight e
    · cases e
  cases l with
  | wk =>
    simp only [step, stepWk] at h
    repeat' split at h
    all_goals first
      | (cases h; done)
      | (injection h with h; subst h)
    · simp only [S.weight, Wk.weight]; omega
    · simp only [S.weight, Wk.weight, progWeight, Instr.weight]; omega
    · simp only [S.weight, Wk.weight, progWeight, Instr.weight, DW.weight]; omega
    · simp only [S.weight, Wk.weight, progWeight, Instr.weight]; omega
    · simp only [S.weight, Wk.weight, List.length_nil]; omega
    · simp only [S.weight, Wk.weight, List.length_cons, List.length_append, List.length_nil]; omega
    · simp only [S.weight, Wk.weight, if_true]; omega
    · rename_i e
      have := dwA e
      simp only [S.weight, Wk.weight]; omega
    · rename_i d _ _
      have := d.weight_pos
      simp only [S.weight, Wk.weight]; omega
    · rename_i d _ _
      have := d.weight_pos
      simp only [S.weight, Wk.weight]; omega
  | take =>
    simp only [step, stepTake] at h
    split at h
    · rename_i hc
      injection h with h
      subst h
      simp at hc
      obtain ⟨⟨_, ht⟩, hf⟩ := hc
      subst ht hf
      simp [S.weight]
    · cases h
  | pass =>
    simp only [step, stepPass] at h
    split at h
    · injection h with h
      subst h
      simp [S.weight, Mn.weight, DW.weight]
      omega
    · cases h
  | mn =>
    simp only [step, stepMn] at h
    repeat' split at h
    all_goals first
      | (cases h; done)
      | (injection h with h; subst h)
    all_goals first
      | (rename_i e; have := dwA e; simp only [S.weight, Mn.weight]; omega)
      | (rename_i d _ _; have := d.weight_pos; have h1 : DW.outer.weight = 1 := rfl; simp only [S.weight, Mn.weight, h1]; omega)
  | finish =>
    simp only [step, stepEnd] at h
    repeat' split at h
    all_goals first
      | (cases h; done)
      | (injection h with h; subst h; simp only [S.weight, Wk.weight, Mn.weight, DW.weight]; omega)

/-- **C86 (`RunAll` returns).** Hence a schedule that cannot be continued has ended with `RunAll` returned or the program crashed. -/
theorem ends_returned_partial (grow : Nat → Nat) (p : List Instr) {s : S} (h : Reach grow true p s) (hs : ∀ l, step grow true l s = none) :
    (∃ r, s.mn = .ret r) ∨ s.mn = .crashed ∨ s.wk = .crashed := by
  apply Classical.byContradiction
  intro hn
  rw [not_or, not_or] at hn
  obtain ⟨l, s', e⟩ := progress grow p h (fun r hr => hn.1 ⟨r, hr⟩) hn.2.1 hn.2.2
  rw [hs l] at e
  cases e

/-- A schedule has at most as many steps as the weight of the start. -/
theorem exec_length (grow : Nat → Nat) (att : Bool) (ls : List L) : ∀ (s s' : S), exec grow att ls s = some s' → ls.length + s'.weight ≤ s.weight := by
  induction ls with
  | nil => intro s s' h; simp only [exec] at h; injection h with h; subst h; simp
  | cons l ls ih =>
    intro s s' h
    simp only [exec] at h
    cases e : step grow att l s with
    | none => simp [e] at h
    | some s1 =>
      rw [e] at h
      have h1 := ih s1 s' h
      have h2 := step_weight grow att l s s1 e
      simp only [List.length_cons]
      omega

/-! ### Order -/

/-- The calls of a program, up to the first instruction that fails. -/
def callsOf : List Instr → List Call
  | [] => []
  | .exec cs :: p => cs ++ callsOf p
  | .flush :: p => callsOf p
  | .fail :: _ => []

/-- The calls still to be handed over. -/
def S.rest (s : S) : List Call :=
  match s.wk with
  | .calls cs => cs ++ callsOf s.prog
  | .flag cs => cs ++ callsOf s.prog
  | .run => callsOf s.prog
  | .dw _ => callsOf s.prog
  | _ => []

/-- The call a goroutine has taken from the channel and not yet put into the queue. -/
def DW.hand : DW → List Call
  | .got w => [w]
  | .gotI w => [w]
  | _ => []

def Mn.hand : Mn → List Call
  | .dw d => d.hand
  | .final d => d.hand
  | .defer _ d => d.hand
  | _ => []

theorem dwStep_order {grow : Nat → Nat} {d d' : DW} {c c' : Ctx} (h : dwStep grow d c = .next d' c') :
    c'.done ++ c'.queue ++ d'.hand ++ c'.work = c.done ++ c.queue ++ d.hand ++ c.work := by
  obtain ⟨work, q, cap, done⟩ := c
  cases d with
  | outer =>
    simp only [dwStep] at h
    split at h
    · cases h
    · injection h with h1 h2
      subst h1 h2
      simp [DW.hand]
  | got w =>
    simp only [dwStep] at h
    injection h with h1 h2
    subst h1 h2
    simp [DW.hand]
  | inner b =>
    simp only [dwStep] at h
    repeat' split at h
    all_goals
      injection h with h1 h2
      subst h1 h2
      simp [DW.hand]
  | gotI w =>
    simp only [dwStep, process] at h
    by_cases hl : (q ++ [w]).length > workbufLen
    · rw [if_pos hl] at h; cases h
    · rw [if_neg hl] at h
      injection h with h1 h2
      subst h1 h2
      simp [DW.hand]

theorem dwStep_ret_hand {grow : Nat → Nat} {d : DW} {c : Ctx} (h : dwStep grow d c = .ret) : d.hand = [] := by
  cases d with
  | outer => rfl
  | got w => simp [dwStep] at h
  | inner b => rfl
  | gotI w =>
    simp only [dwStep] at h
    split at h <;> cases h

/-- What holds throughout a program without flushes, unless `RunAll` panics. -/
structure Ordered (p : List Instr) (s : S) : Prop where
  noflush : Instr.flush ∉ s.prog
  nodw : ∀ d, s.wk ≠ .dw d
  alive : s.wk ≠ .crashed
  all : s.issued ++ s.rest = callsOf p
  order : s.mn ≠ .crashed → s.ctx.done ++ s.ctx.queue ++ s.mn.hand ++ s.ctx.work = s.issued
  gone : s.mn ≠ .crashed → s.mn.leaving = true → s.wk = .fin
  empty : ∀ r, s.mn = .ret r → s.ctx.work = []

theorem ordered (grow : Nat → Nat) (p : List Instr) (hp : Instr.flush ∉ p) {s : S} (h : Reach grow true p s) : Ordered p s := by
  refine reach_ind (Ordered p) ⟨hp, by simp [S.init], by simp [S.init], by simp [S.init, S.rest], by simp [S.init, Ctx.new, Mn.hand],
    by simp [S.init, Mn.leaving], by simp [S.init]⟩ ?_ h
  rintro ⟨prog, wk, mn, token, flag, ctx, issued⟩ l s' ⟨h1, h2, h3, h4, h5, h6, h7⟩ hs
  simp only at h1 h2 h3 h4 h5 h6 h7
  cases l with
  | wk =>
    simp only [step, stepWk] at hs
    repeat' split at hs
    all_goals first
      | (cases hs; done)
      | (injection hs with hs; subst hs)
    · refine ⟨h1, by simp, by simp, by simpa [S.rest, callsOf] using h4, h5, ?_, h7⟩
      intro hc hl
      cases h6 hc hl
    · refine ⟨fun hm => h1 (List.mem_cons_of_mem _ hm), by simp, by simp, by simpa [S.rest, callsOf] using h4, h5, ?_, h7⟩
      intro hc hl
      cases h6 hc hl
    · exact absurd List.mem_cons_self h1
    · refine ⟨fun hm => h1 (List.mem_cons_of_mem _ hm), by simp, by simp, by simpa [S.rest, callsOf] using h4, h5, ?_, h7⟩
      intro hc hl
      cases h6 hc hl
    · refine ⟨h1, by simp, by simp, by simpa [S.rest] using h4, h5, ?_, h7⟩
      intro hc hl
      cases h6 hc hl
    · rename_i w cs hl
      refine ⟨h1, by simp, by simp, by simpa [S.rest] using h4, ?_, ?_, ?_⟩
      · intro hc
        show ctx.done ++ ctx.queue ++ mn.hand ++ (ctx.work ++ [w]) = issued ++ [w]
        rw [← h5 hc]
        simp
      · intro hc hl
        cases h6 hc hl
      · intro r hr
        simp only at hr
        subst hr
        cases h6 (by simp) rfl
    · refine ⟨h1, by simp, by simp, by simpa [S.rest] using h4, h5, ?_, h7⟩
      intro hc hl
      cases h6 hc hl
    · exact absurd rfl (h2 _)
    · exact absurd rfl (h2 _)
    · exact absurd rfl (h2 _)
  | take =>
    simp only [step, stepTake] at hs
    split at hs
    · injection hs with hs; subst hs
      exact ⟨h1, h2, h3, h4, h5, h6, h7⟩
    · cases hs
  | pass =>
    simp only [step, stepPass] at hs
    split at hs
    · injection hs with hs; subst hs
      exact ⟨h1, h2, h3, h4, fun _ => h5 (by simp), by simp [Mn.leaving], by simp⟩
    · cases hs
  | mn =>
    simp only [step, stepMn, dwStepA, if_true] at hs
    repeat' split at hs
    all_goals first
      | (cases hs; done)
      | (injection hs with hs; subst hs)
    · rename_i e
      refine ⟨h1, h2, h3, h4, fun _ => ?_, by simp [Mn.leaving], by simp⟩
      exact (dwStep_order e).trans (h5 (by simp))
    · rename_i e
      refine ⟨h1, h2, h3, h4, fun _ => ?_, by simp [Mn.leaving], by simp⟩
      have := h5 (by simp)
      simpa [Mn.hand, dwStep_ret_hand e] using this
    · exact ⟨h1, h2, h3, h4, fun e => absurd rfl e, fun e => absurd rfl e, by simp⟩
    · rename_i e
      refine ⟨h1, h2, h3, h4, fun _ => ?_, fun _ _ => h6 (by simp) rfl, by simp⟩
      exact (dwStep_order e).trans (h5 (by simp))
    · rename_i e
      refine ⟨h1, h2, h3, h4, fun _ => ?_, fun _ _ => h6 (by simp) rfl, by simp⟩
      have := h5 (by simp)
      simpa [Mn.hand, show DW.outer.hand = [] from rfl, dwStep_ret_hand e] using this
    · exact ⟨h1, h2, h3, h4, fun e => absurd rfl e, fun e => absurd rfl e, by simp⟩
    · rename_i e
      refine ⟨h1, h2, h3, h4, fun _ => ?_, fun _ _ => h6 (by simp) rfl, by simp⟩
      exact (dwStep_order e).trans (h5 (by simp))
    · rename_i e
      refine ⟨h1, h2, h3, h4, fun _ => ?_, fun _ _ => h6 (by simp) rfl, fun _ _ => dwStep_ret e⟩
      have := h5 (by simp)
      simpa [Mn.hand, dwStep_ret_hand e] using this
    · exact ⟨h1, h2, h3, h4, fun e => absurd rfl e, fun e => absurd rfl e, by simp⟩
  | finish =>
    simp only [step, stepEnd] at hs
    repeat' split at hs
    all_goals first
      | (cases hs; done)
      | (injection hs with hs; subst hs)
    · exact ⟨h1, by simp, by simp, by simpa [S.rest] using h4, fun _ => h5 (by simp), fun _ _ => rfl, by simp⟩
    · exact ⟨h1, by simp, by simp, by simpa [S.rest] using h4, fun _ => h5 (by simp), fun _ _ => rfl, by simp⟩

/-- **C84 (order, at any time).** In a program without flushes the calls run so far are, at any time and in any schedule that does not panic, the first calls of the
program, in its order. -/
theorem order_partial (grow : Nat → Nat) (p : List Instr) (hp : Instr.flush ∉ p) {s : S} (h : Reach grow true p s) (hc : s.mn ≠ .crashed) :
    s.ctx.done <+: callsOf p := by
  have o := ordered grow p hp h
  rw [← o.all, ← o.order hc]
  simp only [List.append_assoc]
  exact List.prefix_append _ _

/-- **C84 (at the end).** When `RunAll` has returned, each call before the first failing instruction has either been run, in order, or lies in the queue, behind
those that have been run. -/
theorem returned_partial (grow : Nat → Nat) (p : List Instr) (hp : Instr.flush ∉ p) {s : S} (h : Reach grow true p s) {r : Bool}
    (hr : s.mn = .ret r) : s.ctx.done ++ s.ctx.queue = callsOf p ∧ s.wk = .fin := by
  have o := ordered grow p hp h
  have hc : s.mn ≠ .crashed := by rw [hr]; simp
  have hf : s.wk = .fin := o.gone hc (by rw [hr]; rfl)
  have h1 := o.order hc
  have h2 := o.all
  rw [o.empty r hr, hr] at h1
  simp only [Mn.hand, List.append_nil] at h1
  refine ⟨?_, hf⟩
  rw [h1, ← h2]
  simp [S.rest, hf]

/-! ### Calls that are not run -/

/-- Facts about a goroutine in `DoWork` while at most one call has been handed over. -/
def DW.quiet (q : List Call) : DW → Prop
  | .gotI _ => False
  | .inner _ => q ≠ []
  | _ => True

def Mn.quiet (q : List Call) : Mn → Prop
  | .dw d => d.quiet q
  | .final d => d.quiet q
  | .defer _ d => d.quiet q
  | _ => True

def Wk.quiet (q : List Call) : Wk → Prop
  | .dw d => d.quiet q
  | _ => True

def Wk.hand : Wk → List Call
  | .dw d => d.hand
  | _ => []

/-- One step of one goroutine: nothing is run, and what the others rely on stays so. -/
theorem dwStep_quiet {grow : Nat → Nat} {d d' : DW} {c c' : Ctx} {n : Nat} (h : dwStep grow d c = .next d' c') (hq : d.quiet c.queue)
    (hn : c.queue.length + d.hand.length + n + c.work.length ≤ 1) :
    d'.quiet c'.queue ∧ c'.done = c.done ∧ c'.queue.length + d'.hand.length + n + c'.work.length ≤ 1 ∧ (c.queue ≠ [] → c'.queue ≠ []) := by
  obtain ⟨work, q, cap, done⟩ := c
  simp only at hq hn ⊢
  cases d with
  | outer =>
    simp only [dwStep] at h
    split at h
    · cases h
    · injection h with h1 h2
      subst h1 h2
      simp only [DW.hand, List.length_nil, List.length_cons] at hn
      simp only [DW.quiet, DW.hand, List.length_cons, List.length_nil, true_and]
      exact ⟨by omega, id⟩
  | got w =>
    simp only [dwStep] at h
    injection h with h1 h2
    subst h1 h2
    simp only [DW.hand, List.length_cons, List.length_nil] at hn
    simp only [DW.quiet, DW.hand, List.length_append, List.length_cons, List.length_nil, true_and]
    exact ⟨by simp, by omega, fun _ => by simp⟩
  | inner b =>
    simp only [dwStep] at h
    simp only [DW.quiet] at hq
    have hl : 0 < q.length := List.length_pos_iff.mpr hq
    repeat' split at h
    · injection h with h1 h2
      subst h1 h2
      simp only [DW.quiet, DW.hand, List.length_nil, true_and] at hn ⊢
      exact ⟨by omega, id⟩
    · exfalso
      simp only [List.length_cons] at hn
      omega
    · injection h with h1 h2
      subst h1 h2
      simp only [DW.quiet, DW.hand, List.length_nil, true_and] at hn ⊢
      exact ⟨by omega, id⟩
  | gotI w => exact absurd hq (by simp [DW.quiet])

theorem DW.quiet_mono {q q' : List Call} {d : DW} (h : d.quiet q) (hq : q ≠ [] → q' ≠ []) : d.quiet q' := by
  cases d <;> simp_all [DW.quiet]

theorem Mn.quiet_mono {q q' : List Call} {m : Mn} (h : m.quiet q) (hq : q ≠ [] → q' ≠ []) : m.quiet q' := by
  cases m <;> first | exact trivial | exact DW.quiet_mono h hq

theorem Wk.quiet_mono {q q' : List Call} {m : Wk} (h : m.quiet q) (hq : q ≠ [] → q' ≠ []) : m.quiet q' := by
  cases m <;> first | exact trivial | exact DW.quiet_mono h hq

structure Quiet (s : S) : Prop where
  done : s.ctx.done = []
  few : s.ctx.queue.length + s.mn.hand.length + s.wk.hand.length + s.ctx.work.length + s.wk.pending + callsIn s.prog ≤ 1
  mn : s.mn.quiet s.ctx.queue
  wk : s.wk.quiet s.ctx.queue

theorem quiet (grow : Nat → Nat) (att : Bool) (p : List Instr) (hp : callsIn p ≤ 1) {s : S} (h : Reach grow att p s) : Quiet s := by
  refine reach_ind Quiet ⟨rfl, by simpa [S.init, Ctx.new, Mn.hand, Wk.hand, Wk.pending] using hp, trivial, trivial⟩ ?_ h
  rintro ⟨prog, wk, mn, token, flag, ctx, issued⟩ l s' ⟨h1, h2, h3, h4⟩ hs
  simp only at h1 h2 h3 h4
  have dwA : ∀ {d d' : DW} {c' : Ctx}, dwStepA grow att d ctx = .next d' c' → dwStep grow d ctx = .next d' c' := by
    intro d d' c' e
    unfold dwStepA at e
    split at e
    · exact e
    · cases e
  cases l with
  | wk =>
    simp only [step, stepWk] at hs
    repeat' split at hs
    all_goals first
      | (cases hs; done)
      | (injection hs with hs; subst hs)
    · exact ⟨h1, by simpa [Wk.hand, Wk.pending, callsIn] using h2, h3, trivial⟩
    · refine ⟨h1, ?_, h3, trivial⟩
      simp only [Wk.hand, Wk.pending, callsIn] at h2 ⊢
      omega
    · refine ⟨h1, ?_, h3, trivial⟩
      simp only [Wk.hand, Wk.pending, callsIn, DW.hand] at h2 ⊢
      omega
    · refine ⟨h1, ?_, h3, trivial⟩
      simp only [Wk.hand, Wk.pending, callsIn] at h2 ⊢
      omega
    · refine ⟨h1, ?_, h3, trivial⟩
      simp only [Wk.hand, Wk.pending, callsIn] at h2 ⊢
      omega
    · refine ⟨h1, ?_, h3, trivial⟩
      simp only [Wk.hand, Wk.pending, callsIn, List.length_cons, List.length_append, List.length_nil] at h2 ⊢
      omega
    · refine ⟨h1, ?_, h3, trivial⟩
      simp only [Wk.hand, Wk.pending, callsIn] at h2 ⊢
      omega
    · rename_i d d' c' e
      simp only [Wk.hand, Wk.pending] at h2
      obtain ⟨k1, k2, k3, k4⟩ := dwStep_quiet (n := mn.hand.length + callsIn prog) (dwA e) h4 (by omega)
      refine ⟨by rw [k2]; exact h1, ?_, Mn.quiet_mono h3 k4, k1⟩
      simp only [Wk.hand, Wk.pending]
      omega
    · refine ⟨h1, ?_, h3, trivial⟩
      simp only [Wk.hand, Wk.pending, List.length_nil] at h2 ⊢
      omega
    · refine ⟨h1, ?_, h3, trivial⟩
      simp only [Wk.hand, Wk.pending, List.length_nil] at h2 ⊢
      omega
  | take =>
    simp only [step, stepTake] at hs
    split at hs
    · injection hs with hs; subst hs
      exact ⟨h1, h2, h3, h4⟩
    · cases hs
  | pass =>
    simp only [step, stepPass] at hs
    split at hs
    · injection hs with hs; subst hs
      exact ⟨h1, h2, trivial, h4⟩
    · cases hs
  | mn =>
    simp only [step, stepMn] at hs
    repeat' split at hs
    all_goals first
      | (cases hs; done)
      | (injection hs with hs; subst hs)
    all_goals first
      | (rename_i e
         simp only [Mn.hand] at h2
         obtain ⟨k1, k2, k3, k4⟩ := dwStep_quiet (n := wk.hand.length + wk.pending + callsIn prog) (dwA e) h3 (by omega)
         refine ⟨by rw [k2]; exact h1, ?_, k1, Wk.quiet_mono h4 k4⟩
         simp only [Mn.hand]
         omega)
      | (refine ⟨h1, ?_, trivial, h4⟩
         simp only [Mn.hand, DW.hand, List.length_nil] at h2 ⊢
         omega)
  | finish =>
    simp only [step, stepEnd] at hs
    repeat' split at hs
    all_goals first
      | (cases hs; done)
      | (injection hs with hs; subst hs; exact ⟨h1, h2, trivial, trivial⟩)

/-- **C84 (one call).** A program that makes a single BLAS call, with flushes or without, never runs it: in no schedule, at no time. -/
theorem single_call_never_run (grow : Nat → Nat) (att : Bool) (p : List Instr) (hp : callsIn p ≤ 1) {s : S} (h : Reach grow att p s) :
    s.ctx.done = [] := (quiet grow att p hp h).done

/-- One matrix product: `RunAll` returns without an error, the product has not been computed. -/
example : ∃ s, Reach (2 * ·) true [.exec [⟨0, false⟩]] s ∧ s.mn = .ret true ∧ s.ctx.done = [] ∧ s.ctx.queue = [⟨0, false⟩] :=
  ⟨_, ⟨[.wk, .wk, .wk, .take, .pass, .mn, .mn, .mn, .mn, .wk, .wk, .finish, .mn, .mn], rfl⟩, rfl, rfl, rfl⟩

/-- **C84 (two calls: it depends).** A program with two calls: in one schedule both are run, in another neither, and `RunAll` returns without an error in both. -/
theorem two_calls_depend : ∃ s s', Reach (2 * ·) true [.exec [⟨0, false⟩, ⟨1, false⟩]] s ∧ Reach (2 * ·) true [.exec [⟨0, false⟩, ⟨1, false⟩]] s' ∧
    s.mn = .ret true ∧ s'.mn = .ret true ∧ s.ctx.done = [⟨0, false⟩, ⟨1, false⟩] ∧ s'.ctx.done = [] :=
  ⟨_, _, ⟨[.wk, .wk, .wk, .wk, .wk, .wk, .take, .pass, .mn, .mn, .mn, .mn, .mn, .mn, .wk, .finish, .mn, .mn], rfl⟩,
    ⟨[.wk, .wk, .wk, .take, .pass, .mn, .mn, .mn, .mn, .wk, .wk, .take, .pass, .mn, .mn, .mn, .mn, .wk, .wk, .finish, .mn, .mn], rfl⟩,
    rfl, rfl, rfl, rfl⟩

/-- **C84 (order violated).** A flush is executed by the worker, at the same time as the `DoWork` of `RunAll`, on the same queue. In this schedule `RunAll` has taken
the first call when the worker takes the second and puts it into the queue before it: the second is run before the first. -/
theorem flush_misorders : ∃ s, Reach (2 * ·) true [.exec [⟨0, false⟩, ⟨1, false⟩], .flush, .exec [⟨2, false⟩]] s ∧ s.mn = .ret true ∧
    s.ctx.done = [⟨1, false⟩, ⟨0, false⟩, ⟨2, false⟩] :=
  ⟨_, ⟨[.wk, .wk, .wk, .wk, .wk, .wk, .wk, .take, .pass, .mn, .wk, .wk, .wk, .wk, .mn, .wk, .wk, .wk, .mn, .mn, .mn, .mn, .wk, .wk, .finish, .mn, .mn], rfl⟩,
    rfl, rfl⟩

/-- **C86 (panic).** Four calls that come one by one pile up in the queue; if then two come together, five calls are copied into an array of three. -/
theorem calls_panic : ∃ s, Reach (2 * ·) true [.exec [⟨0, false⟩, ⟨1, false⟩, ⟨2, false⟩, ⟨3, false⟩, ⟨4, false⟩, ⟨5, false⟩]] s ∧ s.mn = .crashed :=
  ⟨_, ⟨[.wk, .wk, .wk, .take, .pass, .mn, .mn, .mn, .mn, .wk, .wk, .take, .pass, .mn, .mn, .mn, .mn, .wk, .wk, .take, .pass, .mn, .mn, .mn, .mn,
    .wk, .wk, .take, .pass, .mn, .mn, .mn, .mn, .wk, .wk, .wk, .wk, .take, .pass, .mn, .mn, .mn, .mn], rfl⟩, rfl⟩

end Verif.RunLoop
