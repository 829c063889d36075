import Verif.Device.Whole
import Mathlib.Data.Set.Finite.Basic
import Mathlib.Data.List.Perm.Basic
/-!
Queues on a device (CUDA build): where the code generator puts `alloc` and flush instructions (compile.go 224-345, 347-500), and the machine
whose device operations and copies wait in a queue while the host goes on (vm_tape.go 584-653, vm_tape_cuda.go 66-139, 220-243).

The program is the one of `Verif.Device.Alloc`, for the host and one device, which has one queue. What waits in the queue may be done at any
time, in order: the engine has a goroutine of its own (cuda/external.go 229-271). A flush does all of it. A free register gives its memory
back at once, while operations that use it may still wait, and `alloc` takes any memory that no register has. A copy to the host is the only
thing in the queue that writes memory of the host. A copy to the device takes its value when it is put into the queue: no operation that runs
on the host in this build overwrites the memory of an operand (`UnsafeDo` exists for the elementwise operations, which run on the device, and
for reshapes, which change no element). `Signal` does nothing in this build (C120).
-/
set_option autoImplicit false
namespace Verif.Device
open Verif.Tape (upd)

/-! ### Code generation -/

/-- Instructions. -/
inductive Ins where
  | alloc (r : Reg)
  | exec (i : Nat)
  | flush
  | free (r : Reg)
deriving DecidableEq

/-- The fields of `codegenerator` (compile.go 106-126) that decide about flushes and allocations. -/
structure CG where
  flushed : List Nat
  queue : List Nat
  alloced : List Reg
  lastW : Reg → Option Nat

def CG.init : CG := ⟨[], [], [], fun _ => none⟩

/-- `flush` (compile.go 225-231). -/
def CG.flush (s : CG) : CG := { s with flushed := s.flushed ++ s.queue, queue := [] }

/-- `updateLastWrites` (compile.go 221-223). -/
def CG.wrote (s : CG) (r : Reg) (i : Nat) : CG := { s with lastW := fun r' => if r' = r then some i else s.lastW r' }

/-- A new `alloc` unless there is one (compile.go 309-319, 376-387). -/
def CG.alloc (s : CG) (r : Reg) (i : Nat) : CG × List Ins :=
  if r ∈ s.alloced then (s, [])
  else ({ s.wrote r i with queue := s.queue ++ [i], alloced := r :: s.alloced }, [.alloc r])

/-- `CallsExtern` of the operation of an entry. Transports do (op_infidel.go 73), operations that return no pointer do not. -/
def callsExtern (nd : DN) : Bool := match nd.cls with
  | .trans _ => true
  | .ptr _ _ e => e
  | _ => false

/-- Where an entry counts as running (compile.go 407-423): a transport is a `CUDADoer` (op_infidel.go 81-83). -/
def onDev (nd : DN) : Int := match nd.cls with
  | .trans _ => 0
  | _ => home nd.cuda

/-- Is a flush wanted before `nd` reads what `l` wrote (compile.go 400-405, 437-462)? -/
def wantsFlush (nd l : DN) : Bool := match l.cls with
  | .arg | .stmt => false
  | .trans _ => true
  | _ => callsExtern l && !(callsExtern nd && decide (onDev l = onDev nd))

/-- One turn of the loop over the registers that are read (compile.go 393-470). -/
def readTurn (P : DProg) (i : Nat) (p : CG × List Ins) (c : Nat) : CG × List Ins :=
  match p.1.lastW (P.reg c) with
  | none => p
  | some l => if wantsFlush (P.at i) (P.at l) = true ∧ l ∉ p.1.flushed then (p.1.flush, p.2 ++ [.flush]) else p

/-- Flush unless the entry was flushed. -/
def CG.sync (s : CG) (j : Nat) : CG × List Ins := if j ∈ s.flushed then (s, []) else (s.flush, [.flush])

/-- The instructions of an entry: `addArg` (compile.go 233-248), `addStmt` (250-345, without let statements), `addNode` (347-500). `user` is the
position of the node for which a transport was made, and the device from which it copies is the one of the register it reads. -/
def entryIns (P : DProg) (user : Nat → Nat) (s : CG) (i : Nat) : CG × List Ins :=
  match (P.at i).cls with
  | .arg => (s.wrote (P.reg i) i, [.exec i])
  | .stmt =>
    let p := s.sync i
    (p.1.wrote Reg.zero i, p.2 ++ [.exec i])
  | .trans dst =>
    let p := s.alloc (P.reg i) i
    let q := if (P.reg ((P.at i).reads.headD 0)).dev ≠ -1 ∧ dst = -1 then p.1.sync (user i) else (p.1, [])
    (q.1.wrote (P.reg i) i, p.2 ++ .exec i :: q.2)
  | .ptr _ _ e =>
    let p := if e = true then s.alloc (P.reg i) i else (s, [])
    let q := (P.at i).reads.foldl (readTurn P i) p
    (q.1.wrote (P.reg i) i, q.2 ++ [.exec i])
  | .imm =>
    let q := (P.at i).reads.foldl (readTurn P i) (s, [])
    (q.1.wrote (P.reg i) i, q.2 ++ [.exec i])

/-- The state after the first `k` entries (the first loop of `gen`, compile.go 594-610). -/
def cgTo (P : DProg) (user : Nat → Nat) (k : Nat) : CG := (List.range k).foldl (fun s i => (entryIns P user s i).1) CG.init

/-- The instructions of an entry with the frees behind them (the second loop of `gen`, compile.go 612-618). -/
def withFrees (P : DProg) (user : Nat → Nat) (i : Nat) : List Ins :=
  (entryIns P user (cgTo P user i) i).2 ++ ((frees P).out.filter fun p => p.1 = i).map fun p => .free p.2

/-- The whole program (compile.go 622-630) and the flush when the machine is done (vm_tape.go 236-240). -/
def whole (P : DProg) (user : Nat → Nat) : List Ins := (List.range P.length).flatMap (withFrees P user) ++ (lastFrees P).map .free ++ [.flush]

/-! ### The machine -/

/-- What waits in the queue; memory of the device is named by addresses. -/
inductive Cmd (V : Type) where
  | kern (i : Nat) (src : List (Option Nat)) (dst : Option Nat)
  | htod (i : Nat) (v : Option V) (dst : Option Nat)
  | dtoh (i : Nat) (src : Option Nat) (dst : Reg)

/-- Registers of the host, the address of every register of the device (nothing if it has no memory), the memory of the device, the queue; and
the values of the entries in the order in which they were computed. -/
structure Mach (V : Type) where
  host : Reg → Option V
  bind : Reg → Option Nat
  dmem : Nat → Option V
  queue : List (Cmd V)
  log : List (Nat × Option V)

variable {V : Type}

/-- Writing to an address; to none nothing is written. -/
def write (m : Nat → Option V) (a : Option Nat) (v : Option V) : Nat → Option V := fun x => if some x = a then v else m x

/-- A command is done. -/
def perform (f : Nat → List (Option V) → Option V) (M : Mach V) : Cmd V → Mach V
  | .kern i src dst =>
    let v := f i (src.map fun a => a.bind M.dmem)
    { M with dmem := write M.dmem dst v, log := M.log ++ [(i, v)] }
  | .htod i v dst => { M with dmem := write M.dmem dst v, log := M.log ++ [(i, v)] }
  | .dtoh i src dst => { M with host := fun r => if r = dst then src.bind M.dmem else M.host r, log := M.log ++ [(i, src.bind M.dmem)] }

/-- Everything in the queue is done. -/
def drain (f : Nat → List (Option V) → Option V) (M : Mach V) : Mach V := M.queue.foldl (perform f) { M with queue := [] }

/-- `exec` of an entry: `loadArg.exec`, `readInstr.exec` (vm_tape.go 665-689, 776-797), `deviceTransport.exec` and `execOp.exec`
(vm_tape_cuda.go 220-243, 66-139). -/
def execIns (P : DProg) (f : Nat → List (Option V) → Option V) (M : Mach V) (i : Nat) : Mach V :=
  let c := (P.at i).reads.headD 0
  match (P.at i).cls with
  | .stmt => { M with log := M.log ++ [(i, f i ((P.at i).reads.map fun c => M.host (P.reg c)))] }
  | .trans _ =>
    if (P.reg c).dev = -1 then { M with queue := M.queue ++ [.htod i (M.host (P.reg c)) (M.bind (P.reg i))] }
    else { M with queue := M.queue ++ [.dtoh i (M.bind (P.reg c)) (P.reg i)] }
  | _ =>
    if (P.reg i).dev = -1 then
      let v := f i ((P.at i).reads.map fun c => M.host (P.reg c))
      { M with host := fun r => if r = P.reg i then v else M.host r, log := M.log ++ [(i, v)] }
    else { M with queue := M.queue ++ [.kern i ((P.at i).reads.map fun c => M.bind (P.reg c)) (M.bind (P.reg i))] }

/-- The steps of the machine. `alloc.exec` (vm_tape.go 584-622) leaves a register that has memory as it is or gives it other memory; new memory
on the host has any contents. `free.exec` is vm_tape.go 639-653. -/
inductive Step (P : DProg) (f : Nat → List (Option V) → Option V) : Ins → Mach V → Mach V → Prop where
  | allocHost (r : Reg) (w : Option V) (M : Mach V) (h : r.dev = -1) :
      Step P f (.alloc r) M { M with host := fun r' => if r' = r then w else M.host r' }
  | allocDev (r : Reg) (a : Nat) (M : Mach V) (h : r.dev ≠ -1) (ha : ∀ r', r' ≠ r → M.bind r' ≠ some a) :
      Step P f (.alloc r) M { M with bind := fun r' => if r' = r then some a else M.bind r' }
  | exec (i : Nat) (M : Mach V) : Step P f (.exec i) M (execIns P f M i)
  | flush (M : Mach V) : Step P f .flush M (drain f M)
  | freeHost (r : Reg) (M : Mach V) (h : r.dev = -1) : Step P f (.free r) M M
  | freeDev (r : Reg) (M : Mach V) (h : r.dev ≠ -1) : Step P f (.free r) M { M with bind := fun r' => if r' = r then none else M.bind r' }

/-- A run of a list of instructions; in between the first command of the queue may be done. -/
inductive Run (P : DProg) (f : Nat → List (Option V) → Option V) : List Ins → Mach V → Mach V → Prop where
  | done (M : Mach V) : Run P f [] M M
  | tick (l : List Ins) (M M' : Mach V) (c : Cmd V) (q : List (Cmd V)) (h : M.queue = c :: q) (hr : Run P f l (perform f { M with queue := q } c) M') :
      Run P f l M M'
  | ins (x : Ins) (l : List Ins) (M M₁ M' : Mach V) (h : Step P f x M M₁) (hr : Run P f l M₁ M') : Run P f (x :: l) M M'

/-- What is required of the program besides `Fit`: operations with a kernel return a pointer and call an external process (op_math.go 283, 473;
op_math_cuda.go 21, 87, 180), and nothing else runs on the device; entries read registers of the device where they run; a transport reads one
register of the other side; and the node for which it was made comes later. -/
structure Local (P : DProg) (user : Nat → Nat) : Prop where
  kern : ∀ i, (P.at i).cls = .imm ∨ (P.at i).cls = .arg → (P.reg i).dev = -1
  ext : ∀ i o l e, (P.at i).cls = .ptr o l e → (P.at i).cuda = true → e = true
  home : ∀ i o l e, (P.at i).cls = .ptr o l e → (P.reg i).dev ≠ -1 → (P.at i).cuda = true
  side : ∀ i o l e, (P.at i).cls = .ptr o l e → ∀ c ∈ (P.at i).reads, (P.reg c).dev = -1 ↔ (P.reg i).dev = -1
  host : ∀ i, (P.at i).cls = .imm ∨ (P.at i).cls = .arg ∨ (P.at i).cls = .stmt → ∀ c ∈ (P.at i).reads, (P.reg c).dev = -1
  trans : ∀ i d, (P.at i).cls = .trans d → ∃ c, (P.at i).reads = [c] ∧ ((P.reg c).dev = -1 ↔ d ≠ -1)
  user : ∀ i d, (P.at i).cls = .trans d → i < user i

/-! ### Instructions of an entry -/

/-- Everything that is marked or waits to be marked as flushed. -/
def CG.marks (s : CG) : List Nat := s.flushed ++ s.queue

theorem flush_marks (s : CG) : s.flush.marks = s.marks ∧ s.flush.alloced = s.alloced := by
  simp [CG.flush, CG.marks]

theorem wrote_marks (s : CG) (r : Reg) (i : Nat) : (s.wrote r i).marks = s.marks ∧ (s.wrote r i).alloced = s.alloced := ⟨rfl, rfl⟩

theorem readTurn_spec (P : DProg) (i : Nat) (p : CG × List Ins) (c : Nat) :
    (readTurn P i p c).1.marks = p.1.marks ∧ (readTurn P i p c).1.alloced = p.1.alloced ∧
      ∃ fl, (∀ x ∈ fl, x = Ins.flush) ∧ (readTurn P i p c).2 = p.2 ++ fl := by
  unfold readTurn
  split
  · exact ⟨rfl, rfl, [], by simp, by simp⟩
  · split
    · exact ⟨(flush_marks _).1, (flush_marks _).2, [.flush], by simp, rfl⟩
    · exact ⟨rfl, rfl, [], by simp, by simp⟩

theorem reads_spec (P : DProg) (i : Nat) (cs : List Nat) (p : CG × List Ins) :
    (cs.foldl (readTurn P i) p).1.marks = p.1.marks ∧ (cs.foldl (readTurn P i) p).1.alloced = p.1.alloced ∧
      ∃ fl, (∀ x ∈ fl, x = Ins.flush) ∧ (cs.foldl (readTurn P i) p).2 = p.2 ++ fl := by
  induction cs generalizing p with
  | nil => exact ⟨rfl, rfl, [], by simp, by simp⟩
  | cons c cs ih =>
    obtain ⟨a, b, fl, h1, h2⟩ := ih (readTurn P i p c)
    obtain ⟨a', b', fl', h1', h2'⟩ := readTurn_spec P i p c
    refine ⟨a.trans a', b.trans b', fl' ++ fl, ?_, ?_⟩
    · intro x hx; rcases List.mem_append.1 hx with h | h
      · exact h1' x h
      · exact h1 x h
    · rw [List.foldl_cons, h2, h2', List.append_assoc]

/-- Does an entry get memory before it is executed? -/
def Grabs (nd : DN) : Prop := (∃ d, nd.cls = .trans d) ∨ ∃ o l, nd.cls = .ptr o l true

theorem alloc_spec (s : CG) (r : Reg) (i : Nat) :
    (∀ j ∈ (s.alloc r i).1.marks, j ∈ s.marks ∨ j = i) ∧ (∀ q, q ∈ (s.alloc r i).1.alloced ↔ q ∈ s.alloced ∨ q = r) ∧
      (s.alloc r i).1.flushed = s.flushed ∧ (∀ x ∈ (s.alloc r i).2, x = Ins.alloc r ∧ r ∉ s.alloced) ∧
      (r ∉ s.alloced → .alloc r ∈ (s.alloc r i).2) := by
  unfold CG.alloc
  by_cases h : r ∈ s.alloced
  · rw [if_pos h]
    refine ⟨fun j hj => .inl hj, fun q => ⟨.inl, fun k => ?_⟩, rfl, by simp, fun k => absurd h k⟩
    rcases k with k | k
    · exact k
    · rw [k]; exact h
  · rw [if_neg h]
    refine ⟨fun j hj => ?_, fun q => ?_, rfl, fun x hx => ⟨by simpa using hx, h⟩, fun _ => by simp⟩
    · simp only [CG.marks, CG.wrote] at hj ⊢
      simp only [List.mem_append, List.mem_singleton] at hj ⊢
      rcases hj with k | k | k
      · exact .inl (.inl k)
      · exact .inl (.inr k)
      · exact .inr k
    · simp only [List.mem_cons]; tauto

/-- The instructions of an entry: some that get memory for it or flush, its own, and then flushes. -/
structure Shape (P : DProg) (user : Nat → Nat) (s : CG) (i : Nat) (pre post : List Ins) : Prop where
  eq : (entryIns P user s i).2 = pre ++ .exec i :: post
  before : ∀ x ∈ pre, x = .flush ∨ x = .alloc (P.reg i) ∧ P.reg i ∉ s.alloced ∧ Grabs (P.at i)
  after : ∀ x ∈ post, x = .flush
  gets : Grabs (P.at i) → P.reg i ∉ s.alloced → .alloc (P.reg i) ∈ pre
  sync : (P.at i).cls = .trans (-1) → (P.reg ((P.at i).reads.headD 0)).dev ≠ -1 → user i ∉ s.flushed → post ≠ []
  marks : ∀ j ∈ (entryIns P user s i).1.marks, j ∈ s.marks ∨ j = i
  sub : ∀ r ∈ s.alloced, r ∈ (entryIns P user s i).1.alloced
  more : ∀ r ∈ (entryIns P user s i).1.alloced, r ∈ s.alloced ∨ r = P.reg i ∧ (P.at i).cls ≠ .stmt
  grabs : Grabs (P.at i) → P.reg i ∈ (entryIns P user s i).1.alloced

theorem sync_spec (s : CG) (j : Nat) : (s.sync j).1.marks = s.marks ∧ (s.sync j).1.alloced = s.alloced ∧ (∀ x ∈ (s.sync j).2, x = Ins.flush) ∧
    (j ∉ s.flushed → (s.sync j).2 ≠ []) := by
  unfold CG.sync
  by_cases h : j ∈ s.flushed
  · rw [if_pos h]; exact ⟨rfl, rfl, by simp, fun k => absurd h k⟩
  · rw [if_neg h]; exact ⟨(flush_marks _).1, (flush_marks _).2, by simp, by simp⟩

theorem shape (P : DProg) (user : Nat → Nat) (s : CG) (i : Nat) : ∃ pre post, Shape P user s i pre post := by
  cases hc : (P.at i).cls with
  | arg =>
    have e : entryIns P user s i = (s.wrote (P.reg i) i, [.exec i]) := by unfold entryIns; rw [hc]
    have ng : ¬ Grabs (P.at i) := by rintro (⟨d, h⟩ | ⟨o, l, h⟩) <;> rw [hc] at h <;> cases h
    refine ⟨[], [], by rw [e]; rfl, by simp, by simp, fun h => absurd h ng, fun h => (by rw [hc] at h; cases h), ?_, ?_, ?_, fun h => absurd h ng⟩
    · rw [e]; exact fun j h => .inl h
    · rw [e]; exact fun r h => h
    · rw [e]; exact fun r h => .inl h
  | stmt =>
    have e : entryIns P user s i = ((s.sync i).1.wrote Reg.zero i, (s.sync i).2 ++ [.exec i]) := by unfold entryIns; rw [hc]
    have ng : ¬ Grabs (P.at i) := by rintro (⟨d, h⟩ | ⟨o, l, h⟩) <;> rw [hc] at h <;> cases h
    obtain ⟨a, b, c, _⟩ := sync_spec s i
    refine ⟨(s.sync i).2, [], by rw [e], fun x hx => .inl (c x hx), by simp, fun h => absurd h ng, fun h => (by rw [hc] at h; cases h), ?_, ?_, ?_,
      fun h => absurd h ng⟩
    · rw [e]; intro j h; rw [(wrote_marks _ _ _).1, a] at h; exact .inl h
    · rw [e]; intro r h; rw [(wrote_marks _ _ _).2, b]; exact h
    · rw [e]; intro r h; rw [(wrote_marks _ _ _).2, b] at h; exact .inl h
  | trans dst =>
    obtain ⟨q, hq⟩ : ∃ q, q = if (P.reg ((P.at i).reads.headD 0)).dev ≠ -1 ∧ dst = -1 then (s.alloc (P.reg i) i).1.sync (user i)
        else ((s.alloc (P.reg i) i).1, []) := ⟨_, rfl⟩
    have e : entryIns P user s i = (q.1.wrote (P.reg i) i, (s.alloc (P.reg i) i).2 ++ .exec i :: q.2) := by
      rw [hq]; unfold entryIns; rw [hc]
    have g : Grabs (P.at i) := .inl ⟨dst, hc⟩
    obtain ⟨a1, a2, a3, a4, a5⟩ := alloc_spec s (P.reg i) i
    obtain ⟨b1, b2, b3, b4⟩ := sync_spec (s.alloc (P.reg i) i).1 (user i)
    have q1 : q.1.marks = (s.alloc (P.reg i) i).1.marks := by rw [hq]; split; exacts [b1, rfl]
    have q2 : q.1.alloced = (s.alloc (P.reg i) i).1.alloced := by rw [hq]; split; exacts [b2, rfl]
    have q3 : ∀ x ∈ q.2, x = Ins.flush := by rw [hq]; split; exacts [b3, by simp]
    refine ⟨(s.alloc (P.reg i) i).2, q.2, by rw [e], fun x hx => .inr ⟨(a4 x hx).1, (a4 x hx).2, g⟩, q3, fun _ => a5, ?_, ?_, ?_, ?_, ?_⟩
    · intro h hd hu
      rw [hc] at h
      obtain rfl := Cls.trans.inj h
      rw [hq, if_pos ⟨hd, rfl⟩]
      exact b4 (by rw [a3]; exact hu)
    · rw [e]; intro j h; rw [(wrote_marks _ _ _).1, q1] at h; exact a1 j h
    · rw [e]; intro r h; rw [(wrote_marks _ _ _).2, q2, a2]; exact .inl h
    · rw [e]; intro r h; rw [(wrote_marks _ _ _).2, q2, a2] at h
      rcases h with h | h
      · exact .inl h
      · exact .inr ⟨h, by rw [hc]; simp⟩
    · rw [e]; intro _; rw [(wrote_marks _ _ _).2, q2, a2]; exact .inr rfl
  | ptr o l x =>
    obtain ⟨p, hp⟩ : ∃ p, p = if x = true then s.alloc (P.reg i) i else (s, []) := ⟨_, rfl⟩
    have e : entryIns P user s i = (((P.at i).reads.foldl (readTurn P i) p).1.wrote (P.reg i) i,
        ((P.at i).reads.foldl (readTurn P i) p).2 ++ [.exec i]) := by
      rw [hp]; unfold entryIns; rw [hc]
    obtain ⟨r1, r2, fl, r3, r4⟩ := reads_spec P i (P.at i).reads p
    obtain ⟨a1, a2, a3, a4, a5⟩ := alloc_spec s (P.reg i) i
    refine ⟨p.2 ++ fl, [], by rw [e, r4], ?_, by simp, ?_, fun h => (by rw [hc] at h; cases h), ?_, ?_, ?_, ?_⟩
    · intro y hy
      rcases List.mem_append.1 hy with k | k
      · rw [hp] at k
        split at k
        · rename_i hx
          exact .inr ⟨(a4 y k).1, (a4 y k).2, .inr ⟨o, l, by rw [hc, hx]⟩⟩
        · simp at k
      · exact .inl (r3 y k)
    · rintro (⟨d, h⟩ | ⟨o', l', h⟩) hn
      · rw [hc] at h; cases h
      · rw [hc] at h
        have hx : x = true := (Cls.ptr.inj h).2.2
        rw [hp, if_pos hx]
        exact List.mem_append_left _ (a5 hn)
    · rw [e]; intro j h; rw [(wrote_marks _ _ _).1, r1, hp] at h
      split at h
      · exact a1 j h
      · exact .inl h
    · rw [e]; intro r h; rw [(wrote_marks _ _ _).2, r2, hp]
      split
      · exact (a2 r).2 (.inl h)
      · exact h
    · rw [e]; intro r h; rw [(wrote_marks _ _ _).2, r2, hp] at h
      split at h
      · rcases (a2 r).1 h with h | h
        · exact .inl h
        · exact .inr ⟨h, by rw [hc]; simp⟩
      · exact .inl h
    · rintro (⟨d, h⟩ | ⟨o', l', h⟩)
      · rw [hc] at h; cases h
      · rw [hc] at h
        have hx : x = true := (Cls.ptr.inj h).2.2
        rw [e, (wrote_marks _ _ _).2, r2, hp, if_pos hx]
        exact (a2 _).2 (.inr rfl)
  | imm =>
    have e : entryIns P user s i = (((P.at i).reads.foldl (readTurn P i) (s, [])).1.wrote (P.reg i) i,
        ((P.at i).reads.foldl (readTurn P i) (s, [])).2 ++ [.exec i]) := by
      unfold entryIns; rw [hc]
    have ng : ¬ Grabs (P.at i) := by rintro (⟨d, h⟩ | ⟨o, l, h⟩) <;> rw [hc] at h <;> cases h
    obtain ⟨r1, r2, fl, r3, r4⟩ := reads_spec P i (P.at i).reads (s, [])
    refine ⟨fl, [], by rw [e, r4]; rfl, fun x hx => .inl (r3 x hx), by simp, fun h => absurd h ng, fun h => (by rw [hc] at h; cases h), ?_, ?_, ?_,
      fun h => absurd h ng⟩
    · rw [e]; intro j h; rw [(wrote_marks _ _ _).1, r1] at h; exact .inl h
    · rw [e]; intro r h; rw [(wrote_marks _ _ _).2, r2]; exact h
    · rw [e]; intro r h; rw [(wrote_marks _ _ _).2, r2] at h; exact .inl h

theorem cgTo_succ (P : DProg) (user : Nat → Nat) (k : Nat) : cgTo P user (k + 1) = (entryIns P user (cgTo P user k) k).1 := by
  simp [cgTo, List.range_succ]

/-- What the code generator knows after the first `k` entries. -/
theorem cgTo_spec (P : DProg) (user : Nat → Nat) (k : Nat) : (∀ j ∈ (cgTo P user k).marks, j < k) ∧
    (∀ r ∈ (cgTo P user k).alloced, ∃ x, x < k ∧ (P.at x).cls ≠ .stmt ∧ P.reg x = r) ∧
    ∀ x, x < k → Grabs (P.at x) → P.reg x ∈ (cgTo P user k).alloced := by
  induction k with
  | zero => simp [cgTo, CG.init, CG.marks]
  | succ k ih =>
    obtain ⟨i1, i2, i3⟩ := ih
    obtain ⟨pre, post, S⟩ := shape P user (cgTo P user k) k
    rw [cgTo_succ]
    refine ⟨fun j hj => ?_, fun r hr => ?_, fun x hx hg => ?_⟩
    · rcases S.marks j hj with h | h
      · have := i1 j h; omega
      · omega
    · rcases S.more r hr with h | ⟨h, hs⟩
      · obtain ⟨x, a, b, c⟩ := i2 r h
        exact ⟨x, by omega, b, c⟩
      · exact ⟨k, by omega, hs, h.symm⟩
    · by_cases e : x = k
      · subst e; exact S.grabs hg
      · exact S.sub _ (i3 x (by omega) hg)

/-! ### Queues -/

section
variable (f : Nat → List (Option V) → Option V)

theorem perform_queue (M : Mach V) (c : Cmd V) (q : List (Cmd V)) : { perform f { M with queue := q } c with queue := [] } = perform f { M with queue := [] } c := by
  cases c <;> rfl

theorem perform_bind (M : Mach V) (c : Cmd V) : (perform f M c).bind = M.bind ∧ (perform f M c).queue = M.queue := by
  cases c <;> exact ⟨rfl, rfl⟩

theorem foldl_bind (cs : List (Cmd V)) (M : Mach V) : (cs.foldl (perform f) M).bind = M.bind ∧ (cs.foldl (perform f) M).queue = M.queue := by
  induction cs generalizing M with
  | nil => exact ⟨rfl, rfl⟩
  | cons c cs ih =>
    obtain ⟨a, b⟩ := ih (perform f M c)
    obtain ⟨a', b'⟩ := perform_bind f M c
    exact ⟨a.trans a', b.trans b'⟩

theorem drain_bind (M : Mach V) : (drain f M).bind = M.bind ∧ (drain f M).queue = [] := foldl_bind f _ _

theorem drain_tick (M : Mach V) (c : Cmd V) (q : List (Cmd V)) (h : M.queue = c :: q) : drain f (perform f { M with queue := q } c) = drain f M := by
  unfold drain
  rw [h, List.foldl_cons, (perform_bind f _ c).2, perform_queue]

theorem drain_snoc (M : Mach V) (c : Cmd V) : drain f { M with queue := M.queue ++ [c] } = perform f (drain f M) c := by
  unfold drain
  rw [List.foldl_append]
  rfl

theorem drain_empty (M : Mach V) (h : M.queue = []) : drain f M = M := by
  unfold drain
  rw [h, List.foldl_nil]
  cases M
  cases h
  rfl

theorem drain_drain (M : Mach V) : drain f (drain f M) = drain f M := drain_empty f _ (drain_bind f M).2

/-- Nothing in the queue writes memory of the host. -/
def Quiet (M : Mach V) : Prop := ∀ c ∈ M.queue, ∀ i s d, c ≠ .dtoh i s d

theorem quiet_fold (cs : List (Cmd V)) (hq : ∀ c ∈ cs, ∀ i s d, c ≠ .dtoh i s d) (d : Nat → Option V) :
    ∃ D T, ∀ h b q l, cs.foldl (perform f) (⟨h, b, d, q, l⟩ : Mach V) = ⟨h, b, D, q, l ++ T⟩ := by
  induction cs generalizing d with
  | nil => exact ⟨d, [], fun h b q l => by simp⟩
  | cons c cs ih =>
    have hq' : ∀ c ∈ cs, ∀ i s d, c ≠ .dtoh i s d := fun c hc => hq c (by simp [hc])
    cases c with
    | dtoh i s e => exact absurd rfl (hq _ (by simp) i s e)
    | kern i src dst =>
      obtain ⟨D, T, h⟩ := ih hq' (write d dst (f i (src.map fun a => a.bind d)))
      refine ⟨D, (i, f i (src.map fun a => a.bind d)) :: T, fun g b q l => ?_⟩
      rw [List.foldl_cons]
      simp only [perform]
      rw [h]
      simp
    | htod i v dst =>
      obtain ⟨D, T, h⟩ := ih hq' (write d dst v)
      refine ⟨D, (i, v) :: T, fun g b q l => ?_⟩
      rw [List.foldl_cons]
      simp only [perform]
      rw [h]
      simp

/-- What waits in the queue is not affected by what is done on the host. -/
theorem quiet_drain (M : Mach V) (hq : Quiet M) : ∃ D T, ∀ h b l, drain f ⟨h, b, M.dmem, M.queue, l⟩ = ⟨h, b, D, [], l ++ T⟩ := by
  obtain ⟨D, T, h⟩ := quiet_fold f M.queue hq M.dmem
  exact ⟨D, T, fun g b l => h g b [] l⟩

/-! ### Runs -/

variable (P : DProg)

theorem runs_append (a b : List Ins) (M M' : Mach V) (h : Run P f (a ++ b) M M') : ∃ M₁, Run P f a M M₁ ∧ Run P f b M₁ M' := by
  generalize hl : a ++ b = l at h
  induction h generalizing a with
  | done M =>
    obtain ⟨rfl, rfl⟩ := List.append_eq_nil_iff.1 hl
    exact ⟨M, .done M, .done M⟩
  | tick l M M' c q hc _ ih =>
    obtain ⟨M₁, h1, h2⟩ := ih a hl
    exact ⟨M₁, .tick _ _ _ c q hc h1, h2⟩
  | ins x l M M₀ M' hs hr ih =>
    cases a with
    | nil =>
      simp only [List.nil_append] at hl
      exact ⟨M, .done M, hl ▸ .ins x l M M₀ M' hs hr⟩
    | cons y a =>
      simp only [List.cons_append, List.cons.injEq] at hl
      obtain ⟨rfl, hl⟩ := hl
      obtain ⟨M₁, h1, h2⟩ := ih a hl
      exact ⟨M₁, .ins _ _ _ _ _ hs h1, h2⟩

theorem run_cons (x : Ins) (l : List Ins) (M M' : Mach V) (h : Run P f (x :: l) M M') :
    ∃ M₁ M₂, Run P f [] M M₁ ∧ Step P f x M₁ M₂ ∧ Run P f l M₂ M' := by
  generalize hl : x :: l = m at h
  induction h with
  | done M => cases hl
  | tick m M M' c q hc _ ih =>
    obtain ⟨M₁, M₂, h1, h2, h3⟩ := ih hl
    exact ⟨M₁, M₂, .tick _ _ _ c q hc h1, h2, h3⟩
  | ins y m M M₀ M' hs hr _ =>
    simp only [List.cons.injEq] at hl
    obtain ⟨rfl, rfl⟩ := hl
    exact ⟨M, M₀, .done M, hs, hr⟩

theorem ticks (M M' : Mach V) (h : Run P f [] M M') : drain f M' = drain f M ∧ M'.bind = M.bind ∧ (Quiet M → Quiet M') := by
  generalize hl : ([] : List Ins) = l at h
  induction h with
  | done M => exact ⟨rfl, rfl, id⟩
  | ins => cases hl
  | tick l M M' c q hc _ ih =>
    obtain ⟨a, b, d⟩ := ih hl
    refine ⟨a.trans (drain_tick f M c q hc), b.trans (perform_bind f _ c).1, fun hq => d ?_⟩
    intro c' hc'
    rw [(perform_bind f _ c).2] at hc'
    exact hq c' (by rw [hc]; exact List.mem_cons_of_mem _ hc')

/-- Flushes change nothing but when things are done. -/
theorem flushes (l : List Ins) (hl : ∀ x ∈ l, x = .flush) (M M' : Mach V) (h : Run P f l M M') :
    drain f M' = drain f M ∧ M'.bind = M.bind ∧ (Quiet M ∨ l ≠ [] → Quiet M') := by
  induction l generalizing M with
  | nil =>
    obtain ⟨a, b, c⟩ := ticks f P M M' h
    exact ⟨a, b, fun k => c (k.resolve_right (by simp))⟩
  | cons x l ih =>
    obtain ⟨M₁, M₂, h1, h2, h3⟩ := run_cons f P x l M M' h
    obtain ⟨a, b, _⟩ := ticks f P M M₁ h1
    rw [hl x (by simp)] at h2
    cases h2 with
    | flush =>
      obtain ⟨a', b', c'⟩ := ih (fun y hy => hl y (by simp [hy])) (drain f M₁) h3
      refine ⟨?_, ?_, fun _ => c' (.inl ?_)⟩
      · rw [a', drain_drain, a]
      · rw [b', (drain_bind f M₁).1, b]
      · intro c hc; rw [(drain_bind f M₁).2] at hc; cases hc

/-! ### What holds during a run -/

/-- The entries in `need` have their values, once the queue is done; memory is not shared; and what was computed is `L`. -/
structure Ok (v : Nat → Option V) (need : Nat → Prop) (L : List (Nat × Option V)) (M : Mach V) : Prop where
  inj : ∀ r r' a, M.bind r = some a → M.bind r' = some a → r = r'
  host : ∀ x, need x → (P.reg x).dev = -1 → (drain f M).host (P.reg x) = v x
  dev : ∀ x, need x → (P.reg x).dev ≠ -1 → ∃ a, M.bind (P.reg x) = some a ∧ (drain f M).dmem a = v x
  log : (drain f M).log.Perm L

theorem Ok.same {v : Nat → Option V} {need : Nat → Prop} {L : List (Nat × Option V)} {M M' : Mach V} (h : Ok f P v need L M)
    (hd : drain f M' = drain f M) (hb : M'.bind = M.bind) : Ok f P v need L M' :=
  ⟨by rw [hb]; exact h.inj, by rw [hd]; exact h.host, by rw [hd, hb]; exact h.dev, by rw [hd]; exact h.log⟩

/-- Getting memory. -/
theorem grab (v : Nat → Option V) (need : Nat → Prop) (L : List (Nat × Option V)) (r : Reg) (hr : ∀ x, need x → P.reg x ≠ r) (M M' : Mach V)
    (h : Step P f (.alloc r) M M') (ho : Ok f P v need L M) (hq : Quiet M) :
    Ok f P v need L M' ∧ Quiet M' ∧ (r.dev ≠ -1 → ∃ a, M'.bind r = some a) ∧ (∀ q, M.bind q ≠ none → M'.bind q ≠ none) := by
  obtain ⟨D, T, hd⟩ := quiet_drain f M hq
  cases h with
  | allocHost _ w _ hdev =>
    have e : drain f M = ⟨M.host, M.bind, D, [], M.log ++ T⟩ := hd _ _ _
    refine ⟨⟨ho.inj, fun x hx hxd => ?_, fun x hx hxd => ?_, ?_⟩, hq, fun k => absurd hdev k, fun q k => k⟩
    · rw [hd]
      have := ho.host x hx hxd
      rw [e] at this
      simp only [if_neg (hr x hx)]
      exact this
    · obtain ⟨a, h1, h2⟩ := ho.dev x hx hxd
      rw [e] at h2
      exact ⟨a, h1, by rw [hd]; exact h2⟩
    · have := ho.log
      rw [e] at this
      rw [hd]; exact this
  | allocDev _ a _ hdev ha =>
    have e : drain f M = ⟨M.host, M.bind, D, [], M.log ++ T⟩ := hd _ _ _
    refine ⟨⟨fun r1 r2 b h1 h2 => ?_, fun x hx hxd => ?_, fun x hx hxd => ?_, ?_⟩, hq, fun _ => ⟨a, by simp⟩, fun q k => ?_⟩
    · simp only at h1 h2
      by_cases k1 : r1 = r <;> by_cases k2 : r2 = r
      · rw [k1, k2]
      · rw [if_pos k1] at h1; rw [if_neg k2] at h2
        exact absurd (h2.trans h1.symm) (ha r2 k2)
      · rw [if_neg k1] at h1; rw [if_pos k2] at h2
        exact absurd (h1.trans h2.symm) (ha r1 k1)
      · rw [if_neg k1] at h1; rw [if_neg k2] at h2
        exact ho.inj r1 r2 b h1 h2
    · rw [hd]
      have := ho.host x hx hxd
      rw [e] at this
      exact this
    · obtain ⟨b, h1, h2⟩ := ho.dev x hx hxd
      rw [e] at h2
      refine ⟨b, ?_, by rw [hd]; exact h2⟩
      simp only [if_neg (hr x hx)]
      exact h1
    · have := ho.log
      rw [e] at this
      rw [hd]; exact this
    · simp only
      by_cases k1 : q = r
      · rw [if_pos k1]; simp
      · rw [if_neg k1]; exact k

theorem before_exec (v : Nat → Option V) (need : Nat → Prop) (L : List (Nat × Option V)) (r : Reg) (l : List Ins)
    (hl : ∀ x ∈ l, x = .flush ∨ x = .alloc r ∧ ∀ x, need x → P.reg x ≠ r) (M M' : Mach V)
    (h : Run P f l M M') (ho : Ok f P v need L M) (hq : Quiet M) :
    Ok f P v need L M' ∧ Quiet M' ∧ (r.dev ≠ -1 → .alloc r ∈ l → M'.bind r ≠ none) ∧ (∀ q, M.bind q ≠ none → M'.bind q ≠ none) := by
  induction l generalizing M with
  | nil =>
    obtain ⟨a, b, c⟩ := ticks f P M M' h
    exact ⟨ho.same f P a b, c hq, by simp, fun q k => by rw [b]; exact k⟩
  | cons x l ih =>
    obtain ⟨M₁, M₂, h1, h2, h3⟩ := run_cons f P x l M M' h
    obtain ⟨a, b, c⟩ := ticks f P M M₁ h1
    have ho1 := ho.same f P a b
    have hq1 := c hq
    have hl' : ∀ x ∈ l, x = .flush ∨ x = .alloc r ∧ ∀ x, need x → P.reg x ≠ r := fun y hy => hl y (by simp [hy])
    rcases hl x (by simp) with rfl | ⟨rfl, hr⟩
    · cases h2 with
      | flush =>
        obtain ⟨e1, e2, e3, e4⟩ := ih hl' (drain f M₁) h3 (ho1.same f P (drain_drain f M₁) (drain_bind f M₁).1)
          (by intro c hc; rw [(drain_bind f M₁).2] at hc; cases hc)
        refine ⟨e1, e2, fun k m => e3 k ?_, fun q k => e4 q ?_⟩
        · rcases List.mem_cons.1 m with m | m
          · cases m
          · exact m
        · rw [(drain_bind f M₁).1, b]; exact k
    · obtain ⟨g1, g2, g3, g4⟩ := grab f P v need L r hr M₁ M₂ h2 ho1 hq1
      obtain ⟨e1, e2, e3, e4⟩ := ih hl' M₂ h3 g1 g2
      refine ⟨e1, e2, fun k _ => e4 r ?_, fun q k => e4 q (g4 q ?_)⟩
      · obtain ⟨a, ha⟩ := g3 k; rw [ha]; simp
      · rw [b]; exact k

/-- Giving memory back. -/
theorem after_exec (v : Nat → Option V) (need : Nat → Prop) (L : List (Nat × Option V)) (rs : List Reg) (hr : ∀ r ∈ rs, ∀ x, need x → P.reg x ≠ r)
    (M M' : Mach V) (h : Run P f (rs.map .free) M M') (ho : Ok f P v need L M) (hq : Quiet M) : Ok f P v need L M' ∧ Quiet M' := by
  induction rs generalizing M with
  | nil =>
    obtain ⟨a, b, c⟩ := ticks f P M M' h
    exact ⟨ho.same f P a b, c hq⟩
  | cons r rs ih =>
    obtain ⟨M₁, M₂, h1, h2, h3⟩ := run_cons f P _ _ M M' h
    obtain ⟨a, b, c⟩ := ticks f P M M₁ h1
    have ho1 := ho.same f P a b
    have hq1 := c hq
    have hr' := hr r (by simp)
    refine ih (fun q hq => hr q (by simp [hq])) M₂ h3 ?_ ?_
    · cases h2 with
      | freeHost => exact ho1
      | freeDev _ _ hd =>
        obtain ⟨D, T, hd⟩ := quiet_drain f M₁ hq1
        have e : drain f M₁ = ⟨M₁.host, M₁.bind, D, [], M₁.log ++ T⟩ := hd _ _ _
        refine ⟨fun r1 r2 b h1 h2 => ?_, fun x hx hxd => ?_, fun x hx hxd => ?_, ?_⟩
        · simp only at h1 h2
          by_cases k1 : r1 = r
          · rw [if_pos k1] at h1; cases h1
          · by_cases k2 : r2 = r
            · rw [if_pos k2] at h2; cases h2
            · rw [if_neg k1] at h1; rw [if_neg k2] at h2
              exact ho1.inj r1 r2 b h1 h2
        · have := ho1.host x hx hxd
          rw [e] at this
          rw [hd]; exact this
        · obtain ⟨b, h1, h2⟩ := ho1.dev x hx hxd
          rw [e] at h2
          exact ⟨b, by simp only [if_neg (hr' x hx)]; exact h1, by rw [hd]; exact h2⟩
        · have := ho1.log
          rw [e] at this
          rw [hd]; exact this
    · cases h2 with
      | freeHost => exact hq1
      | freeDev => exact hq1

/-! ### One entry -/

theorem trans_dev (i : Nat) (d : Int) (hi : i < P.length) (h : (P.at i).cls = .trans d) : (P.reg i).dev = d := by
  have ei : P.reg i = (allocTurn P (allocTo P i) i).reg i := by rw [← allocTo_succ]; exact reg_eq P i (i + 1) (by omega) hi
  rw [ei, allocTurn, h]
  exact fresh_dev _ _ _

/-- An operation that calls an external process takes no register of the host. -/
theorem ext_fresh (F : Fit P) (k : Nat) (hk : k < P.length) (o : Option Nat) (l : Nat) (h : (P.at k).cls = .ptr o l true)
    (hd : (P.reg k).dev = -1) : ∀ i, i < k → (P.at i).cls ≠ .stmt → P.reg i ≠ P.reg k := by
  intro i hi hs he
  have ei : P.reg k = (allocTurn P (allocTo P k) k).reg k := by rw [← allocTo_succ]; exact reg_eq P k (k + 1) (by omega) hk
  have key : ∀ d, allocTurn P (allocTo P k) k = (allocTo P k).fresh k d → False := by
    intro d e
    rw [e] at ei
    have b := reg_bound P F k i hi hs
    rw [← reg_eq P i k hi (by omega), he, ei, (fresh_spec _ k d).1] at b
    exact lt_irrefl _ b
  have e : allocTurn P (allocTo P k) k = (allocTo P k).mutable P k o l true := by rw [allocTurn, h]
  cases o with
  | none => exact key _ (e.trans rfl)
  | some j =>
    unfold RSt.mutable at e
    simp only at e
    by_cases h1 : l = 1 ∨ (intervals P ((P.at k).reads.getD j 0)).liveAt k = false
    · rw [if_pos h1] at e
      by_cases h2 : (P.at k).cuda = true ∧ ((allocTo P k).reg ((P.at k).reads.getD j 0)).dev ≠ -1
      · rw [if_pos h2] at e
        rw [ei, e] at hd
        simp only [Tape.upd_same] at hd
        exact h2.2 hd
      · rw [if_neg h2, if_neg (by simp)] at e
        exact key _ e
    · rw [if_neg h1] at e
      exact key _ e

/-- The entries that are needed when the entry at `k` is next. -/
def Needed (P : DProg) (k x : Nat) : Prop := x < k ∧ (P.at x).cls ≠ .stmt ∧ ∃ i, k ≤ i ∧ i < P.length ∧ x ∈ (P.at i).reads

theorem needed_succ (F : Fit P) (k x : Nat) (hk : k < P.length) (h : Needed P (k + 1) x) (hx : x ≠ k) :
    Needed P k x ∧ ((P.at k).cls ≠ .stmt → P.reg x ≠ P.reg k) := by
  obtain ⟨h1, h2, i, h3, h4, h5⟩ := h
  refine ⟨⟨by omega, h2, i, by omega, h4, h5⟩, fun hs e => ?_⟩
  exact shared_unread P F k hk hs x (by omega) h2 e i (by omega) h4 h5

variable {P} {f}

/-- An entry that grabs memory has a register of its own, unless its memory was got before. -/
theorem grab_fresh {user : Nat → Nat} (F : Fit P) (Lo : Local P user) (k : Nat) (hk : k < P.length) (hg : Grabs (P.at k))
    (hn : P.reg k ∉ (cgTo P user k).alloced) : ∀ x, x < k → (P.at x).cls ≠ .stmt → P.reg x ≠ P.reg k := by
  intro x hx hxs
  have hs : (P.at k).cls ≠ .stmt := by
    rcases hg with ⟨d, h⟩ | ⟨o, l, h⟩ <;> rw [h] <;> simp
  rcases reg_cases P F k hk hs with h | ⟨hl, o, ho, he, _⟩
  · exact h x hx hxs
  · rcases hg with ⟨d, h⟩ | ⟨ow, l, h⟩
    · rw [h] at hl; cases hl
    · by_cases hd : (P.reg k).dev = -1
      · exact ext_fresh P F k hk ow l h hd x hx hxs
      · exfalso
        obtain ⟨ob, os⟩ := F.before k o ho
        have god : (P.reg o).dev ≠ -1 := by rw [← he]; exact hd
        have : Grabs (P.at o) := by
          cases hc : (P.at o).cls with
          | arg => exact absurd (Lo.kern o (.inr hc)) god
          | imm => exact absurd (Lo.kern o (.inl hc)) god
          | stmt => exact absurd hc os
          | trans d => exact .inl ⟨d, hc⟩
          | ptr a b e =>
            have := Lo.ext o a b e hc (Lo.home o a b e hc god)
            exact .inr ⟨a, b, by rw [hc, this]⟩
        exact hn (by rw [he]; exact (cgTo_spec P user k).2.2 o ob this)

theorem exec_ok {user : Nat → Nat} (F : Fit P) (Lo : Local P user) (v : Nat → Option V) (hv : Values P f v)
    (hcopy : ∀ i d, (P.at i).cls = .trans d → ∀ a, f i [a] = a) (k : Nat) (hk : k < P.length) (L : List (Nat × Option V)) (M : Mach V)
    (ho : Ok f P v (Needed P k) L M) (hq : Quiet M) (hb : (P.at k).cls ≠ .stmt → (P.reg k).dev ≠ -1 → M.bind (P.reg k) ≠ none) :
    Ok f P v (Needed P (k + 1)) (L ++ [(k, v k)]) (execIns P f M k) ∧ ((P.at k).cls ≠ .trans (-1) → Quiet (execIns P f M k)) := by
  obtain ⟨D, T, hd⟩ := quiet_drain f M hq
  have eD : drain f M = ⟨M.host, M.bind, D, [], M.log ++ T⟩ := hd _ _ _
  have rd : ∀ c ∈ (P.at k).reads, Needed P k c := fun c hc => ⟨(F.before k c hc).1, (F.before k c hc).2, k, le_refl _, hk, hc⟩
  have hostv : ∀ c, Needed P k c → (P.reg c).dev = -1 → M.host (P.reg c) = v c := by
    intro c hc hd
    have := ho.host c hc hd
    rw [eD] at this
    exact this
  have devv : ∀ c, Needed P k c → (P.reg c).dev ≠ -1 → (M.bind (P.reg c)).bind D = v c := by
    intro c hc hd
    obtain ⟨a, h1, h2⟩ := ho.dev c hc hd
    rw [eD] at h2
    rw [h1]
    exact h2
  have hlog := ho.log
  rw [eD] at hlog
  have hargs : (∀ c ∈ (P.at k).reads, (P.reg c).dev = -1) → f k ((P.at k).reads.map fun c => M.host (P.reg c)) = v k := by
    intro h
    rw [hv k hk]
    congr 1
    exact List.map_congr_left fun c hc => hostv c (rd c hc) (h c hc)
  have hswap : (M.log ++ [(k, v k)] ++ T).Perm (L ++ [(k, v k)]) := by
    rw [List.append_assoc]
    refine (List.Perm.append_left _ List.perm_append_comm).trans ?_
    rw [← List.append_assoc]
    exact hlog.append_right _
  -- an entry computed on the host
  have onHost : (P.at k).cls ≠ .stmt → (P.reg k).dev = -1 → (∀ c ∈ (P.at k).reads, (P.reg c).dev = -1) →
      ∀ M' : Mach V, M' = { M with
          host := fun r => if r = P.reg k then f k ((P.at k).reads.map fun c => M.host (P.reg c)) else M.host r
          log := M.log ++ [(k, f k ((P.at k).reads.map fun c => M.host (P.reg c)))] } →
        Ok f P v (Needed P (k + 1)) (L ++ [(k, v k)]) M' ∧ Quiet M' := by
    intro hs hdev hr M' hM
    rw [hargs hr] at hM
    subst hM
    refine ⟨⟨ho.inj, fun x hx hxd => ?_, fun x hx hxd => ?_, ?_⟩, hq⟩
    · rw [hd]
      by_cases e : x = k
      · subst e; simp only [if_pos]
      · obtain ⟨n1, n2⟩ := needed_succ P F k x hk hx e
        simp only [if_neg (n2 hs)]
        exact hostv x n1 hxd
    · have e : x ≠ k := by rintro rfl; exact hxd hdev
      obtain ⟨n1, n2⟩ := needed_succ P F k x hk hx e
      obtain ⟨a, h1, h2⟩ := ho.dev x n1 hxd
      rw [eD] at h2
      exact ⟨a, h1, by rw [hd]; exact h2⟩
    · rw [hd]; exact hswap
  -- an entry whose value is written to memory of the device, when its command is done
  have onDevice : (P.at k).cls ≠ .stmt → (P.reg k).dev ≠ -1 → ∀ c : Cmd V,
      (∀ S : Mach V, perform f S c = { S with dmem := write S.dmem (M.bind (P.reg k)) (v k), log := S.log ++ [(k, v k)] } ∨ S ≠ drain f M) →
        Ok f P v (Needed P (k + 1)) (L ++ [(k, v k)]) { M with queue := M.queue ++ [c] } := by
    intro hs hdev c hc
    have e := (hc (drain f M)).resolve_right (fun h => h rfl)
    rw [eD] at e
    have e2 := drain_snoc f M c
    rw [eD, e] at e2
    refine ⟨ho.inj, fun x hx hxd => ?_, fun x hx hxd => ?_, ?_⟩
    · rw [e2]
      have ne : x ≠ k := by rintro rfl; exact hdev hxd
      exact hostv x (needed_succ P F k x hk hx ne).1 hxd
    · rw [e2]
      by_cases ne : x = k
      · subst ne
        obtain ⟨a, ha⟩ := Option.ne_none_iff_exists'.1 (hb hs hdev)
        refine ⟨a, ha, ?_⟩
        simp only [write, ha, if_pos]
      · obtain ⟨n1, n2⟩ := needed_succ P F k x hk hx ne
        obtain ⟨a, h1, h2⟩ := ho.dev x n1 hxd
        rw [eD] at h2
        refine ⟨a, h1, ?_⟩
        simp only [write]
        rw [if_neg]
        · exact h2
        · intro h
          exact n2 hs (ho.inj _ _ a h1 h.symm)
    · rw [e2]
      exact hlog.append_right _
  cases hc : (P.at k).cls with
  | stmt =>
    have e : execIns P f M k = { M with log := M.log ++ [(k, v k)] } := by
      unfold execIns; rw [hc]; simp only; rw [hargs (Lo.host k (.inr (.inr hc)))]
    rw [e]
    refine ⟨⟨ho.inj, fun x hx hxd => ?_, fun x hx hxd => ?_, ?_⟩, fun _ => hq⟩
    · have ne : x ≠ k := by rintro rfl; exact hx.2.1 hc
      rw [hd]; exact hostv x (needed_succ P F k x hk hx ne).1 hxd
    · have ne : x ≠ k := by rintro rfl; exact hx.2.1 hc
      obtain ⟨a, h1, h2⟩ := ho.dev x (needed_succ P F k x hk hx ne).1 hxd
      rw [eD] at h2
      exact ⟨a, h1, by rw [hd]; exact h2⟩
    · rw [hd]; exact hswap
  | arg =>
    have hs : (P.at k).cls ≠ .stmt := by rw [hc]; simp
    have hdev := Lo.kern k (.inr hc)
    obtain ⟨a, b⟩ := onHost hs hdev (Lo.host k (.inr (.inl hc))) (execIns P f M k) (by unfold execIns; rw [hc]; simp only; rw [if_pos hdev])
    exact ⟨a, fun _ => b⟩
  | imm =>
    have hs : (P.at k).cls ≠ .stmt := by rw [hc]; simp
    have hdev := Lo.kern k (.inl hc)
    obtain ⟨a, b⟩ := onHost hs hdev (Lo.host k (.inl hc)) (execIns P f M k) (by unfold execIns; rw [hc]; simp only; rw [if_pos hdev])
    exact ⟨a, fun _ => b⟩
  | ptr o l x =>
    have hs : (P.at k).cls ≠ .stmt := by rw [hc]; simp
    have side := Lo.side k o l x hc
    by_cases hdev : (P.reg k).dev = -1
    · obtain ⟨a, b⟩ := onHost hs hdev (fun c hcc => (side c hcc).2 hdev) (execIns P f M k) (by unfold execIns; rw [hc]; simp only; rw [if_pos hdev])
      exact ⟨a, fun _ => b⟩
    · have e : execIns P f M k = { M with queue := M.queue ++ [.kern k ((P.at k).reads.map fun c => M.bind (P.reg c)) (M.bind (P.reg k))] } := by
        unfold execIns; rw [hc]; simp only; rw [if_neg hdev]
      rw [e]
      refine ⟨onDevice hs hdev _ fun S => ?_, fun _ c hcc => ?_⟩
      · by_cases hS : S = drain f M
        · left
          have : f k (((P.at k).reads.map fun c => M.bind (P.reg c)).map fun a => a.bind S.dmem) = v k := by
            rw [hv k hk, List.map_map]
            congr 1
            refine List.map_congr_left fun c hcc => ?_
            rw [hS, eD]
            exact devv c (rd c hcc) (fun h => hdev ((side c hcc).1 h))
          simp only [perform]
          rw [this]
        · exact .inr hS
      · rcases List.mem_append.1 hcc with h | h
        · exact hq c h
        · rw [List.mem_singleton.1 h]; intro _ _ _ h; cases h
  | trans d =>
    have hs : (P.at k).cls ≠ .stmt := by rw [hc]; simp
    obtain ⟨c, hr, hside⟩ := Lo.trans k d hc
    have hvk : v k = v c := by rw [hv k hk, hr]; exact hcopy k d hc (v c)
    have nc : Needed P k c := rd c (by rw [hr]; simp)
    have hkd := trans_dev P k d hk hc
    by_cases hcd : (P.reg c).dev = -1
    · have e : execIns P f M k = { M with queue := M.queue ++ [.htod k (M.host (P.reg c)) (M.bind (P.reg k))] } := by
        unfold execIns; rw [hc, hr]; exact if_pos hcd
      rw [e, hostv c nc hcd, ← hvk]
      refine ⟨onDevice hs (by rw [hkd]; exact hside.1 hcd) _ fun S => .inl rfl, fun _ c hcc => ?_⟩
      rcases List.mem_append.1 hcc with h | h
      · exact hq c h
      · rw [List.mem_singleton.1 h]; intro _ _ _ h; cases h
    · have hd1 : d = -1 := by
        by_contra h; exact hcd (hside.2 h)
      have e : execIns P f M k = { M with queue := M.queue ++ [.dtoh k (M.bind (P.reg c)) (P.reg k)] } := by
        unfold execIns; rw [hc, hr]; exact if_neg hcd
      rw [e]
      refine ⟨?_, fun h => absurd (by rw [hd1]) h⟩
      have e2 := drain_snoc f M (.dtoh k (M.bind (P.reg c)) (P.reg k))
      rw [eD] at e2
      simp only [perform] at e2
      rw [devv c nc hcd, ← hvk] at e2
      refine ⟨ho.inj, fun x hx hxd => ?_, fun x hx hxd => ?_, ?_⟩
      · rw [e2]
        by_cases ne : x = k
        · subst ne; simp only [if_pos]
        · obtain ⟨n1, n2⟩ := needed_succ P F k x hk hx ne
          simp only [if_neg (n2 hs)]
          exact hostv x n1 hxd
      · have ne : x ≠ k := by rintro rfl; exact hxd (hkd.trans hd1)
        obtain ⟨a, h1, h2⟩ := ho.dev x (needed_succ P F k x hk hx ne).1 hxd
        rw [eD] at h2
        exact ⟨a, h1, by rw [e2]; exact h2⟩
      · rw [e2]; exact hlog.append_right _

theorem entry_ok {user : Nat → Nat} (F : Fit P) (Lo : Local P user) (v : Nat → Option V) (hv : Values P f v)
    (hcopy : ∀ i d, (P.at i).cls = .trans d → ∀ a, f i [a] = a) (k : Nat) (hk : k < P.length) (L : List (Nat × Option V)) (M M' : Mach V)
    (ho : Ok f P v (Needed P k) L M) (hq : Quiet M) (h : Run P f (withFrees P user k) M M') :
    Ok f P v (Needed P (k + 1)) (L ++ [(k, v k)]) M' ∧ Quiet M' := by
  obtain ⟨pre, post, S⟩ := shape P user (cgTo P user k) k
  obtain ⟨s1, s2, s3⟩ := cgTo_spec P user k
  rw [withFrees, S.eq] at h
  obtain ⟨M₃, h, hfree⟩ := runs_append f P _ _ _ _ h
  obtain ⟨M₀, hpre, h⟩ := runs_append f P _ _ _ _ h
  obtain ⟨M₁, M₂, ht, hst, hpost⟩ := run_cons f P _ _ _ _ h
  obtain ⟨o1, q1, b1, b2⟩ := before_exec f P v (Needed P k) L (P.reg k) pre (fun x hx => by
    rcases S.before x hx with h | ⟨h, hn, hg⟩
    · exact .inl h
    · exact .inr ⟨h, fun x hx => grab_fresh F Lo k hk hg hn x hx.1 hx.2.1⟩) M M₀ hpre ho hq
  obtain ⟨t1, t2, t3⟩ := ticks f P _ _ ht
  have o2 := o1.same f P t1 t2
  have q2 := t3 q1
  have hbound : (P.at k).cls ≠ .stmt → (P.reg k).dev ≠ -1 → M₁.bind (P.reg k) ≠ none := by
    intro hs hd
    rw [t2]
    have hg : Grabs (P.at k) := by
      cases hc : (P.at k).cls with
      | arg => exact absurd (Lo.kern k (.inr hc)) hd
      | imm => exact absurd (Lo.kern k (.inl hc)) hd
      | stmt => exact absurd hc hs
      | trans d => exact .inl ⟨d, hc⟩
      | ptr a b e =>
        have := Lo.ext k a b e hc (Lo.home k a b e hc hd)
        exact .inr ⟨a, b, by rw [hc, this]⟩
    by_cases hn : P.reg k ∈ (cgTo P user k).alloced
    · obtain ⟨x, x1, x2, x3⟩ := s2 _ hn
      rcases reg_cases P F k hk hs with h | ⟨_, o, h1, h2, _⟩
      · exact absurd x3 (h x x1 x2)
      · obtain ⟨a, ha, _⟩ := o1.dev o ⟨(F.before k o h1).1, (F.before k o h1).2, k, le_refl _, hk, h1⟩ (by rw [← h2]; exact hd)
        rw [h2, ha]; simp
    · exact b1 hd (S.gets hg hn)
  cases hst with
  | exec =>
    obtain ⟨o3, q3⟩ := exec_ok F Lo v hv hcopy k hk L M₁ o2 q2 hbound
    obtain ⟨p1, p2, p3⟩ := flushes f P post S.after _ _ hpost
    have o4 := o3.same f P p1 p2
    have q4 : Quiet M₃ := by
      by_cases hc : (P.at k).cls = .trans (-1)
      · refine p3 (.inr (S.sync hc ?_ ?_))
        · obtain ⟨c, hr, hside⟩ := Lo.trans k _ hc
          rw [hr]
          intro h
          exact hside.1 h rfl
        · intro h
          have := s1 (user k) (List.mem_append_left _ h)
          have := Lo.user k _ hc
          omega
      · exact p3 (.inl (q3 hc))
    have hfree' : Run P f ((((frees P).out.filter fun p => p.1 = k).map Prod.snd).map .free) M₃ M' := by
      rw [List.map_map]; exact hfree
    refine after_exec f P v _ _ _ (fun r hr x hx e => ?_) M₃ M' hfree' o4 q4
    obtain ⟨p, hp, rfl⟩ := List.mem_map.1 hr
    obtain ⟨p1, p2⟩ := List.mem_filter.1 hp
    obtain ⟨h1, h2, i, h3, h4, h5⟩ := hx
    have pk : p.1 = k := by simpa using p2
    exact free_unread P p.1 p.2 p1 i (by omega) h4 x h5 e

/-- Whatever is done when, and whatever memory registers get: every entry is computed once, with its value. -/
theorem queued_values {user : Nat → Nat} (F : Fit P) (Lo : Local P user) (v : Nat → Option V) (hv : Values P f v)
    (hcopy : ∀ i d, (P.at i).cls = .trans d → ∀ a, f i [a] = a) (M M' : Mach V) (hqueue : M.queue = []) (hlog : M.log = [])
    (hinj : ∀ r r' a, M.bind r = some a → M.bind r' = some a → r = r') (h : Run P f (whole P user) M M') :
    M'.log.Perm ((List.range P.length).map fun i => (i, v i)) ∧ M'.queue = [] := by
  have key : ∀ k, k ≤ P.length → ∀ M₁, Run P f ((List.range k).flatMap (withFrees P user)) M M₁ →
      Ok f P v (Needed P k) ((List.range k).map fun i => (i, v i)) M₁ ∧ Quiet M₁ := by
    intro k
    induction k with
    | zero =>
      intro _ M₁ h
      obtain ⟨a, b, c⟩ := ticks f P M M₁ h
      refine ⟨Ok.same f P ⟨hinj, fun x hx => absurd hx.1 (by omega), fun x hx => absurd hx.1 (by omega), ?_⟩ a b, c ?_⟩
      · rw [drain_empty f M hqueue, hlog]; rfl
      · intro c hc; rw [hqueue] at hc; cases hc
    | succ k ih =>
      intro hk M₁ h
      rw [List.range_succ, List.flatMap_append] at h
      obtain ⟨M₀, h1, h2⟩ := runs_append f P _ _ _ _ h
      obtain ⟨o, q⟩ := ih (by omega) M₀ h1
      rw [List.flatMap_singleton] at h2
      rw [List.range_succ, List.map_append]
      exact entry_ok F Lo v hv hcopy k (by omega) _ M₀ M₁ o q h2
  rw [whole] at h
  obtain ⟨M₂, h, h3⟩ := runs_append f P _ _ _ _ h
  obtain ⟨M₁, h1, h2⟩ := runs_append f P _ _ _ _ h
  obtain ⟨o, q⟩ := key P.length (le_refl _) M₁ h1
  obtain ⟨o', q'⟩ := after_exec f P v _ _ _ (fun r _ x hx => by
    obtain ⟨_, _, i, a, b, _⟩ := hx; omega) M₁ M₂ h2 o q
  obtain ⟨M₃, M₄, h4, h5, h6⟩ := run_cons f P _ _ _ _ h3
  obtain ⟨a, b, _⟩ := ticks f P _ _ h4
  cases h5 with
  | flush =>
    have hM' : M' = drain f M₃ := by
      generalize hn : drain f M₃ = N at h6
      generalize hl : ([] : List Ins) = l at h6
      cases h6 with
      | done => rfl
      | ins => cases hl
      | tick _ _ _ c q hc =>
        rw [← hn, (drain_bind f M₃).2] at hc
        cases hc
    rw [hM']
    refine ⟨?_, (drain_bind f M₃).2⟩
    rw [a]
    exact o'.log

/-- There are runs, as long as the device has memory left. -/
theorem runs_exist (l : List Ins) (M : Mach V) (hfin : {a | ∃ r, M.bind r = some a}.Finite) : ∃ M', Run P f l M M' := by
  induction l generalizing M with
  | nil => exact ⟨M, .done M⟩
  | cons x l ih =>
    cases x with
    | alloc r =>
      by_cases hr : r.dev = -1
      · obtain ⟨M', h⟩ := ih { M with host := fun r' => if r' = r then none else M.host r' } hfin
        exact ⟨M', .ins _ _ _ _ _ (.allocHost r none M hr) h⟩
      · obtain ⟨a, ha⟩ := hfin.exists_notMem
        obtain ⟨M', h⟩ := ih { M with bind := fun r' => if r' = r then some a else M.bind r' } (by
          refine (hfin.insert a).subset ?_
          rintro b ⟨q, hq⟩
          simp only at hq
          split at hq
          · exact .inl (Option.some.inj hq).symm
          · exact .inr ⟨q, hq⟩)
        exact ⟨M', .ins _ _ _ _ _ (.allocDev r a M hr (fun q _ hq => ha ⟨q, hq⟩)) h⟩
    | exec i =>
      obtain ⟨M', h⟩ := ih (execIns P f M i) (by
        have : (execIns P f M i).bind = M.bind := by
          unfold execIns
          split <;> first | rfl | (simp only; split <;> rfl)
        rw [this]; exact hfin)
      exact ⟨M', .ins _ _ _ _ _ (.exec i M) h⟩
    | flush =>
      obtain ⟨M', h⟩ := ih (drain f M) (by rw [(drain_bind f M).1]; exact hfin)
      exact ⟨M', .ins _ _ _ _ _ (.flush M) h⟩
    | free r =>
      by_cases hr : r.dev = -1
      · obtain ⟨M', h⟩ := ih M hfin
        exact ⟨M', .ins _ _ _ _ _ (.freeHost r M hr) h⟩
      · obtain ⟨M', h⟩ := ih { M with bind := fun r' => if r' = r then none else M.bind r' } (by
          refine hfin.subset ?_
          rintro b ⟨q, hq⟩
          simp only at hq
          split at hq
          · cases hq
          · exact ⟨q, hq⟩)
        exact ⟨M', .ins _ _ _ _ _ (.freeDev r M hr) h⟩

end

/-! ### Graphs -/

/-- A transport is made for a node behind it, and copies to another device than the one of what it reads. -/
theorem trans_user (G : Gr) (t : Tr) (ns : List Nat) (s : St) (h : Good G s) (hr : ∀ n, G.repl n = n) (hn : ns.Nodup)
    (ht : .trans t ∈ (insert G s ns).2) :
    t.write ∈ ns ∧ t.dst ≠ G.dev t.read ∧ (insert G s ns).2.idxOf (.trans t) < (insert G s ns).2.idxOf (.node t.write) := by
  induction ns generalizing s with
  | nil => simp [insert] at ht
  | cons n ns ih =>
    have e : (insert G s (n :: ns)).2 = (children G (G.repl n) s.tr).new.map .trans ++ (.node n :: (insert G (visit G s n).1 ns).2) := by
      have : (insert G s (n :: ns)).2 = (visit G s n).2 ++ (insert G (visit G s n).1 ns).2 := rfl
      rw [this]
      simp [visit]
    have hno : ∀ m, Item.node m ∉ (children G (G.repl n) s.tr).new.map Item.trans := by
      intro m hm
      obtain ⟨t', _, q⟩ := List.mem_map.1 hm
      cases q
    rw [e] at ht ⊢
    by_cases hk : Item.trans t ∈ (children G (G.repl n) s.tr).new.map Item.trans
    · obtain ⟨t', ht', q⟩ := List.mem_map.1 hk
      obtain rfl := Item.trans.inj q
      have ok := children_ok G (G.repl n) s.tr h.keyed
      obtain ⟨_, a, _, _, hw⟩ := ok.fresh t' ht'
      refine ⟨by rw [hw, hr]; simp, (ok.keyed _ _ a).2.2.1, ?_⟩
      rw [List.idxOf_append_of_mem hk, List.idxOf_append_of_notMem (hno _)]
      have := List.idxOf_lt_length_of_mem hk
      omega
    · rcases List.mem_append.1 ht with k | k
      · exact absurd k hk
      · rcases List.mem_cons.1 k with k | k
        · cases k
        · obtain ⟨w, a, b⟩ := ih _ (visit_good G s n h).1 (List.nodup_cons.1 hn).2 k
          refine ⟨List.mem_cons_of_mem _ w, a, ?_⟩
          rw [List.idxOf_append_of_notMem hk, List.idxOf_append_of_notMem (hno _), List.idxOf_cons_ne _ (by simp), List.idxOf_cons_ne]
          · omega
          · intro h
            obtain rfl := Item.node.inj h
            exact (List.nodup_cons.1 hn).1 w

section
variable (kids : Nat → List Nat) (I : Info) (on : Nat → Int) (ns : List Nat)

/-- The position of the node for which a transport was made (`toNode`, compile.go 335). -/
def userOf (L : List Item) (i : Nat) : Nat := match L[i]? with
  | some (.trans t) => L.idxOf (.node t.write)
  | _ => 0

/-- Operations with a kernel return a pointer and call an external process. -/
def External (I : Info) : Prop := ∀ n, I.kind n = .cuda → ∃ o l, I.cls n = .ptr o l true

theorem program_local (hp : Proper kids I) (hs : Sorted (placed kids I on) [] ns) (hon : ∀ n, on n = CPU ∨ on n = 0) (hx : External I) :
    Local (program (placed kids I on) I ns) (userOf (items (placed kids I on) ns)) := by
  have hnd := items_nodup (placed kids I on) ns hs
  have hF := program_fit kids I on ns hp hs
  have hdev : ∀ m, (placed kids I on).dev m = if I.kind m = .cuda then 0 else -1 := by
    intro m
    show analyzeDevice (I.kind m) (on m) = _
    have := hp.noCl m
    rcases hon m with h | h <;> cases hk : I.kind m <;> simp_all [analyzeDevice, CPU]
  have hat : ∀ i, (program (placed kids I on) I ns).at i = { cls := .stmt } ∨
      (∃ n ∈ ns, i = (items (placed kids I on) ns).idxOf (.node n) ∧ (program (placed kids I on) I ns).at i =
        entry (placed kids I on) I (insert (placed kids I on) St.init ns).1 (items (placed kids I on) ns) (.node n)) ∨
      ∃ t, (items (placed kids I on) ns)[i]? = some (.trans t) ∧ (program (placed kids I on) I ns).at i =
        entry (placed kids I on) I (insert (placed kids I on) St.init ns).1 (items (placed kids I on) ns) (.trans t) := by
    intro i
    cases hy : (items (placed kids I on) ns)[i]? with
    | none => exact .inl (program_none I ns _ i hy)
    | some y =>
      cases y with
      | node n =>
        refine .inr (.inl ⟨n, (mem_items_node ns _ n).1 (List.mem_of_getElem? hy), ?_, program_at I ns _ i _ hy⟩)
        obtain ⟨hlt, he⟩ := List.getElem?_eq_some_iff.1 hy
        rw [← he, hnd.idxOf_getElem]
      | trans t => exact .inr (.inr ⟨t, rfl, program_at I ns _ i _ hy⟩)
  have hkind : ∀ n, I.cls n = .imm ∨ I.cls n = .arg ∨ I.cls n = .stmt → I.kind n ≠ .cuda := by
    intro n h hk
    obtain ⟨o, l, e⟩ := hx n hk
    rw [e] at h
    simp at h
  refine ⟨fun i h => ?_, fun i o l e h hc => ?_, fun i o l e h hd => ?_, fun i o l e h c hcr => ?_, fun i h c hcr => ?_, fun i d h => ?_, fun i d h => ?_⟩
  · rcases hat i with k | ⟨n, hn, hi, k⟩ | ⟨t, ht, k⟩ <;> rw [k] at h
    · simp at h
    · have hc : I.cls n = .imm ∨ I.cls n = .arg := h
      have := (device_local kids I on ns hp hs hon n hn).2 (by rcases hc with h | h <;> rw [h] <;> simp)
      rw [hi, this, if_neg (hkind n (by tauto))]
    · simp [entry] at h
  · rcases hat i with k | ⟨n, hn, hi, k⟩ | ⟨t, ht, k⟩ <;> rw [k] at h hc
    · simp at h
    · have hc' : I.kind n = .cuda := by simpa [entry] using hc
      obtain ⟨o', l', e'⟩ := hx n hc'
      have h' : I.cls n = .ptr o l e := h
      rw [e'] at h'
      exact (Cls.ptr.inj h').2.2.symm
    · simp [entry] at h
  · rcases hat i with k | ⟨n, hn, hi, k⟩ | ⟨t, ht, k⟩ <;> rw [k] at h ⊢
    · simp at h
    · have h' : I.cls n = .ptr o l e := h
      have := (device_local kids I on ns hp hs hon n hn).2 (by rw [h']; simp)
      rw [← hi] at this
      by_contra hk
      have hk' : I.kind n ≠ .cuda := by simpa [entry] using hk
      rw [if_neg hk'] at this
      exact hd this
    · simp [entry] at h
  · rcases hat i with k | ⟨n, hn, hi, k⟩ | ⟨t, ht, k⟩ <;> rw [k] at h
    · simp at h
    · have h' : I.cls n = .ptr o l e := h
      obtain ⟨a, b⟩ := device_local kids I on ns hp hs hon n hn
      rw [← hi] at a b
      rw [a c hcr, b (by rw [h']; simp)]
    · simp [entry] at h
  · rcases hat i with k | ⟨n, hn, hi, k⟩ | ⟨t, ht, k⟩
    · rw [k] at hcr; simp at hcr
    · rw [k] at h
      have h' : I.cls n = .imm ∨ I.cls n = .arg ∨ I.cls n = .stmt := h
      obtain ⟨a, _⟩ := device_local kids I on ns hp hs hon n hn
      rw [← hi] at a
      rw [a c hcr, if_neg (hkind n h')]
    · rw [k] at h; simp [entry] at h
  · rcases hat i with k | ⟨n, hn, hi, k⟩ | ⟨t, ht, k⟩ <;> rw [k] at h ⊢
    · simp at h
    · exact absurd h (hp.noTrans n d)
    · have hd : t.dst = d := Cls.trans.inj h
      refine ⟨_, rfl, ?_⟩
      have hm := List.mem_of_getElem? ht
      obtain ⟨m, hm', hr, _⟩ := trans_read (placed kids I on) t ns St.init (init_good _) hm
      obtain ⟨_, hne, _⟩ := trans_user (placed kids I on) t ns St.init (init_good _) (fun _ => rfl) (sorted_nodup _ [] ns hs).1 hm
      have hrm : t.read ∈ kids m := by simpa [placed] using hr
      have hnode : Item.node t.read ∈ items (placed kids I on) ns := by
        have hf := ready_take _ _ _ _ (insert_ready _ ns hs) i _ ht
        simp only [Finds, List.nil_append] at hf
        exact List.mem_of_mem_take hf
      have hin := (mem_items_node ns _ t.read).1 hnode
      rw [(device_local kids I on ns hp hs hon t.read hin).2 (hp.stmt m t.read hrm)]
      obtain ⟨m, hm', _, hdst⟩ := trans_read (placed kids I on) t ns St.init (init_good _) hm
      rw [hdev] at hne hdst
      rw [← hd]
      by_cases h1 : I.kind t.read = .cuda
      · rw [if_pos h1] at hne ⊢
        by_cases h2 : I.kind (placed kids I on |>.repl m) = .cuda
        · rw [if_pos h2] at hdst; exact absurd hdst hne
        · rw [if_neg h2] at hdst; rw [hdst]; simp
      · rw [if_neg h1] at hne ⊢
        simpa using hne
  · rcases hat i with k | ⟨n, hn, hi, k⟩ | ⟨t, ht, k⟩ <;> rw [k] at h
    · simp at h
    · exact absurd h (hp.noTrans n d)
    · obtain ⟨_, _, hlt⟩ := trans_user (placed kids I on) t ns St.init (init_good _) (fun _ => rfl) (sorted_nodup _ [] ns hs).1 (List.mem_of_getElem? ht)
      rw [userOf, ht]
      obtain ⟨hl, he⟩ := List.getElem?_eq_some_iff.1 ht
      have : i = (items (placed kids I on) ns).idxOf (.trans t) := by rw [← he, hnd.idxOf_getElem]
      rw [this]
      exact hlt

theorem range_filterMap {α β : Type} (l : List α) (g : α → Option β) : (List.range l.length).filterMap (fun i => (l[i]?).bind g) = l.filterMap g := by
  induction l with
  | nil => rfl
  | cons a l ih =>
    rw [List.length_cons, List.range_succ_eq_map, List.filterMap_cons, List.filterMap_map, List.filterMap_cons]
    have : (fun i => ((a :: l)[i]?).bind g) ∘ Nat.succ = fun i => (l[i]?).bind g := by
      funext i; simp
    rw [this, ih]
    rfl

/-- The nodes in what the machine computed, with their values. -/
def results {V : Type} (L : List Item) (log : List (Nat × Option V)) : List (Nat × Option V) :=
  log.filterMap fun p => match L[p.1]? with
    | some (Item.node n) => some (n, p.2)
    | _ => none

/-- Whatever is done when: the machine computes every node once, and the values are those that the graph gives them. -/
theorem queued_graph {V : Type} (hp : Proper kids I) (hs : Sorted (placed kids I on) [] ns) (hon : ∀ n, on n = CPU ∨ on n = 0) (hx : External I)
    (f : Nat → List (Option V) → Option V) (w : Nat → Option V) (hw : ∀ n ∈ ns, w n = f n ((kids n).map w)) (M M' : Mach V)
    (hqueue : M.queue = []) (hlog : M.log = []) (hinj : ∀ r r' a, M.bind r = some a → M.bind r' = some a → r = r')
    (h : Run (program (placed kids I on) I ns) (action (items (placed kids I on) ns) f)
      (whole (program (placed kids I on) I ns) (userOf (items (placed kids I on) ns))) M M') :
    (results (items (placed kids I on) ns) M'.log).Perm (ns.map fun n => (n, w n)) ∧ M'.queue = [] := by
  have hcopy : ∀ i d, ((program (placed kids I on) I ns).at i).cls = .trans d → ∀ a : Option V, action (items (placed kids I on) ns) f i [a] = a := by
    intro i d h a
    cases hy : (items (placed kids I on) ns)[i]? with
    | none => rw [program_none I ns _ i hy] at h; simp at h
    | some y =>
      cases y with
      | node n => rw [program_at I ns _ i _ hy] at h; exact absurd h (hp.noTrans n d)
      | trans t => rw [action, hy]; rfl
  obtain ⟨a, b⟩ := queued_values (program_fit kids I on ns hp hs) (program_local kids I on ns hp hs hon hx) _
    (program_values kids I on ns hs f w hw) hcopy M M' hqueue hlog hinj h
  refine ⟨?_, b⟩
  unfold results
  refine (a.filterMap _).trans (List.Perm.of_eq ?_)
  have hl : (program (placed kids I on) I ns).length = (items (placed kids I on) ns).length := by simp [program]
  rw [hl, List.filterMap_map]
  have := range_filterMap (items (placed kids I on) ns) (fun x : Item => match x with
    | .node n => some (n, w n)
    | .trans _ => none)
  refine Eq.trans ?_ (this.trans ?_)
  · congr 1
    funext i
    simp only [Function.comp, valAt]
    cases hy : (items (placed kids I on) ns)[i]? with
    | none => rfl
    | some y => cases y <;> rfl
  · conv_rhs => rw [← insert_nodes (placed kids I on) St.init ns, nodesOf, List.map_filterMap]
    show List.filterMap _ (items (placed kids I on) ns) = List.filterMap _ (items (placed kids I on) ns)
    congr 1
    funext x
    cases x <;> rfl

end

/-! ### Examples -/

/-- The graph of `exInfo` with operations on the device that call an external process. -/
def exExt : Info := { exInfo with
  cls := fun n => match n with
    | 2 => .ptr none 0 true
    | 4 => .ptr (some 1) 0 true
    | n => exInfo.cls n }

def exItems : List Item := items (placed exKids exExt fun _ => CPU) [0, 1, 2, 3, 4, 5]

def exQ : DProg := program (placed exKids exExt fun _ => CPU) exExt [0, 1, 2, 3, 4, 5]

/-- Every copy to the host is followed by a flush, before what was copied is read; the operation at 7 overwrites memory that it does not get
anew. -/
example : whole exQ (userOf exItems) =
    [.exec 0, .exec 1, .alloc ⟨0, 0⟩, .exec 2, .alloc ⟨1, 0⟩, .exec 3, .alloc ⟨2, 0⟩, .flush, .exec 4, .alloc ⟨2, -1⟩, .exec 5, .flush, .exec 6,
      .exec 7, .alloc ⟨4, -1⟩, .exec 8, .flush, .free ⟨2, 0⟩, .flush, .exec 9, .free ⟨3, -1⟩, .free ⟨0, 0⟩, .flush] := by decide +kernel

theorem exExt_ok : Proper exKids exExt ∧ External exExt ∧ Sorted (placed exKids exExt fun _ => CPU) [] [0, 1, 2, 3, 4, 5] := by
  have hc : ∀ n : Nat, n = 0 ∨ n = 1 ∨ n = 2 ∨ n = 3 ∨ n = 4 ∨ n = 5 ∨ ∃ m, n = m + 6 := by
    intro n
    have : n < 6 ∨ ∃ m, n = m + 6 := by
      by_cases h : n < 6
      · exact .inl h
      · exact .inr ⟨n - 6, by omega⟩
    rcases this with h | h
    · omega
    · tauto
  refine ⟨⟨?_, ?_, ?_, ?_, ?_, ?_, ?_⟩, ?_, ?_⟩
  case refine_9 => simp [Sorted, placed, exKids]
  all_goals
    intro n
    rcases hc n with rfl | rfl | rfl | rfl | rfl | rfl | ⟨m, rfl⟩ <;> simp [exKids, exExt, exInfo]
  all_goals omega

/-- The values of the graph: 5 and 7, their sum, and sums of these. -/
def exF (n : Nat) (l : List (Option Nat)) : Option Nat := match n with
  | 0 => some 5
  | 1 => some 7
  | _ => l.foldl (fun a x => do pure ((← a) + (← x))) (some 0)

def exW (n : Nat) : Option Nat := [some 5, some 7, some 12, some 17, some 17, some 17].getD n none

/-- A machine without memory in use has runs, and all of them give these values. -/
example : (∃ M' : Mach Nat, Run exQ (action exItems exF) (whole exQ (userOf exItems)) ⟨fun _ => none, fun _ => none, fun _ => none, [], []⟩ M') ∧
    ∀ M' : Mach Nat, Run exQ (action exItems exF) (whole exQ (userOf exItems)) ⟨fun _ => none, fun _ => none, fun _ => none, [], []⟩ M' →
      (results exItems M'.log).Perm [(0, some 5), (1, some 7), (2, some 12), (3, some 17), (4, some 17), (5, some 17)] := by
  refine ⟨runs_exist _ _ (by simp), fun M' h => ?_⟩
  obtain ⟨a, b, c⟩ := exExt_ok
  exact (queued_graph exKids exExt (fun _ => CPU) [0, 1, 2, 3, 4, 5] a c (fun _ => .inl rfl) b exF exW (by decide +kernel) _ M' rfl rfl
    (by simp) h).1

end Verif.Device
