import Verif.Tape.Intervals
import Mathlib.Data.List.Dedup
import Mathlib.Data.List.GetD
/-!
Registers on the host and on devices (CUDA build): `buildIntervals` with transports (analysis.go 222-303), `regalloc` (regalloc.go
132-337), the instructions that free registers (`insertFree` and `insertLastFrees`, compile.go 503-588) and the machine on these registers.

A program is a list; the entries name what they read by positions. This is the list that `insertDeviceInstr` returns. As in `Verif.Tape`
no node is replaced by another (equal nodes are shared when they are added to the graph). Left out: OpenCL (`CLDoer` has no implementation
in this repository), how the memory of a register is obtained (`preAllocated`, `useUnsafe`); alloc and flush instructions are in `Verif.Device.Flush`.
-/
set_option autoImplicit false
namespace Verif.Device
open Verif.Tape (upd Interval setInts)

/-- A register (vm_tape.go 526-529). The device of the host is -1 in the CUDA build (device_cuda.go 14, the constant of package `cu`). -/
structure Reg where
  id : Nat
  dev : Int
deriving DecidableEq

/-- The value of a variable of type `register` that was not assigned: in the CUDA build it names a register of device 0. -/
def Reg.zero : Reg := ⟨0, 0⟩

/-- The cases of `alloc` (regalloc.go 324-333) and of `allocStatement` (296-303). `ptr` is an operation that returns a pointer, with
`OverwritesInput`, the number of let statements among the users, and `CallsExtern`. -/
inductive Cls where
  | arg
  | stmt
  | trans (dst : Int)
  | ptr (ow : Option Nat) (lets : Nat) (ext : Bool)
  | imm
deriving DecidableEq

/-- An entry of the program: `cuda` says that the operation is a `CUDADoer`, `live` that it is an input or a constant, `deriv` that it is the
derivative of an input, `copy` is the position of the transport kept for it in `devTransRepl`, `nid` the id of the node. -/
structure DN where
  cls : Cls
  cuda : Bool := false
  live : Bool := false
  deriv : Bool := false
  copy : Option Nat := none
  nid : Nat := 0
  reads : List Nat := []
deriving DecidableEq

abbrev DProg := List DN

def DProg.at (P : DProg) (i : Nat) : DN := P.getD i { cls := .stmt }

/-! ### Intervals -/

/-- One turn of the loop of `buildIntervals` (analysis.go 239-289). -/
def buildTurn (P : DProg) (iv : Nat → Interval) (i : Nat) : Nat → Interval :=
  let nd := P.at i
  if nd.live then
    let iv := upd iv i ((iv i).addRange i P.length)
    match nd.copy with
    | some t => upd iv t ((iv t).addRange i P.length)
    | none => iv
  else
    let iv := upd iv i ((iv i).addRange i i)
    let iv := nd.reads.foldl (fun iv c => upd iv c ((iv c).addUse i)) iv
    if nd.deriv then upd iv i ((iv i).addUse P.length) else iv

/-- `buildIntervals` (analysis.go 222-303). -/
def intervals (P : DProg) : Nat → Interval :=
  let iv := (List.range P.length).reverse.foldl (buildTurn P) (fun _ => {})
  fun i => (iv i).fix

/-- `lastUse` (regalloc.go 99-108). -/
def lastUse (i : Interval) : Int := if i.uses = [] then -1 else i.uses.getLastD 0

/-! ### Registers -/

/-- `regalloc` (regalloc.go 132-137) with the results of the intervals. -/
structure RSt where
  cpu : Nat
  gpu : Nat
  reg : Nat → Reg

def RSt.init : RSt := ⟨0, 0, fun _ => Reg.zero⟩

/-- `newReg` (regalloc.go 145-157) for the entry at position `i`. -/
def RSt.fresh (s : RSt) (i : Nat) (dev : Int) : RSt :=
  if dev = -1 then ⟨s.cpu + 1, s.gpu, upd s.reg i ⟨s.cpu, dev⟩⟩ else ⟨s.cpu, s.gpu + 1, upd s.reg i ⟨s.gpu, dev⟩⟩

/-- The device of an operation (regalloc.go 202-209, 284-288). -/
def home (cuda : Bool) : Int := if cuda then 0 else -1

/-- `allocMutableOp` (regalloc.go 163-262). `reads[overwrites]` outside of `reads` would be a panic, excluded by `Fit`. -/
def RSt.mutable (P : DProg) (s : RSt) (i : Nat) (ow : Option Nat) (lets : Nat) (ext : Bool) : RSt :=
  let nd := P.at i
  match ow with
  | none => s.fresh i (home nd.cuda)
  | some j =>
    let o := nd.reads.getD j 0
    if lets = 1 ∨ (intervals P o).liveAt i = false then
      if nd.cuda = true ∧ (s.reg o).dev ≠ -1 then { s with reg := upd s.reg i (s.reg o) }
      else if ext = false ∧ (s.reg o).dev = -1 then { s with reg := upd s.reg i (s.reg o) }
      else s.fresh i (home nd.cuda)
    else s.fresh i (home nd.cuda)

/-- One turn of the loop of `alloc` (regalloc.go 310-336). -/
def allocTurn (P : DProg) (s : RSt) (i : Nat) : RSt :=
  match (P.at i).cls with
  | .arg => s.fresh i (-1)
  | .stmt => { s with reg := upd s.reg i Reg.zero }
  | .trans dst => s.fresh i dst
  | .ptr ow lets ext => s.mutable P i ow lets ext
  | .imm => s.fresh i (home (P.at i).cuda)

/-- The registers after the first `k` entries. -/
def allocTo (P : DProg) (k : Nat) : RSt := (List.range k).foldl (allocTurn P) RSt.init

/-- `alloc` (regalloc.go 305-337). -/
def allocated (P : DProg) : RSt := allocTo P P.length

def DProg.reg (P : DProg) (i : Nat) : Reg := (allocated P).reg i

/-! ### Freeing -/

/-- Whether the entry is in `locMap`: arguments and operations (compile.go 237, 486), but neither transports nor statements. -/
def located (c : Cls) : Bool := match c with
  | .stmt | .trans _ => false
  | _ => true

/-- The entry whose last use decides about a register: among the nodes of `locMap` with that register the one of the largest id (compile.go
524-534; the order of the map does not matter, ids are different). -/
def owner (P : DProg) (r : Reg) : Option Nat :=
  (List.range P.length).foldl (fun best n =>
    if located (P.at n).cls = true ∧ P.reg n = r then
      match best with
      | none => some n
      | some b => if (P.at b).nid < (P.at n).nid then some n else some b
    else best) none

/-- The condition of compile.go 547. -/
def freeable (P : DProg) (r : Reg) (i : Nat) : Bool :=
  match owner P r with
  | none => false
  | some o => decide (0 ≤ lastUse (intervals P o) ∧ lastUse (intervals P o) ≤ i ∧ r.dev ≠ -1)

/-- What is freed behind which entry, and `freed` (compile.go 112). -/
structure FSt where
  out : List (Nat × Reg)
  freed : List Reg

/-- The loop over the registers read (compile.go 522-555). -/
def freeRead (P : DProg) (i : Nat) (s : FSt) (r : Reg) : FSt :=
  if freeable P r i = true ∧ r ∉ s.freed then ⟨s.out ++ [(i, r)], r :: s.freed⟩ else s

/-- `insertFree` (compile.go 503-575) without `deferFree`. -/
def insertFree (P : DProg) (s : FSt) (i : Nat) : FSt := ((P.at i).reads.map P.reg).foldl (freeRead P i) s

/-- The second loop of `gen` (compile.go 612-617): from the last entry to the first. -/
def frees (P : DProg) : FSt := (List.range P.length).reverse.foldl (insertFree P) ⟨[], []⟩

/-- `deferFree` (compile.go 557-563): the registers of the entries without a use, or whose last use is the end. The register of a
transport or a statement is not found in `locMap`. -/
def deferred (P : DProg) : List Reg :=
  ((List.range P.length).filter fun i => decide (lastUse (intervals P i) = -1 ∨ lastUse (intervals P i) ≥ P.length)).map fun i =>
    if located (P.at i).cls then P.reg i else Reg.zero

/-- `insertLastFrees` (compile.go 577-588): in any order, each once. -/
def lastFrees (P : DProg) : List Reg := (deferred P).dedup.filter fun r => decide (r ∉ (frees P).freed)

/-! ### The machine -/

/-- What one entry does to the registers: `f` are the operations, for a transport the copy. Statements write no register. -/
def execAt {V : Type} (P : DProg) (f : Nat → List (Option V) → Option V) (mem : Reg → Option V) (i : Nat) : Reg → Option V :=
  let mem := if (P.at i).cls = .stmt then mem else
    fun r => if r = P.reg i then f i ((P.at i).reads.map fun c => mem (P.reg c)) else mem r
  fun r => if (i, r) ∈ (frees P).out then none else mem r

/-- The registers after the first `k` entries. -/
def memTo {V : Type} (P : DProg) (f : Nat → List (Option V) → Option V) (mem : Reg → Option V) (k : Nat) : Reg → Option V :=
  (List.range k).foldl (execAt P f) mem

/-- The value that the entry at `i` computes in a run. -/
def computed {V : Type} (P : DProg) (f : Nat → List (Option V) → Option V) (mem : Reg → Option V) (i : Nat) : Option V :=
  f i ((P.at i).reads.map fun c => memTo P f mem i (P.reg c))

/-! ### What is required of the program -/

/-- The reads come before, are not statements; the overwritten operand exists; inputs and constants read nothing; a transport reads one
entry; let statements are excluded; nodes are younger than the nodes they read. -/
structure Fit (P : DProg) : Prop where
  before : ∀ i, ∀ c ∈ (P.at i).reads, c < i ∧ (P.at c).cls ≠ .stmt
  ow : ∀ i j l e, (P.at i).cls = .ptr (some j) l e → j < (P.at i).reads.length ∧ l ≠ 1
  live : ∀ i, (P.at i).live = true → (P.at i).reads = []
  younger : ∀ i, located (P.at i).cls = true → ∀ c ∈ (P.at i).reads, located (P.at c).cls = true → (P.at c).nid < (P.at i).nid

/-! ### Intervals are long enough -/

structure IvOk (i : Interval) : Prop where
  sign : i.start = -1 ∨ 0 ≤ i.start
  ranges : ∀ r ∈ i.ranges, 0 ≤ i.start ∧ i.start ≤ r.1

theorem addRange_ok (i : Interval) (a b : Int) (ha : 0 ≤ a) (h : IvOk i) :
    IvOk (i.addRange a b) ∧ (i.addRange a b).uses = i.uses ∧ (0 ≤ (i.addRange a b).start ∧ (i.addRange a b).start ≤ a) ∧
      (0 ≤ i.start → (i.addRange a b).start ≤ i.start) := by
  unfold Interval.addRange
  by_cases hm : (a, b) ∈ i.ranges
  · rw [if_pos hm]
    exact ⟨h, rfl, h.ranges _ hm, fun _ => le_refl _⟩
  · rw [if_neg hm]
    have hstart : ∀ j : Interval, j.start = i.start → 0 ≤ (j.setFrom a).start ∧ (j.setFrom a).start ≤ a ∧
        (0 ≤ i.start → (j.setFrom a).start ≤ i.start) ∧ (j.setFrom a).ranges = j.ranges ∧ (j.setFrom a).uses = j.uses := by
      intro j hj
      unfold Interval.setFrom
      by_cases hc : j.start = -1 ∨ (a < j.start ∧ a ≥ 0)
      · rw [if_pos hc]
        refine ⟨ha, le_refl _, fun k => ?_, rfl, rfl⟩
        show a ≤ i.start
        omega
      · rw [if_neg hc]
        have := h.sign
        refine ⟨by omega, by omega, fun _ => by omega, rfl, rfl⟩
    have key : ∀ j : Interval, j.start = i.start → j.ranges = i.ranges ++ [(a, b)] → j.uses = i.uses →
        IvOk (j.setFrom a) ∧ (j.setFrom a).uses = i.uses ∧ (0 ≤ (j.setFrom a).start ∧ (j.setFrom a).start ≤ a) ∧
          (0 ≤ i.start → (j.setFrom a).start ≤ i.start) := by
      intro j h1 h2 h3
      obtain ⟨a1, a2, a3, a4, a5⟩ := hstart j h1
      refine ⟨⟨.inr a1, fun r hr => ⟨a1, ?_⟩⟩, a5.trans h3, ⟨a1, a2⟩, a3⟩
      rw [a4, h2] at hr
      rcases List.mem_append.1 hr with hr | hr
      · obtain ⟨b1, b2⟩ := h.ranges r hr
        exact le_trans (a3 b1) b2
      · rw [List.mem_singleton.1 hr]; exact a2
    simp only
    split
    · exact key _ rfl rfl rfl
    · exact key _ rfl rfl rfl

/-- What holds of the intervals when the entries from `k` on were treated. -/
structure Built (P : DProg) (k : Nat) (iv : Nat → Interval) : Prop where
  ok : ∀ a, IvOk (iv a)
  start : ∀ a, k ≤ a → a < P.length → 0 ≤ (iv a).start ∧ (iv a).start ≤ a
  uses : ∀ a i, k ≤ i → i < P.length → (P.at i).live = false → a ∈ (P.at i).reads → (i : Int) ∈ (iv a).uses
  only : ∀ a u, u ∈ (iv a).uses → (∃ i, k ≤ i ∧ i < P.length ∧ a ∈ (P.at i).reads ∧ u = (i : Int)) ∨
    ((P.at a).deriv = true ∧ u = (P.length : Int))

theorem buildTurn_ok (P : DProg) (k : Nat) (hk : k < P.length) (iv : Nat → Interval) (h : Built P (k + 1) iv) : Built P k (buildTurn P iv k) := by
  have hk0 : (0 : Int) ≤ k := by omega
  unfold buildTurn
  by_cases hl : (P.at k).live = true
  · simp only [if_pos hl]
    obtain ⟨r1, r2, r3, r4⟩ := addRange_ok (iv k) k P.length hk0 (h.ok k)
    have hbase : Built P k (upd iv k ((iv k).addRange k P.length)) := by
      refine ⟨fun a => ?_, fun a ha ha' => ?_, fun a i hi hi' hli ha => ?_, fun a u hu => ?_⟩
      · by_cases e : a = k
        · rw [e, Tape.upd_same]; exact r1
        · rw [Tape.upd_ne _ _ _ _ e]; exact h.ok a
      · by_cases e : a = k
        · rw [e, Tape.upd_same]; exact r3
        · rw [Tape.upd_ne _ _ _ _ e]; exact h.start a (by omega) ha'
      · have hne : i ≠ k := by rintro rfl; rw [hl] at hli; cases hli
        have := h.uses a i (by omega) hi' hli ha
        by_cases e : a = k
        · rw [e, Tape.upd_same, r2]; rw [e] at this; exact this
        · rw [Tape.upd_ne _ _ _ _ e]; exact this
      · have hu' : u ∈ (iv a).uses := by
          by_cases e : a = k
          · rw [e, Tape.upd_same, r2] at hu; rw [e]; exact hu
          · rw [Tape.upd_ne _ _ _ _ e] at hu; exact hu
        exact (h.only a u hu').imp_left fun ⟨i, h1, h2⟩ => ⟨i, by omega, h2⟩
    cases hc : (P.at k).copy with
    | none => exact hbase
    | some t =>
      simp only
      generalize upd iv k ((iv k).addRange k P.length) = iv' at hbase ⊢
      obtain ⟨r1, r2, r3, r4⟩ := addRange_ok (iv' t) k P.length hk0 (hbase.ok t)
      refine ⟨fun a => ?_, fun a ha ha' => ?_, fun a i hi hi' hli ha => ?_, fun a u hu => ?_⟩
      · by_cases e : a = t
        · rw [e, Tape.upd_same]; exact r1
        · rw [Tape.upd_ne _ _ _ _ e]; exact hbase.ok a
      · by_cases e : a = t
        · rw [e, Tape.upd_same]
          exact ⟨r3.1, le_trans r3.2 (by omega)⟩
        · rw [Tape.upd_ne _ _ _ _ e]; exact hbase.start a ha ha'
      · have := hbase.uses a i hi hi' hli ha
        by_cases e : a = t
        · rw [e, Tape.upd_same, r2]; rw [e] at this; exact this
        · rw [Tape.upd_ne _ _ _ _ e]; exact this
      · have hu' : u ∈ (iv' a).uses := by
          by_cases e : a = t
          · rw [e, Tape.upd_same, r2] at hu; rw [e]; exact hu
          · rw [Tape.upd_ne _ _ _ _ e] at hu; exact hu
        exact hbase.only a u hu'
  · simp only [if_neg hl]
    obtain ⟨r1, r2, r3, r4⟩ := addRange_ok (iv k) k k hk0 (h.ok k)
    have hb : ∀ a, IvOk (upd iv k ((iv k).addRange k k) a) ∧ (upd iv k ((iv k).addRange k k) a).uses = (iv a).uses ∧
        (k ≤ a → a < P.length → 0 ≤ (upd iv k ((iv k).addRange k k) a).start ∧ (upd iv k ((iv k).addRange k k) a).start ≤ a) := by
      intro a
      by_cases e : a = k
      · rw [e, Tape.upd_same]; exact ⟨r1, r2, fun _ _ => r3⟩
      · rw [Tape.upd_ne _ _ _ _ e]; exact ⟨h.ok a, rfl, fun h1 h2 => h.start a (by omega) h2⟩
    generalize upd iv k ((iv k).addRange k k) = iv₁ at hb
    have hf := Tape.addUse_foldl k (P.at k).reads iv₁
    generalize (P.at k).reads.foldl (fun iv c => upd iv c ((iv c).addUse k)) iv₁ = iv₂ at hf
    have hbase : Built P k iv₂ := by
      refine ⟨fun a => ?_, fun a ha ha' => ?_, fun a i hi hi' hli ha => ?_, fun a u hu => ?_⟩
      · obtain ⟨⟨e1, e2, _, _⟩, _⟩ := hf a
        exact ⟨by rw [e1]; exact (hb a).1.sign, by rw [e1, e2]; exact (hb a).1.ranges⟩
      · rw [(hf a).1.1]; exact (hb a).2.2 ha ha'
      · rw [(hf a).2, (hb a).2.1]
        by_cases e : i = k
        · exact .inr ⟨e ▸ ha, by rw [e]⟩
        · exact .inl (h.uses a i (by omega) hi' hli ha)
      · rw [(hf a).2, (hb a).2.1] at hu
        rcases hu with hu | ⟨hu, rfl⟩
        · exact (h.only a u hu).imp_left fun ⟨i, h1, h2⟩ => ⟨i, by omega, h2⟩
        · exact .inl ⟨k, le_refl _, hk, hu, rfl⟩
    by_cases hd : (P.at k).deriv = true
    · rw [if_pos hd]
      refine ⟨fun a => ?_, fun a ha ha' => ?_, fun a i hi hi' hli ha => ?_, fun a u hu => ?_⟩
      · by_cases e : a = k
        · rw [e, Tape.upd_same]; exact ⟨(hbase.ok k).sign, (hbase.ok k).ranges⟩
        · rw [Tape.upd_ne _ _ _ _ e]; exact hbase.ok a
      · by_cases e : a = k
        · rw [e, Tape.upd_same]; exact hbase.start k (le_refl _) hk
        · rw [Tape.upd_ne _ _ _ _ e]; exact hbase.start a ha ha'
      · have := hbase.uses a i hi hi' hli ha
        by_cases e : a = k
        · rw [e, Tape.upd_same]; rw [e] at this
          exact List.mem_append_left _ this
        · rw [Tape.upd_ne _ _ _ _ e]; exact this
      · by_cases e : a = k
        · rw [e, Tape.upd_same] at hu
          rcases List.mem_append.1 hu with hu | hu
          · rw [e]; exact hbase.only k u hu
          · exact .inr ⟨e ▸ hd, List.mem_singleton.1 hu⟩
        · rw [Tape.upd_ne _ _ _ _ e] at hu; exact hbase.only a u hu
    · rw [if_neg hd]; exact hbase

theorem built (P : DProg) : Built P 0 ((List.range P.length).reverse.foldl (buildTurn P) (fun _ => {})) := by
  have key : ∀ k, k ≤ P.length → Built P (P.length - k)
      (((List.range P.length).reverse.take k).foldl (buildTurn P) (fun _ => {})) := by
    intro k
    induction k with
    | zero =>
      intro _
      refine ⟨fun _ => ⟨.inl rfl, by simp⟩, fun a h1 h2 => by omega, fun a i h1 h2 => by omega, fun a u hu => by simp at hu⟩
    | succ k ih =>
      intro hk
      have hlt : k < (List.range P.length).reverse.length := by simp; omega
      rw [List.take_succ_eq_append_getElem hlt, List.foldl_append]
      have e : (List.range P.length).reverse[k] = P.length - 1 - k := by simp
      rw [e]
      have := ih (by omega)
      have e2 : P.length - k = (P.length - 1 - k) + 1 := by omega
      rw [e2] at this
      have e3 : P.length - (k + 1) = P.length - 1 - k := by omega
      rw [e3]
      exact buildTurn_ok P _ (by omega) _ this
  have := key P.length (le_refl _)
  rw [List.take_of_length_le (by simp), Nat.sub_self] at this
  exact this

theorem fold_ge (l : List (Int × Int)) (e : Int) : e ≤ l.foldl (fun e r => if r.2 > e then r.2 else e) e := by
  induction l generalizing e with
  | nil => exact le_refl _
  | cons r l ih =>
    simp only [List.foldl_cons]
    refine le_trans ?_ (ih _)
    split <;> omega

/-- If an entry is not live at a later position, then nothing behind that position reads it. -/
theorem dead_unread (P : DProg) (F : Fit P) (a k : Nat) (hak : a ≤ k) (hk : k < P.length) (hd : (intervals P a).liveAt k = false) :
    ∀ i, k < i → i < P.length → a ∉ (P.at i).reads := by
  intro i hi hip ha
  have B := built P
  simp only [intervals] at hd
  generalize (List.range P.length).reverse.foldl (buildTurn P) (fun _ => {}) = iv at B hd
  have hl : (P.at i).live = false := by
    cases h : (P.at i).live with
    | false => rfl
    | true => rw [F.live i h] at ha; simp at ha
  have hu := B.uses a i (Nat.zero_le _) hip hl ha
  obtain ⟨s1, s2⟩ := B.start a (Nat.zero_le _) (by omega)
  have hne : (iv a).uses ≠ [] := List.ne_nil_of_mem hu
  have hs : ((iv a).fix).start = (iv a).start := by unfold Interval.fix; split <;> rfl
  have he : (i : Int) ≤ ((iv a).fix).end_ := by
    unfold Interval.fix
    rw [if_neg hne]
    refine le_trans ?_ (fold_ge _ _)
    have hne' : setInts (iv a).uses ≠ [] := List.ne_nil_of_mem ((Tape.mem_setInts _ _).2 hu)
    exact (Tape.last_of_sorted _ (Tape.sorted_setInts _) hne').2 _ ((Tape.mem_setInts _ _).2 hu)
  simp only [Interval.liveAt, decide_eq_false_iff_not, hs] at hd
  omega

/-- An entry without a last use is not read by anything. -/
theorem lastUse_none (P : DProg) (a : Nat) (hd : (P.at a).deriv = false) (h : ∀ i, i < P.length → a ∉ (P.at i).reads) :
    lastUse (intervals P a) = -1 := by
  have B := built P
  simp only [intervals]
  generalize (List.range P.length).reverse.foldl (buildTurn P) (fun _ => {}) = iv at B
  have : (iv a).uses = [] := by
    refine List.eq_nil_iff_forall_not_mem.2 fun u hu => ?_
    rcases B.only a u hu with ⟨i, _, hi, ha, _⟩ | ⟨k, _⟩
    · exact h i hi ha
    · rw [hd] at k; cases k
  have e : (iv a).fix = iv a := by rw [Interval.fix, if_pos this]
  rw [lastUse, e, if_pos this]

/-! ### Registers are shared only by overwriting -/

theorem allocTo_succ (P : DProg) (k : Nat) : allocTo P (k + 1) = allocTurn P (allocTo P k) k := by
  simp [allocTo, List.range_succ]

theorem fresh_ne (s : RSt) (k i : Nat) (d : Int) (h : i ≠ k) : (s.fresh k d).reg i = s.reg i := by
  unfold RSt.fresh; split <;> exact Tape.upd_ne _ _ _ _ h

theorem mutable_ne (P : DProg) (s : RSt) (k i : Nat) (ow : Option Nat) (l : Nat) (e : Bool) (h : i ≠ k) :
    (s.mutable P k ow l e).reg i = s.reg i := by
  unfold RSt.mutable
  cases ow with
  | none => exact fresh_ne _ _ _ _ h
  | some j =>
    simp only
    split
    · split
      · exact Tape.upd_ne _ _ _ _ h
      · split
        · exact Tape.upd_ne _ _ _ _ h
        · exact fresh_ne _ _ _ _ h
    · exact fresh_ne _ _ _ _ h

theorem turn_ne (P : DProg) (s : RSt) (k i : Nat) (h : i ≠ k) : (allocTurn P s k).reg i = s.reg i := by
  unfold allocTurn
  split
  · exact fresh_ne _ _ _ _ h
  · exact Tape.upd_ne _ _ _ _ h
  · exact fresh_ne _ _ _ _ h
  · exact mutable_ne _ _ _ _ _ _ _ h
  · exact fresh_ne _ _ _ _ h

theorem reg_stable (P : DProg) (i m : Nat) (h : i < m) : (allocTo P m).reg i = (allocTo P (i + 1)).reg i := by
  induction m with
  | zero => omega
  | succ m ih =>
    by_cases e : i = m
    · rw [e]
    · rw [allocTo_succ, turn_ne _ _ _ _ e, ih (by omega)]

theorem reg_eq (P : DProg) (i k : Nat) (hi : i < k) (hk : k ≤ P.length) : P.reg i = (allocTo P k).reg i := by
  rw [DProg.reg, allocated, reg_stable P i _ (by omega), reg_stable P i k hi]

/-- The number of registers of a kind. -/
def RSt.count (s : RSt) (d : Int) : Nat := if d = -1 then s.cpu else s.gpu

theorem fresh_spec (s : RSt) (k : Nat) (d : Int) : (s.fresh k d).reg k = ⟨s.count d, d⟩ ∧ (s.fresh k d).count d = s.count d + 1 ∧
    ∀ d', s.count d' ≤ (s.fresh k d).count d' := by
  unfold RSt.fresh RSt.count
  by_cases h : d = -1
  · simp only [if_pos h, Tape.upd_same, true_and]
    intro d'; split <;> omega
  · simp only [if_neg h, Tape.upd_same, true_and]
    intro d'; split <;> omega

/-- How an entry gets its register. -/
inductive How (P : DProg) (s : RSt) (k : Nat) : Prop where
  | stmt (h : (P.at k).cls = .stmt) (e : allocTurn P s k = { s with reg := upd s.reg k Reg.zero })
  | fresh (d : Int) (h : (P.at k).cls ≠ .stmt) (e : allocTurn P s k = s.fresh k d)
  | over (j l : Nat) (x : Bool) (h : (P.at k).cls = .ptr (some j) l x)
      (hd : l = 1 ∨ (intervals P ((P.at k).reads.getD j 0)).liveAt k = false)
      (e : allocTurn P s k = { s with reg := upd s.reg k (s.reg ((P.at k).reads.getD j 0)) })

theorem how (P : DProg) (s : RSt) (k : Nat) : How P s k := by
  cases hc : (P.at k).cls with
  | arg => exact .fresh (-1) (by rw [hc]; simp) (by rw [allocTurn, hc])
  | stmt => exact .stmt hc (by rw [allocTurn, hc])
  | trans d => exact .fresh d (by rw [hc]; simp) (by rw [allocTurn, hc])
  | imm => exact .fresh (home (P.at k).cuda) (by rw [hc]; simp) (by rw [allocTurn, hc])
  | ptr ow l x =>
    have e : allocTurn P s k = s.mutable P k ow l x := by rw [allocTurn, hc]
    cases ow with
    | none => exact .fresh (home (P.at k).cuda) (by rw [hc]; simp) (by rw [e]; rfl)
    | some j =>
      unfold RSt.mutable at e
      simp only at e
      by_cases h1 : l = 1 ∨ (intervals P ((P.at k).reads.getD j 0)).liveAt k = false
      · rw [if_pos h1] at e
        split at e
        · exact .over j l x hc h1 e
        · split at e
          · exact .over j l x hc h1 e
          · exact .fresh _ (by rw [hc]; simp) e
      · rw [if_neg h1] at e
        exact .fresh _ (by rw [hc]; simp) e

theorem at_ge (P : DProg) (i : Nat) (h : P.length ≤ i) : P.at i = { cls := .stmt } := List.getD_eq_default _ _ h

theorem turn_count (P : DProg) (s : RSt) (k : Nat) (d : Int) : s.count d ≤ (allocTurn P s k).count d := by
  cases how P s k with
  | stmt _ e => rw [e]; exact le_refl _
  | fresh d' _ e => rw [e]; exact (fresh_spec s k d').2.2 d
  | over _ _ _ _ _ e => rw [e]; exact le_refl _

/-- Every register that is given out has a place in the storage of its kind. -/
theorem reg_bound (P : DProg) (F : Fit P) (k : Nat) : ∀ i, i < k → (P.at i).cls ≠ .stmt →
    ((allocTo P k).reg i).id < (allocTo P k).count ((allocTo P k).reg i).dev := by
  induction k with
  | zero => intro i h; omega
  | succ k ih =>
    intro i hi hs
    rw [allocTo_succ]
    by_cases e : i = k
    · subst e
      cases how P (allocTo P i) i with
      | stmt h _ => exact absurd h hs
      | fresh d _ e => rw [e, (fresh_spec _ i d).1]; simp only; rw [(fresh_spec _ i d).2.1]; omega
      | over j l x h _ e =>
        rw [e]
        simp only [Tape.upd_same]
        have hj := (F.ow i j l x h).1
        have hmem : (P.at i).reads.getD j 0 ∈ (P.at i).reads := by
          rw [List.getD_eq_getElem _ _ hj]; exact List.getElem_mem hj
        obtain ⟨h1, h2⟩ := F.before i _ hmem
        exact ih _ h1 h2
    · rw [turn_ne _ _ _ _ e]
      exact lt_of_lt_of_le (ih i (by omega) hs) (turn_count _ _ _ _)

/-- A register is in range: `cpulocs` or `gpulocs` (compile.go 51-52). -/
theorem reg_in_range (P : DProg) (F : Fit P) (i : Nat) (hi : i < P.length) (hs : (P.at i).cls ≠ .stmt) :
    (P.reg i).id < if (P.reg i).dev = -1 then (allocated P).cpu else (allocated P).gpu := reg_bound P F P.length i hi hs

/-- Either a register is new, or it is that of an operand that nothing reads afterwards. -/
theorem reg_cases (P : DProg) (F : Fit P) (k : Nat) (hk : k < P.length) (hs : (P.at k).cls ≠ .stmt) :
    (∀ i, i < k → (P.at i).cls ≠ .stmt → P.reg i ≠ P.reg k) ∨
      (located (P.at k).cls = true ∧ ∃ o ∈ (P.at k).reads, P.reg k = P.reg o ∧ ∀ i, k < i → i < P.length → o ∉ (P.at i).reads) := by
  have ek : P.reg k = (allocTurn P (allocTo P k) k).reg k := by rw [← allocTo_succ]; exact reg_eq P k (k + 1) (by omega) hk
  cases how P (allocTo P k) k with
  | stmt h _ => exact absurd h hs
  | fresh d _ e =>
    left
    intro i hi hsi he
    have hb := reg_bound P F k i hi hsi
    rw [← reg_eq P i k hi (by omega), he, ek, e, (fresh_spec _ k d).1] at hb
    simp at hb
  | over j l x h hd e =>
    right
    obtain ⟨hj, hl⟩ := F.ow k j l x h
    have hmem : (P.at k).reads.getD j 0 ∈ (P.at k).reads := by
      rw [List.getD_eq_getElem _ _ hj]; exact List.getElem_mem hj
    have hlt := (F.before k _ hmem).1
    refine ⟨by rw [h]; rfl, _, hmem, ?_, dead_unread P F _ k (by omega) hk (hd.resolve_left hl)⟩
    rw [ek, e]
    simp only [Tape.upd_same]
    rw [reg_eq P _ k hlt (by omega)]

/-- A value whose register was given to a later entry is not read behind that entry. -/
theorem shared_unread (P : DProg) (F : Fit P) (y : Nat) : y < P.length → (P.at y).cls ≠ .stmt → ∀ x, x < y → (P.at x).cls ≠ .stmt →
    P.reg x = P.reg y → ∀ i, y < i → i < P.length → x ∉ (P.at i).reads := by
  induction y using Nat.strong_induction_on with
  | _ y ih =>
    intro hy hs x hx hxs he i hi hip
    rcases reg_cases P F y hy hs with h | ⟨_, o, ho, hr, hu⟩
    · exact absurd he (h x hx hxs)
    · obtain ⟨ho1, ho2⟩ := F.before y o ho
      rcases Nat.lt_trichotomy x o with k | k | k
      · exact ih o ho1 (by omega) ho2 x k hxs (he.trans hr) i (by omega) hip
      · rw [k]; exact hu i hi hip
      · exact absurd ho (ih x hx (by omega) hxs o k ho2 (hr.symm.trans he.symm) y hx hy)

/-- Of the entries that have a register one after the other, the later one is the younger node. -/
theorem shared_younger (P : DProg) (F : Fit P) (y : Nat) : y < P.length → located (P.at y).cls = true → ∀ x, x < y →
    located (P.at x).cls = true → P.reg x = P.reg y → (P.at x).nid < (P.at y).nid := by
  have hstmt : ∀ n, located (P.at n).cls = true → (P.at n).cls ≠ .stmt := by intro n h k; rw [k] at h; cases h
  induction y using Nat.strong_induction_on with
  | _ y ih =>
    intro hy hly x hx hlx he
    rcases reg_cases P F y hy (hstmt y hly) with h | ⟨_, o, ho, hr, hu⟩
    · exact absurd he (h x hx (hstmt x hlx))
    · obtain ⟨ho1, ho2⟩ := F.before y o ho
      rcases Nat.lt_trichotomy x o with k | k | k
      · have hlo : located (P.at o).cls = true := by
          rcases reg_cases P F o (by omega) ho2 with q | ⟨q, _⟩
          · exact absurd (he.trans hr) (q x k (hstmt x hlx))
          · exact q
        exact lt_trans (ih o ho1 (by omega) hlo x k hlx (he.trans hr)) (F.younger y hly o ho hlo)
      · rw [k] at hlx ⊢; exact F.younger y hly o ho hlx
      · exact absurd ho (shared_unread P F x (by omega) (hstmt x hlx) o k ho2 (hr.symm.trans he.symm) y hx hy)

/-! ### Freeing -/

theorem freeRead_spec (P : DProg) (i : Nat) (rs : List Reg) (s : FSt) :
    (∀ r ∈ s.freed, r ∈ (rs.foldl (freeRead P i) s).freed) ∧
      (∀ p, p ∈ (rs.foldl (freeRead P i) s).out → p ∈ s.out ∨ (p.1 = i ∧ p.2 ∈ rs ∧ p.2 ∉ s.freed ∧ freeable P p.2 i = true)) ∧
      (∀ r ∈ rs, freeable P r i = true → r ∈ (rs.foldl (freeRead P i) s).freed) ∧
      (((s.out.map Prod.snd).Nodup ∧ ∀ p ∈ s.out, p.2 ∈ s.freed) →
        ((rs.foldl (freeRead P i) s).out.map Prod.snd).Nodup ∧ ∀ p ∈ (rs.foldl (freeRead P i) s).out, p.2 ∈ (rs.foldl (freeRead P i) s).freed) := by
  induction rs generalizing s with
  | nil => exact ⟨fun _ h => h, fun _ h => .inl h, by simp, fun h => h⟩
  | cons r rs ih =>
    simp only [List.foldl_cons]
    obtain ⟨a, b, c, d⟩ := ih (freeRead P i s r)
    by_cases hc : freeable P r i = true ∧ r ∉ s.freed
    · have e : freeRead P i s r = ⟨s.out ++ [(i, r)], r :: s.freed⟩ := if_pos hc
      rw [e] at a b c d ⊢
      refine ⟨fun q hq => a q (List.mem_cons_of_mem _ hq), fun p hp => ?_, fun q hq hf => ?_, fun h => d ⟨?_, fun p hp => ?_⟩⟩
      · rcases b p hp with k | ⟨k1, k2, k3, k4⟩
        · rcases List.mem_append.1 k with k | k
          · exact .inl k
          · rw [List.mem_singleton.1 k]; exact .inr ⟨rfl, List.mem_cons_self, hc.2, hc.1⟩
        · exact .inr ⟨k1, List.mem_cons_of_mem _ k2, fun k => k3 (List.mem_cons_of_mem _ k), k4⟩
      · rcases List.mem_cons.1 hq with rfl | hq
        · exact a q List.mem_cons_self
        · exact c q hq hf
      · rw [List.map_append, List.nodup_append]
        refine ⟨h.1, by simp, fun x hx y hy hxy => ?_⟩
        obtain ⟨p, hp, rfl⟩ := List.mem_map.1 hx
        simp only [List.map_cons, List.map_nil, List.mem_singleton] at hy
        rw [hy] at hxy
        exact hc.2 (hxy ▸ h.2 p hp)
      · rcases List.mem_append.1 hp with k | k
        · exact List.mem_cons_of_mem _ (h.2 p k)
        · rw [List.mem_singleton.1 k]; exact List.mem_cons_self
    · have e : freeRead P i s r = s := if_neg hc
      rw [e] at a b c d ⊢
      refine ⟨a, fun p hp => (b p hp).imp_right fun ⟨k1, k2, k3⟩ => ⟨k1, List.mem_cons_of_mem _ k2, k3⟩, fun q hq hf => ?_, d⟩
      rcases List.mem_cons.1 hq with rfl | hq
      · exact a q (by by_contra k; exact hc ⟨hf, k⟩)
      · exact c q hq hf

/-- What holds when the entries from `k` on were treated. -/
structure Freed (P : DProg) (k : Nat) (s : FSt) : Prop where
  all : ∀ i, k ≤ i → i < P.length → ∀ c ∈ (P.at i).reads, freeable P (P.reg c) i = true → P.reg c ∈ s.freed
  last : ∀ i r, (i, r) ∈ s.out → k ≤ i ∧ freeable P r i = true ∧ (∃ c ∈ (P.at i).reads, P.reg c = r) ∧ ∀ j, i < j → j < P.length → ∀ c ∈ (P.at j).reads, P.reg c ≠ r
  once : (s.out.map Prod.snd).Nodup ∧ ∀ p ∈ s.out, p.2 ∈ s.freed
  from_out : ∀ r ∈ s.freed, ∃ i, (i, r) ∈ s.out

theorem freeable_mono (P : DProg) (r : Reg) (i j : Nat) (h : i ≤ j) (hf : freeable P r i = true) : freeable P r j = true := by
  unfold freeable at hf ⊢
  split at hf
  · cases hf
  · simp only [decide_eq_true_eq] at hf ⊢
    omega

theorem freeRead_from (P : DProg) (i : Nat) (rs : List Reg) (s : FSt) (h : ∀ r ∈ s.freed, ∃ i, (i, r) ∈ s.out) :
    (∀ p ∈ s.out, p ∈ (rs.foldl (freeRead P i) s).out) ∧
      ∀ r ∈ (rs.foldl (freeRead P i) s).freed, ∃ j, (j, r) ∈ (rs.foldl (freeRead P i) s).out := by
  induction rs generalizing s with
  | nil => exact ⟨fun _ h => h, h⟩
  | cons r rs ih =>
    simp only [List.foldl_cons]
    by_cases hc : freeable P r i = true ∧ r ∉ s.freed
    · have e : freeRead P i s r = ⟨s.out ++ [(i, r)], r :: s.freed⟩ := if_pos hc
      rw [e]
      obtain ⟨a, b⟩ := ih ⟨s.out ++ [(i, r)], r :: s.freed⟩ (fun q hq => by
        rcases List.mem_cons.1 hq with rfl | hq
        · exact ⟨i, by simp⟩
        · obtain ⟨j, hj⟩ := h q hq
          exact ⟨j, List.mem_append_left _ hj⟩)
      exact ⟨fun p hp => a p (List.mem_append_left _ hp), b⟩
    · have e : freeRead P i s r = s := if_neg hc
      rw [e]
      exact ih s h

theorem insertFree_ok (P : DProg) (k : Nat) (s : FSt) (h : Freed P (k + 1) s) : Freed P k (insertFree P s k) := by
  obtain ⟨a, b, c, d⟩ := freeRead_spec P k ((P.at k).reads.map P.reg) s
  obtain ⟨e1, e2⟩ := freeRead_from P k ((P.at k).reads.map P.reg) s h.from_out
  refine ⟨fun i hi hip r hr hf => ?_, fun i r hp => ?_, d h.once, e2⟩
  · by_cases e : i = k
    · rw [e] at hr hf
      exact c _ (List.mem_map.2 ⟨r, hr, rfl⟩) hf
    · exact a _ (h.all i (by omega) hip r hr hf)
  · rcases b (i, r) hp with q | ⟨q1, q2, q3, q4⟩
    · obtain ⟨h1, h2⟩ := h.last i r q
      exact ⟨by omega, h2⟩
    · simp only at q1 q2 q3 q4
      refine ⟨by omega, by rw [q1]; exact q4, by rw [q1]; exact List.mem_map.1 q2, fun j hj hjp c hc he => q3 ?_⟩
      rw [← he]
      exact h.all j (by omega) hjp c hc (by rw [he]; exact freeable_mono P r k j (by omega) q4)

theorem freed_ok (P : DProg) : Freed P 0 (frees P) := by
  have key : ∀ k, k ≤ P.length → Freed P (P.length - k) (((List.range P.length).reverse.take k).foldl (insertFree P) ⟨[], []⟩) := by
    intro k
    induction k with
    | zero =>
      intro _
      exact ⟨fun i h1 h2 => by omega, fun i r h => by simp at h, ⟨by simp, by simp⟩, by simp⟩
    | succ k ih =>
      intro hk
      have hlt : k < (List.range P.length).reverse.length := by simp; omega
      rw [List.take_succ_eq_append_getElem hlt, List.foldl_append]
      have e : (List.range P.length).reverse[k] = P.length - 1 - k := by simp
      rw [e]
      have := ih (by omega)
      have e2 : P.length - k = (P.length - 1 - k) + 1 := by omega
      rw [e2] at this
      have e3 : P.length - (k + 1) = P.length - 1 - k := by omega
      rw [e3]
      exact insertFree_ok P _ _ this
  have := key P.length (le_refl _)
  rw [List.take_of_length_le (by simp), Nat.sub_self] at this
  exact this

/-- A register is freed at most once in a run. -/
theorem free_once (P : DProg) : ((frees P).out.map Prod.snd ++ lastFrees P).Nodup := by
  have F := freed_ok P
  refine List.nodup_append.2 ⟨F.once.1, (List.nodup_dedup _).filter _, fun x hx y hy hxy => ?_⟩
  obtain ⟨p, hp, rfl⟩ := List.mem_map.1 hx
  have := (List.mem_filter.1 hy).2
  simp only [decide_eq_true_eq] at this
  exact this (hxy ▸ F.once.2 p hp)

/-- Only registers of devices are freed while the program runs. -/
theorem free_device (P : DProg) (i : Nat) (r : Reg) (h : (i, r) ∈ (frees P).out) : r.dev ≠ -1 := by
  have hf := ((freed_ok P).last i r h).2.1
  unfold freeable at hf
  split at hf
  · cases hf
  · simp only [decide_eq_true_eq] at hf
    exact hf.2.2

/-- Nothing behind the entry that frees a register reads it. -/
theorem free_unread (P : DProg) (i : Nat) (r : Reg) (h : (i, r) ∈ (frees P).out) :
    ∀ j, i < j → j < P.length → ∀ c ∈ (P.at j).reads, P.reg c ≠ r := ((freed_ok P).last i r h).2.2.2

/-- Nor does anything write it. -/
theorem free_unwritten (P : DProg) (F : Fit P) (i : Nat) (r : Reg) (h : (i, r) ∈ (frees P).out) :
    ∀ j, i < j → j < P.length → (P.at j).cls ≠ .stmt → P.reg j ≠ r := by
  intro j hj hjp hs he
  obtain ⟨c, hc, hr⟩ := ((freed_ok P).last i r h).2.2.1
  obtain ⟨c1, c2⟩ := F.before i c hc
  rcases reg_cases P F j hjp hs with q | ⟨_, o, ho, hro, _⟩
  · exact q c (by omega) c2 (hr.trans he.symm)
  · exact free_unread P i r h j hj hjp o ho (hro.symm.trans he)

/-! ### Values -/

/-- What the entries should compute, each from the values of what it reads. -/
def Values {V : Type} (P : DProg) (f : Nat → List (Option V) → Option V) (v : Nat → Option V) : Prop :=
  ∀ i, i < P.length → v i = f i ((P.at i).reads.map v)

theorem memTo_succ {V : Type} (P : DProg) (f : Nat → List (Option V) → Option V) (mem : Reg → Option V) (k : Nat) :
    memTo P f mem (k + 1) = execAt P f (memTo P f mem k) k := by
  simp [memTo, List.range_succ]

/-- As long as a value is needed, its register holds it. -/
theorem held {V : Type} (P : DProg) (F : Fit P) (f : Nat → List (Option V) → Option V) (v : Nat → Option V) (hv : Values P f v)
    (mem : Reg → Option V) (k : Nat) : k ≤ P.length → ∀ x, x < k → (P.at x).cls ≠ .stmt → (∃ i, k ≤ i ∧ i < P.length ∧ x ∈ (P.at i).reads) →
      memTo P f mem k (P.reg x) = v x := by
  induction k with
  | zero => intro _ x h; omega
  | succ k ih =>
    intro hk x hx hxs ⟨i, hi, hip, hxi⟩
    have hrd : (P.at k).reads.map (fun c => memTo P f mem k (P.reg c)) = (P.at k).reads.map v :=
      List.map_congr_left fun c hc => ih (by omega) c (F.before k c hc).1 (F.before k c hc).2 ⟨k, le_refl _, hk, hc⟩
    have hnf : (k, P.reg x) ∉ (frees P).out := fun h => free_unread P k _ h i (by omega) hip x hxi rfl
    rw [memTo_succ]
    unfold execAt
    simp only [if_neg hnf, hrd]
    by_cases hks : (P.at k).cls = .stmt
    · rw [if_pos hks]
      have : x ≠ k := by rintro rfl; exact hxs hks
      exact ih (by omega) x (by omega) hxs ⟨i, by omega, hip, hxi⟩
    · rw [if_neg hks]
      by_cases e : x = k
      · rw [e, if_pos rfl, hv k hk]
      · rw [if_neg (fun q => shared_unread P F k hk hks x (by omega) hxs q i (by omega) hip hxi)]
        exact ih (by omega) x (by omega) hxs ⟨i, by omega, hip, hxi⟩

/-- Every entry computes what it should, whatever the registers held before: sharing and freeing of registers, on the host and on
devices, do not change any value. -/
theorem computed_eq {V : Type} (P : DProg) (F : Fit P) (f : Nat → List (Option V) → Option V) (v : Nat → Option V) (hv : Values P f v)
    (mem : Reg → Option V) (i : Nat) (hi : i < P.length) : computed P f mem i = v i := by
  rw [computed, hv i hi]
  congr 1
  exact List.map_congr_left fun c hc => held P F f v hv mem i (by omega) c (F.before i c hc).1 (F.before i c hc).2 ⟨i, le_refl _, hi, hc⟩

/-! ### Outputs -/

theorem owner_spec (P : DProg) (r : Reg) (y : Nat) (hy : y < P.length) (hl : located (P.at y).cls = true) (hr : P.reg y = r)
    (hmax : ∀ x, x < P.length → x ≠ y → located (P.at x).cls = true → P.reg x = r → (P.at x).nid < (P.at y).nid) : owner P r = some y := by
  have key : ∀ k, k ≤ P.length →
      let o := (List.range k).foldl (fun best n =>
        if located (P.at n).cls = true ∧ P.reg n = r then
          match best with
          | none => some n
          | some b => if (P.at b).nid < (P.at n).nid then some n else some b
        else best) (none : Option Nat)
      (y < k → o = some y) ∧ ∀ b, o = some b → b < P.length ∧ located (P.at b).cls = true ∧ P.reg b = r := by
    intro k
    induction k with
    | zero => intro _; exact ⟨fun h => by omega, fun b h => by simp at h⟩
    | succ k ih =>
      intro hk
      obtain ⟨i1, i2⟩ := ih (by omega)
      simp only [List.range_succ, List.foldl_append, List.foldl_cons, List.foldl_nil]
      generalize (List.range k).foldl _ (none : Option Nat) = o at i1 i2
      by_cases hc : located (P.at k).cls = true ∧ P.reg k = r
      · rw [if_pos hc]
        cases o with
        | none =>
          refine ⟨fun h => ?_, fun b hb => ?_⟩
          · by_cases e : y = k
            · rw [e]
            · exact absurd (i1 (by omega)) (by simp)
          · simp only [Option.some.injEq] at hb
            rw [← hb]; exact ⟨by omega, hc⟩
        | some b =>
          obtain ⟨b1, b2, b3⟩ := i2 b rfl
          simp only
          by_cases e : y = k
          · have hb : b = y ∨ (P.at b).nid < (P.at y).nid := by
              by_cases e' : b = y
              · exact .inl e'
              · exact .inr (hmax b b1 e' b2 b3)
            refine ⟨fun _ => ?_, fun c hcc => ?_⟩
            · rcases hb with hb | hb
              · rw [hb, e]; simp
              · rw [if_pos (e ▸ hb), e]
            · split at hcc
              · simp only [Option.some.injEq] at hcc; rw [← hcc]; exact ⟨by omega, hc⟩
              · simp only [Option.some.injEq] at hcc; rw [← hcc]; exact ⟨b1, b2, b3⟩
          · refine ⟨fun h => ?_, fun c hcc => ?_⟩
            · have : b = y := by have := i1 (by omega); simpa using this
              rw [this, if_neg (by have := hmax k (by omega) (Ne.symm e) hc.1 hc.2; omega)]
            · split at hcc
              · simp only [Option.some.injEq] at hcc; rw [← hcc]; exact ⟨by omega, hc⟩
              · simp only [Option.some.injEq] at hcc; rw [← hcc]; exact ⟨b1, b2, b3⟩
      · rw [if_neg hc]
        refine ⟨fun h => ?_, i2⟩
        by_cases e : y = k
        · exact absurd ⟨e ▸ hl, e ▸ hr⟩ hc
        · exact i1 (by omega)
  exact (key P.length (le_refl _)).1 hy

/-- The register of a node that nothing reads is not given to a later entry. -/
theorem root_own (P : DProg) (F : Fit P) (y : Nat) (hys : (P.at y).cls ≠ .stmt) (hu : ∀ i, i < P.length → y ∉ (P.at i).reads) (z : Nat) :
    y < z → z < P.length → (P.at z).cls ≠ .stmt → P.reg z ≠ P.reg y := by
  induction z using Nat.strong_induction_on with
  | _ z ih =>
    intro hyz hz hzs he
    rcases reg_cases P F z hz hzs with q | ⟨_, o, ho, hro, _⟩
    · exact q y hyz hys he.symm
    · obtain ⟨o1, o2⟩ := F.before z o ho
      rcases Nat.lt_trichotomy y o with k | k | k
      · exact ih o o1 k (by omega) o2 (hro.symm.trans he)
      · rw [k] at hu; exact hu z hz ho
      · exact shared_unread P F y (by omega) hys o k o2 (hro.symm.trans he) z hyz hz ho

/-- The value of a node that nothing reads, a result of the program, stays in its register until all entries were executed. -/
theorem root_kept {V : Type} (P : DProg) (F : Fit P) (f : Nat → List (Option V) → Option V) (v : Nat → Option V) (hv : Values P f v)
    (mem : Reg → Option V) (y : Nat) (hy : y < P.length) (hl : located (P.at y).cls = true) (hd : (P.at y).deriv = false)
    (hu : ∀ i, i < P.length → y ∉ (P.at i).reads) : memTo P f mem P.length (P.reg y) = v y := by
  have hys : (P.at y).cls ≠ .stmt := by intro k; rw [k] at hl; cases hl
  have hstmt : ∀ n, located (P.at n).cls = true → (P.at n).cls ≠ .stmt := by intro n h k; rw [k] at h; cases h
  have hown : owner P (P.reg y) = some y := by
    refine owner_spec P _ y hy hl rfl fun x hx hne hlx hr => ?_
    rcases Nat.lt_or_gt_of_ne hne with k | k
    · exact shared_younger P F y hy hl x k hlx hr
    · exact absurd hr (root_own P F y hys hu x k hx (hstmt x hlx))
  have hnf : ∀ i, (i, P.reg y) ∉ (frees P).out := by
    intro i h
    have hf := ((freed_ok P).last i _ h).2.1
    unfold freeable at hf
    rw [hown] at hf
    simp only [lastUse_none P y hd hu, decide_eq_true_eq] at hf
    omega
  have key : ∀ k, y < k → k ≤ P.length → memTo P f mem k (P.reg y) = v y := by
    intro k
    induction k with
    | zero => intro h; omega
    | succ k ih =>
      intro hyk hk
      rw [memTo_succ]
      unfold execAt
      simp only [if_neg (hnf k)]
      by_cases e : y = k
      · subst e
        rw [if_neg hys, if_pos rfl]
        exact computed_eq P F f v hv mem y hy
      · by_cases hks : (P.at k).cls = .stmt
        · rw [if_pos hks]; exact ih (by omega) (by omega)
        · rw [if_neg hks, if_neg (fun q => root_own P F y hys hu k (by omega) (by omega) hks q.symm)]
          exact ih (by omega) (by omega)
  exact key P.length hy (le_refl _)

end Verif.Device
