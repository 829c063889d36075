/-!
# What the tape machine logs, and which node it blames

`watchedLogf` (vm_tape.go 369-425) decides whether the instruction at the program counter is logged; `alloc` and `execOp` call it
(vm_tape.go 619-621, vm_tape_nocuda.go 25-31, 87-89, 159-161), the other instructions do not (the calls of `loadArg` are commented
out, vm_tape.go 686-687). It looks the node of the instruction up in `program.r`, as `runall` does to name the node of a failed
instruction (vm_tape.go 263, 349); `gen` fills this map (compile.go 621-629).

Simplified: an instruction calls `watchedLogf` several times with the same answer each time (program counter, program and watchlists
do not change in between), which is one decision here; the text logged is left out.
-/
set_option autoImplicit false

namespace Verif.Tape.Watched

/-- A node, by its address. -/
abbrev Ptr := Nat

inductive Kind where
  /-- An `alloc`; `skip`: the register has a value of the type and shape already, and the instruction returns at once
  (vm_tape.go 594-597). -/
  | alloc (skip : Bool)
  | execOp
  /-- `loadArg`, `free`, `flushInstr`, `letInstr`, `readInstr`, `deviceTransport`. -/
  | other
  deriving DecidableEq, Repr

/-- What an instruction answers to `ID`, `reads` and `writes`, the registers by their numbers (vm_tape.go 580-582, 636-638, 662-664,
709-711, 742-744, 752-754, 770-772, 803-807). -/
structure Ins where
  kind : Kind
  id : Int
  reads : List Int := []
  writes : Int := -1
  deriving DecidableEq, Repr

/-- The instructions of each node, in the order of `sorted` (`instrMap`, compile.go 623-624). -/
abbrev Blocks := List (Ptr × List Ins)

/-- `program.instructions`, compile.go 622-625. -/
def code : Blocks → List Ins
  | [] => []
  | b :: bs => b.2 ++ code bs

/-- `r[in.ID()] = node`, compile.go 626-628: a later instruction with the same number overwrites. -/
def putAll (n : Ptr) : List Ins → (Int → Option Ptr) → Int → Option Ptr
  | [], r => r
  | i :: is, r => putAll n is (fun k => if k = i.id then some n else r k)

/-- `program.r`, compile.go 621-629. -/
def rmap : Blocks → (Int → Option Ptr) → Int → Option Ptr
  | [], r => r
  | b :: bs, r => rmap bs (putAll b.1 b.2 r)

/-- What is watched: the flag and the three lists of the machine (vm_tape.go 30-37), the registers by their numbers. -/
structure Watch where
  all : Bool := false
  regs : List Int := []
  nodes : List Ptr := []
  ids : List Int := []

/-- The last loop of `watchedLogf`, vm_tape.go 411-416: the node is dereferenced once there is something to compare with. -/
def idsWatched (idOf : Ptr → Int) (ids : List Int) (n : Option Ptr) : Option Bool :=
  if ids = [] then some false
  else match n with
    | none => none
    | some n => some (ids.any fun w => w == idOf n)

/-- `watchedLogf`, vm_tape.go 369-425; `none` is a panic. -/
def watched (idOf : Ptr → Int) (W : Watch) (c : List Ins) (r : Int → Option Ptr) (pc : Nat) : Option Bool :=
  match c[pc]? with
  | none => none
  | some ins =>
    if W.all then some true
    else if ins.reads.any fun reg => W.regs.any fun w => reg == w then some true
    else if W.regs.any fun w => w == ins.writes then some true
    else if W.nodes.any fun w => some w == r ins.id then some true
    else idsWatched idOf W.ids (r ins.id)

/-- Whether an instruction gets to `watchedLogf`. -/
def Ins.asks (i : Ins) : Bool :=
  match i.kind with
  | .alloc skip => !skip
  | .execOp => true
  | .other => false

/-- The loop of `runall`, vm_tape.go 258-346, as far as logging is concerned: the counters at which something is logged. `fuel` is the
number of instructions left. -/
def logAll (idOf : Ptr → Int) (W : Watch) (c : List Ins) (r : Int → Option Ptr) : Nat → Nat → Option (List Nat)
  | 0, _ => some []
  | fuel + 1, pc =>
    match c[pc]? with
    | none => some []
    | some ins =>
      if ins.asks then
        match watched idOf W c r pc, logAll idOf W c r fuel (pc + 1) with
        | some b, some l => some (if b then pc :: l else l)
        | _, _ => none
      else logAll idOf W c r fuel (pc + 1)

/-- The loop of `Run`, vm_tape.go 188-192: the instructions of a fragment are executed, the program counter stays where it is. The
answer tells for each instruction that asks whether it is logged. -/
def logFrag (idOf : Ptr → Int) (W : Watch) (c : List Ins) (r : Int → Option Ptr) (pc : Nat) : List Ins → Option (List Bool)
  | [] => some []
  | ins :: is =>
    if ins.asks then
      match watched idOf W c r pc, logFrag idOf W c r pc is with
      | some b, some l => some (b :: l)
      | _, _ => none
    else logFrag idOf W c r pc is

/-- The node named when the instruction fails, vm_tape.go 263. -/
def blamed (r : Int → Option Ptr) (i : Ins) : Option Ptr := r i.id

/-! ### The map from instructions to nodes -/

/-- The programs of the compiler: an instruction that has a number has that of its node (`newAlloc`, vm_tape.go 571-578, `newExecOp`,
713-728, `addArg`, compile.go 233-248), and nodes have different numbers. -/
structure OK (idOf : Ptr → Int) (bs : Blocks) : Prop where
  ids : ∀ b ∈ bs, ∀ i ∈ b.2, i.id = -1 ∨ i.id = idOf b.1
  inj : ∀ b ∈ bs, ∀ b' ∈ bs, idOf b.1 = idOf b'.1 → b.1 = b'.1
  nonneg : ∀ b ∈ bs, 0 ≤ idOf b.1

theorem putAll_eq (n : Ptr) (k : Int) : ∀ (is : List Ins) (r : Int → Option Ptr),
    putAll n is r k = if ∃ i ∈ is, i.id = k then some n else r k := by
  intro is
  induction is with
  | nil => intro r; simp [putAll]
  | cons i is ih =>
    intro r
    rw [putAll, ih]
    by_cases h : ∃ j ∈ is, j.id = k
    · obtain ⟨j, hj, e⟩ := h
      rw [if_pos ⟨j, hj, e⟩, if_pos ⟨j, List.mem_cons_of_mem _ hj, e⟩]
    · rw [if_neg h]
      by_cases hk : k = i.id
      · rw [if_pos hk, if_pos ⟨i, List.mem_cons_self, hk.symm⟩]
      · rw [if_neg hk, if_neg]
        rintro ⟨j, hj, e⟩
        rcases List.mem_cons.1 hj with e' | hj
        · exact hk (by rw [← e, e'])
        · exact h ⟨j, hj, e⟩

theorem rmap_none (k : Int) : ∀ (bs : Blocks) (r : Int → Option Ptr), (∀ b ∈ bs, ∀ i ∈ b.2, i.id ≠ k) → rmap bs r k = r k := by
  intro bs
  induction bs with
  | nil => intro r _; rfl
  | cons b bs ih =>
    intro r h
    rw [rmap, ih _ (fun b' hb' => h b' (List.mem_cons_of_mem _ hb')), putAll_eq, if_neg]
    rintro ⟨i, hi, e⟩
    exact h b List.mem_cons_self i hi e

theorem rmap_const (k : Int) (n : Ptr) : ∀ (bs : Blocks) (r : Int → Option Ptr), (∀ b ∈ bs, (∃ i ∈ b.2, i.id = k) → b.1 = n) →
    (r k = some n ∨ ∃ b ∈ bs, ∃ i ∈ b.2, i.id = k) → rmap bs r k = some n := by
  intro bs
  induction bs with
  | nil =>
    intro r _ h
    rcases h with h | ⟨b, hb, _⟩
    · exact h
    · simp at hb
  | cons b bs ih =>
    intro r hn h
    rw [rmap]
    refine ih _ (fun b' hb' => hn b' (List.mem_cons_of_mem _ hb')) ?_
    rw [putAll_eq]
    by_cases hb : ∃ i ∈ b.2, i.id = k
    · rw [if_pos hb, hn b List.mem_cons_self hb]; exact Or.inl rfl
    · rw [if_neg hb]
      rcases h with h | ⟨b', hb', hi⟩
      · exact Or.inl h
      · rcases List.mem_cons.1 hb' with e | hb'
        · exact absurd (e ▸ hi) hb
        · exact Or.inr ⟨b', hb', hi⟩

/-- The node found for a numbered instruction is the node it was made for. -/
theorem node_found (idOf : Ptr → Int) (bs : Blocks) (ok : OK idOf bs) (b : Ptr × List Ins) (hb : b ∈ bs) (i : Ins) (hi : i ∈ b.2)
    (h : i.id ≠ -1) : rmap bs (fun _ => none) i.id = some b.1 := by
  refine rmap_const i.id b.1 bs _ ?_ (Or.inr ⟨b, hb, i, hi, rfl⟩)
  rintro b' hb' ⟨j, hj, e⟩
  have h1 := (ok.ids b hb i hi).resolve_left h
  have h2 := (ok.ids b' hb' j hj).resolve_left (by rw [e]; exact h)
  exact ok.inj b' hb' b hb (by rw [← h2, ← h1, e])

/-- Every instruction has a node in the map. -/
theorem some_found (k : Int) : ∀ (bs : Blocks) (r : Int → Option Ptr), (r k ≠ none ∨ ∃ b ∈ bs, ∃ i ∈ b.2, i.id = k) → rmap bs r k ≠ none := by
  intro bs
  induction bs with
  | nil =>
    intro r h
    rcases h with h | ⟨b, hb, _⟩
    · exact h
    · simp at hb
  | cons b bs ih =>
    intro r h
    rw [rmap]
    refine ih _ ?_
    rw [putAll_eq]
    by_cases hb : ∃ i ∈ b.2, i.id = k
    · rw [if_pos hb]; exact Or.inl (by simp)
    · rw [if_neg hb]
      rcases h with h | ⟨b', hb', hi⟩
      · exact Or.inl h
      · rcases List.mem_cons.1 hb' with e | hb'
        · exact absurd (e ▸ hi) hb
        · exact Or.inr ⟨b', hb', hi⟩

theorem rmap_append (bs bs' : Blocks) (r : Int → Option Ptr) : rmap (bs ++ bs') r = rmap bs' (rmap bs r) := by
  induction bs generalizing r with
  | nil => rfl
  | cons b bs ih => simp only [List.cons_append, rmap, ih]

/-- **The node blamed for an instruction that allocates, loads or computes is the right one.** -/
theorem blamed_right (idOf : Ptr → Int) (bs : Blocks) (ok : OK idOf bs) (b : Ptr × List Ins) (hb : b ∈ bs) (i : Ins) (hi : i ∈ b.2)
    (h : i.id ≠ -1) : blamed (rmap bs fun _ => none) i = some b.1 := node_found idOf bs ok b hb i hi h

/-- **The node blamed for an instruction without a number (reading, freeing, transporting) is the node of the last such instruction of
the program**, whichever has failed. -/
theorem blamed_last (bs bs' : Blocks) (b : Ptr × List Ins) (j : Ins) (hj : j ∈ b.2) (hj1 : j.id = -1)
    (hl : ∀ b' ∈ bs', ∀ i ∈ b'.2, i.id ≠ -1) (i : Ins) (hi : i.id = -1) :
    blamed (rmap (bs ++ b :: bs') fun _ => none) i = some b.1 := by
  rw [blamed, hi, rmap_append, rmap, rmap_none _ _ _ hl, putAll_eq, if_pos ⟨j, hj, hj1⟩]

/-- The instructions of the nodes follow each other in the order of the nodes. -/
theorem code_order (bs bs' : Blocks) (b : Ptr × List Ins) (k : Nat) (hk : k < b.2.length) :
    (code (bs ++ b :: bs'))[(code bs).length + k]? = b.2[k]? := by
  have h : ∀ (xs ys : Blocks), code (xs ++ ys) = code xs ++ code ys := by
    intro xs ys
    induction xs with
    | nil => rfl
    | cons x xs ih => simp only [List.cons_append, code, ih, List.append_assoc]
  rw [h, code, List.getElem?_append_right (by omega), Nat.add_sub_cancel_left, List.getElem?_append_left hk]

/-! ### What is logged -/

/-- An instruction of the node `n` touches what is watched. -/
def Touches (idOf : Ptr → Int) (W : Watch) (n : Ptr) (i : Ins) : Prop :=
  W.all = true ∨ (∃ q ∈ i.reads, q ∈ W.regs) ∨ i.writes ∈ W.regs ∨ n ∈ W.nodes ∨ idOf n ∈ W.ids

theorem mem_code (i : Ins) : ∀ bs : Blocks, i ∈ code bs → ∃ b ∈ bs, i ∈ b.2 := by
  intro bs
  induction bs with
  | nil => intro h; simp [code] at h
  | cons b bs ih =>
    intro h
    rw [code] at h
    rcases List.mem_append.1 h with h | h
    · exact ⟨b, List.mem_cons_self, h⟩
    · obtain ⟨b', hb', h⟩ := ih h
      exact ⟨b', List.mem_cons_of_mem _ hb', h⟩

theorem watched_eq (idOf : Ptr → Int) (W : Watch) (c : List Ins) (r : Int → Option Ptr) (pc : Nat) (ins : Ins) (n : Ptr)
    (hc : c[pc]? = some ins) (hr : r ins.id = some n) : ∃ b, watched idOf W c r pc = some b ∧ (b = true ↔ Touches idOf W n ins) := by
  unfold watched
  rw [hc]
  simp only [hr, Touches]
  split
  · rename_i h; exact ⟨true, rfl, by simp [h]⟩
  · rename_i h1
    split
    · rename_i h
      refine ⟨true, rfl, ?_⟩
      simp only [List.any_eq_true, beq_iff_eq] at h
      obtain ⟨q, hq, w, hw, e⟩ := h
      exact ⟨fun _ => Or.inr (Or.inl ⟨q, hq, e ▸ hw⟩), fun _ => rfl⟩
    · rename_i h2
      split
      · rename_i h
        refine ⟨true, rfl, ?_⟩
        simp only [List.any_eq_true, beq_iff_eq] at h
        obtain ⟨w, hw, e⟩ := h
        exact ⟨fun _ => Or.inr (Or.inr (Or.inl (e ▸ hw))), fun _ => rfl⟩
      · rename_i h3
        split
        · rename_i h
          refine ⟨true, rfl, ?_⟩
          simp only [List.any_eq_true, beq_iff_eq, Option.some.injEq] at h
          obtain ⟨w, hw, e⟩ := h
          exact ⟨fun _ => Or.inr (Or.inr (Or.inr (Or.inl (e ▸ hw)))), fun _ => rfl⟩
        · rename_i h4
          simp only [List.any_eq_true, beq_iff_eq, Option.some.injEq] at h2 h3 h4
          have k2 : ¬ ∃ q ∈ ins.reads, q ∈ W.regs := fun ⟨q, hq, hw⟩ => h2 ⟨q, hq, q, hw, rfl⟩
          have k3 : ¬ ins.writes ∈ W.regs := fun hw => h3 ⟨_, hw, rfl⟩
          have k4 : ¬ n ∈ W.nodes := fun hw => h4 ⟨_, hw, rfl⟩
          simp only [h1, k2, k3, k4, Bool.false_eq_true, false_or]
          unfold idsWatched
          split
          · rename_i e; exact ⟨false, rfl, by simp [e]⟩
          · refine ⟨_, rfl, ?_⟩
            simp only [List.any_eq_true, beq_iff_eq]
            exact ⟨fun ⟨w, hw, e⟩ => e ▸ hw, fun h => ⟨_, h, rfl⟩⟩

/-- **A run of the program is never stopped by logging, whatever is watched, and logs exactly the instructions that ask and touch what
is watched**, from any counter on. -/
theorem logAll_spec (idOf : Ptr → Int) (W : Watch) (bs : Blocks) (ok : OK idOf bs) (hn : ∀ b ∈ bs, ∀ i ∈ b.2, i.asks = true → i.id ≠ -1) :
    ∀ (fuel pc : Nat), pc + fuel = (code bs).length → ∃ l, logAll idOf W (code bs) (rmap bs fun _ => none) fuel pc = some l ∧
      ∀ k, k ∈ l ↔ pc ≤ k ∧ ∃ b ∈ bs, ∃ i ∈ b.2, (code bs)[k]? = some i ∧ i.asks = true ∧ Touches idOf W b.1 i := by
  intro fuel
  induction fuel with
  | zero =>
    intro pc hl
    refine ⟨[], rfl, fun k => ?_⟩
    simp only [List.not_mem_nil, false_iff]
    rintro ⟨hk, b, _, i, _, hi, _⟩
    have := (List.getElem?_eq_some_iff.1 hi).1
    omega
  | succ fuel ih =>
    intro pc hl
    have hlt : pc < (code bs).length := by omega
    have hc : (code bs)[pc]? = some (code bs)[pc] := List.getElem?_eq_getElem hlt
    obtain ⟨l, e, hm⟩ := ih (pc + 1) (by omega)
    obtain ⟨b, hb, hi⟩ := mem_code _ bs (List.getElem_mem hlt)
    simp only [logAll, hc]
    cases ha : (code bs)[pc].asks with
    | false =>
      refine ⟨l, by simpa [ha] using e, fun k => ?_⟩
      rw [hm]
      constructor
      · rintro ⟨h1, h2⟩; exact ⟨by omega, h2⟩
      · rintro ⟨h1, b', hb', i, hi', h2, h3, h4⟩
        refine ⟨?_, b', hb', i, hi', h2, h3, h4⟩
        rcases Nat.eq_or_lt_of_le h1 with e' | h
        · subst e'
          rw [hc] at h2
          have : (code bs)[pc] = i := Option.some.inj h2
          rw [← this, ha] at h3
          cases h3
        · exact h
    | true =>
      have hid := hn b hb _ hi ha
      have hr := node_found idOf bs ok b hb _ hi hid
      obtain ⟨d, e1, e2⟩ := watched_eq idOf W (code bs) _ pc _ b.1 hc hr
      refine ⟨if d then pc :: l else l, by simp [e1, e], fun k => ?_⟩
      have hat : (∃ b' ∈ bs, ∃ i ∈ b'.2, (code bs)[pc]? = some i ∧ i.asks = true ∧ Touches idOf W b'.1 i) ↔ d = true := by
        rw [e2]
        constructor
        · rintro ⟨b', hb', i, hi', h2, h3, h4⟩
          rw [hc] at h2
          have ei : (code bs)[pc] = i := Option.some.inj h2
          have := node_found idOf bs ok b' hb' i hi' (by rw [← ei]; exact hid)
          rw [← ei, hr] at this
          rw [Option.some.inj this, ei]
          exact h4
        · intro h; exact ⟨b, hb, _, hi, hc, ha, h⟩
      have hk : k ∈ (if d then pc :: l else l) ↔ (k = pc ∧ d = true) ∨ k ∈ l := by
        cases d <;> simp
      rw [hk, hm]
      constructor
      · rintro (⟨h1, h2⟩ | ⟨h1, h2⟩)
        · subst h1; exact ⟨Nat.le_refl _, hat.2 h2⟩
        · exact ⟨by omega, h2⟩
      · rintro ⟨h1, h2⟩
        rcases Nat.eq_or_lt_of_le h1 with e' | h
        · subst e'; exact Or.inl ⟨rfl, hat.1 h2⟩
        · exact Or.inr ⟨h, h2⟩

/-- **Refuted: inputs.** Whatever else the program is, watching a node that has neither allocation nor operation, such as an input, logs
nothing. -/
theorem input_not_logged (idOf : Ptr → Int) (bs : Blocks) (ok : OK idOf bs) (hn : ∀ b ∈ bs, ∀ i ∈ b.2, i.asks = true → i.id ≠ -1)
    (n : Ptr) (hin : ∀ b ∈ bs, b.1 = n → ∀ i ∈ b.2, i.kind = .other) :
    logAll idOf { nodes := [n] } (code bs) (rmap bs fun _ => none) (code bs).length 0 = some [] := by
  obtain ⟨l, e, hm⟩ := logAll_spec idOf { nodes := [n] } bs ok hn (code bs).length 0 (by omega)
  rw [e]
  congr 1
  rw [List.eq_nil_iff_forall_not_mem]
  intro k hk
  obtain ⟨_, b, hb, i, hi, _, ha, ht⟩ := (hm k).1 hk
  have : b.1 = n := by simpa [Touches] using ht
  rw [Ins.asks, hin b hb this i hi] at ha
  cases ha

/-- **Refuted: fragments after a run.** When the program has run to its end and the machine is not reset, `Run` of any fragment with an
instruction that asks panics, whatever is watched, even if nothing is. -/
theorem frag_panics (idOf : Ptr → Int) (W : Watch) (c : List Ins) (r : Int → Option Ptr) (frag : List Ins) (i : Ins) (hi : i ∈ frag)
    (ha : i.asks = true) : logFrag idOf W c r c.length frag = none := by
  induction frag with
  | nil => simp at hi
  | cons j is ih =>
    have hw : watched idOf W c r c.length = none := by simp [watched]
    simp only [logFrag, hw]
    rcases List.mem_cons.1 hi with e | h
    · subst e; simp [ha]
    · cases hj : j.asks
      · simpa [hj] using ih h
      · simp

/-- **Refuted: fragments.** What is logged of a fragment does not depend on its instructions: all that ask are logged, or none. -/
theorem frag_constant (idOf : Ptr → Int) (W : Watch) (c : List Ins) (r : Int → Option Ptr) (pc : Nat) (frag : List Ins) (l : List Bool)
    (h : logFrag idOf W c r pc frag = some l) (d d' : Bool) (hd : d ∈ l) (hd' : d' ∈ l) : d = d' := by
  have key : ∀ (frag : List Ins) (l : List Bool), logFrag idOf W c r pc frag = some l → ∀ x ∈ l, watched idOf W c r pc = some x := by
    intro frag
    induction frag with
    | nil => intro l h x hx; simp [logFrag] at h; subst h; simp at hx
    | cons j is ih =>
      intro l h x hx
      simp only [logFrag] at h
      split at h
      · split at h
        · rename_i b l' e1 e2
          cases h
          rcases List.mem_cons.1 hx with e | hx
          · rw [e, e1]
          · exact ih l' e2 x hx
        · cases h
      · exact ih l h x hx
  have := key frag l h d hd
  rw [key frag l h d' hd'] at this
  exact (Option.some.inj this).symm

/-- A fragment that does not ask is run. -/
theorem frag_quiet (idOf : Ptr → Int) (W : Watch) (c : List Ins) (r : Int → Option Ptr) (pc : Nat) (frag : List Ins)
    (h : ∀ i ∈ frag, i.asks = false) : logFrag idOf W c r pc frag = some [] := by
  induction frag with
  | nil => rfl
  | cons j is ih =>
    simp only [logFrag, h j List.mem_cons_self]
    exact ih fun i hi => h i (List.mem_cons_of_mem _ hi)

/-! ### Examples -/

/-- `z = x + y` with the input nodes 10 and 11, the sum 12 and two reads, of the sum (13) and of `x` (14). -/
def exB : Blocks :=
  [(10, [{ kind := .other, id := 0, writes := 0 }]), (11, [{ kind := .other, id := 1, writes := 1 }]),
   (12, [{ kind := .alloc false, id := 2, writes := 2 }, { kind := .execOp, id := 2, reads := [0, 1], writes := 2 }]),
   (13, [{ kind := .other, id := -1, reads := [2] }]), (14, [{ kind := .other, id := -1, reads := [0] }])]

def exId (n : Ptr) : Int := (n : Int) - 10

/-- Watching the register of `x`, or the sum, or its number, logs what touches it; watching `x` logs nothing. -/
example : let go := fun W => logAll exId W (code exB) (rmap exB fun _ => none) 6 0
    go { regs := [0] } = some [3] ∧ go { nodes := [12] } = some [2, 3] ∧ go { ids := [2] } = some [2, 3] ∧ go { nodes := [10] } = some [] ∧
      go {} = some [] := by decide

/-- A failure of the first read is blamed on the second. -/
example : blamed (rmap exB fun _ => none) { kind := .other, id := -1, reads := [2] } = some 14 :=
  blamed_last (exB.take 4) [] (14, [{ kind := .other, id := -1, reads := [0] }]) { kind := .other, id := -1, reads := [0] } (by simp) rfl (by simp) _ rfl

/-- The program again as a fragment: at the start nothing is logged though the sum is watched, at the end there is a panic. -/
example : logFrag exId { nodes := [12] } (code exB) (rmap exB fun _ => none) 0 (code exB) = some [false, false] ∧
    logFrag exId {} (code exB) (rmap exB fun _ => none) 6 (code exB) = none := by decide

example : OK exId exB := ⟨by decide, by decide, by decide⟩

end Verif.Tape.Watched
