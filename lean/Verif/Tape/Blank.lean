import Verif.Tape.Theorems
/-!
The memory handed to an operation (C107).  `/repo/compile.go`, `/repo/regalloc.go`, `/repo/vm_tape.go`,
`/repo/vm_tape_nocuda.go`.

An operation that is given memory for its result (`UsePreallocDo`) may look at what the memory holds: `sliceIncrOp` adds to
it, `repeatOp` of element types other than floats leaves it as it is. Here the machine is run with such operations, and it
is shown that what they find is a new, blank piece of memory that nothing else refers to.
-/
set_option autoImplicit false
namespace Verif.Tape

variable {V : Type}

/-! ### Model -/

/-- `UsePreallocDo` of an operation whose result depends on what is in the memory it is given. -/
def writeAcc (acc : Nat → V → List V → Option V) (m : M V) (node w p : Nat) (as : List Nat) : Option (M V) :=
  match acc node (m.mem p) (as.map m.mem) with
  | none => none
  | some y => some ({ m with mem := upd m.mem p y }.put node w p)

/-- `execOp.exec` (vm_tape_nocuda.go 19-164) with such operations. -/
def execAcc (acc : Nat → V → List V → Option V) (E : Env V) (m : M V) (node : Nat) (reads : List Nat) (w : Nat)
    (pre uns : Bool) : Option (M V) :=
  match getAddrs m reads with
  | none => none
  | some as =>
    let m := { m with seen := m.seen ++ [(node, as.map m.mem)] }
    match m.regs w with
    | some p =>
      if (E.sem node).pre then writeAcc acc m node w p as else doOp E m node w as
    | none =>
      if pre = false ∧ uns = true ∧ (E.sem node).uns = true then
        match as[(E.over node).toNat]? with
        | none => none
        | some p => writeAt E m node w p as
      else doOp E m node w as

/-- `exec` of an instruction (vm_tape.go 584-793) with such operations. -/
def stepAcc (acc : Nat → V → List V → Option V) (E : Env V) (m : M V) : Instr → Option (M V)
  | .exec i rs w pre uns => execAcc acc E m i rs w pre uns
  | ins => step E m ins

/-- The run loop (vm_tape.go 258-347) with such operations. -/
def runallAcc (acc : Nat → V → List V → Option V) (E : Env V) (code : List Instr) : Nat → M V → Nat → M V × Nat × Bool
  | 0, m, pc => (m, pc, false)
  | fuel + 1, m, pc =>
    match code[pc]? with
    | none => (m, pc, false)
    | some ins =>
      match stepAcc acc E m ins with
      | none => (m, pc, true)
      | some m' => runallAcc acc E code fuel m' (pc + 1)

/-- `RunAll` (vm_tape.go 213-249) with such operations. -/
def runAllAcc (acc : Nat → V → List V → Option V) (E : Env V) (code : List Instr) (m : M V) (pc : Nat) : M V × Nat × Bool :=
  runallAcc acc E code code.length m pc

/-! ### Registers are written by their nodes only -/

/-- The register an instruction writes. -/
def wr : Instr → Option Nat
  | .loadArg _ w => some w
  | .alloc _ w => some w
  | .exec _ _ w _ _ => some w
  | .letI _ _ => none
  | .read _ _ => none

/-- Registers outside `S` are empty, and every address known to the machine has been handed out. -/
structure Low (S : Nat → Prop) (b : Nat) (m : M V) : Prop where
  empty : ∀ r, ¬ S r → m.regs r = none
  regs : ∀ r a, m.regs r = some a → a < m.next
  bound : ∀ j a, m.bound j = some a → a < m.next
  next : b ≤ m.next

theorem getAddrs_mem (m : M V) (rs : List Nat) (as : List Nat) (h : getAddrs m rs = some as) :
    ∀ a ∈ as, ∃ r, m.regs r = some a := by
  induction rs generalizing as with
  | nil => simp [getAddrs] at h; subst h; simp
  | cons r rs ih =>
    simp only [getAddrs, List.mapM_cons] at h
    cases h1 : m.regs r with
    | none => rw [h1] at h; cases h
    | some x =>
      cases h2 : rs.mapM m.regs with
      | none => rw [h1, h2] at h; cases h
      | some xs =>
        rw [h1, h2] at h
        cases h
        intro a ha
        rcases List.mem_cons.1 ha with e | e
        · exact ⟨r, by rw [e, h1]⟩
        · exact ih xs h2 a e

theorem low_put {S : Nat → Prop} {b : Nat} {m : M V} (L : Low S b m) (node w a : Nat) (hw : S w) (ha : a < m.next) :
    Low S b (m.put node w a) := by
  refine ⟨fun r hr => ?_, fun r x hx => ?_, fun j x hx => ?_, L.next⟩
  · show upd m.regs w (some a) r = none
    unfold upd
    rw [if_neg (fun e => hr (by rw [e]; exact hw))]
    exact L.empty r hr
  · change upd m.regs w (some a) r = some x at hx
    show x < m.next
    unfold upd at hx
    split at hx
    · cases hx; exact ha
    · exact L.regs r x hx
  · change upd m.bound node (some a) j = some x at hx
    show x < m.next
    unfold upd at hx
    split at hx
    · cases hx; exact ha
    · exact L.bound j x hx

theorem low_doOp {S : Nat → Prop} {b : Nat} {E : Env V} {m m' : M V} (L : Low S b m)
    (hst : ∀ i a, (E.sem i).ret = .static a → a < b) (node w : Nat) (as : List Nat) (has : ∀ a ∈ as, a < m.next)
    (hw : S w) (h : doOp E m node w as = some m') : Low S b m' := by
  unfold doOp at h
  cases hf : (E.sem node).f (as.map m.mem) with
  | none => rw [hf] at h; cases h
  | some y =>
    rw [hf] at h
    simp only at h
    cases hr : (E.sem node).ret with
    | fresh =>
      rw [hr] at h
      simp only [Option.some.injEq] at h
      rw [← h]
      have L2 : Low S b { m with mem := upd m.mem m.next y, next := m.next + 1 } :=
        ⟨L.empty, fun r a hx => Nat.lt_succ_of_lt (L.regs r a hx), fun j a hx => Nat.lt_succ_of_lt (L.bound j a hx),
          Nat.le_succ_of_le L.next⟩
      exact low_put L2 _ _ _ hw (Nat.lt_succ_self _)
    | «alias» k =>
      rw [hr] at h
      simp only at h
      cases hk : as[k]? with
      | none => rw [hk] at h; cases h
      | some a =>
        rw [hk] at h
        simp only [Option.some.injEq] at h
        rw [← h]
        exact low_put L _ _ _ hw (has a (List.mem_of_getElem? hk))
    | static a =>
      rw [hr] at h
      simp only [Option.some.injEq] at h
      rw [← h]
      exact low_put L _ _ _ hw (Nat.lt_of_lt_of_le (hst node a hr) L.next)

theorem low_writeAt {S : Nat → Prop} {b : Nat} {E : Env V} {m m' : M V} (L : Low S b m) (node w p : Nat) (as : List Nat)
    (hp : p < m.next) (hw : S w) (h : writeAt E m node w p as = some m') : Low S b m' := by
  unfold writeAt at h
  cases hf : (E.sem node).f (as.map m.mem) with
  | none => rw [hf] at h; cases h
  | some y =>
    rw [hf] at h
    simp only [Option.some.injEq] at h
    rw [← h]
    have L2 : Low S b { m with mem := upd m.mem p y } := ⟨L.empty, L.regs, L.bound, L.next⟩
    exact low_put L2 _ _ _ hw hp

theorem low_step {S : Nat → Prop} {b : Nat} {E : Env V} {m m' : M V} (L : Low S b m)
    (hin : ∀ i a, E.inp i = some a → a < b) (hst : ∀ i a, (E.sem i).ret = .static a → a < b) (ins : Instr)
    (hw : ∀ w, wr ins = some w → S w) (h : step E m ins = some m') : Low S b m' := by
  cases ins with
  | loadArg i w =>
    simp only [step] at h
    cases hi : E.inp i with
    | none => rw [hi] at h; cases h
    | some a =>
      rw [hi] at h
      simp only [Option.some.injEq] at h
      have := low_put L i w a (hw w rfl) (Nat.lt_of_lt_of_le (hin i a hi) L.next)
      rw [← h]
      exact ⟨this.empty, this.regs, L.bound, L.next⟩
  | alloc i w =>
    simp only [step] at h
    cases hr : m.regs w with
    | some a => rw [hr] at h; simp only [Option.some.injEq] at h; rw [← h]; exact L
    | none =>
      rw [hr] at h
      simp only [Option.some.injEq] at h
      have L2 : Low S b { m with mem := upd m.mem m.next E.blank, next := m.next + 1 } :=
        ⟨L.empty, fun r a hx => Nat.lt_succ_of_lt (L.regs r a hx), fun j a hx => Nat.lt_succ_of_lt (L.bound j a hx),
          Nat.le_succ_of_le L.next⟩
      have := low_put L2 i w m.next (hw w rfl) (Nat.lt_succ_self _)
      rw [← h]
      exact ⟨this.empty, this.regs, L2.bound, L2.next⟩
  | «letI» r w => simp only [step, Option.some.injEq] at h; rw [← h]; exact L
  | read i r =>
    simp only [step] at h
    cases hr : m.regs r with
    | none => rw [hr] at h; cases h
    | some a =>
      rw [hr] at h
      simp only [Option.some.injEq] at h
      rw [← h]
      exact ⟨L.empty, L.regs, L.bound, L.next⟩
  | exec i rs w pre uns =>
    simp only [step, execOp] at h
    cases hg : getAddrs m rs with
    | none => rw [hg] at h; cases h
    | some as =>
      rw [hg] at h
      have has : ∀ a ∈ as, a < m.next := fun a ha => by
        obtain ⟨r, hr⟩ := getAddrs_mem m rs as hg a ha
        exact L.regs r a hr
      have L2 : Low S b { m with seen := m.seen ++ [(i, as.map m.mem)] } := ⟨L.empty, L.regs, L.bound, L.next⟩
      simp only at h
      cases hr : m.regs w with
      | some p =>
        rw [hr] at h
        simp only at h
        split at h
        · exact low_writeAt L2 _ _ _ _ (L.regs w p hr) (hw w rfl) h
        · exact low_doOp L2 hst _ _ _ has (hw w rfl) h
      | none =>
        rw [hr] at h
        simp only at h
        split at h
        · cases hk : as[(E.over i).toNat]? with
          | none => rw [hk] at h; cases h
          | some p =>
            rw [hk] at h
            exact low_writeAt L2 _ _ _ _ (has p (List.mem_of_getElem? hk)) (hw w rfl) h
        · exact low_doOp L2 hst _ _ _ has (hw w rfl) h

theorem low_run {S : Nat → Prop} {b : Nat} {E : Env V} (hin : ∀ i a, E.inp i = some a → a < b)
    (hst : ∀ i a, (E.sem i).ret = .static a → a < b) (code : List Instr) :
    ∀ (m m' : M V), Low S b m → (∀ ins ∈ code, ∀ w, wr ins = some w → S w) → runList E m code = some m' → Low S b m' := by
  induction code with
  | nil => intro m m' L _ h; simp only [runList, Option.some.injEq] at h; rw [← h]; exact L
  | cons ins code ih =>
    intro m m' L hw h
    simp only [runList] at h
    cases hs : step E m ins with
    | none => rw [hs] at h; cases h
    | some m1 =>
      rw [hs] at h
      exact ih m1 m' (low_step L hin hst ins (hw ins (List.mem_cons_self ..)) hs)
        (fun i hi => hw i (List.mem_cons_of_mem _ hi)) h

/-! ### Where an instruction is in the code -/

theorem flat_at {α : Type} (f : Nat → List α) (k n : Nat) (x : α) (h : ((List.range k).flatMap f)[n]? = some x) :
    ∃ j o, j < k ∧ (f j)[o]? = some x ∧ ((List.range k).flatMap f).take n = (List.range j).flatMap f ++ (f j).take o := by
  induction k with
  | zero => simp at h
  | succ k ih =>
    have e : (List.range (k + 1)).flatMap f = (List.range k).flatMap f ++ f k := by simp [List.range_succ]
    rw [e] at h ⊢
    rcases Nat.lt_or_ge n ((List.range k).flatMap f).length with hn | hn
    · rw [List.getElem?_append_left hn] at h
      obtain ⟨j, o, h1, h2, h3⟩ := ih h
      refine ⟨j, o, by omega, h2, ?_⟩
      rw [List.take_append_of_le_length (by omega), h3]
    · rw [List.getElem?_append_right hn] at h
      refine ⟨k, n - ((List.range k).flatMap f).length, by omega, h, ?_⟩
      rw [List.take_append, List.take_of_length_le hn]

theorem frag_wr (P : Prog) (a : Nat) (ins : Instr) (h : ins ∈ frag P a) (w : Nat) (hw : wr ins = some w) :
    (P.node a).stmt = false ∧ reg P a = w := by
  unfold frag at h
  cases hk : (P.node a).kind <;> rw [hk] at h <;> simp only [List.mem_append, List.mem_singleton] at h
  case arg => subst h; cases hw; exact ⟨by simp [Node.stmt, hk], rfl⟩
  case letS => subst h; cases hw
  case readS => subst h; cases hw
  case atS => cases h
  all_goals
    refine ⟨by simp [Node.stmt, hk], ?_⟩
    rcases h with h | h
    · split at h
      · simp only [List.mem_singleton] at h; subst h; cases hw; rfl
      · cases h
    · subst h; cases hw; rfl

/-- An `exec` instruction of the code belongs to a node; if it is marked as preallocated it directly follows the
allocation. -/
theorem frag_exec (P : Prog) (j o i : Nat) (rs : List Nat) (w : Nat) (pre uns : Bool)
    (h : (frag P j)[o]? = some (.exec i rs w pre uns)) :
    i = j ∧ (P.node j).stmt = false ∧ w = reg P j ∧ pre = hasAlloc P j ∧
      (frag P j).take o = if hasAlloc P j then [.alloc j (reg P j)] else [] := by
  have hm := List.mem_of_getElem? h
  unfold frag at h hm ⊢
  cases hk : (P.node j).kind <;> rw [hk] at h hm <;> simp only [List.mem_append, List.mem_singleton] at h hm ⊢
  case arg => cases hm
  case letS => cases hm
  case readS => cases hm
  case atS => cases hm
  all_goals
    have hs : (P.node j).stmt = false := by simp [Node.stmt, hk]
    by_cases ha : hasAlloc P j = true
    · rw [if_pos ha] at h ⊢
      match o, h with
      | 0, h => cases h
      | 1, h => cases h; exact ⟨rfl, hs, rfl, rfl, rfl⟩
      | o + 2, h => simp at h
    · rw [if_neg ha] at h ⊢
      match o, h with
      | 0, h => cases h; exact ⟨rfl, hs, rfl, rfl, rfl⟩
      | o + 1, h => simp at h

/-- A run that gets to instruction `n` has executed the instructions before it. -/
theorem runall_take (E : Env V) (code : List Instr) (k : Nat) : ∀ (m m' : M V) (pc n : Nat), n = pc + k → n ≤ code.length →
    runall E code k m pc = (m', n, false) → runList E m ((code.drop pc).take k) = some m' := by
  induction k with
  | zero => intro m m' pc n _ _ h; simp only [runall, Prod.mk.injEq] at h; simp [runList, h.1]
  | succ k ih =>
    intro m m' pc n hn hle h
    unfold runall at h
    have hlt : pc < code.length := by omega
    rw [List.getElem?_eq_getElem hlt] at h
    simp only at h
    rw [List.drop_eq_getElem_cons hlt, List.take_succ_cons]
    simp only [runList]
    cases hs : step E m code[pc] with
    | none => rw [hs] at h; simp at h
    | some m1 =>
      rw [hs] at h
      exact ih m1 m' (pc + 1) n (by omega) hle h

section
variable (P : Prog) (W : WF P) (leaves : List Nat) (hl : ∀ l ∈ leaves, l < P.length) (hc : NoClash P) (E : Env V) (m0 : M V)
  (h0 : ∀ r, m0.regs r = none) (hb : ∀ j a, m0.bound j = some a → a < m0.next)
  (hin : ∀ i a, E.inp i = some a → a < m0.next) (hst : ∀ i a, (E.sem i).ret = .static a → a < m0.next)
include W hl hc h0 hb hin hst

theorem prealloc_list (n i : Nat) (rs : List Nat) (w : Nat) (uns : Bool) (m : M V)
    (hn : (compile P leaves)[n]? = some (.exec i rs w true uns)) (hr : runList E m0 ((compile P leaves).take n) = some m) :
    ∃ p, m.regs w = some p ∧ m.mem p = E.blank ∧ m0.next ≤ p ∧ (∀ r, m.regs r = some p → r = w) ∧
      ∀ j, m.bound j ≠ some p := by
  rw [compile_frags P W leaves hl hc] at hn hr
  obtain ⟨j, o, hj, ho, ht⟩ := flat_at (frag P) P.length n _ hn
  obtain ⟨rfl, hs, rfl, hp, hk⟩ := frag_exec P j o i rs w true uns ho
  rw [ht, hk, ← hp, if_pos rfl, runList_append] at hr
  cases h1 : runList E m0 ((List.range i).flatMap (frag P)) with
  | none => rw [h1] at hr; cases hr
  | some m1 =>
    rw [h1] at hr
    have L : Low (fun r => ∃ a, a < i ∧ (P.node a).stmt = false ∧ reg P a = r) m0.next m1 := by
      refine low_run hin hst _ m0 m1 ⟨fun r _ => h0 r, fun r a h => ?_, hb, Nat.le_refl _⟩ ?_ h1
      · rw [h0] at h; cases h
      · intro ins hins w hw
        obtain ⟨a, ha, hm⟩ := List.mem_flatMap.1 hins
        obtain ⟨q1, q2⟩ := frag_wr P a ins hm w hw
        exact ⟨a, List.mem_range.1 ha, q1, q2⟩
    have hempty : m1.regs (reg P i) = none := by
      refine L.empty _ ?_
      rintro ⟨a, ha, hsa, he⟩
      rcases reg_cases P W i hj hs with h | T
      · exact h a ha hsa he
      · have := T.ext
        simp only [hasAlloc, this, Bool.and_false] at hp
        cases hp
    simp only [Option.bind_some, runList, step, hempty, Option.some.injEq] at hr
    rw [← hr]
    refine ⟨m1.next, by simp [upd], by simp [upd], L.next, fun r h => ?_, fun j h => ?_⟩
    · by_contra hne
      simp only [upd, if_neg hne] at h
      exact absurd (L.regs r _ h) (Nat.lt_irrefl _)
    · exact absurd (L.bound j _ h) (Nat.lt_irrefl _)

/-- **C107.** When a run reaches an instruction that was given memory for its result, that memory is new, holds the blank
value, and neither another register nor a bound value refers to it. -/
theorem prealloc_blank (n i : Nat) (rs : List Nat) (w : Nat) (uns : Bool) (m : M V)
    (hn : (compile P leaves)[n]? = some (.exec i rs w true uns)) (hr : runall E (compile P leaves) n m0 0 = (m, n, false)) :
    ∃ p, m.regs w = some p ∧ m.mem p = E.blank ∧ m0.next ≤ p ∧ (∀ r, m.regs r = some p → r = w) ∧
      ∀ j, m.bound j ≠ some p := by
  have hlt : n < (compile P leaves).length := by
    by_contra hge
    rw [List.getElem?_eq_none (by omega)] at hn
    cases hn
  refine prealloc_list P W leaves hl hc E m0 h0 hb hin hst n i rs w uns m hn ?_
  have := runall_take E (compile P leaves) n m0 m 0 n (by omega) (by omega) hr
  simpa using this

/-- **C107.** An operation that calls nothing external and overwrites no operand is offered no memory at all: the machine
calls `Do`. (Batch and group normalisation are of this kind, so that the defect `bn_prealloc_wrong_iff` does not show on the
tape machine.) -/
theorem no_prealloc (n i : Nat) (rs : List Nat) (w : Nat) (pre uns : Bool) (m : M V)
    (hn : (compile P leaves)[n]? = some (.exec i rs w pre uns)) (hr : runall E (compile P leaves) n m0 0 = (m, n, false))
    (he : (P.node i).callsExtern = false) (ho : (P.node i).overwrites < 0) : m.regs w = none := by
  have hlt : n < (compile P leaves).length := by
    by_contra hge
    rw [List.getElem?_eq_none (by omega)] at hn
    cases hn
  have hrun := runall_take E (compile P leaves) n m0 m 0 n (by omega) (by omega) hr
  rw [List.drop_zero] at hrun
  rw [compile_frags P W leaves hl hc] at hn hrun
  obtain ⟨j, o, hj, hoj, ht⟩ := flat_at (frag P) P.length n _ hn
  obtain ⟨rfl, hs, rfl, hp, hk⟩ := frag_exec P j o i rs w pre uns hoj
  have hna : hasAlloc P i = false := by simp [hasAlloc, he]
  rw [ht, hk, hna, if_neg (by decide), List.append_nil] at hrun
  have L : Low (fun r => ∃ a, a < i ∧ (P.node a).stmt = false ∧ reg P a = r) m0.next m := by
    refine low_run hin hst _ m0 m ⟨fun r _ => h0 r, fun r a h => ?_, hb, Nat.le_refl _⟩ ?_ hrun
    · rw [h0] at h; cases h
    · intro ins hins w hw
      obtain ⟨a, ha, hm⟩ := List.mem_flatMap.1 hins
      obtain ⟨q1, q2⟩ := frag_wr P a ins hm w hw
      exact ⟨a, List.mem_range.1 ha, q1, q2⟩
  refine L.empty _ ?_
  rintro ⟨a, ha, hsa, hea⟩
  rcases reg_cases P W i hj hs with h | T
  · exact h a ha hsa hea
  · have := T.ow; omega

theorem step_acc (acc : Nat → V → List V → Option V)
    (hacc : ∀ i v vs, i < P.length → (P.node i).kind ≠ .random → (P.node i).returnsPtr = true →
      (P.node i).callsExtern = true → v = E.blank → acc i v vs = (E.sem i).f vs)
    (hrest : ∀ i v vs, i < P.length → ¬ ((P.node i).kind ≠ .random ∧ (P.node i).returnsPtr = true ∧
      (P.node i).callsExtern = true) → acc i v vs = (E.sem i).f vs)
    (n : Nat) (ins : Instr) (m : M V) (hn : (compile P leaves)[n]? = some ins)
    (hr : runList E m0 ((compile P leaves).take n) = some m) : stepAcc acc E m ins = step E m ins := by
  cases ins with
  | exec i rs w pre uns =>
    have hcomp := compile_frags P W leaves hl hc
    have hn' := hn
    rw [hcomp] at hn'
    obtain ⟨j, o, hj, ho, ht⟩ := flat_at (frag P) P.length n _ hn'
    obtain ⟨rfl, hs, rfl, hp, hk⟩ := frag_exec P j o i rs w pre uns ho
    simp only [stepAcc, step, execAcc, execOp]
    cases hg : getAddrs m rs with
    | none => rfl
    | some as =>
      simp only
      cases hw : m.regs (reg P i) with
      | none => rfl
      | some p =>
        simp only
        by_cases hq : (E.sem i).pre = true
        · rw [if_pos hq, if_pos hq]
          have key : acc i (m.mem p) (as.map m.mem) = (E.sem i).f (as.map m.mem) := by
            cases hpre : pre with
            | false =>
              rw [hpre] at hp
              refine hrest i _ _ hj fun ⟨q1, q2, q3⟩ => ?_
              simp [hasAlloc, q1, q2, q3] at hp
            | true =>
              rw [hpre] at hp hn
              obtain ⟨p', e1, e2, _⟩ := prealloc_list P W leaves hl hc E m0 h0 hb hin hst n i rs (reg P i) uns m hn hr
              rw [hw] at e1
              cases e1
              simp only [hasAlloc, Bool.true_eq, Bool.and_eq_true, decide_eq_true_eq] at hp
              exact hacc i _ _ hj hp.1.1 hp.1.2 hp.2 e2
          unfold writeAcc writeAt
          simp only [key]
          cases (E.sem i).f (as.map m.mem) <;> rfl
        · rw [if_neg hq, if_neg hq]
  | loadArg i w => rfl
  | alloc i w => rfl
  | «letI» r w => rfl
  | read i r => rfl

/-- **C107.** Operations that add to the memory they are given, or leave it as it is, may do so as far as a run is concerned
if they are right on blank memory: the run is that of operations that overwrite it (about which C10 speaks). Operations that
write into the memory of an operand must overwrite it. -/
theorem accum_run (acc : Nat → V → List V → Option V)
    (hacc : ∀ i v vs, i < P.length → (P.node i).kind ≠ .random → (P.node i).returnsPtr = true →
      (P.node i).callsExtern = true → v = E.blank → acc i v vs = (E.sem i).f vs)
    (hrest : ∀ i v vs, i < P.length → ¬ ((P.node i).kind ≠ .random ∧ (P.node i).returnsPtr = true ∧
      (P.node i).callsExtern = true) → acc i v vs = (E.sem i).f vs) :
    runAllAcc acc E (compile P leaves) m0 0 = runAll E (compile P leaves) m0 0 := by
  unfold runAllAcc runAll
  have main : ∀ (fuel pc : Nat) (m : M V), runList E m0 ((compile P leaves).take pc) = some m →
      runallAcc acc E (compile P leaves) fuel m pc = runall E (compile P leaves) fuel m pc := by
    intro fuel
    induction fuel with
    | zero => intro pc m _; rfl
    | succ fuel ih =>
      intro pc m hr
      unfold runallAcc runall
      cases hn : (compile P leaves)[pc]? with
      | none => rfl
      | some ins =>
        simp only
        rw [step_acc P W leaves hl hc E m0 h0 hb hin hst acc hacc hrest pc ins m hn hr]
        cases hs : step E m ins with
        | none => rfl
        | some m' =>
          simp only
          refine ih (pc + 1) m' ?_
          have hlt : pc < (compile P leaves).length := by
            by_contra hge
            rw [List.getElem?_eq_none (by omega)] at hn
            cases hn
          rw [List.take_succ, hn, Option.toList_some, runList_append, hr]
          simp only [Option.bind_some, runList, hs]
  exact main _ 0 m0 (by simp [runList])

end

/-! ### Examples -/

/-- Two inputs and an operation that adds its second operand to the memory it is given (like `sliceIncrOp`). -/
def accP : Prog := [{ kind := .arg, hash := 0 }, { kind := .arg, hash := 1 },
  { kind := .op, children := [0, 1], hash := 2, overwrites := 0, returnsPtr := true, callsExtern := true }]

def accE : Env Int where
  sem := fun i => if i = 2 then { f := fun vs => vs[1]?, pre := true } else { f := fun _ => none }
  inp := fun i => if i < 2 then some i else none
  over := fun _ => 0
  blank := 0

def accM : M Int where
  regs := fun _ => none
  mem := fun a => if a = 0 then 5 else 3
  bound := fun i => if i < 2 then some i else none
  next := 2
  seen := []

def accF : Nat → Int → List Int → Option Int := fun i v vs => if i = 2 then vs[1]?.map (v + ·) else none

/-- The code allocates before it executes, and the result of the first run is the operand, not more. -/
example : compile accP [0, 1] = [.loadArg 0 0, .loadArg 1 1, .alloc 2 2, .exec 2 [0, 1] 2 true false] := by decide

example : let r := runAllAcc accF accE (compile accP [0, 1]) accM 0
    (r.1.bound 2).map r.1.mem = some 3 ∧ r.2.2 = false := by decide

/-- **C107.** Emptying the registers is needed: starting again without it (`Run`, vm_tape.go 181-211, does not reset), the
operation finds its old result and adds to it. -/
theorem accum_needs_reset :
    let r1 := runAllAcc accF accE (compile accP [0, 1]) accM 0
    let r2 := runAllAcc accF accE (compile accP [0, 1]) r1.1 0
    let r3 := runAllAcc accF accE (compile accP [0, 1]) (reset r1.1) 0
    (r2.1.bound 2).map r2.1.mem = some 6 ∧ (r3.1.bound 2).map r3.1.mem = some 3 := by decide

theorem accP_wf : WF accP := by
  refine ⟨by decide, ?_, by decide, ?_⟩
  · intro i
    rcases Nat.lt_or_ge i 3 with h | h
    · revert i; decide
    · rw [node_out accP i h]; decide
  · intro i
    rcases Nat.lt_or_ge i 3 with h | h
    · revert i; decide
    · rw [node_out accP i h]; decide

/-- The theorems apply to it. -/
example : runAllAcc accF accE (compile accP [0, 1]) accM 0 = runAll accE (compile accP [0, 1]) accM 0 := by
  refine accum_run accP accP_wf [0, 1] (by decide) ?_ accE accM (fun _ => rfl) ?_ ?_ ?_ accF ?_ ?_
  · exact fun i j hi hj => (by decide : ∀ i, i < 3 → ∀ j, j < 3 → (accP.node i).hash = (accP.node j).hash → i = j) i hi j hj
  · intro j a h
    simp only [accM] at h
    split at h
    · cases h; assumption
    · cases h
  · intro i a h
    simp only [accE] at h
    split at h
    · cases h; assumption
    · cases h
  · intro i a h
    simp only [accE] at h
    split at h <;> cases h
  · intro i v vs hi _ _ h2 hv
    have : i = 2 := by
      have : ∀ i, i < 3 → (accP.node i).callsExtern = true → i = 2 := by decide
      exact this i hi h2
    subst this
    simp only [accF, accE, if_pos, hv, zero_add]
    cases vs[1]? <;> rfl
  · intro i v vs hi h
    have : ∀ i, i < 3 → ¬ ((accP.node i).kind ≠ .random ∧ (accP.node i).returnsPtr = true ∧ (accP.node i).callsExtern = true) →
      i ≠ 2 := by decide
    have hne := this i hi h
    simp only [accF, accE, if_neg hne]

end Verif.Tape
