import Verif.Tape.Theorems
import Verif.XVM.Agree

/-! `At(n, coords...)` (operations.go 190-208): one element of a tensor. Its op says that it is a statement (op_tensor.go 68), so `WithOp`
(node.go 94-105) makes the node a statement. The compiler gives statements register 0 (regalloc.go 296-303) and has no instruction for
this one (`addStmt`, compile.go 250-345); the define-by-run machine binds nothing to it (vm_genera.go 415-438). Only the
goroutine-per-node machine, which looks at the arity of ops (x/vm/machine.go 27-37), computes it. -/

set_option autoImplicit false

namespace Verif.Tape

variable {V : Type}

/-- The node an instruction computes, loads, allocates for or reads for. -/
def instrNode : Instr → Option Nat
  | .loadArg i _ => some i
  | .alloc i _ => some i
  | .exec i _ _ _ _ => some i
  | .letI _ _ => none
  | .read i _ => some i

/-- What one round of code generation can add. -/
theorem genStep_new (P : Prog) (repl : Nat → Nat) (iv : Nat → Interval) (s : CG) (i : Nat) (ins : Instr)
    (h : ins ∈ (genStep P repl iv s i).code) :
    ins ∈ s.code ∨ ((P.node i).kind ≠ .atS ∧ (instrNode ins = some i ∨ instrNode ins = none) ∧
      (∀ j rs w a b, ins = .exec j rs w a b → rs = readRegs P repl iv j) ∧
      ∀ j r, ins = .read j r → r = (iv ((P.node j).children.getD 0 0)).result) := by
  unfold genStep at h
  simp only at h
  split at h
  · rename_i hk
    simp only [List.mem_append, List.mem_singleton] at h
    rcases h with h | rfl
    · exact .inl h
    · exact .inr ⟨by simp [hk], .inl rfl, by simp, by simp⟩
  · rename_i hk
    simp only [List.mem_append, List.mem_singleton] at h
    rcases h with h | rfl
    · exact .inl h
    · exact .inr ⟨by simp [hk], .inr rfl, by simp, by simp⟩
  · rename_i hk
    simp only [List.mem_append, List.mem_singleton] at h
    rcases h with h | rfl
    · exact .inl h
    · refine .inr ⟨by simp [hk], .inl rfl, by simp, ?_⟩
      intro j r e
      cases e
      rfl
  · exact .inl h
  · rename_i hk
    have al : ∀ c : Bool, ins ∈ (if c = true then
          { allocated := (iv (repl i)).result :: s.allocated, code := s.code ++ [.alloc i (iv (repl i)).result] } else s : CG).code →
        ins ∈ s.code ∨ ((P.node i).kind ≠ .atS ∧ (instrNode ins = some i ∨ instrNode ins = none) ∧
          (∀ j rs w a b, ins = .exec j rs w a b → rs = readRegs P repl iv j) ∧
          ∀ j r, ins = .read j r → r = (iv ((P.node j).children.getD 0 0)).result) := by
      intro c hc
      cases c with
      | false => exact .inl hc
      | true =>
        simp only [if_true, List.mem_append, List.mem_singleton] at hc
        rcases hc with hc | rfl
        · exact .inl hc
        · exact .inr ⟨hk, .inl rfl, by simp, by simp⟩
    by_cases hr : repl i = i
    · rw [if_pos hr] at h
      simp only [List.mem_append, List.mem_singleton] at h
      rcases h with h | rfl
      · exact al _ h
      · refine .inr ⟨hk, .inl rfl, ?_, by simp⟩
        intro j rs w a b e
        cases e
        rfl
    · rw [if_neg hr] at h
      exact al _ h

/-- Every instruction of a compiled program: not for a node made by `At`; operations read the registers of their operands. -/
theorem gen_new (P : Prog) (repl : Nat → Nat) (iv : Nat → Interval) (ins : Instr) (h : ins ∈ gen P repl iv) :
    (∀ i, instrNode ins = some i → (P.node i).kind ≠ .atS) ∧
      (∀ j rs w a b, ins = .exec j rs w a b → rs = readRegs P repl iv j) ∧
      ∀ j r, ins = .read j r → r = (iv ((P.node j).children.getD 0 0)).result := by
  unfold gen at h
  have key : ∀ (l : List Nat) (s : CG), ins ∈ (l.foldl (genStep P repl iv) s).code → ins ∈ s.code ∨
      ((∀ i, instrNode ins = some i → (P.node i).kind ≠ .atS) ∧
      (∀ j rs w a b, ins = .exec j rs w a b → rs = readRegs P repl iv j) ∧
      ∀ j r, ins = .read j r → r = (iv ((P.node j).children.getD 0 0)).result) := by
    intro l
    induction l with
    | nil => intro s h; exact .inl h
    | cons i l ih =>
      intro s h
      rw [List.foldl_cons] at h
      rcases ih _ h with h | h
      · rcases genStep_new P repl iv s i ins h with h | ⟨h1, h2, h3, h4⟩
        · exact .inl h
        · refine .inr ⟨fun j hj => ?_, h3, h4⟩
          rcases h2 with e | e
          · rw [e] at hj; cases hj; exact h1
          · rw [e] at hj; cases hj
      · exact .inr h
  rcases key _ _ h with h | h
  · cases h
  · exact h

/-- What an instruction binds and records is for its own node. -/
theorem put_other (m : M V) (node w a k : Nat) (h : node ≠ k) : (m.put node w a).bound k = m.bound k := by
  simp [M.put, upd, Ne.symm h]

theorem doOp_other (E : Env V) (m m' : M V) (node w : Nat) (as : List Nat) (h : doOp E m node w as = some m') (k : Nat) (hk : node ≠ k) :
    m'.bound k = m.bound k ∧ m'.seen = m.seen := by
  unfold doOp at h
  cases hf : (E.sem node).f (as.map m.mem) with
  | none => rw [hf] at h; cases h
  | some y =>
    rw [hf] at h
    simp only at h
    cases hr : (E.sem node).ret with
    | fresh => rw [hr] at h; cases h; exact ⟨put_other _ _ _ _ _ hk, rfl⟩
    | «alias» q =>
      rw [hr] at h
      simp only at h
      cases ha : as[q]? with
      | none => rw [ha] at h; cases h
      | some a => rw [ha] at h; cases h; exact ⟨put_other _ _ _ _ _ hk, rfl⟩
    | static a => rw [hr] at h; cases h; exact ⟨put_other _ _ _ _ _ hk, rfl⟩

theorem writeAt_other (E : Env V) (m m' : M V) (node w p : Nat) (as : List Nat) (h : writeAt E m node w p as = some m') (k : Nat)
    (hk : node ≠ k) : m'.bound k = m.bound k ∧ m'.seen = m.seen := by
  unfold writeAt at h
  cases hf : (E.sem node).f (as.map m.mem) with
  | none => rw [hf] at h; cases h
  | some y => rw [hf] at h; cases h; exact ⟨put_other _ _ _ _ _ hk, rfl⟩

theorem step_other (E : Env V) (m m' : M V) (ins : Instr) (h : step E m ins = some m') (k : Nat) (hk : instrNode ins ≠ some k) :
    m'.bound k = m.bound k ∧ ∀ e ∈ m'.seen, e.1 = k → e ∈ m.seen := by
  cases ins with
  | loadArg i w =>
    simp only [step] at h
    cases hi : E.inp i with
    | none => rw [hi] at h; cases h
    | some a => rw [hi] at h; cases h; exact ⟨rfl, fun e he _ => he⟩
  | alloc i w =>
    simp only [step] at h
    cases hi : m.regs w with
    | none => rw [hi] at h; cases h; exact ⟨rfl, fun e he _ => he⟩
    | some a => rw [hi] at h; cases h; exact ⟨rfl, fun e he _ => he⟩
  | «letI» r w => cases h; exact ⟨rfl, fun e he _ => he⟩
  | read i r =>
    have hik : i ≠ k := fun e => hk (by rw [← e]; rfl)
    simp only [step] at h
    cases hi : m.regs r with
    | none => rw [hi] at h; cases h
    | some a =>
      rw [hi] at h; cases h
      refine ⟨rfl, fun e he hek => ?_⟩
      simp only [List.mem_append, List.mem_singleton] at he
      rcases he with he | rfl
      · exact he
      · exact absurd hek hik
  | exec i rs w pre uns =>
    have hik : i ≠ k := fun e => hk (by rw [← e]; rfl)
    simp only [step] at h
    unfold execOp at h
    cases ha : getAddrs m rs with
    | none => rw [ha] at h; cases h
    | some as =>
      rw [ha] at h
      simp only at h
      have fin : m'.bound k = m.bound k ∧ m'.seen = m.seen ++ [(i, as.map m.mem)] →
          m'.bound k = m.bound k ∧ ∀ e ∈ m'.seen, e.1 = k → e ∈ m.seen := by
        rintro ⟨h1, h2⟩
        refine ⟨h1, fun e he hek => ?_⟩
        rw [h2] at he
        simp only [List.mem_append, List.mem_singleton] at he
        rcases he with he | rfl
        · exact he
        · exact absurd hek hik
      apply fin
      split at h
      · split at h
        · exact writeAt_other E _ m' i w _ as h k hik
        · exact doOp_other E _ m' i w as h k hik
      · split at h
        · split at h
          · cases h
          · exact writeAt_other E _ m' i w _ as h k hik
        · exact doOp_other E _ m' i w as h k hik

theorem runall_other (E : Env V) (code : List Instr) (k : Nat) (hk : ∀ ins ∈ code, instrNode ins ≠ some k) (fuel : Nat) (m : M V)
    (pc : Nat) : (runall E code fuel m pc).1.bound k = m.bound k ∧ ∀ e ∈ (runall E code fuel m pc).1.seen, e.1 = k → e ∈ m.seen := by
  induction fuel generalizing m pc with
  | zero => exact ⟨rfl, fun e he _ => he⟩
  | succ fuel ih =>
    unfold runall
    cases hc : code[pc]? with
    | none => exact ⟨rfl, fun e he _ => he⟩
    | some ins =>
      simp only
      cases hst : step E m ins with
      | none => exact ⟨rfl, fun e he _ => he⟩
      | some m' =>
        simp only
        obtain ⟨a1, a2⟩ := ih m' (pc + 1)
        obtain ⟨b1, b2⟩ := step_other E m m' ins hst k (hk ins (List.mem_of_getElem? hc))
        exact ⟨a1.trans b1, fun e he hek => b2 e (a2 e he hek) hek⟩

/-- **C134 (defect: no code).** Whatever the program and the operations, a run of the compiled code leaves a node made by `At` as it was: it
binds nothing to it and never calls its operation. -/
theorem at_never_run (P : Prog) (leaves : List Nat) (E : Env V) (m : M V) (k : Nat) (hk : (P.node k).kind = .atS) :
    let r := runAll E (compile P leaves) m 0
    r.1.bound k = m.bound k ∧ ∀ e ∈ r.1.seen, e.1 = k → e ∈ m.seen :=
  runall_other E _ k (fun ins hin hi => (gen_new P _ _ ins hin).1 k hi hk) _ m 0

/-- A node made by `At` is given register 0. -/
theorem at_register (P : Prog) (k : Nat) (hlt : k < P.length) (hk : (P.node k).kind = .atS) : reg P k = 0 := by
  rw [← reg_eq P k (k + 1) (by omega) (by omega), ra_succ]
  unfold allocStep
  simp only [id, ne_eq, not_true_eq_false, if_false, hk, Node.stmt, reduceCtorEq, if_true]
  simp [setResult, upd]

/-- So is the first node of every program that starts with an input, a constant or a random node. -/
theorem first_register (P : Prog) (hlt : 0 < P.length) (hs : (P.node 0).stmt = false) (ho : (P.node 0).overwrites < 0) :
    reg P 0 = 0 := by
  rw [← reg_eq P 0 1 (by omega) (by omega), ra_succ]
  unfold allocStep
  simp only [id, ne_eq, not_true_eq_false, if_false, hs, Bool.false_eq_true]
  have hno : ¬ (P.node 0).overwrites ≥ 0 := by omega
  have hf : (((ra P 0).fresh 0).iv 0).result = 0 := by simp [RA.fresh, setResult, upd, ra]
  split
  · exact hf
  · split
    · unfold RA.mutableOp
      simp only [if_neg hno]
      exact hf
    · exact hf

/-- **C134 (defect: another node is read).** Whatever the program, an operation on the result of `At` reads in its place the register of the
first node of the program, and so does a read statement for it. -/
theorem at_reads_first (P : Prog) (leaves : List Nat) (hl : ∀ l ∈ leaves, l < P.length) (hc : NoClash P)
    (hb : ∀ i, i < P.length → ∀ c ∈ (P.node i).children, c < i)
    (hs : (P.node 0).stmt = false) (ho : (P.node 0).overwrites < 0) (k : Nat) (hlt : k < P.length) (hk : (P.node k).kind = .atS) :
    (∀ j rs w a b, Instr.exec j rs w a b ∈ compile P leaves → ∀ p : Nat, (P.node j).children[p]? = some k → rs[p]? = some (reg P 0)) ∧
    ∀ j r, Instr.read j r ∈ compile P leaves → (P.node j).children[0]? = some k → r = reg P 0 := by
  have e0 : reg P k = reg P 0 := by rw [at_register P k hlt hk, first_register P (by omega) hs ho]
  rw [compile_ordered P hb leaves hl hc]
  refine ⟨fun j rs w a b hin p hp => ?_, fun j r hin hp => ?_⟩
  · rw [(gen_new P _ _ _ hin).2.1 j rs w a b rfl]
    unfold readRegs
    rw [List.getElem?_map, hp, ← e0]
    rfl
  · rw [(gen_new P _ _ _ hin).2.2 j r rfl, List.getD_eq_getElem?_getD, hp, ← e0]
    rfl

/-! ### A run -/

/-- Two inputs, `At` of input `t`, an operation on the result and the second input. -/
def atP (t : Nat) : Prog :=
  [{ kind := .arg, hash := 0 }, { kind := .arg, hash := 1 }, { kind := .atS, children := [t], hash := 2 },
   { children := [2, 1], hash := 3 }]

/-- What the graph says: the operation gets the element and the second input. -/
def AtWorks (E : Env V) (m : M V) (ad : Nat → Nat) (t : Nat) (code : List Instr) : Prop :=
  ∃ e, (E.sem 2).f [m.mem (ad t)] = some e ∧ (3, [e, m.mem (ad 1)]) ∈ (runAll E code m 0).1.seen

theorem at_code (t : Nat) (ht : t < 2) : compile (atP t) [0, 1] = [.loadArg 0 0, .loadArg 1 1, .exec 3 [0, 1] 2 false false] := by
  have : t = 0 ∨ t = 1 := by omega
  rcases this with rfl | rfl <;> decide +kernel

/-- **C134 (defect: the value used).** Whatever the operations and the values: the operation is handed the whole of the first input in the
place of the element, also when the element asked for is of the second. If that is not the element, the graph is not computed. -/
theorem at_run (E : Env V) (m : M V) (ad : Nat → Nat) (t : Nat) (ht : t < 2) (hin : ∀ i, i < 2 → E.inp i = some (ad i))
    (h2 : m.regs 2 = none) (hret : (E.sem 3).ret = .fresh) (hseen : m.seen = []) (y : V)
    (hy : (E.sem 3).f [m.mem (ad 0), m.mem (ad 1)] = some y) :
    let r := runAll E (compile (atP t) [0, 1]) m 0
    r.2.2 = false ∧ r.1.seen = [(3, [m.mem (ad 0), m.mem (ad 1)])] ∧ (r.1.bound 3).map r.1.mem = some y := by
  have i0 := hin 0 (by omega)
  have i1 := hin 1 (by omega)
  simp only [at_code t ht, runAll, List.length_cons, List.length_nil]
  simp [runall, step, i0, i1, execOp, getAddrs, upd, doOp, hret, hy, h2, M.put, hseen]

/-- **C134 (defect).** So `At` works exactly if the element asked for is the first input as a whole. -/
theorem at_works_iff (E : Env V) (m : M V) (ad : Nat → Nat) (t : Nat) (ht : t < 2) (hin : ∀ i, i < 2 → E.inp i = some (ad i))
    (h2 : m.regs 2 = none) (hret : (E.sem 3).ret = .fresh) (hseen : m.seen = []) (y : V)
    (hy : (E.sem 3).f [m.mem (ad 0), m.mem (ad 1)] = some y) :
    AtWorks E m ad t (compile (atP t) [0, 1]) ↔ (E.sem 2).f [m.mem (ad t)] = some (m.mem (ad 0)) := by
  have hs := (at_run E m ad t ht hin h2 hret hseen y hy).2.1
  unfold AtWorks
  simp only [hs, List.mem_singleton, Prod.mk.injEq, List.cons.injEq, and_true, true_and]
  constructor
  · rintro ⟨e, h1, rfl⟩; exact h1
  · intro h; exact ⟨_, h, rfl⟩

/-! ### The other machines -/

open Verif.XVM Verif.XVM.Agree

/-- **C134 (defect: define-by-run).** Whatever the program, the define-by-run machine has no value for a node made by `At`, so it fails on
the first operation that uses one (in the code with a panic: the assertion `child.boundTo.(*dualValue)` of a nil, vm_genera.go 346-351). -/
theorem at_forward (P : Prog) (E : Env V) (mem : Nat → V) (k j : Nat) (hk : (P.node k).kind = .atS) (hj : j < P.length)
    (hop : (P.node j).kind = .op) (hu : k ∈ (P.node j).children) : fwdRun P E mem = none := by
  have hstep : ∀ (W W' : Nat → Option V) i, W k = none → fwdStep P E mem W i = some W' → W' k = none := by
    intro W W' i hW h
    by_cases e : i = k
    · subst e
      unfold fwdStep at h
      rw [hk] at h
      cases h
      exact hW
    · unfold fwdStep at h
      split at h
      · cases h; exact hW
      · cases h; exact hW
      · cases h; exact hW
      · obtain ⟨v, _, rfl⟩ := Option.map_eq_some_iff.1 h
        rw [upd_ne _ _ _ _ (Ne.symm e)]; exact hW
      · obtain ⟨v, _, rfl⟩ := Option.map_eq_some_iff.1 h
        rw [upd_ne _ _ _ _ (Ne.symm e)]; exact hW
  have hfail : ∀ W : Nat → Option V, W k = none → fwdStep P E mem W j = none := by
    intro W hW
    have hm : (P.node j).children.mapM W = none := by
      cases h : (P.node j).children.mapM W with
      | none => rfl
      | some vs =>
        obtain ⟨hl, hv⟩ := (mapM_some_iff W _ vs).1 h
        obtain ⟨p, hp, he⟩ := List.getElem_of_mem hu
        have := hv p hp (by omega)
        rw [he, hW] at this
        cases this
    unfold fwdStep
    rw [hop, hm]
    rfl
  have key : ∀ (l : List Nat) (W : Nat → Option V), W k = none → j ∈ l → l.foldlM (fwdStep P E mem) W = none := by
    intro l
    induction l with
    | nil => intro W _ h; cases h
    | cons i l ih =>
      intro W hW hm
      rw [List.foldlM_cons]
      by_cases e : j = i
      · subst e; rw [hfail W hW]; rfl
      · cases hs : fwdStep P E mem W i with
        | none => rfl
        | some W' =>
          refine ih W' (hstep W W' i hW hs) ?_
          rcases List.mem_cons.1 hm with h | h
          · exact absurd h e
          · exact h
  exact key _ _ rfl (List.mem_range.2 hj)

/-- **C134 (goroutine-per-node).** This machine does compute the element and hand it to the operation, in every schedule. -/
theorem at_goroutines (E : Env V) (mem : Nat → V) (ad : Nat → Nat) (t : Nat) (ht : t < 2) (hin : ∀ i, i < 2 → E.inp i = some (ad i))
    (e y : V) (he : (E.sem 2).f [mem (ad t)] = some e) (hy : (E.sem 3).f [e, mem (ad 1)] = some y) (s : St (Option V))
    (hs : ReachI (netOf (atP t) E mem) s) (hmax : ∀ u, ¬ Step (netOf (atP t) E mem) s u) :
    s.ret = true ∧ s.out 2 = some e ∧ s.out 3 = some y := by
  have hP : ∀ j, j < 4 → (netOf (atP t) E mem).isIn j = decide (j < 2) := by
    intro j hj
    have : j = 0 ∨ j = 1 ∨ j = 2 ∨ j = 3 := by omega
    rcases this with rfl | rfl | rfl | rfl <;> rfl
  have ho2 : (netOf (atP t) E mem).ops 2 = [t] := rfl
  have ho3 : (netOf (atP t) E mem).ops 3 = [2, 1] := rfl
  have hused : ∀ i, i < 3 → (i = 2 ∨ i = 1 ∨ i = t) → (netOf (atP t) E mem).outC i = true := by
    intro i _ h
    simp only [Net.outC, Bool.or_eq_true]
    right
    refine List.any_eq_true.2 ?_
    rcases h with rfl | rfl | rfl
    · exact ⟨3, List.mem_range.2 (by simp [atP]), by simp [atP, Prog.node]⟩
    · exact ⟨3, List.mem_range.2 (by simp [atP]), by simp [atP, Prog.node]⟩
    · exact ⟨2, List.mem_range.2 (by simp [atP]), by simp [atP, Prog.node]⟩
  have hlen : (netOf (atP t) E mem).n = 4 := rfl
  have hG : Good (netOf (atP t) E mem) := by
    refine ⟨fun j hj hin' i hi => ?_, fun j hj hin' => ?_⟩
    · rw [hlen] at hj ⊢
      rw [hP j hj] at hin'
      have : j = 2 ∨ j = 3 := by have := of_decide_eq_false hin'; omega
      rcases this with rfl | rfl
      · rw [ho2, List.mem_singleton] at hi
        subst hi
        exact ⟨by omega, hused _ (by omega) (.inr (.inr rfl))⟩
      · rw [ho3] at hi
        have : i = 2 ∨ i = 1 := by simpa using hi
        exact ⟨by omega, hused _ (by omega) (by omega)⟩
    · rw [hlen] at hj
      rw [hP j hj] at hin'
      have : j = 2 ∨ j = 3 := by have := of_decide_eq_false hin'; omega
      rcases this with rfl | rfl
      · exact ⟨rfl, by rw [ho2]; simp⟩
      · exact ⟨rfl, by rw [ho3]; simp⟩
  have hA : Acyclic (netOf (atP t) E mem) := by
    refine ⟨id, fun j hj hin' i hi => ?_⟩
    rw [hlen] at hj
    rw [hP j hj] at hin'
    have : j = 2 ∨ j = 3 := by have := of_decide_eq_false hin'; omega
    rcases this with rfl | rfl
    · rw [ho2, List.mem_singleton] at hi
      subst hi; exact ht
    · rw [ho3] at hi
      have : i = 2 ∨ i = 1 := by simpa using hi
      show i < 3
      omega
  have ev0 : ∀ i, i < 2 → Evals (netOf (atP t) E mem) i (some (mem (ad i))) := by
    intro i hi
    have h : (netOf (atP t) E mem).inVal i = some (mem (ad i)) := by
      have hi' := hin i hi
      have : i = 0 ∨ i = 1 := by omega
      rcases this with rfl | rfl
      · show (E.inp 0).map mem = _
        rw [hi']; rfl
      · show (E.inp 1).map mem = _
        rw [hi']; rfl
    rw [← h]
    exact .input (by rw [hP i (by omega)]; simpa using hi)
  have ev2 : Evals (netOf (atP t) E mem) 2 (some e) := by
    refine .op (vs := [some (mem (ad t))]) (by rw [hP 2 (by omega)]; rfl) rfl ?_ ?_
    · intro p h1 h2
      have hp : p = 0 := by simpa using h2
      subst hp
      exact ev0 t ht
    · simp [netOf, he]
  have ev3 : Evals (netOf (atP t) E mem) 3 (some y) := by
    refine .op (vs := [some e, some (mem (ad 1))]) (by rw [hP 3 (by omega)]; rfl) rfl ?_ ?_
    · intro p h1 h2
      have hp : p = 0 ∨ p = 1 := by simp at h2; omega
      rcases hp with rfl | rfl
      · exact ev2
      · exact ev0 1 (by omega)
    · simp [netOf, hy]
  have hE : ∀ i, i < (netOf (atP t) E mem).n → ∃ v, Evals (netOf (atP t) E mem) i v := by
    intro i hi
    rw [hlen] at hi
    have : i < 2 ∨ i = 2 ∨ i = 3 := by omega
    rcases this with h | rfl | rfl
    · exact ⟨_, ev0 i h⟩
    · exact ⟨_, ev2⟩
    · exact ⟨_, ev3⟩
  obtain ⟨c1, c2⟩ := run_complete hG (by rw [hlen]; omega) hA hE hs hmax
  exact ⟨c1, evals_unique (c2 2 (by rw [hlen]; omega)).2 ev2, evals_unique (c2 3 (by rw [hlen]; omega)).2 ev3⟩

/-- Concrete case: vectors `[10, 20, 30]` and `[7]` as lists at places 5 and 6; node 2 takes element 1, node 3 appends. -/
def atE : Env (List Int) where
  sem := fun i => if i = 2 then { f := fun vs => match vs with | [v] => (v[1]?).map fun x => [x] | _ => none }
    else { f := fun vs => match vs with | [a, b] => some (a ++ b) | _ => none }
  inp := fun i => if i < 2 then some (5 + i) else none
  over := fun _ => -1
  blank := []

def atM : M (List Int) :=
  { regs := fun _ => none, mem := fun q => if q = 5 then [10, 20, 30] else if q = 6 then [7] else [],
    bound := fun _ => none, next := 8, seen := [] }

/-- Asked for is `[20, 7]`; the tape machine makes `[10, 20, 30, 7]` of it, and the define-by-run machine nothing. -/
example : let r := runAll atE (compile (atP 0) [0, 1]) atM 0
    r.2 = (3, false) ∧ (r.1.bound 3).map r.1.mem = some [10, 20, 30, 7] ∧ r.1.bound 2 = none ∧ ¬ AtWorks atE atM (5 + ·) 0 (compile (atP 0) [0, 1]) ∧
    (fwdRun (atP 0) atE atM.mem).isNone = true := by
  refine ⟨by decide +kernel, by decide +kernel, by decide +kernel, ?_, ?_⟩
  · rw [at_works_iff atE atM (5 + ·) 0 (by decide) (fun i hi => by simp [atE, hi]) rfl rfl rfl [10, 20, 30, 7] (by decide)]
    decide
  · rw [at_forward (atP 0) atE atM.mem 2 3 rfl (by decide) rfl (by decide)]; rfl

example (s : St (Option (List Int))) (hs : ReachI (netOf (atP 0) atE atM.mem) s) (hmax : ∀ u, ¬ Step (netOf (atP 0) atE atM.mem) s u) :
    s.out 3 = some [20, 7] :=
  (at_goroutines atE atM.mem (5 + ·) 0 (by decide) (fun i hi => by simp [atE, hi]) [20] [20, 7] (by decide) (by decide) s hs hmax).2.2

/-- Concrete case of the general theorems: in the program above, and when the result of `At` is read. -/
example : Instr.exec 3 [0, 1] 2 false false ∈ compile (atP 1) [0, 1] ∧ reg (atP 1) 0 = 0 ∧
    Instr.read 4 0 ∈ compile (atP 1 ++ [{ kind := .readS, children := [2], hash := 4 }]) [0, 1] := by
  decide +kernel

end Verif.Tape
