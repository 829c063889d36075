import Verif.Tape.Run
import Verif.Tape.Theorems

/-! `Set(a, b)` (gorgonia.go 299-306) on the tape machine: a let statement. Its instruction does nothing (vm_tape.go 755); what
happens is decided by the register chosen for the operation whose result is assigned (regalloc.go 184-250). -/

set_option autoImplicit false

namespace Verif.Tape

variable {V : Type}

/-- **C104 (let in every program).** An operation with one let statement among its users, that can overwrite an operand,
returns a pointer and calls nothing external, gets the register of the operand it overwrites; the node the let statement
names plays no part. -/
theorem let_register (P : Prog) (W : WF P) (i : Nat) (hi : i < P.length) (ha : (P.node i).kind ≠ .arg)
    (hs : (P.node i).stmt = false) (hp : (P.node i).returnsPtr = true) (he : (P.node i).callsExtern = false)
    (ho : (P.node i).overwrites ≥ 0) (hl : (P.node i).lets = 1) : reg P i = reg P (target P i) := by
  have hm := target_mem P W i ho
  have hlt := W.before i hi _ hm
  rw [← reg_eq P i (i + 1) (by omega) (by omega), ← reg_eq P (target P i) i hlt (by omega), ra_succ]
  have := W.over i
  have hlen : (P.node i).overwrites.toNat < (P.node i).children.length := by omega
  have hget : ((P.node i).children.map fun c => (ra P i).iv c).getD (P.node i).overwrites.toNat {} = (ra P i).iv (target P i) := by
    unfold target
    rw [List.getD_eq_getElem?_getD, List.getD_eq_getElem?_getD, List.getElem?_map, List.getElem?_eq_getElem hlen]
    rfl
  unfold allocStep
  simp only [id, ne_eq, not_true_eq_false, if_false, ha, hs, Bool.false_eq_true, hp, if_true]
  unfold RA.mutableOp
  simp only [id, ho, if_true, hl, true_or, he, hget]
  simp [setResult, upd]

/-- The instruction of a let statement does nothing. -/
theorem let_does_nothing (E : Env V) (m : M V) (r w : Nat) : step E m (.letI r w) = some m := rfl

/-- Three inputs, an operation on two of them whose result is assigned to input `t`. -/
def setP (a b t : Nat) (o : Int) (ptr ext : Bool) : Prog :=
  [{ kind := .arg, hash := 0 }, { kind := .arg, hash := 1 }, { kind := .arg, hash := 2 },
   { children := [a, b], overwrites := o, hash := 3, lets := 1, returnsPtr := ptr, callsExtern := ext },
   { kind := .letS, children := [t, 3], hash := 4 }]

/-- The operand whose register the operation gets. -/
def setTakes (a b : Nat) (o : Int) (ptr ext : Bool) : Option Nat :=
  if ptr = true ∧ ext = false then (if o = 0 then some a else if o = 1 then some b else none) else none

/-- The code compiled for it. -/
def setCode (a b t : Nat) (o : Int) (ptr ext : Bool) : List Instr :=
  [.loadArg 0 0, .loadArg 1 1, .loadArg 2 2] ++
  (if ptr = true ∧ ext = true then [.alloc 3 3] else []) ++
  (match setTakes a b o ptr ext with
   | some c => [.exec 3 [a, b] c false true, .letI c t]
   | none => [.exec 3 [a, b] 3 (ptr && ext) false, .letI 3 t])

theorem set_code_fin : ∀ (a b t : Fin 3) (o : Fin 3) (ptr ext : Bool),
    compile (setP a b t ((o : Nat) - 1 : Int) ptr ext) [0, 1, 2] = setCode a b t ((o : Nat) - 1 : Int) ptr ext := by
  decide +kernel

theorem set_code (a b t : Nat) (o : Int) (ptr ext : Bool) (ha : a < 3) (hb : b < 3) (ht : t < 3) (ho : -1 ≤ o)
    (ho' : o < 2) : compile (setP a b t o ptr ext) [0, 1, 2] = setCode a b t o ptr ext := by
  have h := set_code_fin ⟨a, ha⟩ ⟨b, hb⟩ ⟨t, ht⟩ ⟨(o + 1).toNat, by omega⟩ ptr ext
  have e : (((o + 1).toNat : Nat) : Int) - 1 = o := by omega
  simp only at h
  rw [e] at h
  exact h

/-- The machine with the three inputs loaded. -/
def loaded (E : Env V) (m : M V) : M V :=
  { m with regs := upd (upd (upd m.regs 0 (E.inp 0)) 1 (E.inp 1)) 2 (E.inp 2) }

theorem loaded_regs (E : Env V) (m : M V) (a : Nat) (ha : a < 3) : (loaded E m).regs a = E.inp a := by
  have : a = 0 ∨ a = 1 ∨ a = 2 := by omega
  rcases this with rfl | rfl | rfl <;> simp [loaded, upd]

/-- Running three loads and then `rest`. -/
theorem run_loads (E : Env V) (m : M V) (ad : Nat → Nat) (hin : ∀ i, i < 3 → E.inp i = some (ad i)) (rest : List Instr)
    (fuel : Nat) :
    runall E ([.loadArg 0 0, .loadArg 1 1, .loadArg 2 2] ++ rest) (fuel + 3) m 0 =
      runall E ([.loadArg 0 0, .loadArg 1 1, .loadArg 2 2] ++ rest) fuel (loaded E m) 3 := by
  have h0 := hin 0 (by omega)
  have h1 := hin 1 (by omega)
  have h2 := hin 2 (by omega)
  simp only [runall, List.cons_append, List.getElem?_cons_zero, List.getElem?_cons_succ, step, h0, h1, h2, loaded]

/-- **C104 (exactly what Set does).** Whatever the values and the operation: the run succeeds, and of the values in memory
before it the one in the place of the operand that the operation overwrites is replaced by the result, if the operation
works in preallocated memory; no other value changes. The place of the node that `Set` names plays no part. -/
theorem set_run (E : Env V) (m : M V) (ad : Nat → Nat) (a b t : Nat) (o : Int) (ptr ext : Bool) (ha : a < 3) (hb : b < 3)
    (ht : t < 3) (ho : -1 ≤ o) (ho' : o < 2) (hin : ∀ i, i < 3 → E.inp i = some (ad i)) (had : ∀ i, i < 3 → ad i < m.next)
    (h3 : m.regs 3 = none) (hret : (E.sem 3).ret = .fresh) (y : V) (hy : (E.sem 3).f [m.mem (ad a), m.mem (ad b)] = some y) :
    let r := runAll E (compile (setP a b t o ptr ext) [0, 1, 2]) m 0
    r.2.2 = false ∧ ∀ q, q < m.next → r.1.mem q =
      if (E.sem 3).pre = true ∧ ∃ c, setTakes a b o ptr ext = some c ∧ q = ad c then y else m.mem q := by
  have hla := loaded_regs E m a ha
  have hlb := loaded_regs E m b hb
  rw [hin a ha] at hla
  rw [hin b hb] at hlb
  have hl3 : (loaded E m).regs 3 = none := by simp [loaded, upd, h3]
  have hmem : (loaded E m).mem = m.mem := rfl
  have hnext : (loaded E m).next = m.next := rfl
  have hads : getAddrs (loaded E m) [a, b] = some [ad a, ad b] := by simp [getAddrs, hla, hlb]
  simp only [set_code a b t o ptr ext ha hb ht ho ho']
  cases htk : setTakes a b o ptr ext with
  | some c =>
    have hpe : ptr = true ∧ ext = false := by
      by_contra hn
      simp [setTakes, if_neg hn] at htk
    have hc : c = a ∨ c = b := by
      simp only [setTakes, if_pos hpe] at htk
      by_cases e0 : o = 0
      · rw [if_pos e0] at htk; cases htk; exact Or.inl rfl
      · rw [if_neg e0] at htk
        by_cases e1 : o = 1
        · rw [if_pos e1] at htk; cases htk; exact Or.inr rfl
        · rw [if_neg e1] at htk; cases htk
    have hc3 : c < 3 := by rcases hc with rfl | rfl <;> assumption
    have hlc := loaded_regs E m c hc3
    rw [hin c hc3] at hlc
    have hcode : setCode a b t o ptr ext =
        [.loadArg 0 0, .loadArg 1 1, .loadArg 2 2] ++ [.exec 3 [a, b] c false true, .letI c t] := by
      simp only [setCode, htk]
      rw [if_neg (by rw [hpe.2]; simp)]
      rfl
    rw [hcode]
    unfold runAll
    rw [show ([.loadArg 0 0, .loadArg 1 1, .loadArg 2 2] ++ [.exec 3 [a, b] c false true, .letI c t] : List Instr).length = 2 + 3 from rfl,
      run_loads E m ad hin]
    by_cases hpre : (E.sem 3).pre = true
    · have hstep : step E (loaded E m) (.exec 3 [a, b] c false true) =
          some ({ loaded E m with seen := m.seen ++ [(3, [m.mem (ad a), m.mem (ad b)])], mem := upd m.mem (ad c) y }.put 3 c (ad c)) := by
        simp only [step, execOp, hads, hlc, hpre, if_true, writeAt, List.map_cons, List.map_nil, hmem, hy]
        rfl
      simp only [runall, List.cons_append, List.nil_append, List.getElem?_cons_zero, List.getElem?_cons_succ, hstep,
        let_does_nothing]
      refine ⟨trivial, fun q hq => ?_⟩
      simp only [M.put, upd, hpre, true_and, Option.some.injEq, exists_eq_left']
    · have hstep : step E (loaded E m) (.exec 3 [a, b] c false true) =
          some ({ loaded E m with seen := m.seen ++ [(3, [m.mem (ad a), m.mem (ad b)])], mem := upd m.mem m.next y, next := m.next + 1 }.put 3 c m.next) := by
        simp only [step, execOp, hads, hlc, hpre, if_false, doOp, hret, List.map_cons, List.map_nil, hmem, hy]
        rfl
      simp only [runall, List.cons_append, List.nil_append, List.getElem?_cons_zero, List.getElem?_cons_succ, hstep,
        let_does_nothing]
      refine ⟨trivial, fun q hq => ?_⟩
      have : q ≠ m.next := by omega
      simp only [M.put, upd, this, if_false, hpre, false_and]
      rfl
  | none =>
    have hgoal : ∀ q, (if (E.sem 3).pre = true ∧ ∃ c, (none : Option Nat) = some c ∧ q = ad c then y else m.mem q) = m.mem q := by
      intro q
      rw [if_neg]
      rintro ⟨_, c, hc, _⟩
      cases hc
    simp only [hgoal]
    by_cases hal : ptr = true ∧ ext = true
    · have hcode : setCode a b t o ptr ext =
          [.loadArg 0 0, .loadArg 1 1, .loadArg 2 2] ++ [.alloc 3 3, .exec 3 [a, b] 3 (ptr && ext) false, .letI 3 t] := by
        simp only [setCode, htk, if_pos hal]
        rfl
      rw [hcode]
      unfold runAll
      rw [show ([.loadArg 0 0, .loadArg 1 1, .loadArg 2 2] ++ [.alloc 3 3, .exec 3 [a, b] 3 (ptr && ext) false, .letI 3 t] : List Instr).length = 3 + 3 from rfl,
        run_loads E m ad hin]
      let m1 : M V := { loaded E m with regs := upd (loaded E m).regs 3 (some m.next), mem := upd m.mem m.next E.blank, next := m.next + 1 }
      have hs1 : step E (loaded E m) (.alloc 3 3) = some m1 := by simp only [step, hl3]; rfl
      have hads1 : getAddrs m1 [a, b] = some [ad a, ad b] := by
        have e1 : m1.regs a = some (ad a) := by simp [m1, upd, Nat.ne_of_lt ha, hla]
        have e2 : m1.regs b = some (ad b) := by simp [m1, upd, Nat.ne_of_lt hb, hlb]
        simp [getAddrs, e1, e2]
      have h13 : m1.regs 3 = some m.next := by simp [m1, upd]
      have hma : m1.mem (ad a) = m.mem (ad a) := by simp [m1, upd, Nat.ne_of_lt (had a ha)]
      have hmb : m1.mem (ad b) = m.mem (ad b) := by simp [m1, upd, Nat.ne_of_lt (had b hb)]
      have hold : ∀ q, q < m.next → m1.mem q = m.mem q := by
        intro q hq; simp [m1, upd, Nat.ne_of_lt hq]
      have hstep : ∃ m2, step E m1 (.exec 3 [a, b] 3 (ptr && ext) false) = some m2 ∧ ∀ q, q < m.next → m2.mem q = m.mem q := by
        by_cases hpre : (E.sem 3).pre = true
        · simp only [step, execOp, hads1, h13, hpre, if_true, writeAt, List.map_cons, List.map_nil, hma, hmb, hy]
          refine ⟨_, rfl, fun q hq => ?_⟩
          simp only [M.put, upd, Nat.ne_of_lt hq, if_false]
          exact hold q hq
        · simp only [step, execOp, hads1, h13, hpre, if_false, doOp, hret, List.map_cons, List.map_nil, hma, hmb, hy]
          refine ⟨_, rfl, fun q hq => ?_⟩
          have : q ≠ m1.next := by simp only [m1]; omega
          simp only [M.put, upd, this, if_false]
          exact hold q hq
      obtain ⟨m2, hs2, hm2⟩ := hstep
      simp only [runall, List.cons_append, List.nil_append, List.getElem?_cons_zero, List.getElem?_cons_succ, hs1, hs2,
        let_does_nothing]
      exact ⟨trivial, hm2⟩
    · have hcode : setCode a b t o ptr ext =
          [.loadArg 0 0, .loadArg 1 1, .loadArg 2 2] ++ [.exec 3 [a, b] 3 (ptr && ext) false, .letI 3 t] := by
        simp only [setCode, htk, if_neg hal]
        rfl
      rw [hcode]
      unfold runAll
      rw [show ([.loadArg 0 0, .loadArg 1 1, .loadArg 2 2] ++ [.exec 3 [a, b] 3 (ptr && ext) false, .letI 3 t] : List Instr).length = 2 + 3 from rfl,
        run_loads E m ad hin]
      have hstep : ∃ m2, step E (loaded E m) (.exec 3 [a, b] 3 (ptr && ext) false) = some m2 ∧ ∀ q, q < m.next → m2.mem q = m.mem q := by
        simp only [step, execOp, hads, hl3, doOp, hret, List.map_cons, List.map_nil, hmem, hy]
        rw [if_neg (by simp)]
        refine ⟨_, rfl, fun q hq => ?_⟩
        have : q ≠ m.next := by omega
        simp only [M.put, upd, hnext, this, if_false]
      obtain ⟨m2, hs2, hm2⟩ := hstep
      simp only [runall, List.cons_append, List.nil_append, List.getElem?_cons_zero, List.getElem?_cons_succ, hs2,
        let_does_nothing]
      exact ⟨trivial, hm2⟩

/-- What `Set(t, op(a, b))` is for: after a run the input `t` holds the result, and the other inputs what they held. -/
def SetWorks (E : Env V) (m : M V) (ad : Nat → Nat) (t : Nat) (code : List Instr) (y : V) : Prop :=
  (runAll E code m 0).1.mem (ad t) = y ∧ ∀ i, i < 3 → i ≠ t → (runAll E code m 0).1.mem (ad i) = m.mem (ad i)

/-- **C104 (when Set assigns).** For inputs in different places, where the result differs from what the inputs hold, `Set`
works exactly if the node assigned to is the operand that the operation overwrites and the operation works in
preallocated memory, returns a pointer and calls nothing external. -/
theorem set_works_iff (E : Env V) (m : M V) (ad : Nat → Nat) (a b t : Nat) (o : Int) (ptr ext : Bool) (ha : a < 3) (hb : b < 3)
    (ht : t < 3) (ho : -1 ≤ o) (ho' : o < 2) (hin : ∀ i, i < 3 → E.inp i = some (ad i)) (had : ∀ i, i < 3 → ad i < m.next)
    (hinj : ∀ i j, i < 3 → j < 3 → ad i = ad j → i = j)
    (h3 : m.regs 3 = none) (hret : (E.sem 3).ret = .fresh) (y : V) (hy : (E.sem 3).f [m.mem (ad a), m.mem (ad b)] = some y)
    (hne : ∀ i, i < 3 → m.mem (ad i) ≠ y) :
    SetWorks E m ad t (compile (setP a b t o ptr ext) [0, 1, 2]) y ↔
      (E.sem 3).pre = true ∧ ptr = true ∧ ext = false ∧ (o = 0 ∧ t = a ∨ o = 1 ∧ t = b) := by
  have hr := (set_run E m ad a b t o ptr ext ha hb ht ho ho' hin had h3 hret y hy).2
  have key : SetWorks E m ad t (compile (setP a b t o ptr ext) [0, 1, 2]) y ↔
      (E.sem 3).pre = true ∧ setTakes a b o ptr ext = some t := by
    constructor
    · rintro ⟨h1, _⟩
      rw [hr _ (had t ht)] at h1
      by_cases hc : (E.sem 3).pre = true ∧ ∃ c, setTakes a b o ptr ext = some c ∧ ad t = ad c
      · obtain ⟨hp, c, hc, he⟩ := hc
        refine ⟨hp, ?_⟩
        have hc3 : c < 3 := by
          simp only [setTakes] at hc
          split at hc
          · split at hc
            · cases hc; exact ha
            · split at hc
              · cases hc; exact hb
              · cases hc
          · cases hc
        rw [hc, hinj t c ht hc3 he]
      · rw [if_neg hc] at h1
        exact absurd h1 (hne t ht)
    · rintro ⟨hp, hc⟩
      refine ⟨?_, fun i hi hit => ?_⟩
      · rw [hr _ (had t ht), if_pos ⟨hp, t, hc, rfl⟩]
      · rw [hr _ (had i hi), if_neg]
        rintro ⟨_, c, hc', he⟩
        rw [hc] at hc'
        cases hc'
        exact hit (hinj i t hi ht he)
  rw [key]
  constructor
  · rintro ⟨hp, hc⟩
    refine ⟨hp, ?_⟩
    simp only [setTakes] at hc
    by_cases hpe : ptr = true ∧ ext = false
    · rw [if_pos hpe] at hc
      refine ⟨hpe.1, hpe.2, ?_⟩
      by_cases e0 : o = 0
      · rw [if_pos e0] at hc; cases hc; exact Or.inl ⟨e0, rfl⟩
      · rw [if_neg e0] at hc
        by_cases e1 : o = 1
        · rw [if_pos e1] at hc; cases hc; exact Or.inr ⟨e1, rfl⟩
        · rw [if_neg e1] at hc; cases hc
    · rw [if_neg hpe] at hc; cases hc
  · rintro ⟨hp, h1, h2, h⟩
    refine ⟨hp, ?_⟩
    simp only [setTakes, if_pos (And.intro h1 h2)]
    rcases h with ⟨rfl, rfl⟩ | ⟨rfl, rfl⟩
    · rw [if_pos rfl]
    · rw [if_neg (by decide), if_pos rfl]

/-- **C104 (defect: another node is assigned to).** If the operation overwrites its first operand, `Set(t, op(a, b))` with
another `t` puts the result into the input `a` and leaves `t` as it was. -/
theorem set_wrong_target (E : Env V) (m : M V) (ad : Nat → Nat) (a b t : Nat) (ha : a < 3) (hb : b < 3) (ht : t < 3)
    (hta : ad t ≠ ad a) (hin : ∀ i, i < 3 → E.inp i = some (ad i)) (had : ∀ i, i < 3 → ad i < m.next)
    (h3 : m.regs 3 = none) (hret : (E.sem 3).ret = .fresh) (hpre : (E.sem 3).pre = true) (y : V)
    (hy : (E.sem 3).f [m.mem (ad a), m.mem (ad b)] = some y) :
    let m' := (runAll E (compile (setP a b t 0 true false) [0, 1, 2]) m 0).1
    m'.mem (ad a) = y ∧ m'.mem (ad t) = m.mem (ad t) := by
  have hr := (set_run E m ad a b t 0 true false ha hb ht (by decide) (by decide) hin had h3 hret y hy).2
  refine ⟨?_, ?_⟩
  · rw [hr _ (had a ha), if_pos ⟨hpre, a, rfl, rfl⟩]
  · rw [hr _ (had t ht), if_neg]
    rintro ⟨_, c, hc, he⟩
    cases hc
    exact hta he

/-- Inputs 10, 21, 30 at places 5, 6, 7; node 3 subtracts. -/
def setE : Env Int where
  sem := fun _ => { f := fun vs => match vs with | [x, y] => some (x - y) | _ => none, pre := true, uns := true }
  inp := fun i => if i < 3 then some (5 + i) else none
  over := fun _ => 0
  blank := 0

def setM : M Int :=
  { regs := fun _ => none, mem := fun q => if q = 5 then 10 else if q = 6 then 21 else if q = 7 then 30 else 0,
    bound := fun _ => none, next := 8, seen := [] }

/-- `Set(w, w - x)` works, `Set(x, w - x)` changes `w` instead. -/
example :
    ((runAll setE (compile (setP 2 0 2 0 true false) [0, 1, 2]) setM 0).1.mem 7 = 20) ∧
    ((runAll setE (compile (setP 2 0 0 0 true false) [0, 1, 2]) setM 0).1.mem 5 = 10) ∧
    ((runAll setE (compile (setP 2 0 0 0 true false) [0, 1, 2]) setM 0).1.mem 7 = 20) ∧
    ((runAll setE (compile (setP 2 0 2 0 false false) [0, 1, 2]) setM 0).1.mem 7 = 30) := by
  decide +kernel

example : SetWorks setE setM (fun i => 5 + i) 2 (compile (setP 2 0 2 0 true false) [0, 1, 2]) 20 :=
  (set_works_iff setE setM (fun i => 5 + i) 2 0 2 0 true false (by decide) (by decide) (by decide) (by decide) (by decide)
    (fun i hi => by simp [setE, hi]) (fun i hi => by simp only [setM]; omega) (fun i j _ _ h => by simpa using h) rfl rfl 20 rfl
    (fun i hi => by
      have : i = 0 ∨ i = 1 ∨ i = 2 := by omega
      rcases this with rfl | rfl | rfl <;> decide)).2 (by decide)

end Verif.Tape
