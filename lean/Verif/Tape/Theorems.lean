import Verif.Tape.Run
/-!
The tape machine: what a run computes, what it leaves alone, how it stops, and running again.
-/
set_option autoImplicit false
namespace Verif.Tape

variable {V : Type}

section
variable {P : Prog} {E : Env V} {mem0 : Nat → V} {B : Nat} {seen0 : List (Nat × List V)} {k : Nat} {m : M V}
  {A : Nat → Nat}

theorem loc_arg (hk : k < P.length) (ha : (P.node k).kind = .arg) : loc P E k = (k, true) := by
  unfold loc
  rw [locTo_stable P E k _ hk]
  simp only [locTo]
  rw [upd_same]
  unfold locStep
  rw [if_pos ha]

theorem value_arg (W : WF P) (hk : k < P.length) (ha : (P.node k).kind = .arg) :
    value P E mem0 k = (E.inp k).map mem0 := by
  rw [value_eq P W E mem0 k hk]; unfold evalNode; rw [ha]

/-- One node whose value is defined. -/
theorem node_ok (W : WF P) (hn : NoLet P) (S : SemOK P E mem0 B) (hsafe : Safe P E)
    (I : MInv P E mem0 B seen0 k m A) (hk : k < P.length)
    (hd : (P.node k).stmt = false → value P E mem0 k ≠ none) :
    ∃ m' A', runList E m (frag P k) = some m' ∧ MInv P E mem0 B seen0 (k + 1) m' A' := by
  cases hst : (P.node k).stmt with
  | false =>
    by_cases ha : (P.node k).kind = .arg
    · have hv := value_arg (E := E) (mem0 := mem0) W hk ha
      cases hi : E.inp k with
      | none => rw [hi] at hv; exact absurd hv (hd hst)
      | some p =>
        rw [hi] at hv
        have hpB := S.inp k p hi
        have hfr : frag P k = [.loadArg k (reg P k)] := by unfold frag; rw [ha]
        have hl := loc_arg (E := E) hk ha
        have hex : expectAt P E mem0 k = [] := by unfold expectAt; rw [ha]
        have L := land I hst (mem0 p) hv { m with regs := upd m.regs (reg P k) (some p) } p
          (fun r h => upd_ne _ _ _ _ h) (upd_same _ _ _) (fun _ _ => rfl) (fun h => absurd ha h) (Nat.le_refl _)
          (I.user p hpB) (fun _ _ _ _ => rfl) (fun _ _ => rfl)
          (by rw [expect_succ, hex, List.append_nil]; exact I.seen)
          (.inl ⟨by rw [hl], .inl ⟨by rw [hl], hpB⟩⟩)
        obtain ⟨A', h⟩ := L
        refine ⟨_, A', ?_, h⟩
        rw [hfr]
        simp only [runList, step, hi]
    · have := op_step W hn S hsafe I hk hst ha
      cases hv : value P E mem0 k with
      | none => exact absurd hv (hd hst)
      | some y => rw [hv] at this; exact this
  | true =>
    cases hkd : (P.node k).kind with
    | letS =>
      have hex : expectAt P E mem0 k = [] := by unfold expectAt; rw [hkd]
      refine ⟨m, A, ?_, pass I hst m rfl rfl rfl rfl (by rw [expect_succ, hex, List.append_nil]; exact I.seen)⟩
      unfold frag; rw [hkd]; rfl
    | atS =>
      have hex : expectAt P E mem0 k = [] := by unfold expectAt; rw [hkd]
      refine ⟨m, A, ?_, pass I hst m rfl rfl rfl rfl (by rw [expect_succ, hex, List.append_nil]; exact I.seen)⟩
      unfold frag; rw [hkd]; rfl
    | readS =>
      have hlen := S.reads k hk hkd
      obtain ⟨c, hc⟩ := List.length_eq_one_iff.1 hlen
      obtain ⟨o1, o2, o3, o4⟩ := operand W hn I hk c (by rw [hc]; simp)
      have hex : expectAt P E mem0 k = [(k, [m.mem (A (loc P E c).1)])] := by
        unfold expectAt; rw [hkd, hc]
        simp only [List.mapM_cons, List.mapM_nil, o4]
        rfl
      refine ⟨{ m with seen := m.seen ++ [(k, [m.mem (A (loc P E c).1)])] }, A, ?_,
        pass I hst _ rfl rfl rfl rfl ?_⟩
      · have : frag P k = [.read k (reg P c)] := by unfold frag; rw [hkd, hc]; rfl
        rw [this]
        simp only [runList, step, o3]
      · rw [expect_succ, hex, ← List.append_assoc, ← I.seen]
    | arg => simp [Node.stmt, hkd] at hst
    | random => simp [Node.stmt, hkd] at hst
    | const => simp [Node.stmt, hkd] at hst
    | op => simp [Node.stmt, hkd] at hst

/-- One node whose value is not defined: its last instruction fails, the one before it at most allocates memory. -/
theorem node_fail (W : WF P) (hn : NoLet P) (S : SemOK P E mem0 B) (hsafe : Safe P E)
    (I : MInv P E mem0 B seen0 k m A) (hk : k < P.length) (hst : (P.node k).stmt = false)
    (hv : value P E mem0 k = none) :
    ∃ pre ins m1, frag P k = pre ++ [ins] ∧ runList E m pre = some m1 ∧ step E m1 ins = none ∧
      m1.seen = m.seen ∧ m1.bound = m.bound ∧ m.next ≤ m1.next ∧ ∀ x, x < m.next → m1.mem x = m.mem x := by
  by_cases ha : (P.node k).kind = .arg
  · have hv' := value_arg (E := E) (mem0 := mem0) W hk ha
    rw [hv] at hv'
    have hi : E.inp k = none := by
      cases h : E.inp k with
      | none => rfl
      | some p => rw [h] at hv'; cases hv'
    refine ⟨[], .loadArg k (reg P k), m, by unfold frag; rw [ha]; rfl, rfl, ?_, rfl, rfl, Nat.le_refl _, fun _ _ => rfl⟩
    simp only [step, hi]
  · have := op_step W hn S hsafe I hk hst ha
    rw [hv] at this
    simp only at this
    rw [frag_op hst ha] at this ⊢
    cases hal : hasAlloc P k with
    | false =>
      refine ⟨[], _, m, by simp only [Bool.false_eq_true, ↓reduceIte]; rfl, rfl, ?_, rfl, rfl, Nat.le_refl _, fun _ _ => rfl⟩
      rw [hal] at this
      simp only [Bool.false_eq_true, ↓reduceIte, List.nil_append, runList] at this
      split at this
      · rename_i h; exact h
      · cases this
    | true =>
      rw [hal] at this
      simp only [↓reduceIte] at this ⊢
      rw [runList_append] at this
      obtain ⟨m1, h1, h2, h3, h4, h5⟩ : ∃ m1, runList E m [Instr.alloc k (reg P k)] = some m1 ∧ m1.seen = m.seen ∧
          m1.bound = m.bound ∧ m.next ≤ m1.next ∧ ∀ x, x < m.next → m1.mem x = m.mem x := by
        simp only [runList, step]
        cases m.regs (reg P k) with
        | some p => exact ⟨m, rfl, rfl, rfl, Nat.le_refl _, fun _ _ => rfl⟩
        | none =>
          refine ⟨_, rfl, rfl, rfl, by simp only; omega, fun x hx => ?_⟩
          exact upd_ne _ _ _ _ (by omega)
      rw [h1] at this
      refine ⟨[Instr.alloc k (reg P k)], _, m1, rfl, h1, ?_, h2, h3, h4, h5⟩
      simp only [Option.bind_some, runList] at this
      split at this
      · rename_i h; exact h
      · cases this

end

theorem inv_zero (P : Prog) (E : Env V) (B : Nat) (m : M V) (h0 : ∀ r, m.regs r = none) (hB : B ≤ m.next) :
    MInv P E m.mem B m.seen 0 m id := by
  constructor
  case empty => intro r _; exact h0 r
  case next => exact hB
  case seen => simp [expect]
  case user => intro _ _; rfl
  all_goals (intro a; intros; omega)

/-- The first `k` nodes. -/
theorem prefix_ok (P : Prog) (W : WF P) (hn : NoLet P) (E : Env V) (B : Nat) (m : M V) (S : SemOK P E m.mem B)
    (hsafe : Safe P E) (h0 : ∀ r, m.regs r = none) (hB : B ≤ m.next) (k : Nat) (hk : k ≤ P.length)
    (hd : ∀ i, i < k → (P.node i).stmt = false → value P E m.mem i ≠ none) :
    ∃ m' A, runList E m ((List.range k).flatMap (frag P)) = some m' ∧ MInv P E m.mem B m.seen k m' A := by
  induction k with
  | zero => exact ⟨m, id, rfl, inv_zero P E B m h0 hB⟩
  | succ k ih =>
    obtain ⟨m1, A1, h1, I1⟩ := ih (by omega) (fun i hi => hd i (by omega))
    obtain ⟨m2, A2, h2, I2⟩ := node_ok W hn S hsafe I1 (by omega) (hd k (by omega))
    refine ⟨m2, A2, ?_, I2⟩
    rw [List.range_succ, List.flatMap_append, runList_append, h1]
    simpa using h2

/-! ### The run loop -/

theorem runall_reach (E : Env V) (code : List Instr) (m' : M V) (d : Nat) :
    ∀ (fuel : Nat) (m : M V) (pc : Nat), pc + d ≤ code.length → d ≤ fuel →
      runList E m ((code.drop pc).take d) = some m' →
      runall E code fuel m pc = runall E code (fuel - d) m' (pc + d) := by
  induction d with
  | zero =>
    intro fuel m pc _ _ h
    simp only [List.take_zero, runList] at h
    cases h; rfl
  | succ d ih =>
    intro fuel m pc hl hf h
    have hlt : pc < code.length := by omega
    rw [List.drop_eq_getElem_cons hlt, List.take_succ_cons] at h
    simp only [runList] at h
    cases fuel with
    | zero => omega
    | succ n =>
      conv_lhs => unfold runall
      rw [List.getElem?_eq_getElem hlt]
      simp only
      cases hs : step E m code[pc] with
      | none => rw [hs] at h; cases h
      | some m1 =>
        rw [hs] at h
        simp only at h ⊢
        rw [ih n m1 (pc + 1) (by omega) (by omega) h]
        rw [show n + 1 - (d + 1) = n - d by omega, show pc + 1 + d = pc + (d + 1) by omega]

/-- **C13 (the run loop).** The run loop executes the instructions from the program counter on one after the other,
each exactly once, and stops at the first that reports an error: the program counter is left at that instruction, the
machine in the state in which the instruction found it, and nothing after it is executed. Otherwise it stops at the
end. -/
theorem runall_stops (E : Env V) (code : List Instr) (m : M V) (pc : Nat) (hpc : pc ≤ code.length) :
    ∃ m' q err, runAll E code m pc = (m', q, err) ∧ pc ≤ q ∧ q ≤ code.length ∧
      runList E m ((code.drop pc).take (q - pc)) = some m' ∧
      (err = true → ∃ ins, code[q]? = some ins ∧ step E m' ins = none) ∧
      (err = false → q = code.length) := by
  unfold runAll
  suffices H : ∀ (fuel : Nat) (m : M V) (pc : Nat), pc ≤ code.length → code.length ≤ pc + fuel →
      ∃ m' q err, runall E code fuel m pc = (m', q, err) ∧ pc ≤ q ∧ q ≤ code.length ∧
      runList E m ((code.drop pc).take (q - pc)) = some m' ∧
      (err = true → ∃ ins, code[q]? = some ins ∧ step E m' ins = none) ∧
      (err = false → q = code.length) from H _ m pc hpc (by omega)
  intro fuel
  induction fuel with
  | zero =>
    intro m pc h1 h2
    refine ⟨m, pc, false, rfl, Nat.le_refl _, h1, ?_, (fun h => nomatch h), fun _ => by omega⟩
    simp [runList]
  | succ n ih =>
    intro m pc h1 h2
    unfold runall
    rcases Nat.lt_or_ge pc code.length with hlt | hge
    · rw [List.getElem?_eq_getElem hlt]
      simp only
      cases hs : step E m code[pc] with
      | none =>
        refine ⟨m, pc, true, rfl, Nat.le_refl _, h1, by simp [runList], fun _ => ?_, fun h => by cases h⟩
        exact ⟨_, List.getElem?_eq_getElem hlt, hs⟩
      | some m1 =>
        simp only
        obtain ⟨m', q, err, e1, e2, e3, e4, e5, e6⟩ := ih m1 (pc + 1) (by omega) (by omega)
        refine ⟨m', q, err, e1, by omega, e3, ?_, e5, e6⟩
        rw [List.drop_eq_getElem_cons hlt, show q - pc = (q - (pc + 1)) + 1 by omega, List.take_succ_cons]
        simp only [runList, hs]
        exact e4
    · rw [List.getElem?_eq_none hge]
      refine ⟨m, pc, false, rfl, Nat.le_refl _, h1, by simp [runList], (fun h => nomatch h), fun _ => by omega⟩

/-! ### Whole runs -/

/-- What is known about a program and the state a run starts in. The registers are empty (a new machine, or after
`Reset`); memory below `B` belongs to the user and to constants. -/
structure Start (P : Prog) (E : Env V) (B : Nat) (m : M V) (leaves : List Nat) : Prop where
  wf : WF P
  leaves : ∀ l ∈ leaves, l < P.length
  noclash : NoClash P
  nolet : NoLet P
  sem : SemOK P E m.mem B
  safe : Safe P E
  regs : ∀ r, m.regs r = none
  mem : B ≤ m.next

/-- **C10, partial.** If the expression graph gives a value to every node, a run of the compiled program ends without
error, at the end of the program; every operation is executed once, in order, on exactly the values the expression
graph gives to its operands, and every read statement reads the value of its operand; and at the end every node whose
value nobody consumes, every constant, and every gradient of an input is bound to memory that holds its value. Missing:
merged nodes and let statements; `Safe` must be assumed of programs in which an operation returns the memory of an
operand (`alias_free_safe` shows it for all others; `run_wrong` shows that it cannot be dropped). -/
theorem run_computes_partial (P : Prog) (E : Env V) (B : Nat) (m : M V) (leaves : List Nat)
    (H : Start P E B m leaves)
    (hd : ∀ i, i < P.length → (P.node i).stmt = false → value P E m.mem i ≠ none) :
    ∃ m', runAll E (compile P leaves) m 0 = (m', (compile P leaves).length, false) ∧
      m'.seen = m.seen ++ (List.range P.length).flatMap (expectAt P E m.mem) ∧
      (∀ a, a < P.length → (P.node a).stmt = false → (P.node a).kind ≠ .arg → (Kept P a ∨ ∀ j, ¬ Uses P j a) →
        ∃ p, m'.bound a = some p ∧ value P E m.mem a = some (m'.mem p)) ∧
      (∀ x, x < B → m'.mem x = m.mem x) ∧ B ≤ m'.next := by
  obtain ⟨m', A, h, I⟩ := prefix_ok P H.wf H.nolet E B m H.sem H.safe H.regs H.mem P.length (Nat.le_refl _) hd
  rw [← compile_frags P H.wf leaves H.leaves H.noclash] at h
  refine ⟨m', ?_, I.seen, ?_, I.user, I.next⟩
  · unfold runAll
    rw [runall_reach E _ m' (compile P leaves).length _ m 0 (by omega) (Nat.le_refl _) (by simpa using h)]
    simp [runall]
  · intro a ha hsa hka hn
    exact ⟨_, I.bnd a ha hsa hka, I.val a ha hsa (.inr hn)⟩

/-- **C13, partial (failing operations).** If the expression graph gives no value to the node at `i` (its operation fails
or its input is missing) but to all nodes before it, the run reports an error; the program counter is left at the
instruction of that node; exactly the operations before it have been executed, on the right values; and what is still
wanted of the earlier results is in place. Missing: as for `run_computes_partial`. -/
theorem run_fails_partial (P : Prog) (E : Env V) (B : Nat) (m : M V) (leaves : List Nat) (H : Start P E B m leaves)
    (i : Nat) (hi : i < P.length) (hsi : (P.node i).stmt = false) (hv : value P E m.mem i = none)
    (hd : ∀ a, a < i → (P.node a).stmt = false → value P E m.mem a ≠ none) :
    ∃ m' q ins, runAll E (compile P leaves) m 0 = (m', q, true) ∧ (compile P leaves)[q]? = some ins ∧
      (ins = .loadArg i (reg P i) ∨ ∃ rs w p u, ins = .exec i rs w p u) ∧
      q + 1 = ((List.range (i + 1)).flatMap (frag P)).length ∧
      m'.seen = m.seen ++ (List.range i).flatMap (expectAt P E m.mem) ∧
      (∀ a, a < i → (P.node a).stmt = false → (P.node a).kind ≠ .arg → Needed P a i →
        ∃ p, m'.bound a = some p ∧ value P E m.mem a = some (m'.mem p)) ∧
      (∀ x, x < B → m'.mem x = m.mem x) ∧ B ≤ m'.next := by
  obtain ⟨m1, A, h1, I⟩ := prefix_ok P H.wf H.nolet E B m H.sem H.safe H.regs H.mem i (by omega) hd
  obtain ⟨pre, ins, m2, f1, f2, f3, f4, f5, f6, f7⟩ := node_fail H.wf H.nolet H.sem H.safe I hi hsi hv
  have hc := compile_frags P H.wf leaves H.leaves H.noclash
  -- the code in three parts
  obtain ⟨rest, hrest⟩ : ∃ rest, compile P leaves = (List.range i).flatMap (frag P) ++ (pre ++ ins :: rest) := by
    rw [hc, show P.length = i + (1 + (P.length - i - 1)) by omega, List.range_add, List.flatMap_append, List.range_add]
    refine ⟨((List.map (fun x => i + x) (List.map (fun x => 1 + x) (List.range (P.length - i - 1)))).flatMap (frag P)), ?_⟩
    rw [List.map_append, List.flatMap_append]
    simp only [List.range_one, List.map_cons, List.map_nil, List.flatMap_cons, List.flatMap_nil, Nat.add_zero,
      List.append_nil, f1, List.append_assoc, List.cons_append, List.nil_append]
  set q := ((List.range i).flatMap (frag P)).length + pre.length with hq
  have hgq : (compile P leaves)[q]? = some ins := by
    rw [hrest, List.getElem?_append_right (by omega), hq, Nat.add_sub_cancel_left, List.getElem?_append_right (by omega)]
    simp
  have hlt : q < (compile P leaves).length := by
    rw [hrest]; simp only [List.length_append, List.length_cons]; omega
  have hrun : runList E m ((compile P leaves).take q) = some m2 := by
    have : (compile P leaves).take q = (List.range i).flatMap (frag P) ++ pre := by
      rw [hrest, ← List.append_assoc, hq, ← List.length_append, List.take_left']
      rfl
    rw [this, runList_append, h1]
    exact f2
  have hB := I.next
  refine ⟨m2, q, ins, ?_, hgq, ?_, ?_, ?_, ?_, ?_, by omega⟩
  · unfold runAll
    rw [runall_reach E _ m2 q _ m 0 (by omega) (by omega) (by simpa using hrun), Nat.zero_add]
    obtain ⟨n, hn⟩ : ∃ n, (compile P leaves).length - q = n + 1 := ⟨(compile P leaves).length - q - 1, by omega⟩
    rw [hn]
    unfold runall
    rw [hgq]
    simp only [f3]
  · by_cases ha : (P.node i).kind = .arg
    · left
      have : frag P i = [.loadArg i (reg P i)] := by unfold frag; rw [ha]
      rw [this] at f1
      have h' : ([] : List Instr) ++ [.loadArg i (reg P i)] = pre ++ [ins] := f1
      exact (List.append_inj' h' rfl).2 |> fun e => by injection e with e _; exact e.symm
    · right
      rw [frag_op hsi ha] at f1
      have e := (List.append_inj' f1 rfl).2
      injection e with e _
      exact ⟨_, _, _, _, e.symm⟩
  · rw [List.range_succ, List.flatMap_append]
    simp only [List.flatMap_cons, List.flatMap_nil, List.append_nil, List.length_append, f1, List.length_singleton]
    omega
  · rw [f4]; exact I.seen
  · intro a ha hsa hka hn
    refine ⟨_, by rw [f5]; exact I.bnd a ha hsa hka, ?_⟩
    rw [f7 _ (I.addr_lt a ha hsa)]
    exact I.val a ha hsa hn
  · intro x hx
    rw [f7 x (by omega)]; exact I.user x hx

theorem first_undef (P : Prog) (E : Env V) (mem : Nat → V) :
    (∀ i, i < P.length → (P.node i).stmt = false → value P E mem i ≠ none) ∨
    ∃ i, i < P.length ∧ (P.node i).stmt = false ∧ value P E mem i = none ∧
      ∀ a, a < i → (P.node a).stmt = false → value P E mem a ≠ none := by
  by_cases h : ∃ i, i < P.length ∧ (P.node i).stmt = false ∧ value P E mem i = none
  · right
    have hmin := Nat.find_spec h
    refine ⟨Nat.find h, hmin.1, hmin.2.1, hmin.2.2, fun a ha hsa hv => ?_⟩
    exact Nat.find_min h ha ⟨by omega, hsa, hv⟩
  · left
    intro i hi hs hv
    exact h ⟨i, hi, hs, hv⟩

/-- **C11, partial.** A run, whether it ends normally or with an error, does not change the memory of inputs and
constants. Missing: as for `run_computes_partial`; `run_wrong` shows that `Safe` cannot be dropped. -/
theorem inputs_untouched_partial (P : Prog) (E : Env V) (B : Nat) (m : M V) (leaves : List Nat)
    (H : Start P E B m leaves) (x : Nat) (hx : x < B) :
    (runAll E (compile P leaves) m 0).1.mem x = m.mem x := by
  rcases first_undef P E m.mem with hd | ⟨i, h1, h2, h3, h4⟩
  · obtain ⟨m', e, _, _, h, _⟩ := run_computes_partial P E B m leaves H hd
    rw [e]; exact h x hx
  · obtain ⟨m', q, ins, e, _, _, _, _, _, h, _⟩ := run_fails_partial P E B m leaves H i h1 h2 h3 h4
    rw [e]; exact h x hx

/-! ### Running again -/

theorem value_congr (P : Prog) (W : WF P) (E : Env V) (B : Nat) (mem mem' : Nat → V)
    (hin : ∀ i a, E.inp i = some a → a < B) (h : ∀ x, x < B → mem' x = mem x) (i : Nat) (hi : i < P.length) :
    value P E mem' i = value P E mem i := by
  induction i using Nat.strong_induction_on with
  | _ i ih =>
    rw [value_eq P W E mem' i hi, value_eq P W E mem i hi]
    unfold evalNode
    have hch : (P.node i).children.mapM (value P E mem') = (P.node i).children.mapM (value P E mem) := by
      apply mapM_congr_opt
      intro c hc
      have := W.before i hi c hc
      exact ih c this (by omega)
    rw [hch]
    cases hinp : E.inp i with
    | none => rfl
    | some a =>
      simp only [Option.map_some]
      rw [h a (hin i a hinp)]

theorem expectAt_congr (P : Prog) (W : WF P) (E : Env V) (B : Nat) (mem mem' : Nat → V)
    (hin : ∀ i a, E.inp i = some a → a < B) (h : ∀ x, x < B → mem' x = mem x) (i : Nat) (hi : i < P.length) :
    expectAt P E mem' i = expectAt P E mem i := by
  unfold expectAt
  have hch : (P.node i).children.mapM (value P E mem') = (P.node i).children.mapM (value P E mem) := by
    apply mapM_congr_opt
    intro c hc
    have := W.before i hi c hc
    exact value_congr P W E B mem mem' hin h c (by omega)
  rw [hch]

/-- **C14, partial.** After `Reset` a machine can run again, however the first run ended. The second run does what the
first did: same end, same program counter, same operand values for every operation, and the same values at the nodes
nobody consumes. Missing: as for `run_computes_partial`, and the bookkeeping of gradients in `BindDualValues` mode
(`closures_pile_up`). -/
theorem rerun_partial (P : Prog) (E : Env V) (B : Nat) (m : M V) (leaves : List Nat) (H : Start P E B m leaves) :
    let r1 := runAll E (compile P leaves) m 0
    let r2 := runAll E (compile P leaves) (reset r1.1) 0
    r2.2 = r1.2 ∧ (∃ l, r1.1.seen = m.seen ++ l ∧ r2.1.seen = r1.1.seen ++ l) ∧
    (r1.2.2 = false → ∀ a, a < P.length → (P.node a).stmt = false → (P.node a).kind ≠ .arg →
      (Kept P a ∨ ∀ j, ¬ Uses P j a) →
      ∃ p1 p2, r1.1.bound a = some p1 ∧ r2.1.bound a = some p2 ∧ r2.1.mem p2 = r1.1.mem p1) := by
  intro r1 r2
  have start2 : ∀ m', (∀ x, x < B → m'.mem x = m.mem x) → B ≤ m'.next → Start P E B (reset m') leaves := by
    intro m' hm hB
    refine ⟨H.wf, H.leaves, H.noclash, H.nolet, ⟨H.sem.inp, ?_, H.sem.share, H.sem.reads⟩, H.safe, fun _ => rfl, hB⟩
    intro i a hi hr
    obtain ⟨s1, s2, s3⟩ := H.sem.static i a hi hr
    exact ⟨s1, s2, by rw [s3]; simp only [reset]; rw [hm a s2]⟩
  rcases first_undef P E m.mem with hd | ⟨i, h1, h2, h3, h4⟩
  · obtain ⟨m', e, e2, e3, e4, e5⟩ := run_computes_partial P E B m leaves H hd
    have hval := fun i hi => value_congr P H.wf E B m.mem m'.mem H.sem.inp e4 i hi
    obtain ⟨m2, f, f2, f3, _, _⟩ := run_computes_partial P E B (reset m') leaves (start2 m' e4 e5)
      (fun i hi hs => by simp only [reset]; rw [hval i hi]; exact hd i hi hs)
    have hr1 : r1 = (m', (compile P leaves).length, false) := e
    have hr2 : r2 = (m2, (compile P leaves).length, false) := by
      show runAll E _ (reset r1.1) 0 = _
      rw [hr1]; exact f
    rw [hr1, hr2]
    refine ⟨rfl, ⟨_, e2, ?_⟩, fun _ a ha hsa hka hn => ?_⟩
    · rw [f2]
      simp only [reset]
      congr 1
      apply List.flatMap_congr
      intro i hi
      exact expectAt_congr P H.wf E B m.mem m'.mem H.sem.inp e4 i (List.mem_range.1 hi)
    · obtain ⟨p1, g1, g2⟩ := e3 a ha hsa hka hn
      obtain ⟨p2, g3, g4⟩ := f3 a ha hsa hka hn
      simp only [reset] at g4
      rw [hval a ha, g2] at g4
      exact ⟨p1, p2, g1, g3, by injection g4 with g4; exact g4.symm⟩
  · obtain ⟨m', q, ins, e, e1, e2, e3, e4, e5, e6, e7⟩ := run_fails_partial P E B m leaves H i h1 h2 h3 h4
    have hval := fun i hi => value_congr P H.wf E B m.mem m'.mem H.sem.inp e6 i hi
    obtain ⟨m2, q2, ins2, f, f1, f2, f3, f4, f5, f6, f7⟩ := run_fails_partial P E B (reset m') leaves (start2 m' e6 e7) i h1 h2
      (by simp only [reset]; rw [hval i h1]; exact h3)
      (fun a ha hsa => by simp only [reset]; rw [hval a (by omega)]; exact h4 a ha hsa)
    have hqq : q2 = q := by omega
    subst hqq
    have hr1 : r1 = (m', q2, true) := e
    have hr2 : r2 = (m2, q2, true) := by
      show runAll E _ (reset r1.1) 0 = _
      rw [hr1]; exact f
    rw [hr1, hr2]
    refine ⟨rfl, ⟨_, e4, ?_⟩, fun h => by cases h⟩
    rw [f4]
    simp only [reset]
    congr 1
    apply List.flatMap_congr
    intro i' hi'
    have := List.mem_range.1 hi'
    exact expectAt_congr P H.wf E B m.mem m'.mem H.sem.inp e6 i' (by omega)

/-- **C14.** Without `Reset` a machine that has run to the end executes nothing and reports success. -/
theorem run_without_reset (E : Env V) (code : List Instr) (m : M V) : runAll E code m code.length = (m, code.length, false) := by
  unfold runAll
  cases h : code.length with
  | zero => rfl
  | succ n =>
    unfold runall
    rw [List.getElem?_eq_none (by omega)]

/-! ### Programs in which no operation returns the memory of an operand -/

/-- If no operation returns the memory of an operand, overwriting is safe: the register allocator has seen to it. -/
theorem alias_free_safe (P : Prog) (W : WF P) (hn : NoLet P) (E : Env V) (mem : Nat → V) (B : Nat) (S : SemOK P E mem B)
    (hal : ∀ i k, i < P.length → (E.sem i).ret ≠ .alias k) : Safe P E := by
  have key : ∀ i, i < P.length → (P.node i).stmt = false →
      reg P (loc P E i).1 = reg P i ∧ ((loc P E i).2 = true → (P.node i).live = true) := by
    intro i
    induction i using Nat.strong_induction_on with
    | _ i ih =>
      intro hi hs
      have h1 : loc P E i = locStep P E (locTo P E i) i := by
        unfold loc; rw [locTo_stable P E i _ hi]; simp only [locTo]; rw [upd_same]
      rw [h1]
      unfold locStep
      split
      · rename_i ha
        exact ⟨rfl, fun _ => by simp [Node.live, ha]⟩
      split
      · rename_i ho
        have T := (occ_takes P W i hi hs).1 ho.2
        have hm := target_mem P W i T.ow
        have hlt := W.before i hi _ hm
        have hsc := W.nostmt i hi _ hm
        have hl : locTo P E i (target P i) = loc P E (target P i) := by
          unfold loc; rw [locTo_stable P E _ i hlt, locTo_stable P E _ P.length (by omega)]
        rw [hl]
        obtain ⟨k1, k2⟩ := ih _ hlt (by omega) hsc
        refine ⟨by rw [k1, T.same], fun h => ?_⟩
        have := (registers_safe_partial P W hn _ i hlt hi hsc hs T.same.symm).2.1
        exact absurd (.inl (k2 h)) this
      split
      · exact ⟨rfl, fun h => by cases h⟩
      · cases hr : (E.sem i).ret with
        | fresh => exact ⟨rfl, fun h => by cases h⟩
        | «alias» k => exact absurd hr (hal i k hi)
        | static a =>
          refine ⟨rfl, fun _ => ?_⟩
          simp [Node.live, (S.static i a hi hr).1]
  intro i hi hs _ ho
  have T := (occ_takes P W i hi hs).1 ho
  have hm := target_mem P W i T.ow
  have hlt := W.before i hi _ hm
  have hsc := W.nostmt i hi _ hm
  obtain ⟨k1, k2⟩ := key _ (by omega) hsc
  refine ⟨?_, fun a ha hsa he hnd => ?_⟩
  · cases h : (loc P E (target P i)).2 with
    | false => rfl
    | true =>
      exact absurd (.inl (k2 h)) (registers_safe_partial P W hn _ i hlt hi hsc hs T.same.symm).2.1
  · have ka := (key a (by omega) hsa).1
    rw [he, k1] at ka
    have hreg : reg P a = reg P i := by rw [← ka, T.same]
    obtain ⟨r1, r2, j, r3, r4⟩ := registers_safe_partial P W hn a i ha hi hsa hs hreg
    rcases hnd with ⟨j', hj', hu⟩ | hk | hno
    · have := r1 j' hu; omega
    · exact r2 hk
    · exact hno j r3

/-! ### Merging -/

/-- What a hash code is meant to guarantee: nodes with the same hash code have the same kind, the same operation, the
same bound input, and operands with the same hash codes. -/
def HashSound (P : Prog) (E : Env V) : Prop :=
  ∀ i j, i < P.length → j < P.length → (P.node i).hash = (P.node j).hash →
    (P.node i).kind = (P.node j).kind ∧ (E.sem i).f = (E.sem j).f ∧ E.inp i = E.inp j ∧
    (P.node i).children.map (fun c => (P.node c).hash) = (P.node j).children.map (fun c => (P.node c).hash)

theorem mapM_pair {α β : Type} (f : α → Option β) (key : α → Nat) (R : α → α → Prop)
    (h : ∀ a b, R a b → key a = key b → f a = f b) :
    ∀ (l l' : List α), l.map key = l'.map key → (∀ a ∈ l, ∀ b ∈ l', R a b) → l.mapM f = l'.mapM f
  | [], [], _, _ => rfl
  | [], _ :: _, e, _ => by cases e
  | _ :: _, [], e, _ => by cases e
  | a :: l, b :: l', e, hR => by
    rw [List.map_cons, List.map_cons, List.cons.injEq] at e
    rw [List.mapM_cons, List.mapM_cons, h a b (hR a (by simp) b (by simp)) e.1,
      mapM_pair f key R h l l' e.2 (fun x hx y hy => hR x (by simp [hx]) y (by simp [hy]))]

/-- **C12, partial.** If hash codes are sound, nodes for which the compiler lets the same node stand denote the same value,
for all inputs; in particular a node and its replacement do. Missing: that hash codes are sound, which is false for a
number of operations (C02, C04); and that executing the merged program is correct, which is false
(`merge_destroys`). -/
theorem merge_value_partial (P : Prog) (W : WF P) (leaves : List Nat) (hl : ∀ l ∈ leaves, l < P.length) (E : Env V)
    (hs : HashSound P E) (mem : Nat → V) (i j : Nat) (hi : i < P.length) (hj : j < P.length) :
    (analyze P leaves i = analyze P leaves j → value P E mem i = value P E mem j) ∧
    value P E mem (analyze P leaves i) = value P E mem i := by
  have key : ∀ i j, i < P.length → j < P.length → (P.node i).hash = (P.node j).hash →
      value P E mem i = value P E mem j := by
    intro i
    induction i using Nat.strong_induction_on with
    | _ i ih =>
      intro j hi hj hh
      obtain ⟨h1, h2, h3, h4⟩ := hs i j hi hj hh
      rw [value_eq P W E mem i hi, value_eq P W E mem j hj]
      unfold evalNode
      rw [mapM_pair (value P E mem) (fun c => (P.node c).hash) (fun a b => a < i ∧ b < P.length)
        (fun a b r e => ih a r.1 b (by omega) r.2 e) _ _ h4
        (fun a ha b hb => ⟨W.before i hi a ha, by have := W.before j hj b hb; omega⟩), h1, h2, h3]
  refine ⟨fun h => key i j hi hj ((analyze_iff P leaves hl i j hi hj).1.1 h), ?_⟩
  obtain ⟨_, h2, h3⟩ := analyze_iff P leaves hl i i hi hi
  exact key _ _ h3 hi ((analyze_iff P leaves hl _ i h3 hi).1.1 h2)

/-- Concrete case: two additions of the same inputs are merged, and have the same value. -/
example :
    let P : Prog := [{ kind := .arg, hash := 0 }, { kind := .arg, hash := 1 }, { children := [0, 1], hash := 2 },
      { children := [0, 1], hash := 2 }]
    analyze P [0, 1] 3 = 2 ∧ analyze P [0, 1] 2 = 2 ∧ analyze P [0, 1] 1 = 1 := by decide

/-! ### Concrete programs -/

/-- Semantics of operations on integers: `f` with two operands, writing in place. -/
def bin (f : Int → Int → Int) : OpSem Int :=
  { f := fun vs => match vs with | [a, b] => some (f a b) | _ => none, pre := true }

/-- `x`, `y`, `s = x + y`, `t = s * y`, and a statement that reads `t`. -/
def exP : Prog := [{ kind := .arg, hash := 0 }, { kind := .arg, hash := 1 },
  { children := [0, 1], overwrites := 0, hash := 2 }, { children := [2, 1], overwrites := 0, hash := 3 },
  { kind := .readS, children := [3], hash := 4 }]

def exE : Env Int :=
  { sem := fun i => if i = 2 then bin (· + ·) else bin (· * ·), inp := fun i => if i < 2 then some i else none,
    over := fun _ => 0, blank := 0 }

/-- A machine that has not run; the user's memory is at 0 and 1. -/
def exM : M Int :=
  { regs := fun _ => none, mem := fun a => if a = 0 then 2 else 3, bound := fun _ => none, next := 2, seen := [] }

theorem node_out (P : Prog) (i : Nat) (h : P.length ≤ i) : P.node i = {} := by
  simp [Prog.node, List.getElem?_eq_none h]

theorem exStart : Start exP exE 2 exM [0, 1] := by
  have W : WF exP := by
    refine ⟨by decide, ?_, by decide, ?_⟩
    · intro i
      rcases Nat.lt_or_ge i 5 with h | h
      · revert i; decide
      · rw [node_out exP i h]; decide
    · intro i
      rcases Nat.lt_or_ge i 5 with h | h
      · revert i; decide
      · rw [node_out exP i h]; decide
  have N : NoLet exP := by
    intro i
    rcases Nat.lt_or_ge i 5 with h | h
    · revert i; decide
    · rw [node_out exP i h]; decide
  have hret : ∀ i, (exE.sem i).ret = .fresh := by intro i; unfold exE; simp only; split <;> rfl
  have S : SemOK exP exE exM.mem 2 := by
    refine ⟨?_, ?_, ?_, by decide⟩
    · intro i a h
      simp only [exE] at h
      split at h
      · cases h; assumption
      · cases h
    · intro i a _ h; rw [hret] at h; cases h
    · intro i k _ h; rw [hret] at h; cases h
  exact ⟨W, by decide, fun i j hi hj => (by decide : ∀ i, i < 5 → ∀ j, j < 5 → (exP.node i).hash = (exP.node j).hash → i = j) i hi j hj, N, S,
    alias_free_safe exP W N exE exM.mem 2 S (fun i k _ h => by rw [hret] at h; cases h), fun _ => rfl, Nat.le_refl _⟩

/-- Concrete case: the product is written over the sum, the inputs keep their values, and the statement reads
`(2 + 3) * 3`. -/
example :
    let r := runAll exE (compile exP [0, 1]) exM 0
    reg exP 3 = reg exP 2 ∧ r.2 = (5, false) ∧ r.1.seen = [(2, [2, 3]), (3, [5, 3]), (4, [15])] ∧
    r.1.mem 0 = 2 ∧ r.1.mem 1 = 3 := by
  refine ⟨by decide, by decide, by decide, by decide, by decide⟩

/-- Concrete failing case: the second operation fails. The error is reported at its instruction; after `Reset` the same
happens again. -/
example :
    let E := { exE with sem := fun i => if i = 3 then { f := fun _ => none } else bin (· + ·) }
    let r := runAll E (compile exP [0, 1]) exM 0
    let r2 := runAll E (compile exP [0, 1]) (reset r.1) 0
    r.2 = (3, true) ∧ r.1.seen = [(2, [2, 3])] ∧ r2.2 = (3, true) ∧ r2.1.seen = [(2, [2, 3]), (2, [2, 3])] := by
  refine ⟨by decide, by decide, by decide, by decide⟩

/-- `x`, `y`, `r = reshape x`, `s = r + y`, `u = x * s`. -/
def alP : Prog := [{ kind := .arg, hash := 0 }, { kind := .arg, hash := 1 },
  { children := [0], overwrites := 0, hash := 2 }, { children := [2, 1], overwrites := 0, hash := 3 },
  { children := [0, 3], overwrites := 0, hash := 4 }]

def alE : Env Int :=
  { sem := fun i => if i = 2 then { f := List.head?, ret := .alias 0 } else if i = 3 then bin (· + ·) else bin (· * ·),
    inp := fun i => if i < 2 then some i else none, over := fun _ => 0, blank := 0 }

/-- **C10, C11 (defect).** `reshapeOp.Do` returns the memory of its operand (op_tensor.go 1160-1190). The sum is then
written over the reshaped value, which is the memory of the input `x`: the user's input is changed, and the product is
`5 * 5` instead of `2 * 5`. No error is reported. -/
theorem run_wrong :
    let r := runAll alE (compile alP [0, 1]) exM 0
    r.2 = (5, false) ∧ value alP alE exM.mem 4 = some 10 ∧
    (r.1.bound 4).map r.1.mem = some 25 ∧ exM.mem 0 = 2 ∧ r.1.mem 0 = 5 := by
  refine ⟨by decide, by decide, by decide, by decide, by decide⟩

/-- The program of `run_wrong` satisfies everything asked of programs but `Safe`. -/
theorem run_wrong_start : WF alP ∧ NoLet alP ∧ NoClash alP ∧ SemOK alP alE exM.mem 2 := by
  refine ⟨⟨by decide, ?_, by decide, ?_⟩, ?_, fun i j hi hj => (by decide : ∀ i, i < 5 → ∀ j, j < 5 → (alP.node i).hash = (alP.node j).hash → i = j) i hi j hj, ⟨?_, ?_, ?_, by decide⟩⟩
  · intro i
    rcases Nat.lt_or_ge i 5 with h | h
    · revert i; decide
    · rw [node_out alP i h]; decide
  · intro i
    rcases Nat.lt_or_ge i 5 with h | h
    · revert i; decide
    · rw [node_out alP i h]; decide
  · intro i
    rcases Nat.lt_or_ge i 5 with h | h
    · revert i; decide
    · rw [node_out alP i h]; decide
  · intro i a h
    simp only [alE] at h
    split at h
    · cases h; assumption
    · cases h
  · intro i a _ h
    simp only [alE] at h
    split at h
    · cases h
    · split at h <;> cases h
  · intro i k _ h vs y hf
    simp only [alE] at h hf
    split at h
    · rename_i hi
      rw [if_pos hi] at hf
      cases h
      rw [← hf]
      cases vs <;> rfl
    · split at h <;> cases h

/-! ### `BindDualValues` -/

/-- The part of a machine that is concerned with gradients of nodes computed by `Iop` (vm_tape_nocuda.go 117-131,
vm_tape.go 236-243): each run queues one closure per such node (adding `v` to the gradient of `src`) and at the end
executes the whole queue. The queue is a field of the machine and is never cleared, neither by `Reset`
(vm_tape.go 123-134) nor by `RunAll`. -/
structure Closures where
  queue : List (Nat × Int)
  grad : Nat → Int

def closuresRun (adds : List (Nat × Int)) (s : Closures) : Closures :=
  let q := s.queue ++ adds
  { queue := q, grad := q.foldl (fun g a => upd g a.1 (g a.1 + a.2)) s.grad }

/-- **C14 (defect).** In the second run the closures of the first run are executed again: with the gradients zeroed in
between (as a solver does), the second run reports twice the gradient. -/
theorem closures_pile_up :
    let s1 := closuresRun [(0, 3)] ⟨[], fun _ => 0⟩
    let s2 := closuresRun [(0, 3)] { s1 with grad := fun _ => 0 }
    s1.grad 0 = 3 ∧ s2.grad 0 = 6 := by decide

end Verif.Tape
