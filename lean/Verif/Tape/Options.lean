/-!
# The options of the two machines

`NewTapeMachine` (vm_tape.go 45-82) and `NewLispMachine` (vm_genera.go 45-74) apply a list of options, functions that change the
machine (vm.go 41-329). Most options set one bit of one of two 16-bit words, `runFlags` and `logFlags`, by shifting and masking.

Modelled: the bits (vm.go 29-39), the methods that set, clear and read them, all options except the ones that only store a value
nobody reads for deciding what is run (`WithLogger`, `WithValueFmt`, `WithEngine`, vm.go 58-92 and 318-329), the constructors'
own changes of the bits, and the reading of the bits in deciding whether an executed value is copied (vm_tape_nocuda.go 99).
A panic is `none`.
-/
set_option autoImplicit false

namespace Verif.Tape.Options

/-- A node, by its address. -/
abbrev Ptr := Nat

/-- The word of flags, `uint16`. -/
abbrev Word := BitVec 16

/-- The numbers of the bits, vm.go 29-39 (`iota`). -/
def fwdOnly : Nat := 0
def bwdOnly : Nat := 1
def watchNaN : Nat := 2
def watchInf : Nat := 3
def watchPointer : Nat := 4
def allocVals : Nat := 5
def spare2 : Nat := 6
def spare3 : Nat := 7
def watchAll : Nat := 8

/-- `flags |= uint16(1) << i`, e.g. vm_tape.go 86. -/
def setBit (w : Word) (i : Nat) : Word := w ||| (1#16 <<< i)

/-- `flags &= ^(uint16(1) << i)`, e.g. vm_tape.go 87. -/
def clearBit (w : Word) (i : Nat) : Word := w &&& ~~~(1#16 <<< i)

/-- `(flags >> i) & uint16(1) == 1`, e.g. vm_tape.go 85. -/
def testBit (w : Word) (i : Nat) : Bool := (w >>> i) &&& 1#16 == 1#16

/-- What a list given to `WithWatchlist` holds (vm.go 119-128). -/
inductive Item where
  | reg (id : Int)
  | nodeID (id : Int)
  | node (n : Ptr)
  | other
  deriving DecidableEq, Repr

/-- The options. -/
inductive Opt (Prog : Type) where
  | evalMode
  | watchlist (l : List Item)
  | nanWatch
  | infWatch
  | pointerWatch
  | execFwdOnly
  | execBwdOnly
  | logFwd
  | logBwd
  | logBothDir
  | traceExec
  | bindDualValues (ns : List Ptr)
  | precompiled (p : Option Prog)
  | manualGradient
  deriving DecidableEq, Repr

/-- `tapeMachine`, vm_tape.go 15-42: the fields the options change. `prog` stands for the pair of `p` and `locMap`; a
precompiled program is taken to come with its map (without one the machine compiles the graph, vm_tape.go 61). -/
structure TM (Prog : Type) where
  logFlags : Word := 0
  runFlags : Word := 0
  watchRegs : List Int := []
  watchIDs : List Int := []
  watchNodes : List Ptr := []
  bindNodes : List Ptr := []
  prog : Option Prog := none
  eval : Bool := false

/-- `lispMachine`, vm_genera.go 15-41. -/
structure LM where
  logFlags : Word := 0
  runFlags : Word := 0
  watchlist : List Ptr := []
  eval : Bool := false

/-- `sort.Sort` by address (collections.go 26-28, 36). -/
def insertPtr (p : Ptr) : List Ptr → List Ptr
  | [] => [p]
  | q :: qs => if p ≤ q then p :: q :: qs else q :: insertPtr p qs

def sortPtr : List Ptr → List Ptr
  | [] => []
  | p :: ps => insertPtr p (sortPtr ps)

/-- `set.Uniq`: drops adjacent duplicates. -/
def uniqPtr : List Ptr → List Ptr
  | [] => []
  | [p] => [p]
  | p :: q :: ps => if p = q then uniqPtr (q :: ps) else p :: uniqPtr (q :: ps)

/-- `Nodes.Set`, collections.go 35-40. -/
def nodesSet (ns : List Ptr) : List Ptr := uniqPtr (sortPtr ns)

variable {Prog : Type}

/-- One item of a watchlist of the tape machine, vm.go 119-128. -/
def tapeItem (m : TM Prog) : Item → Option (TM Prog)
  | .reg i => some { m with watchRegs := m.watchRegs ++ [i] }
  | .nodeID i => some { m with watchIDs := m.watchIDs ++ [i] }
  | .node n => some { m with watchNodes := m.watchNodes ++ [n] }
  | .other => none

/-- One item of a watchlist of the Lisp machine, vm.go 109-111: the type assertion panics on everything but a node. -/
def lispItem (m : LM) : Item → Option LM
  | .node n => some { m with watchlist := m.watchlist ++ [n] }
  | _ => none

/-- An option applied to a tape machine. -/
def tapeOpt (m : TM Prog) : Opt Prog → Option (TM Prog)
  -- vm.go 50-51
  | .evalMode => some { m with eval := true }
  -- vm.go 113-130
  | .watchlist l =>
    if l.length = 0 then some { m with logFlags := setBit m.logFlags watchAll } else l.foldlM tapeItem m
  -- vm.go 144-145, vm_tape.go 94
  | .nanWatch => some { m with runFlags := setBit m.runFlags watchNaN }
  -- vm.go 159-160, vm_tape.go 98
  | .infWatch => some { m with runFlags := setBit m.runFlags watchInf }
  -- vm.go 174-175, vm_tape.go 102
  | .pointerWatch => some { m with logFlags := setBit m.logFlags watchPointer }
  -- vm.go 191-192, 208-209, 222-223, 236-237, 251-252: panic(nyi(…))
  | .execFwdOnly => none
  | .execBwdOnly => none
  | .logFwd => none
  | .logBwd => none
  | .logBothDir => none
  -- vm.go 263-264, vm_tape.go 114
  | .traceExec => some { m with runFlags := setBit m.runFlags spare2 }
  -- vm.go 277-280, vm_tape.go 118
  | .bindDualValues ns =>
    some { m with runFlags := setBit m.runFlags spare3, bindNodes := nodesSet (m.bindNodes ++ ns) }
  -- vm.go 293-297: a nil program is dereferenced
  | .precompiled none => none
  | .precompiled (some p) => some { m with prog := some p }
  -- vm.go 311-312
  | .manualGradient => some m

/-- An option applied to a Lisp machine. -/
def lispOpt (m : LM) : Opt Prog → Option LM
  -- vm.go 48-49
  | .evalMode => some { m with eval := true }
  -- vm.go 103-112
  | .watchlist l =>
    if l.length = 0 then some { m with logFlags := setBit m.logFlags watchAll } else l.foldlM lispItem m
  -- vm.go 142-143, vm_genera.go 91
  | .nanWatch => some { m with runFlags := setBit m.runFlags watchNaN }
  -- vm.go 157-158, vm_genera.go 95
  | .infWatch => some { m with runFlags := setBit m.runFlags watchInf }
  -- vm.go 172-173: panics
  | .pointerWatch => none
  -- vm.go 188-190, vm_genera.go 79-88
  | .execFwdOnly => some { m with runFlags := clearBit (setBit m.runFlags fwdOnly) bwdOnly }
  -- vm.go 205-207
  | .execBwdOnly => some { m with runFlags := clearBit (setBit m.runFlags bwdOnly) fwdOnly }
  -- vm.go 220-221
  | .logFwd => some { m with logFlags := setBit m.logFlags fwdOnly }
  -- vm.go 234-235
  | .logBwd => some { m with logFlags := setBit m.logFlags bwdOnly }
  -- vm.go 248-250
  | .logBothDir => some { m with logFlags := setBit (setBit m.logFlags fwdOnly) bwdOnly }
  -- vm.go 265-266: panics
  | .traceExec => none
  -- vm.go 281-282, 298-299: nothing
  | .bindDualValues _ => some m
  | .precompiled _ => some m
  -- vm.go 309-310, vm_genera.go 107
  | .manualGradient => some { m with runFlags := setBit m.runFlags spare3 }

/-- `NewTapeMachine`, vm_tape.go 45-69: the options in order, then `doAlloc`, then a program is compiled unless there is one. -/
def newTape (compiled : Prog) (os : List (Opt Prog)) : Option (TM Prog) :=
  match os.foldlM tapeOpt ({} : TM Prog) with
  | none => none
  | some m => some { m with runFlags := setBit m.runFlags allocVals, prog := some (m.prog.getD compiled) }

/-- `NewLispMachine`, vm_genera.go 46-61: both directions are run unless an option says otherwise. -/
def newLisp (os : List (Opt Prog)) : Option LM :=
  os.foldlM lispOpt ({ runFlags := (0#16 ||| (1#16 <<< fwdOnly)) ||| (1#16 <<< bwdOnly) } : LM)

/-- Whether an executed value is copied into its node: the condition of vm_tape_nocuda.go 99. -/
def copies (m : TM Prog) (n : Ptr) : Bool :=
  testBit m.runFlags spare2 && (m.watchNodes.length == 0 || m.watchNodes.contains n)

/-- Whether the derivative computed by a node is added to that of the node `src` it is a derivative of: the conditions of
vm_tape_nocuda.go 114 and 116. -/
def bindsDeriv (m : TM Prog) (src : Ptr) : Bool :=
  testBit m.runFlags spare3 && !(decide (m.bindNodes.length > 0) && !m.bindNodes.contains src)

/-! ### The bits -/

theorem test_eq (w : Word) (i : Nat) : testBit w i = w.getLsbD i := by
  rw [Bool.eq_iff_iff]
  simp only [testBit, beq_iff_eq]
  constructor
  · intro h
    have := congrArg (fun v => v.getLsbD 0) h
    simpa using this
  · intro h
    ext k hk
    rcases k with _ | k
    · simpa using h
    · simp

/-- Setting a bit sets it and no other. -/
theorem set_test (w : Word) (i j : Nat) (hi : i < 16) (hj : j < 16) : testBit (setBit w i) j = (testBit w j || j == i) := by
  rw [test_eq, test_eq]
  simp only [setBit, BitVec.getLsbD_or, BitVec.getLsbD_shiftLeft, BitVec.getLsbD_one]
  by_cases h : j = i
  · subst h; simp [hj]
  · have : (j == i) = false := by simpa using h
    rw [this]
    by_cases hl : j < i
    · simp [hl]
    · have : j - i ≠ 0 := by omega
      simp [this]

/-- Clearing a bit clears it and no other. -/
theorem clear_test (w : Word) (i j : Nat) (hi : i < 16) (hj : j < 16) : testBit (clearBit w i) j = (testBit w j && j != i) := by
  rw [test_eq, test_eq]
  simp only [clearBit, BitVec.getLsbD_and, BitVec.getLsbD_not, BitVec.getLsbD_shiftLeft, BitVec.getLsbD_one]
  by_cases h : j = i
  · subst h; simp
  · have : (j != i) = true := by simpa using h
    rw [this]
    by_cases hl : j < i
    · simp [hl, hj]
    · have : j - i ≠ 0 := by omega
      simp [this, hj]

theorem zero_test (j : Nat) : testBit 0 j = false := by rw [test_eq]; simp

/-! ### Folding -/

section Fold
variable {M O : Type}

theorem fold_cons (f : M → O → Option M) (m m' : M) (o : O) (os : List O) (h : (o :: os).foldlM f m = some m') :
    ∃ m1, f m o = some m1 ∧ os.foldlM f m1 = some m' := by
  rw [List.foldlM_cons] at h
  cases h1 : f m o with
  | none => rw [h1] at h; exact absurd h (by simp)
  | some m1 => rw [h1] at h; exact ⟨m1, rfl, h⟩

theorem fold_or (f : M → O → Option M) (P : M → Prop) (Q : O → Prop)
    (hs : ∀ m o m', f m o = some m' → (P m' ↔ P m ∨ Q o)) (os : List O) : ∀ m m', os.foldlM f m = some m' →
    (P m' ↔ P m ∨ ∃ o ∈ os, Q o) := by
  induction os with
  | nil => intro m m' h; simp at h; subst h; simp
  | cons o os ih =>
    intro m m' h
    obtain ⟨m1, h1, h2⟩ := fold_cons f m m' o os h
    rw [ih m1 m' h2, hs m o m1 h1]
    simp [or_assoc]

theorem fold_append {A : Type} (f : M → O → Option M) (P : M → List A) (Q : O → List A)
    (hs : ∀ m o m', f m o = some m' → P m' = P m ++ Q o) (os : List O) : ∀ m m', os.foldlM f m = some m' →
    P m' = P m ++ os.flatMap Q := by
  induction os with
  | nil => intro m m' h; simp at h; subst h; simp
  | cons o os ih =>
    intro m m' h
    obtain ⟨m1, h1, h2⟩ := fold_cons f m m' o os h
    rw [ih m1 m' h2, hs m o m1 h1]
    simp

theorem fold_none (f : M → O → Option M) (B : O → Prop) (hs : ∀ m o, f m o = none ↔ B o) (os : List O) : ∀ m,
    (os.foldlM f m = none ↔ ∃ o ∈ os, B o) := by
  induction os with
  | nil => intro m; simp
  | cons o os ih =>
    intro m
    rw [List.foldlM_cons]
    cases h1 : f m o with
    | none => simp [(hs m o).1 h1]
    | some m1 =>
      have hb : ¬ B o := fun hb => by rw [(hs m o).2 hb] at h1; exact absurd h1 (by simp)
      show os.foldlM f m1 = none ↔ _
      rw [ih m1]
      simp [hb]

/-- A flag one option sets and another clears: the last of them counts. -/
theorem fold_last (f : M → O → Option M) (P : M → Prop) (a b : O) (hab : a ≠ b)
    (ha : ∀ m m', f m a = some m' → P m') (hb : ∀ m m', f m b = some m' → ¬ P m')
    (ho : ∀ m o m', o ≠ a → o ≠ b → f m o = some m' → (P m' ↔ P m)) (os : List O) : ∀ m m', os.foldlM f m = some m' →
    (P m' ↔ (P m ∨ a ∈ os) ∧ ∀ pre post, os = pre ++ b :: post → a ∈ post) := by
  induction os with
  | nil => intro m m' h; simp at h; subst h; simp
  | cons o os ih =>
    intro m m' h
    obtain ⟨m1, h1, h2⟩ := fold_cons f m m' o os h
    have hc : (∀ pre post, o :: os = pre ++ b :: post → a ∈ post) ↔
        (o = b → a ∈ os) ∧ ∀ pre post, os = pre ++ b :: post → a ∈ post := by
      constructor
      · intro k
        exact ⟨fun e => k [] os (by simp [e]), fun pre post e => k (o :: pre) post (by simp [e])⟩
      · rintro ⟨k1, k2⟩ pre post e
        cases pre with
        | nil => simp at e; exact e.2 ▸ k1 e.1
        | cons x pre => simp at e; exact k2 pre post e.2
    rw [ih m1 m' h2, hc]
    rcases Classical.em (o = a) with e | na
    · subst e
      have := ha m m1 h1
      simp [this, hab]
    · rcases Classical.em (o = b) with e | nb
      · subst e
        have := hb m m1 h1
        have na' : a ≠ o := fun e => na e.symm
        simp only [this, false_or, List.mem_cons, na', true_implies, forall_const]
        constructor
        · rintro ⟨k1, k2⟩; exact ⟨Or.inr k1, k1, k2⟩
        · rintro ⟨_, k1, k2⟩; exact ⟨k1, k2⟩
      · have := ho m o m1 na nb h1
        have na' : a ≠ o := fun e => na e.symm
        simp [this, na', nb]

end Fold

/-! ### Watchlists -/

/-- The registers, node numbers and nodes among the items of a list. -/
def regsOf (l : List Item) : List Int := l.filterMap fun i => match i with | .reg r => some r | _ => none
def idsOf (l : List Item) : List Int := l.filterMap fun i => match i with | .nodeID r => some r | _ => none
def nodesOf (l : List Item) : List Ptr := l.filterMap fun i => match i with | .node r => some r | _ => none

theorem tape_items (l : List Item) : ∀ m m' : TM Prog, l.foldlM tapeItem m = some m' →
    m' = { m with watchRegs := m.watchRegs ++ regsOf l, watchIDs := m.watchIDs ++ idsOf l, watchNodes := m.watchNodes ++ nodesOf l } := by
  induction l with
  | nil => intro m m' h; simp at h; subst h; simp [regsOf, idsOf, nodesOf]
  | cons i l ih =>
    intro m m' h
    obtain ⟨m1, h1, h2⟩ := fold_cons tapeItem m m' i l h
    rw [ih m1 m' h2]
    cases i <;> simp [tapeItem] at h1 <;> subst h1 <;> simp [regsOf, idsOf, nodesOf]

theorem lisp_items (l : List Item) : ∀ m m' : LM, l.foldlM lispItem m = some m' →
    m' = { m with watchlist := m.watchlist ++ nodesOf l } := by
  induction l with
  | nil => intro m m' h; simp at h; subst h; simp [nodesOf]
  | cons i l ih =>
    intro m m' h
    obtain ⟨m1, h1, h2⟩ := fold_cons lispItem m m' i l h
    rw [ih m1 m' h2]
    cases i <;> simp [lispItem] at h1 <;> subst h1 <;> simp [nodesOf]

theorem tape_items_none (l : List Item) (m : TM Prog) : l.foldlM tapeItem m = none ↔ Item.other ∈ l := by
  rw [fold_none tapeItem (fun i => i = .other) (by intro m o; cases o <;> simp [tapeItem])]
  simp

theorem lisp_items_none (l : List Item) (m : LM) : l.foldlM lispItem m = none ↔ ∃ i ∈ l, ∀ n, i ≠ .node n := by
  rw [fold_none lispItem (fun i => ∀ n, i ≠ .node n) (by intro m o; cases o <;> simp [lispItem])]

/-! ### One option -/

theorem bits_run (w : Word) : (∀ i j, i < 9 → j < 9 → testBit (setBit w i) j = (testBit w j || j == i)) ∧
    (∀ i j, i < 9 → j < 9 → testBit (clearBit w i) j = (testBit w j && j != i)) :=
  ⟨fun i j hi hj => set_test w i j (by omega) (by omega), fun i j hi hj => clear_test w i j (by omega) (by omega)⟩

/-- What one option does to the bits of the tape machine's words. -/
theorem tape_step (m m' : TM Prog) (o : Opt Prog) (h : tapeOpt m o = some m') :
    (testBit m'.runFlags watchNaN = true ↔ testBit m.runFlags watchNaN = true ∨ o = .nanWatch) ∧
    (testBit m'.runFlags watchInf = true ↔ testBit m.runFlags watchInf = true ∨ o = .infWatch) ∧
    (testBit m'.logFlags watchPointer = true ↔ testBit m.logFlags watchPointer = true ∨ o = .pointerWatch) ∧
    (testBit m'.logFlags watchAll = true ↔ testBit m.logFlags watchAll = true ∨ o = .watchlist []) ∧
    (testBit m'.runFlags spare2 = true ↔ testBit m.runFlags spare2 = true ∨ o = .traceExec) ∧
    (testBit m'.runFlags spare3 = true ↔ testBit m.runFlags spare3 = true ∨ ∃ ns, o = .bindDualValues ns) ∧
    (m'.eval = true ↔ m.eval = true ∨ o = .evalMode) := by
  have hb := bits_run m.runFlags
  have hl := bits_run m.logFlags
  cases o with
  | watchlist l =>
    cases l with
    | nil =>
      simp [tapeOpt] at h
      subst h
      simp [hl.1, watchNaN, watchInf, watchPointer, watchAll, spare2, spare3]
    | cons i l =>
      simp only [tapeOpt, List.length_cons, Nat.add_one_ne_zero, if_false] at h
      rw [tape_items _ _ _ h]
      simp
  | precompiled p =>
    cases p with
    | none => simp [tapeOpt] at h
    | some p => simp [tapeOpt] at h; subst h; simp
  | _ =>
    simp [tapeOpt] at h <;> subst h <;>
      simp [hb.1, hl.1, watchNaN, watchInf, watchPointer, watchAll, spare2, spare3]

theorem lisp_step (m m' : LM) (o : Opt Prog) (h : lispOpt m o = some m') :
    (testBit m'.runFlags watchNaN = true ↔ testBit m.runFlags watchNaN = true ∨ o = .nanWatch) ∧
    (testBit m'.runFlags watchInf = true ↔ testBit m.runFlags watchInf = true ∨ o = .infWatch) ∧
    (testBit m'.logFlags watchAll = true ↔ testBit m.logFlags watchAll = true ∨ o = .watchlist []) ∧
    (testBit m'.runFlags spare3 = true ↔ testBit m.runFlags spare3 = true ∨ o = .manualGradient) ∧
    (testBit m'.logFlags fwdOnly = true ↔ testBit m.logFlags fwdOnly = true ∨ o = .logFwd ∨ o = .logBothDir) ∧
    (testBit m'.logFlags bwdOnly = true ↔ testBit m.logFlags bwdOnly = true ∨ o = .logBwd ∨ o = .logBothDir) ∧
    (m'.eval = true ↔ m.eval = true ∨ o = .evalMode) ∧
    (o ≠ .execFwdOnly → o ≠ .execBwdOnly → testBit m'.runFlags fwdOnly = testBit m.runFlags fwdOnly ∧
      testBit m'.runFlags bwdOnly = testBit m.runFlags bwdOnly) ∧
    (o = .execFwdOnly → testBit m'.runFlags fwdOnly = true ∧ testBit m'.runFlags bwdOnly = false) ∧
    (o = .execBwdOnly → testBit m'.runFlags fwdOnly = false ∧ testBit m'.runFlags bwdOnly = true) := by
  have hb := fun w => bits_run w
  cases o with
  | watchlist l =>
    cases l with
    | nil =>
      simp [lispOpt] at h
      subst h
      simp [(hb _).1, watchNaN, watchInf, watchAll, spare3, fwdOnly, bwdOnly]
    | cons i l =>
      simp only [lispOpt, List.length_cons, Nat.add_one_ne_zero, if_false] at h
      rw [lisp_items _ _ _ h]
      simp
  | _ =>
    simp [lispOpt] at h <;> subst h <;>
      simp [(hb _).1, (hb _).2, watchNaN, watchInf, watchAll, spare3, fwdOnly, bwdOnly]

/-! ### The tape machine -/

/-- `NewTapeMachine` panics over an option exactly if one of the options is for the Lisp machine only, a watchlist holds something
that is no register, node number or node, or there is no precompiled program in `WithPrecompiled`. -/
theorem tape_panics_iff (compiled : Prog) (os : List (Opt Prog)) : newTape compiled os = none ↔
    Opt.execFwdOnly ∈ os ∨ Opt.execBwdOnly ∈ os ∨ Opt.logFwd ∈ os ∨ Opt.logBwd ∈ os ∨ Opt.logBothDir ∈ os ∨
      (∃ l, Opt.watchlist l ∈ os ∧ Item.other ∈ l) ∨ Opt.precompiled none ∈ os := by
  have key := fold_none (tapeOpt (Prog := Prog))
    (fun o => o = .execFwdOnly ∨ o = .execBwdOnly ∨ o = .logFwd ∨ o = .logBwd ∨ o = .logBothDir ∨
      (∃ l, o = .watchlist l ∧ Item.other ∈ l) ∨ o = .precompiled none)
    (by
      intro m o
      cases o with
      | watchlist l =>
        cases l with
        | nil => simp [tapeOpt]
        | cons i l =>
          simp only [tapeOpt, List.length_cons, Nat.add_one_ne_zero, if_false]
          rw [tape_items_none]
          simp
      | precompiled p => cases p <;> simp [tapeOpt]
      | _ => simp [tapeOpt]) os {}
  have e : newTape compiled os = none ↔ os.foldlM tapeOpt ({} : TM Prog) = none := by
    unfold newTape
    cases os.foldlM tapeOpt ({} : TM Prog) <;> simp
  rw [e, key]
  constructor
  · rintro ⟨o, ho, h⟩
    rcases h with h | h | h | h | h | ⟨l, h, hl⟩ | h
    · subst h; simp [ho]
    · subst h; simp [ho]
    · subst h; simp [ho]
    · subst h; simp [ho]
    · subst h; simp [ho]
    · subst h; exact Or.inr (Or.inr (Or.inr (Or.inr (Or.inr (Or.inl ⟨l, ho, hl⟩)))))
    · subst h; simp [ho]
  · rintro (h | h | h | h | h | ⟨l, h, hl⟩ | h)
    · exact ⟨_, h, by simp⟩
    · exact ⟨_, h, by simp⟩
    · exact ⟨_, h, by simp⟩
    · exact ⟨_, h, by simp⟩
    · exact ⟨_, h, by simp⟩
    · exact ⟨_, h, by simp [hl]⟩
    · exact ⟨_, h, by simp⟩

theorem newTape_some (compiled : Prog) (os : List (Opt Prog)) (m : TM Prog) (h : newTape compiled os = some m) :
    ∃ m0, os.foldlM tapeOpt ({} : TM Prog) = some m0 ∧
      m = { m0 with runFlags := setBit m0.runFlags allocVals, prog := some (m0.prog.getD compiled) } := by
  unfold newTape at h
  cases h0 : os.foldlM tapeOpt ({} : TM Prog) with
  | none => rw [h0] at h; simp at h
  | some m0 => rw [h0] at h; simp at h; exact ⟨m0, rfl, h.symm⟩

/-- Each switch of a new tape machine is on exactly if the option for it was given, wherever in the list and whatever else was
given; values are always allocated. -/
theorem tape_flags (compiled : Prog) (os : List (Opt Prog)) (m : TM Prog) (h : newTape compiled os = some m) :
    (testBit m.runFlags watchNaN = true ↔ Opt.nanWatch ∈ os) ∧
    (testBit m.runFlags watchInf = true ↔ Opt.infWatch ∈ os) ∧
    (testBit m.logFlags watchPointer = true ↔ Opt.pointerWatch ∈ os) ∧
    (testBit m.logFlags watchAll = true ↔ Opt.watchlist [] ∈ os) ∧
    (testBit m.runFlags spare2 = true ↔ Opt.traceExec ∈ os) ∧
    (testBit m.runFlags spare3 = true ↔ ∃ ns, Opt.bindDualValues ns ∈ os) ∧
    (m.eval = true ↔ Opt.evalMode ∈ os) ∧
    testBit m.runFlags allocVals = true := by
  obtain ⟨m0, h0, rfl⟩ := newTape_some compiled os m h
  have hb := bits_run m0.runFlags
  have z := zero_test
  have f1 := fold_or tapeOpt (fun m : TM Prog => testBit m.runFlags watchNaN = true) _ (fun m o m' h => (tape_step m m' o h).1) os _ _ h0
  have f2 := fold_or tapeOpt (fun m : TM Prog => testBit m.runFlags watchInf = true) _ (fun m o m' h => (tape_step m m' o h).2.1) os _ _ h0
  have f3 := fold_or tapeOpt (fun m : TM Prog => testBit m.logFlags watchPointer = true) _ (fun m o m' h => (tape_step m m' o h).2.2.1) os _ _ h0
  have f4 := fold_or tapeOpt (fun m : TM Prog => testBit m.logFlags watchAll = true) _ (fun m o m' h => (tape_step m m' o h).2.2.2.1) os _ _ h0
  have f5 := fold_or tapeOpt (fun m : TM Prog => testBit m.runFlags spare2 = true) _ (fun m o m' h => (tape_step m m' o h).2.2.2.2.1) os _ _ h0
  have f6 := fold_or tapeOpt (fun m : TM Prog => testBit m.runFlags spare3 = true) _ (fun m o m' h => (tape_step m m' o h).2.2.2.2.2.1) os _ _ h0
  have f7 := fold_or tapeOpt (fun m : TM Prog => m.eval = true) _ (fun m o m' h => (tape_step m m' o h).2.2.2.2.2.2) os _ _ h0
  simp only [z, Bool.false_eq_true, false_or, exists_eq_right] at f1 f2 f3 f4 f5 f6 f7
  refine ⟨?_, ?_, f3, f4, ?_, ?_, f7, ?_⟩
  · rw [← f1]; simp [hb.1, watchNaN, allocVals]
  · rw [← f2]; simp [hb.1, watchInf, allocVals]
  · rw [← f5]; simp [hb.1, spare2, allocVals]
  · have : (∃ ns, Opt.bindDualValues ns ∈ os) ↔ ∃ o ∈ os, ∃ ns, o = Opt.bindDualValues ns :=
      ⟨fun ⟨ns, k⟩ => ⟨_, k, ns, rfl⟩, fun ⟨_, k, ns, e⟩ => ⟨ns, e ▸ k⟩⟩
    rw [this, ← f6]; simp [hb.1, spare3, allocVals]
  · simp [hb.1, allocVals]

/-- What the watchlist options put into the lists, in the order given. -/
theorem tape_watch (compiled : Prog) (os : List (Opt Prog)) (m : TM Prog) (h : newTape compiled os = some m) :
    m.watchRegs = os.flatMap (fun o => match o with | .watchlist l => regsOf l | _ => []) ∧
    m.watchIDs = os.flatMap (fun o => match o with | .watchlist l => idsOf l | _ => []) ∧
    m.watchNodes = os.flatMap (fun o => match o with | .watchlist l => nodesOf l | _ => []) := by
  obtain ⟨m0, h0, rfl⟩ := newTape_some compiled os m h
  have st : ∀ (m : TM Prog) o m', tapeOpt m o = some m' →
      m'.watchRegs = m.watchRegs ++ (match o with | .watchlist l => regsOf l | _ => []) ∧
      m'.watchIDs = m.watchIDs ++ (match o with | .watchlist l => idsOf l | _ => []) ∧
      m'.watchNodes = m.watchNodes ++ (match o with | .watchlist l => nodesOf l | _ => []) := by
    intro m o m' h
    cases o with
    | watchlist l =>
      cases l with
      | nil => simp [tapeOpt] at h; subst h; simp [regsOf, idsOf, nodesOf]
      | cons i l =>
        simp only [tapeOpt, List.length_cons, Nat.add_one_ne_zero, if_false] at h
        rw [tape_items _ _ _ h]
        simp
    | precompiled p =>
      cases p with
      | none => simp [tapeOpt] at h
      | some p => simp [tapeOpt] at h; subst h; simp
    | _ => simp [tapeOpt] at h <;> subst h <;> simp
  have f1 := fold_append tapeOpt (fun m : TM Prog => m.watchRegs) _ (fun m o m' h => (st m o m' h).1) os _ _ h0
  have f2 := fold_append tapeOpt (fun m : TM Prog => m.watchIDs) _ (fun m o m' h => (st m o m' h).2.1) os _ _ h0
  have f3 := fold_append tapeOpt (fun m : TM Prog => m.watchNodes) _ (fun m o m' h => (st m o m' h).2.2) os _ _ h0
  exact ⟨by simpa using f1, by simpa using f2, by simpa using f3⟩

theorem mem_insertPtr (x p : Ptr) (l : List Ptr) : x ∈ insertPtr p l ↔ x = p ∨ x ∈ l := by
  induction l with
  | nil => simp [insertPtr]
  | cons q l ih =>
    simp only [insertPtr]
    split
    · simp
    · simp only [List.mem_cons, ih]
      constructor
      · rintro (h | h | h) <;> simp [h]
      · rintro (h | h | h) <;> simp [h]

theorem mem_sortPtr (x : Ptr) (l : List Ptr) : x ∈ sortPtr l ↔ x ∈ l := by
  induction l with
  | nil => simp [sortPtr]
  | cons q l ih => simp [sortPtr, mem_insertPtr, ih]

theorem mem_uniqPtr (x : Ptr) : ∀ l : List Ptr, x ∈ uniqPtr l ↔ x ∈ l
  | [] => by simp [uniqPtr]
  | [p] => by simp [uniqPtr]
  | p :: q :: l => by
    have ih := mem_uniqPtr x (q :: l)
    simp only [uniqPtr]
    split
    · rename_i e; rw [ih, e]; simp
    · simp only [List.mem_cons] at ih ⊢; rw [ih]

theorem mem_nodesSet (x : Ptr) (l : List Ptr) : x ∈ nodesSet l ↔ x ∈ l := by
  rw [nodesSet, mem_uniqPtr, mem_sortPtr]

/-- The nodes whose derivatives are to be bound are those named in any of the options. -/
theorem tape_bind (compiled : Prog) (os : List (Opt Prog)) (m : TM Prog) (h : newTape compiled os = some m) (x : Ptr) :
    x ∈ m.bindNodes ↔ ∃ ns, Opt.bindDualValues ns ∈ os ∧ x ∈ ns := by
  obtain ⟨m0, h0, rfl⟩ := newTape_some compiled os m h
  have f := fold_or tapeOpt (fun m : TM Prog => x ∈ m.bindNodes) (fun o => ∃ ns, o = .bindDualValues ns ∧ x ∈ ns) (by
    intro m o m' h
    cases o with
    | watchlist l =>
      cases l with
      | nil => simp [tapeOpt] at h; subst h; simp
      | cons i l =>
        simp only [tapeOpt, List.length_cons, Nat.add_one_ne_zero, if_false] at h
        rw [tape_items _ _ _ h]
        simp
    | precompiled p =>
      cases p with
      | none => simp [tapeOpt] at h
      | some p => simp [tapeOpt] at h; subst h; simp
    | _ => simp [tapeOpt] at h <;> subst h <;> simp [mem_nodesSet]) os _ _ h0
  simp only [List.not_mem_nil, false_or] at f
  rw [f]
  exact ⟨fun ⟨_, k, ns, e, hx⟩ => ⟨ns, e ▸ k, hx⟩, fun ⟨ns, k, hx⟩ => ⟨_, k, ns, rfl, hx⟩⟩

/-- The machine runs the program of the last `WithPrecompiled`; a program is compiled if there is none. -/
theorem tape_prog (compiled : Prog) (os : List (Opt Prog)) (m : TM Prog) (h : newTape compiled os = some m) :
    (∀ pre post p, os = pre ++ .precompiled (some p) :: post → (∀ q, Opt.precompiled q ∉ post) → m.prog = some p) ∧
    ((∀ q, Opt.precompiled q ∉ os) → m.prog = some compiled) := by
  obtain ⟨m0, h0, rfl⟩ := newTape_some compiled os m h
  have keep : ∀ (os : List (Opt Prog)) (m m' : TM Prog), os.foldlM tapeOpt m = some m' → (∀ q, Opt.precompiled q ∉ os) →
      m'.prog = m.prog := by
    intro os
    induction os with
    | nil => intro m m' h _; simp at h; rw [h]
    | cons o os ih =>
      intro m m' h hq
      obtain ⟨m1, h1, h2⟩ := fold_cons tapeOpt m m' o os h
      rw [ih m1 m' h2 (fun q hm => hq q (by simp [hm]))]
      cases o with
      | watchlist l =>
        cases l with
        | nil => simp [tapeOpt] at h1; subst h1; simp
        | cons i l =>
          simp only [tapeOpt, List.length_cons, Nat.add_one_ne_zero, if_false] at h1
          rw [tape_items _ _ _ h1]
      | precompiled p => exact absurd (by simp) (hq p)
      | _ => simp [tapeOpt] at h1 <;> subst h1 <;> simp
  constructor
  · intro pre post p e hq
    subst e
    rw [List.foldlM_append] at h0
    cases hp : pre.foldlM tapeOpt ({} : TM Prog) with
    | none => rw [hp] at h0; exact absurd h0 (by simp)
    | some m1 =>
      rw [hp] at h0
      have h0' : (Opt.precompiled (some p) :: post).foldlM tapeOpt m1 = some m0 := h0
      obtain ⟨m2, h2, h3⟩ := fold_cons tapeOpt m1 m0 _ post h0'
      simp [tapeOpt] at h2
      have := keep post m2 m0 h3 hq
      subst h2
      simp [this]
  · intro hq
    have := keep os {} m0 h0 hq
    simp [this]

/-- Which executed values are copied: with `TraceExec` and no node in any watchlist those of all nodes; with one, only those of the
nodes in the watchlists. -/
theorem copies_iff (compiled : Prog) (os : List (Opt Prog)) (m : TM Prog) (h : newTape compiled os = some m) (n : Ptr) :
    copies m n = true ↔ Opt.traceExec ∈ os ∧
      ((∀ l k, Opt.watchlist l ∈ os → Item.node k ∉ l) ∨ ∃ l, Opt.watchlist l ∈ os ∧ Item.node n ∈ l) := by
  have ht := (tape_flags compiled os m h).2.2.2.2.1
  have hw := (tape_watch compiled os m h).2.2
  have hm : ∀ k, k ∈ m.watchNodes ↔ ∃ l, Opt.watchlist l ∈ os ∧ Item.node k ∈ l := by
    intro k
    rw [hw]
    simp only [List.mem_flatMap]
    constructor
    · rintro ⟨o, ho, hk⟩
      cases o with
      | watchlist l =>
        simp only [nodesOf, List.mem_filterMap] at hk
        obtain ⟨i, hi, e⟩ := hk
        cases i <;> simp at e
        subst e
        exact ⟨l, ho, hi⟩
      | _ => simp at hk
    · rintro ⟨l, hl, hk⟩
      refine ⟨_, hl, ?_⟩
      simp only [nodesOf, List.mem_filterMap]
      exact ⟨_, hk, rfl⟩
  have he : m.watchNodes = [] ↔ ∀ l k, Opt.watchlist l ∈ os → Item.node k ∉ l := by
    rw [List.eq_nil_iff_forall_not_mem]
    constructor
    · intro a l k hl hk; exact a k ((hm k).2 ⟨l, hl, hk⟩)
    · intro a k hk; obtain ⟨l, hl, hk⟩ := (hm k).1 hk; exact a l k hl hk
  rw [← ht, ← hm, ← he]
  simp [copies]

/-- Whose derivatives are bound: with `BindDualValues` those of all nodes if none of the options names a node, else those of the
nodes named. -/
theorem binds_iff (compiled : Prog) (os : List (Opt Prog)) (m : TM Prog) (h : newTape compiled os = some m) (n : Ptr) :
    bindsDeriv m n = true ↔ (∃ ns, Opt.bindDualValues ns ∈ os) ∧
      ((∀ ns, Opt.bindDualValues ns ∈ os → ns = []) ∨ ∃ ns, Opt.bindDualValues ns ∈ os ∧ n ∈ ns) := by
  have ht := (tape_flags compiled os m h).2.2.2.2.2.1
  have hm := tape_bind compiled os m h
  have he : m.bindNodes = [] ↔ ∀ ns, Opt.bindDualValues ns ∈ os → ns = [] := by
    rw [List.eq_nil_iff_forall_not_mem]
    constructor
    · intro a ns hns
      rw [List.eq_nil_iff_forall_not_mem]
      intro x hx
      exact a x ((hm x).2 ⟨ns, hns, hx⟩)
    · intro a k hk
      obtain ⟨l, hl, hk⟩ := (hm k).1 hk
      rw [a l hl] at hk
      simp at hk
  rw [← ht, ← hm, ← he]
  simp only [bindsDeriv, Bool.and_eq_true, Bool.not_eq_true', Bool.and_eq_false_iff, decide_eq_false_iff_not, Bool.not_eq_false',
    List.contains_iff_mem]
  have hl : ¬ m.bindNodes.length > 0 ↔ m.bindNodes = [] := by
    rw [← List.length_eq_zero_iff]; omega
  rw [hl]

/-- Refuted: asking to watch a node takes away the copies `TraceExec` promises of the others' values. -/
theorem watching_stops_tracing : ∃ m m' : TM Unit, newTape () [.traceExec] = some m ∧
    newTape () [.traceExec, .watchlist [.node 1]] = some m' ∧ copies m 2 = true ∧ copies m' 2 = false :=
  ⟨_, _, rfl, rfl, rfl, rfl⟩

/-- Refuted: an option more takes away the derivatives another asked for: `BindDualValues()` asks for all, and with
`BindDualValues(x)` behind it only the derivative of `x` is bound. -/
theorem binding_narrows : ∃ m m' : TM Unit, newTape () [.bindDualValues []] = some m ∧
    newTape () [.bindDualValues [], .bindDualValues [1]] = some m' ∧ bindsDeriv m 2 = true ∧ bindsDeriv m' 2 = false :=
  ⟨_, _, rfl, rfl, rfl, rfl⟩

/-! ### The Lisp machine -/

/-- `NewLispMachine` panics over an option exactly if pointers are to be watched, execution is to be traced, or a watchlist holds
something other than a node. -/
theorem lisp_panics_iff (os : List (Opt Prog)) : newLisp os = none ↔
    Opt.pointerWatch ∈ os ∨ Opt.traceExec ∈ os ∨ ∃ l, Opt.watchlist l ∈ os ∧ ∃ i ∈ l, ∀ n, i ≠ Item.node n := by
  have key := fold_none (lispOpt (Prog := Prog))
    (fun o => o = .pointerWatch ∨ o = .traceExec ∨ ∃ l, o = .watchlist l ∧ ∃ i ∈ l, ∀ n, i ≠ Item.node n)
    (by
      intro m o
      cases o with
      | watchlist l =>
        cases l with
        | nil => simp [lispOpt]
        | cons i l =>
          simp only [lispOpt, List.length_cons, Nat.add_one_ne_zero, if_false]
          rw [lisp_items_none]
          simp
      | _ => simp [lispOpt]) os
  rw [newLisp, key]
  constructor
  · rintro ⟨o, ho, h⟩
    rcases h with h | h | ⟨l, h, hl⟩
    · subst h; simp [ho]
    · subst h; simp [ho]
    · subst h; exact Or.inr (Or.inr ⟨l, ho, hl⟩)
  · rintro (h | h | ⟨l, h, hl⟩)
    · exact ⟨_, h, by simp⟩
    · exact ⟨_, h, by simp⟩
    · exact ⟨_, h, Or.inr (Or.inr ⟨l, rfl, hl⟩)⟩

/-- Each switch of a new Lisp machine is on exactly if an option for it was given. -/
theorem lisp_flags (os : List (Opt Prog)) (m : LM) (h : newLisp os = some m) :
    (testBit m.runFlags watchNaN = true ↔ Opt.nanWatch ∈ os) ∧
    (testBit m.runFlags watchInf = true ↔ Opt.infWatch ∈ os) ∧
    (testBit m.logFlags watchAll = true ↔ Opt.watchlist [] ∈ os) ∧
    (testBit m.runFlags spare3 = true ↔ Opt.manualGradient ∈ os) ∧
    (testBit m.logFlags fwdOnly = true ↔ Opt.logFwd ∈ os ∨ Opt.logBothDir ∈ os) ∧
    (testBit m.logFlags bwdOnly = true ↔ Opt.logBwd ∈ os ∨ Opt.logBothDir ∈ os) ∧
    (m.eval = true ↔ Opt.evalMode ∈ os) := by
  have z := zero_test
  have s2 : testBit ((0#16 ||| (1#16 <<< fwdOnly)) ||| (1#16 <<< bwdOnly)) watchNaN = false := by decide
  have s3 : testBit ((0#16 ||| (1#16 <<< fwdOnly)) ||| (1#16 <<< bwdOnly)) watchInf = false := by decide
  have s4 : testBit ((0#16 ||| (1#16 <<< fwdOnly)) ||| (1#16 <<< bwdOnly)) spare3 = false := by decide
  have f1 := fold_or lispOpt (fun m : LM => testBit m.runFlags watchNaN = true) _ (fun m (o : Opt Prog) m' h => (lisp_step m m' o h).1) os _ _ h
  have f2 := fold_or lispOpt (fun m : LM => testBit m.runFlags watchInf = true) _ (fun m (o : Opt Prog) m' h => (lisp_step m m' o h).2.1) os _ _ h
  have f3 := fold_or lispOpt (fun m : LM => testBit m.logFlags watchAll = true) _ (fun m (o : Opt Prog) m' h => (lisp_step m m' o h).2.2.1) os _ _ h
  have f4 := fold_or lispOpt (fun m : LM => testBit m.runFlags spare3 = true) _ (fun m (o : Opt Prog) m' h => (lisp_step m m' o h).2.2.2.1) os _ _ h
  have f5 := fold_or lispOpt (fun m : LM => testBit m.logFlags fwdOnly = true) _ (fun m (o : Opt Prog) m' h => (lisp_step m m' o h).2.2.2.2.1) os _ _ h
  have f6 := fold_or lispOpt (fun m : LM => testBit m.logFlags bwdOnly = true) _ (fun m (o : Opt Prog) m' h => (lisp_step m m' o h).2.2.2.2.2.1) os _ _ h
  have f7 := fold_or lispOpt (fun m : LM => m.eval = true) _ (fun m (o : Opt Prog) m' h => (lisp_step m m' o h).2.2.2.2.2.2.1) os _ _ h
  have two : ∀ a b : Opt Prog, (∃ o ∈ os, o = a ∨ o = b) ↔ a ∈ os ∨ b ∈ os := fun a b =>
    ⟨fun ⟨_, k, e⟩ => e.elim (fun e => Or.inl (e ▸ k)) (fun e => Or.inr (e ▸ k)),
      fun k => k.elim (fun k => ⟨_, k, Or.inl rfl⟩) (fun k => ⟨_, k, Or.inr rfl⟩)⟩
  simp only [z, s2, s3, s4, two, Bool.false_eq_true, false_or, exists_eq_right] at f1 f2 f3 f4 f5 f6 f7
  exact ⟨f1, f2, f3, f4, f5, f6, f7⟩

/-- The last of `ExecuteFwdOnly` and `ExecuteBwdOnly` decides what is run; without either both directions are run. -/
theorem lisp_runs (os : List (Opt Prog)) (m : LM) (h : newLisp os = some m) :
    (testBit m.runFlags fwdOnly = true ↔ ∀ pre post, os = pre ++ .execBwdOnly :: post → Opt.execFwdOnly ∈ post) ∧
    (testBit m.runFlags bwdOnly = true ↔ ∀ pre post, os = pre ++ .execFwdOnly :: post → Opt.execBwdOnly ∈ post) := by
  have s0 : testBit ((0#16 ||| (1#16 <<< fwdOnly)) ||| (1#16 <<< bwdOnly)) fwdOnly = true := by decide
  have s1 : testBit ((0#16 ||| (1#16 <<< fwdOnly)) ||| (1#16 <<< bwdOnly)) bwdOnly = true := by decide
  have f1 := fold_last lispOpt (fun m : LM => testBit m.runFlags fwdOnly = true) (Opt.execFwdOnly : Opt Prog) .execBwdOnly (by simp)
    (fun m m' h => ((lisp_step m m' _ h).2.2.2.2.2.2.2.2.1 rfl).1)
    (fun m m' h => by simp [((lisp_step m m' _ h).2.2.2.2.2.2.2.2.2 rfl).1])
    (fun m o m' a b h => by rw [((lisp_step m m' _ h).2.2.2.2.2.2.2.1 a b).1]) os _ _ h
  have f2 := fold_last lispOpt (fun m : LM => testBit m.runFlags bwdOnly = true) (Opt.execBwdOnly : Opt Prog) .execFwdOnly (by simp)
    (fun m m' h => ((lisp_step m m' _ h).2.2.2.2.2.2.2.2.2 rfl).2)
    (fun m m' h => by simp [((lisp_step m m' _ h).2.2.2.2.2.2.2.2.1 rfl).2])
    (fun m o m' a b h => by rw [((lisp_step m m' _ h).2.2.2.2.2.2.2.1 b a).2]) os _ _ h
  simp only [s0, s1, true_or, true_and] at f1 f2
  exact ⟨f1, f2⟩

/-- There is no list of options with which the Lisp machine runs nothing. -/
theorem lisp_runs_something (os : List (Opt Prog)) (m : LM) (h : newLisp os = some m) :
    testBit m.runFlags fwdOnly = true ∨ testBit m.runFlags bwdOnly = true := by
  have key : ∀ (os : List (Opt Prog)) (m m' : LM), os.foldlM lispOpt m = some m' →
      (testBit m.runFlags fwdOnly = true ∨ testBit m.runFlags bwdOnly = true) →
      (testBit m'.runFlags fwdOnly = true ∨ testBit m'.runFlags bwdOnly = true) := by
    intro os
    induction os with
    | nil => intro m m' h hm; simp at h; exact h ▸ hm
    | cons o os ih =>
      intro m m' h hm
      obtain ⟨m1, h1, h2⟩ := fold_cons lispOpt m m' o os h
      refine ih m1 m' h2 ?_
      have st := (lisp_step m m1 o h1).2.2.2.2.2.2.2
      rcases Classical.em (o = .execFwdOnly) with e | na
      · exact Or.inl (st.2.1 e).1
      · rcases Classical.em (o = .execBwdOnly) with e | nb
        · exact Or.inr (st.2.2 e).2
        · rw [(st.1 na nb).1, (st.1 na nb).2]; exact hm
  exact key os _ m h (Or.inl (by decide))

/-- The nodes watched are those of the watchlists, in the order given. -/
theorem lisp_watch (os : List (Opt Prog)) (m : LM) (h : newLisp os = some m) :
    m.watchlist = os.flatMap (fun o => match o with | .watchlist l => nodesOf l | _ => []) := by
  have f := fold_append lispOpt (fun m : LM => m.watchlist) (fun o : Opt Prog => match o with | .watchlist l => nodesOf l | _ => []) (by
    intro m o m' h
    cases o with
    | watchlist l =>
      cases l with
      | nil => simp [lispOpt] at h; subst h; simp [nodesOf]
      | cons i l =>
        simp only [lispOpt, List.length_cons, Nat.add_one_ne_zero, if_false] at h
        rw [lisp_items _ _ _ h]
    | _ => simp [lispOpt] at h <;> subst h <;> simp) os _ _ h
  simpa using f

/-! ### Examples -/

/-- A machine for training with all the checks. -/
example : ∃ m : TM Nat, newTape 7 [.traceExec, .nanWatch, .bindDualValues [5, 3, 5], .infWatch, .precompiled (some 9),
    .watchlist [.reg 4, .node 8]] = some m ∧ m.bindNodes = [3, 5] ∧ m.prog = some 9 ∧ m.runFlags = 0b11101100#16 ∧
    m.watchRegs = [4] ∧ copies m 8 = true ∧ bindsDeriv m 3 = true ∧ bindsDeriv m 4 = false :=
  ⟨_, rfl, rfl, rfl, rfl, rfl, rfl, rfl, rfl⟩

/-- A Lisp machine told first to run forwards only, then backwards only. -/
example : ∃ m : LM, newLisp ([.execFwdOnly, .nanWatch, .execBwdOnly, .logBothDir] : List (Opt Nat)) = some m ∧
    m.runFlags = 0b110#16 ∧ m.logFlags = 0b11#16 := ⟨_, rfl, rfl, rfl⟩

example : newTape 7 [.traceExec, .logFwd] = none ∧ newLisp ([.traceExec] : List (Opt Nat)) = none := ⟨rfl, rfl⟩

end Verif.Tape.Options
