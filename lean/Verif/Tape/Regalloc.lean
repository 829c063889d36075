import Verif.Tape.Intervals
/-!
C09, C12: register allocation and value numbering.
-/
set_option autoImplicit false
namespace Verif.Tape

/-- No two nodes of the program have the same hash code. -/
def NoClash (P : Prog) : Prop := ∀ i j, i < P.length → j < P.length → (P.node i).hash = (P.node j).hash → i = j

/-- No operation has exactly one let statement among its users. -/
def NoLet (P : Prog) : Prop := ∀ i, (P.node i).lets ≠ 1

/-! ### Value numbering -/

theorem seed_ok (P : Prog) (leaves : List Nat) (hl : ∀ l ∈ leaves, l < P.length) :
    ∀ h r, seedUniques P leaves h = some r → r < P.length ∧ (P.node r).hash = h := by
  unfold seedUniques
  suffices H : ∀ (u : Nat → Option Nat), (∀ h r, u h = some r → r < P.length ∧ (P.node r).hash = h) →
      ∀ h r, leaves.foldl (fun u l => upd u (P.node l).hash (some l)) u h = some r → r < P.length ∧ (P.node r).hash = h from
    H _ (fun h r e => by cases e)
  induction leaves with
  | nil => intro u hu; exact hu
  | cons l ls ih =>
    intro u hu
    simp only [List.foldl_cons]
    apply ih (fun x hx => hl x (by simp [hx]))
    intro h r e
    by_cases eh : h = (P.node l).hash
    · subst eh; rw [upd_same] at e; cases e; exact ⟨hl _ (by simp), rfl⟩
    · rw [upd_ne _ _ _ _ eh] at e; exact hu h r e

/-- State of value numbering after the first `k` nodes. -/
theorem vn_loop (P : Prog) (leaves : List Nat) (hl : ∀ l ∈ leaves, l < P.length) (k : Nat) (hk : k ≤ P.length) :
    let s := (List.range k).foldl (vnStep P) ⟨seedUniques P leaves, id⟩
    (∀ h r, s.uniques h = some r → r < P.length ∧ (P.node r).hash = h) ∧
    (∀ i, i < k → s.repl i < P.length ∧ (P.node (s.repl i)).hash = (P.node i).hash ∧
      s.uniques (P.node i).hash = some (s.repl i)) ∧ (∀ i, k ≤ i → s.repl i = i) ∧
    (∀ h r, seedUniques P leaves h = some r → s.uniques h = some r) := by
  induction k with
  | zero =>
    exact ⟨seed_ok P leaves hl, fun i h => by omega, fun i _ => rfl, fun _ _ h => h⟩
  | succ k ih =>
    obtain ⟨h1, h2, h3, h4⟩ := ih (by omega)
    simp only [List.range_succ, List.foldl_append, List.foldl_cons, List.foldl_nil]
    set s := (List.range k).foldl (vnStep P) ⟨seedUniques P leaves, id⟩
    unfold vnStep
    cases hu : s.uniques (P.node k).hash with
    | some r =>
      simp only
      refine ⟨h1, fun i hi => ?_, fun i hi => ?_, h4⟩
      · by_cases e : i = k
        · subst e; rw [upd_same]; exact ⟨(h1 _ _ hu).1, (h1 _ _ hu).2, hu⟩
        · rw [upd_ne _ _ _ _ e]; exact h2 i (by omega)
      · rw [upd_ne _ _ _ _ (by omega)]; exact h3 i (by omega)
    | none =>
      simp only
      refine ⟨fun h r e => ?_, fun i hi => ?_, fun i hi => ?_, fun h r e => ?_⟩
      · by_cases eh : h = (P.node k).hash
        · subst eh; rw [upd_same] at e; cases e; exact ⟨by omega, rfl⟩
        · rw [upd_ne _ _ _ _ eh] at e; exact h1 h r e
      · by_cases e : i = k
        · subst e; rw [upd_same, upd_same]; exact ⟨by omega, rfl, rfl⟩
        · rw [upd_ne _ _ _ _ e]
          obtain ⟨x, y, z⟩ := h2 i (by omega)
          refine ⟨x, y, ?_⟩
          rw [upd_ne]; · exact z
          · intro eh; rw [eh, hu] at z; cases z
      · rw [upd_ne _ _ _ _ (by omega)]; exact h3 i (by omega)
      · rw [upd_ne]; · exact h4 h r e
        · intro eh; have := h4 h r e; rw [eh, hu] at this; cases this

/-- **C12 (what is merged).** Value numbering lets a node stand for another exactly if they have the same hash code; the
representative stands for itself, so merging is idempotent. -/
theorem analyze_iff (P : Prog) (leaves : List Nat) (hl : ∀ l ∈ leaves, l < P.length) (i j : Nat)
    (hi : i < P.length) (hj : j < P.length) :
    (analyze P leaves i = analyze P leaves j ↔ (P.node i).hash = (P.node j).hash) ∧
    analyze P leaves (analyze P leaves i) = analyze P leaves i ∧ analyze P leaves i < P.length := by
  obtain ⟨_, h2, _, _⟩ := vn_loop P leaves hl P.length (Nat.le_refl _)
  have hh : ∀ i j, i < P.length → j < P.length → (P.node i).hash = (P.node j).hash →
      analyze P leaves i = analyze P leaves j := by
    intro i j hi hj e
    have a := (h2 i hi).2.2
    have b := (h2 j hj).2.2
    rw [e] at a
    have := a.symm.trans b
    injection this
  refine ⟨⟨fun e => ?_, hh i j hi hj⟩, ?_, (h2 i hi).1⟩
  · have a := (h2 i hi).2.1
    have b := (h2 j hj).2.1
    change (P.node (analyze P leaves i)).hash = _ at a
    change (P.node (analyze P leaves j)).hash = _ at b
    rw [← a, ← b, e]
  · exact hh _ _ (h2 i hi).1 hi (h2 i hi).2.1

theorem analyze_id (P : Prog) (leaves : List Nat) (hl : ∀ l ∈ leaves, l < P.length) (hc : NoClash P) (i : Nat)
    (hi : i < P.length) : analyze P leaves i = i := by
  obtain ⟨_, h2, _, _⟩ := vn_loop P leaves hl P.length (Nat.le_refl _)
  exact hc _ _ (h2 i hi).1 hi (h2 i hi).2.1

/-! ### Without merging -/

theorem foldl_congr_range {α : Type} (f g : α → Nat → α) (n : Nat) (h : ∀ s i, i < n → f s i = g s i) (s : α) :
    (List.range n).foldl f s = (List.range n).foldl g s := by
  induction n with
  | zero => rfl
  | succ n ih =>
    simp only [List.range_succ, List.foldl_append, List.foldl_cons, List.foldl_nil]
    rw [ih (fun s i hi => h s i (by omega)), h _ _ (by omega)]

theorem regalloc_congr (P : Prog) (hb : ∀ i, i < P.length → ∀ c ∈ (P.node i).children, c < i)
    (repl : Nat → Nat) (h : ∀ i, i < P.length → repl i = i) :
    regalloc P repl = regalloc P id := by
  unfold regalloc
  apply foldl_congr_range
  intro s i hi
  unfold allocStep
  simp only [h i hi, id, ne_eq, not_true_eq_false, ↓reduceIte]
  unfold RA.mutableOp
  have : (P.node i).children.map (fun c => s.iv (repl c)) = (P.node i).children.map (fun c => s.iv (id c)) := by
    apply List.map_congr_left
    intro c hc
    rw [h c (by have := hb i hi c hc; omega)]; rfl
  dsimp only
  rw [this]

theorem gen_congr (P : Prog) (hb : ∀ i, i < P.length → ∀ c ∈ (P.node i).children, c < i)
    (repl : Nat → Nat) (h : ∀ i, i < P.length → repl i = i)
    (iv : Nat → Interval) : gen P repl iv = gen P id iv := by
  unfold gen
  congr 1
  apply foldl_congr_range
  intro s i hi
  unfold genStep
  have : readRegs P repl iv i = readRegs P id iv i := by
    unfold readRegs
    apply List.map_congr_left
    intro c hc
    rw [h c (by have := hb i hi c hc; omega)]; rfl
  rw [this, h i hi]
  rfl

/-- The register of a node when nothing is merged. -/
def reg (P : Prog) (i : Nat) : Nat := ((regalloc P id).iv i).result

/-- Needs only that operands come first, not that statements are no operands. -/
theorem compile_ordered (P : Prog) (hb : ∀ i, i < P.length → ∀ c ∈ (P.node i).children, c < i) (leaves : List Nat)
    (hl : ∀ l ∈ leaves, l < P.length) (hc : NoClash P) : compile P leaves = gen P id (regalloc P id).iv := by
  unfold compile
  have h := analyze_id P leaves hl hc
  simp only
  rw [gen_congr P hb _ h, regalloc_congr P hb _ h]

theorem compile_eq (P : Prog) (W : WF P) (leaves : List Nat) (hl : ∀ l ∈ leaves, l < P.length) (hc : NoClash P) :
    compile P leaves = gen P id (regalloc P id).iv := compile_ordered P W.before leaves hl hc

/-- Allocation state after the first `k` nodes. -/
def ra (P : Prog) (k : Nat) : RA := (List.range k).foldl (allocStep P id) ⟨0, buildIntervals P⟩

theorem ra_succ (P : Prog) (k : Nat) : ra P (k + 1) = allocStep P id (ra P k) k := by
  simp [ra, List.range_succ]

/-- What one allocation step does when nothing is merged: the node gets either a register no one had, or that of the
operand it overwrites. -/
theorem allocStep_cases (P : Prog) (s : RA) (i : Nat) :
    let s' := allocStep P id s i
    (∀ a, a ≠ i → s'.iv a = s.iv a) ∧ (∃ r, s'.iv i = { s.iv i with result := r }) ∧
    ((P.node i).stmt = true ∧ (P.node i).kind ≠ .arg ∧ s'.cpucount = s.cpucount ∨
     (P.node i).stmt = false ∧ (s'.iv i).result = s.cpucount ∧ s'.cpucount = s.cpucount + 1 ∨
     (P.node i).stmt = false ∧ s'.cpucount = s.cpucount ∧ (P.node i).kind ≠ .arg ∧ (P.node i).returnsPtr = true ∧
       (P.node i).callsExtern = false ∧ (P.node i).overwrites ≥ 0 ∧
       (s'.iv i).result = (((P.node i).children.map s.iv).getD (P.node i).overwrites.toNat {}).result ∧
       ((P.node i).lets = 1 ∨ (((P.node i).children.map s.iv).getD (P.node i).overwrites.toNat {}).liveAt i = false)) := by
  have fr : (∀ a, a ≠ i → (s.fresh i).iv a = s.iv a) ∧ (∃ r, (s.fresh i).iv i = { s.iv i with result := r }) ∧
      ((s.fresh i).iv i).result = s.cpucount ∧ (s.fresh i).cpucount = s.cpucount + 1 := by
    refine ⟨fun a h => ?_, ⟨s.cpucount, ?_⟩, ?_, rfl⟩
    · simp [RA.fresh, setResult, upd, h]
    · simp [RA.fresh, setResult, upd]
    · simp [RA.fresh, setResult, upd]
  have st : ∀ r, (∀ a, a ≠ i → setResult s.iv i r a = s.iv a) ∧ setResult s.iv i r i = { s.iv i with result := r } := by
    intro r
    exact ⟨fun a h => by simp [setResult, upd, h], by simp [setResult, upd]⟩
  unfold allocStep
  simp only [id, ne_eq, not_true_eq_false, ↓reduceIte]
  by_cases h1 : (P.node i).kind = .arg
  · have hs : (P.node i).stmt = false := by simp [Node.stmt, h1]
    simp only [h1, ↓reduceIte]
    exact ⟨fr.1, fr.2.1, .inr (.inl ⟨hs, fr.2.2⟩)⟩
  · simp only [h1, ↓reduceIte]
    by_cases h2 : (P.node i).stmt = true
    · simp only [h2, ↓reduceIte]
      exact ⟨(st 0).1, ⟨0, (st 0).2⟩, .inl ⟨trivial, by simp, trivial⟩⟩
    · have hs : (P.node i).stmt = false := by simpa using h2
      simp only [hs, Bool.false_eq_true, ↓reduceIte]
      by_cases h3 : (P.node i).returnsPtr = true
      · simp only [h3, ↓reduceIte]
        unfold RA.mutableOp
        simp only [id]
        by_cases h4 : (P.node i).overwrites ≥ 0
        · simp only [h4, ↓reduceIte]
          split
          · rename_i h5
            by_cases h6 : (P.node i).callsExtern = false
            · simp only [h6, ↓reduceIte]
              refine ⟨(st _).1, ⟨_, (st _).2⟩, .inr (.inr ⟨trivial, trivial, by simp, trivial, trivial, trivial, ?_, h5⟩)⟩
              rw [(st _).2]
            · simp only [h6, Bool.false_eq_true, ↓reduceIte]
              exact ⟨fr.1, fr.2.1, .inr (.inl ⟨trivial, fr.2.2⟩)⟩
          · exact ⟨fr.1, fr.2.1, .inr (.inl ⟨trivial, fr.2.2⟩)⟩
        · simp only [h4, ↓reduceIte]
          exact ⟨fr.1, fr.2.1, .inr (.inl ⟨trivial, fr.2.2⟩)⟩
      · simp only [h3, Bool.false_eq_true, ↓reduceIte]
        exact ⟨fr.1, fr.2.1, .inr (.inl ⟨trivial, fr.2.2⟩)⟩

theorem ra_iv (P : Prog) (k a : Nat) : ∃ r, (ra P k).iv a = { buildIntervals P a with result := r } := by
  induction k with
  | zero => exact ⟨_, rfl⟩
  | succ k ih =>
    rw [ra_succ]
    obtain ⟨h1, ⟨r, h2⟩, _⟩ := allocStep_cases P (ra P k) k
    obtain ⟨r', h'⟩ := ih
    by_cases e : a = k
    · subst e; exact ⟨r, by rw [h2, h']⟩
    · exact ⟨r', by rw [h1 a e, h']⟩

theorem ra_stable (P : Prog) (a k : Nat) (h : a < k) : (ra P k).iv a = (ra P (a + 1)).iv a := by
  induction k with
  | zero => omega
  | succ k ih =>
    rcases Nat.lt_or_ge a k with h' | h'
    · rw [ra_succ, (allocStep_cases P (ra P k) k).1 a (by omega), ih h']
    · have : a = k := by omega
      subst this; rfl

theorem reg_eq (P : Prog) (a k : Nat) (h : a < k) (hk : k ≤ P.length) : ((ra P k).iv a).result = reg P a := by
  rw [ra_stable P a k h, ← ra_stable P a P.length (by omega)]; rfl

theorem ra_liveAt (P : Prog) (k a : Nat) (t : Int) : ((ra P k).iv a).liveAt t = (buildIntervals P a).liveAt t := by
  obtain ⟨r, h⟩ := ra_iv P k a
  rw [h]; rfl

/-- The operand the node at `i` may overwrite. -/
def target (P : Prog) (i : Nat) : Nat := (P.node i).children.getD (P.node i).overwrites.toNat 0

theorem target_mem (P : Prog) (W : WF P) (i : Nat) (h : (P.node i).overwrites ≥ 0) :
    target P i ∈ (P.node i).children := by
  have := W.over i
  have hl : (P.node i).overwrites.toNat < (P.node i).children.length := by omega
  unfold target
  rw [List.getD_eq_getElem?_getD, List.getElem?_eq_getElem hl]
  exact List.getElem_mem hl

/-- The node at `i` takes over the register of its operand `c`. -/
structure Takes (P : Prog) (i c : Nat) : Prop where
  kind : (P.node i).kind ≠ .arg
  ptr : (P.node i).returnsPtr = true
  ext : (P.node i).callsExtern = false
  ow : (P.node i).overwrites ≥ 0
  eq : c = target P i
  same : reg P i = reg P c
  dead : (P.node i).lets = 1 ∨ (buildIntervals P c).liveAt i = false

structure RInv (P : Prog) (k : Nat) : Prop where
  lt : ∀ a, a < k → (P.node a).stmt = false → reg P a < (ra P k).cpucount
  cases : ∀ i, i < k → (P.node i).stmt = false →
    (∀ a, a < i → (P.node a).stmt = false → reg P a ≠ reg P i) ∨ Takes P i (target P i)

theorem rinv (P : Prog) (W : WF P) (k : Nat) (hk : k ≤ P.length) : RInv P k := by
  induction k with
  | zero => exact ⟨fun a h => by omega, fun a h => by omega⟩
  | succ k ih =>
    have I := ih (by omega)
    obtain ⟨c1, ⟨r, c2⟩, c3⟩ := allocStep_cases P (ra P k) k
    rw [← ra_succ] at c1 c2 c3
    have hres : ((ra P (k + 1)).iv k).result = reg P k := reg_eq P k (k + 1) (by omega) hk
    have mono : (ra P k).cpucount ≤ (ra P (k + 1)).cpucount := by
      rcases c3 with ⟨_, _, h⟩ | ⟨_, _, h⟩ | ⟨_, h, _⟩ <;> omega
    have tgt : (P.node k).overwrites ≥ 0 →
        ((P.node k).children.map (ra P k).iv).getD (P.node k).overwrites.toNat {} = (ra P k).iv (target P k) := by
      intro h
      have := W.over k
      have hl : (P.node k).overwrites.toNat < (P.node k).children.length := by omega
      unfold target
      rw [List.getD_eq_getElem?_getD, List.getD_eq_getElem?_getD, List.getElem?_map, List.getElem?_eq_getElem hl]
      rfl
    refine ⟨fun a ha hs => ?_, fun i hi hs => ?_⟩
    · rcases Nat.lt_or_ge a k with h | h
      · have := I.lt a h hs; omega
      · have : a = k := by omega
        subst this
        rcases c3 with ⟨h1, _⟩ | ⟨_, h1, h2⟩ | ⟨_, h1, _, _, _, ho, h2, _⟩
        · rw [h1] at hs; cases hs
        · rw [hres] at h1; omega
        · rw [hres, tgt ho] at h2
          have hm := target_mem P W a ho
          have hlt := W.before a (by omega) _ hm
          have e := reg_eq P (target P a) a hlt (by omega)
          have := I.lt _ hlt (W.nostmt a (by omega) _ hm)
          omega
    · rcases Nat.lt_or_ge i k with h | h
      · exact I.cases i h hs
      · have : i = k := by omega
        subst this
        rcases c3 with ⟨h1, _⟩ | ⟨_, h1, h2⟩ | ⟨_, h1, hk', hp, he, ho, h2, h3⟩
        · rw [h1] at hs; cases hs
        · left
          intro a ha hsa
          have := I.lt a ha hsa
          rw [hres] at h1; omega
        · right
          have hm := target_mem P W i ho
          have hlt := W.before i (by omega) _ hm
          have e := reg_eq P (target P i) i hlt (by omega)
          rw [tgt ho] at h2 h3
          refine ⟨hk', hp, he, ho, rfl, ?_, ?_⟩
          · rw [← hres, h2, e]
          · rw [ra_liveAt] at h3; exact h3

theorem reg_lt (P : Prog) (W : WF P) (a : Nat) (h : a < P.length) (hs : (P.node a).stmt = false) :
    reg P a < (regalloc P id).cpucount := (rinv P W P.length (Nat.le_refl _)).lt a h hs

theorem reg_cases (P : Prog) (W : WF P) (i : Nat) (h : i < P.length) (hs : (P.node i).stmt = false) :
    (∀ a, a < i → (P.node a).stmt = false → reg P a ≠ reg P i) ∨ Takes P i (target P i) :=
  (rinv P W P.length (Nat.le_refl _)).cases i h hs

/-- **C09, partial.** Without let statements, and without merged nodes, a later node gets the register of an earlier one
only after the last instruction that reads the earlier value (it may itself be that instruction), never if the earlier
value is an input, a constant or the gradient of an input, and never if it is a root (nobody reads it). Missing: let
statements and merged nodes, for which the statement is false (`let_destroys`, `merge_destroys`). -/
theorem registers_safe_partial (P : Prog) (W : WF P) (hn : NoLet P) (a b : Nat) (hab : a < b) (hb : b < P.length)
    (hsa : (P.node a).stmt = false) (hsb : (P.node b).stmt = false) (he : reg P a = reg P b) :
    (∀ j, Uses P j a → j ≤ b) ∧ ¬ Kept P a ∧ ∃ j, Uses P j a ∧ j ≤ b := by
  induction b using Nat.strong_induction_on generalizing a with
  | _ b ih =>
    rcases reg_cases P W b hb hsb with h | T
    · exact absurd he (h a hab hsa)
    · set c := target P b with hc
      have hm : c ∈ (P.node b).children := target_mem P W b T.ow
      have hcb := W.before b hb c hm
      have hsc := W.nostmt b hb c hm
      have hdead : (buildIntervals P c).liveAt b = false := by
        rcases T.dead with h | h
        · exact absurd h (hn b)
        · exact h
      have hlive := (interval_exact P W c (by omega)).2 b
      have hcu : ∀ j, Uses P j c → j ≤ b := by
        intro j hj
        by_contra hlt
        have := hlive.2 ⟨by omega, .inr ⟨j, hj, by omega⟩⟩
        rw [hdead] at this; cases this
      have hck : ¬ Kept P c := by
        intro hk
        have := hlive.2 ⟨by omega, .inl ⟨by omega, hk⟩⟩
        rw [hdead] at this; cases this
      have hub : Uses P b c := ⟨hb, hm⟩
      have hac : reg P a = reg P c := by rw [he, T.same]
      rcases Nat.lt_trichotomy a c with h | h | h
      · obtain ⟨i1, i2, j, i3, i4⟩ := ih c hcb a h (by omega) hsa hsc hac
        exact ⟨fun j hj => by have := i1 j hj; omega, i2, j, i3, by omega⟩
      · subst h; exact ⟨hcu, hck, b, hub, Nat.le_refl _⟩
      · -- a node between: it took the register although `b` still reads `c`
        obtain ⟨i1, _, _⟩ := ih a hab c h (by omega) hsc hsa hac.symm
        have := i1 b hub
        omega

/-- **C09 (no sharing), partial.** Two values that are both still read after instruction `k` are in different
registers. -/
theorem alive_apart_partial (P : Prog) (W : WF P) (hn : NoLet P) (a b k : Nat) (hab : a < b) (hbk : b ≤ k)
    (hk : k < P.length) (hsa : (P.node a).stmt = false) (hsb : (P.node b).stmt = false)
    (ha : ∃ j, k < j ∧ Uses P j a) : reg P a ≠ reg P b := by
  intro he
  obtain ⟨j, hj, hu⟩ := ha
  have := (registers_safe_partial P W hn a b hab (by omega) hsa hsb he).1 j hu
  omega

/-- Concrete case: `x`, `y`, `s = x + y` (may overwrite `x`), `t = s * y` (may overwrite `s`): the input's register is
not reused, the register of the intermediate sum is. -/
example :
    let P : Prog := [{ kind := .arg, hash := 0 }, { kind := .arg, hash := 1 },
      { children := [0, 1], overwrites := 0, hash := 2 }, { children := [2, 1], overwrites := 0, hash := 3 }]
    reg P 0 = 0 ∧ reg P 1 = 1 ∧ reg P 2 = 2 ∧ reg P 3 = 2 := by decide

/-- **C09 (defect: let).** An operation whose result is assigned by a let statement overwrites its operand although
the operand is an input that a later instruction still reads: `w`, `u = w + w` (assigned to `w`), `y = neg w`. -/
theorem let_destroys :
    let P : Prog := [{ kind := .arg, hash := 0 }, { children := [0, 0], overwrites := 0, hash := 1, lets := 1 },
      { children := [0], overwrites := 0, hash := 2 }, { kind := .letS, children := [0, 1], hash := 3 }]
    reg P 0 = reg P 1 ∧ Uses P 2 0 ∧ Kept P 0 ∧ compile P [0] =
      [.loadArg 0 0, .exec 1 [0, 0] 0 false true, .exec 2 [0] 1 false false, .letI 0 0] := by
  refine ⟨by decide, by decide, Or.inl rfl, by decide⟩

/-- **C08, C09, C12 (defect: merging).** When two nodes have the same hash code the second is not computed, but a register
is chosen for it all the same, and that register becomes the register of the first. Here `p = g x`, `a = f p`,
`q = h p`, and `a'` is merged with `a`. At `a'` the operand `p` is dead, so its register is taken; but the operation is
executed at `a`, before `q` reads `p`. This goes wrong even if `a` and `a'` are the same expression. -/
theorem merge_destroys :
    let P : Prog := [{ kind := .arg, hash := 0 }, { children := [0], hash := 1 }, -- x, p = g x
      { children := [1], overwrites := 0, hash := 2 }, -- a = f p
      { children := [1], hash := 3 }, -- q = h p
      { children := [1], overwrites := 0, hash := 2 }] -- a' = f p, merged with a
    analyze P [0] 4 = 2 ∧ Uses P 3 1 ∧
    compile P [0] = [.loadArg 0 0, .exec 1 [0] 1 false false, .exec 2 [1] 1 false true, .exec 3 [1] 3 false false] := by
  refine ⟨by decide, by decide, by decide⟩

end Verif.Tape
