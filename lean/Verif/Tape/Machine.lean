import Verif.Tape.Regalloc
/-!
The compiled program, executed, computes the graph: definitions and the loop invariant.
-/
set_option autoImplicit false
namespace Verif.Tape

variable {V : Type}

/-! ### What the graph means -/

/-- Value of the node at `i`, given the values of its operands: arguments denote what is bound to them, operations
denote the result of the operation. -/
def evalNode (P : Prog) (E : Env V) (mem : Nat → V) (ev : Nat → Option V) (i : Nat) : Option V :=
  match (P.node i).kind with
  | .arg => (E.inp i).map mem
  | .letS | .readS | .atS => none
  | _ => ((P.node i).children.mapM ev).bind (E.sem i).f

/-- Values of the first `k` nodes. -/
def evalTo (P : Prog) (E : Env V) (mem : Nat → V) : Nat → Nat → Option V
  | 0 => fun _ => none
  | k + 1 => upd (evalTo P E mem k) k (evalNode P E mem (evalTo P E mem k) k)

/-- The value the expression graph gives to a node: no machine, no registers, no sharing of memory. -/
def value (P : Prog) (E : Env V) (mem : Nat → V) (i : Nat) : Option V := evalTo P E mem P.length i

theorem evalTo_stable (P : Prog) (E : Env V) (mem : Nat → V) (a k : Nat) (h : a < k) :
    evalTo P E mem k a = evalTo P E mem (a + 1) a := by
  induction k with
  | zero => omega
  | succ k ih =>
    rcases Nat.lt_or_ge a k with h' | h'
    · simp only [evalTo]; rw [upd_ne _ _ _ _ (by omega), ih h']; simp only [evalTo]
    · have : a = k := by omega
      subst this; rfl

theorem mapM_congr_opt {α β : Type} (f g : α → Option β) (l : List α) (h : ∀ x ∈ l, f x = g x) :
    l.mapM f = l.mapM g := by
  induction l with
  | nil => rfl
  | cons x xs ih =>
    rw [List.mapM_cons, List.mapM_cons, h x (by simp), ih (fun y hy => h y (by simp [hy]))]

theorem evalNode_congr (P : Prog) (E : Env V) (mem : Nat → V) (ev ev' : Nat → Option V) (i : Nat)
    (h : ∀ c ∈ (P.node i).children, ev c = ev' c) : evalNode P E mem ev i = evalNode P E mem ev' i := by
  unfold evalNode
  rw [mapM_congr_opt ev ev' _ h]

/-- The defining equation of `value`: a node's value is its operation applied to the values of its operands. -/
theorem value_eq (P : Prog) (W : WF P) (E : Env V) (mem : Nat → V) (i : Nat) (hi : i < P.length) :
    value P E mem i = evalNode P E mem (value P E mem) i := by
  unfold value
  rw [evalTo_stable P E mem i _ hi]
  simp only [evalTo]
  rw [upd_same]
  apply evalNode_congr
  intro c hc
  have hlt := W.before i hi c hc
  rw [evalTo_stable P E mem c i hlt, evalTo_stable P E mem c P.length (by omega)]

/-! ### Sharing of memory -/

/-- The node writes into a register that already holds a value. -/
def occ (P : Prog) (i : Nat) : Bool :=
  decide ((P.node i).overwrites ≥ 0) && decide (reg P i = reg P (target P i)) && decide ((P.node i).kind ≠ .arg)

/-- `alloc` is emitted for the node. -/
def hasAlloc (P : Prog) (i : Nat) : Bool :=
  decide ((P.node i).kind ≠ .random) && (P.node i).returnsPtr && (P.node i).callsExtern

/-- Which node's memory the node at `i` lives in, and whether that memory belongs to the user or to a constant rather
than to the machine. -/
def locStep (P : Prog) (E : Env V) (loc : Nat → Nat × Bool) (i : Nat) : Nat × Bool :=
  if (P.node i).kind = .arg then (i, true)
  else if (E.sem i).pre = true ∧ occ P i = true then loc (target P i)
  else if (E.sem i).pre = true ∧ hasAlloc P i = true then (i, false)
  else match (E.sem i).ret with
    | .fresh => (i, false)
    | .alias k => loc ((P.node i).children.getD k 0)
    | .static _ => (i, true)

def locTo (P : Prog) (E : Env V) : Nat → Nat → Nat × Bool
  | 0 => fun i => (i, true)
  | k + 1 => upd (locTo P E k) k (locStep P E (locTo P E k) k)

def loc (P : Prog) (E : Env V) (i : Nat) : Nat × Bool := locTo P E P.length i

/-- The value of `a` is wanted when instruction `k` starts: a later instruction reads it, or it is kept to the end, or
it is a root. -/
def Needed (P : Prog) (a k : Nat) : Prop := (∃ j, k ≤ j ∧ Uses P j a) ∨ Kept P a ∨ ∀ j, ¬ Uses P j a

/-- In-place writes hit only memory of the machine in which no value is kept that is wanted afterwards. -/
def Safe (P : Prog) (E : Env V) : Prop :=
  ∀ i, i < P.length → (P.node i).stmt = false → (E.sem i).pre = true → occ P i = true →
    (loc P E (target P i)).2 = false ∧
    ∀ a, a < i → (P.node a).stmt = false → (loc P E a).1 = (loc P E (target P i)).1 → ¬ Needed P a (i + 1)

/-- The operations are what they claim: results that share memory with an operand have the operand's content, memory
held by the op belongs to a constant and holds its value. Memory below `B` belongs to the user. -/
structure SemOK (P : Prog) (E : Env V) (mem : Nat → V) (B : Nat) : Prop where
  inp : ∀ i a, E.inp i = some a → a < B
  static : ∀ i a, i < P.length → (E.sem i).ret = .static a →
    (P.node i).kind = .const ∧ a < B ∧ (E.sem i).f [] = some (mem a)
  share : ∀ i k, i < P.length → (E.sem i).ret = .alias k → ∀ vs y, (E.sem i).f vs = some y → vs[k]? = some y
  reads : ∀ i, i < P.length → (P.node i).kind = .readS → (P.node i).children.length = 1

theorem locTo_stable (P : Prog) (E : Env V) (a k : Nat) (h : a < k) :
    locTo P E k a = locTo P E (a + 1) a := by
  induction k with
  | zero => omega
  | succ k ih =>
    rcases Nat.lt_or_ge a k with h' | h'
    · simp only [locTo]; rw [upd_ne _ _ _ _ (by omega), ih h']; simp only [locTo]
    · have : a = k := by omega
      subst this; rfl

theorem occ_takes (P : Prog) (W : WF P) (i : Nat) (hi : i < P.length) (hs : (P.node i).stmt = false) :
    occ P i = true ↔ Takes P i (target P i) := by
  constructor
  · intro h
    simp only [occ, Bool.and_eq_true, decide_eq_true_eq] at h
    rcases reg_cases P W i hi hs with h' | T
    · have hm := target_mem P W i h.1.1
      exact absurd h.1.2.symm (h' _ (W.before i hi _ hm) (W.nostmt i hi _ hm))
    · exact T
  · intro T
    simp only [occ, Bool.and_eq_true, decide_eq_true_eq]
    exact ⟨⟨T.ow, T.same⟩, T.kind⟩

theorem not_occ (P : Prog) (W : WF P) (i : Nat) (hi : i < P.length) (hs : (P.node i).stmt = false)
    (h : occ P i = false) : ∀ a, a < i → (P.node a).stmt = false → reg P a ≠ reg P i := by
  rcases reg_cases P W i hi hs with h' | T
  · exact h'
  · have := (occ_takes P W i hi hs).2 T
    rw [h] at this; cases this

theorem loc_eq (P : Prog) (W : WF P) (E : Env V) (mem : Nat → V) (B : Nat) (S : SemOK P E mem B) (i : Nat)
    (hi : i < P.length) (hv : ((P.node i).children.mapM (value P E mem)).bind (E.sem i).f ≠ none) :
    loc P E i = locStep P E (loc P E) i := by
  have h1 : loc P E i = locStep P E (locTo P E i) i := by
    unfold loc; rw [locTo_stable P E i _ hi]; simp only [locTo]; rw [upd_same]
  rw [h1]
  have hc : ∀ c ∈ (P.node i).children, locTo P E i c = loc P E c := by
    intro c hc
    have hlt := W.before i hi c hc
    unfold loc
    rw [locTo_stable P E c i hlt, locTo_stable P E c P.length (by omega)]
  unfold locStep
  split
  · rfl
  split
  · rename_i h
    apply hc
    have : (P.node i).overwrites ≥ 0 := by
      have := h.2
      simp only [occ, Bool.and_eq_true, decide_eq_true_eq] at this
      exact this.1.1
    exact target_mem P W i this
  split
  · rfl
  · split
    · rfl
    · rename_i k hk
      apply hc
      cases hm : (P.node i).children.mapM (value P E mem) with
      | none => rw [hm] at hv; simp at hv
      | some vs =>
        rw [hm] at hv
        cases hf : (E.sem i).f vs with
        | none => simp [hf] at hv
        | some y =>
          have := S.share i k hi hk vs y hf
          have hlen : vs.length = (P.node i).children.length := by
            clear this hf hv hk
            have : ∀ (l : List Nat) (vs : List V), l.mapM (value P E mem) = some vs → vs.length = l.length := by
              intro l
              induction l with
              | nil => intro vs h; simp at h; subst h; rfl
              | cons x xs ih =>
                intro vs h
                rw [List.mapM_cons] at h
                cases h1 : value P E mem x with
                | none => rw [h1] at h; simp at h
                | some v =>
                  cases h2 : xs.mapM (value P E mem) with
                  | none => rw [h1, h2] at h; simp at h
                  | some ws =>
                    rw [h1, h2] at h; simp at h; subst h; simp [ih ws h2]
            exact this _ _ hm
          have hk' : k < (P.node i).children.length := by
            have := (List.getElem?_eq_some_iff.1 this).1
            omega
          rw [List.getD_eq_getElem?_getD, List.getElem?_eq_getElem hk']
          exact List.getElem_mem hk'
    · rfl

/-! ### The code, node by node -/

/-- The instructions of the node at `i`. -/
def frag (P : Prog) (i : Nat) : List Instr :=
  match (P.node i).kind with
  | .arg => [.loadArg i (reg P i)]
  | .letS => [.letI (reg P ((P.node i).children.getD 1 0)) (reg P ((P.node i).children.getD 0 0))]
  | .readS => [.read i (reg P ((P.node i).children.getD 0 0))]
  | .atS => []
  | _ =>
    (if hasAlloc P i then [.alloc i (reg P i)] else []) ++
    [.exec i ((P.node i).children.map (reg P)) (reg P i) (hasAlloc P i)
      (decide ((P.node i).children.map (reg P) ≠ [] ∧ (P.node i).overwrites ≥ 0 ∧
        ((P.node i).children.map (reg P))[(P.node i).overwrites.toNat]? = some (reg P i)))]

theorem gen_loop (P : Prog) (W : WF P) (k : Nat) (hk : k ≤ P.length) :
    let s := (List.range k).foldl (genStep P id (regalloc P id).iv) ⟨[], []⟩
    s.code = (List.range k).flatMap (frag P) ∧
    ∀ r ∈ s.allocated, ∃ a, a < k ∧ (P.node a).stmt = false ∧ reg P a = r := by
  induction k with
  | zero => exact ⟨rfl, by simp⟩
  | succ k ih =>
    obtain ⟨h1, h2⟩ := ih (by omega)
    simp only [List.range_succ, List.foldl_append, List.foldl_cons, List.foldl_nil, List.flatMap_append,
      List.flatMap_cons, List.flatMap_nil, List.append_nil]
    set s := (List.range k).foldl (genStep P id (regalloc P id).iv) ⟨[], []⟩
    have weak : ∀ r ∈ s.allocated, ∃ a, a < k + 1 ∧ (P.node a).stmt = false ∧ reg P a = r := by
      intro r hr; obtain ⟨a, x, y, z⟩ := h2 r hr; exact ⟨a, by omega, y, z⟩
    have hw : ((regalloc P id).iv (id k)).result = reg P k := rfl
    have opcase : (P.node k).stmt = false → (P.node k).kind ≠ .arg →
        (decide (((P.node k).kind ≠ .random ∧ (P.node k).returnsPtr = true) ∧ (P.node k).callsExtern = true ∧
          reg P k ∉ s.allocated)) = hasAlloc P k := by
      intro hs ha
      unfold hasAlloc
      cases hp : (P.node k).returnsPtr <;> cases he : (P.node k).callsExtern <;>
        by_cases hr : (P.node k).kind = .random <;> simp [hr]
      intro hm
      obtain ⟨a, x, y, z⟩ := h2 _ hm
      rcases reg_cases P W k (by omega) hs with h | T
      · exact h a x y z
      · have := T.ext; rw [he] at this; cases this
    rw [← h1]
    unfold genStep frag
    simp only [id, readRegs]
    have hreg : ∀ c, ((regalloc P id).iv c).result = reg P c := fun _ => rfl
    simp only [hreg]
    cases hkd : (P.node k).kind with
    | arg => exact ⟨rfl, weak⟩
    | letS => exact ⟨rfl, weak⟩
    | readS => exact ⟨rfl, weak⟩
    | atS => exact ⟨(List.append_nil _).symm, weak⟩
    | random =>
      have hs : (P.node k).stmt = false := by simp [Node.stmt, hkd]
      have := opcase hs (by rw [hkd]; simp)
      rw [hkd] at this
      simp only [ne_eq] at this ⊢
      simp only [this, ↓reduceIte]
      by_cases ha : hasAlloc P k = true
      · simp only [ha, ↓reduceIte]
        refine ⟨by simp, fun r hr => ?_⟩
        rcases List.mem_cons.1 hr with e | e
        · exact ⟨k, by omega, hs, e.symm⟩
        · exact weak r e
      · simp only [ha, Bool.false_eq_true, ↓reduceIte]
        exact ⟨by simp, weak⟩
    | const =>
      have hs : (P.node k).stmt = false := by simp [Node.stmt, hkd]
      have := opcase hs (by rw [hkd]; simp)
      rw [hkd] at this
      simp only [ne_eq] at this ⊢
      simp only [this, ↓reduceIte]
      by_cases ha : hasAlloc P k = true
      · simp only [ha, ↓reduceIte]
        refine ⟨by simp, fun r hr => ?_⟩
        rcases List.mem_cons.1 hr with e | e
        · exact ⟨k, by omega, hs, e.symm⟩
        · exact weak r e
      · simp only [ha, Bool.false_eq_true, ↓reduceIte]
        exact ⟨by simp, weak⟩
    | op =>
      have hs : (P.node k).stmt = false := by simp [Node.stmt, hkd]
      have := opcase hs (by rw [hkd]; simp)
      rw [hkd] at this
      simp only [ne_eq] at this ⊢
      simp only [this, ↓reduceIte]
      by_cases ha : hasAlloc P k = true
      · simp only [ha, ↓reduceIte]
        refine ⟨by simp, fun r hr => ?_⟩
        rcases List.mem_cons.1 hr with e | e
        · exact ⟨k, by omega, hs, e.symm⟩
        · exact weak r e
      · simp only [ha, Bool.false_eq_true, ↓reduceIte]
        exact ⟨by simp, weak⟩

theorem compile_frags (P : Prog) (W : WF P) (leaves : List Nat) (hl : ∀ l ∈ leaves, l < P.length) (hc : NoClash P) :
    compile P leaves = (List.range P.length).flatMap (frag P) := by
  rw [compile_eq P W leaves hl hc]
  exact (gen_loop P W P.length (Nat.le_refl _)).1

end Verif.Tape
