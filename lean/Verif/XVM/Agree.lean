import Verif.XVM.Life
import Verif.Tape.Theorems
/-!
The three machines compute the same: the tape machine (`Verif.Tape`), the define-by-run machine run forwards, and the goroutine-per-node
machine (`Verif.XVM`), on one and the same graph.
-/
set_option autoImplicit false
namespace Verif.XVM.Agree
open Verif.Tape

variable {V : Type}

/-- A graph as `NewMachine` (x/vm/machine.go 19-45) sees it, from the list of its nodes, operands first. Arguments, scalar constants
(op.go 239), random ops (op_nn.go 66) and let and read statements (op_infidel.go 27, 47) have no op or arity 0 and become inputs; their value is what
`Node.Value` (node.go 435-443) returns: what is bound to an argument, the value of a constant, otherwise `nil` (`none`). Operations are
not given `nil` by any caller in `Do`; here they fail on it. -/
def netOf (P : Prog) (E : Env V) (mem : Nat → V) : Net (Option V) where
  n := P.length
  isIn i := decide ((P.node i).kind ≠ .op ∧ (P.node i).kind ≠ .atS)
  used i := (List.range P.length).any fun j => (P.node j).children.contains i
  ops i := (P.node i).children
  arity i := if (P.node i).kind = .op ∨ (P.node i).kind = .atS then (P.node i).children.length else 0
  inVal i := match (P.node i).kind with
    | .arg => (E.inp i).map mem
    | .const => (E.sem i).f []
    | _ => none
  f i l := ((l.mapM id).bind (E.sem i).f).map some

/-- One step of the define-by-run machine forwards (`forward`, vm_genera.go 296-510): the values bound to the nodes so far. Arguments have
been bound by the user, random ops are run, operations are run on the values bound to their operands; statements bind nothing. An
argument to which nothing is bound, and an operation that fails, stop the run. -/
def fwdStep (P : Prog) (E : Env V) (mem : Nat → V) (W : Nat → Option V) (i : Nat) : Option (Nat → Option V) :=
  match (P.node i).kind with
  | .letS | .readS | .atS => some W
  | .arg => ((E.inp i).map mem).map fun v => upd W i (some v)
  | _ => (((P.node i).children.mapM W).bind (E.sem i).f).map fun v => upd W i (some v)

/-- `runall` with `ExecuteFwdOnly` (vm_genera.go 260-277): all nodes in order, up to the first error. -/
def fwdRun (P : Prog) (E : Env V) (mem : Nat → V) : Option (Nat → Option V) :=
  (List.range P.length).foldlM (fwdStep P E mem) fun _ => none

theorem mapM_some_iff {α β : Type} (f : α → Option β) (l : List α) (vs : List β) :
    l.mapM f = some vs ↔ vs.length = l.length ∧ ∀ (p : Nat) (h1 : p < l.length) (h2 : p < vs.length), f l[p] = some vs[p] := by
  induction l generalizing vs with
  | nil =>
    rw [List.mapM_nil]
    constructor
    · intro h
      have : vs = [] := (Option.some.inj h).symm
      subst this
      exact ⟨rfl, fun p h1 => by cases h1⟩
    · intro h
      have := List.eq_nil_of_length_eq_zero h.1
      subst this; rfl
  | cons a l ih =>
    rw [List.mapM_cons]
    constructor
    · intro h
      cases ha : f a with
      | none => rw [ha] at h; cases h
      | some b =>
        cases hl : l.mapM f with
        | none => rw [ha, hl] at h; cases h
        | some bs =>
          rw [ha, hl] at h
          have : vs = b :: bs := (Option.some.inj h).symm
          subst this
          obtain ⟨h1, h2⟩ := (ih bs).1 hl
          refine ⟨by simp [h1], fun p hp hq => ?_⟩
          cases p with
          | zero => simpa using ha
          | succ p => simpa using h2 p (by simpa using hp) (by simpa using hq)
    · rintro ⟨h1, h2⟩
      cases vs with
      | nil => simp at h1
      | cons b bs =>
        have ha : f a = some b := h2 0 (by simp) (by simp)
        have hl : l.mapM f = some bs := (ih bs).2 ⟨by simpa using h1, fun p hp hq =>
          h2 (p + 1) (by simpa using hp) (by simpa using hq)⟩
        rw [ha, hl]; rfl

/-- The nodes the goroutine-per-node machine can handle: operations have operands; nothing is random; nothing was made
by `At`, which this machine computes and the others do not. -/
structure Plain (P : Prog) : Prop where
  ops : ∀ i, i < P.length → (P.node i).kind = .op → (P.node i).children ≠ []
  noRandom : ∀ i, i < P.length → (P.node i).kind ≠ .random
  noAt : ∀ i, i < P.length → (P.node i).kind ≠ .atS

theorem net_good (P : Prog) (W : WF P) (hP : Plain P) (E : Env V) (mem : Nat → V) : Good (netOf P E mem) := by
  refine ⟨fun j hj hin i hi => ?_, fun j hj hin => ?_⟩
  · refine ⟨Nat.lt_trans (W.before j hj i hi) hj, ?_⟩
    simp only [Net.outC, Bool.or_eq_true]
    right
    exact List.any_eq_true.2 ⟨j, List.mem_range.2 hj, by have h : i ∈ (P.node j).children := hi; simpa using h⟩
  · have hk : (P.node j).kind = .op := by
      by_contra hne
      have := hP.noAt j hj
      simp [netOf, hne, this] at hin
    exact ⟨by simp [netOf, hk], hP.ops j hj hk⟩

theorem net_acyclic (P : Prog) (W : WF P) (E : Env V) (mem : Nat → V) : Acyclic (netOf P E mem) :=
  ⟨id, fun j hj _ i hi => W.before j hj i hi⟩

/-- The goroutine-per-node machine's notion of the value of a node is that of the expression graph. -/
theorem net_evals (P : Prog) (W : WF P) (hP : Plain P) (E : Env V) (mem : Nat → V) (i : Nat) (hi : i < P.length)
    (hs : (P.node i).stmt = false) (hd : ∀ j, j ≤ i → (P.node j).stmt = false → value P E mem j ≠ none) :
    Evals (netOf P E mem) i (value P E mem i) := by
  induction i using Nat.strong_induction_on with
  | _ i ih =>
    have hv := value_eq P W E mem i hi
    cases hk : (P.node i).kind with
    | letS => rw [Node.stmt, hk] at hs; cases hs
    | readS => rw [Node.stmt, hk] at hs; cases hs
    | atS => rw [Node.stmt, hk] at hs; cases hs
    | random => exact absurd hk (hP.noRandom i hi)
    | arg =>
      have hin : (netOf P E mem).isIn i = true := by simp [netOf, hk]
      have : (netOf P E mem).inVal i = value P E mem i := by
        rw [hv]; unfold evalNode; rw [hk]; simp [netOf, hk]
      rw [← this]; exact .input hin
    | const =>
      have hin : (netOf P E mem).isIn i = true := by simp [netOf, hk]
      have hc : (P.node i).children = [] := W.leaf i (by simp [Node.live, hk])
      have : (netOf P E mem).inVal i = value P E mem i := by
        rw [hv]; unfold evalNode; rw [hk, hc]; simp [netOf, hk]
      rw [← this]; exact .input hin
    | op =>
      have hin : (netOf P E mem).isIn i = false := by simp [netOf, hk]
      obtain ⟨v, hvv⟩ := Option.ne_none_iff_exists'.1 (hd i (Nat.le_refl _) hs)
      have he := hvv
      rw [hv] at he
      unfold evalNode at he
      rw [hk] at he
      simp only [] at he
      obtain ⟨vs, h1, h2⟩ := Option.bind_eq_some_iff.1 he
      obtain ⟨h3, h4⟩ := (mapM_some_iff _ _ _).1 h1
      rw [hvv]
      refine .op (vs := vs.map some) hin (by simpa [netOf] using h3) ?_ ?_
      · intro p hp hq
        have hp' : p < (P.node i).children.length := hp
        have hlt := W.before i hi _ (List.getElem_mem hp')
        have := ih (P.node i).children[p] hlt (by omega) (W.nostmt i hi _ (List.getElem_mem hp')) (fun j hj => hd j (by omega))
        rw [h4 p hp' (by omega)] at this
        simpa [netOf] using this
      · have : (vs.map some).mapM id = some vs := (mapM_some_iff _ _ _).2 ⟨by simp, fun p _ _ => by simp⟩
        simp only [netOf]
        rw [this]
        simp [h2]

/-- What the forward run has bound after the first `k` nodes. -/
theorem fwd_prefix (P : Prog) (W : WF P) (E : Env V) (mem : Nat → V) (hd : ∀ j, j < P.length → (P.node j).stmt = false → value P E mem j ≠ none)
    (k : Nat) (hk : k ≤ P.length) : ∃ R, (List.range k).foldlM (fwdStep P E mem) (fun _ => none) = some R ∧
      ∀ j, j < k → (P.node j).stmt = false → R j = value P E mem j := by
  induction k with
  | zero => exact ⟨_, rfl, fun j hj => by omega⟩
  | succ k ih =>
    obtain ⟨R, h1, h2⟩ := ih (by omega)
    rw [List.range_succ, List.foldlM_append, h1]
    have hlt : k < P.length := by omega
    have hv := value_eq P W E mem k hlt
    have fin : ∀ v : V, value P E mem k = some v → ∀ j, j < k + 1 → (P.node j).stmt = false → upd R k (some v) j = value P E mem j := by
      intro v hv j hj hs
      by_cases h : j = k
      · subst h; rw [upd_same, hv]
      · rw [upd_ne _ _ _ _ h]; exact h2 j (by omega) hs
    have hch : (P.node k).children.mapM R = (P.node k).children.mapM (value P E mem) :=
      mapM_congr_opt _ _ _ fun c hc => h2 c (W.before k hlt c hc) (W.nostmt k hlt c hc)
    have stm : (P.node k).stmt = true → fwdStep P E mem R k = some R := by
      intro h; unfold Node.stmt at h; unfold fwdStep
      cases hkk : (P.node k).kind <;> rw [hkk] at h <;> first | rfl | cases h
    cases hs : (P.node k).stmt with
    | true =>
      refine ⟨R, ?_, fun j hj hsj => ?_⟩
      · simp [stm hs]
      · refine h2 j ?_ hsj
        by_contra hne
        have : j = k := by omega
        subst this
        rw [hs] at hsj; cases hsj
    | false =>
      obtain ⟨v, hvv⟩ := Option.ne_none_iff_exists'.1 (hd k hlt hs)
      refine ⟨upd R k (some v), ?_, fin v hvv⟩
      have : fwdStep P E mem R k = some (upd R k (some v)) := by
        rw [hvv] at hv
        unfold evalNode at hv
        unfold fwdStep
        unfold Node.stmt at hs
        cases hkk : (P.node k).kind <;> rw [hkk] at hv hs <;> simp only [] at hv ⊢
        · rw [← hv]; rfl
        · rw [hch, ← hv]; rfl
        · rw [hch, ← hv]; rfl
        · rw [hch, ← hv]; rfl
        · cases hs
        · cases hs
        · cases hs
      simp [this]

/-- **C115.** If the expression graph gives every node a value, the define-by-run machine binds to every node its value, and the
goroutine-per-node machine returns without error in every schedule and holds the same value in every node. -/
theorem two_agree (P : Prog) (W : WF P) (E : Env V) (mem : Nat → V) (hP : Plain P) (hn : P ≠ [])
    (hd : ∀ i, i < P.length → (P.node i).stmt = false → value P E mem i ≠ none) :
    ∃ R : Nat → Option V, fwdRun P E mem = some R ∧ (∀ a, a < P.length → (P.node a).stmt = false → R a = value P E mem a) ∧
      ∀ t, ReachI (netOf P E mem) t → (∀ u, ¬ Step (netOf P E mem) t u) →
        t.ret = true ∧ ∀ a, a < P.length → t.ph a = .rep false ∧ ((P.node a).stmt = false → t.out a = R a) := by
  obtain ⟨R, r1, r2⟩ := fwd_prefix P W E mem hd P.length (Nat.le_refl _)
  refine ⟨R, r1, r2, fun t ht hmax => ?_⟩
  have hE : ∀ i, i < (netOf P E mem).n → ∃ v, Evals (netOf P E mem) i v := by
    intro i hi
    cases hs : (P.node i).stmt with
    | false => exact ⟨_, net_evals P W hP E mem i hi hs fun j hj => hd j (Nat.lt_of_le_of_lt hj hi)⟩
    | true =>
      refine ⟨_, .input ?_⟩
      unfold Node.stmt at hs
      cases hk : (P.node i).kind <;> rw [hk] at hs <;> first | (simp [netOf, hk]; done) | exact absurd hk (hP.noAt i hi) | cases hs
  obtain ⟨c1, c2⟩ := run_complete (net_good P W hP E mem) (List.length_pos_iff.2 hn) (net_acyclic P W E mem) hE ht hmax
  refine ⟨c1, fun a ha => ⟨(c2 a ha).1, fun hs => ?_⟩⟩
  rw [r2 a ha hs]
  exact evals_unique (c2 a ha).2 (net_evals P W hP E mem a ha hs fun j hj => hd j (Nat.lt_of_le_of_lt hj ha))

/-- **C115.** So does the tape machine: the compiled program runs to its end, and whatever is left bound to a node is the value that the
two other machines hold for it. Missing: as C10, programs in which an operation returns the memory of an operand need `Safe`. -/
theorem machines_agree_partial (P : Prog) (E : Env V) (B : Nat) (m : M V) (leaves : List Nat) (H : Tape.Start P E B m leaves)
    (hP : Plain P) (hn : P ≠ []) (hd : ∀ i, i < P.length → (P.node i).stmt = false → value P E m.mem i ≠ none) :
    ∃ (m' : M V) (R : Nat → Option V), runAll E (compile P leaves) m 0 = (m', (compile P leaves).length, false) ∧
      fwdRun P E m.mem = some R ∧
      (∀ a, a < P.length → (P.node a).stmt = false → (P.node a).kind ≠ .arg → (Kept P a ∨ ∀ j, ¬ Uses P j a) →
        ∃ p, m'.bound a = some p ∧ R a = some (m'.mem p)) ∧
      ∀ t, ReachI (netOf P E m.mem) t → (∀ u, ¬ Step (netOf P E m.mem) t u) →
        t.ret = true ∧ ∀ a, a < P.length → t.ph a = .rep false ∧ ((P.node a).stmt = false → t.out a = R a) := by
  obtain ⟨m', h1, _, h3, _⟩ := run_computes_partial P E B m leaves H hd
  obtain ⟨R, r1, r2, r3⟩ := two_agree P H.wf E m.mem hP hn hd
  refine ⟨m', R, h1, r1, fun a ha hs hk hu => ?_, r3⟩
  obtain ⟨p, hp, hv⟩ := h3 a ha hs hk hu
  exact ⟨p, hp, (r2 a ha hs).trans hv⟩

/-- **C115, violated.** A reshaped input, added to and multiplied (`run_wrong` of C10): the tape machine ends without error with 25, the
other two with 10. -/
theorem machines_differ :
    let r := runAll alE (compile alP [0, 1]) exM 0
    r.2 = (5, false) ∧ (r.1.bound 4).map r.1.mem = some 25 ∧
    (fwdRun alP alE exM.mem).bind (fun R => R 4) = some 10 ∧
    ∀ t, ReachI (netOf alP alE exM.mem) t → (∀ u, ¬ Step (netOf alP alE exM.mem) t u) → t.ret = true ∧ t.out 4 = some 10 := by
  refine ⟨by decide, by decide, by decide, fun t ht hmax => ?_⟩
  obtain ⟨R, r1, r2, r3⟩ := two_agree alP run_wrong_start.1 alE exM.mem ⟨by decide, by decide, by decide⟩ (by decide) (by decide)
  obtain ⟨c1, c2⟩ := r3 t ht hmax
  refine ⟨c1, ?_⟩
  rw [(c2 4 (by decide)).2 (by decide), r2 4 (by decide) (by decide)]
  decide

/-- A random op is run by the tape machine and the define-by-run machine; the goroutine-per-node machine takes it for an input without a
value. -/
theorem random_differs (P : Prog) (E : Env V) (mem : Nat → V) (i : Nat) (hi : i < P.length) (hk : (P.node i).kind = .random) (v : V)
    (hv : (E.sem i).f [] = some v) (W : WF P) :
    value P E mem i = some v ∧ ∀ s, ReachI (netOf P E mem) s → s.ph i = .rep false → Good (netOf P E mem) → s.out i = none := by
  have hc : (P.node i).children = [] := W.leaf i (by simp [Node.live, hk])
  refine ⟨?_, fun s hs hp hG => ?_⟩
  · rw [value_eq P W E mem i hi]; unfold evalNode; rw [hk, hc]; simpa using hv
  · have hin : (netOf P E mem).isIn i = true := by simp [netOf, hk]
    have h1 := values_correct hG hs.reach i hi hp
    have h2 := evals_unique h1 (.input hin)
    rw [h2]; simp [netOf, hk]

/-- Concrete case: `(2 + 3) * 3` on all machines. -/
example (t : St (Option Int)) (ht : ReachI (netOf exP exE exM.mem) t) (hmax : ∀ u, ¬ Step (netOf exP exE exM.mem) t u) :
    t.out 3 = some 15 ∧ (fwdRun exP exE exM.mem).bind (fun R => R 3) = some 15 := by
  obtain ⟨_, R, _, h1, _, h3⟩ := machines_agree_partial exP exE 2 exM [0, 1] exStart ⟨by decide, by decide, by decide⟩ (by decide) (by decide)
  have hR : (fwdRun exP exE exM.mem).bind (fun R => R 3) = some 15 := by decide
  refine ⟨?_, hR⟩
  rw [((h3 t ht hmax).2 3 (by decide)).2 (by decide)]
  rw [h1] at hR
  exact hR

end Verif.XVM.Agree
