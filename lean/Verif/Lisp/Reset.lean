import Verif.Lisp.Model
/-!
Which nodes the define-by-run machine executes, run after run (C22).
-/
set_option autoImplicit false
namespace Verif.Lisp

open Verif.AD (UOp BOp)

variable {ι : Type} [Fintype ι]

theorem forward_ran (G : Graph) (i : Nat) (m : Machine ι) :
    (G.forward i m).ran = m.ran ++ [i] ∧ (G.forward i m).fwd = m.fwd ∧ (G.forward i m).bp = m.bp := by
  unfold Graph.forward
  cases G.op i <;> simp

theorem loopF_ran (G : Graph) (n k : Nat) (m : Machine ι) (h : m.fwd = k) :
    (G.loopF n m).ran = m.ran ++ List.range' k n ∧ (G.loopF n m).fwd = k + n ∧ (G.loopF n m).bp = m.bp := by
  induction n generalizing k m with
  | zero => simp [Graph.loopF, h]
  | succ n ih =>
    have h0 : ¬ m.fwd < 0 := by omega
    obtain ⟨f1, f2, f3⟩ := forward_ran G m.fwd.toNat m
    have hk : m.fwd.toNat = k := by omega
    simp only [Graph.loopF, if_neg h0]
    obtain ⟨a, b, c⟩ := ih (k + 1) { G.forward m.fwd.toNat m with fwd := (G.forward m.fwd.toNat m).fwd + 1 }
      (by show (G.forward m.fwd.toNat m).fwd + 1 = _; rw [f2, h]; rfl)
    refine ⟨?_, ?_, ?_⟩
    · rw [a]; show (G.forward m.fwd.toNat m).ran ++ _ = _; rw [f1, hk, List.range'_succ]; simp
    · rw [b]; push_cast; omega
    · rw [c]; exact f3

theorem loopB_ran (G : Graph) (n : Nat) (m m' : Machine ι) (h : G.loopB n m = some m') :
    m'.ran = m.ran ∧ m'.fwd = m.fwd ∧ m'.W = m.W ∧ m'.bp = m.bp ∧ m'.bwd = m.bwd - n := by
  induction n generalizing m with
  | zero => simp only [Graph.loopB, Option.some.injEq] at h; subst h; simp
  | succ n ih =>
    simp only [Graph.loopB] at h
    split at h
    · cases h
    · split at h
      · cases h
      · have := ih _ h
        simp only at this
        refine ⟨this.1, this.2.1, this.2.2.1, this.2.2.2.1, ?_⟩
        rw [this.2.2.2.2]; push_cast; omega

theorem runAll_ran (G : Graph) (k : Nat) (m m' : Machine ι) (hk : m.fwd = k) (hl : k ≤ G.length)
    (h : G.runAll m = some m') :
    m'.ran = m.ran ++ List.range' k (G.length - k) ∧ m'.fwd = G.length ∧ m'.bp = m.bp ∧ (m.bp = true → m'.q = []) ∧
    m'.W = (G.loopF (G.length - k) m).W := by
  unfold Graph.runAll at h
  have hn : ((G.length : Int) - m.fwd).toNat = G.length - k := by omega
  rw [hn] at h
  obtain ⟨a, b, c⟩ := loopF_ran G (G.length - k) k m hk
  simp only at h
  split at h
  · rename_i hbp
    simp only [Option.some.injEq] at h
    subst h
    refine ⟨a, by omega, c, fun e => ?_, rfl⟩
    rw [c, e] at hbp; cases hbp
  · obtain ⟨m1, h1, h2⟩ := Option.map_eq_some_iff.1 h
    obtain ⟨l1, l2, l3, l4, l5⟩ := loopB_ran G _ _ _ h1
    subst h2
    refine ⟨?_, ?_, ?_, fun _ => rfl, ?_⟩
    · show m1.ran = _
      rw [l1]; split <;> exact a
    · show m1.fwd = _
      rw [l2]; split <;> (show (G.loopF (G.length - k) m).fwd = _; omega)
    · show m1.bp = _
      rw [l4]; split <;> exact c
    · show m1.W = _
      rw [l3]; split <;> rfl

/-- The first run executes every node, once, operands first. -/
theorem first_run (G : Graph) (bp : Bool) (W : Nat → Val ι) (m : Machine ι) (h : G.runAll (new bp W) = some m) :
    m.ran = List.range G.length ∧ m.fwd = G.length := by
  obtain ⟨a, b, _⟩ := runAll_ran G 0 (new bp W) m rfl (Nat.zero_le _) h
  refine ⟨?_, b⟩
  rw [a]; simp [new, List.range_eq_range']

/-- Without `Reset` another `RunAll` executes nothing. -/
theorem run_without_reset (G : Graph) (m m' : Machine ι) (hf : m.fwd = G.length) (h : G.runAll m = some m') :
    m'.ran = m.ran := by
  have := (runAll_ran G G.length m m' hf (Nat.le_refl _) h).1
  simpa using this

/-- After `Reset`, whatever the state, `RunAll` executes the last node of the order and no other. -/
theorem reset_runs_last (G : Graph) (hG : G ≠ []) (m m' : Machine ι) (h : G.runAll (G.reset m) = some m') :
    m'.ran = m.ran ++ [G.length - 1] := by
  have hl : 0 < G.length := List.length_pos_iff.2 hG
  have := (runAll_ran G (G.length - 1) (G.reset m) m' (by simp only [Graph.reset]; omega) (by omega) h).1
  rw [this]
  have : G.length - (G.length - 1) = 1 := by omega
  rw [this]; simp [Graph.reset, List.range'_succ]

/-- `n` times `Reset; RunAll`. -/
noncomputable def Graph.reruns (G : Graph) : Nat → Machine ι → Option (Machine ι)
  | 0, m => some m
  | n + 1, m => match G.runAll (G.reset m) with
    | none => none
    | some m => G.reruns n m

/-- **C22 fails** for every graph with at least two nodes and any number of repetitions: every `Reset; RunAll` executes only
the last node, the first node is executed in the first run only. -/
theorem rerun_wrong (G : Graph) (hG : 2 ≤ G.length) (bp : Bool) (W : Nat → Val ι) (n : Nat) (m m' : Machine ι)
    (h : G.runAll (new bp W) = some m) (h' : G.reruns n m = some m') :
    m'.ran = List.range G.length ++ List.replicate n (G.length - 1) ∧ m'.ran.count 0 = 1 := by
  have key : m'.ran = m.ran ++ List.replicate n (G.length - 1) := by
    clear h
    induction n generalizing m with
    | zero => simp only [Graph.reruns, Option.some.injEq] at h'; subst h'; simp
    | succ n ih =>
      simp only [Graph.reruns] at h'
      split at h'
      · cases h'
      · rename_i m1 h1
        rw [ih _ h', reset_runs_last G (by intro e; rw [e] at hG; simp at hG) m m1 h1, List.replicate_succ]
        simp
  rw [key, (first_run G bp W m h).1]
  refine ⟨rfl, ?_⟩
  rw [List.count_append, List.count_replicate]
  have : (List.range G.length).count 0 = 1 := List.count_eq_one_of_mem List.nodup_range (by simp; omega)
  rw [this]
  have : ¬ (G.length - 1 = 0) := by omega
  simp [this]

/-- **C22**, the case that holds: a graph with a single node. -/
theorem rerun_partial (G : Graph) (hG : G.length = 1) (bp : Bool) (W : Nat → Val ι) (n : Nat) (m m' : Machine ι)
    (h : G.runAll (new bp W) = some m) (h' : G.reruns n m = some m') :
    m'.ran = List.replicate (n + 1) 0 := by
  have key : m'.ran = m.ran ++ List.replicate n (G.length - 1) := by
    clear h
    induction n generalizing m with
    | zero => simp only [Graph.reruns, Option.some.injEq] at h'; subst h'; simp
    | succ n ih =>
      simp only [Graph.reruns] at h'
      split at h'
      · cases h'
      · rename_i m1 h1
        rw [ih _ h', reset_runs_last G (by intro e; rw [e] at hG; simp at hG) m m1 h1, List.replicate_succ]
        simp
  rw [key, (first_run G bp W m h).1, hG]
  simp [List.replicate_succ]

/-- `-(exp x)`. -/
def negExp : Graph := [⟨.input, [], true⟩, ⟨.un .exp, [0], true⟩, ⟨.un .neg, [1], true⟩]

/-- The consequence for values: after the input has been changed from 0 to 1, `Reset; RunAll` still leaves `exp 0` and its
negation, although the values of the nodes should be `exp 1` and `-exp 1`. -/
theorem rerun_stale : ∃ m m' : Machine Unit, negExp.runAll (new false fun _ => .s 0) = some m ∧
    negExp.runAll (negExp.reset { m with W := upd m.W 0 (.s 1) }) = some m' ∧
    m'.W 0 = .s 1 ∧ m'.W 1 = .s 1 ∧ m'.W 2 = .s (-1) ∧
    negExp.value m'.W 1 = .s (Real.exp 1) ∧ negExp.value m'.W 2 = .s (-Real.exp 1) := by
  refine ⟨_, _, rfl, rfl, ?_, ?_, ?_, ?_, ?_⟩ <;>
  simp [negExp, new, Graph.reset, Graph.loopF, Graph.forward, Graph.apply, Graph.op, Graph.kid, Graph.node, upd, Val.map,
    UOp.fn, Graph.value, Graph.valueF]

end Verif.Lisp
