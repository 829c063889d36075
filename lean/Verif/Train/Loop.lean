import Verif.Train.Bind
/-!
The training loop `RunAll; Step; Reset`: the graph with the gradients `Grad` added is compiled and run on the tape
machine, the gradients are handed to the weights, the solver takes a step. What a round does, for values of any kind and
any solver that works weight by weight.
-/
set_option autoImplicit false
namespace Verif.Train
open Verif.Shape (Res)
open Verif.Tape (upd upd_same upd_ne Prog Env M compile runAll reset value WF)

/-! ### The results of a run -/

section
variable {V : Type}

/-- The results of the executed operations, from the operands they were given (the model's log `seen` also holds what
read statements read; those are not operations). -/
def results (P : Prog) (E : Env V) (log : List (Nat × List V)) : List (Nat × V) :=
  log.filterMap fun e => if (P.node e.1).stmt then none else ((E.sem e.1).f e.2).map fun v => (e.1, v)

/-- The node is executed by an `execOp`. -/
def isExec (P : Prog) (i : Nat) : Bool := !(P.node i).stmt && decide ((P.node i).kind ≠ .arg)

theorem results_run (P : Prog) (W : WF P) (E : Env V) (mem : Nat → V) (n : Nat) (hn : n ≤ P.length) :
    results P E ((List.range n).flatMap (Tape.expectAt P E mem)) =
      (List.range n).filterMap fun i => if isExec P i then (value P E mem i).map fun v => (i, v) else none := by
  induction n with
  | zero => rfl
  | succ n ih =>
    rw [List.range_succ, List.flatMap_append, List.filterMap_append]
    have ih := ih (by omega)
    unfold results at ih ⊢
    rw [List.filterMap_append, ih]
    congr 1
    simp only [List.flatMap_cons, List.flatMap_nil, List.append_nil, List.filterMap_cons, List.filterMap_nil]
    by_cases hs : (P.node n).stmt = true
    · have : isExec P n = false := by simp [isExec, hs]
      rw [this]
      simp only [Bool.false_eq_true, ↓reduceIte]
      unfold Tape.expectAt
      split
      · rfl
      · rfl
      · rfl
      · split
        · simp [hs]
        · rfl
    · have hs : (P.node n).stmt = false := by simpa using hs
      by_cases ha : (P.node n).kind = .arg
      · have : isExec P n = false := by simp [isExec, ha]
        rw [this]
        simp only [Bool.false_eq_true, ↓reduceIte]
        unfold Tape.expectAt
        rw [ha]; rfl
      · have : isExec P n = true := by simp [isExec, hs, ha]
        rw [this]
        simp only [↓reduceIte]
        rw [Tape.value_op W (by omega) hs ha]
        cases hc : (P.node n).children.mapM (value P E mem) with
        | some vs =>
          rw [Tape.expectAt_op hs ha vs hc]
          simp only [List.filterMap_cons, List.filterMap_nil, hs, Bool.false_eq_true, ↓reduceIte, Option.bind_some]
        | none =>
          have : Tape.expectAt P E mem n = [] := by
            unfold Tape.expectAt
            rw [hc]
            split <;> rfl
          rw [this]; rfl

theorem shares_filterMap (gn : Nat → GN) (src p n : Nat) (hp : p < n) (f : Nat → Option V) (v : V) (hv : f p = some v)
    (hc : ∀ i, i < n → f i ≠ none → (gn i).derivOf.count src = if i = p then 1 else 0) :
    shares gn src ((List.range n).filterMap fun i => (f i).map fun v => (i, v)) = [v] := by
  have key : ∀ k, k ≤ n → shares gn src ((List.range k).filterMap fun i => (f i).map fun v => (i, v)) =
      if p < k then [v] else [] := by
    intro k
    induction k with
    | zero => intro _; rfl
    | succ k ih =>
      intro hk
      rw [List.range_succ, List.filterMap_append]
      unfold shares at ih ⊢
      rw [List.flatMap_append, ih (by omega)]
      simp only [List.filterMap_cons, List.filterMap_nil]
      cases hf : f k with
      | none =>
        have : p ≠ k := by rintro rfl; rw [hv] at hf; cases hf
        simp only [Option.map_none, List.flatMap_nil, List.append_nil]
        by_cases h : p < k
        · rw [if_pos h, if_pos (by omega)]
        · rw [if_neg h, if_neg (by omega)]
      | some u =>
        simp only [Option.map_some, List.flatMap_cons, List.flatMap_nil, List.append_nil]
        rw [hc k (by omega) (by rw [hf]; simp)]
        by_cases e : k = p
        · subst e
          rw [hv] at hf; cases hf
          simp
        · rw [if_neg e]
          simp only [List.replicate_zero, List.append_nil]
          by_cases h : p < k
          · rw [if_pos h, if_pos (by omega)]
          · rw [if_neg h, if_neg (by omega)]
  rw [key n (Nat.le_refl _), if_pos hp]

end

/-! ### The loop -/

variable {V κ : Type}

/-- The machine, what is bound to the nodes, and what the solver remembers about each weight. -/
structure TS (V κ : Type) where
  m : M V
  s : St V
  c : Nat → κ

/-- The body of a solver's loop: from weight, gradient and memory to the new weight, what is left in the gradient, and
the new memory; `none` is an error. -/
abbrev Sol (V κ : Type) := V → V → κ → Option (V × V × κ)

/-- `Grad()` of a node (node.go 446-455): the derivative of its dual value. (Without one the code falls back to the
value of the gradient node; a node to which something was delivered always has one.) -/
def gradOf : Bd V → Option V
  | .dual d => some d
  | _ => none

/-- `Step` on the weights `ws`, in place (for example solvers.go 780-942): position `pos w` in the program, memory
`ad w`. On an error the loop stops. -/
def stepW (sol : Sol V κ) (pos ad : Nat → Nat) : List Nat → TS V κ → Option (TS V κ)
  | [], t => some t
  | w :: ws, t =>
    match gradOf (t.s.bd (pos w)) with
    | none => none
    | some g => match sol (t.m.mem (ad w)) g (t.c w) with
      | none => none
      | some (w', g', c') => stepW sol pos ad ws
        { m := { t.m with mem := upd t.m.mem (ad w) w' }
          s := { t.s with bd := upd t.s.bd (pos w) (.dual g') }
          c := upd t.c w c' }

/-- One round of the training loop: `RunAll` with delivery of the gradients, `Step`, `Reset`. `none`: something failed
or panicked. -/
def epoch (P : Prog) (leaves : List Nat) (E : Env V) (C : Cfg V) (sol : Sol V κ) (pos ad : Nat → Nat) (ws : List Nat)
    (t : TS V κ) : Option (TS V κ) :=
  match runAll E (compile P leaves) t.m 0 with
  | (_, _, true) => none
  | (m1, _, false) =>
    match runDV C (results P E (m1.seen.drop t.m.seen.length)) t.s with
    | .ok s1 => (stepW sol pos ad ws { m := m1, s := s1, c := t.c }).map fun t => { t with m := reset t.m }
    | _ => none

/-- `k` rounds; the solver may count the rounds. -/
def epochs (P : Prog) (leaves : List Nat) (E : Env V) (C : Cfg V) (sol : Nat → Sol V κ) (pos ad : Nat → Nat)
    (ws : List Nat) : Nat → TS V κ → Option (TS V κ)
  | 0, t => some t
  | k + 1, t => (epochs P leaves E C sol pos ad ws k t).bind (epoch P leaves E C (sol k) pos ad ws)

/-- What is assumed of the program, apart from the memory it starts with. `Okay`: the values of the inputs for which all
operations work; `g x w`: the gradient of the weight `w` at the inputs `x`; `z w`: the zero of its shape. -/
structure Setup (P : Prog) (leaves : List Nat) (E : Env V) (B : Nat) (ws : List Nat) (C : Cfg V) (pos ad : Nat → Nat)
    (Okay : (Nat → V) → Prop) (g : (Nat → V) → Nat → V) (z : Nat → V) : Prop where
  wf : WF P
  leaves : ∀ l ∈ leaves, l < P.length
  noclash : Tape.NoClash P
  nolet : Tape.NoLet P
  safe : Tape.Safe P E
  /-- Memory of the inputs is the user's. -/
  inp : ∀ i a, E.inp i = some a → a < B
  /-- Memory held by a constant is not the memory of a weight. -/
  static : ∀ i a, i < P.length → (E.sem i).ret = .static a →
    (P.node i).kind = .const ∧ a < B ∧ ∀ w ∈ ws, a ≠ ad w
  share : ∀ i k, i < P.length → (E.sem i).ret = .alias k → ∀ vs y, (E.sem i).f vs = some y → vs[k]? = some y
  reads : ∀ i, i < P.length → (P.node i).kind = .readS → (P.node i).children.length = 1
  /-- All operations work. -/
  defined : ∀ mem : Nat → V, Okay (fun i => mem (ad i)) → ∀ i, i < P.length → (P.node i).stmt = false →
    value P E mem i ≠ none
  /-- Weights are different nodes, with memory of their own. -/
  some_w : ws ≠ []
  nodup : ws.Nodup
  own : ∀ w ∈ ws, ∀ w', ad w' = ad w → w' = w
  apart : ∀ w ∈ ws, ∀ w' ∈ ws, pos w' = pos w → w' = w
  adB : ∀ i, ad i < B
  /-- `BindDualValues` got the weights. -/
  only : C.only = ws.map pos
  zero : ∀ w ∈ ws, C.zero (pos w) = z w
  noiop : ∀ i, (C.gn i).iop = false
  /-- The node that computes the gradient of a weight is labelled as its derivative (once), no other is
  (differentiation.go 256, 262). What it computes, added to the zeros that the dual value has at first, is the gradient. -/
  label : ∀ w ∈ ws, ∃ p, p < P.length ∧ isExec P p = true ∧
    (∀ mem : Nat → V, Okay (fun i => mem (ad i)) → ∃ u, value P E mem p = some u ∧
      C.add (z w) u = some (g (fun i => mem (ad i)) w)) ∧
    ∀ i, i < P.length → isExec P i = true → (C.gn i).derivOf.count (pos w) = if i = p then 1 else 0

/-- The state at the start of a round; `x` are the values of the inputs. -/
structure Ready (P : Prog) (E : Env V) (B : Nat) (ws : List Nat) (pos ad : Nat → Nat) (z : Nat → V) (x : Nat → V)
    (t : TS V κ) : Prop where
  regs : ∀ r, t.m.regs r = none
  next : B ≤ t.m.next
  consts : ∀ i a, i < P.length → (E.sem i).ret = .static a → (E.sem i).f [] = some (t.m.mem a)
  vals : ∀ w, t.m.mem (ad w) = x w
  queue : t.s.queue = []
  derivs : ∀ w ∈ ws, t.s.bd (pos w) = .plain ∨ t.s.bd (pos w) = .dual (z w)

/-- The solver step, for weights that have a gradient. -/
theorem stepW_ok (sol : Sol V κ) (pos ad : Nat → Nat) (g z : Nat → V) (nw : Nat → V) (nc : Nat → κ)
    (ws : List Nat) (hnd : ws.Nodup) (hown : ∀ w ∈ ws, ∀ w' ∈ ws, ad w' = ad w → w' = w)
    (hpos : ∀ w ∈ ws, ∀ w' ∈ ws, pos w' = pos w → w' = w) (t : TS V κ) (hg : ∀ w ∈ ws, t.s.bd (pos w) = .dual (g w))
    (hsol : ∀ w ∈ ws, sol (t.m.mem (ad w)) (g w) (t.c w) = some (nw w, z w, nc w)) :
    ∃ t', stepW sol pos ad ws t = some t' ∧ t'.m.next = t.m.next ∧ t'.s.queue = t.s.queue ∧
      (∀ a, (∀ w ∈ ws, a ≠ ad w) → t'.m.mem a = t.m.mem a) ∧
      (∀ w ∈ ws, t'.m.mem (ad w) = nw w ∧ t'.c w = nc w ∧ t'.s.bd (pos w) = .dual (z w)) ∧
      (∀ w, w ∉ ws → t'.c w = t.c w) ∧ ∀ i, (∀ w ∈ ws, i ≠ pos w) → t'.s.bd i = t.s.bd i := by
  induction ws generalizing t with
  | nil => exact ⟨t, rfl, rfl, rfl, fun _ _ => rfl, by simp, fun _ _ => rfl, fun _ _ => rfl⟩
  | cons w ws ih =>
    have hgw : gradOf (t.s.bd (pos w)) = some (g w) := by rw [hg w (by simp)]; rfl
    have hnw : ∀ w' ∈ ws, w' ≠ w := fun w' hw' e => (List.nodup_cons.1 hnd).1 (e ▸ hw')
    have hne : ∀ w' ∈ ws, ad w' ≠ ad w := fun w' hw' e => hnw w' hw' (hown w (by simp) w' (by simp [hw']) e)
    have hpe : ∀ w' ∈ ws, pos w' ≠ pos w := fun w' hw' e => hnw w' hw' (hpos w (by simp) w' (by simp [hw']) e)
    obtain ⟨t', h, h1, h2, h4, h5, h6, h7⟩ := ih (List.nodup_cons.1 hnd).2
      (fun a ha b hb => hown a (by simp [ha]) b (by simp [hb])) (fun a ha b hb => hpos a (by simp [ha]) b (by simp [hb]))
      { m := { t.m with mem := upd t.m.mem (ad w) (nw w) }, s := { t.s with bd := upd t.s.bd (pos w) (.dual (z w)) },
        c := upd t.c w (nc w) }
      (fun w' hw' => by simp only; rw [upd_ne _ _ _ _ (hpe w' hw')]; exact hg w' (by simp [hw']))
      (fun w' hw' => by
        simp only
        rw [upd_ne _ _ _ _ (hne w' hw'), upd_ne _ _ _ _ (hnw w' hw')]; exact hsol w' (by simp [hw']))
    refine ⟨t', ?_, h1, h2, ?_, ?_, ?_, ?_⟩
    · simp only [stepW, hgw, hsol w (by simp)]
      exact h
    · intro a ha
      rw [h4 a (fun w' hw' => ha w' (by simp [hw']))]
      exact upd_ne _ _ _ _ (ha w (by simp))
    · intro w' hw'
      rcases List.mem_cons.1 hw' with rfl | hw'
      · rw [h4 (ad w') (fun w'' hw'' e => hne w'' hw'' e.symm), h6 w' (List.nodup_cons.1 hnd).1,
          h7 (pos w') (fun w'' hw'' e => hpe w'' hw'' e.symm)]
        exact ⟨upd_same _ _ _, upd_same _ _ _, upd_same _ _ _⟩
      · exact h5 w' hw'
    · intro w' hw'
      rw [h6 w' (fun h => hw' (by simp [h]))]
      exact upd_ne _ _ _ _ (fun e => hw' (by simp [e]))
    · intro i hi
      rw [h7 i (fun w' hw' => hi w' (by simp [hw']))]
      exact upd_ne _ _ _ _ (hi w (by simp))

variable {P : Prog} {leaves : List Nat} {E : Env V} {B : Nat} {ws : List Nat} {C : Cfg V} {pos ad : Nat → Nat}
  {Okay : (Nat → V) → Prop} {g : (Nat → V) → Nat → V} {z : Nat → V}

/-- One round: with the inputs `x`, every weight is replaced by what the solver makes of it and its gradient at `x`, the
other inputs stay, and the machine is ready for the next round. -/
theorem epoch_ok (S : Setup P leaves E B ws C pos ad Okay g z) (sol : Sol V κ) (x : Nat → V) (hx : Okay x) (t : TS V κ)
    (R : Ready P E B ws pos ad z x t) (x' : Nat → V) (c' : Nat → κ) (hstay : ∀ i, i ∉ ws → x' i = x i)
    (hsol : ∀ w ∈ ws, sol (x w) (g x w) (t.c w) = some (x' w, z w, c' w)) :
    ∃ t', epoch P leaves E C sol pos ad ws t = some t' ∧ Ready P E B ws pos ad z x' t' ∧ ∀ w ∈ ws, t'.c w = c' w := by
  have hxm : (fun w => t.m.mem (ad w)) = x := funext R.vals
  have hokm : Okay (fun w => t.m.mem (ad w)) := by rw [hxm]; exact hx
  have hd := S.defined t.m.mem hokm
  have H : Tape.Start P E B t.m leaves :=
    { wf := S.wf, leaves := S.leaves, noclash := S.noclash, nolet := S.nolet, safe := S.safe, regs := R.regs, mem := R.next
      sem := { inp := S.inp, share := S.share, reads := S.reads
               static := fun i a hi ha => ⟨(S.static i a hi ha).1, (S.static i a hi ha).2.1, R.consts i a hi ha⟩ } }
  obtain ⟨m1, hrun, hseen, -, huser, hnext⟩ := Tape.run_computes_partial P E B t.m leaves H hd
  -- the delivered values
  have hlog : results P E (m1.seen.drop t.m.seen.length) =
      (List.range P.length).filterMap fun i =>
        (if isExec P i then value P E t.m.mem i else none).map fun v => (i, v) := by
    rw [hseen, List.drop_left, results_run P S.wf E t.m.mem P.length (Nat.le_refl _)]
    congr 1
    funext i
    by_cases h : isExec P i = true <;> simp [h]
  have hwants : ∀ i, C.wants i = true ↔ ∃ w ∈ ws, pos w = i := by
    intro i
    unfold Cfg.wants
    rw [S.only]
    have : (ws.map pos).isEmpty = false := by
      cases ws with
      | nil => exact absurd rfl S.some_w
      | cons _ _ => rfl
    simp [this]
  have hsh : ∀ w ∈ ws, ∃ u, shares C.gn (pos w) (results P E (m1.seen.drop t.m.seen.length)) = [u] ∧ C.add (z w) u = some (g x w) := by
    intro w hw
    obtain ⟨p, hp, hpe, hvp, hcount⟩ := S.label w hw
    obtain ⟨u, hvp, hadd⟩ := hvp t.m.mem hokm
    rw [hxm] at hadd
    refine ⟨u, ?_, hadd⟩
    rw [hlog]
    refine shares_filterMap C.gn (pos w) p P.length hp _ _ (by rw [hpe]; simpa using hvp) ?_
    intro i hi hne
    apply hcount i hi
    by_contra hx
    simp [hx] at hne
  have hd0 : ∀ w ∈ ws, (t.s.bd (pos w)).deriv (C.zero (pos w)) = some (z w) := by
    intro w hw
    rcases R.derivs w hw with h | h <;> rw [h]
    · rw [S.zero w hw]; rfl
    · rfl
  have htot : ∀ w ∈ ws, total C.add (z w) (shares C.gn (pos w) (results P E (m1.seen.drop t.m.seen.length))) = some (g x w) := by
    intro w hw
    obtain ⟨u, u1, u2⟩ := hsh w hw
    rw [u1]
    simp [total, u2]
  obtain ⟨s1, hs1⟩ := run_ok_of C (results P E (m1.seen.drop t.m.seen.length)) (fun e _ => S.noiop e.1) t.s R.queue (by
    intro i hi
    obtain ⟨w, hw, rfl⟩ := (hwants i).1 hi
    exact ⟨z w, hd0 w hw, by rw [htot w hw]; simp⟩)
  -- the derivative of each weight
  have hgrad : ∀ w ∈ ws, s1.bd (pos w) = .dual (g x w) ∧ s1.queue = [] := by
    intro w hw
    obtain ⟨q1, q2, q3⟩ := delivered_partial C _ (fun e _ => S.noiop e.1) t.s s1 R.queue hs1 (pos w)
      ((C.wants_iff _).1 ((hwants _).2 ⟨w, hw, rfl⟩)) (z w) (hd0 w hw)
    obtain ⟨u, u1, -⟩ := hsh w hw
    obtain ⟨d, hd⟩ := q2 (by rw [u1]; simp)
    rw [hd, htot w hw] at q1
    simp [Bd.deriv] at q1
    exact ⟨by rw [hd, q1], q3⟩
  have hq1 : s1.queue = [] := by
    obtain ⟨w, hw⟩ := List.exists_mem_of_ne_nil ws S.some_w
    exact (hgrad w hw).2
  -- the solver
  have hm1 : ∀ i, m1.mem (ad i) = x i := fun i => by rw [huser _ (S.adB i)]; exact R.vals i
  obtain ⟨t2, hst, n1, n2, n4, n5, -, -⟩ := stepW_ok sol pos ad (g x) z x' c' ws S.nodup
    (fun w hw w' _ => S.own w hw w') S.apart { m := m1, s := s1, c := t.c } (fun w hw => (hgrad w hw).1)
    (fun w hw => by simp only [hm1]; exact hsol w hw)
  simp only at n1 n2 n4
  refine ⟨{ t2 with m := reset t2.m }, ?_, ?_, fun w hw => (n5 w hw).2.1⟩
  · unfold epoch
    rw [hrun]
    simp only [hs1, hst, Option.map_some]
  · refine ⟨fun _ => rfl, ?_, ?_, ?_, ?_, fun w hw => .inr (n5 w hw).2.2⟩
    · simp only [reset, n1]; exact hnext
    · intro i a hi ha
      obtain ⟨_, ha2, ha3⟩ := S.static i a hi ha
      simp only [reset]
      rw [n4 a ha3, huser a ha2]
      exact R.consts i a hi ha
    · intro w
      show t2.m.mem (ad w) = x' w
      by_cases hw : w ∈ ws
      · exact (n5 w hw).1
      · rw [n4 (ad w) (fun w' hw' e => hw (S.own w' hw' w e ▸ hw')), hm1, hstay w hw]
    · simp only [n2, hq1]

/-- **C93 (any number of rounds).** If the sequence `xs` of inputs and `cs` of solver memories is what the solver
produces from the gradients `g` (and inputs that are not weights stay), then `k` rounds of `RunAll; Step; Reset` succeed
and leave the machine with the inputs `xs k`, as long as all operations work on the inputs before. -/
theorem epochs_follow (S : Setup P leaves E B ws C pos ad Okay g z) (sol : Nat → Sol V κ) (xs : Nat → Nat → V)
    (cs : Nat → Nat → κ) (hstay : ∀ k i, i ∉ ws → xs (k + 1) i = xs k i)
    (hsol : ∀ k, ∀ w ∈ ws, sol k (xs k w) (g (xs k) w) (cs k w) = some (xs (k + 1) w, z w, cs (k + 1) w)) (t : TS V κ)
    (R : Ready P E B ws pos ad z (xs 0) t) (hc : ∀ w ∈ ws, t.c w = cs 0 w) (k : Nat) (hok : ∀ j, j < k → Okay (xs j)) :
    ∃ t', epochs P leaves E C sol pos ad ws k t = some t' ∧ Ready P E B ws pos ad z (xs k) t' ∧
      ∀ w ∈ ws, t'.c w = cs k w := by
  induction k with
  | zero => exact ⟨t, rfl, R, hc⟩
  | succ k ih =>
    obtain ⟨t1, e1, R1, c1⟩ := ih (fun j hj => hok j (by omega))
    obtain ⟨t2, e2, R2, c2⟩ := epoch_ok S (sol k) (xs k) (hok k (by omega)) t1 R1 (xs (k + 1)) (cs (k + 1)) (hstay k)
      (fun w hw => by rw [c1 w hw]; exact hsol k w hw)
    exact ⟨t2, by simp only [epochs, e1, Option.bind_some, e2], R2, c2⟩

end Verif.Train
