import Verif.Shape.Model
/-!
How the define-by-run machine starts, fails and ends (`/repo/vm_genera.go` `RunAll`, `runall`, `LastRun`), properties C87 and C88.

Two goroutines: the worker `runall` (260-294) and the caller of `RunAll` (121-190). A step is one turn of a loop, one read of the shared queue `m.q`
or one channel operation. What a node computes is left out (it is in `Lisp/`): here a node succeeds or fails, and has an entry in the queue of
derivatives or not. No queue of BLAS calls is attached, so `Signal` (noextern.go 87-92) and `DoWork` do nothing.
-/
set_option autoImplicit false
namespace Verif.RunLoop.Lisp
open Verif.Shape

/-- What is to be run: the number of nodes (`m.sorted`), whether to run them and the derivatives (`runFwd`, `runBwd`), which nodes enter the queue
(an `ADOp`, 491-500), which fail when run, and which when differentiated. -/
structure Job where
  n : Nat
  fwdOn : Bool
  bwdOn : Bool
  ad : Nat → Bool
  failF : Nat → Bool
  failB : Nat → Bool

/-- Where `runall` is: at the head of the first loop (266); sending its error (271); past it (278); at the head of the second loop (287); in `backward` before the
length check (516) and before reading the entry (520); sending its error (291), sending on `doneChan` (279, 293); ended; panicked. -/
inductive Wk where
  | fwd | sendErrF | bwdStart | bwdLoop | bwdCheck | bwdTake | sendErrB | sendDone | finished | panicked
deriving DecidableEq, Repr

/-- What `RunAll` returns: no error, or one, naming a node or none (vm_genera.go 172-181). -/
inductive R where
  | ok
  | err (node : Option Nat)
deriving DecidableEq, Repr

/-- Where `RunAll` is: in its `select` (vm_genera.go 142), with a result before the deferred function (vm_genera.go 129-133), returned. -/
inductive Mn where
  | select
  | defer (r : R)
  | ret (r : R)
deriving DecidableEq, Repr

structure S where
  wk : Wk
  mn : Mn
  fwd : Nat
  bwd : Int
  q : List Nat
  ranF : List Nat
  ranB : List Nat
deriving DecidableEq, Repr

/-- The machine when `RunAll` starts `runall`; a new machine has `fwd = 0`, `bwd = -1` and no queue (vm_genera.go 45-54, 249-258). -/
def S.start (j : Job) (fwd : Nat) (bwd : Int) (q : List Nat) : S := ⟨if j.fwdOn then .fwd else .bwdStart, .select, fwd, bwd, q, [], []⟩

def S.new (j : Job) : S := S.start j 0 (-1) []

/-- One turn of the first loop, 266-272: the counter is increased after the failing node too. -/
def stepF (j : Job) (s : S) : S :=
  if s.fwd < j.n then
    { s with ranF := s.ranF ++ [s.fwd], q := if j.ad s.fwd && j.bwdOn then s.q ++ [s.fwd] else s.q, fwd := s.fwd + 1,
             wk := if j.failF s.fwd then .sendErrF else .fwd }
  else { s with wk := .bwdStart }

/-- Reading the entry and differentiating, 520-…; index out of range panics. -/
def stepB (j : Job) (s : S) : S :=
  match s.q[s.bwd.toNat]? with
  | none => { s with wk := .panicked }
  | some i => { s with ranB := s.ranB ++ [i], bwd := s.bwd - 1, wk := if j.failB i then .sendErrB else .bwdLoop }

/-- The worker's next step, 260-294 and 512-520; `none`: it waits or has ended. -/
def stepWk (j : Job) (s : S) : Option S :=
  match s.wk with
  | .fwd => some (stepF j s)
  | .bwdStart => some (if j.bwdOn then { s with bwd := if s.bwd < 0 then (s.q.length : Int) - 1 else s.bwd, wk := .bwdLoop } else { s with wk := .sendDone })
  | .bwdLoop => some { s with wk := if 0 ≤ s.bwd then .bwdCheck else .sendDone }
  | .bwdCheck => some (if (s.q.length : Int) ≤ s.bwd then { s with bwd := s.bwd - 1, wk := .sendErrB } else { s with wk := .bwdTake })
  | .bwdTake => some (stepB j s)
  | _ => none

/-- The deferred function empties the queue, 129-133. -/
def stepMn (j : Job) (s : S) : Option S :=
  match s.mn with
  | .defer r => some { s with mn := .ret r, q := if j.bwdOn then [] else s.q }
  | _ => none

/-- The error handed back, 172-181. -/
def blame (j : Job) (s : S) : R := .err (if s.fwd < j.n then some s.fwd else none)

/-- The worker meets `RunAll` on `errChan` or `doneChan` (vm_genera.go 172-187); after an error it goes on. -/
def stepMeet (j : Job) (s : S) : Option S :=
  match s.wk, s.mn with
  | .sendErrF, .select => some { s with wk := .bwdStart, mn := .defer (blame j s) }
  | .sendErrB, .select => some { s with wk := .sendDone, mn := .defer (blame j s) }
  | .sendDone, .select => some { s with wk := .finished, mn := .defer .ok }
  | _, _ => none

inductive L where
  | wk | mn | meet
deriving DecidableEq, Repr

def step (j : Job) (l : L) (s : S) : Option S :=
  match l with
  | .wk => stepWk j s
  | .mn => stepMn j s
  | .meet => stepMeet j s

def exec (j : Job) : List L → S → Option S
  | [], s => some s
  | l :: ls, s => (step j l s).bind (exec j ls)

/-- The states some schedule leads to. -/
def Reach (j : Job) (s0 s : S) : Prop := ∃ ls, exec j ls s0 = some s

theorem reach_ind {j : Job} {s0 : S} (P : S → Prop) (h0 : P s0) (hs : ∀ s l s', P s → step j l s = some s' → P s') {s : S} (h : Reach j s0 s) : P s := by
  obtain ⟨ls, h⟩ := h
  suffices ∀ (ls : List L) (s0 : S), P s0 → exec j ls s0 = some s → P s from this ls _ h0 h
  intro ls
  induction ls with
  | nil => intro s0 h0 h; simp only [exec] at h; injection h with h; subst h; exact h0
  | cons l ls ih =>
    intro s0 h0 h
    simp only [exec] at h
    cases e : step j l s0 with
    | none => simp [e] at h
    | some s1 => rw [e] at h; exact ih s1 (hs _ _ _ h0 e) h

/-! ### `RunAll` always returns -/

/-- What remains to be done. -/
def Wk.weight (n : Nat) (s : S) : Wk → Nat
  | .fwd => 5 * (n - s.fwd) + 4 * (s.q.length + (s.bwd + 1).toNat) + 9
  | .sendErrF => 5 * (n - s.fwd) + 4 * (s.q.length + (s.bwd + 1).toNat) + 9
  | .bwdStart => 4 * (s.q.length + (s.bwd + 1).toNat) + 8
  | .bwdLoop => 4 * (s.bwd + 1).toNat + 4
  | .bwdCheck => 4 * (s.bwd + 1).toNat + 3
  | .bwdTake => 4 * (s.bwd + 1).toNat + 2
  | .sendErrB => 2
  | .sendDone => 1
  | .finished => 0
  | .panicked => 0

def Mn.weight : Mn → Nat
  | .select => 2
  | .defer _ => 1
  | .ret _ => 0

def S.weight (j : Job) (s : S) : Nat := s.wk.weight j.n s + s.mn.weight

/-- **C87 (termination).** Every step brings the end nearer; no schedule is longer than the weight of its start. -/
theorem step_weight (j : Job) (l : L) (s s' : S) (hb : s.wk = .bwdCheck ∨ s.wk = .bwdTake → 0 ≤ s.bwd) (h : step j l s = some s') :
    s'.weight j < s.weight j ∧ (s'.wk = .bwdCheck ∨ s'.wk = .bwdTake → 0 ≤ s'.bwd) := by
  obtain ⟨wk, mn, fwd, bwd, q, ranF, ranB⟩ := s
  simp only at hb
  cases l with
  | wk =>
    simp only [step, stepWk] at h
    cases wk with
    | fwd =>
      simp only at h
      injection h with h
      subst h
      unfold stepF
      by_cases c : fwd < j.n
      · simp only [if_pos c]
        refine ⟨?_, ?_⟩
        · by_cases c2 : (j.ad fwd && j.bwdOn) = true <;> by_cases c3 : j.failF fwd = true <;>
            simp only [S.weight, Wk.weight, c2, c3, if_true, if_false, List.length_append, List.length_cons, List.length_nil, Bool.false_eq_true] <;> omega
        · by_cases c3 : j.failF fwd = true <;> simp [c3]
      · simp only [if_neg c]
        exact ⟨by simp only [S.weight, Wk.weight]; omega, by simp⟩
    | bwdStart =>
      simp only at h
      injection h with h
      subst h
      by_cases c : j.bwdOn = true
      · simp only [c, if_true]
        refine ⟨?_, by simp⟩
        by_cases c2 : bwd < 0
        · simp only [S.weight, Wk.weight, if_pos c2]; omega
        · simp only [S.weight, Wk.weight, if_neg c2]; omega
      · simp only [c, if_false, Bool.false_eq_true]
        exact ⟨by simp only [S.weight, Wk.weight]; omega, by simp⟩
    | bwdLoop =>
      simp only at h
      injection h with h
      subst h
      by_cases c : 0 ≤ bwd
      · simp only [if_pos c]
        exact ⟨by simp only [S.weight, Wk.weight]; omega, fun _ => c⟩
      · simp only [if_neg c]
        exact ⟨by simp only [S.weight, Wk.weight]; omega, by simp⟩
    | bwdCheck =>
      simp only at h
      injection h with h
      subst h
      have hb' := hb (Or.inl rfl)
      by_cases c : (q.length : Int) ≤ bwd
      · simp only [if_pos c]
        exact ⟨by simp only [S.weight, Wk.weight]; omega, by simp⟩
      · simp only [if_neg c]
        exact ⟨by simp only [S.weight, Wk.weight]; omega, fun _ => hb'⟩
    | bwdTake =>
      simp only at h
      injection h with h
      subst h
      have hb' := hb (Or.inr rfl)
      unfold stepB
      cases e : q[bwd.toNat]? with
      | none => simp only [e]; exact ⟨by simp only [S.weight, Wk.weight]; omega, by simp⟩
      | some i =>
        simp only [e]
        by_cases c : j.failB i = true
        · simp only [c, if_true]
          exact ⟨by simp only [S.weight, Wk.weight]; omega, by simp⟩
        · simp only [c, if_false, Bool.false_eq_true]
          exact ⟨by simp only [S.weight, Wk.weight]; omega, by simp⟩
    | sendErrF => cases h
    | sendErrB => cases h
    | sendDone => cases h
    | finished => cases h
    | panicked => cases h
  | mn =>
    simp only [step, stepMn] at h
    cases mn with
    | select => cases h
    | ret r => cases h
    | defer r =>
      simp only at h
      injection h with h
      subst h
      refine ⟨?_, hb⟩
      have hq : (if j.bwdOn = true then [] else q).length ≤ q.length := by split <;> simp
      cases wk <;> simp only [S.weight, Wk.weight, Mn.weight] <;> omega
  | meet =>
    simp only [step, stepMeet] at h
    split at h
    all_goals first
      | (cases h; done)
      | (injection h with h; subst h; exact ⟨by simp only [S.weight, Wk.weight, Mn.weight]; omega, by simp⟩)

/-- **C87 (no schedule goes on for ever).** -/
theorem exec_length (j : Job) (ls : List L) : ∀ (s s' : S), (s.wk = .bwdCheck ∨ s.wk = .bwdTake → 0 ≤ s.bwd) → exec j ls s = some s' →
    ls.length + s'.weight j ≤ s.weight j := by
  induction ls with
  | nil => intro s s' _ h; simp only [exec] at h; injection h with h; subst h; simp
  | cons l ls ih =>
    intro s s' hb h
    simp only [exec] at h
    cases e : step j l s with
    | none => simp [e] at h
    | some s1 =>
      rw [e] at h
      obtain ⟨h2, h3⟩ := step_weight j l s s1 hb e
      have h1 := ih s1 s' h3 h
      simp only [List.length_cons]
      omega

/-- **C87 (`RunAll` returns).** A schedule that cannot be continued has ended with `RunAll` returned, or with the program crashed. -/
theorem ends_returned (j : Job) (f : Nat) (b : Int) (q : List Nat) {s : S} (h : Reach j (S.start j f b q) s) (hs : ∀ l, step j l s = none) :
    (∃ r, s.mn = .ret r) ∨ s.wk = .panicked := by
  have key := reach_ind (fun s => s.wk = .finished → s.mn ≠ .select) (by
    intro e; simp only [S.start] at e; split at e <;> cases e) (by
    rintro ⟨wk, mn, fwd, bwd, q, ranF, ranB⟩ l s' hk h
    simp only at hk
    cases l with
    | wk =>
      intro e
      exfalso
      simp only [step, stepWk] at h
      cases wk <;> simp only at h <;> first | (cases h; done) | (injection h with h; subst h)
      · unfold stepF at e
        repeat' split at e
        all_goals first | (cases e; done) | (simp only at e; split at e <;> cases e)
      · split at e <;> cases e
      · simp only at e; split at e <;> cases e
      · split at e <;> cases e
      · unfold stepB at e
        split at e
        · cases e
        · simp only at e; split at e <;> cases e
    | mn =>
      simp only [step, stepMn] at h
      split at h
      · injection h with h; subst h; simp
      · cases h
    | meet =>
      simp only [step, stepMeet] at h
      split at h
      all_goals first
        | (cases h; done)
        | (injection h with h; subst h; simp)) h
  obtain ⟨wk, mn, fwd, bwd, q, ranF, ranB⟩ := s
  simp only at key ⊢
  have h1 := hs .wk
  have h2 := hs .mn
  have h3 := hs .meet
  cases mn with
  | ret r => exact .inl ⟨r, rfl⟩
  | defer r => simp [step, stepMn] at h2
  | select =>
    right
    cases wk <;> first
      | rfl
      | (simp [step, stepWk] at h1; done)
      | (simp [step, stepMeet] at h3; done)
      | (exact absurd rfl (key rfl))

/-! ### A node fails -/

/-- What holds throughout a run in which node `k` is the first to fail. -/
def Failing (j : Job) (k : Nat) (s : S) : Prop :=
  (s.wk = .fwd ∧ s.fwd ≤ k ∧ s.mn = .select) ∨
  (s.wk = .sendErrF ∧ s.fwd = k + 1 ∧ s.mn = .select) ∨
  (s.fwd = k + 1 ∧ s.wk ≠ .fwd ∧ s.wk ≠ .sendErrF ∧ s.wk ≠ .finished ∧
    (s.mn = .defer (.err (if k + 1 < j.n then some (k + 1) else none)) ∨ s.mn = .ret (.err (if k + 1 < j.n then some (k + 1) else none))))

theorem failing (j : Job) (hf : j.fwdOn = true) (f : Nat) (b : Int) (q : List Nat) (k : Nat) (hfk : f ≤ k) (hk : k < j.n) (hF : j.failF k = true)
    (hmin : ∀ i, f ≤ i → i < k → j.failF i = false) {s : S} (h : Reach j (S.start j f b q) s) : Failing j k s := by
  have key := reach_ind (fun s => f ≤ s.fwd ∧ Failing j k s) ⟨Nat.le_refl _, .inl ⟨by simp [S.start, hf], hfk, rfl⟩⟩ (by
    rintro ⟨wk, mn, fwd, bwd, q, ranF, ranB⟩ l s' ⟨h0, hk'⟩ h
    simp only [Failing] at h0 hk'
    cases l with
    | wk =>
      simp only [step, stepWk] at h
      rcases hk' with ⟨e1, e2, e3⟩ | ⟨e1, e2, e3⟩ | ⟨e1, e2, e3, e4, e5⟩
      · subst e1 e3
        simp only at h
        injection h with h
        subst h
        unfold stepF
        simp only [if_pos (show fwd < j.n by omega)]
        refine ⟨by omega, ?_⟩
        rcases Nat.lt_or_eq_of_le e2 with c | c
        · left
          simp only [hmin fwd h0 c]
          exact ⟨by simp, c, trivial⟩
        · subst c
          right; left
          simp only [hF]
          exact ⟨by simp, trivial, trivial⟩
      · subst e1; cases h
      · cases wk <;> simp only at h <;> first
          | (exact absurd rfl e2)
          | (exact absurd rfl e3)
          | (cases h; done)
          | (injection h with h; subst h)
        · by_cases c : j.bwdOn = true
          · simp only [c, if_true]
            exact ⟨h0, .inr (.inr ⟨e1, by simp, by simp, by simp, e5⟩)⟩
          · simp only [c, Bool.false_eq_true, if_false]
            exact ⟨h0, .inr (.inr ⟨e1, by simp, by simp, by simp, e5⟩)⟩
        · by_cases c : 0 ≤ bwd
          · simp only [if_pos c]
            exact ⟨h0, .inr (.inr ⟨e1, by simp, by simp, by simp, e5⟩)⟩
          · simp only [if_neg c]
            exact ⟨h0, .inr (.inr ⟨e1, by simp, by simp, by simp, e5⟩)⟩
        · by_cases c : (q.length : Int) ≤ bwd
          · simp only [if_pos c]
            exact ⟨h0, .inr (.inr ⟨e1, by simp, by simp, by simp, e5⟩)⟩
          · simp only [if_neg c]
            exact ⟨h0, .inr (.inr ⟨e1, by simp, by simp, by simp, e5⟩)⟩
        · unfold stepB
          cases e : q[bwd.toNat]? with
          | none => simp only [e]; exact ⟨h0, .inr (.inr ⟨e1, by simp, by simp, by simp, e5⟩)⟩
          | some i =>
            simp only [e]
            by_cases c : j.failB i = true
            · simp only [c, if_true]
              exact ⟨h0, .inr (.inr ⟨e1, by simp, by simp, by simp, e5⟩)⟩
            · simp only [c, if_false, Bool.false_eq_true]
              exact ⟨h0, .inr (.inr ⟨e1, by simp, by simp, by simp, e5⟩)⟩
    | mn =>
      simp only [step, stepMn] at h
      split at h
      · injection h with h; subst h
        rcases hk' with ⟨_, _, e3⟩ | ⟨_, _, e3⟩ | ⟨e1, e2, e3, e4, e5⟩
        · cases e3
        · cases e3
        · refine ⟨h0, .inr (.inr ⟨e1, e2, e3, e4, .inr ?_⟩)⟩
          rcases e5 with e5 | e5
          · injection e5 with e5
            rw [e5]
          · cases e5
      · cases h
    | meet =>
      simp only [step, stepMeet] at h
      rcases hk' with ⟨e1, e2, e3⟩ | ⟨e1, e2, e3⟩ | ⟨e1, e2, e3, e4, e5⟩
      · subst e1 e3; cases h
      · subst e1 e2 e3
        simp only at h
        injection h with h; subst h
        exact ⟨h0, .inr (.inr ⟨rfl, by simp, by simp, by simp, .inl rfl⟩)⟩
      · exfalso
        rcases e5 with e5 | e5 <;> subst e5 <;> cases wk <;> cases h) h
  exact key.2

/-- **C87 (the wrong node is named).** If running node `k` fails, `RunAll` returns an error. It never names `k`: it names the node after it, or, if `k` is the last, none. -/
theorem names_next (j : Job) (hf : j.fwdOn = true) (f : Nat) (b : Int) (q : List Nat) (k : Nat) (hfk : f ≤ k) (hk : k < j.n) (hF : j.failF k = true)
    (hmin : ∀ i, f ≤ i → i < k → j.failF i = false) {s : S} (h : Reach j (S.start j f b q) s) {r : R} (hr : s.mn = .ret r) :
    r = .err (if k + 1 < j.n then some (k + 1) else none) ∧ r ≠ .err (some k) := by
  rcases failing j hf f b q k hfk hk hF hmin h with ⟨_, _, e⟩ | ⟨_, _, e⟩ | ⟨_, _, _, _, e | e⟩ <;> rw [e] at hr <;> cases hr
  refine ⟨rfl, ?_⟩
  intro e
  injection e with e
  split at e
  · injection e with e; omega
  · cases e

/-- **C87 (the worker stays).** If running a node fails, the goroutine started by `RunAll` never ends: it goes on and waits for ever to tell that it is done. -/
theorem worker_stays (j : Job) (hf : j.fwdOn = true) (f : Nat) (b : Int) (q : List Nat) (k : Nat) (hfk : f ≤ k) (hk : k < j.n) (hF : j.failF k = true)
    (hmin : ∀ i, f ≤ i → i < k → j.failF i = false) {s : S} (h : Reach j (S.start j f b q) s) : s.wk ≠ .finished := by
  rcases failing j hf f b q k hfk hk hF hmin h with ⟨e, _⟩ | ⟨e, _⟩ | ⟨_, _, _, e, _⟩
  · rw [e]; simp
  · rw [e]; simp
  · exact e

/-- Two nodes with derivatives and a third that fails. -/
def threeNodes : Job := ⟨3, true, true, fun _ => true, fun i => i == 2, fun _ => false⟩

/-- **C87 (derivatives after a failure).** After node 2 has failed, the derivative of a node is still worked out, after `RunAll` has returned its error: the gradients
held by the nodes change behind the caller's back. -/
theorem differentiates_after_error : ∃ s s', Reach threeNodes (S.new threeNodes) s ∧ exec threeNodes [.wk] s = some s' ∧
    s.mn = .defer (.err none) ∧ s.ranB = [] ∧ s'.ranB = [2] ∧ Reach threeNodes (S.new threeNodes) s' := by
  refine ⟨_, _, ⟨[.wk, .wk, .wk, .meet, .wk, .wk, .wk], rfl⟩, rfl, rfl, rfl, rfl, ⟨[.wk, .wk, .wk, .meet, .wk, .wk, .wk, .wk], rfl⟩⟩

/-- **C87 (crash after a failure).** The deferred function empties the queue while the worker reads it: if it does so between the check of the length and the access, the
program crashes, after `RunAll` has returned. -/
theorem crashes_after_error : ∃ s, Reach threeNodes (S.new threeNodes) s ∧ s.mn = .ret (.err none) ∧ s.wk = .panicked :=
  ⟨_, ⟨[.wk, .wk, .wk, .meet, .wk, .wk, .wk, .mn, .wk], rfl⟩, rfl, rfl⟩

example {s : S} (h : Reach threeNodes (S.new threeNodes) s) {r : R} (hr : s.mn = .ret r) : r = .err none :=
  (names_next threeNodes rfl 0 (-1) [] 2 (by decide) (by decide) rfl (by
    intro i _ hi; simp [threeNodes]; omega) h hr).1

/-! ### No node fails -/

/-- The queue of derivatives of the nodes run so far. -/
def Job.queue (j : Job) (k : Nat) : List Nat := (List.range k).filter fun i => j.ad i && j.bwdOn

theorem Job.queue_succ (j : Job) (k : Nat) : j.queue (k + 1) = if j.ad k && j.bwdOn then j.queue k ++ [k] else j.queue k := by
  unfold Job.queue
  rw [List.range_succ, List.filter_append]
  by_cases c : (j.ad k && j.bwdOn) = true
  · rw [if_pos c]; simp [List.filter, c]
  · rw [if_neg c]; simp [List.filter, c]

theorem Job.queue_off (j : Job) (k : Nat) (h : j.bwdOn = false) : j.queue k = [] := by
  unfold Job.queue
  simp [h]

/-- What holds throughout the first run of a machine on nodes none of which fails. -/
structure Good (j : Job) (s : S) : Prop where
  before : s.wk = .fwd → s.fwd ≤ j.n ∧ s.ranF = List.range s.fwd ∧ s.q = j.queue s.fwd ∧ s.ranB = [] ∧ s.bwd = -1
  after : s.wk ≠ .fwd → s.fwd = j.n ∧ s.ranF = List.range j.n
  start : s.wk = .bwdStart → s.q = j.queue j.n ∧ s.ranB = [] ∧ s.bwd = -1
  back : s.wk = .bwdLoop ∨ s.wk = .bwdCheck ∨ s.wk = .bwdTake → j.bwdOn = true ∧ s.q = j.queue j.n ∧ -1 ≤ s.bwd ∧
    s.bwd < (j.queue j.n).length ∧ s.ranB = ((j.queue j.n).drop (s.bwd + 1).toNat).reverse
  nonneg : s.wk = .bwdCheck ∨ s.wk = .bwdTake → 0 ≤ s.bwd
  noErr : s.wk ≠ .sendErrF ∧ s.wk ≠ .sendErrB ∧ s.wk ≠ .panicked
  done : s.wk = .sendDone ∨ s.wk = .finished → s.ranB = (j.queue j.n).reverse
  mn : s.wk ≠ .finished → s.mn = .select
  fin : s.wk = .finished → s.mn = .defer .ok ∨ (s.mn = .ret .ok ∧ (j.bwdOn = true → s.q = []))

theorem good (j : Job) (hf : j.fwdOn = true) (hF : ∀ i < j.n, j.failF i = false) (hB : j.bwdOn = true → ∀ i < j.n, j.ad i = true → j.failB i = false) {s : S}
    (h : Reach j (S.new j) s) : Good j s := by
  refine reach_ind (Good j) ?_ ?_ h
  · constructor <;> simp [S.new, S.start, hf, Job.queue]
  rintro ⟨wk, mn, fwd, bwd, q, ranF, ranB⟩ l s' ⟨g1, g2, g3, g4, g5, g6, g7, g8, g9⟩ h
  simp only at g1 g2 g3 g4 g5 g6 g7 g8 g9
  cases l with
  | wk =>
    simp only [step, stepWk] at h
    cases wk with
    | fwd =>
      simp only at h
      injection h with h
      subst h
      obtain ⟨a1, a2, a3, a4, a5⟩ := g1 rfl
      subst a2 a3 a4 a5
      have hm := g8 (by simp)
      unfold stepF
      by_cases c : fwd < j.n
      · simp only [if_pos c, hF fwd c, Bool.false_eq_true, if_false]
        constructor <;> simp [hm]
        exact ⟨c, by rw [List.range_succ], by rw [Job.queue_succ]; simp⟩
      · have e : fwd = j.n := by omega
        subst e
        simp only [if_neg c]
        constructor <;> simp [hm]
    | bwdStart =>
      simp only at h
      injection h with h
      subst h
      obtain ⟨a3, a4, a5⟩ := g3 rfl
      obtain ⟨a1, a2⟩ := g2 (by simp)
      subst a1 a2 a3 a4 a5
      have hm := g8 (by simp)
      by_cases c : j.bwdOn = true
      · simp only [c, if_true, if_pos (show (-1 : Int) < 0 by decide)]
        constructor <;> simp [hm, c]
        exact ⟨by omega, by omega⟩
      · simp only [c, if_false, Bool.false_eq_true]
        have hq := j.queue_off j.n (by simpa using c)
        constructor <;> simp [hm, hq]
    | bwdLoop =>
      simp only at h
      injection h with h
      subst h
      obtain ⟨a1, a2⟩ := g2 (by simp)
      obtain ⟨b1, b2, b3, b4, b5⟩ := g4 (.inl rfl)
      subst a1 a2 b2
      have hm := g8 (by simp)
      by_cases c : 0 ≤ bwd
      · simp only [if_pos c]
        constructor <;> simp [hm]
        · exact ⟨b1, b3, b4, b5⟩
        · exact c
      · simp only [if_neg c]
        have e : bwd = -1 := by omega
        subst e
        constructor <;> simp [hm]
        simpa using b5
    | bwdCheck =>
      simp only at h
      injection h with h
      subst h
      obtain ⟨a1, a2⟩ := g2 (by simp)
      obtain ⟨b1, b2, b3, b4, b5⟩ := g4 (.inr (.inl rfl))
      subst a1 a2 b2
      have hm := g8 (by simp)
      simp only [if_neg (show ¬ ((j.queue j.n).length : Int) ≤ bwd by omega)]
      constructor <;> simp [hm]
      · exact ⟨b1, b3, b4, b5⟩
      · exact g5 (.inl rfl)
    | bwdTake =>
      simp only at h
      injection h with h
      subst h
      obtain ⟨a1, a2⟩ := g2 (by simp)
      obtain ⟨b1, b2, b3, b4, b5⟩ := g4 (.inr (.inr rfl))
      have b6 := g5 (.inr rfl)
      subst a1 a2 b2
      have hm := g8 (by simp)
      have hlt : bwd.toNat < (j.queue j.n).length := by omega
      have hmem : j.failB (j.queue j.n)[bwd.toNat] = false := by
        have := List.getElem_mem hlt
        unfold Job.queue at this
        obtain ⟨m1, m2⟩ := List.mem_filter.mp this
        simp only [Bool.and_eq_true] at m2
        exact hB b1 _ (List.mem_range.mp m1) m2.1
      unfold stepB
      simp only [List.getElem?_eq_getElem hlt, hmem, Bool.false_eq_true, if_false]
      constructor <;> simp [hm]
      refine ⟨b1, by omega, by omega, ?_⟩
      rw [b5]
      have e1 : (bwd + 1).toNat = bwd.toNat + 1 := by omega
      rw [e1, ← List.reverse_cons, List.getElem_cons_drop]
    | sendErrF => cases h
    | sendErrB => cases h
    | sendDone => cases h
    | finished => cases h
    | panicked => cases h
  | mn =>
    simp only [step, stepMn] at h
    split at h
    · rename_i r
      injection h with h; subst h
      have hw : wk = .finished := by
        by_cases c : wk = .finished
        · exact c
        · cases g8 c
      subst hw
      obtain ⟨a1, a2⟩ := g2 (by simp)
      have hr : r = .ok := by
        rcases g9 rfl with e | e
        · injection e
        · cases e.1
      subst hr
      have hd := g7 (.inr rfl)
      constructor <;> simp [a1, a2, hd]
      intro c; simp [c]
    · cases h
  | meet =>
    simp only [step, stepMeet] at h
    split at h
    · exact absurd rfl g6.1
    · exact absurd rfl g6.2.1
    · injection h with h; subst h
      obtain ⟨a1, a2⟩ := g2 (by simp)
      have hd := g7 (.inl rfl)
      constructor <;> simp [a1, a2, hd]
    · cases h

/-- **C87 (success).** If no node fails, then in every schedule in which `RunAll` of a new machine returns, it returns no error; every node has been run once, in order; the
nodes with derivatives have been differentiated once, in reverse order; the goroutine has ended and the queue is empty. -/
theorem success_partial (j : Job) (hf : j.fwdOn = true) (hF : ∀ i < j.n, j.failF i = false) (hB : j.bwdOn = true → ∀ i < j.n, j.ad i = true → j.failB i = false) {s : S}
    (h : Reach j (S.new j) s) {r : R} (hr : s.mn = .ret r) :
    r = .ok ∧ s.wk = .finished ∧ s.ranF = List.range j.n ∧ s.ranB = if j.bwdOn then ((List.range j.n).filter j.ad).reverse else [] := by
  have g := good j hf hF hB h
  have hw : s.wk = .finished := by
    by_cases c : s.wk = .finished
    · exact c
    · have := g.mn c; rw [this] at hr; cases hr
  have hr' : r = .ok := by
    rcases g.fin hw with e | e
    · rw [e] at hr; cases hr
    · rw [e.1] at hr; injection hr with hr; exact hr.symm
  refine ⟨hr', hw, (g.after (by rw [hw]; simp)).2, ?_⟩
  rw [g.done (.inr hw)]
  unfold Job.queue
  by_cases c : j.bwdOn = true
  · simp [c]
  · simp [c]

/-- In every schedule that ends, `RunAll` has returned. -/
theorem success_ends (j : Job) (hf : j.fwdOn = true) (hF : ∀ i < j.n, j.failF i = false) (hB : j.bwdOn = true → ∀ i < j.n, j.ad i = true → j.failB i = false) {s : S}
    (h : Reach j (S.new j) s) (hs : ∀ l, step j l s = none) : s.mn = .ret .ok ∧ s.wk = .finished := by
  rcases ends_returned j 0 (-1) [] h hs with ⟨r, hr⟩ | e
  · obtain ⟨h1, h2, _⟩ := success_partial j hf hF hB h hr
    exact ⟨by rw [hr, h1], h2⟩
  · exact absurd e (good j hf hF hB h).noErr.2.2

/-- Three nodes, of which the last two have derivatives. -/
example : ∃ s, Reach ⟨3, true, true, fun i => i != 0, fun _ => false, fun _ => false⟩ (S.new ⟨3, true, true, fun i => i != 0, fun _ => false, fun _ => false⟩) s ∧
    s.mn = .ret .ok ∧ s.ranF = [0, 1, 2] ∧ s.ranB = [2, 1] :=
  ⟨_, ⟨[.wk, .wk, .wk, .wk, .wk, .wk, .wk, .wk, .wk, .wk, .wk, .wk, .meet, .mn], rfl⟩, rfl, rfl, rfl⟩

/-! ### A derivative fails -/

/-- What holds throughout a run in which no node fails when run and some does when differentiated. -/
def FailingB (j : Job) (s : S) : Prop :=
  (s.mn = .select ∧ s.wk ≠ .finished ∧ s.wk ≠ .sendErrF ∧ s.wk ≠ .sendDone ∧ s.wk ≠ .panicked ∧ (s.wk ≠ .fwd → s.fwd = j.n) ∧
    (s.wk = .fwd → s.fwd ≤ j.n ∧ s.q = j.queue s.fwd ∧ s.bwd = -1) ∧ (s.wk = .bwdStart → s.bwd = -1) ∧
    (s.wk ≠ .fwd → s.q = j.queue j.n) ∧
    (s.wk = .bwdLoop ∨ s.wk = .bwdCheck ∨ s.wk = .bwdTake → -1 ≤ s.bwd ∧ s.bwd < (j.queue j.n).length ∧
      ∃ i, i < (j.queue j.n).length ∧ (i : Int) ≤ s.bwd ∧ j.failB ((j.queue j.n).getD i 0) = true)) ∨
  (s.fwd = j.n ∧ s.wk = .sendDone ∧ (s.mn = .defer (.err none) ∨ s.mn = .ret (.err none)))

theorem failingB (j : Job) (hf : j.fwdOn = true) (hb : j.bwdOn = true) (hF : ∀ i < j.n, j.failF i = false) (k : Nat) (hk : k < j.n)
    (ha : j.ad k = true) (hB : j.failB k = true) {s : S} (h : Reach j (S.new j) s) : FailingB j s := by
  refine reach_ind (FailingB j) ?_ ?_ h
  · left; simp [S.new, S.start, hf, Job.queue]
  have hin : ∃ i, i < (j.queue j.n).length ∧ j.failB ((j.queue j.n).getD i 0) = true := by
    have hm : k ∈ j.queue j.n := List.mem_filter.mpr ⟨List.mem_range.mpr hk, by simp [ha, hb]⟩
    obtain ⟨i, hi, e⟩ := List.mem_iff_getElem.mp hm
    refine ⟨i, hi, ?_⟩
    rw [List.getD_eq_getElem?_getD, List.getElem?_eq_getElem hi]
    simp [e, hB]
  rintro ⟨wk, mn, fwd, bwd, q, ranF, ranB⟩ l s' hk' h
  simp only [FailingB] at hk'
  cases l with
  | wk =>
    simp only [step, stepWk] at h
    rcases hk' with ⟨g1, g2, g3, g4, g5, g6, g7, g8, g9, g10⟩ | ⟨g1, g2, g3⟩
    · subst g1
      cases wk with
      | fwd =>
        simp only at h
        injection h with h
        subst h
        obtain ⟨a1, a2, a3⟩ := g7 rfl
        subst a2 a3
        unfold stepF
        by_cases c : fwd < j.n
        · simp only [if_pos c, hF fwd c, Bool.false_eq_true, if_false]
          left
          simp only [ne_eq, reduceCtorEq, not_false_eq_true, not_true, true_and, false_implies, forall_const, or_self, and_true]
          refine ⟨c, ?_⟩
          rw [Job.queue_succ]
        · have e : fwd = j.n := by omega
          subst e
          simp only [if_neg c]
          left
          simp
      | bwdStart =>
        simp only at h
        injection h with h
        subst h
        have a1 := g6 (by simp)
        have a2 := g8 rfl
        have a3 := g9 (by simp)
        subst a1 a2 a3
        simp only [hb, if_true, if_pos (show (-1 : Int) < 0 by decide)]
        left
        obtain ⟨i, hi, e⟩ := hin
        simp
        exact ⟨by omega, by omega, i, hi, by omega, by simpa using e⟩
      | bwdLoop =>
        simp only at h
        injection h with h
        subst h
        have a1 := g6 (by simp)
        have a3 := g9 (by simp)
        obtain ⟨b1, b2, i, b3, b4, b5⟩ := g10 (.inl rfl)
        subst a1 a3
        simp only [if_pos (show 0 ≤ bwd by omega)]
        left
        simp
        exact ⟨b1, b2, i, b3, b4, by simpa using b5⟩
      | bwdCheck =>
        simp only at h
        injection h with h
        subst h
        have a1 := g6 (by simp)
        have a3 := g9 (by simp)
        obtain ⟨b1, b2, i, b3, b4, b5⟩ := g10 (.inr (.inl rfl))
        subst a1 a3
        simp only [if_neg (show ¬ ((j.queue j.n).length : Int) ≤ bwd by omega)]
        left
        simp
        exact ⟨b1, b2, i, b3, b4, by simpa using b5⟩
      | bwdTake =>
        simp only at h
        injection h with h
        subst h
        have a1 := g6 (by simp)
        have a3 := g9 (by simp)
        obtain ⟨b1, b2, i, b3, b4, b5⟩ := g10 (.inr (.inr rfl))
        subst a1 a3
        have hlt : bwd.toNat < (j.queue j.n).length := by omega
        unfold stepB
        simp only [List.getElem?_eq_getElem hlt]
        left
        by_cases c : j.failB (j.queue j.n)[bwd.toNat] = true
        · simp [c]
        · have hne : (i : Int) ≠ bwd := by
            intro e
            subst e
            simp only [Int.toNat_natCast] at c
            rw [List.getD_eq_getElem?_getD, List.getElem?_eq_getElem b3] at b5
            exact c (by simpa using b5)
          simp [c]
          exact ⟨by omega, by omega, i, b3, by omega, by simpa using b5⟩
      | sendErrF => cases h
      | sendErrB => cases h
      | sendDone => cases h
      | finished => cases h
      | panicked => cases h
    · subst g2; cases h
  | mn =>
    simp only [step, stepMn] at h
    split at h
    · injection h with h; subst h
      rcases hk' with ⟨g1, _⟩ | ⟨g1, g2, g3⟩
      · cases g1
      · right
        refine ⟨g1, g2, .inr ?_⟩
        rcases g3 with e | e
        · injection e with e; rw [e]
        · cases e
    · cases h
  | meet =>
    simp only [step, stepMeet] at h
    rcases hk' with ⟨g1, g2, g3, g4, g5, g6, g7, g8, g9, g10⟩ | ⟨g1, g2, g3⟩
    · subst g1
      cases wk <;> simp only at h <;> first
        | (exact absurd rfl g3)
        | (exact absurd rfl g4)
        | (cases h; done)
        | (injection h with h; subst h)
      right
      have a1 := g6 (by simp)
      refine ⟨a1, rfl, .inl ?_⟩
      simp [blame, a1]
    · exfalso
      rcases g3 with e | e <;> subst g2 e <;> cases h

/-- **C87 (a derivative fails).** If every node runs and the derivative of one of them fails, `RunAll` returns an error that names no node, and the goroutine never ends. -/
theorem derivative_fails (j : Job) (hf : j.fwdOn = true) (hb : j.bwdOn = true) (hF : ∀ i < j.n, j.failF i = false) (k : Nat) (hk : k < j.n)
    (ha : j.ad k = true) (hB : j.failB k = true) {s : S} (h : Reach j (S.new j) s) :
    s.wk ≠ .finished ∧ ∀ r, s.mn = .ret r → r = .err none := by
  rcases failingB j hf hb hF k hk ha hB h with ⟨g1, g2, _⟩ | ⟨_, g2, g3⟩
  · exact ⟨g2, fun r hr => by rw [g1] at hr; cases hr⟩
  · refine ⟨by rw [g2]; simp, fun r hr => ?_⟩
    rcases g3 with e | e <;> rw [e] at hr <;> cases hr
    rfl

/-- Every state has a schedule that cannot be continued. -/
theorem exists_end (j : Job) (s : S) (hb : s.wk = .bwdCheck ∨ s.wk = .bwdTake → 0 ≤ s.bwd) :
    ∃ ls s', exec j ls s = some s' ∧ ∀ l, step j l s' = none := by
  induction h : s.weight j using Nat.strongRecOn generalizing s with
  | ind w ih =>
    by_cases c : ∀ l, step j l s = none
    · exact ⟨[], s, rfl, c⟩
    · obtain ⟨l, hl⟩ := Classical.not_forall.mp c
      cases e : step j l s with
      | none => exact absurd e hl
      | some s1 =>
        obtain ⟨h1, h2⟩ := step_weight j l s s1 hb e
        obtain ⟨ls, s', h3, h4⟩ := ih (s1.weight j) (by omega) s1 h2 rfl
        exact ⟨l :: ls, s', by simp only [exec, e]; exact h3, h4⟩

/-- **C87 (the goroutine ends exactly if nothing fails).** For a new machine: some schedule lets the goroutine end if and only if no node fails when run and no node of the
queue when differentiated. -/
theorem finishes_iff (j : Job) (hf : j.fwdOn = true) :
    (∃ s, Reach j (S.new j) s ∧ s.wk = .finished) ↔
      (∀ i < j.n, j.failF i = false) ∧ (j.bwdOn = true → ∀ i < j.n, j.ad i = true → j.failB i = false) := by
  constructor
  · rintro ⟨s, h, hw⟩
    have h1 : ∀ i < j.n, j.failF i = false := by
      intro i
      induction i using Nat.strongRecOn with
      | ind i ih =>
        intro hi
        cases e : j.failF i with
        | false => rfl
        | true => exact absurd hw (worker_stays j hf 0 (-1) [] i (Nat.zero_le _) hi e (fun i' _ hi' => ih i' hi' (by omega)) h)
    refine ⟨h1, fun hb i hi ha => ?_⟩
    cases e : j.failB i with
    | false => rfl
    | true => exact absurd hw (derivative_fails j hf hb h1 i hi ha e h).1
  · rintro ⟨h1, h2⟩
    obtain ⟨ls, s, h3, h4⟩ := exists_end j (S.new j) (by simp [S.new, S.start, hf])
    exact ⟨s, ⟨ls, h3⟩, (success_ends j hf h1 h2 ⟨ls, h3⟩ h4).2⟩

/-! ### `LastRun` -/

/-- `LastRun`, 205-224: the position of a node and whether a derivative is meant. -/
def lastRun (j : Job) (fwd bwd : Int) (q : List Nat) : Res (Nat × Bool) :=
  if fwd < 0 ∧ j.bwdOn then
    match q[(if bwd < 0 then 0 else bwd).toNat]? with
    | some i => .ok (i, true)
    | none => .panic
  else if !j.bwdOn then (if 0 < j.n then .ok (0, false) else .panic)
  else if 0 ≤ fwd ∧ fwd < j.n then .ok (fwd.toNat, false) else .panic

/-- **C88 (negation, with derivatives).** After a complete run with derivatives `LastRun` panics. -/
theorem lastRun_panics (j : Job) (hf : j.fwdOn = true) (hb : j.bwdOn = true) (hF : ∀ i < j.n, j.failF i = false)
    (hB : j.bwdOn = true → ∀ i < j.n, j.ad i = true → j.failB i = false) {s : S} (h : Reach j (S.new j) s) {r : R} (hr : s.mn = .ret r) :
    lastRun j s.fwd s.bwd s.q = .panic := by
  have g := good j hf hF hB h
  have hw := (success_partial j hf hF hB h hr).2.1
  have e := (g.after (by rw [hw]; simp)).1
  unfold lastRun
  rw [if_neg (by omega), hb, e]
  simp

/-- **C88 (without derivatives).** After a complete run without derivatives `LastRun` gives the first node run; this is the last one exactly if there is just one. -/
theorem lastRun_first (j : Job) (hf : j.fwdOn = true) (hb : j.bwdOn = false) (hn : 0 < j.n) (hF : ∀ i < j.n, j.failF i = false)
    {s : S} (h : Reach j (S.new j) s) {r : R} (hr : s.mn = .ret r) :
    lastRun j s.fwd s.bwd s.q = .ok (0, false) ∧ (s.ranF.getLast? = some 0 ↔ j.n = 1) := by
  have hB : j.bwdOn = true → ∀ i < j.n, j.ad i = true → j.failB i = false := by rw [hb]; intro h; cases h
  obtain ⟨_, _, h1, _⟩ := success_partial j hf hF hB h hr
  refine ⟨?_, ?_⟩
  · unfold lastRun
    rw [hb]
    simp [hn]
  · rw [h1, List.getLast?_range]
    simp
    omega

/-- **C88 (one node, no derivatives).** This is the case in which `LastRun` is right. -/
theorem lastRun_partial (j : Job) (hf : j.fwdOn = true) (hb : j.bwdOn = false) (hn : j.n = 1) (hF : j.failF 0 = false)
    {s : S} (h : Reach j (S.new j) s) {r : R} (hr : s.mn = .ret r) : ∃ i, lastRun j s.fwd s.bwd s.q = .ok (i, false) ∧ s.ranF.getLast? = some i := by
  obtain ⟨h1, h2⟩ := lastRun_first j hf hb (by omega) (by intro i hi; have : i = 0 := by omega
                                                          subst this; exact hF) h hr
  exact ⟨0, h1, h2.mpr hn⟩

example : ∃ s, Reach ⟨1, true, false, fun _ => true, fun _ => false, fun _ => false⟩ (S.new ⟨1, true, false, fun _ => true, fun _ => false, fun _ => false⟩) s ∧
    s.mn = .ret .ok ∧ lastRun ⟨1, true, false, fun _ => true, fun _ => false, fun _ => false⟩ s.fwd s.bwd s.q = .ok (0, false) :=
  ⟨_, ⟨[.wk, .wk, .wk, .meet, .mn], rfl⟩, rfl, rfl⟩

end Verif.RunLoop.Lisp
