import Verif.Tape.Theorems
import Verif.Shape.Model
import Mathlib.Algebra.BigOperators.Group.List.Basic
/-!
How the tape machine hands gradients to the nodes they belong to (`BindDualValues`): what the derivative part of a
node's dual value is after a run, when a run panics, and what happens to nodes whose gradient is an `Iop`.
-/
set_option autoImplicit false
namespace Verif.Train
open Verif.Shape (Res)
open Verif.Tape (upd upd_same upd_ne)

variable {V : Type}

/-- What is bound to a node (node.go 44): nothing, a plain value, or a dual value with derivative `d` (dual.go 11-14).
The values themselves are left to the model of the machine (`Verif.Tape`). -/
inductive Bd (V : Type)
  | none
  | plain
  | dual (d : V)
  deriving DecidableEq, Repr

/-- `derivOf` of a node (node.go 48) and whether its op is `Iop{}`. -/
structure GN where
  derivOf : List Nat := []
  iop : Bool := false

/-- What delivery depends on: the labels of the nodes, the nodes given to `BindDualValues` (empty: all; vm.go 272-286),
addition of values (`none`: an error), the zero value of the shape of a node's value, and whether that value is a tensor
(for a scalar `UnsafeDo` makes a new value, op_math.go 323-350, operatorPointwise_binary.go 40-53). -/
structure Cfg (V : Type) where
  gn : Nat → GN
  only : List Nat := []
  add : V → V → Option V
  zero : Nat → V
  tens : Nat → Bool

/-- The bound values and the closure queue (vm_tape.go 38). A closure is kept as the node it refers to and the value it
adds. -/
structure St (V : Type) where
  bd : Nat → Bd V
  queue : List (Nat × V) := []

/-- `len(m.bindNodesDV) > 0 && !m.bindNodesDV.Contains(src)` does not hold (vm_tape_nocuda.go 116). -/
def Cfg.wants (C : Cfg V) (src : Nat) : Bool := C.only.isEmpty || C.only.contains src

theorem Cfg.wants_iff (C : Cfg V) (src : Nat) : C.wants src = true ↔ C.only = [] ∨ src ∈ C.only := by
  simp [Cfg.wants]

/-- `node.bind(v)` of a plain value (node.go 651-678): a dual value keeps its derivative. -/
def bindPlain : Bd V → Bd V
  | .none => .plain
  | .plain => .plain
  | .dual d => .dual d

/-- The `default` case of the switch (vm_tape_nocuda.go 133-152). `dvUnit` keeps a dual value and gives a plain value a
zero derivative (dual.go 114-130, 153-161); for an unbound node cloning the value fails and `constantDV` panics. -/
def addTo (C : Cfg V) (v : V) (src : Nat) (s : St V) : Res (St V) :=
  match s.bd src with
  | .none => .panic
  | .plain => match C.add (C.zero src) v with
    | none => .err
    | some d => .ok { s with bd := upd s.bd src (.dual d) }
  | .dual d => match C.add d v with
    | none => .err
    | some d => .ok { s with bd := upd s.bd src (.dual d) }

/-- The node the closures of `g` refer to. They capture the loop variable `src` (vm_tape_nocuda.go 115, 123-130), which
all rounds share (go.mod line 3: go 1.16), so when they run it is the last element of `derivOf`. -/
def GN.captured (g : GN) : Nat := g.derivOf.getLastD 0

/-- The loop over `node.derivOf` (vm_tape_nocuda.go 115-155). -/
def deliver (C : Cfg V) (g : GN) (v : V) : List Nat → St V → Res (St V)
  | [], s => .ok s
  | src :: rest, s =>
    if C.wants src then
      if g.iop then deliver C g v rest { s with queue := s.queue ++ [(g.captured, v)] }
      else (addTo C v src s).bind (deliver C g v rest)
    else deliver C g v rest s

/-- The end of `execOp.exec` (vm_tape_nocuda.go 111-157): the result `v` is bound to the node and handed on. -/
def execG (C : Cfg V) (i : Nat) (v : V) (s : St V) : Res (St V) :=
  deliver C (C.gn i) v (C.gn i).derivOf { s with bd := upd s.bd i (bindPlain (s.bd i)) }

/-- Operations executed one after the other, with their results. -/
def runG (C : Cfg V) : List (Nat × V) → St V → Res (St V)
  | [], s => .ok s
  | (i, v) :: L, s => (execG C i v s).bind (runG C L)

/-- A closure (vm_tape_nocuda.go 123-130): the sum is computed in the memory of the derivative if that is a tensor, and
otherwise dropped; a node that is not bound to a dual value stays as it is. -/
def close (C : Cfg V) (c : Nat × V) (s : St V) : Res (St V) :=
  match s.bd c.1 with
  | .none => .panic
  | .plain => match C.add (C.zero c.1) c.2 with
    | none => .err
    | some _ => .ok s
  | .dual d => match C.add d c.2 with
    | none => .err
    | some d => .ok (if C.tens c.1 then { s with bd := upd s.bd c.1 (.dual d) } else s)

def closeAll (C : Cfg V) : List (Nat × V) → St V → Res (St V)
  | [], s => .ok s
  | c :: cs, s => (close C c s).bind (closeAll C cs)

/-- A whole run: the operations, then the closures (vm_tape.go 236-246). The queue is not emptied. -/
def runDV (C : Cfg V) (L : List (Nat × V)) (s : St V) : Res (St V) :=
  (runG C L s).bind fun s => closeAll C s.queue s

/-! ### What is delivered -/

/-- The values that belong to `src`: the results of the nodes labelled as its derivative, in order, as often as they are
labelled. -/
def shares (gn : Nat → GN) (src : Nat) (L : List (Nat × V)) : List V :=
  L.flatMap fun e => List.replicate ((gn e.1).derivOf.count src) e.2

/-- The derivative a bound node has: zero for a plain value. -/
def Bd.deriv (z : V) : Bd V → Option V
  | .none => Option.none
  | .plain => some z
  | .dual d => some d

/-- Sum of a list of values on top of a value, in order. -/
def total (add : V → V → Option V) : V → List V → Option V
  | d, [] => some d
  | d, v :: vs => (add d v).bind fun d => total add d vs

theorem total_append (add : V → V → Option V) (d : V) (a b : List V) :
    total add d (a ++ b) = (total add d a).bind fun d => total add d b := by
  induction a generalizing d with
  | nil => rfl
  | cons v vs ih =>
    simp only [List.cons_append, total]
    cases add d v with
    | none => rfl
    | some d => exact ih d

/-- Induction step shared by the theorems: what one node's loop does to `src`. -/
theorem deliver_spec (C : Cfg V) (g : GN) (hg : g.iop = false) (v : V) (src : Nat) (hw : C.wants src = true)
    (l : List Nat) (s s' : St V) (h : deliver C g v l s = .ok s') :
    s'.queue = s.queue ∧
    (∀ d, (s.bd src).deriv (C.zero src) = some d →
      (s'.bd src).deriv (C.zero src) = total C.add d (List.replicate (l.count src) v)) ∧
    (src ∉ l → s'.bd src = s.bd src) ∧
    (src ∈ l → s.bd src ≠ .none ∧ ∃ d, s'.bd src = .dual d) := by
  induction l generalizing s with
  | nil =>
    simp only [deliver] at h
    cases h
    exact ⟨rfl, fun d hd => by simpa [total] using hd, fun _ => rfl, fun h => by simp at h⟩
  | cons x rest ih =>
    simp only [deliver, hg, Bool.false_eq_true, ↓reduceIte] at h
    by_cases hx : C.wants x = true
    · rw [if_pos hx] at h
      by_cases e : x = src
      · subst e
        -- the addition to `src` itself
        have key : ∃ d0 d1, (s.bd x).deriv (C.zero x) = some d0 ∧ C.add d0 v = some d1 ∧
            addTo C v x s = .ok { s with bd := upd s.bd x (.dual d1) } := by
          cases hb : s.bd x with
          | none => simp [addTo, hb, Res.bind] at h
          | plain =>
            cases ha : C.add (C.zero x) v with
            | none => simp [addTo, hb, ha, Res.bind] at h
            | some d => exact ⟨_, d, rfl, ha, by simp [addTo, hb, ha]⟩
          | dual d0 =>
            cases ha : C.add d0 v with
            | none => simp [addTo, hb, ha, Res.bind] at h
            | some d => exact ⟨_, d, rfl, ha, by simp [addTo, hb, ha]⟩
        obtain ⟨d0, d1, h0, h1, h2⟩ := key
        rw [h2] at h
        simp only [Res.bind] at h
        obtain ⟨q, t, n, p⟩ := ih _ h
        refine ⟨q, ?_, fun hn => absurd (List.mem_cons_self) hn, fun _ => ⟨?_, ?_⟩⟩
        · intro d hd
          rw [h0] at hd; cases hd
          rw [t d1 (by simp [upd_same, Bd.deriv])]
          simp [List.count_cons, List.replicate_succ, total, h1]
        · intro hb; rw [hb] at h0; simp [Bd.deriv] at h0
        · by_cases hm : x ∈ rest
          · exact (p hm).2
          · rw [n hm]; exact ⟨d1, by simp [upd_same]⟩
      · have key : ∃ d1, addTo C v x s = .ok { s with bd := upd s.bd x (.dual d1) } := by
          cases hb : s.bd x with
          | none => simp [addTo, hb, Res.bind] at h
          | plain =>
            cases ha : C.add (C.zero x) v with
            | none => simp [addTo, hb, ha, Res.bind] at h
            | some d => exact ⟨d, by simp [addTo, hb, ha]⟩
          | dual d0 =>
            cases ha : C.add d0 v with
            | none => simp [addTo, hb, ha, Res.bind] at h
            | some d => exact ⟨d, by simp [addTo, hb, ha]⟩
        obtain ⟨d1, h2⟩ := key
        rw [h2] at h
        simp only [Res.bind] at h
        obtain ⟨q, t, n, p⟩ := ih _ h
        have hsame : upd s.bd x (.dual d1) src = s.bd src := upd_ne _ _ _ _ (fun h => e h.symm)
        simp only [hsame] at t n p
        refine ⟨q, ?_, ?_, ?_⟩
        · intro d hd
          rw [t d hd, List.count_cons_of_ne (by simpa using e)]
        · intro hn; exact n (fun hm => hn (List.mem_cons_of_mem _ hm))
        · intro hm
          rcases List.mem_cons.1 hm with h' | h'
          · exact absurd h'.symm e
          · exact p h'
    · rw [if_neg hx] at h
      have e : x ≠ src := fun h' => hx (h' ▸ hw)
      obtain ⟨q, t, n, p⟩ := ih _ h
      refine ⟨q, ?_, ?_, ?_⟩
      · intro d hd
        rw [t d hd, List.count_cons_of_ne (by simpa using e)]
      · intro hn; exact n (fun hm => hn (List.mem_cons_of_mem _ hm))
      · intro hm
        rcases List.mem_cons.1 hm with h' | h'
        · exact absurd h'.symm e
        · exact p h'

theorem bindPlain_deriv (z : V) (b : Bd V) (d : V) (h : b.deriv z = some d) : (bindPlain b).deriv z = some d := by
  cases b with
  | none => simp [Bd.deriv] at h
  | plain => exact h
  | dual _ => exact h

theorem runG_spec (C : Cfg V) (L : List (Nat × V)) (hi : ∀ e ∈ L, (C.gn e.1).iop = false) (s s' : St V)
    (h : runG C L s = .ok s') (src : Nat) (hw : C.wants src = true) :
    s'.queue = s.queue ∧
    (∀ d, (s.bd src).deriv (C.zero src) = some d →
      (s'.bd src).deriv (C.zero src) = total C.add d (shares C.gn src L)) ∧
    (shares C.gn src L ≠ [] → ∃ d, s'.bd src = .dual d) := by
  induction L generalizing s with
  | nil =>
    simp only [runG] at h; cases h
    exact ⟨rfl, fun d hd => by simpa [shares, total] using hd, fun h => by simp [shares] at h⟩
  | cons e L ih =>
    obtain ⟨i, v⟩ := e
    simp only [runG] at h
    cases he : execG C i v s with
    | err => rw [he] at h; simp [Res.bind] at h
    | panic => rw [he] at h; simp [Res.bind] at h
    | ok s1 =>
      rw [he] at h
      simp only [Res.bind] at h
      obtain ⟨q1, t1, n1, p1⟩ := deliver_spec C (C.gn i) (hi (i, v) (by simp)) v src hw _ _ _ he
      obtain ⟨q2, t2, p2⟩ := ih (fun e he => hi e (by simp [he])) s1 h
      refine ⟨by rw [q2, q1], ?_, ?_⟩
      · intro d hd
        have h0 : (upd s.bd i (bindPlain (s.bd i)) src).deriv (C.zero src) = some d := by
          by_cases e : src = i
          · subst e; rw [upd_same]; exact bindPlain_deriv _ _ _ hd
          · rw [upd_ne _ _ _ _ e]; exact hd
        have h1 := t1 d h0
        have hs : shares C.gn src ((i, v) :: L) =
            List.replicate ((C.gn i).derivOf.count src) v ++ shares C.gn src L := by simp [shares]
        rw [hs, total_append]
        cases ht : total C.add d (List.replicate ((C.gn i).derivOf.count src) v) with
        | some d' => rw [ht] at h1; simpa using t2 d' h1
        | none =>
          rw [ht] at h1
          exfalso
          by_cases hm : src ∈ (C.gn i).derivOf
          · obtain ⟨d', hd'⟩ := (p1 hm).2
            rw [hd'] at h1; simp [Bd.deriv] at h1
          · rw [n1 hm] at h1; rw [h0] at h1; cases h1
      · intro hne
        by_cases hr : shares C.gn src L = []
        · have hm : src ∈ (C.gn i).derivOf := by
            by_contra hm
            apply hne
            simp only [shares] at hr
            simp [shares, List.count_eq_zero_of_not_mem hm, hr]
          obtain ⟨d1, hd1⟩ := (p1 hm).2
          have := t2 d1 (by rw [hd1]; rfl)
          rw [hr] at this
          -- the node is dual and stays dual
          clear t1 n1 p1 he ih
          have stay : ∀ (L : List (Nat × V)) (a b : St V), (∀ e ∈ L, (C.gn e.1).iop = false) → runG C L a = .ok b →
              (∃ d, a.bd src = .dual d) → ∃ d, b.bd src = .dual d := by
            intro L
            induction L with
            | nil => intro a b _ hab ha; simp only [runG] at hab; cases hab; exact ha
            | cons e L ih =>
              intro a b hL hab ha
              obtain ⟨j, u⟩ := e
              simp only [runG] at hab
              cases hj : execG C j u a with
              | err => rw [hj] at hab; simp [Res.bind] at hab
              | panic => rw [hj] at hab; simp [Res.bind] at hab
              | ok a1 =>
                rw [hj] at hab
                refine ih a1 b (fun e he => hL e (by simp [he])) hab ?_
                obtain ⟨_, _, n, p⟩ := deliver_spec C (C.gn j) (hL (j, u) (by simp)) u src hw _ _ _ hj
                by_cases hm : src ∈ (C.gn j).derivOf
                · exact (p hm).2
                · rw [n hm]
                  obtain ⟨d, hd⟩ := ha
                  by_cases e : src = j
                  · subst e; exact ⟨d, by simp [upd_same, hd, bindPlain]⟩
                  · exact ⟨d, by simp only; rw [upd_ne _ _ _ _ e]; exact hd⟩
          exact stay L s1 s' (fun e he => hi e (by simp [he])) h ⟨d1, hd1⟩
        · exact p2 hr

theorem closeAll_nil (C : Cfg V) (s : St V) : closeAll C [] s = .ok s := rfl

/-- **C92 (what a run delivers), partial.** After a run that succeeds, without `Iop` gradients, every wanted node that
was bound before has as derivative the one it had (zero for a plain value) plus the results of the nodes labelled as its
derivative, each as often as it is labelled, in the order of execution, and nothing else; and it is bound to a dual
value if there was such a node. Missing: with `Iop` gradients it is false (`iop_goes_astray`). -/
theorem delivered_partial (C : Cfg V) (L : List (Nat × V)) (hi : ∀ e ∈ L, (C.gn e.1).iop = false) (s s' : St V)
    (hq : s.queue = []) (h : runDV C L s = .ok s') (src : Nat)
    (hwant : C.only = [] ∨ src ∈ C.only) (d : V)
    (hd : (s.bd src).deriv (C.zero src) = some d) :
    (s'.bd src).deriv (C.zero src) = total C.add d (shares C.gn src L) ∧
    (shares C.gn src L ≠ [] → ∃ d', s'.bd src = .dual d') ∧ s'.queue = [] := by
  have hw : C.wants src = true := (C.wants_iff src).2 hwant
  unfold runDV at h
  cases hr : runG C L s with
  | err => rw [hr] at h; simp [Res.bind] at h
  | panic => rw [hr] at h; simp [Res.bind] at h
  | ok s1 =>
    rw [hr] at h
    obtain ⟨q, t, p⟩ := runG_spec C L hi s s1 hr src hw
    simp only [Res.bind, q, hq, closeAll] at h
    cases h
    exact ⟨t d hd, p, by rw [q, hq]⟩

theorem deliver_unwanted (C : Cfg V) (g : GN) (hg : g.iop = false) (v : V) (x : Nat) (hw : C.wants x = false)
    (l : List Nat) (s s' : St V) (h : deliver C g v l s = .ok s') : s'.bd x = s.bd x := by
  induction l generalizing s with
  | nil => simp only [deliver] at h; cases h; rfl
  | cons y l ih =>
    simp only [deliver, hg, Bool.false_eq_true, ↓reduceIte] at h
    by_cases hy : C.wants y = true
    · rw [if_pos hy] at h
      have e : x ≠ y := by rintro rfl; rw [hw] at hy; cases hy
      cases ha : addTo C v y s with
      | err => rw [ha] at h; cases h
      | panic => rw [ha] at h; cases h
      | ok s1 =>
        rw [ha] at h
        rw [ih s1 h]
        unfold addTo at ha
        split at ha
        · cases ha
        · split at ha
          · cases ha
          · cases ha; exact upd_ne _ _ _ _ e
        · split at ha
          · cases ha
          · cases ha; exact upd_ne _ _ _ _ e
    · rw [if_neg hy] at h
      exact ih s h

/-- **C92 (nodes not asked for).** If `BindDualValues` got a list, a run (without `Iop` gradients) leaves the derivative
of a node that is not in the list as it was, and gives it none if it had none. -/
theorem not_asked_for (C : Cfg V) (L : List (Nat × V)) (hi : ∀ e ∈ L, (C.gn e.1).iop = false) (s s' : St V)
    (hq : s.queue = []) (h : runDV C L s = .ok s') (x : Nat) (hne : C.only ≠ []) (hx : x ∉ C.only) :
    ∀ d, s'.bd x = .dual d ↔ s.bd x = .dual d := by
  have hw : C.wants x = false := by
    rw [Bool.eq_false_iff]
    intro h
    rcases (C.wants_iff x).1 h with h | h
    · exact hne h
    · exact hx h
  have key : ∀ (L : List (Nat × V)) (s s' : St V), (∀ e ∈ L, (C.gn e.1).iop = false) → runG C L s = .ok s' →
      s'.queue = s.queue ∧ ∀ d, s'.bd x = .dual d ↔ s.bd x = .dual d := by
    intro L
    induction L with
    | nil => intro s s' _ h; simp only [runG] at h; cases h; exact ⟨rfl, fun _ => Iff.rfl⟩
    | cons e L ih =>
      intro s s' hi h
      obtain ⟨i, v⟩ := e
      simp only [runG] at h
      cases he : execG C i v s with
      | err => rw [he] at h; cases h
      | panic => rw [he] at h; cases h
      | ok s1 =>
        rw [he] at h
        obtain ⟨q, p⟩ := ih s1 s' (fun e he => hi e (by simp [he])) h
        have hiv := hi (i, v) (by simp)
        have hbd := deliver_unwanted C (C.gn i) hiv v x hw _ _ _ he
        have hqq : s1.queue = s.queue := by
          have aux : ∀ (l : List Nat) (a b : St V), deliver C (C.gn i) v l a = .ok b → b.queue = a.queue := by
            intro l
            induction l with
            | nil => intro a b hab; simp only [deliver] at hab; cases hab; rfl
            | cons y l ih =>
              intro a b hab
              simp only [deliver, hiv, Bool.false_eq_true, ↓reduceIte] at hab
              split at hab
              · cases ha : addTo C v y a with
                | err => rw [ha] at hab; cases hab
                | panic => rw [ha] at hab; cases hab
                | ok a1 =>
                  rw [ha] at hab
                  rw [ih a1 b hab]
                  unfold addTo at ha
                  split at ha
                  · cases ha
                  · split at ha
                    · cases ha
                    · cases ha; rfl
                  · split at ha
                    · cases ha
                    · cases ha; rfl
              · exact ih a b hab
          exact aux _ { s with bd := upd s.bd i (bindPlain (s.bd i)) } _ he
        refine ⟨q.trans hqq, fun d => ?_⟩
        rw [p, hbd]
        by_cases e : x = i
        · subst e
          simp only [upd_same]
          cases s.bd x <;> simp [bindPlain]
        · simp only
          rw [upd_ne _ _ _ _ e]
  unfold runDV at h
  cases hr : runG C L s with
  | err => rw [hr] at h; cases h
  | panic => rw [hr] at h; cases h
  | ok s1 =>
    rw [hr] at h
    obtain ⟨q, p⟩ := key L s s1 hi hr
    simp only [Res.bind, q, hq, closeAll] at h
    cases h
    exact p

/-! ### When a run panics -/

/-- A wanted derivative reaches its node only after the node was bound. -/
def InOrder (C : Cfg V) (bound : Nat → Prop) : List (Nat × V) → Prop
  | [] => True
  | (i, _) :: L => (∀ src ∈ (C.gn i).derivOf, C.only = [] ∨ src ∈ C.only → src = i ∨ bound src) ∧
      InOrder C (fun x => x = i ∨ bound x) L

theorem deliver_ok (C : Cfg V) (htot : ∀ a b, C.add a b ≠ none) (g : GN) (hg : g.iop = false) (v : V) (l : List Nat)
    (s : St V) :
    (∀ s', deliver C g v l s = .ok s' → (∀ x ∈ l, C.wants x = true → s.bd x ≠ .none) ∧
      ∀ x, s'.bd x = .none ↔ s.bd x = .none) ∧
    ((∀ x ∈ l, C.wants x = true → s.bd x ≠ .none) → ∃ s', deliver C g v l s = .ok s') ∧
    ((∃ x ∈ l, C.wants x = true ∧ s.bd x = .none) → deliver C g v l s = .panic) := by
  induction l generalizing s with
  | nil => exact ⟨fun s' h => by simp only [deliver] at h; cases h; simp, fun _ => ⟨s, rfl⟩, fun ⟨x, h, _⟩ => by simp at h⟩
  | cons x rest ih =>
    simp only [deliver, hg, Bool.false_eq_true, ↓reduceIte]
    by_cases hx : C.wants x = true
    · rw [if_pos hx]
      have key : s.bd x ≠ .none → ∃ d1, addTo C v x s = .ok { s with bd := upd s.bd x (.dual d1) } := by
        intro hb
        cases hb' : s.bd x with
        | none => exact absurd hb' hb
        | plain =>
          cases ha : C.add (C.zero x) v with
          | none => exact absurd ha (htot _ _)
          | some d => exact ⟨d, by simp [addTo, hb', ha]⟩
        | dual d0 =>
          cases ha : C.add d0 v with
          | none => exact absurd ha (htot _ _)
          | some d => exact ⟨d, by simp [addTo, hb', ha]⟩
      by_cases hb : s.bd x = .none
      · have hp : addTo C v x s = .panic := by simp [addTo, hb]
        rw [hp]
        refine ⟨fun s' h => by simp [Res.bind] at h, fun h => absurd hb (h x (by simp) hx), fun _ => rfl⟩
      · obtain ⟨d1, h1⟩ := key hb
        rw [h1]
        simp only [Res.bind]
        have hiff : ∀ y, upd s.bd x (.dual d1) y = .none ↔ s.bd y = .none := by
          intro y
          by_cases e : y = x
          · subst e; rw [upd_same]; simp [hb]
          · rw [upd_ne _ _ _ _ e]
        obtain ⟨i1, i2, i3⟩ := ih { s with bd := upd s.bd x (.dual d1) }
        simp only [hiff, ne_eq] at i1 i2 i3
        refine ⟨fun s' h => ?_, fun h => i2 (fun y hy hwy => h y (by simp [hy]) hwy), fun ⟨y, hy, hwy, hby⟩ => ?_⟩
        · obtain ⟨a, b⟩ := i1 s' h
          refine ⟨fun y hy hwy => ?_, b⟩
          rcases List.mem_cons.1 hy with rfl | hy
          · exact hb
          · exact a y hy hwy
        · rcases List.mem_cons.1 hy with rfl | hy
          · exact absurd hby hb
          · exact i3 ⟨y, hy, hwy, hby⟩
    · rw [if_neg hx]
      obtain ⟨i1, i2, i3⟩ := ih s
      refine ⟨fun s' h => ?_, fun h => i2 (fun y hy hwy => h y (by simp [hy]) hwy), fun ⟨y, hy, hwy, hby⟩ => ?_⟩
      · obtain ⟨a, b⟩ := i1 s' h
        refine ⟨fun y hy hwy => ?_, b⟩
        rcases List.mem_cons.1 hy with rfl | hy
        · exact absurd hwy hx
        · exact a y hy hwy
      · rcases List.mem_cons.1 hy with rfl | hy
        · exact absurd hwy hx
        · exact i3 ⟨y, hy, hwy, hby⟩

theorem runG_iff (C : Cfg V) (htot : ∀ a b, C.add a b ≠ none) (L : List (Nat × V))
    (hi : ∀ e ∈ L, (C.gn e.1).iop = false) (bound : Nat → Prop) (s : St V) (hb : ∀ x, s.bd x ≠ .none ↔ bound x) :
    (InOrder C bound L → ∃ s', runG C L s = .ok s') ∧ (¬ InOrder C bound L → runG C L s = .panic) := by
  induction L generalizing s bound with
  | nil => exact ⟨fun _ => ⟨s, rfl⟩, fun h => absurd trivial h⟩
  | cons e L ih =>
    obtain ⟨i, v⟩ := e
    have hb1 : ∀ x, upd s.bd i (bindPlain (s.bd i)) x ≠ .none ↔ (x = i ∨ bound x) := by
      intro x
      by_cases e : x = i
      · subst e; rw [upd_same]; cases s.bd x <;> simp [bindPlain]
      · rw [upd_ne _ _ _ _ e, hb x]; simp [e]
    obtain ⟨d1, d2, d3⟩ := deliver_ok C htot (C.gn i) (hi (i, v) (by simp)) v (C.gn i).derivOf
      { s with bd := upd s.bd i (bindPlain (s.bd i)) }
    simp only at d1 d2 d3
    simp only [InOrder, runG, execG, ← C.wants_iff]
    by_cases hin : ∀ src ∈ (C.gn i).derivOf, C.wants src = true → src = i ∨ bound src
    · obtain ⟨s1, h1⟩ := d2 (fun x hx hwx => (hb1 x).2 (hin x hx hwx))
      rw [h1]
      simp only [Res.bind]
      have hs1 : ∀ x, s1.bd x ≠ .none ↔ (x = i ∨ bound x) := fun x => by rw [← hb1 x]; simp [(d1 s1 h1).2 x]
      obtain ⟨r1, r2⟩ := ih (fun e he => hi e (by simp [he])) (fun x => x = i ∨ bound x) s1 hs1
      exact ⟨fun h => r1 h.2, fun h => r2 (fun h' => h ⟨hin, h'⟩)⟩
    · refine ⟨fun h => absurd h.1 hin, fun _ => ?_⟩
      have : ∃ x ∈ (C.gn i).derivOf, C.wants x = true ∧ upd s.bd i (bindPlain (s.bd i)) x = .none := by
        push Not at hin
        obtain ⟨x, hx, hwx, h1, h2⟩ := hin
        refine ⟨x, hx, hwx, ?_⟩
        by_contra hne
        have := (hb1 x).1 hne
        simp [h1, h2] at this
      rw [d3 this]; rfl

/-- **C92 (when a run panics).** If values can always be added and no gradient is an `Iop`, a run succeeds exactly if
every wanted derivative is computed after the node it belongs to was bound (before the run, or by the run), and panics
otherwise. -/
theorem run_ok_iff (C : Cfg V) (htot : ∀ a b, C.add a b ≠ none) (L : List (Nat × V))
    (hi : ∀ e ∈ L, (C.gn e.1).iop = false) (s : St V) (hq : s.queue = []) :
    ((∃ s', runDV C L s = .ok s') ↔ InOrder C (fun x => s.bd x ≠ .none) L) ∧
    (¬ InOrder C (fun x => s.bd x ≠ .none) L → runDV C L s = .panic) := by
  obtain ⟨h1, h2⟩ := runG_iff C htot L hi _ s (fun _ => Iff.rfl)
  unfold runDV
  constructor
  · constructor
    · rintro ⟨s', h⟩
      by_contra hn
      rw [h2 hn] at h; simp [Res.bind] at h
    · intro h
      obtain ⟨s1, hs1⟩ := h1 h
      rw [hs1]
      have hq1 : ∀ (L : List (Nat × V)) (a b : St V), (∀ e ∈ L, (C.gn e.1).iop = false) → runG C L a = .ok b →
          b.queue = a.queue := by
        intro L
        induction L with
        | nil => intro a b _ hab; simp only [runG] at hab; cases hab; rfl
        | cons e L ih =>
          intro a b hL hab
          obtain ⟨j, u⟩ := e
          simp only [runG] at hab
          cases hj : execG C j u a with
          | err => rw [hj] at hab; simp [Res.bind] at hab
          | panic => rw [hj] at hab; simp [Res.bind] at hab
          | ok a1 =>
            rw [hj] at hab
            rw [ih a1 b (fun e he => hL e (by simp [he])) hab]
            have aux : ∀ (l : List Nat) (x y : St V), deliver C (C.gn j) u l x = .ok y → y.queue = x.queue := by
              intro l
              induction l with
              | nil => intro x y hxy; simp only [deliver] at hxy; cases hxy; rfl
              | cons z l ih =>
                intro x y hxy
                simp only [deliver, hL (j, u) (by simp), Bool.false_eq_true, ↓reduceIte] at hxy
                split at hxy
                · cases hz : addTo C u z x with
                  | err => rw [hz] at hxy; simp [Res.bind] at hxy
                  | panic => rw [hz] at hxy; simp [Res.bind] at hxy
                  | ok x1 =>
                    rw [hz] at hxy
                    rw [ih x1 y hxy]
                    unfold addTo at hz
                    split at hz
                    · cases hz
                    · split at hz
                      · cases hz
                      · cases hz; rfl
                    · split at hz
                      · cases hz
                      · cases hz; rfl
                · exact ih x y hxy
            exact aux (C.gn j).derivOf { a with bd := upd a.bd j (bindPlain (a.bd j)) } a1 hj
      simp only [Res.bind, hq1 L s s1 hi hs1, hq, closeAll]
      exact ⟨s1, rfl⟩
  · intro h
    rw [h2 h]; rfl

theorem deliver_ok_of (C : Cfg V) (g : GN) (hg : g.iop = false) (v : V) (l : List Nat) (s : St V)
    (h : ∀ x ∈ l, C.wants x = true → ∃ d, (s.bd x).deriv (C.zero x) = some d ∧
      total C.add d (List.replicate (l.count x) v) ≠ none) : ∃ s', deliver C g v l s = .ok s' := by
  induction l generalizing s with
  | nil => exact ⟨s, rfl⟩
  | cons x rest ih =>
    simp only [deliver, hg, Bool.false_eq_true, ↓reduceIte]
    by_cases hx : C.wants x = true
    · rw [if_pos hx]
      obtain ⟨d, hd, ht⟩ := h x (by simp) hx
      rw [List.count_cons_self, List.replicate_succ] at ht
      simp only [total] at ht
      cases ha : C.add d v with
      | none => rw [ha] at ht; simp at ht
      | some d1 =>
        rw [ha] at ht
        simp only [Option.bind_some] at ht
        have hadd : addTo C v x s = .ok { s with bd := upd s.bd x (.dual d1) } := by
          cases hb : s.bd x with
          | none => rw [hb] at hd; simp [Bd.deriv] at hd
          | plain => rw [hb] at hd; simp only [Bd.deriv, Option.some.injEq] at hd; subst hd; simp [addTo, hb, ha]
          | dual d0 => rw [hb] at hd; simp only [Bd.deriv, Option.some.injEq] at hd; subst hd; simp [addTo, hb, ha]
        rw [hadd]
        simp only [Res.bind]
        apply ih
        intro y hy hwy
        by_cases e : y = x
        · subst e
          exact ⟨d1, by simp [upd_same, Bd.deriv], ht⟩
        · obtain ⟨d', hd', ht'⟩ := h y (by simp [hy]) hwy
          refine ⟨d', by simp only; rw [upd_ne _ _ _ _ e]; exact hd', ?_⟩
          rwa [List.count_cons_of_ne (by simpa using fun h => e h.symm)] at ht'
    · rw [if_neg hx]
      apply ih
      intro y hy hwy
      have e : x ≠ y := fun h => hx (h ▸ hwy)
      obtain ⟨d', hd', ht'⟩ := h y (by simp [hy]) hwy
      rw [List.count_cons_of_ne (by simpa using e)] at ht'
      exact ⟨d', hd', ht'⟩

theorem runG_ok_of (C : Cfg V) (L : List (Nat × V)) (hi : ∀ e ∈ L, (C.gn e.1).iop = false) (s : St V)
    (h : ∀ x, C.wants x = true → ∃ d, (s.bd x).deriv (C.zero x) = some d ∧ total C.add d (shares C.gn x L) ≠ none) :
    ∃ s', runG C L s = .ok s' ∧ s'.queue = s.queue := by
  induction L generalizing s with
  | nil => exact ⟨s, rfl, rfl⟩
  | cons e L ih =>
    obtain ⟨i, v⟩ := e
    have hs : ∀ x, shares C.gn x ((i, v) :: L) = List.replicate ((C.gn i).derivOf.count x) v ++ shares C.gn x L :=
      fun x => by simp [shares]
    have h0 : ∀ x, C.wants x = true → ∃ d, (upd s.bd i (bindPlain (s.bd i)) x).deriv (C.zero x) = some d ∧
        total C.add d (List.replicate ((C.gn i).derivOf.count x) v ++ shares C.gn x L) ≠ none := by
      intro x hx
      obtain ⟨d, hd, ht⟩ := h x hx
      rw [hs] at ht
      refine ⟨d, ?_, ht⟩
      by_cases e : x = i
      · subst e; rw [upd_same]; exact bindPlain_deriv _ _ _ hd
      · rw [upd_ne _ _ _ _ e]; exact hd
    have hno : (C.gn i).iop = false := hi (i, v) (by simp)
    obtain ⟨s1, h1⟩ := deliver_ok_of C (C.gn i) hno v (C.gn i).derivOf
      { s with bd := upd s.bd i (bindPlain (s.bd i)) } (by
        intro x _ hx
        obtain ⟨d, hd, ht⟩ := h0 x hx
        refine ⟨d, hd, fun hn => ht ?_⟩
        rw [total_append, hn]; rfl)
    have hq1 : s1.queue = s.queue := by
      have aux : ∀ (l : List Nat) (x y : St V), deliver C (C.gn i) v l x = .ok y → y.queue = x.queue := by
        intro l
        induction l with
        | nil => intro x y hxy; simp only [deliver] at hxy; cases hxy; rfl
        | cons z l ih =>
          intro x y hxy
          simp only [deliver, hno, Bool.false_eq_true, ↓reduceIte] at hxy
          split at hxy
          · cases hz : addTo C v z x with
            | err => rw [hz] at hxy; simp [Res.bind] at hxy
            | panic => rw [hz] at hxy; simp [Res.bind] at hxy
            | ok x1 =>
              rw [hz] at hxy
              rw [ih x1 y hxy]
              unfold addTo at hz
              split at hz
              · cases hz
              · split at hz
                · cases hz
                · cases hz; rfl
              · split at hz
                · cases hz
                · cases hz; rfl
          · exact ih x y hxy
      exact aux (C.gn i).derivOf { s with bd := upd s.bd i (bindPlain (s.bd i)) } s1 h1
    obtain ⟨s2, h2, hq2⟩ := ih (fun e he => hi e (by simp [he])) s1 (by
      intro x hx
      obtain ⟨d, hd, ht⟩ := h0 x hx
      obtain ⟨-, t, -, -⟩ := deliver_spec C (C.gn i) hno v x hx _ _ _ h1
      have := t d hd
      cases ht' : total C.add d (List.replicate ((C.gn i).derivOf.count x) v) with
      | none => rw [total_append, ht'] at ht; simp at ht
      | some d' =>
        rw [ht'] at this
        refine ⟨d', this, ?_⟩
        rwa [total_append, ht'] at ht)
    refine ⟨s2, ?_, by rw [hq2, hq1]⟩
    simp only [runG, execG, h1, Res.bind]
    exact h2

/-- A run succeeds if every wanted node is bound before it and its derivatives can be added up. -/
theorem run_ok_of (C : Cfg V) (L : List (Nat × V)) (hi : ∀ e ∈ L, (C.gn e.1).iop = false) (s : St V) (hq : s.queue = [])
    (h : ∀ x, C.wants x = true → ∃ d, (s.bd x).deriv (C.zero x) = some d ∧ total C.add d (shares C.gn x L) ≠ none) :
    ∃ s', runDV C L s = .ok s' := by
  obtain ⟨s1, h1, hq1⟩ := runG_ok_of C L hi s h
  refine ⟨s1, ?_⟩
  unfold runDV
  rw [h1]
  simp only [Res.bind, hq1, hq, closeAll]

/-! ### Running again -/

/-- Runs one after the other. -/
def runsDV (C : Cfg V) : List (List (Nat × V)) → St V → Res (St V)
  | [], s => .ok s
  | L :: Ls, s => (runDV C L s).bind (runsDV C Ls)

/-- **C92 (derivatives pile up).** Over several runs the derivatives add up: nothing between runs (`Reset` does not)
clears them, so after `k` runs a node has the sum over all runs. -/
theorem runs_pile_up (C : Cfg V) (Ls : List (List (Nat × V))) (hi : ∀ L ∈ Ls, ∀ e ∈ L, (C.gn e.1).iop = false)
    (s s' : St V) (hq : s.queue = []) (h : runsDV C Ls s = .ok s') (src : Nat) (hw : C.only = [] ∨ src ∈ C.only) (d : V)
    (hd : (s.bd src).deriv (C.zero src) = some d) :
    (s'.bd src).deriv (C.zero src) = total C.add d (Ls.flatMap (shares C.gn src)) := by
  induction Ls generalizing s d with
  | nil => simp only [runsDV] at h; cases h; simpa [total] using hd
  | cons L Ls ih =>
    simp only [runsDV] at h
    cases hr : runDV C L s with
    | err => rw [hr] at h; simp [Res.bind] at h
    | panic => rw [hr] at h; simp [Res.bind] at h
    | ok s1 =>
      rw [hr] at h
      obtain ⟨t, p, q⟩ := delivered_partial C L (hi L (by simp)) s s1 hq hr src hw d hd
      rw [List.flatMap_cons, total_append]
      cases ht : total C.add d (shares C.gn src L) with
      | some d' =>
        rw [ht] at t
        exact ih (fun L hL => hi L (by simp [hL])) s1 q h d' t
      | none =>
        exfalso
        rw [ht] at t
        by_cases hs : shares C.gn src L = []
        · rw [hs] at ht; simp [total] at ht
        · obtain ⟨d', hd'⟩ := p hs
          rw [hd'] at t; simp [Bd.deriv] at t

theorem total_sum {M : Type} [AddCommMonoid M] (d : M) (vs : List M) :
    total (fun a b => some (a + b)) d vs = some (d + vs.sum) := by
  induction vs generalizing d with
  | nil => simp [total]
  | cons v vs ih => simp only [total, Option.bind_some, ih, List.sum_cons, add_assoc]

/-- **C92, refuted.** A run repeated on the same inputs does not give the same gradients: if the derivative of a node is
computed once per run, with value `g`, the `k`-th of `k` equal runs on a new machine leaves it at `k` times `g`. -/
theorem rerun_multiplies {M : Type} [AddCommMonoid M] (C : Cfg M) (hadd : C.add = fun a b => some (a + b))
    (hz : ∀ i, C.zero i = 0) (L : List (Nat × M)) (hi : ∀ e ∈ L, (C.gn e.1).iop = false) (s s' : St M)
    (hq : s.queue = []) (k : Nat) (h : runsDV C (List.replicate k L) s = .ok s') (src : Nat) (hw : C.only = [] ∨ src ∈ C.only)
    (hb : s.bd src = .plain) (g : M) (hg : shares C.gn src L = [g]) :
    (s'.bd src).deriv 0 = some (k • g) := by
  have := runs_pile_up C (List.replicate k L) (fun L' hL' => by rw [List.eq_of_mem_replicate hL']; exact hi) s s' hq h
    src hw 0 (by rw [hb, hz]; rfl)
  rw [hz, hadd, total_sum, zero_add] at this
  rw [this]
  congr 1
  clear this h
  induction k with
  | zero => simp
  | succ k ih => rw [List.replicate_succ, List.flatMap_cons, hg, List.singleton_append, List.sum_cons, ih, succ_nsmul']

/-! ### Examples and defects -/

/-- Integers, all nodes tensors. -/
def intCfg (gn : Nat → GN) (only : List Nat) (tens : Bool) : Cfg Int :=
  { gn := gn, only := only, add := fun a b => some (a + b), zero := fun _ => 0, tens := fun _ => tens }

/-- `c = w · x` with inputs `w` (0), `x` (1); `c` is node 2, the constant one, derivative of `c`, is node 3; nodes 4 and
5 are the derivatives of `w` and `x`. -/
def prodLabels : Nat → GN
  | 3 => { derivOf := [2] }
  | 4 => { derivOf := [0] }
  | 5 => { derivOf := [1] }
  | _ => {}

def inputs01 : St Int := { bd := fun i => if i < 2 then .plain else .none }

/-- With `w = 3`, `x = 5` the weights get `5` and `3`; a second run doubles them. -/
example : ∃ s, runDV (intCfg prodLabels [] true) [(2, 15), (3, 1), (4, 5), (5, 3)] inputs01 = .ok s ∧
    s.bd 0 = .dual 5 ∧ s.bd 1 = .dual 3 ∧ s.bd 2 = .dual 1 := ⟨_, rfl, rfl, rfl, rfl⟩

example : ∃ s, runsDV (intCfg prodLabels [] true) [[(2, 15), (3, 1), (4, 5), (5, 3)], [(2, 15), (3, 1), (4, 5), (5, 3)]]
    inputs01 = .ok s ∧ s.bd 0 = .dual 10 ∧ s.bd 1 = .dual 6 := ⟨_, rfl, rfl, rfl⟩

/-- With a filter only the listed nodes get a dual value. -/
example : ∃ s, runDV (intCfg prodLabels [0] true) [(3, 1), (2, 15), (4, 5), (5, 3)] inputs01 = .ok s ∧
    s.bd 0 = .dual 5 ∧ s.bd 1 = .plain ∧ s.bd 2 = .plain := ⟨_, rfl, rfl, rfl, rfl⟩

/-- **C92, refuted (a constant that comes early).** Without a filter, if the constant one is executed before the cost
(it has no operands; the comment at vm_tape_nocuda.go 134-143 describes this), the run panics, although the same program
in another order runs. -/
theorem constant_first_panics :
    runDV (intCfg prodLabels [] true) [(3, 1), (2, 15), (4, 5), (5, 3)] inputs01 = .panic ∧
    ∃ s, runDV (intCfg prodLabels [] true) [(2, 15), (3, 1), (4, 5), (5, 3)] inputs01 = .ok s := ⟨rfl, _, rfl⟩

/-- Node 2 is an `Iop` labelled as derivative of both inputs (as in example_iop_test.go 64, where the op's `SymDiff`
returns an `Iop`). -/
def iopLabels : Nat → GN
  | 2 => { derivOf := [0, 1], iop := true }
  | _ => {}

/-- **C92, refuted (`Iop` gradients).** The closures share the loop variable: both contributions go to the last node of
`derivOf`, none to the first; a node without a dual value gets nothing; and a second run, which finds the closures of
the first still queued, delivers the value again. -/
theorem iop_goes_astray :
    (∃ s, runDV (intCfg iopLabels [] true) [(2, 7)] { bd := fun i => if i < 2 then .dual 0 else .none } = .ok s ∧
      s.bd 0 = .dual 0 ∧ s.bd 1 = .dual 14) ∧
    (∃ s, runDV (intCfg iopLabels [] true) [(2, 7)] inputs01 = .ok s ∧ s.bd 0 = .plain ∧ s.bd 1 = .plain) ∧
    (∃ s, runsDV (intCfg iopLabels [] true) [[(2, 7)], [(2, 7)]]
        { bd := fun i => if i < 2 then .dual 0 else .none } = .ok s ∧ s.bd 1 = .dual 42) ∧
    (∃ s, runDV (intCfg iopLabels [0] true) [(2, 7)] { bd := fun i => if i < 2 then .dual 0 else .none } = .ok s ∧
      s.bd 0 = .dual 0 ∧ s.bd 1 = .dual 7) :=
  ⟨⟨_, rfl, rfl, rfl⟩, ⟨_, rfl, rfl, rfl⟩, ⟨_, rfl, rfl⟩, ⟨_, rfl, rfl, rfl⟩⟩

/-- **C92, refuted (`Iop` gradients of scalars).** For scalars the sum is computed and dropped: no run changes any
derivative. -/
theorem iop_scalar_lost (C : Cfg V) (ht : ∀ i, C.tens i = false) (cs : List (Nat × V)) (s s' : St V)
    (h : closeAll C cs s = .ok s') : s' = s := by
  induction cs generalizing s with
  | nil => simp only [closeAll] at h; cases h; rfl
  | cons c cs ih =>
    simp only [closeAll] at h
    cases hc : close C c s with
    | err => rw [hc] at h; simp [Res.bind] at h
    | panic => rw [hc] at h; simp [Res.bind] at h
    | ok s1 =>
      rw [hc] at h
      have : s1 = s := by
        unfold close at hc
        split at hc
        · cases hc
        · split at hc
          · cases hc
          · cases hc; rfl
        · split at hc
          · cases hc
          · simp [ht] at hc; exact hc.symm
      subst this
      exact ih s1 h

end Verif.Train
