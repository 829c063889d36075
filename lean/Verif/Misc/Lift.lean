/-
Lifted functions (`ermagerdmonards.go`): functions on nodes that return a node and an error are turned into functions
on `Input`s that return a `Result`. Errors are kept up to wrapping: `errors.WithStack` and `errors.Wrapf` keep the
cause, and keep nil, so they are the identity here.
-/

set_option autoImplicit false

namespace Verif.Misc

/-- The dynamic types an `Input` can have (`ermagerdmonards.go:20-23`): a `*Node`, which may be nil (`node.go:307,310,313`),
a `Nodes` (`collections.go:16,19`), a `gErr` (`ermagerdmonards.go:82-91`), a `resultM` (`ermagerdmonards.go:94-96`), or
a type `C` of the user. -/
inductive Input (N E C : Type) where
  | node (n : Option N)
  | nodes (ns : List (Option N))
  | gErr (e : Option E)
  | resultM (a : Input N E C)
  | user (c : C)
deriving DecidableEq

/-- What a type of the user does: the two methods of `Input`, its `Err` method if it has one
(`ermagerdmonards.go:26-28`), its `Mk` method if it has one (`ermagerdmonards.go:31-33`). -/
structure User (N E C : Type) where
  node : C → Option N
  err : C → Option (Option E)
  remake : C → Option (Input N E C → Input N E C)

variable {N E C S : Type}

/-- `Node()`: `node.go:307`, `collections.go:16` (always nil), `ermagerdmonards.go:89` (always nil); `resultM` embeds
the input. -/
def Input.theNode (U : User N E C) : Input N E C → Option N
  | .node n => n
  | .nodes _ => none
  | .gErr _ => none
  | .resultM a => a.theNode U
  | .user c => U.node c

/-- `in.(Errer)` and `Err()`: `none` if the dynamic type has no `Err` method. `node.go:313`, `collections.go:22` (both
always nil), `ermagerdmonards.go:91,96`. -/
def Input.errer (U : User N E C) : Input N E C → Option (Option E)
  | .node _ => some none
  | .nodes _ => some none
  | .gErr e => some e
  | .resultM _ => some none
  | .user c => U.err c

/-- `in.(Mker)`: only a type of the user can have `Mk`; `resultM` embeds the interface `Input`, which has no `Mk`. -/
def Input.mker (U : User N E C) : Input N E C → Option (Input N E C → Input N E C)
  | .user c => U.remake c
  | _ => none

/-- `CheckOne`, `ermagerdmonards.go:136-141`. -/
def checkOne (U : User N E C) (a : Input N E C) : Option E :=
  match a.errer U with
  | some (some e) => some e
  | _ => none

/-- `a.(type)` of `LiftResult` and `TransformResult`, `ermagerdmonards.go:107-112,126-131`: a `Result` has an `Err`
method and is returned as it is. -/
def asResult (U : User N E C) (a : Input N E C) : Input N E C :=
  match a.errer U with
  | some _ => a
  | none => .resultM a

/-- `LiftResult`, `ermagerdmonards.go:103-113`. -/
def liftResult (U : User N E C) (a : Input N E C) (err : Option E) : Input N E C :=
  match err with
  | some e => .gErr (some e)
  | none => asResult U a

/-- The loop of `TransformResult`, `ermagerdmonards.go:121-125`. -/
def mkAll (U : User N E C) : List (Input N E C) → Input N E C → Input N E C
  | [], a => a
  | i :: is, a =>
    match i.mker U with
    | some f => mkAll U is (f a)
    | none => mkAll U is a

/-- `TransformResult`, `ermagerdmonards.go:116-133`. -/
def transformResult (U : User N E C) (ins : List (Input N E C)) (a : Input N E C) (err : Option E) : Input N E C :=
  match err with
  | some e => .gErr (some e)
  | none => asResult U (mkAll U ins a)

/-- A Go function of type `func(a *Node) (*Node, error)`; it may change the state `S` (the graph). -/
abbrev Fn1 (N E S : Type) := Option N → S → (Option N × Option E) × S

/-- A Go function of type `func(a, b *Node) (*Node, error)`. -/
abbrev Fn2 (N E S : Type) := Option N → Option N → S → (Option N × Option E) × S

/-- `Lift1`, `ermagerdmonards.go:36-43`; `Lift1Axial` (46-53) is the same with the axes handed through. -/
def lift1 (U : User N E C) (fn : Fn1 N E S) (a : Input N E C) (s : S) : Input N E C × S :=
  match checkOne U a with
  | some e => (.gErr (some e), s)
  | none =>
    let r := fn (a.theNode U) s
    (transformResult U [a] (.node r.1.1) r.1.2, r.2)

/-- `Lift2`, `ermagerdmonards.go:56-66`; `Lift2Broadcast` (69-79) is the same with the patterns handed through. -/
def lift2 (U : User N E C) (fn : Fn2 N E S) (a b : Input N E C) (s : S) : Input N E C × S :=
  match checkOne U a with
  | some e => (.gErr (some e), s)
  | none =>
    match checkOne U b with
    | some e => (.gErr (some e), s)
    | none =>
      let r := fn (a.theNode U) (b.theNode U) s
      (transformResult U [a, b] (.node r.1.1) r.1.2, r.2)

/-- The errors of `NodesFromInputs`. -/
inductive FromErr (E : Type) where
  | at_ (i : Nat) (e : E)
  | notNode (i : Nat)
deriving DecidableEq

/-- The first loop of `NodesFromInputs`, `ermagerdmonards.go:145-153`. -/
def fromCheck (U : User N E C) : Nat → List (Input N E C) → Option (FromErr E)
  | _, [] => none
  | i, x :: xs =>
    match checkOne U x with
    | some e => some (.at_ i e)
    | none =>
      match x.theNode U with
      | none => some (.notNode i)
      | some _ => fromCheck U (i + 1) xs

/-- `NodesFromInputs`, `ermagerdmonards.go:144-160`. -/
def nodesFromInputs (U : User N E C) (xs : List (Input N E C)) : Except (FromErr E) (List (Option N)) :=
  match fromCheck U 0 xs with
  | some e => .error e
  | none => .ok (xs.map (Input.theNode U))

/-- `Must`, `gorgonia.go:17-22`: `none` is a panic. -/
def must (n : Option N) (err : Option E) : Option N :=
  match err, n with
  | some _, _ => none
  | none, none => none
  | none, some n => some n

/-- Applying lifted functions one after the other, as a program does that looks at the error once at the end. -/
def chain (U : User N E C) : List (Fn1 N E S) → Input N E C → S → Input N E C × S
  | [], a, s => (a, s)
  | f :: fs, a, s =>
    let r := lift1 U f a s
    chain U fs r.1 r.2

/-! ### Specification: the same functions called directly, with the error looked at after every call -/

/-- Calling the functions one after the other and stopping at the first error. -/
def byHand : List (Fn1 N E S) → Option N → S → Except E (Option N) × S
  | [], n, s => (.ok n, s)
  | f :: fs, n, s =>
    match f n s with
    | ((_, some e), s') => (.error e, s')
    | ((n', none), s') => byHand fs n' s'

theorem chain_of_err (U : User N E C) (fs : List (Fn1 N E S)) (e : E) (s : S) :
    chain U fs (.gErr (some e)) s = (.gErr (some e), s) := by
  induction fs with
  | nil => rfl
  | cons f fs ih => simpa [chain, lift1, checkOne, Input.errer] using ih

/-- C94. A chain of any number of lifted functions, checked for an error once at the end, does what the same calls do
when every error is checked: same state, same node, same error, and nothing is called after the first error. -/
theorem chain_eq_byHand (U : User N E C) (fs : List (Fn1 N E S)) (n : Option N) (s : S) :
    chain U fs (.node n) s =
      match byHand fs n s with
      | (.ok m, s') => (.node m, s')
      | (.error e, s') => (.gErr (some e), s') := by
  induction fs generalizing n s with
  | nil => rfl
  | cons f fs ih =>
    unfold chain byHand
    rcases h : f n s with ⟨⟨m, eo⟩, s'⟩
    cases eo with
    | none =>
      have : lift1 U f (.node n) s = (.node m, s') := by
        simp [lift1, checkOne, Input.errer, Input.theNode, h, transformResult, mkAll, Input.mker, asResult]
      simp only [this]
      exact ih m s'
    | some e =>
      have : lift1 U f (.node n) s = (.gErr (some e), s') := by
        simp [lift1, checkOne, Input.errer, Input.theNode, h, transformResult]
      simp only [this]
      exact chain_of_err U fs e s'

/-- C94. A lifted function of one argument: an error of the argument is passed on and the function is not called (the
state is the old one); otherwise an error of the function is the error of the result; otherwise the result has no error
unless a type of the user makes one, and is the node returned when the argument is no `Mker`. -/
theorem lift1_spec (U : User N E C) (fn : Fn1 N E S) (a : Input N E C) (s : S) :
    (∀ e, checkOne U a = some e → lift1 U fn a s = (.gErr (some e), s)) ∧
    (checkOne U a = none → ∀ n e s', fn (a.theNode U) s = ((n, some e), s') →
      lift1 U fn a s = (.gErr (some e), s')) ∧
    (checkOne U a = none → ∀ n s', fn (a.theNode U) s = ((n, none), s') → a.mker U = none →
      lift1 U fn a s = (.node n, s')) := by
  refine ⟨?_, ?_, ?_⟩
  · intro e h
    simp [lift1, h]
  · intro h n e s' hf
    simp [lift1, h, hf, transformResult]
  · intro h n s' hf hm
    simp [lift1, h, hf, transformResult, mkAll, hm, asResult, Input.errer]

/-- C94. A lifted function of two arguments: the error of the first argument wins over that of the second, and both keep
the function from being called. -/
theorem lift2_spec (U : User N E C) (fn : Fn2 N E S) (a b : Input N E C) (s : S) :
    (∀ e, checkOne U a = some e → lift2 U fn a b s = (.gErr (some e), s)) ∧
    (checkOne U a = none → ∀ e, checkOne U b = some e → lift2 U fn a b s = (.gErr (some e), s)) ∧
    (checkOne U a = none → checkOne U b = none → ∀ n e s', fn (a.theNode U) (b.theNode U) s = ((n, some e), s') →
      lift2 U fn a b s = (.gErr (some e), s')) ∧
    (checkOne U a = none → checkOne U b = none → ∀ n s', fn (a.theNode U) (b.theNode U) s = ((n, none), s') →
      a.mker U = none → b.mker U = none → lift2 U fn a b s = (.node n, s')) := by
  refine ⟨?_, ?_, ?_, ?_⟩
  · intro e h
    simp [lift2, h]
  · intro h e h'
    simp [lift2, h, h']
  · intro h h' n e s' hf
    simp [lift2, h, h', hf, transformResult]
  · intro h h' n s' hf hm hm'
    simp [lift2, h, h', hf, transformResult, mkAll, hm, hm', asResult, Input.errer]

/-- C94. The result of a lifted function always has an `Err` method, and for a result that is no error and was wrapped the
node is that of the wrapped input. -/
theorem lift2_result (U : User N E C) (fn : Fn2 N E S) (a b : Input N E C) (s : S) :
    ((lift2 U fn a b s).1.errer U).isSome = true := by
  have hr : ∀ x : Input N E C, ((asResult U x).errer U).isSome = true := by
    intro x
    unfold asResult
    cases h : x.errer U with
    | none => rfl
    | some e => simp [h]
  unfold lift2
  cases checkOne U a with
  | some e => rfl
  | none =>
    cases checkOne U b with
    | some e => rfl
    | none =>
      simp only [transformResult]
      cases (fn (a.theNode U) (b.theNode U) s).1.2 with
      | some e => rfl
      | none => exact hr _

/-- C94. Types of the user with a method `Mk`: without errors, the node is handed to the `Mk` of the first argument, and
what that makes to the `Mk` of the second; the result is what was made, wrapped if it has no `Err` method. -/
theorem lift2_mk (U : User N E C) (fn : Fn2 N E S) (a b : Input N E C) (s s' : S) (n : Option N)
    (ha : checkOne U a = none) (hb : checkOne U b = none)
    (hf : fn (a.theNode U) (b.theNode U) s = ((n, none), s')) (w : Input N E C)
    (hw : w = (b.mker U).getD id ((a.mker U).getD id (.node n))) :
    ((w.errer U).isSome = true → lift2 U fn a b s = (w, s')) ∧
    (w.errer U = none → lift2 U fn a b s = (.resultM w, s')) := by
  have h : lift2 U fn a b s = (asResult U w, s') := by
    subst hw
    simp only [lift2, ha, hb, hf, transformResult, mkAll]
    cases a.mker U <;> cases b.mker U <;> rfl
  rw [h]
  unfold asResult
  cases w.errer U <;> simp

theorem asResult_node (U : User N E C) (a : Input N E C) : (asResult U a).theNode U = a.theNode U := by
  unfold asResult
  cases a.errer U <;> rfl

theorem fromCheck_none (U : User N E C) (xs : List (Input N E C)) : ∀ i,
    fromCheck U i xs = none ↔ ∀ x ∈ xs, checkOne U x = none ∧ (x.theNode U).isSome = true := by
  induction xs with
  | nil => intro i; simp [fromCheck]
  | cons x xs ih =>
    intro i
    unfold fromCheck
    cases h : checkOne U x with
    | some e => simp [h]
    | none =>
      cases h' : x.theNode U with
      | none => simp [h, h']
      | some n => simp [h, h', ih (i + 1)]

theorem fromCheck_first (U : User N E C) (xs : List (Input N E C)) : ∀ i e, fromCheck U i xs = some e →
    ∃ j, ∃ x, xs[j]? = some x ∧ (∀ k y, k < j → xs[k]? = some y → checkOne U y = none ∧ (y.theNode U).isSome = true) ∧
      ((∃ c, checkOne U x = some c ∧ e = .at_ (i + j) c) ∨
       (checkOne U x = none ∧ x.theNode U = none ∧ e = .notNode (i + j))) := by
  induction xs with
  | nil => intro i e h; simp [fromCheck] at h
  | cons x xs ih =>
    intro i e h
    unfold fromCheck at h
    cases hc : checkOne U x with
    | some c =>
      simp only [hc, Option.some.injEq] at h
      exact ⟨0, x, rfl, by intro k y hk; omega, Or.inl ⟨c, hc, h.symm⟩⟩
    | none =>
      cases hn : x.theNode U with
      | none =>
        simp only [hc, hn, Option.some.injEq] at h
        exact ⟨0, x, rfl, by intro k y hk; omega, Or.inr ⟨hc, hn, h.symm⟩⟩
      | some n =>
        simp only [hc, hn] at h
        obtain ⟨j, y, hy, hb, he⟩ := ih (i + 1) e h
        refine ⟨j + 1, y, by simpa using hy, ?_, ?_⟩
        · intro k z hk hz
          cases k with
          | zero =>
            simp only [List.getElem?_cons_zero, Option.some.injEq] at hz
            subst hz
            exact ⟨hc, by simp [hn]⟩
          | succ k => exact hb k z (by omega) (by simpa using hz)
        · rcases he with ⟨c, h1, h2⟩ | ⟨h1, h2, h3⟩
          · exact Or.inl ⟨c, h1, by rw [h2, show i + 1 + j = i + (j + 1) by omega]⟩
          · exact Or.inr ⟨h1, h2, by rw [h3, show i + 1 + j = i + (j + 1) by omega]⟩

/-- C94. `NodesFromInputs` succeeds exactly when no input carries an error and every input has a node, and then returns
the nodes in the order of the inputs; none of them is nil. -/
theorem nodesFromInputs_ok (U : User N E C) (xs : List (Input N E C)) (ns : List (Option N)) :
    nodesFromInputs U xs = .ok ns ↔
      (∀ x ∈ xs, checkOne U x = none) ∧ none ∉ ns ∧ ns = xs.map (Input.theNode U) := by
  unfold nodesFromInputs
  cases h : fromCheck U 0 xs with
  | some e =>
    simp only [reduceCtorEq, false_iff, not_and]
    intro h1 h2 h3
    have := (fromCheck_none U xs 0).mpr (by
      intro x hx
      refine ⟨h1 x hx, ?_⟩
      cases hn : x.theNode U with
      | some n => rfl
      | none =>
        exfalso
        apply h2
        rw [h3]
        exact List.mem_map.mpr ⟨x, hx, hn⟩)
    simp [h] at this
  | none =>
    have h' := (fromCheck_none U xs 0).mp h
    simp only [Except.ok.injEq]
    constructor
    · intro he
      refine ⟨fun x hx => (h' x hx).1, ?_, he.symm⟩
      rw [← he]
      intro hm
      obtain ⟨x, hx, hn⟩ := List.mem_map.mp hm
      have := (h' x hx).2
      simp [hn] at this
    · intro ⟨_, _, he⟩
      exact he.symm

/-- C94. The error of `NodesFromInputs` names the first input that carries an error or has no node. -/
theorem nodesFromInputs_error (U : User N E C) (xs : List (Input N E C)) (e : FromErr E)
    (h : nodesFromInputs U xs = .error e) :
    ∃ j, ∃ x, xs[j]? = some x ∧ (∀ k y, k < j → xs[k]? = some y → checkOne U y = none ∧ (y.theNode U).isSome = true) ∧
      ((∃ c, checkOne U x = some c ∧ e = .at_ j c) ∨ (checkOne U x = none ∧ x.theNode U = none ∧ e = .notNode j)) := by
  unfold nodesFromInputs at h
  cases hf : fromCheck U 0 xs with
  | none => simp [hf] at h
  | some e' =>
    simp only [hf, Except.error.injEq] at h
    subst h
    simpa using fromCheck_first U xs 0 e' hf

/-- C94, what the lifted functions do not guard against. An input that carries no error but has no node (a list of nodes,
or `Err(nil)`) passes the check, and the function is called with a nil node. -/
theorem lift1_nil_called (U : User N E C) (fn : Fn1 N E S) (ns : List (Option N)) (s : S) :
    (lift1 U fn (.nodes ns) s).2 = (fn none s).2 ∧ (lift1 U fn (.gErr none) s).2 = (fn none s).2 :=
  ⟨rfl, rfl⟩

/-- C94. `Must` returns exactly on a node without an error, and then that node. -/
theorem must_spec (n : Option N) (err : Option E) (m : N) : must n err = some m ↔ err = none ∧ n = some m := by
  cases err <;> cases n <;> simp [must]

/-! ### Examples -/

/-- A user type without `Err`, whose `Mk` wraps the node in itself: `c` counts the wrappings. -/
def exUser : User Nat String Nat where
  node c := some c
  err _ := none
  remake c := some fun a => match a with
    | .node (some n) => .user (n + 100 * c)
    | a => a

/-- The graph is a list of calls; the function adds one and fails on 3. -/
def exFn : Fn1 Nat String (List Nat)
  | none, s => ((none, some "nil"), s)
  | some n, s => if n = 3 then ((none, some "three"), s ++ [n]) else ((some (n + 1), none), s ++ [n])

example : chain exUser [exFn, exFn, exFn, exFn] (.node (some 1)) [] = (.gErr (some "three"), [1, 2, 3]) := by decide
example : chain exUser [exFn, exFn, exFn] (.node (some 4)) [] = (.node (some 7), [4, 5, 6]) := by decide
example : chain exUser [exFn, exFn] (.nodes [some 4]) [] = (.gErr (some "nil"), []) := by decide
example : byHand [exFn, exFn, exFn, exFn] (some 1) [] = (.error "three", [1, 2, 3]) := by rfl
example : lift1 exUser exFn (.user 2) [] = (.resultM (.user 203), [2]) := by decide
example : lift2 exUser (fun a b s => ((a.bind fun x => b.map (x + ·), none), s ++ [0])) (.node (some 2)) (.user 5) []
    = (.resultM (.user 507), [0]) := by decide
/-- A user type with an `Err` method that is never an error. -/
def exUser' : User Nat String Nat :=
  { exUser with err := fun _ => some none, remake := fun c => some fun a => match a with
      | .node (some n) => .user (n + 100 * c)
      | .user m => .user (m + 10000 * c)
      | a => a }

example : lift2 exUser' (fun a b s => ((a.bind fun x => b.map (x + ·), none), s ++ [0])) (.user 2) (.user 5) []
    = (.user 50207, [0]) := by decide
example : lift2 exUser (fun _ _ s => ((none, none), s ++ [0])) (.gErr (some "a")) (.gErr (some "b")) []
    = (.gErr (some "a"), []) := by decide
example : lift2 exUser (fun _ _ s => ((none, none), s ++ [0])) (.node (some 1)) (.gErr (some "b")) []
    = (.gErr (some "b"), []) := by decide
example : nodesFromInputs exUser [.node (some 1), .user 5, .resultM (.user 6)] = .ok [some 1, some 5, some 6] := by rfl
example : nodesFromInputs exUser [.node (some 1), .nodes [some 2], .gErr (some "x")] = .error (.notNode 1) := by rfl
example : must (some 1) (some "x") = none ∧ must (E := String) (some 1) none = some 1 := by decide

end Verif.Misc
