/-
Recycling of shapes (`perf.go`, `node.go`, `gorgonia.go`). A shape is a slice of integers; slices are cells of a heap, so
that sharing is visible. The tensor library (assumed): `BorrowInts` hands out a slice of the asked length, either one that
was given back or a new one; `ReturnInts` zeroes a slice and keeps it for later. Which slice is handed out is not
determined (`pick`), the theorems hold for every choice.

A new input node or application is merged with an existing one when key (name and type, or op and children) and shape
agree; how the graph finds it is the subject of `Graph/`.
-/

set_option autoImplicit false

namespace Verif.Pool

/-- The heap of slices, the slices given back, and who uses which slice, with the shape it was created with: tensors,
nodes in the graph with their key, constants. -/
structure St where
  cells : Nat → List Nat
  next : Nat
  pool : List Nat
  tens : List (Nat × List Nat)
  nodes : List (String × Nat × List Nat)
  consts : List (Nat × List Nat)

def St.init : St := { cells := fun _ => [], next := 0, pool := [], tens := [], nodes := [], consts := [] }

def St.put (st : St) (a : Nat) (s : List Nat) : St := { st with cells := fun b => if b = a then s else st.cells b }

/-- `tensor.BorrowInts(len(s))` followed by `copy` (`WithShape`, `node.go:211-212`): the slice and the new state. -/
def borrow (pick : Option Nat) (s : List Nat) (st : St) : Nat × St :=
  match pick with
  | some a =>
    if a ∈ st.pool ∧ (st.cells a).length = s.length then (a, { st.put a s with pool := st.pool.erase a })
    else (st.next, { st.put st.next s with next := st.next + 1 })
  | none => (st.next, { st.put st.next s with next := st.next + 1 })

/-- `tensor.ReturnInts`. -/
def giveBack (a : Nat) (st : St) : St :=
  { st.put a (List.replicate (st.cells a).length 0) with pool := a :: st.pool }

/-- The node an equal new node is merged with: same key, and the same shape now (`nodeEq`, `equalities.go`). -/
def St.dup (st : St) (k : String) (a : Nat) : Bool :=
  st.nodes.any fun n => n.1 == k && st.cells n.2.1 == st.cells a

/-- `NewUniqueNode`, `node.go:288-301`, after the options have been applied: the node with shape `a` joins the graph, or
is merged and given back (`returnNode`, `perf.go:16-45`, line 24). -/
def unique (k : String) (a : Nat) (s : List Nat) (st : St) : St :=
  if st.dup k a then giveBack a st else { st with nodes := st.nodes ++ [(k, a, s)] }

inductive Ev where
  /-- A tensor of the user is created. -/
  | tensor (pick : Option Nat) (s : List Nat)
  /-- A node with option `WithShape` (`node.go:210-230`), as `ApplyOp` (`op.go:207`), `NodeFromAny`
  (`gorgonia.go:39`) and most programs create it. -/
  | node (pick : Option Nat) (k : String) (s : List Nat)
  /-- A node with option `WithValue` and no shape: the shape of the `t`-th tensor is used (`node.go:159-161`). -/
  | nodeOf (k : String) (t : Nat)
  /-- `NewConstant` (`gorgonia.go:87-126`) of a tensor of shape `s`, possibly with an option `WithShape`. -/
  | const (pick pick' : Option Nat) (s : List Nat) (opt : Option (List Nat))

def step (ev : Ev) (st : St) : St :=
  match ev with
  | .tensor pick s =>
    let r := borrow pick s st
    { r.2 with tens := r.2.tens ++ [(r.1, s)] }
  | .node pick k s =>
    let r := borrow pick s st
    unique k r.1 s r.2
  | .nodeOf k t =>
    match st.tens[t]? with
    | none => st
    | some e => unique k e.1 e.2 st
  | .const pick pick' s opt =>
    match opt with
    | none =>
      let r := borrow pick s st
      { r.2 with consts := r.2.consts ++ [(r.1, s)] }
    | some s' =>
      -- the caller makes the option; line 112 makes the node's own shape; line 115 gives the option's slice to the dummy
      -- node, line 122 gives it back; line 125 gives it to the new node
      let r' := borrow pick' s' st
      let r := borrow pick s r'.2
      let st1 := giveBack r'.1 r.2
      { st1 with consts := st1.consts ++ [(r'.1, s')] }

def run (evs : List Ev) (st : St) : St := evs.foldl (fun st ev => step ev st) st

/-! ### Specification -/

/-- Everybody who uses a shape: the slice and the shape it was created with. -/
def St.users (st : St) : List (Nat × List Nat) := st.tens ++ st.nodes.map (·.2) ++ st.consts

/-- Every tensor, node and constant still has the shape it was created with. -/
def St.Right (st : St) : Prop := ∀ u ∈ st.users, st.cells u.1 = u.2

/-- The invariant: slices given back are used by nobody and are there once. -/
structure St.Good (st : St) : Prop where
  right : st.Right
  below : ∀ u ∈ st.users, u.1 < st.next
  apart : ∀ u ∈ st.users, u.1 ∉ st.pool
  pool_below : ∀ a ∈ st.pool, a < st.next
  nodup : st.pool.Nodup

/-- The events that keep shapes intact: everything but a duplicate made from a value alone, and a constant with a shape
as option. -/
def Benign (st : St) : Ev → Prop
  | .nodeOf k t => ∀ e, st.tens[t]? = some e → st.dup k e.1 = false
  | .const _ _ _ (some _) => False
  | _ => True

/-! ### Proofs -/

theorem init_good : St.init.Good := by
  constructor <;> simp [St.init, St.users, St.Right]

theorem users_put (st : St) (a : Nat) (s : List Nat) : (st.put a s).users = st.users := rfl

theorem borrow_users (pick : Option Nat) (s : List Nat) (st : St) : (borrow pick s st).2.users = st.users := by
  unfold borrow
  cases pick with
  | none => rfl
  | some a => dsimp only; split <;> rfl

/-- A slice handed out is used by nobody, is no longer in the pool, and holds the shape asked for; everything else
stays. -/
theorem borrow_spec (pick : Option Nat) (s : List Nat) (st : St) (h : st.Good) :
    let r := borrow pick s st
    r.2.Good ∧ r.2.cells r.1 = s ∧ r.1 < r.2.next ∧ r.1 ∉ r.2.pool ∧ (∀ u ∈ st.users, u.1 ≠ r.1) := by
  have fresh : ∀ st' : St, st' = { st.put st.next s with next := st.next + 1 } →
      st'.Good ∧ st'.cells st.next = s ∧ st.next < st'.next ∧ st.next ∉ st'.pool ∧ (∀ u ∈ st.users, u.1 ≠ st.next) := by
    intro st' e
    subst e
    refine ⟨⟨?_, ?_, ?_, ?_, h.nodup⟩, by simp [St.put], by simp, ?_, ?_⟩
    · intro u hu
      have hb := h.below u hu
      show (if u.1 = st.next then s else st.cells u.1) = u.2
      rw [if_neg (by omega)]
      exact h.right u hu
    · intro u hu
      have hb := h.below u hu
      show u.1 < st.next + 1
      omega
    · exact h.apart
    · intro a ha
      have := h.pool_below a ha
      show a < st.next + 1
      omega
    · intro hc
      have := h.pool_below _ hc
      omega
    · intro u hu e
      have := h.below u hu
      omega
  unfold borrow
  cases pick with
  | none => exact fresh _ rfl
  | some a =>
    dsimp only
    by_cases hc : a ∈ st.pool ∧ (st.cells a).length = s.length
    · rw [if_pos hc]
      have hne : ∀ u ∈ st.users, u.1 ≠ a := by
        intro u hu e
        exact h.apart u hu (e ▸ hc.1)
      have hna : a ∉ st.pool.erase a := by
        intro hm
        exact ((List.Nodup.mem_erase_iff h.nodup).mp hm).1 rfl
      refine ⟨⟨?_, h.below, ?_, ?_, h.nodup.erase a⟩, by simp [St.put], h.pool_below a hc.1, hna, hne⟩
      · intro u hu
        show (if u.1 = a then s else st.cells u.1) = u.2
        rw [if_neg (hne u hu)]
        exact h.right u hu
      · intro u hu hm
        exact h.apart u hu (List.mem_of_mem_erase hm)
      · intro b hb
        exact h.pool_below b (List.mem_of_mem_erase hb)
    · rw [if_neg hc]
      exact fresh _ rfl

/-- Giving back a slice that nobody uses. -/
theorem giveBack_good (a : Nat) (st : St) (h : st.Good) (hu : ∀ u ∈ st.users, u.1 ≠ a) (hb : a < st.next)
    (hp : a ∉ st.pool) : (giveBack a st).Good := by
  refine ⟨?_, h.below, ?_, ?_, ?_⟩
  · intro u hu'
    show (if u.1 = a then _ else st.cells u.1) = u.2
    rw [if_neg (hu u hu')]
    exact h.right u hu'
  · intro u hu' hm
    rcases List.mem_cons.mp hm with e | e
    · exact hu u hu' e
    · exact h.apart u hu' e
  · intro b hm
    rcases List.mem_cons.mp hm with e | e
    · subst e; exact hb
    · exact h.pool_below b e
  · exact List.nodup_cons.mpr ⟨hp, h.nodup⟩

/-- A new user of a slice that holds the right shape. -/
theorem good_of_users (st st' : St) (h : st.Good) (u : Nat × List Nat)
    (hc : st'.cells = st.cells) (hn : st'.next = st.next) (hp : st'.pool = st.pool)
    (hu : ∀ v, v ∈ st'.users ↔ v ∈ st.users ∨ v = u) (h1 : st.cells u.1 = u.2) (h2 : u.1 < st.next)
    (h3 : u.1 ∉ st.pool) : st'.Good := by
  refine ⟨?_, ?_, ?_, ?_, ?_⟩
  · intro v hv
    rw [hc]
    rcases (hu v).mp hv with h' | h'
    · exact h.right v h'
    · subst h'; exact h1
  · intro v hv
    rw [hn]
    rcases (hu v).mp hv with h' | h'
    · exact h.below v h'
    · subst h'; exact h2
  · intro v hv
    rw [hp]
    rcases (hu v).mp hv with h' | h'
    · exact h.apart v h'
    · subst h'; exact h3
  · rw [hp, hn]; exact h.pool_below
  · rw [hp]; exact h.nodup

theorem users_tens (st : St) (u : Nat × List Nat) (v : Nat × List Nat) :
    v ∈ ({ st with tens := st.tens ++ [u] } : St).users ↔ v ∈ st.users ∨ v = u := by
  simp only [St.users, List.mem_append, List.mem_singleton, List.mem_map]
  constructor
  · rintro (((h | h) | h) | h)
    · exact Or.inl (Or.inl (Or.inl h))
    · exact Or.inr h
    · exact Or.inl (Or.inl (Or.inr h))
    · exact Or.inl (Or.inr h)
  · rintro (((h | h) | h) | h)
    · exact Or.inl (Or.inl (Or.inl h))
    · exact Or.inl (Or.inr h)
    · exact Or.inr h
    · exact Or.inl (Or.inl (Or.inr h))

theorem users_nodes (st : St) (k : String) (u : Nat × List Nat) (v : Nat × List Nat) :
    v ∈ ({ st with nodes := st.nodes ++ [(k, u.1, u.2)] } : St).users ↔ v ∈ st.users ∨ v = u := by
  simp only [St.users, List.mem_append, List.map_append, List.map_cons, List.map_nil, List.mem_singleton]
  constructor
  · rintro ((h | h | h) | h)
    · exact Or.inl (Or.inl (Or.inl h))
    · exact Or.inl (Or.inl (Or.inr h))
    · exact Or.inr h
    · exact Or.inl (Or.inr h)
  · rintro (((h | h) | h) | h)
    · exact Or.inl (Or.inl h)
    · exact Or.inl (Or.inr (Or.inl h))
    · exact Or.inr h
    · exact Or.inl (Or.inr (Or.inr h))

theorem users_consts (st : St) (u : Nat × List Nat) (v : Nat × List Nat) :
    v ∈ ({ st with consts := st.consts ++ [u] } : St).users ↔ v ∈ st.users ∨ v = u := by
  simp only [St.users, List.mem_append, List.mem_singleton]
  exact ⟨fun h => by rcases h with h | h | h
                     · exact Or.inl (Or.inl h)
                     · exact Or.inl (Or.inr h)
                     · exact Or.inr h,
         fun h => by rcases h with (h | h) | h
                     · exact Or.inl h
                     · exact Or.inr (Or.inl h)
                     · exact Or.inr (Or.inr h)⟩

theorem mem_tens_users (st : St) (e : Nat × List Nat) (h : e ∈ st.tens) : e ∈ st.users :=
  List.mem_append_left _ (List.mem_append_left _ h)

/-- A step that is benign keeps the invariant. -/
theorem step_good (ev : Ev) (st : St) (h : st.Good) (hb : Benign st ev) : (step ev st).Good := by
  cases ev with
  | tensor pick s =>
    obtain ⟨g, c, n, p, -⟩ := borrow_spec pick s st h
    exact good_of_users (borrow pick s st).2 _ g ((borrow pick s st).1, s) rfl rfl rfl (users_tens _ _) c n p
  | node pick k s =>
    obtain ⟨g, c, n, p, hu⟩ := borrow_spec pick s st h
    show (unique k (borrow pick s st).1 s (borrow pick s st).2).Good
    unfold unique
    split
    · exact giveBack_good _ _ g (by rw [borrow_users]; exact hu) n p
    · exact good_of_users (borrow pick s st).2 _ g ((borrow pick s st).1, s) rfl rfl rfl
        (users_nodes _ k ((borrow pick s st).1, s)) c n p
  | nodeOf k t =>
    show (match st.tens[t]? with
      | none => st
      | some e => unique k e.1 e.2 st).Good
    cases he : st.tens[t]? with
    | none => exact h
    | some e =>
      have hd := hb e he
      have hm := mem_tens_users st e (List.mem_of_getElem? he)
      show (unique k e.1 e.2 st).Good
      unfold unique
      rw [hd]
      exact good_of_users st _ h e rfl rfl rfl (users_nodes _ k e) (h.right e hm) (h.below e hm) (h.apart e hm)
  | const pick pick' s opt =>
    cases opt with
    | some s' => exact hb.elim
    | none =>
      obtain ⟨g, c, n, p, -⟩ := borrow_spec pick s st h
      exact good_of_users (borrow pick s st).2 _ g ((borrow pick s st).1, s) rfl rfl rfl (users_consts _ _) c n p

/-- All events of a history are benign where they happen. -/
def AllBenign : St → List Ev → Prop
  | _, [] => True
  | st, ev :: evs => Benign st ev ∧ AllBenign (step ev st) evs

theorem run_good (evs : List Ev) : ∀ st : St, st.Good → AllBenign st evs → (run evs st).Good := by
  induction evs with
  | nil => intro st h _; exact h
  | cons ev evs ih => intro st h hb; exact ih _ (step_good ev st h hb.1) hb.2

/-- C98. In every history, whatever slices the pool hands out, in which no duplicate is made from a value alone and no
constant gets a shape as option: every tensor, node and constant has the shape it was created with, and no two of the
slices given back are in use. -/
theorem shapes_kept_partial (evs : List Ev) (h : AllBenign St.init evs) :
    (run evs St.init).Right ∧ ∀ u ∈ (run evs St.init).users, u.1 ∉ (run evs St.init).pool :=
  ⟨(run_good evs _ init_good h).right, (run_good evs _ init_good h).apart⟩

/-- A history without values as sources of shapes and without options on constants is fine whatever else happens in it. -/
theorem allBenign_of_shapes (evs : List Ev) (h : ∀ ev ∈ evs, (∃ p s, ev = .tensor p s) ∨ (∃ p k s, ev = .node p k s) ∨
    ∃ p p' s, ev = .const p p' s none) : ∀ st, AllBenign st evs := by
  induction evs with
  | nil => intro st; trivial
  | cons ev evs ih =>
    intro st
    refine ⟨?_, ih (fun e he => h e (List.mem_cons_of_mem _ he)) _⟩
    rcases h ev (List.mem_cons_self ..) with ⟨p, s, rfl⟩ | ⟨p, k, s, rfl⟩ | ⟨p, p', s, rfl⟩ <;> trivial

/-- C98, where it fails. A duplicate made from a value alone: the shape of the tensor of the user becomes all zeros, and
its slice is in the pool while it is in use; for every good state, key and tensor. -/
theorem duplicate_zeroes (k : String) (t : Nat) (e : Nat × List Nat) (st : St) (h : st.Good)
    (he : st.tens[t]? = some e) (hd : st.dup k e.1 = true) :
    (step (.nodeOf k t) st).tens[t]? = some e ∧
      (step (.nodeOf k t) st).cells e.1 = List.replicate e.2.length 0 ∧ e.1 ∈ (step (.nodeOf k t) st).pool := by
  have hs : step (.nodeOf k t) st = giveBack e.1 st := by
    show (match st.tens[t]? with
      | none => st
      | some e => unique k e.1 e.2 st) = _
    rw [he]
    show unique k e.1 e.2 st = _
    unfold unique
    rw [if_pos hd]
  have hm := mem_tens_users st e (List.mem_of_getElem? he)
  rw [hs]
  refine ⟨he, ?_, List.mem_cons_self ..⟩
  show (if e.1 = e.1 then _ else _) = _
  rw [if_pos rfl, h.right e hm]

/-- A slice that exists and is not in the pool is not handed out, so it is not written. -/
theorem borrow_other (pick : Option Nat) (s : List Nat) (st : St) (b : Nat) (hb : b < st.next) (hp : b ∉ st.pool) :
    (borrow pick s st).2.cells b = st.cells b := by
  have key : ∀ a, b ≠ a → (st.put a s).cells b = st.cells b := by
    intro a ha
    show (if b = a then s else _) = _
    rw [if_neg ha]
  unfold borrow
  cases pick with
  | none => exact key _ (by omega)
  | some a =>
    dsimp only
    by_cases hc : a ∈ st.pool ∧ (st.cells a).length = s.length
    · rw [if_pos hc]
      exact key a (fun e => hp (e ▸ hc.1))
    · rw [if_neg hc]
      exact key _ (by omega)

/-- C98, where it fails. A constant made with a shape as option has the shape zero and its slice is in the pool. -/
theorem constant_option_zeroes (pick pick' : Option Nat) (s s' : List Nat) (st : St) (h : st.Good) :
    ∃ u ∈ (step (.const pick pick' s (some s')) st).users, u.2 = s' ∧
      (step (.const pick pick' s (some s')) st).cells u.1 = List.replicate s'.length 0 ∧
      u.1 ∈ (step (.const pick pick' s (some s')) st).pool := by
  obtain ⟨g', c', n', p', hu'⟩ := borrow_spec pick' s' st h
  have hcell : (borrow pick s (borrow pick' s' st).2).2.cells (borrow pick' s' st).1 = s' := by
    rw [borrow_other pick s _ _ n' p']
    exact c'
  refine ⟨((borrow pick' s' st).1, s'), ?_, rfl, ?_, List.mem_cons_self ..⟩
  · exact (users_consts (giveBack (borrow pick' s' st).1 (borrow pick s (borrow pick' s' st).2).2)
      ((borrow pick' s' st).1, s') _).mpr (Or.inr rfl)
  · show (if (borrow pick' s' st).1 = (borrow pick' s' st).1 then _ else _) = _
    rw [if_pos rfl, hcell]

/-- C98, exactly: from a good state, a step leads to a good state if and only if it is benign. -/
theorem step_good_iff (ev : Ev) (st : St) (h : st.Good) : (step ev st).Good ↔ Benign st ev := by
  refine ⟨?_, step_good ev st h⟩
  intro hg
  cases ev with
  | tensor pick s => trivial
  | node pick k s => trivial
  | nodeOf k t =>
    intro e he
    cases hd : st.dup k e.1 with
    | false => rfl
    | true =>
      obtain ⟨h1, -, h3⟩ := duplicate_zeroes k t e st h he hd
      exact absurd h3 (hg.apart e (mem_tens_users _ e (List.mem_of_getElem? h1)))
  | const pick pick' s opt =>
    cases opt with
    | none => trivial
    | some s' =>
      obtain ⟨u, hu, -, -, hp⟩ := constant_option_zeroes pick pick' s s' st h
      exact absurd hp (hg.apart u hu)

/-! ### Examples -/

/-- Two nodes with the same name and the same value, then another node: the tensor of the user, created with shape 2×3,
now claims the shape 4×5 of the other node. -/
example :
    let st := run [.tensor none [2, 3], .nodeOf "x" 0, .nodeOf "x" 0] St.init
    st.cells 0 = [0, 0] ∧ st.tens = [(0, [2, 3])] ∧
      (step (.node (some 0) "y" [4, 5]) st).cells 0 = [4, 5] := by decide

/-- The same program with `WithShape`: the duplicate is recycled, all shapes stay. -/
example :
    let st := run [.tensor none [2, 3], .node none "x" [2, 3], .node none "x" [2, 3], .node (some 2) "y" [4, 5]] St.init
    st.users.map (fun u => st.cells u.1) = [[2, 3], [2, 3], [4, 5]] ∧ st.pool = [] := by decide

example : AllBenign St.init
    [.tensor none [2, 3], .node none "x" [2, 3], .node none "x" [2, 3], .node (some 2) "y" [4, 5],
      .const none none [2] none] :=
  allBenign_of_shapes _ (by simp) _

/-- A value shared by a node and used under two names. -/
example : AllBenign St.init [.tensor none [2, 3], .nodeOf "x" 0, .nodeOf "y" 0] := by
  refine ⟨trivial, ?_, ?_, trivial⟩
  · intro e he; simp only [step, borrow, St.init, St.put, List.nil_append] at he ⊢; rfl
  · intro e he
    have : e = (0, [2, 3]) := by
      have h0 : (step (.nodeOf "x" 0) (step (.tensor none [2, 3]) St.init)).tens[0]? = some (0, [2, 3]) := by decide
      rw [h0] at he; injection he with he; exact he.symm
    subst this
    decide

/-- `NewConstant(v, WithShape(2, 2))` for a 2×2 matrix. -/
example : let st := step (.const none none [2, 2] (some [2, 2])) St.init
    st.consts = [(0, [2, 2])] ∧ st.cells 0 = [0, 0] ∧ st.pool = [0] := by decide

end Verif.Pool
