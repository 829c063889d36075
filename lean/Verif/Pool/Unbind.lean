/-
Giving back the values of nodes (`unbind`, `UnbindAll`, `UnbindAllNonInputs`). Tensors are objects with an identity. The
tensor library (assumed): `ReturnTensor` empties a tensor and keeps it for later (whoever still holds it holds an empty
tensor). A `*dualValue` holds a gradient and a value; scalars and other values that are no tensors are not recycled
(`none`).
-/

set_option autoImplicit false

namespace Verif.Pool

/-- What a node is, as far as `isInput` and `isConstant` go. -/
inductive Kind where
  | input | constant | other
deriving DecidableEq

/-- What a node is bound to: nothing, a plain value, a dual value (gradient, value). -/
inductive Bound where
  | nil
  | plain (v : Option Nat)
  | dual (d v : Option Nat)
deriving DecidableEq

structure BNode where
  kind : Kind
  bound : Bound
deriving DecidableEq

/-- Contents of the tensors (`none`: emptied), the tensors in the pool (in the order given back, the last first). -/
structure BSt (α : Type) where
  content : Nat → Option α
  pool : List Nat

variable {α : Type}

/-- `tensor.ReturnTensor`. -/
def returnTensor (t : Nat) (st : BSt α) : BSt α :=
  { content := fun u => if u = t then none else st.content u, pool := t :: st.pool }

/-- `returnValue`, `perf.go:80-84`: only tensors are given back. -/
def returnValue (v : Option Nat) (st : BSt α) : BSt α :=
  match v with
  | none => st
  | some t => returnTensor t st

/-- `unbind`, `node.go:721-734`, with `returnDV`, `perf.go:61-74`. -/
def unbind (n : BNode) (st : BSt α) : BNode × BSt α :=
  match n.bound with
  | .nil => (n, st)
  | .dual d v => ({ n with bound := .nil }, returnValue v (returnValue d st))
  | .plain v => ({ n with bound := .nil }, returnValue v st)

/-- `UnbindAll`, `graph.go:269-273`. -/
def unbindAll : List BNode → BSt α → List BNode × BSt α
  | [], st => ([], st)
  | n :: ns, st =>
    let r := unbind n st
    let rs := unbindAll ns r.2
    (r.1 :: rs.1, rs.2)

/-- `UnbindAllNonInputs`, `graph.go:276-283`. -/
def unbindNonInputs : List BNode → BSt α → List BNode × BSt α
  | [], st => ([], st)
  | n :: ns, st =>
    if n.kind = .input ∨ n.kind = .constant then
      let rs := unbindNonInputs ns st
      (n :: rs.1, rs.2)
    else
      let r := unbind n st
      let rs := unbindNonInputs ns r.2
      (r.1 :: rs.1, rs.2)

/-! ### Specification -/

/-- The tensors a node is bound to. -/
def Bound.tensors : Bound → List Nat
  | .nil => []
  | .plain v => v.toList
  | .dual d v => d.toList ++ v.toList

def releases (n : BNode) : Prop := n.kind = .other

instance (n : BNode) : Decidable (releases n) := inferInstanceAs (Decidable (_ = _))

/-! ### Proofs -/

theorem returnValue_spec (v : Option Nat) (st : BSt α) :
    (returnValue v st).pool = v.toList ++ st.pool ∧
      ∀ t, (returnValue v st).content t = if t ∈ v.toList then none else st.content t := by
  cases v with
  | none => simp [returnValue]
  | some u => simp [returnValue, returnTensor]

theorem unbind_spec (n : BNode) (st : BSt α) :
    (unbind n st).1 = { n with bound := .nil } ∧ (unbind n st).2.pool = n.bound.tensors.reverse ++ st.pool ∧
      ∀ t, (unbind n st).2.content t = if t ∈ n.bound.tensors then none else st.content t := by
  obtain ⟨k, b⟩ := n
  cases b with
  | nil => simp [unbind, Bound.tensors]
  | plain v =>
    have h := returnValue_spec v st
    refine ⟨rfl, ?_, h.2⟩
    show (returnValue v st).pool = _
    rw [h.1]
    cases v <;> simp [Bound.tensors]
  | dual d v =>
    have h := returnValue_spec d st
    have h' := returnValue_spec v (returnValue d st)
    refine ⟨rfl, ?_, ?_⟩
    · show (returnValue v (returnValue d st)).pool = _
      rw [h'.1, h.1]
      cases v <;> cases d <;> simp [Bound.tensors]
    · intro t
      show (returnValue v (returnValue d st)).content t = if t ∈ d.toList ++ v.toList then none else st.content t
      rw [h'.2, h.2]
      by_cases h1 : t ∈ v.toList
      · rw [if_pos h1, if_pos (List.mem_append_right _ h1)]
      · rw [if_neg h1]
        by_cases h2 : t ∈ d.toList
        · rw [if_pos h2, if_pos (List.mem_append_left _ h2)]
        · rw [if_neg h2, if_neg (fun h => (List.mem_append.mp h).elim h2 h1)]

/-- C99. `UnbindAllNonInputs` leaves inputs and constants bound as they were and unbinds all other nodes; a tensor is
emptied exactly when a node that is neither input nor constant was bound to it, as value or as gradient; the pool grows
by exactly those tensors, once for every binding. -/
theorem unbindNonInputs_spec (ns : List BNode) : ∀ st : BSt α,
    (unbindNonInputs ns st).1 = ns.map (fun n => if releases n then { n with bound := .nil } else n) ∧
    (unbindNonInputs ns st).2.pool = ((ns.filter (fun n => decide (releases n))).flatMap (·.bound.tensors)).reverse ++ st.pool ∧
    ∀ t, (unbindNonInputs ns st).2.content t =
      if ∃ n ∈ ns, releases n ∧ t ∈ n.bound.tensors then none else st.content t := by
  induction ns with
  | nil => intro st; simp [unbindNonInputs]
  | cons n ns ih =>
    intro st
    by_cases hk : n.kind = .input ∨ n.kind = .constant
    · have hr : ¬ releases n := by
        unfold releases
        rcases hk with h | h <;> simp [h]
      obtain ⟨h1, h2, h3⟩ := ih st
      unfold unbindNonInputs
      rw [if_pos hk]
      refine ⟨?_, ?_, ?_⟩
      · simp [hr, h1]
      · simp [hr, h2]
      · intro t
        simp only [h3 t]
        simp [hr]
    · have hr : releases n := by
        unfold releases
        cases h : n.kind with
        | input => exact absurd (Or.inl h) hk
        | constant => exact absurd (Or.inr h) hk
        | other => rfl
      obtain ⟨u1, u2, u3⟩ := unbind_spec n st
      obtain ⟨h1, h2, h3⟩ := ih (unbind n st).2
      unfold unbindNonInputs
      rw [if_neg hk]
      refine ⟨?_, ?_, ?_⟩
      · simp [hr, h1, u1]
      · simp [hr, h2, u2]
      · intro t
        simp only [h3 t, u3 t]
        by_cases ha : t ∈ n.bound.tensors
        · simp [hr, ha]
        · simp [ha]

/-- C99. `UnbindAll` unbinds every node and empties exactly the tensors bound to some node. -/
theorem unbindAll_spec (ns : List BNode) : ∀ st : BSt α,
    (unbindAll ns st).1 = ns.map (fun n => { n with bound := .nil }) ∧
    (unbindAll ns st).2.pool = (ns.flatMap (·.bound.tensors)).reverse ++ st.pool ∧
    ∀ t, (unbindAll ns st).2.content t = if ∃ n ∈ ns, t ∈ n.bound.tensors then none else st.content t := by
  induction ns with
  | nil => intro st; simp [unbindAll]
  | cons n ns ih =>
    intro st
    obtain ⟨u1, u2, u3⟩ := unbind_spec n st
    obtain ⟨h1, h2, h3⟩ := ih (unbind n st).2
    unfold unbindAll
    refine ⟨by simp [h1, u1], by simp [h2, u2], ?_⟩
    intro t
    simp only [h3 t, u3 t]
    by_cases ha : t ∈ n.bound.tensors
    · simp [ha]
    · simp [ha]

/-- C99, where it fails. `UnbindAll` empties the tensor the user bound to an input, whatever else is in the graph. -/
theorem unbindAll_empties_input (ns : List BNode) (st : BSt α) (n : BNode) (t : Nat) (hn : n ∈ ns)
    (hb : n.bound = .plain (some t)) : (unbindAll ns st).2.content t = none := by
  rw [(unbindAll_spec ns st).2.2 t, if_pos ⟨n, hn, by simp [hb, Bound.tensors]⟩]

/-- C99. `UnbindAllNonInputs` keeps the tensors of the inputs that no other node shares. -/
theorem unbindNonInputs_keeps (ns : List BNode) (st : BSt α) (t : Nat)
    (h : ∀ n ∈ ns, t ∈ n.bound.tensors → n.kind = .input ∨ n.kind = .constant) :
    (unbindNonInputs ns st).2.content t = st.content t ∧
      ∀ n ∈ ns, t ∈ n.bound.tensors → n ∈ (unbindNonInputs ns st).1 := by
  obtain ⟨h1, -, h3⟩ := unbindNonInputs_spec ns st
  constructor
  · rw [h3 t, if_neg]
    rintro ⟨n, hn, hr, ht⟩
    have h' := h n hn ht
    unfold releases at hr
    rw [hr] at h'
    simp at h'
  · intro n hn ht
    rw [h1]
    refine List.mem_map.mpr ⟨n, hn, ?_⟩
    have h' := h n hn ht
    rw [if_neg]
    intro hr
    unfold releases at hr
    rw [hr] at h'
    simp at h'

theorem mem_dup_of_two {β : Type} [DecidableEq β] (l : List (List β)) (i j : Nat) (hij : i < j) (a b : List β) (t : β)
    (hi : l[i]? = some a) (hj : l[j]? = some b) (ha : t ∈ a) (hb : t ∈ b) : ¬ l.flatten.Nodup := by
  induction l generalizing i j with
  | nil => simp at hi
  | cons x l ih =>
    intro hnd
    rw [List.flatten_cons, List.nodup_append] at hnd
    cases i with
    | zero =>
      simp only [List.getElem?_cons_zero, Option.some.injEq] at hi
      subst hi
      cases j with
      | zero => omega
      | succ j =>
        simp only [List.getElem?_cons_succ] at hj
        exact hnd.2.2 t ha t (List.mem_flatten.mpr ⟨b, List.mem_of_getElem? hj, hb⟩) rfl
    | succ i =>
      cases j with
      | zero => omega
      | succ j =>
        simp only [List.getElem?_cons_succ] at hi hj
        exact ih i j (by omega) hi hj hnd.2.1

/-- C99, where it fails. When two nodes are bound to the same tensor, as the tape machine leaves nodes that used the same
register one after the other (`vm_tape_nocuda.go:96,110`), the tensor is given back twice, so that the pool can hand it
out to two users at once. -/
theorem shared_given_back_twice (ns : List BNode) (st : BSt α) (i j : Nat) (n m : BNode) (t : Nat) (hij : i < j)
    (hi : ns[i]? = some n) (hj : ns[j]? = some m) (hn : n.bound = .plain (some t)) (hm : m.bound = .plain (some t)) :
    ¬ (unbindAll ns st).2.pool.Nodup := by
  intro hnd
  rw [(unbindAll_spec ns st).2.1, List.nodup_append] at hnd
  have h1 : (ns.flatMap (·.bound.tensors)).Nodup := (List.reverse_perm _).nodup_iff.mp hnd.1
  rw [List.flatMap_def] at h1
  refine mem_dup_of_two (ns.map (·.bound.tensors)) i j hij [t] [t] t ?_ ?_ (by simp) (by simp) h1
  · simp [hi, hn, Bound.tensors]
  · simp [hj, hm, Bound.tensors]

/-- C99. Without sharing (no tensor bound twice, none of them in the pool) every tensor is given back once. -/
theorem unbindAll_once (ns : List BNode) (st : BSt α) (h : (ns.flatMap (·.bound.tensors)).Nodup) (hp : st.pool.Nodup)
    (hd : ∀ t ∈ ns.flatMap (·.bound.tensors), t ∉ st.pool) : (unbindAll ns st).2.pool.Nodup := by
  rw [(unbindAll_spec ns st).2.1, List.nodup_append]
  refine ⟨(List.reverse_perm _).nodup_iff.mpr h, hp, ?_⟩
  intro a ha b hb e
  subst e
  exact hd a (List.mem_reverse.mp ha) hb

/-! ### Examples -/

/-- An input with its gradient, a constant, two results in the same register, a scalar. -/
def exNodes : List BNode :=
  [⟨.input, .dual (some 10) (some 0)⟩, ⟨.constant, .plain (some 1)⟩, ⟨.other, .plain (some 2)⟩,
   ⟨.other, .plain (some 2)⟩, ⟨.other, .plain none⟩]

def exSt : BSt Nat := { content := fun t => some (100 + t), pool := [] }

example : (unbindNonInputs exNodes exSt).2.pool = [2, 2] ∧
    [0, 1, 2, 10].map (unbindNonInputs exNodes exSt).2.content = [some 100, some 101, none, some 110] := by decide
example : (unbindAll exNodes exSt).2.pool = [2, 2, 1, 0, 10] ∧ (unbindAll exNodes exSt).2.content 0 = none := by decide
example : (unbindNonInputs exNodes exSt).1.map (·.bound) =
    [.dual (some 10) (some 0), .plain (some 1), .nil, .nil, .nil] := by decide

end Verif.Pool
