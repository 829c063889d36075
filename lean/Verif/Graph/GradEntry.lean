import Verif.Graph.Theorems

/-! What `Grad` (gorgonia.go 211-243) checks before it differentiates, and the node it starts from. -/

set_option autoImplicit false

namespace Verif.Graph

variable {L : Type} {P : Params L}

/-- The type of the cost node: a float of one of the two sizes, another element type, or not an element type at all
(`IsScalar`, node.go 341, asks for an element type). -/
inductive CostTy | f64 | f32 | other | noScalar
  deriving DecidableEq, Repr

/-- What `Grad` returns before backpropagation: an error, neither result nor error, or the graph and the node handed to
`Backpropagate` as derivative of the cost. -/
inductive GradStart (L : Type) where
  | err
  | nothing
  | back (g : G L) (seed : Ptr)

/-- `cost.g.AddNode(gradOut)` (gorgonia.go 241) for one of the package's constants `one` (const.go 87-88), a node outside
the graph. -/
def seedOf (P : Params L) (g : G L) (one : L) : GradStart L :=
  match newNode P g one [] with
  | none => .err
  | some (g', n) =>
    match addNode P g' n with
    | none => .err
    | some r => .back r.1 r.2

/-- `Grad`, gorgonia.go 211-243. In the default case of line 237 the error that is wrapped is nil, and `Wrapf` of nil is
nil. -/
def gradStart (P : Params L) (g : G L) (isInput : Ptr → Bool) (one : CostTy → L) (cost : CostTy) (wrts : List Ptr) :
    GradStart L :=
  if cost = .noScalar then .err
  else if wrts.all isInput = false then .err
  else match cost with
    | .f64 => seedOf P g (one .f64)
    | .f32 => seedOf P g (one .f32)
    | _ => .nothing

theorem seedOf_back (P : Params L) (g : G L) (one : L) : ∃ g' r, seedOf P g one = .back g' r := by
  have h1 : newNode P g one [] = some ({ g with heap := g.heap ++ [{ label := one, children := [], hash := P.hash one [], id := -1 }] },
      g.heap.length) := rfl
  simp only [seedOf, h1, addNode, List.getElem?_concat_length]
  exact ⟨_, _, rfl⟩

/-- **C105 (errors).** `Grad` refuses a request before differentiating exactly if the cost is no scalar or one of the
nodes is no input. -/
theorem grad_refuses (g : G L) (isInput : Ptr → Bool) (one : CostTy → L) (cost : CostTy) (wrts : List Ptr) :
    gradStart P g isInput one cost wrts = .err ↔ cost = .noScalar ∨ ∃ w ∈ wrts, isInput w = false := by
  unfold gradStart
  by_cases h1 : cost = .noScalar
  · simp [h1]
  · rw [if_neg h1]
    by_cases h2 : wrts.all isInput = false
    · rw [if_pos h2]
      simp only [true_iff]
      right
      simpa [List.all_eq_false] using h2
    · rw [if_neg h2]
      have h3 : ¬ ∃ w ∈ wrts, isInput w = false := by
        rintro ⟨w, hw, hf⟩
        exact h2 (List.all_eq_false.2 ⟨w, hw, by simp [hf]⟩)
      simp only [h1, h3, or_self, iff_false]
      cases cost with
      | noScalar => exact absurd rfl h1
      | other => intro h; cases h
      | f64 => obtain ⟨_, _, e⟩ := seedOf_back P g (one .f64); simp only [e]; intro h; cases h
      | f32 => obtain ⟨_, _, e⟩ := seedOf_back P g (one .f32); simp only [e]; intro h; cases h

/-- **C105 (defect).** For a scalar cost of any other type than the two floats, `Grad` returns neither gradients nor an
error, whatever the inputs. -/
theorem grad_nothing (g : G L) (isInput : Ptr → Bool) (one : CostTy → L) (cost : CostTy) (wrts : List Ptr) :
    gradStart P g isInput one cost wrts = .nothing ↔ cost = .other ∧ ∀ w ∈ wrts, isInput w = true := by
  unfold gradStart
  by_cases h1 : cost = .noScalar
  · simp [h1]
  · rw [if_neg h1]
    by_cases h2 : wrts.all isInput = false
    · rw [if_pos h2]
      constructor
      · intro h; cases h
      · rintro ⟨_, h⟩
        rw [List.all_eq_true.2 h] at h2; cases h2
    · rw [if_neg h2]
      have h3 : ∀ w ∈ wrts, isInput w = true := by simpa using h2
      cases cost with
      | noScalar => exact absurd rfl h1
      | other => exact ⟨fun _ => ⟨rfl, h3⟩, fun _ => rfl⟩
      | f64 =>
        obtain ⟨_, _, e⟩ := seedOf_back P g (one .f64)
        simp only [e]
        exact ⟨fun h => (by cases h), fun h => (by cases h.1)⟩
      | f32 =>
        obtain ⟨_, _, e⟩ := seedOf_back P g (one .f32)
        simp only [e]
        exact ⟨fun h => (by cases h), fun h => (by cases h.1)⟩

/-- In the remaining cases it differentiates, starting from the constant one of the type of the cost as asked for from
the graph. -/
theorem grad_starts (g : G L) (isInput : Ptr → Bool) (one : CostTy → L) (cost : CostTy) (wrts : List Ptr)
    (hc : cost = .f64 ∨ cost = .f32) (hw : ∀ w ∈ wrts, isInput w = true) :
    gradStart P g isInput one cost wrts = seedOf P g (one cost) ∧ ∃ g' r, seedOf P g (one cost) = .back g' r := by
  refine ⟨?_, seedOf_back P g _⟩
  have h2 : ¬ wrts.all isInput = false := by rw [List.all_eq_true.2 hw]; simp
  rcases hc with rfl | rfl
  · unfold gradStart; rw [if_neg (by decide), if_neg h2]
  · unfold gradStart; rw [if_neg (by decide), if_neg h2]

/-- **C105 (the starting node).** The derivative of the cost by itself is a member; it has the label of the constant one
of the cost's type if no recorded constant has that name and no node has that checksum. -/
theorem seed_right {g : G L} (h : Reachable P g) (one : L) (hone : P.isConst one = true)
    (hname : ∀ q ∈ g.constants, ∀ c, g.heap[q]? = some c → P.name c.label ≠ P.name one)
    (hhash : g.byHash (P.hash one []) = none) :
    ∃ g' r c, seedOf P g one = .back g' r ∧ r ∈ g'.all ∧ r ∉ g.all ∧ g'.heap[r]? = some c ∧ c.label = one ∧
      c.children = [] := by
  let n : Cell L := { label := one, children := [], hash := P.hash one [], id := -1 }
  let g1 : G L := { g with heap := g.heap ++ [n] }
  have h1 : newNode P g one [] = some (g1, g.heap.length) := rfl
  have hn : g1.heap[g.heap.length]? = some n := List.getElem?_concat_length
  have hf : g1.constants.find? (nameMatch P g1 n) = none := by
    rw [List.find?_eq_none]
    intro q hq hm
    obtain ⟨_, d, hd, _⟩ := h.W.inv.consts q hq
    have hlt := (List.getElem?_eq_some_iff.1 hd).1
    have hd' : g1.heap[q]? = some d := by rw [← hd]; exact List.getElem?_append_left hlt
    simp only [nameMatch, hd', Bool.and_eq_true, beq_iff_eq] at hm
    exact hname q hq d hd hm.1
  have hb : g1.byHash n.hash = none := hhash
  have hfresh : g1.heap.length ∉ g.all := by
    intro hm
    obtain ⟨c, hc⟩ := h.W.inv.live _ hm
    have := (List.getElem?_eq_some_iff.1 hc).1
    simp only [g1, List.length_append, List.length_singleton] at this
    exact absurd this (by simp)
  have e : addNode P g1 g.heap.length = some (ensureTo (addNodeBody P g1 g.heap.length n).1 (addNodeBody P g1 g.heap.length n).2,
      (addNodeBody P g1 g.heap.length n).2) := by
    simp only [addNode, hn]
  have hbody : addNodeBody P g1 g.heap.length n =
      ({ (addToAll { g1 with heap := g1.heap ++ [{ n with id := -1 }], constants := nodesAdd g1.constants g1.heap.length } g1.heap.length) with
          byHash := upd g1.byHash n.hash (some (some g1.heap.length)) }, g1.heap.length) := by
    simp only [addNodeBody, hf, hb]
    rw [if_pos hone]
    rfl
  have hens : ∀ (x : G L) (p : Ptr), (ensureTo x p).heap = x.heap ∧ (ensureTo x p).all = x.all := by
    intro x p
    unfold ensureTo
    cases x.to p <;> exact ⟨rfl, rfl⟩
  let body := addNodeBody P g1 g.heap.length n
  have hb2 : body.2 = g1.heap.length := by simp only [body, hbody]
  have hall : body.1.all = g.all ++ [g1.heap.length] := by simp only [body, hbody]; rfl
  have hheap : body.1.heap[g1.heap.length]? = some { n with id := (g.counter : Int) } := by
    simp only [body, hbody]
    simp [addToAll, g1]
  refine ⟨ensureTo body.1 body.2, g1.heap.length, { n with id := (g.counter : Int) }, ?_, ?_, hfresh, ?_, rfl, rfl⟩
  · simp only [seedOf, h1, e]
    exact congrArg _ hb2
  · rw [(hens _ _).2, hall]; simp
  · rw [(hens _ _).1]; exact hheap

/-- **C105 (defect: the wrong starting node).** If a recorded constant has the name of the constant one, a node of that
name is the derivative of the cost by itself, whatever its type and value; the graph keeps its nodes. -/
theorem seed_by_name {g : G L} (h : Reachable P g) (one : L) (hone : P.isConst one = true) {q : Ptr} {c : Cell L}
    (hq : q ∈ g.constants) (hc : g.heap[q]? = some c) (hn : P.name c.label = P.name one)
    (huniq : ∀ q' ∈ g.constants, ∀ d, g.heap[q']? = some d → P.name d.label = P.name one → q' = q) :
    ∃ g', seedOf P g one = .back g' q ∧ g'.all = g.all := by
  let n : Cell L := { label := one, children := [], hash := P.hash one [], id := -1 }
  let g1 : G L := { g with heap := g.heap ++ [n] }
  have h1 : newNode P g one [] = some (g1, g.heap.length) := rfl
  have hnn : g1.heap[g.heap.length]? = some n := List.getElem?_concat_length
  have hold : ∀ q' ∈ g.constants, g1.heap[q']? = g.heap[q']? := by
    intro q' hq'
    obtain ⟨_, d, hd, _⟩ := h.W.inv.consts q' hq'
    exact List.getElem?_append_left (List.getElem?_eq_some_iff.1 hd).1
  cases hm : g1.constants.find? (nameMatch P g1 n) with
  | none =>
    have := List.find?_eq_none.1 hm q hq
    simp only [nameMatch, hold q hq, hc] at this
    exact absurd (by simp [n, hn, hone]) this
  | some r =>
    have hr : r ∈ g.constants := List.mem_of_find?_eq_some hm
    have ht := List.find?_some hm
    obtain ⟨_, d, hd, _⟩ := h.W.inv.consts r hr
    simp only [nameMatch, hold r hr, hd, Bool.and_eq_true, beq_iff_eq] at ht
    have hrq : r = q := huniq r hr d hd ht.1
    subst hrq
    have hb : addNodeBody P g1 g.heap.length n = (g1, r) := by simp only [addNodeBody, hm]
    refine ⟨ensureTo g1 r, by simp only [seedOf, h1, addNode, hnn, hb], ?_⟩
    unfold ensureTo
    cases g1.to r <;> rfl

/-- Labels: name, type, value; constants have no operands and a value. -/
def seedP : Params (String × String × Option Int) where
  hash := fun l hs => hs.foldl (fun a h => a * 31 + h) (l.1.length * 100 + l.2.1.length * 7 + (l.2.2.getD 3).toNat).toUInt32
  eq := fun a k b k' => a == b && k == k'
  isConst := fun l => l.2.2.isSome
  name := fun l => l.1

/-- The constants one of const.go 87-88. -/
def oneLabel : CostTy → String × String × Option Int
  | .f32 => ("1", "float32", some 1)
  | _ => ("1", "float64", some 1)

/-- Label of the starting node of `Grad`. -/
def seedLabel (s : GradStart (String × String × Option Int)) : Option (String × String × Option Int) :=
  match s with
  | .back g r => (g.heap[r]?).map (·.label)
  | _ => none

/-- **C105 (defect, cases).** A graph with the constant one of float32 (as the gradient of a float32 cost leaves it)
starts the gradient of a float64 cost from the float32 one; a constant 5 that the user named "1" makes all gradients five
times too large; without such constants the start is right. -/
theorem seed_cases :
    (∃ g, run seedP empty [.unique ("x", "float64", none) [], .newConst ("1", "float32", some 1), .add 1] = some g ∧
      seedLabel (gradStart seedP g (fun p => p == 0) oneLabel .f64 [0]) = some ("1", "float32", some 1)) ∧
    (∃ g, run seedP empty [.unique ("x", "float64", none) [], .newConst ("1", "float64", some 5), .add 1] = some g ∧
      seedLabel (gradStart seedP g (fun p => p == 0) oneLabel .f64 [0]) = some ("1", "float64", some 5)) ∧
    (∃ g, run seedP empty [.unique ("x", "float64", none) []] = some g ∧
      seedLabel (gradStart seedP g (fun p => p == 0) oneLabel .f64 [0]) = some ("1", "float64", some 1)) :=
  ⟨⟨_, rfl, by decide +kernel⟩, ⟨_, rfl, by decide +kernel⟩, ⟨_, rfl, by decide +kernel⟩⟩

example : gradStart seedP empty (fun p => p == 0) oneLabel .other [0, 0] = .nothing :=
  (grad_nothing _ _ _ _ _).2 ⟨rfl, by decide⟩

example : gradStart seedP empty (fun p => p == 0) oneLabel .f64 [0, 3] = .err :=
  (grad_refuses _ _ _ _ _).2 (Or.inr ⟨3, by decide, by decide⟩)

end Verif.Graph
