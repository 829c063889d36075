import Verif.Lisp.TensorExample
/-!
Which nodes the define-by-run machine differentiates (C110): `checkRoots` (vm_genera.go 227-247), the case for roots in `forward` (390), `isRoot`
(node.go 328-333) and `Roots` (graph.go 236-256), on graphs with statements (`Read`, `Set`).

The machine starts the derivatives of the roots with ones. What a root is depends on the statements of the graph, on how often a statement has been
asked for, and on whether `Roots` has been called before on the graph.

Simplified as in `Verif.Lisp.Tensor`. The statements are kept apart from the nodes: they are not operands, `forward` binds no value to them and puts
nothing in the queue for them (415-437, 491), and both places that look at roots skip them. A `Read` takes the value of its operand when its turn comes,
after the operand's (434); the values of nodes do not change after they have been bound. The type of a node is the type of its value.
-/
set_option autoImplicit false
namespace Verif.Lisp.Tensor
open Verif.Tensor Verif.Shape Verif.AD Filter
open scoped Topology

noncomputable section

/-- `readOp` and `letOp` (op_infidel.go 24-60), with the nodes they are applied to. -/
inductive Stmt where
  | read (c : Nat)
  | set (a b : Nat)
deriving DecidableEq

def Stmt.kids : Stmt → List Nat
  | .read c => [c]
  | .set a b => [a, b]

/-- What is recorded in the map `to` of the graph: a node or a statement. -/
inductive User where
  | node (i : Nat)
  | stmt (k : Nat)
deriving DecidableEq

/-- A graph with statements: the users recorded for every node (graph.go 231-232; asking again for a node that is there records its edges again,
node.go 295-299), and the roots if they have been asked for before or have been given (graph.go 237-240, 254, 700). -/
structure Prog where
  G : LG
  stmts : List Stmt
  uses : Nat → List User
  kept : Option (List Nat)

/-- One node of the first call of `Roots` (graph.go 242-252): nobody uses it, or it is what a `Read` reads and has one recorded use. -/
def Prog.rootFirst (P : Prog) (j : Nat) : Bool := (P.uses j).isEmpty || (P.stmts.contains (.read j) && (P.uses j).length == 1)

/-- `Roots` (graph.go 236-256), without the statements it lists too. -/
def Prog.roots (P : Prog) : List Nat :=
  match P.kept with
  | some l => l
  | none => (List.range P.G.length).filter P.rootFirst

/-- The condition in `forward` (vm_genera.go 390) for nodes that are no statements; the roots have been asked for in `checkRoots`. -/
def Prog.seeded (P : Prog) (j : Nat) : Bool := P.roots.contains j || (P.uses j).isEmpty

/-- `checkRoots` (vm_genera.go 227-247): whether it is content. `man`: the option `WithManualGradient` (vm.go 306-316). `IsScalar` (node.go 341). -/
def Prog.checkRoots (P : Prog) (man : Bool) (x : Nat → T ℝ) : Bool := man || P.roots.all fun r => decide (P.G.tg.sh x r = [])

/-- What the statements leave in the variables: a `Read` the value (vm_genera.go 415-437), a `Set` nothing. -/
def Prog.delivered (P : Prog) (s : St) : List (Option (T ℝ)) := P.stmts.map fun
  | .read c => some (s.W c)
  | .set _ _ => none

/-- `RunAll` (vm_genera.go 121-190) of a new machine. -/
def Prog.runAll (P : Prog) (man : Bool) (x d : Nat → T ℝ) : Option (St × List (Option (T ℝ))) :=
  if P.checkRoots man x then (P.G.runS P.seeded x d).map fun s => (s, P.delivered s) else none

/-! ### Specification -/

/-- The records are right: exactly the nodes and statements that use a node are recorded for it, each once or several times. -/
structure Prog.Recorded (P : Prog) : Prop where
  node : ∀ i j, .node i ∈ P.uses j ↔ ∃ n, P.G[i]? = some n ∧ j ∈ n.tnode.kids
  stmt : ∀ k j, .stmt k ∈ P.uses j ↔ ∃ s, P.stmts[k]? = some s ∧ j ∈ s.kids

/-- A result: a computed node that no operation uses. -/
def Prog.Result (P : Prog) (j : Nat) : Prop := ∃ n, P.G[j]? = some n ∧ n.isLeaf = false ∧ ∀ m ∈ P.G, j ∉ m.tnode.kids

/-! ### Which nodes are differentiated -/

theorem Prog.result_uses {P : Prog} (R : P.Recorded) {j : Nat} (h : P.Result j) : ∀ u ∈ P.uses j, ∃ k, u = .stmt k := by
  obtain ⟨_, _, _, h⟩ := h
  intro u hu
  cases u with
  | stmt k => exact ⟨k, rfl⟩
  | node i =>
    obtain ⟨n, hn, hj⟩ := (R.node i j).1 hu
    exact absurd hj (h n (List.mem_of_getElem? hn))

/-- **C110 (which nodes).** Where `Roots` has not been called before, the nodes differentiated are those that nothing uses, and those whose
one recorded use is a `Read`. -/
theorem seeded_iff {P : Prog} (R : P.Recorded) (hk : P.kept = none) {j : Nat} (hj : j < P.G.length) :
    P.seeded j = true ↔ P.uses j = [] ∨ ∃ k, P.uses j = [.stmt k] ∧ P.stmts[k]? = some (.read j) := by
  simp only [Prog.seeded, Prog.roots, hk, Bool.or_eq_true, List.contains_iff_mem, List.mem_filter, List.mem_range, hj, true_and, Prog.rootFirst,
    List.isEmpty_iff, Bool.and_eq_true, beq_iff_eq]
  constructor
  · rintro ((h | ⟨h1, h2⟩) | h)
    · exact .inl h
    · obtain ⟨k, hk⟩ := List.mem_iff_getElem?.1 h1
      have := (R.stmt k j).2 ⟨_, hk, by simp [Stmt.kids]⟩
      obtain ⟨u, hu⟩ := List.length_eq_one_iff.1 h2
      rw [hu, List.mem_singleton] at this
      subst this
      exact .inr ⟨k, hu, hk⟩
    · exact .inl h
  · rintro (h | ⟨k, h1, h2⟩)
    · exact .inr h
    · exact .inl (.inr ⟨List.mem_of_getElem? h2, by rw [h1]; rfl⟩)

/-- An operand of an operation is not differentiated as a root, whatever reads it. -/
theorem seeded_operand {P : Prog} (R : P.Recorded) (hk : P.kept = none) {i j : Nat} {n : LNode} (hj : j < P.G.length) (hn : P.G[i]? = some n)
    (hu : j ∈ n.tnode.kids) : P.seeded j = false := by
  rw [Bool.eq_false_iff]
  intro h
  have hm := (R.node i j).2 ⟨n, hn, hu⟩
  rcases (seeded_iff R hk hj).1 h with h | ⟨k, h, _⟩ <;> rw [h] at hm <;> simp at hm

theorem unseeded_first {P : Prog} (R : P.Recorded) (hk : P.kept = none) (W : P.G.tg.Sorted) : P.G.Unseeded P.seeded := by
  intro i o ks s c hn _ _ hc
  have hm := List.mem_of_getElem? hc
  have := (W i _ (P.G.tg_get hn) c hm).2
  rw [P.G.tg_length] at this
  exact seeded_operand R hk this hn hm

/-! ### What a run leaves -/

/-- **C110 (gradient).** A run that passes `checkRoots` delivers to every `Read` the value of its operand, and adds to the derivative of every input the
gradient of the sum of the entries of the nodes taken for roots. -/
theorem runAll_gradient (P : Prog) (man : Bool) (W : P.G.tg.Sorted) (x d : Nat → T ℝ) (S : P.G.tg.Fine x) (A : P.G.Adds x)
    (hd : ∀ w, P.G[w]? = some .leaf → (d w).shape = (x w).shape) (hd0 : P.G.Blank d) (hsd : P.G.Unseeded P.seeded)
    (hc : P.checkRoots man x = true) :
    ∃ s, P.runAll man x d = some (s, P.stmts.map fun st => match st with
        | .read c => some (theT (P.G.tg.value x c))
        | .set _ _ => none) ∧
      (∀ j, P.G.tg.value x j = .ok (s.W j)) ∧ (∀ w, P.G[w]? = some .leaf → (s.D w).shape = (x w).shape) ∧
      ∀ (γ : ℝ → Nat → T ℝ) (v : Nat → T ℝ) (t₀ : ℝ), γ t₀ = x → (∀ w, P.G[w]? = some .leaf → Moves (fun t => γ t w) (v w) t₀) →
        (∀ i, P.G[i]? ≠ some .leaf → ∀ t, γ t i = x i) →
        HasDerivAt (fun t => ∑ j ∈ Finset.range P.G.length, if (P.G.getD j .leaf).isLeaf = false ∧ P.seeded j = true then
            sumOver (P.G.tg.sh x j) (theT (P.G.tg.value (γ t) j)).at_ else 0)
          (∑ w ∈ Finset.range P.G.length, if (P.G.getD w .leaf).isLeaf then pair (s.D w) (v w) - pair (d w) (v w) else 0) t₀ := by
  obtain ⟨s, s1, s2, s3, s4⟩ := lisp_tensor_seeds P.G P.seeded W x d S A hd hd0 hsd
  refine ⟨s, ?_, s2, s3, s4⟩
  unfold Prog.runAll
  rw [if_pos hc, s1]
  simp only [Option.map_some, Prog.delivered]
  congr 2
  refine List.map_congr_left fun st _ => ?_
  cases st with
  | read c => simp only [s2 c]; rfl
  | set a b => rfl

/-- Moving one entry of one input. -/
theorem move_one {G : LG} {x d D : Nat → T ℝ} {F : (Nat → T ℝ) → ℝ} {w : Nat} (hw : G[w]? = some .leaf) (hd : (d w).shape = (x w).shape)
    (hD : (D w).shape = (x w).shape) (i : List Nat) (hi : InB (x w).shape i)
    (h : ∀ (γ : ℝ → Nat → T ℝ) (v : Nat → T ℝ) (t₀ : ℝ), γ t₀ = x → (∀ w, G[w]? = some .leaf → Moves (fun t => γ t w) (v w) t₀) →
        (∀ i, G[i]? ≠ some .leaf → ∀ t, γ t i = x i) →
        HasDerivAt (fun t => F (γ t)) (∑ w ∈ Finset.range G.length, if (G.getD w .leaf).isLeaf then pair (D w) (v w) - pair (d w) (v w) else 0) t₀) :
    HasDerivAt (fun t => F fun j => if j = w then ⟨(x w).shape, fun k => (x w).at_ k + t * if i = k then 1 else 0⟩ else x j)
      ((D w).at_ i - (d w).at_ i) 0 := by
  have hlen := (List.getElem?_eq_some_iff.1 hw).1
  refine (h (fun t j => if j = w then ⟨(x w).shape, fun k => (x w).at_ k + t * if i = k then 1 else 0⟩ else x j)
    (fun j => if j = w then ⟨(x w).shape, fun k => if i = k then 1 else 0⟩ else zeroT (x j).shape) 0 ?_ ?_ ?_).congr_deriv ?_
  · funext j
    by_cases e : j = w
    · subst e; simp
    · simp [e]
  · intro j _
    by_cases e : j = w
    · subst e
      simp only [if_true]
      exact ⟨rfl, Eventually.of_forall fun _ => rfl, fun k _ => by
        show HasDerivAt (fun t : ℝ => (x j).at_ k + t * if i = k then 1 else 0) (if i = k then 1 else 0) 0
        exact hasDerivAt_line _ _⟩
    · simp only [e, if_false]
      exact ⟨rfl, Eventually.of_forall fun _ => rfl, fun _ _ => hasDerivAt_const _ _⟩
  · intro j hj t
    have : j ≠ w := by rintro rfl; exact hj hw
    simp [this]
  · rw [Finset.sum_eq_single w]
    · rw [G.getD_of hw]
      simp only [LNode.isLeaf, if_true]
      rw [pair_single _ _ i hD hi, pair_single _ _ i hd hi]
    · intro j _ hj
      simp [hj, pair_zeroT]
    · intro h; exact absurd (Finset.mem_range.2 hlen) h

/-- **C110 (the cost).** One scalar result `c`, read once or not at all: on a graph whose roots have not been asked for before, with no unused inputs other
than scalars, the run succeeds, the `Read`s deliver the values, and what is added to each entry of each input is the partial derivative of the cost. -/
theorem cost_gradient (P : Prog) (R : P.Recorded) (hk : P.kept = none) (W : P.G.tg.Sorted) (x d : Nat → T ℝ) (S : P.G.tg.Fine x) (A : P.G.Adds x)
    (hd : ∀ w, P.G[w]? = some .leaf → (d w).shape = (x w).shape) (hd0 : P.G.Blank d)
    (c : Nat) (hc : P.Result c) (hcs : P.G.tg.sh x c = []) (hread : P.uses c = [] ∨ ∃ k, P.uses c = [.stmt k] ∧ P.stmts[k]? = some (.read c))
    (honly : ∀ j, P.Result j → j = c)
    (hin : ∀ w, P.G[w]? = some .leaf → (x w).shape = [] ∨ ∃ n ∈ P.G, w ∈ n.tnode.kids) :
    ∃ s, P.runAll false x d = some (s, P.stmts.map fun st => match st with
        | .read c => some (theT (P.G.tg.value x c))
        | .set _ _ => none) ∧
      (∀ j, P.G.tg.value x j = .ok (s.W j)) ∧ (∀ w, P.G[w]? = some .leaf → (s.D w).shape = (x w).shape) ∧
      ∀ w, P.G[w]? = some .leaf → ∀ i, InB (x w).shape i →
        HasDerivAt (fun t => (theT (P.G.tg.value (fun j => if j = w then ⟨(x w).shape, fun k => (x w).at_ k + t * if i = k then 1 else 0⟩ else x j) c)).at_ [])
          ((s.D w).at_ i - (d w).at_ i) 0 := by
  obtain ⟨nc, hnc, hcl, hcu⟩ := hc
  have hclen := (List.getElem?_eq_some_iff.1 hnc).1
  have hseedc : P.seeded c = true := (seeded_iff R hk hclen).2 hread
  have hother : ∀ j, j < P.G.length → (P.G.getD j .leaf).isLeaf = false → P.seeded j = true → j = c := by
    intro j hj hl hs
    have hn : P.G[j]? = some P.G[j] := List.getElem?_eq_getElem hj
    rw [P.G.getD_of hn] at hl
    refine honly j ⟨_, hn, hl, fun m hm hjm => ?_⟩
    obtain ⟨i, hi⟩ := List.mem_iff_getElem?.1 hm
    rw [seeded_operand R hk hj hi hjm] at hs
    cases hs
  have hcheck : P.checkRoots false x = true := by
    simp only [Prog.checkRoots, Bool.false_or, List.all_eq_true, decide_eq_true_eq]
    intro r hr
    have hrs : P.seeded r = true := by simp [Prog.seeded, hr]
    have hrl : r < P.G.length := by
      simp only [Prog.roots, hk, List.mem_filter, List.mem_range] at hr
      exact hr.1
    cases hl : (P.G.getD r .leaf).isLeaf with
    | false => rw [hother r hrl hl hrs]; exact hcs
    | true =>
      have hn : P.G[r]? = some P.G[r] := List.getElem?_eq_getElem hrl
      have hleaf : P.G[r]? = some .leaf := by
        rw [P.G.getD_of hn] at hl
        rw [hn]
        cases e : P.G[r] <;> rw [e] at hl <;> simp [LNode.isLeaf] at hl ⊢
      rcases hin r hleaf with h | ⟨m, hm, hrm⟩
      · unfold TG.sh; rw [P.G.value_leaf W x hl]; exact h
      · obtain ⟨i, hi⟩ := List.mem_iff_getElem?.1 hm
        rw [seeded_operand R hk hrl hi hrm] at hrs
        cases hrs
  obtain ⟨s, s1, s2, s3, s4⟩ := runAll_gradient P false W x d S A hd hd0 (unseeded_first R hk W) hcheck
  refine ⟨s, s1, s2, s3, fun w hw i hi => ?_⟩
  have key := move_one (F := fun y => ∑ j ∈ Finset.range P.G.length, if (P.G.getD j .leaf).isLeaf = false ∧ P.seeded j = true then
    sumOver (P.G.tg.sh x j) (theT (P.G.tg.value y j)).at_ else 0) hw (hd w hw) (s3 w hw) i hi s4
  refine key.congr_of_eventuallyEq (Eventually.of_forall fun t => ?_)
  simp only
  rw [Finset.sum_eq_single c]
  · rw [P.G.getD_of hnc, hcl, hseedc]
    simp [hcs, sumOver, size, unravel]
  · intro j hj hne
    refine if_neg fun h => hne (hother j (Finset.mem_range.1 hj) h.1 h.2)
  · intro h; exact absurd (Finset.mem_range.2 hclen) h

/-- Where no computed node is taken for a root, nothing is added. -/
theorem nothing_added (P : Prog) (man : Bool) (W : P.G.tg.Sorted) (x d : Nat → T ℝ) (S : P.G.tg.Fine x)
    (A : P.G.Adds x) (hd : ∀ w, P.G[w]? = some .leaf → (d w).shape = (x w).shape) (hd0 : P.G.Blank d) (hsd : P.G.Unseeded P.seeded)
    (hcheck : P.checkRoots man x = true) (hnone : ∀ j, j < P.G.length → (P.G.getD j .leaf).isLeaf = false → P.seeded j = false) :
    ∃ s out, P.runAll man x d = some (s, out) ∧ ∀ w, P.G[w]? = some .leaf → (s.D w).shape = (d w).shape ∧
      ∀ i, InB (x w).shape i → (s.D w).at_ i = (d w).at_ i := by
  obtain ⟨s, s1, _, s3, s4⟩ := runAll_gradient P man W x d S A hd hd0 hsd hcheck
  refine ⟨s, _, s1, fun w hw => ⟨(s3 w hw).trans (hd w hw).symm, fun i hi => ?_⟩⟩
  have key := move_one (F := fun y => ∑ j ∈ Finset.range P.G.length, if (P.G.getD j .leaf).isLeaf = false ∧ P.seeded j = true then
    sumOver (P.G.tg.sh x j) (theT (P.G.tg.value y j)).at_ else 0) hw (hd w hw) (s3 w hw) i hi s4
  have h0 : ∀ y : Nat → T ℝ, (∑ j ∈ Finset.range P.G.length, if (P.G.getD j .leaf).isLeaf = false ∧ P.seeded j = true then
      sumOver (P.G.tg.sh x j) (theT (P.G.tg.value y j)).at_ else 0) = 0 := fun y =>
    Finset.sum_eq_zero fun j hj => if_neg fun h => by
      rw [hnone j (Finset.mem_range.1 hj) h.1] at h
      cases h.2
  simp only [h0] at key
  have := key.unique (hasDerivAt_const _ _)
  linarith

/-- **C110 (defect: read twice).** If every result has two or more recorded uses (two `Read`s of the cost, or one asked for twice), the run succeeds but
nothing is added to any derivative. -/
theorem read_twice_lost (P : Prog) (man : Bool) (R : P.Recorded) (hk : P.kept = none) (W : P.G.tg.Sorted) (x d : Nat → T ℝ) (S : P.G.tg.Fine x)
    (A : P.G.Adds x) (hd : ∀ w, P.G[w]? = some .leaf → (d w).shape = (x w).shape) (hd0 : P.G.Blank d)
    (htwice : ∀ j, P.Result j → 2 ≤ (P.uses j).length)
    (hin : ∀ w, P.G[w]? = some .leaf → (x w).shape = [] ∨ ∃ n ∈ P.G, w ∈ n.tnode.kids) :
    ∃ s out, P.runAll man x d = some (s, out) ∧ ∀ w, P.G[w]? = some .leaf → (s.D w).shape = (d w).shape ∧
      ∀ i, InB (x w).shape i → (s.D w).at_ i = (d w).at_ i := by
  have hnone : ∀ j, j < P.G.length → (P.G.getD j .leaf).isLeaf = false → P.seeded j = false := by
    intro j hj hl
    rw [Bool.eq_false_iff]
    intro hs
    have hn : P.G[j]? = some P.G[j] := List.getElem?_eq_getElem hj
    rw [P.G.getD_of hn] at hl
    have := htwice j ⟨_, hn, hl, fun m hm hjm => by
      obtain ⟨i, hi⟩ := List.mem_iff_getElem?.1 hm
      rw [seeded_operand R hk hj hi hjm] at hs
      cases hs⟩
    rcases (seeded_iff R hk hj).1 hs with h | ⟨k, h, _⟩ <;> rw [h] at this <;> simp at this
  have hcheck : P.checkRoots man x = true := by
    simp only [Prog.checkRoots, Bool.or_eq_true, List.all_eq_true, decide_eq_true_eq]
    right
    intro r hr
    have hrs : P.seeded r = true := by simp [Prog.seeded, hr]
    have hrl : r < P.G.length := by
      simp only [Prog.roots, hk, List.mem_filter, List.mem_range] at hr
      exact hr.1
    cases hl : (P.G.getD r .leaf).isLeaf with
    | false => rw [hnone r hrl hl] at hrs; cases hrs
    | true =>
      have hn : P.G[r]? = some P.G[r] := List.getElem?_eq_getElem hrl
      have hleaf : P.G[r]? = some .leaf := by
        rw [P.G.getD_of hn] at hl
        rw [hn]
        cases e : P.G[r] <;> rw [e] at hl <;> simp [LNode.isLeaf] at hl ⊢
      rcases hin r hleaf with h | ⟨m, hm, hrm⟩
      · unfold TG.sh; rw [P.G.value_leaf W x hl]; exact h
      · obtain ⟨i, hi⟩ := List.mem_iff_getElem?.1 hm
        rw [seeded_operand R hk hrl hi hrm] at hrs
        cases hrs
  exact nothing_added P man W x d S A hd hd0 (unseeded_first R hk W) hcheck hnone

/-- The copy of a graph (graph.go 61-134), what matters here: nodes and users are copied (66-90, 108-115), and the roots, where none are kept, as an empty list,
not as none (127-130). -/
def Prog.clone (P : Prog) : Prog := { P with kept := some (P.kept.getD []) }

/-- **C110 (defect: copies).** On a copy of a graph whose roots have not been asked for, a cost that is read is not differentiated: the run succeeds whatever the
shapes of the results, and nothing is added to any derivative. -/
theorem clone_read_lost (P : Prog) (man : Bool) (R : P.Recorded) (hk : P.kept = none) (W : P.G.tg.Sorted) (x d : Nat → T ℝ) (S : P.G.tg.Fine x)
    (A : P.G.Adds x) (hd : ∀ w, P.G[w]? = some .leaf → (d w).shape = (x w).shape) (hd0 : P.G.Blank d)
    (hread : ∀ j, P.Result j → P.uses j ≠ []) :
    ∃ s out, P.clone.runAll man x d = some (s, out) ∧ ∀ w, P.G[w]? = some .leaf → (s.D w).shape = (d w).shape ∧
      ∀ i, InB (x w).shape i → (s.D w).at_ i = (d w).at_ i := by
  have hs : ∀ j, P.clone.seeded j = (P.uses j).isEmpty := fun j => by simp [Prog.seeded, Prog.roots, Prog.clone, hk]
  refine nothing_added P.clone man W x d S A hd hd0 ?_ ?_ ?_
  · intro i o ks st c hn _ _ hc
    rw [hs, Bool.eq_false_iff, ne_eq, List.isEmpty_iff]
    intro he
    have hm := (R.node i c).2 ⟨_, hn, List.mem_of_getElem? hc⟩
    rw [he] at hm
    cases hm
  · simp [Prog.checkRoots, Prog.roots, Prog.clone, hk]
  · intro j hj hl
    rw [hs, Bool.eq_false_iff, ne_eq, List.isEmpty_iff]
    intro he
    have hn : P.G[j]? = some P.G[j] := List.getElem?_eq_getElem hj
    rw [show P.clone.G = P.G from rfl, P.G.getD_of hn] at hl
    refine hread j ⟨_, hn, hl, fun m hm hjm => ?_⟩ he
    obtain ⟨i, hi⟩ := List.mem_iff_getElem?.1 hm
    have hm := (R.node i j).2 ⟨_, hi, hjm⟩
    rw [he] at hm
    cases hm

/-- The graph after its roots have been asked for (graph.go 254). -/
def Prog.asked (P : Prog) : Prog := { P with kept := some P.roots }

/-- Asking for the roots once does not change the runs on the graph as long as it is the same. -/
theorem runAll_asked (P : Prog) (man : Bool) (x d : Nat → T ℝ) : P.asked.runAll man x d = P.runAll man x d := rfl

/-- **C110 (check).** A run is refused exactly if one of the roots is no scalar and the caller has not asked for setting the derivatives of roots. -/
theorem refused_iff (P : Prog) (man : Bool) (x d : Nat → T ℝ) (hrun : (P.G.runS P.seeded x d).isSome) :
    P.runAll man x d = none ↔ man = false ∧ ∃ r ∈ P.roots, P.G.tg.sh x r ≠ [] := by
  obtain ⟨s, hs⟩ := Option.isSome_iff_exists.1 hrun
  unfold Prog.runAll
  by_cases h : P.checkRoots man x = true
  · rw [if_pos h, hs]
    simp only [Option.map_some, reduceCtorEq, false_iff]
    rintro ⟨rfl, r, hr, hne⟩
    simp only [Prog.checkRoots, Bool.false_or, List.all_eq_true, decide_eq_true_eq] at h
    exact hne (h r hr)
  · rw [if_neg h]
    simp only [true_iff]
    cases man with
    | true => simp [Prog.checkRoots] at h
    | false =>
      simp only [Prog.checkRoots, Bool.false_or, List.all_eq_true, decide_eq_true_eq] at h
      push Not at h
      exact ⟨rfl, h⟩

/-- **C110 (check, first call).** A result that is no scalar and is not read, an unused input that is no scalar: the run is refused. -/
theorem nonscalar_refused (P : Prog) (x d : Nat → T ℝ) (hk : P.kept = none) {j : Nat} (hj : j < P.G.length) (hu : P.uses j = [])
    (hs : P.G.tg.sh x j ≠ []) : P.runAll false x d = none := by
  unfold Prog.runAll
  rw [if_neg]
  simp only [Prog.checkRoots, Bool.false_or, List.all_eq_true, decide_eq_true_eq]
  intro h
  refine hs (h j ?_)
  simp only [Prog.roots, hk, List.mem_filter, List.mem_range, Prog.rootFirst, hu]
  exact ⟨hj, rfl⟩

/-- **C110 (defect: kept roots).** The roots are kept from the first time they are asked for. On a graph to which nodes have been added since, the old roots are
differentiated as well, and the new ones are not checked. -/
theorem kept_seeded (P : Prog) (l : List Nat) (hk : P.kept = some l) (j : Nat) : P.seeded j = true ↔ j ∈ l ∨ P.uses j = [] := by
  simp [Prog.seeded, Prog.roots, hk, List.isEmpty_iff]

theorem kept_unchecked (P : Prog) (l : List Nat) (hk : P.kept = some l) (x : Nat → T ℝ) (hl : ∀ r ∈ l, P.G.tg.sh x r = []) :
    P.checkRoots false x = true := by
  simp only [Prog.checkRoots, Bool.false_or, List.all_eq_true, decide_eq_true_eq, Prog.roots, hk]
  exact hl

/-! ### A model -/

/-- The classifier of `Verif.Lisp.TensorExample` with statements; `us` are the recorded uses of the cost. -/
def tiedP (stmts : List Stmt) (us : List User) (kept : Option (List Nat)) : Prog where
  G := lTied
  stmts := stmts
  uses := fun
    | 0 => us
    | 1 => [.node 0]
    | 2 => [.node 1]
    | 3 => [.node 2]
    | 4 => [.node 2]
    | 5 => [.node 4]
    | 6 => [.node 5]
    | 7 => [.node 6]
    | 8 => [.node 5, .node 6]
    | _ => []
  kept := kept

theorem lTied_nofresh {i : Nat} {o : LOp} {ks : List Nat} {st : LStep} (h : lTied[i]? = some (.op o ks)) (hs : st ∈ o.steps) : st.fresh = false := by
  match i, h with
  | 0, h | 1, h | 4, h =>
    cases h
    obtain rfl := List.mem_singleton.1 hs
    rfl
  | 2, h | 5, h | 6, h =>
    cases h
    rcases List.mem_cons.1 hs with rfl | hs
    · rfl
    · rcases List.mem_cons.1 hs with rfl | hs
      · rfl
      · cases hs
  | 3, h | 7, h | 8, h => cases h
  | i + 9, h => simp [lTied] at h

theorem lTied_leaf {w : Nat} (h : lTied[w]? = some .leaf) : w ∈ [3, 7, 8] := by
  match w, h with
  | 3, _ | 7, _ | 8, _ => simp
  | 0, h | 1, h | 2, h | 4, h | 5, h | 6, h => cases h
  | w + 9, h => simp [lTied] at h

theorem tiedP_used (stmts : List Stmt) (us : List User) (kept : Option (List Nat)) {j : Nat} (h : (tiedP stmts us kept).Result j) : j = 0 := by
  obtain ⟨n, h1, _, h3⟩ := h
  have hm : ∀ i, (hi : i < lTied.length) → j ∉ (lTied[i]).tnode.kids := fun i hi => h3 _ (List.getElem_mem hi)
  have m0 := hm 0 (by simp [lTied])
  have m1 := hm 1 (by simp [lTied])
  have m2 := hm 2 (by simp [lTied])
  have m4 := hm 4 (by simp [lTied])
  have m5 := hm 5 (by simp [lTied])
  have m6 := hm 6 (by simp [lTied])
  have hl : j < 9 := (List.getElem?_eq_some_iff.1 h1).1
  simp [lTied, LNode.tnode, TNode.kids] at m0 m1 m2 m4 m5 m6
  omega

theorem tiedP_recorded (stmts : List Stmt) (us : List User) (kept : Option (List Nat))
    (hs : ∀ k j, (∃ s, stmts[k]? = some s ∧ j ∈ s.kids) ↔ j = 0 ∧ .stmt k ∈ us) (hn : ∀ i, User.node i ∉ us) : (tiedP stmts us kept).Recorded := by
  constructor
  · intro i j
    show _ ↔ ∃ n, lTied[i]? = some n ∧ _
    have hj : ∀ {n : LNode}, lTied[i]? = some n → j ∈ n.tnode.kids → j < 9 := fun h hj => by
      have := (lTied_sorted i _ (lTied.tg_get h) j hj).2
      simpa [lTied, LG.tg] using this
    match j with
    | 0 =>
      simp only [tiedP, hn i, false_iff]
      rintro ⟨n, h1, h2⟩
      have := (lTied_sorted i _ (lTied.tg_get h1) 0 h2).1
      omega
    | 1 | 2 | 3 | 4 | 5 | 6 | 7 | 8 =>
      match i with
      | 0 | 1 | 2 | 3 | 4 | 5 | 6 | 7 | 8 => simp [tiedP, lTied, LNode.tnode, TNode.kids]
      | i + 9 => simp [tiedP, lTied]
    | j + 9 =>
      simp only [tiedP, List.not_mem_nil, false_iff]
      rintro ⟨n, h1, h2⟩
      have := hj h1 h2
      omega
  · intro k j
    show _ ↔ ∃ s, stmts[k]? = some s ∧ _
    rw [hs]
    match j with
    | 0 => simp [tiedP]
    | 1 | 2 | 3 | 4 | 5 | 6 | 7 | 8 => simp [tiedP]
    | j + 9 => simp [tiedP]

theorem tiedP_inputs (stmts : List Stmt) (us : List User) (kept : Option (List Nat)) (w : Nat) (hw : (tiedP stmts us kept).G[w]? = some .leaf) :
    ∃ n ∈ (tiedP stmts us kept).G, w ∈ n.tnode.kids := by
  have hl := lTied_leaf hw
  simp only [List.mem_cons, List.not_mem_nil, or_false] at hl
  show ∃ n ∈ lTied, _
  have hm : ∀ i, (hi : i < lTied.length) → lTied[i] ∈ lTied := fun i hi => List.getElem_mem hi
  rcases hl with rfl | rfl | rfl
  · exact ⟨_, hm 2 (by simp [lTied]), by simp [lTied, LNode.tnode, TNode.kids]⟩
  · exact ⟨_, hm 6 (by simp [lTied]), by simp [lTied, LNode.tnode, TNode.kids]⟩
  · exact ⟨_, hm 6 (by simp [lTied]), by simp [lTied, LNode.tnode, TNode.kids]⟩

section
variable (x d : Nat → T ℝ) (n m k : Nat) (hn : n ≠ 0) (hm : m ≠ 0) (h3 : (x 3).shape = [n, m]) (h7 : (x 7).shape = [n, m])
  (h8 : (x 8).shape = [m, k]) (hd : ∀ w ∈ [3, 7, 8], (d w).shape = (x w).shape)
include hn hm h3 h7 h8 hd

/-- Read once, the cost is delivered and the gradient is that of the cost. -/
theorem tied_read_once : ∃ s, (tiedP [.read 0] [.stmt 0] none).runAll false x d = some (s, [some (theT (lTied.tg.value x 0))]) ∧
    ∀ i, InB (x 8).shape i →
      HasDerivAt (fun t => (theT (lTied.tg.value (fun j => if j = 8 then ⟨(x 8).shape, fun k => (x 8).at_ k + t * if i = k then 1 else 0⟩ else x j) 0)).at_ [])
        ((s.D 8).at_ i - (d 8).at_ i) 0 := by
  obtain ⟨S, A, h0⟩ := lTied_ok x n m k hn hm h3 h7 h8
  have R : (tiedP [.read 0] [.stmt 0] none).Recorded := by
    refine tiedP_recorded _ _ _ (fun k j => ?_) (fun i => by simp)
    match k with
    | 0 => simp [Stmt.kids]
    | k + 1 => simp
  obtain ⟨s, s1, _, _, s2⟩ := cost_gradient (tiedP [.read 0] [.stmt 0] none) R rfl lTied_sorted x d S.fine A
    (fun w hw => hd w (lTied_leaf hw)) (fun i o ks st c h hs hf => absurd hf (by rw [lTied_nofresh h hs]; decide)) 0
    ⟨_, rfl, rfl, fun q hq h => by
      obtain ⟨i, hi⟩ := List.mem_iff_getElem?.1 hq
      have := (lTied_sorted i _ (lTied.tg_get hi) 0 h).1
      omega⟩ h0 (.inr ⟨0, rfl, rfl⟩)
    (fun j hj => tiedP_used _ _ _ hj) (fun w hw => .inr (tiedP_inputs _ _ _ w hw))
  exact ⟨s, s1, s2 8 rfl⟩

/-- Read twice, there is no gradient. -/
theorem tied_read_twice : ∃ s out, (tiedP [.read 0, .read 0] [.stmt 0, .stmt 1] none).runAll false x d = some (s, out) ∧
    ∀ i, InB (x 8).shape i → (s.D 8).at_ i = (d 8).at_ i := by
  obtain ⟨S, A, _⟩ := lTied_ok x n m k hn hm h3 h7 h8
  have R : (tiedP [.read 0, .read 0] [.stmt 0, .stmt 1] none).Recorded := by
    refine tiedP_recorded _ _ _ (fun k j => ?_) (fun i => by simp)
    match k with
    | 0 | 1 => simp [Stmt.kids]
    | k + 2 => simp
  obtain ⟨s, out, s1, s2⟩ := read_twice_lost (tiedP [.read 0, .read 0] [.stmt 0, .stmt 1] none) false R rfl lTied_sorted x d S.fine A
    (fun w hw => hd w (lTied_leaf hw)) (fun i o ks st c h hs hf => absurd hf (by rw [lTied_nofresh h hs]; decide))
    (fun j hj => by rw [tiedP_used _ _ _ hj]; exact Nat.le_refl 2) (fun w hw => .inr (tiedP_inputs _ _ _ w hw))
  exact ⟨s, out, s1, (s2 8 rfl).2⟩

/-- **C110 (defect, kept roots).** The roots were asked for when the sum was the cost; then its negation was added. The gradient of the sum is added to
that of its negation: nothing is added to the derivative of the weights. -/
theorem tied_kept : ∃ s out, (tiedP [] [] (some [1])).runAll false x d = some (s, out) ∧
    ∀ i, InB (x 8).shape i → (s.D 8).at_ i = (d 8).at_ i := by
  obtain ⟨S, A, h0⟩ := lTied_ok x n m k hn hm h3 h7 h8
  have W := lTied_sorted
  have hval : ∀ y : Nat → T ℝ, lTied.tg.value y 0 = (lTied.tg.value y 1).bind fun a => .ok (mapT UOp.neg.fn a) := by
    intro y
    rw [TG.value_eq _ W]
    show (resAll [lTied.tg.value y 1]).bind (lUn .neg).op.run = _
    cases lTied.tg.value y 1 <;> rfl
  have hneg : ∀ y : Nat → T ℝ, (theT (lTied.tg.value y 0)).at_ [] + (theT (lTied.tg.value y 1)).at_ [] = 0 := by
    intro y
    rw [hval]
    cases lTied.tg.value y 1 with
    | ok a => simp [Res.bind, theT, mapT, UOp.fn]
    | err => simp [Res.bind, theT]
    | panic => simp [Res.bind, theT]
  have h1 : lTied.tg.sh x 1 = [] := by
    have := h0
    unfold TG.sh at this ⊢
    rw [hval] at this
    obtain ⟨a, ha⟩ : ∃ a, lTied.tg.value x 1 = .ok a := ⟨_, S.fine.ok W 1⟩
    rw [ha] at this ⊢
    simpa [Res.bind, theT, mapT] using this
  obtain ⟨s, s1, _, s3, s4⟩ := runAll_gradient (tiedP [] [] (some [1])) false W x d S.fine A
    (fun w hw => hd w (lTied_leaf hw)) (fun i o ks st c h hs hf => absurd hf (by rw [lTied_nofresh h hs]; decide))
    (fun i o ks st c h hs hf => absurd hf (by rw [lTied_nofresh h hs]; decide))
    (kept_unchecked _ [1] rfl x (by intro r hr; rw [List.mem_singleton.1 hr]; exact h1))
  refine ⟨s, _, s1, fun i hi => ?_⟩
  have key := move_one (F := fun y => ∑ j ∈ Finset.range lTied.length, if (lTied.getD j .leaf).isLeaf = false ∧ (tiedP [] [] (some [1])).seeded j = true then
    sumOver (lTied.tg.sh x j) (theT (lTied.tg.value y j)).at_ else 0) (w := 8) rfl (hd 8 (by simp)) (s3 8 rfl) i hi s4
  have hsd : ∀ j, j < 9 → (tiedP [] [] (some [1])).seeded j = decide (j = 0 ∨ j = 1) := by
    intro j hj
    match j with
    | 0 | 1 | 2 | 3 | 4 | 5 | 6 | 7 | 8 => simp [Prog.seeded, Prog.roots, tiedP]
    | j + 9 => omega
  have hz : ∀ y : Nat → T ℝ, (∑ j ∈ Finset.range lTied.length, if (lTied.getD j .leaf).isLeaf = false ∧ (tiedP [] [] (some [1])).seeded j = true then
      sumOver (lTied.tg.sh x j) (theT (lTied.tg.value y j)).at_ else 0) = 0 := by
    intro y
    rw [show lTied.length = 9 from rfl, Finset.sum_congr rfl (g := fun j => (if j = 0 then (theT (lTied.tg.value y 0)).at_ [] else 0) +
      if j = 1 then (theT (lTied.tg.value y 1)).at_ [] else 0) fun j hj => ?_]
    · rw [Finset.sum_add_distrib]
      simp [hneg]
    · have hj := Finset.mem_range.1 hj
      rw [hsd j hj]
      by_cases e0 : j = 0
      · subst e0
        rw [if_pos ⟨rfl, rfl⟩, h0]
        simp [sumOver, size, unravel]
      · by_cases e1 : j = 1
        · subst e1
          rw [if_pos ⟨rfl, rfl⟩, h1]
          simp [sumOver, size, unravel]
        · simp [e0, e1]
  simp only [hz] at key
  have := key.unique (hasDerivAt_const _ _)
  linarith
end

/-- An instance: two samples, two classes and three features, whatever the numbers. -/
example (x d : Nat → T ℝ) (h3 : (x 3).shape = [2, 2]) (h7 : (x 7).shape = [2, 2]) (h8 : (x 8).shape = [2, 3])
    (hd : ∀ w ∈ [3, 7, 8], (d w).shape = (x w).shape) :
    ∃ s out, (tiedP [.read 0, .read 0] [.stmt 0, .stmt 1] none).runAll false x d = some (s, out) ∧ ∀ i, InB (x 8).shape i → (s.D 8).at_ i = (d 8).at_ i :=
  tied_read_twice x d 2 2 3 (by decide) (by decide) h3 h7 h8 hd

/-- A small graph: an input, a value computed from it and read, a cost computed from that and read. -/
def smallP : Prog where
  G := [.op (lUn .neg) [1], .op (lUn .neg) [2], .leaf]
  stmts := [.read 1, .read 0]
  uses := fun
    | 0 => [.stmt 1]
    | 1 => [.stmt 0, .node 0]
    | _ => [.node 1]
  kept := none

/-- Only the cost is differentiated; on a copy of the graph, nothing. -/
example : (List.range 3).map smallP.seeded = [true, false, false] ∧ (List.range 3).map smallP.clone.seeded = [false, false, false] := by
  decide

end

end Verif.Lisp.Tensor
