import Verif.AD.TensorGrad
/-!
The define-by-run machine (`lispMachine`, vm_genera.go) on graphs of arbitrary tensor operations: if the `DoDiff` of every operation
adds the gradient of the operation to the derivatives of its operands, a run leaves in every input the gradient
of the sum of the roots, added to what was there. Which operations do is proved in `Verif.Lisp.TensorOps` and `Verif.Lisp.TensorMore`.

Simplified as in `Verif.Lisp.Model`: on the CPU, one run of a new machine, values are not shared between nodes, the logger and the watching
of NaNs are left out. Statements (`Read`, `Let`) are left out. A random node is a constant.
-/
set_option autoImplicit false
namespace Verif.Lisp.Tensor
open Verif.Tensor Verif.Shape Verif.AD Filter
open scoped InnerProductSpace Topology

noncomputable section

/-! ### Operations, graphs and the machine -/

/-- What `DoDiff` does with one operand: the new derivative of the operand at position `pos`, from the values of the operands,
the value of the result, the derivative of the result and the derivative that the operand has. `none`: an error. `fresh` marks steps
that are only right if the operand has no derivative yet (they overwrite it). -/
structure LStep where
  pos : Nat
  fresh : Bool
  upd : List (T ℝ) → T ℝ → T ℝ → T ℝ → Option (T ℝ)

/-- An operation: with `Do` and the symbolic gradient, and if it is an `ADOp` (op.go 107-111) with `DoDiff`: the steps in order, and what
it leaves as derivative of the result. -/
structure LOp where
  op : TOp
  ad : Bool
  steps : List LStep
  out : List (T ℝ) → T ℝ → T ℝ → T ℝ := fun _ _ g => g

inductive LNode
  | leaf
  | cst (t : T ℝ)
  | op (o : LOp) (kids : List Nat)

/-- The nodes as `Sort` orders them: users before operands. The machine turns the order round (`prepGraph`, vm_genera.go 249-258). -/
abbrev LG := List LNode

def LNode.tnode : LNode → TNode
  | .leaf => .leaf
  | .cst t => .cst t
  | .op o ks => .op o.op ks

/-- The graph without the `DoDiff`s. -/
def LG.tg (G : LG) : TG := G.map LNode.tnode

def LNode.isLeaf : LNode → Bool
  | .leaf => true
  | _ => false

def LNode.isAD : LNode → Bool
  | .op o _ => o.ad
  | _ => false

/-- `isRoot` (node.go 328-333): nothing uses the node. -/
def LG.root (G : LG) (i : Nat) : Bool := !(G.any fun n => n.tnode.kids.contains i)

/-- Values and derivatives bound to the nodes, and the queue for going back, oldest first. -/
structure St where
  W : Nat → T ℝ
  D : Nat → T ℝ
  q : List Nat

def put (f : Nat → T ℝ) (a : Nat) (v : T ℝ) : Nat → T ℝ := fun j => if j = a then v else f j

def fillT (s : List Nat) (c : ℝ) : T ℝ := ⟨s, fun _ => c⟩

/-- Binding a result: with a derivative of ones if the node is taken for a root (`dvBindVar`, dual.go 280-291, with `variableDV`, 131-149)
and of zeros otherwise (`dvBind`, `constantDV`, 114-129). `sd` says which nodes are taken for roots (vm_genera.go 390). -/
def LG.bound (_ : LG) (sd : Nat → Bool) (i : Nat) (ad : Bool) (v : T ℝ) (s : St) : St :=
  { W := put s.W i v
    D := put s.D i (fillT v.shape (if sd i then 1 else 0))
    q := if ad then s.q ++ [i] else s.q }

/-- `forward` (vm_genera.go 296-510): an input keeps its derivative (308-313; `dvUnit`, dual.go 153-161). -/
def LG.forward (G : LG) (sd : Nat → Bool) (s : St) (i : Nat) : Option St :=
  match G.getD i .leaf with
  | .leaf => some s
  | .cst t => some (G.bound sd i false t s)
  | .op o ks => match o.op.run (ks.map s.W) with
    | .ok v => some (G.bound sd i o.ad v s)
    | _ => none

/-- The steps of a `DoDiff`, one after the other: an operand used twice is updated twice. -/
def doSteps (xs : List (T ℝ)) (y g : T ℝ) (ks : List Nat) : List LStep → (Nat → T ℝ) → Option (Nat → T ℝ)
  | [], D => some D
  | s :: l, D => match ks[s.pos]? with
    | none => none
    | some c => match s.upd xs y g (D c) with
      | none => none
      | some d => doSteps xs y g ks l (put D c d)

/-- `backward` (vm_genera.go 512-563) with `adInstr.do`. -/
def LG.backward (G : LG) (W D : Nat → T ℝ) (i : Nat) : Option (Nat → T ℝ) :=
  match G.getD i .leaf with
  | .op o ks => (doSteps (ks.map W) (W i) (D i) ks o.steps D).map fun D' => put D' i (o.out (ks.map W) (W i) (D i))
  | _ => some D

/-- `runall` (vm_genera.go 260-294) of a new machine: forward through all nodes, operands first, then back through the queue from its end. `x` are the
values of the inputs and `d` the derivatives they have. -/
def LG.runS (G : LG) (sd : Nat → Bool) (x d : Nat → T ℝ) : Option St :=
  match (List.range G.length).reverse.foldlM (G.forward sd) ⟨x, d, []⟩ with
  | none => none
  | some s => (s.q.reverse.foldlM (G.backward s.W) s.D).map fun D => { s with D := D }

/-- `runall` on a graph without statements, whose roots are the nodes that nothing uses. -/
def LG.run (G : LG) (x d : Nat → T ℝ) : Option St := G.runS G.root x d

/-! ### What is asked of the operations -/

def IsZero (d : T ℝ) : Prop := ∀ i, InB d.shape i → d.at_ i = 0

/-- The steps of `DoDiff` add the gradients `grads`, each operand at most once. (That these are the gradients is part of `TOp.Fine`.) -/
structure LOp.Adds (o : LOp) (xs : List (T ℝ)) (y : T ℝ) : Prop where
  nodup : (o.steps.map (·.pos)).Nodup
  diff : ∀ s ∈ o.steps, o.op.diffs[s.pos]? = some true
  adds : ∀ s ∈ o.steps, ∀ g : T ℝ, g.shape = y.shape → ∀ r x : T ℝ, (o.op.grads xs y g)[s.pos]? = some r → xs[s.pos]? = some x →
    ∀ d : T ℝ, d.shape = x.shape → (s.fresh = true → IsZero d) →
      ∃ d', s.upd xs y g d = some d' ∧ d'.shape = x.shape ∧ ∀ i, InB x.shape i → d'.at_ i = d.at_ i + r.at_ i

/-- The graph only has operations that add, every differentiable operand that is not a constant is updated, and the steps that overwrite
a derivative come first: the operand is used once by the operation and not by an operation that comes earlier going back. -/
structure LG.Adds (G : LG) (x : Nat → T ℝ) : Prop where
  op : ∀ (i : Nat) (o : LOp) (ks : List Nat), G[i]? = some (.op o ks) →
    o.Adds (ks.map fun c => theT (G.tg.value x c)) (theT (G.tg.value x i))
  all : ∀ (i : Nat) (o : LOp) (ks : List Nat) (k c : Nat), G[i]? = some (.op o ks) → o.op.diffs[k]? = some true → ks[k]? = some c →
    (o.ad = true ∧ ∃ s ∈ o.steps, s.pos = k) ∨ ∃ t, G[c]? = some (.cst t)
  fresh : ∀ (i : Nat) (o : LOp) (ks : List Nat) (s : LStep) (c : Nat), G[i]? = some (.op o ks) → s ∈ o.steps → s.fresh = true →
    ks[s.pos]? = some c → (∀ j n, j < i → G[j]? = some n → c ∉ n.tnode.kids) ∧ ∀ k, ks[k]? = some c → k = s.pos

/-- The inputs whose derivative is overwritten have a derivative of zeros. -/
def LG.Blank (G : LG) (d : Nat → T ℝ) : Prop := ∀ (i : Nat) (o : LOp) (ks : List Nat) (s : LStep) (c : Nat), G[i]? = some (.op o ks) →
  s ∈ o.steps → s.fresh = true → ks[s.pos]? = some c → G[c]? = some .leaf → IsZero (d c)

/-- The nodes whose derivative is overwritten are not taken for roots. -/
def LG.Unseeded (G : LG) (sd : Nat → Bool) : Prop := ∀ (i : Nat) (o : LOp) (ks : List Nat) (s : LStep) (c : Nat), G[i]? = some (.op o ks) →
  s ∈ o.steps → s.fresh = true → ks[s.pos]? = some c → sd c = false

/-! ### Lemmas -/

theorem put_same (f : Nat → T ℝ) (a : Nat) (v : T ℝ) : put f a v a = v := if_pos rfl
theorem put_off (f : Nat → T ℝ) (a : Nat) (v : T ℝ) {j : Nat} (h : j ≠ a) : put f a v j = f j := if_neg h

theorem pair_zero_left {d v : T ℝ} (h : IsZero d) : pair d v = 0 := by
  rw [pair_eq, sumOver_congr _ _ (fun _ => 0) fun i hi => by rw [h i hi, zero_mul]]
  simp [sumOver]

theorem pair_add_left {d' d r v : T ℝ} (h1 : d'.shape = d.shape) (h2 : r.shape = d.shape)
    (h : ∀ i, InB d.shape i → d'.at_ i = d.at_ i + r.at_ i) : pair d' v = pair d v + pair r v := by
  rw [pair_eq, pair_eq, pair_eq, h1, h2]
  unfold sumOver
  rw [← Finset.sum_add_distrib]
  refine Finset.sum_congr rfl fun k hk => ?_
  show d'.at_ _ * _ = d.at_ _ * _ + r.at_ _ * _
  rw [h _ (inB_unravel (Finset.mem_range.1 hk))]
  ring

theorem LG.tg_length (G : LG) : G.tg.length = G.length := by simp [LG.tg]

theorem LG.tg_get (G : LG) {i : Nat} {n : LNode} (h : G[i]? = some n) : G.tg[i]? = some n.tnode := by
  simp [LG.tg, h]

theorem LG.getD_of (G : LG) {i : Nat} {n : LNode} (h : G[i]? = some n) : G.getD i .leaf = n := by
  rw [List.getD_eq_getElem?_getD, h]; rfl

/-- Nodes are either out of the graph or in it. -/
theorem LG.get_cases (G : LG) (i : Nat) : (G[i]? = none ∧ G.length ≤ i) ∨ ∃ n, G[i]? = some n ∧ i < G.length := by
  rcases Nat.lt_or_ge i G.length with h | h
  · exact .inr ⟨_, List.getElem?_eq_getElem h, h⟩
  · exact .inl ⟨List.getElem?_eq_none h, h⟩

/-- The steps of one `DoDiff` change the weighted sum of the derivatives by the pairings of the gradients added. -/
theorem doSteps_sum (xs : List (T ℝ)) (y g : T ℝ) (ks : List Nat) (sh : Nat → List Nat) (n : Nat) (P : Nat → Bool)
    (r : Nat → T ℝ) (l : List LStep) (D : Nat → T ℝ) (hD : ∀ j, j < n → P j = true → (D j).shape = sh j)
    (hk : ∀ s ∈ l, ∃ c, ks[s.pos]? = some c ∧ c < n ∧ P c = true)
    (ha : ∀ s ∈ l, ∀ c, ks[s.pos]? = some c → (r s.pos).shape = sh c ∧ ∀ d : T ℝ, d.shape = sh c → (s.fresh = true → IsZero d) →
      ∃ d', s.upd xs y g d = some d' ∧ d'.shape = sh c ∧ ∀ i, InB (sh c) i → d'.at_ i = d.at_ i + (r s.pos).at_ i)
    (hz : ∀ s ∈ l, s.fresh = true → ∀ c, ks[s.pos]? = some c → IsZero (D c))
    (hp : l.Pairwise fun s s' => s'.fresh = true → ks[s.pos]? ≠ ks[s'.pos]?) :
    ∃ D', doSteps xs y g ks l D = some D' ∧ (∀ j, j < n → P j = true → (D' j).shape = sh j) ∧ (∀ j, j ∉ ks → D' j = D j) ∧
      ∀ vel : Nat → T ℝ, (∑ j ∈ Finset.range n, if P j then pair (D' j) (vel j) else 0) =
        (∑ j ∈ Finset.range n, if P j then pair (D j) (vel j) else 0) +
          (l.map fun s => pair (r s.pos) (vel (ks.getD s.pos 0))).sum := by
  induction l generalizing D with
  | nil => exact ⟨D, rfl, hD, fun _ _ => rfl, by simp⟩
  | cons s l ih =>
    obtain ⟨c, c1, c2, c3⟩ := hk s (List.mem_cons_self ..)
    obtain ⟨a1, a2⟩ := ha s (List.mem_cons_self ..) c c1
    have hDc := hD c c2 c3
    obtain ⟨d', e1, e2, e3⟩ := a2 (D c) hDc fun hf => hz s (List.mem_cons_self ..) hf c c1
    obtain ⟨D', f1, f2, f3, f4⟩ := ih (put D c d') (fun j hj hP => by
        by_cases h : j = c
        · subst h; rw [put_same, e2]
        · rw [put_off _ _ _ h, hD j hj hP])
      (fun s' hs' => hk s' (List.mem_cons_of_mem _ hs')) (fun s' hs' => ha s' (List.mem_cons_of_mem _ hs'))
      (fun s' hs' hf c' hc' => by
        have hne := (List.pairwise_cons.1 hp).1 s' hs' hf
        rw [c1, hc'] at hne
        rw [put_off _ _ _ (fun e => hne (by rw [e]))]
        exact hz s' (List.mem_cons_of_mem _ hs') hf c' hc') (List.pairwise_cons.1 hp).2
    refine ⟨D', ?_, f2, fun j hj => ?_, fun vel => ?_⟩
    · simp only [doSteps, c1, e1, f1]
    · rw [f3 j hj, put_off]
      intro e; subst e
      exact hj (List.mem_of_getElem? c1)
    · rw [f4, List.map_cons, List.sum_cons, ← add_assoc]
      congr 1
      have hg : ks.getD s.pos 0 = c := by rw [List.getD_eq_getElem?_getD, c1]; rfl
      have hpa : pair d' (vel c) = pair (D c) (vel c) + pair (r s.pos) (vel c) :=
        pair_add_left (by rw [e2, hDc]) (by rw [a1, hDc]) (by rw [hDc]; exact e3)
      rw [hg, ← Finset.add_sum_erase _ _ (Finset.mem_range.2 c2), ← Finset.add_sum_erase (Finset.range n) _ (Finset.mem_range.2 c2),
        if_pos c3, if_pos c3, put_same, hpa]
      rw [Finset.sum_congr rfl fun j hj => by rw [put_off D c d' (Finset.ne_of_mem_erase hj)]]
      ring

/-- The pairing of the velocities of the operands with the gradients, over positions. -/
theorem dsum_range (ds : List Bool) (rs vs : List (T ℝ)) (h1 : rs.length = ds.length) (h2 : vs.length = ds.length) :
    dsum ds rs vs = ∑ k ∈ Finset.range ds.length,
      if ds[k]? = some true then pair (rs.getD k ⟨[], fun _ => 0⟩) (vs.getD k ⟨[], fun _ => 0⟩) else 0 := by
  induction ds generalizing rs vs with
  | nil => simp [dsum]
  | cons d ds ih =>
    cases rs with
    | nil => simp at h1
    | cons r rs =>
      cases vs with
      | nil => simp at h2
      | cons v vs =>
        rw [dsum, ih rs vs (by simpa using h1) (by simpa using h2), List.length_cons, Finset.sum_range_succ', add_comm]
        simp

/-- Pairing an incoming gradient with the velocity of the result is pairing the gradients built with the velocities of the operands. -/
theorem inner_jsum (G : TG) (W : G.Sorted) (x : Nat → T ℝ) (S : G.Fine x) (i : Nat) (hi : i < G.length) (g : T ℝ)
    (hg : g.shape = G.sh x i) (ts : List (T ℝ)) (hts : G.symDiff x i g = some ts) (vel : Nat → T ℝ)
    (ks : List Nat) (ds : List Bool) (rs : List (T ℝ)) (k : Nat)
    (hk : ∀ m c, ks[m]? = some c → (G.gr.node i).children[k + m]? = some c)
    (hd : ∀ m d, ds[m]? = some d → (G.gr.node i).diffs[k + m]? = some d) (hr : ∀ m r, rs[m]? = some r → ts[k + m]? = some r)
    (h1 : ds.length = ks.length) (h2 : rs.length = ks.length) :
    ⟪den (G.sh x i) g, jsum (E := fun i => Vec (G.sh x i)) (G.J x) (fun c => den (G.sh x c) (vel c)) i k ks ds⟫_ℝ =
      dsum ds rs (ks.map vel) := by
  induction ks generalizing ds rs k with
  | nil =>
    cases ds with
    | nil => cases rs <;> simp [jsum, dsum]
    | cons => simp at h1
  | cons c ks ih =>
    cases ds with
    | nil => simp at h1
    | cons d ds =>
      cases rs with
      | nil => simp at h2
      | cons r rs =>
        simp only [jsum, List.map_cons, dsum]
        rw [inner_add_right, ih ds rs (k + 1)
          (fun m c' h => by have := hk (m + 1) c' (by simpa using h); rwa [show k + (m + 1) = k + 1 + m by omega] at this)
          (fun m c' h => by have := hd (m + 1) c' (by simpa using h); rwa [show k + (m + 1) = k + 1 + m by omega] at this)
          (fun m c' h => by have := hr (m + 1) c' (by simpa using h); rwa [show k + (m + 1) = k + 1 + m by omega] at this)
          (by simpa using h1) (by simpa using h2)]
        congr 1
        cases d with
        | false => simp
        | true =>
          simp only [↓reduceIte]
          have := (G.local_ok W x S).sd i g ts (by rw [G.gr_length]; exact hi) hg hts k c r (by simpa using hk 0 c (by simp))
            (by simpa using hd 0 true (by simp)) (by simpa using hr 0 r (by simp))
          rw [this.2]
          exact inner_den' this.1

theorem dsum_none (ds : List Bool) (rs vs : List (T ℝ)) (h : true ∉ ds) : dsum ds rs vs = 0 := by
  induction ds generalizing rs vs with
  | nil => rfl
  | cons d ds ih =>
    cases rs with
    | nil => rfl
    | cons r rs =>
      cases vs with
      | nil => rfl
      | cons v vs =>
        have hd : d = false := by cases d with
          | false => rfl
          | true => exact absurd (List.mem_cons_self ..) h
        subst hd
        rw [dsum, ih rs vs fun hm => h (List.mem_cons_of_mem _ hm)]
        simp

theorem jsum_none {E : Nat → Type} [∀ i, NormedAddCommGroup (E i)] [∀ i, InnerProductSpace ℝ (E i)]
    (J : (i k j : Nat) → E j →ₗ[ℝ] E i) (vel : (i : Nat) → E i) (i k : Nat) (ks : List Nat) (ds : List Bool) (h : true ∉ ds) :
    jsum J vel i k ks ds = 0 := by
  induction ks generalizing k ds with
  | nil => cases ds <;> rfl
  | cons c ks ih =>
    cases ds with
    | nil => rfl
    | cons d ds =>
      have hd : d = false := by cases d with
        | false => rfl
        | true => exact absurd (List.mem_cons_self ..) h
      subst hd
      rw [jsum, ih (k + 1) ds fun hm => h (List.mem_cons_of_mem _ hm)]
      simp

/-- Velocities of the nodes that obey the chain rule. -/
structure LG.Chain (G : LG) (x vel : Nat → T ℝ) : Prop where
  op : ∀ (i : Nat) (o : LOp) (ks : List Nat), G[i]? = some (.op o ks) → ∀ g : T ℝ, g.shape = G.tg.sh x i →
    pair g (vel i) = dsum o.op.diffs (o.op.grads (ks.map fun c => theT (G.tg.value x c)) (theT (G.tg.value x i)) g) (ks.map vel)
  cst : ∀ (i : Nat) (t : T ℝ), G[i]? = some (.cst t) → ∀ g : T ℝ, g.shape = G.tg.sh x i → pair g (vel i) = 0

theorem LG.chain_of_tangent (G : LG) (W : G.tg.Sorted) (x : Nat → T ℝ) (S : G.tg.Fine x) (wrt : List Nat) (vel : Nat → T ℝ)
    (h : Tangent (E := fun i => Vec (G.tg.sh x i)) G.tg.gr (G.tg.J x) wrt (fun i => den (G.tg.sh x i) (vel i))) : G.Chain x vel := by
  constructor
  · intro i o ks hn g hg
    have hn' := G.tg_get hn
    have hi : i < G.tg.length := (List.getElem?_eq_some_iff.1 hn').1
    have hnode : G.tg.gr.node i = { children := ks, diffs := o.op.diffs } := by
      rw [G.tg.gr_node i hi, (List.getElem?_eq_some_iff.1 hn').2]; rfl
    obtain ⟨P, hF, _⟩ := S.node W hn'
    have ht := h.op i (by rw [G.tg.gr_length]; exact hi) (by rw [hnode])
    rw [← inner_den' hg, ht, hnode]
    by_cases hm : true ∈ o.op.diffs
    · obtain ⟨ts, t1, t2, _⟩ := hF.total hm g hg
      have t3 : G.tg.symDiff x i g = some ts := by rw [S.symDiff_eq W hn', t1]
      rw [show o.op.grads _ _ g = ts by simp [TOp.grads, t1]]
      refine inner_jsum G.tg W x S i hi g hg ts t3 vel ks o.op.diffs ts 0 ?_ ?_ ?_ ?_ ?_
      · intro m c hc; rw [hnode]; simpa using hc
      · intro m c hc; rw [hnode]; simpa using hc
      · intro m c hc; simpa using hc
      · simpa using hF.arity
      · simpa using t2
    · rw [jsum_none _ _ _ _ _ _ hm, dsum_none _ _ _ hm, inner_zero_right]
  · intro i t hn g hg
    have hn' := G.tg_get hn
    have hi : i < G.tg.length := (List.getElem?_eq_some_iff.1 hn').1
    have hnode : G.tg.gr.node i = {} := by
      rw [G.tg.gr_node i hi, (List.getElem?_eq_some_iff.1 hn').2]; rfl
    have ht := h.op i (by rw [G.tg.gr_length]; exact hi) (by rw [hnode])
    rw [← inner_den' hg, ht, hnode]
    simp [jsum]

/-! ### Forward -/

/-- The derivatives after going forward. -/
def LG.start (G : LG) (sd : Nat → Bool) (x d : Nat → T ℝ) (j : Nat) : T ℝ :=
  if (G.getD j .leaf).isLeaf then d j else fillT (G.tg.sh x j) (if sd j then 1 else 0)

def LG.adAt (G : LG) (j : Nat) : Bool := (G.getD j .leaf).isAD

theorem LG.value_leaf (G : LG) (W : G.tg.Sorted) (x : Nat → T ℝ) {j : Nat} (h : (G.getD j .leaf).isLeaf = true) :
    theT (G.tg.value x j) = x j := by
  have hl : G.getD j .leaf = .leaf := by
    cases hn : G.getD j .leaf <;> rw [hn] at h <;> simp [LNode.isLeaf] at h ⊢
  have : G.tg.getD j .leaf = .leaf := by
    rcases G.get_cases j with ⟨h1, h2⟩ | ⟨n, h1, h2⟩
    · rw [List.getD_eq_getElem?_getD, List.getElem?_eq_none (by rw [G.tg_length]; exact h2)]; rfl
    · rw [List.getD_eq_getElem?_getD, G.tg_get h1]
      rw [G.getD_of h1] at hl
      rw [hl]; rfl
  rw [G.tg.value_eq W x j, this]; rfl

theorem LG.forward_spec (G : LG) (sd : Nat → Bool) (W : G.tg.Sorted) (x d : Nat → T ℝ) (S : G.tg.Fine x) (k : Nat) (hk : k ≤ G.length) (s : St)
    (hW : ∀ j, k ≤ j ∨ (G.getD j .leaf).isLeaf = true → s.W j = theT (G.tg.value x j))
    (hD : ∀ j, k ≤ j ∨ (G.getD j .leaf).isLeaf = true → s.D j = G.start sd x d j) :
    ∃ s', (List.range k).reverse.foldlM (G.forward sd) s = some s' ∧ (∀ j, s'.W j = theT (G.tg.value x j)) ∧
      (∀ j, s'.D j = G.start sd x d j) ∧ s'.q = s.q ++ (List.range k).reverse.filter G.adAt := by
  induction k generalizing s with
  | zero => exact ⟨s, rfl, fun j => hW j (.inl (Nat.zero_le _)), fun j => hD j (.inl (Nat.zero_le _)), by simp⟩
  | succ k ih =>
    have hk' : k < G.length := hk
    have hn : G[k]? = some G[k] := List.getElem?_eq_getElem hk'
    have hgd := G.getD_of hn
    have hT := G.tg_get hn
    have hgT : G.tg.getD k .leaf = (G[k]).tnode := by rw [List.getD_eq_getElem?_getD, hT]; rfl
    have hv := G.tg.value_eq W x k
    rw [hgT] at hv
    -- one node
    have bnd : ∀ (ad : Bool) (v : T ℝ), (G[k]).isLeaf = false → v = theT (G.tg.value x k) → ad = G.adAt k →
        ∃ s', (List.range k).reverse.foldlM (G.forward sd) (G.bound sd k ad v s) = some s' ∧ (∀ j, s'.W j = theT (G.tg.value x j)) ∧
          (∀ j, s'.D j = G.start sd x d j) ∧ s'.q = s.q ++ (List.range (k + 1)).reverse.filter G.adAt := by
      intro ad v hl hvv had
      obtain ⟨s', g1, g2, g3, g4⟩ := ih (by omega) (G.bound sd k ad v s) (fun j hj => by
          by_cases e : j = k
          · subst e; simp [LG.bound, put_same, hvv]
          · show put s.W k v j = _
            rw [put_off _ _ _ e]
            exact hW j (by rcases hj with h | h; left; omega; exact .inr h))
        (fun j hj => by
          show put s.D k _ j = _
          by_cases e : j = k
          · subst e
            rw [put_same, LG.start, hgd, hl, hvv]; rfl
          · rw [put_off _ _ _ e]
            exact hD j (by rcases hj with h | h; left; omega; exact .inr h))
      refine ⟨s', g1, g2, g3, ?_⟩
      rw [g4, List.range_succ, List.reverse_append]
      subst had
      simp only [LG.bound, List.reverse_cons, List.reverse_nil, List.nil_append, List.singleton_append, List.filter_cons]
      split <;> simp
    rw [List.range_succ, List.reverse_append]
    simp only [List.reverse_cons, List.reverse_nil, List.nil_append, List.singleton_append, List.foldlM_cons]
    cases hG : G[k] with
    | leaf =>
      have hf : G.forward sd s k = some s := by unfold LG.forward; rw [hgd, hG]
      rw [hf]
      obtain ⟨s', g1, g2, g3, g4⟩ := ih (by omega) s
        (fun j hj => by
          refine hW j ?_
          rcases hj with h | h
          · rcases Nat.eq_or_lt_of_le h with e | e
            · subst e; right; rw [hgd, hG]; rfl
            · exact .inl e
          · exact .inr h)
        (fun j hj => by
          refine hD j ?_
          rcases hj with h | h
          · rcases Nat.eq_or_lt_of_le h with e | e
            · subst e; right; rw [hgd, hG]; rfl
            · exact .inl e
          · exact .inr h)
      refine ⟨s', g1, g2, g3, ?_⟩
      rw [g4, List.filter_cons, if_neg (by unfold LG.adAt; rw [hgd, hG]; simp [LNode.isAD])]
    | cst t =>
      have hf : G.forward sd s k = some (G.bound sd k false t s) := by unfold LG.forward; rw [hgd, hG]
      rw [hf]
      rw [hG] at hv
      have := bnd false t (by rw [hG]; rfl) (by rw [hv]; rfl) (by unfold LG.adAt; rw [hgd, hG]; simp [LNode.isAD])
      rwa [List.range_succ, List.reverse_append] at this
    | op o ks =>
      rw [hG] at hT
      obtain ⟨P, hF, _⟩ := S.node W hT
      have hks : ks.map s.W = ks.map fun c => theT (G.tg.value x c) :=
        List.map_congr_left fun c hc => hW c (.inl (by have := (W k _ hT c hc).1; omega))
      have hf : G.forward sd s k = some (G.bound sd k o.ad (theT (G.tg.value x k)) s) := by
        unfold LG.forward; rw [hgd, hG]
        simp only [hks, hF.run]
      rw [hf]
      have := bnd o.ad _ (by rw [hG]; rfl) rfl (by unfold LG.adAt; rw [hgd, hG]; simp [LNode.isAD])
      rwa [List.range_succ, List.reverse_append] at this

/-! ### Back -/

/-- The nodes whose derivatives still matter when nodes before `k` have been dealt with: the others and the inputs. -/
def LG.live (G : LG) (k j : Nat) : Bool := decide (k ≤ j) || (G.getD j .leaf).isLeaf

/-- What holds of the derivatives after the nodes before `k` have been dealt with. -/
structure LG.Back (G : LG) (sd : Nat → Bool) (x d : Nat → T ℝ) (k : Nat) (D : Nat → T ℝ) : Prop where
  shape : ∀ j, j < G.length → G.live k j = true → (D j).shape = G.tg.sh x j
  same : ∀ j, G.live k j = true → (∀ i n, i < k → G[i]? = some n → j ∉ n.tnode.kids) → D j = G.start sd x d j
  sum : ∀ vel, G.Chain x vel → (∑ j ∈ Finset.range G.length, if G.live k j then pair (D j) (vel j) else 0) =
    ∑ j ∈ Finset.range G.length, pair (G.start sd x d j) (vel j)

theorem LG.live_succ (G : LG) {k j : Nat} (h : j ≠ k ∨ (G.getD k .leaf).isLeaf = true) : G.live (k + 1) j = G.live k j := by
  unfold LG.live
  rcases h with h | h
  · congr 1
    exact decide_eq_decide.2 (by omega)
  · by_cases e : j = k
    · subst e; rw [h]; simp
    · congr 1
      exact decide_eq_decide.2 (by omega)

/-- Going on to the next node without doing anything to live derivatives of others, if the pairing of the node itself was zero or it is an input. -/
theorem LG.sum_next (G : LG) {k : Nat} (hk : k < G.length) (D vel : Nat → T ℝ)
    (h : (G.getD k .leaf).isLeaf = false) :
    (∑ j ∈ Finset.range G.length, if G.live k j then pair (D j) (vel j) else 0) =
      pair (D k) (vel k) + ∑ j ∈ Finset.range G.length, if G.live (k + 1) j then pair (D j) (vel j) else 0 := by
  rw [← Finset.add_sum_erase _ _ (Finset.mem_range.2 hk), ← Finset.add_sum_erase (Finset.range G.length) (fun j => if G.live (k + 1) j then pair (D j) (vel j) else 0)
    (Finset.mem_range.2 hk)]
  have h1 : G.live k k = true := by simp [LG.live]
  have h2 : G.live (k + 1) k = false := by unfold LG.live; rw [h]; simp
  rw [if_pos h1, h2]
  simp only [Bool.false_eq_true, ↓reduceIte, zero_add]
  congr 1
  exact Finset.sum_congr rfl fun j hj => by rw [G.live_succ (.inl (Finset.ne_of_mem_erase hj))]

theorem LG.Back.step {G : LG} {sd : Nat → Bool} (W : G.tg.Sorted) {x d : Nat → T ℝ} (S : G.tg.Fine x) (A : G.Adds x)
    (hd0 : G.Blank d) (hsd : G.Unseeded sd) {k : Nat} (hk : k < G.length) {D : Nat → T ℝ} (B : G.Back sd x d k D) :
    (G.adAt k = false → G.Back sd x d (k + 1) D) ∧
      (G.adAt k = true → ∃ D', G.backward (fun j => theT (G.tg.value x j)) D k = some D' ∧ G.Back sd x d (k + 1) D') := by
  have hn : G[k]? = some G[k] := List.getElem?_eq_getElem hk
  have hgd := G.getD_of hn
  have hlive : ∀ j, G.live (k + 1) j = true → G.live k j = true := by
    intro j hj
    unfold LG.live at hj ⊢
    simp only [Bool.or_eq_true, decide_eq_true_eq] at hj ⊢
    rcases hj with h | h
    · left; omega
    · exact .inr h
  have hkeep : ∀ {j}, (∀ i n, i < k + 1 → G[i]? = some n → j ∉ n.tnode.kids) → ∀ i n, i < k → G[i]? = some n → j ∉ n.tnode.kids :=
    fun h i n hi => h i n (by omega)
  cases hG : G[k] with
  | leaf =>
    rw [hG] at hgd
    refine ⟨fun _ => ⟨fun j h1 h2 => B.shape j h1 (hlive j h2), fun j h1 h2 => B.same j (hlive j h1) (hkeep h2), fun vel hv => ?_⟩,
      fun h => by unfold LG.adAt at h; rw [hgd] at h; cases h⟩
    rw [← B.sum vel hv]
    exact Finset.sum_congr rfl fun j _ => by rw [G.live_succ (.inr (by rw [hgd]; rfl))]
  | cst t =>
    rw [hG] at hgd hn
    refine ⟨fun _ => ⟨fun j h1 h2 => B.shape j h1 (hlive j h2), fun j h1 h2 => B.same j (hlive j h1) (hkeep h2), fun vel hv => ?_⟩,
      fun h => by unfold LG.adAt at h; rw [hgd] at h; cases h⟩
    rw [← B.sum vel hv, G.sum_next hk D vel (by rw [hgd]; rfl), hv.cst k t hn (D k) (B.shape k hk (by simp [LG.live])), zero_add]
  | op o ks =>
    rw [hG] at hgd hn
    have hT := G.tg_get hn
    obtain ⟨P, hF, _⟩ := S.node W hT
    have hDk := B.shape k hk (by simp [LG.live])
    have hAk := A.op k o ks hn
    have hlen : o.op.diffs.length = ks.length := by simpa using hF.arity
    have hleaf : (G.getD k .leaf).isLeaf = false := by rw [hgd]; rfl
    -- the gradients that are to be added
    let r : Nat → T ℝ := fun p => (o.op.grads (ks.map fun c => theT (G.tg.value x c)) (theT (G.tg.value x k)) (D k)).getD p ⟨[], fun _ => 0⟩
    have hcst : ∀ vel, G.Chain x vel → ∀ p c, o.op.diffs[p]? = some true → ks[p]? = some c → (∃ t, G[c]? = some (.cst t)) →
        pair (r p) (vel c) = 0 := by
      rintro vel hv p c hp hc ⟨t, ht⟩
      refine hv.cst c t ht _ ?_
      obtain ⟨ts, e1, e2, e3⟩ := hF.total (List.mem_of_getElem? hp) (D k) hDk
      have hl : p < ts.length := by rw [e2]; simpa using (List.getElem?_eq_some_iff.1 hc).1
      refine e3 p (r p) (theT (G.tg.value x c)) hp ?_ (by rw [List.getElem?_map, hc]; rfl)
      simp [r, TOp.grads, e1, hl]
    have hchain : ∀ vel, G.Chain x vel → pair (D k) (vel k) = ∑ p ∈ Finset.range ks.length,
        if o.op.diffs[p]? = some true then pair (r p) (vel (ks.getD p 0)) else 0 := by
      intro vel hv
      rw [hv.op k o ks hn (D k) hDk]
      by_cases hm : true ∈ o.op.diffs
      · obtain ⟨ts, e1, e2, e3⟩ := hF.total hm (D k) hDk
        have hg : o.op.grads (ks.map fun c => theT (G.tg.value x c)) (theT (G.tg.value x k)) (D k) = ts := by simp [TOp.grads, e1]
        rw [dsum_range _ _ _ (by rw [hg, e2, hlen]; simp) (by simp [hlen]), hlen]
        refine Finset.sum_congr rfl fun p hp => ?_
        have hp := Finset.mem_range.1 hp
        congr 2
        simp [hp]
      · rw [dsum_none _ _ _ hm]
        refine (Finset.sum_eq_zero fun p _ => if_neg fun e => hm (List.mem_of_getElem? e)).symm
    constructor
    · intro had
      have had : o.ad = false := by unfold LG.adAt at had; rwa [hgd] at had
      refine ⟨fun j h1 h2 => B.shape j h1 (hlive j h2), fun j h1 h2 => B.same j (hlive j h1) (hkeep h2), fun vel hv => ?_⟩
      rw [← B.sum vel hv, G.sum_next hk D vel hleaf, hchain vel hv]
      refine (add_eq_right.2 (Finset.sum_eq_zero fun p hp => ?_)).symm
      split
      · rename_i hpt
        have hp := Finset.mem_range.1 hp
        have hc : ks[p]? = some ks[p] := List.getElem?_eq_getElem hp
        rcases A.all k o ks p _ hn hpt hc with ⟨h, _⟩ | h
        · rw [had] at h; cases h
        · rw [show ks.getD p 0 = ks[p] by simp [hp]]
          exact hcst vel hv p _ hpt hc h
      · rfl
    · intro had
      have had : o.ad = true := by unfold LG.adAt at had; rwa [hgd] at had
      have hkid : ∀ c ∈ ks, k < c ∧ c < G.length := fun c hc => by
        have := W k _ hT c hc; rwa [G.tg_length] at this
      have hkl : ∀ c ∈ ks, G.live (k + 1) c = true := fun c hc => by
        have := (hkid c hc).1
        simp only [LG.live, Bool.or_eq_true, decide_eq_true_eq]
        left; omega
      have hpos : ∀ s ∈ o.steps, s.pos < ks.length := fun s hs => by
        rw [← hlen]; exact (List.getElem?_eq_some_iff.1 (hAk.diff s hs)).1
      obtain ⟨D', f1, f2, f3, f4⟩ := doSteps_sum (ks.map fun c => theT (G.tg.value x c)) (theT (G.tg.value x k)) (D k) ks (G.tg.sh x)
        G.length (G.live (k + 1)) r o.steps D (fun j h1 h2 => B.shape j h1 (hlive j h2))
        (fun s hs => ⟨_, List.getElem?_eq_getElem (hpos s hs), (hkid _ (List.getElem_mem _)).2, hkl _ (List.getElem_mem _)⟩)
        (fun s hs c hc => by
          obtain ⟨ts, e1, e2, e3⟩ := hF.total (List.mem_of_getElem? (hAk.diff s hs)) (D k) hDk
          have hl : s.pos < ts.length := by rw [e2]; simpa using hpos s hs
          have hr : (o.op.grads (ks.map fun c => theT (G.tg.value x c)) (theT (G.tg.value x k)) (D k))[s.pos]? = some (r s.pos) := by
            simp [r, TOp.grads, e1, hl]
          have hx : (ks.map fun c => theT (G.tg.value x c))[s.pos]? = some (theT (G.tg.value x c)) := by
            rw [List.getElem?_map, hc]; rfl
          refine ⟨e3 s.pos _ _ (hAk.diff s hs) (by simpa [TOp.grads, e1] using hr) hx, fun d' h1 h2 => ?_⟩
          exact hAk.adds s hs (D k) hDk _ _ hr hx d' h1 h2)
        (fun s hs hf c hc => by
          have hcm := List.mem_of_getElem? hc
          have hfr := A.fresh k o ks s c hn hs hf hc
          rw [B.same c (hlive c (hkl c hcm)) hfr.1]
          obtain ⟨nc, hnc⟩ : ∃ nc, G[c]? = some nc := ⟨_, List.getElem?_eq_getElem (hkid c hcm).2⟩
          unfold LG.start
          rw [G.getD_of hnc]
          cases nc with
          | leaf => exact hd0 k o ks s c hn hs hf hc hnc
          | _ =>
            have hroot : sd c = false := hsd k o ks s c hn hs hf hc
            intro i _
            simp [LNode.isLeaf, hroot, fillT])
        (by
          have hnd := hAk.nodup
          rw [List.Nodup, List.pairwise_map] at hnd
          refine List.Pairwise.imp_of_mem (fun {s s'} hs hs' hne hf => ?_) hnd
          intro e
          have hc' := List.getElem?_eq_getElem (hpos s' hs')
          have := (A.fresh k o ks s' _ hn hs' hf hc').2 s.pos (by rw [e, hc'])
          exact hne this)
      refine ⟨put D' k (o.out (ks.map fun c => theT (G.tg.value x c)) (theT (G.tg.value x k)) (D k)), ?_, ?_, ?_, ?_⟩
      · unfold LG.backward
        rw [hgd]
        simp only [f1, Option.map_some]
      · intro j h1 h2
        have hjk : j ≠ k := by
          intro e; subst e
          unfold LG.live at h2
          rw [hleaf] at h2
          simp at h2
        rw [put_off _ _ _ hjk]
        exact f2 j h1 h2
      · intro j h1 h2
        have hjk : j ≠ k := by
          intro e; subst e
          unfold LG.live at h1
          rw [hleaf] at h1
          simp at h1
        rw [put_off _ _ _ hjk, f3 j (h2 k _ (by omega) hn)]
        exact B.same j (hlive j h1) (hkeep h2)
      · intro vel hv
        rw [Finset.sum_congr rfl (g := fun j => if G.live (k + 1) j then pair (D' j) (vel j) else 0) fun j _ => by
          by_cases e : j = k
          · subst e
            have : G.live (j + 1) j = false := by unfold LG.live; rw [hleaf]; simp
            rw [this]; rfl
          · rw [put_off _ _ _ e]]
        rw [f4 vel, ← B.sum vel hv, G.sum_next hk D vel hleaf, hchain vel hv, add_comm]
        congr 1
        -- steps and positions
        have h1 : (o.steps.map fun s => pair (r s.pos) (vel (ks.getD s.pos 0))).sum =
            ∑ p ∈ (o.steps.map (·.pos)).toFinset, pair (r p) (vel (ks.getD p 0)) := by
          rw [List.sum_toFinset _ hAk.nodup, List.map_map]; rfl
        rw [h1]
        refine Finset.sum_subset_zero_on_sdiff (fun p hp => ?_) (fun p hp => ?_) fun p hp => ?_
        · obtain ⟨s, hs, rfl⟩ := List.mem_map.1 (List.mem_toFinset.1 hp)
          exact Finset.mem_range.2 (hpos s hs)
        · obtain ⟨hp1, hp2⟩ := Finset.mem_sdiff.1 hp
          have hp1 := Finset.mem_range.1 hp1
          split
          · rename_i hpt
            have hc : ks[p]? = some ks[p] := List.getElem?_eq_getElem hp1
            rcases A.all k o ks p _ hn hpt hc with ⟨_, s, hs, e⟩ | h
            · exact absurd (List.mem_toFinset.2 (List.mem_map.2 ⟨s, hs, e⟩)) hp2
            · rw [show ks.getD p 0 = ks[p] by simp [hp1]]
              exact hcst vel hv p _ hpt hc h
          · rfl
        · obtain ⟨s, hs, rfl⟩ := List.mem_map.1 (List.mem_toFinset.1 hp)
          rw [if_pos (hAk.diff s hs)]

theorem LG.back_all {G : LG} {sd : Nat → Bool} (W : G.tg.Sorted) {x d : Nat → T ℝ} (S : G.tg.Fine x) (A : G.Adds x)
    (hd0 : G.Blank d) (hsd : G.Unseeded sd) (m k : Nat) (hk : k + m = G.length) (D : Nat → T ℝ) (B : G.Back sd x d k D) :
    ∃ D', ((List.range' k m).filter G.adAt).foldlM (G.backward fun j => theT (G.tg.value x j)) D = some D' ∧
      G.Back sd x d G.length D' := by
  induction m generalizing k D with
  | zero =>
    simp only [Nat.add_zero] at hk
    subst hk
    exact ⟨D, rfl, B⟩
  | succ m ih =>
    have hs := B.step W S A hd0 hsd (by omega : k < G.length)
    rw [List.range'_succ, List.filter_cons]
    cases had : G.adAt k with
    | false =>
      simp only [Bool.false_eq_true, ↓reduceIte]
      exact ih (k + 1) (by omega) D (hs.1 had)
    | true =>
      obtain ⟨D', e1, e2⟩ := hs.2 had
      simp only [↓reduceIte, List.foldlM_cons, e1]
      exact ih (k + 1) (by omega) D' e2

/-- **C21, tensors, any roots.** Whatever nodes are taken for roots, as long as they are not operands whose derivative is overwritten: a run succeeds, every
node gets its value, and every input gets the gradient of the sum of the entries of these nodes, added to the derivative it had. -/
theorem lisp_tensor_seeds (G : LG) (sd : Nat → Bool) (W : G.tg.Sorted) (x d : Nat → T ℝ) (S : G.tg.Fine x) (A : G.Adds x)
    (hd : ∀ w, G[w]? = some .leaf → (d w).shape = (x w).shape)
    (hd0 : G.Blank d) (hsd : G.Unseeded sd) :
    ∃ s, G.runS sd x d = some s ∧ (∀ j, G.tg.value x j = .ok (s.W j)) ∧ (∀ w, G[w]? = some .leaf → (s.D w).shape = (x w).shape) ∧
      ∀ (γ : ℝ → Nat → T ℝ) (v : Nat → T ℝ) (t₀ : ℝ), γ t₀ = x → (∀ w, G[w]? = some .leaf → Moves (fun t => γ t w) (v w) t₀) →
        (∀ i, G[i]? ≠ some .leaf → ∀ t, γ t i = x i) →
        HasDerivAt (fun t => ∑ j ∈ Finset.range G.length, if (G.getD j .leaf).isLeaf = false ∧ sd j = true then
            sumOver (G.tg.sh x j) (theT (G.tg.value (γ t) j)).at_ else 0)
          (∑ w ∈ Finset.range G.length, if (G.getD w .leaf).isLeaf then pair (s.D w) (v w) - pair (d w) (v w) else 0) t₀ := by
  have hleafs : ∀ w, w < G.length → (G.getD w .leaf).isLeaf = true → G[w]? = some .leaf := by
    intro w hw h
    have hn : G[w]? = some G[w] := List.getElem?_eq_getElem hw
    rw [G.getD_of hn] at h
    rw [hn]
    cases hc : G[w] <;> rw [hc] at h <;> simp [LNode.isLeaf] at h ⊢
  obtain ⟨s, s1, s2, s3, s4⟩ := G.forward_spec sd W x d S G.length (Nat.le_refl _) ⟨x, d, []⟩
    (fun j hj => by
      refine (G.value_leaf W x ?_).symm
      rcases hj with h | h
      · rw [List.getD_eq_getElem?_getD, List.getElem?_eq_none h]; rfl
      · exact h)
    (fun j hj => by
      have : (G.getD j .leaf).isLeaf = true := by
        rcases hj with h | h
        · rw [List.getD_eq_getElem?_getD, List.getElem?_eq_none h]; rfl
        · exact h
      simp only [LG.start, this, ↓reduceIte])
  have hsh : ∀ w, G[w]? = some .leaf → G.tg.sh x w = (x w).shape := fun w hw => by
    unfold TG.sh; rw [G.value_leaf W x (by rw [G.getD_of hw]; rfl)]
  have hstart : ∀ j, j < G.length → (G.start sd x d j).shape = G.tg.sh x j := by
    intro j hj
    unfold LG.start
    split
    · rename_i h
      have := hleafs j hj h
      rw [hsh j this, hd j this]
    · rfl
  have B0 : G.Back sd x d 0 (G.start sd x d) :=
    ⟨fun j hj _ => hstart j hj, fun j _ _ => rfl, fun vel _ => Finset.sum_congr rfl fun j _ => by simp [LG.live]⟩
  obtain ⟨D', e1, e2⟩ := LG.back_all W S A hd0 hsd G.length 0 (by omega) _ B0
  have hWe : s.W = fun j => theT (G.tg.value x j) := funext s2
  have hDe : s.D = G.start sd x d := funext s3
  have hq : s.q.reverse = (List.range' 0 G.length).filter G.adAt := by
    rw [s4, List.nil_append, ← List.filter_reverse, List.reverse_reverse, List.range_eq_range']
  refine ⟨{ s with D := D' }, ?_, fun j => ?_, fun w hw => ?_, ?_⟩
  · unfold LG.runS
    rw [s1]
    simp only [hq, hWe, hDe, e1, Option.map_some]
  · show _ = Res.ok (s.W j)
    rw [s2, ← S.ok W j]
  · have hw' := (List.getElem?_eq_some_iff.1 hw).1
    show (D' w).shape = _
    rw [e2.shape w hw' (by unfold LG.live; rw [G.getD_of hw]; simp [LNode.isLeaf]), hsh w hw]
  · intro γ v t₀ hγ hM hstay
    subst hγ
    let wrt := (List.range G.length).filter fun w => (G.getD w .leaf).isLeaf
    have hwrt : ∀ w, w ∈ wrt ↔ G[w]? = some .leaf := by
      intro w
      simp only [wrt, List.mem_filter, List.mem_range]
      constructor
      · rintro ⟨h1, h2⟩; exact hleafs w h1 h2
      · intro h; exact ⟨(List.getElem?_eq_some_iff.1 h).1, by rw [G.getD_of h]; rfl⟩
    obtain ⟨vel, v1, v2, v3⟩ := G.tg.velocities W γ v t₀ S wrt (fun w hw => by
        have hw := (hwrt w).1 hw
        have hl := (List.getElem?_eq_some_iff.1 (G.tg_get hw)).1
        refine ⟨hl, ?_⟩
        rw [G.tg.gr_node w hl, (List.getElem?_eq_some_iff.1 (G.tg_get hw)).2]; rfl)
      (fun w hw => hM w ((hwrt w).1 hw)) (fun i hi => hstay i fun h => hi ((hwrt i).2 h))
    have hch := G.chain_of_tangent W (γ t₀) S wrt vel v2
    have hsum := e2.sum vel hch
    have hvel : ∀ w, G[w]? = some .leaf → ∀ a : T ℝ, a.shape = (γ t₀ w).shape → pair a (vel w) = pair a (v w) := by
      intro w hw a ha
      rw [pair_eq, pair_eq]
      refine sumOver_congr _ _ _ fun j hj => ?_
      rw [v3 w ((hwrt w).2 hw) j (by rw [hsh w hw, ← ha]; exact hj)]
    have hfin : (∑ w ∈ Finset.range G.length, if (G.getD w .leaf).isLeaf then pair (D' w) (v w) - pair (d w) (v w) else 0) =
        ∑ j ∈ Finset.range G.length, if (G.getD j .leaf).isLeaf = false ∧ sd j = true then
          sumOver (G.tg.sh (γ t₀) j) (vel j).at_ else 0 := by
      have h1 : (∑ w ∈ Finset.range G.length, if (G.getD w .leaf).isLeaf then pair (D' w) (v w) - pair (d w) (v w) else 0) =
          (∑ j ∈ Finset.range G.length, if G.live G.length j then pair (D' j) (vel j) else 0) -
            ∑ j ∈ Finset.range G.length, if (G.getD j .leaf).isLeaf then pair (d j) (vel j) else 0 := by
        rw [← Finset.sum_sub_distrib]
        refine Finset.sum_congr rfl fun w hw => ?_
        have hw := Finset.mem_range.1 hw
        have hl : G.live G.length w = (G.getD w .leaf).isLeaf := by
          unfold LG.live
          rw [decide_eq_false (by omega)]; simp
        rw [hl]
        split
        · rename_i h
          have hlw := hleafs w hw h
          rw [hvel w hlw (D' w) (by rw [e2.shape w hw (by rw [hl]; exact h), hsh w hlw]), hvel w hlw (d w) (hd w hlw)]
        · simp
      rw [h1, hsum, ← Finset.sum_sub_distrib]
      refine Finset.sum_congr rfl fun j hj => ?_
      unfold LG.start
      cases hl : (G.getD j .leaf).isLeaf with
      | true => simp
      | false =>
        cases hr : sd j with
        | true =>
          simp only [Bool.false_eq_true, ↓reduceIte, sub_zero, and_self]
          rw [pair_eq]
          exact sumOver_congr _ _ _ fun i _ => by simp [fillT]
        | false =>
          simp only [Bool.false_eq_true, ↓reduceIte, sub_zero, and_false]
          exact pair_zero_left fun i _ => rfl
    rw [show (∑ w ∈ Finset.range G.length, if (G.getD w .leaf).isLeaf then pair (({ s with D := D' } : St).D w) (v w) - pair (d w) (v w) else 0) = _
      from hfin]
    refine HasDerivAt.fun_sum fun j hj => ?_
    have hj := Finset.mem_range.1 hj
    split
    · obtain ⟨_, hm⟩ := v1 j (by rw [G.tg_length]; exact hj)
      unfold sumOver
      exact HasDerivAt.fun_sum fun e he => hm.der _ (inB_unravel (Finset.mem_range.1 he))
    · exact hasDerivAt_const _ _

/-- **C21, tensors.** A run of the define-by-run machine on a graph whose operations have right gradients (`Fine`) and a `DoDiff` that adds
them (`Adds`), the overwritten derivatives being zero: it succeeds; every node gets its value; and every input gets the gradient of the sum of
the entries of the roots, added to the derivative it had: when the inputs move along curves, that sum moves with the velocity given by what has been added. -/
theorem lisp_tensor_gradient (G : LG) (W : G.tg.Sorted) (x d : Nat → T ℝ) (S : G.tg.Fine x) (A : G.Adds x)
    (hd : ∀ w, G[w]? = some .leaf → (d w).shape = (x w).shape)
    (hd0 : G.Blank d) :
    ∃ s, G.run x d = some s ∧ (∀ j, G.tg.value x j = .ok (s.W j)) ∧ (∀ w, G[w]? = some .leaf → (s.D w).shape = (x w).shape) ∧
      ∀ (γ : ℝ → Nat → T ℝ) (v : Nat → T ℝ) (t₀ : ℝ), γ t₀ = x → (∀ w, G[w]? = some .leaf → Moves (fun t => γ t w) (v w) t₀) →
        (∀ i, G[i]? ≠ some .leaf → ∀ t, γ t i = x i) →
        HasDerivAt (fun t => ∑ j ∈ Finset.range G.length, if (G.getD j .leaf).isLeaf = false ∧ G.root j = true then
            sumOver (G.tg.sh x j) (theT (G.tg.value (γ t) j)).at_ else 0)
          (∑ w ∈ Finset.range G.length, if (G.getD w .leaf).isLeaf then pair (s.D w) (v w) - pair (d w) (v w) else 0) t₀ := by
  refine lisp_tensor_seeds G G.root W x d S A hd hd0 fun i o ks s c hn hs hf hc => ?_
  unfold LG.root
  rw [Bool.not_eq_false']
  exact List.any_eq_true.2 ⟨_, List.mem_of_getElem? hn, by simpa [LNode.tnode, TNode.kids] using List.mem_of_getElem? hc⟩

end
end Verif.Lisp.Tensor
