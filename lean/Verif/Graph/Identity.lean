import Verif.Graph.Denote
/-!
Property C04: no node is ever substituted for a different expression, unless the hash collides.
-/
set_option autoImplicit false
namespace Verif.Graph

variable {L : Type} {P : Params L} {D : Type}

/-- Expression trees. -/
inductive Tree (L : Type) where
  | node : L → List (Tree L) → Tree L

mutual
/-- The hash of an expression tree. -/
def Tree.hash (P : Params L) : Tree L → UInt32
  | .node l ts => P.hash l (Tree.hashes P ts)
/-- The hashes of several expression trees. -/
def Tree.hashes (P : Params L) : List (Tree L) → List UInt32
  | [] => []
  | t :: ts => Tree.hash P t :: Tree.hashes P ts
end

theorem Tree.hashes_eq : ∀ ts : List (Tree L), Tree.hashes P ts = ts.map (Tree.hash P) := by
  intro ts
  induction ts with
  | nil => rfl
  | cons t ts ih => simp only [Tree.hashes, ih, List.map_cons]

theorem Tree.hash_node (l : L) (ts : List (Tree L)) : Tree.hash P (.node l ts) = P.hash l (ts.map (Tree.hash P)) := by
  rw [Tree.hash, Tree.hashes_eq]

/-- The expression a node stands for. -/
def expr (l0 : L) (g : G L) (p : Ptr) : Tree L := val Tree.node (.node l0 []) g p

/-- **C04 (what a node stands for).** A member stands for its operation applied to what its operands stand for. -/
theorem expr_unfold (l0 : L) {g : G L} (h : Reachable P g) {p : Ptr} {c : Cell L} (hp : p ∈ g.all)
    (hc : g.heap[p]? = some c) : expr l0 g p = .node c.label (c.children.map (expr l0 g)) :=
  val_unfold Tree.node _ h.W.inv hp hc

/-- **C04 (members keep their meaning).** No later call changes the expression a member stands for. -/
theorem expr_stable (l0 : L) {g g' : G L} (h : Reachable P g) (ops : List (Op L)) (hk : ∀ o ∈ ops, o.keeps = true)
    (hr : run P g ops = some g') {p : Ptr} (hp : p ∈ g.all) : expr l0 g' p = expr l0 g p := by
  obtain ⟨hW', h1, h2⟩ := W_run ops g h.W hk g' hr
  exact val_congr Tree.node _ h.W.inv hW'.inv (fun q hq => h1.subset hq) h2 _ p hp (Nat.lt_succ_self _)

/-- The tree `t` does not collide with a member: a member with the same hash (and an equal root) stands for `t`. -/
def NoCollision (P : Params L) (l0 : L) (g : G L) (t : Tree L) : Prop :=
  match t with
  | .node l ts => ∀ q ∈ g.all, ∀ c, g.heap[q]? = some c → P.eq l ts.length c.label c.children.length = true →
      Tree.hash P (expr l0 g q) = Tree.hash P t → expr l0 g q = t

/-- **C04 (AddNode).** Adding a node that stands for the expression `t = op(operands)` returns a member that stands for
`t`, provided the 32-bit hash does not collide with a member and constants with the same name are the same. -/
theorem addNode_same_expr (l0 : L) {g : G L} (h : Reachable P g) {p : Ptr} {n : Cell L} (hp : g.heap[p]? = some n)
    (hnc : NoCollision P l0 g (.node n.label (n.children.map (expr l0 g))))
    (hname : P.isConst n.label = true → ∀ q ∈ g.all, ∀ c, g.heap[q]? = some c → P.isConst c.label = true →
      P.name c.label = P.name n.label → expr l0 g q = .node n.label (n.children.map (expr l0 g)))
    {g' : G L} {r : Ptr} (e : addNode P g p = some (g', r)) :
    r ∈ g'.all ∧ expr l0 g' r = .node n.label (n.children.map (expr l0 g)) := by
  obtain ⟨g1, r1, e1, hI1, hcase⟩ := addNode_spec h.W.inv hp
  rw [e] at e1; cases e1
  have hhash : n.hash = Tree.hash P (.node n.label (n.children.map (expr l0 g))) := by
    obtain ⟨hs, h1, h2⟩ := h.H p n hp
    rw [h2, Tree.hash_node, List.map_map]
    congr 1
    apply hashes_map n.children hs h1
    intro q hq x hx
    obtain ⟨d, hd, h0, _⟩ := h.W.inv.kids p n hp q hq
    rw [hd] at hx; cases hx
    exact hash_val Tree.node _ (Tree.hash P) Tree.hash_node h.W.inv h.H _ q _ ((h.W.inv.mem_iff hd).2 h0) hd
      (Nat.lt_succ_self _)
  rcases hcase with ⟨rfl, hr, (⟨hc, q⟩ | hsame)⟩ | ⟨hins, _, _, _⟩
  · obtain ⟨c, hc1, hc2, hc3⟩ := q
    exact ⟨hr, hname hc r hr c hc1 hc2 hc3⟩
  · refine ⟨hr, ?_⟩
    obtain ⟨⟨c, hc1, hc2⟩, heq⟩ := hsame
    have hex : Tree.hash P (expr l0 g' r) = Tree.hash P (.node n.label (n.children.map (expr l0 g'))) := by
      rw [← hhash, ← hc2]
      exact (hash_val Tree.node _ (Tree.hash P) Tree.hash_node h.W.inv h.H _ r c hr hc1 (Nat.lt_succ_self _)).symm
    by_cases hpr : p = r
    · subst hpr
      rw [hp] at hc1; cases hc1
      exact expr_unfold l0 h hr hp
    · apply hnc r hr c hc1 _ hex
      have hf : (p == r) = false := by simp [hpr]
      simp only [nodeEq, hf, hp, hc1, Bool.false_or] at heq
      simpa using heq
  · have hrm : r ∈ g'.all := by rw [hins.all]; simp
    refine ⟨hrm, ?_⟩
    obtain ⟨c, hc1, hl, hch, _⟩ := hins.cell
    unfold expr
    rw [val_unfold Tree.node _ hI1 hrm hc1, hl, hch]
    congr 1
    apply List.map_congr_left
    intro q hq
    obtain ⟨d, hd, h0, _⟩ := h.W.inv.kids p n hp q hq
    exact val_congr Tree.node _ h.W.inv hI1 (fun x hx => by rw [hins.all]; simp [hx]) (hins.cells h.W.inv) _ q
      ((h.W.inv.mem_iff hd).2 h0) (Nat.lt_succ_self _)

/-- **C04 (applying an operation).** Applying an operation to non-constant members returns a member that stands for that
operation applied to what the operands stand for, provided the hash does not collide with a member. -/
theorem apply_same_expr (l0 : L) {g : G L} (h : Reachable P g) {l : L} {cs : List Ptr} (hk : P.isConst l = false)
    (hrefl : P.eq l cs.length l cs.length = true)
    (hcs : ∀ c ∈ cs, c ∈ g.all ∧ ∀ x, g.heap[c]? = some x → P.isConst x.label = false)
    (hnc : NoCollision P l0 g (.node l (cs.map (expr l0 g))))
    {g' : G L} {m : Ptr} (e : newUniqueNode P g l cs = some (g', m)) :
    m ∈ g'.all ∧ expr l0 g' m = .node l (cs.map (expr l0 g)) := by
  obtain ⟨hW', hm, hpre, hkeep⟩ := W_newUniqueNode h.W e
  refine ⟨hm, ?_⟩
  have hst : ∀ q ∈ g.all, expr l0 g' q = expr l0 g q := fun q hq =>
    val_congr Tree.node _ h.W.inv hW'.inv (fun x hx => hpre.subset hx) hkeep _ q hq (Nat.lt_succ_self _)
  obtain ⟨hs, g1, m1, hhs, e1, _, hyes, c, hno⟩ := newUniqueNode_canon h.W hk hrefl hcs
  rw [e] at e1; cases e1
  cases hcan : canon P g l cs.length (P.hash l hs) with
  | none =>
    obtain ⟨h1, h2, h3⟩ := hno hcan
    unfold expr
    rw [val_unfold Tree.node _ hW'.inv hm h1, h2, h3]
    congr 1
    apply List.map_congr_left
    intro q hq
    exact hst q (hcs q hq).1
  | some x =>
    obtain ⟨rfl, _⟩ := hyes x hcan
    have hb : m ∈ bucket g (P.hash l hs) ∧ labelTest P g l cs.length m = true := by
      rw [canon_bucket] at hcan
      exact ⟨List.mem_of_find?_eq_some hcan, List.find?_some hcan⟩
    have hmg := inv_bucket_mem h.W.inv hb.1
    obtain ⟨d, hd⟩ := h.W.inv.live m hmg
    have hdh : d.hash = P.hash l hs := by
      have hb1 := hb.1
      simp only [Verif.Graph.bucket] at hb1
      cases hbh : g.byHash (P.hash l hs) with
      | none => rw [hbh] at hb1; simp at hb1
      | some o =>
        rw [hbh] at hb1
        cases o with
        | none =>
          obtain ⟨_, d', hd', e'⟩ := h.W.inv.coll _ hbh m hb1
          rw [hd] at hd'; cases hd'; exact e'
        | some y =>
          simp only [List.mem_singleton] at hb1; subst hb1
          obtain ⟨_, d', hd', e'⟩ := h.W.inv.single _ _ hbh
          rw [hd] at hd'; cases hd'; exact e'
    rw [hst m hmg]
    apply hnc m hmg d hd
    · have := hb.2
      simp only [labelTest, hd] at this
      simpa using this
    · have h1 := hash_val Tree.node (.node l0 []) (Tree.hash P) Tree.hash_node h.W.inv h.H _ m d hmg hd (Nat.lt_succ_self _)
      have h2 : hs = cs.map (fun q => Tree.hash P (expr l0 g q)) := by
        apply hashes_map cs hs hhs
        intro q hq y hy
        exact hash_val Tree.node _ (Tree.hash P) Tree.hash_node h.W.inv h.H _ q y (hcs q hq).1 hy (Nat.lt_succ_self _)
      rw [Tree.hash_node, List.map_map, ← show d.hash = Tree.hash P (expr l0 g m) from h1, hdh, h2]
      rfl

/-- **C04 (the hash is essential).** With a hash that ignores the operands, `sub x y` and `sub y x` become one node:
`AddNode` compares hashes, labels and operand counts, never the operands themselves. -/
theorem collision_substitutes :
    ∃ g g' m, run demo empty [.unique ("x", false) [], .unique ("y", false) [], .unique ("sub", false) [0, 1]] = some g ∧
      newUniqueNode demo g ("sub", false) [1, 0] = some (g', m) ∧ operandsOf g' m = [0, 1] :=
  ⟨_, _, _, rfl, rfl, by decide⟩

/-- A hash that tells the expressions of the example apart. -/
def demo2 : Params (String × Bool) where
  hash := fun l hs => hs.foldl (fun a h => a * 31 + h) (l.1.length.toUInt32 + 5)
  eq := fun a k b k' => a == b && k == k'
  isConst := fun l => l.2
  name := fun l => l.1

/-- `x`, `yy` and `sub x yy`. -/
def demoG : G (String × Bool) :=
  (run demo2 empty [.unique ("x", false) [], .unique ("yy", false) [], .unique ("sub", false) [0, 1]]).getD empty

example : ((newUniqueNode demo2 demoG ("sub", false) [1, 0]).map (fun r => operandsOf r.1 r.2)) = some [1, 0] := by
  decide +kernel

example : NoCollision demo2 ("", false) demoG (.node ("sub", false) ([1, 0].map (expr ("", false) demoG))) := by
  intro q hq c _ _ hh
  exfalso
  have hall : demoG.all = [0, 1, 2] := by decide +kernel
  rw [hall] at hq
  have key : ∀ q ∈ [0, 1, 2], Tree.hash demo2 (expr ("", false) demoG q) ≠
      Tree.hash demo2 (.node ("sub", false) ([1, 0].map (expr ("", false) demoG))) := by decide +kernel
  exact key q hq hh

end Verif.Graph
