import Verif.Graph.Identity
/-!
Property C133: changing the slice of a node after it has been built.

`UnsafeLet(n, slice)` (gorgonia.go 259-272) replaces the slice in the operation of `n`. The operation is an object (`*sliceOp`, op_tensor.go 474-482); the operation
`sliceIncrOp` of the gradient holds the same object (op_tensor.go 535-546, 662-664), so all nodes built from it change together. Neither the hash of a node, which is
computed once (node.go 557-566), nor the tables of the graph change.

A change is a function on labels, applied to a set `S` of nodes: those whose operation is the object in question. That the shape of the nodes stays as it was, whatever
the length of the new slice, is part of the label and not looked at here.
-/
set_option autoImplicit false
namespace Verif.Graph

variable {L : Type} {P : Params L} {g : G L}

/-- `UnsafeLet` with a slice, gorgonia.go 259-272: the operation of the nodes in `S` is changed, their hash is not. -/
def relet (g : G L) (S : Ptr → Bool) (f : L → L) : G L :=
  { g with heap := g.heap.mapIdx fun p c => if S p then { c with label := f c.label } else c }

theorem relet_cell (g : G L) (S : Ptr → Bool) (f : L → L) (p : Ptr) :
    (relet g S f).heap[p]? = (g.heap[p]?).map fun c => if S p then { c with label := f c.label } else c := by
  simp [relet, List.getElem?_mapIdx]

/-- The cell after the change, from the one before. -/
theorem relet_some {S : Ptr → Bool} {f : L → L} {p : Ptr} {c : Cell L} (h : g.heap[p]? = some c) :
    (relet g S f).heap[p]? = some (if S p then { c with label := f c.label } else c) := by
  rw [relet_cell, h]; rfl

theorem relet_inv {S : Ptr → Bool} {f : L → L} {p : Ptr} {c : Cell L} (h : (relet g S f).heap[p]? = some c) :
    ∃ c0, g.heap[p]? = some c0 ∧ c.children = c0.children ∧ c.hash = c0.hash ∧ c.id = c0.id ∧
      c.label = if S p then f c0.label else c0.label := by
  rw [relet_cell] at h
  cases h0 : g.heap[p]? with
  | none => simp [h0] at h
  | some c0 =>
    rw [h0] at h
    simp only [Option.map_some, Option.some.injEq] at h
    refine ⟨c0, rfl, ?_⟩
    subst h
    cases S p <;> simp

/-- The parameters under which labels play no role. -/
def blind (P : Params L) : Params L := { P with eq := fun _ _ _ _ => false, isConst := fun _ => true }

theorem nodeEq_blind (g : G L) (a b : Ptr) : nodeEq (blind P) g a b = (a == b) := by
  simp only [nodeEq, blind]
  cases g.heap[a]? <;> cases g.heap[b]? <;> simp

theorem GInv.blind (h : GInv P g) : GInv (blind P) g where
  len := h.len
  ids := h.ids
  pos := h.pos
  byid := h.byid
  bucket := h.bucket
  single := h.single
  coll := h.coll
  sep := fun hh hb => (h.sep hh hb).imp (fun {a b} hab => by
    rw [nodeEq_blind]
    cases hq : (b == a) with
    | false => rfl
    | true =>
      rw [beq_iff_eq] at hq
      rw [hq, nodeEq_self] at hab
      cases hab)
  consts := fun q hq => ⟨(h.consts q hq).1, by obtain ⟨c, hc, _⟩ := (h.consts q hq).2; exact ⟨c, hc, rfl⟩⟩
  kids := h.kids
  toSound := h.toSound
  toDef := h.toDef

/-- The parts of the invariant other than `sep` and `consts` do not look at labels. -/
theorem GInv.relabel {Q : Params L} (h : GInv Q g) (S : Ptr → Bool) (f : L → L)
    (hsep : ∀ hh, g.byHash hh = some none → (g.evac hh).Pairwise (fun e p => nodeEq Q (relet g S f) p e = false))
    (hconst : ∀ q ∈ g.constants, ∀ c, (relet g S f).heap[q]? = some c → Q.isConst c.label = true) : GInv Q (relet g S f) where
  len := h.len
  ids := fun p c hc => by
    obtain ⟨c0, h0, _, _, e, _⟩ := relet_inv hc
    rw [e]; exact h.ids p c0 h0
  pos := fun i p hp => by
    obtain ⟨c, hc, hi⟩ := h.pos i p hp
    exact ⟨_, relet_some hc, by split <;> exact hi⟩
  byid := h.byid
  bucket := fun p hp c hc => by
    obtain ⟨c0, h0, _, e, _, _⟩ := relet_inv hc
    rw [e]; exact h.bucket p hp c0 h0
  single := fun hh p hb => by
    obtain ⟨h1, c, hc, e⟩ := h.single hh p hb
    exact ⟨h1, _, relet_some hc, by split <;> exact e⟩
  coll := fun hh hb p hp => by
    obtain ⟨h1, c, hc, e⟩ := h.coll hh hb p hp
    exact ⟨h1, _, relet_some hc, by split <;> exact e⟩
  sep := hsep
  consts := fun q hq => by
    obtain ⟨h1, c, hc, _⟩ := h.consts q hq
    exact ⟨h1, _, relet_some hc, hconst q hq _ (relet_some hc)⟩
  kids := fun p c hc q hq => by
    obtain ⟨c0, h0, e1, _, e3, _⟩ := relet_inv hc
    rw [e1] at hq
    obtain ⟨d, hd, k1, k2⟩ := h.kids p c0 h0 q hq
    refine ⟨_, relet_some hd, ?_, ?_⟩
    · split <;> exact k1
    · rw [e3]; split <;> exact k2
  toSound := fun u ns hu => by
    obtain ⟨h1, h2⟩ := h.toSound u ns hu
    refine ⟨h1, fun v hv => ?_⟩
    obtain ⟨h3, c, hc, h4⟩ := h2 v hv
    exact ⟨h3, _, relet_some hc, by split <;> exact h4⟩
  toDef := h.toDef

theorem relet_blind (h : GInv P g) (S : Ptr → Bool) (f : L → L) : GInv (blind P) (relet g S f) :=
  h.blind.relabel S f (fun hh hb => ((h.blind.sep hh hb)).imp (fun {a b} hab => by rw [nodeEq_blind] at hab ⊢; exact hab)) (fun _ _ _ _ => rfl)

/-! ### What a change changes -/

/-- After the change a node stands for its operation, the changed one for the nodes concerned, applied to what its operands now stand for. -/
theorem relet_expr (l0 : L) (h : WGraph P g) (S : Ptr → Bool) (f : L → L) {p : Ptr} {c : Cell L} (hp : p ∈ g.all) (hc : g.heap[p]? = some c) :
    expr l0 (relet g S f) p = .node (if S p then f c.label else c.label) (c.children.map (expr l0 (relet g S f))) := by
  have := val_unfold Tree.node (.node l0 []) (relet_blind h.inv S f) (p := p) hp (relet_some (S := S) (f := f) hc)
  unfold expr
  rw [this]
  cases S p <;> rfl

/-- Nodes that are not built from a changed one stand for what they stood for. -/
theorem relet_others (l0 : L) (h : WGraph P g) (S : Ptr → Bool) (f : L → L) (T : Ptr → Prop) (hT : ∀ p, T p → S p = false)
    (hkids : ∀ p c, T p → g.heap[p]? = some c → ∀ q ∈ c.children, T q) :
    ∀ (n : Nat) (p : Ptr), p ∈ g.all → T p → rank g p < n → expr l0 (relet g S f) p = expr l0 g p
  | 0, _, _, _, h => absurd h (Nat.not_lt_zero _)
  | n + 1, p, hp, ht, hn => by
    obtain ⟨c, hc⟩ := h.inv.live p hp
    rw [relet_expr l0 h S f hp hc, hT p ht]
    unfold expr
    rw [val_unfold Tree.node _ h.inv hp hc]
    simp only [Bool.false_eq_true, if_false]
    congr 1
    apply List.map_congr_left
    intro q hq
    obtain ⟨d, hd, k1, k2⟩ := h.inv.kids p c hc q hq
    have hpi : 0 ≤ c.id := (h.inv.mem_iff hc).1 hp
    have hlt := k2 (by omega)
    have hr1 : rank g p = c.id.toNat := by simp only [rank, hc]
    have hr2 : rank g q = d.id.toNat := by simp only [rank, hd]
    exact relet_others l0 h S f T hT hkids n q ((h.inv.mem_iff hd).2 k1) (hkids p c ht hc q hq) (by omega)

/-! ### Requests after a change -/

/-- The graph stays in order, if the changed nodes are alone with their hash and no constants. -/
theorem relet_W (h : WGraph P g) (S : Ptr → Bool) (f : L → L)
    (halone : ∀ p c, S p = true → g.heap[p]? = some c → p ∈ g.all → g.byHash c.hash = some (some p))
    (hconst : ∀ p c, S p = true → g.heap[p]? = some c → P.isConst c.label = false) : WGraph P (relet g S f) := by
  have hno : ∀ hh, g.byHash hh = some none → ∀ p ∈ g.evac hh, S p = false := by
    intro hh hb p hp
    obtain ⟨h1, c, hc, e⟩ := h.inv.coll hh hb p hp
    cases hs : S p with
    | false => rfl
    | true =>
      have := halone p c hs hc h1
      rw [e, hb] at this
      cases this
  refine ⟨h.inv.relabel S f ?_ ?_, ?_, ?_⟩
  · intro hh hb
    refine (h.inv.sep hh hb).imp_of_mem ?_
    intro a b ha hb' hab
    have e1 : (relet g S f).heap[a]? = g.heap[a]? := by rw [relet_cell, hno hh hb a ha]; cases g.heap[a]? <;> rfl
    have e2 : (relet g S f).heap[b]? = g.heap[b]? := by rw [relet_cell, hno hh hb b hb']; cases g.heap[b]? <;> rfl
    simp only [nodeEq, e1, e2] at hab ⊢
    exact hab
  · intro q hq c hc
    obtain ⟨_, d, hd, hk⟩ := h.inv.consts q hq
    obtain ⟨c0, h0, _, _, _, e⟩ := relet_inv hc
    rw [hd] at h0; cases h0
    cases hs : S q with
    | false => rw [e, hs]; exact hk
    | true => have := hconst q d hs hd; rw [hk] at this; cases this
  · intro p c hp hc hid
    obtain ⟨c0, h0, e1, _, e3, _⟩ := relet_inv hc
    rw [e1]; exact h.raw p c0 hp h0 (e3 ▸ hid)
  · intro v hv hx c hc u hu
    obtain ⟨c0, h0, e1, _, _, _⟩ := relet_inv hc
    exact h.complete v hv hx c0 h0 u (e1 ▸ hu)

/-- What is filed under a hash carries it. -/
theorem bucket_hash (h : GInv P g) {k : UInt32} {p : Ptr} (hp : p ∈ bucket g k) : ∃ c, g.heap[p]? = some c ∧ c.hash = k := by
  simp only [bucket] at hp
  cases hb : g.byHash k with
  | none => rw [hb] at hp; simp at hp
  | some o =>
    rw [hb] at hp
    cases o with
    | none => exact (h.coll k hb p hp).2
    | some y =>
      simp only [List.mem_singleton] at hp; subst hp
      exact (h.single k p hb).2

/-- A request made later returns a node that stands for what was asked for, if every node that carries the same hash and looks like it has the same operands. -/
theorem request_right (l0 : L) (h : WGraph P g) {l : L} {cs : List Ptr} (hk : P.isConst l = false) (hrefl : P.eq l cs.length l cs.length = true)
    (hcs : ∀ c ∈ cs, c ∈ g.all ∧ ∀ x, g.heap[c]? = some x → P.isConst x.label = false)
    (hsame : ∀ q ∈ g.all, ∀ d, g.heap[q]? = some d → P.eq l cs.length d.label d.children.length = true →
      (∀ hs, hashes g cs = some hs → d.hash = P.hash l hs) → d.label = l ∧ d.children = cs)
    {g' : G L} {m : Ptr} (e : newUniqueNode P g l cs = some (g', m)) : m ∈ g'.all ∧ expr l0 g' m = .node l (cs.map (expr l0 g)) := by
  obtain ⟨hW', hm, hpre, hkeep⟩ := W_newUniqueNode h e
  refine ⟨hm, ?_⟩
  have hst : ∀ q ∈ g.all, expr l0 g' q = expr l0 g q := fun q hq =>
    val_congr Tree.node _ h.inv hW'.inv (fun x hx => hpre.subset hx) hkeep _ q hq (Nat.lt_succ_self _)
  obtain ⟨hs, g1, m1, hhs, e1, _, hyes, c, hno⟩ := newUniqueNode_canon h hk hrefl hcs
  rw [e] at e1; cases e1
  cases hcan : canon P g l cs.length (P.hash l hs) with
  | none =>
    obtain ⟨h1, h2, h3⟩ := hno hcan
    unfold expr
    rw [val_unfold Tree.node _ hW'.inv hm h1, h2, h3]
    congr 1
    apply List.map_congr_left
    intro q hq
    exact hst q (hcs q hq).1
  | some x =>
    obtain ⟨rfl, _⟩ := hyes x hcan
    rw [canon_bucket] at hcan
    have hb1 := List.mem_of_find?_eq_some hcan
    have hb2 := List.find?_some hcan
    have hmg := inv_bucket_mem h.inv hb1
    obtain ⟨d, hd⟩ := h.inv.live m hmg
    have hdh : d.hash = P.hash l hs := by
      obtain ⟨d', hd', e'⟩ := bucket_hash h.inv hb1
      rw [hd] at hd'; cases hd'; exact e'
    obtain ⟨d1, d2⟩ := hsame m hmg d hd (by simpa only [labelTest, hd] using hb2) (fun hs' hh => by rw [hhs] at hh; cases hh; exact hdh)
    rw [hst m hmg]
    unfold expr
    rw [val_unfold Tree.node _ h.inv hmg hd, d1, d2]

/-- The node with the old slice is made anew when it is asked for after the change, as it should be; but it has the hash of the changed one, and so an operation on it
is taken for the same operation on the changed node: the node returned is built from the changed slice. For every hash function. -/
theorem stale_dependant (l0 : L) (hr : Reachable P g) {a b : Ptr} {ca cb : Cell L} {f : L → L} {lb : L} (ha : a ∈ g.all) (hca : g.heap[a]? = some ca)
    (halone : g.byHash ca.hash = some (some a)) (hka : P.isConst ca.label = false)
    (hrefl : P.eq ca.label ca.children.length ca.label ca.children.length = true)
    (hdiff : P.eq ca.label ca.children.length (f ca.label) ca.children.length = false)
    (hkids : ∀ c ∈ ca.children, ∀ x, g.heap[c]? = some x → P.isConst x.label = false)
    (hb : canon P g lb 1 (P.hash lb [ca.hash]) = some b) (hcb : g.heap[b]? = some cb) (hlb : cb.label = lb) (hkb : cb.children = [a])
    (hkl : P.isConst lb = false) (hrb : P.eq lb 1 lb 1 = true) :
    ∃ g3 c g4, newUniqueNode P (relet g (· == a) f) ca.label ca.children = some (g3, c) ∧ c ≠ a ∧
      expr l0 g3 c = .node ca.label (ca.children.map (expr l0 g)) ∧
      newUniqueNode P g3 lb [c] = some (g4, b) ∧
      expr l0 g4 b = .node lb [.node (f ca.label) (ca.children.map (expr l0 g))] := by
  have hW := hr.W
  have hacyc : a ∉ ca.children := fun h => by
    obtain ⟨d, hd, _, hlt⟩ := hW.inv.kids a ca hca a h
    rw [hca] at hd; cases hd
    have hpi : 0 ≤ ca.id := (hW.inv.mem_iff hca).1 ha
    have := hlt (by omega)
    omega
  have hW2 : WGraph P (relet g (· == a) f) := by
    refine relet_W hW _ f ?_ ?_
    · intro p c hp hc _
      rw [beq_iff_eq] at hp; subst hp
      rw [hca] at hc; cases hc; exact halone
    · intro p c hp hc
      rw [beq_iff_eq] at hp; subst hp
      rw [hca] at hc; cases hc; exact hka
  have hother : ∀ q, q ≠ a → (relet g (· == a) f).heap[q]? = g.heap[q]? := by
    intro q hq
    rw [relet_cell]
    have : (q == a) = false := by simp [hq]
    rw [this]; cases g.heap[q]? <;> rfl
  have hat : (relet g (· == a) f).heap[a]? = some { ca with label := f ca.label } := by
    rw [relet_cell, hca]; simp
  -- operands of `a` have smaller IDs
  have hkall : ∀ q ∈ ca.children, q ∈ g.all := fun q hq => by
    obtain ⟨d, hd, h0, _⟩ := hW.inv.kids a ca hca q hq
    exact (hW.inv.mem_iff hd).2 h0
  have hcs2 : ∀ c ∈ ca.children, c ∈ (relet g (· == a) f).all ∧ ∀ x, (relet g (· == a) f).heap[c]? = some x → P.isConst x.label = false := by
    intro c hc
    refine ⟨hkall c hc, fun x hx => hkids c hc x ?_⟩
    rw [hother c (fun e => hacyc (e ▸ hc))] at hx; exact hx
  -- the first request
  obtain ⟨hs, g3, c, hhs, e1, hfound, _, d, hno⟩ := newUniqueNode_canon hW2 hka hrefl hcs2
  have hhs' : hashes g ca.children = some hs := by
    rw [← hhs]
    have : ∀ l : List Ptr, a ∉ l → hashes (relet g (· == a) f) l = hashes g l := by
      intro l
      induction l with
      | nil => intro _; rfl
      | cons x l ih =>
        intro hx
        simp only [List.mem_cons, not_or] at hx
        simp only [hashes, hother x (fun e => hx.1 e.symm), ih hx.2]
    exact (this _ hacyc).symm
  have hah : ca.hash = P.hash ca.label hs := by
    obtain ⟨hs', h1, h2⟩ := hr.H a ca hca
    rw [hhs'] at h1; cases h1; exact h2
  have hcan : canon P (relet g (· == a) f) ca.label ca.children.length (P.hash ca.label hs) = none := by
    have hbh : (relet g (· == a) f).byHash (P.hash ca.label hs) = some (some a) := by rw [← hah]; exact halone
    simp only [canon, hbh, hat, hdiff]
    rfl
  obtain ⟨n1, n2, n3⟩ := hno hcan
  obtain ⟨hW3, hm3, hpre3, hkeep3⟩ := W_newUniqueNode hW2 e1
  -- the operands stand for what they stood for
  have hrank : ∀ q ∈ ca.children, rank g q < rank g a := by
    intro q hq
    obtain ⟨d, hd, h0, hlt⟩ := hW.inv.kids a ca hca q hq
    have hpi : 0 ≤ ca.id := (hW.inv.mem_iff hca).1 ha
    have := hlt (by omega)
    simp only [rank, hd, hca]; omega
  have hsmall : ∀ n q, q ∈ g.all → rank g q < n → rank g q < rank g a → expr l0 (relet g (· == a) f) q = expr l0 g q := by
    intro n q hq hn hlt
    refine relet_others l0 hW (· == a) f (fun q => rank g q < rank g a) ?_ ?_ n q hq hlt hn
    · intro p hp
      have : p ≠ a := by rintro rfl; omega
      simp [this]
    · intro p cp hp hcp r hr'
      obtain ⟨d, hd, h0, hlt'⟩ := hW.inv.kids p cp hcp r hr'
      have hpa : 0 ≤ ca.id := (hW.inv.mem_iff hca).1 ha
      by_cases hid : cp.id = -1
      · have := hW.raw p cp (fun h => h) hcp hid
        rw [this] at hr'; cases hr'
      · have := hlt' hid
        have hpp : rank g p = cp.id.toNat := by simp only [rank, hcp]
        have hrr : rank g r = d.id.toNat := by simp only [rank, hd]
        show rank g r < rank g a
        omega
  have hops : ca.children.map (expr l0 (relet g (· == a) f)) = ca.children.map (expr l0 g) :=
    List.map_congr_left fun q hq => hsmall _ q (hkall q hq) (Nat.lt_succ_self _) (hrank q hq)
  have hst3 : ∀ q ∈ g.all, expr l0 g3 q = expr l0 (relet g (· == a) f) q := fun q hq =>
    val_congr Tree.node _ hW2.inv hW3.inv (fun x hx => hpre3.subset hx) hkeep3 _ q hq (Nat.lt_succ_self _)
  have hcne : c ≠ a := by
    intro e
    have : g3.heap[a]? = some { ca with label := f ca.label } := by rw [hkeep3 a ha]; exact hat
    rw [e, this] at n1
    cases n1
    have n2' : f ca.label = ca.label := n2
    rw [n2', hrefl] at hdiff; cases hdiff
  have hexc : expr l0 g3 c = .node ca.label (ca.children.map (expr l0 g)) := by
    have := val_unfold Tree.node (.node l0 []) hW3.inv hm3 n1
    unfold expr
    rw [this, n2, n3]
    congr 1
    exact (List.map_congr_left fun q hq => hst3 q (hkall q hq)).trans hops
  -- its hash is that of `a`
  obtain ⟨b1, b2⟩ : b ∈ bucket g (P.hash lb [ca.hash]) ∧ b ∈ g.all := by
    rw [canon_bucket] at hb
    have := List.mem_of_find?_eq_some hb
    exact ⟨this, inv_bucket_mem hW.inv this⟩
  have hba : b ≠ a := by
    intro e
    subst e
    rw [hca] at hcb; cases hcb
    rw [hkb] at hacyc; simp at hacyc
  have hbcell : (relet g (· == a) f).heap[b]? = some cb := by rw [hother b hba]; exact hcb
  have hne : P.hash lb [ca.hash] ≠ ca.hash := by
    intro e
    rw [e] at b1
    simp only [bucket, halone, List.mem_singleton] at b1
    exact hba b1
  have hcanb2 : canon P (relet g (· == a) f) lb 1 (P.hash lb [ca.hash]) = some b := by
    rw [← hb, canon_bucket, canon_bucket]
    have : bucket (relet g (· == a) f) (P.hash lb [ca.hash]) = bucket g (P.hash lb [ca.hash]) := rfl
    rw [this]
    apply find?_congr'
    intro q hq
    have hqa : q ≠ a := by
      intro e
      subst e
      obtain ⟨d', hd', e'⟩ := bucket_hash hW.inv hq
      rw [hca] at hd'; cases hd'; exact hne e'.symm
    simp only [labelTest, hother q hqa]
  have hcanb3 : canon P g3 lb 1 (P.hash lb [ca.hash]) = some b := by
    have hrun : run P (relet g (· == a) f) [.unique ca.label ca.children] = some g3 := by
      simp [run, step, e1]
    exact canon_stable hW2 (by simp [Op.keeps]) hrun hcanb2
  have hch : d.hash = ca.hash := by
    rw [canon_bucket] at hfound
    obtain ⟨d', hd', e'⟩ := bucket_hash hW3.inv (List.mem_of_find?_eq_some hfound)
    rw [n1] at hd'; cases hd'
    rw [e', hah]
  -- the second request
  have hcs3 : ∀ x ∈ [c], x ∈ g3.all ∧ ∀ y, g3.heap[x]? = some y → P.isConst y.label = false := by
    intro x hx
    rw [List.mem_singleton] at hx; subst hx
    refine ⟨hm3, fun y hy => ?_⟩
    rw [n1] at hy; cases hy; rw [n2]; exact hka
  obtain ⟨hs4, g4, m4, hhs4, e4, _, hyes4, _⟩ := newUniqueNode_canon (cs := [c]) hW3 hkl hrb hcs3
  have hs4e : hs4 = [ca.hash] := by
    simp only [hashes, n1, Option.some.injEq] at hhs4
    rw [← hhs4, hch]
  rw [hs4e] at hyes4
  obtain ⟨rfl, _⟩ := hyes4 b hcanb3
  obtain ⟨hW4, hm4, hpre4, hkeep4⟩ := W_newUniqueNode hW3 e4
  refine ⟨g3, c, g4, e1, hcne, hexc, e4, ?_⟩
  have hb3 : m4 ∈ g3.all := hpre3.subset b2
  have ha3 : a ∈ g3.all := hpre3.subset ha
  have hst4 : ∀ q ∈ g3.all, expr l0 g4 q = expr l0 g3 q := fun q hq =>
    val_congr Tree.node _ hW3.inv hW4.inv (fun x hx => hpre4.subset hx) hkeep4 _ q hq (Nat.lt_succ_self _)
  rw [hst4 m4 hb3, hst3 m4 b2, relet_expr l0 hW _ f b2 hcb, hkb, hlb]
  have : (m4 == a) = false := by simp [hba]
  rw [this]
  simp only [Bool.false_eq_true, if_false, List.map_cons, List.map_nil]
  rw [relet_expr l0 hW _ f ha hca]
  simp only [beq_self_eq_true, if_true, hops]

/-! ### The program `a := x[0]; b := -a; UnsafeLet(a, S(1)); c := x[0]; d := -c` -/

/-- `x`, `x[0]` and its negation. -/
def sliceG : G (String × Bool) :=
  (run demo2 empty [.unique ("x", false) [], .unique ("at 0", false) [0], .unique ("neg", false) [1]]).getD empty

/-- The new slice. -/
def toOne (l : String × Bool) : String × Bool := if l.1 = "at 0" then ("at 1", l.2) else l

mutual
/-- An expression in prefix form. -/
def Tree.words : Tree (String × Bool) → List String
  | .node l ts => l.1 :: Tree.wordss ts
/-- Several expressions in prefix form. -/
def Tree.wordss : List (Tree (String × Bool)) → List String
  | [] => []
  | t :: ts => Tree.words t ++ Tree.wordss ts
end

/-- What the node returned stands for. -/
def asked (r : Option (G (String × Bool) × Ptr)) : Option (List String) := r.map fun r => (expr ("", false) r.1 r.2).words

/-- The dependants of the changed node follow it, `x` stays. -/
example : (expr ("", false) (relet sliceG (· == 1) toOne) 2).words = ["neg", "at 1", "x"] ∧
    (expr ("", false) (relet sliceG (· == 1) toOne) 0).words = ["x"] := by decide +kernel

/-- `x[0]` asked for again is `x[0]`. -/
example : asked (newUniqueNode demo2 (relet sliceG (· == 1) toOne) ("at 0", false) [0]) = some ["at 0", "x"] := by decide +kernel

/-- So is the negation of `x`. -/
example : asked (newUniqueNode demo2 (relet sliceG (· == 1) toOne) ("neg", false) [0]) = some ["neg", "x"] := by decide +kernel

/-- The negation of `x[0]` is not: it is that of `x[1]`. -/
example : asked ((newUniqueNode demo2 (relet sliceG (· == 1) toOne) ("at 0", false) [0]).bind fun r => newUniqueNode demo2 r.1 ("neg", false) [r.2]) =
    some ["neg", "at 1", "x"] := by decide +kernel

theorem sliceG_reachable : Reachable demo2 sliceG := by
  refine ⟨[.unique ("x", false) [], .unique ("at 0", false) [0], .unique ("neg", false) [1]], by simp [Op.keeps], ?_⟩
  have h : (run demo2 empty [.unique ("x", false) [], .unique ("at 0", false) [0], .unique ("neg", false) [1]]).isSome = true := by decide +kernel
  obtain ⟨g, hg⟩ := Option.isSome_iff_exists.1 h
  rw [sliceG, hg]; rfl

theorem sliceG_cells : ∃ x a b : Cell (String × Bool), sliceG.heap[0]? = some x ∧ sliceG.heap[1]? = some a ∧ sliceG.heap[2]? = some b ∧
    x.label = ("x", false) ∧ a.label = ("at 0", false) ∧ a.children = [0] ∧ b.label = ("neg", false) ∧ b.children = [1] ∧
    sliceG.byHash a.hash = some (some 1) ∧ canon demo2 sliceG ("neg", false) 1 (demo2.hash ("neg", false) [a.hash]) = some 2 := by
  obtain ⟨x, hx⟩ := Option.isSome_iff_exists.1 (show (sliceG.heap[0]?).isSome = true by decide +kernel)
  obtain ⟨a, ha⟩ := Option.isSome_iff_exists.1 (show (sliceG.heap[1]?).isSome = true by decide +kernel)
  obtain ⟨b, hb⟩ := Option.isSome_iff_exists.1 (show (sliceG.heap[2]?).isSome = true by decide +kernel)
  have e1 : (sliceG.heap[0]?).map (·.label) = some ("x", false) := by decide +kernel
  have e2 : (sliceG.heap[1]?).map (fun c => (c.label, c.children, sliceG.byHash c.hash,
      canon demo2 sliceG ("neg", false) 1 (demo2.hash ("neg", false) [c.hash]))) = some (("at 0", false), [0], some (some 1), some 2) := by decide +kernel
  have e3 : (sliceG.heap[2]?).map (fun c => (c.label, c.children)) = some (("neg", false), [1]) := by decide +kernel
  rw [hx] at e1; rw [ha] at e2; rw [hb] at e3
  simp only [Option.map_some, Option.some.injEq, Prod.mk.injEq] at e1 e2 e3
  exact ⟨x, a, b, hx, ha, hb, by rw [e1], by rw [← e2.1], e2.2.1, by rw [← e3.1], e3.2, e2.2.2.1, e2.2.2.2⟩

/-- The hypotheses of the theorem hold for it. -/
example : ∃ g3 c g4, newUniqueNode demo2 (relet sliceG (· == 1) toOne) ("at 0", false) [0] = some (g3, c) ∧ c ≠ 1 ∧
    newUniqueNode demo2 g3 ("neg", false) [c] = some (g4, 2) := by
  obtain ⟨x, a, b, hx, ha, hb, h1, h2, h3, h4, h5, h6, h7⟩ := sliceG_cells
  obtain ⟨g3, c, g4, e1, e2, _, e4, _⟩ := stale_dependant (f := toOne) (lb := ("neg", false)) ("", false) sliceG_reachable (a := 1) (b := 2)
    (by decide +kernel) ha h6 (by rw [h2]; rfl) (by rw [h2, h3]; decide) (by rw [h2, h3]; decide)
    (by intro k hk y hy; rw [h3, List.mem_singleton] at hk; subst hk; rw [hx] at hy; cases hy; rw [h1]; rfl) h7 hb h4 h5 rfl (by decide)
  rw [h2, h3] at e1
  exact ⟨g3, c, g4, e1, e2, e4⟩

end Verif.Graph
