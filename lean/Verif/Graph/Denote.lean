import Verif.Graph.Theorems
/-!
Property C04: the graph never substitutes a node for a different expression, as long as the hash does not collide.

An interpretation of expressions is any function `den : L → List D → D` (the meaning of an operation applied to the
meanings of its operands). The finest one takes `D` to be expression trees.
-/
set_option autoImplicit false
namespace Verif.Graph

variable {L : Type} {P : Params L} {D : Type}

/-- The meaning of a node, following operands at most `n` levels deep. `bad` for a dangling pointer (which does not occur). -/
def valF (den : L → List D → D) (bad : D) (g : G L) : Nat → Ptr → D
  | 0, _ => bad
  | n + 1, p =>
    match g.heap[p]? with
    | none => bad
    | some c => den c.label (c.children.map (valF den bad g n))

/-- The rank of a node: its ID. -/
def rank (g : G L) (p : Ptr) : Nat := match g.heap[p]? with | some c => c.id.toNat | none => 0

/-- The meaning of a node. -/
def val (den : L → List D → D) (bad : D) (g : G L) (p : Ptr) : D := valF den bad g (rank g p + 1) p

theorem valF_fuel (den : L → List D → D) (bad : D) {g : G L} (hI : GInv P g) :
    ∀ (n m : Nat) (p : Ptr), p ∈ g.all → rank g p < n → rank g p < m → valF den bad g n p = valF den bad g m p := by
  intro n
  induction n with
  | zero => intro m p _ h; omega
  | succ n ih =>
    intro m p hp hn hm
    cases m with
    | zero => omega
    | succ m =>
      obtain ⟨c, hc⟩ := hI.live p hp
      simp only [valF, hc]
      congr 1
      apply List.map_congr_left
      intro q hq
      obtain ⟨d, hd, h0, hlt⟩ := hI.kids p c hc q hq
      have hqm := (hI.mem_iff hd).2 h0
      have hpi : 0 ≤ c.id := (hI.mem_iff hc).1 hp
      have h1 := hlt (by omega)
      simp only [rank, hc] at hn hm
      exact ih m q hqm (by simp only [rank, hd]; omega) (by simp only [rank, hd]; omega)

/-- The meaning of a member is its operation applied to the meanings of its operands. -/
theorem val_unfold (den : L → List D → D) (bad : D) {g : G L} (hI : GInv P g) {p : Ptr} {c : Cell L}
    (hp : p ∈ g.all) (hc : g.heap[p]? = some c) : val den bad g p = den c.label (c.children.map (val den bad g)) := by
  simp only [val, valF, hc]
  congr 1
  apply List.map_congr_left
  intro q hq
  obtain ⟨d, hd, h0, hlt⟩ := hI.kids p c hc q hq
  have hqm := (hI.mem_iff hd).2 h0
  have hpi : 0 ≤ c.id := (hI.mem_iff hc).1 hp
  have h1 := hlt (by omega)
  have hrp : rank g p = c.id.toNat := by simp only [rank, hc]
  have hrq : rank g q = d.id.toNat := by simp only [rank, hd]
  exact valF_fuel den bad hI _ _ q hqm (by omega) (by omega)

/-- Members keep their meaning when their cells do. -/
theorem val_congr (den : L → List D → D) (bad : D) {g g' : G L} (hI : GInv P g) (hI' : GInv P g')
    (hsub : ∀ q ∈ g.all, q ∈ g'.all) (hk : ∀ q ∈ g.all, g'.heap[q]? = g.heap[q]?) :
    ∀ (n : Nat) (p : Ptr), p ∈ g.all → rank g p < n → val den bad g' p = val den bad g p := by
  intro n
  induction n with
  | zero => intro p _ h; omega
  | succ n ih =>
    intro p hp hr
    obtain ⟨c, hc⟩ := hI.live p hp
    have hc' : g'.heap[p]? = some c := by rw [hk p hp]; exact hc
    rw [val_unfold den bad hI hp hc, val_unfold den bad hI' (hsub p hp) hc']
    congr 1
    apply List.map_congr_left
    intro q hq
    obtain ⟨d, hd, h0, hlt⟩ := hI.kids p c hc q hq
    have hqm := (hI.mem_iff hd).2 h0
    have hpi : 0 ≤ c.id := (hI.mem_iff hc).1 hp
    have h1 := hlt (by omega)
    simp only [rank, hc] at hr
    exact ih q hqm (by simp only [rank, hd]; omega)

/-- Every node object's hash is the hash of its label and its operands' hashes. -/
def HInv (P : Params L) (g : G L) : Prop :=
  ∀ (q : Ptr) (c : Cell L), g.heap[q]? = some c → ∃ hs, hashes g c.children = some hs ∧ c.hash = P.hash c.label hs

/-- Same label, operands and hash. -/
def Cell.like (c c' : Cell L) : Prop := c'.label = c.label ∧ c'.children = c.children ∧ c'.hash = c.hash

/-- `g'` has the same objects as `g`, up to IDs, and possibly copies of them. -/
def HExt (g g' : G L) : Prop :=
  (∀ (q : Ptr) (c : Cell L), g.heap[q]? = some c → ∃ c', g'.heap[q]? = some c' ∧ c.like c') ∧
  (∀ (q : Ptr) (c' : Cell L), g'.heap[q]? = some c' → ∃ (q0 : Ptr) (c : Cell L), g.heap[q0]? = some c ∧ c.like c')

theorem Cell.like_refl (c : Cell L) : c.like c := ⟨rfl, rfl, rfl⟩

theorem HExt.of_heap {g g' : G L} (h : g'.heap = g.heap) : HExt g g' :=
  ⟨fun q c hc => ⟨c, by rw [h]; exact hc, c.like_refl⟩, fun q c hc => ⟨q, c, by rw [← h]; exact hc, c.like_refl⟩⟩

theorem HExt.trans {a b c : G L} (h1 : HExt a b) (h2 : HExt b c) : HExt a c := by
  constructor
  · intro q x hx
    obtain ⟨y, hy, e1⟩ := h1.1 q x hx
    obtain ⟨z, hz, e2⟩ := h2.1 q y hy
    exact ⟨z, hz, e2.1.trans e1.1, e2.2.1.trans e1.2.1, e2.2.2.trans e1.2.2⟩
  · intro q x hx
    obtain ⟨q1, y, hy, e1⟩ := h2.2 q x hx
    obtain ⟨q2, z, hz, e2⟩ := h1.2 q1 y hy
    exact ⟨q2, z, hz, e1.1.trans e2.1, e1.2.1.trans e2.2.1, e1.2.2.trans e2.2.2⟩

theorem hashes_ext {g g' : G L} (hx : ∀ (q : Ptr) (c : Cell L), g.heap[q]? = some c → ∃ c', g'.heap[q]? = some c' ∧ c'.hash = c.hash) :
    ∀ (cs : List Ptr) (hs : List UInt32), hashes g cs = some hs → hashes g' cs = some hs := by
  intro cs
  induction cs with
  | nil => intro hs h; exact h
  | cons c cs ih =>
    intro hs h
    simp only [hashes] at h
    cases h1 : g.heap[c]? with
    | none => rw [h1] at h; simp at h
    | some x =>
      cases h2 : hashes g cs with
      | none => rw [h1, h2] at h; simp at h
      | some hs' =>
        rw [h1, h2] at h
        obtain ⟨x', hx', e⟩ := hx c x h1
        simp only [hashes, hx', ih hs' h2, e]; exact h

theorem HInv.ext {g g' : G L} (h : HInv P g) (hx : HExt g g') : HInv P g' := by
  intro q c' hc'
  obtain ⟨q0, c, hc, e1, e2, e3⟩ := hx.2 q c' hc'
  obtain ⟨hs, hhs, e⟩ := h q0 c hc
  refine ⟨hs, ?_, by rw [e3, e1]; exact e⟩
  rw [e2]
  exact hashes_ext (fun q x hq => by obtain ⟨x', hx', l⟩ := hx.1 q x hq; exact ⟨x', hx', l.2.2⟩) _ _ hhs

theorem HExt_addToAll (g : G L) (p : Ptr) : HExt g (addToAll g p) := by
  constructor
  · intro q c hc
    simp only [addToAll, List.getElem?_modify, hc, Option.map_eq_map, Option.map_some]
    split
    · exact ⟨_, rfl, rfl, rfl, rfl⟩
    · exact ⟨_, rfl, rfl, rfl, rfl⟩
  · intro q c' hc'
    simp only [addToAll, List.getElem?_modify] at hc'
    cases h : g.heap[q]? with
    | none => rw [h] at hc'; simp at hc'
    | some c =>
      rw [h] at hc'
      refine ⟨q, c, h, ?_⟩
      split at hc'
      · simp at hc'; subst hc'; exact ⟨rfl, rfl, rfl⟩
      · simp at hc'; subst hc'; exact ⟨rfl, rfl, rfl⟩

theorem ensureTo_heap (g : G L) (p : Ptr) : (ensureTo g p).heap = g.heap := by
  simp only [ensureTo]; split <;> rfl

theorem addNode_ext {g : G L} {p : Ptr} {g' : G L} {r : Ptr} (h : addNode P g p = some (g', r)) : HExt g g' := by
  simp only [addNode] at h
  cases hp : g.heap[p]? with
  | none => simp [hp] at h
  | some n =>
    simp only [hp, Option.some.injEq, Prod.mk.injEq] at h
    obtain ⟨h1, _⟩ := h
    subst h1
    refine HExt.trans ?_ (HExt.of_heap (ensureTo_heap _ _))
    simp only [addNodeBody]
    split
    · exact HExt.of_heap rfl
    · split
      · split
        · exact HExt.of_heap rfl
        · exact HExt_addToAll g p
      · split
        · exact HExt.of_heap rfl
        · exact HExt_addToAll g p
      · split
        · refine HExt.trans (b := { g with heap := g.heap ++ [{ n with id := -1 }], constants := nodesAdd g.constants g.heap.length }) ?_ ?_
          · constructor
            · intro q c hc
              exact ⟨c, getElem?_append_of_some hc, c.like_refl⟩
            · intro q c' hc'
              rcases getElem?_append_cell hc' with h | ⟨_, h⟩
              · exact ⟨q, c', h, c'.like_refl⟩
              · exact ⟨p, n, hp, by rw [h]; exact ⟨rfl, rfl, rfl⟩⟩
          · exact HExt_addToAll _ _
        · exact HExt_addToAll g p

theorem fixChildren_ext : ∀ (cs : List Ptr) (g : G L) (g' : G L) (cs' : List Ptr),
    fixChildren P g cs = some (g', cs') → HExt g g' := by
  intro cs
  induction cs with
  | nil =>
    intro g g' cs' h
    simp only [fixChildren, Option.some.injEq, Prod.mk.injEq] at h
    rw [← h.1]; exact HExt.of_heap rfl
  | cons c cs ih =>
    intro g g' cs' h
    simp only [fixChildren] at h
    split at h
    · simp at h
    · next g1 c1 h1 =>
      split at h
      · simp at h
      · next g2 cs2 h2 =>
        simp only [Option.some.injEq, Prod.mk.injEq] at h
        rw [← h.1]
        exact (addNode_ext h1).trans (ih g1 g2 cs2 h2)

theorem HInv_alloc {g : G L} (h : HInv P g) {l : L} {cs : List Ptr} {hs : List UInt32} (hhs : hashes g cs = some hs) :
    HInv P { g with heap := g.heap ++ [{ label := l, children := cs, hash := P.hash l hs, id := -1 }] } := by
  intro q c hc
  have hx : ∀ (q : Ptr) (c : Cell L), g.heap[q]? = some c →
      ∃ c', (g.heap ++ [({ label := l, children := cs, hash := P.hash l hs, id := -1 } : Cell L)])[q]? = some c' ∧ c'.hash = c.hash :=
    fun q c hc => ⟨c, getElem?_append_of_some hc, rfl⟩
  rcases getElem?_append_cell hc with h1 | ⟨_, h1⟩
  · obtain ⟨hs', h2, h3⟩ := h q c h1
    exact ⟨hs', hashes_ext hx _ _ h2, h3⟩
  · subst h1
    exact ⟨hs, hashes_ext hx _ _ hhs, rfl⟩

theorem HInv_returnNode {g : G L} (h : HInv P g) (hI : GInv P g) {p : Ptr} (hp : p ∉ g.all) : HInv P (returnNode P g p) := by
  have hmem : ∀ (cs : List Ptr), (∀ c ∈ cs, c ∈ g.all) → hashes (returnNode P g p) cs = hashes g cs := by
    intro cs
    induction cs with
    | nil => intro _; rfl
    | cons c cs ih =>
      intro hc
      have : p ≠ c := fun e => hp (e ▸ hc c (by simp))
      simp only [hashes, heap_returnNode, if_neg this, ih (fun c' hc' => hc c' (by simp [hc']))]
  intro q c hc
  rw [heap_returnNode] at hc
  by_cases hpq : p = q
  · rw [if_pos hpq] at hc
    cases hq : g.heap[q]? with
    | none => rw [hq] at hc; simp at hc
    | some x => rw [hq] at hc; simp at hc; subst hc; exact ⟨[], rfl, rfl⟩
  · rw [if_neg hpq] at hc
    obtain ⟨hs, h1, h2⟩ := h q c hc
    refine ⟨hs, ?_, h2⟩
    rw [hmem]
    · exact h1
    · intro k hk
      obtain ⟨d, hd, h0, _⟩ := hI.kids q c hc k hk
      exact (hI.mem_iff hd).2 h0

theorem node_heap (g : G L) (id : Int) : (node g id).1.heap = g.heap := by
  simp only [node]
  split
  · rfl
  · split <;> rfl

theorem ensureIn_ext {g : G L} {p : Ptr} {g' : G L} {r : Ptr} (h : ensureIn P g p = some (g', r)) : HExt g g' := by
  simp only [ensureIn] at h
  split at h
  · simp at h
  · next c hc =>
    split at h
    · simp only [Option.some.injEq, Prod.mk.injEq] at h
      rw [← h.1]; exact HExt.of_heap (node_heap _ _)
    · exact (HExt.of_heap (node_heap _ _)).trans (addNode_ext h)

theorem setEdge_ext {g : G L} {a b : Ptr} {g' : G L} (h : setEdge P g a b = some g') : HExt g g' := by
  simp only [setEdge] at h
  split at h
  · simp at h
  · split at h
    · simp at h
    · next g1 s1 h1 =>
      split at h
      · simp at h
      · next g2 s2 h2 =>
        simp only [Option.some.injEq] at h
        subst h
        exact ((ensureIn_ext h1).trans (ensureIn_ext h2)).trans (HExt.of_heap rfl)

theorem fixEdgesLoop_ext : ∀ (cs : List Ptr) (g : G L) (m : Ptr) (g' : G L), fixEdgesLoop P g m cs = some g' → HExt g g' := by
  intro cs
  induction cs with
  | nil => intro g m g' h; simp only [fixEdgesLoop, Option.some.injEq] at h; subst h; exact HExt.of_heap rfl
  | cons c cs ih =>
    intro g m g' h
    simp only [fixEdgesLoop] at h
    split at h
    · simp at h
    · next g1 h1 => exact (setEdge_ext h1).trans (ih g1 m g' h)

theorem fixEdges_ext {g : G L} {m : Ptr} {g' : G L} (h : fixEdges P g m = some g') : HExt g g' := by
  simp only [fixEdges] at h
  split at h
  · simp at h
  · split at h
    · simp only [Option.some.injEq] at h; subst h; exact HExt.of_heap rfl
    · exact fixEdgesLoop_ext _ _ _ _ h

theorem HInv_newUniqueNode {g : G L} (hW : WGraph P g) (hH : HInv P g) {l : L} {cs : List Ptr} {g' : G L} {m : Ptr}
    (h : newUniqueNode P g l cs = some (g', m)) : HInv P g' := by
  simp only [newUniqueNode] at h
  split at h
  · simp at h
  · next g1 cs1 h1 =>
    have hH1 := hH.ext (fixChildren_ext cs g g1 cs1 h1)
    obtain ⟨hW1, hm1, _⟩ := W_fixChildren cs g hW g1 cs1 h1
    split at h
    · simp at h
    · next g2 n h2 =>
      simp only [newNode] at h2
      split at h2
      · simp at h2
      · next hs hhs =>
        simp only [Option.some.injEq, Prod.mk.injEq] at h2
        obtain ⟨rfl, rfl⟩ := h2
        have hH2 := HInv_alloc (l := l) hH1 hhs
        have hI2 := inv_alloc hW1.inv { label := l, children := cs1, hash := P.hash l hs, id := -1 } rfl hm1
        have hnall : g1.heap.length ∉ g1.all := by
          intro h
          obtain ⟨c, hc⟩ := hW1.inv.live _ h
          rw [List.getElem?_eq_none (Nat.le_refl _)] at hc; simp at hc
        have hcell : ({ g1 with heap := g1.heap ++ [{ label := l, children := cs1, hash := P.hash l hs, id := -1 }] } : G L).heap[g1.heap.length]? =
            some { label := l, children := cs1, hash := P.hash l hs, id := -1 } := by simp
        obtain ⟨g3', r3, e3, hI3, hcase⟩ := addNode_spec hI2 hcell
        split at h
        · simp at h
        · next g3 m3 h3 =>
          rw [e3] at h3; cases h3
          have hH3 := hH2.ext (addNode_ext e3)
          have hH4 : HInv P (if g1.heap.length = r3 then g3' else returnNode P g3' g1.heap.length) := by
            split
            · exact hH3
            · next hne =>
              apply HInv_returnNode hH3 hI3
              rcases hcase with ⟨e, _, _⟩ | ⟨hins, _, _, _⟩
              · rw [e]; exact hnall
              · rw [hins.all]
                intro hm
                rcases List.mem_append.mp hm with h' | h'
                · exact hnall h'
                · simp at h'; exact hne h'
          split at h
          · simp at h
          · next g4 h4 =>
            simp only [Option.some.injEq, Prod.mk.injEq] at h
            rw [← h.1]
            exact hH4.ext (fixEdges_ext h4)

theorem HInv_step {g : G L} (hW : WGraph P g) (hH : HInv P g) {o : Op L} (ho : o.keeps = true) {g' : G L}
    (h : step P g o = some g') : HInv P g' := by
  cases o with
  | newConst l =>
    simp only [step, newNode, hashes, Option.map_some, Option.some.injEq] at h; subst h
    exact HInv_alloc hH rfl
  | unique l cs =>
    simp only [step, Option.map_eq_some_iff] at h
    obtain ⟨⟨g1, m⟩, h1, h2⟩ := h
    subst h2; exact HInv_newUniqueNode hW hH h1
  | add p =>
    simp only [step, Option.map_eq_some_iff] at h
    obtain ⟨⟨g1, m⟩, h1, h2⟩ := h
    subst h2; exact hH.ext (addNode_ext h1)
  | lookup id =>
    simp only [step, Option.some.injEq] at h
    subst h
    exact hH.ext (HExt.of_heap (node_heap _ _))
  | remove p => simp [Op.keeps] at ho
  | roots =>
    simp only [step, Option.some.injEq, rootsOf] at h
    subst h
    split <;> exact hH.ext (HExt.of_heap rfl)

theorem HInv_run : ∀ (ops : List (Op L)) (g g' : G L), WGraph P g → HInv P g → (∀ o ∈ ops, o.keeps = true) →
    run P g ops = some g' → HInv P g' := by
  intro ops
  induction ops with
  | nil => intro g g' _ hH _ h; simp only [run, Option.some.injEq] at h; subst h; exact hH
  | cons o os ih =>
    intro g g' hW hH hk h
    simp only [run] at h
    split at h
    · simp at h
    · next g1 h1 =>
      exact ih g1 g' (W_step hW (hk o (by simp)) h1).1 (HInv_step hW hH (hk o (by simp)) h1)
        (fun o' ho' => hk o' (by simp [ho'])) h

theorem Reachable.H {g : G L} (h : Reachable P g) : HInv P g := by
  obtain ⟨ops, hk, hr⟩ := h
  exact HInv_run ops empty g W_empty (by intro q c hc; simp [empty] at hc) hk hr

theorem hashes_map {g : G L} {f : Ptr → UInt32} : ∀ (cs : List Ptr) (hs : List UInt32), hashes g cs = some hs →
    (∀ c ∈ cs, ∀ x, g.heap[c]? = some x → x.hash = f c) → hs = cs.map f := by
  intro cs
  induction cs with
  | nil => intro hs h _; simp only [hashes, Option.some.injEq] at h; rw [← h]; rfl
  | cons c cs ih =>
    intro hs h hf
    simp only [hashes] at h
    cases h1 : g.heap[c]? with
    | none => rw [h1] at h; simp at h
    | some x =>
      cases h2 : hashes g cs with
      | none => rw [h1, h2] at h; simp at h
      | some hs' =>
        rw [h1, h2] at h
        simp only [Option.some.injEq] at h
        rw [← h, List.map_cons, ← hf c (by simp) x h1, ih hs' h2 (fun c' hc' => hf c' (by simp [hc']))]

/-- The hash stored in a member is the hash of its meaning. -/
theorem hash_val (den : L → List D → D) (bad : D) (H : D → UInt32)
    (hH : ∀ l ds, H (den l ds) = P.hash l (ds.map H)) {g : G L} (hI : GInv P g) (hV : HInv P g) :
    ∀ (n : Nat) (p : Ptr) (c : Cell L), p ∈ g.all → g.heap[p]? = some c → rank g p < n → c.hash = H (val den bad g p) := by
  intro n
  induction n with
  | zero => intro p c _ _ h; omega
  | succ n ih =>
    intro p c hp hc hr
    obtain ⟨hs, h1, h2⟩ := hV p c hc
    rw [val_unfold den bad hI hp hc, hH, h2]
    congr 1
    rw [List.map_map]
    apply hashes_map c.children hs h1
    intro q hq x hx
    obtain ⟨d, hd, h0, hlt⟩ := hI.kids p c hc q hq
    rw [hd] at hx; cases hx
    have hqm := (hI.mem_iff hd).2 h0
    have hpi : 0 ≤ c.id := (hI.mem_iff hc).1 hp
    have h3 := hlt (by omega)
    simp only [rank, hc] at hr
    exact ih q _ hqm hd (by simp only [rank, hd]; omega)

end Verif.Graph
