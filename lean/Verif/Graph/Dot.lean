import Verif.Graph.Theorems
import Verif.Shape.Model
import Mathlib.Tactic.Tauto
import Mathlib.Data.List.Nodup
import Mathlib.Tactic.ByContra

/-! Drawing a graph (`/repo/encoding/dot`, `Groups` of `/repo/node.go` and `/repo/internal/encoding/groups.go`), property C108.

Simplifications: a cluster is the list of identifiers of its nodes; attributes and labels are left out. The graphs of gonum (not
part of the repository) are taken as documented: `AddNode` panics when the identifier is taken, `SetEdge` when both ends are the
same, and the nodes are listed in the order of a Go map, that is in any order. -/

set_option autoImplicit false

namespace Verif.Graph
open Verif.Shape (Res)

/-! ## Groups -/

/-- `Group`, internal/encoding/groups.go 16-20; `IsPrimary` is never set. -/
structure Grp where
  id : Nat
  name : String
  deriving DecidableEq

/-- internal/encoding/constants.go 7-18: made in this order when the package is loaded, so that they have the numbers 0 to 5. -/
def undefG : Grp := ⟨0, "UndefinedCluster"⟩
/-- constants.go 10 -/
def exprG : Grp := ⟨1, "ExprGraphCluster "⟩
/-- constants.go 12 -/
def constG : Grp := ⟨2, "Constants "⟩
/-- constants.go 14 -/
def inputG : Grp := ⟨3, "Inputs "⟩

/-- `NewGroup`, groups.go 6-13, with the counter before and after. -/
def newGrp (idx : Nat) (name : String) : Grp × Nat := (⟨idx, name⟩, idx + 1)

/-- `Groups.Have`, groups.go 41-48. -/
def haveGrp : List Grp → Grp → Bool
  | [], _ => false
  | g :: gs, k => if g.id = k.id then true else haveGrp gs k

/-- `Groups.Upsert`, groups.go 31-38. -/
def upsertGrp (gs : List Grp) (k : Grp) : List Grp := if haveGrp gs k then gs else gs ++ [k]

/-- The kinds of nodes told apart by `Node.Groups`: a constant, an input (without operation, or random) and anything else. -/
inductive DKind where
  | const | input | other
  deriving DecidableEq

/-- A node as seen by the drawing. -/
structure DNode where
  id : Int
  kind : DKind
  groups : List Grp
  deriving DecidableEq

/-- `Node.Groups`, node.go 252-269. -/
def dotGroups (n : DNode) : List Grp :=
  match n.kind with
  | .const => upsertGrp n.groups constG
  | .input => upsertGrp n.groups inputG
  | .other => upsertGrp n.groups exprG

/-! ## Clusters -/

/-- The clusters of the top level (`subgraphs`) and those within the cluster of the expression (`exprSubg.subs`), topgraph.go 49-96. -/
structure Clusters where
  top : Grp → Option (List Int)
  subs : Grp → Option (List Int)

/-- `subGraphs`, topgraph.go 14-35. -/
def clusters0 : Clusters where
  top k := if k = constG ∨ k = inputG ∨ k = exprG ∨ k = undefG then some [] else none
  subs _ := none

/-- `AddNode` of gonum. -/
def addNodeTo (c : List Int) (n : Int) : Res (List Int) := if n ∈ c then .panic else .ok (c ++ [n])

/-- The body of the inner loop of `generateDotGraph`, topgraph.go 59-85. -/
def placeIn (gs : List Grp) (n : Int) (st : Clusters) (k : Grp) : Res Clusters :=
  match st.top k with
  | some c => Res.bind (addNodeTo c n) fun c => .ok { st with top := upd st.top k (some c) }
  | none =>
    if haveGrp gs exprG then
      match st.subs k with
      | some c => Res.bind (addNodeTo c n) fun c => .ok { st with subs := upd st.subs k (some c) }
      | none => Res.bind (addNodeTo [] n) fun c => .ok { st with subs := upd st.subs k (some c) }
    else Res.bind (addNodeTo [] n) fun c => .ok { st with top := upd st.top k (some c) }

/-- The loop over the groups of a node, topgraph.go 59-86. -/
def placeNode (gs : List Grp) (n : Int) : List Grp → Clusters → Res Clusters
  | [], st => .ok st
  | k :: ks, st => Res.bind (placeIn gs n st k) (placeNode gs n ks)

/-- The loop over the nodes, topgraph.go 55-88. -/
def drawNodes : List DNode → Clusters → Res Clusters
  | [], st => .ok st
  | n :: ns, st => Res.bind (placeNode (dotGroups n) n.id (dotGroups n) st) (drawNodes ns)

/-! ## Statements -/

/-- A node stands in a cluster of this group (at the top level or within the expression). -/
def Stands (st : Clusters) (k : Grp) (i : Int) : Prop :=
  (∃ c, st.top k = some c ∧ i ∈ c) ∨ ∃ c, st.subs k = some c ∧ i ∈ c

/-- The groups given to a node by `Rectify`, `Conv2d`, `MaxPool2D` and `AveragePool2D`: made by `NewGroup`, no number twice. -/
def Own (n : DNode) : Prop := (∀ k ∈ n.groups, 6 ≤ k.id) ∧ (n.groups.map (·.id)).Nodup

theorem haveGrp_iff (gs : List Grp) (k : Grp) : haveGrp gs k = true ↔ ∃ g ∈ gs, g.id = k.id := by
  induction gs with
  | nil => simp [haveGrp]
  | cons g gs ih =>
    simp only [haveGrp, List.mem_cons, exists_eq_or_imp]
    by_cases h : g.id = k.id
    · simp [h]
    · simp [h, ih]

/-- The cluster of the kind. -/
def kindGrp : DKind → Grp
  | .const => constG
  | .input => inputG
  | .other => exprG

theorem dotGroups_own {n : DNode} (h : Own n) : dotGroups n = n.groups ++ [kindGrp n.kind] := by
  have key : ∀ k : Grp, k.id < 6 → upsertGrp n.groups k = n.groups ++ [k] := by
    intro k hk
    unfold upsertGrp
    rw [if_neg]
    rw [haveGrp_iff]
    rintro ⟨g, hg, e⟩
    have := h.1 g hg
    omega
  unfold dotGroups
  cases n.kind
  · exact key _ (by decide)
  · exact key _ (by decide)
  · exact key _ (by decide)

theorem kindGrp_lt (k : DKind) : (kindGrp k).id < 6 := by cases k <;> decide

theorem dotGroups_nodup {n : DNode} (h : Own n) : (dotGroups n).Nodup := by
  rw [dotGroups_own h, List.nodup_append]
  refine ⟨(List.Nodup.of_map _ h.2), by simp, ?_⟩
  intro a ha b hb e
  simp only [List.mem_singleton] at hb
  subst hb
  have := h.1 a ha
  have := kindGrp_lt n.kind
  rw [e] at *
  omega

theorem haveExpr_own {n : DNode} (h : Own n) : haveGrp (dotGroups n) exprG = true ↔ n.kind = .other := by
  rw [haveGrp_iff, dotGroups_own h]
  constructor
  · rintro ⟨g, hg, e⟩
    rw [List.mem_append, List.mem_singleton] at hg
    rcases hg with hg | hg
    · have := h.1 g hg
      have e' : exprG.id = 1 := rfl
      omega
    · subst hg
      revert e
      cases n.kind <;> simp [kindGrp, constG, inputG, exprG]
  · intro hk
    exact ⟨exprG, by simp [hk, kindGrp], rfl⟩

theorem updAt {α β : Type} [DecidableEq α] (f : α → β) (a : α) (b : β) : upd f a b a = b := by simp [upd]
theorem updOff {α β : Type} [DecidableEq α] (f : α → β) {a x : α} (b : β) (h : x ≠ a) : upd f a b x = f x := by simp [upd, h]

theorem stands_top {st : Clusters} {k : Grp} {c c' : List Int} {n : Int} (hc : st.top k = some c ∨ (st.top k = none ∧ c = []))
    (e : c' = c ++ [n]) (q : Grp) (i : Int) :
    Stands { st with top := upd st.top k (some c') } q i ↔ Stands st q i ∨ (q = k ∧ i = n) := by
  subst e
  unfold Stands
  by_cases hq : q = k
  · subst hq
    simp only [updAt, Option.some.injEq, exists_eq_left', true_and, List.mem_append, List.mem_singleton]
    rcases hc with hc | ⟨hc, rfl⟩
    · simp only [hc, Option.some.injEq, exists_eq_left']; rw [or_right_comm]
    · simp only [hc]; simp [or_comm]
  · simp [updOff _ _ hq, hq]

theorem stands_subs {st : Clusters} {k : Grp} {c c' : List Int} {n : Int} (hc : st.subs k = some c ∨ (st.subs k = none ∧ c = []))
    (e : c' = c ++ [n]) (q : Grp) (i : Int) :
    Stands { st with subs := upd st.subs k (some c') } q i ↔ Stands st q i ∨ (q = k ∧ i = n) := by
  subst e
  unfold Stands
  by_cases hq : q = k
  · subst hq
    simp only [updAt, Option.some.injEq, exists_eq_left', true_and, List.mem_append, List.mem_singleton]
    rcases hc with hc | ⟨hc, rfl⟩
    · simp only [hc, Option.some.injEq, exists_eq_left', or_assoc]
    · simp only [hc]; simp
  · simp [updOff _ _ hq, hq]

/-- What one placing does to the top level and to the operations. -/
theorem placeIn_spec (gs : List Grp) (n : Int) (st : Clusters) (k : Grp) (h : ¬ Stands st k n) :
    ∃ st', placeIn gs n st k = .ok st' ∧ (∀ q i, Stands st' q i ↔ Stands st q i ∨ (q = k ∧ i = n)) ∧
      (∀ q, (st'.top q).isSome = true ↔ (st.top q).isSome = true ∨ (q = k ∧ haveGrp gs exprG = false)) ∧
      (∀ q, (st'.subs q).isSome = true ↔
        (st.subs q).isSome = true ∨ (q = k ∧ haveGrp gs exprG = true ∧ (st.top q).isSome = false)) := by
  unfold placeIn
  cases ht : st.top k with
  | some c =>
    have hn : n ∉ c := fun hn => h (Or.inl ⟨c, ht, hn⟩)
    simp only [addNodeTo, hn, if_false, Res.bind]
    refine ⟨_, rfl, stands_top (Or.inl ht) rfl, fun q => ?_, fun q => ?_⟩
    · by_cases hq : q = k
      · subst hq; simp [updAt, ht]
      · simp [updOff _ _ hq, hq]
    · by_cases hq : q = k
      · subst hq; simp [ht]
      · simp [hq]
  | none =>
    simp only
    by_cases hx : haveGrp gs exprG = true
    · rw [if_pos hx]
      cases hs : st.subs k with
      | some c =>
        have hn : n ∉ c := fun hn => h (Or.inr ⟨c, hs, hn⟩)
        simp only [addNodeTo, hn, if_false, Res.bind]
        refine ⟨_, rfl, stands_subs (Or.inl hs) rfl, fun q => ?_, fun q => ?_⟩
        · simp [hx]
        · by_cases hq : q = k
          · subst hq; simp [updAt, hs]
          · simp [updOff _ _ hq, hq]
      | none =>
        simp only [addNodeTo, List.not_mem_nil, if_false, Res.bind]
        refine ⟨_, rfl, stands_subs (Or.inr ⟨hs, rfl⟩) rfl, fun q => ?_, fun q => ?_⟩
        · simp [hx]
        · by_cases hq : q = k
          · subst hq; simp [updAt, hx, ht]
          · simp [updOff _ _ hq, hq]
    · rw [if_neg hx]
      simp only [addNodeTo, List.not_mem_nil, if_false, Res.bind]
      refine ⟨_, rfl, stands_top (Or.inr ⟨ht, rfl⟩) rfl, fun q => ?_, fun q => ?_⟩
      · by_cases hq : q = k
        · subst hq; simp [updAt, hx]
        · simp [updOff _ _ hq, hq]
      · simp [hx]

theorem placeNode_spec (gs : List Grp) (n : Int) : ∀ (ks : List Grp) (st : Clusters), ks.Nodup → (∀ k ∈ ks, ¬ Stands st k n) →
    ∃ st', placeNode gs n ks st = .ok st' ∧ (∀ q i, Stands st' q i ↔ Stands st q i ∨ (q ∈ ks ∧ i = n)) ∧
      (∀ q, (st'.top q).isSome = true ↔ (st.top q).isSome = true ∨ (q ∈ ks ∧ haveGrp gs exprG = false)) ∧
      (∀ q, (st'.subs q).isSome = true ↔
        (st.subs q).isSome = true ∨ (q ∈ ks ∧ haveGrp gs exprG = true ∧ (st.top q).isSome = false))
  | [], st, _, _ => ⟨st, rfl, by simp, by simp, by simp⟩
  | k :: ks, st, hnd, hs => by
    obtain ⟨st1, e1, s1, t1, b1⟩ := placeIn_spec gs n st k (hs k (by simp))
    have hnd' := List.nodup_cons.1 hnd
    obtain ⟨st2, e2, s2, t2, b2⟩ := placeNode_spec gs n ks st1 hnd'.2 (by
      intro q hq hst
      rcases (s1 q n).1 hst with h | ⟨h, _⟩
      · exact hs q (by simp [hq]) h
      · exact hnd'.1 (h ▸ hq))
    refine ⟨st2, by simp only [placeNode, e1, Res.bind, e2], fun q i => ?_, fun q => ?_, fun q => ?_⟩
    · rw [s2, s1, List.mem_cons]; tauto
    · rw [t2, t1, List.mem_cons]; tauto
    · rw [b2, b1, List.mem_cons]
      have := t1 q
      cases ht : haveGrp gs exprG
      · simp
      · simp only [ht, Bool.true_eq_false, and_false, or_false] at this
        have : (st1.top q).isSome = (st.top q).isSome := by
          rw [Bool.eq_iff_iff]; exact this
        rw [this]; tauto

theorem drawNodes_spec : ∀ (ns : List DNode) (st : Clusters), (ns.map (·.id)).Nodup → (∀ n ∈ ns, Own n) →
    (∀ n ∈ ns, ∀ k, ¬ Stands st k n.id) →
    ∃ st', drawNodes ns st = .ok st' ∧
      (∀ q i, Stands st' q i ↔ Stands st q i ∨ ∃ n ∈ ns, n.id = i ∧ q ∈ dotGroups n) ∧
      (∀ q, (st'.top q).isSome = true ↔ (st.top q).isSome = true ∨ ∃ n ∈ ns, q ∈ dotGroups n ∧ n.kind ≠ .other) ∧
      (∀ q, (st'.subs q).isSome = true → (st.subs q).isSome = true ∨
        ((st.top q).isSome = false ∧ ∃ n ∈ ns, q ∈ dotGroups n ∧ n.kind = .other)) ∧
      ((∀ n ∈ ns, n.kind ≠ .other → ∀ q ∈ dotGroups n, (st.top q).isSome = true) → ∀ q, (st.subs q).isSome = true ∨
        ((st.top q).isSome = false ∧ ∃ n ∈ ns, q ∈ dotGroups n ∧ n.kind = .other) → (st'.subs q).isSome = true)
  | [], st, _, _, _ => ⟨st, rfl, by simp, by simp, by simp, by simp⟩
  | n :: ns, st, hnd, hown, hst => by
    have ho := hown n (by simp)
    obtain ⟨st1, e1, s1, t1, b1⟩ := placeNode_spec (dotGroups n) n.id (dotGroups n) st (dotGroups_nodup ho)
      (fun k _ => hst n (by simp) k)
    simp only [List.map_cons, List.nodup_cons] at hnd
    obtain ⟨st2, e2, s2, t2, b2, c2⟩ := drawNodes_spec ns st1 hnd.2 (fun m hm => hown m (by simp [hm])) (by
      intro m hm k hs
      rcases (s1 k m.id).1 hs with h | ⟨_, h⟩
      · exact hst m (by simp [hm]) k h
      · exact hnd.1 (h ▸ List.mem_map_of_mem hm))
    have hx := haveExpr_own ho
    have hx' : haveGrp (dotGroups n) exprG = false ↔ n.kind ≠ .other := by
      rw [Ne, ← hx]; simp
    refine ⟨st2, by simp only [drawNodes, e1, Res.bind, e2], fun q i => ?_, fun q => ?_, fun q => ?_, fun H q => ?_⟩
    · rw [s2, s1]
      simp only [List.mem_cons, exists_eq_or_imp]
      constructor
      · rintro ((h | ⟨h, rfl⟩) | h)
        · exact Or.inl h
        · exact Or.inr (Or.inl ⟨rfl, h⟩)
        · exact Or.inr (Or.inr h)
      · rintro (h | ⟨rfl, h⟩ | h)
        · exact Or.inl (Or.inl h)
        · exact Or.inl (Or.inr ⟨h, rfl⟩)
        · exact Or.inr h
    · rw [t2, t1, hx']
      simp only [List.mem_cons, exists_eq_or_imp]
      tauto
    · intro h
      simp only [List.mem_cons, exists_eq_or_imp]
      have htop : (st1.top q).isSome = false → (st.top q).isSome = false := by
        intro h1
        cases h0 : (st.top q).isSome
        · rfl
        · rw [(t1 q).2 (Or.inl h0)] at h1; cases h1
      rcases b2 q h with h | ⟨h, h'⟩
      · rcases (b1 q).1 h with h | ⟨h1, h2, h3⟩
        · exact Or.inl h
        · exact Or.inr ⟨h3, Or.inl ⟨h1, hx.1 h2⟩⟩
      · exact Or.inr ⟨htop h, Or.inr h'⟩
    · intro h
      have H1 : ∀ m ∈ ns, m.kind ≠ .other → ∀ q ∈ dotGroups m, (st1.top q).isSome = true :=
        fun m hm hk q hq => (t1 q).2 (Or.inl (H m (by simp [hm]) hk q hq))
      apply c2 H1
      simp only [List.mem_cons, exists_eq_or_imp] at h
      have htop : (st.top q).isSome = false → (st1.top q).isSome = false := by
        intro h0
        cases h1 : (st1.top q).isSome
        · rfl
        · rcases (t1 q).1 h1 with h | ⟨h, h'⟩
          · rw [h0] at h; cases h
          · have := H n (by simp) (hx'.1 h') q h
            rw [h0] at this; cases this
      rcases h with h | ⟨h, h' | h'⟩
      · exact Or.inl ((b1 q).2 (Or.inl h))
      · exact Or.inl ((b1 q).2 (Or.inr ⟨h'.1, hx.2 h'.2, h⟩))
      · exact Or.inr ⟨htop h, h'⟩

theorem stands0 (k : Grp) (i : Int) : ¬ Stands clusters0 k i := by
  rintro (⟨c, h, hi⟩ | ⟨c, h, _⟩)
  · simp only [clusters0] at h
    by_cases hk : k = constG ∨ k = inputG ∨ k = exprG ∨ k = undefG
    · rw [if_pos hk] at h; cases h; cases hi
    · rw [if_neg hk] at h; cases h
  · simp [clusters0] at h

theorem top0 (k : Grp) : (clusters0.top k).isSome = true ↔ k = constG ∨ k = inputG ∨ k = exprG ∨ k = undefG := by
  simp only [clusters0]
  by_cases hk : k = constG ∨ k = inputG ∨ k = exprG ∨ k = undefG
  · simp [hk]
  · simp [hk]

theorem top0_own {k : Grp} (h : 6 ≤ k.id) : (clusters0.top k).isSome = false := by
  cases hc : (clusters0.top k).isSome
  · rfl
  · rcases (top0 k).1 hc with rfl | rfl | rfl | rfl <;> simp [constG, inputG, exprG, undefG] at h

/-- **C108 (clusters).** In whatever order the nodes are listed, drawing succeeds, and a node stands in the cluster of a group exactly
if the group is its own, or is the one of its kind (constants, inputs, everything else). -/
theorem draw_exact (ns : List DNode) (hid : (ns.map (·.id)).Nodup) (hown : ∀ n ∈ ns, Own n) :
    ∃ st, drawNodes ns clusters0 = .ok st ∧
      ∀ n ∈ ns, ∀ k, Stands st k n.id ↔ k ∈ n.groups ∨
        (n.kind = .const ∧ k = constG) ∨ (n.kind = .input ∧ k = inputG) ∨ (n.kind = .other ∧ k = exprG) := by
  obtain ⟨st, e, s, _⟩ := drawNodes_spec ns clusters0 hid hown (fun n _ k => stands0 k n.id)
  refine ⟨st, e, fun n hn k => ?_⟩
  rw [s]
  have hg : k ∈ dotGroups n ↔ k ∈ n.groups ∨ (n.kind = .const ∧ k = constG) ∨ (n.kind = .input ∧ k = inputG) ∨
      (n.kind = .other ∧ k = exprG) := by
    rw [dotGroups_own (hown n hn), List.mem_append, List.mem_singleton]
    cases n.kind <;> simp [kindGrp]
  rw [← hg]
  constructor
  · rintro (h | ⟨m, hm, e, h⟩)
    · exact absurd h (stands0 _ _)
    · have : m = n := by
        exact (List.inj_on_of_nodup_map hid hm hn e)
      exact this ▸ h
  · intro h
    exact Or.inr ⟨n, hn, rfl, h⟩

/-- **C108 (one main cluster).** Every node stands in exactly one of the clusters for constants, inputs and the expression. -/
theorem draw_one_main (ns : List DNode) (hid : (ns.map (·.id)).Nodup) (hown : ∀ n ∈ ns, Own n) :
    ∃ st, drawNodes ns clusters0 = .ok st ∧
      ∀ n ∈ ns, ∃ k, (k = constG ∨ k = inputG ∨ k = exprG) ∧ Stands st k n.id ∧
        ∀ q, (q = constG ∨ q = inputG ∨ q = exprG ∨ q = undefG) → Stands st q n.id → q = k := by
  obtain ⟨st, e, s⟩ := draw_exact ns hid hown
  refine ⟨st, e, fun n hn => ?_⟩
  have hno : ∀ k : Grp, k.id < 6 → k ∉ n.groups := fun k hk h => by have := (hown n hn).1 k h; omega
  refine ⟨kindGrp n.kind, by cases n.kind <;> simp [kindGrp], (s n hn _).2 (Or.inr (by cases n.kind <;> simp [kindGrp])), ?_⟩
  intro q hq h
  have hq6 : q.id < 6 := by rcases hq with rfl | rfl | rfl | rfl <;> decide
  rcases (s n hn q).1 h with h | ⟨hk, h⟩ | ⟨hk, h⟩ | ⟨hk, h⟩
  · exact absurd h (hno q hq6)
  · rw [hk, h]; rfl
  · rw [hk, h]; rfl
  · rw [hk, h]; rfl

/-- Only results of operations carry groups of their own, as the code has it (nn.go 160, 252-303, 373, op_avg_pool.go 71). -/
def OnlyOps (ns : List DNode) : Prop := ∀ n ∈ ns, n.kind ≠ .other → n.groups = []

/-- **C108 (where the groups are).** If only results of operations carry groups, the clusters of the groups are all within the
cluster of the expression, one for each group, and none at the top level: in whatever order the nodes are listed. -/
theorem draw_groups_inside (ns : List DNode) (hid : (ns.map (·.id)).Nodup) (hown : ∀ n ∈ ns, Own n) (ho : OnlyOps ns) :
    ∃ st, drawNodes ns clusters0 = .ok st ∧
      (∀ k, (st.top k).isSome = true ↔ k = constG ∨ k = inputG ∨ k = exprG ∨ k = undefG) ∧
      (∀ k, (st.subs k).isSome = true ↔ ∃ n ∈ ns, k ∈ n.groups) := by
  obtain ⟨st, e, s, t, b, c⟩ := drawNodes_spec ns clusters0 hid hown (fun n _ k => stands0 k n.id)
  have hbase : ∀ n ∈ ns, n.kind ≠ .other → ∀ q ∈ dotGroups n, (clusters0.top q).isSome = true := by
    intro n hn hk q hq
    rw [dotGroups_own (hown n hn), ho n hn hk, List.nil_append, List.mem_singleton] at hq
    rw [top0, hq]
    revert hk
    cases n.kind <;> simp [kindGrp]
  refine ⟨st, e, fun k => ?_, fun k => ⟨fun h => ?_, ?_⟩⟩
  · rw [t, top0]
    constructor
    · rintro (h | ⟨n, hn, hk, hq⟩)
      · exact h
      · exact (top0 k).1 (hbase n hn hq k hk)
    · exact Or.inl
  · rcases b k h with h | ⟨h0, n, hn, hk, hq⟩
    · simp [clusters0] at h
    · refine ⟨n, hn, ?_⟩
      rw [dotGroups_own (hown n hn), List.mem_append, List.mem_singleton] at hk
      rcases hk with hk | hk
      · exact hk
      · rw [hk, hq] at h0
        exact absurd ((top0 exprG).2 (by simp)) (by simp only [kindGrp] at h0; rw [h0]; simp)
  · rintro ⟨n, hn, hk⟩
    refine c hbase k (Or.inr ⟨top0_own ((hown n hn).1 k hk), n, hn, ?_, ?_⟩)
    · rw [dotGroups_own (hown n hn)]; simp [hk]
    · by_contra hne
      rw [ho n hn hne] at hk; cases hk

/-- Asking for the groups again changes nothing (the node keeps what `Groups` added, node.go 262-266). -/
theorem dotGroups_again {n : DNode} : dotGroups { n with groups := dotGroups n } = dotGroups n := by
  have key : ∀ (gs : List Grp) (k : Grp), upsertGrp (upsertGrp gs k) k = upsertGrp gs k := by
    intro gs k
    have : haveGrp (upsertGrp gs k) k = true := by
      unfold upsertGrp
      by_cases h : haveGrp gs k = true
      · rw [if_pos h]; exact h
      · rw [if_neg h, haveGrp_iff]; exact ⟨k, by simp, rfl⟩
    rw [upsertGrp, if_pos this]
  unfold dotGroups
  cases h : n.kind <;> simp only [h, key]

/-- Groups made one after the other have different numbers. -/
theorem newGrp_ne (i : Nat) (a b : String) : (newGrp i a).1.id ≠ (newGrp (newGrp i a).2 b).1.id := by
  simp [newGrp]

/-- An input and an operation in the same group: the place of the group depends on the order in which the nodes are listed. (No
function of the package groups an input.) -/
theorem draw_order_matters : ∃ (a b : DNode) (k : Grp), Own a ∧ Own b ∧ a.id ≠ b.id ∧
    ∃ st st', drawNodes [a, b] clusters0 = .ok st ∧ drawNodes [b, a] clusters0 = .ok st' ∧
      (st.subs k = none ∧ st.top k = some [a.id, b.id]) ∧ (st'.subs k = some [b.id] ∧ st'.top k = some [a.id]) := by
  refine ⟨⟨0, .input, [⟨6, "g"⟩]⟩, ⟨1, .other, [⟨6, "g"⟩]⟩, ⟨6, "g"⟩, ⟨by simp, by simp⟩, ⟨by simp, by simp⟩, by decide, _, _, rfl,
    rfl, ⟨?_, ?_⟩, ⟨?_, ?_⟩⟩ <;> decide +kernel

/-! ## The order of the clusters -/

/-- An order in which `exprSubGraph.Structure` (exprsubgraph.go 62-68) may give the clusters of the groups: it ranges over a Go map. -/
def StructureOrder (st : Clusters) (ks : List Grp) : Prop := ks.Nodup ∧ ∀ k, k ∈ ks ↔ (st.subs k).isSome = true

/-- **C108 (defect).** The clusters of the groups are written in no fixed order: with two groups there are two different texts for
the same graph, while the clusters of the top level are sorted (`sortedKeys`, topgraph.go 41-47). -/
theorem text_determined_iff (st : Clusters) (hfin : ∃ ks, StructureOrder st ks) :
    (∀ ks ks', StructureOrder st ks → StructureOrder st ks' → ks = ks') ↔
      ∀ k k', (st.subs k).isSome = true → (st.subs k').isSome = true → k = k' := by
  constructor
  · intro h k k' hk hk'
    obtain ⟨ks, hks⟩ := hfin
    have hr : StructureOrder st ks.reverse := ⟨List.nodup_reverse.2 hks.1, fun q => by rw [List.mem_reverse]; exact hks.2 q⟩
    have e := h _ _ hks hr
    by_contra hne
    match ks, hks, e with
    | [], hks, _ => exact absurd ((hks.2 k).2 hk) (by simp)
    | [a], hks, _ =>
      have h1 := (hks.2 k).2 hk
      have h2 := (hks.2 k').2 hk'
      simp only [List.mem_singleton] at h1 h2
      exact hne (h1.trans h2.symm)
    | a :: b :: l, hks, e =>
      have hlast : (a :: b :: l).reverse.head? = (b :: l).getLast? := by
        rw [List.head?_reverse]; simp
      rw [← e] at hlast
      have hm : a ∈ b :: l := List.mem_of_getLast? hlast.symm
      exact (List.nodup_cons.1 hks.1).1 hm
  · intro h ks ks' h1 h2
    have key : ∀ ks, StructureOrder st ks → ks.length ≤ 1 := by
      intro ks hks
      match ks, hks with
      | [], _ => simp
      | [a], _ => simp
      | a :: b :: l, hks =>
        have := h a b ((hks.2 a).1 (by simp)) ((hks.2 b).1 (by simp))
        exact absurd (List.nodup_cons.1 hks.1).1 (by simp [this])
    match ks, ks', h1, h2, key ks h1, key ks' h2 with
    | [], [], _, _, _, _ => rfl
    | [], [b], h1, h2, _, _ => exact absurd ((h1.2 b).2 ((h2.2 b).1 (by simp))) (by simp)
    | [a], [], h1, h2, _, _ => exact absurd ((h2.2 a).2 ((h1.2 a).1 (by simp))) (by simp)
    | [a], [b], h1, h2, _, _ => rw [h a b ((h1.2 a).1 (by simp)) ((h2.2 b).1 (by simp))]

/-- Two rectified inputs: two groups, so that two texts are possible. -/
theorem text_not_determined : ∃ (ns : List DNode) (st : Clusters) (ks ks' : List Grp), OnlyOps ns ∧ (∀ n ∈ ns, Own n) ∧
    drawNodes ns clusters0 = .ok st ∧ StructureOrder st ks ∧ StructureOrder st ks' ∧ ks ≠ ks' := by
  have h := draw_groups_inside [⟨0, .input, []⟩, ⟨1, .other, [⟨6, "Rectify"⟩]⟩, ⟨2, .other, [⟨7, "Rectify"⟩]⟩] (by decide)
    (by simp [Own]) (by simp [OnlyOps])
  obtain ⟨st, e, _, b⟩ := h
  refine ⟨_, st, [⟨6, "Rectify"⟩, ⟨7, "Rectify"⟩], [⟨7, "Rectify"⟩, ⟨6, "Rectify"⟩], ?_, ?_, e, ⟨by decide, fun k => ?_⟩,
    ⟨by decide, fun k => ?_⟩, by decide⟩
  · simp [OnlyOps]
  · simp [Own]
  · rw [b]; simp
  · rw [b]; simp [or_comm]

/-! ## Nodes and edges -/

variable {L : Type} {P : Params L}

/-- The identifier of a node object (`Node.ID`). -/
def dotId (g : G L) (p : Ptr) : Int := match g.heap[p]? with | some c => c.id | none => -1

/-- The first loop of `copyGraph`, encoding/dot/copy.go 9-15. -/
def copyNodes (g : G L) : List Ptr → List Int → Res (List Int)
  | [], acc => .ok acc
  | p :: ps, acc => Res.bind (addNodeTo acc (dotId g p)) (copyNodes g ps)

/-- The inner loop of `copyGraph`, copy.go 23-29: the edges as a list in which the new one is put in front. -/
def copyInner (g : G L) (uid : Int) : List Ptr → List (Int × Int) → Res (List (Int × Int))
  | [], es => .ok es
  | v :: vs, es => if uid = dotId g v then .panic else copyInner g uid vs ((uid, dotId g v) :: es)

/-- The second loop of `copyGraph`, copy.go 17-30; `From` (graph.go 564-569) gives nil for an identifier it does not find. (That
`node` remembers what it found is left out; it does not change later answers.) -/
def copyEdges (g : G L) : List Ptr → List (Int × Int) → Res (List (Int × Int))
  | [], es => .ok es
  | u :: us, es =>
    match (node g (dotId g u)).2 with
    | none => .panic
    | some p => Res.bind (copyInner g (dotId g u) (operandsOf g p) es) (copyEdges g us)

/-- `copyGraph`, copy.go 8-31. -/
def copyGraph (g : G L) : Res (List Int × List (Int × Int)) :=
  Res.bind (copyNodes g g.all []) fun ns => Res.bind (copyEdges g g.all []) fun es => .ok (ns, es)

theorem dotId_of {g : G L} {p : Ptr} {i : Int} (h : idOf g p = some i) : dotId g p = i := by
  unfold idOf at h
  unfold dotId
  cases hc : g.heap[p]? with
  | none => rw [hc] at h; cases h
  | some c => rw [hc] at h; simpa using h

theorem idOf_member {g : G L} (h : Reachable P g) {p : Ptr} (hp : p ∈ g.all) : idOf g p = some (dotId g p) := by
  obtain ⟨c, hc⟩ := h.W.inv.live p hp
  simp [idOf, dotId, hc]

theorem copyNodes_spec (g : G L) : ∀ (ps : List Ptr) (acc : List Int), (acc ++ ps.map (dotId g)).Nodup →
    copyNodes g ps acc = .ok (acc ++ ps.map (dotId g))
  | [], acc, _ => by simp [copyNodes]
  | p :: ps, acc, h => by
    have hn : dotId g p ∉ acc := by
      intro hm
      rw [List.nodup_append] at h
      exact h.2.2 _ hm _ (by simp) rfl
    simp only [copyNodes, addNodeTo, hn, if_false, Res.bind]
    rw [copyNodes_spec g ps _ (by simpa using h)]
    simp

theorem copyInner_spec (g : G L) (uid : Int) : ∀ (vs : List Ptr) (es : List (Int × Int)), (∀ v ∈ vs, uid ≠ dotId g v) →
    ∃ es', copyInner g uid vs es = .ok es' ∧ ∀ e, e ∈ es' ↔ e ∈ es ∨ (e.1 = uid ∧ ∃ v ∈ vs, e.2 = dotId g v)
  | [], es, _ => ⟨es, rfl, by simp⟩
  | v :: vs, es, h => by
    obtain ⟨es', h1, h2⟩ := copyInner_spec g uid vs ((uid, dotId g v) :: es) (fun w hw => h w (by simp [hw]))
    refine ⟨es', by rw [copyInner, if_neg (h v (by simp))]; exact h1, fun e => ?_⟩
    rw [h2]
    obtain ⟨a, b⟩ := e
    simp only [List.mem_cons, Prod.mk.injEq, exists_eq_or_imp]
    tauto

theorem copyEdges_spec {g : G L} (h : Reachable P g) : ∀ (us : List Ptr) (es : List (Int × Int)), (∀ u ∈ us, u ∈ g.all) →
    ∃ es', copyEdges g us es = .ok es' ∧
      ∀ e, e ∈ es' ↔ e ∈ es ∨ ∃ u ∈ us, e.1 = dotId g u ∧ ∃ v ∈ operandsOf g u, e.2 = dotId g v
  | [], es, _ => ⟨es, rfl, by simp⟩
  | u :: us, es, hm => by
    have hu := hm u (by simp)
    have hl := (lookup_exact h (dotId g u) u).2 ⟨hu, idOf_member h hu⟩
    obtain ⟨es1, a1, a2⟩ := copyInner_spec g (dotId g u) (operandsOf g u) es (by
      intro v hv e
      obtain ⟨_, i, j, h1, h2, h3⟩ := operands_before h hu hv
      rw [dotId_of h1, dotId_of h2] at e
      omega)
    obtain ⟨es2, b1, b2⟩ := copyEdges_spec h us es1 (fun w hw => hm w (by simp [hw]))
    refine ⟨es2, by simp only [copyEdges, hl, a1, Res.bind, b1], fun e => ?_⟩
    rw [b2, a2]
    simp only [List.mem_cons, exists_eq_or_imp, or_assoc]

theorem dotIds_nodup {g : G L} (h : Reachable P g) : (g.all.map (dotId g)).Nodup := by
  rw [List.Nodup, List.pairwise_map]
  refine List.Pairwise.imp_of_mem ?_ h.W.inv.nodup
  intro a b ha hb hne e
  have h1 := (lookup_exact h (dotId g a) a).2 ⟨ha, idOf_member h ha⟩
  have h2 := (lookup_exact h (dotId g b) b).2 ⟨hb, idOf_member h hb⟩
  rw [e, h2] at h1
  exact hne (Option.some.inj h1).symm

/-- **C108 (nodes and edges).** The drawing has exactly the nodes of the graph, each once, and an edge from each node to each of
its operands, and no others. -/
theorem copy_exact {g : G L} (h : Reachable P g) :
    ∃ ns es, copyGraph g = .ok (ns, es) ∧ ns.Nodup ∧ (∀ i, i ∈ ns ↔ ∃ p ∈ g.all, idOf g p = some i) ∧
      ∀ i j, (i, j) ∈ es ↔ ∃ u ∈ g.all, ∃ v ∈ operandsOf g u, idOf g u = some i ∧ idOf g v = some j := by
  obtain ⟨es, e1, e2⟩ := copyEdges_spec h g.all [] (fun _ hu => hu)
  refine ⟨g.all.map (dotId g), es, ?_, dotIds_nodup h, fun i => ?_, fun i j => ?_⟩
  · have := copyNodes_spec g g.all [] (by simpa using dotIds_nodup h)
    rw [copyGraph, this]
    simp only [Res.bind, e1, List.nil_append]
  · rw [List.mem_map]
    constructor
    · rintro ⟨p, hp, rfl⟩; exact ⟨p, hp, idOf_member h hp⟩
    · rintro ⟨p, hp, hi⟩; exact ⟨p, hp, dotId_of hi⟩
  · rw [e2]
    constructor
    · rintro (h0 | ⟨u, hu, rfl, v, hv, rfl⟩)
      · cases h0
      · exact ⟨u, hu, v, hv, idOf_member h hu, idOf_member h (operands_before h hu hv).1⟩
    · rintro ⟨u, hu, v, hv, h1, h2⟩
      exact Or.inr ⟨u, hu, (dotId_of h1).symm, v, hv, (dotId_of h2).symm⟩

/-- **C108 (together).** The nodes of a graph, in any order and with any groups of their own: the drawing succeeds and every node
stands where it belongs. -/
theorem dot_graph {g : G L} (h : Reachable P g) (kind : Ptr → DKind) (own : Ptr → List Grp)
    (ho : ∀ p ∈ g.all, (∀ k ∈ own p, 6 ≤ k.id) ∧ ((own p).map (·.id)).Nodup) (order : List Ptr) (hp : order.Perm g.all) :
    ∃ st, drawNodes (order.map fun p => ⟨dotId g p, kind p, own p⟩) clusters0 = .ok st ∧
      ∀ p ∈ g.all, ∀ i, idOf g p = some i → ∀ k, Stands st k i ↔ k ∈ own p ∨
        (kind p = .const ∧ k = constG) ∨ (kind p = .input ∧ k = inputG) ∨ (kind p = .other ∧ k = exprG) := by
  obtain ⟨st, e, s⟩ := draw_exact (order.map fun p => (⟨dotId g p, kind p, own p⟩ : DNode))
    (by
      rw [List.map_map]
      exact ((hp.map (dotId g)).nodup_iff).2 (dotIds_nodup h))
    (by
      intro n hn
      rw [List.mem_map] at hn
      obtain ⟨p, hpm, rfl⟩ := hn
      exact ho p (hp.mem_iff.1 hpm))
  refine ⟨st, e, fun p hpm i hi k => ?_⟩
  have := s ⟨dotId g p, kind p, own p⟩ (List.mem_map.2 ⟨p, hp.mem_iff.2 hpm, rfl⟩) k
  rw [dotId_of hi] at this
  exact this

/-- Two inputs and their sum, built twice: three nodes and two edges. -/
example : ∃ g, run demo empty [.unique ("x", false) [], .unique ("y", false) [], .unique ("add", false) [0, 1],
    .unique ("add", false) [0, 1]] = some g ∧ copyGraph g = .ok ([0, 1, 2], [(2, 1), (2, 0)]) :=
  ⟨_, rfl, by decide +kernel⟩

/-- A rectified input: the comparison stands in its group and in the expression. -/
example : ∃ st, drawNodes [⟨0, .input, []⟩, ⟨1, .const, []⟩, ⟨2, .other, [⟨6, "Rectify"⟩]⟩, ⟨3, .other, []⟩] clusters0 = .ok st ∧
    st.top inputG = some [0] ∧ st.top constG = some [1] ∧ st.top exprG = some [2, 3] ∧ st.subs ⟨6, "Rectify"⟩ = some [2] ∧
    st.top undefG = some [] :=
  ⟨_, rfl, by decide +kernel, by decide +kernel, by decide +kernel, by decide +kernel, by decide +kernel⟩

end Verif.Graph
