import Mathlib.Data.List.Basic
import Mathlib.Data.List.Nodup
/-!
Where nodes run, and the transport of their values between devices (CUDA build): `analyzeDevice` and `insertDeviceInstr` (analysis.go).

Nodes are naturals. A transport node made by `newDevTransNode` (analysis.go 124-134) is not part of the graph; there is at most one for
each node it reads (the map `devTransRepl`), so its identity is given by the fields of its operation together with that node. Left out:
the logging, and the shape and type that the transport copies from the node.
-/
set_option autoImplicit false
namespace Verif.Device

/-- The host (device_cuda.go 14). -/
def CPU : Int := -1

/-- The operations as far as the choice of the device is concerned: those that run on CUDA devices, with OpenCL, or neither. -/
inductive Kind where
  | cuda
  | cl
  | host
deriving DecidableEq

/-- `analyzeDevice` (analysis.go 52-65): the new `dataOn` of a node. -/
def analyzeDevice (k : Kind) (dataOn : Int) : Int :=
  match k with
  | .cuda => if dataOn = CPU then 0 else dataOn
  | .cl => if dataOn = CPU then 0 else dataOn
  | .host => CPU

/-- A transport (`devTrans`, op_infidel.go 63-66; analysis.go 124-134): it reads `read`, for the first user `write`. -/
structure Tr where
  read : Nat
  write : Nat
  src : Int
  dst : Int
deriving DecidableEq

/-- An entry of the sorted nodes. -/
inductive Item where
  | node (n : Nat)
  | trans (t : Tr)
deriving DecidableEq

/-- The graph: children, what `vn` replaces nodes by (analysis.go 29-46), and devices. -/
structure Gr where
  kids : Nat → List Nat
  repl : Nat → Nat
  dev : Nat → Int

/-- `devTransRepl` and `devTransChildren` (analysis.go 17-18). -/
structure St where
  tr : Nat → Option Tr
  kids : Nat → Option (List Item)

def St.init : St := ⟨fun _ => none, fun _ => none⟩

/-- What the loop over the children keeps: the map, the transports it inserted (the last one first), the replacement children, and
`useReplacement`. -/
structure Loop where
  tr : Nat → Option Tr
  new : List Tr
  kids : List Item
  use : Bool

/-- One turn of the loop over the children (analysis.go 151-176). -/
def child (G : Gr) (n : Nat) (l : Loop) (c₀ : Nat) : Loop :=
  let c := G.repl c₀
  if G.dev c ≠ G.dev n then
    match l.tr c with
    | some t => { l with kids := l.kids ++ [.trans t], use := true }
    | none =>
      let t : Tr := ⟨c, n, G.dev c, G.dev n⟩
      ⟨fun x => if x = c then some t else l.tr x, t :: l.new, l.kids ++ [.trans t], true⟩
  else { l with kids := l.kids ++ [.node c₀] }

/-- The whole loop for one node. -/
def children (G : Gr) (n : Nat) (tr : Nat → Option Tr) : Loop := (G.kids n).foldl (child G n) ⟨tr, [], [], false⟩

/-- One turn of the outer loop (analysis.go 141-184): every transport is put at the place of the node, which moves on by one, so the
last one comes first; then the loop goes on behind the node. -/
def visit (G : Gr) (s : St) (node : Nat) : St × List Item :=
  let n := G.repl node
  let l := children G n s.tr
  (⟨l.tr, if l.use then fun x => if x = n then some l.kids else s.kids x else s.kids⟩, l.new.map .trans ++ [.node node])

/-- `insertDeviceInstr` (analysis.go 136-186). -/
def insert (G : Gr) : St → List Nat → St × List Item
  | s, [] => (s, [])
  | s, n :: ns =>
    let (s', out) := visit G s n
    let (s'', rest) := insert G s' ns
    (s'', out ++ rest)

/-- The items whose registers a node reads (compile.go 355-365, regalloc.go 173-183): the replacement children if there are any,
otherwise its children; and then what these are replaced by. A transport is replaced by itself (analysis.go 171). -/
def operands (G : Gr) (s : St) (n : Nat) : List Item :=
  ((s.kids n).getD ((G.kids n).map .node)).map fun i => match i with
    | .node c => .node (G.repl c)
    | .trans t => .trans t

/-! ### What is required -/

/-- The nodes are sorted (compile.go 31-35): every node once, what it is replaced by was met before or is itself, and the operands of
that are before it. -/
def Sorted (G : Gr) (before : List Nat) : List Nat → Prop
  | [] => True
  | n :: ns =>
    n ∉ before ∧ (G.repl n ∈ before ∨ G.repl n = n) ∧ (∀ c ∈ G.kids (G.repl n), G.repl c ∈ before) ∧ Sorted G (before ++ [n]) ns

/-- Where the value of an item is. -/
def Item.on (G : Gr) : Item → Int
  | .node n => G.dev n
  | .trans t => t.dst

/-- Every item of the list, after the items of `seen`, finds what it reads among the items before it. Nodes that are replaced by others
are not executed (compile.go 489). -/
def Ready (live : Nat → Prop) (ops : Nat → List Item) (seen : List Item) : List Item → Prop
  | [] => True
  | .node n :: l => (live n → ∀ i ∈ ops n, i ∈ seen) ∧ Ready live ops (seen ++ [.node n]) l
  | .trans t :: l => .node t.read ∈ seen ∧ Ready live ops (seen ++ [.trans t]) l

/-- The values of the items after a run over them, by any functions `f` for the nodes. A transport copies. -/
def run {V : Type} (live : Nat → Prop) [DecidablePred live] (f : Nat → List (Option V) → Option V) (ops : Nat → List Item)
    (env : Item → Option V) : List Item → Item → Option V
  | [] => env
  | .node n :: l => run live f ops (if live n then fun i => if i = .node n then f n ((ops n).map env) else env i else env) l
  | .trans t :: l => run live f ops (fun i => if i = .trans t then env (.node t.read) else env i) l

/-- The same without devices: every node is computed from what its children are replaced by. -/
def plain {V : Type} (live : Nat → Prop) [DecidablePred live] (f : Nat → List (Option V) → Option V) (ops : Nat → List Nat)
    (env : Nat → Option V) : List Nat → Nat → Option V
  | [] => env
  | n :: l => plain live f ops (if live n then fun i => if i = n then f n ((ops n).map env) else env i else env) l

/-- The nodes among the items. -/
def nodesOf (l : List Item) : List Nat := l.filterMap fun i => match i with
  | .node n => some n
  | .trans _ => none

/-- The transports among the items. -/
def transOf (l : List Item) : List Tr := l.filterMap fun i => match i with
  | .node _ => none
  | .trans t => some t

/-! ### The loop over the children -/

/-- A transport in the map reads the node under which it is kept. -/
def Keyed (G : Gr) (tr : Nat → Option Tr) : Prop :=
  ∀ c t, tr c = some t → t.read = c ∧ t.src = G.dev c ∧ t.dst ≠ G.dev c ∧ t.dst = G.dev t.write

structure LoopOk (G : Gr) (n : Nat) (tr : Nat → Option Tr) (done : List Nat) (l : Loop) : Prop where
  keyed : Keyed G l.tr
  grows : ∀ c t, tr c = some t → l.tr c = some t
  fresh : ∀ t ∈ l.new, tr t.read = none ∧ l.tr t.read = some t ∧ t.read ∈ done.map G.repl ∧ t.dst = G.dev n ∧ t.write = n
  known : ∀ c t, l.tr c = some t → tr c = some t ∨ t ∈ l.new
  nodup : l.new.Nodup
  kids : l.kids = done.map fun c => if G.dev (G.repl c) = G.dev n then .node c else match l.tr (G.repl c) with
    | some t => .trans t
    | none => .node c
  there : ∀ c ∈ done, G.dev (G.repl c) ≠ G.dev n → ∃ t, l.tr (G.repl c) = some t
  use : l.use = false → ∀ c ∈ done, G.dev (G.repl c) = G.dev n

theorem child_ok (G : Gr) (n : Nat) (tr : Nat → Option Tr) (done : List Nat) (l : Loop) (h : LoopOk G n tr done l) (c₀ : Nat) :
    LoopOk G n tr (done ++ [c₀]) (child G n l c₀) := by
  by_cases hd : G.dev (G.repl c₀) = G.dev n
  · have e : child G n l c₀ = { l with kids := l.kids ++ [.node c₀] } := by simp [child, hd]
    rw [e]
    refine ⟨h.keyed, h.grows, fun t ht => ?_, h.known, h.nodup, ?_, fun c hc => ?_, fun hu c hc => ?_⟩
    · obtain ⟨a, b, c, d⟩ := h.fresh t ht
      exact ⟨a, b, by simp only [List.map_append, List.mem_append]; exact .inl c, d⟩
    · rw [List.map_append, ← h.kids]
      simp [hd]
    · rcases List.mem_append.1 hc with hc | hc
      · exact h.there c hc
      · rw [List.mem_singleton.1 hc]; exact fun k => absurd hd k
    · rcases List.mem_append.1 hc with hc | hc
      · exact h.use hu c hc
      · rw [List.mem_singleton.1 hc]; exact hd
  · cases ht : l.tr (G.repl c₀) with
    | some t =>
      have e : child G n l c₀ = { l with kids := l.kids ++ [.trans t], use := true } := by simp [child, hd, ht]
      rw [e]
      refine ⟨h.keyed, h.grows, fun t ht => ?_, h.known, h.nodup, ?_, fun c hc => ?_, fun hu => by simp at hu⟩
      · obtain ⟨a, b, c, d⟩ := h.fresh t ht
        exact ⟨a, b, by simp only [List.map_append, List.mem_append]; exact .inl c, d⟩
      · rw [List.map_append, ← h.kids]
        simp [hd, ht]
      · rcases List.mem_append.1 hc with hc | hc
        · exact h.there c hc
        · rw [List.mem_singleton.1 hc]; exact fun _ => ⟨t, ht⟩
    | none =>
      obtain ⟨t, hT⟩ : ∃ t : Tr, t = ⟨G.repl c₀, n, G.dev (G.repl c₀), G.dev n⟩ := ⟨_, rfl⟩
      have e : child G n l c₀ = ⟨fun x => if x = G.repl c₀ then some t else l.tr x, t :: l.new, l.kids ++ [.trans t], true⟩ := by
        simp [child, hd, ht, hT]
      rw [e]
      have hread : t.read = G.repl c₀ := by rw [hT]
      have hold : ∀ c t', l.tr c = some t' → (if c = G.repl c₀ then some t else l.tr c) = some t' := by
        intro c t' h'
        by_cases hc : c = G.repl c₀
        · rw [hc, ht] at h'; cases h'
        · rw [if_neg hc]; exact h'
      refine ⟨fun c t' h' => ?_, fun c t' h' => hold c t' (h.grows c t' h'), fun t' h' => ?_, fun c t' h' => ?_, ?_, ?_, fun c hc hne => ?_,
        fun hu => by simp at hu⟩
      · simp only at h'
        by_cases hc : c = G.repl c₀
        · rw [if_pos hc, Option.some.injEq] at h'
          rw [← h', hT, hc]
          exact ⟨rfl, rfl, fun k => hd k.symm, rfl⟩
        · rw [if_neg hc] at h'
          exact h.keyed c t' h'
      · rcases List.mem_cons.1 h' with rfl | h'
        · refine ⟨?_, if_pos hread, by simp [hread], by rw [hT], by rw [hT]⟩
          cases hq : tr t'.read with
          | none => rfl
          | some q => rw [hread] at hq; rw [h.grows _ _ hq] at ht; cases ht
        · obtain ⟨a, b, c, d⟩ := h.fresh t' h'
          exact ⟨a, hold _ _ b, by simp only [List.map_append, List.mem_append]; exact .inl c, d⟩
      · simp only at h'
        by_cases hc : c = G.repl c₀
        · rw [if_pos hc, Option.some.injEq] at h'
          exact .inr (by simp [h'])
        · rw [if_neg hc] at h'
          exact (h.known c t' h').imp_right fun k => List.mem_cons_of_mem _ k
      · refine List.nodup_cons.2 ⟨fun k => ?_, h.nodup⟩
        have := (h.fresh t k).2.1
        rw [hread, ht] at this
        cases this
      · simp only [List.map_append, h.kids]
        congr 1
        · refine List.map_congr_left fun c hc => ?_
          by_cases hde : G.dev (G.repl c) = G.dev n
          · rw [if_pos hde, if_pos hde]
          · rw [if_neg hde, if_neg hde]
            obtain ⟨t', h'⟩ := h.there c hc hde
            rw [hold _ _ h', h']
        · simp [hd]
      · rcases List.mem_append.1 hc with hc | hc
        · obtain ⟨t', h'⟩ := h.there c hc hne
          exact ⟨t', hold _ _ h'⟩
        · rw [List.mem_singleton.1 hc]
          exact ⟨t, if_pos rfl⟩

theorem children_ok (G : Gr) (n : Nat) (tr : Nat → Option Tr) (hk : Keyed G tr) : LoopOk G n tr (G.kids n) (children G n tr) := by
  have key : ∀ (ks done : List Nat) (l : Loop), LoopOk G n tr done l → LoopOk G n tr (done ++ ks) (ks.foldl (child G n) l) := by
    intro ks
    induction ks with
    | nil => intro done l h; simpa using h
    | cons k ks ih =>
      intro done l h
      have := ih (done ++ [k]) _ (child_ok G n tr done l h k)
      simpa using this
  have := key (G.kids n) [] ⟨tr, [], [], false⟩ ⟨hk, fun _ _ h => h, by simp, fun _ _ h => .inl h, by simp, by simp, by simp, by simp⟩
  simpa [children] using this

/-! ### The outer loop -/

/-- The child in the place of a child. -/
def put (G : Gr) (tr : Nat → Option Tr) (n c : Nat) : Item :=
  if G.dev (G.repl c) = G.dev n then .node c else match tr (G.repl c) with
    | some t => .trans t
    | none => .node c

/-- The operand for a child. -/
def opnd (G : Gr) (tr : Nat → Option Tr) (n c : Nat) : Item :=
  if G.dev (G.repl c) = G.dev n then .node (G.repl c) else match tr (G.repl c) with
    | some t => .trans t
    | none => .node (G.repl c)

structure Good (G : Gr) (s : St) : Prop where
  keyed : Keyed G s.tr
  kids : ∀ n l, s.kids n = some l → l = (G.kids n).map (put G s.tr n) ∧
    ∀ c ∈ G.kids n, G.dev (G.repl c) ≠ G.dev n → ∃ t, s.tr (G.repl c) = some t

/-- The node has been treated. -/
def Done (G : Gr) (s : St) (n : Nat) : Prop := s.kids n = none → ∀ c ∈ G.kids n, G.dev (G.repl c) = G.dev n

/-- Nothing is lost. -/
structure Grows (s s' : St) : Prop where
  tr : ∀ c t, s.tr c = some t → s'.tr c = some t
  kids : ∀ n, s'.kids n = none → s.kids n = none

theorem Grows.trans {s s' s'' : St} (h : Grows s s') (h' : Grows s' s'') : Grows s s'' :=
  ⟨fun c t k => h'.tr c t (h.tr c t k), fun n k => h.kids n (h'.kids n k)⟩

theorem Done.grows {G : Gr} {s s' : St} {n : Nat} (h : Done G s n) (hg : Grows s s') : Done G s' n := fun k => h (hg.kids n k)

theorem put_congr (G : Gr) (tr tr' : Nat → Option Tr) (n c : Nat) (h : ∀ c t, tr c = some t → tr' c = some t)
    (hc : G.dev (G.repl c) ≠ G.dev n → ∃ t, tr (G.repl c) = some t) : put G tr n c = put G tr' n c := by
  by_cases hd : G.dev (G.repl c) = G.dev n
  · rw [put, put, if_pos hd, if_pos hd]
  · obtain ⟨t, ht⟩ := hc hd
    rw [put, put, if_neg hd, if_neg hd, ht, h _ _ ht]

theorem visit_good (G : Gr) (s : St) (node : Nat) (h : Good G s) :
    Good G (visit G s node).1 ∧ Done G (visit G s node).1 (G.repl node) ∧ Grows s (visit G s node).1 := by
  have hl := children_ok G (G.repl node) s.tr h.keyed
  have hold : ∀ n l, s.kids n = some l → l = (G.kids n).map (put G (children G (G.repl node) s.tr).tr n) ∧
      ∀ c ∈ G.kids n, G.dev (G.repl c) ≠ G.dev n → ∃ t, (children G (G.repl node) s.tr).tr (G.repl c) = some t := by
    intro n l k
    obtain ⟨a, b⟩ := h.kids n l k
    refine ⟨a.trans (List.map_congr_left fun c hc => put_congr G _ _ n c hl.grows (b c hc)), fun c hc hd => ?_⟩
    obtain ⟨t, ht⟩ := b c hc hd
    exact ⟨t, hl.grows _ _ ht⟩
  cases hu : (children G (G.repl node) s.tr).use with
  | false =>
    have e : (visit G s node).1 = ⟨(children G (G.repl node) s.tr).tr, s.kids⟩ := by simp [visit, hu]
    rw [e]
    exact ⟨⟨hl.keyed, hold⟩, fun _ => hl.use hu, ⟨hl.grows, fun _ k => k⟩⟩
  | true =>
    have e : (visit G s node).1 = ⟨(children G (G.repl node) s.tr).tr,
        fun x => if x = G.repl node then some (children G (G.repl node) s.tr).kids else s.kids x⟩ := by simp [visit, hu]
    rw [e]
    refine ⟨⟨hl.keyed, fun n l k => ?_⟩, fun k => ?_, ⟨hl.grows, fun n k => ?_⟩⟩
    · simp only at k
      by_cases hn : n = G.repl node
      · rw [if_pos hn, Option.some.injEq] at k
        rw [← k, hn]
        exact ⟨hl.kids, hl.there⟩
      · rw [if_neg hn] at k
        exact hold n l k
    · simp at k
    · simp only at k
      by_cases hn : n = G.repl node
      · rw [if_pos hn] at k; cases k
      · rw [if_neg hn] at k; exact k

theorem insert_good (G : Gr) (ns : List Nat) (s : St) (h : Good G s) :
    Good G (insert G s ns).1 ∧ Grows s (insert G s ns).1 ∧ ∀ n ∈ ns, Done G (insert G s ns).1 (G.repl n) := by
  induction ns generalizing s with
  | nil => exact ⟨h, ⟨fun _ _ k => k, fun _ k => k⟩, by simp⟩
  | cons n ns ih =>
    obtain ⟨a, b, c⟩ := visit_good G s n h
    obtain ⟨a', b', c'⟩ := ih _ a
    refine ⟨a', c.trans b', fun m hm => ?_⟩
    rcases List.mem_cons.1 hm with rfl | hm
    · exact b.grows b'
    · exact c' m hm

theorem init_good (G : Gr) : Good G St.init := ⟨fun _ _ h => by simp [St.init] at h, fun _ _ h => by simp [St.init] at h⟩

/-- What a node reads in the end. -/
theorem operands_eq (G : Gr) (s : St) (n : Nat) (h : Good G s) (hd : Done G s n) :
    operands G s n = (G.kids n).map (opnd G s.tr n) ∧
      ∀ c ∈ G.kids n, G.dev (G.repl c) ≠ G.dev n → ∃ t, s.tr (G.repl c) = some t := by
  cases hk : s.kids n with
  | none =>
    have := hd hk
    refine ⟨?_, fun c hc k => absurd (this c hc) k⟩
    rw [operands, hk, Option.getD_none, List.map_map]
    refine List.map_congr_left fun c hc => ?_
    simp [opnd, this c hc]
  | some l =>
    obtain ⟨a, b⟩ := h.kids n l hk
    refine ⟨?_, b⟩
    rw [operands, hk, Option.getD_some, a, List.map_map]
    refine List.map_congr_left fun c hc => ?_
    by_cases hde : G.dev (G.repl c) = G.dev n
    · simp [put, opnd, hde]
    · obtain ⟨t, ht⟩ := b c hc hde
      simp [put, opnd, hde, ht]

/-! ### The theorems -/

theorem nodesOf_append (a b : List Item) : nodesOf (a ++ b) = nodesOf a ++ nodesOf b := List.filterMap_append ..
theorem transOf_append (a b : List Item) : transOf (a ++ b) = transOf a ++ transOf b := List.filterMap_append ..

theorem nodesOf_trans (ts : List Tr) : nodesOf (ts.map .trans) = [] := by
  induction ts with
  | nil => rfl
  | cons t ts ih => simpa [nodesOf] using ih

theorem transOf_trans (ts : List Tr) : transOf (ts.map .trans) = ts := by
  induction ts with
  | nil => rfl
  | cons t ts ih => simpa [transOf] using ih

/-- Inserting transports changes nothing else: the nodes are those given, in the same order. -/
theorem insert_nodes (G : Gr) (s : St) (ns : List Nat) : nodesOf (insert G s ns).2 = ns := by
  induction ns generalizing s with
  | nil => rfl
  | cons n ns ih =>
    have : (insert G s (n :: ns)).2 = (visit G s n).2 ++ (insert G (visit G s n).1 ns).2 := rfl
    rw [this, nodesOf_append, ih]
    simp [visit, nodesOf_append, nodesOf_trans, nodesOf]

/-- Every value is transported at most once. -/
theorem insert_once (G : Gr) (s : St) (ns : List Nat) (h : Good G s) :
    ((transOf (insert G s ns).2).map Tr.read).Nodup ∧ ∀ t ∈ transOf (insert G s ns).2, s.tr t.read = none := by
  induction ns generalizing s with
  | nil => exact ⟨List.nodup_nil, by simp [insert, transOf]⟩
  | cons n ns ih =>
    have e : transOf (insert G s (n :: ns)).2 = (children G (G.repl n) s.tr).new ++ transOf (insert G (visit G s n).1 ns).2 := by
      have : (insert G s (n :: ns)).2 = (visit G s n).2 ++ (insert G (visit G s n).1 ns).2 := rfl
      rw [this, transOf_append]
      simp [visit, transOf_append, transOf_trans, transOf]
    have hl := children_ok G (G.repl n) s.tr h.keyed
    obtain ⟨g, _, hg⟩ := visit_good G s n h
    obtain ⟨a, b⟩ := ih _ g
    rw [e]
    refine ⟨?_, fun t ht => ?_⟩
    · rw [List.map_append, List.nodup_append]
      refine ⟨?_, a, fun x hx y hy hxy => ?_⟩
      · refine List.Nodup.map_on (fun t ht t' ht' k => ?_) hl.nodup
        have h1 := (hl.fresh t ht).2.1
        have h2 := (hl.fresh t' ht').2.1
        rw [k, h2] at h1
        exact (Option.some.inj h1).symm
      · obtain ⟨t, ht, rfl⟩ := List.mem_map.1 hx
        obtain ⟨t', ht', rfl⟩ := List.mem_map.1 hy
        have h1 : (visit G s n).1.tr t.read = some t := (hl.fresh t ht).2.1
        rw [hxy, b t' ht'] at h1
        cases h1
    · rcases List.mem_append.1 ht with ht | ht
      · exact (hl.fresh t ht).1
      · have := b t ht
        cases hq : s.tr t.read with
        | none => rfl
        | some q => rw [hg.tr _ _ hq] at this; cases this

theorem ready_trans (live : Nat → Prop) (ops : Nat → List Item) (ts : List Tr) (l seen : List Item)
    (h : ∀ t ∈ ts, .node t.read ∈ seen) (h' : Ready live ops (seen ++ ts.map .trans) l) : Ready live ops seen (ts.map .trans ++ l) := by
  induction ts generalizing seen with
  | nil => simpa using h'
  | cons t ts ih =>
    refine ⟨h t (by simp), ih _ (fun t' k => List.mem_append_left _ (h t' (by simp [k]))) (by simpa using h')⟩

/-- What is known of the items met so far. -/
def Seen (s : St) (before : List Nat) (seen : List Item) : Prop :=
  (∀ n ∈ before, Item.node n ∈ seen) ∧ ∀ c t, s.tr c = some t → Item.trans t ∈ seen

theorem insert_ready_aux (G : Gr) (ns : List Nat) (s : St) (before : List Nat) (seen : List Item) (h : Good G s)
    (hs : Sorted G before ns) (hseen : Seen s before seen) :
    Ready (fun n => G.repl n = n) (operands G (insert G s ns).1) seen (insert G s ns).2 := by
  induction ns generalizing s before seen with
  | nil => trivial
  | cons n ns ih =>
    obtain ⟨_, _, hb, hrest⟩ := hs
    obtain ⟨g, d, hg⟩ := visit_good G s n h
    obtain ⟨g', hg', _⟩ := insert_good G ns _ g
    have hl := children_ok G (G.repl n) s.tr h.keyed
    have e : (insert G s (n :: ns)).2 = (children G (G.repl n) s.tr).new.map .trans ++ (.node n :: (insert G (visit G s n).1 ns).2) := by
      have : (insert G s (n :: ns)).2 = (visit G s n).2 ++ (insert G (visit G s n).1 ns).2 := rfl
      rw [this]
      simp [visit]
    have e1 : (insert G s (n :: ns)).1 = (insert G (visit G s n).1 ns).1 := rfl
    rw [e, e1]
    refine ready_trans _ _ _ _ _ (fun t ht => ?_) ⟨fun hlive i hi => ?_, ih _ (before ++ [n]) _ g hrest ⟨fun m hm => ?_, fun c t ht => ?_⟩⟩
    · obtain ⟨c, hc, he⟩ := List.mem_map.1 (hl.fresh t ht).2.2.1
      exact hseen.1 _ (he ▸ hb c hc)
    · rw [hlive] at hb
      obtain ⟨ho, _⟩ := operands_eq G _ _ g' (d.grows hg')
      rw [hlive] at ho
      rw [ho] at hi
      obtain ⟨c, hc, rfl⟩ := List.mem_map.1 hi
      by_cases hde : G.dev (G.repl c) = G.dev n
      · rw [opnd, if_pos hde]
        exact List.mem_append_left _ (hseen.1 _ (hb c hc))
      · obtain ⟨t, ht⟩ := hl.there c (by rw [hlive]; exact hc) (by rw [hlive]; exact hde)
        have ht' : (insert G (visit G s n).1 ns).1.tr (G.repl c) = some t := hg'.tr _ _ ht
        rw [opnd, if_neg hde, ht']
        rcases hl.known _ _ ht with k | k
        · exact List.mem_append_left _ (hseen.2 _ _ k)
        · exact List.mem_append_right _ (List.mem_map.2 ⟨t, k, rfl⟩)
    · rcases List.mem_append.1 hm with hm | hm
      · simp [hseen.1 m hm]
      · simp [List.mem_singleton.1 hm]
    · rcases hl.known c t ht with k | k
      · simp [hseen.2 c t k]
      · simp [k]

/-- Every item of the new list finds what it reads among the items before it. -/
theorem insert_ready (G : Gr) (ns : List Nat) (hs : Sorted G [] ns) :
    Ready (fun n => G.repl n = n) (operands G (insert G St.init ns).1) [] (insert G St.init ns).2 :=
  insert_ready_aux G ns _ [] [] (init_good G) hs ⟨by simp, fun _ _ h => by simp [St.init] at h⟩

/-- If there are only two devices, every node reads values that are where it runs. -/
theorem insert_local (G : Gr) (ns : List Nat) (a b : Int) (h2 : ∀ n, G.dev n = a ∨ G.dev n = b) (n : Nat) (hn : n ∈ ns)
    (hlive : G.repl n = n) : ∀ i ∈ operands G (insert G St.init ns).1 n, i.on G = G.dev n := by
  obtain ⟨g, _, d⟩ := insert_good G ns _ (init_good G)
  have hd := d n hn
  rw [hlive] at hd
  obtain ⟨ho, ht⟩ := operands_eq G _ n g hd
  intro i hi
  rw [ho] at hi
  obtain ⟨c, hc, rfl⟩ := List.mem_map.1 hi
  by_cases hde : G.dev (G.repl c) = G.dev n
  · rw [opnd, if_pos hde]
    exact hde
  · obtain ⟨t, k⟩ := ht c hc hde
    rw [opnd, if_neg hde, k]
    obtain ⟨_, _, h3, h4⟩ := g.keyed _ _ k
    show t.dst = G.dev n
    rcases h2 n with e1 | e1 <;> rcases h2 (G.repl c) with e2 | e2 <;> rcases h2 t.write with e3 | e3 <;> simp_all

/-- In particular for the devices that `analyzeDevice` chooses: nodes start on the host or the first device. -/
theorem insert_analyzed (kids : Nat → List Nat) (repl : Nat → Nat) (kind : Nat → Kind) (on : Nat → Int) (hon : ∀ n, on n = CPU ∨ on n = 0)
    (ns : List Nat) (n : Nat) (hn : n ∈ ns) (hlive : repl n = n) :
    let G : Gr := ⟨kids, repl, fun n => analyzeDevice (kind n) (on n)⟩
    (∀ i ∈ operands G (insert G St.init ns).1 n, i.on G = G.dev n) ∧ (G.dev n ≠ CPU ↔ kind n ≠ .host) := by
  refine ⟨insert_local _ ns CPU 0 (fun m => ?_) n hn hlive, ?_⟩
  · rcases hon m with h | h <;> cases hk : kind m <;> simp [analyzeDevice, h, CPU, hk]
  · rcases hon n with h | h <;> cases hk : kind n <;> simp [analyzeDevice, h, CPU, hk]

theorem run_append {V : Type} (live : Nat → Prop) [DecidablePred live] (f : Nat → List (Option V) → Option V) (ops : Nat → List Item)
    (env : Item → Option V) (a b : List Item) : run live f ops env (a ++ b) = run live f ops (run live f ops env a) b := by
  induction a generalizing env with
  | nil => rfl
  | cons i a ih => cases i <;> exact ih _

theorem run_trans {V : Type} (live : Nat → Prop) [DecidablePred live] (f : Nat → List (Option V) → Option V) (ops : Nat → List Item)
    (ts : List Tr) (env : Item → Option V) :
    (∀ n, run live f ops env (ts.map .trans) (.node n) = env (.node n)) ∧
      (∀ t ∈ ts, run live f ops env (ts.map .trans) (.trans t) = env (.node t.read)) ∧
      ∀ t, t ∉ ts → run live f ops env (ts.map .trans) (.trans t) = env (.trans t) := by
  induction ts generalizing env with
  | nil => exact ⟨fun _ => rfl, by simp, fun _ _ => rfl⟩
  | cons t ts ih =>
    obtain ⟨a, b, c⟩ := ih (fun i => if i = .trans t then env (.node t.read) else env i)
    have e : ∀ i, run live f ops env ((t :: ts).map .trans) i =
        run live f ops (fun i => if i = .trans t then env (.node t.read) else env i) (ts.map .trans) i := fun _ => rfl
    refine ⟨fun n => by rw [e, a]; simp, fun t' ht' => ?_, fun t' ht' => ?_⟩
    · rw [e]
      by_cases k : t' ∈ ts
      · rw [b t' k]; simp
      · rw [c t' k]
        rcases List.mem_cons.1 ht' with rfl | h
        · simp
        · exact absurd h k
    · rw [e, c t' (fun k => ht' (List.mem_cons_of_mem _ k))]
      have : Item.trans t' ≠ .trans t := fun k => ht' (by rw [Item.trans.inj k]; exact List.mem_cons_self)
      rw [if_neg this]

theorem insert_run_aux {V : Type} (G : Gr) (f : Nat → List (Option V) → Option V) (ns : List Nat) (s : St) (before : List Nat)
    (env : Item → Option V) (penv : Nat → Option V) (h : Good G s) (hs : Sorted G before ns)
    (he : ∀ n, env (.node n) = penv n) (ht : ∀ c t, s.tr c = some t → c ∈ before ∧ env (.trans t) = penv c) :
    ∀ n, run (fun n => G.repl n = n) f (operands G (insert G s ns).1) env (insert G s ns).2 (.node n) =
      plain (fun n => G.repl n = n) f (fun n => (G.kids n).map G.repl) penv ns n := by
  induction ns generalizing s before env penv with
  | nil => exact he
  | cons n ns ih =>
    obtain ⟨hnew, _, hb, hrest⟩ := hs
    obtain ⟨g, d, hg⟩ := visit_good G s n h
    obtain ⟨g', hg', _⟩ := insert_good G ns _ g
    have hl := children_ok G (G.repl n) s.tr h.keyed
    have e : (insert G s (n :: ns)).2 = (children G (G.repl n) s.tr).new.map .trans ++ (.node n :: (insert G (visit G s n).1 ns).2) := by
      have : (insert G s (n :: ns)).2 = (visit G s n).2 ++ (insert G (visit G s n).1 ns).2 := rfl
      rw [this]
      simp [visit]
    have e1 : (insert G s (n :: ns)).1 = (insert G (visit G s n).1 ns).1 := rfl
    rw [e, e1]
    intro m
    rw [run_append]
    obtain ⟨r1, r2, r3⟩ := run_trans (fun n => G.repl n = n) f (operands G (insert G (visit G s n).1 ns).1)
      (children G (G.repl n) s.tr).new env
    generalize run (fun n => G.repl n = n) f (operands G (insert G (visit G s n).1 ns).1) env
      ((children G (G.repl n) s.tr).new.map .trans) = env' at r1 r2 r3
    have he' : ∀ n, env' (.node n) = penv n := fun k => (r1 k).trans (he k)
    have ht' : ∀ c t, (visit G s n).1.tr c = some t → c ∈ before ∧ env' (.trans t) = penv c := by
      intro c t k
      by_cases hm : t ∈ (children G (G.repl n) s.tr).new
      · obtain ⟨c₀, hc₀, hr⟩ := List.mem_map.1 (hl.fresh t hm).2.2.1
        have hread : t.read = c := (g.keyed c t k).1
        refine ⟨by rw [← hread, ← hr]; exact hb c₀ hc₀, ?_⟩
        rw [r2 t hm, he, hread]
      · rcases hl.known c t k with q | q
        · exact ⟨(ht c t q).1, by rw [r3 t hm]; exact (ht c t q).2⟩
        · exact absurd q hm
    by_cases hlive : G.repl n = n
    · have hval : (operands G (insert G (visit G s n).1 ns).1 n).map env' = (G.kids n).map (fun c => penv (G.repl c)) := by
        obtain ⟨ho, _⟩ := operands_eq G _ _ g' (d.grows hg')
        rw [hlive] at ho hb hl
        rw [ho, List.map_map]
        refine List.map_congr_left fun c hc => ?_
        by_cases hde : G.dev (G.repl c) = G.dev n
        · simp only [Function.comp, opnd, if_pos hde, he']
        · obtain ⟨t, k⟩ := hl.there c hc hde
          have k' : (visit G s n).1.tr (G.repl c) = some t := by simpa [visit, hlive] using k
          have k'' : (insert G (visit G s n).1 ns).1.tr (G.repl c) = some t := hg'.tr _ _ k'
          simp only [Function.comp, opnd, if_neg hde, k'']
          exact (ht' _ _ k').2
      have hmap : ((G.kids n).map G.repl).map penv = (G.kids n).map (fun c => penv (G.repl c)) := by rw [List.map_map]; rfl
      show run _ f _ (if G.repl n = n then _ else _) _ _ = plain _ f _ (if G.repl n = n then _ else _) ns m
      rw [if_pos hlive, if_pos hlive]
      refine ih _ (before ++ [n]) _ _ g hrest (fun k => ?_) (fun c t k => ?_) m
      · by_cases hk : k = n
        · simp only [hk, if_true, hval, hmap]
        · have : Item.node k ≠ .node n := fun q => hk (Item.node.inj q)
          simp only [if_neg this, if_neg hk, he']
      · obtain ⟨k1, k2⟩ := ht' c t k
        have hne : c ≠ n := fun q => hnew (q ▸ k1)
        refine ⟨List.mem_append_left _ k1, ?_⟩
        simp only [if_neg hne]
        rw [if_neg (by simp), k2]
    · show run _ f _ (if G.repl n = n then _ else _) _ _ = plain _ f _ (if G.repl n = n then _ else _) ns m
      rw [if_neg hlive, if_neg hlive]
      exact ih _ (before ++ [n]) _ _ g hrest he' (fun c t k => ⟨List.mem_append_left _ (ht' c t k).1, (ht' c t k).2⟩) m

/-- A run over the new list gives every node the value that it has in a run without devices. -/
theorem insert_run {V : Type} (G : Gr) (f : Nat → List (Option V) → Option V) (ns : List Nat) (hs : Sorted G [] ns) (env : Item → Option V)
    (n : Nat) : run (fun n => G.repl n = n) f (operands G (insert G St.init ns).1) env (insert G St.init ns).2 (.node n) =
      plain (fun n => G.repl n = n) f (fun n => (G.kids n).map G.repl) (fun n => env (.node n)) ns n :=
  insert_run_aux G f ns _ [] env _ (init_good G) hs (fun _ => rfl) (fun _ _ h => by simp [St.init] at h) n

/-! ### Examples -/

/-- Two inputs on the host, a product of them on the device, a host operation of an input and the product, and a second product. -/
def exG : Gr where
  kids n := match n with
    | 2 => [0, 1]
    | 3 => [2, 0]
    | 4 => [0, 2]
    | 5 => [2, 3]
    | _ => []
  repl n := n
  dev n := if n = 2 ∨ n = 4 then 0 else CPU

/-- The second operand is copied before the first; the copies of 0 and of 2 are made once. -/
example : (insert exG St.init [0, 1, 2, 3, 4, 5]).2 =
    [.node 0, .node 1, .trans ⟨1, 2, -1, 0⟩, .trans ⟨0, 2, -1, 0⟩, .node 2, .trans ⟨2, 3, 0, -1⟩, .node 3, .node 4, .node 5] := by decide

example : operands exG (insert exG St.init [0, 1, 2, 3, 4, 5]).1 4 = [.trans ⟨0, 2, -1, 0⟩, .node 2] := by decide

example : Sorted exG [] [0, 1, 2, 3, 4, 5] := by
  refine ⟨?_, ?_, ?_, ?_, ?_, ?_, ?_, ?_, ?_, ?_, ?_, ?_, ?_, ?_, ?_, ?_, ?_, ?_, trivial⟩ <;> decide

/-- The values: 5 and 7 as inputs, sums for all others. -/
example : let f : Nat → List (Option Nat) → Option Nat := fun n l => match n with
      | 0 => some 5
      | 1 => some 7
      | _ => l.foldl (fun a x => do pure ((← a) + (← x))) (some 0)
    run (fun n => exG.repl n = n) f (operands exG (insert exG St.init [0, 1, 2, 3, 4, 5]).1) (fun _ => none)
      (insert exG St.init [0, 1, 2, 3, 4, 5]).2 (.node 5) = some 29 := by decide

/-! ### Several devices -/

/-- Node 0 on the host, read by node 1 on device 0 and node 2 on device 1. -/
def multiG : Gr where
  kids n := if n = 1 ∨ n = 2 then [0] else []
  repl n := n
  dev n := if n = 1 then 0 else if n = 2 then 1 else CPU

/-- A deviation: the transports are kept by what they read only, so that the node on device 1 reads the copy made for device 0. -/
theorem insert_wrong_device : ∃ i ∈ operands multiG (insert multiG St.init [0, 1, 2]).1 2, i.on multiG ≠ multiG.dev 2 :=
  ⟨.trans ⟨0, 1, -1, 0⟩, by decide, by decide⟩

end Verif.Device
