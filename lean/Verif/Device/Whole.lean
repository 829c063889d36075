import Verif.Device.Insert
import Verif.Device.Alloc
/-!
From the sorted nodes of a graph to a run on registers of the host and of devices: `analyzeDevice`, `insertDeviceInstr`, `buildIntervals`,
`alloc` and `gen` one after the other (compile.go 37-59), and the machine.
-/
set_option autoImplicit false
namespace Verif.Device
open Verif.Tape (upd Interval)

/-! ### The device of a register -/

/-- `on` says where the values of the entries are wanted: arguments on the host, transports where they go, operations where they run; and
operations read values from there. -/
structure Placed (P : DProg) (on : Nat → Int) : Prop where
  arg : ∀ i, (P.at i).cls = .arg → on i = -1
  trans : ∀ i d, (P.at i).cls = .trans d → on i = d
  imm : ∀ i, (P.at i).cls = .imm → on i = home (P.at i).cuda
  ptr : ∀ i o l e, (P.at i).cls = .ptr o l e → on i = home (P.at i).cuda ∧ ∀ c ∈ (P.at i).reads, on c = on i

theorem fresh_dev (s : RSt) (k : Nat) (d : Int) : ((s.fresh k d).reg k).dev = d := by rw [(fresh_spec s k d).1]

theorem reg_dev (P : DProg) (F : Fit P) (on : Nat → Int) (h : Placed P on) (i : Nat) :
    i < P.length → (P.at i).cls ≠ .stmt → (P.reg i).dev = on i := by
  induction i using Nat.strong_induction_on with
  | _ i ih =>
    intro hi hs
    have ei : P.reg i = (allocTurn P (allocTo P i) i).reg i := by rw [← allocTo_succ]; exact reg_eq P i (i + 1) (by omega) hi
    rw [ei]
    cases hc : (P.at i).cls with
    | arg => rw [allocTurn, hc]; simp only; rw [fresh_dev, h.arg i hc]
    | stmt => exact absurd hc hs
    | trans d => rw [allocTurn, hc]; simp only; rw [fresh_dev, h.trans i d hc]
    | imm => rw [allocTurn, hc]; simp only; rw [fresh_dev, h.imm i hc]
    | ptr ow l x =>
      obtain ⟨h1, h2⟩ := h.ptr i ow l x hc
      rw [allocTurn, hc]
      simp only
      unfold RSt.mutable
      cases ow with
      | none => simp only; rw [fresh_dev, h1]
      | some j =>
        have hj := (F.ow i j l x hc).1
        have hmem : (P.at i).reads.getD j 0 ∈ (P.at i).reads := by
          rw [List.getD_eq_getElem _ _ hj]; exact List.getElem_mem hj
        obtain ⟨o1, o2⟩ := F.before i _ hmem
        have ho : ((allocTo P i).reg ((P.at i).reads.getD j 0)).dev = on i := by
          rw [← reg_eq P _ i o1 (by omega), ih _ o1 (by omega) o2, h2 _ hmem]
        simp only
        split
        · split
          · simp only [Tape.upd_same]; exact ho
          · split
            · simp only [Tape.upd_same]; exact ho
            · rw [fresh_dev, h1]
        · rw [fresh_dev, h1]

/-- An operation is on the device of its kind, whatever its operands are on: one with a kernel writes into memory of a device, any other one
into memory of the host. Operations with a kernel call an external process. -/
theorem reg_home (P : DProg) (i : Nat) (hi : i < P.length)
    (hc : (P.at i).cls = .imm ∨ ∃ ow l x, (P.at i).cls = .ptr ow l x ∧ ((P.at i).cuda = true → x = true)) :
    (P.reg i).dev = -1 ↔ (P.at i).cuda = false := by
  have ei : P.reg i = (allocTurn P (allocTo P i) i).reg i := by rw [← allocTo_succ]; exact reg_eq P i (i + 1) (by omega) hi
  have hh : home (P.at i).cuda = -1 ↔ (P.at i).cuda = false := by cases (P.at i).cuda <;> simp [home]
  rw [ei]
  rcases hc with hc | ⟨ow, l, x, hc, hx⟩
  · rw [allocTurn, hc]; simp only; rw [fresh_dev]; exact hh
  · rw [allocTurn, hc]
    simp only
    unfold RSt.mutable
    cases ow with
    | none => simp only; rw [fresh_dev]; exact hh
    | some j =>
      simp only
      split
      · split
        · rename_i _ k
          simp only [Tape.upd_same]
          exact ⟨fun h => absurd h k.2, fun h => by rw [k.1] at h; exact absurd h (by simp)⟩
        · split
          · rename_i _ k1 k
            simp only [Tape.upd_same]
            cases hb : (P.at i).cuda with
            | false => exact ⟨fun _ => rfl, fun _ => k.2⟩
            | true => rw [hx hb] at k; exact absurd k.1 (by simp)
          · rw [fresh_dev]; exact hh
      · rw [fresh_dev]; exact hh

/-! ### From nodes to entries -/

/-- What else is known of the nodes. -/
structure Info where
  cls : Nat → Cls
  kind : Nat → Kind
  live : Nat → Bool
  deriv : Nat → Bool

/-- An entry of the list, with positions for what it reads. -/
def entry (G : Gr) (I : Info) (s : St) (L : List Item) : Item → DN
  | .node n => {
      cls := I.cls n, cuda := decide (I.kind n = .cuda), live := I.live n, deriv := I.deriv n
      copy := (s.tr n).map fun t => L.idxOf (.trans t), nid := n, reads := (operands G s n).map fun i => L.idxOf i }
  | .trans t => { cls := .trans t.dst, reads := [L.idxOf (.node t.read)] }

/-- The graph with the devices that `analyzeDevice` chooses. -/
def placed (kids : Nat → List Nat) (I : Info) (on : Nat → Int) : Gr := ⟨kids, id, fun n => analyzeDevice (I.kind n) (on n)⟩

/-- The list with transports. -/
def items (G : Gr) (ns : List Nat) : List Item := (insert G St.init ns).2

/-- The program. -/
def program (G : Gr) (I : Info) (ns : List Nat) : DProg := (items G ns).map (entry G I (insert G St.init ns).1 (items G ns))

/-- The operations of the entries; a transport copies. -/
def action {V : Type} (L : List Item) (f : Nat → List (Option V) → Option V) (i : Nat) (args : List (Option V)) : Option V :=
  match L[i]? with
  | some (.node n) => f n args
  | some (.trans _) => args.headD none
  | none => none

/-- The nodes are as the package makes them: statements are no operands, an operation overwrites one of its operands, there are no let
statements, inputs and constants have no children and run on the host, statements too, no operation runs with OpenCL, and nodes are younger
than their children. -/
structure Proper (kids : Nat → List Nat) (I : Info) : Prop where
  stmt : ∀ n, ∀ c ∈ kids n, I.cls c ≠ .stmt
  ow : ∀ n j l e, I.cls n = .ptr (some j) l e → j < (kids n).length ∧ l ≠ 1
  live : ∀ n, I.live n = true → kids n = []
  younger : ∀ n, ∀ c ∈ kids n, c < n
  noTrans : ∀ n d, I.cls n ≠ .trans d
  host : ∀ n, I.cls n = .arg ∨ I.cls n = .stmt → I.kind n = .host
  noCl : ∀ n, I.kind n ≠ .cl

/-! ### Order of the list -/

/-- What an item reads is among those seen. -/
def Finds (live : Nat → Prop) (ops : Nat → List Item) (seen : List Item) : Item → Prop
  | .node n => live n → ∀ x ∈ ops n, x ∈ seen
  | .trans t => .node t.read ∈ seen

theorem ready_take (live : Nat → Prop) (ops : Nat → List Item) (l seen : List Item) (h : Ready live ops seen l) (k : Nat) (i : Item)
    (hk : l[k]? = some i) : Finds live ops (seen ++ l.take k) i := by
  induction l generalizing seen k with
  | nil => simp at hk
  | cons j l ih =>
    cases k with
    | zero =>
      simp only [List.getElem?_cons_zero, Option.some.injEq] at hk
      rw [← hk]
      cases j with
      | node n => simpa [Finds] using h.1
      | trans t => simpa [Finds] using h.1
    | succ k =>
      rw [List.getElem?_cons_succ] at hk
      cases j with
      | node n =>
        have := ih (seen ++ [.node n]) h.2 k hk
        simpa using this
      | trans t =>
        have := ih (seen ++ [.trans t]) h.2 k hk
        simpa using this

theorem mem_nodesOf (l : List Item) (n : Nat) : n ∈ nodesOf l ↔ .node n ∈ l := by
  rw [nodesOf, List.mem_filterMap]
  constructor
  · rintro ⟨i, hi, h⟩
    cases i with
    | node m => simp only [Option.some.injEq] at h; rw [← h]; exact hi
    | trans t => simp at h
  · exact fun h => ⟨.node n, h, rfl⟩

theorem mem_transOf (l : List Item) (t : Tr) : t ∈ transOf l ↔ .trans t ∈ l := by
  rw [transOf, List.mem_filterMap]
  constructor
  · rintro ⟨i, hi, h⟩
    cases i with
    | node m => simp at h
    | trans u => simp only [Option.some.injEq] at h; rw [← h]; exact hi
  · exact fun h => ⟨.trans t, h, rfl⟩

theorem nodup_items (l : List Item) (h1 : (nodesOf l).Nodup) (h2 : (transOf l).Nodup) : l.Nodup := by
  induction l with
  | nil => exact List.nodup_nil
  | cons i l ih =>
    cases i with
    | node n =>
      have e1 : nodesOf (.node n :: l) = n :: nodesOf l := rfl
      have e2 : transOf (.node n :: l) = transOf l := rfl
      rw [e1, List.nodup_cons] at h1
      rw [e2] at h2
      exact List.nodup_cons.2 ⟨fun k => h1.1 ((mem_nodesOf l n).2 k), ih h1.2 h2⟩
    | trans t =>
      have e1 : nodesOf (.trans t :: l) = nodesOf l := rfl
      have e2 : transOf (.trans t :: l) = t :: transOf l := rfl
      rw [e1] at h1
      rw [e2, List.nodup_cons] at h2
      exact List.nodup_cons.2 ⟨fun k => h2.1 ((mem_transOf l t).2 k), ih h1 h2.2⟩

theorem sorted_nodup (G : Gr) (before ns : List Nat) (h : Sorted G before ns) : ns.Nodup ∧ ∀ n ∈ ns, n ∉ before := by
  induction ns generalizing before with
  | nil => exact ⟨List.nodup_nil, by simp⟩
  | cons n ns ih =>
    obtain ⟨a, _, _, d⟩ := h
    obtain ⟨e1, e2⟩ := ih _ d
    refine ⟨List.nodup_cons.2 ⟨fun k => e2 n k (by simp), e1⟩, fun m hm => ?_⟩
    rcases List.mem_cons.1 hm with rfl | hm
    · exact a
    · exact fun k => e2 m hm (List.mem_append_left _ k)

theorem items_nodup (G : Gr) (ns : List Nat) (hs : Sorted G [] ns) : (items G ns).Nodup := by
  refine nodup_items _ ?_ (List.Nodup.of_map _ (insert_once G St.init ns (init_good G)).1)
  rw [items, insert_nodes]
  exact (sorted_nodup G [] ns hs).1

theorem idxOf_lt_take {α : Type} [DecidableEq α] (l : List α) (x : α) (k : Nat) (h : x ∈ l.take k) : l.idxOf x < k := by
  have hl : l.idxOf x = (l.take k).idxOf x := by
    conv_lhs => rw [← List.take_append_drop k l]
    exact List.idxOf_append_of_mem h
  rw [hl]
  exact lt_of_lt_of_le (List.idxOf_lt_length_of_mem h) (List.length_take_le _ _)

/-! ### The whole -/

section
variable (kids : Nat → List Nat) (I : Info) (on : Nat → Int) (ns : List Nat)

theorem program_at (G : Gr) (i : Nat) (x : Item) (h : (items G ns)[i]? = some x) :
    (program G I ns).at i = entry G I (insert G St.init ns).1 (items G ns) x := by
  rw [DProg.at, List.getD_eq_getElem?_getD, program, List.getElem?_map, h]
  rfl

theorem program_none (G : Gr) (i : Nat) (h : (items G ns)[i]? = none) : (program G I ns).at i = { cls := .stmt } := by
  rw [DProg.at, List.getD_eq_getElem?_getD, program, List.getElem?_map, h]
  rfl

theorem getElem_idxOf {α : Type} [DecidableEq α] (l : List α) (x : α) (h : x ∈ l) : l[l.idxOf x]? = some x := by
  rw [List.getElem?_eq_getElem (List.idxOf_lt_length_of_mem h), List.getElem_idxOf]

/-- What an entry reads is before it. -/
theorem reads_before (hs : Sorted (placed kids I on) [] ns) (i c : Nat) (hc : c ∈ ((program (placed kids I on) I ns).at i).reads) :
    c < i ∧ ∃ x, (items (placed kids I on) ns)[c]? = some x := by
  cases hx : (items (placed kids I on) ns)[i]? with
  | none => rw [program_none I ns _ i hx] at hc; simp at hc
  | some x =>
    rw [program_at I ns _ i x hx] at hc
    have hr := ready_take _ _ _ _ (insert_ready _ ns hs) i x hx
    cases x with
    | node n =>
      obtain ⟨y, hy, rfl⟩ := List.mem_map.1 hc
      have := hr rfl y hy
      rw [List.nil_append] at this
      exact ⟨idxOf_lt_take _ _ _ this, y, getElem_idxOf _ _ (List.mem_of_mem_take this)⟩
    | trans t =>
      rw [List.mem_singleton.1 hc]
      simp only [Finds, List.nil_append] at hr
      exact ⟨idxOf_lt_take _ _ _ hr, _, getElem_idxOf _ _ (List.mem_of_mem_take hr)⟩

/-- A transport reads a child of a node. -/
theorem trans_read (G : Gr) (t : Tr) (ns' : List Nat) (s : St) (h : Good G s) (ht : .trans t ∈ (insert G s ns').2) :
    ∃ n ∈ ns', t.read ∈ (G.kids (G.repl n)).map G.repl ∧ t.dst = G.dev (G.repl n) := by
  induction ns' generalizing s with
  | nil => simp [insert] at ht
  | cons n ns' ih =>
    have e : (insert G s (n :: ns')).2 = (children G (G.repl n) s.tr).new.map .trans ++ (.node n :: (insert G (visit G s n).1 ns').2) := by
      have : (insert G s (n :: ns')).2 = (visit G s n).2 ++ (insert G (visit G s n).1 ns').2 := rfl
      rw [this]
      simp [visit]
    rw [e] at ht
    rcases List.mem_append.1 ht with k | k
    · obtain ⟨t', ht', q⟩ := List.mem_map.1 k
      obtain rfl := Item.trans.inj q
      obtain ⟨_, _, a, b, _⟩ := (children_ok G (G.repl n) s.tr h.keyed).fresh t' ht'
      exact ⟨n, by simp, a, b⟩
    · rcases List.mem_cons.1 k with k | k
      · cases k
      · obtain ⟨m, hm, q⟩ := ih _ (visit_good G s n h).1 k
        exact ⟨m, by simp [hm], q⟩

/-- A node reads as many items as it has children, each a child or a transport. -/
theorem operands_kids (n : Nat) (hn : n ∈ ns) :
    operands (placed kids I on) (insert (placed kids I on) St.init ns).1 n =
      (kids n).map (opnd (placed kids I on) (insert (placed kids I on) St.init ns).1.tr n) := by
  obtain ⟨g, _, d⟩ := insert_good (placed kids I on) ns _ (init_good _)
  exact (operands_eq (placed kids I on) _ n g (d n hn)).1

theorem mem_items_node (G : Gr) (n : Nat) : .node n ∈ items G ns ↔ n ∈ ns := by
  rw [← mem_nodesOf, items, insert_nodes]

theorem opnd_node (G : Gr) (tr : Nat → Option Tr) (n c m : Nat) (h : opnd G tr n c = .node m) : m = G.repl c := by
  unfold opnd at h
  split at h
  · exact (Item.node.inj h).symm
  · split at h
    · cases h
    · exact (Item.node.inj h).symm

theorem program_fit (hp : Proper kids I) (hs : Sorted (placed kids I on) [] ns) : Fit (program (placed kids I on) I ns) := by
  have hcls : ∀ i, ∀ c ∈ ((program (placed kids I on) I ns).at i).reads, ((program (placed kids I on) I ns).at c).cls ≠ .stmt := by
    intro i c hc
    obtain ⟨_, y, hy⟩ := reads_before kids I on ns hs i c hc
    rw [program_at I ns _ c y hy]
    cases y with
    | trans t => simp [entry]
    | node m =>
      cases hx : (items (placed kids I on) ns)[i]? with
      | none => rw [program_none I ns _ i hx] at hc; simp at hc
      | some x =>
        rw [program_at I ns _ i x hx] at hc
        cases x with
        | trans t =>
          obtain ⟨n, _, hr, _⟩ := trans_read (placed kids I on) t ns _ (init_good _) (List.mem_of_getElem? hx)
          have e := List.mem_singleton.1 hc
          have hmem : Item.node t.read ∈ items (placed kids I on) ns := by
            have hr := ready_take _ _ _ _ (insert_ready _ ns hs) i _ hx
            simp only [Finds, List.nil_append] at hr
            exact List.mem_of_mem_take hr
          rw [e, getElem_idxOf _ _ hmem] at hy
          have : m = t.read := by simpa using hy.symm
          have hr' : t.read ∈ kids n := by simpa [placed] using hr
          exact this ▸ hp.stmt n _ hr'
        | node n =>
          have hn : n ∈ ns := (mem_items_node ns _ n).1 (List.mem_of_getElem? hx)
          obtain ⟨z, hz, rfl⟩ := List.mem_map.1 hc
          have hmem : z ∈ items (placed kids I on) ns := by
            have hr := ready_take _ _ _ _ (insert_ready _ ns hs) i _ hx
            have := hr rfl z hz
            rw [List.nil_append] at this
            exact List.mem_of_mem_take this
          rw [getElem_idxOf _ _ hmem] at hy
          obtain rfl : z = .node m := by simpa using hy
          rw [operands_kids kids I on ns n hn] at hz
          obtain ⟨c, hc', e⟩ := List.mem_map.1 hz
          have : m = c := opnd_node _ _ _ _ _ e
          exact this ▸ hp.stmt n c hc'
  refine ⟨fun i c hc => ⟨(reads_before kids I on ns hs i c hc).1, hcls i c hc⟩, fun i j l e h => ?_, fun i h => ?_, fun i hi c hc hl => ?_⟩
  · cases hx : (items (placed kids I on) ns)[i]? with
    | none => rw [program_none I ns _ i hx] at h; simp at h
    | some x =>
      rw [program_at I ns _ i x hx] at h ⊢
      cases x with
      | trans t => simp [entry] at h
      | node n =>
        have hn : n ∈ ns := (mem_items_node ns _ n).1 (List.mem_of_getElem? hx)
        obtain ⟨a, b⟩ := hp.ow n j l e h
        refine ⟨?_, b⟩
        simp only [entry, List.length_map, operands_kids kids I on ns n hn]
        exact a
  · cases hx : (items (placed kids I on) ns)[i]? with
    | none => rw [program_none I ns _ i hx] at h ⊢
    | some x =>
      rw [program_at I ns _ i x hx] at h ⊢
      cases x with
      | trans t => simp [entry] at h
      | node n =>
        have hn : n ∈ ns := (mem_items_node ns _ n).1 (List.mem_of_getElem? hx)
        simp only [entry, operands_kids kids I on ns n hn, hp.live n h, List.map_nil]
  · cases hx : (items (placed kids I on) ns)[i]? with
    | none => rw [program_none I ns _ i hx] at hi; simp [located] at hi
    | some x =>
      rw [program_at I ns _ i x hx] at hi hc ⊢
      cases x with
      | trans t => simp [entry, located] at hi
      | node n =>
        have hn : n ∈ ns := (mem_items_node ns _ n).1 (List.mem_of_getElem? hx)
        obtain ⟨z, hz, rfl⟩ := List.mem_map.1 hc
        have hmem : z ∈ items (placed kids I on) ns := by
          have hr := ready_take _ _ _ _ (insert_ready _ ns hs) i _ hx
          have := hr rfl z hz
          rw [List.nil_append] at this
          exact List.mem_of_mem_take this
        rw [program_at I ns _ _ z (getElem_idxOf _ _ hmem)] at hl ⊢
        cases z with
        | trans t => simp [entry, located] at hl
        | node m =>
          rw [operands_kids kids I on ns n hn] at hz
          obtain ⟨c, hc', e⟩ := List.mem_map.1 hz
          have : m = c := opnd_node _ _ _ _ _ e
          exact this ▸ hp.younger n c hc'

/-- The value of a node, or of what a transport reads. -/
def valOf {V : Type} (w : Nat → Option V) : Item → Option V
  | .node n => w n
  | .trans t => w t.read

/-- The items of a node are transports of its children or these themselves. -/
theorem opnd_value {V : Type} (w : Nat → Option V) (n : Nat) (hn : n ∈ ns) (c : Nat) (hc : c ∈ kids n) :
    valOf w (opnd (placed kids I on) (insert (placed kids I on) St.init ns).1.tr n c) = w c := by
  obtain ⟨g, _, d⟩ := insert_good (placed kids I on) ns _ (init_good _)
  unfold opnd
  split
  · rfl
  · cases ht : (insert (placed kids I on) St.init ns).1.tr ((placed kids I on).repl c) with
    | none => rfl
    | some t => show w t.read = w c; rw [(g.keyed _ _ ht).1]; rfl

/-- The values of the positions: that of the node, or of the node that a transport reads. -/
def valAt {V : Type} (L : List Item) (w : Nat → Option V) (i : Nat) : Option V := (L[i]?).bind (valOf w)

theorem valAt_idxOf {V : Type} (L : List Item) (w : Nat → Option V) (x : Item) (hx : x ∈ L) : valAt L w (L.idxOf x) = valOf w x := by
  rw [valAt, getElem_idxOf _ _ hx]; rfl

theorem program_values {V : Type} (hs : Sorted (placed kids I on) [] ns) (f : Nat → List (Option V) → Option V)
    (w : Nat → Option V) (hw : ∀ n ∈ ns, w n = f n ((kids n).map w)) :
    Values (program (placed kids I on) I ns) (action (items (placed kids I on) ns) f) (valAt (items (placed kids I on) ns) w) := by
  intro i hi
  have hi' : i < (items (placed kids I on) ns).length := by simpa [program] using hi
  obtain ⟨x, hx⟩ : ∃ x, (items (placed kids I on) ns)[i]? = some x := ⟨_, List.getElem?_eq_getElem hi'⟩
  rw [program_at I ns _ i x hx, action, hx]
  have hr := ready_take _ _ _ _ (insert_ready _ ns hs) i _ hx
  cases x with
  | node m =>
    have hm : m ∈ ns := (mem_items_node ns _ m).1 (List.mem_of_getElem? hx)
    simp only [entry]
    rw [operands_kids kids I on ns m hm, List.map_map, List.map_map]
    have e : valAt (items (placed kids I on) ns) w i = w m := by rw [valAt, hx]; rfl
    rw [e, hw m hm]
    congr 1
    refine List.map_congr_left fun c hc => ?_
    have hz : opnd (placed kids I on) (insert (placed kids I on) St.init ns).1.tr m c ∈ items (placed kids I on) ns := by
      have := hr rfl _ (by rw [operands_kids kids I on ns m hm]; exact List.mem_map.2 ⟨c, hc, rfl⟩)
      rw [List.nil_append] at this
      exact List.mem_of_mem_take this
    simp only [Function.comp]
    rw [valAt_idxOf _ _ _ hz]
    exact (opnd_value kids I on ns w m hm c hc).symm
  | trans t =>
    simp only [entry, List.map_cons, List.map_nil, List.headD_cons]
    have hz : Item.node t.read ∈ items (placed kids I on) ns := by
      simp only [Finds, List.nil_append] at hr
      exact List.mem_of_mem_take hr
    rw [valAt_idxOf _ _ _ hz, valAt, hx]
    rfl

/-- The program compiled for the host and a device computes for every node the value that the graph gives it. -/
theorem device_values {V : Type} (hp : Proper kids I) (hs : Sorted (placed kids I on) [] ns) (f : Nat → List (Option V) → Option V)
    (w : Nat → Option V) (hw : ∀ n ∈ ns, w n = f n ((kids n).map w)) (mem : Reg → Option V) (n : Nat) (hn : n ∈ ns) :
    computed (program (placed kids I on) I ns) (action (items (placed kids I on) ns) f) mem ((items (placed kids I on) ns).idxOf (.node n)) =
      w n := by
  have hmem : Item.node n ∈ items (placed kids I on) ns := (mem_items_node ns _ n).2 hn
  rw [computed_eq _ (program_fit kids I on ns hp hs) _ _ (program_values kids I on ns hs f w hw) mem _
    (by simpa [program] using List.idxOf_lt_length_of_mem hmem), valAt_idxOf _ _ _ hmem, valOf]

/-- Where the items are. -/
def place (L : List Item) (G : Gr) (i : Nat) : Int := match L[i]? with
  | some x => x.on G
  | none => -1

/-- Every node reads registers of the device on which it runs and writes a register of that device. -/
theorem device_local (hp : Proper kids I) (hs : Sorted (placed kids I on) [] ns) (hon : ∀ n, on n = CPU ∨ on n = 0) (n : Nat) (hn : n ∈ ns) :
    (∀ c ∈ ((program (placed kids I on) I ns).at ((items (placed kids I on) ns).idxOf (.node n))).reads,
      ((program (placed kids I on) I ns).reg c).dev = if I.kind n = .cuda then 0 else -1) ∧
    (I.cls n ≠ .stmt → ((program (placed kids I on) I ns).reg ((items (placed kids I on) ns).idxOf (.node n))).dev =
      if I.kind n = .cuda then 0 else -1) := by
  have hdev : ∀ m, (placed kids I on).dev m = if I.kind m = .cuda then 0 else -1 := by
    intro m
    show analyzeDevice (I.kind m) (on m) = _
    have := hp.noCl m
    rcases hon m with h | h <;> cases hk : I.kind m <;> simp_all [analyzeDevice, CPU]
  have hF := program_fit kids I on ns hp hs
  have h2 : ∀ m, (placed kids I on).dev m = 0 ∨ (placed kids I on).dev m = -1 := by intro m; rw [hdev]; split <;> simp
  have hreads : ∀ i m, (items (placed kids I on) ns)[i]? = some (.node m) → ∀ c ∈ ((program (placed kids I on) I ns).at i).reads,
      place (items (placed kids I on) ns) (placed kids I on) c = (placed kids I on).dev m := by
    intro i m hx c hc
    have hm : m ∈ ns := (mem_items_node ns _ m).1 (List.mem_of_getElem? hx)
    rw [program_at I ns _ i _ hx] at hc
    obtain ⟨z, hz, rfl⟩ := List.mem_map.1 hc
    have hmem : z ∈ items (placed kids I on) ns := by
      have hr := ready_take _ _ _ _ (insert_ready _ ns hs) i _ hx
      have := hr rfl z hz
      rw [List.nil_append] at this
      exact List.mem_of_mem_take this
    rw [place, getElem_idxOf _ _ hmem]
    exact insert_local (placed kids I on) ns 0 (-1) h2 m hm rfl z hz
  have hP : Placed (program (placed kids I on) I ns) (place (items (placed kids I on) ns) (placed kids I on)) := by
    have hnode : ∀ i, (program (placed kids I on) I ns).at i = { cls := .stmt } ∨
        ∃ x, (items (placed kids I on) ns)[i]? = some x ∧
          (program (placed kids I on) I ns).at i = entry (placed kids I on) I (insert (placed kids I on) St.init ns).1 (items (placed kids I on) ns) x := by
      intro i
      cases hx : (items (placed kids I on) ns)[i]? with
      | none => exact .inl (program_none I ns _ i hx)
      | some x => exact .inr ⟨x, rfl, program_at I ns _ i x hx⟩
    have hhome : ∀ m, home (decide (I.kind m = .cuda)) = (placed kids I on).dev m := by
      intro m; rw [hdev, home]; by_cases h : I.kind m = .cuda <;> simp [h]
    refine ⟨fun i h => ?_, fun i d h => ?_, fun i h => ?_, fun i o l e h => ?_⟩
    · rcases hnode i with k | ⟨x, hx, k⟩
      · rw [k] at h; simp at h
      · rw [k] at h
        cases x with
        | trans t => simp [entry] at h
        | node m =>
          simp only [entry] at h
          rw [place, hx]
          show (placed kids I on).dev m = -1
          rw [hdev, hp.host m (.inl h)]; simp
    · rcases hnode i with k | ⟨x, hx, k⟩
      · rw [k] at h; simp at h
      · rw [k] at h
        cases x with
        | trans t =>
          simp only [entry, Cls.trans.injEq] at h
          rw [place, hx]; exact h
        | node m => exact absurd h (hp.noTrans m d)
    · rcases hnode i with k | ⟨x, hx, k⟩
      · rw [k] at h; simp at h
      · rw [k] at h ⊢
        cases x with
        | trans t => simp [entry] at h
        | node m => rw [place, hx]; exact (hhome m).symm
    · rcases hnode i with k | ⟨x, hx, k⟩
      · rw [k] at h; simp at h
      · have k' := k
        rw [k] at h
        cases x with
        | trans t => simp [entry] at h
        | node m =>
          have e : place (items (placed kids I on) ns) (placed kids I on) i = (placed kids I on).dev m := by rw [place, hx]; rfl
          rw [e]
          refine ⟨by rw [k']; exact (hhome m).symm, hreads i m hx⟩
  have hmem : Item.node n ∈ items (placed kids I on) ns := (mem_items_node ns _ n).2 hn
  have hx := getElem_idxOf _ _ hmem
  have hlt : (items (placed kids I on) ns).idxOf (.node n) < (program (placed kids I on) I ns).length := by
    simpa [program] using List.idxOf_lt_length_of_mem hmem
  rw [← hdev]
  refine ⟨fun c hc => ?_, fun h => ?_⟩
  · obtain ⟨b1, b2⟩ := hF.before _ c hc
    rw [reg_dev _ hF _ hP c (by omega) b2]
    exact hreads _ n hx c hc
  · rw [reg_dev _ hF _ hP _ hlt (by rw [program_at I ns _ _ _ hx]; exact h), place, hx]
    rfl

end

/-! ### Examples -/

/-- Two inputs; the product of them, on the device; a host operation of an input and the product; a second device operation that overwrites
its second operand; and a statement that reads its result. -/
def exKids (n : Nat) : List Nat := match n with
  | 2 => [0, 1]
  | 3 => [2, 0]
  | 4 => [0, 2]
  | 5 => [4]
  | _ => []

def exInfo : Info where
  cls n := match n with
    | 0 | 1 => .arg
    | 2 => .ptr none 0 false
    | 3 => .imm
    | 4 => .ptr (some 1) 0 false
    | _ => .stmt
  kind n := if n = 2 ∨ n = 4 then .cuda else .host
  live n := decide (n < 2)
  deriv _ := false

def exP : DProg := program (placed exKids exInfo fun _ => CPU) exInfo [0, 1, 2, 3, 4, 5]

/-- Node 4 gets the register of node 2, whose copy on the host was read before. -/
example : (List.range exP.length).map exP.reg =
    [⟨0, -1⟩, ⟨1, -1⟩, ⟨0, 0⟩, ⟨1, 0⟩, ⟨2, 0⟩, ⟨2, -1⟩, ⟨3, -1⟩, ⟨2, 0⟩, ⟨4, -1⟩, Reg.zero] := by decide +kernel

/-- The register is freed behind the transport of the result to the host; the registers of the transports of the inputs are not freed. -/
example : (frees exP).out = [(8, ⟨2, 0⟩)] := by decide +kernel

example : let f : Nat → List (Option Nat) → Option Nat := fun n l => match n with
      | 0 => some 5
      | 1 => some 7
      | _ => l.foldl (fun a x => do pure ((← a) + (← x))) (some 0)
    computed exP (action (items (placed exKids exInfo fun _ => CPU) [0, 1, 2, 3, 4, 5]) f) (fun _ => none) 7 = some 17 := by decide +kernel

/-! ### A deviation -/

/-- An input, a host operation and a statement that reads its result: nothing runs on a device. -/
def hostP : DProg := [{ cls := .arg, live := true }, { cls := .ptr none 0 false, reads := [0], nid := 1 }, { cls := .stmt, reads := [1], nid := 2 }]

/-- In the CUDA build the program ends with the instruction that frees register 0 of device 0, although there is no such register: the
statement is not in `locMap`, and the register found there for it is the zero one. `free.exec` then indexes an empty slice
(vm_tape.go 646). -/
theorem host_program_frees_device_register : Reg.zero ∈ lastFrees hostP ∧ (allocated hostP).gpu = 0 ∧ Fit hostP := by
  refine ⟨by decide +kernel, by decide +kernel, ?_⟩
  have hat : ∀ i, 3 ≤ i → hostP.at i = { cls := .stmt } := fun i h => at_ge hostP i h
  have hc : ∀ i, i = 0 ∨ i = 1 ∨ i = 2 ∨ 3 ≤ i := by intro i; omega
  refine ⟨fun i c h => ?_, fun i j l e h => ?_, fun i h => ?_, fun i h c hcc hl => ?_⟩ <;>
    rcases hc i with rfl | rfl | rfl | h3
  all_goals first
    | (rw [hat i h3] at *; simp_all [located])
    | (simp_all [hostP, DProg.at, located])

end Verif.Device
