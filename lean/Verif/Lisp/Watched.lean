import Mathlib.Data.List.Basic
/-!
What the define-by-run machine writes to its logger (C142): `watchedLogf` and the calls of it and of `logf` in a run
(`/repo/vm_genera.go`). Modelled: the first run of a machine (`RunAll`) in which nothing fails, on one device. Not modelled: the text
of the lines, the line about the roots (230), the lines of `UnbindAll`, and the output of debug builds that does not go through
`watchedLogf`.
-/
set_option autoImplicit false
namespace Verif.Lisp.Watched

/-! ### Model -/

/-- What the log depends on of a node: its identity, whether it is a statement, an input or a random node, the number of its
children, whether it is a root, whether something was bound to it before, and whether its operation can be differentiated. -/
structure Node where
  id : Nat
  stmt : Bool
  source : Bool
  children : List Nat
  root : Bool
  bound : Bool
  ad : Bool
deriving DecidableEq

/-- `adInstr`, vm_genera.go 657-664: output and inputs. -/
structure Instr where
  output : Nat
  inputs : List Nat
deriving DecidableEq

/-- The options: is there a logger, what is watched, the flags `LogFwd`, `LogBwd` and `watchAll` (76-98), whether
backpropagation is run, and whether this is a debug build (debug.go 16, release.go 6). -/
structure Cfg where
  logger : Bool
  watch : List Nat
  all : Bool
  logFwd : Bool
  logBwd : Bool
  runBwd : Bool
  debug : Bool

/-- The second half of `watchedLogf`, vm_genera.go 578-598. `none`: the index is out of range. -/
def backwards (c : Cfg) (q : List Instr) (bwd : Int) : Option Bool :=
  if !c.logBwd && !c.debug then some false
  else if bwd ≥ 0 then
    match q[bwd.toNat]? with
    | none => none
    | some i => some ((c.watch.contains i.output || i.inputs.any c.watch.contains) || c.all || c.debug)
  else some false

/-- `watchedLogf`, vm_genera.go 565-599: is the line handed on to `logf`? -/
def watchedLog (c : Cfg) (sorted : List Node) (q : List Instr) (fwd bwd : Int) : Option Bool :=
  if !c.logFwd && !c.debug then backwards c q bwd
  else if fwd ≥ 0 ∧ fwd < sorted.length then
    match sorted[fwd.toNat]? with
    | none => none
    | some n => some (c.watch.contains n.id || c.all)
  else backwards c q bwd

/-- How a line is written: by `watchedLogf` or by `logf`. -/
inductive Line
  | watched | plain
deriving DecidableEq

/-- The line between "Before" and "After" (vm_genera.go 389-486). -/
def branch (n : Node) : List Line :=
  if n.root && !n.stmt then [.plain]      -- dvBindVar or dvBindVar0
  else if n.stmt then []
  else if !n.bound then [.watched]        -- "Fresh, unencountered node"
  else [.plain]                           -- "bind with as much reuse as possible"

/-- The lines of `forward`, vm_genera.go 296-510, in order. -/
def linesF (n : Node) : List Line :=
  if !n.stmt && n.source then [.watched]
  else [.watched] ++ (if n.stmt then [] else [.watched]) ++ [.plain] ++ n.children.map (fun _ => .plain) ++
    [.watched, .watched] ++ branch n ++ [.watched, .watched] ++ [.watched]

/-- The lines of `backward`, vm_genera.go 521-548. -/
def linesB (i : Instr) : List Line :=
  [.watched, .watched] ++ i.inputs.map (fun _ => .watched) ++ [.watched] ++ i.inputs.map (fun _ => .watched)

/-- The number of lines that reach the logger (`logf`, vm_genera.go 601-624, writes if there is one). -/
def emit (ans : Option Bool) (logger : Bool) : List Line → Option Nat
  | [] => some 0
  | l :: r => (match l with | .watched => ans | .plain => some true).bind fun b =>
      (emit ans logger r).map fun k => k + if b && logger then 1 else 0

/-- What a node adds to the queue (vm_genera.go 491-500). -/
def queued (c : Cfg) (n : Node) : List Instr :=
  if !n.stmt && n.source then [] else if n.ad && c.runBwd then [⟨n.id, n.children⟩] else []

/-- The loop over the nodes (vm_genera.go 266-268): queue afterwards, and lines written for each node. The last line of a node
is written when the queue has been extended; `bwd` is the same all the time. -/
def loopF (c : Cfg) (sorted : List Node) (bwd : Int) : Nat → List Node → List Instr → Option (List Instr × List Nat)
  | _, [], q => some (q, [])
  | i, n :: r, q =>
    (emit (watchedLog c sorted q i bwd) c.logger (linesF n).dropLast).bind fun k =>
      (emit (watchedLog c sorted (q ++ queued c n) i bwd) c.logger ((linesF n).getLast?.toList)).bind fun k' =>
        (loopF c sorted bwd (i + 1) r (q ++ queued c n)).map fun p => (p.1, (k + k') :: p.2)

/-- The loop over the queue (vm_genera.go 287-289), the last instruction first. `none`: the index is out of range. -/
def loopB (c : Cfg) (sorted : List Node) (q : List Instr) : Nat → Option (List Nat)
  | 0 => some []
  | k + 1 =>
    match q[k]? with
    | none => none
    | some i => (emit (watchedLog c sorted q sorted.length k) c.logger (linesB i)).bind fun m =>
        (loopB c sorted q k).map (m :: ·)

/-- The first `RunAll` (vm_genera.go 259-294; the counters are set by `NewLispMachine`, 48-50, and `prepGraph`, 247-257): lines written
for each node, and for each instruction of the queue. -/
def run (c : Cfg) (sorted : List Node) : Option (List Nat × List Nat) :=
  (loopF c sorted (-1) 0 sorted []).bind fun p =>
    if c.runBwd then (loopB c sorted p.1 p.1.length).map fun b => (p.2, b) else some (p.2, [])

/-! ### Theorems -/

/-- How many lines of each kind. -/
def plains (l : List Line) : Nat := l.count .plain
def watcheds (l : List Line) : Nat := l.count .watched

theorem emit_eq (b logger : Bool) (l : List Line) :
    emit (some b) logger l = some (if logger then plains l + (if b then watcheds l else 0) else 0) := by
  induction l with
  | nil => cases b <;> cases logger <;> rfl
  | cons a r ih =>
    unfold emit
    rw [ih]
    cases a <;> cases b <;> cases logger <;> simp [plains, watcheds] <;> omega

theorem last_split (l : List Line) : plains l.dropLast + plains l.getLast?.toList = plains l ∧
    watcheds l.dropLast + watcheds l.getLast?.toList = watcheds l := by
  have h : l.dropLast ++ l.getLast?.toList = l := by
    cases hl : l.getLast? with
    | none => rw [List.getLast?_eq_none_iff] at hl; subst hl; rfl
    | some a => exact List.dropLast_append_getLast? a hl
  constructor
  · unfold plains; rw [← List.count_append, h]
  · unfold watcheds; rw [← List.count_append, h]

/-- The number of lines for a node, as it is to be read off the options. -/
def countF (c : Cfg) (n : Node) : Nat :=
  if c.logger then plains (linesF n) + (if (c.logFwd || c.debug) && (c.watch.contains n.id || c.all) then watcheds (linesF n) else 0)
  else 0

theorem watched_fwd (c : Cfg) (sorted : List Node) (q : List Instr) (i : Nat) (n : Node) (h : sorted[i]? = some n) :
    watchedLog c sorted q i (-1) = some ((c.logFwd || c.debug) && (c.watch.contains n.id || c.all)) := by
  have hlt : i < sorted.length := by
    by_contra hc
    rw [List.getElem?_eq_none (by omega)] at h; cases h
  unfold watchedLog backwards
  rw [Int.toNat_natCast, h, if_pos (show (i : Int) ≥ 0 ∧ (i : Int) < sorted.length from ⟨by omega, by omega⟩)]
  obtain ⟨_, _, _, lf, lb, _, db⟩ := c
  cases lf <;> cases lb <;> cases db <;> simp

theorem loopF_eq (c : Cfg) (sorted : List Node) (r : List Node) (i : Nat) (q : List Instr) (h : sorted.drop i = r) :
    loopF c sorted (-1) i r q = some (q ++ r.flatMap (queued c), r.map (countF c)) := by
  induction r generalizing i q with
  | nil => simp [loopF]
  | cons n r ih =>
    have hn : sorted[i]? = some n := by rw [← List.head?_drop, h]; rfl
    have hr : sorted.drop (i + 1) = r := by rw [← List.tail_drop, h]; rfl
    unfold loopF
    rw [watched_fwd c sorted _ i n hn, watched_fwd c sorted _ i n hn, emit_eq, emit_eq, ih (i + 1) _ hr]
    obtain ⟨h1, h2⟩ := last_split (linesF n)
    simp only [Option.bind_some, Option.map_some, List.flatMap_cons, List.append_assoc, List.map_cons, Option.some.injEq,
      Prod.mk.injEq, List.cons.injEq, and_true, true_and]
    unfold countF
    split
    · split <;> omega
    · rfl

/-- The number of lines for an instruction of the queue. -/
def countB (c : Cfg) (i : Instr) : Nat :=
  if c.logger then if (c.logBwd && ((c.watch.contains i.output || i.inputs.any c.watch.contains) || c.all)) || c.debug then
    watcheds (linesB i) else 0
  else 0

theorem plains_linesB (i : Instr) : plains (linesB i) = 0 := by
  unfold plains linesB
  simp [List.count_eq_zero]

theorem watched_bwd (c : Cfg) (sorted : List Node) (q : List Instr) (k : Nat) (i : Instr) (h : q[k]? = some i) :
    watchedLog c sorted q sorted.length k =
      some ((c.logBwd && ((c.watch.contains i.output || i.inputs.any c.watch.contains) || c.all)) || c.debug) := by
  unfold watchedLog backwards
  rw [Int.toNat_natCast, h, if_pos (show (k : Int) ≥ 0 by omega),
    if_neg (show ¬ ((sorted.length : Int) ≥ 0 ∧ (sorted.length : Int) < sorted.length) by omega)]
  obtain ⟨_, w, a, lf, lb, _, db⟩ := c
  cases lf <;> cases lb <;> cases db <;> simp

theorem loopB_eq (c : Cfg) (sorted : List Node) (q : List Instr) (k : Nat) (hk : k ≤ q.length) :
    loopB c sorted q k = some ((q.take k).reverse.map (countB c)) := by
  induction k with
  | zero => simp [loopB]
  | succ k ih =>
    have hq : q[k]? = some q[k] := List.getElem?_eq_getElem (by omega)
    unfold loopB
    rw [hq]
    simp only
    rw [watched_bwd c sorted q k _ hq, emit_eq, plains_linesB, ih (by omega), List.take_add_one, hq]
    simp only [Option.bind_some, Option.map_some, Option.toList_some, List.reverse_append, List.reverse_singleton,
      List.singleton_append, List.map_cons, Nat.zero_add]
    rfl

/-- **C142.** Logging never stops a run, and exactly this is written: for every node in the order of execution the lines that do
not ask and, if wanted, those that ask; for the instructions, in reverse order, the lines that ask. -/
theorem run_eq (c : Cfg) (sorted : List Node) : run c sorted = some (sorted.map (countF c),
    if c.runBwd then (sorted.flatMap (queued c)).reverse.map (countB c) else []) := by
  unfold run
  rw [loopF_eq c sorted sorted 0 [] rfl]
  simp only [List.nil_append, Option.bind_some]
  by_cases h : c.runBwd = true
  · rw [if_pos h, if_pos h, loopB_eq c sorted _ _ (Nat.le_refl _), List.take_length]; rfl
  · rw [if_neg h, if_neg h]

/-- What has to be differentiated: the nodes that execute an operation that can be, the last one first. -/
def differentiated (sorted : List Node) : List Node :=
  (sorted.filter fun n => n.ad && (n.stmt || !n.source)).reverse

theorem queue_eq (c : Cfg) (sorted : List Node) (hb : c.runBwd = true) :
    (sorted.flatMap (queued c)).reverse = (differentiated sorted).map fun n => ⟨n.id, n.children⟩ := by
  unfold differentiated
  rw [List.map_reverse]
  congr 1
  induction sorted with
  | nil => rfl
  | cons n r ih =>
    rw [List.flatMap_cons, ih, List.filter_cons]
    unfold queued
    rw [hb]
    cases n.stmt <;> cases n.source <;> cases n.ad <;> simp

/-- Every execution and every differentiation has a line that asks. -/
theorem asks (n : Node) (i : Instr) : 0 < watcheds (linesF n) ∧ 0 < watcheds (linesB i) := by
  constructor
  · unfold watcheds linesF
    split <;> simp
  · unfold watcheds linesB
    simp

/-- **C142 (backpropagation).** In a release build something is written about a differentiation exactly if there is a logger,
`LogBwd` was given, and the output or an input is watched or everything is. -/
theorem backward_logged_iff (c : Cfg) (sorted : List Node) (fs bs : List Nat) (h : run c sorted = some (fs, bs)) (hb : c.runBwd = true)
    (hd : c.debug = false) : bs.length = (differentiated sorted).length ∧ ∀ (k : Nat) (n : Node), (differentiated sorted)[k]? = some n →
    ∃ m, bs[k]? = some m ∧ (0 < m ↔ c.logger = true ∧ c.logBwd = true ∧
      (c.all = true ∨ n.id ∈ c.watch ∨ ∃ x ∈ n.children, x ∈ c.watch)) := by
  rw [run_eq, if_pos hb] at h
  injection h with h
  injection h with _ h
  rw [queue_eq c sorted hb] at h
  subst h
  refine ⟨by simp, fun k n hn => ?_⟩
  generalize hi : (⟨n.id, n.children⟩ : Instr) = i
  have ho : n.id = i.output := by rw [← hi]
  have hc : n.children = i.inputs := by rw [← hi]
  rw [ho, hc]
  refine ⟨countB c i, by rw [List.getElem?_map, List.getElem?_map, hn, ← hi]; rfl, ?_⟩
  clear hn hi ho hc
  unfold countB
  have ha := (asks ⟨0, false, false, [], false, false, false⟩ i).2
  by_cases hl : c.logger = true
  · rw [if_pos hl]
    split
    · rename_i hc
      refine ⟨fun _ => ⟨hl, ?_⟩, fun _ => ha⟩
      simp only [hd, Bool.or_false, Bool.and_eq_true, Bool.or_eq_true, List.contains_iff_mem, List.any_eq_true] at hc
      refine ⟨hc.1, ?_⟩
      rcases hc.2 with (h | h) | h
      · exact Or.inr (Or.inl h)
      · exact Or.inr (Or.inr h)
      · exact Or.inl h
    · rename_i hc
      refine ⟨fun h => absurd h (Nat.lt_irrefl 0), fun h => absurd ?_ hc⟩
      simp only [hd, Bool.or_false, Bool.and_eq_true, Bool.or_eq_true, List.contains_iff_mem, List.any_eq_true]
      refine ⟨h.2.1, ?_⟩
      rcases h.2.2 with h | h | h
      · exact Or.inr h
      · exact Or.inl (Or.inl h)
      · exact Or.inl (Or.inr h)
  · rw [if_neg hl]
    exact ⟨fun h => absurd h (Nat.lt_irrefl 0), fun h => absurd h.1 hl⟩

/-- **C142 (execution, inputs and random nodes).** In a release build something is written about an input or a random node exactly
if there is a logger, `LogFwd` was given, and the node or everything is watched. -/
theorem source_logged_iff (c : Cfg) (sorted : List Node) (fs bs : List Nat) (h : run c sorted = some (fs, bs)) (hd : c.debug = false)
    (k : Nat) (n : Node) (hn : sorted[k]? = some n) (hs : n.source = true) (ht : n.stmt = false) :
    ∃ m, fs[k]? = some m ∧ (0 < m ↔ c.logger = true ∧ c.logFwd = true ∧ (c.all = true ∨ n.id ∈ c.watch)) := by
  rw [run_eq] at h
  injection h with h
  injection h with h _
  subst h
  refine ⟨countF c n, by rw [List.getElem?_map, hn]; rfl, ?_⟩
  have hl : linesF n = [.watched] := by unfold linesF; rw [hs, ht]; rfl
  unfold countF
  rw [hl, hd]
  cases c.logger <;> cases c.logFwd <;> simp [plains, watcheds, or_comm]
  split <;> simp_all

/-- **C142, refuted.** With a logger, something is written about every node that executes an operation, whatever is watched and
even if no direction was asked for: a line that announces the operation and one for each child. -/
theorem unwatched_logged (c : Cfg) (sorted : List Node) (fs bs : List Nat) (h : run c sorted = some (fs, bs))
    (hl : c.logger = true) (k : Nat) (n : Node) (hn : sorted[k]? = some n) (hs : n.stmt = true ∨ n.source = false) :
    ∃ m, fs[k]? = some m ∧ 1 + n.children.length ≤ m := by
  rw [run_eq] at h
  injection h with h
  injection h with h _
  subst h
  refine ⟨countF c n, by rw [List.getElem?_map, hn]; rfl, ?_⟩
  have hp : 1 + n.children.length ≤ plains (linesF n) := by
    unfold linesF
    rw [if_neg (by rcases hs with h | h <;> simp [h])]
    unfold plains
    have : (n.children.map (fun _ => Line.plain)).count .plain = n.children.length := by
      rw [List.map_const', List.count_replicate_self]
    simp only [List.count_append, this]
    simp only [List.count_cons_self, List.count_nil]
    omega
  unfold countF
  rw [if_pos hl]
  omega

/-- **C142.** Of two configurations that differ only in what is watched and in the flags of the log, the one in which `LogFwd` is
given and the node watched writes more about the node. -/
theorem watched_more (c : Cfg) (n : Node) (hl : c.logger = true) (hd : c.debug = false) (hf : c.logFwd = true) (hw : n.id ∈ c.watch) :
    countF { c with logFwd := false } n < countF c n ∧ countF { c with watch := [], all := false } n < countF c n := by
  have ha := (asks n ⟨0, []⟩).1
  unfold countF
  simp [hl, hd, hf, hw, ha]

/-- **C142.** Without a logger nothing is written. -/
theorem silent (c : Cfg) (sorted : List Node) (fs bs : List Nat) (h : run c sorted = some (fs, bs)) (hl : c.logger = false) :
    (∀ m ∈ fs, m = 0) ∧ ∀ m ∈ bs, m = 0 := by
  rw [run_eq] at h
  injection h with h
  injection h with h h'
  subst h; subst h'
  constructor
  · intro m hm
    obtain ⟨n, _, rfl⟩ := List.mem_map.1 hm
    simp [countF, hl]
  · intro m hm
    split at hm
    · obtain ⟨n, _, rfl⟩ := List.mem_map.1 hm
      simp [countB, hl]
    · simp at hm

/-! ### Examples -/

/-- `z = x * y`. -/
private def g : List Node := [⟨0, false, true, [], false, true, false⟩, ⟨1, false, true, [], false, true, false⟩,
  ⟨2, false, false, [0, 1], true, false, true⟩]

/-- Watching `x` in both directions: one line when it is bound, the lines that do not ask about `z`, and the differentiation. -/
example : run ⟨true, [0], false, true, true, true, false⟩ g = some ([1, 0, 4], [7]) := by decide +kernel

/-- Only backwards: the forward pass writes nothing about the inputs. -/
example : run ⟨true, [0], false, false, true, true, false⟩ g = some ([0, 0, 4], [7]) := by decide +kernel

/-- Nothing was asked for. -/
example : run ⟨true, [], false, false, false, true, false⟩ g = some ([0, 0, 4], [0]) := by decide +kernel

end Verif.Lisp.Watched
