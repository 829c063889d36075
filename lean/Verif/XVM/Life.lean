import Verif.XVM.Theorems
/-!
The goroutine-per-node machine over its lifetime: made once (`NewMachine`), run any number of times, its results asked for
(`GetResult`), closed (`Close`); values bound to the nodes of the graph in between; the errors a run reports.

Simplified: operations are functions, so an operation that draws random numbers gives the same result each time.
-/
set_option autoImplicit false
namespace Verif.XVM
open Function

variable {V : Type} {G : Net V}

/-! ### Several runs -/

/-- The machine as `NewMachine` leaves it (x/vm/machine.go 19-45, x/vm/node.go 105-132): inputs hold the value of their node, operations
nothing (`nil`). No run is in progress. -/
def made (G : Net V) (nil : V) : St V where
  ph _ := .rep false
  inp _ _ := nil
  out i := if G.isIn i then G.inVal i else nil
  bc _ := .dead
  mg _ _ := .dead
  total := 0
  cancel := true
  stop := true
  ret := true

/-- The call of `Run` (x/vm/machine.go 97-99): new goroutines for broadcasters, mergers (x/vm/pubsub.go 27-39) and nodes (x/vm/machine.go
145-160), new contexts; what the nodes hold stays. -/
def again (G : Net V) (s : St V) : St V where
  ph i := if G.isIn i then .emit else .recv 0
  inp := s.inp
  out := s.out
  bc _ := .wait
  mg _ _ := .wait
  total := G.n
  cancel := false
  stop := false
  ret := false

/-- The states of a machine in the course of its life: runs one after the other, cancelled from outside or not, failing or not. -/
inductive Life (G : Net V) (nil : V) : St V → Prop
  | made : Life G nil (made G nil)
  | run {s : St V} : Life G nil s → s.ret = true → Life G nil (again G s)
  | step {s t : St V} : Life G nil s → Step G s t → Life G nil t
  | ext {s t : St V} : Life G nil s → Ext s t → Life G nil t

theorem made_still {nil : V} {t : St V} : ¬ Step G (made G nil) t := by
  intro h
  cases h <;> first | (rename_i hph; simp [made] at hph; done) | simp_all [made]

theorem again_start {s : St V} (h : ∀ i, i < G.n → G.isIn i = true → s.out i = G.inVal i) : Start G (again G s) :=
  ⟨fun _ _ => rfl, h, fun _ => rfl, fun _ _ => rfl, rfl, rfl, rfl, rfl⟩

/-- Every state after the first call of `Run` is one of C28. -/
theorem life_reach {nil : V} {s : St V} (hG : Good G) (h : Life G nil s) :
    (s = made G nil ∨ Reach G s) ∧ ∀ i, i < G.n → G.isIn i = true → s.out i = G.inVal i := by
  have inp : ∀ {s : St V}, Reach G s → ∀ i, i < G.n → G.isIn i = true → s.out i = G.inVal i := by
    intro s hr
    obtain ⟨_, _, hv⟩ := reach_iv hG hr
    exact hv.inOut
  induction h with
  | made => exact ⟨.inl rfl, fun i _ hi => by simp [made, hi]⟩
  | @run s _ _ ih =>
    have : Reach G (again G s) := .start (again_start ih.2)
    exact ⟨.inr this, inp this⟩
  | @step s t _ hs ih =>
    rcases ih.1 with rfl | hr
    · exact absurd hs made_still
    · exact ⟨.inr (.step hr hs), inp (.step hr hs)⟩
  | @ext s t _ hs ih =>
    rcases ih.1 with rfl | hr
    · cases hs with
      | ext h => rcases h with h | h <;> cases h
    · exact ⟨.inr (.ext hr hs), inp (.ext hr hs)⟩

/-- **C114.** Whatever runs the machine has made, finished, failed, cancelled or still going on: what a node holds is the value of its
expression, or it has never had one. -/
theorem life_values {nil : V} {s : St V} (hG : Good G) (h : Life G nil s) (i : Nat) (hi : i < G.n) : s.out i = nil ∨ Evals G i (s.out i) := by
  induction h with
  | made =>
    cases e : G.isIn i with
    | true => exact .inr (by simpa [made, e] using Evals.input e)
    | false => exact .inl (by simp [made, e])
  | run _ _ ih => exact ih
  | @step s t hl hs ih =>
    by_cases hc : t.out i = s.out i
    · rw [hc]; exact ih
    · refine .inr ?_
      have hr : Reach G t := by
        rcases (life_reach hG hl).1 with rfl | hr
        · exact absurd hs made_still
        · exact .step hr hs
      obtain ⟨_, _, hv⟩ := reach_iv hG hr
      apply hv.out i hi
      cases hs with
      | @compOk j v hj hph hv' =>
        by_cases e : i = j
        · subst e; simp [Ph.set]
        · exact absurd (update_of_ne e _ _) hc
      | _ => exact absurd rfl hc
  | ext _ hs ih => cases hs; exact ih

/-- The states of one run that nobody cancels from outside, started from `s`. -/
inductive During (G : Net V) (s : St V) : St V → Prop
  | start : During G s (again G s)
  | step {t u : St V} : During G s t → Step G t u → During G s u

/-- **C114.** After any history, a run that nobody cancels ends, without error and with the right value in every node. -/
theorem rerun_right {nil : V} {s t : St V} (hG : Good G) (hn : 0 < G.n) (hA : Acyclic G) (hE : ∀ i, i < G.n → ∃ v, Evals G i v)
    (hl : Life G nil s) (hd : During G s t) (hmax : ∀ u, ¬ Step G t u) :
    t.ret = true ∧ ∀ i, i < G.n → t.ph i = .rep false ∧ Evals G i (t.out i) := by
  refine run_complete hG hn hA hE ?_ hmax
  clear hmax
  induction hd with
  | start => exact .start (again_start (life_reach hG hl).2)
  | step _ hs ih => exact .step ih hs

/-! ### Which errors a run reports -/

/-- The operands of the node have values and the operation fails on them. -/
def Fails (G : Net V) (j : Nat) : Prop :=
  G.isIn j = false ∧ ∃ vs : List V, vs.length = (G.ops j).length ∧
    (∀ (p : Nat) (h1 : p < (G.ops j).length) (h2 : p < vs.length), Evals G (G.ops j)[p] vs[p]) ∧ G.f j vs = none

/-- The states of a run that nobody cancels from outside, with the nodes whose errors have been collected in `errs`, in order
(x/vm/machine.go 161-168). Steps other than reports leave `total` alone. -/
inductive Logged (G : Net V) : St V → List Nat → Prop
  | start {s : St V} : Start G s → Logged G s []
  | quiet {s t : St V} {l : List Nat} : Logged G s l → Step G s t → t.total = s.total → Logged G t l
  | report {s : St V} {l : List Nat} {i : Nat} {e : Bool} : Logged G s l → i < G.n → s.ph i = .fin e → 0 < s.total →
      Logged G { s with ph := update s.ph i (.rep e), total := s.total - 1, cancel := s.cancel || e } (if e then l ++ [i] else l)

theorem Logged.reach {s : St V} {l : List Nat} (h : Logged G s l) : ReachI G s := by
  induction h with
  | start h => exact .start h
  | quiet _ hs _ ih => exact .step ih hs
  | report _ hi hp ht ih => exact .step ih (.report hi hp ht)

/-- Every run can be logged. -/
theorem logged_exists {s : St V} (h : ReachI G s) : ∃ l, Logged G s l := by
  induction h with
  | start h => exact ⟨_, .start h⟩
  | @step s t _ hs ih =>
    obtain ⟨l, hl⟩ := ih
    by_cases e : t.total = s.total
    · exact ⟨l, .quiet hl hs e⟩
    · cases hs with
      | report hi hp ht => exact ⟨_, .report hl hi hp ht⟩
      | _ => exact absurd rfl e

/-- A quiet step makes no report. -/
theorem quiet_rep {s t : St V} (hs : Step G s t) (he : t.total = s.total) (i : Nat) (e : Bool) : t.ph i = .rep e ↔ s.ph i = .rep e := by
  have key : ∀ (j : Nat) (q : Ph), q.isRep = false → (s.ph j).isRep = false → (update s.ph j q i = .rep e ↔ s.ph i = .rep e) := by
    intro j q h1 h2
    by_cases h : i = j
    · subst h
      rw [update_self]
      constructor
      · intro h; rw [h] at h1; cases h1
      · intro h; rw [h] at h2; cases h2
    · rw [update_of_ne h]
  cases hs with
  | @recv j p c v hj hp hph hm ha => exact key j _ (by split <;> rfl) (by rw [hph]; rfl)
  | @recvBad j p c v hj hp hph hm ha => exact key j _ rfl (by rw [hph]; rfl)
  | @compOk j v hj hph hv' => exact key j _ rfl (by rw [hph]; rfl)
  | @compErr j hj hph hn => exact key j _ rfl (by rw [hph]; rfl)
  | @emit j hi hph ho hb => exact key j _ rfl (by rw [hph]; rfl)
  | @emitTop j hi hph ho => exact key j _ rfl (by rw [hph]; rfl)
  | @nodeCancel j hi hc hph => exact key j _ rfl (by rcases hph with ⟨c, h⟩ | ⟨h, _⟩ <;> rw [h] <;> rfl)
  | @report j e' hi hph ht => simp at he; omega
  | _ => exact Iff.rfl

/-- The error names exactly the nodes that ended with an error, each once. -/
theorem log_mem {s : St V} {l : List Nat} (h : Logged G s l) : l.Nodup ∧ ∀ i, i ∈ l ↔ i < G.n ∧ s.ph i = .rep true := by
  induction h with
  | @start s h =>
    refine ⟨List.nodup_nil, fun i => ?_⟩
    simp only [List.not_mem_nil, false_iff, not_and]
    intro hi
    rw [h.ph i hi]
    split <;> simp
  | @quiet s t l _ hs he ih => exact ⟨ih.1, fun i => by rw [ih.2 i, quiet_rep hs he]⟩
  | @report s l i e _ hi hp ht ih =>
    have hni : i ∉ l := by
      intro hm
      have := ((ih.2 i).1 hm).2
      rw [hp] at this; cases this
    cases e with
    | false =>
      refine ⟨ih.1, fun k => ?_⟩
      simp only [Bool.false_eq_true, if_false]
      rw [ih.2 k]
      by_cases h : k = i
      · subst h; simp [hp]
      · simp [update_of_ne h]
    | true =>
      refine ⟨?_, fun k => ?_⟩
      · simp only [if_true]
        exact List.nodup_append.2 ⟨ih.1, by simp, by rintro a ha b hb rfl; simp at hb; exact hni (hb ▸ ha)⟩
      · simp only [if_true, List.mem_append, List.mem_singleton]
        rw [ih.2 k]
        by_cases h : k = i
        · subst h; simp [hi]
        · simp [update_of_ne h, h]

/-- As long as nothing is cancelled, only failing operations end with an error. -/
theorem fin_fails {s : St V} (hG : Good G) (h : ReachI G s) (hc : s.cancel = false) (i : Nat) (hi : i < G.n) (hp : s.ph i = .fin true) :
    Fails G i := by
  induction h generalizing i with
  | start h => rw [h.ph i hi] at hp; split at hp <;> cases hp
  | @step s t hr hs ih =>
    obtain ⟨pos, got, hv⟩ := reach_iv hG hr.reach
    have key : ∀ (j : Nat) (q : Ph), q ≠ .fin true → update s.ph j q i = .fin true → s.ph i = .fin true := by
      intro j q h1 h2
      by_cases h : i = j
      · subst h; rw [update_self] at h2; exact absurd h2 h1
      · rwa [update_of_ne h] at h2
    cases hs with
    | @recv j p c v hj hp' hph hm ha => exact ih hc i hi (key j _ (by split <;> simp) hp)
    | @recvBad j p c v hj hp' hph hm ha =>
      exfalso
      obtain ⟨_, _, _, _, hin⟩ := subs_of hj hp'
      rw [(hG.arity j hj hin).1] at ha
      unfold Net.fan at hp'
      rw [hin] at hp'
      exact ha (by simpa using hp')
    | @compOk j v hj hph hv' => exact ih hc i hi (key j _ (by simp) hp)
    | @compErr j hj hph hn =>
      by_cases h : i = j
      · subst h
        have hin : G.isIn i = false := by
          cases e : G.isIn i with
          | false => rfl
          | true => exact absurd hph (hv.inPh i hi e).2
        have hgot := hv.past i hi hin (by rw [hph]; rfl)
        have har := (hG.arity i hi hin).1
        refine ⟨hin, G.args s i, by simp [Net.args, har], fun p h1 h2 => ?_, hn⟩
        simp only [Net.args, List.getElem_map, List.getElem_range]
        exact hv.inp i p _ hi hin (hgot p (by omega)) (List.getElem?_eq_getElem (by omega))
      · simp only [update_of_ne h] at hp; exact ih hc i hi hp
    | @emit j hi' hph ho hb => exact ih hc i hi (key j _ (by simp) hp)
    | @emitTop j hi' hph ho => exact ih hc i hi (key j _ (by simp) hp)
    | @report j e hi' hph ht =>
      have hc' : s.cancel = false ∧ e = false := by simpa using hc
      exact ih hc'.1 i hi (key j _ (by simp) hp)
    | @nodeCancel j hi' hc' hph => simp only [] at hc; rw [hc'] at hc; cases hc
    | mainEnd hn ht hs => cases hc
    | _ => exact ih hc i hi hp

/-- As long as no error was collected nothing is cancelled, unless all nodes have reported. -/
theorem log_nil {s : St V} {l : List Nat} (h : Logged G s l) (hl : l = []) (ht : 0 < s.total) : s.cancel = false := by
  induction h with
  | start h => exact h.cancel
  | @quiet s t l _ hs he ih =>
    have := ih hl (he ▸ ht)
    cases hs with
    | mainEnd hn ht' hs => simp only [] at ht; omega
    | report hi hph ht' => simp at he; omega
    | _ => exact this
  | @report s l i e _ hi hp ht' ih =>
    cases e with
    | true => simp at hl
    | false =>
      simp only [Bool.or_false]
      exact ih (by simpa using hl) ht'

/-- **C114.** The first error collected in a run that nobody cancels is that of an operation that failed on the values of its operands,
not that of a node that was stopped because another failed. -/
theorem first_error {s : St V} {l : List Nat} (hG : Good G) (h : Logged G s l) (j : Nat) (hj : l.head? = some j) : Fails G j := by
  induction h with
  | start => cases hj
  | quiet _ _ _ ih => exact ih hj
  | @report s l i e hl hi hp ht ih =>
    cases e with
    | false => exact ih (by simpa using hj)
    | true =>
      cases l with
      | nil =>
        have : i = j := by simpa using hj
        subst this
        exact fin_fails hG hl.reach (log_nil hl rfl ht) i hi hp
      | cons a l => exact ih (by simpa using hj)

/-- **C114.** A run that nobody cancels returns no error exactly if every node has a value. -/
theorem error_iff {s : St V} {l : List Nat} (hG : Good G) (h : Logged G s l) (hr : s.ret = true) :
    l = [] ↔ ∀ i, i < G.n → ∃ v, Evals G i v := by
  constructor
  · intro hl i hi
    refine ⟨s.out i, (returned_values hG h.reach.reach hr).2 (fun k hk e => ?_) i hi⟩
    have := ((log_mem h).2 k).2 ⟨hk, e⟩
    rw [hl] at this; cases this
  · intro hE
    apply List.eq_nil_iff_forall_not_mem.2
    intro i hi
    obtain ⟨hn, hp⟩ := ((log_mem h).2 i).1 hi
    exact ((no_error hG hE h.reach).1 i hn).2 hp

/-! ### Machines of graphs whose nodes are bound anew -/

/-- `Op` of a node, if any, as `NewMachine` sees it. -/
inductive NOp (V : Type)
  /-- no op: an input -/
  | none
  /-- a constant scalar, arity 0 (op.go 239) -/
  | const (v : V)
  /-- another op with its arity and `Do` -/
  | op (arity : Nat) (f : List (Option V) → Option (Option V))

/-- A graph; nodes numbered in the order of `Nodes`. Values are `none` for `nil`. -/
structure Gr (V : Type) where
  n : Nat
  id : Nat → Int
  op : Nat → NOp V
  ops : Nat → List Nat

/-- `Node.Value` (node.go 435-443): constants have their own value, all others what is bound to them. -/
def Gr.value (g : Gr V) (bound : Nat → Option V) (i : Nat) : Option V :=
  match g.op i with
  | .const v => some v
  | _ => bound i

/-- The arity of a node's op, zero without. -/
def NOp.ar : NOp V → Nat
  | .op a _ => a
  | _ => 0

/-- `NewMachine` (x/vm/machine.go 19-45). -/
def Gr.net (g : Gr V) (bound : Nat → Option V) : Net (Option V) where
  n := g.n
  isIn i := (g.op i).ar == 0
  used i := (List.range g.n).any fun j => (g.ops j).contains i
  ops := g.ops
  arity i := (g.op i).ar
  inVal := g.value bound
  f i l := match g.op i with
    | .op _ f => f l
    | _ => Option.none

/-- A machine and the graph it was made for: the values bound now. -/
structure World (V : Type) where
  bound : Nat → Option V
  st : St (Option V)

/-- The life of a machine made when the graph was bound as in `b`, with values bound to nodes of the graph at any time (`Let`). -/
inductive Lives (g : Gr V) (b : Nat → Option V) : World V → Prop
  | made : Lives g b ⟨b, made (g.net b) Option.none⟩
  | run {w : World V} : Lives g b w → w.st.ret = true → Lives g b ⟨w.bound, again (g.net b) w.st⟩
  | step {w : World V} {t : St (Option V)} : Lives g b w → Step (g.net b) w.st t → Lives g b ⟨w.bound, t⟩
  | ext {w : World V} {t : St (Option V)} : Lives g b w → Ext w.st t → Lives g b ⟨w.bound, t⟩
  | bind {w : World V} (i : Nat) (v : Option V) : Lives g b w → Lives g b ⟨update w.bound i v, w.st⟩

theorem lives_life {g : Gr V} {b : Nat → Option V} {w : World V} (h : Lives g b w) : Life (g.net b) Option.none w.st := by
  induction h with
  | made => exact .made
  | run _ h ih => exact .run ih h
  | step _ h ih => exact .step ih h
  | ext _ h ih => exact .ext ih h
  | bind _ _ _ ih => exact ih

/-- `GetResult` (x/vm/machine.go 182-189): the output of the first node with that ID, `nil` if there is none. -/
def getResult (g : Gr V) (s : St (Option V)) (id : Int) : Option V :=
  match (List.range g.n).find? (fun i => g.id i == id) with
  | some i => s.out i
  | Option.none => Option.none

theorem getResult_node (g : Gr V) (hid : ∀ i j, i < g.n → j < g.n → g.id i = g.id j → i = j) (s : St (Option V)) (i : Nat) (hi : i < g.n) :
    getResult g s (g.id i) = s.out i := by
  unfold getResult
  cases h : (List.range g.n).find? (fun k => g.id k == g.id i) with
  | none =>
    have := List.find?_eq_none.1 h i (List.mem_range.2 hi)
    simp at this
  | some k =>
    have h1 := List.find?_some h
    have h2 := List.mem_range.1 (List.mem_of_find?_eq_some h)
    rw [hid k i h2 hi (by simpa using h1)]

theorem getResult_unknown (g : Gr V) (s : St (Option V)) (id : Int) (h : ∀ i, i < g.n → g.id i ≠ id) : getResult g s id = none := by
  unfold getResult
  have : (List.range g.n).find? (fun k => g.id k == id) = none := by
    rw [List.find?_eq_none]
    intro i hi
    simpa using h i (List.mem_range.1 hi)
  rw [this]

/-- **C114.** What `GetResult` delivers at any time is `nil` or the value of the node for the bindings the graph had when the machine was
made: values bound to the graph later are never seen. -/
theorem getResult_made {g : Gr V} {b : Nat → Option V} {w : World V} (hG : Good (g.net b))
    (hid : ∀ i j, i < g.n → j < g.n → g.id i = g.id j → i = j) (h : Lives g b w) (i : Nat) (hi : i < g.n) :
    getResult g w.st (g.id i) = none ∨ Evals (g.net b) i (getResult g w.st (g.id i)) := by
  rw [getResult_node g hid w.st i hi]
  exact life_values hG (lives_life h) i hi

/-- An input or an op without operands is never run: it keeps the value it had when the machine was made, `nil` for an op without
operands that is no constant and to which nothing was bound, such as one that draws random numbers (op_nn.go 66). -/
theorem nullary_unrun {g : Gr V} {b : Nat → Option V} {w : World V} (hG : Good (g.net b)) (h : Lives g b w) (i : Nat) (hi : i < g.n)
    (f : List (Option V) → Option (Option V)) (hop : g.op i = .op 0 f) : w.st.out i = b i := by
  have hin : (g.net b).isIn i = true := by simp [Gr.net, hop, NOp.ar]
  rw [(life_reach hG (lives_life h)).2 i hi hin]
  simp [Gr.net, Gr.value, hop]

/-! ### Close -/

/-- The channels of a machine: one per operand of an operation (x/vm/machine.go 86), one into each operation (x/vm/node.go 118), one out
of each node with consumers and each input (x/vm/node.go 111, 130). -/
inductive Chan
  | edge (j p : Nat)
  | into (j : Nat)
  | out (i : Nat)
  deriving DecidableEq

/-- The channels a machine has. -/
def Net.has (G : Net V) : Chan → Prop
  | .edge j p => j < G.n ∧ G.isIn j = false ∧ p < (G.ops j).length
  | .into j => j < G.n ∧ G.isIn j = false
  | .out i => i < G.n ∧ G.outC i = true

/-- The channels from broadcasters that `Close` collects (x/vm/machine.go 108-113). -/
def Net.edgeChans (G : Net V) : List Chan :=
  (List.range G.n).flatMap fun i => if G.outC i then (G.subs i).map fun e => Chan.edge e.1 e.2 else []

/-- The channels of the nodes (x/vm/machine.go 117-124). -/
def Net.nodeChans (G : Net V) : List Chan :=
  (List.range G.n).flatMap fun i => (if G.isIn i then [] else [Chan.into i]) ++ if G.outC i then [Chan.out i] else []

/-- Closing channels one after the other; closing a closed channel panics (`none`). -/
def closeAll (closed : List Chan) : List Chan → Option (List Chan)
  | [] => some closed
  | c :: cs => if c ∈ closed then none else closeAll (c :: closed) cs

theorem closeAll_nodup (cs : List Chan) : ∀ (closed : List Chan), cs.Nodup → (∀ c ∈ cs, c ∉ closed) →
    ∃ l, closeAll closed cs = some l ∧ ∀ c, c ∈ l ↔ c ∈ closed ∨ c ∈ cs := by
  induction cs with
  | nil => exact fun closed _ _ => ⟨closed, rfl, fun c => by simp⟩
  | cons a cs ih =>
    intro closed hn hd
    have hn' := List.nodup_cons.1 hn
    obtain ⟨l, h1, h2⟩ := ih (a :: closed) hn'.2 (by
      intro c hc hm
      rcases List.mem_cons.1 hm with rfl | hm
      · exact hn'.1 hc
      · exact hd c (List.mem_cons_of_mem _ hc) hm)
    refine ⟨l, by simp [closeAll, hd a (List.mem_cons_self ..), h1], fun c => ?_⟩
    rw [h2 c]
    simp only [List.mem_cons]
    tauto

theorem mem_edgeChans (hG : Good G) (c : Chan) : c ∈ G.edgeChans ↔ ∃ j p, c = .edge j p ∧ G.has (.edge j p) := by
  unfold Net.edgeChans
  rw [List.mem_flatMap]
  constructor
  · rintro ⟨i, hi, hc⟩
    split at hc
    · obtain ⟨e, he, rfl⟩ := List.mem_map.1 hc
      obtain ⟨h1, h2, h3⟩ := (mem_subs G i e.1 e.2).1 he
      exact ⟨e.1, e.2, rfl, h1, h2, (List.getElem?_eq_some_iff.1 h3).1⟩
    · cases hc
  · rintro ⟨j, p, rfl, h1, h2, h3⟩
    have hb := hG.build j h1 h2 _ (List.getElem_mem h3)
    refine ⟨(G.ops j)[p], List.mem_range.2 hb.1, ?_⟩
    rw [if_pos hb.2]
    exact List.mem_map.2 ⟨(j, p), (mem_subs G _ j p).2 ⟨h1, h2, List.getElem?_eq_getElem h3⟩, rfl⟩

theorem edgeChans_nodup : G.edgeChans.Nodup := by
  unfold Net.edgeChans
  rw [List.nodup_flatMap]
  constructor
  · intro i _
    split
    · exact (subs_nodup G i).map (by rintro ⟨a, b⟩ ⟨c, d⟩ h; simpa using h)
    · exact List.nodup_nil
  · refine List.Nodup.pairwise_of_forall_ne List.nodup_range ?_
    intro i _ j _ hne c hc hc'
    simp only [] at hc hc'
    split at hc
    · split at hc'
      · obtain ⟨e, he, rfl⟩ := List.mem_map.1 hc
        obtain ⟨e', he', h⟩ := List.mem_map.1 hc'
        have h1 := (mem_subs G i e.1 e.2).1 he
        have h2 := (mem_subs G j e'.1 e'.2).1 he'
        simp only [Chan.edge.injEq] at h
        rw [h.1, h.2, h1.2.2] at h2
        exact hne (Option.some.inj h2.2.2)
      · cases hc'
    · cases hc

theorem mem_nodeChans (c : Chan) : c ∈ G.nodeChans ↔ G.has c ∧ ∀ j p, c ≠ .edge j p := by
  unfold Net.nodeChans
  rw [List.mem_flatMap]
  constructor
  · rintro ⟨i, hi, hc⟩
    have hi := List.mem_range.1 hi
    rcases List.mem_append.1 hc with hc | hc
    · cases e : G.isIn i with
      | true => simp [e] at hc
      | false =>
        rw [e] at hc
        have : c = .into i := by simpa using hc
        subst this
        exact ⟨⟨hi, e⟩, fun _ _ h => by cases h⟩
    · split at hc
      · next e =>
        have : c = .out i := by simpa using hc
        subst this
        exact ⟨⟨hi, e⟩, fun _ _ h => by cases h⟩
      · cases hc
  · rintro ⟨h, hne⟩
    cases c with
    | edge j p => exact absurd rfl (hne j p)
    | into j => exact ⟨j, List.mem_range.2 h.1, by simp [h.2]⟩
    | out i => exact ⟨i, List.mem_range.2 h.1, by simp [h.2]⟩

theorem nodeChans_nodup : G.nodeChans.Nodup := by
  unfold Net.nodeChans
  rw [List.nodup_flatMap]
  constructor
  · intro i _
    split <;> split <;> simp
  · refine List.Nodup.pairwise_of_forall_ne List.nodup_range ?_
    intro i _ j _ hne c hc hc'
    have hx : ∀ i, c ∈ ((if G.isIn i then [] else [Chan.into i]) ++ if G.outC i then [Chan.out i] else []) → c = .into i ∨ c = .out i := by
      intro i h
      rcases List.mem_append.1 h with h | h <;> split at h <;> simp at h <;> simp [h]
    rcases hx i hc with rfl | rfl <;> rcases hx j hc' with h | h <;> simp at h <;> exact hne h

/-- **C114.** `Close` (x/vm/machine.go 107-125) closes every channel of the machine exactly once, in whatever order the map of the
channels is gone through. -/
theorem close_all (hG : Good G) (es : List Chan) (hp : es.Perm G.edgeChans) :
    ∃ l, closeAll [] (es ++ G.nodeChans) = some l ∧ ∀ c, c ∈ l ↔ G.has c := by
  have hn : (es ++ G.nodeChans).Nodup := by
    refine List.nodup_append.2 ⟨hp.nodup_iff.2 edgeChans_nodup, nodeChans_nodup, ?_⟩
    rintro a ha b hb rfl
    obtain ⟨j, p, rfl, _⟩ := (mem_edgeChans hG a).1 (hp.mem_iff.1 ha)
    exact ((mem_nodeChans _).1 hb).2 j p rfl
  obtain ⟨l, h1, h2⟩ := closeAll_nodup _ [] hn (by simp)
  refine ⟨l, h1, fun c => ?_⟩
  rw [h2 c, List.mem_append, hp.mem_iff, mem_edgeChans hG, mem_nodeChans]
  constructor
  · rintro (h | ⟨j, p, rfl, h⟩ | h)
    · cases h
    · exact h
    · exact h.1
  · intro h
    cases c with
    | edge j p => exact .inr (.inl ⟨j, p, rfl, h⟩)
    | into j => exact .inr (.inr ⟨h, fun _ _ e => by cases e⟩)
    | out i => exact .inr (.inr ⟨h, fun _ _ e => by cases e⟩)

theorem closeAll_closed {cs : List Chan} {c : Chan} (hc : c ∈ cs) : ∀ (closed : List Chan), c ∈ closed → closeAll closed cs = none := by
  induction cs with
  | nil => cases hc
  | cons a cs ih =>
    intro closed h
    by_cases ha : a ∈ closed
    · simp [closeAll, ha]
    · rw [closeAll, if_neg ha]
      rcases List.mem_cons.1 hc with rfl | hc
      · exact absurd h ha
      · exact ih hc _ (List.mem_cons_of_mem _ h)

/-- **C114, violated.** A second `Close` panics, for every graph that has a node. -/
theorem close_twice (hn : 0 < G.n) (closed es : List Chan) (h : ∀ c, G.has c → c ∈ closed) : closeAll closed (es ++ G.nodeChans) = none := by
  have : ∃ c, c ∈ G.nodeChans := by
    cases e : G.isIn 0 with
    | true => exact ⟨.out 0, (mem_nodeChans _).2 ⟨⟨hn, by simp [Net.outC, e]⟩, fun _ _ h => by cases h⟩⟩
    | false => exact ⟨.into 0, (mem_nodeChans _).2 ⟨⟨hn, e⟩, fun _ _ h => by cases h⟩⟩
  obtain ⟨c, hc⟩ := this
  exact closeAll_closed (List.mem_append_right _ hc) closed (h c ((mem_nodeChans c).1 hc).1)

/-- A run of a closed machine. Sending on a closed channel panics; receiving from one gives the zero value at once. -/
structure CSt (V : Type) where
  ph : Nat → Ph
  inp : Nat → Nat → V
  out : Nat → V
  total : Nat
  cancel : Bool
  /-- a goroutine has panicked, which ends the program -/
  crashed : Bool

inductive CStep (G : Net V) (nil : V) : CSt V → CSt V → Prop
  /-- the zero `ioValue` has position 0 (x/vm/node.go 55-65) -/
  | recv {s : CSt V} {j c : Nat} (hc : s.crashed = false) (hj : j < G.n) (hph : s.ph j = .recv c) (ha : 0 < G.arity j) :
      CStep G nil s { s with ph := update s.ph j (if c + 1 < G.arity j then .recv (c + 1) else .comp), inp := set2 s.inp j 0 nil }
  | recvBad {s : CSt V} {j c : Nat} (hc : s.crashed = false) (hj : j < G.n) (hph : s.ph j = .recv c) (ha : G.arity j = 0) :
      CStep G nil s { s with ph := update s.ph j (.fin true) }
  | compOk {s : CSt V} {j : Nat} {v : V} (hc : s.crashed = false) (hj : j < G.n) (hph : s.ph j = .comp)
      (hv : G.f j ((List.range (G.arity j)).map (s.inp j)) = some v) :
      CStep G nil s { s with ph := update s.ph j .emit, out := update s.out j v }
  | compErr {s : CSt V} {j : Nat} (hc : s.crashed = false) (hj : j < G.n) (hph : s.ph j = .comp)
      (hv : G.f j ((List.range (G.arity j)).map (s.inp j)) = none) : CStep G nil s { s with ph := update s.ph j (.fin true) }
  /-- a node sends on its closed channel (x/vm/node.go 87) -/
  | emit {s : CSt V} {i : Nat} (hc : s.crashed = false) (hi : i < G.n) (hph : s.ph i = .emit) (ho : G.outC i = true) :
      CStep G nil s { s with crashed := true }
  | emitTop {s : CSt V} {i : Nat} (hc : s.crashed = false) (hi : i < G.n) (hph : s.ph i = .emit) (ho : G.outC i = false) :
      CStep G nil s { s with ph := update s.ph i (.fin false) }
  /-- a broadcaster receives `nil` from the closed channel and sends it on a closed one (x/vm/pubsub.go 74-77) -/
  | bcast {s : CSt V} {i : Nat} (hc : s.crashed = false) (hi : i < G.n) (ho : G.outC i = true) (hs : G.subs i ≠ []) :
      CStep G nil s { s with crashed := true }
  /-- so does a merger (x/vm/pubsub.go 50-55) -/
  | merge {s : CSt V} {j p : Nat} (hc : s.crashed = false) (hj : j < G.n) (hp : p < G.fan j) : CStep G nil s { s with crashed := true }
  | report {s : CSt V} {i : Nat} {e : Bool} (hc : s.crashed = false) (hi : i < G.n) (hph : s.ph i = .fin e) (ht : 0 < s.total) :
      CStep G nil s { s with ph := update s.ph i (.rep e), total := s.total - 1, cancel := s.cancel || e }
  | nodeCancel {s : CSt V} {i : Nat} (hc : s.crashed = false) (hi : i < G.n) (hc : s.cancel = true)
      (hph : (∃ c, s.ph i = .recv c) ∨ s.ph i = .emit ∧ G.outC i = true) : CStep G nil s { s with ph := update s.ph i (.fin true) }
  /-- the caller cancels -/
  | ext {s : CSt V} : CStep G nil s { s with cancel := true }

inductive CReach (G : Net V) (nil : V) : CSt V → Prop
  | start {s : CSt V} (hp : ∀ i, i < G.n → s.ph i = if G.isIn i then .emit else .recv 0) (hc : s.crashed = false) : CReach G nil s
  | step {s t : CSt V} : CReach G nil s → CStep G nil s t → CReach G nil t

/-- **C114.** A run of a closed machine never succeeds: it panics, or every input ends with an error. -/
theorem closed_never {nil : V} {s : CSt V} (h : CReach G nil s) (hc : s.crashed = false) (i : Nat) (hi : i < G.n) (hin : G.isIn i = true) :
    s.ph i = .emit ∨ s.ph i = .fin true ∨ s.ph i = .rep true := by
  induction h with
  | start hp _ => left; rw [hp i hi, hin]; rfl
  | @step s t _ hs ih =>
    have ho : G.outC i = true := by simp [Net.outC, hin]
    cases hs with
    | @recv j c hc' hj hph ha =>
      have := ih hc'
      have hne : i ≠ j := by rintro rfl; rw [hph] at this; simp at this
      simpa only [update_of_ne hne] using this
    | @recvBad j c hc' hj hph ha =>
      have := ih hc'
      have hne : i ≠ j := by rintro rfl; rw [hph] at this; simp at this
      simpa only [update_of_ne hne] using this
    | @compOk j v hc' hj hph hv =>
      have := ih hc'
      have hne : i ≠ j := by rintro rfl; rw [hph] at this; simp at this
      simpa only [update_of_ne hne] using this
    | @compErr j hc' hj hph hv =>
      have := ih hc'
      have hne : i ≠ j := by rintro rfl; rw [hph] at this; simp at this
      simpa only [update_of_ne hne] using this
    | emit => cases hc
    | @emitTop j hc' hj hph ho' =>
      have hne : i ≠ j := by rintro rfl; rw [ho] at ho'; cases ho'
      simpa only [update_of_ne hne] using ih hc'
    | bcast => cases hc
    | merge => cases hc
    | @report j e hc' hj hph ht =>
      by_cases h : i = j
      · subst h
        have := ih hc'
        rw [hph] at this
        have he : e = true := by simpa using this
        subst he
        simp
      · simpa only [update_of_ne h] using ih hc'
    | @nodeCancel j hc' hj hcc hph =>
      by_cases h : i = j
      · subst h; simp
      · simpa only [update_of_ne h] using ih hc'
    | ext => exact ih hc

/-! ### Examples -/

/-- An input and its double. -/
def dbl : Gr Int where
  n := 2
  id i := i + 10
  op i := if i = 1 then .op 1 fun l => match l with
    | [some a] => some (some (2 * a))
    | _ => none
    else .none
  ops i := if i = 1 then [0] else []

theorem dbl_good (b : Nat → Option Int) : Good (dbl.net b) := by
  refine ⟨?_, ?_⟩
  · intro j hj hin i hi
    have : j = 0 ∨ j = 1 := by simp [dbl, Gr.net] at hj; omega
    rcases this with rfl | rfl <;> simp [dbl, Gr.net, Net.outC, NOp.ar] at hin hi ⊢
    subst hi; simp
  · intro j hj hin
    have : j = 0 ∨ j = 1 := by simp [dbl, Gr.net] at hj; omega
    rcases this with rfl | rfl <;> simp [dbl, Gr.net, NOp.ar] at hin ⊢

theorem dbl_evals (b : Nat → Option Int) (a : Int) (h : b 0 = some a) (v : Option Int) (hv : Evals (dbl.net b) 1 v) : v = some (2 * a) := by
  refine evals_unique hv (.op (vs := [some a]) rfl rfl ?_ rfl)
  intro p h1 h2
  have : p = 0 := by simp at h2; omega
  subst this
  have : Evals (dbl.net b) 0 ((dbl.net b).inVal 0) := .input rfl
  simpa [Gr.net, Gr.value, dbl, h] using this

/-- **C114, violated.** A value bound to an input after the machine was made is not used: for every history, the node after it holds
nothing or the double of the first value, never the double of another value bound. -/
theorem rebind_stale (b : Nat → Option Int) (a c : Int) (hb : b 0 = some a) (hne : a ≠ c) (w : World Int) (h : Lives dbl b w)
    (_hw : w.bound 0 = some c) : getResult dbl w.st 11 ≠ some (2 * c) := by
  rcases getResult_made (dbl_good b) (by intro i j _ _ h; simp only [dbl] at h; omega) h 1 (by decide) with e | e
  · have : getResult dbl w.st 11 = none := e
    rw [this]; simp
  · have : getResult dbl w.st 11 = some (2 * a) := dbl_evals b a hb _ e
    rw [this]
    intro h
    have := Option.some.inj h
    omega

/-- Such histories exist: made with 5, then 7 bound to the input. -/
example : ∃ w, Lives dbl (fun _ => some 5) w ∧ w.bound 0 = some 7 ∧ w.st.ret = false := by
  exact ⟨_, .run (.bind 0 (some 7) .made) rfl, by simp, rfl⟩

/-- An op without operands. -/
def rnd : Gr Int where
  n := 1
  id i := i
  op _ := .op 0 fun _ => some (some 3)
  ops _ := []

example : ∃ w, Lives rnd (fun _ => none) w ∧ w.st.out 0 = none := ⟨_, .made, rfl⟩

example : (closeAll [] (ex.edgeChans ++ ex.nodeChans)).map List.length = some 9 := by decide

example : Fails { ex with f := fun i l => if i = 3 then none else ex.f i l } 3 := by
  refine ⟨rfl, [2, 2], rfl, ?_, rfl⟩
  intro p h1 h2
  have : p = 0 ∨ p = 1 := by simp at h2; omega
  have h : Evals { ex with f := fun i l => if i = 3 then none else ex.f i l } 2 2 := by
    refine .op (vs := [5, 3]) rfl rfl ?_ rfl
    intro p h1 h2
    have : p = 0 ∨ p = 1 := by simp at h2; omega
    rcases this with rfl | rfl
    · exact Evals.input (G := { ex with f := fun i l => if i = 3 then none else ex.f i l }) (i := 0) rfl
    · exact Evals.input (G := { ex with f := fun i l => if i = 3 then none else ex.f i l }) (i := 1) rfl
  rcases this with rfl | rfl <;> exact h

end Verif.XVM
