import Verif.Train.Symbolic
import Verif.AD.SymbolicExt
/-!
From the graph and the gradient nodes to a program, for every graph: the nodes in the order in which they depend on each other, a
node of the program for each node of the graph and for each node that `Grad` added.
-/
set_option autoImplicit false
namespace Verif.Train
open Verif.Shape (Res elem scalarT pair)
open Verif.Tensor (T InB size ravel unravel)
open Verif.Tape (upd upd_same upd_ne Prog Env M compile runAll reset value WF)
open Verif.AD (TG TOp TNode gradT theT Moves zeroT Reach XT XG XNode POp DOp gradX)
open Verif.Solver (Fields vanillaNode Param processed ClipOk Dense)

noncomputable section

theorem norm_norm (a : T ℝ) : norm (norm a) = norm a := by
  show ofD a.shape (flatD (size a.shape) (norm a)) = norm a
  rw [flatD_norm]
  rfl

theorem ofD_flatD_at (a : T ℝ) {i : List Nat} (hi : InB a.shape i) : (norm a).at_ i = a.at_ i := by
  simp only [norm, ofD, flatD, dif_pos (Tensor.ravel_lt hi), Tensor.unravel_ravel hi]

/-- The operation of a node and its operands. -/
def opOf (G : XG) : XT → Option (POp × List XT)
  | .app o ts => some (o, ts)
  | .cst _ => none
  | .node j => match G.getD j .leaf with
    | .op d ks => some (d.sym.op, ks.map .node)
    | _ => none

/-- The value of a constant node. -/
def cstOf (G : XG) : XT → Option (T ℝ)
  | .app _ _ => none
  | .cst c => some c
  | .node j => match G.getD j .leaf with
    | .cst c => some c
    | _ => none

/-- A node of the program to be: what it is made for, and the positions of its operands. -/
structure Step where
  t : XT
  ch : List Nat

def kindOf (G : XG) (t : XT) : Tape.Kind :=
  match opOf G t, cstOf G t with
  | some _, _ => .op
  | none, some _ => .const
  | none, none => .arg

/-- The program (what the sort of the graph yields, vm_tape.go and compile.go; each node has a hash of its own). `gs` are the positions
of the gradients of the weights. -/
def buildP (G : XG) (L : List Step) (gs : List Nat) : Prog :=
  L.mapIdx fun i s => { kind := kindOf G s.t, children := s.ch, hash := i, derivOfInput := gs.contains i }

/-- What the nodes compute: the result of the operation is put into new memory. `nf` is what the memory keeps of a tensor of the model (a
function on all lists of numbers): all of it, or the elements (`norm`). -/
def semT (nf : T ℝ → T ℝ) (G : XG) (t : XT) : Tape.OpSem (T ℝ) where
  f := fun vs => match opOf G t, cstOf G t with
    | some p, _ => (AD.Res.opt (p.1.run vs)).map nf
    | none, some c => some (nf c)
    | none, none => none

def inpOf (G : XG) (ad : Nat → Nat) : XT → Option Nat
  | .node w => match G.getD w .leaf with
    | .leaf => some (ad w)
    | _ => none
  | _ => none

def buildE (nf : T ℝ → T ℝ) (G : XG) (L : List Step) (ad : Nat → Nat) : Env (T ℝ) where
  sem := fun i => match L[i]? with
    | some s => semT nf G s.t
    | none => { f := fun _ => none }
  inp := fun i => (L[i]?).bind fun s => inpOf G ad s.t
  over := fun _ => -1
  blank := scalarT 0

/-- Operands come first and are the ones the node was made for. -/
def Plan (G : XG) (L : List Step) : Prop :=
  ∀ (i : Nat) (s : Step), L[i]? = some s → match opOf G s.t with
    | some p => List.Forall₂ (fun c t => c < i ∧ ∃ q : Step, L[c]? = some q ∧ q.t = t) s.ch p.2
    | none => s.ch = []

mutual
/-- The nodes that have to be added for an expression, and the position of the expression. -/
def emit (n : Nat) (L : List Step) : XT → List Step × Nat
  | .node j => if j < n then (L, n - 1 - j) else (L ++ [⟨.node j, []⟩], L.length)
  | .cst c => (L ++ [⟨.cst c, []⟩], L.length)
  | .app o ts => ((emitL n L ts).1 ++ [⟨.app o ts, (emitL n L ts).2⟩], (emitL n L ts).1.length)
def emitL (n : Nat) (L : List Step) : List XT → List Step × List Nat
  | [] => (L, [])
  | a :: as => ((emitL n (emit n L a).1 as).1, (emit n L a).2 :: (emitL n (emit n L a).1 as).2)
end

/-- The nodes of the graph, operands first. -/
def baseL (G : XG) : List Step :=
  (List.range G.length).map fun i => ⟨.node (G.length - 1 - i), match G.getD (G.length - 1 - i) .leaf with
    | .op _ ks => ks.map fun c => G.length - 1 - c
    | _ => []⟩

theorem baseL_get (G : XG) (j : Nat) (h : j < G.length) : ∃ s, (baseL G)[G.length - 1 - j]? = some s ∧ s.t = .node j := by
  unfold baseL
  have : G.length - 1 - j < G.length := by omega
  refine ⟨_, by rw [List.getElem?_map, List.getElem?_range this]; rfl, ?_⟩
  simp only
  congr 1
  omega

theorem baseL_plan (G : XG) (hG : G.tg.Sorted) : Plan G (baseL G) := by
  intro i s hs
  have hi : i < G.length := by
    have := (List.getElem?_eq_some_iff.1 hs).1
    simpa [baseL] using this
  have e : s = ⟨.node (G.length - 1 - i), match G.getD (G.length - 1 - i) .leaf with
      | .op _ ks => ks.map fun c => G.length - 1 - c
      | _ => []⟩ := by
    unfold baseL at hs
    rw [List.getElem?_map, List.getElem?_range hi] at hs
    simpa using hs.symm
  subst e
  simp only [opOf]
  have hj : G.length - 1 - i < G.length := by omega
  generalize hjj : G.length - 1 - i = j at *
  cases hn : G.getD j .leaf with
  | leaf => rfl
  | cst c => rfl
  | op d ks =>
    simp only
    have hs : ∀ c ∈ ks, j < c ∧ c < G.length := by
      intro c hc
      have hg : G[j]? = some (.op d ks) := by
        rw [List.getD_eq_getElem?_getD, List.getElem?_eq_getElem hj] at hn
        rw [List.getElem?_eq_getElem hj]
        simpa using hn
      have := hG j (.op d.op ks) (by rw [G.tg_getElem, hg]; rfl) c hc
      simpa [XG.tg] using this
    rw [List.forall₂_map_left_iff, List.forall₂_map_right_iff]
    rw [List.forall₂_same]
    intro c hc
    obtain ⟨h1, h2⟩ := hs c hc
    exact ⟨by omega, baseL_get G c h2⟩

theorem Plan.mono_get {L L' : List Step} (h : L <+: L') {i : Nat} {s : Step} (hi : L[i]? = some s) : L'[i]? = some s := by
  obtain ⟨r, rfl⟩ := h
  rw [List.getElem?_append_left (List.getElem?_eq_some_iff.1 hi).1]
  exact hi

theorem Plan.snoc {G : XG} {L : List Step} (h : Plan G L) {s : Step} (hs : match opOf G s.t with
    | some p => List.Forall₂ (fun c t => ∃ q : Step, L[c]? = some q ∧ q.t = t) s.ch p.2
    | none => s.ch = []) : Plan G (L ++ [s]) := by
  intro i q hq
  have key : ∀ {c : Nat} {r : Step}, L[c]? = some r → (L ++ [s])[c]? = some r := fun hc => Plan.mono_get (List.prefix_append ..) hc
  by_cases hi : i < L.length
  · rw [List.getElem?_append_left hi] at hq
    have := h i q hq
    cases ho : opOf G q.t with
    | none => rw [ho] at this; exact this
    | some p =>
      rw [ho] at this
      exact this.imp fun c t ⟨h1, r, h2, h3⟩ => ⟨h1, r, key h2, h3⟩
  · obtain rfl : i = L.length := by
      have := (List.getElem?_eq_some_iff.1 hq).1
      simp at this
      omega
    simp at hq
    subst hq
    cases ho : opOf G s.t with
    | none => rw [ho] at hs; exact hs
    | some p =>
      rw [ho] at hs
      exact hs.imp fun c t ⟨r, h2, h3⟩ => ⟨(List.getElem?_eq_some_iff.1 h2).1, r, key h2, h3⟩

mutual
/-- All operations added by `Grad` have the property `Q` for the shapes of their operands. -/
def XAll (Q : POp → List (List Nat) → Prop) (sh : Nat → List Nat) : XT → Prop
  | .node _ => True
  | .cst _ => True
  | .app o ts => Q o (XT.shapeL sh ts) ∧ XAllL Q sh ts
def XAllL (Q : POp → List (List Nat) → Prop) (sh : Nat → List Nat) : List XT → Prop
  | [] => True
  | a :: as => XAll Q sh a ∧ XAllL Q sh as
end

mutual
theorem xAll_true (sh : Nat → List Nat) : ∀ t : XT, XAll (fun _ _ => True) sh t
  | .node _ => by simp only [XAll]
  | .cst _ => by simp only [XAll]
  | .app _ ts => by simp only [XAll, true_and]; exact xAllL_true sh ts
theorem xAllL_true (sh : Nat → List Nat) : ∀ ts : List XT, XAllL (fun _ _ => True) sh ts
  | [] => by simp only [XAllL]
  | a :: as => by simp only [XAllL]; exact ⟨xAll_true sh a, xAllL_true sh as⟩
end

/-- All operations added by `Grad` depend only on the elements of their operands. -/
abbrev ExtAll : (Nat → List Nat) → XT → Prop := XAll POp.Ext
abbrev ExtAllL : (Nat → List Nat) → List XT → Prop := XAllL POp.Ext

/-- All nodes have a value at admissible inputs, and their operations have the property `Q`. -/
def Sound (Q : POp → List (List Nat) → Prop) (G : XG) (sh : Nat → List Nat) (L : List Step) : Prop :=
  ∀ s ∈ L, (∀ x, XOkay G sh x → ∃ v, s.t.eval (G.tg.value x) = .ok v) ∧ ∀ p, opOf G s.t = some p → Q p.1 (XT.shapeL sh p.2)

theorem getD_ge (G : XG) {j : Nat} (h : ¬ j < G.length) : G.getD j .leaf = .leaf := by
  rw [List.getD_eq_getElem?_getD, List.getElem?_eq_none (by omega)]
  rfl

mutual
theorem emit_spec (Q : POp → List (List Nat) → Prop) (G : XG) (sh : Nat → List Nat) (hG : G.tg.Sorted) : ∀ (t : XT) (L : List Step), baseL G <+: L → Plan G L → Sound Q G sh L →
    XAll Q sh t → (∀ x, XOkay G sh x → ∃ v, t.eval (G.tg.value x) = .ok v) →
    L <+: (emit G.length L t).1 ∧ Plan G (emit G.length L t).1 ∧ Sound Q G sh (emit G.length L t).1 ∧
      ∃ s, (emit G.length L t).1[(emit G.length L t).2]? = some s ∧ s.t = t
  | .node j, L, hb, hp, hs, _, hv => by
    simp only [emit]
    by_cases c : j < G.length
    · rw [if_pos c]
      obtain ⟨s, s1, s2⟩ := baseL_get G j c
      exact ⟨List.prefix_rfl, hp, hs, s, Plan.mono_get hb s1, s2⟩
    · rw [if_neg c]
      have ho : opOf G (.node j) = none := by simp only [opOf, getD_ge G c]
      refine ⟨List.prefix_append .., hp.snoc (by simp only [ho]), ?_, ⟨_, List.getElem?_concat_length, rfl⟩⟩
      intro s hs'
      rcases List.mem_append.1 hs' with h | h
      · exact hs s h
      · simp only [List.mem_singleton] at h
        subst h
        exact ⟨hv, fun p hp => by rw [ho] at hp; cases hp⟩
  | .cst c, L, _, hp, hs, _, hv => by
    simp only [emit]
    refine ⟨List.prefix_append .., hp.snoc (by simp only [opOf]), ?_, ⟨_, List.getElem?_concat_length, rfl⟩⟩
    intro s hs'
    rcases List.mem_append.1 hs' with h | h
    · exact hs s h
    · simp only [List.mem_singleton] at h
      subst h
      exact ⟨hv, fun p hp => by simp only [opOf] at hp; cases hp⟩
  | .app o ts, L, hb, hp, hs, he, hv => by
    simp only [emit]
    simp only [XAll] at he
    obtain ⟨h1, h2, h3, h4⟩ := emitL_spec Q G sh hG ts L hb hp hs he.2 (fun x hx => by
      obtain ⟨v, hv⟩ := hv x hx
      simp only [XT.eval] at hv
      obtain ⟨vs, h, -⟩ := AD.bind_ok.1 hv
      exact ⟨vs, h⟩)
    refine ⟨h1.trans (List.prefix_append ..), h2.snoc (by simp only [opOf]; exact h4), ?_, ⟨_, List.getElem?_concat_length, rfl⟩⟩
    intro s hs'
    rcases List.mem_append.1 hs' with h | h
    · exact h3 s h
    · simp only [List.mem_singleton] at h
      subst h
      exact ⟨hv, fun p hp => by simp only [opOf, Option.some.injEq] at hp; subst hp; exact he.1⟩
theorem emitL_spec (Q : POp → List (List Nat) → Prop) (G : XG) (sh : Nat → List Nat) (hG : G.tg.Sorted) : ∀ (ts : List XT) (L : List Step), baseL G <+: L → Plan G L → Sound Q G sh L →
    XAllL Q sh ts → (∀ x, XOkay G sh x → ∃ vs, XT.evalL (G.tg.value x) ts = .ok vs) →
    L <+: (emitL G.length L ts).1 ∧ Plan G (emitL G.length L ts).1 ∧ Sound Q G sh (emitL G.length L ts).1 ∧
      List.Forall₂ (fun c t => ∃ q, (emitL G.length L ts).1[c]? = some q ∧ q.t = t) (emitL G.length L ts).2 ts
  | [], L, _, hp, hs, _, _ => by
    simp only [emitL]
    exact ⟨List.prefix_rfl, hp, hs, .nil⟩
  | a :: as, L, hb, hp, hs, he, hv => by
    simp only [emitL]
    simp only [XAllL] at he
    obtain ⟨h1, h2, h3, s, h4, h5⟩ := emit_spec Q G sh hG a L hb hp hs he.1 (fun x hx => by
      obtain ⟨v, hv⟩ := hv x hx
      simp only [XT.evalL] at hv
      obtain ⟨v, h, -⟩ := AD.bind_ok.1 hv
      exact ⟨v, h⟩)
    obtain ⟨k1, k2, k3, k4⟩ := emitL_spec Q G sh hG as _ (hb.trans h1) h2 h3 he.2 (fun x hx => by
      obtain ⟨v, hv⟩ := hv x hx
      simp only [XT.evalL] at hv
      obtain ⟨v, -, hv⟩ := AD.bind_ok.1 hv
      obtain ⟨vs, h, -⟩ := AD.bind_ok.1 hv
      exact ⟨vs, h⟩)
    exact ⟨h1.trans k1, k2, k3, .cons ⟨s, Plan.mono_get k1 h4, h5⟩ k4⟩
end

theorem baseL_sound (Q : POp → List (List Nat) → Prop) (G : XG) (hG : G.tg.Sorted) (sh : Nat → List Nat)
    (hext : ∀ (j : Nat) (d : DOp) (ks : List Nat), G[j]? = some (.op d ks) → Q d.sym.op (ks.map sh)) : Sound Q G sh (baseL G) := by
  intro s hs
  unfold baseL at hs
  obtain ⟨i, hi, rfl⟩ := List.mem_map.1 hs
  have hi := List.mem_range.1 hi
  refine ⟨fun x hx => ⟨_, hx.1.ok hG _⟩, fun p hp => ?_⟩
  simp only [opOf] at hp
  have hj : G.length - 1 - i < G.length := by omega
  generalize G.length - 1 - i = j at *
  cases hn : G.getD j .leaf with
  | leaf => rw [hn] at hp; cases hp
  | cst c => rw [hn] at hp; cases hp
  | op d ks =>
    rw [hn] at hp
    cases hp
    have hg : G[j]? = some (.op d ks) := by
      rw [List.getD_eq_getElem?_getD, List.getElem?_eq_getElem hj] at hn
      rw [List.getElem?_eq_getElem hj]
      simpa using hn
    have : XT.shapeL sh (ks.map XT.node) = ks.map sh := by
      clear hg hn hs
      induction ks with
      | nil => rfl
      | cons k ks ih => simp only [List.map_cons, XT.shapeL, XT.shape, ih]
    simp only [this]
    exact hext j d ks hg

/-! ### The program is as `XSetup` wants it -/

theorem build_node {G : XG} {L : List Step} {gs : List Nat} {i : Nat} {s : Step} (h : L[i]? = some s) :
    (buildP G L gs).node i = { kind := kindOf G s.t, children := s.ch, hash := i, derivOfInput := gs.contains i } := by
  unfold Prog.node buildP
  rw [List.getD_eq_getElem?_getD, List.getElem?_mapIdx, h]
  rfl

theorem build_out {G : XG} {L : List Step} {gs : List Nat} {i : Nat} (h : ¬ i < L.length) : (buildP G L gs).node i = default := by
  unfold Prog.node buildP
  rw [List.getD_eq_getElem?_getD, List.getElem?_mapIdx, List.getElem?_eq_none (by omega)]
  rfl

theorem build_len (G : XG) (L : List Step) (gs : List Nat) : (buildP G L gs).length = L.length := by simp [buildP]

theorem build_stmt (G : XG) (L : List Step) (gs : List Nat) (i : Nat) : ((buildP G L gs).node i).stmt = false := by
  by_cases h : i < L.length
  · rw [build_node (List.getElem?_eq_getElem h)]
    unfold Tape.Node.stmt kindOf
    simp only
    cases opOf G L[i].t with
    | some p => rfl
    | none => cases cstOf G L[i].t <;> rfl
  · rw [build_out h]; rfl

/-- Labels: which weights a node is the derivative of. -/
def labels (ws gs : List Nat) (pos : Nat → Nat) (i : Nat) : List Nat :=
  (ws.zip gs).filterMap fun e => if e.2 = i then some (pos e.1) else none

theorem labels_count (pos : Nat → Nat) (i : Nat) : ∀ (ws gs : List Nat), ws.Nodup → (∀ w ∈ ws, ∀ w' ∈ ws, pos w' = pos w → w' = w) →
    ∀ (k w p : Nat), ws[k]? = some w → gs[k]? = some p → (labels ws gs pos i).count (pos w) = if i = p then 1 else 0 := by
  intro ws
  induction ws with
  | nil => intro gs _ _ k w p h; simp at h
  | cons v ws ih =>
    intro gs hn hp k w p hk hg
    cases gs with
    | nil => simp at hg
    | cons g gs =>
      have hz : ∀ (gs : List Nat), (labels ws gs pos i).count (pos v) = 0 := by
        intro gs
        rw [List.count_eq_zero]
        intro hm
        unfold labels at hm
        obtain ⟨e, e1, e2⟩ := List.mem_filterMap.1 hm
        split at e2
        · simp only [Option.some.injEq] at e2
          have hw : e.1 ∈ ws := (List.of_mem_zip e1).1
          have := hp v (by simp) e.1 (by simp [hw]) e2
          exact (List.nodup_cons.1 hn).1 (this ▸ hw)
        · cases e2
      cases k with
      | zero =>
        simp only [List.getElem?_cons_zero, Option.some.injEq] at hk hg
        subst hk hg
        unfold labels at hz ⊢
        simp only [List.zip_cons_cons, List.filterMap_cons]
        by_cases c : g = i
        · rw [if_pos c]
          simp only [List.count_cons, hz gs, beq_self_eq_true, if_true]
          rw [if_pos c.symm]
        · rw [if_neg c]
          simp only [hz gs]
          rw [if_neg (fun e => c e.symm)]
      | succ k =>
        simp only [List.getElem?_cons_succ] at hk hg
        have hw := List.mem_of_getElem? hk
        have := ih gs (List.nodup_cons.1 hn).2 (fun a ha b hb => hp a (by simp [ha]) b (by simp [hb])) k w p hk hg
        have hne : pos v ≠ pos w := fun e => (List.nodup_cons.1 hn).1 (by
          have := hp w (by simp [hw]) v (by simp) e
          exact this ▸ hw)
        unfold labels at this ⊢
        simp only [List.zip_cons_cons, List.filterMap_cons]
        by_cases c : g = i
        · rw [if_pos c]
          simp only [List.count_cons, this, beq_iff_eq, hne, if_false, Nat.add_zero]
        · rw [if_neg c]
          exact this

/-- Where the memory of the inputs is. -/
def adOf (G : XG) : Nat → Nat := fun w => min w G.length

/-- Where a node of the graph is in the program. -/
def posOf (G : XG) : Nat → Nat := fun w => G.length - 1 - w

def cfgOf (G : XG) (sh : Nat → List Nat) (ws gs : List Nat) : Cfg (T ℝ) :=
  { gn := fun i => { derivOf := labels ws gs (posOf G) i }
    only := ws.map (posOf G), add := elemN (· + ·), zero := fun p => zeroT (sh (G.length - 1 - p)), tens := fun _ => true }

/-- The nodes of the graph and the ones `Grad` added, and the positions of the gradients. -/
def planOf (G : XG) (res : List XT) : List Step × List Nat := emitL G.length (baseL G) res

theorem build_setup {Q : POp → List (List Nat) → Prop} {R : T ℝ → T ℝ → Prop} {nf : T ℝ → T ℝ} (hR : TRel R) (hnf : ∀ c, R (nf c) c)
    (hQ : ∀ o ss, Q o ss → Implements R (fun vs => (AD.Res.opt (o.run vs)).map nf) o ss) {G : XG} (hG : G.tg.Sorted) {sh : Nat → List Nat} {ws : List Nat} (hne : ws ≠ []) (hnd : ws.Nodup)
    (hws : ∀ w ∈ ws, w < G.length) {res : List XT} (hlen : res.length = ws.length)
    (hext : ∀ (j : Nat) (d : DOp) (ks : List Nat), G[j]? = some (.op d ks) → Q d.sym.op (ks.map sh)) (hres : XAllL Q sh res)
    (hval : ∀ x, XOkay G sh x → ∃ vs, XT.evalL (G.tg.value x) res = .ok vs)
    (hin : ∀ t ∈ res, kindOf G t ≠ .arg) {leaves : List Nat} (hl : ∀ l ∈ leaves, l < (planOf G res).1.length) :
    XSetup R (buildP G (planOf G res).1 (planOf G res).2) leaves (buildE nf G (planOf G res).1 (adOf G)) (G.length + 1) G sh ws res
      (cfgOf G sh ws (planOf G res).2) (posOf G) (adOf G) (fun i t => ∃ s, (planOf G res).1[i]? = some s ∧ s.t = t) := by
  obtain ⟨-, hp, hs, hg⟩ := emitL_spec Q G sh hG res (baseL G) List.prefix_rfl (baseL_plan G hG) (baseL_sound Q G hG sh hext) hres hval
  change Plan G (planOf G res).1 at hp
  change Sound Q G sh (planOf G res).1 at hs
  change List.Forall₂ (fun c t => ∃ q, (planOf G res).1[c]? = some q ∧ q.t = t) (planOf G res).2 res at hg
  generalize (planOf G res).1 = L at *
  generalize (planOf G res).2 = gs at *
  have hpi : ∀ w ∈ ws, ∀ w' ∈ ws, posOf G w' = posOf G w → w' = w := by
    intro w hw w' hw' h
    have h1 := hws w hw
    have h2 := hws w' hw'
    unfold posOf at h
    omega
  have hsem : ∀ i, ((buildE nf G L (adOf G)).sem i).pre = false ∧ ((buildE nf G L (adOf G)).sem i).ret = .fresh := by
    intro i
    simp only [buildE]
    cases L[i]? <;> exact ⟨rfl, rfl⟩
  exact
  { rel := hR
    wf := by
      refine ⟨fun i hi c hc => ?_, fun i h => ?_, fun i _ c _ => build_stmt G L gs c, fun i => ?_⟩
      · rw [build_len] at hi
        have hi' := List.getElem?_eq_getElem hi
        rw [build_node hi'] at hc
        have := hp i _ hi'
        cases ho : opOf G L[i].t with
        | none => rw [ho] at this; simp only [this] at hc; cases hc
        | some p =>
          rw [ho] at this
          simp only at this hc
          obtain ⟨k, hk, rfl⟩ := List.getElem_of_mem hc
          have := List.Forall₂.get this (i := k) hk (by rw [← this.length_eq]; exact hk)
          exact this.1
      · by_cases hi : i < L.length
        · have hi' := List.getElem?_eq_getElem hi
          rw [build_node hi'] at h ⊢
          have := hp i _ hi'
          cases ho : opOf G L[i].t with
          | none => rw [ho] at this; exact this
          | some p => simp [Tape.Node.live, kindOf, ho] at h
        · rw [build_out hi] at h; cases h
      · by_cases hi : i < L.length
        · rw [build_node (List.getElem?_eq_getElem hi)]
          show (-1 : Int) < _
          omega
        · rw [build_out hi]
          show (-1 : Int) < _
          omega
    leaves := fun l h => by rw [build_len]; exact hl l h
    noclash := by
      intro i j hi hj h
      rw [build_len] at hi hj
      rw [build_node (List.getElem?_eq_getElem hi), build_node (List.getElem?_eq_getElem hj)] at h
      exact h
    nolet := by
      intro i
      by_cases hi : i < L.length
      · rw [build_node (List.getElem?_eq_getElem hi)]; simp
      · rw [build_out hi]; show (0 : Nat) ≠ 1; omega
    safe := by
      intro i _ _ h
      rw [(hsem i).1] at h
      cases h
    inp := by
      intro i a h
      simp only [buildE] at h
      obtain ⟨s, -, h⟩ := Option.bind_eq_some_iff.1 h
      unfold inpOf at h
      have had : ∀ w, adOf G w < G.length + 1 := fun w => by unfold adOf; omega
      split at h
      · split at h
        · cases h; exact had _
        · cases h
      · cases h
    static := by
      intro i a _ h
      rw [(hsem i).2] at h
      cases h
    share := by
      intro i k _ h
      rw [(hsem i).2] at h
      cases h
    reads := by
      intro i _ h
      have := build_stmt G L gs i
      unfold Tape.Node.stmt at this
      rw [h] at this
      cases this
    all := by
      intro i hi _
      rw [build_len] at hi
      exact ⟨L[i].t, ⟨_, List.getElem?_eq_getElem hi, rfl⟩, (hs _ (List.getElem_mem hi)).1⟩
    comp := by
      rintro i t hi ⟨s, hi', rfl⟩
      have hP := hp i s hi'
      have hmem := List.mem_of_getElem? hi'
      have hE : (buildE nf G L (adOf G)).sem i = semT nf G s.t := by simp only [buildE, hi']
      have hI : (buildE nf G L (adOf G)).inp i = inpOf G (adOf G) s.t := by simp only [buildE, hi', Option.bind_some]
      unfold ComputesX
      rw [build_node hi', hE, hI]
      simp only
      cases ho : opOf G s.t with
      | some p =>
        rw [ho] at hP
        refine .inr (.inr ⟨p.1, p.2, by simp only [kindOf, ho], hP.imp fun c t h => h.2, ?_, ?_⟩)
        · intro xs y vs h1 h2 h3
          obtain ⟨v, v1, v2⟩ := hQ _ _ ((hs s hmem).2 p ho) xs y vs h1 h2 h3
          exact ⟨v, by simp only [semT, ho]; exact v1, v2⟩
        · cases ht : s.t with
          | cst c => rw [ht] at ho; cases ho
          | app o ts =>
            rw [ht] at ho
            cases ho
            exact .inl rfl
          | node j =>
            rw [ht] at ho
            simp only [opOf] at ho
            cases hn : G.getD j .leaf with
            | leaf => rw [hn] at ho; cases ho
            | cst c => rw [hn] at ho; cases ho
            | op d ks =>
              rw [hn] at ho
              cases ho
              exact .inr ⟨j, d, ks, rfl, hn, rfl, rfl⟩
      | none =>
        rw [ho] at hP
        cases ht : s.t with
        | app o ts => rw [ht] at ho; cases ho
        | cst c =>
          exact .inr (.inl ⟨c, nf c, by simp only [kindOf, opOf, cstOf], hP, by simp only [semT, opOf, cstOf], hnf c, .inl rfl⟩)
        | node j =>
          rw [ht] at ho
          simp only [opOf] at ho
          cases hn : G.getD j .leaf with
          | op d ks => rw [hn] at ho; cases ho
          | leaf =>
            exact .inl ⟨j, by simp only [kindOf, opOf, cstOf, hn], rfl, hn, by simp only [inpOf, hn]⟩
          | cst c =>
            exact .inr (.inl ⟨c, nf c, by simp only [kindOf, opOf, cstOf, hn], hP, by simp only [semT, opOf, cstOf, hn], hnf c,
              .inr ⟨j, rfl, hn⟩⟩)
    some_w := hne
    nodup := hnd
    own := by
      intro w hw w' h
      have := hws w hw
      unfold adOf at h
      omega
    apart := hpi
    adB := fun i => by unfold adOf; omega
    only := rfl
    add := rfl
    zero := by
      intro w hw
      have := hws w hw
      simp only [cfgOf, posOf]
      rw [show G.length - 1 - (G.length - 1 - w) = w by omega]
    noiop := fun _ => rfl
    label := by
      intro k w t hk ht
      have hk' : k < res.length := (List.getElem?_eq_some_iff.1 ht).1
      have hg' : k < gs.length := by rw [hg.length_eq]; exact hk'
      obtain ⟨q, q1, q2⟩ := List.Forall₂.get hg (i := k) hg' hk'
      simp only [List.get_eq_getElem] at q1 q2
      rw [(List.getElem?_eq_some_iff.1 ht).2] at q2
      have hlt := (List.getElem?_eq_some_iff.1 q1).1
      refine ⟨gs[k], by rw [build_len]; exact hlt, ?_, ⟨q, q1, q2⟩, ?_⟩
      · unfold isExec
        rw [build_stmt, build_node q1, q2]
        simp only [Bool.not_false, Bool.true_and, decide_eq_true_eq]
        exact hin t (List.mem_of_getElem? ht)
      · intro i _ _
        exact labels_count (posOf G) i ws gs hnd hpi k w gs[k] hk (List.getElem?_eq_getElem hg') }

/-- A new machine, with the values `x` of the inputs. -/
def startOf (G : XG) (x : Nat → T ℝ) : TS (T ℝ) (Option (T ℝ × T ℝ)) :=
  { m := { regs := fun _ => none, mem := x, bound := fun _ => none, next := G.length + 1, seen := [] }
    s := { bd := fun _ => .plain }
    c := fun _ => none }

theorem start_ready (nf : T ℝ → T ℝ) (G : XG) (L : List Step) (gs ws : List Nat) (sh : Nat → List Nat) (x : Nat → T ℝ) :
    Ready (buildP G L gs) (buildE nf G L (adOf G)) (G.length + 1) ws (posOf G) (adOf G) (fun w => zeroT (sh w)) (fun i => x (adOf G i))
      (startOf G x) where
  regs := fun _ => rfl
  next := Nat.le_refl _
  consts := by
    intro i a _ h
    simp only [buildE] at h
    cases hi : L[i]? <;> rw [hi] at h <;> cases h
  vals := fun _ => rfl
  queue := rfl
  derivs := fun _ _ => .inl rfl

theorem kindOf_new {G : XG} {t : XT} (h : ¬ t.Old) : kindOf G t ≠ .arg := by
  cases t with
  | node j => exact absurd trivial h
  | cst c => simp [kindOf, opOf, cstOf]
  | app o ts => simp [kindOf, opOf]

theorem training_with {Q : POp → List (List Nat) → Prop} {R : T ℝ → T ℝ → Prop} {nf : T ℝ → T ℝ} (hR : TRel R) (hnf : ∀ c, R (nf c) c)
    (hQ : ∀ o ss, Q o ss → Implements R (fun vs => (AD.Res.opt (o.run vs)).map nf) o ss) {G : XG} (hG : G.tg.Sorted) (users : Nat → Nat) (cost : Nat) (hcost : cost < G.length) {sh : Nat → List Nat}
    {ws : List Nat} (hne : ws ≠ []) (hnd : ws.Nodup)
    (hws : ∀ w ∈ ws, w < G.length ∧ (G.tg.gr.node w).input = true ∧ Reach G.tg.gr cost w) {res : List XT} {dv : Nat → Option XT}
    (hgrad : gradX G sh users (fun _ => none) cost ws = some (res, dv))
    (hext : ∀ (j : Nat) (d : DOp) (ks : List Nat), G[j]? = some (.op d ks) → Q d.sym.op (ks.map sh)) (hres : XAllL Q sh res)
    (leaves : List Nat) (hl : ∀ l ∈ leaves, l < (planOf G res).1.length)
    (node : Nat → Param → Option Param)
    (hnode : ∀ k n w g c, ∃ w' c', node k (.dense n w (some g) c) = some (.dense n w' (some fun _ => 0) c'))
    (x₀ : Nat → T ℝ) (hx₀ : ∀ w ∈ ws, (x₀ w).shape = sh w) :
    ∃ (xs : Nat → Nat → T ℝ) (cs : Nat → Nat → Option (T ℝ × T ℝ)), (∀ i, xs 0 i = x₀ (min i G.length)) ∧ cs 0 = (fun _ => none) ∧
      (∀ k, (∀ j, j < k → XOkay G sh (xs j)) →
        ∃ t', epochs (buildP G (planOf G res).1 (planOf G res).2) leaves (buildE nf G (planOf G res).1 (adOf G))
            (cfgOf G sh ws (planOf G res).2) (fun k => tensorSol (node k)) (posOf G) (adOf G) ws k (startOf G x₀) = some t' ∧
          (∀ w, w ≤ G.length → t'.m.mem w = xs k w) ∧ ∀ w ∈ ws, t'.c w = cs k w) ∧
      (∀ k i, i ∉ ws → xs (k + 1) i = xs k i) ∧ (∀ k, ∀ w ∈ ws, (xs k w).shape = sh w) ∧
      ∀ k, XOkay G sh (xs k) → ∃ d, IsGradient G.tg cost ws (xs k) d ∧ ∀ w ∈ ws,
        node k (.dense (size (sh w)) (flatD _ (xs k w)) (some (flatD _ (d w)))
          ((cs k w).map fun p => (flatD _ p.1, flatD _ p.2))) =
          some (.dense (size (sh w)) (flatD _ (xs (k + 1) w)) (some fun _ => 0)
            ((cs (k + 1) w).map fun p => (flatD _ p.1, flatD _ p.2))) := by
  have S := build_setup hR hnf hQ hG hne hnd (fun w hw => (hws w hw).1) (gradX_length hgrad) hext hres
    (fun x hx => gradX_evalL hG users cost hcost hne hws hgrad hx)
    (fun t ht => kindOf_new (AD.gradX_fresh G sh users cost ws hgrad t ht)) hl
  obtain ⟨xs, cs, h1, h2, h3, h4, h5, h6⟩ := training_symbolic hG users cost hcost hws hgrad S node hnode (fun i => x₀ (adOf G i))
    (fun w hw => by
      show (x₀ (min w G.length)).shape = _
      rw [Nat.min_eq_left (Nat.le_of_lt (hws w hw).1)]
      exact hx₀ w hw) (startOf G x₀) (start_ready nf G _ _ ws sh x₀)
  refine ⟨xs, cs, fun i => by rw [h1]; rfl, h2, fun k hk => ?_, h4, h5, h6⟩
  · obtain ⟨t', a, b, c⟩ := h3 k hk
    refine ⟨t', a, fun w hw => ?_, c⟩
    have := b.vals w
    unfold adOf at this
    rwa [Nat.min_eq_left hw] at this

/-- **C112 (the whole way).** For every sorted graph of tensor operations that depend only on the elements of their operands: if `Grad`
succeeds for the cost and the weights (`gradX`) and the program is made of the nodes of the
graph and the nodes that `Grad` added (`planOf`), then a new machine with these inputs can be run, stepped and reset `k` times as long
as all operations work and can be differentiated at the weights reached, and every round applies the solver to the weights and the
gradients of the cost at the current weights. -/
theorem training_built {G : XG} (hG : G.tg.Sorted) (users : Nat → Nat) (cost : Nat) (hcost : cost < G.length) {sh : Nat → List Nat}
    {ws : List Nat} (hne : ws ≠ []) (hnd : ws.Nodup)
    (hws : ∀ w ∈ ws, w < G.length ∧ (G.tg.gr.node w).input = true ∧ Reach G.tg.gr cost w) {res : List XT} {dv : Nat → Option XT}
    (hgrad : gradX G sh users (fun _ => none) cost ws = some (res, dv))
    (hext : ∀ (j : Nat) (d : DOp) (ks : List Nat), G[j]? = some (.op d ks) → d.sym.op.Ext (ks.map sh)) (hres : ExtAllL sh res)
    (leaves : List Nat) (hl : ∀ l ∈ leaves, l < (planOf G res).1.length)
    (node : Nat → Param → Option Param)
    (hnode : ∀ k n w g c, ∃ w' c', node k (.dense n w (some g) c) = some (.dense n w' (some fun _ => 0) c'))
    (x₀ : Nat → T ℝ) (hx₀ : ∀ w ∈ ws, (x₀ w).shape = sh w) :
    ∃ (xs : Nat → Nat → T ℝ) (cs : Nat → Nat → Option (T ℝ × T ℝ)), (∀ i, xs 0 i = x₀ (min i G.length)) ∧ cs 0 = (fun _ => none) ∧
      (∀ k, (∀ j, j < k → XOkay G sh (xs j)) →
        ∃ t', epochs (buildP G (planOf G res).1 (planOf G res).2) leaves (buildE norm G (planOf G res).1 (adOf G))
            (cfgOf G sh ws (planOf G res).2) (fun k => tensorSol (node k)) (posOf G) (adOf G) ws k (startOf G x₀) = some t' ∧
          (∀ w, w ≤ G.length → t'.m.mem w = xs k w) ∧ ∀ w ∈ ws, t'.c w = cs k w) ∧
      (∀ k i, i ∉ ws → xs (k + 1) i = xs k i) ∧ (∀ k, ∀ w ∈ ws, (xs k w).shape = sh w) ∧
      ∀ k, XOkay G sh (xs k) → ∃ d, IsGradient G.tg cost ws (xs k) d ∧ ∀ w ∈ ws,
        node k (.dense (size (sh w)) (flatD _ (xs k w)) (some (flatD _ (d w)))
          ((cs k w).map fun p => (flatD _ p.1, flatD _ p.2))) =
          some (.dense (size (sh w)) (flatD _ (xs (k + 1) w)) (some fun _ => 0)
            ((cs (k + 1) w).map fun p => (flatD _ p.1, flatD _ p.2))) :=
  training_with (Q := POp.Ext) (R := T.Same) (nf := norm) ⟨same_refl, fun _ _ h => h⟩ (fun c => ⟨rfl, fun i hi => ofD_flatD_at c hi⟩)
    (fun o ss h xs y vs h1 h2 h3 => by
      obtain ⟨v, v1, v2⟩ := h xs y vs h1 h2 h3
      exact ⟨norm v, by simp only [v1, AD.Res.opt, Option.map_some],
        Shape.same_trans (u := v) ⟨rfl, fun i hi => ofD_flatD_at v hi⟩ v2⟩)
    hG users cost hcost hne hnd hws hgrad hext hres leaves hl node hnode x₀ hx₀

/-- **C112 (the whole way, all operations).** For every sorted graph of tensor operations (`DOp`): if `Grad`
succeeds for the cost and the weights (`gradX`) and the program is made of the nodes of the
graph and the nodes that `Grad` added (`planOf`), then a new machine with these inputs can be run, stepped and reset `k` times as long
as all operations work and can be differentiated at the weights reached, and every round applies the solver to the weights and the
gradients of the cost at the current weights. -/
theorem training_all {G : XG} (hG : G.tg.Sorted) (users : Nat → Nat) (cost : Nat) (hcost : cost < G.length) {sh : Nat → List Nat}
    {ws : List Nat} (hne : ws ≠ []) (hnd : ws.Nodup)
    (hws : ∀ w ∈ ws, w < G.length ∧ (G.tg.gr.node w).input = true ∧ Reach G.tg.gr cost w) {res : List XT} {dv : Nat → Option XT}
    (hgrad : gradX G sh users (fun _ => none) cost ws = some (res, dv))
    (leaves : List Nat) (hl : ∀ l ∈ leaves, l < (planOf G res).1.length)
    (node : Nat → Param → Option Param)
    (hnode : ∀ k n w g c, ∃ w' c', node k (.dense n w (some g) c) = some (.dense n w' (some fun _ => 0) c'))
    (x₀ : Nat → T ℝ) (hx₀ : ∀ w ∈ ws, (x₀ w).shape = sh w) :
    ∃ (xs : Nat → Nat → T ℝ) (cs : Nat → Nat → Option (T ℝ × T ℝ)), (∀ i, xs 0 i = x₀ (min i G.length)) ∧ cs 0 = (fun _ => none) ∧
      (∀ k, (∀ j, j < k → XOkay G sh (xs j)) →
        ∃ t', epochs (buildP G (planOf G res).1 (planOf G res).2) leaves (buildE id G (planOf G res).1 (adOf G))
            (cfgOf G sh ws (planOf G res).2) (fun k => tensorSol (node k)) (posOf G) (adOf G) ws k (startOf G x₀) = some t' ∧
          (∀ w, w ≤ G.length → t'.m.mem w = xs k w) ∧ ∀ w ∈ ws, t'.c w = cs k w) ∧
      (∀ k i, i ∉ ws → xs (k + 1) i = xs k i) ∧ (∀ k, ∀ w ∈ ws, (xs k w).shape = sh w) ∧
      ∀ k, XOkay G sh (xs k) → ∃ d, IsGradient G.tg cost ws (xs k) d ∧ ∀ w ∈ ws,
        node k (.dense (size (sh w)) (flatD _ (xs k w)) (some (flatD _ (d w)))
          ((cs k w).map fun p => (flatD _ p.1, flatD _ p.2))) =
          some (.dense (size (sh w)) (flatD _ (xs (k + 1) w)) (some fun _ => 0)
            ((cs (k + 1) w).map fun p => (flatD _ p.1, flatD _ p.2))) :=
  training_with (Q := fun _ _ => True) (R := Eq) (nf := id) ⟨fun _ => rfl, fun _ _ h => h ▸ same_refl _⟩ (fun _ => rfl)
    (fun o ss _ xs y vs _ h2 h3 => by
      rw [List.forall₂_eq_eq_eq] at h3
      subst h3
      exact ⟨y, by simp only [h2, AD.Res.opt, Option.map_some, id], rfl⟩)
    hG users cost hcost hne hnd hws hgrad (fun _ _ _ _ => trivial) (xAllL_true sh res) leaves hl node hnode x₀ hx₀

end

end Verif.Train
