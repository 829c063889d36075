import Verif.Train.Tensor
import Verif.AD.Symbolic
/-!
The training loop on graphs of tensor operations, with a program whose gradient nodes are the ones that `Grad` built.
-/
set_option autoImplicit false
namespace Verif.Train
open Verif.Shape (Res elem scalarT pair)
open Verif.Tensor (T InB size ravel unravel)
open Verif.Tape (upd upd_same upd_ne Prog Env M compile runAll reset value WF)
open Verif.AD (TG TOp TNode gradT theT Moves zeroT Reach XT XG XNode POp DOp gradX)
open Verif.Solver (Fields vanillaNode Param processed ClipOk Dense)

noncomputable section

theorem norm_same {a b : T ℝ} (h : a.Same b) : norm a = norm b := by
  obtain ⟨h1, h2⟩ := h
  unfold norm
  rw [← h1]
  congr 1
  funext k
  have hk := Tensor.inB_unravel k.2
  have := h2 _ hk
  simp only [flatD, ← h1, this]

/-- In the model a tensor is a function on all lists of numbers; `R` says when two of them are taken to be the same tensor: when they are
equal, or when their elements are. -/
def TRel (R : T ℝ → T ℝ → Prop) : Prop := (∀ a, R a a) ∧ ∀ a b, R a b → a.Same b

/-- What is computed at `f` is what the operation `o` computes on operands of the shapes `ss`. -/
def Implements (R : T ℝ → T ℝ → Prop) (f : List (T ℝ) → Option (T ℝ)) (o : POp) (ss : List (List Nat)) : Prop :=
  ∀ xs y vs, xs.map (·.shape) = ss → o.run xs = .ok y → List.Forall₂ R vs xs → ∃ v, f vs = some v ∧ R v y

/-- Node `i` of the program is made for the expression `t` over the graph: an input, a constant, or an operation on nodes that
are made for its operands. -/
def ComputesX (R : T ℝ → T ℝ → Prop) (P : Prog) (E : Env (T ℝ)) (G : XG) (sh : Nat → List Nat) (ad : Nat → Nat) (D : Nat → XT → Prop)
    (i : Nat) (t : XT) : Prop :=
  (∃ w, (P.node i).kind = .arg ∧ t = .node w ∧ G.getD w .leaf = .leaf ∧ E.inp i = some (ad w)) ∨
  (∃ c v, (P.node i).kind = .const ∧ (P.node i).children = [] ∧ (E.sem i).f [] = some v ∧ R v c ∧
    (t = .cst c ∨ ∃ j, t = .node j ∧ G.getD j .leaf = .cst c)) ∨
  (∃ (o : POp) (ts : List XT), (P.node i).kind = .op ∧ List.Forall₂ D (P.node i).children ts ∧
    Implements R (E.sem i).f o (XT.shapeL sh ts) ∧
    (t = .app o ts ∨ ∃ j d ks, t = .node j ∧ G.getD j .leaf = .op d ks ∧ d.sym.op = o ∧ ts = ks.map XT.node))

/-- The inputs at which all operations of the graph work and can be differentiated and the nodes have the shapes `sh`. -/
def XOkay (G : XG) (sh : Nat → List Nat) (x : Nat → T ℝ) : Prop :=
  G.tg.Fine x ∧ ∀ i y, G.tg.value x i = .ok y → sh i = y.shape

theorem xg_getD (G : XG) (i : Nat) : G.tg.getD i .leaf = (G.getD i .leaf).tnode := by
  rw [List.getD_eq_getElem?_getD, List.getD_eq_getElem?_getD, G.tg_getElem]
  cases G[i]? <;> rfl

theorem same_refl (a : T ℝ) : a.Same a := ⟨rfl, fun _ _ => rfl⟩

theorem computesX_value (P : Prog) (W : WF P) (E : Env (T ℝ)) (G : XG) (hG : G.tg.Sorted) {R : T ℝ → T ℝ → Prop}
    (hR : TRel R) (sh : Nat → List Nat) (ad : Nat → Nat)
    (D : Nat → XT → Prop) (hD : ∀ i t, i < P.length → D i t → ComputesX R P E G sh ad D i t) (mem : Nat → T ℝ)
    (hx : ∀ i y, G.tg.value (fun w => mem (ad w)) i = .ok y → sh i = y.shape) :
    ∀ i t v, i < P.length → D i t → t.eval (G.tg.value fun w => mem (ad w)) = .ok v →
      ∃ u, value P E mem i = some u ∧ R u v := by
  intro i
  induction i using Nat.strong_induction_on with
  | _ i ih =>
    intro t v hi ht hv
    rw [Tape.value_eq P W E mem i hi]
    unfold Tape.evalNode
    rcases hD i t hi ht with ⟨w, hk, rfl, hl, hinp⟩ | ⟨c, u, hk, hch, hf, hs, ht'⟩ | ⟨o, ts, hk, hch, himp, ht'⟩
    · rw [hk]
      simp only [hinp, Option.map_some]
      have := TG.value_eq G.tg hG (fun w => mem (ad w)) w
      rw [xg_getD, hl] at this
      simp only [XNode.tnode] at this
      simp only [XT.eval] at hv
      rw [this] at hv
      cases hv
      exact ⟨_, rfl, hR.1 _⟩
    · rw [hk, hch]
      simp only [List.mapM_nil]
      rw [show (pure [] : Option (List (T ℝ))) = some [] from rfl, Option.bind_some, hf]
      refine ⟨u, rfl, ?_⟩
      rcases ht' with rfl | ⟨j, rfl, hj⟩
      · simp only [XT.eval, Res.ok.injEq] at hv
        subst hv
        exact hs
      · have := TG.value_eq G.tg hG (fun w => mem (ad w)) j
        rw [xg_getD, hj] at this
        simp only [XNode.tnode] at this
        simp only [XT.eval] at hv
        rw [this] at hv
        cases hv
        exact hs
    · obtain ⟨xs, h1, h2⟩ : ∃ xs, XT.evalL (G.tg.value fun w => mem (ad w)) ts = .ok xs ∧ o.run xs = .ok v := by
        rcases ht' with rfl | ⟨j, d, ks, rfl, hj, hd, hts⟩
        · simp only [XT.eval] at hv
          exact AD.bind_ok.1 hv
        · have := TG.value_eq G.tg hG (fun w => mem (ad w)) j
          rw [xg_getD, hj] at this
          simp only [XNode.tnode] at this
          simp only [XT.eval] at hv
          rw [this] at hv
          obtain ⟨xs, x1, x2⟩ := AD.bind_ok.1 hv
          refine ⟨xs, ?_, by rw [← hd, ← d.of.run]; exact x2⟩
          rw [XT.evalL_ok, hts]
          have hx1 := AD.resAll_ok x1
          clear x1 x2 hts hj hv ht this
          induction ks generalizing xs with
          | nil => cases xs with
            | nil => exact .nil
            | cons a as => simp at hx1
          | cons k ks ih' =>
            cases xs with
            | nil => simp at hx1
            | cons a as =>
              simp only [List.map_cons, List.cons.injEq] at hx1
              exact .cons hx1.1 (ih' as hx1.2)
      have hshape := XT.shapeL_eval hx ts xs h1
      have hkids : ∀ c ∈ (P.node i).children, c < i := fun c hc => W.before i hi c hc
      obtain ⟨vs, v1, v2⟩ : ∃ vs, (P.node i).children.mapM (value P E mem) = some vs ∧ List.Forall₂ R vs xs := by
        have h1' := XT.evalL_ok.1 h1
        clear h1 h2 hshape himp ht' hv
        generalize (P.node i).children = ch at hch hkids
        induction hch generalizing xs with
        | nil =>
          cases h1'
          exact ⟨[], rfl, .nil⟩
        | @cons c t' cs ts' hct _ ih' =>
          cases h1' with
          | @cons _ x _ xs' hx1 hx2 =>
            obtain ⟨u, u1, u2⟩ := ih c (hkids c (by simp)) t' x (by have := hkids c (by simp); omega) hct hx1
            obtain ⟨us, w1, w2⟩ := ih' xs' hx2 (fun c' hc' => hkids c' (by simp [hc']))
            refine ⟨u :: us, ?_, .cons u2 w2⟩
            rw [List.mapM_cons, u1, w1]
            rfl
      obtain ⟨u, u1, u2⟩ := himp xs v vs hshape.symm h2 v2
      rw [hk, v1]
      exact ⟨u, u1, u2⟩

/-- What is assumed of the program. `res` are the gradient nodes that `Grad` returned for the weights `ws`; `D i t`: the node at `i`
is made for the expression `t`. -/
structure XSetup (R : T ℝ → T ℝ → Prop) (P : Prog) (leaves : List Nat) (E : Env (T ℝ)) (B : Nat) (G : XG) (sh : Nat → List Nat) (ws : List Nat)
    (res : List XT) (C : Cfg (T ℝ)) (pos ad : Nat → Nat) (D : Nat → XT → Prop) : Prop where
  rel : TRel R
  wf : WF P
  leaves : ∀ l ∈ leaves, l < P.length
  noclash : Tape.NoClash P
  nolet : Tape.NoLet P
  safe : Tape.Safe P E
  inp : ∀ i a, E.inp i = some a → a < B
  static : ∀ i a, i < P.length → (E.sem i).ret = .static a →
    (P.node i).kind = .const ∧ a < B ∧ ∀ w ∈ ws, a ≠ ad w
  share : ∀ i k, i < P.length → (E.sem i).ret = .alias k → ∀ vs y, (E.sem i).f vs = some y → vs[k]? = some y
  reads : ∀ i, i < P.length → (P.node i).kind = .readS → (P.node i).children.length = 1
  /-- Every node is made for an expression that has a value. -/
  all : ∀ i, i < P.length → (P.node i).stmt = false → ∃ t, D i t ∧ ∀ x, XOkay G sh x → ∃ v, t.eval (G.tg.value x) = .ok v
  comp : ∀ i t, i < P.length → D i t → ComputesX R P E G sh ad D i t
  /-- Weights are different nodes, with memory of their own. -/
  some_w : ws ≠ []
  nodup : ws.Nodup
  own : ∀ w ∈ ws, ∀ w', ad w' = ad w → w' = w
  apart : ∀ w ∈ ws, ∀ w' ∈ ws, pos w' = pos w → w' = w
  adB : ∀ i, ad i < B
  /-- `BindDualValues` got the weights; tensors are added elementwise. -/
  only : C.only = ws.map pos
  add : C.add = elemN (· + ·)
  zero : ∀ w ∈ ws, C.zero (pos w) = zeroT (sh w)
  noiop : ∀ i, (C.gn i).iop = false
  /-- The node made for the gradient of a weight is labelled as its derivative (once), no other is (differentiation.go 256,
  262). -/
  label : ∀ (k w : Nat) (t : XT), ws[k]? = some w → res[k]? = some t → ∃ p, p < P.length ∧ isExec P p = true ∧ D p t ∧
    ∀ i, i < P.length → isExec P i = true → (C.gn i).derivOf.count (pos w) = if i = p then 1 else 0

theorem XOkay.okay {G : XG} (hG : G.tg.Sorted) {sh : Nat → List Nat} {cost : Nat} (hc : sh cost = []) {ws : List Nat}
    (hws : ∀ w ∈ ws, (G.tg.gr.node w).input = true) {x : Nat → T ℝ} (h : XOkay G sh x) : TOkay G.tg cost ws sh x := by
  refine ⟨h.1, ⟨_, h.1.ok hG cost, by rw [← h.2 cost _ (h.1.ok hG cost), hc]⟩, fun w hw => ?_⟩
  have hv := TG.value_eq G.tg hG x w
  have hl : G.tg.getD w .leaf = .leaf := by
    have := hws w hw
    simp only [AD.Gr.node, AD.TG.gr, List.getD_eq_getElem?_getD, List.getElem?_map] at this ⊢
    cases hn : G.tg[w]? with
    | none => rfl
    | some n =>
      rw [hn] at this
      cases n with
      | leaf => rfl
      | cst t => simp [AD.TNode.gnode] at this
      | op o ks => simp [AD.TNode.gnode] at this
  rw [hl] at hv
  exact (h.2 w _ hv).symm

theorem gradX_scalar {G : XG} {sh : Nat → List Nat} {users : Nat → Nat} {cost : Nat} {ws : List Nat} {res : List XT}
    {dv : Nat → Option XT} (hgrad : gradX G sh users (fun _ => none) cost ws = some (res, dv)) : sh cost = [] := by
  unfold gradX at hgrad
  by_contra hne
  rw [if_neg (fun h => hne h.1)] at hgrad
  cases hgrad

/-- There are as many gradients as weights. -/
theorem gradX_length {G : XG} {sh : Nat → List Nat} {users : Nat → Nat} {cost : Nat} {ws : List Nat} {res : List XT}
    {dv : Nat → Option XT} (hgrad : gradX G sh users (fun _ => none) cost ws = some (res, dv)) : res.length = ws.length := by
  unfold gradX at hgrad
  split at hgrad
  · unfold AD.backprop at hgrad
    simp only [Option.bind_eq_bind] at hgrad
    obtain ⟨F, -, hgrad⟩ := Option.bind_eq_some_iff.1 hgrad
    obtain ⟨B, -, hgrad⟩ := Option.bind_eq_some_iff.1 hgrad
    split at hgrad
    · cases hgrad
    · split at hgrad
      · cases hgrad
      · obtain ⟨s, -, hgrad⟩ := Option.bind_eq_some_iff.1 hgrad
        obtain ⟨l, hl, hgrad⟩ := Option.bind_eq_some_iff.1 hgrad
        cases hgrad
        have : ∀ (l : List Nat) (r : List XT), (l.mapM fun w => (s.gm w).head?) = some r → r.length = l.length := by
          intro l
          induction l with
          | nil => intro r h; simp only [List.mapM_nil, Option.pure_def, Option.some.injEq] at h; subst h; rfl
          | cons a l ih =>
            intro r h
            simp only [List.mapM_cons, Option.bind_eq_bind, Option.pure_def] at h
            obtain ⟨b, -, h⟩ := Option.bind_eq_some_iff.1 h
            obtain ⟨bs, h1, h⟩ := Option.bind_eq_some_iff.1 h
            cases h
            simp [ih bs h1]
        exact this ws _ hl
  · cases hgrad

/-- What is known of the gradient nodes at admissible inputs. -/
theorem gradX_values {G : XG} (hG : G.tg.Sorted) (users : Nat → Nat) (cost : Nat) (hcost : cost < G.length) {sh : Nat → List Nat}
    {ws : List Nat} (hne : ws ≠ []) (hws : ∀ w ∈ ws, w < G.length ∧ (G.tg.gr.node w).input = true ∧ Reach G.tg.gr cost w)
    {res : List XT} {dv : Nat → Option XT} (hgrad : gradX G sh users (fun _ => none) cost ws = some (res, dv)) :
    ∀ x, XOkay G sh x → ∀ (k w : Nat), ws[k]? = some w → ∃ (t : XT) (r : T ℝ), res[k]? = some t ∧
      t.eval (G.tg.value x) = .ok r ∧ gradAt G.tg users cost ws x w = norm r ∧ r.shape = sh w := by
  have hsc := gradX_scalar hgrad
  have hgl : G.tg.length = G.length := by simp [XG.tg]
  intro x hx k w hk
  have hw := List.mem_of_getElem? hk
  have hok := hx.okay hG hsc (fun w hw => (hws w hw).2.1)
  obtain ⟨⟨rs, d⟩, hg⟩ := (AD.gradT_succeeds_iff G.tg hG x hx.1 users (fun _ => none) cost ws fun _ _ _ => rfl).2
    ⟨hok.2.1, hne, fun w hw => (hws w hw).2⟩
  obtain ⟨es, dv', e1, e2⟩ := AD.gradX_eval G hG x hx.1 sh hx.2 users cost ws hg
  rw [hgrad] at e1
  cases e1
  obtain ⟨r, r1, r2, -⟩ := AD.gradT_correct G.tg hG x hx.1 users (fun _ => none) cost (by rw [hgl]; exact hcost) ws (fun _ _ _ => rfl)
    (fun w hw => by rw [hgl]; exact (hws w hw).1) rs d hg
  have hkr : rs[k]? = some (r w) := by rw [r1, List.getElem?_map, hk]; rfl
  have hlk : k < rs.length := (List.getElem?_eq_some_iff.1 hkr).1
  have hle : k < res.length := by rw [e2.length_eq]; exact hlk
  refine ⟨res[k], r w, List.getElem?_eq_getElem hle, ?_, ?_, ?_⟩
  · have := List.Forall₂.get e2 (i := k) hle hlk
    simp only [List.get_eq_getElem] at this
    rw [(List.getElem?_eq_some_iff.1 hkr).2] at this
    exact this
  · unfold gradAt
    rw [hg]
    have hi := List.idxOf_lt_length_iff.2 hw
    simp only
    rw [r1, List.getD_eq_getElem?_getD, List.getElem?_map, List.getElem?_eq_getElem hi, List.getElem_idxOf hi]
    rfl
  · rw [r2 w hw, hok.2.2 w hw]

/-- **C112 (gradient nodes).** The nodes that `Grad` builds, once and without looking at any values, compute the gradient of the cost at
every input at which the operations of the graph work and can be differentiated and the nodes have their shapes. If there is such an
input, `Grad` succeeds. -/
theorem gradX_correct {G : XG} (hG : G.tg.Sorted) (users : Nat → Nat) (cost : Nat) (hcost : cost < G.length) {sh : Nat → List Nat}
    (hsc : sh cost = []) {ws : List Nat} (hne : ws ≠ [])
    (hws : ∀ w ∈ ws, w < G.length ∧ (G.tg.gr.node w).input = true ∧ Reach G.tg.gr cost w) (hx : ∃ x, XOkay G sh x) :
    ∃ res dv, gradX G sh users (fun _ => none) cost ws = some (res, dv) ∧ res.length = ws.length ∧
      ∀ x, XOkay G sh x → ∃ r, IsGradient G.tg cost ws x r ∧ ∀ (k w : Nat), ws[k]? = some w → ∃ (t : XT) (v : T ℝ), res[k]? = some t ∧
        t.eval (G.tg.value x) = .ok v ∧ v.Same (r w) := by
  obtain ⟨x, hx⟩ := hx
  have hok := hx.okay hG hsc (fun w hw => (hws w hw).2.1)
  obtain ⟨⟨rs, d⟩, hg⟩ := (AD.gradT_succeeds_iff G.tg hG x hx.1 users (fun _ => none) cost ws fun _ _ _ => rfl).2
    ⟨hok.2.1, hne, fun w hw => (hws w hw).2⟩
  obtain ⟨res, dv, hgrad, -⟩ := AD.gradX_eval G hG x hx.1 sh hx.2 users cost ws hg
  refine ⟨res, dv, hgrad, gradX_length hgrad, fun x hx => ?_⟩
  have hgl : G.tg.length = G.length := by simp [XG.tg]
  refine ⟨_, gradAt_gradient G.tg hG users cost (by rw [hgl]; exact hcost) ws hne (fun w hw => by rw [hgl]; exact hws w hw) sh x
    (hx.okay hG hsc fun w hw => (hws w hw).2.1), fun k w hk => ?_⟩
  obtain ⟨t, v, h1, h2, h3, -⟩ := gradX_values hG users cost hcost hne hws hgrad x hx k w hk
  refine ⟨t, v, h1, h2, ?_⟩
  rw [h3]
  refine ⟨rfl, fun i hi => ?_⟩
  simp only [norm, ofD, flatD, dif_pos (Tensor.ravel_lt hi), Tensor.unravel_ravel hi]

theorem gradX_evalL {G : XG} (hG : G.tg.Sorted) (users : Nat → Nat) (cost : Nat) (hcost : cost < G.length) {sh : Nat → List Nat}
    {ws : List Nat} (hne : ws ≠ []) (hws : ∀ w ∈ ws, w < G.length ∧ (G.tg.gr.node w).input = true ∧ Reach G.tg.gr cost w)
    {res : List XT} {dv : Nat → Option XT} (hgrad : gradX G sh users (fun _ => none) cost ws = some (res, dv)) {x : Nat → T ℝ}
    (hx : XOkay G sh x) : ∃ vs, XT.evalL (G.tg.value x) res = .ok vs := by
  have H := gradX_values hG users cost hcost hne hws hgrad x hx
  have hl := gradX_length hgrad
  refine ⟨res.map fun t => theT (t.eval (G.tg.value x)), XT.evalL_ok.2 ?_⟩
  rw [List.forall₂_map_right_iff, List.forall₂_same]
  intro t ht
  obtain ⟨k, hk, rfl⟩ := List.getElem_of_mem ht
  obtain ⟨t, r, h1, h2, -⟩ := H k _ (List.getElem?_eq_getElem (by rw [← hl]; exact hk))
  rw [List.getElem?_eq_getElem hk] at h1
  cases h1
  rw [h2]
  rfl

theorem XSetup.setup {R : T ℝ → T ℝ → Prop} {P : Prog} {leaves : List Nat} {E : Env (T ℝ)} {B : Nat} {G : XG} (hG : G.tg.Sorted) (users : Nat → Nat)
    (cost : Nat) (hcost : cost < G.length) {sh : Nat → List Nat} {ws : List Nat}
    (hws : ∀ w ∈ ws, w < G.length ∧ (G.tg.gr.node w).input = true ∧ Reach G.tg.gr cost w) {res : List XT} {dv : Nat → Option XT}
    (hgrad : gradX G sh users (fun _ => none) cost ws = some (res, dv)) {C : Cfg (T ℝ)} {pos ad : Nat → Nat}
    {D : Nat → XT → Prop} (S : XSetup R P leaves E B G sh ws res C pos ad D) :
    Setup P leaves E B ws C pos ad (XOkay G sh) (gradAt G.tg users cost ws) (fun w => zeroT (sh w)) := by
  have hres := gradX_values hG users cost hcost S.some_w hws hgrad
  exact
  { wf := S.wf
    leaves := S.leaves
    noclash := S.noclash
    nolet := S.nolet
    safe := S.safe
    inp := S.inp
    static := S.static
    share := S.share
    reads := S.reads
    defined := by
      intro mem hx i hi hs
      obtain ⟨t, ht, hv⟩ := S.all i hi hs
      obtain ⟨v, hv⟩ := hv _ hx
      obtain ⟨u, u1, -⟩ := computesX_value P S.wf E G hG S.rel sh ad D S.comp mem hx.2 i t v hi ht hv
      rw [u1]; simp
    some_w := S.some_w
    nodup := S.nodup
    own := S.own
    apart := S.apart
    adB := S.adB
    only := S.only
    zero := S.zero
    noiop := S.noiop
    label := by
      intro w hw
      obtain ⟨k, hk, hkw⟩ := List.getElem_of_mem hw
      have hk1 : ws[k]? = some w := by rw [List.getElem?_eq_getElem hk, hkw]
      have hlen : k < res.length := by rw [gradX_length hgrad]; exact hk
      obtain ⟨p, hp, hpe, hD, hcount⟩ := S.label k w res[k] hk1 (List.getElem?_eq_getElem hlen)
      refine ⟨p, hp, hpe, fun mem hx => ?_, hcount⟩
      obtain ⟨t, r, h1, h2, h3, hr⟩ := hres _ hx k w hk1
      rw [List.getElem?_eq_getElem hlen] at h1
      cases h1
      obtain ⟨u, u1, u2⟩ := computesX_value P S.wf E G hG S.rel sh ad D S.comp mem hx.2 p _ r hp hD h2
      have u2 := S.rel.2 _ _ u2
      refine ⟨u, u1, ?_⟩
      have hu : u.shape = sh w := u2.1.trans hr
      rw [S.add, h3, ← norm_same u2, elemN_eq _ (sh w) _ _ rfl hu]
      rw [← hu]
      simp only [Option.some.injEq]
      unfold norm
      congr 1
      funext k
      simp [flatD, zeroT] }

/-- **C112 (training).** Let `Grad` have built the gradient nodes `res` for the cost and the weights of a graph of tensor operations
(`gradX`), and let the program consist of nodes made for the nodes of the graph and for these gradient nodes (`XSetup`). Then, with any
solver that succeeds and zeroes the gradient, as long as all operations work and can be differentiated at the weights reached
(`XOkay`): `k` rounds of `RunAll; Step; Reset` succeed; in every round the solver is applied to the elements of each weight and of
the gradient of the cost at the current weights; the other inputs stay as they are. -/
theorem training_symbolic {R : T ℝ → T ℝ → Prop} {P : Prog} {leaves : List Nat} {E : Env (T ℝ)} {B : Nat} {G : XG} (hG : G.tg.Sorted) (users : Nat → Nat)
    (cost : Nat) (hcost : cost < G.length) {sh : Nat → List Nat} {ws : List Nat}
    (hws : ∀ w ∈ ws, w < G.length ∧ (G.tg.gr.node w).input = true ∧ Reach G.tg.gr cost w) {res : List XT} {dv : Nat → Option XT}
    (hgrad : gradX G sh users (fun _ => none) cost ws = some (res, dv)) {C : Cfg (T ℝ)} {pos ad : Nat → Nat}
    {D : Nat → XT → Prop} (S : XSetup R P leaves E B G sh ws res C pos ad D) (node : Nat → Param → Option Param)
    (hnode : ∀ k n w g c, ∃ w' c', node k (.dense n w (some g) c) = some (.dense n w' (some fun _ => 0) c'))
    (x₀ : Nat → T ℝ) (hx₀ : ∀ w ∈ ws, (x₀ w).shape = sh w) (t : TS (T ℝ) (Option (T ℝ × T ℝ)))
    (H : Ready P E B ws pos ad (fun w => zeroT (sh w)) x₀ t) :
    ∃ (xs : Nat → Nat → T ℝ) (cs : Nat → Nat → Option (T ℝ × T ℝ)), xs 0 = x₀ ∧ cs 0 = t.c ∧
      (∀ k, (∀ j, j < k → XOkay G sh (xs j)) →
        ∃ t', epochs P leaves E C (fun k => tensorSol (node k)) pos ad ws k t = some t' ∧
          Ready P E B ws pos ad (fun w => zeroT (sh w)) (xs k) t' ∧ ∀ w ∈ ws, t'.c w = cs k w) ∧
      (∀ k i, i ∉ ws → xs (k + 1) i = xs k i) ∧ (∀ k, ∀ w ∈ ws, (xs k w).shape = sh w) ∧
      ∀ k, XOkay G sh (xs k) → ∃ d, IsGradient G.tg cost ws (xs k) d ∧ ∀ w ∈ ws,
        node k (.dense (size (sh w)) (flatD _ (xs k w)) (some (flatD _ (d w)))
          ((cs k w).map fun p => (flatD _ p.1, flatD _ p.2))) =
          some (.dense (size (sh w)) (flatD _ (xs (k + 1) w)) (some fun _ => 0)
            ((cs (k + 1) w).map fun p => (flatD _ p.1, flatD _ p.2))) := by
  have hgl : G.tg.length = G.length := by simp [XG.tg]
  have hsc := gradX_scalar hgrad
  exact training_okay hG users cost (by rw [hgl]; exact hcost) (fun w hw => by rw [hgl]; exact hws w hw) sh
    (fun x hx => hx.okay hG hsc fun w hw => (hws w hw).2.1) (S.setup hG users cost hcost hws hgrad) node hnode x₀ hx₀ t H

end

end Verif.Train
