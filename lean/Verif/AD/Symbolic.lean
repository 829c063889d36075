import Verif.AD.TensorGrad
/-!
`Grad` builds expressions: the graph is differentiated once, before it is run, and the gradient nodes are run later for any
values of the inputs. Here the gradient nodes are expressions over the nodes of the graph, as in `Verif.AD.Grad` for scalars,
and their values are the gradients of `Verif.AD.TensorGrad`, whatever the inputs.
-/
set_option autoImplicit false
namespace Verif.AD
open Verif.Tensor Verif.Shape Filter

noncomputable section

/-! ### Expressions -/

/-- An operation as a node of a gradient expression: what it computes and the shape of the result (`InferShape`; that the
inferred shape is the shape of the result is C41). -/
structure POp where
  run : List (T ℝ) → Res (T ℝ)
  shp : List (List Nat) → List Nat
  law : ∀ xs y, run xs = .ok y → y.shape = shp (xs.map (·.shape))

/-- A node of the graph after `Grad`: one that was there, a constant, or an operation on others (`ApplyOp`, op.go 169-214). -/
inductive XT
  | node (j : Nat)
  | cst (t : T ℝ)
  | app (o : POp) (args : List XT)

mutual
/-- The value of a node, given those of the nodes of the graph. -/
def XT.eval (ρ : Nat → Res (T ℝ)) : XT → Res (T ℝ)
  | .node j => ρ j
  | .cst t => .ok t
  | .app o as => (XT.evalL ρ as).bind o.run
def XT.evalL (ρ : Nat → Res (T ℝ)) : List XT → Res (List (T ℝ))
  | [] => .ok []
  | a :: as => (a.eval ρ).bind fun v => (XT.evalL ρ as).bind fun vs => .ok (v :: vs)
end

mutual
/-- The shape of a node (node.go 26, set by `ApplyOp`), given those of the nodes of the graph. -/
def XT.shape (sh : Nat → List Nat) : XT → List Nat
  | .node j => sh j
  | .cst t => t.shape
  | .app o as => o.shp (XT.shapeL sh as)
def XT.shapeL (sh : Nat → List Nat) : List XT → List (List Nat)
  | [] => []
  | a :: as => a.shape sh :: XT.shapeL sh as
end

theorem bind_ok {α β : Type} {r : Res α} {f : α → Res β} {b : β} : r.bind f = .ok b ↔ ∃ a, r = .ok a ∧ f a = .ok b := by
  cases r <;> simp [Res.bind]

theorem XT.evalL_ok {ρ : Nat → Res (T ℝ)} {as : List XT} {vs : List (T ℝ)} :
    XT.evalL ρ as = .ok vs ↔ List.Forall₂ (fun e v => XT.eval ρ e = .ok v) as vs := by
  induction as generalizing vs with
  | nil => simp only [XT.evalL, Res.ok.injEq, List.forall₂_nil_left_iff, eq_comm]
  | cons a as ih =>
    simp only [XT.evalL, bind_ok]
    constructor
    · rintro ⟨v, h1, vs', h2, h3⟩
      cases h3
      exact .cons h1 (ih.1 h2)
    · intro h
      cases h with
      | cons h1 h2 => exact ⟨_, h1, _, ih.2 h2, rfl⟩

mutual
/-- Nodes have the shapes of their values. -/
theorem XT.shape_eval {ρ : Nat → Res (T ℝ)} {sh : Nat → List Nat} (h : ∀ j v, ρ j = .ok v → sh j = v.shape) :
    ∀ (e : XT) (v : T ℝ), e.eval ρ = .ok v → e.shape sh = v.shape
  | .node j, v, hv => h j v hv
  | .cst t, v, hv => by
    simp only [XT.eval, Res.ok.injEq] at hv
    subst hv
    rfl
  | .app o as, v, hv => by
    simp only [XT.eval, bind_ok] at hv
    obtain ⟨vs, h1, h2⟩ := hv
    rw [o.law vs v h2, XT.shape, XT.shapeL_eval h as vs h1]
theorem XT.shapeL_eval {ρ : Nat → Res (T ℝ)} {sh : Nat → List Nat} (h : ∀ j v, ρ j = .ok v → sh j = v.shape) :
    ∀ (as : List XT) (vs : List (T ℝ)), XT.evalL ρ as = .ok vs → XT.shapeL sh as = vs.map (·.shape)
  | [], vs, hv => by
    simp only [XT.evalL, Res.ok.injEq] at hv
    subst hv
    rfl
  | a :: as, vs, hv => by
    simp only [XT.evalL, bind_ok] at hv
    obtain ⟨v, h1, vs', h2, h3⟩ := hv
    cases h3
    rw [XT.shapeL, XT.shape_eval h a v h1, XT.shapeL_eval h as vs' h2, List.map_cons]
end

/-! ### Operations that build their gradients -/

/-- An operation that says which nodes make up its gradients: `Do`, `InferShape`, `DiffWRT` and `SymDiff` (op.go 30-123).
`sym sh args out g` are the gradient nodes for the operands `args`, the node itself `out` and the gradient node `g`; `sh` is what
`Shape()` says about a node. -/
structure SymOp where
  op : POp
  diffs : List Bool
  sym : (XT → List Nat) → List XT → XT → XT → Option (List XT)

/-- A node that was in the graph before `Grad`. -/
def XT.Old : XT → Prop
  | .node _ => True
  | _ => False

/-- The nodes that `SymDiff` builds compute what the operation of `Verif.AD.TensorGrad` says, and are new nodes. -/
structure SymOp.Of (S : SymOp) (o : TOp) : Prop where
  run : o.run = S.op.run
  diffs : o.diffs = S.diffs
  sym : ∀ (ρ : Nat → Res (T ℝ)) (sh : XT → List Nat) (args : List XT) (out gx : XT) (xs : List (T ℝ)) (y g : T ℝ)
    (ts : List (T ℝ)), (∀ e v, XT.eval ρ e = .ok v → sh e = v.shape) → List.Forall₂ (fun e v => XT.eval ρ e = .ok v) args xs →
    out.eval ρ = .ok y → gx.eval ρ = .ok g → o.run xs = .ok y → g.shape = y.shape → o.symDiff xs y g = some ts →
    ∃ es, S.sym sh args out gx = some es ∧ List.Forall₂ (fun e v => XT.eval ρ e = .ok v) es ts
  fresh : ∀ (sh : XT → List Nat) (args : List XT) (out gx : XT) (es : List XT), ¬ gx.Old → S.sym sh args out gx = some es →
    ∀ e ∈ es, ¬ e.Old

/-- An operation with both descriptions of its gradients. -/
structure DOp where
  op : TOp
  sym : SymOp
  of : sym.Of op

inductive XNode
  | leaf
  | cst (t : T ℝ)
  | op (o : DOp) (kids : List Nat)

abbrev XG := List XNode

def XNode.tnode : XNode → TNode
  | .leaf => .leaf
  | .cst t => .cst t
  | .op o ks => .op o.op ks

def XG.tg (G : XG) : TG := G.map XNode.tnode

/-- `SymDiff` of the op of node `i`. -/
def XG.symDiff (G : XG) (sh : Nat → List Nat) (i : Nat) (g : XT) : Option (List XT) :=
  match G.getD i .leaf with
  | .leaf => none
  | .cst _ => some []
  | .op o ks => o.sym.sym (XT.shape sh) (ks.map .node) (.node i) g

/-- The shape of the result of an elementwise operation on shapes that fit. -/
def elemShp (a b : List Nat) : List Nat := if a = [] then b else a

theorem elem_shape (f : ℝ → ℝ → ℝ) {a b y : T ℝ} (h : elem f a b = .ok y) : y.shape = elemShp a.shape b.shape := by
  unfold elem at h
  simp only [bind_ok] at h
  obtain ⟨s, -, h⟩ := h
  unfold elemVal at h
  unfold elemShp
  by_cases h1 : a.shape = []
  · rw [if_pos h1] at h
    cases h
    rw [if_pos h1]
  · rw [if_neg h1] at h
    rw [if_neg h1]
    by_cases h2 : b.shape = []
    · rw [if_pos h2] at h; cases h; rfl
    · rw [if_neg h2] at h
      by_cases h3 : shapeEq a.shape b.shape = true
      · rw [if_pos h3] at h; cases h; rfl
      · rw [if_neg h3] at h; cases h

/-- An operation on one operand. -/
def POp.of1 (f : T ℝ → Res (T ℝ)) (s : List Nat → List Nat) (h : ∀ x y, f x = .ok y → y.shape = s x.shape) : POp where
  run := fun xs => match xs with
    | [x] => f x
    | _ => .err
  shp := fun ss => match ss with
    | [a] => s a
    | _ => []
  law := fun xs y hy => by
    match xs, hy with
    | [x], hy => exact h x y hy

/-- An operation on two operands. -/
def POp.of2 (f : T ℝ → T ℝ → Res (T ℝ)) (s : List Nat → List Nat → List Nat)
    (h : ∀ a b y, f a b = .ok y → y.shape = s a.shape b.shape) : POp where
  run := fun xs => match xs with
    | [a, b] => f a b
    | _ => .err
  shp := fun ss => match ss with
    | [a, b] => s a b
    | _ => []
  law := fun xs y hy => by
    match xs, hy with
    | [a, b], hy => exact h a b y hy

def XT.app1 (f : T ℝ → Res (T ℝ)) (s : List Nat → List Nat) (h : ∀ x y, f x = .ok y → y.shape = s x.shape) (a : XT) : XT :=
  .app (.of1 f s h) [a]

def XT.app2 (f : T ℝ → T ℝ → Res (T ℝ)) (s : List Nat → List Nat → List Nat)
    (h : ∀ a b y, f a b = .ok y → y.shape = s a.shape b.shape) (a b : XT) : XT := .app (.of2 f s h) [a, b]

theorem XT.eval_app1 {ρ : Nat → Res (T ℝ)} {f : T ℝ → Res (T ℝ)} {s : List Nat → List Nat}
    {h : ∀ x y, f x = .ok y → y.shape = s x.shape} {a : XT} {x : T ℝ} (ha : a.eval ρ = .ok x) :
    (XT.app1 f s h a).eval ρ = f x := by
  simp only [XT.app1, XT.eval, XT.evalL, ha, Res.bind, POp.of1]

theorem XT.eval_app2 {ρ : Nat → Res (T ℝ)} {f : T ℝ → T ℝ → Res (T ℝ)} {s : List Nat → List Nat → List Nat}
    {h : ∀ a b y, f a b = .ok y → y.shape = s a.shape b.shape} {a b : XT} {x z : T ℝ} (ha : a.eval ρ = .ok x) (hb : b.eval ρ = .ok z) :
    (XT.app2 f s h a b).eval ρ = f x z := by
  simp only [XT.app2, XT.eval, XT.evalL, ha, hb, Res.bind, POp.of2]

/-- `Add` (operations.go). -/
def XT.add (a b : XT) : XT := .app2 (elem (· + ·)) elemShp (fun _ _ _ h => elem_shape _ h) a b

/-- `ReduceAdd` (operations.go 329-361). -/
def reduceAddX : List XT → Option XT
  | [] => none
  | [a] => some a
  | a :: l => some (l.foldl XT.add a)

/-- `Grad` (gorgonia.go 211-243): the gradient nodes for `wrt`, and the `deriv` fields. -/
def gradX (G : XG) (sh : Nat → List Nat) (users : Nat → Nat) (deriv : Nat → Option XT) (cost : Nat) (wrt : List Nat) :
    Option (List XT × (Nat → Option XT)) :=
  if sh cost = [] ∧ wrt.all (fun w => (G.tg.gr.node w).input) then
    backprop G.tg.gr users (G.symDiff sh) reduceAddX deriv [(cost, .cst (scalarT 1))] wrt
  else none

/-! ### Two runs of `Backpropagate` side by side -/

section
variable {T₁ T₂ : Type} (R : Nat → T₁ → T₂ → Prop)

theorem push_sim {cs : List Nat} {ds : List Bool} {ts : List T₁} {es : List T₂} {gm gm' : Nat → List T₁} {hm : Nat → List T₂}
    (hR : ∀ i, List.Forall₂ (R i) (gm i) (hm i)) (hl : ts.length = es.length)
    (hk : ∀ (k c : Nat) (t : T₁) (e : T₂), cs[k]? = some c → ds[k]? = some true → ts[k]? = some t → es[k]? = some e → R c t e)
    (h : push gm cs ds ts = some gm') : ∃ hm', push hm cs ds es = some hm' ∧ ∀ i, List.Forall₂ (R i) (gm' i) (hm' i) := by
  induction cs generalizing ds ts es gm hm with
  | nil => simp only [push, Option.some.injEq] at h; subst h; exact ⟨hm, by simp [push], hR⟩
  | cons c cs ih =>
    match ds, ts, h with
    | d :: ds, t :: ts, h =>
      match es, hl with
      | e :: es, hl =>
        simp only [push] at h ⊢
        refine ih (ds := ds) (ts := ts) (es := es) ?_ (by simpa using hl)
          (fun k c' t' e' h1 h2 h3 h4 => hk (k + 1) c' t' e' (by simpa using h1) (by simpa using h2) (by simpa using h3) (by simpa using h4)) h
        intro i
        cases d with
        | false => exact hR i
        | true =>
          simp only [if_true]
          by_cases hi : i = c
          · subst hi
            simp only [upd, if_true]
            exact List.rel_append (R := R i) (hR i) (.cons (hk 0 i t e rfl rfl rfl rfl) .nil)
          · simp only [upd, if_neg hi]
            exact hR i
    | [], _, h => simp [push] at h
    | _ :: _, [], h => simp [push] at h

/-- The states of the two runs agree. -/
structure BPSim (s : BP T₁) (s' : BP T₂) : Prop where
  gm : ∀ i, List.Forall₂ (R i) (s.gm i) (s'.gm i)
  some : ∀ i d, s.deriv i = .some d → ∃ d', s'.deriv i = .some d' ∧ R i d d'
  none : ∀ i, s.deriv i = .none → s'.deriv i = .none

variable {R}

theorem forall₂_upd {f : Nat → List T₁} {g : Nat → List T₂} (h : ∀ i, List.Forall₂ (R i) (f i) (g i)) (j : Nat) {l : List T₁} {m : List T₂}
    (hl : List.Forall₂ (R j) l m) (i : Nat) : List.Forall₂ (R i) (upd f j l i) (upd g j m i) := by
  by_cases hi : i = j
  · subst hi; simpa [upd] using hl
  · simpa [upd, hi] using h i

theorem bpStep_sim {G : Gr} {active : Nat → Bool} {sd : Nat → T₁ → Option (List T₁)} {sd' : Nat → T₂ → Option (List T₂)}
    {ra : List T₁ → Option T₁} {ra' : List T₂ → Option T₂}
    (hsd : ∀ i g e ts, R i g e → sd i g = .some ts → ∃ es, sd' i e = .some es ∧ ts.length = es.length ∧
      ∀ (k c : Nat) (t : T₁) (e : T₂), (G.node i).children[k]? = .some c → (G.node i).diffs[k]? = .some true → ts[k]? = .some t →
        es[k]? = .some e → R c t e)
    (hra : ∀ i l m a, List.Forall₂ (R i) l m → ra l = .some a → ∃ b, ra' m = .some b ∧ R i a b)
    {s t : BP T₁} {s' : BP T₂} (h : BPSim R s s') (i : Nat) (hs : bpStep G active sd ra s i = .some t) :
    ∃ t', bpStep G active sd' ra' s' i = .some t' ∧ BPSim R t t' := by
  unfold bpStep at hs ⊢
  by_cases ha : active i = false
  · rw [if_pos ha] at hs ⊢
    cases hs
    exact ⟨s', rfl, h⟩
  · rw [if_neg ha] at hs ⊢
    cases hd : s.deriv i with
    | some d =>
      obtain ⟨d', hd', hr⟩ := h.some i d hd
      rw [hd] at hs
      rw [hd']
      cases hs
      exact ⟨_, rfl, ⟨forall₂_upd h.gm i (List.rel_append (R := R i) (h.gm i) (.cons hr .nil)), h.some, h.none⟩⟩
    | none =>
      rw [hd] at hs
      rw [h.none i hd]
      simp only at hs ⊢
      have hcol : ∀ a, collect ra (s.gm i) = .some a → ∃ b, collect ra' (s'.gm i) = .some b ∧ R i a b := by
        intro a hc
        have hg := h.gm i
        revert hc
        generalize s.gm i = l at hg
        generalize s'.gm i = m at hg
        intro hc
        match l, m, hg, hc with
        | [a'], [b], .cons hab .nil, hc =>
          simp only [collect, Option.some.injEq] at hc
          subst hc
          exact ⟨b, rfl, hab⟩
        | a1 :: a2 :: l, b1 :: b2 :: m, hg, hc => exact hra i _ _ a hg hc
      cases hc : collect ra (s.gm i) with
      | none => rw [hc] at hs; cases hs
      | some a =>
        obtain ⟨b, hb, hab⟩ := hcol a hc
        rw [hc] at hs
        rw [hb]
        simp only at hs ⊢
        have h1 : BPSim R ⟨upd s.gm i [a], upd s.deriv i (.some a)⟩ ⟨upd s'.gm i [b], upd s'.deriv i (.some b)⟩ := by
          refine ⟨forall₂_upd h.gm i (.cons hab .nil), fun j d hj => ?_, fun j hj => ?_⟩
          · by_cases e : j = i
            · subst e
              simp only [upd, if_true, Option.some.injEq] at hj ⊢
              subst hj
              exact ⟨b, rfl, hab⟩
            · simp only [upd, if_neg e] at hj ⊢
              exact h.some j d hj
          · by_cases e : j = i
            · subst e; simp [upd] at hj
            · simp only [upd, if_neg e] at hj ⊢
              exact h.none j hj
        by_cases hin : (G.node i).input = true
        · rw [if_pos hin] at hs ⊢
          cases hs
          exact ⟨_, rfl, h1⟩
        · rw [if_neg hin] at hs ⊢
          cases hts : sd i a with
          | none => rw [hts] at hs; cases hs
          | some ts =>
            obtain ⟨es, hes, hl, hk⟩ := hsd i a b ts hab hts
            rw [hts] at hs
            rw [hes]
            simp only at hs ⊢
            cases hp : push (upd s.gm i [a]) (G.node i).children (G.node i).diffs ts with
            | none => rw [hp] at hs; cases hs
            | some gm =>
              obtain ⟨hm, hhm, hrel⟩ := push_sim R h1.gm hl hk hp
              rw [hp] at hs
              rw [hhm]
              cases hs
              exact ⟨_, rfl, hrel, h1.some, h1.none⟩

/-- If two ways of differentiating the operations agree on what each does, `Backpropagate` does with the one what it does with the
other. -/
theorem backprop_sim {G : Gr} {users : Nat → Nat} {sd : Nat → T₁ → Option (List T₁)} {sd' : Nat → T₂ → Option (List T₂)}
    {ra : List T₁ → Option T₁} {ra' : List T₂ → Option T₂}
    (hsd : ∀ i g e ts, R i g e → sd i g = .some ts → ∃ es, sd' i e = .some es ∧ ts.length = es.length ∧
      ∀ (k c : Nat) (t : T₁) (e : T₂), (G.node i).children[k]? = .some c → (G.node i).diffs[k]? = .some true → ts[k]? = .some t →
        es[k]? = .some e → R c t e)
    (hra : ∀ i l m a, List.Forall₂ (R i) l m → ra l = .some a → ∃ b, ra' m = .some b ∧ R i a b)
    (cost : Nat) (one : T₁) (one' : T₂) (h1 : R cost one one') (wrt : List Nat) {res : List T₁} {dv : Nat → Option T₁}
    (h : backprop G users sd ra (fun _ => .none) [(cost, one)] wrt = .some (res, dv)) :
    ∃ res' dv', backprop G users sd' ra' (fun _ => .none) [(cost, one')] wrt = .some (res', dv') ∧ res.length = wrt.length ∧
      res'.length = wrt.length ∧
      ∀ (k w : Nat) (r : T₁) (r' : T₂), wrt[k]? = .some w → res[k]? = .some r → res'[k]? = .some r' → R w r r' := by
  unfold backprop at h ⊢
  simp only [Option.bind_eq_bind, List.map_cons, List.map_nil] at h ⊢
  cases hF : forward G [cost] with
  | none => rw [hF] at h; cases h
  | some F =>
  rw [hF] at h
  simp only [Option.bind_some] at h ⊢
  cases hB : backward G users wrt with
  | none => rw [hB] at h; cases h
  | some B =>
  rw [hB] at h
  simp only [Option.bind_some] at h ⊢
  by_cases c1 : wrt.all F = false
  · rw [if_pos c1] at h; cases h
  rw [if_neg c1] at h ⊢
  by_cases c2 : [cost].all B = false
  · rw [if_pos c2] at h; cases h
  rw [if_neg c2] at h ⊢
  simp only [List.foldl_cons, List.foldl_nil] at h ⊢
  have key : ∀ (l : List Nat) (s : BP T₁) (s' : BP T₂) (t : BP T₁), BPSim R s s' →
      l.foldlM (bpStep G (fun i => F i && B i) sd ra) s = .some t →
      ∃ t', l.foldlM (bpStep G (fun i => F i && B i) sd' ra') s' = .some t' ∧ BPSim R t t' := by
    intro l
    induction l with
    | nil =>
      intro s s' t hs h
      simp only [List.foldlM_nil, Option.pure_def, Option.some.injEq] at h ⊢
      subst h
      exact ⟨s', rfl, hs⟩
    | cons i l ih =>
      intro s s' t hs h
      simp only [List.foldlM_cons, Option.bind_eq_bind] at h ⊢
      cases e : bpStep G (fun i => F i && B i) sd ra s i with
      | none => rw [e] at h; cases h
      | some u =>
        obtain ⟨u', e', hu⟩ := bpStep_sim hsd hra hs i e
        rw [e] at h
        rw [e']
        exact ih u u' t hu h
  cases hs : (List.range G.length).foldlM (bpStep G (fun i => F i && B i) sd ra) ⟨upd (fun _ => []) cost [one], fun _ => .none⟩ with
  | none => rw [hs] at h; cases h
  | some t =>
  obtain ⟨t', ht', hsim⟩ := key _ _ ⟨upd (fun _ => []) cost [one'], fun _ => .none⟩ t
    { gm := forall₂_upd (fun _ => .nil) cost (.cons h1 .nil)
      some := fun _ _ h => absurd h (by simp)
      none := fun _ _ => rfl } hs
  rw [hs] at h
  rw [ht']
  simp only [Option.bind_some] at h ⊢
  have last : ∀ (l : List Nat) (rs : List T₁), (l.mapM fun w => (t.gm w).head?) = .some rs →
      ∃ rs', (l.mapM fun w => (t'.gm w).head?) = .some rs' ∧ rs.length = l.length ∧ rs'.length = l.length ∧
        ∀ (k w : Nat) (r : T₁) (r' : T₂), l[k]? = .some w → rs[k]? = .some r → rs'[k]? = .some r' → R w r r' := by
    intro l
    induction l with
    | nil =>
      intro rs h
      simp only [List.mapM_nil, Option.pure_def, Option.some.injEq] at h
      subst h
      exact ⟨[], rfl, rfl, rfl, by simp⟩
    | cons w l ih =>
      intro rs h
      simp only [List.mapM_cons, Option.bind_eq_bind, Option.pure_def] at h ⊢
      cases e : (t.gm w).head? with
      | none => rw [e] at h; cases h
      | some a =>
        rw [e] at h
        simp only [Option.bind_some] at h
        cases e2 : l.mapM fun w => (t.gm w).head? with
        | none => rw [e2] at h; cases h
        | some as =>
          rw [e2] at h
          simp only [Option.bind_some, Option.some.injEq] at h
          subst h
          obtain ⟨bs, hb, l1, l2, hk⟩ := ih as e2
          have hg := hsim.gm w
          obtain ⟨b, hb', hab⟩ : ∃ b, (t'.gm w).head? = .some b ∧ R w a b := by
            revert e
            generalize t.gm w = l at hg
            generalize t'.gm w = m at hg
            intro e
            cases hg with
            | nil => cases e
            | cons hab _ => simp only [List.head?_cons, Option.some.injEq] at e; subst e; exact ⟨_, rfl, hab⟩
          refine ⟨b :: bs, by rw [hb', hb]; rfl, by simp [l1], by simp [l2], fun k w' r r' k1 k2 k3 => ?_⟩
          cases k with
          | zero =>
            simp only [List.getElem?_cons_zero, Option.some.injEq] at k1 k2 k3
            subst k1 k2 k3
            exact hab
          | succ k => exact hk k w' r r' (by simpa using k1) (by simpa using k2) (by simpa using k3)
  cases hm : wrt.mapM fun w => (t.gm w).head? with
  | none => rw [hm] at h; cases h
  | some rs =>
  obtain ⟨rs', hm', l1, l2, hk⟩ := last wrt rs hm
  rw [hm] at h
  rw [hm']
  simp only [Option.bind_some, Option.some.injEq, Prod.mk.injEq] at h ⊢
  obtain ⟨rfl, rfl⟩ := h
  exact ⟨rs', t'.deriv, ⟨rfl, rfl⟩, l1, l2, hk⟩

end

/-! ### The gradient nodes compute the gradients -/

theorem XG.tg_getElem (G : XG) (i : Nat) : G.tg[i]? = (G[i]?).map XNode.tnode := by simp [XG.tg]

theorem reduceAdd_sim {ρ : Nat → Res (T ℝ)} {s : List Nat} {l : List (T ℝ)} {m : List XT} {a : T ℝ}
    (h : List.Forall₂ (fun v e => XT.eval ρ e = .ok v ∧ v.shape = s) l m) (ha : reduceAddT l = some a) :
    ∃ b, reduceAddX m = some b ∧ b.eval ρ = .ok a ∧ a.shape = s := by
  have fold : ∀ (l : List (T ℝ)) (m : List XT) (v : T ℝ) (e : XT) (a : T ℝ),
      List.Forall₂ (fun v e => XT.eval ρ e = .ok v ∧ v.shape = s) l m → XT.eval ρ e = .ok v → v.shape = s →
      l.foldlM (fun a b => Res.opt (elem (· + ·) a b)) v = some a → (m.foldl XT.add e).eval ρ = .ok a ∧ a.shape = s := by
    intro l
    induction l with
    | nil =>
      intro m v e a h he hs hf
      cases h
      simp only [List.foldlM_nil, Option.pure_def, Option.some.injEq] at hf
      subst hf
      exact ⟨he, hs⟩
    | cons w l ih =>
      intro m v e a h he hs hf
      cases h with
      | cons hw hl =>
        simp only [List.foldlM_cons, Option.bind_eq_bind] at hf
        cases hq : elem (· + ·) v w with
        | ok q =>
          rw [hq] at hf
          rw [List.foldl_cons]
          refine ih _ q _ a hl ?_ ?_ hf
          · unfold XT.add; rw [XT.eval_app2 he hw.1]; exact hq
          · rw [elem_shape _ hq, hs, hw.2]
            unfold elemShp
            by_cases c : s = []
            · rw [if_pos c]
            · rw [if_neg c]
        | err => rw [hq] at hf; cases hf
        | panic => rw [hq] at hf; cases hf
  match l, m, h, ha with
  | [v], [e], .cons hv .nil, ha =>
    simp only [reduceAddT, Option.some.injEq] at ha
    subst ha
    exact ⟨e, rfl, hv.1, hv.2⟩
  | v1 :: v2 :: l, e1 :: e2 :: m, .cons h1 (.cons h2 hl), ha =>
    exact ⟨_, rfl, fold (v2 :: l) (e2 :: m) v1 e1 a (.cons h2 hl) h1.1 h1.2 ha⟩

/-- The values of the gradient nodes are the gradients that `Verif.AD.TensorGrad` computes for the values of the inputs. -/
theorem gradX_eval (G : XG) (W : G.tg.Sorted) (x : Nat → T ℝ) (S : G.tg.Fine x) (sh : Nat → List Nat)
    (hsh : ∀ i y, G.tg.value x i = .ok y → sh i = y.shape) (users : Nat → Nat) (cost : Nat) (wrt : List Nat)
    {res : List (T ℝ)} {dv : Nat → Option (T ℝ)} (h : gradT G.tg x users (fun _ => none) cost wrt = some (res, dv)) :
    ∃ es dv', gradX G sh users (fun _ => none) cost wrt = some (es, dv') ∧
      List.Forall₂ (fun e v => XT.eval (G.tg.value x) e = .ok v) es res := by
  unfold gradT at h
  by_cases hc : (theT (G.tg.value x cost)).shape = [] ∧ wrt.all (fun w => (G.tg.gr.node w).input)
  swap
  · rw [if_neg hc] at h; cases h
  rw [if_pos hc] at h
  have hyc := S.ok W cost
  set yc := theT (G.tg.value x cost) with hycdef
  have hsc : sh cost = [] := by rw [hsh cost yc hyc]; exact hc.1
  unfold gradX
  rw [if_pos ⟨hsc, hc.2⟩]
  let R : Nat → T ℝ → XT → Prop := fun i v e => XT.eval (G.tg.value x) e = .ok v ∧ v.shape = sh i
  have hsd : ∀ i g e ts, R i g e → G.tg.symDiff x i g = some ts → ∃ es, G.symDiff sh i e = some es ∧ ts.length = es.length ∧
      ∀ (k c : Nat) (t : T ℝ) (e : XT), (G.tg.gr.node i).children[k]? = some c → (G.tg.gr.node i).diffs[k]? = some true →
        ts[k]? = some t → es[k]? = some e → R c t e := by
    intro i g e ts hR hs
    unfold TG.symDiff at hs
    unfold XG.symDiff
    rw [List.getD_eq_getElem?_getD, G.tg_getElem] at hs
    rw [List.getD_eq_getElem?_getD]
    cases hn : G[i]? with
    | none => rw [hn] at hs; cases hs
    | some n =>
      rw [hn] at hs
      have hnt : G.tg[i]? = some n.tnode := by rw [G.tg_getElem, hn]; rfl
      cases n with
      | leaf => cases hs
      | cst t =>
        simp only [Option.map_some, XNode.tnode, Option.getD_some, Option.some.injEq] at hs
        subst hs
        exact ⟨[], rfl, rfl, fun k _ _ _ _ _ h _ => by simp at h⟩
      | op o ks =>
        simp only [Option.map_some, XNode.tnode, Option.getD_some] at hs
        obtain ⟨y, hy⟩ : ∃ y, G.tg.value x i = .ok y := ⟨_, S.ok W i⟩
        have hv := TG.value_eq G.tg W x i
        rw [List.getD_eq_getElem?_getD, hnt] at hv
        simp only [XNode.tnode, Option.getD_some] at hv
        obtain ⟨xs, hxs, hrun⟩ := bind_ok.1 (hv.symm.trans hy)
        rw [hxs, hy] at hs
        simp only at hs
        have hargs : List.Forall₂ (fun e v => XT.eval (G.tg.value x) e = .ok v) (ks.map XT.node) xs := by
          have := resAll_ok hxs
          clear hxs hv hs hrun hnt hn
          induction ks generalizing xs with
          | nil => cases xs with
            | nil => exact .nil
            | cons a as => simp at this
          | cons k ks ih =>
            cases xs with
            | nil => simp at this
            | cons a as =>
              simp only [List.map_cons, List.cons.injEq] at this
              exact .cons this.1 (ih as this.2)
        obtain ⟨es, h1, h2⟩ := o.of.sym (G.tg.value x) (XT.shape sh) (ks.map .node) (.node i) e xs y g ts
          (fun e v h => XT.shape_eval hsh e v h) hargs hy hR.1 hrun (by rw [hR.2, hsh i y hy]) hs
        refine ⟨es, h1, h2.length_eq.symm, fun k c t e' k1 k2 k3 k4 => ⟨?_, ?_⟩⟩
        · have := List.Forall₂.get h2 (i := k) (by rw [List.getElem?_eq_some_iff] at k4; exact k4.1)
            (by rw [List.getElem?_eq_some_iff] at k3; exact k3.1)
          simp only [List.get_eq_getElem] at this
          rw [List.getElem?_eq_some_iff] at k3 k4
          rw [k3.2, k4.2] at this
          exact this
        · have hgn : G.tg.gr.node i = { children := ks, diffs := o.op.diffs } := by
            simp only [Gr.node, TG.gr, List.getD_eq_getElem?_getD, List.getElem?_map, hnt]
            rfl
          rw [hgn] at k1 k2
          simp only at k1 k2
          obtain ⟨xs', y', P, r1, r2, -⟩ := S i o.op ks hnt
          rw [hxs] at r1
          cases r1
          have hyy : y' = y := by have := r2.run; rw [hrun] at this; cases this; rfl
          subst hyy
          obtain ⟨ts', q1, q2, q3⟩ := r2.total (List.mem_of_getElem? k2) g (by rw [hR.2, hsh i _ hy])
          rw [hs] at q1
          cases q1
          have hxk : ∃ v, xs[k]? = some v ∧ G.tg.value x c = .ok v := by
            have hm := resAll_ok hxs
            have : (ks.map (G.tg.value x))[k]? = (xs.map Res.ok)[k]? := by rw [hm]
            rw [List.getElem?_map, k1, List.getElem?_map] at this
            simp only [Option.map_some] at this
            cases hx : xs[k]? with
            | none => rw [hx] at this; cases this
            | some v => rw [hx] at this; simp only [Option.map_some, Option.some.injEq] at this; exact ⟨v, rfl, this⟩
          obtain ⟨v, hv1, hv2⟩ := hxk
          rw [q3 k t v k2 k3 hv1, hsh c v hv2]
  obtain ⟨es, dv', e1, l1, l2, hk⟩ := backprop_sim (R := R) (sd' := G.symDiff sh) (ra' := reduceAddX) hsd
    (fun i l m a h ha => reduceAdd_sim h ha) cost (scalarT 1) (.cst (scalarT 1)) ⟨rfl, by rw [hsc]; rfl⟩ wrt h
  refine ⟨es, dv', e1, List.forall₂_iff_get.2 ⟨by rw [l1, l2], fun k k1 k2 => ?_⟩⟩
  have k1' : k < es.length := k1
  have k2' : k < res.length := k2
  exact (hk k (wrt[k]'(by omega)) res[k] es[k] (List.getElem?_eq_getElem _) (List.getElem?_eq_getElem _) (List.getElem?_eq_getElem _)).1

/-- No gradient node that `Grad` returns was in the graph before. -/
theorem gradX_fresh (G : XG) (sh : Nat → List Nat) (users : Nat → Nat) (cost : Nat) (wrt : List Nat) {res : List XT}
    {dv : Nat → Option XT} (h : gradX G sh users (fun _ => none) cost wrt = some (res, dv)) : ∀ t ∈ res, ¬ t.Old := by
  unfold gradX at h
  split at h
  swap
  · cases h
  obtain ⟨res', dv', e1, l1, l2, hk⟩ := backprop_sim (R := fun _ t e => t = e ∧ ¬ t.Old) (sd' := G.symDiff sh) (ra' := reduceAddX)
    (fun i g e ts hR hs => by
      obtain ⟨rfl, hg⟩ := hR
      refine ⟨ts, hs, rfl, fun k c t e _ _ h1 h2 => ?_⟩
      rw [h1, Option.some.injEq] at h2
      refine ⟨h2, ?_⟩
      unfold XG.symDiff at hs
      split at hs
      · cases hs
      · cases hs; simp at h1
      · next o ks _ => exact o.of.fresh _ _ _ _ _ hg hs t (List.mem_of_getElem? h1))
    (fun i l m a hl ha => by
      have hlm : l = m ∧ ∀ t ∈ l, ¬ t.Old := by
        clear ha
        induction hl with
        | nil => simp
        | cons h _ ih => obtain ⟨rfl, h'⟩ := h; exact ⟨by rw [ih.1], by simpa [h'] using ih.2⟩
      obtain ⟨rfl, hn⟩ := hlm
      refine ⟨a, ha, rfl, ?_⟩
      match l, ha with
      | [b], ha => cases ha; exact hn _ (by simp)
      | b :: c :: l, ha =>
        cases ha
        have : ∀ (l : List XT) (b : XT), ¬ b.Old → ¬ (l.foldl XT.add b).Old := by
          intro l
          induction l with
          | nil => intro b hb; exact hb
          | cons c l ih => intro b _; exact ih _ (fun h => h)
        exact this _ _ (hn _ (by simp)))
    cost (.cst (scalarT 1)) (.cst (scalarT 1)) ⟨rfl, fun h => h⟩ wrt h
  rw [h] at e1
  cases e1
  intro t ht
  obtain ⟨k, hk', rfl⟩ := List.mem_iff_getElem.1 ht
  exact (hk k (wrt[k]'(by omega)) _ _ (List.getElem?_eq_getElem _) (List.getElem?_eq_getElem hk') (List.getElem?_eq_getElem hk')).2

end

end Verif.AD
