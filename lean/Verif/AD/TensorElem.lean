import Verif.AD.TensorOps
/-!
Elementwise operations as operations of `Verif.AD.TensorGrad`: the gradient expressions of `Verif.AD.Ops` are built out of
elementwise operations on tensors, with scalars spread over tensors, and summed up where the operand is a scalar.
-/
set_option autoImplicit false
namespace Verif.AD
open Verif.Tensor Verif.Shape Filter
open scoped Topology

noncomputable section

/-- Running the nodes of a gradient expression (`ApplyOp` of `elemUnaryOp` and `elemBinOp`, op_math.go 131-275, 381-505). -/
def Tm.evalT (ρ : Nat → T ℝ) : Tm → Res (T ℝ)
  | .node i => .ok (ρ i)
  | .cst c => .ok (scalarT c.val)
  | .un u a => (a.evalT ρ).bind fun r => .ok (mapT u.fn r)
  | .bin b x y => (x.evalT ρ).bind fun r => (y.evalT ρ).bind fun q => elem b.fn r q

/-- The nodes an expression refers to. -/
def Tm.nodes : Tm → List Nat
  | .node i => [i]
  | .cst _ => []
  | .un _ a => a.nodes
  | .bin _ x y => x.nodes ++ y.nodes

/-- The entry used at an index when scalars are spread. -/
def bc (t : T ℝ) (i : List Nat) : ℝ := if t.shape = [] then t.at_ [] else t.at_ i

/-- Of shape `s`, or a scalar. -/
def Fit (s : List Nat) (t : T ℝ) : Prop := t.shape = s ∨ t.shape = []

theorem bc_at {t : T ℝ} {s i : List Nat} (h : t.shape = s) (hi : InB s i) : bc t i = t.at_ i := by
  unfold bc
  split
  · next e =>
    rw [h] at e
    subst e
    cases i with
    | nil => rfl
    | cons a i => exact hi.elim
  · rfl

theorem bc_scalar {t : T ℝ} {i : List Nat} (h : t.shape = []) : bc t i = t.at_ [] := if_pos h

theorem elem_bc (f : ℝ → ℝ → ℝ) {s : List Nat} {a c : T ℝ} (ha : Fit s a) (hc : Fit s c) :
    ∃ r, elem f a c = .ok r ∧ Fit s r ∧ (a.shape = s ∨ c.shape = s → r.shape = s) ∧
      ∀ i, InB s i → bc r i = f (bc a i) (bc c i) := by
  by_cases h2 : c.shape = []
  · obtain ⟨r, r1, r2, r3⟩ := elem_scalar_right f a c h2
    refine ⟨r, r1, by rwa [Fit, r2], ?_, fun i hi => ?_⟩
    · rw [r2]
      rintro (h | h)
      · exact h
      · rcases ha with ha | ha
        · exact ha
        · rw [ha, ← h, h2]
    · rw [bc_scalar h2]
      rcases ha with ha | ha
      · rw [bc_at (r2.trans ha) hi, bc_at ha hi, r3 i (by rw [ha]; exact hi)]
      · rw [bc_scalar (r2.trans ha), bc_scalar ha, r3 [] (by rw [ha]; trivial)]
  · have hc : c.shape = s := by
      rcases hc with h | h
      · exact h
      · exact absurd h h2
    rcases ha with ha | ha
    · obtain ⟨r, r1, r2, r3⟩ := elem_same f a c (hc.trans ha.symm)
      refine ⟨r, r1, .inl (r2.trans ha), fun _ => r2.trans ha, fun i hi => ?_⟩
      rw [bc_at (r2.trans ha) hi, bc_at ha hi, bc_at hc hi, r3 i (by rw [ha]; exact hi)]
    · obtain ⟨r, r1, r2, r3⟩ := elem_scalar_left f a c ha
      refine ⟨r, r1, .inl (r2.trans hc), fun _ => r2.trans hc, fun i hi => ?_⟩
      rw [bc_at (r2.trans hc) hi, bc_scalar ha, bc_at hc hi, r3 i (by rw [hc]; exact hi)]

/-- Running an expression of elementwise operations computes the expression in every entry. -/
theorem Tm.evalT_ok {s : List Nat} {ρ : Nat → T ℝ} (e : Tm) (h : ∀ n ∈ e.nodes, Fit s (ρ n)) :
    ∃ r, e.evalT ρ = .ok r ∧ Fit s r ∧ ((∃ n ∈ e.nodes, (ρ n).shape = s) → r.shape = s) ∧
      ∀ i, InB s i → bc r i = e.eval fun n => bc (ρ n) i := by
  induction e with
  | node i =>
    refine ⟨ρ i, rfl, h i (by simp [Tm.nodes]), ?_, fun _ _ => rfl⟩
    rintro ⟨n, hn, e⟩
    simp only [Tm.nodes, List.mem_singleton] at hn
    subst hn
    exact e
  | cst c =>
    refine ⟨_, rfl, .inr rfl, ?_, fun i _ => bc_scalar rfl⟩
    rintro ⟨n, hn, _⟩
    simp [Tm.nodes] at hn
  | un u a ih =>
    obtain ⟨r, r1, r2, r3, r4⟩ := ih h
    refine ⟨mapT u.fn r, by simp [Tm.evalT, r1, Res.bind], r2, r3, fun i hi => ?_⟩
    simp only [Tm.eval, ← r4 i hi]
    unfold bc
    simp only [mapT]
    by_cases c : r.shape = [] <;> simp [c]
  | bin b x y ihx ihy =>
    obtain ⟨r, r1, r2, r3, r4⟩ := ihx fun n hn => h n (by simp [Tm.nodes, hn])
    obtain ⟨q, q1, q2, q3, q4⟩ := ihy fun n hn => h n (by simp [Tm.nodes, hn])
    obtain ⟨z, z1, z2, z3, z4⟩ := elem_bc b.fn r2 q2
    refine ⟨z, by simp [Tm.evalT, r1, q1, z1, Res.bind], z2, ?_, fun i hi => ?_⟩
    · rintro ⟨n, hn, e⟩
      simp only [Tm.nodes, List.mem_append] at hn
      rcases hn with hn | hn
      · exact z3 (.inl (r3 ⟨n, hn, e⟩))
      · exact z3 (.inr (q3 ⟨n, hn, e⟩))
    · rw [z4 i hi, r4 i hi, q4 i hi]
      rfl

/-! ### Unary operations -/

/-- `elemUnaryOp` (op_math.go 381-505, `SymDiff` 443-456). -/
def uTOp (u : UOp) : TOp where
  run := fun xs => match xs with
    | [x] => .ok (mapT u.fn x)
    | _ => .err
  diffs := [u.diffable]
  symDiff := fun xs y g => match xs with
    | [x] => (u.diffExpr (.node 0) (.node 1) (.node 2)).bind fun e =>
        (Res.opt (e.evalT fun n => if n = 0 then x else if n = 1 then y else g)).map fun r => [r]
    | _ => none

theorem UOp.diffExpr_nodes (u : UOp) (e : Tm) (h : u.diffExpr (.node 0) (.node 1) (.node 2) = some e) : 2 ∈ e.nodes := by
  cases u <;> simp only [UOp.diffExpr, Option.some.injEq, reduceCtorEq] at h <;> subst h <;> simp [Tm.nodes]

/-- Elementwise functions can be differentiated at tensors all of whose entries lie in the domain and are points of differentiability,
except `log2` and `inverseSqrt` (whose gradients are wrong: `log2_wrong`, `inverseSqrt_wrong`). -/
theorem uTOp_good_partial (u : UOp) (h1 : u ≠ .log2) (h2 : u ≠ .inverseSqrt) (x : T ℝ) (hd : ∀ i, InB x.shape i → u.dom (x.at_ i))
    (hdd : ∀ i, InB x.shape i → DifferentiableAt ℝ u.fn (x.at_ i)) : (uTOp u).Good [x] (mapT u.fn x) := by
  have hsd : u.diffable = true → ∀ g : T ℝ, g.shape = x.shape → ∃ r, (uTOp u).symDiff [x] (mapT u.fn x) g = some [r] ∧ r.shape = x.shape ∧
      ∀ i, InB x.shape i → r.at_ i = g.at_ i * deriv u.fn (x.at_ i) := by
    intro hdf g hg
    obtain ⟨e, he⟩ : ∃ e, u.diffExpr (.node 0) (.node 1) (.node 2) = some e := by
      cases u <;> simp [UOp.diffExpr, UOp.diffable] at hdf ⊢
    obtain ⟨r, r1, _, r3, r4⟩ := Tm.evalT_ok (s := x.shape) (ρ := fun n => if n = 0 then x else if n = 1 then mapT u.fn x else g) e
      (fun n _ => by
        left
        split
        · rfl
        · split
          · rfl
          · exact hg)
    have r3 := r3 ⟨2, u.diffExpr_nodes e he, hg⟩
    refine ⟨r, by simp [uTOp, he, r1, Res.opt], r3, fun i hi => ?_⟩
    have e1 := unary_diff_partial u h1 h2 (.node 0) (.node 1) (.node 2) e he
      (fun n => bc (if n = 0 then x else if n = 1 then mapT u.fn x else g) i)
      (by
        show bc (mapT u.fn x) i = u.fn (bc x i)
        rw [bc_at (t := x) rfl hi, bc_at (t := mapT u.fn x) (s := x.shape) rfl hi]
        rfl)
      (by
        show u.dom (bc x i)
        rw [bc_at rfl hi]
        exact hd i hi) (deriv u.fn (x.at_ i))
      (by
        show HasDerivAt u.fn _ (bc x i)
        rw [bc_at rfl hi]
        exact (hdd i hi).hasDerivAt)
    rw [← bc_at r3 hi, r4 i hi, e1]
    show bc g i * _ = _
    rw [bc_at hg hi]
  refine ⟨rfl, rfl, fun hm g hg => ?_, fun γs vs t₀ hx hM => ?_⟩
  · obtain ⟨r, r1, r2, _⟩ := hsd (by simpa [uTOp] using hm) g hg
    refine ⟨[r], r1, rfl, fun k r' x' _ k2 k3 => ?_⟩
    cases k with
    | zero =>
      simp only [List.getElem?_cons_zero, Option.some.injEq] at k2 k3
      subst k2 k3
      exact r2
    | succ k => simp at k2
  · match γs, vs, hM with
    | [γ], [v], .cons hm .nil =>
      have hx : γ t₀ = x := by simpa using hx
      subst hx
      refine ⟨fun t => mapT u.fn (γ t), ?_, fun g hg => ?_⟩
      · filter_upwards [hm.shape] with t ht
        exact ⟨rfl, ht⟩
      have hz : Moves (fun t => mapT u.fn (γ t)) ⟨(γ t₀).shape, fun i => deriv u.fn ((γ t₀).at_ i) * v.at_ i⟩ t₀ :=
        ⟨rfl, hm.shape, fun i hi => (hdd i hi).hasDerivAt.comp t₀ (hm.der i hi)⟩
      refine (hz.pair hg).congr_deriv ?_
      cases hdf : u.diffable with
      | false =>
        simp only [uTOp, hdf, TOp.grads]
        rw [pair_eq]
        have e0 : ∀ l : List (T ℝ), dsum [false] l [v] = 0 := by
          intro l
          cases l <;> simp [dsum]
        rw [e0]
        refine (sumOver_congr _ _ (fun _ => 0) fun i hi => ?_).trans (by simp [sumOver])
        rw [hg] at hi
        simp only [u.not_diffable hdf _ _ (hdd i hi).hasDerivAt, zero_mul, mul_zero]
      | true =>
        obtain ⟨r, r1, r2, r3⟩ := hsd hdf g hg
        rw [TOp.grads, r1, show (uTOp u).diffs = [true] by simp [uTOp, hdf], Option.getD_some, dsum_one, pair_eq, pair_eq, r2, hg]
        refine sumOver_congr _ _ _ fun i hi => ?_
        have hi' : InB (γ t₀).shape i := hi
        rw [r3 i hi']
        ring

/-! ### Binary operations -/

/-- The end of `elemBinOp.SymDiff` (op_math.go 233-240): a gradient for a scalar operand is summed up. -/
def fitGrad (a r : T ℝ) : Res (T ℝ) := if a.shape = [] ∧ r.shape ≠ [] then sumNode r [] else .ok r

/-- The gradient expression `e` for operands `a`, `c`, result `y` and incoming gradient `g`, run. -/
def binGradT (e : Tm) (a c y g : T ℝ) : Res (T ℝ) :=
  e.evalT fun n => if n = 0 then a else if n = 1 then c else if n = 2 then y else g

/-- `elemBinOp` with an arithmetic operator (op_math.go 131-275, `SymDiff` 219-243). -/
def bTOp (b : BOp) : TOp := .two (elem b.fn) fun a c y g =>
  match (binGradT (b.diffExpr (.node 0) (.node 1) (.node 2) (.node 3)).1 a c y g).bind (fitGrad a),
      (binGradT (b.diffExpr (.node 0) (.node 1) (.node 2) (.node 3)).2 a c y g).bind (fitGrad c) with
  | .ok ra, .ok rc => some (ra, rc)
  | _, _ => none

theorem BOp.diffExpr_nodes (b : BOp) : 3 ∈ (b.diffExpr (.node 0) (.node 1) (.node 2) (.node 3)).1.nodes ∧
    3 ∈ (b.diffExpr (.node 0) (.node 1) (.node 2) (.node 3)).2.nodes := by
  cases b <;> simp [BOp.diffExpr, Tm.nodes]

theorem fitGrad_ok {s : List Nat} {a r : T ℝ} (ha : Fit s a) (hp : a.shape ≠ s → ∀ d ∈ s, d ≠ 0) (hr : r.shape = s) :
    ∃ q, fitGrad a r = .ok q ∧ q.shape = a.shape ∧ ∀ v : T ℝ, v.shape = a.shape → pair q v = sumOver s fun i => r.at_ i * bc v i := by
  by_cases h : a.shape = s
  · refine ⟨r, ?_, hr.trans h.symm, fun v hv => ?_⟩
    · unfold fitGrad
      rw [if_neg]
      rintro ⟨h1, h2⟩
      exact h2 (by rw [hr, ← h, h1])
    · rw [pair_eq, hr]
      exact sumOver_congr _ _ _ fun i hi => by rw [bc_at (hv.trans h) hi]
  · have h0 : a.shape = [] := ha.resolve_left h
    have hs : r.shape ≠ [] := by
      rw [hr]
      exact fun e => h (h0.trans e.symm)
    obtain ⟨q, q1, q2, _, q3⟩ := sum_value r [] hs (by simp) (by rw [hr]; exact hp h)
    have hdrop : ∀ i : List Nat, i.length = r.shape.length → dropAxes (axesOf r.shape.length []) 0 i = [] := by
      intro i hl
      refine drop_all i 0 _ fun j _ hj => ?_
      simp only [axesOf, if_pos, List.mem_range]
      omega
    have hq : q.shape = [] := q2.trans (hdrop _ rfl)
    refine ⟨q, ?_, by rw [hq, h0], fun v hv => ?_⟩
    · unfold fitGrad
      rw [if_pos ⟨h0, hs⟩]
      exact q1
    · have hv0 : v.shape = [] := hv.trans h0
      rw [pair_eq, hq]
      have e := q3 [] (by rw [hq]; trivial)
      rw [show (sumOver [] fun i => q.at_ i * v.at_ i) = q.at_ [] * v.at_ [] by simp [sumOver, size, unravel], e, hr]
      unfold sumOver
      rw [Finset.sum_mul]
      refine Finset.sum_congr rfl fun k hk => ?_
      have hb := inB_unravel (Finset.mem_range.1 hk)
      have hb' : dropAxes (axesOf r.shape.length []) 0 (unravel s k) = [] := hdrop _ (by rw [hr]; exact hb.length)
      rw [hr] at hb'
      simp only []
      rw [if_pos hb', bc_scalar hv0]

theorem sumOver_add' (s : List Nat) (f g : List Nat → ℝ) : sumOver s f + sumOver s g = sumOver s fun i => f i + g i := by
  unfold sumOver
  rw [Finset.sum_add_distrib]

theorem Moves.bc {γ : ℝ → T ℝ} {v : T ℝ} {t₀ : ℝ} {s : List Nat} (h : Moves γ v t₀) (hf : Fit s (γ t₀)) {i : List Nat} (hi : InB s i) :
    HasDerivAt (fun t => bc (γ t) i) (bc v i) t₀ := by
  rcases hf with hf | hf
  · rw [bc_at (h.vshape.trans hf) hi]
    refine (h.der i (by rw [hf]; exact hi)).congr_of_eventuallyEq ?_
    filter_upwards [h.shape] with t ht
    rw [bc_at (ht.trans hf) hi]
  · rw [bc_scalar (h.vshape.trans hf)]
    refine (h.der [] (by rw [hf]; trivial)).congr_of_eventuallyEq ?_
    filter_upwards [h.shape] with t ht
    rw [bc_scalar (ht.trans hf)]

/-- Arithmetic on tensors of equal shape, or on a tensor and a scalar, can be differentiated wherever it is defined. -/
theorem bTOp_good (b : BOp) (s : List Nat) (a c : T ℝ) (ha : Fit s a) (hc : Fit s c) (hs : a.shape = s ∨ c.shape = s)
    (hp : a.shape ≠ c.shape → ∀ d ∈ s, d ≠ 0) (hd : ∀ i, InB s i → b.dom (bc a i) (bc c i)) :
    ∃ y, elem b.fn a c = .ok y ∧ y.shape = s ∧ (∀ i, InB s i → y.at_ i = b.fn (bc a i) (bc c i)) ∧ (bTOp b).Good [a, c] y := by
  obtain ⟨y, y1, _, y3, y4⟩ := elem_bc b.fn ha hc
  have y3 := y3 hs
  have hpa : a.shape ≠ s → ∀ d ∈ s, d ≠ 0 := fun h => hp fun e => h (by
    rcases hs with hs | hs
    · exact hs
    · rw [e, hs])
  have hpc : c.shape ≠ s → ∀ d ∈ s, d ≠ 0 := fun h => hp fun e => h (by
    rcases hs with hs | hs
    · rw [← e, hs]
    · exact hs)
  obtain ⟨E, hE⟩ : ∃ E, E = b.diffExpr (.node 0) (.node 1) (.node 2) (.node 3) := ⟨_, rfl⟩
  have hev : ∀ g : T ℝ, g.shape = s → ∀ e : Tm, 3 ∈ e.nodes → ∃ r, binGradT e a c y g = .ok r ∧ r.shape = s ∧ ∀ i, InB s i →
      r.at_ i = e.eval fun n => bc (if n = 0 then a else if n = 1 then c else if n = 2 then y else g) i := by
    intro g hg e he
    obtain ⟨r, r1, _, r3, r4⟩ := Tm.evalT_ok (s := s) (ρ := fun n => if n = 0 then a else if n = 1 then c else if n = 2 then y else g) e
      (fun n _ => by
        split
        · exact ha
        · split
          · exact hc
          · split
            · exact .inl y3
            · exact .inl hg)
    have r3 := r3 ⟨3, he, hg⟩
    exact ⟨r, r1, r3, fun i hi => by rw [← bc_at r3 hi, r4 i hi]⟩
  have hsd : ∀ g : T ℝ, g.shape = s → ∃ (da dc : List Nat → ℝ) (ra rc : T ℝ), (bTOp b).symDiff [a, c] y g = some [ra, rc] ∧ ra.shape = a.shape ∧ rc.shape = c.shape ∧
      (∀ v : T ℝ, v.shape = a.shape → pair ra v = sumOver s fun i => da i * bc v i) ∧
      (∀ v : T ℝ, v.shape = c.shape → pair rc v = sumOver s fun i => dc i * bc v i) ∧
      ∀ i, InB s i → da i = E.1.eval (fun n => bc (if n = 0 then a else if n = 1 then c else if n = 2 then y else g) i) ∧
        dc i = E.2.eval (fun n => bc (if n = 0 then a else if n = 1 then c else if n = 2 then y else g) i) := by
    intro g hg
    obtain ⟨da, a1, a2, a3⟩ := hev g hg E.1 (by rw [hE]; exact b.diffExpr_nodes.1)
    obtain ⟨dc, c1, c2, c3⟩ := hev g hg E.2 (by rw [hE]; exact b.diffExpr_nodes.2)
    obtain ⟨ra, p1, p2, p3⟩ := fitGrad_ok ha hpa a2
    obtain ⟨rc, q1, q2, q3⟩ := fitGrad_ok hc hpc c2
    refine ⟨da.at_, dc.at_, ra, rc, ?_, p2, q2, p3, q3, fun i hi => ⟨a3 i hi, c3 i hi⟩⟩
    simp only [bTOp, TOp.two, ← hE, a1, c1, Res.bind, p1, q1, Option.map_some]
  refine ⟨y, y1, y3, fun i hi => by rw [← bc_at y3 hi, y4 i hi], y1, rfl, fun _ g hg => ?_, fun γs vs t₀ hx hM => ?_⟩
  · obtain ⟨_, _, ra, rc, e1, e2, e3, _⟩ := hsd g (hg.trans y3)
    refine ⟨[ra, rc], e1, rfl, fun k r' x' _ k2 k3 => ?_⟩
    match k with
    | 0 =>
      simp only [List.getElem?_cons_zero, Option.some.injEq] at k2 k3
      subst k2 k3
      exact e2
    | 1 =>
      simp only [List.getElem?_cons_succ, List.getElem?_cons_zero, Option.some.injEq] at k2 k3
      subst k2 k3
      exact e3
    | k + 2 => simp at k2
  · match γs, vs, hM with
    | [γ, δ], [v, w], .cons hm (.cons hn .nil) =>
      obtain ⟨hx1, hx2⟩ : γ t₀ = a ∧ δ t₀ = c := by simpa using hx
      have key : ∀ i, InB s i → ∃ u, HasDerivAt (fun t => b.fn (bc (γ t) i) (bc (δ t) i)) u t₀ ∧ ∀ G : ℝ, G * u =
          E.1.eval (fun n => if n = 0 then bc a i else if n = 1 then bc c i else if n = 2 then bc y i else G) * bc v i +
          E.2.eval (fun n => if n = 0 then bc a i else if n = 1 then bc c i else if n = 2 then bc y i else G) * bc w i := by
        intro i hi
        have d1 := hm.bc (by rw [hx1]; exact ha) hi
        have d2 := hn.bc (by rw [hx2]; exact hc) hi
        have hG : ∀ G : ℝ, ∃ u, HasDerivAt (fun t => b.fn (bc (γ t) i) (bc (δ t) i)) u t₀ ∧ G * u =
          E.1.eval (fun n => if n = 0 then bc a i else if n = 1 then bc c i else if n = 2 then bc y i else G) * bc v i +
          E.2.eval (fun n => if n = 0 then bc a i else if n = 1 then bc c i else if n = 2 then bc y i else G) * bc w i := by
          intro G
          have := binary_diff b (.node 0) (.node 1) (.node 2) (.node 3)
            (fun n => if n = 0 then bc a i else if n = 1 then bc c i else if n = 2 then bc y i else G)
            (by simpa [Tm.eval] using y4 i hi) (by simpa [Tm.eval] using hd i hi) _ _ _ _ t₀ d1 d2 (by simp [Tm.eval, hx1]) (by simp [Tm.eval, hx2])
          rw [hE]
          simpa [Tm.eval] using this
        obtain ⟨u, u1, _⟩ := hG 0
        refine ⟨u, u1, fun G => ?_⟩
        obtain ⟨u', u1', u2'⟩ := hG G
        rw [u1.unique u1', u2']
      choose! W w1 w2 using key
      have hz : Moves (fun t => theT (elem b.fn (γ t) (δ t))) ⟨s, W⟩ t₀ ∧ ∀ᶠ t in 𝓝 t₀, elem b.fn (γ t) (δ t) = .ok (theT (elem b.fn (γ t) (δ t))) ∧
          (theT (elem b.fn (γ t) (δ t))).shape = s := by
        have hev : ∀ᶠ t in 𝓝 t₀, elem b.fn (γ t) (δ t) = .ok (theT (elem b.fn (γ t) (δ t))) ∧
            (theT (elem b.fn (γ t) (δ t))).shape = s ∧ ∀ i, InB s i → (theT (elem b.fn (γ t) (δ t))).at_ i = b.fn (bc (γ t) i) (bc (δ t) i) := by
          filter_upwards [hm.shape, hn.shape] with t k1 k2
          rw [hx1] at k1
          rw [hx2] at k2
          obtain ⟨z, z1, _, z3, z4⟩ := elem_bc b.fn (s := s) (a := γ t) (c := δ t) (by rw [Fit, k1]; exact ha) (by rw [Fit, k2]; exact hc)
          have z3 := z3 (by rw [k1, k2]; exact hs)
          rw [z1]
          exact ⟨rfl, z3, fun i hi => by rw [← z4 i hi, bc_at z3 hi]; rfl⟩
        have h0 := hev.self_of_nhds
        refine ⟨⟨h0.2.1.symm, ?_, fun i hi => ?_⟩, ?_⟩
        · filter_upwards [hev] with t ht
          rw [ht.2.1, h0.2.1]
        · rw [h0.2.1] at hi
          refine (w1 i hi).congr_of_eventuallyEq ?_
          filter_upwards [hev] with t ht
          exact ht.2.2 i hi
        · filter_upwards [hev] with t ht
          exact ⟨ht.1, ht.2.1⟩
      refine ⟨fun t => theT (elem b.fn (γ t) (δ t)), ?_, fun g hg => ?_⟩
      · filter_upwards [hz.2] with t ht
        exact ⟨ht.1, ht.2.trans y3.symm⟩
      · have hgs := hg.trans y3
        refine (hz.1.pair hgs).congr_deriv ?_
        obtain ⟨da, dc, ra, rc, e1, e2, e3, e4, e5, e6⟩ := hsd g hgs
        rw [TOp.grads, e1, show (bTOp b).diffs = [true, true] from rfl, Option.getD_some, dsum_two,
          e4 v (hm.vshape.trans (by rw [hx1])), e5 w (hn.vshape.trans (by rw [hx2])), pair_eq, hgs, sumOver_add']
        refine sumOver_congr _ _ _ fun i hi => ?_
        obtain ⟨f1, f2⟩ := e6 i hi
        rw [f1, f2]
        have := w2 i hi (g.at_ i)
        have hρ : (fun n => bc (if n = 0 then a else if n = 1 then c else if n = 2 then y else g) i) =
            fun n => if n = 0 then bc a i else if n = 1 then bc c i else if n = 2 then bc y i else g.at_ i := by
          funext n
          split
          · rfl
          · split
            · rfl
            · split
              · rfl
              · exact bc_at hgs hi
        rw [hρ]
        exact this

end

end Verif.AD
