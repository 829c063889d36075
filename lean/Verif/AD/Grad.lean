import Verif.AD.Local
import Verif.AD.Sound
import Mathlib.Analysis.InnerProductSpace.Basic
/-!
`Grad` on graphs of scalar operations, from the graph to the true partial derivatives.
-/
set_option autoImplicit false
namespace Verif.AD

/-- A scalar node: an input, a constant, or an op with its operands. -/
inductive SNode
  | leaf
  | cst (c : Cst)
  | un (u : UOp) (x : Nat)
  | bin (b : BOp) (x y : Nat)
  deriving DecidableEq, Repr

abbrev SG := List SNode

def SNode.kids : SNode → List Nat
  | .leaf | .cst _ => []
  | .un _ x => [x]
  | .bin _ x y => [x, y]

/-- `DiffWRT` of unary ops (op_math.go 430-441, ʘUnaryOpDifferentiable operatorPointwise_unary_const.go 129-137). -/
def UOp.diffable : UOp → Bool
  | .sign | .ceil | .floor => false
  | _ => true

/-- How the differentiation sees a node. `DiffWRT` of a constant is empty (op.go 245, 277); the one of the arithmetic binary
operators is true for both operands (op_math.go 205-217). -/
def SNode.gnode : SNode → GNode
  | .leaf => { input := true }
  | .cst _ => {}
  | .un u x => { children := [x], diffs := [u.diffable] }
  | .bin _ x y => { children := [x, y], diffs := [true, true] }

def SG.gr (G : SG) : Gr := G.map SNode.gnode

/-- `SymDiff` of the op of node `i` (op_math.go 219-243, 441-456). Scalar graph: no `Sum`. -/
def SG.symDiff (G : SG) (i : Nat) (g : Tm) : Option (List Tm) :=
  match G.getD i .leaf with
  | .leaf => none
  | .cst _ => some []
  | .un u x => (u.diffExpr (.node x) (.node i) g).map fun t => [t]
  | .bin b x y => let d := b.diffExpr (.node x) (.node y) (.node i) g; some [d.1, d.2]

/-- `ReduceAdd` (operations.go 329-361). -/
def reduceAdd : List Tm → Option Tm
  | [] => none
  | [a] => some a
  | a :: l => some (l.foldl tadd a)

/-- `ReduceMul` (operations.go 364-395); of scalars, `Mul` is `HadamardProd`. -/
def reduceMul : List Tm → Option Tm
  | [] => none
  | [a] => some a
  | a :: l => some (l.foldl tmul a)

/-- `Grad` (gorgonia.go 211-243). -/
def grad (G : SG) (users : Nat → Nat) (deriv : Nat → Option Tm) (cost : Nat) (wrt : List Nat) :
    Option (List Tm × (Nat → Option Tm)) :=
  if wrt.all (fun w => (G.gr.node w).input) then
    backprop G.gr users G.symDiff reduceAdd deriv [(cost, .cst .one)] wrt
  else none

/-! ### Values -/

noncomputable section

/-- The value of node `i` when the inputs have the values `x` (`f`: bound on the depth). -/
def SG.valueF (G : SG) (x : Nat → ℝ) : Nat → Nat → ℝ
  | 0, i => x i
  | f + 1, i => match G.getD i .leaf with
    | .leaf => x i
    | .cst c => c.val
    | .un u a => u.fn (G.valueF x f a)
    | .bin b a c => b.fn (G.valueF x f a) (G.valueF x f c)

def SG.value (G : SG) (x : Nat → ℝ) (i : Nat) : ℝ := G.valueF x G.length i

end

/-- Operands come later in the order of `Sort` and are nodes of the graph. -/
def SG.Sorted (G : SG) : Prop := ∀ i n, G[i]? = some n → ∀ c ∈ n.kids, i < c ∧ c < G.length

theorem SG.valueF_enough (G : SG) (W : G.Sorted) (x : Nat → ℝ) (f f' i : Nat) (h : G.length ≤ f + i)
    (h' : G.length ≤ f' + i) : G.valueF x f i = G.valueF x f' i := by
  induction f generalizing f' i with
  | zero =>
    cases f' with
    | zero => rfl
    | succ f' =>
      have : G.getD i .leaf = .leaf := by simp [List.getElem?_eq_none (show G.length ≤ i by omega)]
      simp only [SG.valueF, this]
  | succ f ih =>
    cases f' with
    | zero =>
      have : G.getD i .leaf = .leaf := by simp [List.getElem?_eq_none (show G.length ≤ i by omega)]
      simp only [SG.valueF, this]
    | succ f' =>
      simp only [SG.valueF]
      have hk : ∀ n, G.getD i .leaf = n → ∀ c ∈ n.kids, i < c := by
        intro n hn c hc
        rcases Nat.lt_or_ge i G.length with hi | hi
        · refine (W i n ?_ c hc).1
          rw [List.getElem?_eq_getElem hi]
          simpa [List.getElem?_eq_getElem hi] using hn
        · rw [show G.getD i .leaf = .leaf by simp [List.getElem?_eq_none hi]] at hn
          subst hn; simp [SNode.kids] at hc
      cases hn : G.getD i .leaf with
      | leaf => rfl
      | cst c => rfl
      | un u a =>
        have := hk _ hn a (by simp [SNode.kids])
        simp only
        rw [ih f' a (by omega) (by omega)]
      | bin b a c =>
        have h1 := hk _ hn a (by simp [SNode.kids])
        have h2 := hk _ hn c (by simp [SNode.kids])
        simp only
        rw [ih f' a (by omega) (by omega), ih f' c (by omega) (by omega)]

/-- The values are the solution of the equations of the graph. -/
theorem SG.value_eq (G : SG) (W : G.Sorted) (x : Nat → ℝ) (i : Nat) : G.value x i =
    match G.getD i .leaf with
    | .leaf => x i
    | .cst c => c.val
    | .un u a => u.fn (G.value x a)
    | .bin b a c => b.fn (G.value x a) (G.value x c) := by
  unfold SG.value
  rw [SG.valueF_enough G W x G.length (G.length + 1) i (by omega) (by omega)]
  rfl

theorem SG.gr_node (G : SG) (i : Nat) (hi : i < G.length) : G.gr.node i = (G[i]).gnode := by
  simp [SG.gr, Gr.node, hi]

theorem SG.gr_length (G : SG) : G.gr.length = G.length := by simp [SG.gr]

theorem SNode.gnode_children (n : SNode) : n.gnode.children = n.kids := by cases n <;> rfl

theorem SG.gok (G : SG) (W : G.Sorted) : GOK G.gr := by
  constructor
  · intro i hi c hc
    rw [G.gr_length] at hi ⊢
    rw [G.gr_node i hi, SNode.gnode_children] at hc
    exact W i _ (List.getElem?_eq_getElem hi) c hc
  · intro i hin
    rcases Nat.lt_or_ge i G.length with hi | hi
    · rw [G.gr_node i hi] at hin ⊢
      cases hn : G[i] <;> rw [hn] at hin <;> simp [SNode.gnode] at hin ⊢
    · rw [node_out (by rw [G.gr_length]; exact hi)]

/-! ### Derivatives of integer valued functions -/

theorem deriv_int_valued (f : ℝ → ℝ) (hf : ∀ x, ∃ m : ℤ, f x = m) (x d : ℝ) (h : HasDerivAt f d x) : d = 0 := by
  have hc := h.continuousAt
  have he : f =ᶠ[nhds x] fun _ => f x := by
    have := Metric.continuousAt_iff.1 hc 1 one_pos
    obtain ⟨ε, hε, h1⟩ := this
    filter_upwards [Metric.ball_mem_nhds x hε] with y hy
    have h2 := h1 (Metric.mem_ball.1 hy)
    obtain ⟨m, hm⟩ := hf y
    obtain ⟨n, hn⟩ := hf x
    rw [hm, hn, Real.dist_eq] at h2
    have h3 : |((m - n : ℤ) : ℝ)| < 1 := by push_cast; exact h2
    rw [← Int.cast_abs] at h3
    have h4 : |m - n| < 1 := by exact_mod_cast h3
    have h5 : m = n := by have := Int.abs_lt_one_iff.1 h4; omega
    rw [hm, hn, h5]
  exact (h.congr_of_eventuallyEq he.symm).unique (hasDerivAt_const x (f x))

theorem UOp.not_diffable (u : UOp) (h : u.diffable = false) (x d : ℝ) (hd : HasDerivAt u.fn d x) : d = 0 := by
  apply deriv_int_valued u.fn _ x d hd
  intro t
  cases u <;> simp only [UOp.diffable, Bool.true_eq_false] at h
  · simp only [UOp.fn]
    split
    · exact ⟨-1, by norm_num⟩
    · exact ⟨1, by norm_num⟩
  · exact ⟨⌈t⌉, rfl⟩
  · exact ⟨⌊t⌋, rfl⟩

/-! ### Smooth points -/

/-- At the inputs `x` every operation of the graph is defined and differentiable, and the graph contains neither of the
two operations whose gradient expression is wrong (C15). -/
structure SG.Smooth (G : SG) (x : Nat → ℝ) : Prop where
  un : ∀ (i : Nat) (u : UOp) (a : Nat), G[i]? = some (.un u a) →
    u.dom (G.value x a) ∧ DifferentiableAt ℝ u.fn (G.value x a) ∧ u ≠ .log2 ∧ u ≠ .inverseSqrt
  bin : ∀ (i : Nat) (b : BOp) (a c : Nat), G[i]? = some (.bin b a c) → b.dom (G.value x a) (G.value x c)

noncomputable section

/-- The derivative of the op of node `i` with respect to its `k`-th operand. -/
def SG.jac (G : SG) (x : Nat → ℝ) (i k : Nat) : ℝ :=
  match G.getD i .leaf with
  | .leaf | .cst _ => 0
  | .un u a => deriv u.fn (G.value x a)
  | .bin b a c => if k = 0 then deriv (fun s => b.fn s (G.value x c)) (G.value x a)
    else deriv (fun s => b.fn (G.value x a) s) (G.value x c)

/-- As a linear map. -/
def SG.J (G : SG) (x : Nat → ℝ) (i k _j : Nat) : ℝ →ₗ[ℝ] ℝ := (G.jac x i k) • LinearMap.id

end

theorem foldl_tadd_eval (ρ : Nat → ℝ) (l : List Tm) (a : Tm) :
    (l.foldl tadd a).eval ρ = a.eval ρ + (l.map (Tm.eval ρ)).sum := by
  induction l generalizing a with
  | nil => simp
  | cons b l ih => simp [ih, Tm.eval, BOp.fn, add_assoc]

/-- **C48.** `ReduceAdd` of a nonempty list denotes the sum, as a left fold. -/
theorem reduceAdd_eval (l : List Tm) (t : Tm) (h : reduceAdd l = some t) (ρ : Nat → ℝ) :
    t.eval ρ = (l.map (Tm.eval ρ)).sum ∧ ∃ a r, l = a :: r ∧ t = r.foldl tadd a := by
  match l, h with
  | [a], h => simp only [reduceAdd, Option.some.injEq] at h; subst h; exact ⟨by simp, _, _, rfl, rfl⟩
  | a :: b :: r, h =>
    simp only [reduceAdd, Option.some.injEq] at h
    subst h
    exact ⟨by rw [foldl_tadd_eval]; simp, _, _, rfl, rfl⟩

theorem foldl_tmul_eval (ρ : Nat → ℝ) (l : List Tm) (a : Tm) :
    (l.foldl tmul a).eval ρ = a.eval ρ * (l.map (Tm.eval ρ)).prod := by
  induction l generalizing a with
  | nil => simp
  | cons b l ih => simp [ih, Tm.eval, BOp.fn, mul_assoc]

/-- **C48.** `ReduceMul` of a nonempty list of scalars denotes the product, as a left fold. -/
theorem reduceMul_eval (l : List Tm) (t : Tm) (h : reduceMul l = some t) (ρ : Nat → ℝ) :
    t.eval ρ = (l.map (Tm.eval ρ)).prod ∧ ∃ a r, l = a :: r ∧ t = r.foldl tmul a := by
  match l, h with
  | [a], h => simp only [reduceMul, Option.some.injEq] at h; subst h; exact ⟨by simp, _, _, rfl, rfl⟩
  | a :: b :: r, h =>
    simp only [reduceMul, Option.some.injEq] at h
    subst h
    exact ⟨by rw [foldl_tmul_eval]; simp, _, _, rfl, rfl⟩

/-- Both succeed on every nonempty list. -/
theorem reduce_total (l : List Tm) (h : l ≠ []) : (∃ t, reduceAdd l = some t) ∧ ∃ t, reduceMul l = some t := by
  match l, h with
  | [a], _ => exact ⟨⟨_, rfl⟩, ⟨_, rfl⟩⟩
  | a :: b :: r, _ => exact ⟨⟨_, rfl⟩, ⟨_, rfl⟩⟩

example : reduceAdd [.node 1, .node 2, .node 3] = some (tadd (tadd (.node 1) (.node 2)) (.node 3)) := rfl

theorem rinner (a b : ℝ) : inner ℝ a b = a * b := by simp [inner, mul_comm]

theorem SG.local_ok (G : SG) (W : G.Sorted) (x : Nat → ℝ) (S : G.Smooth x) :
    LocalOK (E := fun _ => ℝ) G.gr (fun _ _ => True) (fun _ t => t.eval (G.value x)) (G.J x) G.symDiff reduceAdd := by
  constructor
  · intro i g ts hi _ hts k c t hc hk ht
    refine ⟨trivial, fun v => ?_⟩
    rw [G.gr_length] at hi
    rw [G.gr_node i hi] at hc hk
    have hi? : G[i]? = some G[i] := List.getElem?_eq_getElem hi
    have hgd : G.getD i .leaf = G[i] := by simp [hi]
    have hval := G.value_eq W x i
    rw [hgd] at hval
    simp only [SG.symDiff, hgd] at hts
    simp only [SG.J, SG.jac, hgd, LinearMap.smul_apply, LinearMap.id_apply, smul_eq_mul]
    cases hn : G[i] with
    | leaf => rw [hn] at hts; cases hts
    | cst c' => rw [hn] at hc; simp [SNode.gnode] at hc
    | un u a =>
      simp only [hn] at hts hval hi? ⊢
      rw [hn] at hc hk
      cases k with
      | succ k => simp [SNode.gnode] at hc
      | zero =>
        simp only [SNode.gnode, List.getElem?_cons_zero, Option.some.injEq] at hc hk
        subst hc
        cases hde : u.diffExpr (.node a) (.node i) g with
        | none => rw [hde] at hts; cases hts
        | some t' =>
          rw [hde] at hts
          simp only [Option.map_some, Option.some.injEq] at hts
          subst hts
          simp only [List.getElem?_cons_zero, Option.some.injEq] at ht
          subst ht
          obtain ⟨h1, h2, h3, h4⟩ := S.un i u a hi?
          have := unary_diff_partial u h3 h4 (.node a) (.node i) g t' hde (G.value x) hval h1 _ h2.hasDerivAt
          rw [this]
          simp only [rinner]
          ring
    | bin b a d =>
      simp only [hn] at hts hval hi? ⊢
      rw [hn] at hc hk
      injection hts with hts
      subst hts
      have hdom := S.bin i b a d hi?
      obtain ⟨⟨p, p1, p2⟩, ⟨q, q1, q2⟩⟩ := binary_partials b (.node a) (.node d) (.node i) g (G.value x) hval hdom
      simp only [Tm.eval] at p1 q1
      match k with
      | 0 =>
        simp only [SNode.gnode, List.getElem?_cons_zero, Option.some.injEq] at hc ht
        subst hc ht
        rw [p2]
        simp only [↓reduceIte, p1.deriv, rinner]
        ring
      | 1 =>
        simp only [SNode.gnode, List.getElem?_cons_succ, List.getElem?_cons_zero, Option.some.injEq] at hc ht
        subst hc ht
        rw [q2]
        simp only [one_ne_zero, ↓reduceIte, q1.deriv, rinner]
        ring
      | k + 2 => simp [SNode.gnode] at hc
  · intro i l s _ _ h
    exact ⟨trivial, (reduceAdd_eval l s h _).1⟩

/-- **C17.** `Grad`, when no node between the cost and the requested inputs carries a derivative from an earlier call: whenever it succeeds, then at every point at which all
operations are defined and differentiable the expressions it returns evaluate to the true partial derivatives: if the
requested inputs move along differentiable curves and the other inputs stay, the value of the cost moves with velocity
`Σ_w (value of the gradient of w) * (velocity of w)`. Sharing of nodes is arbitrary. -/
theorem grad_correct (G : SG) (W : G.Sorted) (users : Nat → Nat) (deriv : Nat → Option Tm)
    (cost : Nat) (hcost : cost < G.length) (wrt : List Nat)
    (hd : ∀ i, Reach G.gr cost i → (∃ w ∈ wrt, Reach G.gr i w) → deriv i = none)
    (hwl : ∀ w ∈ wrt, w < G.length) (res : List Tm)
    (deriv' : Nat → Option Tm) (h : grad G users deriv cost wrt = some (res, deriv')) :
    ∃ r : Nat → Tm, res = wrt.map r ∧ ∀ (γ : ℝ → Nat → ℝ) (v : Nat → ℝ) (t₀ : ℝ), G.Smooth (γ t₀) →
      (∀ w ∈ wrt, HasDerivAt (fun t => γ t w) (v w) t₀) → (∀ i, i ∉ wrt → ∀ t, γ t i = γ t₀ i) →
      HasDerivAt (fun t => G.value (γ t) cost) (∑ w ∈ wrt.toFinset, (r w).eval (G.value (γ t₀)) * v w) t₀ := by
  unfold grad at h
  split at h
  swap
  · cases h
  rename_i hin
  have hin : ∀ w ∈ wrt, (G.gr.node w).input = true := by simpa using hin
  haveI : Inhabited Tm := ⟨.cst .one⟩
  have hgl := G.gr_length
  -- take the result once, for a velocity-independent choice
  have main := fun (x : Nat → ℝ) (S : G.Smooth x) => backprop_adjoint (E := fun _ => ℝ) G.gr (G.gok W) users
    (fun _ _ => True) (fun _ t => t.eval (G.value x)) (G.J x) G.symDiff reduceAdd (G.local_ok W x S) deriv
    [(cost, .cst .one)] (by simp) (by simp) (by simpa [hgl] using hcost) wrt
    (fun w hw => ⟨by rw [hgl]; exact hwl w hw, hin w hw⟩) (fun i h1 h2 => hd i (by simpa using h1) h2) res deriv' h
  have hlen : res.length = wrt.length := by
    unfold backprop at h
    simp only [Option.bind_eq_bind] at h
    rw [Option.bind_eq_some_iff] at h
    obtain ⟨F, _, h⟩ := h
    rw [Option.bind_eq_some_iff] at h
    obtain ⟨B, _, h⟩ := h
    split at h
    · cases h
    split at h
    · cases h
    rw [Option.bind_eq_some_iff] at h
    obtain ⟨s, _, h⟩ := h
    rw [Option.bind_eq_some_iff] at h
    obtain ⟨r, hr, h⟩ := h
    simp only [Option.some.injEq, Prod.mk.injEq] at h
    rw [← h.1]; exact (mapM_head _ _ _ hr).1
  classical
  by_cases hex : ∃ r : Nat → Tm, res = wrt.map r
  swap
  · -- impossible as soon as there is one smooth point; otherwise nothing is claimed
    exfalso
    apply hex
    clear main
    unfold backprop at h
    simp only [Option.bind_eq_bind] at h
    rw [Option.bind_eq_some_iff] at h
    obtain ⟨F, _, h⟩ := h
    rw [Option.bind_eq_some_iff] at h
    obtain ⟨B, _, h⟩ := h
    split at h
    · cases h
    split at h
    · cases h
    rw [Option.bind_eq_some_iff] at h
    obtain ⟨s, _, h⟩ := h
    rw [Option.bind_eq_some_iff] at h
    obtain ⟨r, hr, h⟩ := h
    simp only [Option.some.injEq, Prod.mk.injEq] at h
    obtain ⟨rfl, _⟩ := h
    obtain ⟨_, hres⟩ := mapM_head _ _ _ hr
    refine ⟨fun w => ((s.gm w).head?).getD default, ?_⟩
    apply List.ext_getElem
    · simp [hlen]
    · intro m h1 h2
      obtain ⟨t, ht, hh⟩ := hres m (wrt[m]'(by omega)) (by rw [List.getElem?_eq_getElem])
      rw [List.getElem?_eq_getElem h1] at ht
      injection ht with ht
      rw [List.getElem_map, hh, ht]; rfl
  obtain ⟨r, hr⟩ := hex
  refine ⟨r, hr, ?_⟩
  intro γ v t₀ S hw hstay
  obtain ⟨r', hr', _, hadj⟩ := main (γ t₀) S
  have hrr : ∀ w ∈ wrt, r w = r' w := by
    intro w hw'
    have := hr.symm.trans hr'
    exact List.map_inj_left.1 this w hw'
  -- every node has a velocity
  have hvel : ∃ vel : Nat → ℝ, (∀ i, i < G.length → HasDerivAt (fun t => G.value (γ t) i) (vel i) t₀) ∧
      Tangent (E := fun _ => ℝ) G.gr (G.J (γ t₀)) wrt vel ∧ (∀ w ∈ wrt, vel w = v w) := by
    -- the velocity is the derivative, where it exists
    let vel : Nat → ℝ := fun i => _root_.deriv (fun t => G.value (γ t) i) t₀
    have step : ∀ m i, G.length - i ≤ m → i < G.length →
        HasDerivAt (fun t => G.value (γ t) i) (vel i) t₀ ∧
        ((G.gr.node i).input = false →
          vel i = jsum (E := fun _ => ℝ) (G.J (γ t₀)) vel i 0 (G.gr.node i).children (G.gr.node i).diffs) ∧
        ((G.gr.node i).input = true → i ∉ wrt → vel i = 0) := by
      intro m
      induction m with
      | zero => intro i a b; omega
      | succ m ih =>
        intro i hm hi
        have hi? : G[i]? = some G[i] := List.getElem?_eq_getElem hi
        have hgd : G.getD i .leaf = G[i] := by simp [hi]
        have hval : ∀ t, G.value (γ t) i = _ := fun t => G.value_eq W (γ t) i
        simp only [hgd] at hval
        rw [G.gr_node i hi]
        cases hn : G[i] with
        | leaf =>
          simp only [hn] at hval
          have hfun : (fun t => G.value (γ t) i) = fun t => γ t i := by funext t; exact hval t
          by_cases hiw : i ∈ wrt
          · have hder := hw i hiw
            rw [← hfun] at hder
            exact ⟨hder.differentiableAt.hasDerivAt, by simp [SNode.gnode], fun _ h => absurd hiw h⟩
          · have hder : HasDerivAt (fun t => G.value (γ t) i) 0 t₀ := by
              rw [hfun]
              have : (fun t => γ t i) = fun _ => γ t₀ i := by funext t; exact hstay i hiw t
              rw [this]; exact hasDerivAt_const _ _
            exact ⟨hder.differentiableAt.hasDerivAt, by simp [SNode.gnode], fun _ _ => hder.deriv⟩
        | cst c =>
          simp only [hn] at hval
          have hder : HasDerivAt (fun t => G.value (γ t) i) 0 t₀ := by
            rw [show (fun t => G.value (γ t) i) = fun _ => c.val from funext hval]
            exact hasDerivAt_const _ _
          exact ⟨hder.differentiableAt.hasDerivAt, fun _ => hder.deriv, by simp [SNode.gnode]⟩
        | un u a =>
          simp only [hn] at hval hi?
          have ha := W i _ hi? a (by simp [SNode.kids])
          obtain ⟨h1, _, _⟩ := ih a (by omega) ha.2
          obtain ⟨_, hdiff, _, _⟩ := S.un i u a hi?
          have hder : HasDerivAt (fun t => G.value (γ t) i) (_root_.deriv u.fn (G.value (γ t₀) a) * vel a) t₀ := by
            rw [show (fun t => G.value (γ t) i) = u.fn ∘ fun t => G.value (γ t) a from funext hval]
            exact HasDerivAt.comp (h₂ := u.fn) (h := fun t => G.value (γ t) a) t₀ hdiff.hasDerivAt h1
          refine ⟨hder.differentiableAt.hasDerivAt, fun _ => ?_, by simp [SNode.gnode]⟩
          have hv' : vel i = _ := hder.deriv
          rw [hv']
          simp only [SNode.gnode, jsum, SG.J, SG.jac, hgd, hn, add_zero]
          cases hdf : u.diffable with
          | true => simp
          | false =>
            rw [UOp.not_diffable u hdf _ _ hdiff.hasDerivAt]; simp
        | bin b a c =>
          simp only [hn] at hval hi?
          have ha := W i _ hi? a (by simp [SNode.kids])
          have hc := W i _ hi? c (by simp [SNode.kids])
          obtain ⟨h1, _, _⟩ := ih a (by omega) ha.2
          obtain ⟨h2, _, _⟩ := ih c (by omega) hc.2
          have hdom := S.bin i b a c hi?
          have hz : (Tm.node i).eval (G.value (γ t₀)) =
              b.fn ((Tm.node a).eval (G.value (γ t₀))) ((Tm.node c).eval (G.value (γ t₀))) := hval t₀
          obtain ⟨w, w1, w2⟩ := binary_diff b (.node a) (.node c) (.node i) (.cst .one) (G.value (γ t₀)) hz hdom
            (fun t => G.value (γ t) a) (fun t => G.value (γ t) c) _ _ t₀ h1 h2 rfl rfl
          obtain ⟨⟨p, p1, p2⟩, ⟨q, q1, q2⟩⟩ := binary_partials b (.node a) (.node c) (.node i) (.cst .one)
            (G.value (γ t₀)) hz hdom
          rw [p2, q2] at w2
          simp only [Tm.eval, Cst.val, one_mul] at w2 p1 q1
          have hder : HasDerivAt (fun t => G.value (γ t) i) w t₀ := by
            rw [show (fun t => G.value (γ t) i) = fun t => b.fn (G.value (γ t) a) (G.value (γ t) c) from funext hval]
            exact w1
          refine ⟨hder.differentiableAt.hasDerivAt, fun _ => ?_, by simp [SNode.gnode]⟩
          have hv' : vel i = _ := hder.deriv
          rw [hv', w2]
          simp only [SNode.gnode, jsum, SG.J, SG.jac, hgd, hn, add_zero, ↓reduceIte, LinearMap.smul_apply,
            LinearMap.id_apply, smul_eq_mul, p1.deriv, q1.deriv, zero_add, one_ne_zero]
    refine ⟨vel, fun i hi => (step _ i (Nat.le_refl _) hi).1, ⟨?_, ?_⟩, ?_⟩
    · intro i hi h0
      rw [hgl] at hi
      exact (step _ i (Nat.le_refl _) hi).2.1 h0
    · intro i h1 h2
      rcases Nat.lt_or_ge i G.length with hi | hi
      · exact (step _ i (Nat.le_refl _) hi).2.2 h1 h2
      · rw [node_out (by rw [hgl]; exact hi)] at h1; cases h1
    · intro w hw'
      have h1 := (step _ w (Nat.le_refl _) (hwl w hw')).1
      have hi := hwl w hw'
      have hl : G[w] = .leaf := by
        have := hin w hw'
        rw [G.gr_node w hi] at this
        cases hn : G[w] <;> rw [hn] at this <;> simp [SNode.gnode] at this ⊢
      have hval : ∀ t, G.value (γ t) w = _ := fun t => G.value_eq W (γ t) w
      simp only [show G.getD w .leaf = .leaf by simp [hi, hl]] at hval
      rw [show (fun t => G.value (γ t) w) = fun t => γ t w from funext hval] at h1
      exact h1.unique (hw w hw')
  obtain ⟨vel, hv1, hv2, hv3⟩ := hvel
  have := hadj vel hv2
  simp only [List.map_cons, List.map_nil, List.sum_cons, List.sum_nil, add_zero] at this
  refine (hv1 cost hcost).congr_deriv ?_
  have e1 : vel cost = inner ℝ ((Tm.cst .one).eval (G.value (γ t₀))) (vel cost) := by
    simp [Tm.eval, Cst.val, inner]
  rw [e1, this]
  apply Finset.sum_congr rfl
  intro w hw'
  have hw' := List.mem_toFinset.1 hw'
  rw [hv3 w hw', hrr w hw']
  simp [inner, mul_comm]

/-- **C17, partial derivatives.** The same for one input at a time. -/
theorem grad_partial_derivatives (G : SG) (W : G.Sorted) (users : Nat → Nat) (deriv : Nat → Option Tm)
    (cost : Nat) (hcost : cost < G.length) (wrt : List Nat)
    (hd : ∀ i, Reach G.gr cost i → (∃ w ∈ wrt, Reach G.gr i w) → deriv i = none)
    (hwl : ∀ w ∈ wrt, w < G.length) (res : List Tm)
    (deriv' : Nat → Option Tm) (h : grad G users deriv cost wrt = some (res, deriv')) (x : Nat → ℝ) (S : G.Smooth x) :
    res.length = wrt.length ∧ ∀ (k w : Nat) (t : Tm), wrt[k]? = some w → res[k]? = some t →
      HasDerivAt (fun s => G.value (upd x w s) cost) (t.eval (G.value x)) (x w) := by
  obtain ⟨r, hr, hmain⟩ := grad_correct G W users deriv cost hcost wrt hd hwl res deriv' h
  refine ⟨by simp [hr], ?_⟩
  intro k w t hk ht
  have hw : w ∈ wrt := List.mem_of_getElem? hk
  have ht' : t = r w := by
    rw [hr, List.getElem?_map, hk] at ht
    simpa using ht.symm
  have hx : upd x w (x w) = x := by funext j; unfold upd; split <;> simp_all
  have := hmain (fun s => upd x w s) (fun j => if j = w then 1 else 0) (x w) (by rw [hx]; exact S)
    (by
      intro w' _
      by_cases e : w' = w
      · subst e
        simp only [upd, ↓reduceIte]
        exact hasDerivAt_id _
      · simp only [upd, e, ↓reduceIte]
        exact hasDerivAt_const _ _)
    (by
      intro i hi s
      have : i ≠ w := fun e => hi (e ▸ hw)
      simp [upd, this])
  refine this.congr_deriv ?_
  rw [hx]
  simp [hw, ht']

/-- **C17, success.** `Grad`, under the same condition on earlier calls, succeeds exactly if at least one input is requested,
all requested nodes are inputs, and the cost depends on each of them through differentiable operands. -/
theorem grad_succeeds_iff (G : SG) (W : G.Sorted) (users : Nat → Nat) (deriv : Nat → Option Tm)
    (cost : Nat) (wrt : List Nat)
    (hd : ∀ i, Reach G.gr cost i → (∃ w ∈ wrt, Reach G.gr i w) → deriv i = none) :
    (∃ r, grad G users deriv cost wrt = some r) ↔
      wrt ≠ [] ∧ ∀ w ∈ wrt, (G.gr.node w).input = true ∧ Reach G.gr cost w := by
  have hgok := G.gok W
  have hgl := G.gr_length
  -- the analyses do not fail
  have hF : ∃ F, forward G.gr [cost] = some F := by
    have : ∀ (l : List Nat) (S : Nat → Bool), (∀ i ∈ l, i < G.length) → ∃ F, l.foldlM (fwdStep G.gr) S = some F := by
      intro l
      induction l with
      | nil => intro S _; exact ⟨S, rfl⟩
      | cons i l ih =>
        intro S hl
        have hi := hl i (List.mem_cons_self ..)
        have : ∃ S', fwdStep G.gr S i = some S' := by
          unfold fwdStep
          simp only
          rw [G.gr_node i hi]
          split
          · cases G[i] <;> simp [SNode.gnode]
          · exact ⟨_, rfl⟩
        obtain ⟨S', hS⟩ := this
        obtain ⟨F, hF⟩ := ih S' (fun j hj => hl j (List.mem_cons_of_mem _ hj))
        exact ⟨F, by simp [hS, hF]⟩
    exact this _ _ (fun i hi => by rw [List.mem_range] at hi; omega)
  have hB : ∃ B, backward G.gr users wrt = some B := by
    have : ∀ (l : List Nat) (S : Nat → Bool), (∀ i ∈ l, i < G.length) →
        ∃ F, l.foldlM (bwdStep G.gr users) S = some F := by
      intro l
      induction l with
      | nil => intro S _; exact ⟨S, rfl⟩
      | cons i l ih =>
        intro S hl
        have hi := hl i (List.mem_cons_self ..)
        have : ∃ S', bwdStep G.gr users S i = some S' := by
          unfold bwdStep
          simp only
          rw [G.gr_node i hi]
          cases hn : G[i] with
          | leaf => simp [SNode.gnode]
          | cst c => simp [SNode.gnode]
          | un u a =>
            rw [if_neg (by simp [SNode.gnode]), if_pos (by simp [SNode.gnode])]
            split <;> exact ⟨_, rfl⟩
          | bin b a c =>
            rw [if_neg (by simp [SNode.gnode]), if_pos (by simp [SNode.gnode])]
            split <;> exact ⟨_, rfl⟩
        obtain ⟨S', hS⟩ := this
        obtain ⟨F, hF⟩ := ih S' (fun j hj => hl j (List.mem_cons_of_mem _ hj))
        exact ⟨F, by simp [hS, hF]⟩
    exact this _ _ (fun i hi => by rw [List.mem_reverse, List.mem_range] at hi; omega)
  obtain ⟨F, hF⟩ := hF
  obtain ⟨B, hB⟩ := hB
  have hFr := forward_reach G.gr hgok [cost] F hF
  have hBr := backward_reach G.gr hgok users wrt B hB
  constructor
  · rintro ⟨⟨res, d'⟩, h⟩
    unfold grad at h
    split at h
    swap
    · cases h
    rename_i hin
    have hin : ∀ w ∈ wrt, (G.gr.node w).input = true := by simpa using hin
    unfold backprop at h
    simp only [List.map_cons, List.map_nil] at h
    rw [hF, hB] at h
    simp only [Option.bind_eq_bind, Option.bind_some] at h
    split at h
    · cases h
    rename_i hwF
    split at h
    · cases h
    rename_i hoB
    have hwF : ∀ w ∈ wrt, F w = true := by simpa using hwF
    have hoB : B cost = true := by simpa using hoB
    obtain ⟨w, hw, _⟩ := (hBr cost).1 hoB
    refine ⟨List.ne_nil_of_mem hw, fun w hw => ⟨hin w hw, ?_⟩⟩
    obtain ⟨o, ho, hr⟩ := (hFr w).1 (hwF w hw)
    simp only [List.mem_singleton] at ho
    exact ho ▸ hr
  · rintro ⟨hne, hall⟩
    unfold grad
    rw [if_pos (by simpa using fun w hw => (hall w hw).1)]
    have hlt : ∀ w ∈ wrt, w < G.gr.length := by
      intro w hw
      rcases Nat.lt_or_ge w G.gr.length with h | h
      · exact h
      · have := (hall w hw).1; rw [node_out h] at this; cases this
    refine backprop_succeeds G.gr hgok users G.symDiff reduceAdd deriv
      [(cost, .cst .one)] wrt (fun _ _ => True) (by simp) (fun i h1 h2 => hd i (by simpa using h1) h2) hlt F B hF hB (fun w hw => (hFr w).2 ⟨cost, by simp, (hall w hw).2⟩) ?_ ?_
      (fun w hw => (hall w hw).1) ?_
    · intro o ho
      simp only [List.mem_singleton] at ho
      subst ho
      obtain ⟨w, hw⟩ := List.exists_mem_of_ne_nil _ hne
      exact (hBr cost).2 ⟨w, hw, (hall w hw).2⟩
    · intro i g hi hin hFi hBi hiw _
      rw [hgl] at hi
      have hgd : G.getD i .leaf = G[i] := by simp [hi]
      rw [G.gr_node i hi] at hin ⊢
      simp only [SG.symDiff, hgd]
      cases hn : G[i] with
      | leaf => rw [hn] at hin; simp [SNode.gnode] at hin
      | cst c => exact ⟨[], rfl, by simp [SNode.gnode], by simp [SNode.gnode], by simp⟩
      | bin b a c => exact ⟨_, rfl, by simp [SNode.gnode], by simp [SNode.gnode], by simp⟩
      | un u a =>
        -- the node has a differentiable operand
        have hdf : u.diffable = true := by
          rcases (backward_spec G.gr hgok users wrt B hB).2.2 i hBi with h | ⟨c, hd', _⟩
          · exact absurd h hiw
          · unfold Dep at hd'
            rw [G.gr_node i hi, hn] at hd'
            simp only [SNode.gnode, List.zip_cons_cons, List.zip_nil_right, List.mem_singleton, Prod.mk.injEq] at hd'
            exact hd'.2.symm
        have : ∃ t, u.diffExpr (.node a) (.node i) g = some t := by
          cases u <;> simp [UOp.diffExpr, UOp.diffable] at hdf ⊢
        obtain ⟨t, ht⟩ := this
        exact ⟨[t], by simp [ht], by simp [SNode.gnode], by simp [SNode.gnode], by simp⟩
    · intro _ l _ hl
      obtain ⟨s, hs⟩ := (reduce_total l (by intro e; subst e; simp at hl)).1
      exact ⟨s, hs, trivial⟩

/-! ### A graph with sharing -/

/-- `c = m * exp m` with `m = x * x`: `m` is used twice, and so is `x`. -/
def shared : SG := [.bin .mul 2 1, .un .exp 2, .bin .mul 3 3, .leaf]

/-- Concrete case: `Grad` succeeds; its result at `x = 1` is `2 e + 2 e`. -/
example : ∃ t d, grad shared (fun _ => 2) (fun _ => none) 0 [3] = some ([t], d) ∧
    t.eval (shared.value (fun _ => 1)) = 4 * Real.exp 1 := by
  refine ⟨_, _, rfl, ?_⟩
  norm_num [Tm.eval, BOp.fn, UOp.fn, Cst.val, BOp.diffExpr, SG.value, SG.valueF, shared]
  ring

example : shared.Sorted := by
  intro i n hn c hc
  match i, hn with
  | 0, hn => simp [shared] at hn; subst hn; simp [SNode.kids] at hc; rcases hc with rfl | rfl <;> decide
  | 1, hn => simp [shared] at hn; subst hn; simp [SNode.kids] at hc; subst hc; decide
  | 2, hn => simp [shared] at hn; subst hn; simp [SNode.kids] at hc; subst hc; decide
  | 3, hn => simp [shared] at hn; subst hn; simp [SNode.kids] at hc
  | i + 4, hn => simp [shared] at hn

/-! ### A second call -/

/-- `c₁ = m + x` (node 0), `c₂ = m * three` (node 1) with `m = x * x` (node 2), `x` node 3, `three` node 4. -/
def twoCosts : SG := [.bin .add 2 3, .bin .mul 2 4, .bin .mul 3 3, .leaf, .cst .three]

/-- **C18 (defect).** A second `Grad`, for another cost of the same graph, returns the gradients of the first: the nodes
that already have a derivative are skipped (differentiation.go 219-223). At `x = 1` the derivative of `3 x²` is 6; the
library returns an expression whose value is 3, the derivative of `x² + x`. -/
theorem second_grad_wrong :
    ∃ t₁ d₁ t₂ d₂, grad twoCosts (fun _ => 1) (fun _ => none) 0 [3] = some ([t₁], d₁) ∧
      grad twoCosts (fun _ => 1) d₁ 1 [3] = some ([t₂], d₂) ∧
      t₂ = t₁ ∧ t₂.eval (twoCosts.value (fun _ => 1)) = 3 ∧
      HasDerivAt (fun s => twoCosts.value (upd (fun _ => 1) 3 s) 1) 6 1 := by
  refine ⟨_, _, _, _, rfl, rfl, rfl, ?_, ?_⟩
  · norm_num [Tm.eval, BOp.fn, UOp.fn, Cst.val, BOp.diffExpr, SG.value, SG.valueF, twoCosts]
  · have e : (fun s : ℝ => twoCosts.value (upd (fun _ => 1) 3 s) 1) = fun s => s * s * 3 := by
      funext s
      simp [SG.value, SG.valueF, twoCosts, BOp.fn, Cst.val, upd]
    rw [e]
    refine (((hasDerivAt_id (1 : ℝ)).mul (hasDerivAt_id (1 : ℝ))).mul_const 3).congr_deriv ?_
    norm_num

/-- **C18, partial.** After a first `Grad`, a second one for another cost is correct if no node lies both between the first
cost and its inputs and between the second cost and its inputs. Missing: costs that share such nodes, for which it is
false (`second_grad_wrong`). -/
theorem second_grad_partial (G : SG) (W : G.Sorted) (users : Nat → Nat) (c₁ c₂ : Nat)
    (h₂ : c₂ < G.length) (wrt₁ wrt₂ : List Nat) (hw₁ : ∀ w ∈ wrt₁, w < G.length)
    (hw₂ : ∀ w ∈ wrt₂, w < G.length) (r₁ r₂ : List Tm) (d₁ d₂ : Nat → Option Tm)
    (g₁ : grad G users (fun _ => none) c₁ wrt₁ = some (r₁, d₁)) (g₂ : grad G users d₁ c₂ wrt₂ = some (r₂, d₂))
    (apart : ∀ i, Reach G.gr c₁ i → (∃ w ∈ wrt₁, Reach G.gr i w) → Reach G.gr c₂ i → (∃ w ∈ wrt₂, Reach G.gr i w) → False)
    (x : Nat → ℝ) (S : G.Smooth x) :
    r₂.length = wrt₂.length ∧ ∀ (k w : Nat) (t : Tm), wrt₂[k]? = some w → r₂[k]? = some t →
      HasDerivAt (fun s => G.value (upd x w s) c₂) (t.eval (G.value x)) (x w) := by
  refine grad_partial_derivatives G W users d₁ c₂ h₂ wrt₂ ?_ hw₂ r₂ d₂ g₂ x S
  intro i hi hiw
  unfold grad at g₁
  split at g₁
  swap
  · cases g₁
  obtain ⟨keep, _, _⟩ := backprop_leaves G.gr (G.gok W) users G.symDiff reduceAdd _ _ wrt₁
    (fun w hw => by rw [G.gr_length]; exact hw₁ w hw) r₁ d₁ g₁
  rw [keep i]
  rintro ⟨⟨o, ho, hr⟩, hw⟩
  simp only [List.mem_singleton] at ho
  subst ho
  exact apart i hr hw hi hiw

/-- **C18.** Asking for the same gradients again returns the same expressions. -/
theorem grad_again (G : SG) (W : G.Sorted) (users : Nat → Nat) (c : Nat) (wrt : List Nat) (hc : c ∉ wrt)
    (hw : ∀ w ∈ wrt, w < G.length) (r : List Tm) (d : Nat → Option Tm)
    (g : grad G users (fun _ => none) c wrt = some (r, d)) : grad G users d c wrt = some (r, d) := by
  unfold grad at g ⊢
  split at g
  swap
  · cases g
  rename_i hin
  rw [if_pos hin]
  have hgl := G.gr_length
  have hlt : ∀ w ∈ wrt, w < G.gr.length := fun w h => by rw [hgl]; exact hw w h
  obtain ⟨_, l2, l3⟩ := backprop_leaves G.gr (G.gok W) users G.symDiff reduceAdd _ _ wrt hlt r d g
  have g' := g
  unfold backprop at g'
  simp only [Option.bind_eq_bind] at g'
  rw [Option.bind_eq_some_iff] at g'
  obtain ⟨F, hF, g'⟩ := g'
  rw [Option.bind_eq_some_iff] at g'
  obtain ⟨B, hB, g'⟩ := g'
  split at g'
  · cases g'
  rename_i hwF
  split at g'
  · cases g'
  rename_i hoB
  rw [Option.bind_eq_some_iff] at g'
  obtain ⟨s, _, g'⟩ := g'
  rw [Option.bind_eq_some_iff] at g'
  obtain ⟨r', hr', g'⟩ := g'
  simp only [Option.some.injEq, Prod.mk.injEq] at g'
  obtain ⟨rfl, _⟩ := g'
  have hlen := (mapM_head _ _ _ hr').1
  refine backprop_again G.gr (G.gok W) users G.symDiff reduceAdd d [(c, .cst .one)] wrt hlt ?_ (by simpa using hc) F B hF hB
    (by simpa using hwF) (by simpa using hoB) r' ?_
  · intro j h1 h2
    have hj : j < G.gr.length := by
      obtain ⟨w, hw', hr⟩ := h2
      rcases Relation.ReflTransGen.cases_head hr with rfl | ⟨b, hd, _⟩
      · exact hlt _ hw'
      · have := hd.lt (G.gok W); omega
    exact l2 j hj h1 h2
  · have gen : ∀ (ws : List Nat) (rs : List Tm), rs.length = ws.length →
        (∀ (k w : Nat) (t : Tm), ws[k]? = some w → rs[k]? = some t → d w = some t) → ws.mapM d = some rs := by
      intro ws
      induction ws with
      | nil => intro rs h _; simp at h; subst h; rfl
      | cons w ws ih =>
        intro rs h hk
        cases rs with
        | nil => simp at h
        | cons t rs =>
          have h0 := hk 0 w t (by simp) (by simp)
          have := ih rs (by simpa using h) (fun k w' t' a b => hk (k + 1) w' t' (by simpa using a) (by simpa using b))
          simp [List.mapM_cons, h0, this]
    exact gen wrt r' hlen (fun k w t a b => l3 k w t a b rfl)

end Verif.AD
