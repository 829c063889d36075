import Verif.Train.Loop
import Verif.AD.Grad
import Verif.Solver.Theorems
/-!
The training loop on graphs of scalar operations: gradient descent on the cost, with the true partial derivatives.
-/
set_option autoImplicit false
namespace Verif.Train
open Verif.Shape (Res)
open Verif.Tape (upd upd_same upd_ne Prog Env M compile runAll reset value WF)
open Verif.AD (SG SNode Tm UOp BOp Cst)
open Verif.Solver (Fields vanillaNode Param processed ClipOk)

/-! ### The program is the graph with its gradients -/

/-- The node at position `i` of the program computes the expression `t` over the nodes of the graph: it is an input of
the graph, a constant, or an operation of which the operands compute the operands of the expression. -/
def Computes (P : Prog) (E : Env ℝ) (G : SG) (ad : Nat → Nat) (D : Nat → Tm → Prop) (i : Nat) (t : Tm) : Prop :=
  (∃ w, (P.node i).kind = .arg ∧ t = .node w ∧ G.getD w .leaf = .leaf ∧ E.inp i = some (ad w)) ∨
  (∃ c : Cst, (P.node i).kind = .const ∧ (P.node i).children = [] ∧ (E.sem i).f [] = some c.val ∧
    (t = .cst c ∨ ∃ j, t = .node j ∧ G.getD j .leaf = .cst c)) ∨
  (∃ (u : UOp) (a : Nat), (P.node i).kind = .op ∧ (P.node i).children = [a] ∧
    (∀ v, (E.sem i).f [v] = some (u.fn v)) ∧
    ((∃ s, t = .un u s ∧ D a s) ∨ ∃ j x, t = .node j ∧ G.getD j .leaf = .un u x ∧ D a (.node x))) ∨
  (∃ (o : BOp) (a b : Nat), (P.node i).kind = .op ∧ (P.node i).children = [a, b] ∧
    (∀ v w, (E.sem i).f [v, w] = some (o.fn v w)) ∧
    ((∃ s r, t = .bin o s r ∧ D a s ∧ D b r) ∨
      ∃ j x y, t = .node j ∧ G.getD j .leaf = .bin o x y ∧ D a (.node x) ∧ D b (.node y)))

theorem computes_value (P : Prog) (W : WF P) (E : Env ℝ) (G : SG) (hG : G.Sorted) (ad : Nat → Nat)
    (D : Nat → Tm → Prop) (hD : ∀ i t, i < P.length → D i t → Computes P E G ad D i t) (mem : Nat → ℝ) :
    ∀ i t, i < P.length → D i t → value P E mem i = some (t.eval (G.value fun w => mem (ad w))) := by
  intro i
  induction i using Nat.strong_induction_on with
  | _ i ih =>
    intro t hi ht
    rw [Tape.value_eq P W E mem i hi]
    unfold Tape.evalNode
    rcases hD i t hi ht with ⟨w, hk, rfl, hl, hinp⟩ | ⟨c, hk, hch, hf, ht'⟩ | ⟨u, a, hk, hch, hf, ht'⟩ |
      ⟨o, a, b, hk, hch, hf, ht'⟩
    · rw [hk]
      simp only [hinp, Option.map_some, Tm.eval]
      rw [G.value_eq hG, hl]
    · rw [hk, hch]
      simp only [List.mapM_nil]
      rw [show (pure [] : Option (List ℝ)) = some [] from rfl, Option.bind_some, hf]
      rcases ht' with rfl | ⟨j, rfl, hj⟩
      · rfl
      · simp only [Tm.eval]; rw [G.value_eq hG, hj]
    · have ha : a < i := W.before i hi a (by rw [hch]; simp)
      rw [hk, hch]
      simp only [List.mapM_cons, List.mapM_nil]
      rcases ht' with ⟨s, rfl, hs⟩ | ⟨j, x, rfl, hj, hs⟩
      · rw [ih a ha s (by omega) hs]
        simp only [Option.pure_def, Option.bind_eq_bind, Option.bind_some, hf, Tm.eval]
      · rw [ih a ha _ (by omega) hs]
        simp only [Option.pure_def, Option.bind_eq_bind, Option.bind_some, hf, Tm.eval]
        rw [G.value_eq hG _ j, hj]
    · have ha : a < i := W.before i hi a (by rw [hch]; simp)
      have hb : b < i := W.before i hi b (by rw [hch]; simp)
      rw [hk, hch]
      simp only [List.mapM_cons, List.mapM_nil]
      rcases ht' with ⟨s, r, rfl, hs, hr⟩ | ⟨j, x, y, rfl, hj, hs, hr⟩
      · rw [ih a ha s (by omega) hs, ih b hb r (by omega) hr]
        simp only [Option.pure_def, Option.bind_eq_bind, Option.bind_some, hf, Tm.eval]
      · rw [ih a ha _ (by omega) hs, ih b hb _ (by omega) hr]
        simp only [Option.pure_def, Option.bind_eq_bind, Option.bind_some, hf, Tm.eval]
        rw [G.value_eq hG _ j, hj]

/-! ### Solvers -/

noncomputable section

/-- A solver of `Verif.Solver` on scalars. -/
def scalarSol (node : Param → Option Param) : Sol ℝ (Option (ℝ × ℝ)) := fun w g c =>
  match node (.scalar w (some g) c) with
  | some (.scalar w' (some g') c') => some (w', g', c')
  | _ => none

/-- What is assumed of the program. `res` are the gradient expressions `Grad` returned for the weights `ws`; `D i t`:
the node at `i` computes the expression `t`. -/
structure SSetup (P : Prog) (leaves : List Nat) (E : Env ℝ) (B : Nat) (G : SG) (ws : List Nat) (res : List Tm)
    (C : Cfg ℝ) (pos ad : Nat → Nat) (D : Nat → Tm → Prop) : Prop where
  wf : WF P
  leaves : ∀ l ∈ leaves, l < P.length
  noclash : Tape.NoClash P
  nolet : Tape.NoLet P
  safe : Tape.Safe P E
  inp : ∀ i a, E.inp i = some a → a < B
  static : ∀ i a, i < P.length → (E.sem i).ret = .static a →
    (P.node i).kind = .const ∧ a < B ∧ ∀ w ∈ ws, a ≠ ad w
  share : ∀ i k, i < P.length → (E.sem i).ret = .alias k → ∀ vs y, (E.sem i).f vs = some y → vs[k]? = some y
  reads : ∀ i, i < P.length → (P.node i).kind = .readS → (P.node i).children.length = 1
  /-- Every node computes an expression over the graph. -/
  all : ∀ i, i < P.length → (P.node i).stmt = false → ∃ t, D i t
  comp : ∀ i t, i < P.length → D i t → Computes P E G ad D i t
  /-- Weights are different nodes, with memory of their own. -/
  some_w : ws ≠ []
  nodup : ws.Nodup
  own : ∀ w ∈ ws, ∀ w', ad w' = ad w → w' = w
  apart : ∀ w ∈ ws, ∀ w' ∈ ws, pos w' = pos w → w' = w
  adB : ∀ i, ad i < B
  /-- `BindDualValues` got the weights; real numbers are added. -/
  only : C.only = ws.map pos
  add : C.add = fun a b => some (a + b)
  zero : ∀ i, C.zero i = 0
  noiop : ∀ i, (C.gn i).iop = false
  /-- The node that computes the gradient expression of a weight is labelled as its derivative (once), no other is
  (differentiation.go 256, 262). -/
  label : ∀ (k w : Nat) (t : Tm), ws[k]? = some w → res[k]? = some t → ∃ p, p < P.length ∧ isExec P p = true ∧ D p t ∧
    ∀ i, i < P.length → isExec P i = true → (C.gn i).derivOf.count (pos w) = if i = p then 1 else 0

theorem SSetup.setup {P : Prog} {leaves : List Nat} {E : Env ℝ} {B : Nat} {G : SG} (hG : G.Sorted) {ws : List Nat}
    {res : List Tm} {C : Cfg ℝ} {pos ad : Nat → Nat} {D : Nat → Tm → Prop}
    (S : SSetup P leaves E B G ws res C pos ad D) (r : Nat → Tm) (hr : res = ws.map r) :
    Setup P leaves E B ws C pos ad (fun _ => True) (fun x w => (r w).eval (G.value x)) (fun _ => 0) where
  wf := S.wf
  leaves := S.leaves
  noclash := S.noclash
  nolet := S.nolet
  safe := S.safe
  inp := S.inp
  static := S.static
  share := S.share
  reads := S.reads
  defined := by
    intro mem _ i hi hs
    obtain ⟨e, he⟩ := S.all i hi hs
    rw [computes_value P S.wf E G hG ad D S.comp mem i e hi he]; simp
  some_w := S.some_w
  nodup := S.nodup
  own := S.own
  apart := S.apart
  adB := S.adB
  only := S.only
  zero := fun w _ => S.zero _
  noiop := S.noiop
  label := by
    intro w hw
    obtain ⟨k, hk, hkw⟩ := List.getElem_of_mem hw
    have hk1 : ws[k]? = some w := by rw [List.getElem?_eq_getElem hk, hkw]
    obtain ⟨p, hp, hpe, hD, hcount⟩ := S.label k w (r w) hk1 (by rw [hr, List.getElem?_map, hk1]; rfl)
    exact ⟨p, hp, hpe, fun mem _ => ⟨_, computes_value P S.wf E G hG ad D S.comp mem p _ hp hD, by rw [S.add]; simp⟩, hcount⟩

/-- **C93, partial.** The training loop with any solver. Given a graph `G` of scalar operations, the gradient
expressions `res` that `Grad` returns for its cost and its weights, and a program whose nodes compute the graph and these
expressions (`SSetup`), started with the inputs `x₀` and without gradients from before (`Ready`), and a solver that
succeeds and zeroes the gradient: for every `k`, `k` rounds of `RunAll; Step; Reset` succeed; in every round the solver
is applied to each weight and the true partial derivative of the cost at the current weights (where the cost is smooth),
the other inputs stay as they are, and the next round starts without gradients again. Missing: tensors (see
`training_tensor_partial`) and what `SSetup` excludes. -/
theorem training_scalar_partial {P : Prog} {leaves : List Nat} {E : Env ℝ} {B : Nat} {G : SG} (hG : G.Sorted)
    (users : Nat → Nat) (cost : Nat) (hcost : cost < G.length) {ws : List Nat}
    (hws : ∀ w ∈ ws, w < G.length) {res : List Tm} {deriv' : Nat → Option Tm}
    (hgrad : AD.grad G users (fun _ => none) cost ws = some (res, deriv')) {C : Cfg ℝ} {pos ad : Nat → Nat}
    {D : Nat → Tm → Prop} (S : SSetup P leaves E B G ws res C pos ad D) (node : Nat → Param → Option Param)
    (hnode : ∀ k w g c, ∃ w' c', node k (.scalar w (some g) c) = some (.scalar w' (some 0) c')) (x₀ : Nat → ℝ)
    (t : TS ℝ (Option (ℝ × ℝ))) (R : Ready P E B ws pos ad (fun _ => 0) x₀ t) :
    ∃ (xs : Nat → Nat → ℝ) (cs : Nat → Nat → Option (ℝ × ℝ)), xs 0 = x₀ ∧ cs 0 = t.c ∧
      (∀ k, ∃ t', epochs P leaves E C (fun k => scalarSol (node k)) pos ad ws k t = some t' ∧
        Ready P E B ws pos ad (fun _ => 0) (xs k) t' ∧ ∀ w ∈ ws, t'.c w = cs k w) ∧
      (∀ k i, i ∉ ws → xs (k + 1) i = xs k i) ∧
      ∀ k, G.Smooth (xs k) → ∀ w ∈ ws, ∃ d, HasDerivAt (fun s => G.value (AD.upd (xs k) w s) cost) d (xs k w) ∧
        node k (.scalar (xs k w) (some d) (cs k w)) = some (.scalar (xs (k + 1) w) (some 0) (cs (k + 1) w)) := by
  obtain ⟨r, hr, -⟩ := AD.grad_correct G hG users (fun _ => none) cost hcost ws (fun _ _ _ => rfl) hws res deriv' hgrad
  have S' := S.setup hG r hr
  choose fw fc hf using hnode
  -- the sequence of inputs and memories
  let nxt : Nat → (Nat → ℝ) × (Nat → Option (ℝ × ℝ)) → (Nat → ℝ) × (Nat → Option (ℝ × ℝ)) := fun k p =>
    (fun w => if w ∈ ws then fw k (p.1 w) ((r w).eval (G.value p.1)) (p.2 w) else p.1 w,
     fun w => if w ∈ ws then fc k (p.1 w) ((r w).eval (G.value p.1)) (p.2 w) else p.2 w)
  let seq : Nat → (Nat → ℝ) × (Nat → Option (ℝ × ℝ)) := fun k => Nat.rec (x₀, t.c) (fun k p => nxt k p) k
  have hseq : ∀ k, seq (k + 1) = nxt k (seq k) := fun _ => rfl
  have hstay : ∀ k i, i ∉ ws → (seq (k + 1)).1 i = (seq k).1 i := by
    intro k i hi
    rw [hseq]; simp only [nxt, if_neg hi]
  have hstep : ∀ k, ∀ w ∈ ws, node k (.scalar ((seq k).1 w) (some ((r w).eval (G.value (seq k).1))) ((seq k).2 w)) =
      some (.scalar ((seq (k + 1)).1 w) (some 0) ((seq (k + 1)).2 w)) := by
    intro k w hw
    rw [hf, hseq]
    simp only [nxt, if_pos hw]
  refine ⟨fun k => (seq k).1, fun k => (seq k).2, rfl, rfl, ?_, hstay, ?_⟩
  · intro k
    exact epochs_follow S' (fun k => scalarSol (node k)) (fun k => (seq k).1) (fun k => (seq k).2) hstay
      (fun k w hw => by simp only [scalarSol, hstep k w hw]) t R (fun _ _ => rfl) k (fun _ _ => trivial)
  · intro k hsm w hw
    obtain ⟨j, hj, hjw⟩ := List.getElem_of_mem hw
    have hj1 : ws[j]? = some w := by rw [List.getElem?_eq_getElem hj, hjw]
    have hj2 : res[j]? = some (r w) := by rw [hr, List.getElem?_map, hj1]; rfl
    exact ⟨(r w).eval (G.value (seq k).1), (AD.grad_partial_derivatives G hG users (fun _ => none) cost hcost ws
      (fun _ _ _ => rfl) hws res deriv' hgrad (seq k).1 hsm).2 j w (r w) hj1 hj2, hstep k w hw⟩

/-- **C93, plain gradient descent.** With the plain solver (without L1 regularisation) each weight moves in every round
by the learn rate times the regularised, averaged and clipped partial derivative of the cost. -/
theorem training_descends_partial {P : Prog} {leaves : List Nat} {E : Env ℝ} {B : Nat} {G : SG} (hG : G.Sorted)
    (users : Nat → Nat) (cost : Nat) (hcost : cost < G.length) {ws : List Nat}
    (hws : ∀ w ∈ ws, w < G.length) {res : List Tm} {deriv' : Nat → Option Tm}
    (hgrad : AD.grad G users (fun _ => none) cost ws = some (res, deriv')) {C : Cfg ℝ} {pos ad : Nat → Nat}
    {D : Nat → Tm → Prop} (S : SSetup P leaves E B G ws res C pos ad D) (F : Fields) (hc : ClipOk F)
    (hl : F.useL1Reg = false) (x₀ : Nat → ℝ) (t : TS ℝ (Option (ℝ × ℝ))) (R : Ready P E B ws pos ad (fun _ => 0) x₀ t) :
    ∃ xs : Nat → Nat → ℝ, xs 0 = x₀ ∧
      (∀ k, ∃ t', epochs P leaves E C (fun _ => scalarSol (vanillaNode F)) pos ad ws k t = some t' ∧
        Ready P E B ws pos ad (fun _ => 0) (xs k) t') ∧
      (∀ k i, i ∉ ws → xs (k + 1) i = xs k i) ∧
      ∀ k, G.Smooth (xs k) → ∀ w ∈ ws, ∃ d, HasDerivAt (fun s => G.value (AD.upd (xs k) w s) cost) d (xs k w) ∧
        xs (k + 1) w = xs k w - F.eta * processed F (xs k w) d := by
  have hv : ∀ w g c, vanillaNode F (.scalar w (some g) c) = some (.scalar (w - F.eta * processed F w g) (some 0) c) :=
    fun w g c => Solver.vanilla_scalar_partial F w g c hc (by rw [hl]; simp)
  obtain ⟨xs, cs, h1, -, h3, h4, h5⟩ := training_scalar_partial hG users cost hcost hws hgrad S (fun _ => vanillaNode F)
    (fun _ w g c => ⟨_, _, hv w g c⟩) x₀ t R
  refine ⟨xs, h1, fun k => ?_, h4, fun k hsm w hw => ?_⟩
  · obtain ⟨t', a, b, _⟩ := h3 k
    exact ⟨t', a, b⟩
  · obtain ⟨d, hd, hs⟩ := h5 k hsm w hw
    refine ⟨d, hd, ?_⟩
    rw [hv] at hs
    simp only [Option.some.injEq, Param.scalar.injEq] at hs
    exact hs.1.symm

end

end Verif.Train
