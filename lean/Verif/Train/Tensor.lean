import Verif.Train.Loop
import Verif.AD.TensorExample
import Verif.Solver.Theorems
import Mathlib.Analysis.SpecificLimits.Basic
/-!
The training loop on graphs of tensor operations: descent along the gradient of the cost, for weights of any shape.
-/
set_option autoImplicit false
namespace Verif.Train
open Verif.Shape (Res elem scalarT pair)
open Verif.Tensor (T InB size ravel unravel)
open Verif.Tape (upd upd_same upd_ne Prog Env M compile runAll reset value WF)
open Verif.AD (TG TOp TNode gradT theT Moves zeroT den tens Reach)
open Verif.Solver (Fields vanillaNode Param processed ClipOk Dense)
open Filter
open scoped Topology

noncomputable section

/-- The elements of a tensor in memory order. -/
def flatD (n : Nat) (t : T ℝ) : Dense n := fun k => t.at_ (unravel t.shape k)

/-- The tensor with the shape `s` and these elements. -/
def ofD (s : List Nat) {n : Nat} (d : Dense n) : T ℝ := ⟨s, fun i => if h : ravel s i < n then d ⟨ravel s i, h⟩ else 0⟩

/-- The tensor without what the model's functions say outside of its bounds. -/
def norm (t : T ℝ) : T ℝ := ofD t.shape (flatD (size t.shape) t)

theorem flatD_ofD (s : List Nat) (d : Dense (size s)) : flatD (size s) (ofD s d) = d := by
  funext k
  have hk : ravel s (unravel s k) = k := Tensor.ravel_unravel k.2
  have : ravel s (unravel s k) < size s := by rw [hk]; exact k.2
  show (if h : ravel s (unravel s k) < size s then d ⟨_, h⟩ else 0) = d k
  rw [dif_pos this]
  exact congrArg d (Fin.ext hk)

theorem ofD_zero (s : List Nat) (n : Nat) : ofD s (fun _ : Fin n => (0 : ℝ)) = zeroT s := by
  simp [ofD, zeroT]

theorem norm_shape (t : T ℝ) : (norm t).shape = t.shape := rfl

theorem flatD_norm (t : T ℝ) : flatD (size t.shape) (norm t) = flatD (size t.shape) t := flatD_ofD t.shape _

theorem pair_flat {s : List Nat} {a b : T ℝ} (h : a.shape = s) (hb : b.shape = s) :
    pair a b = ∑ k, flatD (size s) a k * flatD (size s) b k := by
  subst h
  rw [Shape.pair_eq]
  unfold Shape.sumOver
  rw [Finset.sum_range]
  refine Finset.sum_congr rfl fun k _ => ?_
  simp [flatD, hb]

/-- An elementwise operation on tensors in memory. -/
def elemN (f : ℝ → ℝ → ℝ) (a b : T ℝ) : Option (T ℝ) := (AD.Res.opt (elem f a b)).map norm

theorem elemN_eq (f : ℝ → ℝ → ℝ) (s : List Nat) (a b : T ℝ) (ha : a.shape = s) (hb : b.shape = s) :
    elemN f a b = some (ofD s fun k => f (flatD (size s) a k) (flatD (size s) b k)) := by
  obtain ⟨r, r1, -, r3, r4⟩ := AD.elem_bc f (s := s) (.inl ha) (.inl hb)
  have r3 := r3 (.inl ha)
  unfold elemN
  rw [r1]
  simp only [AD.Res.opt, Option.map_some, Option.some.injEq]
  unfold norm
  rw [r3]
  congr 1
  funext k
  have hk := Tensor.inB_unravel k.2
  have := r4 _ hk
  rw [AD.bc_at r3 hk, AD.bc_at ha hk, AD.bc_at hb hk] at this
  simp only [flatD, r3, ha, hb, this]

/-- A solver of `Verif.Solver` on tensors: it sees the elements. -/
def tensorSol (node : Param → Option Param) : Sol (T ℝ) (Option (T ℝ × T ℝ)) := fun w g c =>
  match node (.dense (size w.shape) (flatD _ w) (some (flatD _ g)) (c.map fun p => (flatD _ p.1, flatD _ p.2))) with
  | some (.dense _ w' (some g') c') =>
    some (ofD w.shape w', ofD w.shape g', c'.map fun p => (ofD w.shape p.1, ofD w.shape p.2))
  | _ => none

/-- The inputs `x` at which all operations of the graph work and can be differentiated, the cost is a scalar, and the
weights have the shapes `sh`. -/
def TOkay (G : TG) (cost : Nat) (ws : List Nat) (sh : Nat → List Nat) (x : Nat → T ℝ) : Prop :=
  G.Fine x ∧ (∃ y, G.value x cost = .ok y ∧ y.shape = []) ∧ ∀ w ∈ ws, (x w).shape = sh w

/-- The gradient of the weight `w` that `Grad` gives. -/
def gradAt (G : TG) (users : Nat → Nat) (cost : Nat) (ws : List Nat) (x : Nat → T ℝ) (w : Nat) : T ℝ :=
  match gradT G x users (fun _ => none) cost ws with
  | some (res, _) => norm (res.getD (ws.idxOf w) (scalarT 0))
  | none => scalarT 0

/-- `r` is the gradient of the cost at `x` with respect to the weights `ws`: along all differentiable curves of the
weights through `x` the cost changes with the sum of the pairings with the velocities. -/
def IsGradient (G : TG) (cost : Nat) (ws : List Nat) (x r : Nat → T ℝ) : Prop :=
  (∀ w ∈ ws, (r w).shape = (x w).shape) ∧
  ∀ (γ : ℝ → Nat → T ℝ) (v : Nat → T ℝ) (t₀ : ℝ), γ t₀ = x → (∀ w ∈ ws, Moves (fun t => γ t w) (v w) t₀) →
    (∀ i, i ∉ ws → ∀ t, γ t i = x i) →
    HasDerivAt (fun t => (theT (G.value (γ t) cost)).at_ []) (∑ w ∈ ws.toFinset, pair (r w) (v w)) t₀

theorem gradAt_gradient (G : TG) (W : G.Sorted) (users : Nat → Nat) (cost : Nat) (hcost : cost < G.length)
    (ws : List Nat) (hne : ws ≠ []) (hws : ∀ w ∈ ws, w < G.length ∧ (G.gr.node w).input = true ∧ Reach G.gr cost w)
    (sh : Nat → List Nat) (x : Nat → T ℝ) (hx : TOkay G cost ws sh x) :
    IsGradient G cost ws x (gradAt G users cost ws x) := by
  obtain ⟨S, hy, _⟩ := hx
  obtain ⟨⟨res, deriv'⟩, hg⟩ := (AD.gradT_succeeds_iff G W x S users (fun _ => none) cost ws fun _ _ _ => rfl).2
    ⟨hy, hne, fun w hw => (hws w hw).2⟩
  obtain ⟨r, r1, r2, r3⟩ := AD.gradT_correct G W x S users (fun _ => none) cost hcost ws (fun _ _ _ => rfl)
    (fun w hw => (hws w hw).1) res deriv' hg
  have he : ∀ w ∈ ws, gradAt G users cost ws x w = norm (r w) := by
    intro w hw
    unfold gradAt
    rw [hg]
    simp only
    have hi := List.idxOf_lt_length_iff.2 hw
    rw [r1, List.getD_eq_getElem?_getD, List.getElem?_map, List.getElem?_eq_getElem hi, List.getElem_idxOf hi]
    rfl
  refine ⟨fun w hw => by rw [he w hw, norm_shape, r2 w hw], fun γ v t₀ h0 hM hs => ?_⟩
  refine ((r3 γ v t₀ h0 hM hs).2).congr_deriv (Finset.sum_congr rfl fun w hw => ?_)
  have hw := List.mem_toFinset.1 hw
  have hv : (v w).shape = (r w).shape := by
    rw [(hM w hw).vshape, r2 w hw]
    simp only [h0]
  rw [he w hw, pair_flat (norm_shape (r w)) hv, pair_flat rfl hv, flatD_norm]

/-- The loop for any set of admissible inputs at which all operations work and can be differentiated. -/
theorem training_okay {P : Prog} {leaves : List Nat} {E : Env (T ℝ)} {B : Nat} {G : TG} (hG : G.Sorted)
    (users : Nat → Nat) (cost : Nat) (hcost : cost < G.length) {ws : List Nat}
    (hws : ∀ w ∈ ws, w < G.length ∧ (G.gr.node w).input = true ∧ Reach G.gr cost w) (sh : Nat → List Nat)
    {C : Cfg (T ℝ)} {pos ad : Nat → Nat} {Okay : (Nat → T ℝ) → Prop} (hO : ∀ x, Okay x → TOkay G cost ws sh x)
    (S : Setup P leaves E B ws C pos ad Okay (gradAt G users cost ws) (fun w => zeroT (sh w)))
    (node : Nat → Param → Option Param)
    (hnode : ∀ k n w g c, ∃ w' c', node k (.dense n w (some g) c) = some (.dense n w' (some fun _ => 0) c'))
    (x₀ : Nat → T ℝ) (hx₀ : ∀ w ∈ ws, (x₀ w).shape = sh w) (t : TS (T ℝ) (Option (T ℝ × T ℝ)))
    (R : Ready P E B ws pos ad (fun w => zeroT (sh w)) x₀ t) :
    ∃ (xs : Nat → Nat → T ℝ) (cs : Nat → Nat → Option (T ℝ × T ℝ)), xs 0 = x₀ ∧ cs 0 = t.c ∧
      (∀ k, (∀ j, j < k → Okay (xs j)) →
        ∃ t', epochs P leaves E C (fun k => tensorSol (node k)) pos ad ws k t = some t' ∧
          Ready P E B ws pos ad (fun w => zeroT (sh w)) (xs k) t' ∧ ∀ w ∈ ws, t'.c w = cs k w) ∧
      (∀ k i, i ∉ ws → xs (k + 1) i = xs k i) ∧ (∀ k, ∀ w ∈ ws, (xs k w).shape = sh w) ∧
      ∀ k, Okay (xs k) → ∃ d, IsGradient G cost ws (xs k) d ∧ ∀ w ∈ ws,
        node k (.dense (size (sh w)) (flatD _ (xs k w)) (some (flatD _ (d w)))
          ((cs k w).map fun p => (flatD _ p.1, flatD _ p.2))) =
          some (.dense (size (sh w)) (flatD _ (xs (k + 1) w)) (some fun _ => 0)
            ((cs (k + 1) w).map fun p => (flatD _ p.1, flatD _ p.2))) := by
  choose fw fc hf using hnode
  let cf : (w : Nat) → Option (T ℝ × T ℝ) → Option (Dense (size (sh w)) × Dense (size (sh w))) :=
    fun w c => c.map fun p => (flatD _ p.1, flatD _ p.2)
  let g := gradAt G users cost ws
  let nxt : Nat → (Nat → T ℝ) × (Nat → Option (T ℝ × T ℝ)) → (Nat → T ℝ) × (Nat → Option (T ℝ × T ℝ)) := fun k p =>
    (fun w => if w ∈ ws then ofD (sh w) (fw k (size (sh w)) (flatD _ (p.1 w)) (flatD _ (g p.1 w)) (cf w (p.2 w))) else p.1 w,
     fun w => if w ∈ ws then (fc k (size (sh w)) (flatD _ (p.1 w)) (flatD _ (g p.1 w)) (cf w (p.2 w))).map
       (fun q => (ofD (sh w) q.1, ofD (sh w) q.2)) else p.2 w)
  let seq : Nat → (Nat → T ℝ) × (Nat → Option (T ℝ × T ℝ)) := fun k => Nat.rec (x₀, t.c) (fun k p => nxt k p) k
  have hseq : ∀ k, seq (k + 1) = nxt k (seq k) := fun _ => rfl
  have hstay : ∀ k i, i ∉ ws → (seq (k + 1)).1 i = (seq k).1 i := by
    intro k i hi
    rw [hseq]; simp only [nxt, if_neg hi]
  have hshape : ∀ k, ∀ w ∈ ws, ((seq k).1 w).shape = sh w := by
    intro k w hw
    cases k with
    | zero => exact hx₀ w hw
    | succ k => rw [hseq]; simp only [nxt, if_pos hw]; rfl
  have hstep : ∀ k, ∀ w ∈ ws, tensorSol (node k) ((seq k).1 w) (g (seq k).1 w) ((seq k).2 w) =
      some ((seq (k + 1)).1 w, zeroT (sh w), (seq (k + 1)).2 w) := by
    intro k w hw
    unfold tensorSol
    rw [hshape k w hw, hf, hseq]
    simp only [nxt, if_pos hw, ofD_zero]
    rfl
  refine ⟨fun k => (seq k).1, fun k => (seq k).2, rfl, rfl, ?_, hstay, hshape, ?_⟩
  · intro k hok
    exact epochs_follow S (fun k => tensorSol (node k)) (fun k => (seq k).1) (fun k => (seq k).2) hstay hstep t R
      (fun _ _ => rfl) k hok
  · intro k hok
    refine ⟨g (seq k).1, gradAt_gradient G hG users cost hcost ws S.some_w hws sh _ (hO _ hok), fun w hw => ?_⟩
    refine (hf k (size (sh w)) _ _ _).trans ?_
    simp only [hseq]
    simp only [nxt, if_pos hw, Option.map_map, Function.comp_def, flatD_ofD, Prod.mk.eta, Option.map_id']
    rfl

/-- **C93, tensors, partial.** The training loop with any solver that succeeds and zeroes the gradient, on a graph `G`
of tensor operations, with a program whose gradient nodes compute the gradients that `Grad` builds (`Setup`), as long as
all operations work and can be differentiated at the weights reached (`TOkay`): `k` rounds of `RunAll; Step; Reset`
succeed; in every round the solver is applied to the elements of each weight and of the gradient of the cost at the
current weights; the other inputs stay. Missing: that the compiled gradient nodes compute what `SymDiff` says is
assumed (for scalars it is proved, `training_scalar_partial`), and what `Setup` excludes. -/
theorem training_tensor_partial {P : Prog} {leaves : List Nat} {E : Env (T ℝ)} {B : Nat} {G : TG} (hG : G.Sorted)
    (users : Nat → Nat) (cost : Nat) (hcost : cost < G.length) {ws : List Nat}
    (hws : ∀ w ∈ ws, w < G.length ∧ (G.gr.node w).input = true ∧ Reach G.gr cost w) (sh : Nat → List Nat)
    {C : Cfg (T ℝ)} {pos ad : Nat → Nat}
    (S : Setup P leaves E B ws C pos ad (TOkay G cost ws sh) (gradAt G users cost ws) (fun w => zeroT (sh w)))
    (node : Nat → Param → Option Param)
    (hnode : ∀ k n w g c, ∃ w' c', node k (.dense n w (some g) c) = some (.dense n w' (some fun _ => 0) c'))
    (x₀ : Nat → T ℝ) (hx₀ : ∀ w ∈ ws, (x₀ w).shape = sh w) (t : TS (T ℝ) (Option (T ℝ × T ℝ)))
    (R : Ready P E B ws pos ad (fun w => zeroT (sh w)) x₀ t) :
    ∃ (xs : Nat → Nat → T ℝ) (cs : Nat → Nat → Option (T ℝ × T ℝ)), xs 0 = x₀ ∧ cs 0 = t.c ∧
      (∀ k, (∀ j, j < k → TOkay G cost ws sh (xs j)) →
        ∃ t', epochs P leaves E C (fun k => tensorSol (node k)) pos ad ws k t = some t' ∧
          Ready P E B ws pos ad (fun w => zeroT (sh w)) (xs k) t' ∧ ∀ w ∈ ws, t'.c w = cs k w) ∧
      (∀ k i, i ∉ ws → xs (k + 1) i = xs k i) ∧ (∀ k, ∀ w ∈ ws, (xs k w).shape = sh w) ∧
      ∀ k, TOkay G cost ws sh (xs k) → ∃ d, IsGradient G cost ws (xs k) d ∧ ∀ w ∈ ws,
        node k (.dense (size (sh w)) (flatD _ (xs k w)) (some (flatD _ (d w)))
          ((cs k w).map fun p => (flatD _ p.1, flatD _ p.2))) =
          some (.dense (size (sh w)) (flatD _ (xs (k + 1) w)) (some fun _ => 0)
            ((cs (k + 1) w).map fun p => (flatD _ p.1, flatD _ p.2))) :=
  training_okay hG users cost hcost hws sh (fun _ h => h) S node hnode x₀ hx₀ t R

/-- **C93, tensors, plain gradient descent.** With the plain solver every element of every weight moves in each round by
the learn rate times the regularised, averaged and clipped element of the gradient of the cost. -/
theorem training_tensor_descends_partial {P : Prog} {leaves : List Nat} {E : Env (T ℝ)} {B : Nat} {G : TG}
    (hG : G.Sorted) (users : Nat → Nat) (cost : Nat) (hcost : cost < G.length) {ws : List Nat}
    (hws : ∀ w ∈ ws, w < G.length ∧ (G.gr.node w).input = true ∧ Reach G.gr cost w) (sh : Nat → List Nat)
    {C : Cfg (T ℝ)} {pos ad : Nat → Nat}
    (S : Setup P leaves E B ws C pos ad (TOkay G cost ws sh) (gradAt G users cost ws) (fun w => zeroT (sh w)))
    (F : Fields) (hc : ClipOk F) (x₀ : Nat → T ℝ) (hx₀ : ∀ w ∈ ws, (x₀ w).shape = sh w)
    (t : TS (T ℝ) (Option (T ℝ × T ℝ))) (R : Ready P E B ws pos ad (fun w => zeroT (sh w)) x₀ t) :
    ∃ xs : Nat → Nat → T ℝ, xs 0 = x₀ ∧
      (∀ k, (∀ j, j < k → TOkay G cost ws sh (xs j)) →
        ∃ t', epochs P leaves E C (fun _ => tensorSol (vanillaNode F)) pos ad ws k t = some t' ∧
          Ready P E B ws pos ad (fun w => zeroT (sh w)) (xs k) t') ∧
      (∀ k i, i ∉ ws → xs (k + 1) i = xs k i) ∧ (∀ k, ∀ w ∈ ws, (xs k w).shape = sh w) ∧
      ∀ k, TOkay G cost ws sh (xs k) → ∃ d, IsGradient G cost ws (xs k) d ∧ ∀ w ∈ ws, ∀ i : Fin (size (sh w)),
        (xs (k + 1) w).at_ (unravel (sh w) i) = (xs k w).at_ (unravel (sh w) i) -
          F.eta * processed F ((xs k w).at_ (unravel (sh w) i)) ((d w).at_ (unravel (sh w) i)) := by
  obtain ⟨xs, cs, h1, -, h3, h4, h5, h6⟩ := training_tensor_partial hG users cost hcost hws sh S
    (fun _ => vanillaNode F) (fun _ n w g c => ⟨_, _, Solver.vanilla_dense F n w g c hc⟩) x₀ hx₀ t R
  refine ⟨xs, h1, fun k hok => ?_, h4, h5, fun k hok => ?_⟩
  · obtain ⟨t', a, b, _⟩ := h3 k hok
    exact ⟨t', a, b⟩
  · obtain ⟨d, hd, hs⟩ := h6 k hok
    refine ⟨d, hd, fun w hw i => ?_⟩
    have hs := hs w hw
    rw [Solver.vanilla_dense F _ _ _ _ hc] at hs
    simp only [Option.some.injEq, Param.dense.injEq, heq_eq_eq, true_and] at hs
    have := congrFun hs.1 i
    have hdw : (d w).shape = sh w := by rw [hd.1 w hw, h5 k w hw]
    simp only [flatD, h5 k w hw, h5 (k + 1) w hw, hdw] at this
    exact this.symm

end

end Verif.Train
