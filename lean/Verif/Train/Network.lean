import Verif.Train.Build
import Verif.AD.SymbolicMore
import Verif.AD.Attention
/-!
Training of graphs of tensor operations, with the shapes that `ApplyOp` infers: a convolutional network and attention.
-/
set_option autoImplicit false
namespace Verif.Train
open Verif.Shape (Res elem scalarT pair)
open Verif.Tensor (T InB size ravel unravel)
open Verif.AD (TG TOp TNode theT Moves zeroT Reach XT XG XNode POp DOp gradX)
open Verif.Solver (Fields vanillaNode Param processed ClipOk Dense)
open Verif.NN (Conv Pool)

noncomputable section

/-! ### The shapes of the nodes -/

/-- The shape of node `i`: that of the value for an input or a constant, otherwise the one `InferShape` finds from the shapes of the
operands (`ApplyOp`, op.go 169-214). `ls` are the shapes of the inputs (`f`: bound on the depth). -/
def shapeF (G : XG) (ls : Nat → List Nat) : Nat → Nat → List Nat
  | 0, i => ls i
  | f + 1, i => match G.getD i .leaf with
    | .leaf => ls i
    | .cst t => t.shape
    | .op d ks => d.sym.op.shp (ks.map (shapeF G ls f))

def shapeOf (G : XG) (ls : Nat → List Nat) (i : Nat) : List Nat := shapeF G ls G.length i

theorem resAll_shapes {G : TG} {x : Nat → T ℝ} {f : Nat} {sf : Nat → List Nat} : ∀ (ks : List Nat) (xs : List (T ℝ)),
    (∀ k ∈ ks, ∀ y, G.valueF x f k = .ok y → y.shape = sf k) → AD.resAll (ks.map (G.valueF x f)) = .ok xs →
    xs.map (·.shape) = ks.map sf
  | [], xs, _, h => by simp only [List.map_nil, AD.resAll, Res.ok.injEq] at h; subst h; rfl
  | k :: ks, xs, hk, h => by
    simp only [List.map_cons, AD.resAll] at h
    obtain ⟨a, h1, h⟩ := AD.bind_ok.1 h
    obtain ⟨as, h2, h⟩ := AD.bind_ok.1 h
    cases h
    rw [List.map_cons, List.map_cons, hk k (by simp) a h1, resAll_shapes ks as (fun k' hk' => hk k' (by simp [hk'])) h2]

theorem shapeF_value (G : XG) (ls : Nat → List Nat) (x : Nat → T ℝ) (hx : ∀ i, G.getD i .leaf = .leaf → (x i).shape = ls i) :
    ∀ (f i : Nat) (y : T ℝ), (∀ j, G.length ≤ f + j → G.tg.valueF x f j = G.tg.valueF x (f + 1) j) → G.length ≤ f + i →
      G.tg.Sorted → G.tg.valueF x f i = .ok y → y.shape = shapeF G ls f i := by
  intro f
  induction f with
  | zero =>
    intro i y _ hi _ h
    simp only [TG.valueF, Res.ok.injEq] at h
    subst h
    exact hx i (getD_ge G (by omega))
  | succ f ih =>
    intro i y _ hi W h
    simp only [TG.valueF, xg_getD] at h
    simp only [shapeF]
    cases hn : G.getD i .leaf with
    | leaf =>
      rw [hn] at h
      cases h
      exact hx i hn
    | cst t => rw [hn] at h; cases h; rfl
    | op d ks =>
      rw [hn] at h
      simp only [XNode.tnode] at h ⊢
      obtain ⟨xs, h1, h2⟩ := AD.bind_ok.1 h
      rw [d.of.run] at h2
      rw [d.sym.op.law xs y h2]
      congr 1
      have hlt : i < G.length := by
        by_contra hc
        rw [getD_ge G hc] at hn
        cases hn
      have hgi : G.tg[i]? = some (.op d.op ks) := by
        rw [G.tg_getElem]
        rw [List.getD_eq_getElem?_getD, List.getElem?_eq_getElem hlt] at hn
        rw [List.getElem?_eq_getElem hlt]
        simp only [Option.getD_some] at hn
        rw [hn]
        rfl
      have hgl : G.tg.length = G.length := by simp [XG.tg]
      refine resAll_shapes ks xs (fun k hk y' hy' => ?_) h1
      have hik := (W i _ hgi k hk).1
      exact ih k y' (fun j hj => G.tg.valueF_enough W x f (f + 1) j (by rw [hgl]; exact hj) (by rw [hgl]; omega)) (by omega) W hy'

/-- The values have the shapes that are inferred. -/
theorem shapeOf_value {G : XG} (W : G.tg.Sorted) {ls : Nat → List Nat} {x : Nat → T ℝ}
    (hx : ∀ i, G.getD i .leaf = .leaf → (x i).shape = ls i) (i : Nat) (y : T ℝ) (h : G.tg.value x i = .ok y) :
    shapeOf G ls i = y.shape := by
  have hgl : G.tg.length = G.length := by simp [XG.tg]
  unfold TG.value at h
  rw [hgl] at h
  exact (shapeF_value G ls x hx G.length i y (fun j hj => G.tg.valueF_enough W x _ _ j (by rw [hgl]; exact hj) (by rw [hgl]; omega))
    (by omega) W h).symm

theorem shapeF_enough (G : XG) (W : G.tg.Sorted) (ls : Nat → List Nat) (f f' i : Nat) (h : G.length ≤ f + i) (h' : G.length ≤ f' + i) :
    shapeF G ls f i = shapeF G ls f' i := by
  have hout : ∀ i, G.length ≤ i → G.getD i .leaf = .leaf := fun i hi => by simp [List.getElem?_eq_none hi]
  induction f generalizing f' i with
  | zero =>
    cases f' with
    | zero => rfl
    | succ f' => simp only [shapeF, hout i (by omega)]
  | succ f ih =>
    cases f' with
    | zero => simp only [shapeF, hout i (by omega)]
    | succ f' =>
      simp only [shapeF]
      cases hn : G.getD i .leaf with
      | leaf => rfl
      | cst c => rfl
      | op d ks =>
        simp only
        have hi : i < G.length := by
          by_contra hc
          rw [hout i (by omega)] at hn
          cases hn
        have hks : ∀ c ∈ ks, i < c := fun c hc => by
          refine (W i (.op d.op ks) ?_ c hc).1
          rw [G.tg_getElem, List.getElem?_eq_getElem hi]
          simp only [List.getD_eq_getElem?_getD, List.getElem?_eq_getElem hi, Option.getD_some] at hn
          rw [hn]
          rfl
        rw [List.map_congr_left fun c hc => ih f' c (by have := hks c hc; omega) (by have := hks c hc; omega)]

/-- The shape of an operation is inferred from those of its operands. -/
theorem shapeOf_op {G : XG} (W : G.tg.Sorted) {ls : Nat → List Nat} {i : Nat} {d : DOp} {ks : List Nat} (h : G[i]? = some (.op d ks)) :
    shapeOf G ls i = d.sym.op.shp (ks.map (shapeOf G ls)) := by
  unfold shapeOf
  rw [shapeF_enough G W ls G.length (G.length + 1) i (by omega) (by omega)]
  simp only [shapeF, List.getD_eq_getElem?_getD, h, Option.getD_some]

theorem shapeOf_cst {G : XG} {ls : Nat → List Nat} {i : Nat} {t : T ℝ} (h : G[i]? = some (.cst t)) : shapeOf G ls i = t.shape := by
  unfold shapeOf
  cases hl : G.length with
  | zero => rw [List.length_eq_zero_iff.1 hl] at h; cases h
  | succ n => simp only [shapeF, List.getD_eq_getElem?_getD, h, Option.getD_some]

/-- The shapes of the inputs of a machine that was started with the values `x₀`. -/
def startSh (G : XG) (x₀ : Nat → T ℝ) (i : Nat) : List Nat := (x₀ (min i G.length)).shape

theorem shapeOf_leaf {G : XG} {ls : Nat → List Nat} {i : Nat} (h : G.getD i .leaf = .leaf) : shapeOf G ls i = ls i := by
  unfold shapeOf
  cases hl : G.length with
  | zero => rfl
  | succ n => simp only [shapeF, h]

theorem leaf_of_input {G : XG} {w : Nat} (h : (G.tg.gr.node w).input = true) : G.getD w .leaf = .leaf := by
  simp only [AD.Gr.node, AD.TG.gr, List.getD_eq_getElem?_getD, List.getElem?_map, XG.tg_getElem] at h ⊢
  cases hn : G[w]? with
  | none => rfl
  | some n =>
    rw [hn] at h
    cases n with
    | leaf => rfl
    | cst t => simp [AD.TNode.gnode, XNode.tnode] at h
    | op o ks => simp [AD.TNode.gnode, XNode.tnode] at h

/-- **C113.** For every sorted graph of tensor operations and weights that are inputs on which the cost depends: if the operations work
and can be differentiated at the values `x₀` of the inputs and the cost is a scalar, then `Grad` (with the shapes that were inferred)
succeeds, and the program made of the nodes of the graph and the gradient nodes can be run, stepped and reset
as long as the operations work and can be differentiated at the weights reached, and each round applies the solver to the weights and
the gradient of the cost. -/
theorem training_graph {G : XG} (hG : G.tg.Sorted) (users : Nat → Nat) (cost : Nat) (hcost : cost < G.length) {ws : List Nat}
    (hne : ws ≠ []) (hnd : ws.Nodup) (hws : ∀ w ∈ ws, w < G.length ∧ (G.tg.gr.node w).input = true ∧ Reach G.tg.gr cost w)
    (x₀ : Nat → T ℝ) (hfine : G.tg.Fine fun i => x₀ (min i G.length))
    (hsc : ∃ y, G.tg.value (fun i => x₀ (min i G.length)) cost = .ok y ∧ y.shape = []) :
    ∃ res dv, gradX G (shapeOf G (startSh G x₀)) users (fun _ => none) cost ws = some (res, dv) ∧ res.length = ws.length ∧
      ∀ (leaves : List Nat) (_ : ∀ l ∈ leaves, l < (planOf G res).1.length)
        (node : Nat → Param → Option Param)
        (_ : ∀ k n w g c, ∃ w' c', node k (.dense n w (some g) c) = some (.dense n w' (some fun _ => 0) c')),
      ∃ (xs : Nat → Nat → T ℝ) (cs : Nat → Nat → Option (T ℝ × T ℝ)), (∀ i, xs 0 i = x₀ (min i G.length)) ∧ cs 0 = (fun _ => none) ∧
        (∀ k, (∀ j, j < k → G.tg.Fine (xs j)) →
          ∃ t', epochs (buildP G (planOf G res).1 (planOf G res).2) leaves (buildE id G (planOf G res).1 (adOf G))
              (cfgOf G (shapeOf G (startSh G x₀)) ws (planOf G res).2) (fun k => tensorSol (node k)) (posOf G) (adOf G) ws k
              (startOf G x₀) = some t' ∧
            (∀ w, w ≤ G.length → t'.m.mem w = xs k w) ∧ ∀ w ∈ ws, t'.c w = cs k w) ∧
        (∀ k i, i ∉ ws → xs (k + 1) i = xs k i) ∧ (∀ k i, (xs k i).shape = (xs 0 i).shape) ∧
        ∀ k, G.tg.Fine (xs k) → ∃ d, IsGradient G.tg cost ws (xs k) d ∧ ∀ w ∈ ws,
          node k (.dense (size (x₀ w).shape) (flatD _ (xs k w)) (some (flatD _ (d w)))
            ((cs k w).map fun p => (flatD _ p.1, flatD _ p.2))) =
            some (.dense (size (x₀ w).shape) (flatD _ (xs (k + 1) w)) (some fun _ => 0)
              ((cs (k + 1) w).map fun p => (flatD _ p.1, flatD _ p.2))) := by
  have hokay : ∀ x : Nat → T ℝ, (∀ i, (x i).shape = startSh G x₀ i) → G.tg.Fine x → XOkay G (shapeOf G (startSh G x₀)) x :=
    fun x hx hf => ⟨hf, fun i y hy => shapeOf_value hG (fun i _ => hx i) i y hy⟩
  have hx0 := hokay (fun i => x₀ (min i G.length)) (fun _ => rfl) hfine
  have hc : shapeOf G (startSh G x₀) cost = [] := by
    obtain ⟨y, hy, hys⟩ := hsc
    rw [hx0.2 cost y hy, hys]
  obtain ⟨res, dv, hg, hlen, -⟩ := gradX_correct hG users cost hcost hc hne hws ⟨_, hx0⟩
  have hwsh : ∀ w ∈ ws, shapeOf G (startSh G x₀) w = (x₀ w).shape := by
    intro w hw
    rw [shapeOf_leaf (leaf_of_input (hws w hw).2.1), startSh, Nat.min_eq_left (Nat.le_of_lt (hws w hw).1)]
  refine ⟨res, dv, hg, hlen, fun leaves hl node hnode => ?_⟩
  obtain ⟨xs, cs, h1, h2, h3, h4, h5, h6⟩ := training_all hG users cost hcost hne hnd hws hg leaves hl node hnode x₀
    (fun w hw => (hwsh w hw).symm)
  have hsh : ∀ k i, (xs k i).shape = startSh G x₀ i := by
    intro k i
    by_cases hi : i ∈ ws
    · rw [h5 k i hi, shapeOf_leaf (leaf_of_input (hws i hi).2.1)]
    · induction k with
      | zero => rw [h1]; rfl
      | succ k ih => rw [h4 k i hi, ih]
  refine ⟨xs, cs, h1, h2, fun k hk => h3 k fun j hj => hokay _ (hsh j) (hk j hj), h4, fun k i => by rw [hsh, hsh], fun k hk => ?_⟩
  obtain ⟨d, hd, hs⟩ := h6 k (hokay _ (hsh k) hk)
  refine ⟨d, hd, fun w hw => ?_⟩
  have := hs w hw
  rw [hwsh w hw] at this
  exact this

end

end Verif.Train
