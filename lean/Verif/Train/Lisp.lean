import Verif.Lisp.Roots
import Verif.Train.Tensor
/-!
Training with the define-by-run machine (C111): in every round a new machine is made for the graph (`NewLispMachine`), new data are bound with `Let`, the graph is
run forwards and backwards, and the solver takes a step on the weights. (A machine that is used again after `Reset` executes only one node, C22.)

Simplified as in `Verif.Lisp.Tensor` and `Verif.Solver`. In the second round all nodes are bound already: `forward` then takes the cases that reuse what is bound
(vm_genera.go 402-411, 462-483). These also leave ones as derivatives of roots and zeros as those of other nodes, whatever was there (dual.go 318, 344-360), so the
model of a run on a graph without bound values is used for all rounds.
-/
set_option autoImplicit false
namespace Verif.Train
open Verif.Tensor (T InB size ravel unravel)
open Verif.AD (theT zeroT)
open Verif.Lisp.Tensor (LG LNode Prog put IsZero)
open Verif.Solver (Fields vanillaNode Param processed ClipOk Dense)
open Filter
open scoped Topology

noncomputable section

/-- What is bound to the nodes, what the solver remembers, and the roots the graph keeps. -/
structure LS where
  x : Nat → T ℝ
  d : Nat → T ℝ
  c : Nat → Option (T ℝ × T ℝ)
  kept : Option (List Nat)

/-- `Let` on some inputs (gorgonia.go 248-296): the value in the dual value is replaced (node.go 657-672), the derivative stays. -/
def feedIn (f : Nat → Option (T ℝ)) (x : Nat → T ℝ) : Nat → T ℝ := fun j => (f j).getD (x j)

/-- `Step` on the weights `ws` (for example solvers.go 780-942). -/
def stepL (sol : Sol (T ℝ) (Option (T ℝ × T ℝ))) : List Nat → LS → Option LS
  | [], t => some t
  | w :: ws, t => match sol (t.x w) (t.d w) (t.c w) with
    | none => none
    | some (w', g', c') => stepL sol ws { t with x := put t.x w w', d := put t.d w g', c := fun j => if j = w then c' else t.c j }

/-- One round with a new machine. -/
def lround (P : Prog) (f : Nat → Option (T ℝ)) (sol : Sol (T ℝ) (Option (T ℝ × T ℝ))) (ws : List Nat) (t : LS) : Option LS :=
  match ({ P with kept := t.kept } : Prog).runAll false (feedIn f t.x) t.d with
  | none => none
  | some (s, _) => stepL sol ws { x := s.W, d := s.D, c := t.c, kept := some ({ P with kept := t.kept } : Prog).roots }

/-- `k` rounds; the data and the solver's settings may be others in each round. -/
def lrounds (P : Prog) (f : Nat → Nat → Option (T ℝ)) (sol : Nat → Sol (T ℝ) (Option (T ℝ × T ℝ))) (ws : List Nat) : Nat → LS → Option LS
  | 0, t => some t
  | k + 1, t => (lrounds P f sol ws k t).bind (lround P (f k) (sol k) ws)

/-! ### Specification -/

/-- `g` is the partial derivative of node `c` by the entry `i` of the input `w`. -/
def PartialAt (P : Prog) (c : Nat) (x : Nat → T ℝ) (w : Nat) (i : List Nat) (g : ℝ) : Prop :=
  HasDerivAt (fun t => (theT (P.G.tg.value (fun j => if j = w then ⟨(x w).shape, fun k => (x w).at_ k + t * if i = k then 1 else 0⟩ else x j) c)).at_ []) g 0

/-- What is assumed of the graph: the records are right and users come before operands, the cost `c` is the only result and is read once or not at all, the weights are
different inputs, inputs that are no scalars are used, and operations that overwrite derivatives are applied to no other inputs than weights. -/
structure LSetup (P : Prog) (c : Nat) (ws : List Nat) (sh : Nat → List Nat) : Prop where
  rec_ : P.Recorded
  none_ : P.kept = none
  sorted : P.G.tg.Sorted
  cost : P.Result c
  only : ∀ j, P.Result j → j = c
  read : P.uses c = [] ∨ ∃ k, P.uses c = [.stmt k] ∧ P.stmts[k]? = some (.read c)
  used : ∀ w, P.G[w]? = some .leaf → sh w = [] ∨ ∃ n ∈ P.G, w ∈ n.tnode.kids
  nodup : ws.Nodup
  inputs : ∀ w ∈ ws, P.G[w]? = some .leaf
  blank : ∀ (i : Nat) (o : Lisp.Tensor.LOp) (ks : List Nat) (s : Lisp.Tensor.LStep) (w : Nat), P.G[i]? = some (.op o ks) →
    s ∈ o.steps → s.fresh = true → ks[s.pos]? = some w → P.G[w]? = some .leaf → w ∈ ws

/-- The inputs at which all operations work and can be differentiated, and the cost is a scalar. -/
def LOkay (P : Prog) (c : Nat) (x : Nat → T ℝ) : Prop := P.G.tg.Fine x ∧ P.G.Adds x ∧ P.G.tg.sh x c = []

/-- Before a round: the inputs and their derivatives have their shapes, the derivatives of the weights are zero, the roots have not been asked for or
are those of the graph. -/
structure LReady (P : Prog) (ws : List Nat) (sh : Nat → List Nat) (t : LS) : Prop where
  xs : ∀ w, P.G[w]? = some .leaf → (t.x w).shape = sh w
  ds : ∀ w, P.G[w]? = some .leaf → (t.d w).shape = sh w
  zero : ∀ w ∈ ws, IsZero (t.d w)
  kept : t.kept = none ∨ t.kept = some P.roots

/-- Data that fit: for inputs that are no weights, of their shape. -/
def Fits (P : Prog) (ws : List Nat) (sh : Nat → List Nat) (f : Nat → Option (T ℝ)) : Prop :=
  ∀ w v, f w = some v → P.G[w]? = some .leaf ∧ w ∉ ws ∧ v.shape = sh w

/-- `y` are the inputs `x` with the data `f`. -/
def Fed (f : Nat → Option (T ℝ)) (x y : Nat → T ℝ) : Prop := ∀ j, (∀ v, f j = some v → y j = v) ∧ (f j = none → y j = x j)

/-! ### Proofs -/

theorem fed_feedIn (f : Nat → Option (T ℝ)) (x : Nat → T ℝ) : Fed f x (feedIn f x) := fun j =>
  ⟨fun v h => by simp [feedIn, h], fun h => by simp [feedIn, h]⟩

theorem Fed.eq {f : Nat → Option (T ℝ)} {x y : Nat → T ℝ} (h : Fed f x y) : y = feedIn f x := by
  funext j
  obtain ⟨a, b⟩ := h j
  cases e : f j with
  | none => rw [b e]; simp [feedIn, e]
  | some v => rw [a v e]; simp [feedIn, e]

theorem stepL_ok (node : Param → Option Param)
    (hnode : ∀ n w g c, ∃ w' c', node (.dense n w (some g) c) = some (.dense n w' (some fun _ => 0) c'))
    (sh : Nat → List Nat) : ∀ (ws : List Nat) (t : LS), ws.Nodup → (∀ w ∈ ws, (t.x w).shape = sh w) → (∀ w ∈ ws, (t.d w).shape = sh w) →
    ∃ t', stepL (tensorSol node) ws t = some t' ∧ t'.kept = t.kept ∧ (∀ j, j ∉ ws → t'.x j = t.x j ∧ t'.d j = t.d j ∧ t'.c j = t.c j) ∧
      ∀ w ∈ ws, (t'.x w).shape = sh w ∧ (t'.d w).shape = sh w ∧ IsZero (t'.d w) ∧
        node (.dense (size (sh w)) (flatD _ (t.x w)) (some (flatD _ (t.d w))) ((t.c w).map fun p => (flatD _ p.1, flatD _ p.2))) =
          some (.dense (size (sh w)) (flatD _ (t'.x w)) (some fun _ => 0) ((t'.c w).map fun p => (flatD _ p.1, flatD _ p.2))) := by
  intro ws
  induction ws with
  | nil => exact fun t _ _ _ => ⟨t, rfl, rfl, fun _ _ => ⟨rfl, rfl, rfl⟩, fun w hw => by cases hw⟩
  | cons w ws ih =>
    intro t hnd hx hd
    obtain ⟨hw, hnd⟩ := List.nodup_cons.1 hnd
    obtain ⟨w', c', hn⟩ := hnode (size (sh w)) (flatD _ (t.x w)) (flatD _ (t.d w)) ((t.c w).map fun p => (flatD _ p.1, flatD _ p.2))
    have hs : tensorSol node (t.x w) (t.d w) (t.c w) = some (ofD (sh w) w', zeroT (sh w), c'.map fun p => (ofD (sh w) p.1, ofD (sh w) p.2)) := by
      unfold tensorSol
      rw [hx w (by simp), hn]
      simp only [ofD_zero]
    let t1 : LS := { t with
      x := put t.x w (ofD (sh w) w')
      d := put t.d w (zeroT (sh w))
      c := fun j => if j = w then c'.map fun p => (ofD (sh w) p.1, ofD (sh w) p.2) else t.c j }
    have ne : ∀ j ∈ ws, j ≠ w := fun j hj e => hw (e ▸ hj)
    obtain ⟨t', h1, h2, h3, h4⟩ := ih t1 hnd (fun j hj => by
        show (put t.x w _ j).shape = _
        rw [put, if_neg (ne j hj)]
        exact hx j (List.mem_cons_of_mem _ hj)) (fun j hj => by
        show (put t.d w _ j).shape = _
        rw [put, if_neg (ne j hj)]
        exact hd j (List.mem_cons_of_mem _ hj))
    refine ⟨t', ?_, h2, ?_, ?_⟩
    · show (match tensorSol node (t.x w) (t.d w) (t.c w) with
        | none => none
        | some (w', g', c') => stepL (tensorSol node) ws _) = _
      rw [hs]
      exact h1
    · intro j hj
      rw [List.mem_cons, not_or] at hj
      obtain ⟨a, b, c⟩ := h3 j hj.2
      simp only [t1, put, if_neg hj.1] at a b c
      exact ⟨a, b, c⟩
    · intro j hj
      rcases List.mem_cons.1 hj with rfl | hj
      · obtain ⟨a, b, c⟩ := h3 j hw
        simp only [t1, put, if_true] at a b c
        rw [a, b, c, hn]
        refine ⟨rfl, rfl, fun _ _ => rfl, ?_⟩
        simp only [Option.map_map, Function.comp_def, flatD_ofD, Prod.mk.eta, Option.map_id']
      · obtain ⟨a, b, c, d⟩ := h4 j hj
        simp only [t1, put, if_neg (ne j hj)] at d
        exact ⟨a, b, c, d⟩

theorem feed_shape {P : Prog} {ws : List Nat} {sh : Nat → List Nat} {f : Nat → Option (T ℝ)} (hf : Fits P ws sh f) {t : LS} (R : LReady P ws sh t)
    {w : Nat} (hw : P.G[w]? = some .leaf) : (feedIn f t.x w).shape = sh w := by
  unfold feedIn
  cases e : f w with
  | none => exact R.xs w hw
  | some v => exact (hf w v e).2.2

/-- **C111, one round.** Whatever was left bound by earlier rounds: the round succeeds, the inputs that are no weights have their data, and the solver is applied to the
elements of each weight and to the partial derivatives of the cost at the weights and data of the round. -/
theorem lround_ok {P : Prog} {c : Nat} {ws : List Nat} {sh : Nat → List Nat} (S : LSetup P c ws sh) (f : Nat → Option (T ℝ)) (hf : Fits P ws sh f)
    (node : Param → Option Param) (hnode : ∀ n w g c, ∃ w' c', node (.dense n w (some g) c) = some (.dense n w' (some fun _ => 0) c'))
    (t : LS) (R : LReady P ws sh t) (y : Nat → T ℝ) (hy : Fed f t.x y) (hok : LOkay P c y) :
    ∃ t', lround P f (tensorSol node) ws t = some t' ∧ LReady P ws sh t' ∧
      (∀ i, P.G[i]? = some .leaf → i ∉ ws → t'.x i = y i) ∧
      ∃ g : Nat → T ℝ, ∀ w ∈ ws, (g w).shape = sh w ∧ (∀ i, InB (sh w) i → PartialAt P c y w i ((g w).at_ i)) ∧
        node (.dense (size (sh w)) (flatD _ (t.x w)) (some (flatD _ (g w))) ((t.c w).map fun p => (flatD _ p.1, flatD _ p.2))) =
          some (.dense (size (sh w)) (flatD _ (t'.x w)) (some fun _ => 0) ((t'.c w).map fun p => (flatD _ p.1, flatD _ p.2))) := by
  obtain rfl := hy.eq
  obtain ⟨hF, hA, hc⟩ := hok
  have hfw : ∀ w ∈ ws, feedIn f t.x w = t.x w := by
    intro w hw
    unfold feedIn
    cases e : f w with
    | none => rfl
    | some v => exact absurd hw (hf w v e).2.1
  have hfs : ∀ w, P.G[w]? = some .leaf → (feedIn f t.x w).shape = sh w := fun w hw => feed_shape hf R hw
  have hPeq : P = { P with kept := none } := by rw [← S.none_]
  have hroots : ({ P with kept := t.kept } : Prog).roots = P.roots := by
    rcases R.kept with h | h
    · rw [h, ← hPeq]
    · rw [h]; rfl
  have hrun : ({ P with kept := t.kept } : Prog).runAll false (feedIn f t.x) t.d = P.runAll false (feedIn f t.x) t.d := by
    rcases R.kept with h | h
    · rw [h, ← hPeq]
    · rw [h]; exact Lisp.Tensor.runAll_asked P false _ _
  obtain ⟨s, s1, s2, s3, s4⟩ := Lisp.Tensor.cost_gradient P S.rec_ S.none_ S.sorted (feedIn f t.x) t.d hF hA
    (fun w hw => (R.ds w hw).trans (hfs w hw).symm)
    (fun i o ks st w h hs hfr hp hl => R.zero w (S.blank i o ks st w h hs hfr hp hl)) c S.cost hc S.read S.only
    (fun w hw => by rw [hfs w hw]; exact S.used w hw)
  have hW : ∀ w, P.G[w]? = some .leaf → s.W w = feedIn f t.x w := by
    intro w hw
    have := P.G.value_leaf S.sorted (feedIn f t.x) (j := w) (by rw [P.G.getD_of hw]; rfl)
    rw [s2 w] at this
    exact this
  obtain ⟨t', h1, h2, h3, h4⟩ := stepL_ok node hnode sh ws { x := s.W, d := s.D, c := t.c, kept := some P.roots } S.nodup
    (fun w hw => by
      show (s.W w).shape = _
      rw [hW w (S.inputs w hw)]; exact hfs w (S.inputs w hw))
    (fun w hw => (s3 w (S.inputs w hw)).trans (hfs w (S.inputs w hw)))
  refine ⟨t', ?_, ⟨?_, ?_, fun w hw => (h4 w hw).2.2.1, .inr h2⟩, ?_, s.D, fun w hw => ⟨(s3 w (S.inputs w hw)).trans (hfs w (S.inputs w hw)), ?_, ?_⟩⟩
  · unfold lround
    rw [hrun, s1, hroots]
    exact h1
  · intro w hw
    by_cases h : w ∈ ws
    · exact (h4 w h).1
    · rw [(h3 w h).1]
      show (s.W w).shape = _
      rw [hW w hw]; exact hfs w hw
  · intro w hw
    by_cases h : w ∈ ws
    · exact (h4 w h).2.1
    · rw [(h3 w h).2.1]
      exact (s3 w hw).trans (hfs w hw)
  · intro i hi hn
    rw [(h3 i hn).1]
    exact hW i hi
  · intro i hi
    have hin : InB (feedIn f t.x w).shape i := by rw [hfs w (S.inputs w hw)]; exact hi
    have hz : (t.d w).at_ i = 0 := R.zero w hw i (by rw [R.ds w (S.inputs w hw)]; exact hi)
    have := s4 w (S.inputs w hw) i hin
    rw [hz, sub_zero] at this
    exact this
  · have := (h4 w hw).2.2.2
    simp only at this
    rw [hW w (S.inputs w hw), hfw w hw] at this
    exact this

/-- **C111.** Training with new machines: as long as all operations work and can be differentiated at the weights and data of the rounds, `k` rounds succeed, and in
every round the solver is applied to the elements of each weight and the partial derivatives of the cost at the weights and data of that round. -/
theorem lisp_training {P : Prog} {c : Nat} {ws : List Nat} {sh : Nat → List Nat} (S : LSetup P c ws sh) (f : Nat → Nat → Option (T ℝ))
    (hf : ∀ k, Fits P ws sh (f k)) (node : Nat → Param → Option Param)
    (hnode : ∀ k n w g c, ∃ w' c', node k (.dense n w (some g) c) = some (.dense n w' (some fun _ => 0) c')) (t : LS) (R : LReady P ws sh t)
    (k : Nat) (hok : ∀ j t', j < k → lrounds P f (fun k => tensorSol (node k)) ws j t = some t' → ∀ y, Fed (f j) t'.x y → LOkay P c y) :
    ∃ ts : Nat → LS, ts 0 = t ∧ (∀ j, j ≤ k → lrounds P f (fun k => tensorSol (node k)) ws j t = some (ts j)) ∧ ∀ j, j < k →
      ∃ y, Fed (f j) (ts j).x y ∧ (∀ i, P.G[i]? = some .leaf → i ∉ ws → (ts (j + 1)).x i = y i) ∧
      ∃ g : Nat → T ℝ, ∀ w ∈ ws, ((ts j).x w).shape = sh w ∧ (g w).shape = sh w ∧ (∀ i, InB (sh w) i → PartialAt P c y w i ((g w).at_ i)) ∧
        node j (.dense (size (sh w)) (flatD _ ((ts j).x w)) (some (flatD _ (g w))) (((ts j).c w).map fun p => (flatD _ p.1, flatD _ p.2))) =
          some (.dense (size (sh w)) (flatD _ ((ts (j + 1)).x w)) (some fun _ => 0) (((ts (j + 1)).c w).map fun p => (flatD _ p.1, flatD _ p.2))) := by
  have key : ∀ j, j ≤ k → ∃ t', lrounds P f (fun k => tensorSol (node k)) ws j t = some t' ∧ LReady P ws sh t' := by
    intro j
    induction j with
    | zero => exact fun _ => ⟨t, rfl, R⟩
    | succ j ih =>
      intro hj
      obtain ⟨t', h1, h2⟩ := ih (by omega)
      obtain ⟨t'', h3, h4, _⟩ := lround_ok S (f j) (hf j) (node j) (hnode j) t' h2 _ (fed_feedIn _ _) (hok j t' (by omega) h1 _ (fed_feedIn _ _))
      refine ⟨t'', ?_, h4⟩
      show (lrounds P f _ ws j t).bind _ = _
      rw [h1]
      exact h3
  have : Nonempty LS := ⟨t⟩
  choose! ts hts using key
  refine ⟨ts, ?_, fun j hj => (hts j hj).1, fun j hj => ?_⟩
  · have := (hts 0 (Nat.zero_le _)).1
    exact (Option.some.inj this).symm
  · obtain ⟨h1, h2⟩ := hts j (by omega)
    obtain ⟨t'', h3, h4, h5, g, h6⟩ := lround_ok S (f j) (hf j) (node j) (hnode j) (ts j) h2 _ (fed_feedIn _ _) (hok j (ts j) hj h1 _ (fed_feedIn _ _))
    have h7 : lrounds P f (fun k => tensorSol (node k)) ws (j + 1) t = some t'' := by
      show (lrounds P f _ ws j t).bind _ = _
      rw [h1]
      exact h3
    obtain rfl : ts (j + 1) = t'' := Option.some.inj (((hts (j + 1) hj).1).symm.trans h7)
    exact ⟨_, fed_feedIn _ _, h5, g, fun w hw => ⟨h2.xs w (S.inputs w hw), h6 w hw⟩⟩

/-- **C111, plain gradient descent.** With the plain solver every element of every weight moves in each round by the learn rate times the regularised, averaged and
clipped partial derivative of the cost. -/
theorem lisp_training_descends {P : Prog} {c : Nat} {ws : List Nat} {sh : Nat → List Nat} (S : LSetup P c ws sh) (f : Nat → Nat → Option (T ℝ))
    (hf : ∀ k, Fits P ws sh (f k)) (F : Fields) (hF : ClipOk F) (t : LS) (R : LReady P ws sh t) (k : Nat)
    (hok : ∀ j t', j < k → lrounds P f (fun _ => tensorSol (vanillaNode F)) ws j t = some t' → ∀ y, Fed (f j) t'.x y → LOkay P c y) :
    ∃ ts : Nat → LS, ts 0 = t ∧ (∀ j, j ≤ k → lrounds P f (fun _ => tensorSol (vanillaNode F)) ws j t = some (ts j)) ∧ ∀ j, j < k →
      ∃ y, Fed (f j) (ts j).x y ∧ (∀ i, P.G[i]? = some .leaf → i ∉ ws → (ts (j + 1)).x i = y i) ∧
      ∀ w ∈ ws, ∀ i : Fin (size (sh w)), ∃ g, PartialAt P c y w (unravel (sh w) i) g ∧
        (flatD (size (sh w)) ((ts (j + 1)).x w)) i = flatD (size (sh w)) ((ts j).x w) i - F.eta * processed F (flatD (size (sh w)) ((ts j).x w) i) g := by
  obtain ⟨ts, h1, h2, h3⟩ := lisp_training S f hf (fun _ => vanillaNode F) (fun _ n w g c => ⟨_, _, Solver.vanilla_dense F n w g c hF⟩) t R k hok
  refine ⟨ts, h1, h2, fun j hj => ?_⟩
  obtain ⟨y, hy, hl, g, h4⟩ := h3 j hj
  refine ⟨y, hy, hl, fun w hw i => ?_⟩
  obtain ⟨_, h5, h6, h7⟩ := h4 w hw
  refine ⟨_, h6 _ (Tensor.inB_unravel i.2), ?_⟩
  rw [Solver.vanilla_dense F _ _ _ _ hF] at h7
  simp only [Option.some.injEq, Param.dense.injEq, heq_eq_eq, true_and] at h7
  have := congrFun h7.1 i
  rw [← this]
  simp only [flatD, h5]

/-! ### A classifier of any size -/

open Verif.Lisp.Tensor (tiedP lTied)

/-- The shapes of the inputs of the classifier with tied weights: labels, samples, weights. -/
def tiedSh (n m k : Nat) : Nat → List Nat := fun j => if j = 8 then [m, k] else [n, m]

theorem tied_setup (n m k : Nat) : LSetup (tiedP [.read 0] [.stmt 0] none) 0 [8] (tiedSh n m k) where
  rec_ := by
    refine Lisp.Tensor.tiedP_recorded _ _ _ (fun k j => ?_) (fun i => by simp)
    match k with
    | 0 => simp [Lisp.Tensor.Stmt.kids]
    | k + 1 => simp
  none_ := rfl
  sorted := Lisp.Tensor.lTied_sorted
  cost := ⟨_, rfl, rfl, fun q hq h => by
    obtain ⟨i, hi⟩ := List.mem_iff_getElem?.1 hq
    have := (Lisp.Tensor.lTied_sorted i _ (Lisp.Tensor.LG.tg_get _ hi) 0 h).1
    omega⟩
  only := fun j hj => Lisp.Tensor.tiedP_used _ _ _ hj
  read := .inr ⟨0, rfl, rfl⟩
  used := fun w hw => .inr (Lisp.Tensor.tiedP_inputs _ _ _ w hw)
  nodup := by simp
  inputs := fun w hw => by rw [List.mem_singleton.1 hw]; rfl
  blank := fun i o ks s w h hs hf => absurd hf (by rw [Lisp.Tensor.lTied_nofresh h hs]; decide)

/-- **C111 (a model).** The classifier with tied weights on `n` samples, with `m` features and `k` hidden units, trained by the plain solver with a new machine and new
samples and labels in every round: every round moves every weight by the learn rate times the (processed) partial derivative of the cross entropy of that round. -/
theorem tied_training (n m k : Nat) (hn : n ≠ 0) (hm : m ≠ 0) (F : Fields) (hF : ClipOk F) (x : Nat → T ℝ) (h3 : (x 3).shape = [n, m]) (h7 : (x 7).shape = [n, m])
    (h8 : (x 8).shape = [m, k]) (X Y : Nat → T ℝ) (hX : ∀ r, (X r).shape = [n, m]) (hY : ∀ r, (Y r).shape = [n, m]) (rounds : Nat) :
    ∃ ts : Nat → LS, ts 0 = { x := x, d := fun j => zeroT (x j).shape, c := fun _ => none, kept := none } ∧
      (∀ r, r ≤ rounds → lrounds (tiedP [.read 0] [.stmt 0] none) (fun r j => if j = 3 then some (Y r) else if j = 7 then some (X r) else none)
        (fun _ => tensorSol (vanillaNode F)) [8] r (ts 0) = some (ts r)) ∧
      ∀ r, r < rounds → ∃ y, y 3 = Y r ∧ y 7 = X r ∧ y 8 = (ts r).x 8 ∧ ∀ i : Fin (size [m, k]), ∃ g,
        PartialAt (tiedP [.read 0] [.stmt 0] none) 0 y 8 (unravel [m, k] i) g ∧
          flatD (size [m, k]) ((ts (r + 1)).x 8) i = flatD (size [m, k]) ((ts r).x 8) i - F.eta * processed F (flatD (size [m, k]) ((ts r).x 8) i) g := by
  have S := tied_setup n m k
  have hfit : ∀ r, Fits (tiedP [.read 0] [.stmt 0] none) [8] (tiedSh n m k) (fun j => if j = 3 then some (Y r) else if j = 7 then some (X r) else none) := by
    intro r w v hv
    by_cases e : w = 3
    · subst e
      simp only [if_true, Option.some.injEq] at hv
      subst hv
      exact ⟨rfl, by simp, by rw [hY]; rfl⟩
    · by_cases e' : w = 7
      · subst e'
        have hv : some (X r) = some v := hv
        cases hv
        exact ⟨rfl, by simp, by rw [hX]; rfl⟩
      · simp [e, e'] at hv
  have R : LReady (tiedP [.read 0] [.stmt 0] none) [8] (tiedSh n m k) { x := x, d := fun j => zeroT (x j).shape, c := fun _ => none, kept := none } := by
    have hx : ∀ w, (tiedP [.read 0] [.stmt 0] none).G[w]? = some .leaf → (x w).shape = tiedSh n m k w := by
      intro w hw
      have := Lisp.Tensor.lTied_leaf hw
      simp only [List.mem_cons, List.not_mem_nil, or_false] at this
      rcases this with rfl | rfl | rfl
      · exact h3
      · exact h7
      · exact h8
    exact ⟨hx, hx, fun _ _ _ _ => rfl, .inl rfl⟩
  have okay : ∀ y : Nat → T ℝ, (∀ w, (tiedP [.read 0] [.stmt 0] none).G[w]? = some .leaf → (y w).shape = tiedSh n m k w) →
      LOkay (tiedP [.read 0] [.stmt 0] none) 0 y := by
    intro y hy
    obtain ⟨a, b, c⟩ := Lisp.Tensor.lTied_ok y n m k hn hm (hy 3 rfl) (hy 7 rfl) (hy 8 rfl)
    exact ⟨a.fine, b, c⟩
  have key : ∀ j t', lrounds (tiedP [.read 0] [.stmt 0] none) (fun r j => if j = 3 then some (Y r) else if j = 7 then some (X r) else none)
      (fun _ => tensorSol (vanillaNode F)) [8] j { x := x, d := fun j => zeroT (x j).shape, c := fun _ => none, kept := none } = some t' →
      LReady (tiedP [.read 0] [.stmt 0] none) [8] (tiedSh n m k) t' := by
    intro j
    induction j with
    | zero =>
      intro t' h
      obtain rfl := Option.some.inj h
      exact R
    | succ j ih =>
      intro t' h
      obtain ⟨t1, h1, h2⟩ := Option.bind_eq_some_iff.1 h
      have R1 := ih t1 h1
      obtain ⟨t2, h3, h4, _⟩ := lround_ok S _ (hfit j) (vanillaNode F) (fun n w g c => ⟨_, _, Solver.vanilla_dense F n w g c hF⟩) t1 R1
        _ (fed_feedIn _ _) (okay _ (fun w hw => feed_shape (hfit j) R1 hw))
      obtain rfl := Option.some.inj (h3.symm.trans h2)
      exact h4
  obtain ⟨ts, t0, t1, t2⟩ := lisp_training_descends S _ hfit F hF _ R rounds
    (fun j t' _ ht' y hy => okay _ (fun w hw => by rw [hy.eq]; exact feed_shape (hfit j) (key j t' ht') hw))
  refine ⟨ts, t0, fun r hr => t0 ▸ t1 r hr, fun r hr => ?_⟩
  obtain ⟨y, hy, _, h⟩ := t2 r hr
  exact ⟨y, (hy 3).1 _ rfl, (hy 7).1 _ rfl, (hy 8).2 rfl, h 8 (by simp)⟩

end

end Verif.Train
