import Verif.Train.Lisp
import Verif.Train.TensorExample
/-!
Training with the define-by-run machine on a concrete program: the cost is the sum of squares of a weight of any shape.
-/
set_option autoImplicit false
namespace Verif.Train
open Verif.Shape (Res)
open Verif.Tensor (T InB size ravel unravel)
open Verif.AD (TG theT zeroT)
open Verif.Lisp.Tensor (LG LNode Prog lSum lBin)
open Verif.Solver (Fields vanillaNode processed ClipOk)
open Filter
open scoped Topology

noncomputable section

/-- `Sum(w ⊙ w)`, read into a variable. -/
def sqL : Prog where
  G := [.op (lSum []) [1], .op (lBin .mul false false false false) [2, 2], .leaf]
  stmts := [.read 0]
  uses := fun
    | 0 => [.stmt 0]
    | 1 => [.node 0]
    | 2 => [.node 1, .node 1]
    | _ => []
  kept := none

theorem sqL_tg : sqL.G.tg = sqG := rfl

theorem sqL_kids {i j : Nat} {n : LNode} (h : sqL.G[i]? = some n) (hj : j ∈ n.tnode.kids) : (i = 0 ∧ j = 1) ∨ (i = 1 ∧ j = 2) := by
  match i, h with
  | 0, h => cases h; left; simpa [LNode.tnode, AD.TNode.kids] using hj
  | 1, h => cases h; right; simpa [LNode.tnode, AD.TNode.kids] using hj
  | 2, h => cases h; simp [LNode.tnode, AD.TNode.kids] at hj
  | i + 3, h => simp [sqL] at h

theorem sqL_setup (s : List Nat) : LSetup sqL 0 [2] (fun _ => s) where
  rec_ := by
    constructor
    · intro i j
      constructor
      · intro h
        match j, h with
        | 0, h => simp [sqL] at h
        | 1, h => simp [sqL] at h; subst h; exact ⟨_, rfl, by simp [LNode.tnode, AD.TNode.kids]⟩
        | 2, h => simp [sqL] at h; subst h; exact ⟨_, rfl, by simp [LNode.tnode, AD.TNode.kids]⟩
        | j + 3, h => simp [sqL] at h
      · rintro ⟨n, h1, h2⟩
        rcases sqL_kids h1 h2 with ⟨rfl, rfl⟩ | ⟨rfl, rfl⟩ <;> simp [sqL]
    · intro k j
      match k with
      | 0 =>
        match j with
        | 0 | 1 | 2 => simp [sqL, Lisp.Tensor.Stmt.kids]
        | j + 3 => simp [sqL, Lisp.Tensor.Stmt.kids]
      | k + 1 =>
        match j with
        | 0 | 1 | 2 => simp [sqL]
        | j + 3 => simp [sqL]
  none_ := rfl
  sorted := sq_sorted
  cost := ⟨_, rfl, rfl, fun m hm h => by
    obtain ⟨i, hi⟩ := List.mem_iff_getElem?.1 hm
    rcases sqL_kids hi h with ⟨_, h⟩ | ⟨_, h⟩ <;> cases h⟩
  only := by
    rintro j ⟨n, h1, h2, h3⟩
    match j, h1 with
    | 0, _ => rfl
    | 1, _ => exact absurd (by simp [LNode.tnode, AD.TNode.kids]) (h3 (.op (lSum []) [1]) (by simp [sqL]))
    | 2, h => cases h; cases h2
    | j + 3, h => simp [sqL] at h
  read := .inr ⟨0, rfl, rfl⟩
  used := fun w hw => .inr ⟨.op (lBin .mul false false false false) [2, 2], by simp [sqL], by
    match w, hw with
    | 0, h | 1, h => cases h
    | 2, _ => simp [LNode.tnode, AD.TNode.kids]
    | w + 3, h => simp [sqL] at h⟩
  nodup := by simp
  inputs := fun w hw => by rw [List.mem_singleton.1 hw]; rfl
  blank := fun i o ks st w h _ _ hp hl => by
    match w, hl with
    | 0, h | 1, h => cases h
    | 2, _ => simp
    | w + 3, h => simp [sqL] at h

theorem sqL_okay (s : List Nat) (hs : s ≠ []) (hp : ∀ d ∈ s, d ≠ 0) (x : Nat → T ℝ) (h : (x 2).shape = s) : LOkay sqL 0 x := by
  obtain ⟨S, y, y1, y2, _⟩ := sq_good s hs hp x h
  have W := sq_sorted
  have v2 : sqG.value x 2 = .ok (x 2) := by rw [TG.value_eq _ W]; rfl
  obtain ⟨d, _, d2, _, d3, d4⟩ := Lisp.Tensor.lBin_adds_partial .mul false false false false s (x 2) (x 2) (.inl h) (.inl h) (.inl h) (fun _ => hp)
    (fun _ _ => trivial) (fun e => absurd h e) (fun e => absurd h e) (fun e => by cases e)
  have v1 : sqG.value x 1 = .ok d := by
    rw [TG.value_eq _ W]
    show (AD.resAll [sqG.value x 2, sqG.value x 2]).bind (lBin .mul false false false false).op.run = _
    rw [v2]
    exact d3.run
  obtain ⟨e, _, _, e3, e4⟩ := Lisp.Tensor.lSum_adds [] d (by rw [d2]; exact hs) (by simp) List.nodup_nil (by rw [d2]; exact hp)
  have v0 : sqG.value x 0 = .ok e := by
    rw [TG.value_eq _ W]
    show (AD.resAll [sqG.value x 1]).bind (lSum []).op.run = _
    rw [v1]
    exact e3.run
  refine ⟨S.fine, ⟨fun i o ks h => ?_, fun i o ks p c h hd hc => ?_, fun i o ks st c h hst hf => ?_⟩, ?_⟩
  · rw [sqL_tg]
    match i, h with
    | 0, h => cases h; simp only [List.map_cons, List.map_nil, v0, v1, theT]; exact e4
    | 1, h => cases h; simp only [List.map_cons, List.map_nil, v1, v2, theT]; exact d4
    | 2, h => cases h
    | i + 3, h => simp [sqL] at h
  · left
    match i, h with
    | 0, h =>
      cases h
      match p, hc with
      | 0, _ => exact ⟨rfl, _, List.mem_singleton.2 rfl, rfl⟩
      | p + 1, hc => simp at hc
    | 1, h =>
      cases h
      match p, hc with
      | 0, _ => exact ⟨rfl, _, List.mem_cons_self, rfl⟩
      | 1, _ => exact ⟨rfl, _, List.mem_cons_of_mem _ List.mem_cons_self, rfl⟩
      | p + 2, hc => simp at hc
    | 2, h => cases h
    | i + 3, h => simp [sqL] at h
  · exfalso
    match i, h with
    | 0, h =>
      cases h
      obtain rfl := List.mem_singleton.1 hst
      cases hf
    | 1, h =>
      cases h
      rcases List.mem_cons.1 hst with rfl | hst
      · cases hf
      · rcases List.mem_cons.1 hst with rfl | hst
        · cases hf
        · cases hst
    | 2, h => cases h
    | i + 3, h => simp [sqL] at h
  · show (theT (sqG.value x 0)).shape = []
    rw [y1]
    exact y2

/-- The partial derivatives are twice the elements. -/
theorem sqL_partial (s : List Nat) (hs : s ≠ []) (hp : ∀ d ∈ s, d ≠ 0) (x : Nat → T ℝ) (h : (x 2).shape = s) (i : Fin (size s)) (g : ℝ)
    (hg : PartialAt sqL 0 x 2 (unravel s i) g) : g = 2 * flatD (size s) (x 2) i := by
  unfold PartialAt at hg
  have hval : (fun t : ℝ => (theT (sqL.G.tg.value (fun j => if j = 2 then ⟨(x 2).shape, fun k => (x 2).at_ k + t * if unravel s i = k then 1 else 0⟩ else x j) 0)).at_ []) =
      fun t => ∑ j, (flatD (size s) (x 2) j + t * if i = j then 1 else 0) ^ 2 := by
    funext t
    obtain ⟨-, y, y1, -, y2⟩ := sq_good s hs hp (fun j => if j = 2 then ⟨(x 2).shape, fun k => (x 2).at_ k + t * if unravel s i = k then 1 else 0⟩ else x j) h
    rw [sqL_tg, y1]
    simp only [theT]
    rw [y2]
    refine Finset.sum_congr rfl fun j _ => ?_
    simp only [flatD, if_true, h]
    congr 3
    by_cases e : i = j
    · simp [e]
    · rw [if_neg e, if_neg]
      intro e'
      refine e (Fin.ext ?_)
      have := congrArg (ravel s) e'
      rwa [Tensor.ravel_unravel i.2, Tensor.ravel_unravel j.2] at this
  rw [hval] at hg
  have d2 : HasDerivAt (fun t : ℝ => ∑ j, (flatD (size s) (x 2) j + t * if i = j then 1 else 0) ^ 2)
      (∑ j, 2 * flatD (size s) (x 2) j * if i = j then 1 else 0) 0 := by
    refine HasDerivAt.fun_sum fun j _ => ?_
    have := (((hasDerivAt_id (0 : ℝ)).mul_const (if i = j then (1 : ℝ) else 0)).const_add (flatD (size s) (x 2) j)).pow 2
    refine this.congr_deriv ?_
    simp
  have := hg.unique d2
  simpa using this

/-- **C111 (a concrete program).** The sum of squares of a weight of any shape without empty axes, trained by the plain solver with learn rate `η` and a new machine in
every round: after `k` rounds every element is `(1 - 2 η)^k` times the initial one. -/
theorem sqL_converges (F : Fields) (h1 : F.useClip = false) (h2 : F.useL1Reg = false) (h3 : F.useL2Reg = false)
    (hb : F.batch = 1) (s : List Nat) (hs : s ≠ []) (hp : ∀ d ∈ s, d ≠ 0) (x : Nat → T ℝ) (hx : (x 2).shape = s) (k : Nat) :
    ∃ t', lrounds sqL (fun _ _ => none) (fun _ => tensorSol (vanillaNode F)) [2] k { x := x, d := fun j => zeroT (x j).shape, c := fun _ => none, kept := none } = some t' ∧
      ∀ i : Fin (size s), flatD (size s) (t'.x 2) i = (1 - 2 * F.eta) ^ k * flatD (size s) (x 2) i := by
  have hF : ClipOk F := by simp [ClipOk, h1]
  have S := sqL_setup s
  induction k with
  | zero => exact ⟨_, rfl, fun i => by simp⟩
  | succ k _ =>
    have R : LReady sqL [2] (fun _ => s) { x := x, d := fun j => zeroT (x j).shape, c := fun _ => none, kept := none } := by
      have hx : ∀ w, sqL.G[w]? = some .leaf → (x w).shape = s := by
        intro w hw
        match w, hw with
        | 0, h | 1, h => cases h
        | 2, _ => exact hx
        | w + 3, h => simp [sqL] at h
      exact ⟨hx, hx, fun _ _ _ _ => rfl, .inl rfl⟩
    have hfit : ∀ r : Nat, Fits sqL [2] (fun _ => s) ((fun _ _ => none : Nat → Nat → Option (T ℝ)) r) := fun r w v hv => by cases hv
    have key : ∀ j t', lrounds sqL (fun _ _ => none) (fun _ => tensorSol (vanillaNode F)) [2] j
        { x := x, d := fun j => zeroT (x j).shape, c := fun _ => none, kept := none } = some t' → LReady sqL [2] (fun _ => s) t' := by
      intro j
      induction j with
      | zero =>
        intro t' h
        obtain rfl := Option.some.inj h
        exact R
      | succ j ih =>
        intro t' h
        obtain ⟨t1, g1, g2⟩ := Option.bind_eq_some_iff.1 h
        have R1 := ih t1 g1
        obtain ⟨t2, g3, g4, _⟩ := lround_ok S _ (hfit j) (vanillaNode F) (fun n w g c => ⟨_, _, Solver.vanilla_dense F n w g c hF⟩) t1 R1
          _ (fed_feedIn _ _) (sqL_okay s hs hp _ (feed_shape (hfit j) R1 rfl))
        obtain rfl := Option.some.inj (g3.symm.trans g2)
        exact g4
    obtain ⟨ts, t0, t1, t2⟩ := lisp_training_descends S _ hfit F hF _ R (k + 1)
      (fun j t' _ ht' y hy => sqL_okay s hs hp y (by rw [hy.eq]; exact feed_shape (hfit j) (key j t' ht') rfl))
    refine ⟨ts (k + 1), t1 _ (Nat.le_refl _), fun i => ?_⟩
    have hrec : ∀ j, j ≤ k + 1 → flatD (size s) ((ts j).x 2) i = (1 - 2 * F.eta) ^ j * flatD (size s) (x 2) i := by
      intro j
      induction j with
      | zero => intro _; rw [t0]; simp
      | succ j ih =>
        intro hj
        obtain ⟨y, hy, _, hs2⟩ := t2 j hj
        obtain ⟨g, g1, g2⟩ := hs2 2 (by simp) i
        have hye : y 2 = (ts j).x 2 := (hy 2).2 rfl
        have := sqL_partial s hs hp y (by rw [hye]; exact (key j (ts j) (t1 j (by omega))).xs 2 rfl) i g g1
        rw [g2, this, hye, ih (by omega)]
        simp only [processed, Solver.regularised, h1, h2, h3, hb]
        norm_num
        ring
    exact hrec (k + 1) (Nat.le_refl _)

/-- Two rounds with learn rate 1/4 on a matrix: a quarter of the initial value. -/
example (F : Fields) (h0 : F.eta = 1 / 4) (h1 : F.useClip = false) (h2 : F.useL1Reg = false) (h3 : F.useL2Reg = false) (hb : F.batch = 1)
    (x : Nat → T ℝ) (hx : (x 2).shape = [2, 3]) :
    ∃ t', lrounds sqL (fun _ _ => none) (fun _ => tensorSol (vanillaNode F)) [2] 2 { x := x, d := fun j => zeroT (x j).shape, c := fun _ => none, kept := none } = some t' ∧
      ∀ i : Fin 6, flatD 6 (t'.x 2) i = 1 / 4 * flatD 6 (x 2) i := by
  obtain ⟨t', a, b⟩ := sqL_converges F h1 h2 h3 hb [2, 3] (by simp) (by simp) x hx 2
  refine ⟨t', a, fun i => (b i).trans ?_⟩
  rw [h0]
  norm_num [size]
  rfl

end

end Verif.Train
