import Verif.AD.TensorElem
import Verif.NN.Softmax
import Verif.Shape.Concat
import Verif.Shape.Reduce
/-!
Further operations for `gradT_correct`: products of matrices and vectors, concatenation, softmax, maxima.
-/
set_option autoImplicit false
namespace Verif.AD
open Verif.Tensor Verif.Shape Verif.NN Verif.LinAlg Filter
open scoped Topology

noncomputable section

/-! ### Matrix and vector -/

/-- Building and running a product of a matrix and a vector (op_math.go 525-553). -/
def matVecRun (tA : Bool) (a y : T ℝ) : Res (T ℝ) :=
  if a.shape.length = 2 ∧ y.shape.length = 1 then
    match matVec tA (toM a) (toV y) with
    | some z => .ok (ofV z)
    | none => .err
  else .err

/-- `linAlgBinOp` with `matVecMulOperator` (op_math.go 507-795, operatorLinAlg.go 142-216). -/
def matVecTOp (tA : Bool) : TOp := .two (matVecRun tA) fun a y _ g =>
  match matVecDiff tA (toM a) (toV y) (toV g) with
  | (da, some dy) => some (ofM da, ofV dy)
  | _ => none

theorem matVecTOp_good (tA : Bool) (a y : T ℝ) (ha : a.shape.length = 2) (hy : y.shape.length = 1)
    (h : ((toM a).flip tA).c = (toV y).n) :
    ∃ z, matVecRun tA a y = .ok z ∧ z.shape = [((toM a).flip tA).r] ∧ (matVecTOp tA).Good [a, y] z := by
  obtain ⟨ar, ac, hab⟩ : ∃ r c, a.shape = [r, c] := by
    match a.shape, ha with
    | [r, c], _ => exact ⟨r, c, rfl⟩
  obtain ⟨n, hyn⟩ : ∃ n, y.shape = [n] := by
    match y.shape, hy with
    | [n], _ => exact ⟨n, rfl⟩
  have hok : ∀ a' y' : T ℝ, a'.shape = a.shape → y'.shape = y.shape → ∃ z, matVec tA (toM a') (toV y') = some z ∧ z.n = ((toM a).flip tA).r := by
    intro a' y' ha' hy'
    have h1 : ((toM a').flip tA).r = ((toM a).flip tA).r ∧ ((toM a').flip tA).c = ((toM a).flip tA).c := by
      cases tA <;> simp [M.flip, M.T, toM, ha']
    have h2 : (toV y').n = (toV y).n := by simp [toV, hy']
    refine ⟨_, by unfold matVec; exact if_pos (by rw [h1.2, h2]; exact h), h1.1⟩
  refine good_biaffine' _ _ _ a y fun z g hg => ?_
  have key : ∀ a' y' : T ℝ, a'.shape = a.shape → y'.shape = y.shape → ∃ dy,
      (matVecDiff tA (toM a') (toV y') (toV g)).2 = some dy ∧
      IsGrad (fun a => matVecRun tA a y') a' g (ofM (matVecDiff tA (toM a') (toV y') (toV g)).1) ∧
      IsGrad (fun y => matVecRun tA a' y) y' g (ofV dy) := by
    intro a' y' ha' hy'
    obtain ⟨z, z1, z2⟩ := hok a' y' ha' hy'
    obtain ⟨dy, e2, l1, l2, hd⟩ := matVec_adjoint tA (toM a') (toV y') (toV g) z z1 (by simp [toV, hg, z2])
    have hrun : ∀ a'' y'' : T ℝ, a''.shape = a.shape → y''.shape = y.shape → ∃ z, matVecRun tA a'' y'' = .ok z ∧ z.shape = g.shape ∧
        pair g z = ((matVec tA (toM a'') (toV y'')).map (toV g).dot).getD 0 := by
      intro a'' y'' h1 h2
      obtain ⟨z', p1, p2⟩ := hok a'' y'' h1 h2
      refine ⟨ofV z', ?_, ?_, ?_⟩
      · unfold matVecRun
        rw [if_pos ⟨by rw [h1]; exact ha, by rw [h2]; exact hy⟩, p1]
      · rw [hg]; simp [ofV, p2]
      · rw [p1, pair_dotV hg, toV_ofV]; rfl
    generalize (matVecDiff tA (toM a') (toV y') (toV g)).1 = da at l1 hd ⊢
    refine ⟨dy, e2, ⟨?_, fun d hds => ?_⟩, ⟨?_, fun d hds => ?_⟩⟩
    · rw [ha', hab]
      simp only [ofM, l1.1, l1.2, toM, ha', hab, List.getD_cons_zero, List.getD_cons_succ]
    · choose z z1 z2 z3 using fun τ : ℝ => hrun (moveT a' d τ) y' ha' hy'
      refine ⟨z, Eventually.of_forall fun τ => ⟨z1 τ, z2 τ⟩, ?_⟩
      have := hd (toM d) ⟨n, fun _ => 0⟩ ⟨by simp [toM, hds], by simp [toM, hds]⟩ (by simp [toV, hy', hyn])
      simp only [V.move_zero, V.dot_zero, add_zero] at this
      rw [pair_dot (show (ofM da).shape = [da.r, da.c] from rfl), toM_ofM]
      exact this.congr_of_eventuallyEq (Eventually.of_forall fun τ => z3 τ)
    · rw [hy', hyn]
      simp only [ofV, l2, toV, hy', hyn, List.getD_cons_zero]
    · choose z z1 z2 z3 using fun τ : ℝ => hrun a' (moveT y' d τ) ha' hy'
      refine ⟨z, Eventually.of_forall fun τ => ⟨z1 τ, z2 τ⟩, ?_⟩
      have := hd ⟨ar, ac, fun _ _ => 0⟩ (toV d) ⟨by simp [toM, ha', hab], by simp [toM, ha', hab]⟩ (by simp [toV, hds])
      simp only [M.move_zero, M.dot_zero, zero_add] at this
      rw [pair_dotV (show (ofV dy).shape = [dy.n] from rfl), toV_ofV]
      exact this.congr_of_eventuallyEq (Eventually.of_forall fun τ => z3 τ)
  refine ⟨fun y' => ofM (matVecDiff tA (toM a) (toV y') (toV g)).1,
    fun a' => ofV ((matVecDiff tA (toM a') (toV y) (toV g)).2.getD ⟨0, fun _ => 0⟩), ?_, fun a' y' ha' hy' => ?_⟩
  · obtain ⟨dy, e, _⟩ := key a y rfl rfl
    have e' : matVecDiff tA (toM a) (toV y) (toV g) = ((matVecDiff tA (toM a) (toV y) (toV g)).1, some dy) := Prod.ext rfl e
    rw [e']
    simp only [e]
    rfl
  · obtain ⟨dy, e, h1, h2⟩ := key a' y' ha' hy'
    have s1 : (matVecDiff tA (toM a) (toV y') (toV g)).1 = (matVecDiff tA (toM a') (toV y') (toV g)).1 := rfl
    have s2 : (matVecDiff tA (toM a') (toV y) (toV g)).2 = (matVecDiff tA (toM a') (toV y') (toV g)).2 := rfl
    simp only [s1, s2, e]
    exact ⟨h1, h2⟩

/-- Building and running an inner product. -/
def vecDotRun (x y : T ℝ) : Res (T ℝ) :=
  if x.shape.length = 1 ∧ y.shape.length = 1 then
    match vecDot (toV x) (toV y) with
    | some z => .ok (scalarT z)
    | none => .err
  else .err

/-- `linAlgBinOp` with `vecDotOperator` (operatorLinAlg.go 218-260). -/
def vecDotTOp : TOp := .two vecDotRun fun x y _ g =>
  some (ofV (vecDotDiff (toV x) (toV y) (g.at_ [])).1, ofV (vecDotDiff (toV x) (toV y) (g.at_ [])).2)

theorem pair_scalar {g : T ℝ} (hg : g.shape = []) (z : T ℝ) : pair g z = g.at_ [] * z.at_ [] := by
  rw [pair_eq, hg]
  simp [sumOver, size, unravel]

theorem vecDotTOp_good (x y : T ℝ) (n : Nat) (hx : x.shape = [n]) (hy : y.shape = [n]) :
    ∃ z, vecDotRun x y = .ok z ∧ z.shape = [] ∧ vecDotTOp.Good [x, y] z := by
  refine good_biaffine' _ _ _ x y fun z g hg => ?_
  have hok : ∀ x' y' : T ℝ, x'.shape = x.shape → y'.shape = y.shape →
      vecDot (toV x') (toV y') = some ((vecDot (toV x') (toV y')).getD 0) ∧ vecDotRun x' y' = .ok (scalarT ((vecDot (toV x') (toV y')).getD 0)) := by
    intro x' y' hx' hy'
    have : (toV x').n = (toV y').n := by simp [toV, hx', hy', hx, hy]
    unfold vecDotRun
    rw [if_pos ⟨by rw [hx', hx]; rfl, by rw [hy', hy]; rfl⟩]
    unfold vecDot
    rw [if_pos this]
    exact ⟨rfl, rfl⟩
  refine ⟨fun y' => ofV (vecDotDiff (toV x) (toV y') (g.at_ [])).1, fun x' => ofV (vecDotDiff (toV x') (toV y) (g.at_ [])).2, rfl,
    fun x' y' hx' hy' => ⟨⟨?_, fun d hd => ?_⟩, ⟨?_, fun d hd => ?_⟩⟩⟩
  · rw [hx', hx]; simp [ofV, vecDotDiff, V.scale, toV, hy', hy]
  · refine ⟨fun τ => scalarT ((vecDot (toV (moveT x' d τ)) (toV y')).getD 0), Eventually.of_forall fun τ =>
      ⟨(hok (moveT x' d τ) y' hx' hy').2, hg.symm⟩, ?_⟩
    have := (vecDot_adjoint (toV x') (toV y') (toV d) ⟨n, fun _ => 0⟩ _ (g.at_ []) (hok x' y' hx' hy').1).2.2
    simp only [V.move_zero, V.dot_zero, add_zero] at this
    simp only [pair_scalar hg]
    rw [pair_dotV (n := (vecDotDiff (toV x) (toV y') (g.at_ [])).1.n) rfl, toV_ofV]
    exact this
  · rw [hy', hy]; simp [ofV, vecDotDiff, V.scale, toV, hx', hx]
  · refine ⟨fun τ => scalarT ((vecDot (toV x') (toV (moveT y' d τ))).getD 0), Eventually.of_forall fun τ =>
      ⟨(hok x' (moveT y' d τ) hx' hy').2, hg.symm⟩, ?_⟩
    have := (vecDot_adjoint (toV x') (toV y') ⟨n, fun _ => 0⟩ (toV d) _ (g.at_ []) (hok x' y' hx' hy').1).2.2
    simp only [V.move_zero, V.dot_zero, zero_add] at this
    simp only [pair_scalar hg]
    rw [pair_dotV (n := (vecDotDiff (toV x') (toV y) (g.at_ [])).2.n) rfl, toV_ofV]
    exact this

/-! ### Concatenation -/

/-- `concatOp` (op_tensor.go 955-1128) with `n` operands. -/
def concatTOp (n ax : Nat) : TOp where
  run := concat ax
  diffs := List.replicate n true
  symDiff := fun xs _ g => Res.opt (concatDiff ax g (xs.map (·.shape)) 0)

theorem concat_same_shapes (ax : Nat) (ps qs : List (T ℝ)) (r : T ℝ) (h : concat ax ps = .ok r)
    (hs : qs.map (·.shape) = ps.map (·.shape)) : ∃ w, concat ax qs = .ok w ∧ w.shape = r.shape := by
  cases ps with
  | nil => cases h
  | cons p ps =>
    cases qs with
    | nil => simp at hs
    | cons q qs =>
      simp only [List.map_cons, List.cons.injEq] at hs
      obtain ⟨h1, h2⟩ := hs
      have hany : (qs.any fun x => x.shape.length != q.shape.length) = ps.any fun x => x.shape.length != p.shape.length := by
        have e : ∀ (l : List (T ℝ)) (c : List Nat), (l.any fun x => x.shape.length != c.length) = (l.map (·.shape)).any fun s => s.length != c.length := by
          intro l c; rw [List.any_map]; rfl
        rw [e, e, h1, h2]
      have hall : (qs.all fun x => fits ax q.shape x.shape) = ps.all fun x => fits ax p.shape x.shape := by
        have e : ∀ (l : List (T ℝ)) (c : List Nat), (l.all fun x => fits ax c x.shape) = (l.map (·.shape)).all fun s => fits ax c s := by
          intro l c; rw [List.all_map]; rfl
        rw [e, e, h1, h2]
      have hsum : ((q :: qs).map fun x => x.shape.getD ax 0) = (p :: ps).map fun x => x.shape.getD ax 0 := by
        have e : ∀ l : List (T ℝ), (l.map fun x => x.shape.getD ax 0) = (l.map (·.shape)).map fun s => s.getD ax 0 := by
          intro l; rw [List.map_map]; rfl
        rw [e, e]
        simp only [List.map_cons, h1, h2]
      unfold concat at h ⊢
      simp only at h ⊢
      rw [hany, hall, h1, hsum]
      split at h
      · cases h
      · rename_i c1
        rw [if_neg c1]
        split at h
        · cases h
        · rename_i c2
          rw [if_neg c2]
          split at h
          · cases h
          · rename_i c3
            rw [if_neg c3]
            split at h
            · rename_i c4
              rw [if_pos c4]
              cases h
              exact ⟨_, rfl, rfl⟩
            · cases h

theorem concatTOp_good (ax : Nat) (xs : List (T ℝ)) (y : T ℝ) (h : concat ax xs = .ok y) (hpos : ∀ p ∈ xs, 0 < p.shape.getD ax 0) :
    (concatTOp xs.length ax).Good xs y := by
  refine ⟨h, by simp [concatTOp], fun _ g hg => ?_, fun γs vs t₀ hx hM => ?_⟩
  · obtain ⟨gs, g1, g2, _⟩ := concat_grad ax xs y g h hpos hg
    have hl : gs.length = xs.length := by simpa using congrArg List.length g2
    refine ⟨gs, by simp [concatTOp, g1, Res.opt], hl, fun k r x _ k2 k3 => ?_⟩
    have e := congrArg (·[k]?) g2
    simp only [List.getElem?_map, k2, k3, Option.map_some, Option.some.injEq] at e
    exact e
  · have hshapes : ∀ᶠ t in 𝓝 t₀, (γs.map (· t)).map (·.shape) = xs.map (·.shape) := by
      rw [← hx]
      clear hx
      induction hM with
      | nil => exact Eventually.of_forall fun _ => rfl
      | cons h1 _ ih =>
        filter_upwards [h1.shape, ih] with t k1 k2
        simp only [List.map_cons, k1, k2]
    refine ⟨fun t => theT (concat ax (γs.map (· t))), ?_, fun g hg => ?_⟩
    · filter_upwards [hshapes] with t ht
      obtain ⟨w, w1, w2⟩ := concat_same_shapes ax xs _ y h ht
      show concat ax _ = _ ∧ _
      rw [w1]
      exact ⟨rfl, w2⟩
    · obtain ⟨gs, g1, g2, g3, g4⟩ := concat_grad ax xs y g h hpos hg
      have hgr : (concatTOp xs.length ax).grads xs y g = gs := by simp [TOp.grads, concatTOp, g1, Res.opt]
      rw [hgr]
      have hev : (fun t => pair g (theT (concat ax (γs.map (· t))))) =ᶠ[𝓝 t₀] fun t => ((gs.zip (γs.map (· t))).map fun e => pair e.1 e.2).sum := by
        filter_upwards [hshapes] with t ht
        obtain ⟨w, w1, _⟩ := concat_same_shapes ax xs _ y h ht
        have := g4 _ w ht w1
        rw [w1]
        exact this
      refine HasDerivAt.congr_of_eventuallyEq ?_ hev
      have hsh : gs.map (·.shape) = (γs.map (· t₀)).map (·.shape) := by rw [hx]; exact g2
      have hln : xs.length = γs.length := by rw [← hx]; simp
      show HasDerivAt _ (dsum (List.replicate xs.length true) gs vs) t₀
      rw [hln]
      clear hev g4 g3 g1 hgr g2 hshapes hx hln
      induction hM generalizing gs with
      | nil =>
        simp only [List.map_nil, List.zip_nil_right, List.sum_nil, List.length_nil, List.replicate_zero, dsum]
        exact hasDerivAt_const _ _
      | cons h1 _ ih =>
        cases gs with
        | nil => simp at hsh
        | cons r gs =>
          simp only [List.map_cons, List.cons.injEq] at hsh
          simp only [List.map_cons, List.zip_cons_cons, List.sum_cons, List.length_cons, List.replicate_succ, dsum, if_true]
          exact (h1.pair (hsh.1.trans h1.vshape.symm)).add (ih gs hsh.2)

/-! ### Softmax -/

/-- `softmaxOp` (op_softmax.go). -/
def softTOp (isLog : Bool) (axis : Int) : TOp := .one (softDo isLog axis) fun _ y g => some (softDiff isLog axis y g)

theorem Moves.lineSum_exp {γ : ℝ → T ℝ} {v : T ℝ} {t₀ : ℝ} (h : Moves γ v t₀) (ax : Nat) {i : List Nat} (hi : InB (γ t₀).shape i) :
    HasDerivAt (fun t => lineSum (γ t).shape ax (fun j => Real.exp ((γ t).at_ j)) i)
      (lineSum (γ t₀).shape ax (fun j => Real.exp ((γ t₀).at_ j) * v.at_ j) i) t₀ := by
  have : HasDerivAt (fun t => lineSum (γ t₀).shape ax (fun j => Real.exp ((γ t).at_ j)) i)
      (lineSum (γ t₀).shape ax (fun j => Real.exp ((γ t₀).at_ j) * v.at_ j) i) t₀ := by
    unfold lineSum
    refine HasDerivAt.fun_sum fun k hk => ?_
    exact (h.der _ (inB_set_line hi ax k (Finset.mem_range.1 hk))).exp
  refine this.congr_of_eventuallyEq ?_
  filter_upwards [h.shape] with t ht
  rw [ht]

/-- Softmax can be differentiated, except along axis -1 of a column vector (`softmax_column_wrong`). -/
theorem softTOp_good_partial (isLog : Bool) (axis : Int) (x : T ℝ) (hr : x.shape ≠ []) (h : axis ≠ -1 ∨ isColVec x.shape = false) :
    ∃ y, softDo isLog axis x = .ok y ∧ y.shape = x.shape ∧ (softTOp isLog axis).Good [x] y := by
  obtain ⟨y, y1, _⟩ := softmax_gradient_partial isLog axis x x hr rfl h
  have hax := resolve_lt (fwdAxis axis x.shape) x.shape.length (List.length_pos_iff.2 hr)
  obtain ⟨ax, eax⟩ : ∃ ax, ax = resolve (fwdAxis axis x.shape) x.shape.length := ⟨_, rfl⟩
  rw [← eax] at hax
  have hdo : ∀ t : T ℝ, t.shape = x.shape → softDo isLog axis t = .ok (if isLog then logSoftAxis ax t else softAxis ax t) := by
    intro t ht
    unfold softDo
    rw [if_neg (by rw [ht]; exact hr), ht, eax]
  have hsh : ∀ t : T ℝ, (if isLog then logSoftAxis ax t else softAxis ax t).shape = t.shape := by
    intro t; cases isLog <;> rfl
  have hys : y.shape = x.shape := by
    have := (hdo x rfl).symm.trans y1
    cases this
    exact hsh x
  refine ⟨y, y1, hys, good_one _ _ x y y1 (fun g hg => ⟨_, rfl, ?_⟩)
    (fun v j => if isLog then v.at_ j - lineSum x.shape ax (fun j => Real.exp (x.at_ j) * v.at_ j) j / lineSum x.shape ax (fun j => Real.exp (x.at_ j)) j
      else (Real.exp (x.at_ j) * v.at_ j * lineSum x.shape ax (fun j => Real.exp (x.at_ j)) j -
        Real.exp (x.at_ j) * lineSum x.shape ax (fun j => Real.exp (x.at_ j) * v.at_ j) j) / lineSum x.shape ax (fun j => Real.exp (x.at_ j)) j ^ 2)
    fun γ v t₀ hx hM => ?_⟩
  · obtain ⟨y', y1', hgr⟩ := softmax_gradient_partial isLog axis x g hr (hg.trans hys) h
    rw [y1] at y1'
    cases y1'
    exact hgr
  · subst hx
    refine ⟨fun t => if isLog then logSoftAxis ax (γ t) else softAxis ax (γ t), ?_, fun j hj => ?_⟩
    · filter_upwards [hM.shape] with t ht
      exact ⟨hdo _ ht, (hsh _).trans (ht.trans hys.symm)⟩
    · rw [hys] at hj
      have hp := lineSum_exp_pos hj ax hax (γ t₀).at_
      cases isLog with
      | true => exact (hM.der j hj).sub ((hM.lineSum_exp ax hj).log hp.ne')
      | false => exact (hM.der j hj).exp.div (hM.lineSum_exp ax hj) hp.ne'

/-! ### Maxima -/

/-- `maxOp` (op_reduction.go 30-180). -/
def maxTOp (along : List Nat) : TOp :=
  .one (fun x => maxNode x along) fun x y g => Res.opt (maxDiff (axesOf x.shape.length along) x y g)

/-- Maxima can be differentiated where every maximum is attained once (the gradient is wrong at ties) and the axes fit into a byte pattern. -/
theorem maxTOp_good_partial (along : List Nat) (x : T ℝ) (hr : x.shape ≠ []) (h : ∀ a ∈ along, a < x.shape.length)
    (h4 : ∀ a ∈ axesOf x.shape.length along, a < 4) (hp : ∀ d ∈ x.shape, d ≠ 0)
    (hu : ∀ m i, InB x.shape m → InB x.shape i →
      dropAxes (axesOf x.shape.length along) 0 i = dropAxes (axesOf x.shape.length along) 0 m →
      (∀ k, InB x.shape k → dropAxes (axesOf x.shape.length along) 0 k = dropAxes (axesOf x.shape.length along) 0 m →
        x.at_ k ≤ x.at_ m) → x.at_ i = x.at_ m → i = m) :
    ∃ y, maxNode x along = .ok y ∧ y.shape = dropAxes (axesOf x.shape.length along) 0 x.shape ∧ (maxTOp along).Good [x] y := by
  obtain ⟨y, y1, y2, _, y3⟩ := max_value x along hr h hp
  have hm : ∀ j, ∃ m, InB y.shape j → InB x.shape m ∧ dropAxes (axesOf x.shape.length along) 0 m = j ∧ x.at_ m = y.at_ j := by
    intro j
    by_cases hj : InB y.shape j
    · obtain ⟨⟨m, m1, m2, m3⟩, _⟩ := y3 j hj
      exact ⟨m, fun _ => ⟨m1, m2, m3⟩⟩
    · exact ⟨[], fun hh => absurd hh hj⟩
  choose M hM using hm
  refine ⟨y, y1, y2, good_one (fun x => maxNode x along) _ x y y1 (fun g hg => ?_) (fun v j => v.at_ (M j)) fun γ v t₀ hx hMv => ?_⟩
  · obtain ⟨out, r, o1, o2, o3⟩ := max_gradient_partial x g along hr h h4 hp (hg.trans y2) hu
    rw [y1] at o1
    cases o1
    exact ⟨r, by rw [o2]; rfl, o3⟩
  · subst hx
    have hval : ∀ᶠ t in 𝓝 t₀, ∃ z, maxNode (γ t) along = .ok z ∧ z.shape = y.shape ∧ ∀ j, InB y.shape j →
        IsGreatest {v | ∃ i, InB (γ t₀).shape i ∧ dropAxes (axesOf (γ t₀).shape.length along) 0 i = j ∧ (γ t).at_ i = v} (z.at_ j) := by
      filter_upwards [hMv.shape] with t ht
      obtain ⟨z, z1, z2, _, z3⟩ := max_value (γ t) along (by rw [ht]; exact hr) (by rw [ht]; exact h) (by rw [ht]; exact hp)
      rw [ht] at z2 z3
      exact ⟨z, z1, z2.trans y2.symm, fun j hj => z3 j (by rw [z2, ← y2]; exact hj)⟩
    refine ⟨fun t => theT (maxNode (γ t) along), ?_, fun j hj => ?_⟩
    · filter_upwards [hval] with t ⟨z, z1, z2, _⟩
      rw [z1]
      exact ⟨rfl, z2⟩
    · obtain ⟨m1, m2, m3⟩ := hM j hj
      refine (hMv.der (M j) m1).congr_of_eventuallyEq ?_
      have hle : ∀ k, InB (γ t₀).shape k → dropAxes (axesOf (γ t₀).shape.length along) 0 k = j → (γ t₀).at_ k ≤ (γ t₀).at_ (M j) := by
        intro k hk hkd
        rw [m3]
        exact (y3 j hj).2 ⟨k, hk, hkd, rfl⟩
      have hev : ∀ᶠ t in 𝓝 t₀, ∀ k ∈ List.range (size (γ t₀).shape),
          dropAxes (axesOf (γ t₀).shape.length along) 0 (unravel (γ t₀).shape k) = j → (γ t).at_ (unravel (γ t₀).shape k) ≤ (γ t).at_ (M j) := by
        refine eventually_list _ _ t₀ fun k hk => ?_
        have hb := inB_unravel (List.mem_range.1 hk)
        by_cases hk2 : dropAxes (axesOf (γ t₀).shape.length along) 0 (unravel (γ t₀).shape k) = j
        · by_cases hk3 : unravel (γ t₀).shape k = M j
          · rw [hk3]
            exact Eventually.of_forall fun _ _ => le_rfl
          · have hlt : (γ t₀).at_ (unravel (γ t₀).shape k) < (γ t₀).at_ (M j) := by
              refine lt_of_le_of_ne (hle _ hb hk2) fun e => hk3 ?_
              exact hu (M j) _ m1 hb (by rw [m2, hk2]) (fun q q1 q2 => hle q q1 (by rw [q2, m2])) e
            have hc := ((hMv.der _ hb).continuousAt.eventually_lt (hMv.der _ m1).continuousAt hlt)
            filter_upwards [hc] with t ht _ using ht.le
        · exact Eventually.of_forall fun _ e => absurd e hk2
      filter_upwards [hval, hev] with t ⟨z, z1, z2, z3⟩ ht
      rw [z1]
      refine (z3 j hj).unique ⟨⟨M j, m1, m2, rfl⟩, ?_⟩
      rintro w ⟨i, i1, i2, rfl⟩
      have := ht (ravel (γ t₀).shape i) (List.mem_range.2 (ravel_lt i1))
      rw [unravel_ravel i1] at this
      exact this i2

end

end Verif.AD
