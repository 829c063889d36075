import Verif.AD.TensorLemmas
import Verif.AD.Local
import Verif.AD.Grad
import Verif.Shape.Gather
import Verif.Shape.ByIndices
import Verif.Shape.Tensordot
import Verif.LinAlg.Theorems
import Verif.NN.Upsample
/-!
The operations of the library as operations of `Verif.AD.TensorGrad`, and where they satisfy the condition of `gradT_correct`.
-/
set_option autoImplicit false
namespace Verif.AD
open Verif.Tensor Verif.Shape Verif.NN Filter
open scoped Topology

noncomputable section

/-- A gradient exists only where the operation can be run. -/
theorem isGrad_ok {F : T ℝ → Res (T ℝ)} {t g r : T ℝ} (h : IsGrad F t g r) : ∃ y, F t = .ok y ∧ y.shape = g.shape := by
  obtain ⟨y, h1, _⟩ := h.2 (zeroT t.shape) rfl
  obtain ⟨h2, h3⟩ := h1.self_of_nhds
  rw [moveT_zero] at h2
  exact ⟨_, h2, h3⟩

theorem good_affine' (F : T ℝ → Res (T ℝ)) (sd : T ℝ → T ℝ → T ℝ → Option (T ℝ)) (s' : List Nat) (x : T ℝ)
    (hgr : ∀ y g : T ℝ, g.shape = s' → ∃ r, sd x y g = some r ∧ ∀ t : T ℝ, t.shape = x.shape → IsGrad F t g r) :
    ∃ y, F x = .ok y ∧ y.shape = s' ∧ (TOp.one F sd).Good [x] y := by
  obtain ⟨_, _, h0⟩ := hgr x (zeroT s') rfl
  obtain ⟨y, y1, y2⟩ := isGrad_ok (h0 x rfl)
  exact ⟨y, y1, y2, good_affine F sd s' x y y1 (fun t ht => isGrad_ok (h0 t ht)) fun g hg => hgr y g hg⟩

theorem good_biaffine' (F : T ℝ → T ℝ → Res (T ℝ)) (sd : T ℝ → T ℝ → T ℝ → T ℝ → Option (T ℝ × T ℝ)) (s' : List Nat) (a b : T ℝ)
    (hgr : ∀ y g : T ℝ, g.shape = s' → ∃ ra rb : T ℝ → T ℝ, sd a b y g = some (ra b, rb a) ∧
      ∀ a' b' : T ℝ, a'.shape = a.shape → b'.shape = b.shape →
        IsGrad (fun a => F a b') a' g (ra b') ∧ IsGrad (fun b => F a' b) b' g (rb a')) :
    ∃ y, F a b = .ok y ∧ y.shape = s' ∧ (TOp.two F sd).Good [a, b] y := by
  obtain ⟨_, _, _, h0⟩ := hgr a (zeroT s') rfl
  obtain ⟨y, y1, y2⟩ := isGrad_ok (h0 a b rfl rfl).1
  exact ⟨y, y1, y2, good_biaffine F sd s' a b y y1 (fun a' b' ha hb => isGrad_ok (h0 a' b' ha hb).1) fun g hg => hgr y g hg⟩

/-! ### Sums, slices, shapes -/

/-- `sumOp` (op_reduction.go). -/
def sumTOp (along : List Nat) : TOp :=
  .one (fun x => sumNode x along) fun x _ g => Res.opt (sumDiff (axesOf x.shape.length along) x.shape g)

theorem sumTOp_good (along : List Nat) (x : T ℝ) (hr : x.shape ≠ []) (h : ∀ a ∈ along, a < x.shape.length) (hn : along.Nodup)
    (hp : ∀ d ∈ x.shape, d ≠ 0) :
    ∃ y, sumNode x along = .ok y ∧ y.shape = dropAxes (axesOf x.shape.length along) 0 x.shape ∧ (sumTOp along).Good [x] y := by
  refine good_affine' (fun x => sumNode x along) _ _ x fun y g hg => ?_
  obtain ⟨r, r1, _⟩ := sum_gradient x g along hr h hn hp hg
  refine ⟨r, by rw [r1]; rfl, fun t ht => ?_⟩
  obtain ⟨r', p1, p2⟩ := sum_gradient t g along (by rw [ht]; exact hr) (by rw [ht]; exact h) hn (by rw [ht]; exact hp) (by rw [ht]; exact hg)
  rw [ht, r1] at p1
  cases p1
  exact p2

/-- `sliceOp` (op_tensor.go 475-601). -/
def sliceTOp (ax s e : Nat) : TOp := .one (sliceT ax s e) fun x _ g => some (sliceIncr ax s e x g)

theorem sliceTOp_good (ax s e : Nat) (x : T ℝ) (ha : ax < x.shape.length) (hse : s < e) (he : e ≤ x.shape.getD ax 0) :
    ∃ y, sliceT ax s e x = .ok y ∧ y.shape = (if e - s = 1 then x.shape.eraseIdx ax else x.shape.set ax (e - s)) ∧
      (sliceTOp ax s e).Good [x] y := by
  refine good_affine' _ _ _ x fun y g hg => ⟨_, rfl, fun t ht => ?_⟩
  have := slice_grad ax s e t g (by rw [ht]; exact ha) hse (by rw [ht]; exact he) (by rw [ht]; exact hg)
  unfold sliceIncr at this ⊢
  rwa [ht] at this

/-- `reshapeOp` (op_tensor.go 1130-1273). -/
def reshapeTOp (s : List Nat) : TOp := .one (fun x => reshape x (s.map Int.ofNat)) fun x _ g => Res.opt (reshapeDiff x.shape g)

theorem reshapeTOp_good (s : List Nat) (x : T ℝ) (hs : size s = size x.shape) :
    ∃ y, reshape x (s.map Int.ofNat) = .ok y ∧ y.shape = s ∧ (reshapeTOp s).Good [x] y := by
  refine good_affine' (fun x => reshape x (s.map Int.ofNat)) _ _ x fun y g hg => ?_
  obtain ⟨r, r1, _⟩ := reshape_grad x g s hs hg
  refine ⟨r, by rw [r1]; rfl, fun t ht => ?_⟩
  obtain ⟨r', p1, p2⟩ := reshape_grad t g s (by rw [ht]; exact hs) hg
  rw [ht, r1] at p1
  cases p1
  exact p2

/-- `transposeOp` (op_tensor.go 842-954). -/
def transposeTOp (p : List Nat) : TOp := .one (fun x => .ok (transposeT p x)) fun _ _ g => some (transposeDiff p g)

theorem transposeTOp_good (p : List Nat) (hp : IsPerm p) (x : T ℝ) (hs : x.shape.length = p.length) :
    (transposeTOp p).Good [x] (transposeT p x) := by
  obtain ⟨y, h1, _, h3⟩ := good_affine' (fun x => .ok (transposeT p x)) (fun _ _ g => some (transposeDiff p g)) (permute p x.shape) x
    fun y g hg => ⟨_, rfl, fun t ht => by
      have hsh := (transpose_adjoint hp t t g (by rw [ht]; exact hs) (hg.trans (by rw [← ht]; rfl)) rfl).1
      refine ⟨hsh, fun d hd => ⟨fun τ => transposeT p (moveT t d τ), Eventually.of_forall fun τ => ⟨rfl, ?_⟩, ?_⟩⟩
      · rw [hg, ← ht]; rfl
      · have e : (fun τ => pair g (transposeT p (moveT t d τ))) = fun τ => pair (transposeDiff p g) (moveT t d τ) := by
          funext τ
          exact (transpose_adjoint hp t (moveT t d τ) g (by rw [ht]; exact hs) (hg.trans (by rw [← ht]; rfl)) rfl).2
        rw [e]
        exact (Moves.line t d hd).pair (hsh.trans hd.symm)⟩
  cases h1
  exact h3

/-- One half of `Broadcast` (broadcast.go 80-127), taken as one operation: the reshape and the repetitions it builds. -/
def broadcastTOp (axes : List Nat) (ydims : Nat) (yshape : List Nat) : TOp :=
  .one (fun x => broadcastHalf axes x ydims yshape) fun x _ g => Res.opt (broadcastDiff axes x.shape g)

theorem broadcastTOp_good (axes t yshape : List Nat) (x : T ℝ) (hs : axes.Pairwise (· < ·)) (hlt : ∀ a ∈ axes, a < t.length)
    (hp : ∀ d ∈ t, d ≠ 0) (hy : ∀ a ∈ axes, yshape[a]? = t[a]?) (hx : HasUnit x.shape axes t ∨ Lacks x.shape axes t) :
    ∃ y, broadcastHalf axes x t.length yshape = .ok y ∧ y.shape = t ∧ (broadcastTOp axes t.length yshape).Good [x] y := by
  refine good_affine' (fun x => broadcastHalf axes x t.length yshape) _ _ x fun y g hg => ?_
  obtain ⟨r, r1, _⟩ := broadcast_grad axes t yshape x g hs hlt hp hy hx hg
  refine ⟨r, by rw [r1]; rfl, fun x' hx' => ?_⟩
  obtain ⟨r', p1, p2⟩ := broadcast_grad axes t yshape x' g hs hlt hp hy (by rw [hx']; exact hx) hg
  rw [hx', r1] at p1
  cases p1
  exact p2

/-- `byIndicesOp` (op_by_indices.go), the indices fixed. -/
def byIndicesTOp (axis : Nat) (idx : List Int) : TOp :=
  .one (fun x => byIndicesDo axis x idx) fun x _ g => Res.opt ((byIndicesSymDiff axis x idx g).bind fun r => .ok r.1)

theorem byIndicesTOp_good (axis : Nat) (idx : List Int) (x : T ℝ) (ha : axis < x.shape.length)
    (hi : ∀ k ∈ idx, 0 ≤ k ∧ k < x.shape.getD axis 0) :
    ∃ y, byIndicesDo axis x idx = .ok y ∧ y.shape = x.shape.set axis idx.length ∧ (byIndicesTOp axis idx).Good [x] y := by
  refine good_affine' _ _ _ x fun y g hg => ?_
  refine ⟨scatterAdd axis idx x g, rfl, fun t ht => ?_⟩
  obtain ⟨r', p1, p2⟩ := byIndices_grad axis t g idx (by rw [ht]; exact ha) (by rw [ht]; exact hi) (by rw [ht]; exact hg)
  have e : byIndicesSymDiff axis t idx g = .ok (scatterAdd axis idx t g, none) := rfl
  rw [e] at p1
  cases p1
  unfold scatterAdd at p2 ⊢
  rwa [ht] at p2

/-- `upsampleOp` (op_upsample.go). -/
def upsampleTOp (s : Nat) : TOp := .one (fun x => upsample2D x (s : Int)) fun x _ g => Res.opt (upsampleDiffDo (s - 1) x g)

theorem upsampleTOp_good (s : Nat) (hs : 0 < s) (x : T ℝ) (b c h w : Nat) (hx : x.shape = [b, c, h, w]) :
    ∃ y, upsample2D x (s : Int) = .ok y ∧ y.shape = [b, c, h * s, w * s] ∧ (upsampleTOp s).Good [x] y := by
  refine good_affine' (fun x => upsample2D x (s : Int)) _ _ x fun y g hg => ?_
  obtain ⟨r, r1, _⟩ := upsample_grad x g b c h w s hx hs hg
  refine ⟨r, by rw [r1]; rfl, fun t ht => ?_⟩
  obtain ⟨r', p1, p2⟩ := upsample_grad t g b c h w s (by rw [ht]; exact hx) hs hg
  have e : upsampleDiffDo (s - 1) t g = upsampleDiffDo (s - 1) x g := by unfold upsampleDiffDo; rw [ht]
  rw [e, r1] at p1
  cases p1
  exact p2

/-! ### Contractions -/

/-- `tensordotOp` (op_math.go 806-1252). -/
def tensordotTOp (A B : List Nat) : TOp := .two (tensordot A B) fun a b _ g =>
  match dotDiff true A B a.shape b g, dotDiff false B A b.shape a g with
  | .ok ra, .ok rb => some (ra, rb)
  | _, _ => none

theorem tensordotTOp_good (A B : List Nat) (a b : T ℝ) (h : Contractible A B a.shape b.shape) (s' : List Nat)
    (hs : s' = dropAxes A 0 a.shape ++ dropAxes B 0 b.shape) (hgs : isScalarEquiv s' = false ∨ s' = [])
    (hA : DotCovered A a.shape s') (hB : DotCovered B b.shape s') :
    ∃ y, tensordot A B a b = .ok y ∧ y.shape = s' ∧ (tensordotTOp A B).Good [a, b] y := by
  refine good_biaffine' _ _ s' a b fun y g hg => ?_
  have h1 : ∀ b' : T ℝ, b'.shape = b.shape → ∀ a' : T ℝ, a'.shape = a.shape → dotDiff true A B a.shape b' g =
      .ok (theT (dotDiff true A B a.shape b' g)) ∧ IsGrad (fun x => tensordot A B x b') a' g (theT (dotDiff true A B a.shape b' g)) := by
    intro b' hb a' ha
    obtain ⟨r, r1, r2⟩ := tensordot_grad_fst_partial A B a' b' g (by rw [ha, hb]; exact h) (by rw [ha, hb, hg, hs])
      (by rw [hg]; exact hgs) (by rw [hb, hg]; exact hB)
    rw [ha] at r1
    rw [r1]
    exact ⟨rfl, r2⟩
  have h2 : ∀ a' : T ℝ, a'.shape = a.shape → ∀ b' : T ℝ, b'.shape = b.shape → dotDiff false B A b.shape a' g =
      .ok (theT (dotDiff false B A b.shape a' g)) ∧ IsGrad (fun y => tensordot A B a' y) b' g (theT (dotDiff false B A b.shape a' g)) := by
    intro a' ha b' hb
    obtain ⟨r, r1, r2⟩ := tensordot_grad_snd_partial A B a' b' g (by rw [ha, hb]; exact h) (by rw [ha, hb, hg, hs])
      (by rw [hg]; exact hgs) (by rw [ha, hg]; exact hA)
    rw [hb] at r1
    rw [r1]
    exact ⟨rfl, r2⟩
  refine ⟨fun b' => theT (dotDiff true A B a.shape b' g), fun a' => theT (dotDiff false B A b.shape a' g), ?_,
    fun a' b' ha hb => ⟨(h1 b' hb a' ha).2, (h2 a' ha b' hb).2⟩⟩
  rw [(h1 b rfl a rfl).1, (h2 a rfl b rfl).1]

/-! ### Matrix products -/

open Verif.LinAlg in
/-- A matrix as a tensor of rank 2, and back. -/
def ofM (m : M) : T ℝ := ⟨[m.r, m.c], fun i => m.f (i.getD 0 0) (i.getD 1 0)⟩

open Verif.LinAlg in
def toM (t : T ℝ) : M := ⟨t.shape.getD 0 0, t.shape.getD 1 0, fun i j => t.at_ [i, j]⟩

open Verif.LinAlg in
def ofV (v : V) : T ℝ := ⟨[v.n], fun i => v.f (i.getD 0 0)⟩

open Verif.LinAlg in
def toV (t : T ℝ) : V := ⟨t.shape.getD 0 0, fun i => t.at_ [i]⟩

open Verif.LinAlg in
/-- Building and running a product of two matrices: the type of `linAlgBinOp` asks for rank 2 (op_math.go 525-553). -/
def matMulRun (tA tB : Bool) (a b : T ℝ) : Res (T ℝ) :=
  if a.shape.length = 2 ∧ b.shape.length = 2 then
    match matMul tA tB (toM a) (toM b) with
    | some z => .ok (ofM z)
    | none => .err
  else .err

open Verif.LinAlg in
/-- `linAlgBinOp` with `matMulOperator` (op_math.go 507-795). -/
def matMulTOp (tA tB : Bool) : TOp := .two (matMulRun tA tB) fun a b _ g =>
  match matMulDiff tA tB (toM a) (toM b) (toM g) with
  | (some da, some db) => some (ofM da, ofM db)
  | _ => none

open Verif.LinAlg in
theorem pair_dot {g : T ℝ} {r c : Nat} (hg : g.shape = [r, c]) (z : T ℝ) : pair g z = (toM g).dot (toM z) := by
  rw [pair_eq, hg, sumOver_cons]
  simp only [M.dot, toM, hg, List.getD_cons_zero, List.getD_cons_succ]
  refine Finset.sum_congr rfl fun i _ => ?_
  rw [sumOver_cons]
  refine Finset.sum_congr rfl fun j _ => ?_
  simp [sumOver, size, unravel]

open Verif.LinAlg in
theorem pair_dotV {g : T ℝ} {n : Nat} (hg : g.shape = [n]) (z : T ℝ) : pair g z = (toV g).dot (toV z) := by
  rw [pair_eq, hg, sumOver_cons]
  simp only [V.dot, toV, hg, List.getD_cons_zero]
  refine Finset.sum_congr rfl fun i _ => ?_
  simp [sumOver, size, unravel]

open Verif.LinAlg in
theorem toM_ofM (m : M) : toM (ofM m) = m := rfl

open Verif.LinAlg in
theorem toV_ofV (m : V) : toV (ofV m) = m := rfl

open Verif.LinAlg in
theorem toM_moveT (t d : T ℝ) (τ : ℝ) : toM (moveT t d τ) = (toM t).move (toM d) τ := rfl

open Verif.LinAlg in
theorem toV_moveT (t d : T ℝ) (τ : ℝ) : toV (moveT t d τ) = (toV t).move (toV d) τ := rfl

open Verif.LinAlg in
theorem M.move_zero (a : M) (r c : Nat) (s : ℝ) : a.move ⟨r, c, fun _ _ => 0⟩ s = a := by simp [M.move]

open Verif.LinAlg in
theorem V.move_zero (a : V) (n : Nat) (s : ℝ) : a.move ⟨n, fun _ => 0⟩ s = a := by simp [V.move]

open Verif.LinAlg in
theorem M.dot_zero (a : M) (r c : Nat) : a.dot ⟨r, c, fun _ _ => 0⟩ = 0 := by simp [M.dot]

open Verif.LinAlg in
theorem V.dot_zero (a : V) (n : Nat) : a.dot ⟨n, fun _ => 0⟩ = 0 := by simp [V.dot]

open Verif.LinAlg in
/-- Matrix products can be differentiated whenever the sizes fit, for all flags. -/
theorem matMulTOp_good (tA tB : Bool) (a b : T ℝ) (ha : a.shape.length = 2) (hb : b.shape.length = 2)
    (h : ((toM a).flip tA).c = ((toM b).flip tB).r) :
    ∃ y, matMulRun tA tB a b = .ok y ∧ y.shape = [((toM a).flip tA).r, ((toM b).flip tB).c] ∧ (matMulTOp tA tB).Good [a, b] y := by
  obtain ⟨ar, ac, hab⟩ : ∃ r c, a.shape = [r, c] := by
    match a.shape, ha with
    | [r, c], _ => exact ⟨r, c, rfl⟩
  obtain ⟨br, bc, hbb⟩ : ∃ r c, b.shape = [r, c] := by
    match b.shape, hb with
    | [r, c], _ => exact ⟨r, c, rfl⟩
  have hsz : ∀ (t : Bool) (x x' : T ℝ), x'.shape = x.shape → ((toM x').flip t).r = ((toM x).flip t).r ∧ ((toM x').flip t).c = ((toM x).flip t).c := by
    intro t x x' e
    cases t <;> simp [M.flip, M.T, toM, e]
  have hok : ∀ a' b' : T ℝ, a'.shape = a.shape → b'.shape = b.shape → ∃ z, matMul tA tB (toM a') (toM b') = some z ∧
      z.r = ((toM a).flip tA).r ∧ z.c = ((toM b).flip tB).c := by
    intro a' b' ha' hb'
    have h1 := hsz tA a a' ha'
    have h2 := hsz tB b b' hb'
    exact ⟨_, matMul_eq tA tB _ _ (by rw [h1.2, h2.1]; exact h), h1.1, h2.2⟩
  refine good_biaffine' _ _ _ a b fun y g hg => ?_
  have key : ∀ a' b' : T ℝ, a'.shape = a.shape → b'.shape = b.shape → ∃ da db,
      matMulDiff tA tB (toM a') (toM b') (toM g) = (some da, some db) ∧
      IsGrad (fun a => matMulRun tA tB a b') a' g (ofM da) ∧ IsGrad (fun b => matMulRun tA tB a' b) b' g (ofM db) := by
    intro a' b' ha' hb'
    obtain ⟨z, z1, z2, z3⟩ := hok a' b' ha' hb'
    obtain ⟨da, db, e1, e2, l1, l2, hd⟩ := matMul_adjoint tA tB (toM a') (toM b') (toM g) z z1
      ⟨by simp [toM, hg, z2], by simp [toM, hg, z3]⟩
    have hrun : ∀ a'' b'' : T ℝ, a''.shape = a.shape → b''.shape = b.shape → ∃ y, matMulRun tA tB a'' b'' = .ok y ∧ y.shape = g.shape ∧
        pair g y = ((matMul tA tB (toM a'') (toM b'')).map (toM g).dot).getD 0 := by
      intro a'' b'' h1 h2
      obtain ⟨z', p1, p2, p3⟩ := hok a'' b'' h1 h2
      refine ⟨ofM z', ?_, ?_, ?_⟩
      · unfold matMulRun
        rw [if_pos ⟨by rw [h1]; exact ha, by rw [h2]; exact hb⟩, p1]
      · rw [hg]; simp [ofM, p2, p3]
      · rw [p1, pair_dot hg, toM_ofM]; rfl
    refine ⟨da, db, Prod.ext e1 e2, ⟨?_, fun d hds => ?_⟩, ⟨?_, fun d hds => ?_⟩⟩
    · rw [ha', hab]
      simp only [ofM, l1.1, l1.2, toM, ha', hab, List.getD_cons_zero, List.getD_cons_succ]
    · choose y y1 y2 y3 using fun τ : ℝ => hrun (moveT a' d τ) b' ha' hb'
      refine ⟨y, Eventually.of_forall fun τ => ⟨y1 τ, y2 τ⟩, ?_⟩
      have := hd (toM d) ⟨br, bc, fun _ _ => 0⟩ ⟨by simp [toM, hds], by simp [toM, hds]⟩ ⟨by simp [toM, hb', hbb], by simp [toM, hb', hbb]⟩
      simp only [M.move_zero, M.dot_zero, add_zero] at this
      rw [pair_dot (show (ofM da).shape = [da.r, da.c] from rfl), toM_ofM]
      exact this.congr_of_eventuallyEq (Eventually.of_forall fun τ => y3 τ)
    · rw [hb', hbb]
      simp only [ofM, l2.1, l2.2, toM, hb', hbb, List.getD_cons_zero, List.getD_cons_succ]
    · choose y y1 y2 y3 using fun τ : ℝ => hrun a' (moveT b' d τ) ha' hb'
      refine ⟨y, Eventually.of_forall fun τ => ⟨y1 τ, y2 τ⟩, ?_⟩
      have := hd ⟨ar, ac, fun _ _ => 0⟩ (toM d) ⟨by simp [toM, ha', hab], by simp [toM, ha', hab]⟩ ⟨by simp [toM, hds], by simp [toM, hds]⟩
      simp only [M.move_zero, M.dot_zero, zero_add] at this
      rw [pair_dot (show (ofM db).shape = [db.r, db.c] from rfl), toM_ofM]
      exact this.congr_of_eventuallyEq (Eventually.of_forall fun τ => y3 τ)
  have hsep : ∀ a₁ a₂ b₁ b₂ : T ℝ, a₁.shape = a.shape → a₂.shape = a.shape → b₁.shape = b.shape → b₂.shape = b.shape →
      (matMulDiff tA tB (toM a₁) (toM b₁) (toM g)).1 = (matMulDiff tA tB (toM a₂) (toM b₁) (toM g)).1 ∧
      (matMulDiff tA tB (toM a₁) (toM b₁) (toM g)).2 = (matMulDiff tA tB (toM a₁) (toM b₂) (toM g)).2 := by
    intro a₁ a₂ b₁ b₂ _ _ _ _
    cases tA <;> cases tB <;> exact ⟨rfl, rfl⟩
  refine ⟨fun b' => ofM ((matMulDiff tA tB (toM a) (toM b') (toM g)).1.getD ⟨0, 0, fun _ _ => 0⟩),
    fun a' => ofM ((matMulDiff tA tB (toM a') (toM b) (toM g)).2.getD ⟨0, 0, fun _ _ => 0⟩), ?_, fun a' b' ha' hb' => ?_⟩
  · obtain ⟨da, db, e, _⟩ := key a b rfl rfl
    simp only [e]
    rfl
  · obtain ⟨da, db, e, h1, h2⟩ := key a' b' ha' hb'
    have s1 := (hsep a a' b' b' rfl ha' hb' hb').1
    have s2 := (hsep a' a' b b' ha' ha' rfl hb').2
    simp only [s1, s2, e]
    exact ⟨h1, h2⟩

end

end Verif.AD
