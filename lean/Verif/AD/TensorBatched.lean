import Verif.AD.TensorOps
import Verif.Shape.Infer
/-!
Batched matrix products as nodes of `Verif.AD.TensorGrad`.
-/
set_option autoImplicit false
namespace Verif.AD
open Verif.Tensor Verif.Shape Verif.LinAlg Filter
open scoped Topology

noncomputable section

/-- The outer shape (operatorLinAlg.go 438): all axes but the last two. -/
def outerOf (s : List Nat) : List Nat := s.take (s.length - 2)

/-- The matrices in a tensor of two axes or more. -/
def toMs (t : T ℝ) : List Nat → M := fun p =>
  ⟨t.shape.getD (t.shape.length - 2) 0, t.shape.getD (t.shape.length - 1) 0, fun i j => t.at_ (p ++ [i, j])⟩

/-- The tensor of a family of matrices. -/
def ofMs (s : List Nat) (m : List Nat → M) : T ℝ :=
  ⟨s, fun i => (m (i.take (i.length - 2))).f (i.getD (i.length - 2) 0) (i.getD (i.length - 1) 0)⟩

/-- A batched matrix product: the shape is inferred when the node is made (op_math.go 597-618), the value is that of
`batchedMatMul` (operatorLinAlg.go 435-502) in a new tensor of zeros. -/
def batchRun (tA tB : Bool) (a b : T ℝ) : Res (T ℝ) :=
  (inferBatched tA tB a.shape b.shape).bind fun s =>
    match batchedMatMul (outerOf a.shape) tA tB false (toMs a) (toMs b) (fun _ => ⟨0, 0, fun _ _ => 0⟩) (size (outerOf a.shape)) with
    | some r => .ok (ofMs s r)
    | none => .err

/-- The nodes made by `batchedMatMulDiffExpr` (operatorLinAlg.go 293-344). -/
def batchDiff (tA tB : Bool) (x y g : T ℝ) : Res (T ℝ × T ℝ) :=
  match tA, tB with
  | true, true => (batchRun true true y g).bind fun dx => (batchRun true true g x).bind fun dy => .ok (dx, dy)
  | false, true => (batchRun false false g y).bind fun dx => (batchRun true false g x).bind fun dy => .ok (dx, dy)
  | true, false => (batchRun false true y g).bind fun dx => (batchRun false false x g).bind fun dy => .ok (dx, dy)
  | false, false => (batchRun false true g y).bind fun dx => (batchRun true false x g).bind fun dy => .ok (dx, dy)

/-- The batched matrix product as an operation. -/
def batchTOp (tA tB : Bool) : TOp := .two (batchRun tA tB) fun a b _ g => Res.opt (batchDiff tA tB a b g)

theorem toMs_ofMs {o : List Nat} (m : List Nat → M) (p : List Nat) (r c : Nat) (hr : (m p).r = r) (hc : (m p).c = c) :
    toMs (ofMs (o ++ [r, c]) m) p = m p := by
  have h : (toMs (ofMs (o ++ [r, c]) m) p).f = (m p).f := by
    funext i j
    simp [toMs, ofMs, List.getD_eq_getElem?_getD]
  have h1 : (toMs (ofMs (o ++ [r, c]) m) p).r = (m p).r := by simp [toMs, ofMs, hr, List.getD_eq_getElem?_getD]
  have h2 : (toMs (ofMs (o ++ [r, c]) m) p).c = (m p).c := by simp [toMs, ofMs, hc, List.getD_eq_getElem?_getD]
  cases hm : m p with
  | mk a b f =>
    rw [hm] at h h1 h2
    cases hm' : toMs (ofMs (o ++ [r, c]) m) p with
    | mk a' b' f' => rw [hm'] at h h1 h2; simp only at h h1 h2; rw [h, h1, h2]

/-- The size of the matrices after an optional transposition. -/
def sz (t : Bool) (r c : Nat) : Nat × Nat := if t then (c, r) else (r, c)

theorem toMs_flip {o : List Nat} {a : T ℝ} {r c : Nat} (h : a.shape = o ++ [r, c]) (t : Bool) (p : List Nat) :
    ((toMs a p).flip t).r = (sz t r c).1 ∧ ((toMs a p).flip t).c = (sz t r c).2 := by
  cases t <;> simp [toMs, M.flip, M.T, sz, h, List.getD_eq_getElem?_getD]

theorem batchRun_spec (tA tB : Bool) (o : List Nat) (a b : T ℝ) (r c r' c' : Nat) (ho : ∀ d ∈ o, 0 < d)
    (ha : a.shape = o ++ [r, c]) (hb : b.shape = o ++ [r', c']) (h : (sz tA r c).2 = (sz tB r' c').1) :
    ∃ z, batchRun tA tB a b = .ok z ∧ z.shape = o ++ [(sz tA r c).1, (sz tB r' c').2] ∧
      ∀ p, InB o p → matMul tA tB (toMs a p) (toMs b p) = some (toMs z p) := by
  have hout : outerOf a.shape = o := by simp [outerOf, ha]
  have hinf : inferBatched tA tB a.shape b.shape = .ok (o ++ [(sz tA r c).1, (sz tB r' c').2]) := by
    have := inferBatched_eq o tA tB ⟨r, c, fun _ _ => 0⟩ ⟨r', c', fun _ _ => 0⟩
    rw [ha, hb, this]
    cases tA <;> cases tB <;> rfl
  obtain ⟨m, m1, m2, _⟩ := batchedMatMul_spec o ho tA tB (toMs a) (toMs b) (fun _ => ⟨0, 0, fun _ _ => 0⟩) (size o) le_rfl
    (fun p _ => ⟨_, matMul_eq tA tB _ _ (by rw [(toMs_flip ha tA p).2, (toMs_flip hb tB p).1]; exact h)⟩)
  refine ⟨ofMs (o ++ [(sz tA r c).1, (sz tB r' c').2]) m, ?_, rfl, fun p hp => ?_⟩
  · unfold batchRun
    rw [hinf]
    simp only [Res.bind, hout, m1]
  · have e := m2 p hp
    have e' := e
    rw [matMul_eq tA tB _ _ (by rw [(toMs_flip ha tA p).2, (toMs_flip hb tB p).1]; exact h), Option.some.injEq] at e'
    rw [toMs_ofMs m p _ _ (by rw [← e']; exact (toMs_flip ha tA p).1) (by rw [← e']; exact (toMs_flip hb tB p).2)]
    exact e

/-- The elements of a batched matrix product: the textbook sums at every position of the outer shape. -/
theorem batchRun_at (tA tB : Bool) (o : List Nat) (a b z : T ℝ) (r c r' c' : Nat) (ho : ∀ d ∈ o, 0 < d)
    (ha : a.shape = o ++ [r, c]) (hb : b.shape = o ++ [r', c']) (h : (sz tA r c).2 = (sz tB r' c').1)
    (hz : batchRun tA tB a b = .ok z) (p : List Nat) (hp : InB o p) (i j : Nat) :
    z.at_ (p ++ [i, j]) = ∑ k ∈ Finset.range (sz tA r c).2,
      a.at_ (p ++ if tA then [k, i] else [i, k]) * b.at_ (p ++ if tB then [j, k] else [k, j]) := by
  obtain ⟨z', e1, e2, e3⟩ := batchRun_spec tA tB o a b r c r' c' ho ha hb h
  rw [hz] at e1
  cases e1
  have := e3 p hp
  rw [matMul_eq tA tB _ _ (by rw [(toMs_flip ha tA p).2, (toMs_flip hb tB p).1]; exact h), Option.some.injEq] at this
  have := congrArg (fun m : M => m.f i j) this
  simp only [(toMs_flip ha tA p).2] at this
  show (toMs z p).f i j = _
  rw [← this]
  refine Finset.sum_congr rfl fun k _ => ?_
  cases tA <;> cases tB <;> rfl

theorem batchDiff_spec (tA tB : Bool) (o : List Nat) (a b g : T ℝ) (r c r' c' : Nat) (ho : ∀ d ∈ o, 0 < d)
    (ha : a.shape = o ++ [r, c]) (hb : b.shape = o ++ [r', c']) (h : (sz tA r c).2 = (sz tB r' c').1)
    (hg : g.shape = o ++ [(sz tA r c).1, (sz tB r' c').2]) :
    ∃ da db, batchDiff tA tB a b g = .ok (da, db) ∧ da.shape = a.shape ∧ db.shape = b.shape ∧
      ∀ p, InB o p → matMulDiff tA tB (toMs a p) (toMs b p) (toMs g p) = (some (toMs da p), some (toMs db p)) := by
  have fin : ∀ (t1 t2 t3 t4 : Bool) (u v u' v' : T ℝ) (da db : T ℝ),
      (batchDiff tA tB a b g = (batchRun t1 t2 u v).bind fun dx => (batchRun t3 t4 u' v').bind fun dy => .ok (dx, dy)) →
      (∀ p, matMulDiff tA tB (toMs a p) (toMs b p) (toMs g p) =
        (matMul t1 t2 (toMs u p) (toMs v p), matMul t3 t4 (toMs u' p) (toMs v' p))) →
      batchRun t1 t2 u v = .ok da → batchRun t3 t4 u' v' = .ok db → da.shape = a.shape → db.shape = b.shape →
      (∀ p, InB o p → matMul t1 t2 (toMs u p) (toMs v p) = some (toMs da p)) →
      (∀ p, InB o p → matMul t3 t4 (toMs u' p) (toMs v' p) = some (toMs db p)) →
      ∃ da db, batchDiff tA tB a b g = .ok (da, db) ∧ da.shape = a.shape ∧ db.shape = b.shape ∧
      ∀ p, InB o p → matMulDiff tA tB (toMs a p) (toMs b p) (toMs g p) = (some (toMs da p), some (toMs db p)) := by
    intro t1 t2 t3 t4 u v u' v' da db e1 e2 r1 r2 s1 s2 m1 m2
    refine ⟨da, db, by rw [e1, r1, r2]; rfl, s1, s2, fun p hp => ?_⟩
    rw [e2, m1 p hp, m2 p hp]
  cases tA <;> cases tB <;> simp only [sz, if_true, Bool.false_eq_true, if_false] at h hg
  · obtain ⟨x, x1, x2, x3⟩ := batchRun_spec false true o g b _ _ _ _ ho hg hb (by simp [sz])
    obtain ⟨y, y1, y2, y3⟩ := batchRun_spec true false o a g _ _ _ _ ho ha hg (by simp [sz])
    exact fin _ _ _ _ _ _ _ _ x y rfl (fun _ => rfl) x1 y1 (by rw [x2, ha]; simp [sz, h]) (by rw [y2, hb]; simp [sz, h]) x3 y3
  · obtain ⟨x, x1, x2, x3⟩ := batchRun_spec false false o g b _ _ _ _ ho hg hb (by simp [sz])
    obtain ⟨y, y1, y2, y3⟩ := batchRun_spec true false o g a _ _ _ _ ho hg ha (by simp [sz])
    exact fin _ _ _ _ _ _ _ _ x y rfl (fun _ => rfl) x1 y1 (by rw [x2, ha]; simp [sz, h]) (by rw [y2, hb]; simp [sz, h]) x3 y3
  · obtain ⟨x, x1, x2, x3⟩ := batchRun_spec false true o b g _ _ _ _ ho hb hg (by simp [sz])
    obtain ⟨y, y1, y2, y3⟩ := batchRun_spec false false o a g _ _ _ _ ho ha hg (by simp [sz])
    exact fin _ _ _ _ _ _ _ _ x y rfl (fun _ => rfl) x1 y1 (by rw [x2, ha]; simp [sz, h]) (by rw [y2, hb]; simp [sz, h]) x3 y3
  · obtain ⟨x, x1, x2, x3⟩ := batchRun_spec true true o b g _ _ _ _ ho hb hg (by simp [sz])
    obtain ⟨y, y1, y2, y3⟩ := batchRun_spec true true o g a _ _ _ _ ho hg ha (by simp [sz])
    exact fin _ _ _ _ _ _ _ _ x y rfl (fun _ => rfl) x1 y1 (by rw [x2, ha]; simp [sz, h]) (by rw [y2, hb]; simp [sz, h]) x3 y3

theorem sumOver_append (o s : List Nat) (F : List Nat → ℝ) :
    sumOver (o ++ s) F = sumOver o fun p => sumOver s fun i => F (p ++ i) := by
  induction o generalizing F with
  | nil => simp [sumOver, size, unravel]
  | cons d o ih =>
    rw [List.cons_append, sumOver_cons, sumOver_cons]
    refine Finset.sum_congr rfl fun k _ => ?_
    rw [ih]; rfl

theorem sumOver_mat (r c : Nat) (F : List Nat → ℝ) :
    sumOver [r, c] F = ∑ i ∈ Finset.range r, ∑ j ∈ Finset.range c, F [i, j] := by
  rw [sumOver_cons]
  refine Finset.sum_congr rfl fun i _ => ?_
  rw [sumOver_cons]
  refine Finset.sum_congr rfl fun j _ => ?_
  simp [sumOver, size, unravel]

theorem pair_dots {o : List Nat} {g z : T ℝ} {r c : Nat} (hg : g.shape = o ++ [r, c]) :
    pair g z = sumOver o fun p => (toMs g p).dot (toMs z p) := by
  rw [pair_eq, hg, sumOver_append]
  congr 1; funext p
  rw [sumOver_mat]
  simp [M.dot, toMs, hg, List.getD_eq_getElem?_getD]

/-- Batched matrix products can be differentiated whenever the sizes fit and no outer axis is empty, for all flags: the nodes
made for the derivatives are the gradients. -/
theorem batchTOp_good (tA tB : Bool) (o : List Nat) (a b : T ℝ) (r c r' c' : Nat) (ho : ∀ d ∈ o, 0 < d)
    (ha : a.shape = o ++ [r, c]) (hb : b.shape = o ++ [r', c']) (h : (sz tA r c).2 = (sz tB r' c').1) :
    ∃ y, batchRun tA tB a b = .ok y ∧ y.shape = o ++ [(sz tA r c).1, (sz tB r' c').2] ∧ (batchTOp tA tB).Good [a, b] y := by
  refine good_biaffine' _ _ _ a b fun y g hg => ?_
  have key : ∀ a' b' : T ℝ, a'.shape = a.shape → b'.shape = b.shape → ∃ da db,
      batchDiff tA tB a' b' g = .ok (da, db) ∧
      IsGrad (fun a => batchRun tA tB a b') a' g da ∧ IsGrad (fun b => batchRun tA tB a' b) b' g db := by
    intro a' b' ha' hb'
    have hsa := ha'.trans ha
    have hsb := hb'.trans hb
    obtain ⟨da, db, e, s1, s2, hm⟩ := batchDiff_spec tA tB o a' b' g r c r' c' ho hsa hsb h hg
    obtain ⟨z, z1, z2, z3⟩ := batchRun_spec tA tB o a' b' r c r' c' ho hsa hsb h
    have hadj : ∀ p, InB o p → ∀ u v : M, u.Like (toMs a' p) → v.Like (toMs b' p) →
        HasDerivAt (fun s => ((matMul tA tB ((toMs a' p).move u s) ((toMs b' p).move v s)).map (toMs g p).dot).getD 0)
          ((toMs da p).dot u + (toMs db p).dot v) 0 := by
      intro p hp
      obtain ⟨x, y, hx, hy, _, _, hd⟩ := matMul_adjoint tA tB (toMs a' p) (toMs b' p) (toMs g p) (toMs z p) (z3 p hp)
        ⟨by simp [toMs, hg, z2], by simp [toMs, hg, z2]⟩
      rw [hm p hp] at hx hy
      simp only [Option.some.injEq] at hx hy
      subst hx hy
      exact hd
    have hrun : ∀ a'' b'' : T ℝ, a''.shape = a.shape → b''.shape = b.shape → ∃ y, batchRun tA tB a'' b'' = .ok y ∧ y.shape = g.shape ∧
        pair g y = sumOver o fun p => ((matMul tA tB (toMs a'' p) (toMs b'' p)).map (toMs g p).dot).getD 0 := by
      intro a'' b'' h1 h2
      obtain ⟨y, y1, y2, y3⟩ := batchRun_spec tA tB o a'' b'' r c r' c' ho (h1.trans ha) (h2.trans hb) h
      refine ⟨y, y1, y2.trans hg.symm, ?_⟩
      rw [pair_dots hg]
      refine sumOver_congr _ _ _ fun p hp => ?_
      rw [y3 p hp]; rfl
    have like : ∀ (x d : T ℝ) (p : List Nat), d.shape = x.shape → (toMs d p).Like (toMs x p) := by
      intro x d p hd
      exact ⟨by simp [toMs, hd], by simp [toMs, hd]⟩
    have mv : ∀ (x d : T ℝ) (τ : ℝ) (p : List Nat), toMs (moveT x d τ) p = (toMs x p).move (toMs d p) τ := fun _ _ _ _ => rfl
    refine ⟨da, db, e, ⟨s1, fun d hds => ?_⟩, ⟨s2, fun d hds => ?_⟩⟩
    · choose y y1 y2 y3 using fun τ : ℝ => hrun (moveT a' d τ) b' ha' hb'
      refine ⟨y, Eventually.of_forall fun τ => ⟨y1 τ, y2 τ⟩, ?_⟩
      rw [pair_dots (s1.trans hsa)]
      refine (sumOver_deriv o (fun p τ => ((matMul tA tB ((toMs a' p).move (toMs d p) τ) (toMs b' p)).map (toMs g p).dot).getD 0)
        _ 0 fun p hp => ?_).congr_of_eventuallyEq (Eventually.of_forall fun τ => y3 τ)
      have := hadj p hp (toMs d p) ⟨(toMs b' p).r, (toMs b' p).c, fun _ _ => 0⟩ (like a' d p hds) ⟨rfl, rfl⟩
      simpa only [M.move_zero, M.dot_zero, add_zero] using this
    · choose y y1 y2 y3 using fun τ : ℝ => hrun a' (moveT b' d τ) ha' hb'
      refine ⟨y, Eventually.of_forall fun τ => ⟨y1 τ, y2 τ⟩, ?_⟩
      rw [pair_dots (s2.trans hsb)]
      refine (sumOver_deriv o (fun p τ => ((matMul tA tB (toMs a' p) ((toMs b' p).move (toMs d p) τ)).map (toMs g p).dot).getD 0)
        _ 0 fun p hp => ?_).congr_of_eventuallyEq (Eventually.of_forall fun τ => y3 τ)
      have := hadj p hp ⟨(toMs a' p).r, (toMs a' p).c, fun _ _ => 0⟩ (toMs d p) ⟨rfl, rfl⟩ (like b' d p hds)
      simpa only [M.move_zero, M.dot_zero, zero_add] using this
  have hsep : ∀ a₁ a₂ b₁ b₂ d₁ d₂ e₁ e₂ e₃ e₄ : T ℝ, batchDiff tA tB a₁ b₁ g = .ok (d₁, e₁) →
      (batchDiff tA tB a₂ b₁ g = .ok (d₂, e₂) → d₁ = d₂) ∧ (batchDiff tA tB a₁ b₂ g = .ok (e₃, e₄) → e₁ = e₄) := by
    intro a₁ a₂ b₁ b₂ d₁ d₂ e₁ e₂ e₃ e₄ h1
    have inv : ∀ (u v : Res (T ℝ)) (d e : T ℝ), (u.bind fun dx => v.bind fun dy => Res.ok (dx, dy)) = .ok (d, e) → u = .ok d ∧ v = .ok e := by
      intro u v d e h
      cases u <;> cases v <;> simp_all [Res.bind]
    cases tA <;> cases tB <;>
    · refine ⟨fun h2 => ?_, fun h2 => ?_⟩
      · have p1 := (inv _ _ _ _ h1).1
        rw [(inv _ _ _ _ h2).1] at p1
        injection p1 with p1; exact p1.symm
      · have p1 := (inv _ _ _ _ h1).2
        rw [(inv _ _ _ _ h2).2] at p1
        injection p1 with p1; exact p1.symm
  choose! da db k1 k2 k3 using key
  refine ⟨fun b' => da a b', fun a' => db a' b, by rw [k1 a b rfl rfl]; rfl, fun a' b' ha' hb' => ⟨?_, ?_⟩⟩
  · show IsGrad (fun a => batchRun tA tB a b') a' g (da a b')
    rw [(hsep a a' b' b' _ _ _ _ a a (k1 a b' rfl hb')).1 (k1 a' b' ha' hb')]
    exact k2 a' b' ha' hb'
  · show IsGrad (fun b => batchRun tA tB a' b) b' g (db a' b)
    rw [(hsep a' a' b b' _ a _ a _ _ (k1 a' b ha' rfl)).2 (k1 a' b' ha' hb')]
    exact k3 a' b' ha' hb'

/-- Two stacked products of a 1×2 by a 2×1 matrix. -/
example : ∃ y, batchRun false false ⟨[2, 1, 2], fun i => (i.getD 0 0 : ℝ) + i.getD 2 0⟩ ⟨[2, 2, 1], fun i => 3 * (i.getD 1 0 : ℝ)⟩ = .ok y ∧
    y.shape = [2, 1, 1] ∧ y.at_ [0, 0, 0] = 3 ∧ y.at_ [1, 0, 0] = 6 := by
  obtain ⟨y, y1, y2, _⟩ := batchTOp_good false false [2] ⟨[2, 1, 2], fun i => (i.getD 0 0 : ℝ) + i.getD 2 0⟩
    ⟨[2, 2, 1], fun i => 3 * (i.getD 1 0 : ℝ)⟩ 1 2 2 1 (by decide) rfl rfl rfl
  have h := fun p hp => batchRun_at false false [2] _ _ y 1 2 2 1 (by decide) rfl rfl rfl y1 p hp 0 0
  refine ⟨y, y1, y2, ?_, ?_⟩
  · have := h [0] (by simp [InB])
    simpa [sz, Finset.sum_range_succ] using this
  · have := h [1] (by simp [InB])
    norm_num [sz, Finset.sum_range_succ] at this
    exact this

end

end Verif.AD
