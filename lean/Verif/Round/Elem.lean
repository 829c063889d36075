import Verif.Round.Grad
import Verif.AD.SymbolicMore
import Mathlib.Analysis.SpecialFunctions.Pow.Continuity
import Mathlib.Analysis.SpecialFunctions.Trigonometric.Deriv
/-!
Which operations have gradients that are continuous: elementwise operations.
-/
set_option autoImplicit false
namespace Verif.Round
open Verif.Tensor Verif.AD Filter
open Verif.Shape hiding bc
open scoped Topology

noncomputable section

/-- Finitely many conditions on how near something has to be have a common bound. -/
theorem common_bound {P : Nat → ℝ → Prop} (hP : ∀ k δ δ', δ' ≤ δ → P k δ → P k δ') (n : Nat) (h : ∀ k, k < n → ∃ δ, 0 < δ ∧ P k δ) :
    ∃ δ, 0 < δ ∧ ∀ k, k < n → P k δ := by
  induction n with
  | zero => exact ⟨1, one_pos, fun k hk => absurd hk (Nat.not_lt_zero k)⟩
  | succ n ih =>
    obtain ⟨δ₁, h1, H1⟩ := ih fun k hk => h k (by omega)
    obtain ⟨δ₂, h2, H2⟩ := h n (by omega)
    refine ⟨min δ₁ δ₂, lt_min h1 h2, fun k hk => ?_⟩
    rcases Nat.lt_succ_iff_lt_or_eq.1 hk with hk | rfl
    · exact hP k _ _ (min_le_left _ _) (H1 k hk)
    · exact hP k _ _ (min_le_right _ _) H2

theorem near_one {f : ℝ → ℝ} {p : ℝ} (h : ContinuousAt f p) {ε : ℝ} (hε : 0 < ε) : ∃ δ, 0 < δ ∧ ∀ a, |a - p| ≤ δ → |f a - f p| ≤ ε := by
  obtain ⟨δ, hδ, H⟩ := Metric.continuousAt_iff.1 h ε hε
  refine ⟨δ / 2, half_pos hδ, fun a ha => ?_⟩
  have := H (x := a) (by rw [Real.dist_eq]; linarith)
  rw [Real.dist_eq] at this
  exact this.le

theorem near_two {f : ℝ → ℝ → ℝ} {p q : ℝ} (h : ContinuousAt (fun z : ℝ × ℝ => f z.1 z.2) (p, q)) {ε : ℝ} (hε : 0 < ε) :
    ∃ δ, 0 < δ ∧ ∀ a b, |a - p| ≤ δ → |b - q| ≤ δ → |f a b - f p q| ≤ ε := by
  obtain ⟨δ, hδ, H⟩ := Metric.continuousAt_iff.1 h ε hε
  refine ⟨δ / 2, half_pos hδ, fun a b ha hb => ?_⟩
  have := H (x := (a, b)) (by
    rw [Prod.dist_eq, max_lt_iff, Real.dist_eq, Real.dist_eq]
    exact ⟨by simp only; linarith, by simp only; linarith⟩)
  rw [Real.dist_eq] at this
  exact this.le

theorem bc_close {δ : ℝ} {s : List Nat} {a a' : T ℝ} (ha : Fit s a) (h : Close δ a' a) {i : List Nat} (hi : InB s i) :
    |bc a' i - bc a i| ≤ δ := by
  unfold bc
  rw [h.1]
  by_cases c : a.shape = []
  · rw [if_pos c, if_pos c]
    exact h.2 [] (by rw [c]; trivial)
  · rw [if_neg c, if_neg c]
    rcases ha with ha | ha
    · exact h.2 i (by rw [ha]; exact hi)
    · exact absurd ha c

theorem fit_of_close {δ : ℝ} {s : List Nat} {a a' : T ℝ} (ha : Fit s a) (h : Close δ a' a) : Fit s a' := by
  rw [Fit, h.1]
  exact ha

/-- Two tensors of a common shape, or scalars, are near if their elements are. -/
theorem close_of_bc {ε : ℝ} {s : List Nat} {r r' : T ℝ} (hr : Fit s r) (hs : r'.shape = r.shape) {i₀ : List Nat} (hi₀ : InB s i₀)
    (h : ∀ i, InB s i → |bc r' i - bc r i| ≤ ε) : Close ε r' r := by
  refine ⟨hs, fun i hi => ?_⟩
  by_cases c : r.shape = []
  · rw [c] at hi
    have hi' : i = [] := by cases i with
      | nil => rfl
      | cons _ _ => simp [InB] at hi
    subst hi'
    have := h i₀ hi₀
    unfold bc at this
    rwa [if_pos c, if_pos (hs.trans c)] at this
  · have hrs : r.shape = s := hr.resolve_right c
    have := h i (by rw [← hrs]; exact hi)
    unfold bc at this
    rwa [if_neg c, if_neg (by rw [hs]; exact c)] at this

/-- Elementwise operations on two operands are continuous where the function is. -/
theorem elem_steady (f : ℝ → ℝ → ℝ) {s : List Nat} {a c : T ℝ} (ha : Fit s a) (hc : Fit s c) {i₀ : List Nat} (hi₀ : InB s i₀)
    (hf : ∀ i, InB s i → ContinuousAt (fun z : ℝ × ℝ => f z.1 z.2) (bc a i, bc c i)) :
    Steady (POp.of2 (elem f) elemShp (fun _ _ _ h => elem_shape f h)).run [a, c] := by
  obtain ⟨r, r1, r2, -, r4⟩ := elem_bc f ha hc
  refine ⟨r, r1, fun ε hε => ?_⟩
  obtain ⟨δ, hδ, H⟩ := common_bound (P := fun k δ => ∀ p q, |p - bc a (unravel s k)| ≤ δ → |q - bc c (unravel s k)| ≤ δ →
      |f p q - f (bc a (unravel s k)) (bc c (unravel s k))| ≤ ε) (fun k δ δ' hle H p q hp hq => H p q (hp.trans hle) (hq.trans hle)) (size s)
    (fun k hk => near_two (hf _ (inB_unravel hk)) hε)
  refine ⟨δ, hδ, fun xs' hx => ?_⟩
  match xs', hx with
  | [a', c'], .cons h1 (.cons h2 .nil) =>
    obtain ⟨r', q1, q2, -, q4⟩ := elem_bc f (fit_of_close ha h1) (fit_of_close hc h2)
    refine ⟨r', q1, close_of_bc r2 ?_ hi₀ fun i hi => ?_⟩
    · rw [elem_shape f q1, elem_shape f r1, h1.1, h2.1]
    · rw [q4 i hi, r4 i hi]
      have := H (ravel s i) (ravel_lt hi)
      rw [unravel_ravel hi] at this
      exact this _ _ (bc_close ha h1 hi) (bc_close hc h2 hi)

theorem bc_map (f : ℝ → ℝ) (t : T ℝ) (i : List Nat) : bc (mapT f t) i = f (bc t i) := by
  unfold bc
  by_cases c : t.shape = []
  · rw [if_pos c, if_pos (show (mapT f t).shape = [] from c)]
    rfl
  · rw [if_neg c, if_neg (show ¬ (mapT f t).shape = [] from c)]
    rfl

/-- Elementwise operations on one operand are continuous where the function is. -/
theorem map_steady (f : ℝ → ℝ) {s : List Nat} {a : T ℝ} (ha : Fit s a) {i₀ : List Nat} (hi₀ : InB s i₀)
    (hf : ∀ i, InB s i → ContinuousAt f (bc a i)) :
    Steady (POp.of1 (fun x => .ok (mapT f x)) id (fun _ _ h => by cases h; rfl)).run [a] := by
  refine ⟨mapT f a, rfl, fun ε hε => ?_⟩
  obtain ⟨δ, hδ, H⟩ := common_bound (P := fun k δ => ∀ p, |p - bc a (unravel s k)| ≤ δ → |f p - f (bc a (unravel s k))| ≤ ε)
    (fun k δ δ' hle H p hp => H p (hp.trans hle)) (size s) (fun k hk => near_one (hf _ (inB_unravel hk)) hε)
  refine ⟨δ, hδ, fun xs' hx => ?_⟩
  match xs', hx with
  | [a'], .cons h1 .nil =>
    refine ⟨mapT f a', rfl, close_of_bc (s := s) ha h1.1 hi₀ fun i hi => ?_⟩
    rw [bc_map, bc_map]
    have := H (ravel s i) (ravel_lt hi)
    rw [unravel_ravel hi] at this
    exact this _ (bc_close ha h1 hi)

/-! ### Gradient expressions of elementwise operations -/

/-- The operations of the expression are continuous where they are used. -/
def TmCont (ρ : Nat → ℝ) : Tm → Prop
  | .node _ => True
  | .cst _ => True
  | .un u a => TmCont ρ a ∧ ContinuousAt u.fn (a.eval ρ)
  | .bin b x y => TmCont ρ x ∧ TmCont ρ y ∧ ContinuousAt (fun z : ℝ × ℝ => b.fn z.1 z.2) (x.eval ρ, y.eval ρ)

theorem toX_steady {imp : POp → Impl} (hF : Faithful imp) {ρ : Nat → Res (T ℝ)} {σ : Nat → XT} {τ : Nat → T ℝ} {s : List Nat}
    (hσ : ∀ n, XSteady imp ρ (σ n)) (hv : ∀ n, (σ n).eval ρ = .ok (τ n)) (hs : ∀ n, Fit s (τ n)) {i₀ : List Nat} (hi₀ : InB s i₀) (e : Tm)
    (he : ∀ i, InB s i → TmCont (fun n => bc (τ n) i) e) :
    XSteady imp ρ (e.toX σ) ∧ ∃ v, (e.toX σ).eval ρ = .ok v ∧ Fit s v ∧ ∀ i, InB s i → bc v i = e.eval fun n => bc (τ n) i := by
  induction e with
  | node j => exact ⟨hσ j, τ j, hv j, hs j, fun _ _ => rfl⟩
  | cst c =>
    refine ⟨by simp only [Tm.toX, XSteady], scalarT c.val, rfl, .inr rfl, fun i _ => ?_⟩
    simp [bc, scalarT, Tm.eval]
  | un u a ih =>
    obtain ⟨h1, v, h2, h3, h4⟩ := ih fun i hi => (he i hi).1
    refine ⟨?_, mapT u.fn v, ?_, h3, fun i hi => ?_⟩
    · refine xSteady_app hF (xs := [v]) (by simp only [XSteadyL]; exact ⟨h1, trivial⟩) (by simp only [XT.evalL, h2, Res.bind])
        (map_steady u.fn h3 hi₀ fun i hi => ?_)
      rw [h4 i hi]
      exact (he i hi).2
    · rw [Tm.toX, XT.un, XT.eval_app1 h2]
    · rw [bc_map, h4 i hi]
      rfl
  | bin b x y ihx ihy =>
    obtain ⟨h1, v, h2, h3, h4⟩ := ihx fun i hi => (he i hi).1
    obtain ⟨g1, w, g2, g3, g4⟩ := ihy fun i hi => (he i hi).2.1
    obtain ⟨r, r1, r2, -, r4⟩ := elem_bc b.fn h3 g3
    refine ⟨?_, r, ?_, r2, fun i hi => ?_⟩
    · refine xSteady_app hF (xs := [v, w]) (by simp only [XSteadyL]; exact ⟨h1, g1, trivial⟩) (by simp only [XT.evalL, h2, g2, Res.bind])
        (elem_steady b.fn h3 g3 hi₀ fun i hi => ?_)
      rw [h4 i hi, g4 i hi]
      exact (he i hi).2.2
    · rw [Tm.toX, XT.bin, XT.eval_app2 h2 g2]
      exact r1
    · rw [r4 i hi, h4 i hi, g4 i hi]
      rfl

/-- Where the derivative of a unary operation is continuous. -/
def USmooth : UOp → ℝ → Prop
  | .abs => fun x => x ≠ 0
  | .ln | .log2 | .inverseSqrt | .sqrt => fun x => 0 < x
  | .inverse => fun x => x ≠ 0
  | .log1p => fun x => -1 < x
  | _ => fun _ => True

theorem un_cont (u : UOp) (e : Tm) (h : u.diffExpr (.node 0) (.node 1) (.node 2) = some e) (x g : ℝ) (hx : USmooth u x) :
    TmCont (fun n => if n = 0 then x else if n = 1 then u.fn x else g) e := by
  have cm : ∀ p : ℝ × ℝ, ContinuousAt (fun z : ℝ × ℝ => BOp.fn .mul z.1 z.2) p := fun p => (continuous_fst.mul continuous_snd).continuousAt
  have cs : ∀ p : ℝ × ℝ, ContinuousAt (fun z : ℝ × ℝ => BOp.fn .sub z.1 z.2) p := fun p => (continuous_fst.sub continuous_snd).continuousAt
  have ca : ∀ p : ℝ × ℝ, ContinuousAt (fun z : ℝ × ℝ => BOp.fn .add z.1 z.2) p := fun p => (continuous_fst.add continuous_snd).continuousAt
  have cd : ∀ p : ℝ × ℝ, p.2 ≠ 0 → ContinuousAt (fun z : ℝ × ℝ => BOp.fn .div z.1 z.2) p := fun p hp =>
    continuous_fst.continuousAt.div continuous_snd.continuousAt hp
  have cn : ∀ p : ℝ, ContinuousAt (UOp.fn .neg) p := fun p => continuous_neg.continuousAt
  cases u <;> simp only [UOp.diffExpr, Option.some.injEq, reduceCtorEq] at h <;> subst h <;>
    simp only [TmCont, Tm.eval, USmooth, true_and, and_true, cm, cs, ca, cn, one_ne_zero, OfNat.ofNat_ne_zero, if_true, if_false] at hx ⊢
  · -- abs
    rcases lt_or_gt_of_ne hx with h | h
    · refine (continuousAt_const (y := (-1 : ℝ))).congr ?_
      filter_upwards [Iio_mem_nhds h] with t ht
      simp only [UOp.fn]
      rw [if_pos (show t < 0 from ht)]
    · refine (continuousAt_const (y := (1 : ℝ))).congr ?_
      filter_upwards [Ioi_mem_nhds h] with t ht
      simp only [UOp.fn]
      rw [if_neg (not_lt.2 (le_of_lt (show 0 < t from ht)))]
  · exact Real.continuous_cos.continuousAt
  · exact Real.continuous_sin.continuousAt
  · exact cd _ hx.ne'
  · -- log2
    exact ⟨cd _ (Real.log_pos (by norm_num)).ne', cd _ (div_ne_zero hx.ne' (Real.log_pos (by norm_num)).ne')⟩
  · -- sqrt
    exact cd _ (mul_ne_zero two_ne_zero (Real.sqrt_pos.2 hx).ne')
  · -- inverseSqrt
    have : (1 / Real.sqrt x) ≠ 0 := one_div_ne_zero (Real.sqrt_pos.2 hx).ne'
    exact ⟨((continuous_id.mul continuous_id).mul continuous_id).continuousAt, cd _ (mul_ne_zero two_ne_zero (mul_ne_zero (mul_ne_zero this this) this))⟩
  · -- log1p
    refine cd _ (show x + 1 ≠ 0 from ?_)
    linarith
  · exact Real.continuous_exp.continuousAt
  · refine (sigmoid_hasDerivAt x).continuousAt

theorem pos_of_inB {s i : List Nat} (h : InB s i) : ∀ d ∈ s, d ≠ 0 := by
  induction s generalizing i with
  | nil => simp
  | cons d s ih =>
    cases i with
    | nil => simp [InB] at h
    | cons j i =>
      simp only [InB] at h
      intro e he
      rcases List.mem_cons.1 he with rfl | he
      · omega
      · exact ih h.2 e he

/-- The gradient nodes of unary operations, where the derivative is continuous. -/
theorem u_symSteady {imp : POp → Impl} (hF : Faithful imp) (u : UOp) {x : T ℝ} {i₀ : List Nat} (hi₀ : InB x.shape i₀)
    (hx : ∀ i, InB x.shape i → USmooth u (x.at_ i)) : SymSteady imp (uDOp u) [x] (mapT u.fn x) := by
  intro ρ sh args out gx g es _ ha ho hg hgs hsa hso hsg hes
  match args, ha, hes with
  | [a], .cons hxa .nil, hes =>
    simp only [uDOp, uSym, Option.map_eq_some_iff] at hes
    obtain ⟨e, he, rfl⟩ := hes
    have hσ : ∀ n, XSteady imp ρ (if n = 0 then a else if n = 1 then out else gx) := by
      intro n
      by_cases h0 : n = 0
      · simp only [if_pos h0]; exact hsa a (by simp)
      · by_cases h1 : n = 1
        · simp only [if_neg h0, if_pos h1]; exact hso
        · simp only [if_neg h0, if_neg h1]; exact hsg
    have hv : ∀ n, (if n = 0 then a else if n = 1 then out else gx).eval ρ = .ok (if n = 0 then x else if n = 1 then mapT u.fn x else g) := by
      intro n
      by_cases h0 : n = 0
      · simp only [if_pos h0]; exact hxa
      · by_cases h1 : n = 1
        · simp only [if_neg h0, if_pos h1]; exact ho
        · simp only [if_neg h0, if_neg h1]; exact hg
    have hs : ∀ n, Fit x.shape (if n = 0 then x else if n = 1 then mapT u.fn x else g) := by
      intro n
      refine .inl ?_
      by_cases h0 : n = 0
      · simp only [if_pos h0]
      · by_cases h1 : n = 1
        · simp only [if_neg h0, if_pos h1]; rfl
        · simp only [if_neg h0, if_neg h1]; exact hgs
    simp only [List.mem_singleton, forall_eq]
    refine (toX_steady hF hσ hv hs hi₀ e fun i hi => ?_).1
    have := un_cont u e he (x.at_ i) (g.at_ i) (hx i hi)
    convert this using 2 with n
    by_cases h0 : n = 0
    · simp only [if_pos h0]; exact bc_at rfl hi
    · by_cases h1 : n = 1
      · simp only [if_neg h0, if_pos h1]; exact bc_at (show (mapT u.fn x).shape = x.shape from rfl) hi
      · simp only [if_neg h0, if_neg h1]; exact bc_at hgs hi

/-- `Sum` over all axes is continuous. -/
theorem sumAll_steady {v : T ℝ} (h : v.shape ≠ []) {i₀ : List Nat} (hi₀ : InB v.shape i₀) :
    Steady (POp.of1 (fun x => sumNode x []) (sumShp []) (fun _ _ h => sum_shp [] h)).run [v] := by
  obtain ⟨y, -, -, hg⟩ := sumTOp_good [] v h (by simp) (by simp) (pos_of_inB hi₀)
  have := good_steady hg
  rw [(sumSym_of []).run] at this
  exact this

theorem fit_symSteady {imp : POp → Impl} (hF : Faithful imp) {ρ : Nat → Res (T ℝ)} {sh : XT → List Nat}
    (hsh : ∀ e v, XT.eval ρ e = .ok v → sh e = v.shape) {s : List Nat} {a r : XT} {v : T ℝ} (hr : r.eval ρ = .ok v) (hs : Fit s v)
    {i₀ : List Nat} (hi₀ : InB s i₀) (hx : XSteady imp ρ r) : XSteady imp ρ (fitX sh a r) := by
  unfold fitX
  by_cases c : sh a = [] ∧ sh r ≠ []
  · rw [if_pos c]
    have hv : v.shape ≠ [] := by rw [← hsh r v hr]; exact c.2
    have hvs : v.shape = s := hs.resolve_right hv
    exact xSteady_app hF (xs := [v]) (by simp only [XSteadyL]; exact ⟨hx, trivial⟩) (by simp only [XT.evalL, hr, Res.bind])
      (sumAll_steady hv (by rw [hvs]; exact hi₀))
  · rw [if_neg c]
    exact hx

theorem bin_cont (b : BOp) (p q g : ℝ) (hd : b.dom p q) :
    TmCont (fun n => if n = 0 then p else if n = 1 then q else if n = 2 then b.fn p q else g) (b.diffExpr (.node 0) (.node 1) (.node 2) (.node 3)).1 ∧
    TmCont (fun n => if n = 0 then p else if n = 1 then q else if n = 2 then b.fn p q else g) (b.diffExpr (.node 0) (.node 1) (.node 2) (.node 3)).2 := by
  have cm : ∀ p : ℝ × ℝ, ContinuousAt (fun z : ℝ × ℝ => BOp.fn .mul z.1 z.2) p := fun p => (continuous_fst.mul continuous_snd).continuousAt
  have cs : ∀ p : ℝ × ℝ, ContinuousAt (fun z : ℝ × ℝ => BOp.fn .sub z.1 z.2) p := fun p => (continuous_fst.sub continuous_snd).continuousAt
  have cd : ∀ p : ℝ × ℝ, p.2 ≠ 0 → ContinuousAt (fun z : ℝ × ℝ => BOp.fn .div z.1 z.2) p := fun p hp =>
    continuous_fst.continuousAt.div continuous_snd.continuousAt hp
  have cn : ∀ p : ℝ, ContinuousAt (UOp.fn .neg) p := fun p => continuous_neg.continuousAt
  cases b <;> simp only [BOp.diffExpr, TmCont, Tm.eval, BOp.dom, true_and, and_true, cm, cs, cn, one_ne_zero, if_true, if_false] at hd ⊢
  · exact ⟨cd _ hd, cd _ hd⟩
  · exact ⟨Real.continuousAt_rpow _ (.inl hd.ne'), Real.continuousAt_log hd.ne'⟩

/-- The gradient nodes of binary operations, wherever they are defined. -/
theorem b_symSteady {imp : POp → Impl} (hF : Faithful imp) (b : BOp) {s : List Nat} {a c y : T ℝ} (ha : Fit s a) (hc : Fit s c)
    (hs : a.shape = s ∨ c.shape = s) {i₀ : List Nat} (hi₀ : InB s i₀) (hd : ∀ i, InB s i → b.dom (bc a i) (bc c i))
    (hy : elem b.fn a c = .ok y) : SymSteady imp (bDOp b) [a, c] y := by
  intro ρ sh args out gx g es hsh hargs ho hg hgs hsa hso hsg hes
  obtain ⟨y', e1, -, y3, y4⟩ := elem_bc b.fn ha hc
  rw [hy] at e1
  cases e1
  have y3 := y3 hs
  match args, hargs, hes with
  | [p, q], .cons hp (.cons hq .nil), hes =>
    simp only [bDOp, bSym, Option.some.injEq] at hes
    subst hes
    have hσ : ∀ n, XSteady imp ρ (if n = 0 then p else if n = 1 then q else if n = 2 then out else gx) := by
      intro n
      by_cases h0 : n = 0
      · simp only [if_pos h0]; exact hsa p (by simp)
      · by_cases h1 : n = 1
        · simp only [if_neg h0, if_pos h1]; exact hsa q (by simp)
        · by_cases h2 : n = 2
          · simp only [if_neg h0, if_neg h1, if_pos h2]; exact hso
          · simp only [if_neg h0, if_neg h1, if_neg h2]; exact hsg
    have hv : ∀ n, (if n = 0 then p else if n = 1 then q else if n = 2 then out else gx).eval ρ =
        .ok (if n = 0 then a else if n = 1 then c else if n = 2 then y else g) := by
      intro n
      by_cases h0 : n = 0
      · simp only [if_pos h0]; exact hp
      · by_cases h1 : n = 1
        · simp only [if_neg h0, if_pos h1]; exact hq
        · by_cases h2 : n = 2
          · simp only [if_neg h0, if_neg h1, if_pos h2]; exact ho
          · simp only [if_neg h0, if_neg h1, if_neg h2]; exact hg
    have hst : ∀ n, Fit s (if n = 0 then a else if n = 1 then c else if n = 2 then y else g) := by
      intro n
      by_cases h0 : n = 0
      · simp only [if_pos h0]; exact ha
      · by_cases h1 : n = 1
        · simp only [if_neg h0, if_pos h1]; exact hc
        · by_cases h2 : n = 2
          · simp only [if_neg h0, if_neg h1, if_pos h2]; exact .inl y3
          · simp only [if_neg h0, if_neg h1, if_neg h2]; exact .inl (hgs.trans y3)
    have hcont : ∀ i, InB s i → (fun n => bc (if n = 0 then a else if n = 1 then c else if n = 2 then y else g) i) =
        fun n => if n = 0 then bc a i else if n = 1 then bc c i else if n = 2 then b.fn (bc a i) (bc c i) else bc g i := by
      intro i hi
      funext n
      by_cases h0 : n = 0
      · simp only [if_pos h0]
      · by_cases h1 : n = 1
        · simp only [if_neg h0, if_pos h1]
        · by_cases h2 : n = 2
          · simp only [if_neg h0, if_neg h1, if_pos h2]; exact y4 i hi
          · simp only [if_neg h0, if_neg h1, if_neg h2]
    obtain ⟨k1, v1, k2, k3, -⟩ := toX_steady hF hσ hv hst hi₀ (b.diffExpr (.node 0) (.node 1) (.node 2) (.node 3)).1 fun i hi => by
      rw [hcont i hi]
      exact (bin_cont b _ _ _ (hd i hi)).1
    obtain ⟨l1, v2, l2, l3, -⟩ := toX_steady hF hσ hv hst hi₀ (b.diffExpr (.node 0) (.node 1) (.node 2) (.node 3)).2 fun i hi => by
      rw [hcont i hi]
      exact (bin_cont b _ _ _ (hd i hi)).2
    intro e he
    simp only [List.mem_cons, List.not_mem_nil, or_false] at he
    rcases he with rfl | rfl
    · exact fit_symSteady hF hsh k2 k3 hi₀ k1
    · exact fit_symSteady hF hsh l2 l3 hi₀ l1

end

end Verif.Round
