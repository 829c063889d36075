import Verif.AD.TensorGrad
import Mathlib.Analysis.Calculus.MeanValue
import Mathlib.Analysis.Calculus.Deriv.Shift
import Mathlib.Tactic.Ring
import Mathlib.Tactic.Linarith
/-!
From gradients along lines (`IsGrad`, how the properties of the single operations are stated) to the condition `TOp.Good` of
`gradT_correct`, which is about all differentiable curves and all operands moving at once.
-/
set_option autoImplicit false
namespace Verif.AD
open Verif.Tensor Verif.Shape Filter
open scoped Topology

noncomputable section

/-- An operation with one operand. -/
def TOp.one (F : T ℝ → Res (T ℝ)) (sd : T ℝ → T ℝ → T ℝ → Option (T ℝ)) : TOp where
  run := fun xs => match xs with
    | [x] => F x
    | _ => .err
  diffs := [true]
  symDiff := fun xs y g => match xs with
    | [x] => (sd x y g).map fun r => [r]
    | _ => none

/-- An operation with two operands, both differentiable. -/
def TOp.two (F : T ℝ → T ℝ → Res (T ℝ)) (sd : T ℝ → T ℝ → T ℝ → T ℝ → Option (T ℝ × T ℝ)) : TOp where
  run := fun xs => match xs with
    | [a, b] => F a b
    | _ => .err
  diffs := [true, true]
  symDiff := fun xs y g => match xs with
    | [a, b] => (sd a b y g).map fun r => [r.1, r.2]
    | _ => none

/-! ### Pairings along curves -/

theorem pair_comm {a b : T ℝ} (h : b.shape = a.shape) : pair a b = pair b a := by
  rw [pair_eq, pair_eq, h]
  exact sumOver_congr _ _ _ fun i _ => mul_comm _ _

theorem pair_sum {r : T ℝ} {s : List Nat} (h : r.shape = s) (z : T ℝ) :
    pair r z = ∑ e : Fin (size s), z.at_ (unravel s e) * pair r (basis s e) := by
  rw [pair_basis_sum h]
  refine Finset.sum_congr rfl fun e _ => ?_
  rw [pair_basis s e.2, mul_comm, pair_comm (show (basis s e).shape = r.shape from h.symm), pair_basis s e.2]

theorem sumOver_deriv (s : List Nat) (f : List Nat → ℝ → ℝ) (f' : List Nat → ℝ) (t₀ : ℝ)
    (h : ∀ i, InB s i → HasDerivAt (f i) (f' i) t₀) :
    HasDerivAt (fun t => sumOver s fun i => f i t) (sumOver s f') t₀ := by
  unfold sumOver
  exact HasDerivAt.fun_sum fun k hk => h _ (inB_unravel (Finset.mem_range.1 hk))

theorem Moves.pair {γ : ℝ → T ℝ} {v : T ℝ} {t₀ : ℝ} (h : Moves γ v t₀) {g : T ℝ} (hg : g.shape = v.shape) :
    HasDerivAt (fun t => pair g (γ t)) (pair g v) t₀ := by
  simp only [pair_eq]
  exact sumOver_deriv _ (fun i t => g.at_ i * (γ t).at_ i) _ t₀ fun i hi =>
    (h.der i (by rw [← h.vshape, ← hg]; exact hi)).const_mul _

theorem Moves.entry {γ : ℝ → T ℝ} {v : T ℝ} {t₀ : ℝ} (h : Moves γ v t₀) {s : List Nat} (hs : v.shape = s)
    (e : Fin (size s)) : HasDerivAt (fun t => (γ t).at_ (unravel s e)) (v.at_ (unravel s e)) t₀ :=
  h.der _ (by rw [← h.vshape, hs]; exact inB_unravel e.2)

/-! ### Affine operations -/

theorem moveT_moveT (x d : T ℝ) (a b : ℝ) : moveT (moveT x d a) d b = moveT x d (a + b) := by
  simp only [moveT, T.mk.injEq, true_and]
  funext i
  ring

/-- A gradient that does not depend on the point: the operation is affine. -/
theorem affine {F : T ℝ → Res (T ℝ)} {s : List Nat} {g r : T ℝ} (hgr : ∀ t : T ℝ, t.shape = s → IsGrad F t g r) (t : T ℝ)
    (ht : t.shape = s) : pair g (theT (F t)) = pair g (theT (F (zeroT s))) + pair r t := by
  subst ht
  have hd : ∀ a : ℝ, HasDerivAt (fun τ => pair g (theT (F (moveT (zeroT t.shape) t τ))) - τ * pair r t) 0 a := by
    intro a
    obtain ⟨y, y1, y2⟩ := (hgr (moveT (zeroT t.shape) t a) rfl).2 t rfl
    have h1 : HasDerivAt (fun τ => pair g (theT (F (moveT (zeroT t.shape) t (a + τ))))) (pair r t) 0 := by
      refine y2.congr_of_eventuallyEq ?_
      filter_upwards [y1] with τ hτ
      rw [← moveT_moveT, hτ.1]
      rfl
    have h2 := HasDerivAt.comp_sub_const (f := fun τ => pair g (theT (F (moveT (zeroT t.shape) t (a + τ))))) a a (by rw [sub_self]; exact h1)
    simp only [add_sub_cancel] at h2
    exact (h2.sub ((hasDerivAt_id a).mul_const (pair r t))).congr_deriv (by simp)
  have hc := is_const_of_deriv_eq_zero (fun a => (hd a).differentiableAt) (fun a => (hd a).deriv) 1 0
  have e1 : moveT (zeroT t.shape) t 1 = t := by
    obtain ⟨s, f⟩ := t
    simp [moveT, zeroT]
  have e0 : moveT (zeroT t.shape) t 0 = zeroT t.shape := by simp [moveT, zeroT]
  simp only [e1, e0] at hc
  linarith

theorem dsum_one (r v : T ℝ) : dsum [true] [r] [v] = pair r v := by simp [dsum]

theorem dsum_two (r r' v v' : T ℝ) : dsum [true, true] [r, r'] [v, v'] = pair r v + pair r' v' := by simp [dsum]

/-- Operations that are affine, with one operand. -/
theorem good_affine (F : T ℝ → Res (T ℝ)) (sd : T ℝ → T ℝ → T ℝ → Option (T ℝ)) (s' : List Nat) (x y : T ℝ) (hy : F x = .ok y)
    (hok : ∀ t : T ℝ, t.shape = x.shape → ∃ y, F t = .ok y ∧ y.shape = s')
    (hgr : ∀ g : T ℝ, g.shape = s' → ∃ r, sd x y g = some r ∧ ∀ t : T ℝ, t.shape = x.shape → IsGrad F t g r) :
    (TOp.one F sd).Good [x] y := by
  have hys : y.shape = s' := by
    obtain ⟨y', h1, h2⟩ := hok x rfl
    rw [hy] at h1; cases h1; exact h2
  refine ⟨hy, rfl, fun _ g hg => ?_, fun γs vs t₀ hx hM => ?_⟩
  · obtain ⟨r, r1, r2⟩ := hgr g (hg.trans hys)
    refine ⟨[r], by simp [TOp.one, r1], rfl, fun k r' x' h1 h2 h3 => ?_⟩
    cases k with
    | zero =>
      simp only [List.getElem?_cons_zero, Option.some.injEq] at h2 h3
      subst h2 h3
      exact (r2 x rfl).1
    | succ k => simp at h2
  · match γs, vs, hM with
    | [γ], [v], .cons hm .nil =>
      simp only [List.map_cons, List.map_nil, List.cons.injEq, and_true] at hx
      refine ⟨fun t => theT (F (γ t)), ?_, fun g hg => ?_⟩
      · filter_upwards [hm.shape] with t ht
        obtain ⟨y', h1, h2⟩ := hok (γ t) (by rw [ht, hx])
        show F (γ t) = _ ∧ _
        rw [h1]
        exact ⟨rfl, h2.trans hys.symm⟩
      · obtain ⟨r, r1, r2⟩ := hgr g (hg.trans hys)
        have e : (TOp.one F sd).grads [x] y g = [r] := by simp [TOp.grads, TOp.one, r1]
        rw [e]
        show HasDerivAt _ (dsum [true] [r] [v]) t₀
        rw [dsum_one]
        have hrs : r.shape = v.shape := by rw [(r2 x rfl).1, ← hx]; exact hm.vshape.symm
        refine ((hm.pair hrs).const_add (pair g (theT (F (zeroT x.shape))))).congr_of_eventuallyEq ?_
        filter_upwards [hm.shape] with t ht
        exact affine r2 (γ t) (by rw [ht, hx])

/-! ### Operations affine in each of two operands -/

theorem biaffine_deriv {F : T ℝ → T ℝ → Res (T ℝ)} {s₁ s₂ : List Nat} {g : T ℝ} {ra rb : T ℝ → T ℝ}
    (hg : ∀ a b : T ℝ, a.shape = s₁ → b.shape = s₂ → IsGrad (fun a => F a b) a g (ra b) ∧ IsGrad (fun b => F a b) b g (rb a))
    {γ δ : ℝ → T ℝ} {v w : T ℝ} {t₀ : ℝ} (hγ : Moves γ v t₀) (hδ : Moves δ w t₀) (h1 : (γ t₀).shape = s₁) (h2 : (δ t₀).shape = s₂) :
    HasDerivAt (fun t => pair g (theT (F (γ t) (δ t)))) (pair (ra (δ t₀)) v + pair (rb (γ t₀)) w) t₀ := by
  have hv : v.shape = s₁ := hγ.vshape.trans h1
  have hw : w.shape = s₂ := hδ.vshape.trans h2
  -- the pairing as a function of the two operands
  obtain ⟨φ, hφ⟩ : ∃ φ : T ℝ → T ℝ → ℝ, φ = fun a b => pair g (theT (F a b)) := ⟨_, rfl⟩
  have A1 : ∀ a b : T ℝ, a.shape = s₁ → b.shape = s₂ → φ a b = φ (zeroT s₁) b + pair (ra b) a := fun a b ha hb => by
    rw [hφ]; exact affine (fun t ht => (hg t b ht hb).1) a ha
  have A2 : ∀ a b : T ℝ, a.shape = s₁ → b.shape = s₂ → φ a b = φ a (zeroT s₂) + pair (rb a) b := fun a b ha hb => by
    rw [hφ]; exact affine (fun t ht => (hg a t ha ht).2) b hb
  have hra : ∀ b : T ℝ, b.shape = s₂ → (ra b).shape = s₁ := fun b hb => (hg (zeroT s₁) b rfl hb).1.1
  have hrb : ∀ a : T ℝ, a.shape = s₁ → (rb a).shape = s₂ := fun a ha => (hg a (zeroT s₂) ha rfl).2.1
  have Z1 : ∀ b : T ℝ, b.shape = s₂ → ∀ e : Fin (size s₁), pair (ra b) (basis s₁ e) = φ (basis s₁ e) b - φ (zeroT s₁) b :=
    fun b hb e => by have := A1 (basis s₁ e) b rfl hb; linarith
  -- expanded in the entries of the first operand
  have A3 : ∀ a b : T ℝ, a.shape = s₁ → b.shape = s₂ → φ a b = φ (zeroT s₁) b +
      ∑ e : Fin (size s₁), a.at_ (unravel s₁ e) * (φ (basis s₁ e) b - φ (zeroT s₁) b) := by
    intro a b ha hb
    rw [A1 a b ha hb, pair_sum (hra b hb)]
    simp only [Z1 b hb]
  have P : ∀ a : T ℝ, a.shape = s₁ → HasDerivAt (fun t => φ a (zeroT s₂) + pair (rb a) (δ t)) (pair (rb a) w) t₀ :=
    fun a ha => (hδ.pair ((hrb a ha).trans hw.symm)).const_add _
  have hD := (P (zeroT s₁) rfl).add (HasDerivAt.fun_sum (u := Finset.univ) fun (e : Fin (size s₁)) _ =>
    (hγ.entry hv e).mul ((P (basis s₁ e) rfl).sub (P (zeroT s₁) rfl)))
  have hB : pair (rb (γ t₀)) w = pair (rb (zeroT s₁)) w +
      ∑ e : Fin (size s₁), (γ t₀).at_ (unravel s₁ e) * (pair (rb (basis s₁ e)) w - pair (rb (zeroT s₁)) w) := by
    have e1 := A2 (γ t₀) w h1 hw
    have e2 := A3 (γ t₀) w h1 hw
    have e3 := A3 (γ t₀) (zeroT s₂) h1 rfl
    have e4 := A2 (zeroT s₁) w rfl hw
    have e5 : ∀ e : Fin (size s₁), φ (basis s₁ e) w = φ (basis s₁ e) (zeroT s₂) + pair (rb (basis s₁ e)) w :=
      fun e => A2 _ w rfl hw
    have e6 : ∑ e : Fin (size s₁), (γ t₀).at_ (unravel s₁ e) * (φ (basis s₁ e) w - φ (zeroT s₁) w) =
        ∑ e : Fin (size s₁), (γ t₀).at_ (unravel s₁ e) * (φ (basis s₁ e) (zeroT s₂) - φ (zeroT s₁) (zeroT s₂)) +
        ∑ e : Fin (size s₁), (γ t₀).at_ (unravel s₁ e) * (pair (rb (basis s₁ e)) w - pair (rb (zeroT s₁)) w) := by
      rw [← Finset.sum_add_distrib]
      refine Finset.sum_congr rfl fun e _ => ?_
      rw [e5 e, e4]; ring
    linarith
  refine (hD.congr_deriv ?_).congr_of_eventuallyEq ?_
  · rw [hB, pair_sum (hra (δ t₀) h2) v, ← add_assoc, add_comm (∑ e : Fin (size s₁), _) (pair _ w), add_assoc,
      ← Finset.sum_add_distrib]
    congr 1
    refine Finset.sum_congr rfl fun e _ => ?_
    rw [Z1 _ h2, A2 _ _ rfl h2, A2 (zeroT s₁) _ rfl h2]
    simp only [Pi.sub_apply]
  · filter_upwards [hγ.shape, hδ.shape] with t ha hb
    have ha : (γ t).shape = s₁ := ha.trans h1
    have hb : (δ t).shape = s₂ := hb.trans h2
    have e8 : pair g (theT (F (γ t) (δ t))) = φ (γ t) (δ t) := by rw [hφ]
    show pair g (theT (F (γ t) (δ t))) = _
    rw [e8, A3 _ _ ha hb]
    simp only [Pi.add_apply, Pi.mul_apply, Pi.sub_apply]
    rw [A2 (zeroT s₁) _ rfl hb]
    congr 1
    refine Finset.sum_congr rfl fun e _ => ?_
    rw [A2 _ _ rfl hb]

/-- Operations that are affine in each of two operands. -/
theorem good_biaffine (F : T ℝ → T ℝ → Res (T ℝ)) (sd : T ℝ → T ℝ → T ℝ → T ℝ → Option (T ℝ × T ℝ)) (s' : List Nat) (a b y : T ℝ)
    (hy : F a b = .ok y) (hok : ∀ a' b' : T ℝ, a'.shape = a.shape → b'.shape = b.shape → ∃ y, F a' b' = .ok y ∧ y.shape = s')
    (hgr : ∀ g : T ℝ, g.shape = s' → ∃ ra rb : T ℝ → T ℝ, sd a b y g = some (ra b, rb a) ∧
      ∀ a' b' : T ℝ, a'.shape = a.shape → b'.shape = b.shape →
        IsGrad (fun a => F a b') a' g (ra b') ∧ IsGrad (fun b => F a' b) b' g (rb a')) :
    (TOp.two F sd).Good [a, b] y := by
  have hys : y.shape = s' := by
    obtain ⟨y', h1, h2⟩ := hok a b rfl rfl
    rw [hy] at h1; cases h1; exact h2
  refine ⟨hy, rfl, fun _ g hg => ?_, fun γs vs t₀ hx hM => ?_⟩
  · obtain ⟨ra, rb, r1, r2⟩ := hgr g (hg.trans hys)
    refine ⟨[ra b, rb a], by simp [TOp.two, r1], rfl, fun k r' x' h1 h2 h3 => ?_⟩
    match k with
    | 0 =>
      simp only [List.getElem?_cons_zero, Option.some.injEq] at h2 h3
      subst h2 h3
      exact (r2 a b rfl rfl).1.1
    | 1 =>
      simp only [List.getElem?_cons_succ, List.getElem?_cons_zero, Option.some.injEq] at h2 h3
      subst h2 h3
      exact (r2 a b rfl rfl).2.1
    | k + 2 => simp at h2
  · match γs, vs, hM with
    | [γ, δ], [v, w], .cons hm (.cons hn .nil) =>
      simp only [List.map_cons, List.map_nil, List.cons.injEq, and_true] at hx
      obtain ⟨hx1, hx2⟩ := hx
      refine ⟨fun t => theT (F (γ t) (δ t)), ?_, fun g hg => ?_⟩
      · filter_upwards [hm.shape, hn.shape] with t ht ht'
        obtain ⟨y', h1, h2⟩ := hok (γ t) (δ t) (by rw [ht, hx1]) (by rw [ht', hx2])
        show F (γ t) (δ t) = _ ∧ _
        rw [h1]
        exact ⟨rfl, h2.trans hys.symm⟩
      · obtain ⟨ra, rb, r1, r2⟩ := hgr g (hg.trans hys)
        have e : (TOp.two F sd).grads [a, b] y g = [ra b, rb a] := by simp [TOp.grads, TOp.two, r1]
        rw [e]
        show HasDerivAt _ (dsum [true, true] [ra b, rb a] [v, w]) t₀
        rw [dsum_two]
        have := biaffine_deriv r2 hm hn (by rw [hx1]) (by rw [hx2])
        rwa [hx1, hx2] at this

/-! ### Other operations with one operand -/

/-- Operations whose result moves with a velocity that is a function of the velocity of the operand. -/
theorem good_one (F : T ℝ → Res (T ℝ)) (sd : T ℝ → T ℝ → T ℝ → Option (T ℝ)) (x y : T ℝ) (hy : F x = .ok y)
    (hgr : ∀ g : T ℝ, g.shape = y.shape → ∃ r, sd x y g = some r ∧ IsGrad F x g r) (L : T ℝ → List Nat → ℝ)
    (hL : ∀ (γ : ℝ → T ℝ) (v : T ℝ) (t₀ : ℝ), γ t₀ = x → Moves γ v t₀ → ∃ z : ℝ → T ℝ,
      (∀ᶠ t in 𝓝 t₀, F (γ t) = .ok (z t) ∧ (z t).shape = y.shape) ∧
      ∀ j, InB y.shape j → HasDerivAt (fun t => (z t).at_ j) (L v j) t₀) :
    (TOp.one F sd).Good [x] y := by
  refine ⟨hy, rfl, fun _ g hg => ?_, fun γs vs t₀ hx hM => ?_⟩
  · obtain ⟨r, r1, r2⟩ := hgr g hg
    refine ⟨[r], by simp [TOp.one, r1], rfl, fun k r' x' h1 h2 h3 => ?_⟩
    cases k with
    | zero =>
      simp only [List.getElem?_cons_zero, Option.some.injEq] at h2 h3
      subst h2 h3
      exact r2.1
    | succ k => simp at h2
  · match γs, vs, hM with
    | [γ], [v], .cons hm .nil =>
      simp only [List.map_cons, List.map_nil, List.cons.injEq, and_true] at hx
      obtain ⟨z, z1, z2⟩ := hL γ v t₀ hx hm
      refine ⟨z, z1, fun g hg => ?_⟩
      obtain ⟨r, r1, r2⟩ := hgr g hg
      have e : (TOp.one F sd).grads [x] y g = [r] := by simp [TOp.grads, TOp.one, r1]
      rw [e]
      show HasDerivAt _ (dsum [true] [r] [v]) t₀
      rw [dsum_one]
      have hvs : v.shape = x.shape := by rw [← hx]; exact hm.vshape
      have hp : ∀ (z : ℝ → T ℝ) (t₀ : ℝ), (∀ j, InB y.shape j → HasDerivAt (fun t => (z t).at_ j) (L v j) t₀) →
          HasDerivAt (fun t => pair g (z t)) (sumOver g.shape fun i => g.at_ i * L v i) t₀ := by
        intro z t₀ hz
        simp only [pair_eq]
        exact sumOver_deriv _ (fun i t => g.at_ i * (z t).at_ i) _ t₀ fun i hi => (hz i (hg ▸ hi)).const_mul _
      refine (hp z t₀ z2).congr_deriv ?_
      obtain ⟨z', p1, p2⟩ := hL (fun t => moveT x v t) v 0 (moveT_zero x v) (Moves.line x v hvs)
      obtain ⟨y', q1, q2⟩ := r2.2 v hvs
      refine (hp z' 0 p2).unique (q2.congr_of_eventuallyEq ?_)
      filter_upwards [p1, q1] with t h1 h2
      have := h1.1.symm.trans h2.1
      simp only [Res.ok.injEq] at this
      rw [this]

end

end Verif.AD
