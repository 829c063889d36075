import Verif.AD.TensorMore
import Verif.NN.Conv
import Verif.NN.Formulas
import Verif.NN.MaxPoolGrad
/-!
Operations of convolutional networks as nodes of `Verif.AD.TensorGrad`: patches of images, comparisons, max pooling.
-/
set_option autoImplicit false
namespace Verif.AD
open Verif.Tensor Verif.Shape Verif.NN Filter
open scoped Topology

noncomputable section

/-- A linear operation with the adjoint as gradient. -/
theorem good_linear (F : T ℝ → Res (T ℝ)) (sd : T ℝ → T ℝ → T ℝ → Option (T ℝ)) (s' : List Nat) (x : T ℝ)
    (hok : ∀ t : T ℝ, t.shape = x.shape → ∃ y, F t = .ok y ∧ y.shape = s')
    (hadj : ∀ y g : T ℝ, g.shape = s' → ∃ r, sd x y g = some r ∧ r.shape = x.shape ∧
      ∀ t z : T ℝ, t.shape = x.shape → F t = .ok z → pair g z = pair r t) :
    ∃ y, F x = .ok y ∧ y.shape = s' ∧ (TOp.one F sd).Good [x] y := by
  refine good_affine' F sd s' x fun y g hg => ?_
  obtain ⟨r, r1, r2, r3⟩ := hadj y g hg
  refine ⟨r, r1, fun t ht => ⟨r2.trans ht.symm, fun d hd => ?_⟩⟩
  choose z z1 z2 using fun τ : ℝ => hok (moveT t d τ) ht
  refine ⟨z, Eventually.of_forall fun τ => ⟨z1 τ, (z2 τ).trans hg.symm⟩, ?_⟩
  have e : (fun τ => pair g (z τ)) = fun τ => pair r (moveT t d τ) := funext fun τ => r3 _ _ ht (z1 τ)
  rw [e]
  exact (Moves.line t d hd).pair (r2.trans (hd.trans ht).symm)

theorem pair_data {a b : T ℝ} (h : b.shape = a.shape) : pair a b = dot (size a.shape) (data a) (data b) := by
  unfold pair dot
  refine Finset.sum_congr rfl fun k hk => ?_
  have hk := Finset.mem_range.1 hk
  rw [data_getD a k hk, data_getD b k (by rw [h]; exact hk), T.flat, T.flat, h]

theorem data_ofData (s : List Nat) (l : List ℝ) (h : l.length = size s) : data (ofData s l) = l := by
  refine List.ext_getElem (by rw [data_length]; exact h.symm) fun k h1 h2 => ?_
  have := data_getD (ofData s l) k (by rw [← data_length]; exact h1)
  rw [List.getD_eq_getElem?_getD, List.getElem?_eq_getElem h1, Option.getD_some] at this
  rw [this, ofData, ofFlat_flat s _ k (by rw [← h]; exact h2), List.getD_eq_getElem?_getD, List.getElem?_eq_getElem h2]
  rfl

theorem ofData_data (t : T ℝ) (i : List Nat) (hi : InB t.shape i) : (ofData t.shape (data t)).at_ i = t.at_ i := by
  show (data t).getD (ravel t.shape i) 0 = _
  rw [data_getD t _ (ravel_lt hi), T.flat, unravel_ravel hi]

/-! ### `im2col` -/

/-- A missing value is a panic. -/
def optRes {α : Type} : Option α → Res α
  | some a => .ok a
  | none => .panic

/-- `im2colOp.SymDiff` (op_nn.go 237-265) on tensors. -/
def im2colGrad (op : Conv) (order : List Nat) (x g : T ℝ) : Option (T ℝ) :=
  match x.shape with
  | [b, c, h, w] => (im2colSymDiff op b c h w order (data g)).map (ofData [b, c, h, w])
  | _ => none

/-- `im2colOp` (op_nn.go 161-291). `o1` and `o2`: the orders in which the goroutines of the two directions run. -/
def im2colTOp (op : Conv) (o1 o2 : List Nat) : TOp := .one (fun x => optRes (im2colT op o1 x)) fun x _ g => im2colGrad op o2 x g

theorem im2colTOp_good (op : Conv) (b c h w : Nat) (o1 o2 : List Nat) (h1 : o1.Perm (List.range b)) (h2 : o2.Perm (List.range b))
    (x : T ℝ) (hx : x.shape = [b, c, h, w]) (hh : 0 ≤ op.retH h) (hw : 0 ≤ op.retW w) :
    ∃ y, im2colT op o1 x = some y ∧ y.shape = [b, (op.retH h).toNat, (op.retW w).toNat, c * op.w * op.h] ∧
      (im2colTOp op o1 o2).Good [x] y := by
  have hsz : size [b, (op.retH h).toNat, (op.retW w).toNat, c * op.w * op.h] = b * op.colSize c h w := by
    simp only [size, Conv.colSize, Nat.mul_one]
  have hs4 : size [b, c, h, w] = b * (c * (h * w)) := by simp only [size, Nat.mul_one]
  obtain ⟨y, y1, y2, y3⟩ := good_linear (fun x => optRes (im2colT op o1 x)) (fun x _ g => im2colGrad op o2 x g)
    [b, (op.retH h).toNat, (op.retW w).toNat, c * op.w * op.h] x
    (fun t ht => by
      obtain ⟨y, y1, y2, _⟩ := im2colT_spec op b c h w o1 h1 t (ht.trans hx) hh hw
      exact ⟨y, by rw [y1]; rfl, y2⟩)
    (fun y g hg => by
      have hgl : (data g).length = b * op.colSize c h w := by rw [data_length, hg, hsz]
      obtain ⟨_, iy, _, b1, _, b3, _⟩ := im2col_adjoint op b c h w o1 o2 h1 h2 (data x) (data g)
        (List.replicate (b * (c * (h * w))) 0) (List.replicate (b * op.colSize c h w) 0)
        (by rw [data_length, hx, hs4]) hgl (by rw [List.length_replicate, data_length, hx, hs4]) (by rw [List.length_replicate, hgl])
      rw [data_length, hx, hs4] at b3
      refine ⟨ofData [b, c, h, w] iy, ?_, hx.symm, fun t z ht hz => ?_⟩
      · simp only [im2colGrad, hx]
        rw [im2colSymDiff, b1]
        rfl
      · have htl : (data t).length = b * (c * (h * w)) := by rw [data_length, ht, hx, hs4]
        obtain ⟨cx, iy', a1, b1', a3, _, e⟩ := im2col_adjoint op b c h w o1 o2 h1 h2 (data t) (data g)
          (List.replicate (b * (c * (h * w))) 0) (List.replicate (b * op.colSize c h w) 0)
          htl hgl (by rw [List.length_replicate, htl]) (by rw [List.length_replicate, hgl])
        rw [b1] at b1'
        cases b1'
        have hz' : z = ofData [b, (op.retH h).toNat, (op.retW w).toNat, c * op.w * op.h] cx := by
          simp only [im2colT, ht.trans hx] at hz
          rw [if_neg (by omega), hsz, a1] at hz
          simp only [Option.map_some, optRes, Res.ok.injEq] at hz
          exact hz.symm
        have hzs : z.shape = g.shape := by rw [hz', hg]; rfl
        rw [pair_comm hzs, pair_data (a := z) hzs.symm, pair_comm (a := ofData [b, c, h, w] iy) (ht.trans hx),
          pair_data (a := t) (show (ofData [b, c, h, w] iy).shape = t.shape from (ht.trans hx).symm), data_ofData _ _ (b3.trans hs4.symm),
          hz', data_ofData _ _ ((a3.trans hgl).trans hsz.symm)]
        show dot (size [b, (op.retH h).toNat, (op.retW w).toNat, c * op.w * op.h]) cx (data g) = _
        rw [hsz, ← hgl, e, ← data_length])
  refine ⟨y, ?_, y2, y3⟩
  match h' : im2colT op o1 x, y1 with
  | some y', y1 =>
    simp only [optRes, Res.ok.injEq] at y1
    rw [y1]

/-! ### Comparisons -/

/-- `elemBinOp` with a comparison and `retSame` (op_math.go 30-302): the result is a tensor of zeros and ones; `DiffWRT`
(op_math.go 202-217) is false for both operands. -/
def cmpTOp (P : ℝ → ℝ → Prop) : TOp where
  run := fun xs => match xs with
    | [a, b] => elem (mask P) a b
    | _ => .err
  diffs := [false, false]
  symDiff := fun _ _ _ => none

/-- A comparison can be differentiated (with derivative 0) where no element is on the border. -/
theorem cmpTOp_good (P : ℝ → ℝ → Prop) (s : List Nat) (a c : T ℝ) (ha : Fit s a) (hc : Fit s c) (hs : a.shape = s ∨ c.shape = s)
    (hP : ∀ i, InB s i → ∀ᶠ p : ℝ × ℝ in 𝓝 (bc a i, bc c i), mask P p.1 p.2 = mask P (bc a i) (bc c i)) :
    ∃ y, elem (mask P) a c = .ok y ∧ y.shape = s ∧ (∀ i, InB s i → y.at_ i = mask P (bc a i) (bc c i)) ∧
      (cmpTOp P).Good [a, c] y := by
  obtain ⟨y, y1, _, y3, y4⟩ := elem_bc (mask P) ha hc
  have y3 := y3 hs
  refine ⟨y, y1, y3, fun i hi => by rw [← bc_at y3 hi, y4 i hi], y1, rfl, fun h => by simp [cmpTOp] at h, fun γs vs t₀ hx hM => ?_⟩
  match γs, vs, hM with
  | [γ, δ], [v, w], .cons hm (.cons hn .nil) =>
    obtain ⟨hx1, hx2⟩ : γ t₀ = a ∧ δ t₀ = c := by simpa using hx
    have hev : ∀ᶠ t in 𝓝 t₀, elem (mask P) (γ t) (δ t) = .ok (theT (elem (mask P) (γ t) (δ t))) ∧
        (theT (elem (mask P) (γ t) (δ t))).shape = s ∧
        ∀ i, InB s i → (theT (elem (mask P) (γ t) (δ t))).at_ i = mask P (bc (γ t) i) (bc (δ t) i) := by
      filter_upwards [hm.shape, hn.shape] with t k1 k2
      rw [hx1] at k1
      rw [hx2] at k2
      obtain ⟨z, z1, _, z3, z4⟩ := elem_bc (mask P) (s := s) (a := γ t) (c := δ t) (by rw [Fit, k1]; exact ha) (by rw [Fit, k2]; exact hc)
      have z3 := z3 (by rw [k1, k2]; exact hs)
      rw [z1]
      exact ⟨rfl, z3, fun i hi => by rw [← z4 i hi, bc_at z3 hi]; rfl⟩
    have hst : ∀ᶠ t in 𝓝 t₀, ∀ k ∈ Finset.range (size s),
        mask P (bc (γ t) (unravel s k)) (bc (δ t) (unravel s k)) = mask P (bc a (unravel s k)) (bc c (unravel s k)) := by
      rw [eventually_all_finset]
      intro k hk
      have hi := inB_unravel (Finset.mem_range.1 hk)
      have d1 := (hm.bc (by rw [hx1]; exact ha) hi).continuousAt
      have d2 := (hn.bc (by rw [hx2]; exact hc) hi).continuousAt
      have := (d1.prodMk d2).tendsto.eventually (p := fun p : ℝ × ℝ => mask P p.1 p.2 = mask P (bc a (unravel s k)) (bc c (unravel s k)))
        (by simpa only [hx1, hx2] using hP _ hi)
      exact this
    refine ⟨fun t => theT (elem (mask P) (γ t) (δ t)), ?_, fun g hg => ?_⟩
    · filter_upwards [hev] with t ht
      exact ⟨ht.1, ht.2.1.trans y3.symm⟩
    · have e : dsum (cmpTOp P).diffs ((cmpTOp P).grads [a, c] y g) [v, w] = 0 := by simp [cmpTOp, TOp.grads, dsum]
      rw [e]
      refine (hasDerivAt_const t₀ (pair g y)).congr_of_eventuallyEq ?_
      filter_upwards [hev, hst] with t ht hs'
      unfold pair
      refine Finset.sum_congr rfl fun k hk => ?_
      rw [hg, y3] at hk ⊢
      have hi := inB_unravel (Finset.mem_range.1 hk)
      rw [ht.2.2 _ hi, hs' k hk, ← bc_at y3 hi, y4 _ hi]

/-- `≥`, `>`, `≤`, `<`, `=` and `≠` do not change near numbers that differ. -/
theorem cmp_locally {P : ℝ → ℝ → Prop} (hP : P = (· ≥ ·) ∨ P = (· > ·) ∨ P = (· ≤ ·) ∨ P = (· < ·) ∨ P = (· = ·) ∨ P = (· ≠ ·)) {x y : ℝ}
    (h : x ≠ y) : ∀ᶠ p : ℝ × ℝ in 𝓝 (x, y), mask P p.1 p.2 = mask P x y := by
  have hc : ∀ᶠ p : ℝ × ℝ in 𝓝 (x, y), (p.1 < p.2 ↔ x < y) ∧ (p.2 < p.1 ↔ y < x) := by
    rcases lt_or_gt_of_ne h with h | h
    · filter_upwards [(isOpen_lt continuous_fst continuous_snd).mem_nhds h] with p hp
      have hp : p.1 < p.2 := hp
      exact ⟨iff_of_true hp h, iff_of_false (not_lt.2 hp.le) (not_lt.2 h.le)⟩
    · filter_upwards [(isOpen_lt continuous_snd continuous_fst).mem_nhds h] with p hp
      have hp : p.2 < p.1 := hp
      exact ⟨iff_of_false (not_lt.2 hp.le) (not_lt.2 h.le), iff_of_true hp h⟩
  filter_upwards [hc] with p hp
  have : P p.1 p.2 ↔ P x y := by
    obtain ⟨h1, h2⟩ := hp
    rcases hP with rfl | rfl | rfl | rfl | rfl | rfl
    · show p.2 ≤ p.1 ↔ y ≤ x
      rw [← not_lt, ← not_lt, h1]
    · exact h2
    · show p.1 ≤ p.2 ↔ x ≤ y
      rw [← not_lt, ← not_lt, h2]
    · exact h1
    · show p.1 = p.2 ↔ x = y
      rw [le_antisymm_iff, le_antisymm_iff, ← not_lt, ← not_lt, ← not_lt, ← not_lt, h1, h2]
    · show ¬ p.1 = p.2 ↔ ¬ x = y
      rw [le_antisymm_iff, le_antisymm_iff, ← not_lt, ← not_lt, ← not_lt, ← not_lt, h1, h2]
  unfold mask
  by_cases hxy : P x y
  · rw [if_pos hxy, if_pos (this.2 hxy)]
  · rw [if_neg hxy, if_neg (fun h => hxy (this.1 h))]

/-! ### Max pooling -/

/-- The output and the mask of `maxPoolOp.Do` (op_nn.go 713-723) on a tensor. -/
def poolRun (op : Pool) (lo : ℝ) (x : T ℝ) : Option (T ℝ × List Int) :=
  match x.shape with
  | [b, c, h, w] =>
    let oh := (op.outH h).toNat
    let ow := (op.outW w).toNat
    (maxPool op lo b c h w (data x) (List.replicate (b * c * (oh * ow)) 0)).map fun r => (ofData [b, c, oh, ow] r.1, r.2)
  | _ => none

/-- `maxPoolOp.SymDiff` (op_nn.go 758-773) and `maxPoolDiffOp.Do`, with the mask left by the forward run. -/
def poolGrad (op : Pool) (lo : ℝ) (x g : T ℝ) : Option (T ℝ) :=
  match x.shape with
  | [b, c, h, w] => (poolRun op lo x).bind fun r =>
    (maxPoolDiff op b c h w (List.replicate (b * (c * (h * w))) 0) (data g) r.2).map (ofData [b, c, h, w])
  | _ => none

/-- `maxPoolOp` (op_nn.go 645-956). -/
def maxPoolTOp (op : Pool) (lo : ℝ) : TOp := .one (fun x => optRes ((poolRun op lo x).map Prod.fst)) fun x _ g => poolGrad op lo x g

/-- The largest elements of a window stay equal when the image moves along `γ`. -/
def TiesStay (op : Pool) (b c h w : Nat) (γ : ℝ → T ℝ) (t₀ : ℝ) : Prop :=
  ∀ bi ch i j y x y' x' : Nat, bi < b → ch < c → (i : Int) < op.outH h → (j : Int) < op.outW w →
    InWindow op op.padNorth op.padWest h w i j y x → InWindow op op.padNorth op.padWest h w i j y' x' →
    (∀ y₁ x₁, InWindow op op.padNorth op.padWest h w i j y₁ x₁ → (γ t₀).at_ [bi, ch, y₁, x₁] ≤ (γ t₀).at_ [bi, ch, y, x]) →
    (γ t₀).at_ [bi, ch, y', x'] = (γ t₀).at_ [bi, ch, y, x] → ∀ᶠ t in 𝓝 t₀, (γ t).at_ [bi, ch, y', x'] = (γ t).at_ [bi, ch, y, x]

theorem maxPoolTOp_fine_partial (op : Pool) (hsym : op.symmetric) (lo : ℝ) (b c h w : Nat) (x : T ℝ) (hx : x.shape = [b, c, h, w])
    (hh : 0 ≤ op.outH h) (hw : 0 ≤ op.outW w) (hlo : ∀ i, InB x.shape i → lo < x.at_ i) (hcov : Covered op h w) :
    ∃ y, (poolRun op lo x).map Prod.fst = some y ∧ y.shape = [b, c, (op.outH h).toNat, (op.outW w).toNat] ∧
      (maxPoolTOp op lo).Fine [x] y fun γs t₀ => ∀ γ ∈ γs, TiesStay op b c h w γ t₀ := by
  obtain ⟨oh, hoh⟩ : ∃ oh, oh = (op.outH h).toNat := ⟨_, rfl⟩
  obtain ⟨ow, how⟩ : ∃ ow, ow = (op.outW w).toNat := ⟨_, rfl⟩
  have hs4 : size [b, c, h, w] = b * c * (h * w) := by simp only [size, Nat.mul_one]; ring
  have hs' : size [b, c, oh, ow] = b * c * (oh * ow) := by simp only [size, Nat.mul_one]; ring
  have hdl : ∀ t : T ℝ, t.shape = [b, c, h, w] → (data t).length = b * c * (h * w) := fun t ht => by rw [data_length, ht, hs4]
  have hlod : ∀ t : T ℝ, t.shape = [b, c, h, w] → (∀ p < size [b, c, h, w], lo < t.flat p) → ∀ z ∈ data t, lo < z := by
    intro t ht hp z hz
    simp only [data, List.mem_map, List.mem_range] at hz
    obtain ⟨p, hp', rfl⟩ := hz
    exact hp p (ht ▸ hp')
  obtain ⟨out, mk, e1, e2, tgt, e3, e4, e5⟩ := pool_routing op hsym lo b c h w (data x) (List.replicate (b * c * (oh * ow)) 0) hh hw
    (hdl x hx) (hlod x hx fun p hp => hlo _ (hx ▸ inB_unravel hp)) hcov (by rw [List.length_replicate, hoh, how])
  rw [List.length_replicate] at e2 e3
  simp only [List.length_replicate] at e5
  rw [← hoh, ← how] at e4
  have hrun : poolRun op lo x = some (ofData [b, c, oh, ow] out, mk) := by
    simp only [poolRun, hx, ← hoh, ← how]
    rw [e1]
    rfl
  rw [← hoh, ← how]
  -- what the mask makes of an image
  obtain ⟨Z, hZ⟩ : ∃ Z : T ℝ → T ℝ, Z = fun v => ofFlat [b, c, oh, ow] fun k => v.flat (tgt k) := ⟨_, rfl⟩
  have hgr : ∀ g : T ℝ, g.shape = [b, c, oh, ow] → ∃ r, (maxPoolTOp op lo).grads [x] (ofData [b, c, oh, ow] out) g = [r] ∧
      (maxPoolTOp op lo).symDiff [x] (ofData [b, c, oh, ow] out) g = some [r] ∧ r.shape = [b, c, h, w] ∧
      ∀ v : T ℝ, v.shape = [b, c, h, w] → pair r v = pair g (Z v) := by
    intro g hg
    have hgl : (data g).length = b * c * (oh * ow) := by rw [data_length, hg, hs']
    obtain ⟨dx, d1, d2, d3⟩ := e5 (List.replicate (b * (c * (h * w))) 0) (data g) (by rw [List.length_replicate, hdl x hx]; ring) hgl
    have hsd : (maxPoolTOp op lo).symDiff [x] (ofData [b, c, oh, ow] out) g = some [ofData [b, c, h, w] dx] := by
      simp only [maxPoolTOp, TOp.one, poolGrad, hx, hrun, Option.bind_some, d1, Option.map_some]
    refine ⟨ofData [b, c, h, w] dx, by simp only [TOp.grads, hsd, Option.getD_some], hsd, rfl, fun v hv => ?_⟩
    have hl : pair (ofData [b, c, h, w] dx) v = ∑ p ∈ Finset.range (size [b, c, h, w]), dx.getD p 0 * v.flat p := by
      unfold pair
      refine Finset.sum_congr rfl fun p hp => ?_
      have hp := Finset.mem_range.1 hp
      show dx.getD (ravel [b, c, h, w] (unravel [b, c, h, w] p)) 0 * v.at_ (unravel [b, c, h, w] p) = _
      rw [ravel_unravel hp, T.flat, hv]
    have hr : pair g (Z v) = ∑ k ∈ Finset.range (b * c * (oh * ow)), (data g).getD k 0 * v.flat (tgt k) := by
      unfold pair
      rw [hg, ← hs']
      refine Finset.sum_congr rfl fun k hk => ?_
      have hk := Finset.mem_range.1 hk
      rw [data_getD g k (hg ▸ hk), T.flat, hg, hZ]
      show _ * v.flat (tgt (ravel [b, c, oh, ow] (unravel [b, c, oh, ow] k))) = _
      rw [ravel_unravel hk]
    rw [hl, hr]
    simp only [d3, Finset.sum_mul, hgl]
    rw [Finset.sum_comm]
    refine Finset.sum_congr rfl fun k hk => ?_
    rw [Finset.sum_eq_single (tgt k)]
    · simp
    · intro p _ hp; simp [Ne.symm hp]
    · intro hn
      have := (e3 k (Finset.mem_range.1 hk)).1
      rw [hdl x hx, ← hs4] at this
      exact absurd (Finset.mem_range.2 this) hn
  refine ⟨ofData [b, c, oh, ow] out, by rw [hrun]; rfl, rfl, ⟨?_, rfl, fun _ g hg => ?_, fun k r v g hk hg hr hv => ?_,
    fun γs vs t₀ hγ hP hM => ?_⟩⟩
  · show optRes ((poolRun op lo x).map Prod.fst) = _
    rw [hrun]
    rfl
  · obtain ⟨r, _, r2, r3, _⟩ := hgr g hg
    refine ⟨[r], r2, rfl, fun k r' x' _ h2 h3 => ?_⟩
    match k with
    | 0 =>
      simp only [List.getElem?_cons_zero, Option.some.injEq] at h2 h3
      subst h2 h3
      exact r3.trans hx.symm
    | k + 1 => simp at h2
  · match k, hk with
    | k + 1, hk => simp [maxPoolTOp, TOp.one] at hk
    | 0, _ =>
      obtain ⟨r', r1, _, r3, r4⟩ := hgr g hg
      rw [r1] at hr
      simp only [List.getElem?_cons_zero, Option.some.injEq] at hr
      subst hr
      rw [r4 v (hv.trans r3), pair_basis_sum hg]
      refine Finset.sum_congr rfl fun e _ => ?_
      obtain ⟨r', p1, _, _, p4⟩ := hgr (basis [b, c, oh, ow] e) rfl
      show _ = _ * pair (((maxPoolTOp op lo).grads [x] (ofData [b, c, oh, ow] out) (basis [b, c, oh, ow] e)).getD 0 ⟨[], fun _ => 0⟩) v
      rw [p1]
      show _ = _ * pair r' v
      rw [p4 v (hv.trans r3)]
      rfl
  · match γs, vs, hM with
    | [γ], [v], .cons hm .nil =>
      have hγ : γ t₀ = x := by simpa using hγ
      have hP := hP γ (by simp)
      have hvs : v.shape = [b, c, h, w] := by rw [hm.vshape, hγ, hx]
      obtain ⟨f, hf⟩ : ∃ f : ℝ → Nat → ℝ, f = fun τ p => (γ τ).at_ (unravel [b, c, h, w] p) := ⟨_, rfl⟩
      have hfd : ∀ p < size [b, c, h, w], HasDerivAt (fun τ => f τ p) (v.flat p) t₀ := by
        intro p hp
        rw [T.flat, hvs, hf]
        exact hm.der _ (by rw [hγ, hx]; exact inB_unravel hp)
      have hfx : ∀ p, f t₀ p = x.flat p := fun p => by rw [hf, T.flat, hx, ← hγ]
      have hfr : ∀ τ bi ch y₁ x₁, bi < b → ch < c → y₁ < h → x₁ < w →
          f τ (ravel [b, c, h, w] [bi, ch, y₁, x₁]) = (γ τ).at_ [bi, ch, y₁, x₁] := fun τ bi ch y₁ x₁ i1 i2 i3 i4 => by
        rw [hf]
        simp only
        rw [unravel_ravel (s := [b, c, h, w]) (i := [bi, ch, y₁, x₁]) ⟨i1, i2, i3, i4, trivial⟩]
      -- near `t₀` all elements stay above `lo`, and what is smaller stays smaller
      have hB : ∀ᶠ τ in 𝓝 t₀, ∀ p ∈ Finset.range (size [b, c, h, w]), lo < f τ p := by
        rw [eventually_all_finset]
        intro p hp
        have hp := Finset.mem_range.1 hp
        refine (hfd p hp).continuousAt.tendsto.eventually (lt_mem_nhds ?_)
        rw [hfx]
        exact hlo _ (inB_unravel (hx ▸ hp))
      have hC : ∀ᶠ τ in 𝓝 t₀, ∀ p ∈ Finset.range (size [b, c, h, w]), ∀ q ∈ Finset.range (size [b, c, h, w]),
          x.flat p < x.flat q → f τ p < f τ q := by
        rw [eventually_all_finset]
        intro p hp
        rw [eventually_all_finset]
        intro q hq
        by_cases hpq : x.flat p < x.flat q
        · have := (hfd p (Finset.mem_range.1 hp)).continuousAt.eventually_lt (hfd q (Finset.mem_range.1 hq)).continuousAt
            (by rw [hfx, hfx]; exact hpq)
          filter_upwards [this] with τ hτ _ using hτ
        · exact Eventually.of_forall fun _ h' => absurd h' hpq
      have hpix : ∀ {i j y₁ x₁ : Nat}, InWindow op op.padNorth op.padWest h w i j y₁ x₁ → y₁ < h ∧ x₁ < w :=
        fun h' => ⟨h'.2.2.1, h'.2.2.2.2.2⟩
      have hlt4 : ∀ {bi ch y₁ x₁ : Nat}, bi < b → ch < c → y₁ < h ∧ x₁ < w → ravel [b, c, h, w] [bi, ch, y₁, x₁] < size [b, c, h, w] :=
        fun i1 i2 i3 => ravel_lt ⟨i1, i2, i3.1, i3.2, trivial⟩
      have hD : ∀ᶠ τ in 𝓝 t₀, ∀ bi ∈ Finset.range b, ∀ ch ∈ Finset.range c, ∀ i ∈ Finset.range oh, ∀ j ∈ Finset.range ow,
          ∀ y₁ ∈ Finset.range h, ∀ x₁ ∈ Finset.range w, InWindow op op.padNorth op.padWest h w i j y₁ x₁ →
          x.flat (ravel [b, c, h, w] [bi, ch, y₁, x₁]) = x.flat (tgt (ravel [b, c, oh, ow] [bi, ch, i, j])) →
          f τ (ravel [b, c, h, w] [bi, ch, y₁, x₁]) = f τ (tgt (ravel [b, c, oh, ow] [bi, ch, i, j])) := by
        refine (eventually_all_finset _).2 fun bi hb => (eventually_all_finset _).2 fun ch hc => (eventually_all_finset _).2 fun i hi =>
          (eventually_all_finset _).2 fun j hj => (eventually_all_finset _).2 fun y₁ hy => (eventually_all_finset _).2 fun x₁ hx₁ => ?_
        rw [Finset.mem_range] at hb hc hi hj hy hx₁
        by_cases hw1 : InWindow op op.padNorth op.padWest h w i j y₁ x₁
        · by_cases heq : x.flat (ravel [b, c, h, w] [bi, ch, y₁, x₁]) = x.flat (tgt (ravel [b, c, oh, ow] [bi, ch, i, j]))
          · obtain ⟨y0, x0, q1, q2, q3⟩ := e4 bi ch i j hb hc (by omega) (by omega)
            rw [q2] at heq ⊢
            have hat : ∀ {y₁ x₁ : Nat}, y₁ < h ∧ x₁ < w → x.flat (ravel [b, c, h, w] [bi, ch, y₁, x₁]) = (γ t₀).at_ [bi, ch, y₁, x₁] :=
              fun hp => by rw [← hfx, hfr t₀ _ _ _ _ hb hc hp.1 hp.2]
            have hdat : ∀ {y₁ x₁ : Nat}, y₁ < h ∧ x₁ < w → (data x).getD (ravel [b, c, h, w] [bi, ch, y₁, x₁]) 0 = (γ t₀).at_ [bi, ch, y₁, x₁] :=
              fun hp => by rw [data_getD x _ (by rw [hx]; exact hlt4 hb hc hp), hat hp]
            have := hP bi ch i j y0 x0 y₁ x₁ hb hc (by omega) (by omega) q1 hw1 (fun y₂ x₂ h2 => by
              have := q3 y₂ x₂ h2
              rwa [hdat (hpix h2), hdat (hpix q1)] at this) (by rw [← hat (hpix hw1), ← hat (hpix q1), heq])
            filter_upwards [this] with τ hτ _ _
            rw [hfr τ _ _ _ _ hb hc hy hx₁, hfr τ _ _ _ _ hb hc (hpix q1).1 (hpix q1).2, hτ]
          · exact Eventually.of_forall fun _ _ h' => absurd h' heq
        · exact Eventually.of_forall fun _ h' => absurd h' hw1
      have hev : ∀ᶠ τ in 𝓝 t₀, ∃ z : T ℝ, optRes ((poolRun op lo (γ τ)).map Prod.fst) = .ok z ∧ z.shape = [b, c, oh, ow] ∧
          ∀ g : T ℝ, g.shape = [b, c, oh, ow] → pair g z = pair g (Z (γ τ)) := by
        filter_upwards [hm.shape, hB, hC, hD] with τ hA hB hC hD
        rw [hγ, hx] at hA
        have hff : ∀ p, f τ p = (γ τ).flat p := fun p => by rw [hf, T.flat, hA]
        obtain ⟨o2, m2, p1, p2⟩ := pool_max_partial op hsym lo b c h w (data (γ τ)) (List.replicate (b * c * (oh * ow)) 0) hh hw
          (hdl _ hA) (hlod _ hA fun p hp => by rw [← hff]; exact hB p (Finset.mem_range.2 hp)) (by rw [List.length_replicate, hoh, how])
        rw [← hoh, ← how] at p2
        refine ⟨ofData [b, c, oh, ow] o2, ?_, rfl, fun g hg => ?_⟩
        · simp only [poolRun, hA, ← hoh, ← how]
          rw [p1]
          rfl
        unfold pair
        rw [hg]
        refine Finset.sum_congr rfl fun k hk => ?_
        have hk := Finset.mem_range.1 hk
        congr 1
        rw [hZ]
        show o2.getD (ravel [b, c, oh, ow] (unravel [b, c, oh, ow] k)) 0 = (γ τ).flat (tgt (ravel [b, c, oh, ow] (unravel [b, c, oh, ow] k)))
        rw [ravel_unravel hk]
        obtain ⟨bi, ch, i, j, hb, hc, hi, hj, rfl, _⟩ := split_index (hs' ▸ hk)
        have hi' : (i : Int) < op.outH h := by omega
        have hj' : (j : Int) < op.outW w := by omega
        obtain ⟨y₁, x₁, f1, _, _, f4, f5⟩ := p2 bi ch i j hb hc hi' hj' (hcov i j hi' hj')
        obtain ⟨y0, x0, q1, q2, q3⟩ := e4 bi ch i j hb hc hi' hj'
        have l1 := hlt4 hb hc (hpix f1)
        have l0 := hlt4 hb hc (hpix q1)
        rw [List.getD_eq_getElem?_getD, f4, Option.getD_some, data_getD _ _ (by rw [hA]; exact l1)]
        have h3 := q3 y₁ x₁ f1
        have h5 := f5 y0 x0 q1
        rw [data_getD x _ (by rw [hx]; exact l1), data_getD x _ (by rw [hx]; exact l0)] at h3
        rw [data_getD _ _ (by rw [hA]; exact l0), data_getD _ _ (by rw [hA]; exact l1)] at h5
        rcases lt_or_eq_of_le h3 with h3 | h3
        · have := hC _ (Finset.mem_range.2 l1) _ (Finset.mem_range.2 l0) h3
          rw [hff, hff] at this
          linarith
        · have := hD bi (Finset.mem_range.2 hb) ch (Finset.mem_range.2 hc) i (Finset.mem_range.2 hi) j (Finset.mem_range.2 hj)
            y₁ (Finset.mem_range.2 (hpix f1).1) x₁ (Finset.mem_range.2 (hpix f1).2) f1 (by rw [q2]; exact h3)
          rw [hff, hff] at this
          exact this
      refine ⟨fun τ => theT (optRes ((poolRun op lo (γ τ)).map Prod.fst)), ?_, fun g hg => ?_⟩
      · filter_upwards [hev] with τ ⟨z, z1, z2, _⟩
        exact ⟨by show optRes ((poolRun op lo (γ τ)).map Prod.fst) = _; rw [z1]; rfl, by rw [z1]; exact z2⟩
      · obtain ⟨r, r1, _, r3, r4⟩ := hgr g hg
        rw [r1]
        show HasDerivAt _ (dsum [true] [r] [v]) t₀
        rw [dsum_one, r4 v hvs]
        have hder : HasDerivAt (fun τ => ∑ k ∈ Finset.range (size [b, c, oh, ow]), g.at_ (unravel [b, c, oh, ow] k) * f τ (tgt k))
            (pair g (Z v)) t₀ := by
          have : pair g (Z v) = ∑ k ∈ Finset.range (size [b, c, oh, ow]), g.at_ (unravel [b, c, oh, ow] k) * v.flat (tgt k) := by
            unfold pair
            rw [show g.shape = [b, c, oh, ow] from hg, hZ]
            refine Finset.sum_congr rfl fun k hk => ?_
            show _ * v.flat (tgt (ravel [b, c, oh, ow] (unravel [b, c, oh, ow] k))) = _
            rw [ravel_unravel (Finset.mem_range.1 hk)]
          rw [this]
          apply HasDerivAt.fun_sum
          intro k hk
          refine (hfd (tgt k) ?_).const_mul _
          have := (e3 k (hs' ▸ Finset.mem_range.1 hk)).1
          rwa [hdl x hx, ← hs4] at this
        refine hder.congr_of_eventuallyEq ?_
        filter_upwards [hev, hm.shape] with τ ⟨z, z1, z2, z3⟩ hA
        rw [z1]
        show pair g z = _
        rw [z3 g hg]
        unfold pair
        rw [show g.shape = [b, c, oh, ow] from hg, hZ]
        refine Finset.sum_congr rfl fun k hk => ?_
        show _ * (γ τ).flat (tgt (ravel [b, c, oh, ow] (unravel [b, c, oh, ow] k))) = _
        rw [ravel_unravel (Finset.mem_range.1 hk), hf, T.flat, hA, hγ, hx]

end

end Verif.AD
