import Verif.Types.Theorems
import Mathlib.Topology.Order.Basic
/-!
Model of the conversion between element types, `/repo/op_types.go` (property C72).

Values are reals: the elements of an `int` tensor are the integers among them. `int(x)` of Go drops the fraction.
-/
set_option autoImplicit false
namespace Verif.Types
open Verif.Tensor Verif.Shape

/-! ### Model -/

/-- `int(x)`. -/
noncomputable def goInt (x : ℝ) : ℝ := if 0 ≤ x then (⌊x⌋ : ℤ) else (⌈x⌉ : ℤ)

/-- The conversions of `UsePreallocDo`, op_types.go 94-160. -/
noncomputable def convert : Dt → Dt → Option (ℝ → ℝ)
  | .float64, .int => some goInt
  | .float32, .int => some goInt
  | .int, .float64 => some id
  | .int, .float32 => some id
  | _, _ => none

/-- `dtConvOp.Do`, op_types.go 49-52, through `UsePreallocDo`, 102-173: a scalar becomes a tensor of shape (1) (116-121 and so on). -/
noncomputable def convDo (f t : Dt) (x : T ℝ) : Res (T ℝ) :=
  match convert f t with
  | none => .err
  | some c => if x.shape = [] then .ok ⟨[1], fun _ => c (x.at_ [])⟩ else .ok ⟨x.shape, fun i => c (x.at_ i)⟩

/-- `dtConvOp.SymDiff`, op_types.go 82-91: the gradient converted back. -/
noncomputable def convSymDiff (f t : Dt) (g : T ℝ) : Res (T ℝ) := convDo t f g

/-- `ConvType`, op_types.go 13-21. -/
def convBuild (f t : Dt) (x : Operand) : Option (Res (Ty × List Nat)) := applyOp (.dtConv f t) [x]

/-! ### Values -/

/-- `int(x)` is the integer next to `x` towards zero. -/
theorem goInt_spec (x : ℝ) : ∃ n : ℤ, goInt x = n ∧ |(n : ℝ)| ≤ |x| ∧ |x| < |(n : ℝ)| + 1 ∧ 0 ≤ n * x := by
  unfold goInt
  by_cases h : 0 ≤ x
  · rw [if_pos h]
    have h1 : (0 : ℝ) ≤ (⌊x⌋ : ℤ) := by exact_mod_cast Int.floor_nonneg.2 h
    exact ⟨⌊x⌋, rfl, by rw [abs_of_nonneg h1, abs_of_nonneg h]; exact Int.floor_le x,
      by rw [abs_of_nonneg h1, abs_of_nonneg h]; exact Int.lt_floor_add_one x, mul_nonneg h1 h⟩
  · rw [if_neg h]
    have h' : x < 0 := lt_of_not_ge h
    have h1 : ((⌈x⌉ : ℤ) : ℝ) ≤ 0 := by exact_mod_cast Int.ceil_le.2 (by simpa using h'.le)
    refine ⟨⌈x⌉, rfl, ?_, ?_, mul_nonneg_of_nonpos_of_nonpos h1 h'.le⟩
    · rw [abs_of_nonpos h1, abs_of_neg h']
      exact neg_le_neg (Int.le_ceil x)
    · rw [abs_of_nonpos h1, abs_of_neg h']
      have := Int.ceil_lt_add_one x
      linarith

/-- **C72 (to integers).** Converting a tensor of floats to integers drops the fractions: every element becomes the integer next to it towards
zero. -/
theorem conv_toInt (f : Dt) (hf : f = .float64 ∨ f = .float32) (x : T ℝ) (hx : x.shape ≠ []) :
    ∃ y, convDo f .int x = .ok y ∧ y.shape = x.shape ∧
      ∀ i, ∃ n : ℤ, y.at_ i = n ∧ |(n : ℝ)| ≤ |x.at_ i| ∧ |x.at_ i| < |(n : ℝ)| + 1 ∧ 0 ≤ n * x.at_ i := by
  rcases hf with rfl | rfl
  all_goals
    refine ⟨⟨x.shape, fun i => goInt (x.at_ i)⟩, by simp [convDo, convert, hx], rfl, fun i => goInt_spec _⟩

/-- **C72 (to floats).** Converting integers to floats keeps the values. -/
theorem conv_toFloat (t : Dt) (ht : t = .float64 ∨ t = .float32) (x : T ℝ) (hx : x.shape ≠ []) :
    ∃ y, convDo .int t x = .ok y ∧ y.shape = x.shape ∧ ∀ i, y.at_ i = x.at_ i := by
  rcases ht with rfl | rfl
  all_goals
    refine ⟨⟨x.shape, fun i => x.at_ i⟩, by simp [convDo, convert, hx], rfl, fun i => rfl⟩

/-- **C72 (building).** A conversion can be built exactly for an operand of the element type converted from, with the type converted to. -/
theorem conv_build (f t : Dt) (x : Operand) :
    convBuild f t x = some (if x.dt = f then .ok (valTy t x.shape.length, x.shape) else .err) := by
  obtain ⟨d, s⟩ := x
  unfold convBuild applyOp
  by_cases h0 : s.length = 0
  · have h := infer_dt (.dt t) rfl d f s.length
    have e : opTy (.dtConv f t) [⟨d, s⟩] = mkFn [.dt f] (.dt t) := by simp [opTy, h0]
    simp only [List.map_cons, List.map_nil, Operand.ty, e, h]
    by_cases hd : d = f
    · simp [hd, h0, opShape, Res.bind, valTy]
    · simp [hd]
  · have h := infer_tdt (.tens s.length (.dt t)) rfl d f s.length s.length
    have e : opTy (.dtConv f t) [⟨d, s⟩] = mkFn [.tens s.length (.dt f)] (.tens s.length (.dt t)) := by simp [opTy, h0]
    simp only [List.map_cons, List.map_nil, Operand.ty, e, h]
    by_cases hd : d = f
    · simp [hd, h0, opShape, Res.bind, valTy]
    · simp [hd]

/-- **C72, refuted: other conversions.** Between other element types, and so between the two kinds of floats, a conversion can be built but never
run. -/
theorem conv_unsupported (f t : Dt) (h : ¬ ((f = .float64 ∨ f = .float32) ∧ t = .int) ∧ ¬ (f = .int ∧ (t = .float64 ∨ t = .float32)))
    (s : List Nat) (x : T ℝ) : convBuild f t ⟨f, s⟩ = some (.ok (valTy t s.length, s)) ∧ convDo f t x = .err := by
  refine ⟨by rw [conv_build]; simp, ?_⟩
  cases f <;> cases t <;> simp [convDo, convert] at h ⊢

/-- **C72, refuted: scalars.** A scalar is converted to a tensor with one axis, although the node has the type and shape of a scalar. -/
theorem conv_scalar (f t : Dt) (h : (convert f t).isSome) (x : T ℝ) (hx : x.shape = []) :
    convBuild f t ⟨f, x.shape⟩ = some (.ok (.dt t, [])) ∧ ∃ y, convDo f t x = .ok y ∧ y.shape = [1] := by
  refine ⟨by rw [conv_build, hx]; simp [valTy], ?_⟩
  cases hc : convert f t with
  | none => rw [hc] at h; simp at h
  | some c => exact ⟨⟨[1], fun _ => c (x.at_ [])⟩, by simp [convDo, hc, hx], rfl⟩

/-! ### Gradient -/

/-- Away from the integers, dropping the fraction does not change nearby. -/
theorem goInt_flat (x : ℝ) (hx : ∀ n : ℤ, x ≠ n) : ∀ᶠ y in nhds x, goInt y = goInt x := by
  have h0 : x ≠ 0 := by simpa using hx 0
  rcases lt_or_gt_of_ne h0 with h | h
  · have hc : (⌈x⌉ : ℤ) ≤ 0 := Int.ceil_le.2 (by simpa using h.le)
    have hc' : ((⌈x⌉ : ℤ) : ℝ) ≤ 0 := by exact_mod_cast hc
    have h1 : x < (⌈x⌉ : ℤ) := lt_of_le_of_ne (Int.le_ceil x) (hx _)
    have h2 : ((⌈x⌉ : ℤ) : ℝ) - 1 < x := by have := Int.ceil_lt_add_one x; linarith
    filter_upwards [Ioo_mem_nhds h2 h1] with y hy
    unfold goInt
    rw [if_neg (not_le.2 h), if_neg (not_le.2 (lt_of_lt_of_le hy.2 hc'))]
    congr 1
    exact Int.ceil_eq_iff.2 ⟨hy.1, hy.2.le⟩
  · have h1 : ((⌊x⌋ : ℤ) : ℝ) < x := lt_of_le_of_ne (Int.floor_le x) (fun e => hx _ e.symm)
    have h2 := Int.lt_floor_add_one x
    have hf : (0 : ℝ) ≤ (⌊x⌋ : ℤ) := by exact_mod_cast Int.floor_nonneg.2 h.le
    filter_upwards [Ioo_mem_nhds h1 h2] with y hy
    unfold goInt
    rw [if_pos h.le, if_pos (le_trans hf hy.1.le)]
    congr 1
    exact Int.floor_eq_iff.2 ⟨hy.1.le, hy.2⟩

theorem conv_flat_grad (f : Dt) (hf : f = .float64 ∨ f = .float32) (x g : T ℝ) (hx : x.shape ≠ []) (hg : g.shape = x.shape)
    (hn : ∀ i, InB x.shape i → ∀ n : ℤ, x.at_ i ≠ n) : IsGrad (convDo f .int) x g ⟨x.shape, fun _ => 0⟩ := by
  refine ⟨rfl, fun d hd => ⟨fun τ => ⟨x.shape, fun i => goInt (x.at_ i + τ * d.at_ i)⟩, ?_, ?_⟩⟩
  · refine Filter.Eventually.of_forall fun τ => ?_
    rcases hf with rfl | rfl <;> simp [convDo, convert, moveT, hx, hg]
  · have := hasDerivAt_pair g (fun τ => ⟨x.shape, fun i => goInt (x.at_ i + τ * d.at_ i)⟩) (fun _ => 0) (by
      intro i hi
      have hc : Filter.Tendsto (fun τ : ℝ => x.at_ i + τ * d.at_ i) (nhds 0) (nhds (x.at_ i)) := by
        have := (hasDerivAt_line (x.at_ i) (d.at_ i)).continuousAt.tendsto
        simpa using this
      have he := hc.eventually (goInt_flat (x.at_ i) (hn i (by rw [← hg]; exact hi)))
      exact (hasDerivAt_const (0 : ℝ) (goInt (x.at_ i))).congr_of_eventuallyEq he)
    refine this.congr_deriv ?_
    simp [pair_eq, sumOver]

/-- **C72, refuted: the gradient of dropping fractions.** Where no element is an integer the gradient is zero; the gradient built is the incoming
one, so that it is never the gradient unless that is zero. -/
theorem conv_toInt_grad (f : Dt) (hf : f = .float64 ∨ f = .float32) (x g : T ℝ) (hx : x.shape ≠ []) (hg : g.shape = x.shape)
    (hn : ∀ i, InB x.shape i → ∀ n : ℤ, x.at_ i ≠ n) :
    ∃ r, convSymDiff f .int g = .ok r ∧ (IsGrad (convDo f .int) x g r ↔ ∀ i, InB g.shape i → g.at_ i = 0) := by
  have hg' : g.shape ≠ [] := by rw [hg]; exact hx
  obtain ⟨r, r1, r2, r3⟩ := conv_toFloat f hf g hg'
  refine ⟨r, r1, ?_, ?_⟩
  · intro h i hi
    rw [hg] at hi
    have := h.at (conv_flat_grad f hf x g hx hg hn) i hi
    rw [← r3 i, this]
  · intro h
    obtain ⟨q1, q2⟩ := conv_flat_grad f hf x g hx hg hn
    refine ⟨by rw [r2, hg], fun d hd => ?_⟩
    obtain ⟨y, y1, y2⟩ := q2 d hd
    refine ⟨y, y1, y2.congr_deriv ?_⟩
    rw [pair_eq, pair_eq]
    show sumOver x.shape _ = sumOver r.shape _
    rw [r2, hg]
    refine sumOver_congr _ _ _ fun i hi => ?_
    rw [r3 i, h i (by rw [hg]; exact hi)]

/-- **C72, refuted: the gradient of converting to floats.** The gradient is the incoming one; the gradient built has its fractions dropped, so that
it is the gradient exactly when all elements are integers. -/
theorem conv_toFloat_grad (t : Dt) (ht : t = .float64 ∨ t = .float32) (x g : T ℝ) (hx : x.shape ≠ []) (hg : g.shape = x.shape) :
    ∃ r, convSymDiff .int t g = .ok r ∧ (IsGrad (convDo .int t) x g r ↔ ∀ i, InB g.shape i → ∃ n : ℤ, g.at_ i = n) := by
  have hg' : g.shape ≠ [] := by rw [hg]; exact hx
  have hid : IsGrad (convDo .int t) x g g := by
    refine ⟨hg, fun d hd => ⟨fun τ => moveT x d τ, ?_, ?_⟩⟩
    · refine Filter.Eventually.of_forall fun τ => ?_
      rcases ht with rfl | rfl <;> simp [convDo, convert, moveT, hx, hg]
    · have := hasDerivAt_pair g (fun τ => moveT x d τ) d.at_ (fun i _ => hasDerivAt_line (x.at_ i) (d.at_ i))
      refine this.congr_deriv ?_
      rw [pair_eq]
  refine ⟨⟨g.shape, fun i => goInt (g.at_ i)⟩, by rcases ht with rfl | rfl <;> simp [convSymDiff, convDo, convert, hg'], ?_, ?_⟩
  · intro h i hi
    rw [hg] at hi
    have := h.at hid i hi
    obtain ⟨n, hn, _⟩ := goInt_spec (g.at_ i)
    exact ⟨n, by rw [← this, ← hn]⟩
  · intro h
    obtain ⟨q1, q2⟩ := hid
    refine ⟨hg, fun d hd => ?_⟩
    obtain ⟨y, y1, y2⟩ := q2 d hd
    refine ⟨y, y1, y2.congr_deriv ?_⟩
    rw [pair_eq, pair_eq]
    refine sumOver_congr _ _ _ fun i hi => ?_
    obtain ⟨n, hn⟩ := h i hi
    show g.at_ i * _ = goInt (g.at_ i) * _
    congr 1
    rw [hn]
    unfold goInt
    by_cases h0 : (0 : ℝ) ≤ n <;> simp [h0]

/-! ### Examples -/

/-- Seven halves, and minus seven halves. -/
example : ∃ y, convDo .float64 .int ⟨[2], fun i => if i = [0] then 7 / 2 else -7 / 2⟩ = .ok y ∧ y.at_ [0] = 3 ∧ y.at_ [1] = -3 := by
  refine ⟨_, rfl, ?_, ?_⟩
  · show goInt (if ([0] : List Nat) = [0] then 7 / 2 else -7 / 2) = 3
    rw [if_pos rfl, goInt, if_pos (by norm_num), show ⌊(7 / 2 : ℝ)⌋ = 3 from Int.floor_eq_iff.2 (by norm_num)]
    norm_num
  · show goInt (if ([1] : List Nat) = [0] then 7 / 2 else -7 / 2) = -3
    rw [if_neg (by decide), goInt, if_neg (by norm_num), show ⌈(-7 / 2 : ℝ)⌉ = -3 from Int.ceil_eq_iff.2 (by norm_num)]
    norm_num

end Verif.Types
