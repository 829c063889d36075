import Verif.Shape.Gather
/-!
The define-by-run derivative of the slice increment (C62), the operation that the gradient of a slice is made of.
`/repo/op_tensor.go`, `/repo/op_math.go`, `/repo/operatorPointwise_binary.go`.
-/
set_option autoImplicit false
namespace Verif.Shape
open Verif.Tensor

/-! ### Model -/

/-- `elemBinOp.UnsafeDo` of an addition whose operator was built for a left operand of shape `a` and a tensor on the right
(op_math.go 36-67, 323-352; `tBinOp.UnsafeDo` and `do`, operatorPointwise_binary.go 312-317, 359-409). Result: the left operand
afterwards. With a tensor type on the left the addition writes there; otherwise the right value must be a tensor, which is then
the one written to, and the left operand (a scalar, handed over by value) stays. -/
noncomputable def unsafeAdd (leftTensor : Bool) (a b : T ℝ) : Res (T ℝ) :=
  if leftTensor then
    if a.shape = [] then .err -- "Expected left value to be Tensor"
    else elemVal (· + ·) a b
  else if b.shape = [] then .err -- "Expected right value to be Tensor"
  else .ok a

/-- What `sliceIncrOp.DoDiff` leaves: whether it succeeded, and the derivatives of the two operands. -/
structure IncrDiff where
  ok : Bool
  xd : T ℝ
  yd : T ℝ

/-- The second half of it (op_tensor.go 716-725), `xd'` being the first derivative by then. `yTensor`: the node added has
tensor type. -/
noncomputable def incrDiffY (ax s e : Nat) (yTensor : Bool) (xd' yd zd : T ℝ) : IncrDiff :=
  match sliceT ax s e zd with
  | .ok d => match unsafeAdd yTensor yd d with
    | .ok yd' => ⟨true, xd', yd'⟩
    | _ => ⟨false, xd', yd⟩
  | _ => ⟨false, xd', yd⟩

/-- `sliceIncrOp.DoDiff`, op_tensor.go 707-727. -/
noncomputable def incrDoDiff (ax s e : Nat) (yTensor : Bool) (xd yd zd : T ℝ) : IncrDiff :=
  match unsafeAdd true xd zd with
  | .ok xd' => incrDiffY ax s e yTensor xd' yd zd
  | _ => ⟨false, xd, yd⟩

/-! ### Theorems -/

theorem add_same (a b : T ℝ) (h : b.shape = a.shape) (hne : a.shape ≠ []) :
    ∃ w, unsafeAdd true a b = .ok w ∧ w.shape = a.shape ∧ ∀ i, InB a.shape i → w.at_ i = a.at_ i + b.at_ i := by
  refine ⟨⟨a.shape, fun i => a.at_ i + b.flat (ravel a.shape i)⟩, ?_, rfl, fun i hi => ?_⟩
  · unfold unsafeAdd elemVal
    rw [if_pos rfl, if_neg hne, if_neg hne, h, if_neg hne, shapeEq_refl, if_pos rfl]
  · show a.at_ i + b.flat (ravel a.shape i) = _
    rw [← h, flat_ravel b (by rw [h]; exact hi)]

/-- The true gradient of the increment in its first operand is zero. -/
theorem incr_first_grad (ax s e : Nat) (t g h : T ℝ) (hh : h.shape = t.shape) :
    IsGrad (fun x => .ok (sliceIncr ax s e x g)) t h ⟨t.shape, fun _ => 0⟩ := by
  refine ⟨rfl, fun d _ => ⟨fun _ => sliceIncr ax s e t g, Filter.Eventually.of_forall fun τ =>
    ⟨congrArg Res.ok (sliceIncr_first ax s e t (moveT t d τ) g rfl), hh.symm⟩, ?_⟩⟩
  refine (hasDerivAt_const (0 : ℝ) _).congr_deriv ?_
  rw [pair_eq]
  refine (sumOver_zero _ _ (fun i _ => ?_)).symm
  show (0 : ℝ) * _ = 0
  rw [zero_mul]

theorem slice_shape (ax s e : Nat) (h : T ℝ) (ha : ax < h.shape.length) (hse : s < e) (he : e ≤ h.shape.getD ax 0) :
    ∃ r, sliceT ax s e h = .ok r ∧ r.shape = if e - s = 1 then h.shape.eraseIdx ax else h.shape.set ax (e - s) := by
  unfold sliceT
  rw [if_pos ⟨ha, hse, he⟩]
  by_cases h1 : e - s = 1
  · exact ⟨_, by rw [if_pos h1], by rw [if_pos h1]⟩
  · exact ⟨_, by rw [if_neg h1], by rw [if_neg h1]⟩

/-- **C62 (define-by-run, what is added).** For an added operand that is a tensor the increment's `DoDiff` succeeds and adds the
true gradient to the derivative of that operand. -/
theorem incr_dodiff_second (ax s e : Nat) (t g xd yd h : T ℝ) (ha : ax < t.shape.length) (hse : s < e)
    (he : e ≤ t.shape.getD ax 0) (hg : g.shape = if e - s = 1 then t.shape.eraseIdx ax else t.shape.set ax (e - s))
    (hh : h.shape = t.shape) (hx : xd.shape = t.shape) (hy : yd.shape = g.shape) (hne : g.shape ≠ []) :
    ∃ v, IsGrad (fun x => .ok (sliceIncr ax s e t x)) g h v ∧ (incrDoDiff ax s e true xd yd h).ok = true ∧
      (incrDoDiff ax s e true xd yd h).yd.shape = g.shape ∧
      ∀ i, InB g.shape i → (incrDoDiff ax s e true xd yd h).yd.at_ i = yd.at_ i + v.at_ i := by
  have htne : t.shape ≠ [] := by intro h0; rw [h0] at ha; simp at ha
  obtain ⟨r, r1, r2⟩ := sliceIncr_grad ax s e t g h ha hse he hg hh
  obtain ⟨w, w1, _, _⟩ := add_same xd h (hh.trans hx.symm) (by rw [hx]; exact htne)
  obtain ⟨u, u1, u2, u3⟩ := add_same yd r (r2.1.trans hy.symm) (by rw [hy]; exact hne)
  have hE : incrDoDiff ax s e true xd yd h = ⟨true, w, u⟩ := by
    unfold incrDoDiff incrDiffY
    rw [w1, r1]
    simp only
    rw [u1]
  refine ⟨r, r2, by rw [hE], by rw [hE]; exact u2.trans hy, fun i hi => ?_⟩
  rw [hE]
  exact u3 i (by rw [hy]; exact hi)

/-- **C62, refuted (define-by-run, the first operand).** Whatever the added operand is, the whole incoming gradient is added to
the derivative of the first operand, on which the result does not depend: it is not the true gradient that is added. -/
theorem incr_dodiff_first_wrong (ax s e : Nat) (b : Bool) (t g xd yd h : T ℝ) (ha : ax < t.shape.length)
    (hh : h.shape = t.shape) (hx : xd.shape = t.shape) (p : List Nat) (hp : InB t.shape p) (hne : h.at_ p ≠ 0) :
    (∀ i, InB t.shape i → (incrDoDiff ax s e b xd yd h).xd.at_ i = xd.at_ i + h.at_ i) ∧
      ∀ v, IsGrad (fun x => .ok (sliceIncr ax s e x g)) t h v →
        (incrDoDiff ax s e b xd yd h).xd.at_ p ≠ xd.at_ p + v.at_ p := by
  have htne : t.shape ≠ [] := by intro h0; rw [h0] at ha; simp at ha
  obtain ⟨w, w1, _, w3⟩ := add_same xd h (hh.trans hx.symm) (by rw [hx]; exact htne)
  have hE : (incrDoDiff ax s e b xd yd h).xd = w := by
    unfold incrDoDiff incrDiffY
    rw [w1]
    simp only
    split
    · split <;> rfl
    · rfl
  have hall : ∀ i, InB t.shape i → (incrDoDiff ax s e b xd yd h).xd.at_ i = xd.at_ i + h.at_ i := by
    intro i hi
    rw [hE]
    exact w3 i (by rw [hx]; exact hi)
  refine ⟨hall, fun v hv => ?_⟩
  rw [hall p hp, hv.at (incr_first_grad ax s e t g h hh) p hp]
  intro h0
  exact hne (by simpa using h0)

/-- **C62, refuted (define-by-run, a scalar added).** One element of a vector is sliced out, so that the operand added is a
scalar: `DoDiff` fails whatever the values, and has by then changed the derivative of the first operand only. -/
theorem incr_dodiff_scalar_fails (n s : Nat) (xd yd h : T ℝ) (hs : s < n) (hh : h.shape = [n]) (hx : xd.shape = [n]) :
    (incrDoDiff 0 s (s + 1) false xd yd h).ok = false ∧ (incrDoDiff 0 s (s + 1) false xd yd h).yd = yd ∧
      ∀ i < n, (incrDoDiff 0 s (s + 1) false xd yd h).xd.at_ [i] = xd.at_ [i] + h.at_ [i] := by
  obtain ⟨w, w1, _, w3⟩ := add_same xd h (hh.trans hx.symm) (by rw [hx]; simp)
  obtain ⟨r, r1, r2⟩ := slice_shape 0 s (s + 1) h (by rw [hh]; simp) (by omega) (by rw [hh]; exact hs)
  have hr : r.shape = [] := by rw [r2, if_pos (by omega), hh]; rfl
  have hE : incrDoDiff 0 s (s + 1) false xd yd h = ⟨false, w, yd⟩ := by
    unfold incrDoDiff incrDiffY
    rw [w1, r1]
    simp only
    unfold unsafeAdd
    rw [if_neg (by simp), if_pos hr]
  rw [hE]
  exact ⟨rfl, rfl, fun i hi => w3 [i] (by rw [hx]; exact ⟨hi, trivial⟩)⟩

/-- **C62, refuted (define-by-run, a scalar added to more than one element).** `DoDiff` succeeds and leaves the derivative of the
scalar as it was, whatever gradient comes in. -/
theorem incr_dodiff_scalar_lost (ax s e : Nat) (xd yd h : T ℝ) (ha : ax < h.shape.length) (hse : s < e)
    (he : e ≤ h.shape.getD ax 0) (hx : xd.shape = h.shape) (hmore : e - s ≠ 1 ∨ 1 < h.shape.length) :
    (incrDoDiff ax s e false xd yd h).ok = true ∧ (incrDoDiff ax s e false xd yd h).yd = yd := by
  have hne : h.shape ≠ [] := by intro h0; rw [h0] at ha; simp at ha
  obtain ⟨w, w1, _, _⟩ := add_same xd h hx.symm (by rw [hx]; exact hne)
  obtain ⟨r, r1, r2⟩ := slice_shape ax s e h ha hse he
  have hr : r.shape ≠ [] := by
    intro h0
    have hl := congrArg List.length (h0.symm.trans r2)
    by_cases h1 : e - s = 1
    · rw [if_pos h1, List.length_eraseIdx_of_lt ha] at hl
      simp only [List.length_nil] at hl
      omega
    · rw [if_neg h1, List.length_set] at hl
      simp only [List.length_nil] at hl
      omega
  have hE : incrDoDiff ax s e false xd yd h = ⟨true, w, yd⟩ := by
    unfold incrDoDiff incrDiffY
    rw [w1, r1]
    simp only
    unfold unsafeAdd
    rw [if_neg (by simp), if_neg hr]
  rw [hE]
  exact ⟨rfl, rfl⟩

/-! ### Examples -/

/-- Vector of three; slice `[1:3]`; incoming `(5, 6, 7)`: the operand added gets `(6, 7)`, the first operand `(5, 6, 7)`
although its gradient is zero. -/
example : ∃ v, IsGrad (fun x => .ok (sliceIncr 0 1 3 ⟨[3], fun _ => 1⟩ x)) ⟨[2], fun _ => 2⟩ ⟨[3], fun i => 5 + i.getD 0 0⟩ v ∧
    (incrDoDiff 0 1 3 true ⟨[3], fun _ => 0⟩ ⟨[2], fun _ => 10⟩ ⟨[3], fun i => 5 + i.getD 0 0⟩).yd.at_ [1] = 10 + v.at_ [1] := by
  obtain ⟨v, h1, _, _, h4⟩ := incr_dodiff_second 0 1 3 ⟨[3], fun _ => 1⟩ ⟨[2], fun _ => 2⟩ ⟨[3], fun _ => 0⟩ ⟨[2], fun _ => 10⟩
    ⟨[3], fun i => 5 + i.getD 0 0⟩ (by decide) (by decide) (by decide) rfl rfl rfl rfl (by simp)
  exact ⟨v, h1, h4 [1] ⟨by decide, trivial⟩⟩

example : (incrDoDiff 0 1 3 true ⟨[3], fun _ => 0⟩ ⟨[2], fun _ => 10⟩ ⟨[3], fun i => 5 + i.getD 0 0⟩).xd.at_ [0] = 5 := by
  rw [(incr_dodiff_first_wrong 0 1 3 true ⟨[3], fun _ => 1⟩ ⟨[2], fun _ => 2⟩ ⟨[3], fun _ => 0⟩ ⟨[2], fun _ => 10⟩
    ⟨[3], fun i => 5 + i.getD 0 0⟩ (by decide) rfl rfl [0] ⟨by decide, trivial⟩ (by norm_num)).1 [0] ⟨by decide, trivial⟩]
  norm_num

example (a g h : ℝ) : (incrDoDiff 0 1 2 false ⟨[3], fun _ => a⟩ ⟨[], fun _ => g⟩ ⟨[3], fun _ => h⟩).ok = false :=
  (incr_dodiff_scalar_fails 3 1 _ _ _ (by decide) rfl rfl).1

example (a g h : ℝ) : (incrDoDiff 0 0 2 false ⟨[3], fun _ => a⟩ ⟨[], fun _ => g⟩ ⟨[3], fun _ => h⟩).yd.at_ [] = g := by
  rw [(incr_dodiff_scalar_lost 0 0 2 ⟨[3], fun _ => a⟩ ⟨[], fun _ => g⟩ ⟨[3], fun _ => h⟩ (by simp) (by decide) (by simp)
    rfl (Or.inl (by decide))).2]

end Verif.Shape
