import Verif.Shape.Reduce
import Mathlib.Analysis.SpecialFunctions.Log.Basic
import Mathlib.Analysis.SpecialFunctions.Pow.Real
import Mathlib.Analysis.SpecialFunctions.Trigonometric.DerivHyp
/-!
The composed functions of `/repo/operations.go` and `/repo/nn.go`: `LogSumExp` (C43), `Rectify`, `LeakyRelu`, `BinaryXent`,
`Mish` and `Norm` (C44), built from the elementwise operations and reductions and run.  Real arithmetic; the constant
`1.0 + 1e-16` of const.go 89-90 is 1 as a `float32` or `float64` (the spacing of `float64` above 1 is `2.2e-16`).
-/
set_option autoImplicit false
namespace Verif.NN
open Verif.Tensor Verif.Shape

/-! ### Model -/

/-- `LogSumExp`, operations.go 168-185. -/
noncomputable def logSumExp (a : T ℝ) (axis : Nat) : Res (T ℝ) :=
  (maxNode a [axis]).bind fun mx => (elem (· - ·) a mx).bind fun d => (sumNode (mapT Real.exp d) [axis]).bind fun s =>
    (elem (· + ·) s mx).bind fun s => sumNode (mapT Real.log s) [axis]

/-- Comparison with the result as a number (`retSame`). -/
noncomputable def mask (P : ℝ → ℝ → Prop) (a b : ℝ) : ℝ := by classical exact if P a b then 1 else 0

/-- `Rectify`, nn.go 136-163. -/
noncomputable def rectify (x : T ℝ) : Res (T ℝ) :=
  (elem (mask (· ≥ ·)) x (scalarT 0)).bind fun m => elem (· * ·) x m

/-- `LeakyRelu`, nn.go 83-131. -/
noncomputable def leakyRelu (x : T ℝ) (alpha : ℝ) : Res (T ℝ) :=
  (elem (mask (· ≥ ·)) x (scalarT 0)).bind fun ge => (elem (mask (· < ·)) x (scalarT 0)).bind fun lt =>
    (elem (· * ·) x ge).bind fun xge => (elem (· * ·) x lt).bind fun xlt =>
      (elem (· * ·) xlt (scalarT alpha)).bind fun xa => elem (· + ·) xge xa

/-- `BinaryXent`, nn.go 16-66. -/
noncomputable def binaryXent (output target : T ℝ) : Res (T ℝ) :=
  let logO := mapT Real.log output
  (elem (· - ·) (scalarT 1) target).bind fun omt => (elem (· - ·) (scalarT 1) output).bind fun omo =>
    (elem (· * ·) target logO).bind fun tLogO => (elem (· * ·) omt (mapT Real.log omo)).bind fun r =>
      (elem (· + ·) tLogO r).bind fun r => .ok (mapT (fun v => -v) r)

/-- `Mish`, operations.go 638-648. -/
noncomputable def mish (a : T ℝ) : Res (T ℝ) :=
  elem (· * ·) a (mapT Real.tanh (mapT (fun v => Real.log (1 + Real.exp v)) a))

/-- `Norm`, operations.go 279-324. `math.Pow` is the real power. -/
noncomputable def norm (a : T ℝ) (axis p : Nat) : Res (T ℝ) :=
  if p = 2 then (sumNode (mapT (fun v => v ^ 2) a) [axis]).bind fun s => .ok (mapT Real.sqrt s)
  else (elem (fun x y : ℝ => x ^ y) a (scalarT (p : ℝ))).bind fun q => (sumNode q [axis]).bind fun s =>
    elem (fun x y : ℝ => x ^ y) s (scalarT (1 / (p : ℝ)))

/-! ### Activations and losses -/

/-- **C44 (`Rectify`).** Every element is the maximum of the operand's and 0. -/
theorem rectify_value (x : T ℝ) : ∃ r, rectify x = .ok r ∧ r.shape = x.shape ∧ ∀ i, InB x.shape i → r.at_ i = max (x.at_ i) 0 := by
  unfold rectify
  obtain ⟨m, m1, m2, m3⟩ := elem_scalar_right (mask (· ≥ ·)) x (scalarT 0) rfl
  rw [m1]
  simp only [Res.bind]
  obtain ⟨r, r1, r2, r3⟩ := elem_same (· * ·) x m m2
  refine ⟨r, r1, r2, fun i hi => ?_⟩
  rw [r3 i hi, m3 i hi]
  unfold mask scalarT
  by_cases h : x.at_ i ≥ 0
  · rw [if_pos h, mul_one, max_eq_left h]
  · rw [if_neg h, mul_zero, max_eq_right (le_of_not_ge h)]

/-- **C44 (`LeakyRelu`).** -/
theorem leakyRelu_value (x : T ℝ) (alpha : ℝ) : ∃ r, leakyRelu x alpha = .ok r ∧ r.shape = x.shape ∧
    ∀ i, InB x.shape i → r.at_ i = if 0 ≤ x.at_ i then x.at_ i else alpha * x.at_ i := by
  unfold leakyRelu
  obtain ⟨m, m1, m2, m3⟩ := elem_scalar_right (mask (· ≥ ·)) x (scalarT 0) rfl
  obtain ⟨l, l1, l2, l3⟩ := elem_scalar_right (mask (· < ·)) x (scalarT 0) rfl
  rw [m1, l1]
  simp only [Res.bind]
  obtain ⟨a, a1, a2, a3⟩ := elem_same (· * ·) x m m2
  obtain ⟨b, b1, b2, b3⟩ := elem_same (· * ·) x l l2
  rw [a1, b1]
  simp only
  obtain ⟨c, c1, c2, c3⟩ := elem_scalar_right (· * ·) b (scalarT alpha) rfl
  rw [c1]
  simp only
  obtain ⟨r, r1, r2, r3⟩ := elem_same (· + ·) a c (by rw [c2, b2, a2])
  refine ⟨r, r1, by rw [r2, a2], fun i hi => ?_⟩
  rw [r3 i (by rw [a2]; exact hi), a3 i hi, c3 i (by rw [b2]; exact hi), b3 i hi, m3 i hi, l3 i hi]
  unfold mask scalarT
  by_cases h : x.at_ i ≥ 0
  · rw [if_pos h, if_neg (not_lt.2 h), if_pos h]; ring
  · rw [if_neg h, if_pos (lt_of_not_ge h), if_neg h]; ring

/-- **C44 (`BinaryXent`).** -/
theorem binaryXent_value (output target : T ℝ) (h : target.shape = output.shape) :
    ∃ r, binaryXent output target = .ok r ∧ r.shape = output.shape ∧ ∀ i, InB output.shape i →
      r.at_ i = -(target.at_ i * Real.log (output.at_ i) + (1 - target.at_ i) * Real.log (1 - output.at_ i)) := by
  unfold binaryXent
  obtain ⟨a, a1, a2, a3⟩ := elem_scalar_left (· - ·) (scalarT 1) target rfl
  obtain ⟨b, b1, b2, b3⟩ := elem_scalar_left (· - ·) (scalarT 1) output rfl
  simp only
  rw [a1, b1]
  simp only [Res.bind]
  obtain ⟨c, c1, c2, c3⟩ := elem_same (· * ·) target (mapT Real.log output) h.symm
  obtain ⟨d, d1, d2, d3⟩ := elem_same (· * ·) a (mapT Real.log b) (by show b.shape = _; rw [b2, a2, h])
  rw [c1, d1]
  simp only
  obtain ⟨r, r1, r2, r3⟩ := elem_same (· + ·) c d (by rw [d2, a2, c2])
  rw [r1]
  refine ⟨_, rfl, by show r.shape = _; rw [r2, c2, h], fun i hi => ?_⟩
  have hi' : InB target.shape i := by rw [h]; exact hi
  show -r.at_ i = _
  rw [r3 i (by rw [c2]; exact hi'), c3 i hi', d3 i (by rw [a2]; exact hi'), a3 i hi']
  show -(target.at_ i * Real.log (output.at_ i) + (1 - target.at_ i) * Real.log (b.at_ i)) = _
  rw [b3 i hi]
  rfl

/-- **C44 (`Mish`).** -/
theorem mish_value (a : T ℝ) : ∃ r, mish a = .ok r ∧ r.shape = a.shape ∧
    ∀ i, InB a.shape i → r.at_ i = a.at_ i * Real.tanh (Real.log (1 + Real.exp (a.at_ i))) := by
  obtain ⟨r, r1, r2, r3⟩ := elem_same (· * ·) a (mapT Real.tanh (mapT (fun v => Real.log (1 + Real.exp v)) a)) rfl
  exact ⟨r, r1, r2, r3⟩

theorem axesOf_single (n a : Nat) : axesOf n [a] = [a] := by simp [axesOf]

/-- **C44 (2-norm).** The 2-norm along an axis is the root of the sum of squares along it. -/
theorem norm2_value (a : T ℝ) (axis : Nat) (h : axis < a.shape.length) (hp : ∀ d ∈ a.shape, d ≠ 0) :
    ∃ r, norm a axis 2 = .ok r ∧ r.shape = dropAxes [axis] 0 a.shape ∧ ∀ j, InB r.shape j →
      r.at_ j = Real.sqrt (sumOver a.shape fun i => if dropAxes [axis] 0 i = j then a.at_ i ^ 2 else 0) := by
  have hr : a.shape ≠ [] := by intro e; rw [e] at h; simp at h
  unfold norm
  rw [if_pos rfl]
  obtain ⟨s, s1, s2, _, s3⟩ := sum_value (mapT (fun v => v ^ 2) a) [axis] hr (by simpa [mapT] using h) hp
  rw [axesOf_single] at s2 s3
  rw [s1]
  exact ⟨mapT Real.sqrt s, rfl, s2, fun j hj => by show Real.sqrt (s.at_ j) = _; rw [s3 j hj]; rfl⟩

/-- What the other norms compute: the `p`-th root of the sum of the `p`-th powers, without absolute values. -/
theorem normP_value (a : T ℝ) (axis p : Nat) (h2 : p ≠ 2) (h : axis < a.shape.length) (hp : ∀ d ∈ a.shape, d ≠ 0) :
    ∃ r, norm a axis p = .ok r ∧ r.shape = dropAxes [axis] 0 a.shape ∧ ∀ j, InB r.shape j →
      r.at_ j = (sumOver a.shape fun i => if dropAxes [axis] 0 i = j then a.at_ i ^ p else 0) ^ (1 / (p : ℝ)) := by
  have hr : a.shape ≠ [] := by intro e; rw [e] at h; simp at h
  unfold norm
  rw [if_neg h2]
  obtain ⟨q, q1, q2, q3⟩ := elem_scalar_right (fun x y : ℝ => x ^ y) a (scalarT (p : ℝ)) rfl
  rw [q1]
  simp only [Res.bind]
  obtain ⟨s, s1, s2, _, s3⟩ := sum_value q [axis] (by rw [q2]; exact hr) (by rw [q2]; simpa using h) (by rw [q2]; exact hp)
  rw [axesOf_single, q2] at s2 s3
  rw [s1]
  simp only
  obtain ⟨r, r1, r2, r3⟩ := elem_scalar_right (fun x y : ℝ => x ^ y) s (scalarT (1 / (p : ℝ))) rfl
  refine ⟨r, r1, by rw [r2, s2], fun j hj => ?_⟩
  rw [r3 j (by rw [← r2]; exact hj), s3 j (by rw [← r2]; exact hj)]
  show _ ^ (1 / (p : ℝ)) = _
  congr 1
  refine sumOver_congr _ _ _ (fun i hi => ?_)
  split
  · rw [q3 i hi]; exact Real.rpow_natCast _ _
  · rfl

/-- **C57 (even `p`).** For even `p` it is the `p`-norm. Missing: odd `p` (`norm_odd_wrong`). -/
theorem norm_even_partial (a : T ℝ) (axis p : Nat) (he : Even p) (h2 : p ≠ 2) (h : axis < a.shape.length) (hp : ∀ d ∈ a.shape, d ≠ 0) :
    ∃ r, norm a axis p = .ok r ∧ r.shape = dropAxes [axis] 0 a.shape ∧ ∀ j, InB r.shape j →
      r.at_ j = (sumOver a.shape fun i => if dropAxes [axis] 0 i = j then |a.at_ i| ^ p else 0) ^ (1 / (p : ℝ)) := by
  obtain ⟨r, r1, r2, r3⟩ := normP_value a axis p h2 h hp
  refine ⟨r, r1, r2, fun j hj => ?_⟩
  rw [r3 j hj]
  congr 1
  refine sumOver_congr _ _ _ (fun i _ => ?_)
  rw [he.pow_abs]

/-- **C57, refuted for every odd `p`.** The norm of `(1, -1)` comes out as 0. -/
theorem norm_odd_wrong (p : Nat) (ho : Odd p) : ∃ (a r : T ℝ), a.shape = [2] ∧ a.at_ [0] = 1 ∧ a.at_ [1] = -1 ∧
    norm a 0 p = .ok r ∧ r.shape = [] ∧ r.at_ [] = 0 ∧ r.at_ [] ≠ (|a.at_ [0]| ^ p + |a.at_ [1]| ^ p) ^ (1 / (p : ℝ)) := by
  have hp0 : p ≠ 0 := by rintro rfl; simp at ho
  have h2 : p ≠ 2 := by rintro rfl; revert ho; decide
  obtain ⟨r, r1, r2, r3⟩ := normP_value ⟨[2], fun i => if i = [0] then 1 else -1⟩ 0 p h2 (by simp) (by simp)
  have hv : r.at_ [] = 0 := by
    rw [r3 [] (by rw [r2]; decide)]
    have hz : (sumOver [2] fun i => if dropAxes [0] 0 i = [] then (if i = [0] then (1 : ℝ) else -1) ^ p else 0) = 0 := by
      simp [sumOver, size, Finset.sum_range_succ, unravel, dropAxes, ho.neg_one_pow]
    simp only at hz ⊢
    rw [hz]
    exact Real.zero_rpow (by simpa using hp0)
  refine ⟨_, r, rfl, rfl, by simp, r1, r2, hv, ?_⟩
  rw [hv]
  have : (0 : ℝ) < (|(1 : ℝ)| ^ p + |(-1 : ℝ)| ^ p) ^ (1 / (p : ℝ)) := Real.rpow_pos_of_pos (by norm_num) _
  simpa using this.ne

/-! ### LogSumExp -/

/-- What `LogSumExp` computes for a vector: with `m` the maximum, `log (Σ exp (x - m) + m)` (the maximum is added inside the
logarithm). -/
theorem logSumExp_vector (a : T ℝ) (n : Nat) (hn : n ≠ 0) (h : a.shape = [n]) : ∃ (r : T ℝ) (m : ℝ),
    logSumExp a 0 = .ok r ∧ r.shape = [] ∧ IsGreatest {v | ∃ k, k < n ∧ a.at_ [k] = v} m ∧
      r.at_ [] = Real.log ((∑ k ∈ Finset.range n, Real.exp (a.at_ [k] - m)) + m) := by
  obtain ⟨mx, m1, m2, _, m3⟩ := max_value a [0] (by rw [h]; simp) (by rw [h]; simp) (by rw [h]; simpa using hn)
  rw [axesOf_single, h] at m2 m3
  have hm2 : mx.shape = [] := by rw [m2]; rfl
  unfold logSumExp
  rw [m1]
  simp only [Res.bind]
  obtain ⟨d, d1, d2, d3⟩ := elem_scalar_right (· - ·) a mx hm2
  rw [d1]
  simp only
  rw [h] at d2 d3
  obtain ⟨s, s1, s2, _, s3⟩ := sum_value (mapT Real.exp d) [0] (by show d.shape ≠ []; rw [d2]; simp)
    (by show ∀ a ∈ [0], a < d.shape.length; rw [d2]; simp) (by show ∀ x ∈ d.shape, x ≠ 0; rw [d2]; simpa using hn)
  rw [axesOf_single] at s2 s3
  have hmd : (mapT Real.exp d).shape = [n] := d2
  rw [hmd] at s2 s3
  have hs2 : s.shape = [] := by rw [s2]; rfl
  rw [s1]
  simp only
  obtain ⟨u, u1, u2, u3⟩ := elem_same (· + ·) s mx (by rw [hs2, hm2])
  rw [u1]
  simp only
  have hl : (mapT Real.log u).shape = [] := by show u.shape = _; rw [u2, hs2]
  refine ⟨mapT Real.log u, mx.at_ [], ?_, hl, ?_, ?_⟩
  · unfold sumNode reduceNode
    rw [if_pos hl]
  · have := m3 [] (by rw [hm2]; trivial)
    refine ⟨?_, ?_⟩
    · obtain ⟨i, hi, _, e⟩ := this.1
      match i, hi with
      | [k], hk => exact ⟨k, hk.1, e⟩
    · rintro v ⟨k, hk, rfl⟩
      exact this.2 ⟨[k], ⟨hk, trivial⟩, rfl, rfl⟩
  · show Real.log (u.at_ []) = _
    rw [u3 [] (by rw [hs2]; trivial), s3 [] (by rw [hs2]; trivial), sumOver_cons]
    congr 2
    refine Finset.sum_congr rfl (fun k hk => ?_)
    have hk' := Finset.mem_range.1 hk
    have : ∀ F : List Nat → ℝ, sumOver [] F = F [] := by intro F; simp [sumOver, size, unravel]
    rw [this, if_pos (by rfl)]
    show Real.exp (d.at_ [k]) = _
    rw [d3 [k] ⟨hk', trivial⟩]

/-- **C43 (vectors whose maximum is 0).** Missing: every other vector (`logSumExp_wrong`), scalars, and tensors of higher
rank (`logSumExp_rejects`, `logSumExp_row_wrong`). -/
theorem logSumExp_partial (a : T ℝ) (n : Nat) (hn : n ≠ 0) (h : a.shape = [n])
    (hm : IsGreatest {v | ∃ k, k < n ∧ a.at_ [k] = v} 0) : ∃ r, logSumExp a 0 = .ok r ∧ r.shape = [] ∧
      r.at_ [] = Real.log (∑ k ∈ Finset.range n, Real.exp (a.at_ [k])) := by
  obtain ⟨r, m, r1, r2, r3, r4⟩ := logSumExp_vector a n hn h
  have e := r3.unique hm
  subst e
  exact ⟨r, r1, r2, by rw [r4]; simp⟩

/-- **C43, refuted.** For a vector of one element `c`, with `c > -1` and `c ≠ 0`, the result is `log (1 + c)`, which is less
than `c = log (exp c)`. -/
theorem logSumExp_wrong (a : T ℝ) (h : a.shape = [1]) (h0 : a.at_ [0] ≠ 0) (h1 : -1 < a.at_ [0]) :
    ∃ r, logSumExp a 0 = .ok r ∧ r.at_ [] < Real.log (Real.exp (a.at_ [0])) := by
  obtain ⟨r, m, r1, _, r3, r4⟩ := logSumExp_vector a 1 (by simp) h
  refine ⟨r, r1, ?_⟩
  obtain ⟨⟨k, hk, e⟩, _⟩ := r3
  have hk0 : k = 0 := by omega
  subst hk0
  rw [r4, Real.log_exp, ← e]
  simp only [Finset.range_one, Finset.sum_singleton, sub_self, Real.exp_zero]
  have := Real.log_lt_sub_one_of_pos (x := 1 + a.at_ [0]) (by linarith) (by intro hh; apply h0; linarith)
  linarith

/-- **C43, refuted for higher ranks.** If every axis has at least two elements and there are at least two axes,
`LogSumExp` is rejected. -/
theorem logSumExp_rejects (a : T ℝ) (axis : Nat) (h : axis < a.shape.length) (h2 : 2 ≤ a.shape.length) (hd : ∀ d ∈ a.shape, 2 ≤ d) :
    logSumExp a axis = .err := by
  have hr : a.shape ≠ [] := by intro e; rw [e] at h; simp at h
  obtain ⟨mx, m1, m2, _, _⟩ := max_value a [axis] hr (by simpa using h) (fun d hd' => by have := hd d hd'; omega)
  rw [axesOf_single] at m2
  have hl : mx.shape.length = a.shape.length - 1 := by
    rw [m2]; exact drop_length_eq [axis] a.shape (by simp) (by simpa using h)
  unfold logSumExp
  rw [m1]
  simp only [Res.bind]
  rw [elem_mismatch]
  · exact hr
  · intro e; rw [e] at hl; simp at hl; omega
  · rw [Bool.eq_false_iff]
    intro hs
    rcases shapeEq_cases hs with e | ⟨n, e, e' | e'⟩ | ⟨n, e, e' | e'⟩
    · rw [e] at hl h2; omega
    · rw [e] at h2; simp at h2
    · rw [e] at h2; simp at h2
    · have := hd 1 (by rw [e']; simp); omega
    · have := hd 1 (by rw [e']; simp); omega

theorem sumOver_nil (F : List Nat → ℝ) : sumOver [] F = F [] := by simp [sumOver, size, unravel]

theorem sumOver_vec (n : Nat) (F : List Nat → ℝ) : sumOver [n] F = ∑ k ∈ Finset.range n, F [k] := by
  rw [sumOver_cons]
  exact Finset.sum_congr rfl (fun k _ => sumOver_nil _)

/-- **C43, refuted for a row along its unit axis.** The result is a single number, the sum of `log (1 + x)` over the row, in
place of a vector equal to the row. -/
theorem logSumExp_row_wrong (a : T ℝ) (n : Nat) (hn : 2 ≤ n) (h : a.shape = [1, n]) : ∃ r, logSumExp a 0 = .ok r ∧ r.shape = [] ∧
    r.at_ [] = ∑ k ∈ Finset.range n, Real.log (1 + a.at_ [0, k]) := by
  have hp : ∀ d ∈ [1, n], d ≠ 0 := by simp; omega
  obtain ⟨mx, m1, m2, _, m3⟩ := max_value a [0] (by rw [h]; simp) (by rw [h]; simp) (by rw [h]; exact hp)
  rw [axesOf_single, h] at m2 m3
  have hm2 : mx.shape = [n] := by rw [m2]; rfl
  have hm3 : ∀ k, k < n → mx.at_ [k] = a.at_ [0, k] := by
    intro k hk
    obtain ⟨⟨i, i1, i2, i3⟩, _⟩ := m3 [k] (by rw [hm2]; exact ⟨hk, trivial⟩)
    match i, i1, i2 with
    | [p, q], i1, i2 =>
      have h1 : p < 1 := i1.1
      have h2 : [q] = [k] := i2
      rw [← i3, show p = 0 by omega, (List.cons.inj h2).1]
  unfold logSumExp
  rw [m1]
  simp only [Res.bind]
  have hd : ∃ d, elem (fun x y : ℝ => x - y) a mx = .ok d ∧ d.shape = [1, n] ∧ ∀ k, k < n → d.at_ [0, k] = 0 := by
    have hi : inferElem a.shape mx.shape = .ok [1, n] := by
      rw [h, hm2]
      simp [inferElem, isScalarEquiv, shapeEq, show n ≠ 1 by omega]
    unfold elem
    rw [hi]
    simp only [Res.bind]
    unfold elemVal
    rw [if_neg (by rw [h]; simp), if_neg (by rw [hm2]; simp), h, hm2, if_pos (by simp [shapeEq])]
    refine ⟨_, rfl, rfl, fun k hk => ?_⟩
    show a.at_ [0, k] - mx.flat (ravel [1, n] [0, k]) = 0
    have e : ravel [1, n] [0, k] = ravel mx.shape [k] := by rw [hm2]; simp [ravel, size]
    rw [e, flat_ravel mx (by rw [hm2]; exact ⟨hk, trivial⟩), hm3 k hk, sub_self]
  obtain ⟨d, d1, d2, d3⟩ := hd
  rw [d1]
  simp only
  have hmd : (mapT Real.exp d).shape = [1, n] := d2
  obtain ⟨s, s1, s2, _, s3⟩ := sum_value (mapT Real.exp d) [0] (by rw [hmd]; simp) (by rw [hmd]; simp) (by rw [hmd]; exact hp)
  rw [axesOf_single, hmd] at s2 s3
  have hs2 : s.shape = [n] := by rw [s2]; rfl
  have hs3 : ∀ k, k < n → s.at_ [k] = 1 := by
    intro k hk
    rw [s3 [k] (by rw [hs2]; exact ⟨hk, trivial⟩), sumOver_cons, Finset.sum_range_one, sumOver_vec,
      Finset.sum_eq_single k]
    · rw [if_pos (by rfl)]
      show Real.exp (d.at_ [0, k]) = 1
      rw [d3 k hk, Real.exp_zero]
    · intro q _ hq
      rw [if_neg]
      show ¬ [q] = [k]
      simpa using hq
    · intro hh; exact absurd (Finset.mem_range.2 hk) hh
  rw [s1]
  simp only
  obtain ⟨u, u1, u2, u3⟩ := elem_same (· + ·) s mx (by rw [hs2, hm2])
  rw [u1]
  simp only
  rw [hs2] at u2 u3
  have hl : (mapT Real.log u).shape = [n] := u2
  obtain ⟨r, r1, r2, _, r3⟩ := sum_value (mapT Real.log u) [0] (by rw [hl]; simp) (by rw [hl]; simp) (by rw [hl]; simp; omega)
  rw [axesOf_single, hl] at r2 r3
  have hr2 : r.shape = [] := by rw [r2]; rfl
  refine ⟨r, r1, hr2, ?_⟩
  rw [r3 [] (by rw [hr2]; trivial), sumOver_vec]
  refine Finset.sum_congr rfl (fun k hk => ?_)
  have hk' := Finset.mem_range.1 hk
  rw [if_pos (by rfl)]
  show Real.log (u.at_ [k]) = _
  rw [u3 [k] ⟨hk', trivial⟩, hs3 k hk', hm3 k hk']

/-- **C43, refuted for scalars.** The result is `log (1 + a)` in place of `a`. -/
theorem logSumExp_scalar (a : T ℝ) (axis : Nat) (h : a.shape = []) :
    ∃ r, logSumExp a axis = .ok r ∧ r.shape = [] ∧ r.at_ [] = Real.log (1 + a.at_ []) := by
  unfold logSumExp
  have hm : maxNode a [axis] = .ok a := by unfold maxNode reduceNode; rw [if_pos h]
  rw [hm]
  simp only [Res.bind]
  obtain ⟨d, d1, d2, d3⟩ := elem_same (fun x y : ℝ => x - y) a a rfl
  rw [d1]
  simp only
  have hs : sumNode (mapT Real.exp d) [axis] = .ok (mapT Real.exp d) := by
    unfold sumNode reduceNode; rw [if_pos (by show d.shape = []; rw [d2, h])]
  rw [hs]
  simp only
  obtain ⟨u, u1, u2, u3⟩ := elem_same (· + ·) (mapT Real.exp d) a (by show _ = d.shape; rw [d2])
  rw [u1]
  simp only
  have hu : u.shape = [] := by rw [u2]; show d.shape = []; rw [d2, h]
  refine ⟨mapT Real.log u, by unfold sumNode reduceNode; rw [if_pos (show (mapT Real.log u).shape = [] from hu)], hu, ?_⟩
  show Real.log (u.at_ []) = _
  rw [u3 [] (by show InB d.shape []; rw [d2, h]; trivial)]
  show Real.log (Real.exp (d.at_ []) + a.at_ []) = _
  rw [d3 [] (by rw [h]; trivial), sub_self, Real.exp_zero]

/-- Non-trivial instances: a rectified vector keeps 2 and clears -3; the 2-norm of `(3, 4)` is 5. -/
example : ∃ r, rectify ⟨[2], fun i => if i = [0] then 2 else -3⟩ = .ok r ∧ r.at_ [0] = 2 ∧ r.at_ [1] = 0 := by
  obtain ⟨r, r1, _, r3⟩ := rectify_value ⟨[2], fun i => if i = [0] then 2 else -3⟩
  refine ⟨r, r1, ?_, ?_⟩
  · rw [r3 [0] (by decide)]; norm_num
  · rw [r3 [1] (by decide)]; norm_num

example : ∃ r, norm ⟨[2], fun i => if i = [0] then 3 else 4⟩ 0 2 = .ok r ∧ r.at_ [] = 5 := by
  obtain ⟨r, r1, r2, r3⟩ := norm2_value ⟨[2], fun i => if i = [0] then 3 else 4⟩ 0 (by simp) (by simp)
  refine ⟨r, r1, ?_⟩
  rw [r3 [] (by rw [r2]; decide), sumOver_vec]
  simp only [Finset.sum_range_succ, Finset.range_zero, Finset.sum_empty]
  have h0 : dropAxes [0] 0 [0] = [] := rfl
  have h1 : dropAxes [0] 0 [1] = [] := rfl
  rw [if_pos h0, if_pos h1, if_pos trivial, if_neg (by decide), show (0 : ℝ) + 3 ^ 2 + 4 ^ 2 = 5 ^ 2 by norm_num]
  exact Real.sqrt_sq (by norm_num)

end Verif.NN
