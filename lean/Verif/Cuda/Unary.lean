import Mathlib.Analysis.SpecialFunctions.Log.Base
import Mathlib.Analysis.SpecialFunctions.Trigonometric.DerivHyp
import Verif.Cuda.Engine
import Verif.Misc.Clip

/-!
# Elementwise unary operations on the device, and what can go wrong

`elemUnaryOp.CUDADo` (`op_math_cuda.go:23-85`) with the kernels of `cuda modules/src/elemunaryop.cu`, compared with the
functions used on the host (`operatorPointwise_unary_const.go`, `math.go`, `math_nooptim.go`). Numbers are real.
-/

set_option autoImplicit false

namespace Verif.Cuda

open Real

/-- The unary operations (`operatorPointwise_unary_const.go:74-104`). -/
inductive UnOp where
  | abs
  | sign
  | ceil
  | floor
  | sin
  | cos
  | exp
  | ln
  | log2
  | neg
  | square
  | sqrt
  | inverse
  | inverseSqrt
  | cube
  | tanh
  | sigmoid
  | log1p
  | expm1
  | softplus
deriving DecidableEq

/-- `ʘUnaryOpStrs` (`operatorPointwise_unary_const.go:117-125`). -/
def unOpName : UnOp → String
  | .abs => "abs"
  | .sign => "sign"
  | .ceil => "ceil"
  | .floor => "floor"
  | .sin => "sin"
  | .cos => "cos"
  | .exp => "exp"
  | .ln => "ln"
  | .log2 => "log2"
  | .neg => "neg"
  | .square => "square"
  | .sqrt => "sqrt"
  | .inverse => "inv"
  | .inverseSqrt => "invSqrt"
  | .cube => "cube"
  | .tanh => "tanh"
  | .sigmoid => "sigmoid"
  | .log1p => "log1p"
  | .expm1 => "expm1"
  | .softplus => "softplus"

/-- The kernels by name (`elemunaryop.cu:21-103` for 64 bits, `wide`; `109-191` for 32 bits). -/
noncomputable def unKernel (wide : Bool) : String → Option (ℝ → ℝ)
  | "cos" => some Real.cos
  | "sin" => some Real.sin
  | "exp" => some Real.exp
  | "ln" => some Real.log
  | "log2" => some (Real.logb 2)
  | "sqrt" => some Real.sqrt
  | "tanh" => some Real.tanh
  | "log1p" => some fun x => Real.log (1 + x)
  | "expm1" => some fun x => Real.exp x - 1
  | "abs" => some fun x => |x|
  | "ceil" => some fun x => (⌈x⌉ : ℝ)
  | "floor" => some fun x => (⌊x⌋ : ℝ)
  | "sign" => some fun x => (if x > 0 then 1 else 0) - (if x < 0 then 1 else 0)
  | "square" => some fun x => x * x
  | "cube" => some fun x => x * x * x
  | "neg" => some fun x => -x
  | "inverse" => some fun x => 1 / x
  | "softplus" => some fun x =>
      if wide then (if x < -708 then 0 else if x > 16 then x else Real.log (1 + Real.exp x))
      else (if x < -103 then 0 else if x > 14 then x else Real.log (1 + Real.exp x))
  | "sigmoid" => some fun x =>
      if wide then (if x < -709 then 0 else if x > 19 then 1 else 1 / (1 + Real.exp (-x)))
      else (if x < -88 then 0 else if x > 15 then 1 else 1 / (1 + Real.exp (-x)))
  | _ => none

/-- The functions of the host (`operatorPointwise_unary_const.go:13-69`, `math.go:13-68`, `math_nooptim.go:19-52`). -/
noncomputable def hostUn (wide : Bool) : UnOp → ℝ → ℝ
  | .abs => fun x => |x|
  | .sign => Misc.signCode
  | .ceil => fun x => (⌈x⌉ : ℝ)
  | .floor => fun x => (⌊x⌋ : ℝ)
  | .sin => Real.sin
  | .cos => Real.cos
  | .exp => Real.exp
  | .ln => Real.log
  | .log2 => Real.logb 2
  | .neg => fun x => -x
  | .square => fun x => x * x
  | .sqrt => Real.sqrt
  | .inverse => fun x => 1 / x
  | .inverseSqrt => fun x => 1 / Real.sqrt x
  | .cube => fun x => x * x * x
  | .tanh => Real.tanh
  | .sigmoid => if wide then Misc.sigmCode (-709) 19 else Misc.sigmCode (-88) 15
  | .log1p => fun x => Real.log (1 + x)
  | .expm1 => fun x => Real.exp x - 1
  | .softplus => if wide then Misc.softpCode (-708) 16 else Misc.softpCode (-103) 14

/-- `elemUnaryOp.CUDADo` (`op_math_cuda.go:23-85`). Without a kernel the host does the work and the result is copied
(42-53); the first log line (28) dereferences the preallocated value, so there is no run without one. -/
def elemUnaryRun (l : Limits) (wide : Bool) (u : UnOp) (prealloc : Option DT) (a : DT) (m m' : Nat → ℝ) : Prop :=
  match prealloc with
  | none => False
  | some p =>
    match unKernel wide (unOpName u) with
    | none => m' = fun x =>
        if p.ptr ≤ x ∧ x < p.ptr + logicalSize a.shape then hostUn wide u (m (a.ptr + (x - p.ptr))) else m x
    | some f =>
      Launch (elemGridSize l (logicalSize a.shape)) (un f p.ptr) (logicalSize a.shape)
        (copyMem m (if p.ptr = a.ptr ∧ a.shape = p.shape then none else some (p.ptr, a.ptr, a.shape.prod))) m'

/-- Where there is a kernel, it computes the function of the host, except that the sign of zero is zero on the device. -/
theorem unKernel_host (wide : Bool) (u : UnOp) (f : ℝ → ℝ) (h : unKernel wide (unOpName u) = some f) (x : ℝ)
    (hx : u = .sign → x ≠ 0) : f x = hostUn wide u x := by
  cases u
  case inverse => rw [(rfl : unKernel wide (unOpName .inverse) = none)] at h; cases h
  case inverseSqrt => rw [(rfl : unKernel wide (unOpName .inverseSqrt) = none)] at h; cases h
  case sign =>
    obtain rfl := Option.some.inj (h : some _ = some f)
    have := hx rfl
    simp only [hostUn, Misc.signCode, gt_iff_lt]
    rcases lt_trichotomy x 0 with c | c | c
    · rw [if_neg (not_lt.mpr c.le), if_pos c, if_pos c]; norm_num
    · exact absurd c this
    · rw [if_pos c, if_neg (not_lt.mpr c.le), if_neg (not_lt.mpr c.le)]; norm_num
  case softplus =>
    obtain rfl := Option.some.inj (h : some _ = some f)
    cases wide <;> simp only [hostUn, Misc.softpCode, if_true, Bool.false_eq_true, if_false, gt_iff_lt]
  case sigmoid =>
    obtain rfl := Option.some.inj (h : some _ = some f)
    cases wide <;> simp only [hostUn, Misc.sigmCode, if_true, Bool.false_eq_true, if_false, gt_iff_lt]
  all_goals
    obtain rfl := Option.some.inj (h : some _ = some f)
    rfl

theorem logicalSize_prod (s : List Nat) : logicalSize s = s.prod := by
  cases s <;> simp [logicalSize, isScalar, totalSize]

/-- A unary operation on the device gives the function of the host on every element, and changes nothing but the
result, whatever the order of the threads and wherever the result lies. Left out: the sign of zeros, and numbers of
elements beyond the first dimension of the grid. -/
theorem elemUnary_device_partial {l : Limits} {wide : Bool} {u : UnOp} {p a : DT} {m m' : Nat → ℝ}
    (hl : l.Takes a.shape.prod) (h : elemUnaryRun l wide u (some p) a m m') :
    (∀ i, i < a.shape.prod → (u = .sign → m (a.ptr + i) ≠ 0) →
        m' (p.ptr + i) = hostUn wide u (m (a.ptr + i)))
      ∧ ∀ x, x < p.ptr ∨ p.ptr + a.shape.prod ≤ x → m' x = m x := by
  unfold elemUnaryRun at h
  rcases e : unKernel wide (unOpName u) with _ | f
  · simp only [e, logicalSize_prod] at h
    subst h
    refine ⟨fun i hi _ => ?_, fun x hx => ?_⟩
    · simp only
      rw [if_pos (by omega)]
      congr 2
      omega
    · simp only
      rw [if_neg (by omega)]
  · simp only [e, logicalSize_prod] at h
    have hc : ∀ i, i < a.shape.prod → copyMem m (if p.ptr = a.ptr ∧ a.shape = p.shape then none
        else some (p.ptr, a.ptr, a.shape.prod)) (p.ptr + i) = m (a.ptr + i) := by
      intro i hi
      by_cases c : p.ptr = a.ptr ∧ a.shape = p.shape
      · rw [if_pos c, c.1]; rfl
      · rw [if_neg c]; exact copyMem_in m _ _ _ _ hi
    have ho : ∀ x, x < p.ptr ∨ p.ptr + a.shape.prod ≤ x → copyMem m (if p.ptr = a.ptr ∧ a.shape = p.shape then none
        else some (p.ptr, a.ptr, a.shape.prod)) x = m x := by
      intro x hx
      by_cases c : p.ptr = a.ptr ∧ a.shape = p.shape
      · rw [if_pos c]; rfl
      · rw [if_neg c]; exact copyMem_out m _ _ _ _ hx
    obtain ⟨t1, t2, t3, t4⟩ := hl
    have hn : NoRace (un f p.ptr) a.shape.prod := by
      intro i j hi hj hij
      simp only [un]
      omega
    obtain ⟨r1, r2⟩ := launch_spec hn (elemGridSize_covers l _ t1 t2 t3 t4) h
    refine ⟨fun i hi hs => ?_, fun x hx => ?_⟩
    · have := r1 i hi
      simp only [un] at this
      rw [this, hc i hi]
      exact unKernel_host wide u f e _ hs
    · rw [r2 x fun i hi => by simp only [un]; omega]
      exact ho x hx

/-- The sign of zero on the device is zero, on the host one. -/
theorem sign_zero_differs (wide : Bool) : ∃ f, unKernel wide (unOpName .sign) = some f ∧ f 0 = 0 ∧ hostUn wide .sign 0 = 1 := by
  refine ⟨_, rfl, ?_, ?_⟩ <;> simp [hostUn, Misc.signCode]

/-- The kernel for inverses is never used: it is loaded under another name than the one asked for. -/
theorem inverse_on_host (wide : Bool) : unKernel wide (unOpName .inverse) = none ∧ unKernel wide "inverse" ≠ none :=
  ⟨rfl, by simp [unKernel]⟩

/-! ## What the engine does not check -/

/-- A call which asks to add to a tensor is not refused, but carried out as one which overwrites it. -/
theorem incr_overwrites (fn : String) (a b t : DT) : engineBin fn a b (.incr t) = engineBin fn a b (.reuse t) := rfl

/-- If the result is to lie where the second operand lies, then the first operand is combined with itself. -/
theorem reuse_second_operand {l : Limits} {fn : String} {a b : DT} {p : Plan} {m m' : Nat → ℝ}
    (h : engineBin fn a b (.reuse b) = .ok p) (hs : a.shape ≠ []) (hl : l.Takes a.shape.prod) (hx : p.Exec l m m') :
    ∃ op, binKernel fn = some op
      ∧ ∀ i, i < a.shape.prod → m' (p.ret.ptr + i) = op (m (a.ptr + i)) (m (a.ptr + i)) := by
  obtain ⟨op, h1, h2, h3, c, size, ret, h4, rfl⟩ := engineBin_ok h
  have hsh := binaryCheck_shape h2
  obtain ⟨rfl, k1, k2, k3⟩ := place_ok hs (fun t ht => by
    simp only [Opt.target, Option.some.injEq] at ht; subst ht; rwa [← hsh]) h3 h4
  have hret : ret = b := by
    simp only [place, Opt.target, Except.ok.injEq, Prod.mk.injEq] at h4
    exact h4.2.2.symm
  subst hret
  have hf : form2 a ret = .vv := by simp [form2, isScalar, ← hsh, hs]
  simp only [Plan.Exec, hf, formKernel] at hx
  obtain ⟨t1, t2, t3, t4⟩ := hl
  have hn : NoRace (vv op ret.ptr ret.ptr) a.shape.prod := by
    intro i j hi hj hij
    simp only [vv]
    omega
  obtain ⟨r1, _⟩ := launch_spec hn (elemGridSize_covers l _ t1 t2 t3 t4) hx
  refine ⟨op, h1, fun i hi => ?_⟩
  have := r1 i hi
  simp only [vv] at this
  rw [this, k1 m i hi]

/-- With one block more than the first dimension of the grid takes, the elements of the last block stay as the first
operand was: nothing is computed for them, and no error is given. -/
theorem too_many_blocks {l : Limits} {fn : String} {a b : DT} {p : Plan} {m m' : Nat → ℝ}
    (h : engineBin fn a b .inPlace = .ok p) (hs : a.shape ≠ []) (hm : 0 < l.mtpb) (hX : 2 ≤ l.mgdx) (hY : 2 ≤ l.mgdy)
    (hZ : 0 < l.mgdz) (hn : a.shape.prod = l.mtpb * (l.mgdx + 1)) (hx : p.Exec l m m') (j : Nat) :
    m' (a.ptr + (l.mtpb * l.mgdx + j)) = m (a.ptr + (l.mtpb * l.mgdx + j)) := by
  obtain ⟨op, h1, h2, h3, c, size, ret, h4, rfl⟩ := engineBin_ok h
  obtain ⟨rfl, k1, k2, k3⟩ := place_ok hs (fun t ht => by simp [Opt.target] at ht) h3 h4
  have hret : ret = a := by
    simp only [place, Opt.target, Except.ok.injEq, Prod.mk.injEq] at h4
    exact h4.2.2.symm
  subst hret
  have hf : form2 ret b = .vv := by simp [form2, isScalar, ← binaryCheck_shape h2, hs]
  simp only [Plan.Exec, hf, formKernel, k3] at hx
  refine launch_misses hx _ fun i hi => ?_
  rw [hn, elemGridSize_misses l hm hX hY hZ] at hi
  simp only [vv]
  omega

/-- A scalar result put into a tensor of two elements: both threads work on the first cell, and there is a run in which
the second operand is added twice. -/
theorem scalar_in_tensor (l : Limits) (hm : 2 ≤ l.mtpb) (a b t : DT) (ha : a.shape = []) (hb : b.shape = [])
    (hd : a.dt = .f64) (hd' : b.dt = .f64) (hi : a.iter = false) (hi' : b.iter = false)
    (ht : t.shape = [2]) (htd : t.dt = .f64) (hne : b.ptr ≠ t.ptr) (m : Nat → ℝ) :
    ∃ p m', engineBin "add" a b (.reuse t) = .ok p ∧ p.Exec l m m' ∧ m' t.ptr = m a.ptr + m b.ptr + m b.ptr := by
  have hb1 : calcBlocks 2 l.mtpb = 1 := by
    unfold calcBlocks
    rw [show 2 + l.mtpb - 1 = 1 + l.mtpb by omega, Nat.add_div_right _ (by omega), Nat.div_eq_of_lt (by omega)]
  refine ⟨⟨some (t.ptr, a.ptr, 1), ss (fun x y => x + y) t.ptr b.ptr, 2, t⟩, ?_⟩
  let g : Grid := ⟨1, 1, 1, 2, 1, 1⟩
  have hg : elemGridSize l 2 = g := by simp [elemGridSize, hb1, g]
  let T0 : Thread := ⟨0, 0, 0, 0, 0, 0⟩
  let T1 : Thread := ⟨0, 0, 0, 1, 0, 0⟩
  have h0 : g.Has T0 := by simp [Grid.Has, g, T0]
  have h1 : g.Has T1 := by simp [Grid.Has, g, T1]
  have i0 : g.index T0 = 0 := by simp [Grid.index, g, T0]
  have i1 : g.index T1 = 1 := by simp [Grid.index, g, T1]
  have n01 : T1 ≠ T0 := by simp [T0, T1]
  let k : Kernel ℝ := ss (fun x y => x + y) t.ptr b.ptr
  let m0 := copyMem m (some (t.ptr, a.ptr, 1))
  have e1 : m0 t.ptr = m a.ptr := by simpa using copyMem_in m t.ptr a.ptr 1 0 (by omega)
  have e2 : m0 b.ptr = m b.ptr := copyMem_out m t.ptr a.ptr 1 b.ptr (by omega)
  let d0 : Dev ℝ := begin m0
  let d1 : Dev ℝ := ⟨m0, put d0.pc T0 (.one (m0 (k.rd1 (g.index T0))))⟩
  let d2 : Dev ℝ := ⟨m0, put d1.pc T0 (.two (m0 t.ptr) (m0 (k.rd2 (g.index T0))))⟩
  let d3 : Dev ℝ := ⟨put m0 (k.wr (g.index T0)) (k.fn (m0 t.ptr) (m0 b.ptr)), put d2.pc T0 .done⟩
  let d4 : Dev ℝ := ⟨d3.mem, put d3.pc T1 (.one (d3.mem (k.rd1 (g.index T1))))⟩
  let d5 : Dev ℝ := ⟨d3.mem, put d4.pc T1 (.two (d3.mem t.ptr) (d3.mem (k.rd2 (g.index T1))))⟩
  let d6 : Dev ℝ := ⟨put d3.mem (k.wr (g.index T1)) (k.fn (d3.mem t.ptr) (d3.mem b.ptr)), put d5.pc T1 .done⟩
  have s1 : Step g k 2 d0 d1 := .load1 d0 T0 h0 rfl (by omega)
  have s2 : Step g k 2 d1 d2 := .load2 d1 T0 _ h0 (by simp [d1, put, k, ss])
  have s3 : Step g k 2 d2 d3 := .store d2 T0 _ _ h0 (by simp [d2, put, k, ss])
  have s4 : Step g k 2 d3 d4 := .load1 d3 T1 h1 (by simp [d3, d2, d1, d0, put, n01, begin]) (by omega)
  have s5 : Step g k 2 d4 d5 := .load2 d4 T1 _ h1 (by simp [d4, put, k, ss])
  have s6 : Step g k 2 d5 d6 := .store d5 T1 _ _ h1 (by simp [d5, put, k, ss])
  refine ⟨d6.mem, ?_, ⟨d6, ?_, ?_, rfl⟩, ?_⟩
  · simp [engineBin, binKernel, binaryCheck, handleFuncOpts, place, Opt.target, ha, hb, hd, hd', hi, hi', ht, htd,
      isScalar, form2, formKernel, logicalSize, totalSize]
  · simp only [hg]
    exact .tail (.tail (.tail (.tail (.tail (.tail .refl s1) s2) s3) s4) s5) s6
  · simp only [hg]
    rintro ⟨x1, x2, x3, x4, x5, x6⟩ ⟨q1, q2, q3, q4, q5, q6⟩
    simp only [g] at q1 q2 q3 q4 q5 q6
    obtain rfl : x1 = 0 := by omega
    obtain rfl : x2 = 0 := by omega
    obtain rfl : x3 = 0 := by omega
    obtain rfl : x5 = 0 := by omega
    obtain rfl : x6 = 0 := by omega
    rcases Nat.lt_or_ge x4 1 with c | c
    · obtain rfl : x4 = 0 := by omega
      simp [d6, d5, d4, d3, put, T0, T1]
    · obtain rfl : x4 = 1 := by omega
      simp [d6, put, T1]
  · have nb : b.ptr ≠ t.ptr := hne
    simp [d6, d3, k, ss, put, nb, e1, e2]

/-! ## Examples -/

/-- The limits of a common device. -/
def usual : Limits := ⟨1024, 2147483647, 65535, 65535⟩

/-- 5000 elements make five blocks of 1024 threads. -/
example : elemGridSize usual 5000 = ⟨5, 1, 1, 1024, 1, 1⟩ := by decide +kernel

/-- A device with 65535 blocks in the first dimension: for 65537 blocks the grid has only 65535. -/
example : elemGridSize ⟨1024, 65535, 65535, 64⟩ (1024 * 65537) = ⟨65535, 1, 1, 1024, 1, 1⟩ := by decide +kernel

/-- With exactly as many blocks as the first dimension takes there is nothing to run at all. -/
example : (elemGridSize ⟨1024, 65535, 65535, 64⟩ (1024 * 65535)).threads = 0 := by decide +kernel

/-- The subtraction of two matrices on a common device, into a third one. -/
example (m m' : Nat → ℝ) (p : Plan)
    (h : elemBinOpPlan .sub (some ⟨12, [2, 3], .f64, false⟩) ⟨0, [2, 3], .f64, false⟩ ⟨6, [2, 3], .f64, false⟩ = .ok p)
    (hx : p.Exec usual m m') : m' 17 = m 5 - m 11 := by
  have hp : p.ret = ⟨12, [2, 3], .f64, false⟩ := by
    simp [elemBinOpPlan, isScalar, engineBin, methodName, binKernel, binaryCheck, handleFuncOpts, place, Opt.target,
      totalSize] at h
    rw [← h]
  have := (elemBinOp_device_partial h (fun t ht => by cases ht; simp) (by simp [resSize, Limits.Takes, usual])
    (by simp [hp, resSize, other, Apart]) hx).1 5 (by simp [resSize])
  simpa [hp, elt, meaning] using this

/-- Such a call is accepted, and there is a run. -/
example (m : Nat → ℝ) : ∃ p m', elemBinOpPlan .sub (some ⟨12, [2, 3], .f64, false⟩) ⟨0, [2, 3], .f64, false⟩
    ⟨6, [2, 3], .f64, false⟩ = .ok p ∧ p.Exec usual m m' := by
  obtain ⟨p, hp⟩ : ∃ p, elemBinOpPlan .sub (some ⟨12, [2, 3], .f64, false⟩) ⟨0, [2, 3], .f64, false⟩
      ⟨6, [2, 3], .f64, false⟩ = .ok p := by
    refine ⟨⟨some (12, 0, 6), vv (fun x y => x - y) 12 6, 6, ⟨12, [2, 3], .f64, false⟩⟩, ?_⟩
    simp [elemBinOpPlan, isScalar, engineBin, methodName, binKernel, binaryCheck, handleFuncOpts, place, Opt.target,
      totalSize, logicalSize, form2, formKernel]
  obtain ⟨m', hm⟩ := launch_exists (elemGridSize usual p.size) p.kernel p.size (copyMem m p.copy)
  exact ⟨p, m', hp, hm⟩

/-- The sigmoid of a scalar on the device, in place. -/
example (m m' : Nat → ℝ) (h0 : m 3 = 0)
    (h : elemUnaryRun usual true .sigmoid (some ⟨3, [], .f64, false⟩) ⟨3, [], .f64, false⟩ m m') : m' 3 = 1 / 2 := by
  have := (elemUnary_device_partial (by simp [Limits.Takes, usual]) h).1 0 (by simp) (by simp)
  simp only [Nat.add_zero, h0, hostUn, if_true] at this
  rw [this]
  unfold Misc.sigmCode
  norm_num

end Verif.Cuda
