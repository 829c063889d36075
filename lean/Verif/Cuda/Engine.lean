import Mathlib.Analysis.SpecialFunctions.Pow.Real
import Verif.Cuda.Launch

/-!
# Elementwise operations of the CUDA engine

Model of the methods of `cuda/arith.go` and `cuda/cmp.go` (generated, all of one form), of the checks of
`cuda/utils.go`, and of `CUDADo` of `elemUnaryOp` and `elemBinOp` (`op_math_cuda.go`).

Simplifications: elements are real numbers; device memory is a function from addresses (counted in elements) to
numbers; copies on the device act as if they read everything before they write; the choice between a method and its
`Scalar` variant is made by the tensor library and is written down in `elemBinOpPlan`; data orders are not looked at by
these methods and are left out.
-/

set_option autoImplicit false

namespace Verif.Cuda

/-- Element types as far as `binaryCheck` and `unaryCheck` tell them apart (`cuda/utils.go:59-101`). -/
inductive Dt where
  | f32
  | f64
  | other
deriving DecidableEq

/-- A tensor on the device: address, shape, element type, and whether it needs an iterator. -/
structure DT where
  ptr : Nat
  shape : List Nat
  dt : Dt
  iter : Bool

/-- `Shape.IsScalar`. -/
def isScalar (s : List Nat) : Bool := s.isEmpty

/-- `Shape.TotalSize`. -/
def totalSize (s : List Nat) : Nat := s.prod

/-- `logicalSize` (`cuda/utils.go:103-108`). -/
def logicalSize (s : List Nat) : Nat := if isScalar s then 1 else totalSize s

/-- The options of a call: reuse a tensor, add to a tensor, overwrite the first operand, or none. -/
inductive Opt where
  | reuse (t : DT)
  | incr (t : DT)
  | inPlace
  | none

/-- The errors of the methods, in the order of the checks. -/
inductive Err where
  | noFunc
  | badType
  | typeMismatch
  | shapeMismatch
  | iterator
  | reuseType
  | reuseSize
  | impossible
deriving DecidableEq

/-- `binaryCheck` (`cuda/utils.go:57-87`). -/
def binaryCheck (a b : DT) : Option Err :=
  if a.dt = .other then some .badType
  else if b.dt = .other then some .badType
  else if a.dt ≠ b.dt then some .typeMismatch
  else if a.shape ≠ b.shape then some .shapeMismatch
  else if a.iter then some .iterator
  else if b.iter then some .iterator
  else none

/-- `unaryCheck` (`cuda/utils.go:89-101`). -/
def unaryCheck (a : DT) : Option Err :=
  if a.dt = .other then some .badType
  else if a.iter then some .iterator
  else none

/-- The tensor taken for reuse (`IncrReuse`, used in `cuda/utils.go:25`): that of either option. -/
def Opt.target : Opt → Option DT
  | .reuse t => some t
  | .incr t => some t
  | .inPlace => Option.none
  | .none => Option.none

/-- `handleFuncOpts` with `strict` set, as all methods here call it (`cuda/utils.go:22-55`). -/
def handleFuncOpts (expShape : List Nat) (expType : Dt) (o : Opt) : Option Err :=
  match o.target with
  | some t =>
    if t.dt ≠ expType then some .reuseType
    else if t.shape.prod ≠ totalSize expShape ∧ isScalar expShape = false then some .reuseSize
    else none
  | none => none

/-- The four forms of a kernel (`constructName2`, `cuda/utils.go:110-125`). -/
inductive Form where
  | ss
  | sv
  | vs
  | vv
deriving DecidableEq

/-- `constructName2` (`cuda/utils.go:110-125`), as far as the form goes. -/
def form2 (a b : DT) : Form :=
  if isScalar a.shape && isScalar b.shape then .ss
  else if isScalar a.shape && !isScalar b.shape then .sv
  else if !isScalar a.shape && isScalar b.shape then .vs
  else .vv

/-- `constructName1` (`cuda/utils.go:127-135`). -/
def form1 (leftTensor : Bool) : Form := if leftTensor then .vs else .sv

/-- The binary kernels by name (`cuda modules/src/elembinop.cu:39-164` and `192-199`; those for `mod` are commented out
in `201-209`). Comparisons store 1 or 0. -/
noncomputable def binKernel : String → Option (ℝ → ℝ → ℝ)
  | "add" => some fun x y => x + y
  | "sub" => some fun x y => x - y
  | "mul" => some fun x y => x * y
  | "div" => some fun x y => x / y
  | "pow" => some fun x y => Real.rpow x y
  | "gt" => some fun x y => if x > y then 1 else 0
  | "gte" => some fun x y => if x ≥ y then 1 else 0
  | "lt" => some fun x y => if x < y then 1 else 0
  | "lte" => some fun x y => if x ≤ y then 1 else 0
  | "eq" => some fun x y => if x = y then 1 else 0
  | "ne" => some fun x y => if x ≠ y then 1 else 0
  | _ => none

/-- The kernel of a form on two addresses. -/
def formKernel (f : Form) (op : ℝ → ℝ → ℝ) (A B : Nat) : Kernel ℝ :=
  match f with
  | .ss => ss op A B
  | .sv => sv op A B
  | .vs => vs op A B
  | .vv => vv op A B

/-- What a method hands to the device: perhaps a copy (target, source, length), then a launch. -/
structure Plan where
  copy : Option (Nat × Nat × Nat)
  kernel : Kernel ℝ
  size : Nat
  ret : DT

/-- The target of the launch, the copy before it and the number of elements
(`cuda/arith.go:34-48`, the same in all methods). -/
def place (a : DT) (o : Opt) : Except Err (Option (Nat × Nat × Nat) × Nat × DT) :=
  match o.target with
  | some t => .ok (some (t.ptr, a.ptr, a.shape.prod), logicalSize t.shape, t)
  | none =>
    match o with
    | .inPlace => .ok (none, logicalSize a.shape, a)
    | _ => .error .impossible

/-- `Engine.Add`, `Sub`, `Mul`, `Div`, `Pow`, `Mod` (`cuda/arith.go:14-64`, `129-179`, `244-294`, `359-409`, `474-524`,
`589-639`) and `Lt`, `Lte`, `Gt`, `Gte`, `ElEq`, `ElNe` (`cuda/cmp.go`, the same lines); `fn` is the name each of them
gives to `constructName2`. -/
noncomputable def engineBin (fn : String) (a b : DT) (o : Opt) : Except Err Plan :=
  match binKernel fn with
  | none => .error .noFunc
  | some op =>
    match binaryCheck a b with
    | some e => .error e
    | none =>
      match handleFuncOpts a.shape a.dt o with
      | some e => .error e
      | none =>
        match place a o with
        | .error e => .error e
        | .ok (c, size, ret) => .ok ⟨c, formKernel (form2 a b) op ret.ptr b.ptr, size, ret⟩

/-- `Engine.AddScalar`, `SubScalar`, … (`cuda/arith.go:67-126`, `182-241`, `297-356`, `412-471`, `527-586`, `642-701`)
and `LtScalar`, … (`cuda/cmp.go`, the same lines). The scalar is given by its address. -/
noncomputable def engineScalar (fn : String) (a : DT) (b : Nat) (leftTensor : Bool) (o : Opt) : Except Err Plan :=
  match binKernel fn with
  | none => .error .noFunc
  | some op =>
    match unaryCheck a with
    | some e => .error e
    | none =>
      match handleFuncOpts a.shape a.dt o with
      | some e => .error e
      | none =>
        match place a o with
        | .error e => .error e
        | .ok (c, size, ret) =>
          .ok ⟨c, if leftTensor then formKernel (form1 leftTensor) op ret.ptr b
            else formKernel (form1 leftTensor) op b ret.ptr, size, ret⟩

/-- A copy on the device (`Engine.memcpy`, `cuda/engine.go:126-128`). -/
def copyMem (m : Nat → ℝ) (c : Option (Nat × Nat × Nat)) : Nat → ℝ :=
  match c with
  | some (dst, src, len) => fun x => if dst ≤ x ∧ x < dst + len then m (src + (x - dst)) else m x
  | none => m

/-- The device carries a plan out: the copy, then some complete run of the launch. -/
def Plan.Exec (l : Limits) (p : Plan) (m m' : Nat → ℝ) : Prop :=
  Launch (elemGridSize l p.size) p.kernel p.size (copyMem m p.copy) m'

/-- A size for which `ElemGridSize` gives each element a thread. -/
def Limits.Takes (l : Limits) (n : Nat) : Prop :=
  0 < l.mtpb ∧ 0 < l.mgdy ∧ 0 < l.mgdz ∧ (n ≤ l.mtpb ∨ n ≤ l.mtpb * (l.mgdx - 1))

/-! ## Specifications -/

/-- The cells `[p, p+n)` and `[q, q+k)` have nothing in common. -/
def Apart (p n q k : Nat) : Prop := p + n ≤ q ∨ q + k ≤ p

theorem copyMem_in (m : Nat → ℝ) (dst src len i : Nat) (h : i < len) :
    copyMem m (some (dst, src, len)) (dst + i) = m (src + i) := by
  simp only [copyMem]
  rw [if_pos (by omega)]
  congr 1
  omega

theorem copyMem_out (m : Nat → ℝ) (dst src len a : Nat) (h : a < dst ∨ dst + len ≤ a) :
    copyMem m (some (dst, src, len)) a = m a := by
  simp only [copyMem]
  rw [if_neg (by omega)]

/-- The calls which are carried out. -/
theorem engineBin_ok {fn : String} {a b : DT} {o : Opt} {p : Plan} (h : engineBin fn a b o = .ok p) :
    ∃ op, binKernel fn = some op ∧ binaryCheck a b = none ∧ handleFuncOpts a.shape a.dt o = none
      ∧ ∃ c size ret, place a o = .ok (c, size, ret) ∧ p = ⟨c, formKernel (form2 a b) op ret.ptr b.ptr, size, ret⟩ := by
  unfold engineBin at h
  rcases e1 : binKernel fn with _ | op
  · simp [e1] at h
  rcases e2 : binaryCheck a b with _ | x
  swap; · simp [e1, e2] at h
  rcases e3 : handleFuncOpts a.shape a.dt o with _ | x
  swap; · simp [e1, e2, e3] at h
  rcases e4 : place a o with x | ⟨c, size, ret⟩
  · simp [e1, e2, e3, e4] at h
  simp only [e1, e2, e3, e4, Except.ok.injEq] at h
  exact ⟨op, rfl, rfl, rfl, c, size, ret, rfl, h.symm⟩

theorem engineScalar_ok {fn : String} {a : DT} {b : Nat} {lt : Bool} {o : Opt} {p : Plan}
    (h : engineScalar fn a b lt o = .ok p) :
    ∃ op, binKernel fn = some op ∧ handleFuncOpts a.shape a.dt o = none
      ∧ ∃ c size ret, place a o = .ok (c, size, ret)
        ∧ p = ⟨c, if lt then formKernel (form1 lt) op ret.ptr b else formKernel (form1 lt) op b ret.ptr, size, ret⟩ := by
  unfold engineScalar at h
  rcases e1 : binKernel fn with _ | op
  · simp [e1] at h
  rcases e2 : unaryCheck a with _ | x
  swap; · simp [e1, e2] at h
  rcases e3 : handleFuncOpts a.shape a.dt o with _ | x
  swap; · simp [e1, e2, e3] at h
  rcases e4 : place a o with x | ⟨c, size, ret⟩
  · simp [e1, e2, e3, e4] at h
  simp only [e1, e2, e3, e4, Except.ok.injEq] at h
  exact ⟨op, rfl, rfl, c, size, ret, rfl, h.symm⟩

/-- For tensors which are not scalars, the launch has as many elements as the first operand, and the operand lies at
the target before the launch. -/
theorem place_ok {a : DT} {o : Opt} {c : Option (Nat × Nat × Nat)} {size : Nat} {ret : DT}
    (hs : a.shape ≠ []) (hr : ∀ t, o.target = some t → t.shape ≠ [])
    (h0 : handleFuncOpts a.shape a.dt o = none) (h : place a o = .ok (c, size, ret)) :
    size = a.shape.prod ∧ (∀ m i, i < a.shape.prod → copyMem m c (ret.ptr + i) = m (a.ptr + i))
      ∧ (∀ m x, x < ret.ptr ∨ ret.ptr + a.shape.prod ≤ x → copyMem m c x = m x)
      ∧ (ret.ptr = a.ptr → ∀ m, copyMem m c = m) := by
  unfold place at h
  unfold handleFuncOpts at h0
  rcases e : o.target with _ | t
  · rw [e] at h
    cases o with
    | reuse t => simp [Opt.target] at e
    | incr t => simp [Opt.target] at e
    | none => simp at h
    | inPlace =>
      simp only [Except.ok.injEq, Prod.mk.injEq] at h
      obtain ⟨rfl, rfl, rfl⟩ := h
      exact ⟨by simp [logicalSize, isScalar, hs, totalSize], fun _ _ _ => rfl, fun _ _ _ => rfl, fun _ _ => rfl⟩
  · rw [e] at h h0
    simp only [Except.ok.injEq, Prod.mk.injEq] at h
    obtain ⟨rfl, rfl, rfl⟩ := h
    have ht := hr t e
    have hsz : t.shape.prod = a.shape.prod := by
      by_contra hne
      by_cases c1 : t.dt ≠ a.dt
      · simp [c1] at h0
      · simp only [if_neg c1] at h0
        rw [if_pos ⟨hne, by simp [isScalar, hs]⟩] at h0
        cases h0
    refine ⟨by simp [logicalSize, isScalar, ht, totalSize, hsz], fun m i hi => copyMem_in m _ _ _ _ hi,
      fun m x hx => copyMem_out m _ _ _ _ hx, fun q m => ?_⟩
    funext x
    simp only [copyMem]
    by_cases c1 : t.ptr ≤ x ∧ x < t.ptr + a.shape.prod
    · rw [if_pos c1]; congr 1; omega
    · rw [if_neg c1]

theorem binaryCheck_shape {a b : DT} (h : binaryCheck a b = none) : a.shape = b.shape := by
  unfold binaryCheck at h
  by_contra hne
  by_cases c1 : a.dt = .other
  · simp [c1] at h
  by_cases c2 : b.dt = .other
  · simp [c1, c2] at h
  by_cases c3 : a.dt ≠ b.dt
  · simp [c1, c2, c3] at h
  · rw [if_neg c1, if_neg c2, if_neg c3, if_pos hne] at h
    cases h

/-- Two tensors: whatever the order in which the threads run, the result holds the operation on the elements of the
operands as they were, and nothing else on the device changes. The second operand must not share memory with the
result, unless both operands and the result are the same memory. -/
theorem engineBin_spec {l : Limits} {fn : String} {a b : DT} {o : Opt} {p : Plan} {m m' : Nat → ℝ}
    (h : engineBin fn a b o = .ok p) (hs : a.shape ≠ []) (hr : ∀ t, o.target = some t → t.shape ≠ [])
    (hl : l.Takes a.shape.prod)
    (hb : Apart p.ret.ptr a.shape.prod b.ptr a.shape.prod ∨ (p.ret.ptr = a.ptr ∧ b.ptr = a.ptr))
    (hx : p.Exec l m m') :
    ∃ op, binKernel fn = some op ∧ b.shape = a.shape
      ∧ (∀ i, i < a.shape.prod → m' (p.ret.ptr + i) = op (m (a.ptr + i)) (m (b.ptr + i)))
      ∧ ∀ x, x < p.ret.ptr ∨ p.ret.ptr + a.shape.prod ≤ x → m' x = m x := by
  obtain ⟨op, h1, h2, h3, c, size, ret, h4, rfl⟩ := engineBin_ok h
  obtain ⟨rfl, k1, k2, k3⟩ := place_ok hs hr h3 h4
  have hsh : b.shape = a.shape := (binaryCheck_shape h2).symm
  have hf : form2 a b = .vv := by simp [form2, isScalar, hsh, hs]
  simp only [Plan.Exec, hf, formKernel] at hx
  obtain ⟨t1, t2, t3, t4⟩ := hl
  have hn : NoRace (vv op ret.ptr b.ptr) a.shape.prod := by
    intro i j hi hj hij
    simp only [vv]
    refine ⟨by omega, by omega, ?_⟩
    rcases hb with hb | ⟨hb, hb'⟩
    · unfold Apart at hb; simp only at hb; omega
    · simp only at hb; omega
  obtain ⟨r1, r2⟩ := launch_spec hn (elemGridSize_covers l _ t1 t2 t3 t4) hx
  refine ⟨op, h1, hsh, fun i hi => ?_, fun x hx' => ?_⟩
  · have := r1 i hi
    simp only [vv] at this
    rw [this, k1 m i hi]
    congr 1
    rcases hb with hb | ⟨hb, hb'⟩
    · refine k2 m _ ?_
      unfold Apart at hb; simp only at hb; omega
    · rw [k3 hb]
  · simp only at hx'
    rw [r2 x fun i hi => by simp only [vv]; omega]
    exact k2 m x hx'

/-- A tensor and a scalar, which may be on either side. -/
theorem engineScalar_spec {l : Limits} {fn : String} {a : DT} {b : Nat} {lt : Bool} {o : Opt} {p : Plan}
    {m m' : Nat → ℝ} (h : engineScalar fn a b lt o = .ok p) (hs : a.shape ≠ [])
    (hr : ∀ t, o.target = some t → t.shape ≠ []) (hl : l.Takes a.shape.prod)
    (hb : Apart p.ret.ptr a.shape.prod b 1) (hx : p.Exec l m m') :
    ∃ op, binKernel fn = some op
      ∧ (∀ i, i < a.shape.prod → m' (p.ret.ptr + i) = if lt then op (m (a.ptr + i)) (m b) else op (m b) (m (a.ptr + i)))
      ∧ ∀ x, x < p.ret.ptr ∨ p.ret.ptr + a.shape.prod ≤ x → m' x = m x := by
  obtain ⟨op, h1, h3, c, size, ret, h4, rfl⟩ := engineScalar_ok h
  obtain ⟨rfl, k1, k2, k3⟩ := place_ok hs hr h3 h4
  unfold Apart at hb
  simp only at hb
  obtain ⟨t1, t2, t3, t4⟩ := hl
  have hc := elemGridSize_covers l _ t1 t2 t3 t4
  have hb' : copyMem m c b = m b ∨ a.shape.prod = 0 := by
    by_cases z : a.shape.prod = 0
    · exact .inr z
    · exact .inl (k2 m b (by omega))
  cases lt with
  | true =>
    simp only [Plan.Exec, form1, if_true, formKernel] at hx
    have hn : NoRace (vs op ret.ptr b) a.shape.prod := by
      intro i j hi hj hij
      simp only [vs]
      omega
    obtain ⟨r1, r2⟩ := launch_spec hn hc hx
    refine ⟨op, h1, fun i hi => ?_, fun x hx' => ?_⟩
    · have := r1 i hi
      simp only [vs] at this
      simp only [if_true]
      rw [this, k1 m i hi, hb'.resolve_right (by omega)]
    · simp only at hx'
      rw [r2 x fun i hi => by simp only [vs]; omega]
      exact k2 m x hx'
  | false =>
    simp only [Plan.Exec, form1, Bool.false_eq_true, if_false, formKernel] at hx
    have hn : NoRace (sv op b ret.ptr) a.shape.prod := by
      intro i j hi hj hij
      simp only [sv]
      omega
    obtain ⟨r1, r2⟩ := launch_spec hn hc hx
    refine ⟨op, h1, fun i hi => ?_, fun x hx' => ?_⟩
    · have := r1 i hi
      simp only [sv] at this
      simp only [Bool.false_eq_true, if_false]
      rw [this, k1 m i hi, hb'.resolve_right (by omega)]
    · simp only at hx'
      rw [r2 x fun i hi => by simp only [sv]; omega]
      exact k2 m x hx'

/-! ## Binary operations of graphs on the device -/

/-- The elementwise binary operations (`operatorPointwise_binary_const.go:27-46`). -/
inductive BinOp where
  | add
  | sub
  | mul
  | div
  | pow
  | lt
  | gt
  | lte
  | gte
  | eq
  | ne

/-- `ʘBinOpNames` (`operatorPointwise_binary_const.go:73-88`), used by `ssop`. -/
def binOpName : BinOp → String
  | .add => "add"
  | .sub => "sub"
  | .mul => "mul"
  | .div => "div"
  | .pow => "pow"
  | .lt => "lt"
  | .gt => "gt"
  | .lte => "lte"
  | .gte => "gte"
  | .eq => "eq"
  | .ne => "ne"

/-- The names given to `constructName2` and `constructName1` by the methods to which `binOps` and `cmpOps`
(`operatorPointwise_binary_const.go:142-168`) lead: `tadd` to `Add` (`cuda/arith.go:15`), …, `tne` to `ElNe`
(`cuda/cmp.go:590`). -/
def methodName : BinOp → String
  | .add => "add"
  | .sub => "sub"
  | .mul => "mul"
  | .div => "div"
  | .pow => "pow"
  | .lt => "lt"
  | .gt => "gt"
  | .lte => "lte"
  | .gte => "gte"
  | .eq => "eq"
  | .ne => "ne"

/-- `elemBinOp.ssop` (`op_math_cuda.go:145-182`). There is no check that the function exists. -/
noncomputable def ssop (op : BinOp) (a b : DT) (prealloc : Option DT) : Except Err Plan :=
  match binKernel (binOpName op) with
  | none => .error .noFunc
  | some f =>
    match prealloc with
    | none => .ok ⟨none, ss f a.ptr b.ptr, logicalSize a.shape, a⟩
    | some p => .ok ⟨some (p.ptr, a.ptr, a.shape.prod), ss f p.ptr b.ptr, logicalSize p.shape, p⟩

/-- `elemBinOp.CUDADo` (`op_math_cuda.go:89-143`). With one scalar operand the tensor library calls the `Scalar` method
of the other operand's engine, with `leftTensor` telling the side. -/
noncomputable def elemBinOpPlan (op : BinOp) (prealloc : Option DT) (a b : DT) : Except Err Plan :=
  if isScalar a.shape && isScalar b.shape then ssop op a b prealloc
  else
    let o := match prealloc with
      | some p => Opt.reuse p
      | none => Opt.inPlace
    if isScalar a.shape then engineScalar (methodName op) b a.ptr false o
    else if isScalar b.shape then engineScalar (methodName op) a b.ptr true o
    else engineBin (methodName op) a b o

/-- The operations as mathematical functions. -/
noncomputable def meaning : BinOp → ℝ → ℝ → ℝ
  | .add => (· + ·)
  | .sub => (· - ·)
  | .mul => (· * ·)
  | .div => (· / ·)
  | .pow => (· ^ ·)
  | .lt => fun x y => if x < y then 1 else 0
  | .gt => fun x y => if y < x then 1 else 0
  | .lte => fun x y => if x ≤ y then 1 else 0
  | .gte => fun x y => if y ≤ x then 1 else 0
  | .eq => fun x y => if x = y then 1 else 0
  | .ne => fun x y => if x = y then 0 else 1

theorem ne_flip (x y : ℝ) : (if x ≠ y then (1 : ℝ) else 0) = if x = y then 0 else 1 := by
  by_cases c : x = y <;> simp [c]

theorem binKernel_name (op : BinOp) : ∃ f, binKernel (binOpName op) = some f ∧ ∀ x y, f x y = meaning op x y := by
  cases op <;> refine ⟨_, rfl, fun x y => ?_⟩ <;> first | rfl | exact ne_flip x y

theorem binKernel_method (op : BinOp) : ∃ f, binKernel (methodName op) = some f ∧ ∀ x y, f x y = meaning op x y := by
  cases op <;> refine ⟨_, rfl, fun x y => ?_⟩ <;> first | rfl | exact ne_flip x y

/-- The element of an operand which belongs to element `i` of the result. -/
def elt (m : Nat → ℝ) (t : DT) (i : Nat) : ℝ := if t.shape = [] then m t.ptr else m (t.ptr + i)

/-- The number of elements of the result. -/
def resSize (a b : DT) : Nat := if a.shape = [] then b.shape.prod else a.shape.prod

/-- The operand which is not copied to the result, and its number of elements. -/
def other (a b : DT) : Nat × Nat :=
  if a.shape = [] ∧ b.shape ≠ [] then (a.ptr, 1) else (b.ptr, b.shape.prod)

/-- An elementwise binary operation of a graph, carried out on the device, gives the operation on the elements of its
operands, whatever the order of the threads, and changes nothing but the result. This holds for all operations, shapes
and devices, for results of the shape of the operands, if the operand which is not copied shares no memory with the
result and the number of elements is within what the first dimension of the grid takes. -/
theorem elemBinOp_device_partial {l : Limits} {op : BinOp} {prealloc : Option DT} {a b : DT} {p : Plan} {m m' : Nat → ℝ}
    (h : elemBinOpPlan op prealloc a b = .ok p)
    (hp : ∀ t, prealloc = some t → (t.shape = [] ↔ a.shape = [] ∧ b.shape = []))
    (hl : l.Takes (resSize a b)) (hb : Apart p.ret.ptr (resSize a b) (other a b).1 (other a b).2)
    (hx : p.Exec l m m') :
    (∀ i, i < resSize a b → m' (p.ret.ptr + i) = meaning op (elt m a i) (elt m b i))
      ∧ ∀ x, x < p.ret.ptr ∨ p.ret.ptr + resSize a b ≤ x → m' x = m x := by
  unfold elemBinOpPlan at h
  obtain ⟨f, hf, hfm⟩ := binKernel_method op
  by_cases ca : a.shape = []
  · by_cases cb : b.shape = []
    · -- two scalars
      obtain ⟨g, hg, hgm⟩ := binKernel_name op
      simp only [isScalar, ca, cb, List.isEmpty_nil, Bool.and_self, if_true, ssop, hg] at h
      have hsz : resSize a b = 1 := by simp [resSize, ca, cb]
      have hot : other a b = (b.ptr, 1) := by simp [other, ca, cb]
      rw [hsz, hot] at hb
      rw [hsz] at hl ⊢
      have hone : ∀ q : Nat, NoRace (ss g q b.ptr) 1 := fun q i j hi hj hij => by omega
      obtain ⟨t1, t2, t3, t4⟩ := hl
      have hc := elemGridSize_covers l _ t1 t2 t3 t4
      rcases prealloc with _ | t
      · simp only [logicalSize, isScalar, ca, List.isEmpty_nil, if_true, Except.ok.injEq] at h
        subst h
        obtain ⟨r1, r2⟩ := launch_spec (hone _) hc hx
        simp only [ss, copyMem] at r1 r2
        refine ⟨fun i hi => ?_, fun x hx' => r2 x fun i hi => ?_⟩
        · have hi0 : i = 0 := by omega
          subst hi0
          simpa [elt, ca, cb, hgm] using r1 0 (by omega)
        · simp only at hx'; omega
      · have ht : t.shape = [] := (hp t rfl).2 ⟨ca, cb⟩
        simp only [logicalSize, isScalar, ca, ht, List.isEmpty_nil, if_true, Except.ok.injEq, List.prod_nil] at h
        subst h
        obtain ⟨r1, r2⟩ := launch_spec (hone _) hc hx
        simp only [ss] at r1 r2
        simp only at hb ⊢
        refine ⟨fun i hi => ?_, fun x hx' => ?_⟩
        · have hi0 : i = 0 := by omega
          subst hi0
          have e1 := copyMem_in m t.ptr a.ptr 1 0 (by omega)
          have e2 := copyMem_out m t.ptr a.ptr 1 b.ptr (by unfold Apart at hb; omega)
          simp only [Nat.add_zero] at e1
          have := r1 0 (by omega)
          rw [e1, e2] at this
          simpa [elt, ca, cb, hgm] using this
        · rw [r2 x fun i hi => by omega]
          exact copyMem_out m _ _ _ _ (by omega)
    · -- scalar on the left
      have c2 : isScalar a.shape = true := by simp [isScalar, ca]
      have c3 : isScalar b.shape = false := by simp [isScalar, cb]
      simp only [c2, c3, Bool.and_false, Bool.false_eq_true, if_false, if_true] at h
      have hsz : resSize a b = b.shape.prod := by simp [resSize, ca]
      have hot : other a b = (a.ptr, 1) := by simp [other, ca, cb]
      rw [hsz, hot] at hb
      rw [hsz] at hl ⊢
      obtain ⟨g, g1, g2, g3⟩ := engineScalar_spec h cb (fun t ht => by
        rcases prealloc with _ | u
        · simp [Opt.target] at ht
        · simp only [Opt.target, Option.some.injEq] at ht
          subst ht
          exact fun e => cb ((hp u rfl).1 e).2) hl hb hx
      rw [hf] at g1
      cases g1
      refine ⟨fun i hi => ?_, g3⟩
      simpa [elt, ca, cb, hfm] using g2 i hi
  · have c2 : isScalar a.shape = false := by simp [isScalar, ca]
    have hsz : resSize a b = a.shape.prod := by simp [resSize, ca]
    have hot : other a b = (b.ptr, b.shape.prod) := by simp [other, ca]
    have htg : ∀ t, (match prealloc with
      | some p => Opt.reuse p
      | none => Opt.inPlace).target = some t → t.shape ≠ [] := fun t ht => by
        rcases prealloc with _ | u
        · simp [Opt.target] at ht
        · simp only [Opt.target, Option.some.injEq] at ht
          subst ht
          exact fun e => ca ((hp u rfl).1 e).1
    rw [hsz, hot] at hb
    rw [hsz] at hl ⊢
    by_cases cb : b.shape = []
    · have c3 : isScalar b.shape = true := by simp [isScalar, cb]
      simp only [c2, c3, Bool.false_and, Bool.false_eq_true, if_false, if_true] at h
      obtain ⟨g, g1, g2, g3⟩ := engineScalar_spec h ca htg hl (by simpa [cb] using hb) hx
      rw [hf] at g1
      cases g1
      refine ⟨fun i hi => ?_, g3⟩
      simpa [elt, ca, cb, hfm] using g2 i hi
    · have c3 : isScalar b.shape = false := by simp [isScalar, cb]
      simp only [c2, c3, Bool.false_and, Bool.false_eq_true, if_false] at h
      have hsh : b.shape = a.shape := by
        obtain ⟨_, _, k2, _⟩ := engineBin_ok h
        exact (binaryCheck_shape k2).symm
      obtain ⟨g, g1, _, g2, g3⟩ := engineBin_spec h ca htg hl (.inl (by simpa [hsh] using hb)) hx
      rw [hf] at g1
      cases g1
      refine ⟨fun i hi => ?_, g3⟩
      simpa [elt, ca, cb, hfm] using g2 i hi

end Verif.Cuda
