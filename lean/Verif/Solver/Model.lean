import Mathlib.Analysis.SpecialFunctions.Sqrt
import Mathlib.Data.Real.Sqrt
import Mathlib.Data.Real.Sign
import Mathlib.Algebra.BigOperators.Fin

/-!
# The solvers (`/repo/solvers.go`, `/repo/solvers_utils.go`)

A model is a list of weights with gradients.  A weight is either a scalar (`*F64`, `*F32`) or a
dense tensor; the two are handled by different branches of every `Step`, and both branches are
transcribed here.

Simplifications, for the whole file:
* floating point numbers are modelled by the reals, so `float32` and `float64` branches, which are
  textually the same up to conversions, become one branch;
* a dense tensor is a function from its `n` element positions (all the operations used are
  elementwise; the shape plays no part); the tensor library calls `Add`, `Mul`, `Sign`, `Clamp`,
  `Square`, `Sqrt`, `InvSqrt`, `Div` are taken to do what their names say, in place under
  `UseUnsafe`, into a fresh tensor with no option, and adding to the target under `WithIncr`;
* a gradient has the shape of its weight (a dual value is checked for that by `sanity`);
* the same list of nodes is passed to every call of `Step`, so the entry `i` of the solver's cache
  is stored beside the node `i`.
-/

set_option autoImplicit false

namespace Verif.Solver

/-- A dense tensor with `n` elements. -/
abbrev Dense (n : Nat) := Fin n → ℝ

/-- A weight, its gradient (`none` when `Grad()` returns an error) and the solver's cache entry for
it (`nil` before the first step): a dual value, that is a pair `Value`, `d`
(solvers.go:18-21, 27-46, 250, 430). -/
inductive Param where
  | scalar (w : ℝ) (g : Option ℝ) (cache : Option (ℝ × ℝ))
  | dense (n : Nat) (w : Dense n) (g : Option (Dense n)) (cache : Option (Dense n × Dense n))

/-- The fields of the solvers (solvers.go:240-251, 419-437, 748-757, 945-958, 1175-1186,
1369-1374, 1559-1576).  A solver uses some of them. -/
structure Fields where
  eta : ℝ
  eps : ℝ
  clip : ℝ
  l1reg : ℝ
  l2reg : ℝ
  batch : ℝ
  decay : ℝ
  momentum : ℝ
  beta1 : ℝ
  beta2 : ℝ
  useClip : Bool
  useL1Reg : Bool
  useL2Reg : Bool

/-- `tensor.Sign`, elementwise (called at solvers.go:528, 809, 1020). -/
noncomputable def signOf (x : ℝ) : ℝ := if x < 0 then -1 else if 0 < x then 1 else 0

/-- `tensor.Clamp(g, lo, hi)`, elementwise (called at solvers.go:326, 559, 841, 1053). -/
noncomputable def clamp (lo hi x : ℝ) : ℝ := if x < lo then lo else if hi < x then hi else x

/-- `newCachedDV(n, weights, grad, true)` (solvers.go:27-46) for the cache of a scalar: the clones
are zeroed.  An existing entry is used as it is. -/
def cacheS (c : Option (ℝ × ℝ)) : ℝ × ℝ := c.getD (0, 0)

/-- The same for the cache of a dense tensor. -/
def cacheD {n : Nat} (c : Option (Dense n × Dense n)) : Dense n × Dense n :=
  c.getD (fun _ => 0, fun _ => 0)

/-- The preparation of a tensor gradient: `l1`, `l2`, batch average, clip.  The three solvers that
do this (Adam solvers.go:525-563, Vanilla 806-845, Momentum 1017-1057) have the same text but for
the tensor `r` whose sign and multiple are added: the weights for Adam and Vanilla. -/
noncomputable def prepT (s : Fields) {n : Nat} (r g : Dense n) : Dense n :=
  let g := if s.useL1Reg then (fun i => g i + s.l1reg * signOf (r i)) else g
  let g := if s.useL2Reg then (fun i => g i + r i * s.l2reg) else g
  let g := if 1 < s.batch then (fun i => g i * (1 / s.batch)) else g
  if s.useClip && decide (0 < s.clip) then (fun i => clamp (-s.clip) s.clip (g i)) else g

/-- The preparation of a scalar gradient (Adam solvers.go:706-727, Vanilla 912-933, Momentum
1142-1163). -/
noncomputable def prepS (s : Fields) (w g : ℝ) : ℝ :=
  let g := if s.useL1Reg then g + (if w < 0 then -s.l1reg else s.l1reg) else g
  let g := if s.useL2Reg then g + s.l2reg * w else g
  let g := if 1 < s.batch then g * (1 / s.batch) else g
  if s.useClip then
    (if s.clip < g then s.clip else if g < -s.clip then -s.clip else g)
  else g

/-- The body of the loop of `VanillaSolver.Step` (solvers.go:776-942); `none` when the gradient is
missing (`extractWeightGrad`, solvers.go:48-57). -/
noncomputable def vanillaNode (s : Fields) : Param → Option Param
  | .scalar w (some g) c =>
      let g := prepS s w g
      let upd := -s.eta * g
      some (.scalar (w + upd) (some 0) c)
  | .dense n w (some g) c =>
      let g := prepT s w g
      let g := fun i => g i * -s.eta
      some (.dense n (fun i => w i + g i) (some fun _ => 0) c)
  | .scalar _ none _ => none
  | .dense _ _ none _ => none

/-- The body of the loop of `Momentum.Step` (solvers.go:980-1170).  The scalar branch computes the
new velocity in a local variable and does not store it (solvers.go:1165-1169). -/
noncomputable def momentumNode (s : Fields) : Param → Option Param
  | .scalar w (some g) c =>
      let cached := cacheS c
      let g := prepS s w g
      let v := cached.1 * s.momentum - s.eta * g
      some (.scalar (w + v) (some 0) (some cached))
  | .dense n w (some g) c =>
      let cached := cacheD c
      let g := prepT s cached.1 g
      let g := fun i => g i * -s.eta
      let cw := fun i => cached.1 i * s.momentum
      let cw := fun i => cw i + g i
      some (.dense n (fun i => w i + cw i) (some fun _ => 0) (some (cw, cached.2)))
  | .scalar _ none _ => none
  | .dense _ _ none _ => none

/-- The body of the loop of `RMSPropSolver.Step` (solvers.go:278-413). -/
noncomputable def rmspropNode (s : Fields) : Param → Option Param
  | .scalar w (some g) c =>
      let cached := cacheS c
      let c := cached.1 * s.decay + (1 - s.decay) * g * g
      let upd := -s.eta * g / √(c + s.eps) - s.l2reg * w
      some (.scalar (w + upd) (some 0) (some (c, cached.2)))
  | .dense n w (some g) c =>
      let cached := cacheD c
      let g2 := fun i => g i * g i
      let cw := fun i => cached.1 i * s.decay
      let g2 := fun i => g2 i * (1 - s.decay)
      let cw := fun i => cw i + g2 i
      let g := if s.useClip then (fun i => clamp (-s.clip) s.clip (g i)) else g
      let upd := fun i => cw i + s.eps
      let upd := fun i => 1 / √(upd i)
      let g := fun i => g i * -s.eta
      let upd := fun i => upd i * g i
      let upd := if s.useL2Reg then (fun i => upd i - w i * s.l2reg) else upd
      some (.dense n (fun i => w i + upd i) (some fun _ => 0) (some (cw, cached.2)))
  | .scalar _ none _ => none
  | .dense _ _ none _ => none

/-- The body of the loop of `AdaGradSolver.Step` (solvers.go:1208-1352).  The scalar branch adds the
square to a local variable and does not store it (solvers.go:1330-1352). -/
noncomputable def adagradNode (s : Fields) : Param → Option Param
  | .scalar w (some g) c =>
      let cached := cacheS c
      let c := cached.1 + g * g
      let g := if s.useClip then
        (if s.clip < g then s.clip else if g < -s.clip then -s.clip else g) else g
      let upd := -s.eta * g / √(c + s.eps)
      let upd := if s.useL2Reg then upd - w * s.l2reg else upd
      some (.scalar (w + upd) (some 0) (some cached))
  | .dense n w (some g) c =>
      let cached := cacheD c
      let g2 := fun i => g i * g i
      let c := fun i => cached.1 i + g2 i
      let g := if s.useClip then (fun i => clamp (-s.clip) s.clip (g i)) else g
      let upd := fun i => c i + s.eps
      let upd := fun i => 1 / √(upd i)
      let g := fun i => g i * -s.eta
      let upd := fun i => upd i * g i
      let upd := if s.useL2Reg then (fun i => upd i - w i * s.l2reg) else upd
      some (.dense n (fun i => w i + upd i) (some fun _ => 0) (some (c, cached.2)))
  | .scalar _ none _ => none
  | .dense _ _ none _ => none

/-- The body of the loop of `AdamSolver.Step` (solvers.go:470-742); `iter` is the counter after its
increment (solvers.go:466). -/
noncomputable def adamNode (s : Fields) (iter : Nat) : Param → Option Param
  | .scalar w (some g) c =>
      let correction1 := 1 - s.beta1 ^ iter
      let correction2 := 1 - s.beta2 ^ iter
      let cached := cacheS c
      let g := prepS s w g
      let newM := s.beta1 * cached.1 + (1 - s.beta1) * g
      let newV := s.beta2 * cached.2 + (1 - s.beta2) * g * g
      let mHat := 1 / correction1 * newM
      let vHat := 1 / correction2 * newV
      let upd := -s.eta * mHat / (√vHat + s.eps)
      some (.scalar (w + upd) (some 0) (some (newM, newV)))
  | .dense n w (some g) c =>
      let correction1 := 1 - s.beta1 ^ iter
      let correction2 := 1 - s.beta2 ^ iter
      let cached := cacheD c
      let g := prepT s w g
      let t1 := fun i => g i * (1 - s.beta1)
      let g := fun i => g i * g i
      let g := fun i => g i * (1 - s.beta2)
      let t1 := fun i => t1 i + cached.1 i * s.beta1
      let g := fun i => g i + cached.2 i * s.beta2
      let mHats := fun i => t1 i * (1 / correction1)
      let vHats := fun i => g i * (1 / correction2)
      let vHats := fun i => √(vHats i)
      let vHats := fun i => vHats i + s.eps
      let mHats := fun i => mHats i * -s.eta
      let mHats := fun i => mHats i / vHats i
      some (.dense n (fun i => w i + mHats i) (some fun _ => 0) (some (t1, g)))
  | .scalar _ none _ => none
  | .dense _ _ none _ => none

/-- The body of the loop of `AdamW.Step` (solvers.go:1602-1733), `float64` branch; `iter` is the
counter after its increment (solvers.go:1601), `decay` the field `λ`.  A scalar weight is not a
`tensor.Tensor`, so the type assertion at solvers.go:1608 panics.  `tensor.Mul(w, decay)` at
solvers.go:1681 has no option, so its result is a fresh tensor, to which the local variable `w`
refers from then on; the weights of the node are not written to again. -/
noncomputable def adamwNode (s : Fields) (iter : Nat) : Param → Option Param
  | .scalar _ _ _ => none
  | .dense n w (some g) c =>
      let st := cacheD c
      let decay := 1 - s.eta * s.decay
      let b1 := 1 - s.beta1 ^ iter
      let b2 := 1 - s.beta2 ^ iter
      let a1 := 1 - b1
      let a2 := 1 - b2
      let b2sqrt := √b2
      let ss := -(s.eta / b1)
      let g := prepT s w g
      let fresh := fun i => w i * decay
      let expMA := fun i => st.1 i * b1
      let expMA := fun i => expMA i + g i * a1
      let expMASq := fun i => st.2 i * b2
      let gSq := fun i => g i * g i
      let expMASq := fun i => expMASq i + gSq i * a2
      let denom := fun i => √(expMASq i)
      let denom := fun i => denom i / b2sqrt
      let denom := fun i => denom i + s.eps
      let denom := fun i => expMA i / denom i
      let _fresh := fun i => fresh i + denom i * ss
      some (.dense n w (some fun _ => 0) (some (expMA, expMASq)))
  | .dense _ _ none _ => none

/-- The loop over the model, the same in every `Step` (for example solvers.go:278-413): a node is
processed in place; on an error the loop returns, leaving the nodes after it untouched.  The second
component says whether `Step` returned without an error. -/
def stepAll (node : Param → Option Param) : List Param → List Param × Bool
  | [] => ([], true)
  | p :: ps =>
    match node p with
    | none => (p :: ps, false)
    | some p' => (p' :: (stepAll node ps).1, (stepAll node ps).2)

/-! ### The Barzilai-Borwein solver -/

/-- The state of `BarzilaiBorweinSolver` (solvers.go:1369-1374): the learn rate, and for each node
the weights and gradient of the previous step once there was one.  All the nodes are dense (for a
scalar `Step` returns an error, solvers.go:1463, 1522). -/
structure BB (k : Nat) (sz : Fin k → Nat) where
  eta : ℝ
  clip : ℝ
  useClip : Bool
  prev : Option ((j : Fin k) → Dense (sz j) × Dense (sz j))

/-- `tensor.Contract` over all axes (solvers.go:1444, 1454): the scalar product. -/
noncomputable def contract {n : Nat} (a b : Dense n) : ℝ := ∑ i, a i * b i

/-- The clipping of the learn rate (solvers.go:1470-1476). -/
noncomputable def bbClip (useClip : Bool) (clip eta : ℝ) : ℝ :=
  if useClip && decide (clip < |eta|) then (if eta < 0 then -clip else clip) else eta

/-- The learn rate of a step (solvers.go:1402-1477). -/
noncomputable def bbEta {k : Nat} {sz : Fin k → Nat} (s : BB k sz)
    (w g : (j : Fin k) → Dense (sz j)) : ℝ :=
  match s.prev with
  | none => s.eta
  | some old =>
    let nominator := ∑ j, contract (fun i => w j i - (old j).1 i) (fun i => g j i - (old j).2 i)
    let denominator := ∑ j, contract (fun i => g j i - (old j).2 i) (fun i => g j i - (old j).2 i)
    bbClip s.useClip s.clip (nominator / denominator)

/-- `BarzilaiBorweinSolver.Step` (solvers.go:1394-1527): the new solver, the new weights and the new
gradients. -/
noncomputable def bbStep {k : Nat} {sz : Fin k → Nat} (s : BB k sz)
    (w g : (j : Fin k) → Dense (sz j)) :
    BB k sz × ((j : Fin k) → Dense (sz j)) × ((j : Fin k) → Dense (sz j)) :=
  let eta := bbEta s w g
  ({ s with eta := eta, prev := some fun j => (w j, g j) },
   fun j i => w j i - g j i * eta,
   fun _ _ => 0)

/-! ### The options -/

/-- The solver types (solvers.go:240, 425, 748, 945, 1175, 1369, 1559). -/
inductive Kind where
  | rmsprop | adam | vanilla | momentum | adagrad | bb | adamw
  deriving DecidableEq

/-- The option constructors (solvers.go:62-237) with their argument. -/
inductive Opt where
  | l2Reg | l1Reg | batchSize | eps | clip | learnRate | beta1 | beta2 | rho | momentum
  deriving DecidableEq

/-- Applying an option to a solver (solvers.go:63-237): a type switch; a solver type that is not
listed is left alone. -/
noncomputable def apply (o : Opt) (x : ℝ) (k : Kind) (s : Fields) : Fields :=
  match o, k with
  | .l2Reg, .rmsprop | .l2Reg, .adam | .l2Reg, .vanilla | .l2Reg, .momentum | .l2Reg, .adamw =>
      { s with l2reg := x, useL2Reg := true }
  | .l1Reg, .adam | .l1Reg, .vanilla | .l1Reg, .momentum | .l1Reg, .adamw =>
      { s with l1reg := x, useL1Reg := true }
  | .batchSize, .adam | .batchSize, .vanilla | .batchSize, .momentum | .batchSize, .adamw =>
      { s with batch := x }
  | .eps, .rmsprop | .eps, .adam | .eps, .adamw => { s with eps := x }
  | .clip, .rmsprop | .clip, .adam | .clip, .vanilla | .clip, .bb | .clip, .momentum
  | .clip, .adamw => { s with clip := x, useClip := true }
  | .learnRate, .rmsprop | .learnRate, .adam | .learnRate, .vanilla | .learnRate, .bb
  | .learnRate, .momentum | .learnRate, .adamw => { s with eta := x }
  | .beta1, .adam | .beta1, .adamw => { s with beta1 := x }
  | .beta2, .adam | .beta2, .adamw => { s with beta2 := x }
  | .rho, .rmsprop | .rho, .adamw => { s with decay := x }
  | .momentum, .momentum => { s with momentum := x }
  | _, _ => s

/-- The field of the solver structure that an option is about, present or not in the `struct` of
the solver type (solvers.go:240-251, 419-437, 748-757, 945-958, 1175-1186, 1369-1374,
1559-1576). -/
def hasField : Kind → Opt → Bool
  | .rmsprop, .l2Reg | .rmsprop, .eps | .rmsprop, .clip | .rmsprop, .learnRate
  | .rmsprop, .rho => true
  | .adam, .l2Reg | .adam, .l1Reg | .adam, .batchSize | .adam, .eps | .adam, .clip
  | .adam, .learnRate | .adam, .beta1 | .adam, .beta2 => true
  | .vanilla, .l2Reg | .vanilla, .l1Reg | .vanilla, .batchSize | .vanilla, .clip
  | .vanilla, .learnRate => true
  | .momentum, .l2Reg | .momentum, .l1Reg | .momentum, .batchSize | .momentum, .clip
  | .momentum, .learnRate | .momentum, .momentum => true
  | .adagrad, .l2Reg | .adagrad, .l1Reg | .adagrad, .eps | .adagrad, .clip
  | .adagrad, .learnRate => true
  | .bb, .clip | .bb, .learnRate => true
  | .adamw, .l2Reg | .adamw, .l1Reg | .adamw, .batchSize | .adamw, .eps | .adamw, .clip
  | .adamw, .learnRate | .adamw, .beta1 | .adamw, .beta2 | .adamw, .rho => true
  | _, _ => false

/-- The value of the field an option is about. -/
def fieldOf (s : Fields) : Opt → ℝ
  | .l2Reg => s.l2reg
  | .l1Reg => s.l1reg
  | .batchSize => s.batch
  | .eps => s.eps
  | .clip => s.clip
  | .learnRate => s.eta
  | .beta1 => s.beta1
  | .beta2 => s.beta2
  | .rho => s.decay
  | .momentum => s.momentum

end Verif.Solver
