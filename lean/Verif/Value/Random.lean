/-!
# Random nodes

`UniformRandomNode`, `GaussianRandomNode` and `BinomialRandomNode` (gorgonia.go 131-183) make a node with a `randomOp`
(op_nn.go 40-146), which draws new values each time it is executed with the functions of weights.go 267-341.

The generators of `leesper/go_rng` are not modelled: the numbers a generator gives are an arbitrary function of its seed, its
parameters and how many have been drawn before. Seeds are readings of the clock (`time.Now().UnixNano()`). The floating-point types
and the conversions between them are arbitrary.
-/
set_option autoImplicit false

namespace Verif.Value.Random

inductive Which where
  | uniform | gaussian | binomial
  deriving DecidableEq, Repr

inductive Dt where
  | f64 | f32 | other
  deriving DecidableEq, Repr

/-- The generators and conversions. -/
structure Rng (A B : Type) where
  /-- `Float64Range`, `Float32Range`, `Gaussian`, `Binomial`: seed, parameters, number of the draw. -/
  range64 : Int → A → A → Nat → A
  range32 : Int → B → B → Nat → B
  gauss : Int → A → A → Nat → A
  binom : Int → Int → A → Nat → Int
  /-- `float32(x)`, `int64(x)`, `float64(i)`, `float32(i)`. -/
  to32 : A → B
  trunc : A → Int
  int64 : Int → A
  int32 : Int → B

variable {A B : Type}

/-- `randomOp`, op_nn.go 48-54. -/
structure Op (A : Type) where
  which : Which
  shape : List Nat
  dt : Dt
  a : A
  b : A

inductive Val (A B : Type) where
  | s64 (x : A)
  | s32 (x : B)
  | t64 (shape : List Nat) (l : List A)
  | t32 (shape : List Nat) (l : List B)
  deriving DecidableEq, Repr

/-- `tensor.Shape.TotalSize`. -/
def total : List Nat → Nat
  | [] => 1
  | d :: s => d * total s

/-- `Gaussian64`, weights.go 267-276. -/
def gaussian64 (G : Rng A B) (now : Int) (mean sd : A) (s : List Nat) : List A := (List.range (total s)).map fun i => G.gauss now mean sd i
/-- `Gaussian32`, weights.go 279-288. -/
def gaussian32 (G : Rng A B) (now : Int) (mean sd : A) (s : List Nat) : List B := (List.range (total s)).map fun i => G.to32 (G.gauss now mean sd i)
/-- `Uniform64`, weights.go 291-300. -/
def uniform64 (G : Rng A B) (now : Int) (lo hi : A) (s : List Nat) : List A := (List.range (total s)).map fun i => G.range64 now lo hi i
/-- `Uniform32`, weights.go 303-314. -/
def uniform32 (G : Rng A B) (now : Int) (lo hi : A) (s : List Nat) : List B :=
  let l := G.to32 lo
  let h := G.to32 hi
  (List.range (total s)).map fun i => G.range32 now l h i
/-- `Binomial64`, weights.go 317-327. -/
def binomial64 (G : Rng A B) (now : Int) (trials p : A) (s : List Nat) : List A :=
  let t := G.trunc trials
  (List.range (total s)).map fun i => G.int64 (G.binom now t p i)
/-- `Binomial32`, weights.go 330-340. -/
def binomial32 (G : Rng A B) (now : Int) (trials p : A) (s : List Nat) : List B :=
  let t := G.trunc trials
  (List.range (total s)).map fun i => G.int32 (G.binom now t p i)

/-- The scalar branch of `Do`, op_nn.go 81-115. -/
def doScalar (G : Rng A B) (op : Op A) (now : Int) : Option (Val A B) :=
  match op.dt with
  | .f64 =>
    match op.which with
    | .uniform => some (.s64 (G.range64 now op.a op.b 0))
    | .gaussian => some (.s64 (G.gauss now op.a op.b 0))
    | .binomial => some (.s64 (G.int64 (G.binom now (G.trunc op.a) op.b 0)))
  | .f32 =>
    match op.which with
    | .uniform => some (.s32 (G.range32 now (G.to32 op.a) (G.to32 op.b) 0))
    | .gaussian => some (.s32 (G.to32 (G.gauss now op.a op.b 0)))
    | .binomial => some (.s32 (G.int32 (G.binom now (G.trunc op.a) op.b 0)))
  | .other => none

/-- The branch of tensors, op_nn.go 117-145. -/
def doTensor (G : Rng A B) (op : Op A) (now : Int) : Option (Val A B) :=
  match op.dt with
  | .f64 =>
    match op.which with
    | .uniform => some (.t64 op.shape (uniform64 G now op.a op.b op.shape))
    | .gaussian => some (.t64 op.shape (gaussian64 G now op.a op.b op.shape))
    | .binomial => some (.t64 op.shape (binomial64 G now op.a op.b op.shape))
  | .f32 =>
    match op.which with
    | .uniform => some (.t32 op.shape (uniform32 G now op.a op.b op.shape))
    | .gaussian => some (.t32 op.shape (gaussian32 G now op.a op.b op.shape))
    | .binomial => some (.t32 op.shape (binomial32 G now op.a op.b op.shape))
  | .other => none

/-- `randomOp.Do`, op_nn.go 80-146; `now` is what the clock shows, `none` an error. -/
def doOp (G : Rng A B) (op : Op A) (now : Int) : Option (Val A B) :=
  if op.shape.length = 0 then doScalar G op now else doTensor G op now

/-- The type of a node: a scalar type or a tensor type with its number of dimensions. -/
inductive Ty where
  | scalar (dt : Dt)
  | tensor (dims : Nat) (dt : Dt)
  deriving DecidableEq, Repr

/-- `randomOp.Type`, op_nn.go 70-76. -/
def opType (op : Op A) : Ty := if op.shape.length = 0 then .scalar op.dt else .tensor op.shape.length op.dt

/-- A node: operation, type and shape. -/
structure Node (A : Type) where
  op : Op A
  ty : Ty
  shape : List Nat

/-- The three constructors, gorgonia.go 131-144, 149-162, 170-183, for a graph without a random node of the same type and shape; with
one, `NewUniqueNode` gives that one back, whatever it draws (`Verif.Graph.random_substituted`, C04). -/
def randomNode (w : Which) (dt : Dt) (a b : A) (shape : List Nat) : Node A :=
  let op : Op A := { which := w, shape := shape, dt := dt, a := a, b := b }
  { op := op, ty := if shape = [] then .scalar dt else .tensor shape.length dt, shape := shape }

/-! ### Specification -/

/-- The type of a value. -/
def Val.ty : Val A B → Ty
  | .s64 _ => .scalar .f64
  | .s32 _ => .scalar .f32
  | .t64 s _ => .tensor s.length .f64
  | .t32 s _ => .tensor s.length .f32

def Val.shape : Val A B → List Nat
  | .s64 _ => []
  | .s32 _ => []
  | .t64 s _ => s
  | .t32 s _ => s

/-- The elements, in their order, as numbers of either type. -/
def Val.elems : Val A B → List (A ⊕ B)
  | .s64 x => [.inl x]
  | .s32 x => [.inr x]
  | .t64 _ l => l.map .inl
  | .t32 _ l => l.map .inr

theorem total_prod (s : List Nat) : total s = s.foldr (· * ·) 1 := by
  induction s with
  | nil => rfl
  | cons d s ih => simp [total, ih]

/-- **The value has the type and the shape of the node, and as many elements as the shape says.** -/
theorem value_fits (G : Rng A B) (w : Which) (dt : Dt) (a b : A) (shape : List Nat) (now : Int) (v : Val A B)
    (h : doOp G (randomNode w dt a b shape).op now = some v) :
    v.ty = (randomNode w dt a b shape).ty ∧ v.shape = (randomNode w dt a b shape).shape ∧
      v.elems.length = shape.foldr (· * ·) 1 := by
  rw [← total_prod]
  cases shape with
  | nil =>
    cases dt <;> cases w <;> simp [doOp, doScalar, randomNode] at h <;> subst h <;> simp [Val.ty, Val.shape, Val.elems, randomNode, total]
  | cons d s =>
    cases dt <;> cases w <;> simp [doOp, doTensor, randomNode] at h <;> subst h <;>
      simp [Val.ty, Val.shape, Val.elems, randomNode, uniform64, uniform32, gaussian64, gaussian32, binomial64, binomial32]

/-- The type the node is given is that of its operation. -/
theorem type_agrees (w : Which) (dt : Dt) (a b : A) (shape : List Nat) :
    (randomNode w dt a b shape).ty = opType (randomNode w dt a b shape).op := by
  cases shape <;> simp [randomNode, opType]

/-- **Every element of the value, scalar or tensor, is the draw of its number from the distribution the node names**, in the type of
the node, the number of trials truncated. -/
theorem element (G : Rng A B) (w : Which) (dt : Dt) (a b : A) (shape : List Nat) (now : Int) (v : Val A B)
    (h : doOp G (randomNode w dt a b shape).op now = some v) (k : Nat) (hk : k < shape.foldr (· * ·) 1) :
    v.elems[k]? = match w, dt with
      | .uniform, .f64 => some (.inl (G.range64 now a b k))
      | .uniform, .f32 => some (.inr (G.range32 now (G.to32 a) (G.to32 b) k))
      | .gaussian, .f64 => some (.inl (G.gauss now a b k))
      | .gaussian, .f32 => some (.inr (G.to32 (G.gauss now a b k)))
      | .binomial, .f64 => some (.inl (G.int64 (G.binom now (G.trunc a) b k)))
      | .binomial, .f32 => some (.inr (G.int32 (G.binom now (G.trunc a) b k)))
      | _, .other => none := by
  rw [← total_prod] at hk
  cases shape with
  | nil =>
    have hk0 : k = 0 := by simp [total] at hk; exact hk
    subst hk0
    cases dt <;> cases w <;> simp [doOp, doScalar, randomNode] at h <;> subst h <;> simp [Val.elems]
  | cons d s =>
    cases dt <;> cases w <;> simp [doOp, doTensor, randomNode] at h <;> subst h <;>
      simp [Val.elems, uniform64, uniform32, gaussian64, gaussian32, binomial64, binomial32, List.getElem?_range hk]

/-- **Executing fails exactly for the other types**, although the node can be made. -/
theorem fails_iff (G : Rng A B) (w : Which) (dt : Dt) (a b : A) (shape : List Nat) (now : Int) :
    doOp G (randomNode w dt a b shape).op now = none ↔ dt = .other := by
  cases shape <;> cases dt <;> cases w <;> simp [doOp, doScalar, doTensor, randomNode]

/-- **Refuted: independence.** Two nodes of one distribution that are executed while the clock shows the same give the same numbers,
whatever their shapes: the one with fewer elements has the first elements of the other. -/
theorem same_clock (G : Rng A B) (w : Which) (dt : Dt) (a b : A) (s s' : List Nat) (now : Int) (v v' : Val A B)
    (h : doOp G (randomNode w dt a b s).op now = some v) (h' : doOp G (randomNode w dt a b s').op now = some v')
    (hl : s.foldr (· * ·) 1 ≤ s'.foldr (· * ·) 1) : v.elems = v'.elems.take (s.foldr (· * ·) 1) := by
  apply List.ext_getElem?
  intro k
  rcases Nat.lt_or_ge k (s.foldr (· * ·) 1) with hk | hk
  · rw [element G w dt a b s now v h k hk, List.getElem?_take_of_lt hk, element G w dt a b s' now v' h' k (by omega)]
    cases w <;> cases dt <;> rfl
  · rw [List.getElem?_eq_none (by rw [(value_fits G w dt a b s now v h).2.2]; exact hk),
      List.getElem?_eq_none (by rw [List.length_take]; omega)]

/-! ### Examples -/

/-- A generator counting on from its seed. -/
def exG : Rng Int Int :=
  { range64 := fun s lo hi k => lo + (s + k) % (hi - lo), range32 := fun s lo hi k => lo + (s + k) % (hi - lo),
    gauss := fun s m d k => m + d * (s + k), binom := fun s n _ k => (s + k) % (n + 1), to32 := fun x => 100 * x, trunc := fun x => x / 2,
    int64 := id, int32 := fun i => 100 * i }

example : doOp exG (randomNode .uniform .f64 0 10 [2, 3]).op 7 = some (.t64 [2, 3] [7, 8, 9, 0, 1, 2]) ∧
    doOp exG (randomNode .gaussian .f32 1 2 []).op 7 = some (.s32 1500) ∧
    doOp exG (randomNode .binomial .f32 8 1 [2]).op 7 = some (.t32 [2] [200, 300]) ∧
    doOp exG (randomNode .uniform .other 0 10 [2, 3]).op 7 = none := by decide

/-- Two nodes, one clock. -/
example : ((doOp exG (randomNode .uniform .f64 0 10 [2]).op 7).map Val.elems) = some [.inl 7, .inl 8] ∧
    ((doOp exG (randomNode .uniform .f64 0 10 [3]).op 7).map Val.elems) = some [.inl 7, .inl 8, .inl 9] := by decide

end Verif.Value.Random
