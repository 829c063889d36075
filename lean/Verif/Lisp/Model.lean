import Verif.AD.Ops
/-!
The define-by-run machine (`lispMachine`, vm_genera.go), on the CPU, for graphs of elementwise operations, full sums and
reshapes.

Values are real scalars or tensors. All tensors of a graph have the same elements `ι` (a reshape only renames them), so
tensors of different sizes in one graph are not covered. Simplified: forward execution does not fail; the logger, NaN
watching and the external device are left out; values are not shared between nodes (in-place updates of a gradient
replace the gradient of that node only).
-/
set_option autoImplicit false
namespace Verif.Lisp

open Verif.AD (UOp BOp)

variable {ι : Type}

/-- A scalar or a tensor. -/
inductive Val (ι : Type)
  | s (x : ℝ)
  | t (f : ι → ℝ)

namespace Val

def isS : Val ι → Bool
  | s _ => true
  | t _ => false

/-- Element taking part in the element `i` of an elementwise result. -/
def at' : Val ι → ι → ℝ
  | s x, _ => x
  | t f, i => f i

noncomputable section

def map (g : ℝ → ℝ) : Val ι → Val ι
  | s x => s (g x)
  | t f => t (fun i => g (f i))

/-- Elementwise, a scalar being repeated (`tBinOp.do`, operatorPointwise_binary.go 359-425; `scalarBinOp.do`). -/
def map2 (g : ℝ → ℝ → ℝ) : Val ι → Val ι → Val ι
  | s a, s b => s (g a b)
  | a, b => t (fun i => g (a.at' i) (b.at' i))

def map3 (g : ℝ → ℝ → ℝ → ℝ) : Val ι → Val ι → Val ι → Val ι
  | s a, s b, s c => s (g a b c)
  | a, b, c => t (fun i => g (a.at' i) (b.at' i) (c.at' i))

def map4 (g : ℝ → ℝ → ℝ → ℝ → ℝ) : Val ι → Val ι → Val ι → Val ι → Val ι
  | s a, s b, s c, s d => s (g a b c d)
  | a, b, c, d => t (fun i => g (a.at' i) (b.at' i) (c.at' i) (d.at' i))

def sum [Fintype ι] : Val ι → ℝ
  | s x => x
  | t f => ∑ i, f i

end
end Val

/-- What a node is (node.go 322-326; op_math.go, op_reduction.go `sumOp` over all axes, op_tensor.go `reshapeOp`). -/
inductive Op
  | input
  | const
  | un (u : UOp)
  | bin (b : BOp)
  | sum
  | reshape
  deriving DecidableEq, Repr

/-- A node: op, operands, and whether it is a scalar (`IsScalar`). -/
structure Node where
  op : Op
  kids : List Nat
  sc : Bool
  deriving DecidableEq, Repr

/-- The graph as sorted by `prepGraph` (vm_genera.go 249-258): operands first; a node is referred to by its position. -/
abbrev Graph := List Node

def Graph.node (G : Graph) (i : Nat) : Node := G.getD i ⟨.input, [], true⟩
def Graph.op (G : Graph) (i : Nat) : Op := (G.node i).op
def Graph.kid (G : Graph) (i k : Nat) : Nat := (G.node i).kids.getD k 0
def Graph.sc (G : Graph) (i : Nat) : Bool := (G.node i).sc

def Op.arity : Op → Nat
  | .input | .const => 0
  | .un _ | .sum | .reshape => 1
  | .bin _ => 2

/-- The ops that have a `DoDiff` (are an `ADOp`). -/
def Op.isAD : Op → Bool
  | .input | .const => false
  | _ => true

/-- `n.isRoot()`: no node uses it. -/
def Graph.root (G : Graph) (j : Nat) : Bool := !((List.range G.length).any fun i => (List.range (G.op i).arity).any fun k => G.kid i k == j)

noncomputable section

/-- `Do` of the op of node `i`; `W` holds the values. -/
def Graph.apply [Fintype ι] (G : Graph) (W : Nat → Val ι) (i : Nat) : Val ι :=
  match G.op i with
  | .input | .const => W i
  | .un u => (W (G.kid i 0)).map u.fn
  | .bin b => Val.map2 b.fn (W (G.kid i 0)) (W (G.kid i 1))
  | .sum => .s (W (G.kid i 0)).sum
  | .reshape => W (G.kid i 0)

def upd {α : Type} (f : Nat → α) (a : Nat) (v : α) : Nat → α := fun x => if x = a then v else f x

/-- What the functions of `ʘUnaryOpDiffFns` add to the gradient of the operand, given operand `x`, result `y` and gradient `g` of
the result (operatorPointwise_unary.go 110-775). `none`: they return an error. -/
def numDiff : UOp → Option (ℝ → ℝ → ℝ → ℝ)
  | .sign | .ceil | .floor => none -- 114-116
  | .abs => some fun x _ g => UOp.fn .sign x * g -- 132-147
  | .sin => some fun x _ g => Real.cos x * g -- 164-182
  | .cos => some fun x _ g => -Real.sin x * g -- 205-226
  | .exp => some fun _ y g => y * g -- 232-241
  | .ln => some fun x _ g => g / x -- 249-260
  | .log2 => some fun x _ g => g / (x * Real.log 2) -- 279-304
  | .neg => some fun _ _ g => -g -- 310-330
  | .square => some fun x _ g => x * 2 * g -- 353-374
  | .sqrt => some fun _ y g => g / (y * 2) -- 394-417
  | .inverse => some fun _ y g => -(y * y) * g -- 437-461
  | .inverseSqrt => some fun _ _ _ => 0 -- 480-508: the result of the subtraction is dropped
  | .cube => some fun x _ g => x * x * 3 * g -- 534-560
  | .tanh => some fun _ y g => (1 - y * y) * g -- 586-615
  | .sigmoid => some fun _ y g => (1 - y) * y * g -- 641-669
  | .log1p => some fun x _ g => g / (x + 1) -- 690-715
  | .expm1 => some fun x _ g => Real.exp x * g -- 725-745
  | .softplus => some fun x _ g => UOp.fn .sigmoid x * g -- 755-775

/-- What the functions of `ʘBinOpDiffFns` add to the gradient of the left operand (operatorPointwise_binary.go 434-1000). -/
def binDiffL : BOp → ℝ → ℝ → ℝ → ℝ → ℝ
  | .add => fun _ _ _ g => g
  | .sub => fun _ _ _ g => g
  | .mul => fun _ y _ g => y * g
  | .div => fun _ y _ g => g / y
  | .pow => fun x y _ g => x ^ (y - 1) * y * g

/-- …and to that of the right operand. -/
def binDiffR : BOp → ℝ → ℝ → ℝ → ℝ → ℝ
  | .add => fun _ _ _ g => g
  | .sub => fun _ _ _ g => -g
  | .mul => fun x _ _ g => x * g
  | .div => fun _ y z g => g * -(z / y)
  | .pow => fun x _ z g => z * Real.log x * g

variable [Fintype ι]

/-- The new gradient of an operand with gradient `d`: `d + inc` elementwise (`IncrDo`, op_math.go 354-371,
operatorPointwise_binary.go 331-357), and if the operand is a scalar but the result is a tensor, the sum of its elements
(`elemBinOp.DoDiff`, op_math.go 262-279). The scalar `d` has then been added to *every* element. -/
def acc (sc : Bool) (d inc : Val ι) : Val ι :=
  let r := Val.map2 (· + ·) d inc
  if sc && !r.isS then .s r.sum else r

/-- `DoDiff` of node `i` on the gradients `D`. `none`: an error. Simplified: `subDiff` treats its right operand first. -/
def Graph.doDiff (G : Graph) (W : Nat → Val ι) (i : Nat) (D : Nat → Val ι) : Option (Nat → Val ι) :=
  let x := G.kid i 0
  let y := G.kid i 1
  match G.op i with
  | .input | .const => some D
  | .un u => (numDiff u).map fun f => upd D x (acc (G.sc x) (D x) (Val.map3 f (W x) (W i) (D i)))
  | .bin b =>
    -- hadamardPowDiff builds its product for (scalar, tensor) operands and hands it (tensor, scalar): 961-964, 386-390
    if b = .pow ∧ G.sc x = false ∧ G.sc y = true then none
    else
      -- hadamardProdDiff leaves out constants: 671-673, 744-746
      let D1 := if b = .mul ∧ G.op x = .const then D
        else upd D x (acc (G.sc x) (D x) (Val.map4 (binDiffL b) (W x) (W y) (W i) (D i)))
      some (if b = .mul ∧ G.op y = .const then D1
        else upd D1 y (acc (G.sc y) (D1 y) (Val.map4 (binDiffR b) (W x) (W y) (W i) (D i))))
  | .sum => some (upd D x (Val.map2 (· + ·) (D x) (.t fun _ => (D i).sum))) -- op_reduction.go 257-345
  | .reshape => some (upd D x (D i)) -- op_tensor.go 1258-1270: the gradient is set, not added

/-- The state of the machine (vm_genera.go 14-41). `ran` is a record of the nodes executed, oldest first. -/
structure Machine (ι : Type) where
  fwd : Int
  bwd : Int
  q : List Nat
  W : Nat → Val ι
  D : Nat → Val ι
  bp : Bool -- runBwd()
  ran : List Nat

/-- `forward` (296-510) for node `i`. An input keeps its gradient (`dvUnit`, dual.go 153-161); other nodes get one filled with
ones if they are a root (`dvBindVar`, `dvBindVar0`, 280-291, 323-360) and with zeros otherwise (`dvBind`, `dvBind0`). -/
def Graph.forward (G : Graph) (i : Nat) (m : Machine ι) : Machine ι :=
  match G.op i with
  | .input => { m with ran := m.ran ++ [i] }
  | op =>
    let v := G.apply m.W i
    { m with
      W := upd m.W i v
      D := upd m.D i (v.map fun _ => if G.root i then 1 else 0)
      q := if op.isAD && m.bp then m.q ++ [i] else m.q
      ran := m.ran ++ [i] }

/-- The loop `for m.fwd < len(m.sorted); m.fwd++` (vm_genera.go 266-268); `forward` does nothing for a negative `fwd` (vm_genera.go 297-299). -/
def Graph.loopF (G : Graph) : Nat → Machine ι → Machine ι
  | 0, m => m
  | n + 1, m =>
    let m := if m.fwd < 0 then m else G.forward m.fwd.toNat m
    G.loopF n { m with fwd := m.fwd + 1 }

/-- The loop `for m.bwd >= 0; m.bwd--` (vm_genera.go 287-289) with `backward` (vm_genera.go 512-563). -/
def Graph.loopB (G : Graph) : Nat → Machine ι → Option (Machine ι)
  | 0, m => some m
  | n + 1, m =>
    match m.q[m.bwd.toNat]? with
    | none => none
    | some i => match G.doDiff m.W i m.D with
      | none => none
      | some D => G.loopB n { m with D := D, bwd := m.bwd - 1 }

/-- `RunAll` with `runall` (vm_genera.go 121-190, 260-294). -/
def Graph.runAll (G : Graph) (m : Machine ι) : Option (Machine ι) :=
  let m := G.loopF ((G.length : Int) - m.fwd).toNat m
  if m.bp = false then some m
  else
    let m := if m.bwd < 0 then { m with bwd := (m.q.length : Int) - 1 } else m
    (G.loopB (m.bwd + 1).toNat m).map fun m => { m with q := [] }

/-- `Reset` (vm_genera.go 110-113). -/
def Graph.reset (G : Graph) (m : Machine ι) : Machine ι := { m with fwd := (G.length : Int) - 1, bwd := (m.q.length : Int) - 1 }

/-- `NewLispMachine` (vm_genera.go 45-74) with `prepGraph`; `W` are the values bound to the inputs. -/
def new (bp : Bool) (W : Nat → Val ι) : Machine ι :=
  { fwd := 0, bwd := -1, q := [], W := W, D := fun j => (W j).map fun _ => 0, bp := bp, ran := [] }

/-! ### What the nodes should be worth -/

def Graph.valueF (G : Graph) (W : Nat → Val ι) : Nat → Nat → Val ι
  | 0, i => W i
  | n + 1, i => match G.op i with
    | .input | .const => W i
    | .un u => (G.valueF W n (G.kid i 0)).map u.fn
    | .bin b => Val.map2 b.fn (G.valueF W n (G.kid i 0)) (G.valueF W n (G.kid i 1))
    | .sum => .s (G.valueF W n (G.kid i 0)).sum
    | .reshape => G.valueF W n (G.kid i 0)

/-- Value of node `i` as an expression over the inputs. -/
def Graph.value (G : Graph) (W : Nat → Val ι) (i : Nat) : Val ι := G.valueF W (i + 1) i

end

/-- Operands come first and the kinds fit (elementwise: a scalar exactly if all operands are; sums of tensors are scalars;
reshapes are between tensors). -/
structure Graph.OK (G : Graph) : Prop where
  lt : ∀ i k, k < (G.op i).arity → G.kid i k < i
  un : ∀ i u, G.op i = .un u → G.sc i = G.sc (G.kid i 0)
  bin : ∀ i b, G.op i = .bin b → G.sc i = (G.sc (G.kid i 0) && G.sc (G.kid i 1))
  sum : ∀ i, G.op i = .sum → G.sc i = true ∧ G.sc (G.kid i 0) = false
  reshape : ∀ i, G.op i = .reshape → G.sc i = false ∧ G.sc (G.kid i 0) = false

/-- The values bound to inputs and constants have the declared kind. -/
def Graph.Bound (G : Graph) (W : Nat → Val ι) : Prop := ∀ i, (G.op i).arity = 0 → (W i).isS = G.sc i

end Verif.Lisp
