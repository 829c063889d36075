import Verif.Graph.Identity
/-!
Property C04, the code's own hash: what `WriteHash` of several operations writes, and pairs of different operations that
the graph therefore cannot tell apart. The checksum itself (FNV-1a in Go) is an arbitrary function of the written bytes.
-/
set_option autoImplicit false
namespace Verif.Graph

/-- Operations with their parameters. -/
inductive OpK where
  /-- `sliceOp`, op_tensor.go 475-486: `along`, `d` and the slice. -/
  | slice (along d start stop step : Int)
  /-- `softmaxOp`, op_softmax.go 28-31. -/
  | softmax (axis : Int) (isLog : Bool)
  /-- `sparsemaxOp`, op_sparsemax.go 14-16. -/
  | sparsemax (axis : Int)
  /-- `im2colOp`, op_nn.go 156-161. -/
  | im2col (h w padH padW strideH strideW dilationH dilationW : Int)
  /-- `dropoutOp`, op_dropout.go 16-20. -/
  | dropout (probability : Rat) (training : Bool)
  /-- `maxPoolOp`, op_nn.go 645-662, and `avgPoolOp`, op_avg_pool.go 76-93. -/
  | pool (avg : Bool) (b c h w kh kw padNorth padWest padSouth padEast strideH strideW : Int)
  /-- `ctcLossOp`, op_ctc_loss.go 34-41. -/
  | ctcLoss (reduction : Nat)
  /-- `GroupNormOp`, op_group_norm.go 56-62. -/
  | groupNorm (groups channels : Int) (epsilon : Rat)
  /-- `BatchNormOp`, op_nn.go 1158-1178. -/
  | batchNorm (momentum epsilon : Rat)
  /-- `yoloOp`, op_yolo.go 15-22. -/
  | yolo (anchors : List Rat) (masks : List Int) (ignoreThresh : Rat) (dimensions numClasses : Int) (train : Bool)
  /-- `randomOp`, op_nn.go 48-54 (its shape is that of the node): the distribution and its two parameters. -/
  | random (which : Nat) (a b : Rat)
  /-- `constant`, const.go: writes its value. -/
  | const (v : String)
  /-- any other operation, with the text it writes. -/
  | other (text : String)
  deriving DecidableEq

def textBytes (s : String) : List UInt8 := s.toList.map (fun c => c.toNat.toUInt8)

/-- Go's conversion `byte(x)` of an `int`. -/
def byteOf (x : Int) : UInt8 := UInt8.ofNat (x % 256).toNat

/-- Go's `%1.1f` (ties are rounded up here; the results do not depend on ties): one digit after the point. -/
def fmt1 (q : Rat) : String :=
  let t := (q * 10 + 1 / 2).floor
  toString (t / 10) ++ "." ++ toString (t % 10)

/-- Go's `%v` of a truth value. -/
def fmtBool (b : Bool) : String := if b then "true" else "false"

/-- What `op.WriteHash` writes: op_tensor.go 614-634, op_softmax.go 52, op_sparsemax.go 46-48, op_nn.go 227-229, op_dropout.go 40-44,
op_nn.go 728-732 and op_avg_pool.go 161-165, op_ctc_loss.go 59-61, op_group_norm.go 70-78, op_nn.go 1222-1224, op_yolo.go 71-73,
op_nn.go 151-153. -/
def written : OpK → List UInt8
  | .slice along d start stop step =>
    textBytes "slice" ++ [byteOf d] ++ textBytes (toString along) ++ [byteOf start, byteOf stop, byteOf step]
  | .softmax axis _ => textBytes ("Softmax{" ++ toString axis ++ "}()")
  | .sparsemax _ => textBytes "Sparsemax{}()"
  | .im2col h w padH padW strideH strideW _ _ =>
    textBytes ("im2col:" ++ toString h ++ "-" ++ toString w ++ "-" ++ toString padH ++ "-" ++ toString padW ++ "-" ++
      toString strideH ++ "-" ++ toString strideW)
  | .dropout _ training => textBytes ("Dropout{training=" ++ fmtBool training ++ "}()")
  | .pool avg b c h w kh kw padNorth padWest _ _ strideH strideW =>
    textBytes ((if avg then "AvgPool{" else "MaxPool{") ++ toString b ++ ", " ++ toString c ++ ", " ++ toString h ++ ", " ++ toString w ++
      "}(kernel: (" ++ toString kh ++ ", " ++ toString kw ++ "), pad: (" ++ toString padNorth ++ ", " ++ toString padWest ++
      "), stride: (" ++ toString strideH ++ ", " ++ toString strideW ++ "))")
  | .ctcLoss _ => textBytes "CTCLoss{}()"
  | .groupNorm groups channels _ => textBytes ("GroupNorm{" ++ toString groups ++ ", " ++ toString channels ++ "}()")
  | .batchNorm momentum epsilon => textBytes ("batchnorm-" ++ fmt1 momentum ++ "-" ++ fmt1 epsilon)
  | .yolo anchors _ _ _ _ _ => textBytes ("YOLO{}(anchors: (" ++ toString anchors ++ "))")
  | .random which a b => textBytes (toString which ++ toString a ++ toString b)
  | .const v => textBytes ("const " ++ v)
  | .other t => textBytes t

/-- The label of a node: type and shape as printed, the operation (none for an input), the name. -/
structure Lbl where
  typ : String
  shape : List Nat
  op : Option OpK
  name : String
  deriving DecidableEq

/-- Little-endian bytes of a hash. -/
def le32 (h : UInt32) : List UInt8 :=
  [h.toUInt8, (h >>> 8).toUInt8, (h >>> 16).toUInt8, (h >>> 24).toUInt8]

/-- `isInput`, node.go 322-326, of a node that is no statement: no operation, or a random one. -/
def Lbl.input (l : Lbl) : Bool := match l.op with | none => true | some (.random ..) => true | some _ => false

/-- What `Node.WriteHash` writes, node.go 533-551. -/
def nodeBytes (l : Lbl) (hs : List UInt32) : List UInt8 :=
  textBytes (l.typ ++ toString l.shape) ++
    (if l.input then textBytes l.name else match l.op with | none => [] | some o => written o) ++
    [byteOf hs.length] ++ hs.flatMap le32

/-- The code's parameters, for an arbitrary checksum `sum`: `Hashcode` (node.go 556-566), `nodeEq` (equalities.go
184-212, where operations are compared by the checksum of what they write), `isConstant`. -/
def code (sum : List UInt8 → UInt32) : Params Lbl where
  hash := fun l hs => sum (nodeBytes l hs)
  eq := fun l k l' k' =>
    if l.input then l'.input && l.name == l'.name
    else if l'.input then false
    else match l.op, l'.op with
    | some o, some o' => sum (written o) == sum (written o') && k == k' && l.typ == l'.typ && l.shape == l'.shape
    | _, _ => false
  isConst := fun l => match l.op with | some (.const _) => true | _ => false
  name := fun l => l.name

/-- Two operations the store cannot distinguish become one node. -/
theorem indistinguishable_merge {L : Type} {P : Params L} {g : G L} (h : Reachable P g) {l l' : L} {cs : List Ptr}
    (hk : P.isConst l = false) (hk' : P.isConst l' = false)
    (hrefl : P.eq l cs.length l cs.length = true)
    (hh : ∀ hs, P.hash l' hs = P.hash l hs) (he : ∀ k x k', P.eq l' k x k' = P.eq l k x k')
    (hrefl' : P.eq l' cs.length l' cs.length = true)
    (hcs : ∀ c ∈ cs, c ∈ g.all ∧ ∀ x, g.heap[c]? = some x → P.isConst x.label = false) :
    ∃ g1 m, newUniqueNode P g l cs = some (g1, m) ∧ ∃ g2, newUniqueNode P g1 l' cs = some (g2, m) ∧ g2.all = g1.all := by
  obtain ⟨hs, g1, m, hhs, e1, hcan1, _, _⟩ := newUniqueNode_canon h.W hk hrefl hcs
  obtain ⟨hW1, hm1, hpre, hkeep⟩ := W_newUniqueNode h.W e1
  have hcs1 : ∀ c ∈ cs, c ∈ g1.all ∧ ∀ x, g1.heap[c]? = some x → P.isConst x.label = false := by
    intro c hc
    obtain ⟨h1, h2⟩ := hcs c hc
    refine ⟨hpre.subset h1, fun x hx => h2 x ?_⟩
    rw [hkeep c h1] at hx; exact hx
  have hhs1 : ∀ (cs : List Ptr), (∀ c ∈ cs, c ∈ g.all) → hashes g1 cs = hashes g cs := by
    intro cs
    induction cs with
    | nil => intro _; rfl
    | cons c cs ih =>
      intro hc
      simp only [hashes, hkeep c (hc c (by simp)), ih (fun c' hc' => hc c' (by simp [hc']))]
  obtain ⟨hs', g2, m', hhs', e2, _, hmeq, _⟩ := newUniqueNode_canon hW1 hk' hrefl' hcs1
  rw [hhs1 cs (fun c hc => (hcs c hc).1), hhs] at hhs'
  cases hhs'
  have hc' : canon P g1 l' cs.length (P.hash l' hs) = canon P g1 l cs.length (P.hash l hs) := by
    rw [hh hs]
    simp only [canon, he]
  obtain ⟨e, ha⟩ := hmeq m (by rw [hc']; exact hcan1)
  subst e
  exact ⟨g1, m', e1, g2, e2, ha⟩

/-- Two labels that differ only in operations that write the same bytes merge, for every checksum. -/
theorem same_bytes_merge (sum : List UInt8 → UInt32) {g : G Lbl} (h : Reachable (code sum) g) {typ : String}
    {shape : List Nat} {name name' : String} {o o' : OpK} (hw : written o' = written o)
    (ho : ∀ v, o ≠ .const v) (ho' : ∀ v, o' ≠ .const v)
    (hi : ∀ w a b, o ≠ .random w a b) (hi' : ∀ w a b, o' ≠ .random w a b) {cs : List Ptr}
    (hcs : ∀ c ∈ cs, c ∈ g.all ∧ ∀ x, g.heap[c]? = some x → (code sum).isConst x.label = false) :
    ∃ g1 m, newUniqueNode (code sum) g ⟨typ, shape, some o, name⟩ cs = some (g1, m) ∧
      ∃ g2, newUniqueNode (code sum) g1 ⟨typ, shape, some o', name'⟩ cs = some (g2, m) ∧ g2.all = g1.all := by
  have e1 : ∀ n, (⟨typ, shape, some o, n⟩ : Lbl).input = false := by
    intro n; unfold Lbl.input; cases o <;> first | rfl | exact absurd rfl (hi _ _ _)
  have e2 : ∀ n, (⟨typ, shape, some o', n⟩ : Lbl).input = false := by
    intro n; unfold Lbl.input; cases o' <;> first | rfl | exact absurd rfl (hi' _ _ _)
  apply indistinguishable_merge h
  · simp only [code]; cases o <;> first | rfl | exact absurd rfl (ho _)
  · simp only [code]; cases o' <;> first | rfl | exact absurd rfl (ho' _)
  · simp [code, e1]
  · intro hs; simp [code, nodeBytes, hw, e1, e2]
  · intro k x k'
    simp only [code, e1, e2]
    cases x.op with
    | none => rfl
    | some p => simp only [hw]; rfl
  · simp [code, e2]
  · exact hcs

/-- The vector `0, 1, ..., n-1` sliced by a unit slice. -/
def sliceVec (xs : List Nat) (start stop : Int) : List Nat := (xs.drop start.toNat).take (stop - start).toNat

/-- **C04 (defect, slices).** For every checksum and every graph: taking element 0 and then element 256 of a vector gives
one and the same node, because the bounds are truncated to a byte. The two expressions have different values. -/
theorem slice_substituted (sum : List UInt8 → UInt32) {g : G Lbl} (h : Reachable (code sum) g) {x : Ptr}
    (hx : x ∈ g.all ∧ ∀ c, g.heap[x]? = some c → (code sum).isConst c.label = false) :
    (∃ g1 m, newUniqueNode (code sum) g ⟨"float64", [], some (.slice 0 1 0 1 0), "T[0]"⟩ [x] = some (g1, m) ∧
      ∃ g2, newUniqueNode (code sum) g1 ⟨"float64", [], some (.slice 0 1 256 257 0), "T[256]"⟩ [x] = some (g2, m) ∧
        g2.all = g1.all) ∧
    sliceVec (List.range 300) 0 1 ≠ sliceVec (List.range 300) 256 257 := by
  constructor
  · exact same_bytes_merge sum h (by decide) (by simp) (by simp) (by simp) (by simp) (by intro c hc; simp at hc; subst hc; exact hx)
  · decide +kernel

/-- **C04 (defect, softmax).** For every checksum and every graph: SoftMax and LogSoftMax of the same node and axis are
one and the same node. -/
theorem softmax_substituted (sum : List UInt8 → UInt32) {g : G Lbl} (h : Reachable (code sum) g) {x : Ptr}
    (hx : x ∈ g.all ∧ ∀ c, g.heap[x]? = some c → (code sum).isConst c.label = false) (typ : String) (shape : List Nat)
    (axis : Int) (nm nm' : String) :
    ∃ g1 m, newUniqueNode (code sum) g ⟨typ, shape, some (.softmax axis false), nm⟩ [x] = some (g1, m) ∧
      ∃ g2, newUniqueNode (code sum) g1 ⟨typ, shape, some (.softmax axis true), nm'⟩ [x] = some (g2, m) ∧ g2.all = g1.all :=
  same_bytes_merge sum h (o := .softmax axis false) (o' := .softmax axis true) (cs := [x]) rfl (by simp) (by simp) (by simp) (by simp)
    (by intro c hc; simp at hc; subst hc; exact hx)

/-- **C04 (defect, sparsemax).** Sparsemax along different axes is one and the same node. -/
theorem sparsemax_substituted (sum : List UInt8 → UInt32) {g : G Lbl} (h : Reachable (code sum) g) {x : Ptr}
    (hx : x ∈ g.all ∧ ∀ c, g.heap[x]? = some c → (code sum).isConst c.label = false) (typ : String) (shape : List Nat)
    (a b : Int) (nm nm' : String) :
    ∃ g1 m, newUniqueNode (code sum) g ⟨typ, shape, some (.sparsemax a), nm⟩ [x] = some (g1, m) ∧
      ∃ g2, newUniqueNode (code sum) g1 ⟨typ, shape, some (.sparsemax b), nm'⟩ [x] = some (g2, m) ∧ g2.all = g1.all :=
  same_bytes_merge sum h (o := .sparsemax a) (o' := .sparsemax b) (cs := [x]) rfl (by simp) (by simp) (by simp) (by simp)
    (by intro c hc; simp at hc; subst hc; exact hx)

/-- **C04 (defect, im2col).** Image-to-column transformations that differ only in dilation are one and the same node
whenever their output shapes agree. -/
theorem im2col_substituted (sum : List UInt8 → UInt32) {g : G Lbl} (h : Reachable (code sum) g) {x : Ptr}
    (hx : x ∈ g.all ∧ ∀ c, g.heap[x]? = some c → (code sum).isConst c.label = false) (typ : String) (shape : List Nat)
    (a b c d e f d1 d2 e1 e2 : Int) (nm nm' : String) :
    ∃ g1 m, newUniqueNode (code sum) g ⟨typ, shape, some (.im2col a b c d e f d1 d2), nm⟩ [x] = some (g1, m) ∧
      ∃ g2, newUniqueNode (code sum) g1 ⟨typ, shape, some (.im2col a b c d e f e1 e2), nm'⟩ [x] = some (g2, m) ∧ g2.all = g1.all :=
  same_bytes_merge sum h (o := .im2col a b c d e f d1 d2) (o' := .im2col a b c d e f e1 e2) (cs := [x]) rfl (by simp) (by simp) (by simp) (by simp)
    (by intro c hc; simp at hc; subst hc; exact hx)

/-- **C04 (defect, dropout).** Dropping out with any two probabilities is one and the same node. -/
theorem dropout_substituted (sum : List UInt8 → UInt32) {g : G Lbl} (h : Reachable (code sum) g) {x : Ptr}
    (hx : x ∈ g.all ∧ ∀ c, g.heap[x]? = some c → (code sum).isConst c.label = false) (typ : String) (shape : List Nat)
    (p q : Rat) (tr : Bool) (nm nm' : String) :
    ∃ g1 m, newUniqueNode (code sum) g ⟨typ, shape, some (.dropout p tr), nm⟩ [x] = some (g1, m) ∧
      ∃ g2, newUniqueNode (code sum) g1 ⟨typ, shape, some (.dropout q tr), nm'⟩ [x] = some (g2, m) ∧ g2.all = g1.all :=
  same_bytes_merge sum h (o := .dropout p tr) (o' := .dropout q tr) (cs := [x]) rfl (by simp) (by simp) (by simp) (by simp)
    (by intro c hc; simp at hc; subst hc; exact hx)

/-- **C04 (defect, pooling).** Poolings that differ only in the padding below and to the right (which, with explicit padding, place
the windows) are one and the same node whenever their output shapes agree. -/
theorem pool_substituted (sum : List UInt8 → UInt32) {g : G Lbl} (h : Reachable (code sum) g) {x : Ptr}
    (hx : x ∈ g.all ∧ ∀ c, g.heap[x]? = some c → (code sum).isConst c.label = false) (typ : String) (shape : List Nat)
    (avg : Bool) (b c hh w kh kw n wst s e s' e' sh sw : Int) (nm nm' : String) :
    ∃ g1 m, newUniqueNode (code sum) g ⟨typ, shape, some (.pool avg b c hh w kh kw n wst s e sh sw), nm⟩ [x] = some (g1, m) ∧
      ∃ g2, newUniqueNode (code sum) g1 ⟨typ, shape, some (.pool avg b c hh w kh kw n wst s' e' sh sw), nm'⟩ [x] = some (g2, m) ∧
        g2.all = g1.all :=
  same_bytes_merge sum h (o := .pool avg b c hh w kh kw n wst s e sh sw) (o' := .pool avg b c hh w kh kw n wst s' e' sh sw) (cs := [x])
    rfl (by simp) (by simp) (by simp) (by simp) (by intro c hc; simp at hc; subst hc; exact hx)

/-- **C04 (defect, CTC loss).** The losses with different reductions (mean and sum, say) are one and the same node. -/
theorem ctc_substituted (sum : List UInt8 → UInt32) {g : G Lbl} (h : Reachable (code sum) g) {cs : List Ptr}
    (hx : ∀ c ∈ cs, c ∈ g.all ∧ ∀ x, g.heap[c]? = some x → (code sum).isConst x.label = false) (typ : String) (shape : List Nat)
    (r r' : Nat) (nm nm' : String) :
    ∃ g1 m, newUniqueNode (code sum) g ⟨typ, shape, some (.ctcLoss r), nm⟩ cs = some (g1, m) ∧
      ∃ g2, newUniqueNode (code sum) g1 ⟨typ, shape, some (.ctcLoss r'), nm'⟩ cs = some (g2, m) ∧ g2.all = g1.all :=
  same_bytes_merge sum h (o := .ctcLoss r) (o' := .ctcLoss r') rfl (by simp) (by simp) (by simp) (by simp) hx

/-- **C04 (defect, normalisation).** Group normalisations with different `epsilon`, and batch normalisations whose parameters agree
when printed with one digit (`epsilon` 0.001 and 0.00001), are one and the same node. -/
theorem norm_substituted (sum : List UInt8 → UInt32) {g : G Lbl} (h : Reachable (code sum) g) {x : Ptr}
    (hx : x ∈ g.all ∧ ∀ c, g.heap[x]? = some c → (code sum).isConst c.label = false) (typ : String) (shape : List Nat)
    (a b : Int) (e e' : Rat) (nm nm' : String) :
    (∃ g1 m, newUniqueNode (code sum) g ⟨typ, shape, some (.groupNorm a b e), nm⟩ [x] = some (g1, m) ∧
      ∃ g2, newUniqueNode (code sum) g1 ⟨typ, shape, some (.groupNorm a b e'), nm'⟩ [x] = some (g2, m) ∧ g2.all = g1.all) ∧
    ∃ g1 m, newUniqueNode (code sum) g ⟨typ, shape, some (.batchNorm (9 / 10) (1 / 1000)), nm⟩ [x] = some (g1, m) ∧
      ∃ g2, newUniqueNode (code sum) g1 ⟨typ, shape, some (.batchNorm (9 / 10) (1 / 100000)), nm'⟩ [x] = some (g2, m) ∧ g2.all = g1.all := by
  have hcs : ∀ c ∈ [x], c ∈ g.all ∧ ∀ y, g.heap[c]? = some y → (code sum).isConst y.label = false := by
    intro c hc; simp at hc; subst hc; exact hx
  refine ⟨same_bytes_merge sum h (o := .groupNorm a b e) (o' := .groupNorm a b e') (cs := [x]) rfl (by simp) (by simp) (by simp) (by simp) hcs, ?_⟩
  refine same_bytes_merge sum h (o := .batchNorm (9 / 10) (1 / 1000)) (o' := .batchNorm (9 / 10) (1 / 100000)) (cs := [x]) ?_
    (by simp) (by simp) (by simp) (by simp) hcs
  have : fmt1 (1 / 100000) = fmt1 (1 / 1000) := by decide +kernel
  simp only [written, this]

/-- **C04 (defect, YOLO).** YOLO layers with the same anchors are one and the same node whenever their output shapes agree, whatever
the masks, the size of the net, the number of classes and the threshold. -/
theorem yolo_substituted (sum : List UInt8 → UInt32) {g : G Lbl} (h : Reachable (code sum) g) {x : Ptr}
    (hx : x ∈ g.all ∧ ∀ c, g.heap[x]? = some c → (code sum).isConst c.label = false) (typ : String) (shape : List Nat)
    (anchors : List Rat) (m m' : List Int) (t t' : Rat) (d d' n n' : Int) (tr tr' : Bool) (nm nm' : String) :
    ∃ g1 r, newUniqueNode (code sum) g ⟨typ, shape, some (.yolo anchors m t d n tr), nm⟩ [x] = some (g1, r) ∧
      ∃ g2, newUniqueNode (code sum) g1 ⟨typ, shape, some (.yolo anchors m' t' d' n' tr'), nm'⟩ [x] = some (g2, r) ∧ g2.all = g1.all :=
  same_bytes_merge sum h (o := .yolo anchors m t d n tr) (o' := .yolo anchors m' t' d' n' tr') (cs := [x]) rfl (by simp) (by simp)
    (by simp) (by simp) (by intro c hc; simp at hc; subst hc; exact hx)

/-- **C04 (defect, random nodes).** A random node counts as an input, of which only the name is looked at, and it has none:
`UniformRandomNode`, `GaussianRandomNode` and `BinomialRandomNode` (gorgonia.go 131-183) return one and the same node for the same type
and shape, whatever the distributions and their parameters. An input without a name is that node as well. -/
theorem random_substituted (sum : List UInt8 → UInt32) {g : G Lbl} (h : Reachable (code sum) g) (typ : String) (shape : List Nat)
    (o o' : Option OpK) (ho : o = none ∨ ∃ w a b, o = some (.random w a b)) (ho' : o' = none ∨ ∃ w a b, o' = some (.random w a b)) :
    ∃ g1 m, newUniqueNode (code sum) g ⟨typ, shape, o, ""⟩ [] = some (g1, m) ∧
      ∃ g2, newUniqueNode (code sum) g1 ⟨typ, shape, o', ""⟩ [] = some (g2, m) ∧ g2.all = g1.all := by
  have e : ∀ o : Option OpK, (o = none ∨ ∃ w a b, o = some (.random w a b)) → (⟨typ, shape, o, ""⟩ : Lbl).input = true ∧
      (code sum).isConst ⟨typ, shape, o, ""⟩ = false := by
    rintro o (rfl | ⟨w, a, b, rfl⟩) <;> exact ⟨rfl, rfl⟩
  apply indistinguishable_merge h (e o ho).2 (e o' ho').2
  · simp [code, (e o ho).1]
  · intro hs; simp [code, nodeBytes, (e o ho).1, (e o' ho').1]
  · intro k x k'; simp only [code, (e o ho).1, (e o' ho').1, if_true]
  · simp [code, (e o' ho').1]
  · simp

/-- **C04 (defect, constants).** A constant of whatever type and value becomes the constant of the same name that the graph already
has. -/
theorem constant_substituted {L : Type} (P : Params L) (g : G L) {q p : Ptr} {c n : Cell L} (hq : q ∈ g.constants)
    (hc : g.heap[q]? = some c) (hp : g.heap[p]? = some n) (hname : P.name c.label = P.name n.label) (hk : P.isConst n.label = true) :
    ∃ g' r c', addNode P g p = some (g', r) ∧ g'.all = g.all ∧ g'.heap = g.heap ∧ r ∈ g.constants ∧ g.heap[r]? = some c' ∧ P.name c'.label = P.name n.label := by
  have hm : nameMatch P g n q = true := by simp [nameMatch, hc, hname, hk]
  cases hf : g.constants.find? (nameMatch P g n) with
  | none => exact absurd hm (by simpa using List.find?_eq_none.1 hf q hq)
  | some r =>
    have h1 := List.find?_some hf
    have h2 := List.mem_of_find?_eq_some hf
    have hr : ∃ c', g.heap[r]? = some c' ∧ P.name c'.label = P.name n.label := by
      unfold nameMatch at h1
      cases hr : g.heap[r]? with
      | none => rw [hr] at h1; cases h1
      | some c' => rw [hr] at h1; exact ⟨c', rfl, by simpa [hk] using h1⟩
    obtain ⟨c', hc', hn'⟩ := hr
    refine ⟨ensureTo g r, r, c', ?_, ?_, ?_, h2, hc', hn'⟩
    · simp only [addNode, hp, addNodeBody, hf]
    · unfold ensureTo; split <;> rfl
    · unfold ensureTo; split <;> rfl

/-- The name of a constant is what its value prints (gorgonia.go 115-119), so in a graph that has the `float32` 1 there is no `float64`
1; and two constants with the same name given by the user are one, with the first value. -/
theorem constant_types_merge (sum : List UInt8 → UInt32) (typ typ' v v' name : String) (h h' : UInt32) :
    let g : G Lbl := { (empty : G Lbl) with heap := [⟨⟨typ, [], some (.const v), name⟩, [], h, -1⟩, ⟨⟨typ', [], some (.const v'), name⟩, [], h', -1⟩] }
    ∃ g1 g2 m, addNode (code sum) g 0 = some (g1, m) ∧ addNode (code sum) g1 1 = some (g2, m) ∧ g2.all = [m] ∧
      g2.heap[m]? = some ⟨⟨typ, [], some (.const v), name⟩, [], h, 0⟩ := by
  intro g
  obtain ⟨g1, e1, k1, a1, h1⟩ : ∃ g1, addNode (code sum) g 0 = some (g1, 2) ∧ g1.constants = [2] ∧ g1.all = [2] ∧ g1.heap =
      g.heap ++ [⟨⟨typ, [], some (.const v), name⟩, [], h, 0⟩] := ⟨_, rfl, rfl, rfl, rfl⟩
  obtain ⟨g2, r, c', e2, a2, h2, hr, _, _⟩ := constant_substituted (code sum) g1 (q := 2) (p := 1)
    (c := ⟨⟨typ, [], some (.const v), name⟩, [], h, 0⟩) (n := ⟨⟨typ', [], some (.const v'), name⟩, [], h', -1⟩)
    (by rw [k1]; simp) (by rw [h1]; rfl) (by rw [h1]; rfl) rfl rfl
  rw [k1] at hr
  obtain rfl : r = 2 := by simpa using hr
  exact ⟨g1, g2, 2, e1, e2, by rw [a2, a1], by rw [h2, h1]; rfl⟩

theorem canon_eq {L : Type} {P : Params L} {g : G L} {l : L} {k : Nat} {h : UInt32} {m : Ptr} (hc : canon P g l k h = some m) :
    ∃ c, g.heap[m]? = some c ∧ P.eq l k c.label c.children.length = true := by
  rw [canon_bucket] at hc
  have key := List.find?_some hc
  unfold labelTest at key
  cases hm : g.heap[m]? with
  | none => rw [hm] at key; cases key
  | some c => rw [hm] at key; exact ⟨c, rfl, key⟩

/-- **C04 (what is told apart).** For every checksum, colliding or not: two nodes are different if one is an input (or random) and the
other is not, or both are and their names differ, or neither is and the checksums of what their operations write, their types, their
shapes or their numbers of operands differ. -/
theorem different_nodes (sum : List UInt8 → UInt32) {g : G Lbl} (h : Reachable (code sum) g) {l l' : Lbl} {cs cs' : List Ptr}
    (hl : (code sum).isConst l = false) (hl' : (code sum).isConst l' = false)
    (hd : l.input ≠ l'.input ∨ (l.input = true ∧ l'.input = true ∧ l.name ≠ l'.name) ∨
      (l.input = false ∧ l'.input = false ∧ (l.op.map (fun o => sum (written o)) ≠ l'.op.map (fun o => sum (written o)) ∨
        l.typ ≠ l'.typ ∨ l.shape ≠ l'.shape ∨ cs.length ≠ cs'.length)))
    (hcs : ∀ c ∈ cs, c ∈ g.all ∧ ∀ x, g.heap[c]? = some x → (code sum).isConst x.label = false)
    {g1 : G Lbl} {m : Ptr} (h1 : newUniqueNode (code sum) g l cs = some (g1, m))
    (hcs' : ∀ c ∈ cs', c ∈ g1.all ∧ ∀ x, g1.heap[c]? = some x → (code sum).isConst x.label = false)
    {g2 : G Lbl} {m' : Ptr} (h2 : newUniqueNode (code sum) g1 l' cs' = some (g2, m')) : m ≠ m' := by
  have refl : ∀ (l : Lbl) k, (code sum).eq l k l k = true := by
    intro l k
    simp only [code]
    cases hi : l.input with
    | true => simp
    | false =>
      cases ho : l.op with
      | none => simp [Lbl.input, ho] at hi
      | some o => simp
  obtain ⟨hW1, hm1, _, _⟩ := W_newUniqueNode h.W h1
  obtain ⟨_, _, _, hkeep⟩ := W_newUniqueNode hW1 h2
  obtain ⟨hs, a1, b1, _, e1, c1, _, _⟩ := newUniqueNode_canon h.W hl (refl l _) hcs
  rw [h1] at e1; cases e1
  obtain ⟨hs', a2, b2, _, e2, c2, _, _⟩ := newUniqueNode_canon hW1 hl' (refl l' _) hcs'
  rw [h2] at e2; cases e2
  obtain ⟨c, hc, t1⟩ := canon_eq c1
  obtain ⟨c', hc', t2⟩ := canon_eq c2
  rintro rfl
  rw [hkeep _ hm1, hc] at hc'
  cases hc'
  simp only [code] at t1 t2
  cases hi : l.input with
  | true =>
    cases hi' : l'.input with
    | true =>
      simp [hi] at t1; simp [hi'] at t2
      rcases hd with hd | ⟨_, _, hd⟩ | ⟨hd, _⟩
      · exact hd (hi.trans hi'.symm)
      · exact hd (t1.2.trans t2.2.symm)
      · rw [hi] at hd; cases hd
    | false =>
      simp [hi] at t1; simp [hi', t1.1] at t2
  | false =>
    cases hi' : l'.input with
    | true => simp [hi'] at t2; simp [hi, t2.1] at t1
    | false =>
      cases hcc : c.label.input with
      | true => simp [hi, hcc] at t1
      | false =>
        simp only [hi, hi', hcc] at t1 t2
        rcases hd with hd | ⟨hd, _⟩ | ⟨_, _, hd⟩
        · exact hd (hi.trans hi'.symm)
        · rw [hi] at hd; cases hd
        · cases ho : l.op with
          | none => simp [Lbl.input, ho] at hi
          | some o =>
            cases ho' : l'.op with
            | none => simp [Lbl.input, ho'] at hi'
            | some o' =>
              cases hco : c.label.op with
              | none => simp [Lbl.input, hco] at hcc
              | some oc =>
                simp [ho, hco] at t1
                simp [ho', hco] at t2
                rw [ho, ho'] at hd
                rcases hd with hd | hd | hd | hd
                · exact hd (by simp [t1.1.1.1, t2.1.1.1])
                · exact hd (t1.1.2.trans t2.1.2.symm)
                · exact hd (t1.2.trans t2.2.symm)
                · exact hd (t1.1.1.2.trans t2.1.1.2.symm)

/-- A graph the results apply to, for a concrete checksum: one input `x`. -/
example : ∃ g, Reachable (code (fun bs => bs.foldl (fun a b => (a ^^^ b.toUInt32) * 16777619) 2166136261)) g ∧
    (0 : Ptr) ∈ g.all ∧ ∀ c, g.heap[(0 : Ptr)]? = some c →
      (code (fun bs => bs.foldl (fun a b => (a ^^^ b.toUInt32) * 16777619) 2166136261)).isConst c.label = false := by
  refine ⟨_, ⟨[.unique ⟨"Vector float64", [300], none, "x"⟩ []], by decide, rfl⟩, by decide, ?_⟩
  intro c hc
  cases hc
  rfl

end Verif.Graph
