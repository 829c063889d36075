import Verif.AD.SymbolicExt
import Verif.AD.TensorConv
import Verif.AD.TensorBatched
import Verif.AD.TensorNorm
/-!
More of the nodes that the `SymDiff` methods build: convolutions, pooling, batched products, maxima, broadcasts, normalisations.
-/
set_option autoImplicit false
namespace Verif.AD
open Verif.Tensor Verif.Shape Verif.NN Verif.LinAlg Filter

noncomputable section

/-! ### Gradients that are one node -/

/-- A missing value as an error. -/
def optErr (r : Option (T ℝ)) : Res (T ℝ) :=
  match r with
  | some a => .ok a
  | none => .err

theorem optErr_ok {r : Option (T ℝ)} {a : T ℝ} : optErr r = .ok a ↔ r = some a := by cases r <;> simp [optErr]

/-- An operation whose `SymDiff` makes one node, with an operation of its own, on the operand, the result and the gradient, as
`upsampleOp.SymDiff` (op_upsample.go 128-143) and `maxPoolOp.SymDiff` (op_nn.go 758-773) do. `BatchNormOp.SymDiff` (op_nn.go 1247-1261)
and `GroupNormOp.SymDiff` (op_group_norm.go 491-505) leave the result out, which their operations do not need. -/
def oneSym (F : T ℝ → Res (T ℝ)) (shp : List Nat → List Nat) (law : ∀ x y, F x = .ok y → y.shape = shp x.shape)
    (D : T ℝ → T ℝ → T ℝ → Option (T ℝ)) (lawD : ∀ x y g r, D x y g = some r → r.shape = x.shape) : SymOp where
  op := .of1 F shp law
  diffs := [true]
  sym := fun _ args out g => match args with
    | [x] => some [.app (.of3 (fun x y g => optErr (D x y g)) (fun s _ _ => s) (fun x y g r h => lawD x y g r (optErr_ok.1 h))) [x, out, g]]
    | _ => none

theorem oneSym_of {F : T ℝ → Res (T ℝ)} {shp : List Nat → List Nat} {law : ∀ x y, F x = .ok y → y.shape = shp x.shape}
    {D : T ℝ → T ℝ → T ℝ → Option (T ℝ)} {lawD : ∀ x y g r, D x y g = some r → r.shape = x.shape} :
    (oneSym F shp law D lawD).Of (.one F D) where
  run := by
    funext xs
    match xs with
    | [] | [_] | _ :: _ :: _ => rfl
  diffs := rfl
  fresh := by
    intro sh args out gx es hg h
    match args, h with
    | [x], h =>
      simp only [oneSym, Option.some.injEq] at h
      subst h
      simp [XT.Old, XT.app1]
  sym := by
    intro ρ sh args out gx xs y g ts _ ha ho hg _ _ hs
    match xs, args, ha, hs with
    | [x], [a], .cons hx .nil, hs =>
      simp only [TOp.one, Option.map_eq_some_iff] at hs
      obtain ⟨r, hr, rfl⟩ := hs
      refine ⟨_, rfl, .cons ?_ .nil⟩
      simp only [XT.eval, XT.evalL, hx, ho, hg, Res.bind, POp.of3, hr, optErr]

/-- `im2colOp.SymDiff` and `col2imOp`, the sizes of the image being those of the node. -/
def im2colSym (op : Conv) (o1 o2 : List Nat) : SymOp where
  op := .of1 (fun x => optRes (im2colT op o1 x)) (fun s => match s with
    | [b, c, h, w] => [b, (op.retH h).toNat, (op.retW w).toNat, c * op.w * op.h]
    | _ => []) (by
      intro x y hy
      unfold im2colT at hy
      split at hy
      · next b c h w e =>
        rw [e]
        by_cases hc : op.retH h < 0 ∨ op.retW w < 0
        · rw [if_pos hc] at hy; cases hy
        · rw [if_neg hc] at hy
          simp only at hy ⊢
          cases hm : im2col op c h w o1 (data x) (List.replicate (size [b, (op.retH h).toNat, (op.retW w).toNat, c * op.w * op.h]) 0) with
          | none => rw [hm] at hy; cases hy
          | some l => rw [hm] at hy; cases hy; rfl
      · cases hy)
  diffs := [true]
  sym := fun sh args _ g => match args with
    | [x] => some [.app1 (fun v => optErr (im2colGrad op o2 ⟨sh x, fun _ => 0⟩ v)) (fun _ => sh x) (by
        intro v y hy
        rw [optErr_ok] at hy
        unfold im2colGrad at hy
        split at hy
        · next b c h w e =>
          simp only [Option.map_eq_some_iff] at hy
          obtain ⟨l, -, rfl⟩ := hy
          exact e.symm
        · cases hy) g]
    | _ => none

theorem im2colSym_of (op : Conv) (o1 o2 : List Nat) : (im2colSym op o1 o2).Of (im2colTOp op o1 o2) where
  run := by
    funext xs
    match xs with
    | [] | [_] | _ :: _ :: _ => rfl
  diffs := rfl
  fresh := by
    intro sh args out gx es hg h
    match args, h with
    | [x], h =>
      simp only [im2colSym, Option.some.injEq] at h
      subst h
      simp [XT.Old, XT.app1]
  sym := by
    intro ρ sh args out gx xs y g ts hsh ha _ hg _ _ hs
    match xs, args, ha, hs with
    | [x], [a], .cons hx .nil, hs =>
      simp only [im2colTOp, TOp.one, Option.map_eq_some_iff] at hs
      obtain ⟨r, hr, rfl⟩ := hs
      refine ⟨_, rfl, .cons ?_ .nil⟩
      rw [XT.eval_app1 hg, optErr_ok, hsh a x hx]
      exact hr

def im2colDOp (op : Conv) (o1 o2 : List Nat) : DOp := ⟨im2colTOp op o1 o2, im2colSym op o1 o2, im2colSym_of op o1 o2⟩

/-- The shape of a pooled batch of images (`maxPoolOp.InferShape`, op_nn.go 706-711). -/
def poolShp (op : Pool) (s : List Nat) : List Nat :=
  match s with
  | [b, c, h, w] => [b, c, (op.outH h).toNat, (op.outW w).toNat]
  | _ => []

theorem pool_shp {op : Pool} {lo : ℝ} {x y : T ℝ} (h : optRes ((poolRun op lo x).map Prod.fst) = .ok y) : y.shape = poolShp op x.shape := by
  unfold poolRun at h
  split at h
  · next b c hh w e =>
    rw [e]
    simp only at h
    cases hm : maxPool op lo b c hh w (data x) (List.replicate (b * c * ((op.outH hh).toNat * (op.outW w).toNat)) 0) with
    | none => rw [hm] at h; cases h
    | some l => rw [hm] at h; cases h; rfl
  · cases h

theorem poolGrad_shp {op : Pool} {lo : ℝ} {x g r : T ℝ} (h : poolGrad op lo x g = some r) : r.shape = x.shape := by
  unfold poolGrad at h
  split at h
  · next b c hh w e =>
    rw [e]
    simp only [Option.bind_eq_some_iff, Option.map_eq_some_iff] at h
    obtain ⟨p, -, l, -, rfl⟩ := h
    rfl
  · cases h

/-- `maxPoolOp.SymDiff` (op_nn.go 758-773). -/
def maxPoolDOp (op : Pool) (lo : ℝ) : DOp :=
  ⟨maxPoolTOp op lo, oneSym (fun x => optRes ((poolRun op lo x).map Prod.fst)) (poolShp op) (fun _ _ h => pool_shp h)
    (fun x _ g => poolGrad op lo x g) (fun _ _ _ _ h => poolGrad_shp h), oneSym_of⟩

theorem forR_inv {α : Type} {P : α → Prop} {f : Nat → α → Res α} (hf : ∀ i a b, P a → f i a = .ok b → P b) (n : Nat) {a b : α} (ha : P a)
    (h : forR n f a = .ok b) : P b := by
  induction n generalizing b with
  | zero => cases h; exact ha
  | succ n ih =>
    simp only [forR] at h
    obtain ⟨c, h1, h2⟩ := bind_ok.1 h
    exact hf n c b (ih h1) h2

theorem setAt_shape (t : T ℝ) (i : List Nat) (v : ℝ) : (setAt t i v).shape = t.shape := by
  unfold setAt
  split <;> rfl

/-- The shape of an upsampled batch (`upsampleOp.InferShape`, op_upsample.go 63-68). -/
def upShp (stride : Nat) (s : List Nat) : List Nat :=
  match s with
  | [b, c, h, w] => [b, c, h * (1 + stride), w * (1 + stride)]
  | _ => []

theorem up_shp {n : Nat} {x y : T ℝ} (h : upsample2D x (n : Int) = .ok y) : y.shape = upShp ((n : Int) - 1).toNat x.shape := by
  unfold upsample2D at h
  split at h
  · cases h
  split at h
  · cases h
  obtain ⟨s, -, h⟩ := bind_ok.1 h
  unfold upsampleDo at h
  split at h
  · next b c hh w e =>
    rw [e]
    obtain ⟨P, hP⟩ : ∃ P : T ℝ → Prop, P = fun t => t.shape = [b, c, hh * (1 + ((n : Int) - 1).toNat), w * (1 + ((n : Int) - 1).toNat)] :=
      ⟨_, rfl⟩
    suffices P y by rw [hP] at this; exact this
    refine forR_inv ?_ _ (by rw [hP]; rfl) h
    refine fun _ _ _ ha h => forR_inv ?_ _ ha h
    refine fun _ _ _ ha h => forR_inv ?_ _ ha h
    refine fun _ _ _ ha h => forR_inv ?_ _ ha h
    intro _ a r ha h
    obtain ⟨v, -, h⟩ := bind_ok.1 h
    refine forR_inv ?_ _ ha h
    refine fun _ _ _ ha h => forR_inv ?_ _ ha h
    subst hP
    intro _ a r ha h
    cases h
    rw [setAt_shape]
    exact ha
  · cases h

theorem upDiff_shp {s : Nat} {x g r : T ℝ} (h : upsampleDiffDo s x g = .ok r) : r.shape = x.shape := by
  unfold upsampleDiffDo at h
  split at h
  · next b c hh w e =>
    rw [e]
    obtain ⟨P, hP⟩ : ∃ P : T ℝ → Prop, P = fun t => t.shape = [b, c, hh, w] := ⟨_, rfl⟩
    suffices P r by rw [hP] at this; exact this
    refine forR_inv ?_ _ (by rw [hP]; rfl) h
    refine fun _ _ _ ha h => forR_inv ?_ _ ha h
    refine fun _ _ _ ha h => forR_inv ?_ _ ha h
    refine fun _ _ _ ha h => forR_inv ?_ _ ha h
    subst hP
    intro _ a r ha h
    obtain ⟨v, -, h⟩ := bind_ok.1 h
    cases h
    rw [setAt_shape]
    exact ha
  · cases h

/-- `upsampleOp.SymDiff` (op_upsample.go 128-143). -/
def upsampleDOp (s : Nat) : DOp :=
  ⟨upsampleTOp s, oneSym (fun x => upsample2D x (s : Int)) (upShp ((s : Int) - 1).toNat) (fun _ _ h => up_shp h)
    (fun x _ g => Res.opt (upsampleDiffDo (s - 1) x g)) (fun _ _ _ _ h => upDiff_shp (opt_some.1 h)), oneSym_of⟩

theorem byIndices_shp {axis : Nat} {idx : List Int} {x y : T ℝ} (h : byIndicesDo axis x idx = .ok y) : y.shape = x.shape.set axis idx.length := by
  unfold byIndicesDo gatherAt at h
  split at h
  · cases h
  · split at h
    · cases h; rfl
    · cases h

/-- `byIndicesOp.SymDiff` (op_by_indices.go 130-145), the indices being fixed. -/
def byIndicesDOp (axis : Nat) (idx : List Int) : DOp :=
  ⟨byIndicesTOp axis idx, oneSym (fun x => byIndicesDo axis x idx) (fun s => s.set axis idx.length) (fun _ _ h => byIndices_shp h)
    (fun x _ g => Res.opt ((byIndicesSymDiff axis x idx g).bind fun r => .ok r.1)) (fun x y g r h => by
      rw [opt_some] at h
      cases h
      rfl), oneSym_of⟩

/-- `BatchNormOp.SymDiff` (op_nn.go 1247-1261). -/
def bnDOp (op : BNOp) (order order' order'' : List Nat) (st : BNState) (ab : (Nat → ℝ) × (Nat → ℝ)) : DOp :=
  ⟨bnTOp op order order' order'' st ab, oneSym (fun x => (bnRun op order order' st ab x).bind fun r => .ok r.1) id (fun x y h => by
      obtain ⟨r, h1, h2⟩ := bind_ok.1 h
      cases h2
      unfold bnRun at h1
      obtain ⟨q, -, h3⟩ := bind_ok.1 h1
      cases h3
      rfl) (fun x _ g => bnGrad op order order' order'' st ab x g) (fun x y g r h => by
      unfold bnGrad at h
      rw [opt_some] at h
      obtain ⟨r, -, h⟩ := bind_ok.1 h
      obtain ⟨q, -, h⟩ := bind_ok.1 h
      cases h
      rfl), oneSym_of⟩

/-- `GroupNormOp.SymDiff` (op_group_norm.go 491-505). -/
def gnDOp (numGroups : Nat) (ε : ℝ) (order order' order'' : List Nat) (mean rstd : Nat → ℝ) : DOp :=
  ⟨gnTOp numGroups ε order order' order'' mean rstd, oneSym (fun x => (gnRun numGroups ε order mean rstd x).bind fun r => .ok r.1) id
    (fun x y h => by
      obtain ⟨r, h1, h2⟩ := bind_ok.1 h
      cases h2
      unfold gnRun at h1
      obtain ⟨q, -, h3⟩ := bind_ok.1 h1
      cases h3
      rfl) (fun x _ g => gnGrad numGroups ε order order' order'' mean rstd x g) (fun x y g r h => by
      unfold gnGrad at h
      rw [opt_some] at h
      obtain ⟨r, -, h⟩ := bind_ok.1 h
      obtain ⟨q, -, h⟩ := bind_ok.1 h
      cases h
      rfl), oneSym_of⟩

/-! ### Comparisons, smaller and larger of two tensors -/

/-- A comparison has no gradients (`DiffWRT`, op_math.go 202-217). -/
def cmpDOp (P : ℝ → ℝ → Prop) : DOp where
  op := cmpTOp P
  sym :=
    { op := .of2 (elem (mask P)) elemShp (fun _ _ _ h => elem_shape _ h)
      diffs := [false, false]
      sym := fun _ _ _ _ => none }
  of :=
    { run := by
        funext xs
        match xs with
        | [] | [_] | [_, _] | _ :: _ :: _ :: _ => rfl
      diffs := rfl
      fresh := by
        intro sh args out gx es _ h
        cases h
      sym := by
        intro ρ sh args out gx xs y g ts _ _ _ _ _ _ hs
        cases hs }

theorem between_shp {isMax : Bool} {a b y : T ℝ} (h : between isMax a b = .ok y) : y.shape = elemShp a.shape b.shape := by
  unfold between elemVal at h
  unfold elemShp
  by_cases c0 : shapeEq a.shape b.shape = true
  swap
  · rw [if_neg c0] at h; cases h
  rw [if_pos c0] at h
  by_cases c1 : a.shape = []
  · rw [if_pos c1] at h ⊢; cases h; rfl
  rw [if_neg c1] at h ⊢
  by_cases c2 : b.shape = []
  · rw [if_pos c2] at h; cases h; rfl
  rw [if_neg c2, if_pos c0] at h
  cases h
  rfl

/-- An elementwise operation on two nodes. -/
def XT.el (f : ℝ → ℝ → ℝ) (a b : XT) : XT := .app2 (elem f) elemShp (fun _ _ _ h => elem_shape _ h) a b

/-- `minmaxSymDiff` (op_minmaxBetween.go 150-168). -/
def betweenSym (isMax : Bool) : SymOp where
  op := .of2 (between isMax) elemShp (fun _ _ _ h => between_shp h)
  diffs := [true, true]
  sym := fun _ args out g => match args with
    | [a, _] =>
      let gradA := XT.el (· * ·) g (XT.el (fun x y : ℝ => if x = y then (1 : ℝ) else 0) a out)
      some [gradA, XT.el (· - ·) g gradA]
    | _ => none

theorem betweenSym_of (isMax : Bool) : (betweenSym isMax).Of (betweenTOp isMax) where
  run := by
    funext xs
    match xs with
    | [] | [_] | [_, _] | _ :: _ :: _ :: _ => rfl
  diffs := rfl
  fresh := by
    intro sh args out gx es hg h
    match args, h with
    | [x, y], h =>
      simp only [betweenSym, Option.some.injEq] at h
      subst h
      simp [XT.Old, XT.el, XT.app2]
  sym := by
    intro ρ sh args out gx xs y g ts _ ha ho hg _ _ hs
    match xs, args, ha, hs with
    | [x, z], [a, c], .cons hx (.cons hz .nil), hs =>
      simp only [betweenTOp, TOp.two, Option.map_eq_some_iff, opt_some] at hs
      obtain ⟨p, hp, rfl⟩ := hs
      unfold minmaxSymDiff at hp
      obtain ⟨m, m1, hp⟩ := bind_ok.1 hp
      obtain ⟨ga, g1, hp⟩ := bind_ok.1 hp
      obtain ⟨gb, g2, hp⟩ := bind_ok.1 hp
      cases hp
      have e1 : (XT.el (fun x y : ℝ => if x = y then (1 : ℝ) else 0) a out).eval ρ = .ok m := by rw [XT.el, XT.eval_app2 hx ho]; exact m1
      have e2 : (XT.el (· * ·) gx (XT.el (fun x y : ℝ => if x = y then (1 : ℝ) else 0) a out)).eval ρ = .ok ga := by
        rw [XT.el, XT.eval_app2 hg e1]; exact g1
      refine ⟨_, rfl, .cons e2 (.cons ?_ .nil)⟩
      rw [XT.el, XT.eval_app2 hg e2]
      exact g2

def betweenDOp (isMax : Bool) : DOp := ⟨betweenTOp isMax, betweenSym isMax, betweenSym_of isMax⟩

/-! ### Batched products -/

def batchShp (tA tB : Bool) (s s' : List Nat) : List Nat :=
  match inferBatched tA tB s s' with
  | .ok q => q
  | _ => []

theorem batch_shp {tA tB : Bool} {a b y : T ℝ} (h : batchRun tA tB a b = .ok y) : y.shape = batchShp tA tB a.shape b.shape := by
  unfold batchRun at h
  obtain ⟨s, h1, h⟩ := bind_ok.1 h
  unfold batchShp
  rw [h1]
  split at h
  · cases h; rfl
  · cases h

/-- A batched product as a node (`BatchedMatMul`, operations.go 79-98). -/
def XT.batch (tA tB : Bool) (a b : XT) : XT := .app2 (batchRun tA tB) (batchShp tA tB) (fun _ _ _ h => batch_shp h) a b

/-- `batchedMatMulDiffExpr` (operatorLinAlg.go 293-344). -/
def batchSym (tA tB : Bool) : SymOp where
  op := .of2 (batchRun tA tB) (batchShp tA tB) (fun _ _ _ h => batch_shp h)
  diffs := [true, true]
  sym := fun _ args _ g => match args with
    | [x, y] => some (match tA, tB with
      | true, true => [.batch true true y g, .batch true true g x]
      | false, true => [.batch false false g y, .batch true false g x]
      | true, false => [.batch false true y g, .batch false false x g]
      | false, false => [.batch false true g y, .batch true false x g])
    | _ => none

theorem batchSym_of (tA tB : Bool) : (batchSym tA tB).Of (batchTOp tA tB) where
  run := by
    funext xs
    match xs with
    | [] | [_] | [_, _] | _ :: _ :: _ :: _ => rfl
  diffs := rfl
  fresh := by
    intro sh args out gx es hg h
    match args, h with
    | [x, y], h =>
      simp only [batchSym, Option.some.injEq] at h
      subst h
      cases tA <;> cases tB <;> simp [XT.Old, XT.batch, XT.app2]
  sym := by
    intro ρ sh args out gx xs y g ts _ ha _ hg _ _ hs
    match xs, args, ha, hs with
    | [x, z], [a, c], .cons hx (.cons hz .nil), hs =>
      simp only [batchTOp, TOp.two, Option.map_eq_some_iff, opt_some] at hs
      obtain ⟨p, hp, rfl⟩ := hs
      refine ⟨_, rfl, ?_⟩
      cases tA <;> cases tB <;> unfold batchDiff at hp <;> obtain ⟨r, r1, hp⟩ := bind_ok.1 hp <;> obtain ⟨q, q1, hp⟩ := bind_ok.1 hp <;>
        cases hp <;> refine .cons ?_ (.cons ?_ .nil) <;> unfold XT.batch
      · rw [XT.eval_app2 hg hz]; exact r1
      · rw [XT.eval_app2 hx hg]; exact q1
      · rw [XT.eval_app2 hg hz]; exact r1
      · rw [XT.eval_app2 hg hx]; exact q1
      · rw [XT.eval_app2 hz hg]; exact r1
      · rw [XT.eval_app2 hx hg]; exact q1
      · rw [XT.eval_app2 hz hg]; exact r1
      · rw [XT.eval_app2 hg hx]; exact q1

def batchDOp (tA tB : Bool) : DOp := ⟨batchTOp tA tB, batchSym tA tB, batchSym_of tA tB⟩

/-! ### Inner products -/

/-- `vecDotDiffExpr` (operatorLinAlg.go 232-244) on values: two products with a scalar. -/
def dotTOp : TOp := .two vecDotRun fun x y _ g => match elem (· * ·) y g, elem (· * ·) x g with
  | .ok a, .ok b => some (a, b)
  | _, _ => none

def dotSym : SymOp where
  op := .of2 vecDotRun (fun _ _ => []) (by
    intro a b y h
    unfold vecDotRun at h
    split at h
    · split at h
      · cases h; rfl
      · cases h
    · cases h)
  diffs := [true, true]
  sym := fun _ args _ g => match args with
    | [x, y] => some [.el (· * ·) y g, .el (· * ·) x g]
    | _ => none

theorem dotSym_of : dotSym.Of dotTOp where
  run := by
    funext xs
    match xs with
    | [] | [_] | [_, _] | _ :: _ :: _ :: _ => rfl
  diffs := rfl
  fresh := by
    intro sh args out gx es hg h
    match args, h with
    | [x, y], h =>
      simp only [dotSym, Option.some.injEq] at h
      subst h
      simp [XT.Old, XT.el, XT.app2]
  sym := by
    intro ρ sh args out gx xs y g ts _ ha _ hg _ _ hs
    match xs, args, ha, hs with
    | [x, z], [a, c], .cons hx (.cons hz .nil), hs =>
      simp only [dotTOp, TOp.two] at hs
      cases e1 : elem (· * ·) z g with
      | ok ra =>
        cases e2 : elem (· * ·) x g with
        | ok rb =>
          rw [e1, e2] at hs
          simp only [Option.map_some, Option.some.injEq] at hs
          subst hs
          refine ⟨_, rfl, .cons ?_ (.cons ?_ .nil)⟩ <;> unfold XT.el
          · rw [XT.eval_app2 hz hg]; exact e1
          · rw [XT.eval_app2 hx hg]; exact e2
        | err => rw [e1, e2] at hs; cases hs
        | panic => rw [e1, e2] at hs; cases hs
      | err => rw [e1] at hs; cases hs
      | panic => rw [e1] at hs; cases hs

def dotDOp : DOp := ⟨dotTOp, dotSym, dotSym_of⟩

/-- The gradients need to be right only at the elements. -/
theorem TOp.Good.congr {o o' : TOp} {xs : List (T ℝ)} {y : T ℝ} (h : o.Good xs y) (hr : o'.run = o.run) (hd : o'.diffs = o.diffs)
    (hs : ∀ g : T ℝ, g.shape = y.shape → ∀ ts, o.symDiff xs y g = some ts → ∃ ts', o'.symDiff xs y g = some ts' ∧ List.Forall₂ T.Same ts' ts)
    (hdiff : true ∈ o.diffs) : o'.Good xs y where
  run := by rw [hr]; exact h.run
  arity := by rw [hd]; exact h.arity
  total := by
    intro _ g hg
    obtain ⟨ts, h1, h2, h3⟩ := h.total hdiff g hg
    obtain ⟨ts', h1', hf⟩ := hs g hg ts h1
    refine ⟨ts', h1', hf.length_eq.trans h2, fun k r x k1 k2 k3 => ?_⟩
    rw [hd] at k1
    obtain ⟨hk, e⟩ := List.getElem?_eq_some_iff.1 k2
    have hk' : k < ts.length := by rw [← hf.length_eq]; exact hk
    have hsame := hf.get hk hk'
    rw [← h3 k _ x k1 (List.getElem?_eq_getElem hk') k3, ← e]
    exact hsame.1
  deriv := by
    intro γs vs t₀ hx hM
    obtain ⟨z, z1, z2⟩ := h.deriv γs vs t₀ hx hM
    rw [hr, hd]
    refine ⟨z, z1, fun g hg => ?_⟩
    obtain ⟨ts, h1, h2, h3⟩ := h.total hdiff g hg
    obtain ⟨ts', h1', hf⟩ := hs g hg ts h1
    have := z2 g hg
    have e : dsum o.diffs (o'.grads xs y g) vs = dsum o.diffs (o.grads xs y g) vs := by
      unfold TOp.grads
      rw [h1, h1']
      simp only [Option.getD_some]
      have hv : ∀ (ds : List Bool) (vs ts ts' : List (T ℝ)), List.Forall₂ T.Same ts' ts → dsum ds ts' vs = dsum ds ts vs := by
        intro ds vs ts ts' hf
        induction hf generalizing ds vs with
        | nil => cases ds <;> rfl
        | cons hab _ ih =>
          match ds, vs with
          | [], _ => rfl
          | _ :: _, [] => rfl
          | d :: ds, v :: vs =>
            simp only [dsum, ih]
            congr 1
            split
            · rw [pair_eq, pair_eq, hab.1]
              refine sumOver_congr _ _ _ fun i hi => ?_
              rw [hab.2 i (by rw [hab.1]; exact hi)]
            · rfl
      exact hv _ _ _ _ hf
    rw [e]
    exact this

theorem dotTOp_good (x y : T ℝ) (n : Nat) (hx : x.shape = [n]) (hy : y.shape = [n]) :
    ∃ z, vecDotRun x y = .ok z ∧ z.shape = [] ∧ dotTOp.Good [x, y] z := by
  obtain ⟨z, z1, z2, z3⟩ := vecDotTOp_good x y n hx hy
  refine ⟨z, z1, z2, z3.congr rfl rfl (fun g hg ts ht => ?_) (by simp [vecDotTOp, TOp.two])⟩
  have hgs : g.shape = [] := by rw [hg, z2]
  have hi : ∃ s, inferElem [n] [] = .ok s := by
    unfold inferElem
    split
    · split
      · exact ⟨_, rfl⟩
      · split <;> exact ⟨_, rfl⟩
    · simp
  have key : ∀ q : T ℝ, q.shape = [n] → ∃ r, elem (· * ·) q g = .ok r ∧ r.Same (ofV ((toV q).scale (g.at_ []))) := by
    intro q hq
    obtain ⟨s, hs⟩ := hi
    unfold elem
    rw [hq, hgs, hs]
    refine ⟨⟨q.shape, fun i => q.at_ i * g.at_ []⟩, ?_, ?_, ?_⟩
    · simp [Res.bind, elemVal, hq, hgs]
    · simp [ofV, V.scale, toV, hq]
    · intro i hi
      rw [hq] at hi
      match i, hi with
      | [k], _ => simp [ofV, V.scale, toV]
  obtain ⟨a, a1, a2⟩ := key y hy
  obtain ⟨b, b1, b2⟩ := key x hx
  simp only [vecDotTOp, TOp.two, Option.map_some, Option.some.injEq] at ht
  subst ht
  exact ⟨[a, b], by simp only [dotTOp, TOp.two, a1, b1, Option.map_some], .cons a2 (.cons b2 .nil)⟩

/-! ### Broadcasts -/

/-- One half of `Broadcast` (broadcast.go 80-102 and 104-127): the nodes made. -/
def bcastX (sh : XT → List Nat) (axes : List Nat) (x : XT) (ydims : Nat) (y : XT) : Option XT :=
  if axes = [] then some x
  else if axes.any (fun a => decide (a ≥ ydims)) then none
  else some (repeatedX sh y axes (.reshape ((calcBroadcastShape (sh x) ydims axes).map Int.ofNat) x))

theorem bcastX_eval {ρ : Nat → Res (T ℝ)} {sh : XT → List Nat} (hsh : ∀ e v, XT.eval ρ e = .ok v → sh e = v.shape) {axes : List Nat}
    {x y : XT} {xv yv w : T ℝ} {ydims : Nat} (hx : x.eval ρ = .ok xv) (hy : y.eval ρ = .ok yv)
    (h : broadcastHalf axes xv ydims yv.shape = .ok w) : ∃ e, bcastX sh axes x ydims y = some e ∧ e.eval ρ = .ok w := by
  unfold broadcastHalf at h
  unfold bcastX
  by_cases c1 : axes = []
  · rw [if_pos c1] at h ⊢
    cases h
    exact ⟨x, rfl, hx⟩
  rw [if_neg c1] at h ⊢
  by_cases c2 : axes.any (fun a => decide (a ≥ ydims)) = true
  · rw [if_pos c2] at h; cases h
  rw [if_neg c2] at h ⊢
  obtain ⟨q, q1, q2⟩ := bind_ok.1 h
  refine ⟨_, rfl, repeatedX_eval hsh hy axes (v := q) ?_ q2⟩
  rw [XT.reshape, XT.eval_app1 hx, hsh x xv hx]
  exact q1

/-- `Broadcast` (broadcast.go 69-129). -/
def broadcastX (sh : XT → List Nat) (x y : XT) (pat : BitVec 8) : Option (XT × XT) :=
  (bcastX sh (on pat).1 x (sh y).length y).bind fun x' => (bcastX sh (on pat).2 y (sh x).length x').map fun y' => (x', y')

theorem broadcastX_eval {ρ : Nat → Res (T ℝ)} {sh : XT → List Nat} (hsh : ∀ e v, XT.eval ρ e = .ok v → sh e = v.shape) {x y : XT}
    {xv yv : T ℝ} {pat : BitVec 8} {w : T ℝ × T ℝ} (hx : x.eval ρ = .ok xv) (hy : y.eval ρ = .ok yv) (h : broadcast xv yv pat = .ok w) :
    ∃ e, broadcastX sh x y pat = some e ∧ e.1.eval ρ = .ok w.1 ∧ e.2.eval ρ = .ok w.2 := by
  unfold broadcast at h
  simp only at h
  obtain ⟨x', h1, h⟩ := bind_ok.1 h
  obtain ⟨y', h2, h⟩ := bind_ok.1 h
  cases h
  obtain ⟨e1, k1, v1⟩ := bcastX_eval hsh hx hy h1
  obtain ⟨e2, k2, v2⟩ := bcastX_eval hsh hy v1 h2
  unfold broadcastX
  rw [hsh y yv hy, hsh x xv hx, k1]
  simp only [Option.bind_some, k2, Option.map_some]
  exact ⟨_, rfl, v1, v2⟩

/-- The shape of a maximum (`reductionInferShape`, op_reduction.go 46-68). -/
theorem max_shp (along : List Nat) {x y : T ℝ} (h : maxNode x along = .ok y) : y.shape = sumShp along x.shape := by
  unfold maxNode reduceNode at h
  unfold sumShp
  by_cases h0 : x.shape = []
  · rw [if_pos h0] at h ⊢
    cases h
    exact h0
  · rw [if_neg h0] at h ⊢
    simp only [bind_ok] at h
    obtain ⟨s', h1, h2⟩ := h
    unfold reduceDo at h2
    simp only at h2 ⊢
    by_cases h3 : dropAxes (if along = [] then List.range x.shape.length else along) 0 x.shape = []
    · rw [if_pos (show (maxAxes _ x).shape = [] from h3)] at h2
      rw [if_pos h3]
      cases h2
      exact h3
    · rw [if_neg (show ¬ (maxAxes _ x).shape = [] from h3)] at h2
      rw [if_neg h3, h1]
      rw [h1] at h2
      simp only [Res.bind] at h2
      by_cases h4 : size (maxAxes (if along = [] then List.range x.shape.length else along) x).shape = size s'
      · rw [if_pos h4] at h2
        cases h2
        rfl
      · rw [if_neg h4] at h2
        cases h2

/-- `maxOp.SymDiff` (op_reduction.go 127-162). -/
def maxSym (along : List Nat) : SymOp where
  op := .of1 (fun x => maxNode x along) (sumShp along) (fun _ _ h => max_shp along h)
  diffs := [true]
  sym := fun sh args out g => match args with
    | [t] =>
      let pat := newPattern (leftAxes (sh t).length (axesOf (sh t).length along)) []
      (broadcastX sh out t pat).bind fun ab =>
        let eq := XT.el eqMask ab.1 ab.2
        (broadcastX sh g eq pat).map fun ge => [.el (· * ·) ge.1 ge.2]
    | _ => none

theorem maxSym_of (along : List Nat) : (maxSym along).Of (maxTOp along) where
  run := by
    funext xs
    match xs with
    | [] | [_] | _ :: _ :: _ => rfl
  diffs := rfl
  fresh := by
    intro sh args out gx es hg h
    match args, h with
    | [x], h =>
      simp only [maxSym, Option.bind_eq_some_iff, Option.map_eq_some_iff] at h
      obtain ⟨ab, -, ge, -, rfl⟩ := h
      simp [XT.Old, XT.el, XT.app2]
  sym := by
    intro ρ sh args out gx xs y g ts hsh ha ho hg _ _ hs
    match xs, args, ha, hs with
    | [x], [a], .cons hx .nil, hs =>
      simp only [maxTOp, TOp.one, Option.map_eq_some_iff, opt_some] at hs
      obtain ⟨r, hr, rfl⟩ := hs
      unfold maxDiff at hr
      simp only at hr
      obtain ⟨ab, h1, hr⟩ := bind_ok.1 hr
      obtain ⟨eq, h2, hr⟩ := bind_ok.1 hr
      obtain ⟨ge, h3, hr⟩ := bind_ok.1 hr
      obtain ⟨e, e1, e2, e3⟩ := broadcastX_eval hsh ho hx h1
      have he : (XT.el eqMask e.1 e.2).eval ρ = .ok eq := by rw [XT.el, XT.eval_app2 e2 e3]; exact h2
      obtain ⟨f, f1, f2, f3⟩ := broadcastX_eval hsh hg he h3
      simp only [maxSym]
      rw [hsh a x hx, e1]
      simp only [Option.bind_some, f1, Option.map_some]
      refine ⟨_, rfl, .cons ?_ .nil⟩
      rw [XT.el, XT.eval_app2 f2 f3]
      exact hr

def maxDOp (along : List Nat) : DOp := ⟨maxTOp along, maxSym along, maxSym_of along⟩

/-- The shape after repetitions. -/
def repeatedShp : List Nat → List Nat → List Nat → List Nat
  | a :: along, r :: reps, s => repeatedShp along reps (repeatShp a r s)
  | _, _, s => s

theorem repeated_shp (along reps : List Nat) {x y : T ℝ} (h : repeatedApply along reps x = .ok y) : y.shape = repeatedShp along reps x.shape := by
  induction along generalizing reps x with
  | nil =>
    cases reps with
    | nil => simp only [repeatedApply, Res.ok.injEq] at h; subst h; rfl
    | cons _ _ => cases h
  | cons a along ih =>
    cases reps with
    | nil => cases h
    | cons r reps =>
      simp only [repeatedApply] at h
      obtain ⟨q, q1, q2⟩ := bind_ok.1 h
      rw [ih reps q2, repeatedShp]
      congr 1
      unfold repeat_ at q1
      obtain ⟨s, h1, h2⟩ := bind_ok.1 q1
      cases h2
      unfold repeatShp
      rw [h1]

def bcastShp (axes : List Nat) (ydims : Nat) (yshape : List Nat) (s : List Nat) : List Nat :=
  if axes = [] then s
  else repeatedShp axes (axes.map fun a => Shape.sizeOf a yshape) (reshapeShp ((calcBroadcastShape s ydims axes).map Int.ofNat) s)

theorem bcast_shp {axes : List Nat} {ydims : Nat} {yshape : List Nat} {x y : T ℝ} (h : broadcastHalf axes x ydims yshape = .ok y) :
    y.shape = bcastShp axes ydims yshape x.shape := by
  unfold broadcastHalf at h
  unfold bcastShp
  by_cases c1 : axes = []
  · rw [if_pos c1] at h ⊢
    cases h
    rfl
  rw [if_neg c1] at h ⊢
  by_cases c2 : axes.any (fun a => decide (a ≥ ydims)) = true
  · rw [if_pos c2] at h; cases h
  rw [if_neg c2] at h
  obtain ⟨q, q1, q2⟩ := bind_ok.1 h
  rw [repeated_shp _ _ q2, reshape_shp q1]

/-- The nodes that `repeatOp.SymDiff` (op_tensor.go 252-260) makes, last axis first, and `reshapeOp.SymDiff` (op_tensor.go 1251-1258) after
them. -/
def broadcastSym (axes : List Nat) (ydims : Nat) (yshape : List Nat) : SymOp where
  op := .of1 (fun x => broadcastHalf axes x ydims yshape) (bcastShp axes ydims yshape) (fun _ _ h => bcast_shp h)
  diffs := [true]
  sym := fun sh args _ g => match args with
    | [x] => some [if axes = [] then g else .reshape ((sh x).map Int.ofNat) (axes.foldr (fun a acc => .sum [a] acc) g)]
    | _ => none

theorem sums_eval {ρ : Nat → Res (T ℝ)} {gx : XT} {g : T ℝ} (hg : gx.eval ρ = .ok g) (axes : List Nat) (q : T ℝ)
    (h : axes.foldr (fun a (acc : Res (T ℝ)) => acc.bind (repeatDiff a)) (Res.ok g) = .ok q) :
    (axes.foldr (fun a acc => XT.sum [a] acc) gx).eval ρ = .ok q := by
  induction axes generalizing q with
  | nil => cases h; exact hg
  | cons b axes ih =>
    simp only [List.foldr_cons] at h ⊢
    obtain ⟨p, p1, p2⟩ := bind_ok.1 h
    rw [XT.sum, XT.eval_app1 (ih p p1)]
    exact p2

theorem broadcastSym_of (axes : List Nat) (ydims : Nat) (yshape : List Nat) : (broadcastSym axes ydims yshape).Of (broadcastTOp axes ydims yshape) where
  run := by
    funext xs
    match xs with
    | [] | [_] | _ :: _ :: _ => rfl
  diffs := rfl
  fresh := by
    intro sh args out gx es hg h
    match args, h with
    | [x], h =>
      simp only [broadcastSym, Option.some.injEq] at h
      subst h
      simp only [List.mem_singleton, forall_eq]
      split
      · exact hg
      · simp [XT.Old, XT.reshape, XT.app1]
  sym := by
    intro ρ sh args out gx xs y g ts hsh ha _ hg _ _ hs
    match xs, args, ha, hs with
    | [x], [a], .cons hx .nil, hs =>
      simp only [broadcastTOp, TOp.one, Option.map_eq_some_iff, opt_some] at hs
      obtain ⟨r, hr, rfl⟩ := hs
      refine ⟨_, rfl, .cons ?_ .nil⟩
      unfold broadcastDiff at hr
      by_cases c : axes = []
      · rw [if_pos c] at hr ⊢
        cases hr
        exact hg
      rw [if_neg c] at hr ⊢
      obtain ⟨q, q1, q2⟩ := bind_ok.1 hr
      rw [hsh a x hx, XT.reshape, XT.eval_app1 (sums_eval hg axes q q1)]
      exact q2

def broadcastDOp (axes : List Nat) (ydims : Nat) (yshape : List Nat) : DOp :=
  ⟨broadcastTOp axes ydims yshape, broadcastSym axes ydims yshape, broadcastSym_of axes ydims yshape⟩

/-! ### Contractions -/

theorem dot_shp {A B : List Nat} {a b y : T ℝ} (h : tensordot A B a b = .ok y) : y.shape = dropAxes A 0 a.shape ++ dropAxes B 0 b.shape := by
  unfold tensordot at h
  iterate 6
    split at h
    · cases h
  obtain ⟨s, -, h⟩ := bind_ok.1 h
  cases h
  rfl

/-- `Tensordot` as a node (operations.go 588-633). -/
def XT.tdot (A B : List Nat) (a b : XT) : XT :=
  .app2 (tensordot A B) (fun s s' => dropAxes A 0 s ++ dropAxes B 0 s') (fun _ _ _ h => dot_shp h) a b

theorem matMulT_shp {a b y : T ℝ} (h : matMulT a b = .ok y) : y.shape = [a.shape.getD 0 0, b.shape.getD 1 0] := by
  unfold matMulT at h
  split at h
  · next n k k' m e1 e2 =>
    split at h
    · cases h
      rw [e1, e2]
      rfl
    · cases h
  · cases h

/-- The vector case of `tensordotOp.SymDiff` (op_math.go 1197-1232). -/
def vecMulX (sh : XT → List Nat) (other g : XT) : XT :=
  let x := if isColVec (sh other) then other else .reshape [Int.ofNat ((sh other).getD 0 0), 1] other
  let y := if isRowVec (sh g) then g else .reshape [1, Int.ofNat ((sh g).getD 0 0)] g
  .app2 matMulT (fun s s' => [s.getD 0 0, s'.getD 1 0]) (fun _ _ _ h => matMulT_shp h) x y

/-- `Transpose` (operations.go 446-470) on nodes. -/
def transposeX (sh : XT → List Nat) (e : XT) (axes : List Nat) : Option XT :=
  match transposeNode (sh e).length axes with
  | .same => some e
  | .tr p => some (.transpose p e)
  | .err => none
  | .panic => none

theorem vecMulX_new {sh : XT → List Nat} {other g : XT} : ¬ (vecMulX sh other g).Old := fun h => h

theorem transposeX_new {sh : XT → List Nat} {e e' : XT} {axes : List Nat} (h : transposeX sh e axes = some e') (he : ¬ e.Old) :
    ¬ e'.Old := by
  unfold transposeX at h
  split at h
  · cases h; exact he
  · cases h; exact fun h => h
  · cases h
  · cases h

/-- `tensordotOp.SymDiff` (op_math.go 1097-1252) for one operand. -/
def dotX (sh : XT → List Nat) (first : Bool) (iAxes otherAxes : List Nat) (inp other g : XT) : Option XT :=
  let dO := dOtherAxes otherAxes (sh other)
  let dG := dGradAxes first dO.length (sh g).length
  let c := if isScalarEquiv (sh g) then XT.el (· * ·) other g
    else if isVector (sh other) && isVector (sh g) && dO.isEmpty then vecMulX sh other g
    else .tdot dO dG other g
  transposeX sh c (dotPattern iAxes otherAxes (sh inp).length)

theorem vecMulX_eval {ρ : Nat → Res (T ℝ)} {sh : XT → List Nat} (hsh : ∀ e v, XT.eval ρ e = .ok v → sh e = v.shape) {other g : XT}
    {ov gv w : T ℝ} (ho : other.eval ρ = .ok ov) (hg : g.eval ρ = .ok gv) (h : vecMul ov gv = .ok w) : (vecMulX sh other g).eval ρ = .ok w := by
  unfold vecMul at h
  obtain ⟨x, x1, h⟩ := bind_ok.1 h
  obtain ⟨y, y1, h⟩ := bind_ok.1 h
  unfold vecMulX
  simp only
  rw [hsh other ov ho, hsh g gv hg]
  have e1 : (if isColVec ov.shape then other else .reshape [Int.ofNat (ov.shape.getD 0 0), 1] other).eval ρ = .ok x := by
    by_cases c : isColVec ov.shape = true
    · rw [if_pos c] at x1 ⊢
      cases x1
      exact ho
    · rw [if_neg c] at x1 ⊢
      rw [XT.reshape, XT.eval_app1 ho]
      exact x1
  have e2 : (if isRowVec gv.shape then g else .reshape [1, Int.ofNat (gv.shape.getD 0 0)] g).eval ρ = .ok y := by
    by_cases c : isRowVec gv.shape = true
    · rw [if_pos c] at y1 ⊢
      cases y1
      exact hg
    · rw [if_neg c] at y1 ⊢
      rw [XT.reshape, XT.eval_app1 hg]
      exact y1
  rw [XT.eval_app2 e1 e2]
  exact h

theorem transposeX_eval {ρ : Nat → Res (T ℝ)} {sh : XT → List Nat} (hsh : ∀ e v, XT.eval ρ e = .ok v → sh e = v.shape) {e : XT} {v w : T ℝ}
    {axes : List Nat} (he : e.eval ρ = .ok v) (h : transposeRes v axes = .ok w) : ∃ e', transposeX sh e axes = some e' ∧ e'.eval ρ = .ok w := by
  unfold transposeRes at h
  unfold transposeX
  rw [hsh e v he]
  cases ht : transposeNode v.shape.length axes with
  | same => rw [ht] at h; cases h; exact ⟨e, rfl, he⟩
  | tr p => rw [ht] at h; cases h; exact ⟨_, rfl, by rw [XT.transpose, XT.eval_app1 he]⟩
  | err => rw [ht] at h; cases h
  | panic => rw [ht] at h; cases h

theorem dotX_eval {ρ : Nat → Res (T ℝ)} {sh : XT → List Nat} (hsh : ∀ e v, XT.eval ρ e = .ok v → sh e = v.shape) {first : Bool}
    {iAxes otherAxes : List Nat} {inp other g : XT} {iv ov gv w : T ℝ} (hi : inp.eval ρ = .ok iv) (ho : other.eval ρ = .ok ov)
    (hg : g.eval ρ = .ok gv) (h : dotDiff first iAxes otherAxes iv.shape ov gv = .ok w) :
    ∃ e, dotX sh first iAxes otherAxes inp other g = some e ∧ e.eval ρ = .ok w := by
  unfold dotDiff at h
  simp only at h
  obtain ⟨c, c1, h⟩ := bind_ok.1 h
  unfold dotX
  simp only
  rw [hsh other ov ho, hsh g gv hg, hsh inp iv hi]
  refine transposeX_eval hsh (v := c) ?_ h
  by_cases k1 : isScalarEquiv gv.shape = true
  · rw [if_pos k1] at c1 ⊢
    rw [XT.el, XT.eval_app2 ho hg]
    exact c1
  rw [if_neg k1] at c1 ⊢
  by_cases k2 : (isVector ov.shape && isVector gv.shape && (dOtherAxes otherAxes ov.shape).isEmpty) = true
  · rw [if_pos k2] at c1 ⊢
    exact vecMulX_eval hsh ho hg c1
  rw [if_neg k2] at c1 ⊢
  rw [XT.tdot, XT.eval_app2 ho hg]
  exact c1

def tensordotSym (A B : List Nat) : SymOp where
  op := .of2 (tensordot A B) (fun s s' => dropAxes A 0 s ++ dropAxes B 0 s') (fun _ _ _ h => dot_shp h)
  diffs := [true, true]
  sym := fun sh args _ g => match args with
    | [a, b] => (dotX sh true A B a b g).bind fun da => (dotX sh false B A b a g).map fun db => [da, db]
    | _ => none

theorem tensordotSym_of (A B : List Nat) : (tensordotSym A B).Of (tensordotTOp A B) where
  run := by
    funext xs
    match xs with
    | [] | [_] | [_, _] | _ :: _ :: _ :: _ => rfl
  diffs := rfl
  fresh := by
    intro sh args out gx es hg h
    have hd : ∀ (fst : Bool) (A B : List Nat) (a b e : XT), dotX sh fst A B a b gx = some e → ¬ e.Old := by
      intro fst A B a b e he
      unfold dotX at he
      refine transposeX_new he ?_
      split
      · simp [XT.Old, XT.el, XT.app2]
      · split
        · exact vecMulX_new
        · simp [XT.Old, XT.tdot, XT.app2]
    match args, h with
    | [x, y], h =>
      simp only [tensordotSym, Option.bind_eq_some_iff, Option.map_eq_some_iff] at h
      obtain ⟨da, h1, db, h2, rfl⟩ := h
      intro e he
      simp only [List.mem_cons, List.not_mem_nil, or_false] at he
      rcases he with rfl | rfl
      · exact hd _ _ _ _ _ _ h1
      · exact hd _ _ _ _ _ _ h2
  sym := by
    intro ρ sh args out gx xs y g ts hsh ha _ hg _ _ hs
    match xs, args, ha, hs with
    | [x, z], [a, c], .cons hx (.cons hz .nil), hs =>
      simp only [tensordotTOp, TOp.two] at hs
      cases e1 : dotDiff true A B x.shape z g with
      | ok ra =>
        cases e2 : dotDiff false B A z.shape x g with
        | ok rb =>
          rw [e1, e2] at hs
          simp only [Option.map_some, Option.some.injEq] at hs
          subst hs
          obtain ⟨p, p1, p2⟩ := dotX_eval hsh hx hz hg e1
          obtain ⟨q, q1, q2⟩ := dotX_eval hsh hz hx hg e2
          refine ⟨[p, q], ?_, .cons p2 (.cons q2 .nil)⟩
          simp only [tensordotSym, p1, q1, Option.bind_some, Option.map_some]
        | err => rw [e1, e2] at hs; cases hs
        | panic => rw [e1, e2] at hs; cases hs
      | err => rw [e1] at hs; cases hs
      | panic => rw [e1] at hs; cases hs

def tensordotDOp (A B : List Nat) : DOp := ⟨tensordotTOp A B, tensordotSym A B, tensordotSym_of A B⟩

end

end Verif.AD
