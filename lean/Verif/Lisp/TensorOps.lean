import Verif.Lisp.Tensor
import Verif.Lisp.Grad
import Verif.AD.TensorMore
import Verif.AD.TensorBatched
import Verif.Shape.SliceStep
/-!
The operations for `lisp_tensor_gradient`: what their `DoDiff` does, and that it adds the gradient.

The gradients against which `DoDiff` is compared are those of the nodes that `SymDiff` builds (right by the theorems of `Verif.AD`),
except for unary functions: there it is the product of the derivative with the incoming gradient, because the `SymDiff` of `log2` is wrong
while its `DoDiff` is right.

In `DoDiff` the sums are taken in place in the derivative of the operand (`WithIncr`), which is not shared with the other derivatives here.
-/
set_option autoImplicit false
namespace Verif.Lisp.Tensor
open Verif.Tensor Verif.Shape Verif.AD Verif.LinAlg Verif.NN Filter
open scoped Topology

noncomputable section

/-! ### Operations with one and two operands -/

/-- Adding a result to a derivative in place: an error if there is no result or its shape differs (`IncrDo` with
`tensor.WithIncr`, op_math.go 705-732; `checkErrSetDeriv`, errors.go 75-80). -/
def incrT (d : T ℝ) (r : Res (T ℝ)) : Option (T ℝ) :=
  match r with
  | .ok r => if r.shape = d.shape then some ⟨d.shape, fun i => d.at_ i + r.at_ i⟩ else none
  | _ => none

theorem incrT_ok {d r : T ℝ} (h : r.shape = d.shape) :
    ∃ d', incrT d (.ok r) = some d' ∧ d'.shape = d.shape ∧ ∀ i, d'.at_ i = d.at_ i + r.at_ i :=
  ⟨_, if_pos h, rfl, fun _ => rfl⟩

/-- An operation with one operand whose `DoDiff` sets the derivative of the operand to `upd`. -/
def LOp.one (F : T ℝ → Res (T ℝ)) (sd : T ℝ → T ℝ → T ℝ → Option (T ℝ)) (fresh : Bool) (upd : T ℝ → T ℝ → T ℝ → T ℝ → Option (T ℝ))
    (out : T ℝ → T ℝ → T ℝ → T ℝ) : LOp where
  op := .one F sd
  ad := true
  steps := [⟨0, fresh, fun xs y g d => match xs with
    | [x] => upd x y g d
    | _ => none⟩]
  out := fun xs y g => match xs with
    | [x] => out x y g
    | _ => g

theorem adds_one {F : T ℝ → Res (T ℝ)} {sd : T ℝ → T ℝ → T ℝ → Option (T ℝ)} {fresh : Bool}
    {upd : T ℝ → T ℝ → T ℝ → T ℝ → Option (T ℝ)} {out : T ℝ → T ℝ → T ℝ → T ℝ} {x y : T ℝ} {P : List (ℝ → T ℝ) → ℝ → Prop}
    (hf : (TOp.one F sd).Fine [x] y P)
    (h : ∀ g : T ℝ, g.shape = y.shape → ∀ r, sd x y g = some r → r.shape = x.shape → ∀ d : T ℝ, d.shape = x.shape → (fresh = true → IsZero d) →
      ∃ d', upd x y g d = some d' ∧ d'.shape = x.shape ∧ ∀ i, InB x.shape i → d'.at_ i = d.at_ i + r.at_ i) :
    (LOp.one F sd fresh upd out).Adds [x] y := by
  refine ⟨by simp [LOp.one], ?_, ?_⟩
  · intro s hs
    simp only [LOp.one, List.mem_singleton] at hs
    subst hs
    rfl
  · intro s hs g hg r x' h1 h2 d hd hz
    simp only [LOp.one, List.mem_singleton] at hs
    subst hs
    obtain ⟨ts, t1, _, t3⟩ := hf.total (by simp [TOp.one]) g hg
    simp only [List.getElem?_cons_zero, Option.some.injEq] at h2
    subst h2
    simp only [LOp.one, TOp.grads, t1, Option.getD_some] at h1
    have hs := t3 0 r x rfl h1 rfl
    simp only [TOp.one, Option.map_eq_some_iff] at t1
    obtain ⟨r', e1, e2⟩ := t1
    rw [← e2] at h1
    simp only [List.getElem?_cons_zero, Option.some.injEq] at h1
    subst h1
    exact h g hg r' e1 hs d hd hz

/-- An operation with two operands: what `DoDiff` does to the derivatives of the operands. `left` and `right`: whether it deals with that
operand. `rev`: it deals with the right one first. -/
def LOp.two (F : T ℝ → T ℝ → Res (T ℝ)) (sd : T ℝ → T ℝ → T ℝ → T ℝ → Option (T ℝ × T ℝ)) (rev left right fa fb : Bool)
    (ua ub : T ℝ → T ℝ → T ℝ → T ℝ → T ℝ → Option (T ℝ)) : LOp where
  op := .two F sd
  ad := true
  steps :=
    let sa : List LStep := if left then [⟨0, fa, fun xs y g d => match xs with
      | [a, b] => ua a b y g d
      | _ => none⟩] else []
    let sb : List LStep := if right then [⟨1, fb, fun xs y g d => match xs with
      | [a, b] => ub a b y g d
      | _ => none⟩] else []
    if rev then sb ++ sa else sa ++ sb

theorem adds_two {F : T ℝ → T ℝ → Res (T ℝ)} {sd : T ℝ → T ℝ → T ℝ → T ℝ → Option (T ℝ × T ℝ)} {rev left right fa fb : Bool}
    {ua ub : T ℝ → T ℝ → T ℝ → T ℝ → T ℝ → Option (T ℝ)} {a b y : T ℝ} (hf : (TOp.two F sd).Good [a, b] y)
    (h : ∀ g : T ℝ, g.shape = y.shape → ∀ ra rb, sd a b y g = some (ra, rb) → ra.shape = a.shape → rb.shape = b.shape →
      (∀ d : T ℝ, d.shape = a.shape → (fa = true → IsZero d) →
        ∃ d', ua a b y g d = some d' ∧ d'.shape = a.shape ∧ ∀ i, InB a.shape i → d'.at_ i = d.at_ i + ra.at_ i) ∧
      ∀ d : T ℝ, d.shape = b.shape → (fb = true → IsZero d) →
        ∃ d', ub a b y g d = some d' ∧ d'.shape = b.shape ∧ ∀ i, InB b.shape i → d'.at_ i = d.at_ i + rb.at_ i) :
    (LOp.two F sd rev left right fa fb ua ub).Adds [a, b] y := by
  have hmem : ∀ s ∈ (LOp.two F sd rev left right fa fb ua ub).steps, s = ⟨0, fa, fun xs y g d => match xs with
      | [a, b] => ua a b y g d
      | _ => none⟩ ∨ s = ⟨1, fb, fun xs y g d => match xs with
      | [a, b] => ub a b y g d
      | _ => none⟩ := by
    intro s hs
    cases rev <;> cases left <;> cases right <;> simp [LOp.two] at hs <;> tauto
  refine ⟨?_, ?_, ?_⟩
  · cases rev <;> cases left <;> cases right <;> simp [LOp.two]
  · intro s hs
    rcases hmem s hs with rfl | rfl <;> rfl
  · intro s hs g hg r x' h1 h2 d hd hz
    obtain ⟨ts, t1, _, t3⟩ := hf.total (by simp [TOp.two]) g hg
    have h1' : ts[s.pos]? = some r := by
      rw [← h1]
      simp only [LOp.two, TOp.grads, t1, Option.getD_some]
    obtain ⟨⟨ra, rb⟩, e1, e2⟩ : ∃ r, sd a b y g = some r ∧ [r.1, r.2] = ts := by
      simpa only [TOp.two, Option.map_eq_some_iff] using t1
    subst e2
    have key := h g hg ra rb e1 (t3 0 ra a rfl rfl rfl) (t3 1 rb b rfl rfl rfl)
    rcases hmem s hs with rfl | rfl
    · simp only [List.getElem?_cons_zero, Option.some.injEq] at h1' h2
      subst h1' h2
      exact key.1 d hd hz
    · simp only [List.getElem?_cons_succ, List.getElem?_cons_zero, Option.some.injEq] at h1' h2
      subst h1' h2
      exact key.2 d hd hz

/-! ### Products -/

/-- `matMulDiff` (operatorLinAlg.go 104-179), the increment of the derivative of `x`. -/
def mmX (tA tB : Bool) (x y g d : T ℝ) : Option (T ℝ) :=
  let _ := x
  match tA, tB with
  | true, true => incrT d (matMulRun true true y g) -- 117
  | false, true => incrT d (matMulRun false false g y) -- 132
  | true, false => incrT d (matMulRun false true y g) -- 149
  | false, false => incrT d (matMulRun false true g y) -- 164

/-- …and of `y`. -/
def mmY (tA tB : Bool) (x y g d : T ℝ) : Option (T ℝ) :=
  let _ := y
  match tA, tB with
  | true, true => incrT d (matMulRun true true g x) -- 123
  | false, true => incrT d (matMulRun true false g x) -- 139
  | true, false => incrT d (matMulRun false false x g) -- 157
  | false, false => incrT d (matMulRun true false x g) -- 171

/-- The product of matrices (`linAlgBinOp.DoDiff`, op_math.go 640-647). -/
def lMatMul (tA tB : Bool) : LOp := .two (matMulRun tA tB) (fun a b _ g =>
    match matMulDiff tA tB (toM a) (toM b) (toM g) with
    | (some da, some db) => some (ofM da, ofM db)
    | _ => none) false true true false false
  (fun a b _ g d => mmX tA tB a b g d) (fun a b _ g d => mmY tA tB a b g d)

theorem matMulRun_of {tA tB : Bool} {a b : T ℝ} {z : M} (ha : a.shape.length = 2) (hb : b.shape.length = 2)
    (h : matMul tA tB (toM a) (toM b) = some z) : matMulRun tA tB a b = .ok (ofM z) := by
  unfold matMulRun
  rw [if_pos ⟨ha, hb⟩, h]

/-- Matrix products add their gradient, for all flags, whenever the sizes fit. -/
theorem lMatMul_adds (tA tB : Bool) (a b : T ℝ) (ha : a.shape.length = 2) (hb : b.shape.length = 2)
    (h : ((toM a).flip tA).c = ((toM b).flip tB).r) :
    ∃ y, matMulRun tA tB a b = .ok y ∧ y.shape = [((toM a).flip tA).r, ((toM b).flip tB).c] ∧ (lMatMul tA tB).op.Good [a, b] y ∧
      (lMatMul tA tB).Adds [a, b] y := by
  obtain ⟨y, y1, y2, y3⟩ := matMulTOp_good tA tB a b ha hb h
  refine ⟨y, y1, y2, y3, adds_two y3 fun g hg ra rb hr hra hrb => ?_⟩
  have hgl : g.shape.length = 2 := by rw [hg, y2]; rfl
  have hsplit : ∃ da db, matMulDiff tA tB (toM a) (toM b) (toM g) = (some da, some db) ∧ ofM da = ra ∧ ofM db = rb := by
    generalize matMulDiff tA tB (toM a) (toM b) (toM g) = p at hr
    match p, hr with
    | (some da, some db), hr =>
      simp only [Option.some.injEq, Prod.mk.injEq] at hr
      exact ⟨da, db, rfl, hr.1, hr.2⟩
    | (none, some _), hr | (some _, none), hr | (none, none), hr => simp at hr
  obtain ⟨da, db, e, rfl, rfl⟩ := hsplit
  have fin : ∀ (t1 t2 : Bool) (u v d : T ℝ) (dm : M) (s : List Nat), u.shape.length = 2 → v.shape.length = 2 → matMul t1 t2 (toM u) (toM v) = some dm →
      (ofM dm).shape = s → d.shape = s →
      ∃ d', incrT d (matMulRun t1 t2 u v) = some d' ∧ d'.shape = s ∧ ∀ i, InB s i → d'.at_ i = d.at_ i + (ofM dm).at_ i := by
    intro t1 t2 u v d dm s hu hv hm h1 h2
    rw [matMulRun_of hu hv hm]
    obtain ⟨d', p1, p2, p3⟩ := incrT_ok (h1.trans h2.symm)
    exact ⟨d', p1, p2.trans h2, fun i _ => p3 i⟩
  cases tA <;> cases tB <;> simp only [matMulDiff, Prod.mk.injEq] at e <;>
    exact ⟨fun d hd _ => fin _ _ _ _ d da _ (by assumption) (by assumption) e.1 hra hd,
      fun d hd _ => fin _ _ _ _ d db _ (by assumption) (by assumption) e.2 hrb hd⟩

/-- Building and running an outer product (op_math.go 783-784; `outerProdOperator`). -/
def outerRun (x y : T ℝ) : Res (T ℝ) := if x.shape.length = 1 ∧ y.shape.length = 1 then .ok (ofM (outer (toV x) (toV y))) else .err

/-- The product of a matrix and a vector (`matVecMulDiff`, operatorLinAlg.go 204-230). -/
def lMatVec (tA : Bool) : LOp := .two (matVecRun tA) (fun a y _ g =>
    match matVecDiff tA (toM a) (toV y) (toV g) with
    | (da, some dy) => some (ofM da, ofV dy)
    | _ => none) false true true false false
  (fun _ y _ g d => incrT d (if tA then outerRun y g else outerRun g y)) (fun x _ _ g d => incrT d (matVecRun (!tA) x g))

theorem lMatVec_adds (tA : Bool) (a y : T ℝ) (ha : a.shape.length = 2) (hy : y.shape.length = 1) (h : ((toM a).flip tA).c = (toV y).n) :
    ∃ z, matVecRun tA a y = .ok z ∧ z.shape = [((toM a).flip tA).r] ∧ (lMatVec tA).op.Good [a, y] z ∧ (lMatVec tA).Adds [a, y] z := by
  obtain ⟨z, z1, z2, z3⟩ := matVecTOp_good tA a y ha hy h
  refine ⟨z, z1, z2, z3, adds_two z3 fun g hg ra rb hr hra hrb => ?_⟩
  have hgl : g.shape.length = 1 := by rw [hg, z2]; rfl
  have hsplit : ∃ dy, matVec (!tA) (toM a) (toV g) = some dy ∧ ofM (if tA then outer (toV y) (toV g) else outer (toV g) (toV y)) = ra ∧ ofV dy = rb := by
    simp only [matVecDiff] at hr
    generalize matVec (!tA) (toM a) (toV g) = p at hr
    match p, hr with
    | some dy, hr =>
      simp only [Option.some.injEq, Prod.mk.injEq] at hr
      exact ⟨dy, rfl, hr.1, hr.2⟩
    | none, hr => simp at hr
  obtain ⟨dy, e, rfl, rfl⟩ := hsplit
  refine ⟨fun d hd _ => ?_, fun d hd _ => ?_⟩
  · have : (if tA then outerRun y g else outerRun g y) = .ok (ofM (if tA then outer (toV y) (toV g) else outer (toV g) (toV y))) := by
      cases tA
      · exact if_pos (c := g.shape.length = 1 ∧ y.shape.length = 1) ⟨hgl, hy⟩
      · exact if_pos (c := y.shape.length = 1 ∧ g.shape.length = 1) ⟨hy, hgl⟩
    simp only [this]
    obtain ⟨d', p1, p2, p3⟩ := incrT_ok (hra.trans hd.symm)
    exact ⟨d', p1, p2.trans hd, fun i _ => p3 i⟩
  · have : matVecRun (!tA) a g = .ok (ofV dy) := by
      unfold matVecRun
      rw [if_pos ⟨ha, hgl⟩, e]
    rw [this]
    obtain ⟨d', p1, p2, p3⟩ := incrT_ok (hrb.trans hd.symm)
    exact ⟨d', p1, p2.trans hd, fun i _ => p3 i⟩

/-- The inner product (`vecDotDiff`, operatorLinAlg.go 246-260): elementwise products with the scalar derivative of the result. -/
def lVecDot : LOp := .two vecDotRun (fun x y _ g =>
    some (ofV (vecDotDiff (toV x) (toV y) (g.at_ [])).1, ofV (vecDotDiff (toV x) (toV y) (g.at_ [])).2)) false true true false false
  (fun _ y _ g d => incrT d (elemVal (· * ·) y g)) (fun x _ _ g d => incrT d (elemVal (· * ·) x g))

theorem lVecDot_adds (x y : T ℝ) (n : Nat) (hx : x.shape = [n]) (hy : y.shape = [n]) :
    ∃ z, vecDotRun x y = .ok z ∧ z.shape = [] ∧ lVecDot.op.Good [x, y] z ∧ lVecDot.Adds [x, y] z := by
  obtain ⟨z, z1, z2, z3⟩ := vecDotTOp_good x y n hx hy
  refine ⟨z, z1, z2, z3, adds_two z3 fun g hg ra rb hr hra hrb => ?_⟩
  simp only [Option.some.injEq, Prod.mk.injEq] at hr
  obtain ⟨rfl, rfl⟩ := hr
  have fin : ∀ u d : T ℝ, u.shape = [n] → d.shape = [n] →
      ∃ d', incrT d (elemVal (· * ·) u g) = some d' ∧ d'.shape = [n] ∧ ∀ i, InB [n] i → d'.at_ i = d.at_ i + (ofV ((toV u).scale (g.at_ []))).at_ i := by
    intro u d hu hd
    have p1 : elemVal (· * ·) u g = .ok ⟨u.shape, fun i => u.at_ i * g.at_ []⟩ := by
      unfold elemVal
      rw [if_neg (by rw [hu]; simp), if_pos (hg.trans z2)]
    rw [p1]
    obtain ⟨d', q1, q2, q3⟩ := incrT_ok (r := ⟨u.shape, fun i => u.at_ i * g.at_ []⟩) (hu.trans hd.symm)
    refine ⟨d', q1, q2.trans hd, fun i hi => ?_⟩
    rw [q3]
    match i, hi with
    | [k], _ => rfl
  exact ⟨fun d hd _ => by rw [hx] at hd ⊢; exact fin y d hy hd, fun d hd _ => by rw [hy] at hd ⊢; exact fin x d hx hd⟩

/-- A batched product added to `d`: `IncrDo` goes through `preallocBatchMatMul(true, …)` (op_math.go 709-711, 797-804). -/
def batchIncr (tA tB : Bool) (a b d : T ℝ) : Option (T ℝ) :=
  match batchedMatMul (outerOf a.shape) tA tB true (toMs a) (toMs b) (toMs d) (size (outerOf a.shape)) with
  | some r => some (ofMs d.shape r)
  | none => none

/-- `batchedMatMulDiff` (operatorLinAlg.go 346-417). -/
def bmX (tA tB : Bool) (x y g d : T ℝ) : Option (T ℝ) :=
  let _ := x
  match tA, tB with
  | true, true => batchIncr true true y g d -- 359
  | false, true => batchIncr false false g y d -- 374
  | true, false => batchIncr false true y g d -- 391
  | false, false => batchIncr false true g y d -- 406

def bmY (tA tB : Bool) (x y g d : T ℝ) : Option (T ℝ) :=
  let _ := y
  match tA, tB with
  | true, true => batchIncr true true g x d -- 365
  | false, true => batchIncr true false g x d -- 381
  | true, false => batchIncr false false x g d -- 399
  | false, false => batchIncr true false x g d -- 413

def lBatched (tA tB : Bool) : LOp := .two (batchRun tA tB) (fun a b _ g => Res.opt (batchDiff tA tB a b g)) false true true false false
  (fun a b _ g d => bmX tA tB a b g d) (fun a b _ g d => bmY tA tB a b g d)

theorem inB_take_left {o s i : List Nat} (h : InB (o ++ s) i) : InB o (i.take o.length) := by
  induction o generalizing i with
  | nil => trivial
  | cons a o ih =>
    match i, h with
    | k :: i, h => exact ⟨h.1, ih h.2⟩

theorem batchLoop_incr (tA tB : Bool) (a b : List Nat → M) (z : List Nat → M) (l : List (List Nat)) (hl : l.Nodup)
    (hz : ∀ p ∈ l, matMul tA tB (a p) (b p) = some (z p)) (c : List Nat → M) :
    ∃ r, batchLoop tA tB true a b l c = some r ∧ (∀ p ∈ l, ∀ i j, (r p).f i j = (c p).f i j + (z p).f i j) ∧ ∀ p, p ∉ l → r p = c p := by
  induction l generalizing c with
  | nil => exact ⟨c, rfl, by simp, by simp⟩
  | cons p l ih =>
    rw [List.nodup_cons] at hl
    obtain ⟨r, h1, h2, h3⟩ := ih hl.2 (fun q hq => hz q (by simp [hq]))
      (fun q => if q = p then ⟨(z p).r, (z p).c, fun i j => (c p).f i j + (z p).f i j⟩ else c q)
    refine ⟨r, ?_, fun q hq i j => ?_, fun q hq => ?_⟩
    · simp only [batchLoop, hz p (by simp), if_true]
      exact h1
    · by_cases e : q = p
      · subst e
        rw [h3 q hl.1, if_pos rfl]
      · rw [h2 q ((List.mem_cons.1 hq).resolve_left e) i j, if_neg e]
    · rw [h3 q (fun h => hq (by simp [h])), if_neg (fun e => hq (by simp [e]))]

theorem batchIncr_ok (tA tB : Bool) (o : List Nat) (ho : ∀ d ∈ o, 0 < d) (a b d r : T ℝ) (s s' : List Nat) (ha : a.shape = o ++ s) (hs : s.length = 2)
    (hd : d.shape = o ++ s') (hs' : s'.length = 2) (hz : ∀ p, InB o p → matMul tA tB (toMs a p) (toMs b p) = some (toMs r p)) :
    ∃ d', batchIncr tA tB a b d = some d' ∧ d'.shape = d.shape ∧ ∀ i, InB d.shape i → d'.at_ i = d.at_ i + r.at_ i := by
  have hout : outerOf a.shape = o := by simp [outerOf, ha, hs]
  have hv := visits_once o ho (size o) le_rfl
  have hmem : ∀ p, p ∈ visits o (size o) (o.map fun _ => 0) ↔ InB o p := by
    intro p
    rw [← List.count_pos_iff, hv p]
    split <;> simp [*]
  have hnd : (visits o (size o) (o.map fun _ => 0)).Nodup := by
    rw [List.nodup_iff_count_le_one]
    intro p; rw [hv p]; split <;> omega
  obtain ⟨m, m1, m2, _⟩ := batchLoop_incr tA tB (toMs a) (toMs b) (toMs r) _ hnd (fun p hp => hz p ((hmem p).1 hp)) (toMs d)
  refine ⟨ofMs d.shape m, ?_, rfl, fun i hi => ?_⟩
  · unfold batchIncr batchedMatMul
    rw [hout, m1]
  · match s', hs' with
    | [r', c'], _ =>
      rw [hd] at hi
      have hl := hi.length
      simp only [List.length_append, List.length_cons, List.length_nil] at hl
      have hi' : InB o (i.take (i.length - 2)) := by
        rw [show i.length - 2 = o.length by omega]
        exact inB_take_left hi
      have hsplit : i.take (i.length - 2) ++ [i.getD (i.length - 2) 0, i.getD (i.length - 1) 0] = i := by
        have h2 : (i.drop (i.length - 2)).length = 2 := by rw [List.length_drop]; omega
        conv_rhs => rw [← List.take_append_drop (i.length - 2) i]
        congr 1
        refine List.ext_getElem (by simpa using h2.symm) fun k h1 h3 => ?_
        simp only [List.length_cons, List.length_nil] at h1
        match k with
        | 0 => simp [List.getD_eq_getElem?_getD, List.getElem_drop, List.getElem?_eq_getElem (show i.length - 2 < i.length by omega)]
        | 1 => simp [List.getD_eq_getElem?_getD, List.getElem_drop, List.getElem?_eq_getElem (show i.length - 1 < i.length by omega),
            show i.length - 2 + 1 = i.length - 1 by omega]
        | k + 2 => omega
      have := m2 _ ((hmem _).2 hi') (i.getD (i.length - 2) 0) (i.getD (i.length - 1) 0)
      show (m (i.take (i.length - 2))).f _ _ = _
      rw [this]
      show d.at_ (_ ++ [_, _]) + r.at_ (_ ++ [_, _]) = _
      rw [hsplit]

/-- Batched products add their gradient, for all flags. -/
theorem lBatched_adds (tA tB : Bool) (o : List Nat) (a b : T ℝ) (r c r' c' : Nat) (ho : ∀ d ∈ o, 0 < d)
    (ha : a.shape = o ++ [r, c]) (hb : b.shape = o ++ [r', c']) (h : (sz tA r c).2 = (sz tB r' c').1) :
    ∃ y, batchRun tA tB a b = .ok y ∧ y.shape = o ++ [(sz tA r c).1, (sz tB r' c').2] ∧ (lBatched tA tB).op.Good [a, b] y ∧
      (lBatched tA tB).Adds [a, b] y := by
  obtain ⟨y, y1, y2, y3⟩ := batchTOp_good tA tB o a b r c r' c' ho ha hb h
  refine ⟨y, y1, y2, y3, adds_two y3 fun g hg ra rb hr hra hrb => ?_⟩
  obtain ⟨da, db, e, _, _, hm⟩ := batchDiff_spec tA tB o a b g r c r' c' ho ha hb h (hg.trans y2)
  rw [e] at hr
  simp only [Res.opt, Option.some.injEq, Prod.mk.injEq] at hr
  obtain ⟨rfl, rfl⟩ := hr
  have hgs := hg.trans y2
  have fin : ∀ (t1 t2 : Bool) (u v d q x : T ℝ) (s s' : List Nat), u.shape = o ++ s → s.length = 2 → x.shape = o ++ s' → s'.length = 2 →
      d.shape = x.shape → (∀ p, InB o p → matMul t1 t2 (toMs u p) (toMs v p) = some (toMs q p)) →
      ∃ d', batchIncr t1 t2 u v d = some d' ∧ d'.shape = x.shape ∧ ∀ i, InB x.shape i → d'.at_ i = d.at_ i + q.at_ i := by
    intro t1 t2 u v d q x s s' h1 h2 h3 h4 h5 h6
    obtain ⟨d', p1, p2, p3⟩ := batchIncr_ok t1 t2 o ho u v d q s s' h1 h2 (h5.trans h3) h4 h6
    exact ⟨d', p1, p2.trans h5, fun i hi => p3 i (by rw [h5]; exact hi)⟩
  cases tA <;> cases tB <;> simp only [matMulDiff, Prod.mk.injEq] at hm
  · exact ⟨fun d hd _ => fin false true g b d da a _ _ hgs rfl ha rfl hd fun p hp => (hm p hp).1,
      fun d hd _ => fin true false a g d db b _ _ ha rfl hb rfl hd fun p hp => (hm p hp).2⟩
  · exact ⟨fun d hd _ => fin false false g b d da a _ _ hgs rfl ha rfl hd fun p hp => (hm p hp).1,
      fun d hd _ => fin true false g a d db b _ _ hgs rfl hb rfl hd fun p hp => (hm p hp).2⟩
  · exact ⟨fun d hd _ => fin false true b g d da a _ _ hb rfl ha rfl hd fun p hp => (hm p hp).1,
      fun d hd _ => fin false false a g d db b _ _ ha rfl hb rfl hd fun p hp => (hm p hp).2⟩
  · exact ⟨fun d hd _ => fin true true b g d da a _ _ hb rfl ha rfl hd fun p hp => (hm p hp).1,
      fun d hd _ => fin true true g a d db b _ _ hgs rfl hb rfl hd fun p hp => (hm p hp).2⟩

/-- The outer product (`outerProdDiff`, operatorLinAlg.go 276-291): elementwise products of the vectors with the derivative of the result. The
error of the first is dropped. Result: the new derivatives of the operands. -/
def outerDoDiff (x y g xd yd : T ℝ) : Option (T ℝ × T ℝ) :=
  match incrT ((incrT xd (elemVal (· * ·) x g)).getD xd) (elemVal (· * ·) y g) with
  | none => none
  | some xd2 => (incrT yd (elemVal (· * ·) y g)).map fun yd2 => (xd2, yd2)

/-- **C35, refuted for the define-by-run machine.** The derivative of an outer product fails for all vectors, unless both have one element. -/
theorem outer_dodiff_fails (x y z g xd yd : T ℝ) (n m : Nat) (hx : x.shape = [n]) (hy : y.shape = [m]) (h : outerRun x y = .ok z)
    (hg : g.shape = z.shape) (hxd : xd.shape = [n]) (hnm : ¬ (n = 1 ∧ m = 1)) : outerDoDiff x y g xd yd = none := by
  unfold outerRun at h
  rw [if_pos ⟨by rw [hx]; rfl, by rw [hy]; rfl⟩] at h
  cases h
  have hgs : g.shape = [n, m] := by rw [hg]; simp [ofM, outer, toV, hx, hy]
  have h1 : ((incrT xd (elemVal (· * ·) x g)).getD xd).shape = [n] := by
    unfold incrT
    split
    · split
      · exact hxd
      · exact hxd
    · exact hxd
  unfold outerDoDiff
  have h2 : incrT ((incrT xd (elemVal (· * ·) x g)).getD xd) (elemVal (· * ·) y g) = none := by
    generalize (incrT xd (elemVal (· * ·) x g)).getD xd = w at h1
    unfold elemVal
    rw [if_neg (show y.shape ≠ [] by rw [hy]; simp), if_neg (show g.shape ≠ [] by rw [hgs]; simp)]
    by_cases c : shapeEq y.shape g.shape = true
    · rw [if_pos c]
      refine if_neg ?_
      rw [h1]
      show y.shape ≠ [n]
      rw [hy]
      rw [hy, hgs] at c
      simp only [shapeEq, Bool.or_eq_true, Bool.and_eq_true, beq_iff_eq] at c
      simp only [ne_eq, List.cons.injEq, and_true]
      omega
    · rw [if_neg c]
      rfl
  rw [h2]

/-- …and then it is wrong: with one element each, the gradients should be `y g` and `x g`. -/
theorem outer_dodiff_one (x y g xd yd : T ℝ) (hx : x.shape = [1]) (hy : y.shape = [1]) (hg : g.shape = [1, 1]) (hxd : xd.shape = [1]) (hyd : yd.shape = [1]) :
    ∃ xd' yd', outerDoDiff x y g xd yd = some (xd', yd') ∧ xd'.at_ [0] = xd.at_ [0] + x.at_ [0] * g.at_ [0, 0] + y.at_ [0] * g.at_ [0, 0] ∧
      yd'.at_ [0] = yd.at_ [0] + y.at_ [0] * g.at_ [0, 0] := by
  have hv : ∀ u : T ℝ, u.shape = [1] → ∃ p, elemVal (· * ·) u g = .ok p ∧ p.shape = [1] ∧ p.at_ [0] = u.at_ [0] * g.at_ [0, 0] := by
    intro u hu
    unfold elemVal
    rw [if_neg (show u.shape ≠ [] by rw [hu]; simp), if_neg (show g.shape ≠ [] by rw [hg]; simp), if_pos (show shapeEq u.shape g.shape = true by rw [hu, hg]; rfl)]
    refine ⟨_, rfl, hu, ?_⟩
    simp [T.flat, hg, hu, ravel, unravel, size]
  obtain ⟨p, p1, p2, p3⟩ := hv x hx
  obtain ⟨q, q1, q2, q3⟩ := hv y hy
  obtain ⟨e, e1, e2, e3⟩ := incrT_ok (p2.trans hxd.symm)
  obtain ⟨f, f1, f2, f3⟩ := incrT_ok (q2.trans (e2.trans hxd).symm)
  obtain ⟨k, k1, k2, k3⟩ := incrT_ok (q2.trans hyd.symm)
  refine ⟨f, k, ?_, ?_, ?_⟩
  · unfold outerDoDiff
    rw [p1, q1, e1, Option.getD_some, f1, k1]
    rfl
  · rw [f3, e3, p3, q3]
  · rw [k3, q3]

/-! ### Sums, slices, reshapes, softmax -/

/-- `sumOp` (`DoDiff`, op_reduction.go 257-340). -/
def lSum (along : List Nat) : LOp := .one (fun x => sumNode x along) (fun x _ g => Res.opt (sumDiff (axesOf x.shape.length along) x.shape g)) false
  (fun x _ g d => (Res.opt (sumDoDiff (axesOf x.shape.length along) d g)).map Prod.fst)
  (fun x _ g => ((Res.opt (sumDoDiff (axesOf x.shape.length along) x g)).map Prod.snd).getD g)

theorem lSum_adds (along : List Nat) (x : T ℝ) (hr : x.shape ≠ []) (h : ∀ a ∈ along, a < x.shape.length) (hn : along.Nodup)
    (hp : ∀ d ∈ x.shape, d ≠ 0) :
    ∃ y, sumNode x along = .ok y ∧ y.shape = dropAxes (axesOf x.shape.length along) 0 x.shape ∧ (lSum along).op.Good [x] y ∧
      (lSum along).Adds [x] y := by
  obtain ⟨y, y1, y2, y3⟩ := sumTOp_good along x hr h hn hp
  refine ⟨y, y1, y2, y3, adds_one y3.fine fun g hg r e hrs d hd _ => ?_⟩
  have hl : 0 < x.shape.length := List.length_pos_iff.2 hr
  obtain ⟨r', p1, p2, p3⟩ := sumDiff_spec (axesOf x.shape.length along) x.shape g (axesOf_ne hl) (axesOf_nodup hn) (axesOf_lt h) hp (hg.trans y2)
  rw [p1] at e
  cases e
  obtain ⟨d', yd', q1, q2, q3, _⟩ := sum_doDiff (axesOf x.shape.length along) d g (axesOf_ne hl) (axesOf_nodup hn) (by rw [hd]; exact axesOf_lt h)
    (by rw [hd]; exact hp) (by rw [hd]; exact hg.trans y2)
  refine ⟨d', by rw [q1]; rfl, q2.trans hd, fun i hi => ?_⟩
  rw [q3 i (by rw [hd]; exact hi), p3 i hi]

/-- `sliceOp` (`DoDiff`, op_tensor.go 558-577). -/
def lSlice (ax s e : Nat) : LOp := .one (sliceT ax s e) (fun x _ g => some (sliceIncr ax s e x g)) false
  (fun _ _ g d => some (sliceDoDiff ax s e d g)) (fun _ _ g => g)

theorem lSlice_adds (ax s e : Nat) (x : T ℝ) (ha : ax < x.shape.length) (hse : s < e) (he : e ≤ x.shape.getD ax 0) :
    ∃ y, sliceT ax s e x = .ok y ∧ (lSlice ax s e).op.Good [x] y ∧ (lSlice ax s e).Adds [x] y := by
  obtain ⟨y, y1, _, y3⟩ := sliceTOp_good ax s e x ha hse he
  refine ⟨y, y1, y3, adds_one y3.fine fun g hg r e' hrs d hd _ => ?_⟩
  cases e'
  exact ⟨_, rfl, hd, fun i _ => (slice_dodiff ax s e d g i).2⟩

/-- `reshapeOp` (`DoDiff`, op_tensor.go 1260-1273): the derivative is overwritten. -/
def lReshape (s : List Nat) : LOp := .one (fun x => reshape x (s.map Int.ofNat)) (fun x _ g => Res.opt (reshapeDiff x.shape g)) true
  (fun x _ g d => (Res.opt (reshapeDoDiff x.shape d g)).map Prod.fst)
  (fun x _ g => ((Res.opt (reshapeDoDiff x.shape g g)).map Prod.snd).getD g)

/-- Reshaping into a tensor of rank at least one, if the operand has no derivative yet. -/
theorem lReshape_adds_partial (s : List Nat) (x : T ℝ) (hs : size s = size x.shape) (hne : s ≠ []) :
    ∃ y, reshape x (s.map Int.ofNat) = .ok y ∧ y.shape = s ∧ (lReshape s).op.Good [x] y ∧ (lReshape s).Adds [x] y := by
  obtain ⟨y, y1, y2, y3⟩ := reshapeTOp_good s x hs
  refine ⟨y, y1, y2, y3, adds_one y3.fine fun g hg r e' hrs d hd hz => ?_⟩
  have hgs := hg.trans y2
  obtain ⟨r', _, p1, p2⟩ := reshape_dodiff_partial x d g s hs hne hgs
  obtain ⟨r'', q1, q2⟩ := reshape_grad x g s hs hgs
  rw [q1] at e'
  cases e'
  refine ⟨r', by rw [p1]; rfl, p2.1, fun i hi => ?_⟩
  rw [hz rfl i (by rw [hd]; exact hi), zero_add]
  exact p2.at q2 i hi

/-- `softmaxOp` (`DoDiff`, op_softmax.go 131-154). -/
def lSoft (isLog : Bool) (axis : Int) : LOp := .one (softDo isLog axis) (fun _ y g => some (softDiff isLog axis y g)) false
  (fun _ y g d => some (softDoDiff isLog axis y d g).1) (fun _ y g => (softDoDiff isLog axis y g g).2)

theorem lSoft_adds_partial (isLog : Bool) (axis : Int) (x : T ℝ) (hr : x.shape ≠ []) (h : axis ≠ -1 ∨ isColVec x.shape = false) :
    ∃ y, softDo isLog axis x = .ok y ∧ y.shape = x.shape ∧ (lSoft isLog axis).op.Good [x] y ∧ (lSoft isLog axis).Adds [x] y := by
  obtain ⟨y, y1, y2, y3⟩ := softTOp_good_partial isLog axis x hr h
  refine ⟨y, y1, y2, y3, adds_one y3.fine fun g hg r e' hrs d hd _ => ?_⟩
  cases e'
  exact ⟨_, rfl, hd, fun i _ => (softmax_doDiff isLog axis y d g).2 i⟩

/-! ### Unary functions -/

/-- `elemUnaryOp` (`DoDiff`, op_math.go 458-465, operatorPointwise_unary.go 110-775). -/
def lUn (u : UOp) : LOp := .one (fun x => .ok (mapT u.fn x)) (fun x _ g => some ⟨x.shape, fun i => g.at_ i * u.der (x.at_ i)⟩) false
  (fun x y g d => (numDiff u).map fun f => ⟨d.shape, fun i => d.at_ i + f (x.at_ i) (y.at_ i) (g.at_ i)⟩) (fun _ _ g => g)

/-- Every unary function but `InverseSqrt` adds its gradient wherever it is differentiable. -/
theorem lUn_adds_partial (u : UOp) (hu : u ≠ .inverseSqrt) (x : T ℝ) (hs : ∀ i, InB x.shape i → u.smooth (x.at_ i))
    (hn : numDiff u ≠ none) : (lUn u).op.Good [x] (mapT u.fn x) ∧ (lUn u).Adds [x] (mapT u.fn x) := by
  have hgood : (lUn u).op.Good [x] (mapT u.fn x) := by
    refine good_one _ _ x _ rfl (fun g hg => ⟨_, rfl, rfl, fun d hd => ?_⟩) (fun v j => u.der (x.at_ j) * v.at_ j) fun γ v t₀ hx hM => ?_
    · refine ⟨fun τ => mapT u.fn (moveT x d τ), Eventually.of_forall fun τ => ⟨rfl, hg.symm⟩, ?_⟩
      have hgx : g.shape = x.shape := hg
      refine (hasDerivAt_pair g _ (fun j => u.der (x.at_ j) * d.at_ j) fun j hj => ?_).congr_deriv ?_
      · rw [hgx] at hj
        have h0 : HasDerivAt (fun τ : ℝ => x.at_ j + τ * d.at_ j) (d.at_ j) 0 := hasDerivAt_line _ _
        refine HasDerivAt.comp (h₂ := u.fn) (h := fun τ : ℝ => x.at_ j + τ * d.at_ j) 0 ?_ h0
        rw [zero_mul, add_zero]
        exact UOp.hasDerivAt u _ (hs j hj)
      · rw [pair_eq, hgx]
        exact sumOver_congr _ _ _ fun i _ => (mul_assoc _ _ _).symm
    · refine ⟨fun t => mapT u.fn (γ t), ?_, fun j hj => ?_⟩
      · filter_upwards [hM.shape] with t ht
        refine ⟨rfl, ?_⟩
        show (γ t).shape = x.shape
        rw [ht, hx]
      · subst hx
        exact HasDerivAt.comp (h₂ := u.fn) (h := fun s => (γ s).at_ j) t₀ (UOp.hasDerivAt u _ (hs j hj)) (hM.der j hj)
  refine ⟨hgood, adds_one hgood.fine fun g hg r e hrs d hd _ => ?_⟩
  cases e
  obtain ⟨f, hf⟩ := Option.ne_none_iff_exists'.1 hn
  refine ⟨⟨d.shape, fun i => d.at_ i + f (x.at_ i) (u.fn (x.at_ i)) (g.at_ i)⟩, by rw [hf]; rfl, hd, fun i hi => ?_⟩
  have := numDiff_correct u hu (x.at_ i) (g.at_ i) (hs i hi)
  rw [hf] at this
  exact congrArg (d.at_ i + ·) this

/-! ### Arithmetic -/

/-- The elementwise increment that the functions of `ʘBinOpDiffFns` compute. -/
def binInc (f : ℝ → ℝ → ℝ → ℝ → ℝ) (a c y g : T ℝ) : T ℝ := ⟨y.shape, fun i => f (bc a i) (bc c i) (y.at_ i) (g.at_ i)⟩

/-- The increment is added to the derivative (a scalar derivative is added to *every* entry), and if the operand `a` is a scalar the result
is summed up (op_math.go 262-279). -/
def accT (a d inc : T ℝ) : Option (T ℝ) := Res.opt ((elemVal (· + ·) d inc).bind (fitGrad a))

/-- `elemBinOp` with an arithmetic operator (`DoDiff`, op_math.go 249-282; operatorPointwise_binary.go 434-1000, see `binDiffL`, `binDiffR`). `ka`, `kc`:
the operand is a constant, which `hadamardProdDiff` leaves out. `fa`, `fc`: the operand is a scalar and the result is not. `subDiff` deals
with the right operand first. `hadamardPowDiff` fails for a tensor and a scalar (see `Graph.doDiff`). -/
def lBin (b : BOp) (ka kc fa fc : Bool) : LOp := .two (elem b.fn) (fun a c y g =>
    match (binGradT (b.diffExpr (.node 0) (.node 1) (.node 2) (.node 3)).1 a c y g).bind (fitGrad a),
        (binGradT (b.diffExpr (.node 0) (.node 1) (.node 2) (.node 3)).2 a c y g).bind (fitGrad c) with
    | .ok ra, .ok rc => some (ra, rc)
    | _, _ => none) (decide (b = .sub)) (!(decide (b = .mul) && ka)) (!(decide (b = .mul) && kc)) fa fc
  (fun a c y g d => if b = .pow ∧ a.shape ≠ [] ∧ c.shape = [] then none else accT a d (binInc (binDiffL b) a c y g))
  (fun a c y g d => if b = .pow ∧ a.shape ≠ [] ∧ c.shape = [] then none else accT c d (binInc (binDiffR b) a c y g))

theorem accT_ok {s : List Nat} {a d inc r q : T ℝ} (ha : Fit s a) (hp : a.shape ≠ s → ∀ d ∈ s, d ≠ 0) (hr : r.shape = s) (hi : inc.shape = s)
    (he : ∀ i, InB s i → inc.at_ i = r.at_ i) (hq : fitGrad a r = .ok q) (hd : d.shape = a.shape) (hz : a.shape ≠ s → IsZero d) :
    ∃ d', accT a d inc = some d' ∧ d'.shape = a.shape ∧ ∀ i, InB a.shape i → d'.at_ i = d.at_ i + q.at_ i := by
  by_cases h : a.shape = s
  · have hq' : q = r := by
      unfold fitGrad at hq
      rw [if_neg] at hq
      · cases hq; rfl
      · rintro ⟨h1, h2⟩
        exact h2 (by rw [hr, ← h, h1])
    subst hq'
    have hds : d.shape = s := hd.trans h
    have hv : ∃ w, elemVal (· + ·) d inc = .ok w ∧ w.shape = s ∧ ∀ i, InB s i → w.at_ i = d.at_ i + inc.at_ i := by
      unfold elemVal
      by_cases h0 : d.shape = []
      · rw [if_pos h0]
        refine ⟨_, rfl, hi, fun i hi' => ?_⟩
        have : s = [] := hds.symm.trans h0
        subst this
        match i, hi' with
        | [], _ => rfl
      · rw [if_neg h0, if_neg (by rw [hi, ← hds]; exact h0), if_pos (by rw [hi, hds]; exact shapeEq_refl s)]
        refine ⟨_, rfl, hds, fun i hi' => ?_⟩
        show d.at_ i + _ = _
        rw [hds, ← hi, flat_ravel inc (by rw [hi]; exact hi')]
    obtain ⟨w, w1, w2, w3⟩ := hv
    refine ⟨w, ?_, w2.trans h.symm, fun i hi' => ?_⟩
    · unfold accT
      rw [w1]
      simp only [Res.bind, fitGrad]
      rw [if_neg]
      · rfl
      · rintro ⟨h1, h2⟩
        exact h2 (by rw [w2, ← h, h1])
    · rw [h] at hi'
      rw [w3 i hi', he i hi']
  · have h0 : a.shape = [] := ha.resolve_left h
    have hd0 : d.shape = [] := hd.trans h0
    have hw : elemVal (· + ·) d inc = .ok ⟨inc.shape, fun i => d.at_ [] + inc.at_ i⟩ := by
      unfold elemVal
      rw [if_pos hd0]
    obtain ⟨q', p1, p2, p3⟩ := fitGrad_ok (r := r) ha hp hr
    rw [hq] at p1
    cases p1
    obtain ⟨w, w1, w2, w3⟩ := fitGrad_ok (r := (⟨inc.shape, fun i => d.at_ [] + inc.at_ i⟩ : T ℝ)) ha hp hi
    refine ⟨w, ?_, w2, fun i hi' => ?_⟩
    · unfold accT
      rw [hw]
      simp only [Res.bind]
      rw [w1]
      rfl
    · rw [h0] at hi'
      match i, hi' with
      | [], _ =>
        have hz0 : d.at_ [] = 0 := hz h [] (by rw [hd0]; trivial)
        have e1 := p3 (scalarT 1) h0.symm
        have e2 := w3 (scalarT 1) h0.symm
        rw [pair_scalar (p2.trans h0)] at e1
        rw [pair_scalar (w2.trans h0)] at e2
        simp only [scalarT, mul_one] at e1 e2
        rw [e1, e2, hz0, zero_add]
        refine sumOver_congr _ _ _ fun i hi => ?_
        rw [zero_add, he i hi]

/-- Arithmetic adds its gradient wherever it is defined: on tensors of equal shape, and on a tensor and a scalar if the scalar has no
derivative yet, except powers with a scalar exponent. -/
theorem lBin_adds_partial (b : BOp) (ka kc fa fc : Bool) (s : List Nat) (a c : T ℝ) (ha : Fit s a) (hc : Fit s c) (hs : a.shape = s ∨ c.shape = s)
    (hp : a.shape ≠ c.shape → ∀ d ∈ s, d ≠ 0) (hd : ∀ i, InB s i → b.dom (bc a i) (bc c i)) (hfa : a.shape ≠ s → fa = true)
    (hfc : c.shape ≠ s → fc = true) (hpow : b = .pow → a.shape ≠ [] → c.shape ≠ []) :
    ∃ y, elem b.fn a c = .ok y ∧ y.shape = s ∧ (∀ i, InB s i → y.at_ i = b.fn (bc a i) (bc c i)) ∧ (lBin b ka kc fa fc).op.Good [a, c] y ∧
      (lBin b ka kc fa fc).Adds [a, c] y := by
  obtain ⟨y, y1, y2, y3, y4⟩ := bTOp_good b s a c ha hc hs hp hd
  refine ⟨y, y1, y2, y3, y4, adds_two y4 fun g hg ra rb hr hra hrb => ?_⟩
  have hgs := hg.trans y2
  have hpa : a.shape ≠ s → ∀ d ∈ s, d ≠ 0 := fun h => hp fun e => h (by
    rcases hs with hs | hs
    · exact hs
    · rw [e, hs])
  have hpc : c.shape ≠ s → ∀ d ∈ s, d ≠ 0 := fun h => hp fun e => h (by
    rcases hs with hs | hs
    · rw [← e, hs]
    · exact hs)
  have hev : ∀ e : Tm, 3 ∈ e.nodes → ∃ r, binGradT e a c y g = .ok r ∧ r.shape = s ∧ ∀ i, InB s i →
      r.at_ i = e.eval fun n => bc (if n = 0 then a else if n = 1 then c else if n = 2 then y else g) i := by
    intro e he
    obtain ⟨r, r1, _, r3, r4⟩ := Tm.evalT_ok (s := s) (ρ := fun n => if n = 0 then a else if n = 1 then c else if n = 2 then y else g) e
      (fun n _ => by
        split
        · exact ha
        · split
          · exact hc
          · split
            · exact .inl y2
            · exact .inl hgs)
    have r3 := r3 ⟨3, he, hgs⟩
    exact ⟨r, r1, r3, fun i hi => by rw [← bc_at r3 hi, r4 i hi]⟩
  obtain ⟨r1, a1, a2, a3⟩ := hev _ b.diffExpr_nodes.1
  obtain ⟨r2, c1, c2, c3⟩ := hev _ b.diffExpr_nodes.2
  obtain ⟨q1, p1, _⟩ := fitGrad_ok ha hpa a2
  obtain ⟨q2, p2, _⟩ := fitGrad_ok hc hpc c2
  rw [a1, c1] at hr
  simp only [Res.bind, p1, p2, Option.some.injEq, Prod.mk.injEq] at hr
  obtain ⟨rfl, rfl⟩ := hr
  have hcond : ¬ (b = .pow ∧ a.shape ≠ [] ∧ c.shape = []) := fun ⟨h1, h2, h3⟩ => hpow h1 h2 h3
  have ev : ∀ i, InB s i → (binInc (binDiffL b) a c y g).at_ i = r1.at_ i ∧ (binInc (binDiffR b) a c y g).at_ i = r2.at_ i := by
    intro i hi
    rw [a3 i hi, c3 i hi]
    have hyi : bc y i = b.fn (bc a i) (bc c i) := by rw [bc_at y2 hi, y3 i hi]
    have hgi : bc g i = g.at_ i := bc_at hgs hi
    simp only [binInc, y3 i hi, ← hgi]
    have hdom := hd i hi
    cases b <;> simp [BOp.diffExpr, Tm.eval, binDiffL, binDiffR, hyi, BOp.fn, UOp.fn, BOp.dom] at hdom ⊢
    case div => ring
    case pow => exact ⟨by rw [show Cst.one.val = 1 from rfl]; ring, by ring⟩
  refine ⟨fun d hdd hz => ?_, fun d hdd hz => ?_⟩
  · rw [if_neg hcond]
    exact accT_ok ha hpa a2 y2 (fun i hi => (ev i hi).1) p1 hdd fun h => hz (hfa h)
  · rw [if_neg hcond]
    exact accT_ok hc hpc c2 y2 (fun i hi => (ev i hi).2) p2 hdd fun h => hz (hfc h)

end

end Verif.Lisp.Tensor
