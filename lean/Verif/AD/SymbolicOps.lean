import Verif.AD.Symbolic
import Verif.AD.TensorElem
import Verif.AD.TensorMore
/-!
The nodes that the `SymDiff` methods of the library build, one by one, and that they compute the gradients of `Verif.AD.TensorOps`
and the files after it.
-/
set_option autoImplicit false
namespace Verif.AD
open Verif.Tensor Verif.Shape Verif.NN Filter

noncomputable section

theorem opt_some {α : Type} {r : Res α} {a : α} : Res.opt r = some a ↔ r = .ok a := by
  cases r <;> simp [Res.opt]

/-! ### Elementwise operations -/

/-- A unary elementwise operation as a node (op_math.go 381-505). -/
def XT.un (u : UOp) (a : XT) : XT := .app1 (fun x => .ok (mapT u.fn x)) id (fun _ _ h => by cases h; rfl) a

/-- A binary elementwise operation as a node (op_math.go 131-275). -/
def XT.bin (b : BOp) (x y : XT) : XT := .app2 (elem b.fn) elemShp (fun _ _ _ h => elem_shape _ h) x y

/-- The nodes of a gradient expression of `Verif.AD.Ops`, on the nodes `σ`. -/
def Tm.toX (σ : Nat → XT) : Tm → XT
  | .node i => σ i
  | .cst c => .cst (scalarT c.val)
  | .un u a => .un u (a.toX σ)
  | .bin b x y => .bin b (x.toX σ) (y.toX σ)

theorem Tm.toX_eval {ρ : Nat → Res (T ℝ)} {σ : Nat → XT} {τ : Nat → T ℝ} (h : ∀ n, (σ n).eval ρ = .ok (τ n)) (e : Tm) (v : T ℝ)
    (hv : e.evalT τ = .ok v) : (e.toX σ).eval ρ = .ok v := by
  induction e generalizing v with
  | node i => rw [← hv]; exact h i
  | cst c => exact hv
  | un u a ih =>
    simp only [Tm.evalT, bind_ok] at hv
    obtain ⟨r, r1, r2⟩ := hv
    rw [Tm.toX, XT.un, XT.eval_app1 (ih r r1)]
    exact r2
  | bin b x y ihx ihy =>
    simp only [Tm.evalT, bind_ok] at hv
    obtain ⟨r, r1, q, q1, h3⟩ := hv
    rw [Tm.toX, XT.bin, XT.eval_app2 (ihx r r1) (ihy q q1)]
    exact h3

/-- `elemUnaryOp.SymDiff` (op_math.go 443-456). -/
def uSym (u : UOp) : SymOp where
  op := .of1 (fun x => .ok (mapT u.fn x)) id (fun _ _ h => by cases h; rfl)
  diffs := [u.diffable]
  sym := fun _ args out g => match args with
    | [x] => (u.diffExpr (.node 0) (.node 1) (.node 2)).map fun e => [e.toX fun n => if n = 0 then x else if n = 1 then out else g]
    | _ => none

theorem uSym_of (u : UOp) : (uSym u).Of (uTOp u) where
  run := by
    funext xs
    match xs with
    | [] | [_] | _ :: _ :: _ => rfl
  diffs := rfl
  fresh := by
    intro sh args out gx es hg h
    match args, h with
    | [x], h =>
      simp only [uSym, Option.map_eq_some_iff] at h
      obtain ⟨e, he, rfl⟩ := h
      cases u <;> simp only [UOp.diffExpr, Option.some.injEq, reduceCtorEq] at he <;> subst he <;>
        simp [Tm.toX, XT.un, XT.bin, XT.app1, XT.app2, XT.Old]
  sym := by
    intro ρ sh args out gx xs y g ts _ ha ho hg _ _ hs
    match xs, args, ha, hs with
    | [x], [a], .cons hx .nil, hs =>
      simp only [uTOp, Option.bind_eq_some_iff, Option.map_eq_some_iff, opt_some] at hs
      obtain ⟨e, he, r, hr, rfl⟩ := hs
      refine ⟨[e.toX fun n => if n = 0 then a else if n = 1 then out else gx], by simp only [uSym, he, Option.map_some], .cons ?_ .nil⟩
      refine Tm.toX_eval (fun n => ?_) e r hr
      by_cases h0 : n = 0
      · simp only [if_pos h0]; exact hx
      · by_cases h1 : n = 1
        · simp only [if_neg h0, if_pos h1]; exact ho
        · simp only [if_neg h0, if_neg h1]; exact hg

def uDOp (u : UOp) : DOp := ⟨uTOp u, uSym u, uSym_of u⟩

/-- The shape of a sum (`reductionInferShape`, op_reduction.go 46-68; a scalar result is returned as it is, 70-98). -/
def sumShp (along : List Nat) (s : List Nat) : List Nat :=
  if s = [] then []
  else
    let al := if along = [] then List.range s.length else along
    if dropAxes al 0 s = [] then []
    else match reduceShape (al.map Int.ofNat) s with
      | .ok sh => sh
      | _ => []

theorem sum_shp (along : List Nat) {x y : T ℝ} (h : sumNode x along = .ok y) : y.shape = sumShp along x.shape := by
  unfold sumNode reduceNode at h
  unfold sumShp
  by_cases h0 : x.shape = []
  · rw [if_pos h0] at h ⊢
    cases h
    exact h0
  · rw [if_neg h0] at h ⊢
    simp only [bind_ok] at h
    obtain ⟨s', h1, h2⟩ := h
    unfold reduceDo at h2
    simp only at h2 ⊢
    by_cases h3 : dropAxes (if along = [] then List.range x.shape.length else along) 0 x.shape = []
    · rw [if_pos (show (sumAxes _ x).shape = [] from h3)] at h2
      rw [if_pos h3]
      cases h2
      exact h3
    · rw [if_neg (show ¬ (sumAxes _ x).shape = [] from h3)] at h2
      rw [if_neg h3, h1]
      rw [h1] at h2
      simp only [Res.bind] at h2
      by_cases h4 : size (sumAxes (if along = [] then List.range x.shape.length else along) x).shape = size s'
      · rw [if_pos h4] at h2
        cases h2
        rfl
      · rw [if_neg h4] at h2
        cases h2

/-- `Sum` (operations.go 260-273) as a node. -/
def XT.sum (along : List Nat) (a : XT) : XT := .app1 (fun x => sumNode x along) (sumShp along) (fun _ _ h => sum_shp along h) a

/-- The end of `elemBinOp.SymDiff` (op_math.go 233-240). -/
def fitX (sh : XT → List Nat) (a r : XT) : XT := if sh a = [] ∧ sh r ≠ [] then .sum [] r else r

/-- `elemBinOp.SymDiff` (op_math.go 219-243). -/
def bSym (b : BOp) : SymOp where
  op := .of2 (elem b.fn) elemShp (fun _ _ _ h => elem_shape _ h)
  diffs := [true, true]
  sym := fun sh args out g => match args with
    | [a, c] =>
      let σ : Nat → XT := fun n => if n = 0 then a else if n = 1 then c else if n = 2 then out else g
      let e := b.diffExpr (.node 0) (.node 1) (.node 2) (.node 3)
      some [fitX sh a (e.1.toX σ), fitX sh c (e.2.toX σ)]
    | _ => none

theorem fitX_eval {ρ : Nat → Res (T ℝ)} {sh : XT → List Nat} (hsh : ∀ e v, XT.eval ρ e = .ok v → sh e = v.shape) {a r : XT}
    {x v w : T ℝ} (ha : a.eval ρ = .ok x) (hr : r.eval ρ = .ok v) (h : fitGrad x v = .ok w) : (fitX sh a r).eval ρ = .ok w := by
  unfold fitGrad at h
  unfold fitX
  rw [hsh a x ha, hsh r v hr]
  by_cases c : x.shape = [] ∧ v.shape ≠ []
  · rw [if_pos c] at h ⊢
    rw [XT.sum, XT.eval_app1 hr]
    exact h
  · rw [if_neg c] at h ⊢
    rw [hr]
    exact h

theorem bSym_of (b : BOp) : (bSym b).Of (bTOp b) where
  run := by
    funext xs
    match xs with
    | [] | [_] | [_, _] | _ :: _ :: _ :: _ => rfl
  diffs := rfl
  fresh := by
    intro sh args out gx es hg h
    match args, h with
    | [a, c], h =>
      simp only [bSym, Option.some.injEq] at h
      subst h
      have hf : ∀ r : XT, ¬ r.Old → ∀ a, ¬ (fitX sh a r).Old := by
        intro r hr a
        unfold fitX
        split
        · simp [XT.sum, XT.app1, XT.Old]
        · exact hr
      intro e he
      simp only [List.mem_cons, List.not_mem_nil, or_false] at he
      rcases he with rfl | rfl <;> refine hf _ ?_ _ <;> cases b <;>
        first
          | exact hg
          | exact fun h => h
  sym := by
    intro ρ sh args out gx xs y g ts hsh ha ho hg _ _ hs
    match xs, args, ha, hs with
    | [x, z], [a, c], .cons hx (.cons hz .nil), hs =>
      have hσ : ∀ n, (if n = 0 then a else if n = 1 then c else if n = 2 then out else gx).eval ρ =
          .ok (if n = 0 then x else if n = 1 then z else if n = 2 then y else g) := by
        intro n
        by_cases h0 : n = 0
        · simp only [if_pos h0]; exact hx
        · by_cases h1 : n = 1
          · simp only [if_neg h0, if_pos h1]; exact hz
          · by_cases h2 : n = 2
            · simp only [if_neg h0, if_neg h1, if_pos h2]; exact ho
            · simp only [if_neg h0, if_neg h1, if_neg h2]; exact hg
      simp only [bTOp, TOp.two] at hs
      cases e1 : (binGradT (b.diffExpr (.node 0) (.node 1) (.node 2) (.node 3)).1 x z y g).bind (fitGrad x) with
      | ok ra =>
        cases e2 : (binGradT (b.diffExpr (.node 0) (.node 1) (.node 2) (.node 3)).2 x z y g).bind (fitGrad z) with
        | ok rc =>
          rw [e1, e2] at hs
          simp only [Option.map_some, Option.some.injEq] at hs
          subst hs
          obtain ⟨v, v1, v2⟩ := bind_ok.1 e1
          obtain ⟨w, w1, w2⟩ := bind_ok.1 e2
          exact ⟨_, rfl, .cons (fitX_eval hsh hx (Tm.toX_eval hσ _ v v1) v2) (.cons (fitX_eval hsh hz (Tm.toX_eval hσ _ w w1) w2) .nil)⟩
        | err => rw [e1, e2] at hs; cases hs
        | panic => rw [e1, e2] at hs; cases hs
      | err => rw [e1] at hs; cases hs
      | panic => rw [e1] at hs; cases hs

def bDOp (b : BOp) : DOp := ⟨bTOp b, bSym b, bSym_of b⟩

/-! ### Sums -/

/-- The shape after a reshape (operations.go 540-579). -/
def reshapeShp (dst : List Int) (s : List Nat) : List Nat :=
  match reshapeTo s dst with
  | .ok s' => s'
  | _ => []

theorem reshape_shp {dst : List Int} {x y : T ℝ} (h : reshape x dst = .ok y) : y.shape = reshapeShp dst x.shape := by
  unfold reshape at h
  obtain ⟨s, h1, h2⟩ := bind_ok.1 h
  cases h2
  unfold reshapeShp
  rw [h1]
  rfl

/-- `Reshape` as a node. -/
def XT.reshape (dst : List Int) (a : XT) : XT := .app1 (fun x => Shape.reshape x dst) (reshapeShp dst) (fun _ _ h => reshape_shp h) a

/-- `SizeOf` (operations.go 400-412) with `sizeOp` (op_tensor.go 70-160): a scalar node. -/
def XT.sizeOf (axis : Nat) (a : XT) : XT :=
  .app1 (fun x => .ok (scalarT (Shape.sizeOf axis x.shape : ℝ))) (fun _ => []) (fun _ _ h => by cases h; rfl) a

/-- `repeatOp.Do` (op_tensor.go 354-394) on a count that is a node. `n` is the count that `InferShape` got from the `sizeOp`
(op_tensor.go 220-224); a different one at run time would make another shape. -/
def repeatRun (along n : Nat) (x c : T ℝ) : Res (T ℝ) := if c.at_ [] = n then repeat_ x along n else .err

def repeatShp (along n : Nat) (s : List Nat) : List Nat :=
  match repeatShape s along n with
  | .ok s' => s'
  | _ => []

theorem repeat_shp {along n : Nat} {x c y : T ℝ} (h : repeatRun along n x c = .ok y) : y.shape = repeatShp along n x.shape := by
  unfold repeatRun at h
  split at h
  · unfold repeat_ at h
    obtain ⟨s, h1, h2⟩ := bind_ok.1 h
    cases h2
    unfold repeatShp
    rw [h1]
  · cases h

/-- `repeatOp` as a node. -/
def XT.repeat (along n : Nat) (a c : XT) : XT :=
  .app2 (repeatRun along n) (fun s _ => repeatShp along n s) (fun _ _ _ h => repeat_shp h) a c

/-- `repeatedApply` (op_tensor.go 175-188) with the sizes of the axes of `x`. -/
def repeatedX (sh : XT → List Nat) (x : XT) : List Nat → XT → XT
  | [], a => a
  | d :: ds, a => repeatedX sh x ds (.repeat d (Shape.sizeOf d (sh x)) a (.sizeOf d x))

theorem repeatedX_eval {ρ : Nat → Res (T ℝ)} {sh : XT → List Nat} (hsh : ∀ e v, XT.eval ρ e = .ok v → sh e = v.shape) {x : XT}
    {xv : T ℝ} (hx : x.eval ρ = .ok xv) (along : List Nat) {a : XT} {v w : T ℝ} (ha : a.eval ρ = .ok v)
    (h : repeatedApply along (along.map fun d => Shape.sizeOf d xv.shape) v = .ok w) : (repeatedX sh x along a).eval ρ = .ok w := by
  induction along generalizing a v with
  | nil =>
    simp only [List.map_nil, repeatedApply, Res.ok.injEq] at h
    subst h
    exact ha
  | cons d ds ih =>
    simp only [List.map_cons, repeatedApply] at h
    obtain ⟨q, q1, q2⟩ := bind_ok.1 h
    refine ih (a := .repeat d (Shape.sizeOf d (sh x)) a (.sizeOf d x)) ?_ q2
    have hz : (XT.sizeOf d x).eval ρ = .ok (scalarT (Shape.sizeOf d xv.shape : ℝ)) := by rw [XT.sizeOf, XT.eval_app1 hx]
    rw [XT.repeat, XT.eval_app2 ha hz, hsh x xv hx]
    unfold repeatRun
    rw [if_pos (show (scalarT (Shape.sizeOf d xv.shape : ℝ)).at_ [] = (Shape.sizeOf d xv.shape : ℝ) from rfl)]
    exact q1

/-- `sumOp.SymDiff` (op_reduction.go 226-255). -/
def sumSym (along : List Nat) : SymOp where
  op := .of1 (fun x => sumNode x along) (sumShp along) (fun _ _ h => sum_shp along h)
  diffs := [true]
  sym := fun sh args _ g => match args with
    | [x] =>
      let al := axesOf (sh x).length along
      some [repeatedX sh x al (.reshape ((calcBroadcastShape (sh g) (sh x).length al).map Int.ofNat) g)]
    | _ => none

theorem sumSym_of (along : List Nat) : (sumSym along).Of (sumTOp along) where
  run := by
    funext xs
    match xs with
    | [] | [_] | _ :: _ :: _ => rfl
  diffs := rfl
  fresh := by
    intro sh args out gx es hg h
    match args, h with
    | [x], h =>
      simp only [sumSym, Option.some.injEq] at h
      subst h
      have hr : ∀ (ds : List Nat) (a : XT), ¬ a.Old → ¬ (repeatedX sh x ds a).Old := by
        intro ds
        induction ds with
        | nil => intro a ha; exact ha
        | cons d ds ih => intro a ha; exact ih _ (by simp [XT.repeat, XT.app2, XT.Old])
      simp only [List.mem_singleton, forall_eq]
      exact hr _ _ (by simp [XT.reshape, XT.app1, XT.Old])
  sym := by
    intro ρ sh args out gx xs y g ts hsh ha ho hg _ _ hs
    match xs, args, ha, hs with
    | [x], [a], .cons hx .nil, hs =>
      simp only [sumTOp, TOp.one, Option.map_eq_some_iff, opt_some] at hs
      obtain ⟨r, hr, rfl⟩ := hs
      unfold sumDiff at hr
      obtain ⟨q, q1, q2⟩ := bind_ok.1 hr
      refine ⟨_, rfl, .cons ?_ .nil⟩
      rw [hsh a x hx, hsh gx g hg]
      refine repeatedX_eval hsh hx _ (v := q) ?_ q2
      rw [XT.reshape, XT.eval_app1 hg]
      exact q1

def sumDOp (along : List Nat) : DOp := ⟨sumTOp along, sumSym along, sumSym_of along⟩

/-! ### Slices, shapes, transpositions, concatenations -/

def sliceShp (ax s e : Nat) (d : List Nat) : List Nat := if e - s = 1 then d.eraseIdx ax else d.set ax (e - s)

theorem slice_shp {ax s e : Nat} {x y : T ℝ} (h : sliceT ax s e x = .ok y) : y.shape = sliceShp ax s e x.shape := by
  unfold sliceT at h
  unfold sliceShp
  by_cases c : ax < x.shape.length ∧ s < e ∧ e ≤ x.shape.getD ax 0
  · rw [if_pos c] at h
    by_cases c2 : e - s = 1
    · rw [if_pos c2] at h ⊢; cases h; rfl
    · rw [if_neg c2] at h ⊢; cases h; rfl
  · rw [if_neg c] at h; cases h

/-- `sliceOp` as a node. -/
def XT.slice (ax s e : Nat) (a : XT) : XT := .app1 (sliceT ax s e) (sliceShp ax s e) (fun _ _ h => slice_shp h) a

/-- `sliceOp.SymDiff` (op_tensor.go 545-556): a `sliceIncrOp` on the operand and the gradient. -/
def sliceSym (ax s e : Nat) : SymOp where
  op := .of1 (sliceT ax s e) (sliceShp ax s e) (fun _ _ h => slice_shp h)
  diffs := [true]
  sym := fun _ args _ g => match args with
    | [x] => some [.app2 (fun x g => .ok (sliceIncr ax s e x g)) (fun a _ => a) (fun _ _ _ h => by cases h; rfl) x g]
    | _ => none

theorem sliceSym_of (ax s e : Nat) : (sliceSym ax s e).Of (sliceTOp ax s e) where
  run := by
    funext xs
    match xs with
    | [] | [_] | _ :: _ :: _ => rfl
  diffs := rfl
  fresh := by
    intro sh args out gx es hg h
    match args, h with
    | [x], h =>
      simp only [sliceSym, Option.some.injEq] at h
      subst h
      simp [XT.Old, XT.app2]
  sym := by
    intro ρ sh args out gx xs y g ts _ ha _ hg _ _ hs
    match xs, args, ha, hs with
    | [x], [a], .cons hx .nil, hs =>
      simp only [sliceTOp, TOp.one, Option.map_some, Option.some.injEq] at hs
      subst hs
      exact ⟨_, rfl, .cons (by rw [XT.eval_app2 hx hg]) .nil⟩

def sliceDOp (ax s e : Nat) : DOp := ⟨sliceTOp ax s e, sliceSym ax s e, sliceSym_of ax s e⟩

/-- `reshapeOp.SymDiff` (op_tensor.go 1251-1258). -/
def reshapeSym (s : List Nat) : SymOp where
  op := .of1 (fun x => reshape x (s.map Int.ofNat)) (reshapeShp (s.map Int.ofNat)) (fun _ _ h => reshape_shp h)
  diffs := [true]
  sym := fun sh args _ g => match args with
    | [x] => some [.reshape ((sh x).map Int.ofNat) g]
    | _ => none

theorem reshapeSym_of (s : List Nat) : (reshapeSym s).Of (reshapeTOp s) where
  run := by
    funext xs
    match xs with
    | [] | [_] | _ :: _ :: _ => rfl
  diffs := rfl
  fresh := by
    intro sh args out gx es hg h
    match args, h with
    | [x], h =>
      simp only [reshapeSym, Option.some.injEq] at h
      subst h
      simp [XT.Old, XT.reshape, XT.app1]
  sym := by
    intro ρ sh args out gx xs y g ts hsh ha _ hg _ _ hs
    match xs, args, ha, hs with
    | [x], [a], .cons hx .nil, hs =>
      simp only [reshapeTOp, TOp.one, Option.map_eq_some_iff, opt_some] at hs
      obtain ⟨r, hr, rfl⟩ := hs
      refine ⟨_, rfl, .cons ?_ .nil⟩
      rw [hsh a x hx, XT.reshape, XT.eval_app1 hg]
      exact hr

def reshapeDOp (s : List Nat) : DOp := ⟨reshapeTOp s, reshapeSym s, reshapeSym_of s⟩

/-- `transposeOp` as a node. -/
def XT.transpose (p : List Nat) (a : XT) : XT :=
  .app1 (fun x => .ok (transposeT p x)) (permute p) (fun _ _ h => by cases h; rfl) a

/-- `transposeOp.SymDiff` (op_tensor.go 896-907). -/
def transposeSym (p : List Nat) : SymOp where
  op := .of1 (fun x => .ok (transposeT p x)) (permute p) (fun _ _ h => by cases h; rfl)
  diffs := [true]
  sym := fun _ args _ g => match args with
    | [_] => some [.transpose (invPattern p) g]
    | _ => none

theorem transposeSym_of (p : List Nat) : (transposeSym p).Of (transposeTOp p) where
  run := by
    funext xs
    match xs with
    | [] | [_] | _ :: _ :: _ => rfl
  diffs := rfl
  fresh := by
    intro sh args out gx es hg h
    match args, h with
    | [x], h =>
      simp only [transposeSym, Option.some.injEq] at h
      subst h
      simp [XT.Old, XT.transpose, XT.app1]
  sym := by
    intro ρ sh args out gx xs y g ts _ ha _ hg _ _ hs
    match xs, args, ha, hs with
    | [x], [a], .cons hx .nil, hs =>
      simp only [transposeTOp, TOp.one, Option.map_some, Option.some.injEq] at hs
      subst hs
      exact ⟨_, rfl, .cons (by rw [XT.transpose, XT.eval_app1 hg]; rfl) .nil⟩

def transposeDOp (p : List Nat) : DOp := ⟨transposeTOp p, transposeSym p, transposeSym_of p⟩

/-- The loop of `concatOp.SymDiff` (op_tensor.go 1062-1091) over the shapes of the operands. -/
def concatX (sh : XT → List Nat) (ax : Nat) (g : XT) : List (List Nat) → Nat → Option (List XT)
  | [], _ => some []
  | s :: ss, start =>
    if s.length ≤ ax then none
    else
      let end_ := s.getD ax 0 + start
      let x := XT.slice ax start end_ g
      let x := if end_ - start = 1 then XT.reshape (((sh x).insertIdx ax 1).map Int.ofNat) x else x
      (concatX sh ax g ss end_).map fun xs => x :: xs

theorem concatX_eval {ρ : Nat → Res (T ℝ)} {sh : XT → List Nat} (hsh : ∀ e v, XT.eval ρ e = .ok v → sh e = v.shape) (ax : Nat)
    {gx : XT} {g : T ℝ} (hg : gx.eval ρ = .ok g) (ss : List (List Nat)) (start : Nat) (ts : List (T ℝ))
    (h : concatDiff ax g ss start = .ok ts) :
    ∃ es, concatX sh ax gx ss start = some es ∧ List.Forall₂ (fun e v => XT.eval ρ e = .ok v) es ts := by
  induction ss generalizing start ts with
  | nil =>
    simp only [concatDiff, Res.ok.injEq] at h
    subst h
    exact ⟨[], rfl, .nil⟩
  | cons s ss ih =>
    simp only [concatDiff] at h
    simp only [concatX]
    by_cases c : s.length ≤ ax
    · rw [if_pos c] at h; cases h
    · rw [if_neg c] at h ⊢
      obtain ⟨x, x1, h⟩ := bind_ok.1 h
      obtain ⟨x', x2, h⟩ := bind_ok.1 h
      obtain ⟨xs, x3, h⟩ := bind_ok.1 h
      cases h
      obtain ⟨es, e1, e2⟩ := ih _ xs x3
      rw [e1]
      refine ⟨_, rfl, .cons ?_ e2⟩
      have hx : (XT.slice ax start (s.getD ax 0 + start) gx).eval ρ = .ok x := by rw [XT.slice, XT.eval_app1 hg]; exact x1
      by_cases c2 : s.getD ax 0 + start - start = 1
      · rw [if_pos c2] at x2 ⊢
        rw [hsh _ x hx, XT.reshape, XT.eval_app1 hx]
        exact x2
      · rw [if_neg c2] at x2 ⊢
        cases x2
        exact hx

def concatShp (ax : Nat) (ss : List (List Nat)) : List Nat :=
  match ss with
  | [] => []
  | s :: _ => s.set ax ((ss.map fun q => q.getD ax 0).sum)

theorem concat_shp {ax : Nat} {xs : List (T ℝ)} {y : T ℝ} (h : concat ax xs = .ok y) : y.shape = concatShp ax (xs.map (·.shape)) := by
  cases xs with
  | nil => simp [concat] at h
  | cons p qs =>
    simp only [concat] at h
    split at h
    · cases h
    · split at h
      · cases h
      · split at h
        · cases h
        · split at h
          · cases h
            simp [concatShp, Function.comp_def]
          · cases h

/-- `concatOp` (op_tensor.go 955-1128). -/
def concatSym (n ax : Nat) : SymOp where
  op := ⟨concat ax, concatShp ax, fun _ _ h => concat_shp h⟩
  diffs := List.replicate n true
  sym := fun sh args _ g => concatX sh ax g (args.map sh) 0

theorem concatSym_of (n ax : Nat) : (concatSym n ax).Of (concatTOp n ax) where
  run := rfl
  diffs := rfl
  fresh := by
    intro sh args out gx es hg h
    have hc : ∀ (ss : List (List Nat)) (st : Nat) (es : List XT), concatX sh ax gx ss st = some es → ∀ e ∈ es, ¬ e.Old := by
      intro ss
      induction ss with
      | nil => intro st es h; simp only [concatX, Option.some.injEq] at h; subst h; simp
      | cons s ss ih =>
        intro st es h
        simp only [concatX] at h
        split at h
        · cases h
        · simp only [Option.map_eq_some_iff] at h
          obtain ⟨xs, h1, rfl⟩ := h
          intro e he
          simp only [List.mem_cons] at he
          rcases he with rfl | he
          · split <;> simp [XT.slice, XT.reshape, XT.app1, XT.Old]
          · exact ih _ _ h1 e he
    exact hc _ _ _ h
  sym := by
    intro ρ sh args out gx xs y g ts hsh ha _ hg hrun _ hs
    simp only [concatTOp, opt_some] at hs
    have : args.map sh = xs.map (·.shape) := by
      clear hs hrun
      induction ha with
      | nil => rfl
      | cons h _ ih => rw [List.map_cons, List.map_cons, ih, hsh _ _ h]
    simp only [concatSym, this]
    exact concatX_eval hsh ax hg _ 0 ts hs

def concatDOp (n ax : Nat) : DOp := ⟨concatTOp n ax, concatSym n ax, concatSym_of n ax⟩

/-! ### Softmax -/

/-- An operation on three operands. -/
def POp.of3 (f : T ℝ → T ℝ → T ℝ → Res (T ℝ)) (s : List Nat → List Nat → List Nat → List Nat)
    (h : ∀ a b c y, f a b c = .ok y → y.shape = s a.shape b.shape c.shape) : POp where
  run := fun xs => match xs with
    | [a, b, c] => f a b c
    | _ => .err
  shp := fun ss => match ss with
    | [a, b, c] => s a b c
    | _ => []
  law := fun xs y hy => by
    match xs, hy with
    | [a, b, c], hy => exact h a b c y hy

theorem soft_shp {isLog : Bool} {axis : Int} {x y : T ℝ} (h : softDo isLog axis x = .ok y) : y.shape = x.shape := by
  unfold softDo at h
  split at h
  · cases h
  · cases h
    cases isLog <;> rfl

theorem softDiff_shp (isLog : Bool) (axis : Int) (y g : T ℝ) : (softDiff isLog axis y g).shape = y.shape := by
  unfold softDiff
  cases isLog <;> rfl

/-- `softmaxOp.SymDiff` (op_softmax.go 157-169): one `softmaxDiffOp` node. -/
def softSym (isLog : Bool) (axis : Int) : SymOp where
  op := .of1 (softDo isLog axis) id (fun _ _ h => soft_shp h)
  diffs := [true]
  sym := fun _ args out g => match args with
    | [x] => some [.app (.of3 (fun _ y g => .ok (softDiff isLog axis y g)) (fun _ y _ => y)
        (fun _ _ _ _ h => by cases h; exact softDiff_shp ..)) [x, out, g]]
    | _ => none

theorem softSym_of (isLog : Bool) (axis : Int) : (softSym isLog axis).Of (softTOp isLog axis) where
  run := by
    funext xs
    match xs with
    | [] | [_] | _ :: _ :: _ => rfl
  diffs := rfl
  fresh := by
    intro sh args out gx es hg h
    match args, h with
    | [x], h =>
      simp only [softSym, Option.some.injEq] at h
      subst h
      simp [XT.Old, XT.app1]
  sym := by
    intro ρ sh args out gx xs y g ts _ ha ho hg _ _ hs
    match xs, args, ha, hs with
    | [x], [a], .cons hx .nil, hs =>
      simp only [softTOp, TOp.one, Option.map_some, Option.some.injEq] at hs
      subst hs
      refine ⟨_, rfl, .cons ?_ .nil⟩
      simp only [XT.eval, XT.evalL, hx, ho, hg, Res.bind, POp.of3]

def softDOp (isLog : Bool) (axis : Int) : DOp := ⟨softTOp isLog axis, softSym isLog axis, softSym_of isLog axis⟩

/-! ### Products -/

open Verif.LinAlg

def flipShp (t : Bool) (s : List Nat) : Nat × Nat := if t then (s.getD 1 0, s.getD 0 0) else (s.getD 0 0, s.getD 1 0)

theorem flip_rc (t : Bool) (a : T ℝ) : (((toM a).flip t).r, ((toM a).flip t).c) = flipShp t a.shape := by
  cases t <;> rfl

theorem matMul_shp {tA tB : Bool} {a b y : T ℝ} (h : matMulRun tA tB a b = .ok y) :
    y.shape = [(flipShp tA a.shape).1, (flipShp tB b.shape).2] := by
  unfold matMulRun at h
  split at h
  · split at h
    · next z hz =>
      cases h
      unfold matMul matMul0 at hz
      split at hz
      · cases hz
        rw [← flip_rc, ← flip_rc]
        rfl
      · cases hz
    · cases h
  · cases h

/-- A product of matrices as a node. -/
def XT.matMul (tA tB : Bool) (a b : XT) : XT := .app2 (matMulRun tA tB) (fun s s' => [(flipShp tA s).1, (flipShp tB s').2])
  (fun _ _ _ h => matMul_shp h) a b

/-- `matMulDiffExpr` (operatorLinAlg.go 51-102). -/
def matMulSym (tA tB : Bool) : SymOp where
  op := .of2 (matMulRun tA tB) (fun s s' => [(flipShp tA s).1, (flipShp tB s').2]) (fun _ _ _ h => matMul_shp h)
  diffs := [true, true]
  sym := fun _ args _ g => match args with
    | [x, y] => some (match tA, tB with
      | true, true => [.matMul true true y g, .matMul true true g x]
      | false, true => [.matMul false false g y, .matMul true false g x]
      | true, false => [.matMul false true y g, .matMul false false x g]
      | false, false => [.matMul false true g y, .matMul true false x g])
    | _ => none

theorem matMulRun_of {tA tB : Bool} {a b : T ℝ} {z : M} (ha : a.shape.length = 2) (hb : b.shape.length = 2)
    (h : LinAlg.matMul tA tB (toM a) (toM b) = some z) : matMulRun tA tB a b = .ok (ofM z) := by
  unfold matMulRun
  rw [if_pos ⟨ha, hb⟩, h]

theorem matMulSym_of (tA tB : Bool) : (matMulSym tA tB).Of (matMulTOp tA tB) where
  run := by
    funext xs
    match xs with
    | [] | [_] | [_, _] | _ :: _ :: _ :: _ => rfl
  diffs := rfl
  fresh := by
    intro sh args out gx es hg h
    match args, h with
    | [x, y], h =>
      simp only [matMulSym, Option.some.injEq] at h
      subst h
      cases tA <;> cases tB <;> simp [XT.Old, XT.matMul, XT.app2]
  sym := by
    intro ρ sh args out gx xs y g ts _ ha _ hg hrun hgs hs
    match xs, args, ha, hs, hrun with
    | [x, z], [a, c], .cons hx (.cons hz .nil), hs, hrun =>
      have hrun : matMulRun tA tB x z = .ok y := hrun
      have hl : x.shape.length = 2 ∧ z.shape.length = 2 := by
        unfold matMulRun at hrun
        by_contra hc
        rw [if_neg hc] at hrun
        cases hrun
      have hgl : g.shape.length = 2 := by rw [hgs, matMul_shp hrun]; rfl
      simp only [matMulTOp, TOp.two] at hs
      generalize hm : matMulDiff tA tB (toM x) (toM z) (toM g) = m at hs
      match m, hm, hs with
      | (some da, some db), hm, hs =>
        simp only [Option.map_some, Option.some.injEq] at hs
        subst hs
        have h1 := congrArg Prod.fst hm
        have h2 := congrArg Prod.snd hm
        refine ⟨_, rfl, ?_⟩
        cases tA <;> cases tB <;> simp only [matMulDiff] at h1 h2 <;> refine .cons ?_ (.cons ?_ .nil) <;> unfold XT.matMul
        · rw [XT.eval_app2 hg hz]; exact matMulRun_of hgl hl.2 h1
        · rw [XT.eval_app2 hx hg]; exact matMulRun_of hl.1 hgl h2
        · rw [XT.eval_app2 hg hz]; exact matMulRun_of hgl hl.2 h1
        · rw [XT.eval_app2 hg hx]; exact matMulRun_of hgl hl.1 h2
        · rw [XT.eval_app2 hz hg]; exact matMulRun_of hl.2 hgl h1
        · rw [XT.eval_app2 hx hg]; exact matMulRun_of hl.1 hgl h2
        · rw [XT.eval_app2 hz hg]; exact matMulRun_of hl.2 hgl h1
        · rw [XT.eval_app2 hg hx]; exact matMulRun_of hgl hl.1 h2

def matMulDOp (tA tB : Bool) : DOp := ⟨matMulTOp tA tB, matMulSym tA tB, matMulSym_of tA tB⟩

theorem matVec_shp {tA : Bool} {a b y : T ℝ} (h : matVecRun tA a b = .ok y) : y.shape = [(flipShp tA a.shape).1] := by
  unfold matVecRun at h
  split at h
  · split at h
    · next z hz =>
      cases h
      unfold matVec at hz
      simp only at hz
      split at hz
      · cases hz
        rw [← flip_rc]
        rfl
      · cases hz
    · cases h
  · cases h

/-- Building and running an outer product (`OuterProd`, operations.go 101-108). -/
def outerRun (a b : T ℝ) : Res (T ℝ) :=
  if a.shape.length = 1 ∧ b.shape.length = 1 then .ok (ofM (outer (toV a) (toV b))) else .err

theorem outer_shp {a b y : T ℝ} (h : outerRun a b = .ok y) : y.shape = [a.shape.getD 0 0, b.shape.getD 0 0] := by
  unfold outerRun at h
  split at h
  · cases h; rfl
  · cases h

def XT.outer (a b : XT) : XT := .app2 outerRun (fun s s' => [s.getD 0 0, s'.getD 0 0]) (fun _ _ _ h => outer_shp h) a b

/-- `matVecMulDiffExpr` (operatorLinAlg.go 181-202). -/
def matVecSym (tA : Bool) : SymOp where
  op := .of2 (matVecRun tA) (fun s _ => [(flipShp tA s).1]) (fun _ _ _ h => matVec_shp h)
  diffs := [true, true]
  sym := fun _ args _ g => match args with
    | [x, y] => some [if tA then .outer y g else .outer g y,
        .app2 (matVecRun (!tA)) (fun s _ => [(flipShp (!tA) s).1]) (fun _ _ _ h => matVec_shp h) x g]
    | _ => none

theorem matVecSym_of (tA : Bool) : (matVecSym tA).Of (matVecTOp tA) where
  run := by
    funext xs
    match xs with
    | [] | [_] | [_, _] | _ :: _ :: _ :: _ => rfl
  diffs := rfl
  fresh := by
    intro sh args out gx es hg h
    match args, h with
    | [x, y], h =>
      simp only [matVecSym, Option.some.injEq] at h
      subst h
      cases tA <;> simp [XT.Old, XT.outer, XT.app2]
  sym := by
    intro ρ sh args out gx xs y g ts _ ha _ hg hrun hgs hs
    match xs, args, ha, hs, hrun with
    | [x, z], [a, c], .cons hx (.cons hz .nil), hs, hrun =>
      have hrun : matVecRun tA x z = .ok y := hrun
      have hl : x.shape.length = 2 ∧ z.shape.length = 1 := by
        unfold matVecRun at hrun
        by_contra hc
        rw [if_neg hc] at hrun
        cases hrun
      have hgl : g.shape.length = 1 := by rw [hgs, matVec_shp hrun]; rfl
      simp only [matVecTOp, TOp.two] at hs
      generalize hm : matVecDiff tA (toM x) (toV z) (toV g) = m at hs
      match m, hm, hs with
      | (da, some dy), hm, hs =>
        simp only [Option.map_some, Option.some.injEq] at hs
        subst hs
        have h1 := congrArg Prod.fst hm
        have h2 := congrArg Prod.snd hm
        simp only [matVecDiff] at h1 h2
        refine ⟨_, rfl, .cons ?_ (.cons ?_ .nil)⟩
        · subst h1
          cases tA <;> unfold XT.outer
          · simp only [Bool.false_eq_true, if_false]
            rw [XT.eval_app2 hg hz]
            unfold outerRun
            rw [if_pos ⟨hgl, hl.2⟩]
          · simp only [if_true]
            rw [XT.eval_app2 hz hg]
            unfold outerRun
            rw [if_pos ⟨hl.2, hgl⟩]
        · rw [XT.eval_app2 hx hg]
          unfold matVecRun
          rw [if_pos ⟨hl.1, hgl⟩, h2]

def matVecDOp (tA : Bool) : DOp := ⟨matVecTOp tA, matVecSym tA, matVecSym_of tA⟩

end

end Verif.AD
