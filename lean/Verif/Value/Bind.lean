import Verif.Value.Equal
/-!
Dual values; binding values to nodes with `Let` and with the options of `NewTensor` and its like.
-/
set_option autoImplicit false
namespace Verif.Value
open Verif.Shape Verif.Types

local notation "Ptr" => Nat

variable {E : Type}

/-! ### Dual values -/

/-- The derivative filled with one number. -/
def filled (c : E) : Deep E → Deep E
  | .nil => .nil
  | .sc dt _ => .sc dt c
  | .tn dt s d => .tn dt s (List.replicate d.length c)

/-- `constantDV`: the value given, with a derivative of the same type and shape that is zero everywhere and lies elsewhere. -/
theorem constantDV_spec (zero : E) (h : Heap E) (w : WF h) (v : Base) (x : Deep E) (e : denB h v = some x) (hn : v ≠ .nil) :
    ∃ (h' : Heap E) (p : Ptr) (d : Base), constantDV zero h v = .ok (h', p) ∧ Ext h h' ∧ h'.mem p = some (.dv v d) ∧
      den h' (.dual p) = some (x, some (filled zero x)) ∧ ∀ q ∈ footB d, h.next ≤ q := by
  obtain ⟨h1, d, e1, e2, e3, e5, e4⟩ := cloneBase_spec h w v x e hn
  obtain ⟨h2, z1, z2, z3, z4⟩ := zero_spec zero h1 d x e3 e5
  have w2 : WF h2 := zero_wf zero h1 h2 e2.1 d x e3 z1 z4 z3
  have x3 := alloc_ext h2 w2 (.dv v d)
  have ext : Ext h (h2.alloc (.dv v d)).1 := by
    refine ⟨x3.1, ?_, fun p hp => ?_⟩
    · have := e2.2.1; have := x3.2.1; omega
    · have l1 := e2.2.1
      rw [x3.2.2 p (by omega), z4 p (fun hq => by have := e4 p hq; omega), e2.2.2 p hp]
  refine ⟨(h2.alloc (.dv v d)).1, (h2.alloc (.dv v d)).2, d, by simp [constantDV, e1, z1, Res.bind], ext, alloc_at _ _, ?_, fun q hq => (e4 q hq).1⟩
  have hv := ext.denB w v x e
  have hd := x3.denB w2 d _ z2
  have hz : zeroed zero x = filled zero x := by cases x <;> rfl
  simp only [den, alloc_at, hv, hd, hz]

/-- `variableDV`: the derivative is one everywhere. -/
theorem variableDV_spec (one : E) (h : Heap E) (w : WF h) (v : Base) (x : Deep E) (e : denB h v = some x) (hn : v ≠ .nil) :
    ∃ (h' : Heap E) (p : Ptr) (d : Base), variableDV one h v = .ok (h', p) ∧ Ext h h' ∧ h'.mem p = some (.dv v d) ∧
      den h' (.dual p) = some (x, some (filled one x)) ∧ ∀ q ∈ footB d, h.next ≤ q := by
  cases v with
  | nil => exact absurd rfl hn
  | sc p =>
    cases hp : h.mem p with
    | none => simp [denB, hp] at e
    | some c =>
      cases c with
      | tn dt s d => simp [denB, hp] at e
      | dv v d => simp [denB, hp] at e
      | sc dt v =>
        have hx : x = .sc dt v := by simpa [denB, hp] using e.symm
        subst hx
        have x1 := alloc_ext h w (.sc dt one)
        have x2 := alloc_ext (h.alloc (.sc dt one)).1 x1.1 (.dv (.sc p) (.sc (h.alloc (.sc dt one)).2))
        have hd : denB (h.alloc (.sc dt one)).1 (.sc (h.alloc (.sc dt one)).2) = some (.sc dt one) := by simp only [denB, alloc_at]
        have hv := (x1.trans x2).denB w (.sc p) _ e
        have hd' := x2.denB x1.1 _ _ hd
        refine ⟨_, _, .sc (h.alloc (.sc dt one)).2, by simp only [variableDV, hp], x1.trans x2, alloc_at _ _, ?_, ?_⟩
        · simp only [den, alloc_at, hv, hd', filled]
        · intro q hq
          have : q = h.next := by simpa [footB, Heap.alloc] using hq
          omega
  | tn p =>
    cases hp : h.mem p with
    | none => simp [denB, hp] at e
    | some c =>
      cases c with
      | sc dt v => simp [denB, hp] at e
      | dv v d => simp [denB, hp] at e
      | tn dt s d =>
        have hx : x = .tn dt s d := by simpa [denB, hp] using e.symm
        subst hx
        have x1 := alloc_ext h w (.tn dt s (d.map fun _ => one))
        have x2 := alloc_ext (h.alloc (.tn dt s (d.map fun _ => one))).1 x1.1 (.dv (.tn p) (.tn (h.alloc (.tn dt s (d.map fun _ => one))).2))
        have hd : denB (h.alloc (.tn dt s (d.map fun _ => one))).1 (.tn (h.alloc (.tn dt s (d.map fun _ => one))).2) = some (.tn dt s (d.map fun _ => one)) := by
          simp only [denB, alloc_at]
        have hv := (x1.trans x2).denB w (.tn p) _ e
        have hd' := x2.denB x1.1 _ _ hd
        refine ⟨_, _, .tn (h.alloc (.tn dt s (d.map fun _ => one))).2, by simp only [variableDV, hp], x1.trans x2, alloc_at _ _, ?_, ?_⟩
        · simp only [den, alloc_at, hv, hd', filled]; rw [List.map_const']
        · intro q hq
          have : q = h.next := by simpa [footB, Heap.alloc] using hq
          omega

/-- `dvBind0` when the derivative is a tensor with axes: the value becomes the result of the op, the derivative is zeroed where it is. It keeps its shape, whatever the
shape of the result. -/
theorem dvBind0_tensor (zero : E) (h : Heap E) (p q : Ptr) (v ret : Base) (dt : Dt) (s : List Nat) (d : List E) (hs : s ≠ [])
    (hp : h.mem p = some (.dv v (.tn q))) (hq : h.mem q = some (.tn dt s d)) (hr : q ∉ footB ret) (x : Deep E) (er : denB h ret = some x) (hrp : p ∉ footB ret) :
    ∃ h' : Heap E, dvBind0 zero h p ret = .ok h' ∧ den h' (.dual p) = some (x, some (.tn dt s (List.replicate d.length zero))) ∧
      (∀ r : Ptr, r ≠ p → r ≠ q → h'.mem r = h.mem r) := by
  have hqp : q ≠ p := by rintro rfl; rw [hp] at hq; cases hq
  have z : zeroBase zero (h.write p (.dv ret (.tn q))) (.tn q) = .ok ((h.write p (.dv ret (.tn q))).write q (.tn dt s (d.map fun _ => zero))) := by
    simp only [zeroBase, write_other _ _ _ _ hqp, hq]
  obtain ⟨H, hH⟩ : ∃ H, H = (h.write p (.dv ret (.tn q))).write q (.tn dt s (d.map fun _ => zero)) := ⟨_, rfl⟩
  rw [← hH] at z
  have Hp : H.mem p = some (.dv ret (.tn q)) := by rw [hH, write_other _ _ _ _ hqp.symm, write_at]
  have Hq : H.mem q = some (.tn dt s (d.map fun _ => zero)) := by rw [hH, write_at]
  have sd : setDeriv H p (.tn q) = .ok (H.write p (.dv ret (.tn q))) := by
    simp only [setDeriv, Hp, Hq]
    cases s with
    | nil => exact absurd rfl hs
    | cons a s => rfl
  refine ⟨H.write p (.dv ret (.tn q)), by simp [dvBind0, hp, z, Res.bind, sd], ?_, ?_⟩
  · have hret : denB (H.write p (.dv ret (.tn q))) ret = some x := by
      rw [← er]
      refine denB_congr _ _ ret fun r hr' => ?_
      have r1 : r ≠ p := fun c => hrp (c ▸ hr')
      have r2 : r ≠ q := fun c => hr (c ▸ hr')
      rw [write_other _ _ _ _ r1, hH, write_other _ _ _ _ r2, write_other _ _ _ _ r1]
    have hd : denB (H.write p (.dv ret (.tn q))) (.tn q) = some (.tn dt s (List.replicate d.length zero)) := by
      simp only [denB, write_other _ _ _ _ hqp, Hq, List.map_const']
    simp only [den, write_at, hret, hd]
  · intro r r1 r2
    rw [write_other _ _ _ _ r1, hH, write_other _ _ _ _ r2, write_other _ _ _ _ r1]

/-- It panics on a dual value without derivative; `dvBindVar0` returns an error. -/
theorem dvBind0_nil (zero one : E) (h : Heap E) (p : Ptr) (v ret : Base) (hp : h.mem p = some (.dv v .nil)) :
    dvBind0 zero h p ret = .panic ∧ dvBindVar0 one h p ret = .err := by
  simp [dvBind0, dvBindVar0, hp, zeroBase, Res.bind]

/-- `dvBindVar0`: the derivative becomes one everywhere, for floating-point tensors only; others keep the derivative they had. -/
theorem dvBindVar0_tensor (one : E) (h : Heap E) (p q : Ptr) (v ret : Base) (dt : Dt) (s : List Nat) (d : List E)
    (hp : h.mem p = some (.dv v (.tn q))) (hq : h.mem q = some (.tn dt s d)) (hr : q ∉ footB ret) (x : Deep E) (er : denB h ret = some x) (hrp : p ∉ footB ret) :
    ∃ h' : Heap E, dvBindVar0 one h p ret = .ok h' ∧
      den h' (.dual p) = some (x, some (.tn dt s (if dt = .float64 ∨ dt = .float32 then List.replicate d.length one else d))) := by
  have hqp : q ≠ p := by rintro rfl; rw [hp] at hq; cases hq
  have er1 : denB (h.write p (.dv ret (.tn q))) ret = some x := by
    rw [← er]; exact denB_congr _ _ ret fun r hr' => write_other _ _ _ _ fun c => hrp (c ▸ hr')
  by_cases hf : dt = .float64 ∨ dt = .float32
  · refine ⟨(h.write p (.dv ret (.tn q))).write q (.tn dt s (d.map fun _ => one)), by simp [dvBindVar0, hp, write_other _ _ _ _ hqp, hq, hf], ?_⟩
    have e1 : denB ((h.write p (.dv ret (.tn q))).write q (.tn dt s (d.map fun _ => one))) ret = some x := by
      rw [← er1]; exact denB_congr _ _ ret fun r hr' => write_other _ _ _ _ fun c => hr (c ▸ hr')
    have e2 : denB ((h.write p (.dv ret (.tn q))).write q (.tn dt s (d.map fun _ => one))) (.tn q) = some (.tn dt s (List.replicate d.length one)) := by
      simp only [denB, write_at, List.map_const']
    simp only [den, write_other _ _ _ _ hqp.symm, write_at, e1, e2, if_pos hf]
  · refine ⟨h.write p (.dv ret (.tn q)), by simp [dvBindVar0, hp, write_other _ _ _ _ hqp, hq, hf], ?_⟩
    have e2 : denB (h.write p (.dv ret (.tn q))) (.tn q) = some (.tn dt s d) := by simp only [denB, write_other _ _ _ _ hqp, hq]
    simp only [den, write_at, er1, e2, if_neg hf]

/-- `SetDeriv` turns a tensor without axes into a scalar, of the same number. -/
theorem setDeriv_scalar (h : Heap E) (p q : Ptr) (v d : Base) (dt : Dt) (x : E) (hp : h.mem p = some (.dv v d)) (hq : h.mem q = some (.tn dt [] [x])) (hpn : p < h.next) :
    ∃ (h' : Heap E) (r : Ptr), setDeriv h p (.tn q) = .ok h' ∧ h'.mem p = some (.dv v (.sc r)) ∧ h'.mem r = some (.sc dt x) := by
  refine ⟨(h.alloc (.sc dt x)).1.write p (.dv v (.sc (h.alloc (.sc dt x)).2)), (h.alloc (.sc dt x)).2, by simp [setDeriv, hp, hq], write_at _ _ _, ?_⟩
  rw [write_other _ _ _ _ (by rw [alloc_next]; omega), alloc_at]

example : ∃ (h' : Heap Int) (p : Ptr) (d : Base), constantDV 0 exH (.tn 0) = .ok (h', p) ∧ Ext exH h' ∧ h'.mem p = some (.dv (.tn 0) d) ∧
    den h' (.dual p) = some (.tn .float64 [2, 3] [1, 2, 3, 4, 5, 6], some (.tn .float64 [2, 3] [0, 0, 0, 0, 0, 0])) ∧ ∀ q ∈ footB d, exH.next ≤ q :=
  constantDV_spec 0 exH exH_wf (.tn 0) _ rfl (by simp)
example : ∃ (h' : Heap Int) (p : Ptr) (d : Base), variableDV 1 exH (.sc 1) = .ok (h', p) ∧ Ext exH h' ∧ h'.mem p = some (.dv (.sc 1) d) ∧
    den h' (.dual p) = some (.sc .float64 7, some (.sc .float64 1)) ∧ ∀ q ∈ footB d, exH.next ≤ q :=
  variableDV_spec 1 exH exH_wf (.sc 1) _ rfl (by simp)
/-- A result of shape (3) leaves the derivative at shape (2, 3). -/
example : ∃ h' : Heap Int, dvBind0 0 exH 3 (.tn 6) = .ok h' ∧
    den h' (.dual 3) = some (.tn .float64 [3] [1, 2, 3], some (.tn .float64 [2, 3] [0, 0, 0, 0, 0, 0])) ∧ (∀ r : Ptr, r ≠ 3 → r ≠ 2 → h'.mem r = exH.mem r) :=
  dvBind0_tensor 0 exH 3 2 (.tn 0) (.tn 6) .float64 [2, 3] [1, 1, 1, 1, 1, 1] (by simp) rfl rfl (by simp [footB]) _ rfl (by simp [footB])

/-! ### Let -/

/-- `Let` with a value that is neither nil nor dual, on an input node: the value is bound exactly if its element type is that of the node and its shape the node's, as
`Shape.Eq` compares them; otherwise there is an error and the node keeps its value. -/
theorem let_value (h : Heap E) (n : Node) (t : Ty) (dt dt' : Dt) (s : List Nat) (b : Base) (hi : n.input = true) (ht : n.t = some t) (hd : dtOf t = some dt')
    (hb : infoBase h b = some (dt, s)) (hbound : ∀ p : Ptr, n.bound = .dual p → ∃ v d : Base, h.mem p = some (.dv v d)) :
    (¬ (shapeEq (n.shape.getD []) s = true ∧ dt' = dt) ∧ let' h n (.val (.base b)) = .err) ∨
    ((shapeEq (n.shape.getD []) s = true ∧ dt' = dt) ∧ ∃ (h' : Heap E) (n' : Node), let' h n (.val (.base b)) = .ok (h', n') ∧ n'.t = n.t ∧ n'.shape = n.shape ∧
      ((∃ u : Base, n.bound = .base u) → h' = h ∧ n'.bound = .base b) ∧
      (∀ (p : Ptr) (v d : Base), n.bound = .dual p → h.mem p = some (.dv v d) → n'.bound = .dual p ∧ h'.mem p = some (.dv b d) ∧ ∀ q : Ptr, q ≠ p → h'.mem q = h.mem q)) := by
  by_cases hs : shapeEq (n.shape.getD []) s = true
  · by_cases he : dt' = dt
    · right
      refine ⟨⟨hs, he⟩, ?_⟩
      have e : let' h n (.val (.base b)) = bind h n (.base b) := by simp [let', hi, unsafeLet, info, hb, ht, hs, hd, he]
      rw [e]
      cases hn : n.bound with
      | base u =>
        refine ⟨h, { n with bound := .base b }, by simp [bind, hn], rfl, rfl, fun _ => ⟨rfl, rfl⟩, fun p v d hp => by cases hp⟩
      | dual p =>
        obtain ⟨v, d, hp⟩ := hbound p hn
        refine ⟨h.write p (.dv b d), n, by simp [bind, hn, hp], rfl, rfl, fun ⟨u, hu⟩ => (by cases hu), ?_⟩
        intro p' v' d' e1 e2
        cases e1
        rw [hp] at e2; cases e2
        exact ⟨hn, write_at _ _ _, fun q hq => write_other _ _ _ _ hq⟩
    · left
      exact ⟨fun c => he c.2, by simp [let', hi, unsafeLet, info, hb, ht, hs, hd, he]⟩
  · left
    have hs' : shapeEq (n.shape.getD []) s = false := by simpa using hs
    exact ⟨fun c => hs c.1, by simp [let', hi, unsafeLet, info, hb, ht, hs']⟩

/-- `Let` with a Go number is not checked: whatever the type and the shape of the input node, the number is bound to it. -/
theorem let_number (h : Heap E) (n : Node) (dt : Dt) (x : E) (u : Base) (hi : n.input = true) (hu : n.bound = .base u) :
    ∃ (h' : Heap E) (n' : Node), let' h n (.num dt x) = .ok (h', n') ∧ den h' n'.bound = some (.sc dt x, none) ∧ n'.t = n.t ∧ n'.shape = n.shape := by
  refine ⟨(h.alloc (.sc dt x)).1, { n with bound := .base (.sc (h.alloc (.sc dt x)).2) }, by simp [let', hi, unsafeLet, anyToValue, bind, hu], ?_, rfl, rfl⟩
  simp only [den, denB, alloc_at, Option.map_some]

/-- `Let` with a dual value on a node that has one already panics, even when type and shape agree. -/
theorem let_dual_panics (h : Heap E) (n : Node) (t : Ty) (dt : Dt) (s : List Nat) (p q : Ptr) (v d v' d' : Base) (hi : n.input = true) (hr : n.random = false)
    (ht : n.t = some t) (hd : dtOf t = some dt) (hp : h.mem p = some (.dv v d)) (hq : h.mem q = some (.dv v' d')) (hpq : q ≠ p) (hb : n.bound = .dual p)
    (hv : infoBase h v' = some (dt, s)) (hs : shapeEq (n.shape.getD []) s = true) : let' h n (.val (.dual q)) = .panic := by
  simp [let', hi, unsafeLet, info, hq, hv, ht, hd, hs, bind, hb, hp, hpq, hr]

/-- `Let` on a node that is not an input is an error. -/
theorem let_not_input (h : Heap E) (n : Node) (be : Any E) (hi : n.input = false) : let' h n be = .err := by simp [let', hi]

/-- A matrix node accepts a boolean. -/
example : ∃ (h' : Heap Int) (n' : Node), let' exH { t := some (.tens 2 (.dt .float64)), shape := some [2, 3] } (.num .bool 1) = .ok (h', n') ∧
    den h' n'.bound = some (.sc .bool 1, none) ∧ n'.t = some (.tens 2 (.dt .float64)) ∧ n'.shape = some [2, 3] := let_number _ _ .bool 1 .nil rfl rfl
/-- The gradient of the value bound before stays. -/
example : ∃ (h' : Heap Int) (n' : Node), let' exH { t := some (.tens 2 (.dt .float64)), shape := some [2, 3], bound := .dual 3 } (.val (.base (.tn 2))) = .ok (h', n') ∧
    h'.mem 3 = some (.dv (.tn 2) (.tn 2)) := ⟨_, _, rfl, rfl⟩
example : let' exH { t := some (.tens 2 (.dt .float64)), shape := some [2, 3] } (.val (.base (.tn 5))) = .err := rfl

/-! ### Construction -/

/-- The value of a node has the type of the node, except that a tensor without axes may stand for a scalar. -/
def Typed (h : Heap E) (n : Node) : Prop :=
  (n.bound = .base .nil) ∨ ∃ t t' : Ty, typeOf h n.bound = some t ∧ n.t = some t' ∧ (t = t' ∨ ∃ d : Dt, t' = .dt d ∧ t = .tens 0 (.dt d))

theorem typeOf_dual (h : Heap E) (p : Ptr) (v d : Base) (hp : h.mem p = some (.dv v d)) : typeOf h (.dual p) = typeOf h (.base v) := by
  cases v with
  | nil => simp [typeOf, hp]
  | sc q => simp [typeOf, hp]
  | tn q => simp [typeOf, hp]

/-- A base value's type does not change when a dual cell is written. -/
theorem typeOf_write_dv (h : Heap E) (p : Ptr) (v d v' d' : Base) (hp : h.mem p = some (.dv v d)) (b : Base) :
    typeOf (h.write p (.dv v' d')) (.base b) = typeOf h (.base b) := by
  cases b with
  | nil => rfl
  | sc q =>
    by_cases hq : q = p
    · subst hq; simp [typeOf, write_at, hp]
    · simp [typeOf, write_other _ _ _ _ hq]
  | tn q =>
    by_cases hq : q = p
    · subst hq; simp [typeOf, write_at, hp]
    · simp [typeOf, write_other _ _ _ _ hq]

/-- What `bind` leaves bound has the type of the value given. -/
theorem bind_type (h h' : Heap E) (n n' : Node) (v : Val) (hr : n.random = false) (e : bind h n v = .ok (h', n')) :
    typeOf h' n'.bound = typeOf h v ∧ n'.t = n.t ∧ n'.shape = n.shape ∧ n'.random = n.random := by
  cases hb : n.bound with
  | base b =>
    simp only [bind, hb, Res.ok.injEq, Prod.mk.injEq] at e
    obtain ⟨rfl, rfl⟩ := e
    exact ⟨rfl, rfl, rfl, rfl⟩
  | dual p =>
    simp only [bind, hb] at e
    cases hp : h.mem p with
    | none => simp [hp] at e
    | some c =>
      cases c with
      | sc dt v => simp [hp] at e
      | tn dt s d => simp [hp] at e
      | dv w d =>
        simp only [hp] at e
        cases v with
        | dual q =>
          by_cases hq : q = p
          · simp only [hq, if_true, Res.ok.injEq, Prod.mk.injEq] at e
            obtain ⟨rfl, rfl⟩ := e
            exact ⟨by rw [hb, hq], rfl, rfl, rfl⟩
          · simp [hq, hr] at e
        | base b =>
          simp only [Res.ok.injEq, Prod.mk.injEq] at e
          obtain ⟨rfl, rfl⟩ := e
          refine ⟨?_, rfl, rfl, rfl⟩
          rw [hb, typeOf_dual _ p b d (write_at _ _ _), typeOf_write_dv h p w d b d hp]

/-- Allocation does not change the type of what is there. -/
theorem typeOf_alloc (h : Heap E) (w : WF h) (c : Cell E) (v : Val) (t : Ty) (e : typeOf h v = some t) : typeOf (h.alloc c).1 v = some t := by
  have key : ∀ p : Nat, (∃ x : Cell E, h.mem p = some x) → (h.alloc c).1.mem p = h.mem p := by
    rintro p ⟨x, hx⟩
    refine (alloc_ext h w c).2.2 p ?_
    by_contra hn
    rw [w p (by omega)] at hx; cases hx
  rw [← e]
  have kb : ∀ b : Base, typeOf h (.base b) = some t → typeOf (h.alloc c).1 (.base b) = typeOf h (.base b) := by
    intro b eb
    cases b with
    | nil => rfl
    | sc p =>
      cases hp : h.mem p with
      | none => simp [typeOf, hp] at eb
      | some x => simp only [typeOf, key p ⟨x, hp⟩]
    | tn p =>
      cases hp : h.mem p with
      | none => simp [typeOf, hp] at eb
      | some x => simp only [typeOf, key p ⟨x, hp⟩]
  cases v with
  | base b => exact kb b e
  | dual p =>
    cases hp : h.mem p with
    | none => simp [typeOf, hp] at e
    | some x =>
      cases x with
      | sc dt v => simp [typeOf, hp] at e
      | tn dt s d => simp [typeOf, hp] at e
      | dv v d =>
        have hp' := (key p ⟨_, hp⟩).trans hp
        rw [typeOf_dual _ p v d hp', typeOf_dual _ p v d hp]
        rw [typeOf_dual _ p v d hp] at e
        exact kb v e

/-- The heap stays well-formed through allocation and writing at occupied places. -/
theorem bind_wf (h h' : Heap E) (w : WF h) (n n' : Node) (v : Val) (e : bind h n v = .ok (h', n')) : WF h' := by
  cases hb : n.bound with
  | base b =>
    simp only [bind, hb, Res.ok.injEq, Prod.mk.injEq] at e
    obtain ⟨rfl, rfl⟩ := e
    exact w
  | dual p =>
    simp only [bind, hb] at e
    cases hp : h.mem p with
    | none => simp [hp] at e
    | some c =>
      have hlt : p < h.next := by
        by_contra hn; rw [w p (by omega)] at hp; cases hp
      cases c with
      | sc dt v => simp [hp] at e
      | tn dt s d => simp [hp] at e
      | dv v' d =>
        simp only [hp] at e
        cases v with
        | base b =>
          simp only [Res.ok.injEq, Prod.mk.injEq] at e
          obtain ⟨rfl, rfl⟩ := e
          exact write_wf h w p hlt _
        | dual q =>
          by_cases hq : q = p
          · simp only [hq, if_true, Res.ok.injEq, Prod.mk.injEq] at e
            obtain ⟨rfl, rfl⟩ := e
            exact w
          · simp only [hq, if_false] at e
            by_cases hr : n.random = true
            · simp only [hr, if_true] at e
              split at e
              · simp only [Res.ok.injEq, Prod.mk.injEq] at e
                obtain ⟨rfl, rfl⟩ := e
                exact write_wf h w p hlt _
              · cases e
            · simp [hr] at e

theorem anyToValue_wf (h : Heap E) (w : WF h) (a : Any E) : WF (anyToValue h a).1 := by
  cases a with
  | val v => exact w
  | num dt x => exact (alloc_ext h w _).1

theorem anyToValue_type (h : Heap E) (w : WF h) (a : Any E) (v : Val) (t : Ty) (e : typeOf h v = some t) : typeOf (anyToValue h a).1 v = some t := by
  cases a with
  | val u => exact e
  | num dt x => exact typeOf_alloc h w _ v t e

/-- The shape read off a value, from the type. -/
theorem info_typeOf (h : Heap E) (v : Val) (t : Ty) (dt : Dt) (s : List Nat) (e : typeOf h v = some t) (i : info h v = some (dt, s)) :
    (t = .dt dt ∧ s = []) ∨ t = .tens s.length (.dt dt) := by
  have kb : ∀ b : Base, typeOf h (.base b) = some t → infoBase h b = some (dt, s) → (t = .dt dt ∧ s = []) ∨ t = .tens s.length (.dt dt) := by
    intro b eb ib
    cases b with
    | nil => simp [typeOf] at eb
    | sc p =>
      cases hp : h.mem p with
      | none => simp [typeOf, hp] at eb
      | some c =>
        cases c with
        | tn dt s d => simp [typeOf, hp] at eb
        | dv v d => simp [typeOf, hp] at eb
        | sc dt' x =>
          simp only [typeOf, hp, Option.some.injEq] at eb
          simp only [infoBase, hp, Option.some.injEq, Prod.mk.injEq] at ib
          exact Or.inl ⟨by rw [← eb, ib.1], ib.2.symm⟩
    | tn p =>
      cases hp : h.mem p with
      | none => simp [typeOf, hp] at eb
      | some c =>
        cases c with
        | sc dt x => simp [typeOf, hp] at eb
        | dv v d => simp [typeOf, hp] at eb
        | tn dt' s' d =>
          simp only [typeOf, hp, Option.some.injEq] at eb
          simp only [infoBase, hp, Option.some.injEq, Prod.mk.injEq] at ib
          exact Or.inr (by rw [← eb, ib.1, ib.2])
  cases v with
  | base b => exact kb b e i
  | dual p =>
    cases hp : h.mem p with
    | none => simp [typeOf, hp] at e
    | some c =>
      cases c with
      | sc dt x => simp [typeOf, hp] at e
      | tn dt s d => simp [typeOf, hp] at e
      | dv v d =>
        rw [typeOf_dual h p v d hp] at e
        simp only [info, hp] at i
        exact kb v e i

/-- Every option keeps the node typed. -/
theorem applyOpt_typed (h h' : Heap E) (w : WF h) (n n' : Node) (o : Opt E) (hr : n.random = false) (ht : Typed h n) (e : applyOpt h n o = .ok (h', n')) :
    Typed h' n' ∧ WF h' ∧ n'.random = false := by
  cases o with
  | type t =>
    simp only [applyOpt] at e
    cases hn : n.t with
    | none =>
      simp only [hn, Res.ok.injEq, Prod.mk.injEq] at e
      obtain ⟨rfl, rfl⟩ := e
      refine ⟨?_, w, hr⟩
      rcases ht with ht | ⟨_, _, _, c, _⟩
      · exact Or.inl ht
      · rw [hn] at c; cases c
    | some t' =>
      simp only [hn] at e
      by_cases c : t' = t
      · simp only [c, if_true, Res.ok.injEq, Prod.mk.injEq] at e
        obtain ⟨rfl, rfl⟩ := e
        exact ⟨ht, w, hr⟩
      · simp [c] at e
  | shape s =>
    have : h' = h ∧ n' = { n with shape := some s } := by
      simp only [applyOpt] at e
      by_cases c : n.t = none ∧ n.shape = none
      · simp only [if_pos c, Res.ok.injEq, Prod.mk.injEq] at e
        exact ⟨e.1.symm, e.2.symm⟩
      · simp only [if_neg c] at e
        cases hd : n.dims with
        | none => simp [hd] at e
        | some nd =>
          simp only [hd] at e
          split at e
          · simp only [Res.ok.injEq, Prod.mk.injEq] at e
            exact ⟨e.1.symm, e.2.symm⟩
          · cases e
    obtain ⟨rfl, rfl⟩ := this
    exact ⟨ht, w, hr⟩
  | value a =>
    obtain ⟨r, hrr⟩ : ∃ r, r = anyToValue h a := ⟨_, rfl⟩
    have wr : WF r.1 := hrr ▸ anyToValue_wf h w a
    simp only [applyOpt, ← hrr] at e
    cases ht' : typeOf r.1 r.2 with
    | none => simp [ht'] at e
    | some t =>
      cases hi : info r.1 r.2 with
      | none => simp [ht', hi] at e
      | some ds =>
        obtain ⟨dt, s⟩ := ds
        simp only [ht', hi] at e
        cases hn : n.t with
        | none =>
          simp only [hn] at e
          cases hbnd : bind r.1 { n with t := some t } r.2 with
          | err => simp [hbnd, Res.bind] at e
          | panic => simp [hbnd, Res.bind] at e
          | ok z =>
            obtain ⟨h1, n1⟩ := z
            simp only [hbnd, Res.bind, Res.ok.injEq, Prod.mk.injEq] at e
            obtain ⟨rfl, rfl⟩ := e
            obtain ⟨b1, b2, b3, b4⟩ := bind_type r.1 h1 { n with t := some t } n1 r.2 hr hbnd
            refine ⟨Or.inr ⟨t, t, by simpa [ht'] using b1, by simpa using b2, Or.inl rfl⟩, bind_wf _ _ wr _ _ _ hbnd, by simpa [hr] using b4⟩
        | some t' =>
          simp only [hn] at e
          by_cases c : t' = t
          · subst c
            simp only [if_true] at e
            cases hbnd : bind r.1 n r.2 with
            | err => simp [hbnd, Res.bind] at e
            | panic => simp [hbnd, Res.bind] at e
            | ok z =>
              obtain ⟨h1, n1⟩ := z
              simp only [hbnd, Res.bind, Res.ok.injEq, Prod.mk.injEq] at e
              obtain ⟨rfl, rfl⟩ := e
              obtain ⟨b1, b2, b3, b4⟩ := bind_type r.1 h1 n n1 r.2 hr hbnd
              refine ⟨Or.inr ⟨t', t', by simpa [ht'] using b1, by simpa [hn] using b2, Or.inl rfl⟩, bind_wf _ _ wr _ _ _ hbnd, by simpa [hr] using b4⟩
          · simp only [c, if_false] at e
            split at e
            · rename_i d k d' p hv
              by_cases c2 : d = d' ∧ s.all (· = 1)
              · simp only [if_pos c2] at e
                split at e
                · rename_i dt' s' x hp
                  cases hbnd : bind (r.1.write p (.tn dt' [] x)) n r.2 with
                  | err => simp [hbnd, Res.bind] at e
                  | panic => simp [hbnd, Res.bind] at e
                  | ok z =>
                    obtain ⟨h1, n1⟩ := z
                    simp only [hbnd, Res.bind, Res.ok.injEq, Prod.mk.injEq] at e
                    obtain ⟨rfl, rfl⟩ := e
                    have wp : WF (r.1.write p (.tn dt' [] x)) := by
                      refine write_wf _ wr p ?_ _
                      by_contra hlt; rw [wr p (by omega)] at hp; cases hp
                    obtain ⟨b1, b2, b3, b4⟩ := bind_type _ h1 n n1 r.2 hr hbnd
                    have hdt : dt' = d' := by
                      rw [hv] at ht'; simp only [typeOf, hp, Option.some.injEq, Ty.tens.injEq, Ty.dt.injEq] at ht'
                      exact ht'.2
                    refine ⟨Or.inr ⟨.tens 0 (.dt d'), .dt d, ?_, by simpa [hn] using b2, Or.inr ⟨d, rfl, by rw [c2.1]⟩⟩, bind_wf _ _ wp _ _ _ hbnd, by simpa [hr] using b4⟩
                    rw [show ({ n1 with shape := some (n1.shape.getD []) } : Node).bound = n1.bound from rfl, b1, hv]
                    simp only [typeOf, write_at, List.length_nil, hdt, Nat.cast_zero]
                · cases e
              · simp only [if_neg c2] at e; cases e
            · cases e
  | grad a =>
    obtain ⟨r, hrr⟩ : ∃ r, r = anyToValue h a := ⟨_, rfl⟩
    have wr : WF r.1 := hrr ▸ anyToValue_wf h w a
    have ht1 : Typed r.1 n := by
      rcases ht with ht | ⟨t, t', a1, a2, a3⟩
      · exact Or.inl ht
      · exact Or.inr ⟨t, t', hrr ▸ anyToValue_type h w a _ t a1, a2, a3⟩
    simp only [applyOpt, ← hrr] at e
    cases hb : n.bound with
    | base b =>
      cases hd : r.2 with
      | dual q => simp [hb, hd] at e
      | base d =>
        simp only [hb, hd] at e
        split at e
        · cases e
        · rename_i c
          rw [not_or, not_not] at c
          have e' := e
          have wa := (alloc_ext r.1 wr (.dv b d)).1
          obtain ⟨b1, b2, b3, b4⟩ := bind_type _ h' n n' _ hr e
          refine ⟨?_, bind_wf _ _ wa _ _ _ e, b4.trans hr⟩
          rcases ht1 with ht | ⟨t, t', a1, a2, a3⟩
          · rw [hb] at ht; simp only [Val.base.injEq] at ht; exact absurd ht c.1
          · refine Or.inr ⟨t, t', ?_, b2.trans a2, a3⟩
            rw [b1, typeOf_dual _ _ b d (alloc_at _ _)]
            rw [hb] at a1
            exact typeOf_alloc _ wr _ _ t a1
    | dual p =>
      cases hd : r.2 with
      | dual q => simp [hb, hd] at e
      | base d =>
        simp only [hb, hd] at e
        split at e
        · cases e
        · split at e
          · rename_i b d0 hp
            simp only [Res.ok.injEq, Prod.mk.injEq] at e
            obtain ⟨rfl, rfl⟩ := e
            have hlt : p < r.1.next := by
              by_contra hn; rw [wr p (by omega)] at hp; cases hp
            refine ⟨?_, write_wf _ wr p hlt _, hr⟩
            rcases ht1 with ht | ⟨t, t', a1, a2, a3⟩
            · rw [hb] at ht; cases ht
            · refine Or.inr ⟨t, t', ?_, a2, a3⟩
              rw [hb] at a1 ⊢
              rw [typeOf_dual _ p b d0 hp] at a1
              rw [typeOf_dual _ p b d (write_at _ _ _), typeOf_write_dv _ p b d0 b d hp, a1]
          · cases e

/-- Whatever the options and their order: if a node is made, its value has the type of the node. -/
theorem newNode_typed (h h' : Heap E) (w : WF h) (os : List (Opt E)) (n : Node) (e : newNode h os = .ok (h', n)) : Typed h' n := by
  have key : ∀ (os : List (Opt E)) (h : Heap E) (m : Node), WF h → m.random = false → Typed h m → ∀ r : Heap E × Node, applyOpts h m os = .ok r → Typed r.1 r.2 := by
    intro os
    induction os with
    | nil =>
      intro h m _ _ ht r e
      simp only [applyOpts, Res.ok.injEq] at e
      subst e; exact ht
    | cons o os ih =>
      intro h m w hr ht r e
      simp only [applyOpts] at e
      cases h1 : applyOpt h m o with
      | err => simp [h1, Res.bind] at e
      | panic => simp [h1, Res.bind] at e
      | ok z =>
        simp only [h1, Res.bind] at e
        obtain ⟨a1, a2, a3⟩ := applyOpt_typed h z.1 w m z.2 o hr ht h1
        exact ih z.1 z.2 a2 a3 a1 r e
  simp only [newNode] at e
  cases h1 : applyOpts h ({} : Node) os with
  | err => simp [h1, Res.bind] at e
  | panic => simp [h1, Res.bind] at e
  | ok z =>
    have ht := key os h {} w rfl (Or.inl rfl) z h1
    simp only [h1, Res.bind, Res.ok.injEq, Prod.mk.injEq] at e
    obtain ⟨rfl, rfl⟩ := e
    rcases ht with ht | ⟨t, t', a1, a2, a3⟩
    · left
      split <;> exact ht
    · right
      refine ⟨t, t', ?_, ?_, a3⟩
      · split <;> exact a1
      · split <;> exact a2

/-- The node's shape need not be that of its value: with a shape and a value given, any shape of as many axes is kept beside any value. -/
theorem newNode_shape (h : Heap E) (p : Ptr) (dt : Dt) (s s' : List Nat) (d : List E) (hp : h.mem p = some (.tn dt s' d)) (hl : s.length = s'.length) :
    newNode h [.type (.tens s.length (.dt dt)), .shape s, .value (.val (.base (.tn p)))] =
      .ok (h, { t := some (.tens s.length (.dt dt)), shape := some s, bound := .base (.tn p) }) := by
  simp [newNode, applyOpts, applyOpt, Res.bind, Node.dims, anyToValue, typeOf, info, infoBase, hp, hl, bind]

/-- Without a shape option the node takes the shape of its value. -/
theorem newNode_shape_of_value (h : Heap E) (p : Ptr) (dt : Dt) (s : List Nat) (d : List E) (hp : h.mem p = some (.tn dt s d)) :
    newNode h [.type (.tens s.length (.dt dt)), .value (.val (.base (.tn p)))] =
      .ok (h, { t := some (.tens s.length (.dt dt)), shape := some s, bound := .base (.tn p) }) := by
  simp [newNode, applyOpts, applyOpt, Res.bind, anyToValue, typeOf, info, infoBase, hp, bind]

/-- A scalar node given a tensor of one element, of whatever number of axes: the tensor the user holds loses its axes. -/
theorem newNode_reshapes (h : Heap E) (p : Ptr) (dt : Dt) (s : List Nat) (x : E) (hp : h.mem p = some (.tn dt s [x])) (hs : ∀ a ∈ s, a = 1) :
    ∃ (h' : Heap E) (n : Node), newNode h [.type (.dt dt), .value (.val (.base (.tn p)))] = .ok (h', n) ∧ n.bound = .base (.tn p) ∧ n.shape = some [] ∧
      h'.mem p = some (.tn dt [] [x]) := by
  have hall : s.all (· = 1) = true := by rw [List.all_eq_true]; intro a ha; simpa using hs a ha
  refine ⟨h.write p (.tn dt [] [x]), { t := some (.dt dt), shape := some [], bound := .base (.tn p) }, ?_, rfl, rfl, write_at _ _ _⟩
  simp only [newNode, applyOpts, applyOpt, Res.bind, anyToValue, typeOf, info, infoBase, hp, reduceCtorEq, if_false, hall, and_self, if_true, bind, Option.getD_none]

/-- A value of other type is refused. -/
theorem newNode_refuses (h : Heap E) (p : Ptr) (dt dt' : Dt) (s : List Nat) (k : Nat) (d : List E) (hp : h.mem p = some (.tn dt' s d)) (hk : k ≠ s.length ∨ dt ≠ dt') :
    newNode h [.type (.tens k (.dt dt)), .value (.val (.base (.tn p)))] = .panic := by
  have : ¬ (Ty.tens k (.dt dt) = Ty.tens s.length (.dt dt')) := by
    simp only [Ty.tens.injEq, Ty.dt.injEq, not_and_or, Nat.cast_inj]; exact hk
  simp [newNode, applyOpts, applyOpt, Res.bind, anyToValue, typeOf, info, infoBase, hp, this]

example : newNode exH [.type (.tens 2 (.dt .float64)), .shape [2, 3], .value (.val (.base (.tn 5)))] =
    .ok (exH, { t := some (.tens 2 (.dt .float64)), shape := some [2, 3], bound := .base (.tn 5) }) := newNode_shape exH 5 .float64 [2, 3] [3, 2] [1, 2, 3, 4, 5, 6] rfl rfl
/-- Also the other way round: the value first, then another shape. -/
example : ∃ n : Node, newNode exH [.value (.val (.base (.tn 5))), .shape [6, 6]] = .ok (exH, n) ∧ n.shape = some [6, 6] ∧ n.bound = .base (.tn 5) := ⟨_, rfl, rfl, rfl⟩

end Verif.Value
