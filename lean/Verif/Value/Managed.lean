import Verif.Value.Bind
/-!
Dual values whose derivative lies in the memory of a device (dual.go 182-250; part of property C81).

`Get` (cuda.go 119-125, cuda/arena.go 13-16) returns a block of the memory reserved on the device. That the block is in use by nobody else is C26; nobody clears it,
so here it holds whatever was there: `old`. Assumed: the block can be written from the host, as `dvUnitVarManaged` does, and `Memset` of the tensor library succeeds.
-/
set_option autoImplicit false
namespace Verif.Value
open Verif.Shape Verif.Types

local notation "Ptr" => Nat

variable {E : Type}

/-- `makeValueFromMem` (values.go 129-148) with `makeScalarFromMem` (values.go 150-170) on a block holding `old`, for the type and the shape of the value `v`: a shape
without axes gives a scalar, whatever the type. -/
def fromMem (h : Heap E) (old : Nat → E) (v : Base) : Res (Heap E × Base) :=
  match v with
  | .nil => .panic
  | .sc p => match h.mem p with
    | some (.sc dt _) => let a := h.alloc (.sc dt (old 0)); .ok (a.1, .sc a.2)
    | _ => .panic
  | .tn p => match h.mem p with
    | some (.tn dt s d) =>
      if s = [] then let a := h.alloc (.sc dt (old 0)); .ok (a.1, .sc a.2)
      else let a := h.alloc (.tn dt s ((List.range d.length).map old)); .ok (a.1, .tn a.2)
    | _ => .panic

/-- `dvUnit` (dual.go 153-161). -/
def dvUnit (zero : E) (h : Heap E) : Val → Res (Heap E × Ptr)
  | .dual p => .ok (h, p)
  | .base b => constantDV zero h b

/-- `dvUnitVar` (dual.go 163-168). -/
def dvUnitVar (one : E) (h : Heap E) : Val → Res (Heap E × Ptr)
  | .dual p => .ok (h, p)
  | .base b => variableDV one h b

/-- `dvUnitManaged` (dual.go 183-211). -/
def dvUnitManaged (zero : E) (cpu : Bool) (old : Nat → E) (h : Heap E) (v : Val) : Res (Heap E × Ptr) :=
  if cpu then dvUnit zero h v
  else match v with
    | .dual p => .ok (h, p)
    | .base b => (fromMem h old b).bind fun r => .ok (r.1.alloc (.dv b r.2))

/-- The end of `dvUnitVarManaged` (dual.go 219-249): ones are written into the derivative; among tensors only those of floats and truth values. -/
def fillOne (one : E) (h : Heap E) (p : Ptr) : Res (Heap E × Ptr) :=
  match h.mem p with
  | some (.dv _ (.tn q)) => match h.mem q with
    | some (.tn dt s d) =>
      if dt = .float64 ∨ dt = .float32 ∨ dt = .bool then .ok (h.write q (.tn dt s (d.map fun _ => one)), p) else .err
    | _ => .panic
  | some (.dv _ (.sc q)) => match h.mem q with
    | some (.sc dt _) => .ok (h.write q (.sc dt one), p)
    | _ => .panic
  | some (.dv _ .nil) => .err
  | _ => .panic

/-- `dvUnitVarManaged` (dual.go 213-250). -/
def dvUnitVarManaged (zero one : E) (cpu : Bool) (old : Nat → E) (h : Heap E) (v : Val) : Res (Heap E × Ptr) :=
  (dvUnitManaged zero cpu old h v).bind fun r => fillOne one r.1 r.2

/-! ### On the host -/

/-- On the host the managed constant is the other one. -/
theorem managed_host (zero : E) (old : Nat → E) (h : Heap E) (v : Val) : dvUnitManaged zero true old h v = dvUnit zero h v := by
  simp [dvUnitManaged]

/-- Element types the managed variable can be made of. -/
def Fillable : Deep E → Prop
  | .nil => False
  | .sc _ _ => True
  | .tn dt _ _ => dt = .float64 ∨ dt = .float32 ∨ dt = .bool

theorem fillOne_spec (one : E) (h : Heap E) (w : WF h) (p : Ptr) (v d : Base) (x y : Deep E) (hp : h.mem p = some (.dv v d))
    (hv : denB h v = some x) (hd : denB h d = some y) (hs : ∀ q ∈ footB d, q ∉ footB v) :
    (Fillable y → ∃ h', fillOne one h p = .ok (h', p) ∧ den h' (.dual p) = some (x, some (filled one y)) ∧ h'.next = h.next ∧
      (∀ q ∉ footB d, h'.mem q = h.mem q) ∧ WF h') ∧ (¬ Fillable y → fillOne one h p = .err) := by
  have hwrite : ∀ (q : Ptr) (c : Cell E), q < h.next → WF (h.write q c) := by
    intro q c hq r hr
    rw [write_other _ _ _ _ (by have : h.next ≤ r := hr; omega)]
    exact w r hr
  cases d with
  | nil =>
    have : y = .nil := by simpa [denB] using hd.symm
    subst this
    simp [Fillable, fillOne, hp]
  | sc q =>
    cases hq : h.mem q with
    | none => simp [denB, hq] at hd
    | some c =>
      cases c with
      | tn dt s d => simp [denB, hq] at hd
      | dv v d => simp [denB, hq] at hd
      | sc dt u =>
        have : y = .sc dt u := by simpa [denB, hq] using hd.symm
        subst this
        have hqp : p ≠ q := by rintro rfl; rw [hp] at hq; cases hq
        have hqn : q < h.next := Classical.byContradiction fun c => by rw [w q (by omega)] at hq; cases hq
        refine ⟨fun _ => ⟨h.write q (.sc dt one), by simp [fillOne, hp, hq], ?_, rfl, ?_, hwrite _ _ hqn⟩, fun c => absurd trivial c⟩
        · have e1 : denB (h.write q (.sc dt one)) v = some x := by
            rw [← hv]; exact denB_congr _ _ v fun r hr => write_other _ _ _ _ fun c => hs q (by simp [footB]) (c ▸ hr)
          have e2 : denB (h.write q (.sc dt one)) (.sc q) = some (.sc dt one) := by simp only [denB, write_at]
          simp only [den, write_other _ _ _ _ hqp, hp, e1, e2, filled]
        · intro r hr
          exact write_other _ _ _ _ (by simpa [footB] using hr)
  | tn q =>
    cases hq : h.mem q with
    | none => simp [denB, hq] at hd
    | some c =>
      cases c with
      | sc dt u => simp [denB, hq] at hd
      | dv v d => simp [denB, hq] at hd
      | tn dt s u =>
        have : y = .tn dt s u := by simpa [denB, hq] using hd.symm
        subst this
        have hqp : p ≠ q := by rintro rfl; rw [hp] at hq; cases hq
        have hqn : q < h.next := Classical.byContradiction fun c => by rw [w q (by omega)] at hq; cases hq
        refine ⟨fun hf => ⟨h.write q (.tn dt s (u.map fun _ => one)), ?_, ?_, rfl, ?_, hwrite _ _ hqn⟩, fun hf => ?_⟩
        · have hf' : dt = .float64 ∨ dt = .float32 ∨ dt = .bool := hf
          simp only [fillOne, hp, hq, if_pos hf']
        · have e1 : denB (h.write q (.tn dt s (u.map fun _ => one))) v = some x := by
            rw [← hv]; exact denB_congr _ _ v fun r hr => write_other _ _ _ _ fun c => hs q (by simp [footB]) (c ▸ hr)
          have e2 : denB (h.write q (.tn dt s (u.map fun _ => one))) (.tn q) = some (.tn dt s (List.replicate u.length one)) := by
            simp only [denB, write_at, List.map_const']
          simp only [den, write_other _ _ _ _ hqp, hp, e1, e2, filled]
        · intro r hr
          exact write_other _ _ _ _ (by simpa [footB] using hr)
        · have hf' : ¬ (dt = .float64 ∨ dt = .float32 ∨ dt = .bool) := hf
          simp only [fillOne, hp, hq, if_neg hf']

theorem denB_foot {h : Heap E} (w : WF h) {b : Base} {x : Deep E} (e : denB h b = some x) : ∀ q ∈ footB b, q < h.next := by
  intro q hq
  refine Classical.byContradiction fun c => ?_
  have hn := w q (by omega)
  cases b with
  | nil => simp [footB] at hq
  | sc p => have : q = p := by simpa [footB] using hq
            subst this; simp [denB, hn] at e
  | tn p => have : q = p := by simpa [footB] using hq
            subst this; simp [denB, hn] at e

/-- `dvUnitVarManaged` on the host: derivative one for scalars and for tensors of floats and truth values; tensors of other element types are refused, though
`dvUnitVar` makes their derivative (`variableDV_spec`). -/
theorem managed_var_host (zero one : E) (old : Nat → E) (h : Heap E) (w : WF h) (v : Base) (x : Deep E) (e : denB h v = some x) (hn : v ≠ .nil) :
    (Fillable x → ∃ (h' : Heap E) (p : Ptr), dvUnitVarManaged zero one true old h (.base v) = .ok (h', p) ∧ Ext h h' ∧
      den h' (.dual p) = some (x, some (filled one x))) ∧
    (¬ Fillable x → dvUnitVarManaged zero one true old h (.base v) = .err) := by
  obtain ⟨h1, p, d, c1, c2, c3, c4, c5⟩ := constantDV_spec zero h w v x e hn
  have hv : denB h1 v = some x := c2.denB w v x e
  have hd : denB h1 d = some (filled zero x) := by
    simp only [den, c3, hv] at c4
    cases hd : denB h1 d with
    | none => simp [hd] at c4
    | some y => simp [hd] at c4; rw [c4]
  have hfv := denB_foot w e
  obtain ⟨f1, f2⟩ := fillOne_spec one h1 c2.1 p v d x (filled zero x) c3 hv hd
    (fun q h1 h2 => by have := c5 q h1; have := hfv q h2; omega)
  have hfl : Fillable (filled zero x) ↔ Fillable x := by cases x <;> rfl
  have hff : filled one (filled zero x) = filled one x := by cases x <;> simp [filled]
  constructor
  · intro hf
    obtain ⟨h2, g1, g2, g3, g4, g5⟩ := f1 (hfl.mpr hf)
    refine ⟨h2, p, ?_, ⟨g5, ?_, fun q hq => ?_⟩, by rw [g2, hff]⟩
    · simp only [dvUnitVarManaged, dvUnitManaged, if_true, dvUnit, c1, Res.bind, g1]
    · rw [g3]; exact c2.2.1
    · rw [g4 q (fun hq' => by have := c5 q hq'; omega)]; exact c2.2.2 q hq
  · intro hf
    simp only [dvUnitVarManaged, dvUnitManaged, if_true, dvUnit, c1, Res.bind]
    exact f2 (fun c => hf (hfl.mp c))

/-! ### On a device -/

/-- What the block holds, read as a derivative of `x`. -/
def oldDeriv (old : Nat → E) : Deep E → Deep E
  | .nil => .nil
  | .sc dt _ => .sc dt (old 0)
  | .tn dt s d => if s = [] then .sc dt (old 0) else .tn dt s ((List.range d.length).map old)

theorem fromMem_spec (old : Nat → E) (h : Heap E) (w : WF h) (v : Base) (x : Deep E) (e : denB h v = some x) (hn : v ≠ .nil) :
    ∃ (h' : Heap E) (d : Base), fromMem h old v = .ok (h', d) ∧ Ext h h' ∧ denB h' d = some (oldDeriv old x) ∧ footB d = [h.next] := by
  cases v with
  | nil => exact absurd rfl hn
  | sc p =>
    cases hp : h.mem p with
    | none => simp [denB, hp] at e
    | some c =>
      cases c with
      | tn dt s d => simp [denB, hp] at e
      | dv v d => simp [denB, hp] at e
      | sc dt u =>
        have : x = .sc dt u := by simpa [denB, hp] using e.symm
        subst this
        refine ⟨_, _, by simp only [fromMem, hp]; rfl, alloc_ext h w _, ?_, rfl⟩
        simp only [denB, alloc_at, oldDeriv]
  | tn p =>
    cases hp : h.mem p with
    | none => simp [denB, hp] at e
    | some c =>
      cases c with
      | sc dt u => simp [denB, hp] at e
      | dv v d => simp [denB, hp] at e
      | tn dt s u =>
        have : x = .tn dt s u := by simpa [denB, hp] using e.symm
        subst this
        by_cases hs : s = []
        · refine ⟨_, _, by simp only [fromMem, hp, if_pos hs]; rfl, alloc_ext h w _, ?_, rfl⟩
          simp only [denB, alloc_at, oldDeriv, if_pos hs]
        · refine ⟨_, _, by simp only [fromMem, hp, if_neg hs]; rfl, alloc_ext h w _, ?_, rfl⟩
          simp only [denB, alloc_at, oldDeriv, if_neg hs]

/-- On a device the derivative of a constant is what the block held before. -/
theorem managed_old (zero : E) (old : Nat → E) (h : Heap E) (w : WF h) (v : Base) (x : Deep E) (e : denB h v = some x) (hn : v ≠ .nil) :
    ∃ (h' : Heap E) (p : Ptr) (d : Base), dvUnitManaged zero false old h (.base v) = .ok (h', p) ∧ Ext h h' ∧ h'.mem p = some (.dv v d) ∧
      den h' (.dual p) = some (x, some (oldDeriv old x)) ∧ footB d = [h.next] := by
  obtain ⟨h1, d, f1, f2, f3, f4⟩ := fromMem_spec old h w v x e hn
  have x2 := alloc_ext h1 f2.1 (.dv v d)
  refine ⟨(h1.alloc (.dv v d)).1, (h1.alloc (.dv v d)).2, d, by simp [dvUnitManaged, f1, Res.bind], f2.trans x2, alloc_at _ _, ?_, f4⟩
  have hv := (f2.trans x2).denB w v x e
  have hd := x2.denB f2.1 d _ f3
  simp only [den, alloc_at, hv, hd]

/-- So it is zero exactly if the block held zeroes, for a scalar or a tensor with axes. -/
theorem managed_zero_iff (zero : E) (old : Nat → E) (x : Deep E) (hx : x ≠ .nil) (hs : ∀ dt d, x ≠ .tn dt [] d) :
    oldDeriv old x = filled zero x ↔ ∀ i, i < (match x with | .tn _ _ d => d.length | _ => 1) → old i = zero := by
  cases x with
  | nil => exact absurd rfl hx
  | sc dt u =>
    simp only [oldDeriv, filled, Deep.sc.injEq, true_and]
    exact ⟨fun h i hi => by rw [show i = 0 by omega]; exact h, fun h => h 0 (by omega)⟩
  | tn dt s d =>
    have hs' : s ≠ [] := by rintro rfl; exact hs dt d rfl
    simp only [oldDeriv, if_neg hs', filled, Deep.tn.injEq, true_and]
    rw [List.eq_replicate_iff]
    simp

/-- On a device the derivative of a variable is one where its element type allows it, in a block of its own; a tensor without axes gets a scalar derivative. -/
theorem managed_var_device (zero one : E) (old : Nat → E) (h : Heap E) (w : WF h) (v : Base) (x : Deep E) (e : denB h v = some x) (hn : v ≠ .nil) :
    (Fillable (oldDeriv old x) → ∃ (h' : Heap E) (p : Ptr), dvUnitVarManaged zero one false old h (.base v) = .ok (h', p) ∧ Ext h h' ∧
      den h' (.dual p) = some (x, some (filled one (oldDeriv old x)))) ∧
    (¬ Fillable (oldDeriv old x) → dvUnitVarManaged zero one false old h (.base v) = .err) := by
  obtain ⟨h1, p, d, c1, c2, c3, c4, c5⟩ := managed_old zero old h w v x e hn
  have hv : denB h1 v = some x := c2.denB w v x e
  have hd : denB h1 d = some (oldDeriv old x) := by
    simp only [den, c3, hv] at c4
    cases hd : denB h1 d with
    | none => simp [hd] at c4
    | some y => simp [hd] at c4; rw [c4]
  have hfv := denB_foot w e
  have hn' : ∀ q ∈ footB d, q = h.next := fun q hq => by rw [c5] at hq; simpa using hq
  obtain ⟨f1, f2⟩ := fillOne_spec one h1 c2.1 p v d x _ c3 hv hd
    (fun q h1 h2 => by have := hn' q h1; have := hfv q h2; omega)
  constructor
  · intro hf
    obtain ⟨h2, g1, g2, g3, g4, g5⟩ := f1 hf
    refine ⟨h2, p, ?_, ⟨g5, ?_, fun q hq => ?_⟩, g2⟩
    · simp only [dvUnitVarManaged, c1, Res.bind, g1]
    · rw [g3]; exact c2.2.1
    · rw [g4 q (fun hq' => by have := hn' q hq'; omega)]; exact c2.2.2 q hq
  · intro hf
    simp only [dvUnitVarManaged, c1, Res.bind]
    exact f2 hf

/-- A value that is a dual value already is returned as it is by `dvUnitVar`; `dvUnitVarManaged` overwrites its derivative, on the host and on a device. -/
theorem managed_var_overwrites (zero one : E) (cpu : Bool) (old : Nat → E) (h : Heap E) (w : WF h) (p : Ptr) (v d : Base) (x y : Deep E)
    (hp : h.mem p = some (.dv v d)) (hv : denB h v = some x) (hd : denB h d = some y) (hs : ∀ q ∈ footB d, q ∉ footB v) (hf : Fillable y) :
    dvUnitVar one h (.dual p) = .ok (h, p) ∧ den h (.dual p) = some (x, some y) ∧
    ∃ h', dvUnitVarManaged zero one cpu old h (.dual p) = .ok (h', p) ∧ den h' (.dual p) = some (x, some (filled one y)) := by
  obtain ⟨f1, _⟩ := fillOne_spec one h w p v d x y hp hv hd hs
  obtain ⟨h2, g1, g2, _⟩ := f1 hf
  refine ⟨rfl, by simp only [den, hp, hv, hd], h2, ?_, g2⟩
  cases cpu <;> simp [dvUnitVarManaged, dvUnitManaged, dvUnit, Res.bind, g1]

/-! ### Examples -/

/-- A block that held 5, 6, 7, ... -/
example : ∃ (h' : Heap Int) (p : Ptr) (d : Base), dvUnitManaged 0 false (fun i => (i : Int) + 5) exH (.base (.tn 0)) = .ok (h', p) ∧ Ext exH h' ∧
    h'.mem p = some (.dv (.tn 0) d) ∧
    den h' (.dual p) = some (.tn .float64 [2, 3] [1, 2, 3, 4, 5, 6], some (.tn .float64 [2, 3] [5, 6, 7, 8, 9, 10])) ∧ footB d = [9] :=
  managed_old 0 _ exH exH_wf (.tn 0) _ rfl (by simp)

example : ∃ (h' : Heap Int) (p : Ptr), dvUnitVarManaged 0 1 false (fun i => (i : Int) + 5) exH (.base (.tn 0)) = .ok (h', p) ∧ Ext exH h' ∧
    den h' (.dual p) = some (.tn .float64 [2, 3] [1, 2, 3, 4, 5, 6], some (.tn .float64 [2, 3] [1, 1, 1, 1, 1, 1])) :=
  (managed_var_device 0 1 _ exH exH_wf (.tn 0) _ rfl (by simp)).1 (Or.inl rfl)

example : ∃ (h' : Heap Int) (p : Ptr), dvUnitVarManaged 0 1 true (fun _ => 5) exH (.base (.sc 1)) = .ok (h', p) ∧ Ext exH h' ∧
    den h' (.dual p) = some (.sc .float64 7, some (.sc .float64 1)) :=
  (managed_var_host 0 1 _ exH exH_wf (.sc 1) _ rfl (by simp)).1 trivial

/-- The derivative of a tensor of integers. -/
example : let h : Heap Int := ⟨fun p => if p = 0 then some (.tn .int [2] [3, 4]) else none, 1⟩
    dvUnitVarManaged 0 1 true (fun _ => 5) h (.base (.tn 0)) = .err ∧ (∃ r, variableDV 1 h (.tn 0) = .ok r) := by
  intro h
  have w : WF h := by
    intro p hp
    have : p ≠ 0 := by have : 1 ≤ p := hp; omega
    simp [h, this]
  exact ⟨(managed_var_host 0 1 _ h w (.tn 0) _ rfl (by simp)).2 (by simp [Fillable]),
    let ⟨h', p, _, e, _⟩ := variableDV_spec 1 h w (.tn 0) _ rfl (by simp); ⟨(h', p), e⟩⟩

end Verif.Value
