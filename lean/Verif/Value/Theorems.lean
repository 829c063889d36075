import Verif.Value.Model
/-!
Cloning, copying, zeroing and comparing values.

`den` reads a value off the heap, down to the numbers; `foot` is the set of addresses it occupies. Both are the specification: a clone reads the same and occupies
other addresses.
-/
set_option autoImplicit false
namespace Verif.Value
open Verif.Shape Verif.Types

local notation "Ptr" => Nat

variable {E : Type}

/-- What a value reads as. -/
inductive Deep (E : Type) where
  | nil
  | sc (dt : Dt) (v : E)
  | tn (dt : Dt) (shape : List Nat) (data : List E)
  deriving DecidableEq

def denB (h : Heap E) : Base → Option (Deep E)
  | .nil => some .nil
  | .sc p => match h.mem p with
    | some (.sc dt v) => some (.sc dt v)
    | _ => none
  | .tn p => match h.mem p with
    | some (.tn dt s d) => some (.tn dt s d)
    | _ => none

/-- A value without derivative, or a dual value with both parts. -/
def den (h : Heap E) : Val → Option (Deep E × Option (Deep E))
  | .base b => (denB h b).map fun x => (x, none)
  | .dual p => match h.mem p with
    | some (.dv v d) => match denB h v, denB h d with
      | some x, some y => some (x, some y)
      | _, _ => none
    | _ => none

def footB : Base → List Ptr
  | .nil => []
  | .sc p => [p]
  | .tn p => [p]

def foot (h : Heap E) : Val → List Ptr
  | .base b => footB b
  | .dual p => p :: match h.mem p with
    | some (.dv v d) => footB v ++ footB d
    | _ => []

/-- Nothing is stored at free addresses. -/
def WF (h : Heap E) : Prop := ∀ p : Ptr, h.next ≤ p → h.mem p = none

/-- Elements and shape agree in size. -/
def zeroed (zero : E) : Deep E → Deep E
  | .nil => .nil
  | .sc dt _ => .sc dt zero
  | .tn dt s d => .tn dt s (List.replicate d.length zero)

/-! ### Reading depends on the footprint only -/

theorem denB_congr (h h' : Heap E) (b : Base) (e : ∀ p ∈ footB b, h.mem p = h'.mem p) : denB h b = denB h' b := by
  cases b with
  | nil => rfl
  | sc p => simp only [denB, e p (by simp [footB])]
  | tn p => simp only [denB, e p (by simp [footB])]

theorem den_congr (h h' : Heap E) (v : Val) (e : ∀ p ∈ foot h v, h.mem p = h'.mem p) : den h v = den h' v := by
  cases v with
  | base b => simp only [den, denB_congr h h' b e]
  | dual p =>
    have ep : h.mem p = h'.mem p := e p (by simp [foot])
    simp only [den, ← ep]
    cases hc : h.mem p with
    | none => rfl
    | some c =>
      cases c with
      | sc dt v => rfl
      | tn dt s d => rfl
      | dv v d =>
        have ev : denB h v = denB h' v := denB_congr h h' v fun q hq => e q (by simp [foot, hc, hq])
        have ed : denB h d = denB h' d := denB_congr h h' d fun q hq => e q (by simp [foot, hc, hq])
        simp only [ev, ed]

theorem foot_congr (h h' : Heap E) (v : Val) (e : ∀ p ∈ foot h v, h.mem p = h'.mem p) : foot h v = foot h' v := by
  cases v with
  | base b => rfl
  | dual p =>
    have ep : h.mem p = h'.mem p := e p (by simp [foot])
    simp only [foot, ← ep]

theorem denB_lt (h : Heap E) (w : WF h) (b : Base) (x : Deep E) (e : denB h b = some x) : ∀ p ∈ footB b, p < h.next := by
  intro p hp
  by_contra hn
  have hm : h.mem p = none := w p (Nat.le_of_not_lt hn)
  cases b with
  | nil => simp [footB] at hp
  | sc q =>
    have hq : p = q := by simpa [footB] using hp
    subst hq; simp [denB, hm] at e
  | tn q =>
    have hq : p = q := by simpa [footB] using hp
    subst hq; simp [denB, hm] at e

theorem den_lt (h : Heap E) (w : WF h) (v : Val) (x : Deep E × Option (Deep E)) (e : den h v = some x) : ∀ p ∈ foot h v, p < h.next := by
  cases v with
  | base b =>
    simp only [den, Option.map_eq_some_iff] at e
    obtain ⟨y, hy, _⟩ := e
    exact denB_lt h w b y hy
  | dual p =>
    intro q hq
    cases hc : h.mem p with
    | none => simp [den, hc] at e
    | some c =>
      have hp : p < h.next := by
        by_contra hn
        rw [w p (Nat.le_of_not_lt hn)] at hc; cases hc
      cases c with
      | sc dt v => simp [den, hc] at e
      | tn dt s d => simp [den, hc] at e
      | dv v d =>
        simp only [den, hc] at e
        simp only [foot, hc, List.mem_cons, List.mem_append] at hq
        cases hv : denB h v with
        | none => simp [hv] at e
        | some a =>
          cases hd : denB h d with
          | none => simp [hv, hd] at e
          | some b =>
            rcases hq with hq | hq | hq
            · exact hq ▸ hp
            · exact denB_lt h w v a hv q hq
            · exact denB_lt h w d b hd q hq

/-! ### Allocation -/

/-- `h'` extends `h`: what was there is unchanged. -/
def Ext (h h' : Heap E) : Prop := WF h' ∧ h.next ≤ h'.next ∧ ∀ p < h.next, h'.mem p = h.mem p

theorem alloc_ext (h : Heap E) (w : WF h) (c : Cell E) : Ext h (h.alloc c).1 := by
  refine ⟨fun p hp => ?_, Nat.le_succ _, fun p hp => ?_⟩
  · simp only [Heap.alloc] at hp ⊢
    rw [if_neg (by omega)]
    exact w p (by omega)
  · simp only [Heap.alloc]
    rw [if_neg (by omega)]

theorem Ext.trans {h h' h'' : Heap E} (a : Ext h h') (b : Ext h' h'') : Ext h h'' :=
  ⟨b.1, Nat.le_trans a.2.1 b.2.1, fun p hp => (b.2.2 p (Nat.lt_of_lt_of_le hp a.2.1)).trans (a.2.2 p hp)⟩

theorem alloc_at (h : Heap E) (c : Cell E) : (h.alloc c).1.mem (h.alloc c).2 = some c := by simp [Heap.alloc]

theorem alloc_next (h : Heap E) (c : Cell E) : (h.alloc c).2 = h.next := rfl

theorem Ext.den {h h' : Heap E} (a : Ext h h') (w : WF h) (v : Val) (x : Deep E × Option (Deep E)) (e : den h v = some x) : den h' v = some x := by
  rw [← e]; exact (den_congr h h' v fun p hp => (a.2.2 p (den_lt h w v x e p hp)).symm).symm

theorem Ext.denB {h h' : Heap E} (a : Ext h h') (w : WF h) (b : Base) (x : Deep E) (e : denB h b = some x) : denB h' b = some x := by
  rw [← e]; exact (denB_congr h h' b fun p hp => (a.2.2 p (denB_lt h w b x e p hp)).symm).symm

/-! ### Cloning -/

theorem cloneBase_spec (h : Heap E) (w : WF h) (b : Base) (x : Deep E) (e : denB h b = some x) (hn : b ≠ .nil) :
    ∃ (h' : Heap E) (b' : Base), cloneBase h b = .ok (h', b') ∧ Ext h h' ∧ denB h' b' = some x ∧ b' ≠ .nil ∧ (∀ p ∈ footB b', h.next ≤ p ∧ p < h'.next) := by
  cases b with
  | nil => exact absurd rfl hn
  | sc p =>
    cases hc : h.mem p with
    | none => simp [denB, hc] at e
    | some c =>
      cases c with
      | tn dt s d => simp [denB, hc] at e
      | dv v d => simp [denB, hc] at e
      | sc dt v =>
        refine ⟨_, _, by simp only [cloneBase, hc]; rfl, alloc_ext h w _, ?_, by simp, ?_⟩
        · simp only [denB, alloc_at]; simpa [denB, hc] using e
        · intro q hq
          have : q = h.next := by simpa [footB, Heap.alloc] using hq
          subst this; simp [Heap.alloc]
  | tn p =>
    cases hc : h.mem p with
    | none => simp [denB, hc] at e
    | some c =>
      cases c with
      | sc dt v => simp [denB, hc] at e
      | dv v d => simp [denB, hc] at e
      | tn dt s d =>
        refine ⟨_, _, by simp only [cloneBase, hc]; rfl, alloc_ext h w _, ?_, by simp, ?_⟩
        · simp only [denB, alloc_at]; simpa [denB, hc] using e
        · intro q hq
          have : q = h.next := by simpa [footB, Heap.alloc] using hq
          subst this; simp [Heap.alloc]

/-- A value that is not nil, nor a dual value of nil, can be cloned: the clone reads the same, occupies only addresses that were free, and everything that was in
memory stays as it was. -/
theorem clone_spec (h : Heap E) (w : WF h) (v : Val) (x : Deep E × Option (Deep E)) (e : den h v = some x) (hn : x.1 ≠ .nil) :
    ∃ (h' : Heap E) (v' : Val), clone h v = .ok (h', v') ∧ Ext h h' ∧ den h' v' = some x ∧ (∀ p ∈ foot h' v', h.next ≤ p) := by
  cases v with
  | base b =>
    simp only [den, Option.map_eq_some_iff] at e
    obtain ⟨y, hy, rfl⟩ := e
    have hb : b ≠ .nil := by
      rintro rfl; simp only [denB, Option.some.injEq] at hy; exact hn hy.symm
    obtain ⟨h', b', e1, e2, e3, _, e4⟩ := cloneBase_spec h w b y hy hb
    refine ⟨h', .base b', by simp [clone, e1, Res.bind], e2, by simp [den, e3], fun p hp => (e4 p hp).1⟩
  | dual p =>
    cases hc : h.mem p with
    | none => simp [den, hc] at e
    | some c =>
      cases c with
      | sc dt v => simp [den, hc] at e
      | tn dt s d => simp [den, hc] at e
      | dv v d =>
        simp only [den, hc] at e
        cases hv : denB h v with
        | none => simp [hv] at e
        | some a =>
          cases hd : denB h d with
          | none => simp [hv, hd] at e
          | some b =>
            simp only [hv, hd, Option.some.injEq] at e
            subst e
            have hvn : v ≠ .nil := by
              rintro rfl; simp only [denB, Option.some.injEq] at hv; exact hn hv.symm
            obtain ⟨h1, v', e1, e2, e3, _, e4⟩ := cloneBase_spec h w v a hv hvn
            by_cases hdn : d = .nil
            · subst hdn
              have hb : b = .nil := by simpa [denB] using hd.symm
              subst hb
              have x2 := alloc_ext h1 e2.1 (.dv v' .nil)
              refine ⟨(h1.alloc (.dv v' .nil)).1, .dual (h1.alloc (.dv v' .nil)).2, ?_, e2.trans x2, ?_, ?_⟩
              · simp [clone, hc, cloneDual, e1, Res.bind]
              · have hx := x2.denB e2.1 v' a e3
                have hz : denB (h1.alloc (.dv v' .nil)).1 .nil = some .nil := rfl
                simp only [den, alloc_at, hx, hz]
              · intro q hq
                simp only [foot, alloc_at, List.mem_cons, List.mem_append] at hq
                rcases hq with hq | hq | hq
                · rw [hq, alloc_next]; exact e2.2.1
                · exact (e4 q hq).1
                · simp [footB] at hq
            · obtain ⟨h2, d', f1, f2, f3, _, f4⟩ := cloneBase_spec h1 e2.1 d b (e2.denB w d b hd) hdn
              have x3 := alloc_ext h2 f2.1 (.dv v' d')
              refine ⟨(h2.alloc (.dv v' d')).1, .dual (h2.alloc (.dv v' d')).2, ?_, (e2.trans f2).trans x3, ?_, ?_⟩
              · simp [clone, hc, cloneDual, e1, f1, Res.bind, hdn]
              · simp only [den, alloc_at, x3.denB f2.1 v' a (f2.denB e2.1 v' a e3), x3.denB f2.1 d' b f3]
              · intro q hq
                simp only [foot, alloc_at, List.mem_cons, List.mem_append] at hq
                rcases hq with hq | hq | hq
                · rw [hq, alloc_next]; exact Nat.le_trans e2.2.1 f2.2.1
                · exact (e4 q hq).1
                · exact Nat.le_trans e2.2.1 (f4 q hq).1

/-- Whatever is later stored in the memory of the clone, the original reads the same. -/
theorem clone_independent (h : Heap E) (w : WF h) (v : Val) (x : Deep E × Option (Deep E)) (e : den h v = some x) (hn : x.1 ≠ .nil) :
    ∃ (h' : Heap E) (v' : Val), clone h v = .ok (h', v') ∧ ∀ h'' : Heap E,
      ((∀ p ∉ foot h' v', h''.mem p = h'.mem p) → den h'' v = some x) ∧ ((∀ p ∉ foot h' v, h''.mem p = h'.mem p) → den h'' v' = some x) := by
  obtain ⟨h', v', e1, e2, e3, e4⟩ := clone_spec h w v x e hn
  have hx : den h' v = some x := e2.den w v x e
  have hfo : foot h' v = foot h v := (foot_congr h h' v fun p hp => (e2.2.2 p (den_lt h w v x e p hp)).symm).symm
  refine ⟨h', v', e1, fun h'' => ⟨fun f => ?_, fun f => ?_⟩⟩
  · rw [← hx]
    refine (den_congr h' h'' v fun p hp => (f p fun hq => ?_).symm).symm
    rw [hfo] at hp
    have := den_lt h w v x e p hp
    have := e4 p hq
    omega
  · rw [← e3]
    refine (den_congr h' h'' v' fun p hp => (f p fun hq => ?_).symm).symm
    rw [hfo] at hq
    have := den_lt h w v x e p hq
    have := e4 p hp
    omega

/-- Nil, and a dual value of nil, cannot be cloned. -/
theorem clone_nil (h : Heap E) (p : Ptr) (d : Base) : clone h (.base .nil) = .err ∧ (h.mem p = some (.dv .nil d) → clone h (.dual p) = .err) := by
  refine ⟨rfl, fun e => ?_⟩
  simp [clone, e, cloneDual, cloneBase, Res.bind]

/-! ### Zeroing -/

theorem write_at (h : Heap E) (p : Ptr) (c : Cell E) : (h.write p c).mem p = some c := by simp [Heap.write]
theorem write_other (h : Heap E) (p q : Ptr) (c : Cell E) (e : q ≠ p) : (h.write p c).mem q = h.mem q := by simp [Heap.write, e]

/-- `ZeroValue` writes zeroes in place, with the element type and the shape as before, and touches nothing else; nil panics. -/
theorem zero_spec (zero : E) (h : Heap E) (b : Base) (x : Deep E) (e : denB h b = some x) (hn : b ≠ .nil) :
    ∃ h' : Heap E, zeroBase zero h b = .ok h' ∧ denB h' b = some (zeroed zero x) ∧ h'.next = h.next ∧ ∀ p ∉ footB b, h'.mem p = h.mem p := by
  cases b with
  | nil => exact absurd rfl hn
  | sc p =>
    cases hc : h.mem p with
    | none => simp [denB, hc] at e
    | some c =>
      cases c with
      | tn dt s d => simp [denB, hc] at e
      | dv v d => simp [denB, hc] at e
      | sc dt v =>
        have hx : x = .sc dt v := by simpa [denB, hc] using e.symm
        subst hx
        refine ⟨h.write p (.sc dt zero), by simp only [zeroBase, hc], by simp [denB, write_at, zeroed], rfl, fun q hq => write_other h p q _ (by simpa [footB] using hq)⟩
  | tn p =>
    cases hc : h.mem p with
    | none => simp [denB, hc] at e
    | some c =>
      cases c with
      | sc dt v => simp [denB, hc] at e
      | dv v d => simp [denB, hc] at e
      | tn dt s d =>
        have hx : x = .tn dt s d := by simpa [denB, hc] using e.symm
        subst hx
        refine ⟨h.write p (.tn dt s (d.map fun _ => zero)), by simp only [zeroBase, hc], by simp [denB, write_at, zeroed, List.map_const'], rfl, fun q hq => write_other h p q _ (by simpa [footB] using hq)⟩

theorem write_wf (h : Heap E) (w : WF h) (p : Ptr) (hp : p < h.next) (c : Cell E) : WF (h.write p c) := by
  intro q hq
  simp only [Heap.write] at hq ⊢
  rw [if_neg (by omega)]
  exact w q hq

theorem zero_wf (zero : E) (h h' : Heap E) (w : WF h) (b : Base) (x : Deep E) (e : denB h b = some x) (z : zeroBase zero h b = .ok h')
    (f : ∀ p ∉ footB b, h'.mem p = h.mem p) (n : h'.next = h.next) : WF h' := by
  intro q hq
  rw [f q fun hm => by have := denB_lt h w b x e q hm; omega]
  exact w q (by omega)

/-- `clone0`: a dual value of the same types and shapes, all zero, elsewhere. -/
theorem clone0_spec (zero : E) (h : Heap E) (w : WF h) (v d : Base) (a b : Deep E) (ev : denB h v = some a) (ed : denB h d = some b)
    (hv : v ≠ .nil) (hd : d ≠ .nil) :
    ∃ (h' : Heap E) (u : Val), clone0 zero h v d = .ok (h', u) ∧ Ext h h' ∧ den h' u = some (zeroed zero a, some (zeroed zero b)) ∧ (∀ p ∈ foot h' u, h.next ≤ p) := by
  obtain ⟨h1, v', e1, e2, e3, e5, e4⟩ := cloneBase_spec h w v a ev hv
  obtain ⟨h2, d', f1, f2, f3, f5, f4⟩ := cloneBase_spec h1 e2.1 d b (e2.denB w d b ed) hd
  have e3' := f2.denB e2.1 v' a e3
  obtain ⟨h3, z1, z2, z3, z4⟩ := zero_spec zero h2 v' a e3' e5
  have hdis : ∀ p ∈ footB d', p ∉ footB v' := fun p hp hq => by have := f4 p hp; have := e4 p hq; omega
  have d3 : denB h3 d' = some b := by
    rw [← f3]; exact denB_congr h3 h2 d' fun p hp => z4 p (hdis p hp)
  have w3 : WF h3 := zero_wf zero h2 h3 f2.1 v' a e3' z1 z4 z3
  obtain ⟨h4, y1, y2, y3, y4⟩ := zero_spec zero h3 d' b d3 f5
  have w4 : WF h4 := zero_wf zero h3 h4 w3 d' b d3 y1 y4 y3
  have v4 : denB h4 v' = some (zeroed zero a) := by
    rw [← z2]; exact denB_congr h4 h3 v' fun p hp => y4 p fun hq => hdis p hq hp
  have x4 := alloc_ext h4 w4 (.dv v' d')
  refine ⟨(h4.alloc (.dv v' d')).1, .dual (h4.alloc (.dv v' d')).2, ?_, ⟨x4.1, ?_, ?_⟩, ?_, ?_⟩
  · simp [clone0, e1, f1, z1, y1, Res.bind]
  · have := e2.2.1; have := f2.2.1; have := x4.2.1; omega
  · intro p hp
    have l1 := e2.2.1
    have l2 := f2.2.1
    rw [x4.2.2 p (by omega), y4 p (fun hq => by have := f4 p hq; omega), z4 p (fun hq => by have := e4 p hq; omega), f2.2.2 p (by omega), e2.2.2 p hp]
  · simp only [den, alloc_at, x4.denB w4 v' _ v4, x4.denB w4 d' _ y2]
  · intro q hq
    simp only [foot, alloc_at, List.mem_cons, List.mem_append] at hq
    rcases hq with hq | hq | hq
    · have := e2.2.1; have := f2.2.1; rw [hq, alloc_next]; omega
    · exact (e4 q hq).1
    · exact Nat.le_trans e2.2.1 (f4 q hq).1

/-- A dual value without derivative, as `dvUnit0` makes them, can be cloned with `Clone` but not with `clone0`. -/
theorem clone0_nil (zero : E) (h : Heap E) (w : WF h) (p : Ptr) (v : Base) (a : Deep E) (hp : h.mem p = some (.dv v .nil)) (ev : denB h v = some a) (hv : v ≠ .nil) :
    clone0 zero h v .nil = .err ∧ ∃ r : Heap E × Val, clone h (.dual p) = .ok r := by
  obtain ⟨h1, v', e1, _⟩ := cloneBase_spec h w v a ev hv
  constructor
  · simp only [clone0, e1, Res.bind]; rfl
  · simp [clone, hp, cloneDual, e1, Res.bind]

/-! ### Copying -/

/-- `Copy` between scalars of one type: the destination reads as the source did; nothing else changes. -/
theorem copy_scalar (h : Heap E) (p q : Ptr) (dt : Dt) (v u : E) (hp : h.mem p = some (.sc dt v)) (hq : h.mem q = some (.sc dt u)) :
    ∃ h' : Heap E, copyBase h (.sc q) (.sc p) = .ok (h', .sc q) ∧ denB h' (.sc q) = denB h (.sc p) ∧ ∀ r : Ptr, r ≠ q → h'.mem r = h.mem r := by
  refine ⟨h.write q (.sc dt v), by simp [copyBase, hp, hq], by simp [denB, write_at, hp], fun r hr => write_other h q r _ hr⟩

/-- `Copy` between tensors of one element type and size: the elements are copied, the destination keeps its shape. -/
theorem copy_tensor (h : Heap E) (p q : Ptr) (dt : Dt) (s s' : List Nat) (d d' : List E) (hp : h.mem p = some (.tn dt s d)) (hq : h.mem q = some (.tn dt s' d'))
    (hl : d.length = d'.length) :
    ∃ h' : Heap E, copyBase h (.tn q) (.tn p) = .ok (h', .tn q) ∧ denB h' (.tn q) = some (.tn dt s' d) ∧ ∀ r : Ptr, r ≠ q → h'.mem r = h.mem r := by
  refine ⟨h.write q (.tn dt s' d), by simp [copyBase, copyTensor, hp, hq, hl, Res.bind], by simp [denB, write_at], fun r hr => write_other h q r _ hr⟩

/-- A scalar is not copied into a tensor, nor a tensor into a scalar, nor a scalar into a scalar of another type: an error each time. -/
theorem copy_kinds (h : Heap E) (p q : Ptr) (dt dt' : Dt) (v u : E) :
    copyBase h (.sc q) (.tn p) = .err ∧ copyBase h (.tn q) (.sc p) = .err ∧
    (h.mem p = some (.sc dt v) → h.mem q = some (.sc dt' u) → dt ≠ dt' → copyBase h (.sc q) (.sc p) = .err) := by
  refine ⟨rfl, rfl, fun a b c => ?_⟩
  simp [copyBase, a, b, c]

/-! ### Binding by copy -/

/-- `bindCopy` into a node without value: the node gets a copy of its own. -/
theorem bindCopy_fresh (h : Heap E) (w : WF h) (n : Node) (hb : n.bound = .base .nil) (v : Val) (x : Deep E × Option (Deep E)) (e : den h v = some x) (hn : x.1 ≠ .nil) :
    ∃ (h' : Heap E) (n' : Node), bindCopy h n v = .ok (h', n') ∧ den h' n'.bound = some x ∧ den h' v = some x ∧ (∀ p ∈ foot h' n'.bound, p ∉ foot h' v) := by
  obtain ⟨h', v', e1, e2, e3, e4⟩ := clone_spec h w v x e hn
  have hfo : foot h' v = foot h v := (foot_congr h h' v fun p hp => (e2.2.2 p (den_lt h w v x e p hp)).symm).symm
  refine ⟨h', { n with bound := v' }, by simp [bindCopy, hb, e1, Res.bind], e3, e2.den w v x e, fun p hp hq => ?_⟩
  rw [hfo] at hq
  have := den_lt h w v x e p hq
  have := e4 p hp
  omega

/-- `bindCopy` of a scalar or tensor into a node that has one of the same type, shape and size, or a dual value of one: the node's value reads as the given one, in the
memory it had; a derivative keeps its value. Needed: the given value, the node's value and its derivative lie apart. -/
theorem bindCopy_partial (h : Heap E) (n : Node) (b d c : Base) (x y : Deep E) (hb : n.bound = .base b ∨ ∃ p : Ptr, n.bound = .dual p ∧ h.mem p = some (.dv b d))
    (eb : denB h b = some x) (ec : denB h c = some y) (hn : b ≠ .nil)
    (hs : match x, y with
      | .sc dt _, .sc dt' _ => dt = dt'
      | .tn dt s u, .tn dt' s' u' => dt = dt' ∧ s = s' ∧ u.length = u'.length
      | _, _ => False) (z : Deep E) (ed : denB h d = some z)
    (a1 : ∀ p ∈ footB c, p ∉ footB b) (a2 : ∀ p ∈ footB d, p ∉ footB b) :
    ∃ h' : Heap E, bindCopy h n (.base c) = .ok (h', n) ∧ denB h' b = some y ∧ denB h' c = some y ∧ denB h' d = some z ∧
      (n.bound = .base b → den h' n.bound = some (y, none)) ∧ (n.bound ≠ .base b → den h' n.bound = some (y, some z)) := by
  have key : ∃ h' : Heap E, copyBase h b c = .ok (h', b) ∧ denB h' b = some y ∧ ∀ p ∉ footB b, h'.mem p = h.mem p := by
    cases b with
    | nil => exact absurd rfl hn
    | sc q =>
      cases hq : h.mem q with
      | none => simp [denB, hq] at eb
      | some cl =>
        cases cl with
        | tn dt s u => simp [denB, hq] at eb
        | dv v u => simp [denB, hq] at eb
        | sc dt u =>
          have hx : x = .sc dt u := by simpa [denB, hq] using eb.symm
          subst hx
          cases c with
          | nil => simp only [denB, Option.some.injEq] at ec; subst ec; exact hs.elim
          | tn p =>
            cases hp : h.mem p with
            | none => simp [denB, hp] at ec
            | some cl =>
              cases cl with
              | tn dt' s' u' => simp only [denB, hp, Option.some.injEq] at ec; subst ec; exact hs.elim
              | sc dt' u' => simp [denB, hp] at ec
              | dv v u' => simp [denB, hp] at ec
          | sc p =>
            cases hp : h.mem p with
            | none => simp [denB, hp] at ec
            | some cl =>
              cases cl with
              | tn dt' s' u' => simp [denB, hp] at ec
              | dv v u' => simp [denB, hp] at ec
              | sc dt' u' =>
                have hy : y = .sc dt' u' := by simpa [denB, hp] using ec.symm
                subst hy
                have hdt : dt = dt' := hs
                subst hdt
                obtain ⟨h', k1, k2, k3⟩ := copy_scalar h p q dt u' u hp hq
                exact ⟨h', k1, by rw [k2, ec], fun r hr => k3 r (by simpa [footB] using hr)⟩
    | tn q =>
      cases hq : h.mem q with
      | none => simp [denB, hq] at eb
      | some cl =>
        cases cl with
        | sc dt u => simp [denB, hq] at eb
        | dv v u => simp [denB, hq] at eb
        | tn dt s u =>
          have hx : x = .tn dt s u := by simpa [denB, hq] using eb.symm
          subst hx
          cases c with
          | nil => simp only [denB, Option.some.injEq] at ec; subst ec; exact hs.elim
          | sc p =>
            cases hp : h.mem p with
            | none => simp [denB, hp] at ec
            | some cl =>
              cases cl with
              | sc dt' u' => simp only [denB, hp, Option.some.injEq] at ec; subst ec; exact hs.elim
              | tn dt' s' u' => simp [denB, hp] at ec
              | dv v u' => simp [denB, hp] at ec
          | tn p =>
            cases hp : h.mem p with
            | none => simp [denB, hp] at ec
            | some cl =>
              cases cl with
              | sc dt' u' => simp [denB, hp] at ec
              | dv v u' => simp [denB, hp] at ec
              | tn dt' s' u' =>
                have hy : y = .tn dt' s' u' := by simpa [denB, hp] using ec.symm
                subst hy
                obtain ⟨hdt, hss, hl⟩ : dt = dt' ∧ s = s' ∧ u.length = u'.length := hs
                subst hdt hss
                obtain ⟨h', k1, k2, k3⟩ := copy_tensor h p q dt s s u' u hp hq hl.symm
                exact ⟨h', k1, k2, fun r hr => k3 r (by simpa [footB] using hr)⟩
  obtain ⟨h', k1, k2, k3⟩ := key
  have kc : denB h' c = some y := by rw [← ec]; exact denB_congr h' h c fun p hp => k3 p (a1 p hp)
  have kd : denB h' d = some z := by rw [← ed]; exact denB_congr h' h d fun p hp => k3 p (a2 p hp)
  rcases hb with hb | ⟨p, hb, hp⟩
  · refine ⟨h', ?_, k2, kc, kd, fun _ => by simp [hb, den, k2], fun f => absurd hb f⟩
    rcases n with ⟨t, sh, bo, i, ra⟩
    simp only at hb
    subst hb
    cases b with
    | nil => exact absurd rfl hn
    | sc q => simp [bindCopy, k1, Res.bind]
    | tn q => simp [bindCopy, k1, Res.bind]
  · have hpb : p ∉ footB b := by
      intro hm
      cases b with
      | nil => exact absurd rfl hn
      | sc q => have : p = q := by simpa [footB] using hm
                subst this; simp [denB, hp] at eb
      | tn q => have : p = q := by simpa [footB] using hm
                subst this; simp [denB, hp] at eb
    have hp' : h'.mem p = some (.dv b d) := by rw [k3 p hpb, hp]
    have same : ∀ r : Ptr, (h'.write p (.dv b d)).mem r = h'.mem r := by
      intro r
      by_cases hr : r = p
      · subst hr; rw [write_at, hp']
      · exact write_other h' p r _ hr
    have ds : ∀ b' : Base, denB (h'.write p (.dv b d)) b' = denB h' b' := fun b' => denB_congr _ _ b' fun r _ => same r
    refine ⟨h'.write p (.dv b d), by simp [bindCopy, hb, hp, k1, Res.bind], by rw [ds, k2], by rw [ds, kc], by rw [ds, kd], ?_, ?_⟩
    · intro f; rw [hb] at f; cases f
    · intro _; simp only [hb, den, write_at, ds, k2, kd]

/-- A random node that has a dual value, given another dual value: it does not copy, the two share the memory of the value from then on. -/
theorem bindCopy_random_aliases (h : Heap E) (n : Node) (p q : Ptr) (b d b' d' : Base) (hb : n.bound = .dual p) (hr : n.random = true) (hpq : q ≠ p)
    (hp : h.mem p = some (.dv b d)) (hq : h.mem q = some (.dv b' d')) :
    ∃ h' : Heap E, bindCopy h n (.dual q) = .ok (h', n) ∧ h'.mem p = some (.dv b' d) ∧ h'.mem q = some (.dv b' d') := by
  refine ⟨h.write p (.dv b' d), by simp [bindCopy, hb, hp, hpq, hr, hq], write_at _ _ _, by rw [write_other _ _ _ _ hpq, hq]⟩

/-- Other nodes reject it. -/
theorem bindCopy_dual (h : Heap E) (n : Node) (p q : Ptr) (b d : Base) (hb : n.bound = .dual p) (hr : n.random = false) (hpq : q ≠ p) (hp : h.mem p = some (.dv b d)) :
    bindCopy h n (.dual q) = .err := by
  simp [bindCopy, hb, hp, hpq, hr]

/-! ### An example heap -/

/-- Address 0: a 2×3 tensor; 1: a scalar; 2: a tensor (2×3) of ones; 3: the dual value of 0 and 2; 4: the dual value of 1 without derivative; 5: 3×2; 6: vector of
three; 7: column of three; 8: row of three. -/
def exH : Heap Int where
  mem := fun p => match p with
    | 0 => some (.tn .float64 [2, 3] [1, 2, 3, 4, 5, 6])
    | 1 => some (.sc .float64 7)
    | 2 => some (.tn .float64 [2, 3] [1, 1, 1, 1, 1, 1])
    | 3 => some (.dv (.tn 0) (.tn 2))
    | 4 => some (.dv (.sc 1) .nil)
    | 5 => some (.tn .float64 [3, 2] [1, 2, 3, 4, 5, 6])
    | 6 => some (.tn .float64 [3] [1, 2, 3])
    | 7 => some (.tn .float64 [3, 1] [1, 2, 3])
    | 8 => some (.tn .float64 [1, 3] [1, 2, 3])
    | _ => none
  next := 9

theorem exH_wf : WF exH := by
  intro p hp
  simp only [exH] at hp ⊢
  match p, hp with
  | p + 9, _ => rfl

example : ∃ (h' : Heap Int) (v' : Val), clone exH (.dual 3) = .ok (h', v') ∧ Ext exH h' ∧
    den h' v' = some (.tn .float64 [2, 3] [1, 2, 3, 4, 5, 6], some (.tn .float64 [2, 3] [1, 1, 1, 1, 1, 1])) ∧ (∀ p ∈ foot h' v', exH.next ≤ p) :=
  clone_spec exH exH_wf (.dual 3) _ rfl (by simp)
example : ∃ (h' : Heap Int) (v' : Val), clone exH (.dual 3) = .ok (h', v') ∧ ∀ h'' : Heap Int,
      ((∀ p ∉ foot h' v', h''.mem p = h'.mem p) → den h'' (.dual 3) = some (.tn .float64 [2, 3] [1, 2, 3, 4, 5, 6], some (.tn .float64 [2, 3] [1, 1, 1, 1, 1, 1]))) ∧
      ((∀ p ∉ foot h' (.dual 3), h''.mem p = h'.mem p) → den h'' v' = some (.tn .float64 [2, 3] [1, 2, 3, 4, 5, 6], some (.tn .float64 [2, 3] [1, 1, 1, 1, 1, 1]))) :=
  clone_independent exH exH_wf (.dual 3) _ rfl (by simp)
example : ∃ h' : Heap Int, zeroBase 0 exH (.tn 0) = .ok h' ∧ denB h' (.tn 0) = some (.tn .float64 [2, 3] [0, 0, 0, 0, 0, 0]) ∧ h'.next = 9 ∧
    ∀ p ∉ footB (.tn 0), h'.mem p = exH.mem p := zero_spec 0 exH (.tn 0) (.tn .float64 [2, 3] [1, 2, 3, 4, 5, 6]) rfl (by simp)
example : clone0 0 exH (.sc 1) .nil = .err := (clone0_nil 0 exH exH_wf 4 (.sc 1) (.sc .float64 7) rfl rfl (by simp)).1
/-- Copying a 2×3 tensor into a 3×2 one succeeds; the destination is not equal to the source. -/
example : ∃ h' : Heap Int, copyBase exH (.tn 5) (.tn 0) = .ok (h', .tn 5) ∧ eqBase h' (.tn 5) (.tn 0) = .ok false := ⟨_, rfl, by decide⟩
example : ∃ h' : Heap Int, bindCopy exH { bound := .dual 3 } (.base (.tn 2)) = .ok (h', { bound := .dual 3 }) ∧
    denB h' (.tn 0) = some (.tn .float64 [2, 3] [1, 1, 1, 1, 1, 1]) := ⟨_, rfl, rfl⟩

end Verif.Value
