import Verif.Value.Theorems

/-! `Read` (gorgonia.go 308-318): what the two machines put where the user asked for the value of a node. -/

set_option autoImplicit false

namespace Verif.Value
open Verif.Shape Verif.Types

variable {E : Type}

/-- `readInstr.exec` (vm_tape.go 773-793): `into` is what the user's variable holds, `v` the value in the register. The
result is what it holds afterwards. -/
def readTape (h : Heap E) (into v : Base) : Res (Heap E × Base) :=
  if v = .nil then .err
  else if into ≠ .nil then (copyBase h into v).bind fun r => .ok (r.1, into)
  else cloneBase h v

/-- The read statement of the define-by-run machine (vm_genera.go 415-436): the value bound to the operand, or the value
part of a dual value, is stored itself. -/
def readLisp (h : Heap E) (v : Val) : Option Base :=
  match v with
  | .base b => some b
  | .dual p => match h.mem p with
    | some (.dv b _) => some b
    | _ => none

/-- **C104 (the first read).** On the tape machine the first run puts a copy into the variable: it reads as the value of
the node, lies in memory that was free, and nothing else changes; whatever later happens to other memory, the variable
keeps it. -/
theorem read_first (h : Heap E) (w : WF h) (v : Base) (x : Deep E) (e : denB h v = some x) (hv : v ≠ .nil) :
    ∃ (h' : Heap E) (b : Base), readTape h .nil v = .ok (h', b) ∧ denB h' b = some x ∧ Ext h h' ∧
      (∀ p ∈ footB b, h.next ≤ p) ∧ denB h' v = some x ∧
      ∀ h'' : Heap E, (∀ p ∈ footB b, h''.mem p = h'.mem p) → denB h'' b = some x := by
  obtain ⟨h', b, e1, e2, e3, _, e4⟩ := cloneBase_spec h w v x e hv
  refine ⟨h', b, by simp [readTape, hv, e1], e3, e2, fun p hp => (e4 p hp).1, e2.denB w v x e, fun h'' f => ?_⟩
  rw [← e3]
  exact denB_congr h'' h' b f

/-- **C104 (later reads of tensors).** From the second run on, the elements are copied into the tensor of the first run:
same object, same shape as before, elements of the new value. -/
theorem read_again_tensor (h : Heap E) (p q : Nat) (dt : Dt) (s s' : List Nat) (d d' : List E)
    (hp : h.mem p = some (.tn dt s d)) (hq : h.mem q = some (.tn dt s' d')) (hl : d.length = d'.length) :
    ∃ h' : Heap E, readTape h (.tn q) (.tn p) = .ok (h', .tn q) ∧ denB h' (.tn q) = some (.tn dt s' d) ∧
      ∀ r : Nat, r ≠ q → h'.mem r = h.mem r := by
  obtain ⟨h', e1, e2, e3⟩ := copy_tensor h p q dt s s' d d' hp hq hl
  exact ⟨h', by simp [readTape, e1, Res.bind], e2, e3⟩

/-- **C104 (later reads of scalars).** Likewise for scalars of one type. -/
theorem read_again_scalar (h : Heap E) (p q : Nat) (dt : Dt) (u u' : E) (hp : h.mem p = some (.sc dt u))
    (hq : h.mem q = some (.sc dt u')) :
    ∃ h' : Heap E, readTape h (.sc q) (.sc p) = .ok (h', .sc q) ∧ denB h' (.sc q) = some (.sc dt u) ∧
      ∀ r : Nat, r ≠ q → h'.mem r = h.mem r := by
  obtain ⟨h', e1, e2, e3⟩ := copy_scalar h p q dt u u' hp hq
  exact ⟨h', by simp [readTape, e1, Res.bind], by rw [e2]; simp [denB, hp], e3⟩

/-- **C104 (right in later runs).** So a later read of a tensor gives the value of the node exactly if the variable held a
tensor of the shape of the node's value. -/
theorem read_again_right_iff (h : Heap E) (p q : Nat) (dt : Dt) (s s' : List Nat) (d d' : List E)
    (hp : h.mem p = some (.tn dt s d)) (hq : h.mem q = some (.tn dt s' d')) (hl : d.length = d'.length) :
    (∃ (h' : Heap E) (b : Base), readTape h (.tn q) (.tn p) = .ok (h', b) ∧ denB h' b = denB h (.tn p)) ↔ s' = s := by
  obtain ⟨h', e1, e2, _⟩ := read_again_tensor h p q dt s s' d d' hp hq hl
  have e3 : denB h (.tn p) = some (.tn dt s d) := by simp [denB, hp]
  constructor
  · rintro ⟨h1, b, f1, f2⟩
    rw [e1] at f1
    cases f1
    rw [e2, e3] at f2
    cases f2; rfl
  · rintro rfl
    exact ⟨h', .tn q, e1, by rw [e2, e3]⟩

/-- **C104 (kinds).** A variable that holds a scalar is not filled with a tensor, nor the other way round: the run fails,
for all values. So does a read from an empty register. -/
theorem read_kinds (h : Heap E) (p q : Nat) (into : Base) :
    readTape h (.sc q) (.tn p) = .err ∧ readTape h (.tn q) (.sc p) = .err ∧ readTape h into .nil = .err := by
  refine ⟨?_, ?_, ?_⟩
  · simp [readTape, copyBase, Res.bind]
  · simp [readTape, copyBase, Res.bind]
  · simp [readTape]

/-- **C104 (defect: values kept from earlier runs change).** Two runs with a read of the same variable: what the program
took from the variable after the first run reads as the value of the second run after the second, for all tensors of one
type and size, if the memory of the variable was left alone in between. -/
theorem read_overwrites (h : Heap E) (w : WF h) (p : Nat) (dt : Dt) (s : List Nat) (d : List E) (hp : h.mem p = some (.tn dt s d)) :
    ∃ (h1 : Heap E) (b : Base), readTape h .nil (.tn p) = .ok (h1, b) ∧ denB h1 b = some (.tn dt s d) ∧
      ∀ (h2 : Heap E) (p' : Nat) (s' : List Nat) (d' : List E), (∀ r ∈ footB b, h2.mem r = h1.mem r) →
        h2.mem p' = some (.tn dt s' d') → d'.length = d.length →
        ∃ h3 : Heap E, readTape h2 b (.tn p') = .ok (h3, b) ∧ denB h3 b = some (.tn dt s d') := by
  have e : denB h (.tn p) = some (.tn dt s d) := by simp [denB, hp]
  obtain ⟨h1, b, e1, e2, _, _, _, _⟩ := read_first h w (.tn p) _ e (by simp)
  refine ⟨h1, b, e1, e2, fun h2 p' s' d' hf hp' hl => ?_⟩
  cases b with
  | nil => simp [denB] at e2
  | sc q =>
    cases hc : h1.mem q with
    | none => simp [denB, hc] at e2
    | some c => cases c <;> simp [denB, hc] at e2
  | tn q =>
    have hq1 : h1.mem q = some (.tn dt s d) := by
      cases hc : h1.mem q with
      | none => simp [denB, hc] at e2
      | some c =>
        cases c with
        | tn a b c => simp only [denB, hc, Option.some.injEq, Deep.tn.injEq] at e2; obtain ⟨rfl, rfl, rfl⟩ := e2; rfl
        | sc _ _ => simp [denB, hc] at e2
        | dv _ _ => simp [denB, hc] at e2
    have hq2 : h2.mem q = some (.tn dt s d) := by rw [hf q (by simp [footB]), hq1]
    obtain ⟨h3, f1, f2, _⟩ := read_again_tensor h2 p' q dt s' s d' d hp' hq2 hl
    exact ⟨h3, f1, f2⟩

/-- **C104 (define-by-run).** The define-by-run machine stores the object itself: it reads as the value of the node now,
and it goes on to change with it, whatever is done to memory. -/
theorem read_lisp (h : Heap E) (b : Base) :
    readLisp h (.base b) = some b ∧ (∀ p d, h.mem p = some (.dv b d) → readLisp h (.dual p) = some b) := by
  refine ⟨rfl, fun p d hp => ?_⟩
  simp only [readLisp, hp]

/-- **C104 (the two machines differ).** After a first read, writing another value into the tensor of the node changes what
the variable reads as on the define-by-run machine, and not on the tape machine. -/
theorem read_differs (h : Heap E) (w : WF h) (p : Nat) (dt : Dt) (s : List Nat) (d d' : List E)
    (hp : h.mem p = some (.tn dt s d)) :
    (∃ b, readLisp h (.base (.tn p)) = some b ∧ denB (h.write p (.tn dt s d')) b = some (.tn dt s d')) ∧
    ∃ (h1 : Heap E) (b : Base), readTape h .nil (.tn p) = .ok (h1, b) ∧ denB (h1.write p (.tn dt s d')) b = some (.tn dt s d) := by
  have e : denB h (.tn p) = some (.tn dt s d) := by simp [denB, hp]
  refine ⟨⟨.tn p, rfl, by simp [denB, write_at]⟩, ?_⟩
  obtain ⟨h1, b, e1, _, _, e4, _, e6⟩ := read_first h w (.tn p) _ e (by simp)
  refine ⟨h1, b, e1, e6 _ fun r hr => write_other _ _ _ _ ?_⟩
  have := e4 r hr
  have hlt : p < h.next := by
    by_contra hn
    rw [w p (Nat.le_of_not_lt hn)] at hp
    cases hp
  omega

/-- The heap `exH` of Theorems.lean: reading the 2×3 tensor at 0 into the variable that holds the 3×2 tensor at 5 keeps
the shape 3×2. -/
example : ∃ h', readTape exH (.tn 5) (.tn 0) = .ok (h', .tn 5) ∧ denB h' (.tn 5) = some (.tn .float64 [3, 2] [1, 2, 3, 4, 5, 6]) := by
  obtain ⟨h', e1, e2, _⟩ := read_again_tensor exH 0 5 .float64 [2, 3] [3, 2] [1, 2, 3, 4, 5, 6] _ rfl rfl rfl
  exact ⟨h', e1, e2⟩

example : ∃ (h' : Heap Int) (b : Base), readTape exH .nil (.sc 1) = .ok (h', b) ∧ denB h' b = denB exH (.sc 1) :=
  let ⟨h', b, e1, e2, _⟩ := read_first exH exH_wf (.sc 1) _ rfl (by simp)
  ⟨h', b, e1, e2⟩

end Verif.Value
