import Verif.Value.Theorems
/-!
Equality and closeness of values, and the constants of a graph.
-/
set_option autoImplicit false
namespace Verif.Value
open Verif.Shape Verif.Types

local notation "Ptr" => Nat

variable {E : Type} [DecidableEq E]

/-- Equal up to what `Shape.Eq` overlooks: that a vector is a column or a row. -/
def Alike : Deep E → Deep E → Prop
  | .nil, .nil => True
  | .sc dt v, .sc dt' v' => dt = dt' ∧ v = v'
  | .tn dt s d, .tn dt' s' d' => dt = dt' ∧ shapeEq s s' = true ∧ d = d'
  | _, _ => False

theorem shapeEq_refl (s : List Nat) : shapeEq s s = true := by
  match s with
  | [] => rfl
  | [_] => simp [shapeEq]
  | [_, _] => simp [shapeEq]
  | _ :: _ :: _ :: _ => simp [shapeEq]

theorem shapeEq_comm (s t : List Nat) : shapeEq s t = shapeEq t s := by
  match s, t with
  | [], [] => rfl
  | [], _ :: _ => simp [shapeEq]
  | [_], [] => simp [shapeEq]
  | [_], [_] => simp [shapeEq, eq_comm]
  | [_], [_, _] => simp [shapeEq]
  | [_], _ :: _ :: _ :: _ => simp [shapeEq]
  | [_, _], [] => simp [shapeEq]
  | [_, _], [_] => simp [shapeEq]
  | [_, _], [_, _] => simp only [shapeEq]; exact decide_eq_decide.mpr eq_comm
  | [_, _], _ :: _ :: _ :: _ => simp [shapeEq]
  | _ :: _ :: _ :: _, [] => simp [shapeEq]
  | _ :: _ :: _ :: _, [_] => simp [shapeEq]
  | _ :: _ :: _ :: _, [_, _] => simp [shapeEq]
  | _ :: _ :: _ :: _, _ :: _ :: _ :: _ => simp only [shapeEq]; exact decide_eq_decide.mpr eq_comm

/-- `ValueEq` of scalars and tensors: it answers, and the answer is right, up to `Shape.Eq`; except when only the first one is nil: then it panics. -/
theorem eqBase_spec (h : Heap E) (a b : Base) (x y : Deep E) (ea : denB h a = some x) (eb : denB h b = some y) :
    (a = .nil ∧ b ≠ .nil ∧ eqBase h a b = .panic) ∨ ((a ≠ .nil ∨ b = .nil) ∧ ∃ r : Bool, eqBase h a b = .ok r ∧ (r = true ↔ Alike x y)) := by
  cases a with
  | nil =>
    have hx : x = .nil := by simpa [denB] using ea.symm
    subst hx
    cases b with
    | nil =>
      have hy : y = .nil := by simpa [denB] using eb.symm
      subst hy
      exact Or.inr ⟨Or.inr rfl, true, rfl, by simp [Alike]⟩
    | sc q => exact Or.inl ⟨rfl, by simp, rfl⟩
    | tn q => exact Or.inl ⟨rfl, by simp, rfl⟩
  | sc p =>
    refine Or.inr ⟨Or.inl (by simp), ?_⟩
    cases hp : h.mem p with
    | none => simp [denB, hp] at ea
    | some c =>
      cases c with
      | tn dt s d => simp [denB, hp] at ea
      | dv v d => simp [denB, hp] at ea
      | sc dt v =>
        have hx : x = .sc dt v := by simpa [denB, hp] using ea.symm
        subst hx
        cases b with
        | nil =>
          have hy : y = .nil := by simpa [denB] using eb.symm
          subst hy
          exact ⟨false, rfl, by simp [Alike]⟩
        | tn q =>
          refine ⟨false, rfl, ?_⟩
          cases hq : h.mem q with
          | none => simp [denB, hq] at eb
          | some c =>
            cases c with
            | sc dt s => simp [denB, hq] at eb
            | dv v d => simp [denB, hq] at eb
            | tn dt' s' d' =>
              have hy : y = .tn dt' s' d' := by simpa [denB, hq] using eb.symm
              subst hy; simp [Alike]
        | sc q =>
          cases hq : h.mem q with
          | none => simp [denB, hq] at eb
          | some c =>
            cases c with
            | tn dt' s' d' => simp [denB, hq] at eb
            | dv v d => simp [denB, hq] at eb
            | sc dt' v' =>
              have hy : y = .sc dt' v' := by simpa [denB, hq] using eb.symm
              subst hy
              refine ⟨_, by simp only [eqBase, hp, hq]; rfl, ?_⟩
              simp only [Bool.and_eq_true, Bool.or_eq_true, decide_eq_true_eq, Alike]
              refine and_congr_right fun _ => ⟨fun e => ?_, Or.inr⟩
              rcases e with e | e
              · subst e; rw [hp] at hq; cases hq; rfl
              · exact e
  | tn p =>
    refine Or.inr ⟨Or.inl (by simp), ?_⟩
    cases hp : h.mem p with
    | none => simp [denB, hp] at ea
    | some c =>
      cases c with
      | sc dt v => simp [denB, hp] at ea
      | dv v d => simp [denB, hp] at ea
      | tn dt s d =>
        have hx : x = .tn dt s d := by simpa [denB, hp] using ea.symm
        subst hx
        cases b with
        | nil =>
          have hy : y = .nil := by simpa [denB] using eb.symm
          subst hy
          exact ⟨false, rfl, by simp [Alike]⟩
        | sc q =>
          refine ⟨false, rfl, ?_⟩
          cases hq : h.mem q with
          | none => simp [denB, hq] at eb
          | some c =>
            cases c with
            | tn dt s d => simp [denB, hq] at eb
            | dv v d => simp [denB, hq] at eb
            | sc dt' v' =>
              have hy : y = .sc dt' v' := by simpa [denB, hq] using eb.symm
              subst hy; simp [Alike]
        | tn q =>
          cases hq : h.mem q with
          | none => simp [denB, hq] at eb
          | some c =>
            cases c with
            | sc dt' v' => simp [denB, hq] at eb
            | dv v d => simp [denB, hq] at eb
            | tn dt' s' d' =>
              have hy : y = .tn dt' s' d' := by simpa [denB, hq] using eb.symm
              subst hy
              refine ⟨_, by simp only [eqBase, hp, hq]; rfl, ?_⟩
              simp only [Bool.and_eq_true, Bool.or_eq_true, decide_eq_true_eq, Alike]
              refine ⟨fun e => ?_, fun e => Or.inr ⟨⟨e.1, e.2.1⟩, e.2.2⟩⟩
              rcases e with e | e
              · subst e; rw [hp] at hq; cases hq; exact ⟨rfl, shapeEq_refl s, rfl⟩
              · exact ⟨e.1.1, e.1.2, e.2⟩

/-- A value equals itself and its clones. -/
theorem alike_refl (x : Deep E) : Alike x x := by
  cases x <;> simp [Alike, shapeEq_refl]

theorem alike_comm (x y : Deep E) : Alike x y ↔ Alike y x := by
  cases x <;> cases y <;> simp only [Alike, shapeEq_comm, eq_comm]

/-- `ValueEq` of dual values whose parts can be compared: both parts are alike. It panics when the second one has no derivative and the first one has. -/
theorem valueEq_dual (h : Heap E) (p q : Ptr) (v d v' d' : Base) (x y x' y' : Deep E) (hpq : p ≠ q) (hp : h.mem p = some (.dv v d)) (hq : h.mem q = some (.dv v' d'))
    (e1 : denB h v = some x) (e2 : denB h d = some y) (e3 : denB h v' = some x') (e4 : denB h d' = some y') (hv : v ≠ .nil) (hv' : v' ≠ .nil) :
    (d' = .nil ∧ d ≠ .nil ∧ valueEq h (.dual p) (.dual q) = .panic) ∨
    ((d' ≠ .nil ∨ d = .nil) ∧ ∃ r : Bool, valueEq h (.dual p) (.dual q) = .ok r ∧ (r = true ↔ Alike x x' ∧ Alike y y')) := by
  rcases eqBase_spec h v' v x' x e3 e1 with ⟨a, _⟩ | ⟨_, r, r1, r2⟩
  · exact absurd a hv'
  · rcases eqBase_spec h d' d y' y e4 e2 with ⟨a, b, c⟩ | ⟨a, r', r3, r4⟩
    · exact Or.inl ⟨a, b, by simp [valueEq, hpq.symm, hp, hq, r1, c, Res.bind]⟩
    · refine Or.inr ⟨a, r && r', by simp [valueEq, hpq.symm, hp, hq, r1, r3, Res.bind], ?_⟩
      rw [Bool.and_eq_true, r2, r4, alike_comm x, alike_comm y]

/-- So equality is not symmetric: compared one way round the two values are different, the other way round the comparison panics. -/
theorem valueEq_asymmetric (h : Heap E) (b : Base) (x : Deep E) (e : denB h b = some x) (hb : b ≠ .nil) :
    valueEq h (.base b) (.base .nil) = .ok false ∧ valueEq h (.base .nil) (.base b) = .panic := by
  cases b with
  | nil => exact absurd rfl hb
  | sc p => exact ⟨rfl, rfl⟩
  | tn p => exact ⟨rfl, rfl⟩

/-- Nor is it transitive: a column and a row of three equal the vector of three, not each other. -/
theorem valueEq_not_trans : valueEq exH (.base (.tn 7)) (.base (.tn 6)) = .ok true ∧ valueEq exH (.base (.tn 6)) (.base (.tn 8)) = .ok true ∧
    valueEq exH (.base (.tn 7)) (.base (.tn 8)) = .ok false := by decide

/-! ### Closeness -/

/-- Two tensors of one floating-point type are close exactly when they have equally many elements, close one by one. The shapes do not matter. -/
theorem close_tensor (close : E → E → Bool) (h : Heap E) (p q : Ptr) (dt : Dt) (hf : dt = .float64 ∨ dt = .float32) (s s' : List Nat) (d d' : List E)
    (hp : h.mem p = some (.tn dt s d)) (hq : h.mem q = some (.tn dt s' d')) :
    ∃ r : Bool, valueClose close h (.base (.tn p)) (.base (.tn q)) = .ok r ∧
      (r = true ↔ d.length = d'.length ∧ ∀ (i : Nat) (u u' : E), d[i]? = some u → d'[i]? = some u' → close u u' = true) := by
  refine ⟨_, by simp only [valueClose, hp, hq]; rfl, ?_⟩
  simp only [closeTensor, decide_true, if_pos hf, Bool.and_eq_true, Bool.true_and, decide_eq_true_eq, List.all_eq_true]
  refine and_congr_right fun hl => ⟨fun e i u u' a b => ?_, fun e z hz => ?_⟩
  · refine e (u, u') (List.mem_of_getElem? (i := i) ?_)
    rw [List.getElem?_zip_eq_some]; exact ⟨a, b⟩
  · obtain ⟨i, hi⟩ := List.getElem?_of_mem hz
    rw [List.getElem?_zip_eq_some] at hi
    exact e i _ _ hi.1 hi.2

/-- Equal values are close, if the comparison of numbers is reflexive. -/
theorem eq_close (close : E → E → Bool) (hr : ∀ u : E, close u u = true) (h : Heap E) (a b : Base) (e : valueEq h (.base a) (.base b) = .ok true) :
    valueClose close h (.base a) (.base b) = .ok true := by
  cases a with
  | nil =>
    cases b with
    | nil => rfl
    | sc q => simp [valueEq, eqBase] at e
    | tn q => simp [valueEq, eqBase] at e
  | sc p =>
    cases b with
    | nil => simp [valueEq, eqBase] at e
    | tn q => simp [valueEq, eqBase] at e
    | sc q =>
      simp only [valueEq, eqBase] at e
      split at e
      · rename_i dt v dt' v' h1 h2
        simp only [Res.ok.injEq, Bool.and_eq_true, Bool.or_eq_true, decide_eq_true_eq] at e
        obtain ⟨e1, e2⟩ := e
        have hv : v = v' := by
          rcases e2 with e2 | e2
          · subst e2; rw [h1] at h2; cases h2; rfl
          · exact e2
        subst e1 hv
        simp only [valueClose, h1, h2, closeScalar, decide_true, Bool.true_and, hr, Bool.or_true, ite_self]
      · cases e
  | tn p =>
    cases b with
    | nil => simp [valueEq, eqBase] at e
    | sc q => simp [valueEq, eqBase] at e
    | tn q =>
      simp only [valueEq, eqBase] at e
      split at e
      · rename_i dt s d dt' s' d' h1 h2
        simp only [Res.ok.injEq, Bool.and_eq_true, Bool.or_eq_true, decide_eq_true_eq] at e
        have hv : dt = dt' ∧ shapeEq s s' = true ∧ d = d' := by
          rcases e with e | e
          · subst e; rw [h1] at h2; cases h2; exact ⟨rfl, shapeEq_refl s, rfl⟩
          · exact ⟨e.1.1, e.1.2, e.2⟩
        obtain ⟨rfl, e2, rfl⟩ := hv
        have hall : ((d.zip d).all fun e => close e.1 e.2) = true := by
          rw [List.all_eq_true]
          intro z hz
          obtain ⟨i, hi⟩ := List.getElem?_of_mem hz
          rw [List.getElem?_zip_eq_some] at hi
          have := hi.1.symm.trans hi.2
          simp only [Option.some.injEq] at this
          rw [this]; exact hr _
        simp only [valueClose, h1, h2, closeTensor, decide_true, Bool.true_and, hall, e2, Bool.or_true, ite_self]
      · cases e

/-- Close tensors need not have the same shape: whatever the two shapes, tensors with the same numbers are close. -/
theorem close_ignores_shape (close : E → E → Bool) (hr : ∀ u : E, close u u = true) (h : Heap E) (p q : Ptr) (dt : Dt) (hf : dt = .float64 ∨ dt = .float32)
    (s s' : List Nat) (d : List E) (hp : h.mem p = some (.tn dt s d)) (hq : h.mem q = some (.tn dt s' d)) :
    valueClose close h (.base (.tn p)) (.base (.tn q)) = .ok true := by
  obtain ⟨r, e1, e2⟩ := close_tensor close h p q dt hf s s' d d hp hq
  have : r = true := e2.mpr ⟨rfl, fun i u u' a b => by rw [a] at b; cases b; exact hr u⟩
  rw [e1, this]

example : valueClose (fun a b : Int => decide (a = b)) exH (.base (.tn 0)) (.base (.tn 5)) = .ok true ∧ valueEq exH (.base (.tn 0)) (.base (.tn 5)) = .ok false :=
  ⟨close_ignores_shape _ (by simp) exH 0 5 .float64 (Or.inl rfl) [2, 3] [3, 2] [1, 2, 3, 4, 5, 6] rfl rfl, by decide⟩

/-- Dual values have no closeness: the comparison panics, also of a dual value with itself. -/
theorem close_dual (close : E → E → Bool) (h : Heap E) (p : Ptr) (w : Val) : valueClose close h (.dual p) w = .panic := rfl

example : valueEq exH (.dual 3) (.dual 3) = .ok true ∧ valueClose (fun a b : Int => decide (a = b)) exH (.dual 3) (.dual 3) = .panic := ⟨by decide, rfl⟩

/-! ### Constants -/

/-- `ExprGraph.Constant` (graph.go 299-308): the first constant of the graph that equals the value, or a new one; `cs` are the values of the graph's constants, the
answer is the value of the node returned. -/
def constant (h : Heap E) (v : Val) : List Val → Res Val
  | [] => .ok v
  | c :: cs => (valueEq h c v).bind fun e => if e then .ok c else constant h v cs

/-- The constant returned is alike to the one asked for. -/
theorem constant_alike (h : Heap E) (b : Base) (y : Deep E) (eb : denB h b = some y) (cs : List Base)
    (hcs : ∀ c ∈ cs, c ≠ .nil ∧ ∃ x : Deep E, denB h c = some x) :
    ∃ (c : Base) (x : Deep E), constant h (.base b) (cs.map Val.base) = .ok (.base c) ∧ denB h c = some x ∧ Alike x y ∧ (c ∈ cs ∨ c = b) := by
  induction cs with
  | nil => exact ⟨b, y, rfl, eb, alike_refl y, Or.inr rfl⟩
  | cons c cs ih =>
    obtain ⟨hc, x, hx⟩ := hcs c (by simp)
    rcases eqBase_spec h c b x y hx eb with ⟨a, _⟩ | ⟨_, r, r1, r2⟩
    · exact absurd a hc
    · cases r with
      | true => exact ⟨c, x, by simp [constant, valueEq, r1, Res.bind], hx, r2.mp rfl, Or.inl (by simp)⟩
      | false =>
        obtain ⟨c', x', i1, i2, i3, i4⟩ := ih fun c' h' => hcs c' (by simp [h'])
        refine ⟨c', x', ?_, i2, i3, i4.imp (fun m => by simp [m]) id⟩
        simp [constant, valueEq, r1, Res.bind]
        exact i1

/-- It may have another shape than the one asked for: with a vector among the constants, asking for the same numbers as a column yields the vector. -/
theorem constant_shape : constant exH (.base (.tn 7)) [.base (.tn 6)] = .ok (.base (.tn 6)) ∧ denB exH (.tn 6) = some (.tn .float64 [3] [1, 2, 3]) ∧
    denB exH (.tn 7) = some (.tn .float64 [3, 1] [1, 2, 3]) := by decide

example : valueEq exH (.dual 4) (.dual 3) = .ok false ∧ valueEq exH (.dual 3) (.dual 4) = .panic := by decide

end Verif.Value
