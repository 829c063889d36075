import Verif.Shape.Model
/-!
Watching for NaN, infinities and shared memory while running (`WithNaNWatch`, `WithInfWatch`, `WithPointerWatch` of `/repo/vm.go`; `runall` of `/repo/vm_tape.go` 251-347;
`forward` and `backward` of `/repo/vm_genera.go`; `hasNaN`, `hasInf` of `/repo/utils.go` 155-236), property C89.

A number is finite, infinite or NaN; which finite one does not matter. The checks of a tensor by its engine (utils.go 162-165, 203-206) exist in the CUDA build only and are left out.
-/
set_option autoImplicit false
namespace Verif.RunLoop.Watch
open Verif.Shape

/-- A number. -/
inductive Num where
  | fin | inf | nan
deriving DecidableEq, Repr

/-- A value: a floating-point scalar, another scalar, a floating-point tensor, another tensor, a dual value, nil. -/
inductive V where
  | flt (x : Num)
  | scalar
  | tensor (xs : List Num)
  | other
  | dual (v d : V)
  | none
deriving DecidableEq, Repr

/-- `hasNaN` (for `bad = nan`) and `hasInf` (for `bad = inf`), utils.go 155-236. -/
def has (bad : Num) : V → Res Bool
  | .flt x => .ok (x == bad)
  | .scalar => .panic
  | .tensor xs => .ok (xs.any (· == bad))
  | .other => .ok false
  | .dual v d => (has bad v).bind fun b => if b then .ok true else has bad d
  | .none => .panic

/-- The numbers in a value. -/
def V.nums : V → List Num
  | .flt x => [x]
  | .tensor xs => xs
  | .dual v d => v.nums ++ d.nums
  | _ => []

/-- A value made of floating-point scalars and of tensors. -/
def V.Ok : V → Prop
  | .scalar => False
  | .none => False
  | .dual v d => v.Ok ∧ d.Ok
  | _ => True

/-- **C89 (the check).** On a value made of floating-point scalars and tensors the check answers, and rightly. -/
theorem has_correct (bad : Num) (v : V) (h : v.Ok) : ∃ b, has bad v = .ok b ∧ (b = true ↔ bad ∈ v.nums) := by
  induction v with
  | flt x => exact ⟨_, rfl, by simp only [V.nums, List.mem_singleton, beq_iff_eq]; exact eq_comm⟩
  | scalar => exact h.elim
  | tensor xs => exact ⟨_, rfl, by simp [V.nums]⟩
  | other => exact ⟨_, rfl, by simp [V.nums]⟩
  | dual v d ih1 ih2 =>
    obtain ⟨b1, h1, e1⟩ := ih1 h.1
    obtain ⟨b2, h2, e2⟩ := ih2 h.2
    cases b1 with
    | true => exact ⟨true, by simp [has, h1, Res.bind], by simp [V.nums, e1.mp rfl]⟩
    | false =>
      refine ⟨b2, by simp [has, h1, h2, Res.bind], ?_⟩
      have : bad ∉ v.nums := fun hm => by simpa using e1.mpr hm
      simp [V.nums, this, e2]
  | none => exact h.elim

/-- **C89 (negation: other scalars).** The result of an operation on integer scalars makes the check panic. -/
theorem has_scalar_panics (bad : Num) : has bad .scalar = .panic := rfl

/-! ### The tape machine -/

/-- An executed operation: where it writes, its node, what it wrote, and the address of that. Other instructions are not checked (vm_tape.go 273-275). -/
structure Ex where
  reg : Int
  node : Int
  val : V
  ptr : Nat
deriving DecidableEq, Repr

/-- What an option watches for. -/
structure Opts where
  nan : Bool
  inf : Bool
deriving DecidableEq, Repr

/-- How a run ends: well, stopped at a node, or with a panic. -/
inductive End where
  | ok
  | stopped (node : Int)
  | panic
deriving DecidableEq, Repr

/-- One check, vm_tape.go 277-295 and 297-315: only if both the register and the node have a positive number. A value that is nil stops the run too. -/
def check (on : Bool) (bad : Num) (e : Ex) : End :=
  if on && decide (e.reg > 0) && decide (e.node > 0) then
    if e.val = .none then .stopped e.node else
    match has bad e.val with
    | .ok true => .stopped e.node
    | .ok false => .ok
    | _ => .panic
  else .ok

/-- The operations in turn, vm_tape.go 258-345. -/
def tape (o : Opts) : List Ex → End
  | [] => .ok
  | e :: es => match check o.nan .nan e with
    | .ok => match check o.inf .inf e with
      | .ok => tape o es
      | r => r
    | r => r

/-- Something the options watch for is in the value. -/
def Bad (o : Opts) (v : V) : Prop := (o.nan = true ∧ Num.nan ∈ v.nums) ∨ (o.inf = true ∧ Num.inf ∈ v.nums)

theorem V.Ok.ne_none {v : V} (h : v.Ok) : v ≠ .none := by
  rintro rfl
  exact h

theorem check_cases (on : Bool) (bad : Num) (e : Ex) (hv : e.val.Ok) (h1 : 0 < e.reg) (h2 : 0 < e.node) :
    (check on bad e = .stopped e.node ∧ on = true ∧ bad ∈ e.val.nums) ∨ (check on bad e = .ok ∧ ¬ (on = true ∧ bad ∈ e.val.nums)) := by
  unfold check
  obtain ⟨b, hb, hm⟩ := has_correct bad e.val hv
  cases on with
  | false => right; simp
  | true =>
    rw [if_pos (by simp [h1, h2]), if_neg hv.ne_none, hb]
    cases b with
    | true => left; exact ⟨rfl, rfl, hm.mp rfl⟩
    | false => right; exact ⟨rfl, fun h => by simpa using hm.mpr h.2⟩

/-- **C89 (tape machine).** If every operation writes to a register with a positive number for a node with a positive number, a run is stopped exactly if something watched for turns up,
and at the first operation that produced it. -/
theorem tape_partial (o : Opts) (es : List Ex) (hv : ∀ e ∈ es, e.val.Ok) (hr : ∀ e ∈ es, 0 < e.reg ∧ 0 < e.node) :
    (tape o es = .ok ∧ ∀ e ∈ es, ¬ Bad o e.val) ∨
    ∃ es1 e es2, es = es1 ++ e :: es2 ∧ (∀ e' ∈ es1, ¬ Bad o e'.val) ∧ Bad o e.val ∧ tape o es = .stopped e.node := by
  induction es with
  | nil => left; exact ⟨rfl, by simp⟩
  | cons e es ih =>
    have hv' := hv e List.mem_cons_self
    obtain ⟨r1, r2⟩ := hr e List.mem_cons_self
    rcases check_cases o.nan .nan e hv' r1 r2 with ⟨c1, c2, c3⟩ | ⟨c1, c2⟩
    · right
      exact ⟨[], e, es, rfl, by simp, .inl ⟨c2, c3⟩, by simp [tape, c1]⟩
    · rcases check_cases o.inf .inf e hv' r1 r2 with ⟨d1, d2, d3⟩ | ⟨d1, d2⟩
      · right
        exact ⟨[], e, es, rfl, by simp, .inr ⟨d2, d3⟩, by simp [tape, c1, d1]⟩
      · have hb : ¬ Bad o e.val := by
          rintro (h | h)
          · exact c2 h
          · exact d2 h
        have ht : tape o (e :: es) = tape o es := by simp [tape, c1, d1]
        rw [ht]
        rcases ih (fun e he => hv e (List.mem_cons_of_mem _ he)) (fun e he => hr e (List.mem_cons_of_mem _ he)) with ⟨i1, i2⟩ | ⟨es1, e', es2, i1, i2, i3, i4⟩
        · left
          refine ⟨i1, ?_⟩
          intro x hx
          rcases List.mem_cons.mp hx with rfl | hx
          · exact hb
          · exact i2 x hx
        · right
          refine ⟨e :: es1, e', es2, by rw [i1]; rfl, ?_, i3, i4⟩
          intro x hx
          rcases List.mem_cons.mp hx with rfl | hx
          · exact hb
          · exact i2 x hx

/-- **C89 (negation: number 0).** An operation that writes to register 0, or whose node is the first of the graph, is never checked: the run goes on whatever it produced. -/
theorem zero_unchecked (o : Opts) (e : Ex) (es : List Ex) (h : e.reg ≤ 0 ∨ e.node ≤ 0) : tape o (e :: es) = tape o es := by
  have : ∀ on bad, check on bad e = .ok := by
    intro on bad
    unfold check
    rw [if_neg]
    simp only [Bool.and_eq_true, decide_eq_true_eq, not_and]
    omega
  simp [tape, this]

/-- The second of three operations divides nought by nought; the third, which uses the result, is not reached. -/
example : tape ⟨true, true⟩ [⟨1, 3, .tensor [.fin, .fin], 0⟩, ⟨2, 4, .tensor [.nan, .fin], 1⟩, ⟨3, 5, .flt .nan, 2⟩] = .stopped 4 := by decide

/-- The same written to register 0 is found at the next operation, which is blamed. -/
example : tape ⟨true, true⟩ [⟨1, 3, .tensor [.fin, .fin], 0⟩, ⟨0, 4, .tensor [.nan, .fin], 1⟩, ⟨3, 5, .flt .nan, 2⟩] = .stopped 5 := by decide

/-! ### Shared memory -/

/-- The pointer watch, vm_tape.go 317-345: addresses by node, in any order. -/
def pointers (seen : List (Int × Nat)) : List Ex → End
  | [] => .ok
  | e :: es =>
    if e.reg > 0 ∧ e.node > 0 then
      if e.val = .none then .stopped e.node
      else if seen.any (fun p => p.2 == e.ptr) then .stopped e.node
      else pointers ((e.node, e.ptr) :: seen.filter (fun p => p.1 != e.node)) es
    else pointers seen es

/-- **C89 (pointer watch).** With positive numbers and each node executed once, the run is stopped exactly if two operations wrote to the same address. -/
theorem pointers_partial (es : List Ex) : ∀ (seen : List (Int × Nat)), (∀ e ∈ es, e.val ≠ .none ∧ 0 < e.reg ∧ 0 < e.node) → (es.map (·.node)).Nodup →
    (∀ p ∈ seen, p.1 ∉ es.map (·.node)) → (pointers seen es = .ok ↔ (es.map (·.ptr)).Nodup ∧ ∀ p ∈ seen, p.2 ∉ es.map (·.ptr)) := by
  induction es with
  | nil => intro seen _ _ _; simp [pointers]
  | cons e es ih =>
    intro seen hv hn hs
    obtain ⟨v1, v2, v3⟩ := hv e List.mem_cons_self
    simp only [pointers]
    rw [if_pos ⟨v2, v3⟩, if_neg v1]
    have hn' := List.nodup_cons.mp (by simpa using hn : (e.node :: es.map (·.node)).Nodup)
    by_cases c : seen.any (fun p => p.2 == e.ptr) = true
    · rw [if_pos c]
      obtain ⟨p, hp, he⟩ := List.any_eq_true.mp c
      simp only [beq_iff_eq] at he
      constructor
      · intro h; cases h
      · rintro ⟨_, h⟩
        exact absurd (by simp [he]) (h p hp)
    · rw [if_neg c]
      have hf : seen.filter (fun p => p.1 != e.node) = seen := by
        rw [List.filter_eq_self]
        intro p hp
        have := hs p hp
        simp only [List.map_cons, List.mem_cons, not_or] at this
        simpa using this.1
      rw [hf, ih _ (fun e he => hv e (List.mem_cons_of_mem _ he)) hn'.2 (by
        intro p hp
        rcases List.mem_cons.mp hp with rfl | hp
        · exact hn'.1
        · have := hs p hp
          simp only [List.map_cons, List.mem_cons, not_or] at this
          exact this.2)]
      have c' : ∀ p ∈ seen, p.2 ≠ e.ptr := by
        intro p hp he
        exact c (List.any_eq_true.mpr ⟨p, hp, by simpa using he⟩)
      simp only [List.map_cons, List.nodup_cons, List.mem_cons, forall_eq_or_imp, not_or]
      constructor
      · rintro ⟨h1, h2, h3⟩
        exact ⟨⟨h2, h1⟩, fun p hp => ⟨c' p hp, h3 p hp⟩⟩
      · rintro ⟨⟨h2, h1⟩, h3⟩
        exact ⟨h1, h2, fun p hp => (h3 p hp).2⟩

example : pointers [] [⟨1, 3, .flt .fin, 7⟩, ⟨2, 4, .flt .fin, 8⟩, ⟨3, 5, .flt .fin, 7⟩] = .stopped 5 := by decide

/-! ### The define-by-run machine -/

/-- A node as `forward` leaves it (vm_genera.go 296-510): whether it is an input, random or a statement (which return before the check, or are exempt from it), and its value. -/
structure N where
  early : Bool
  val : V
deriving DecidableEq, Repr

/-- `forward` on the nodes in turn: the check is that of 503-507; there is none for infinities. -/
def lisp (o : Opts) : Nat → List N → End
  | _, [] => .ok
  | i, n :: ns =>
    if o.nan && !n.early then
      match has .nan n.val with
      | .ok true => .stopped i
      | .ok false => lisp o (i + 1) ns
      | _ => .panic
    else lisp o (i + 1) ns

/-- **C89 (define-by-run machine, NaN).** A run is stopped at the first node, neither input nor random nor statement, whose value or derivative contains a NaN. -/
theorem lisp_nan_partial (inf : Bool) (ns : List N) (hv : ∀ n ∈ ns, n.val.Ok) : ∀ i, 
    (lisp ⟨true, inf⟩ i ns = .ok ∧ ∀ n ∈ ns, n.early = false → Num.nan ∉ n.val.nums) ∨
    ∃ ns1 n ns2, ns = ns1 ++ n :: ns2 ∧ (∀ n' ∈ ns1, n'.early = false → Num.nan ∉ n'.val.nums) ∧ n.early = false ∧ Num.nan ∈ n.val.nums ∧
      lisp ⟨true, inf⟩ i ns = .stopped (i + ns1.length : Nat) := by
  induction ns with
  | nil => intro i; left; exact ⟨rfl, by simp⟩
  | cons n ns ih =>
    intro i
    have hv' := hv n List.mem_cons_self
    obtain ⟨b, hb, hm⟩ := has_correct .nan n.val hv'
    have tl : (n.early = true ∨ b = false) → lisp ⟨true, inf⟩ i (n :: ns) = lisp ⟨true, inf⟩ (i + 1) ns := by
      rintro (h | h)
      · simp [lisp, h]
      · subst h
        cases he : n.early <;> simp [lisp, he, hb]
    by_cases c : n.early = true ∨ b = false
    · have hgood : n.early = false → Num.nan ∉ n.val.nums := by
        intro he hn
        rcases c with c | c
        · rw [he] at c; cases c
        · rw [hm.mpr hn] at c; cases c
      rw [tl c]
      rcases ih (fun n hn => hv n (List.mem_cons_of_mem _ hn)) (i + 1) with ⟨h1, h2⟩ | ⟨ns1, n', ns2, h1, h2, h3, h4, h5⟩
      · left
        refine ⟨h1, ?_⟩
        intro x hx
        rcases List.mem_cons.mp hx with rfl | hx
        · exact hgood
        · exact h2 x hx
      · right
        refine ⟨n :: ns1, n', ns2, by rw [h1]; rfl, ?_, h3, h4, ?_⟩
        · intro x hx
          rcases List.mem_cons.mp hx with rfl | hx
          · exact hgood
          · exact h2 x hx
        · rw [h5]
          congr 1
          simp only [List.length_cons]
          omega
    · right
      simp only [not_or, Bool.not_eq_true, Bool.not_eq_false] at c
      obtain ⟨c1, c2⟩ := c
      subst c2
      refine ⟨[], n, ns, rfl, by simp, c1, hm.mp rfl, ?_⟩
      simp [lisp, c1, hb]

/-- **C89 (negation: infinities).** `WithInfWatch` has no effect on the define-by-run machine: without `WithNaNWatch` no run is ever stopped. -/
theorem lisp_inf_ignored (inf : Bool) (ns : List N) : ∀ i, lisp ⟨false, inf⟩ i ns = .ok := by
  induction ns with
  | nil => intro i; rfl
  | cons n ns ih => intro i; simp [lisp, ih]

example : lisp ⟨true, true⟩ 0 [⟨true, .dual (.tensor [.nan]) (.tensor [.fin])⟩, ⟨false, .dual (.flt .inf) (.flt .fin)⟩, ⟨false, .dual (.flt .nan) (.flt .fin)⟩] = .stopped 2 := by
  decide

end Verif.RunLoop.Watch
