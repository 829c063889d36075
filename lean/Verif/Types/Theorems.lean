import Verif.Types.Model
/-!
The type of a node against the type of its value (property C71).
-/
set_option autoImplicit false
namespace Verif.Types
open Verif.Tensor Verif.Shape

/-! ### Unification with operands that have no variables -/

theorem apply_valTy (s : Subs) (d : Dt) (r : Nat) : (valTy d r).apply s = valTy d r := by
  unfold valTy
  by_cases h : r = 0 <;> simp [h, Ty.apply]

theorem valTy_occurs (c : Char) (d : Dt) (r : Nat) : (valTy d r).occurs c = false := by
  unfold valTy
  by_cases h : r = 0 <;> simp [h, Ty.occurs]

theorem valTy_ne_var (d : Dt) (r : Nat) (c : Char) : valTy d r ≠ .var c := by
  unfold valTy
  by_cases h : r = 0 <;> simp [h]

theorem unify_any (n : Nat) (d : Dt) (r : Nat) : unify (n + 1) (valTy d r) (.var 'a') = some (.ok [('a', valTy d r)]) := by
  have h1 := valTy_ne_var d r 'a'
  have h2 := valTy_occurs 'a' d r
  unfold valTy at *
  by_cases h : r = 0 <;> simp [h, unify, bindVar] at h1 h2 ⊢ 
  · exact h2
  · exact h2

theorem unify_ten (n : Nat) (d : Dt) (r : Nat) (k : Int) :
    unify (n + 2) (valTy d r) (.tens k (.var 'a')) = some (if r = 0 then .err else .ok [('a', .dt d)]) := by
  unfold valTy
  by_cases h : r = 0
  · simp [h, unify, Ty.comps, unifyMany]
  · simp [h, unify, Ty.comps, unifyMany, Ty.apply, get, bindVar, Ty.occurs, compose]

/-- Two types without variables: the numbers of axes play no role. -/
theorem unify_val (n : Nat) (d d' : Dt) (r r' : Nat) :
    unify (n + 2) (valTy d r) (valTy d' r') = some (if d = d' ∧ (r = 0 ↔ r' = 0) then .ok [] else .err) := by
  unfold valTy
  by_cases h : r = 0 <;> by_cases h' : r' = 0 <;> by_cases hd : d = d' <;>
    simp [h, h', hd, unify, Ty.comps, unifyMany, Ty.apply, get, compose]

theorem unify_val_tens (n : Nat) (d d' : Dt) (r : Nat) (k : Int) :
    unify (n + 2) (valTy d r) (.tens k (.dt d')) = some (if d = d' ∧ r ≠ 0 then .ok [] else .err) := by
  unfold valTy
  by_cases h : r = 0 <;> by_cases hd : d = d' <;>
    simp [h, hd, unify, Ty.comps, unifyMany, Ty.apply, get, compose]

theorem apply_nil (t : Ty) : t.apply [] = t := by
  induction t with
  | dt d => rfl
  | tens n t ih => simp [Ty.apply, ih]
  | var c => simp [Ty.apply, get]
  | fn a b iha ihb => simp [Ty.apply, iha, ihb]

theorem compose_nil (s : Subs) : compose [] s = s := by simp [compose]

theorem get_append (s t : Subs) (c : Char) (h : get s c = none) : get (s ++ t) c = get t c := by
  unfold get at *
  rw [List.find?_append]
  simp only [Option.map_eq_none_iff] at h
  rw [h]; simp

theorem get_compose (s t : Subs) (c : Char) (h : get s c = none) : get (compose s t) c = get t c := by
  unfold compose
  apply get_append
  unfold get at *
  simp only [Option.map_eq_none_iff, List.find?_eq_none, List.mem_map] at h ⊢
  rintro p ⟨q, hq, rfl⟩
  exact h q hq

theorem unify_ret (n : Nat) (R : Ty) (hR : R.occurs 'b' = false) : unify (n + 1) (.var 'b') R = some (.ok [('b', R)]) := by
  have : R ≠ .var 'b' := by rintro rfl; simp [Ty.occurs] at hR
  simp [unify, bindVar, this, hR]

theorem fn_ne (v P R : Ty) (hR : R.occurs 'b' = false) : (Ty.fn v (.var 'b')) ≠ .fn P R := by
  intro h
  simp only [Ty.fn.injEq] at h
  rw [← h.2] at hR
  simp [Ty.occurs] at hR

theorem unify_fn (n : Nat) (v v' P R : Ty) (hne : Ty.fn v v' ≠ .fn P R) :
    unify (n + 1) (.fn v v') (.fn P R) = unifyMany (unify n) [v, v'] [P, R] [] := by
  show (if Ty.fn v v' = .fn P R then _ else _) = _
  rw [if_neg hne]
  simp [Ty.comps]

/-- One operand. -/
theorem infer_one (v P R : Ty) (A : Subs) (h : unify 4 v P = some (.ok A)) (hb : get A 'b' = none)
    (hR : R.occurs 'b' = false) (hR' : (R.apply A).occurs 'b' = false) : inferNodeType (mkFn [P] R) [v] = some (.ok (R.apply A)) := by
  unfold inferNodeType
  rw [if_neg (by simp)]
  show (match unify (4 + 1) (.fn v (.var 'b')) (.fn P R) with
    | none => none | some (.ok sub) => _ | some .err => _ | some .panic => _) = _
  rw [unify_fn _ _ _ _ _ (fn_ne _ _ _ hR)]
  simp only [unifyMany, apply_nil, h, compose_nil]
  have : (Ty.var 'b').apply A = .var 'b' := by simp [Ty.apply, hb]
  rw [this, unify_ret 3 _ hR']
  simp only
  rw [get_compose _ _ _ hb]
  simp [get]

theorem infer_one_err (v P R : Ty) (h : unify 4 v P = some .err) (hR : R.occurs 'b' = false) :
    inferNodeType (mkFn [P] R) [v] = some .err := by
  unfold inferNodeType
  rw [if_neg (by simp)]
  show (match unify (4 + 1) (.fn v (.var 'b')) (.fn P R) with
    | none => none | some (.ok sub) => _ | some .err => _ | some .panic => _) = _
  rw [unify_fn _ _ _ _ _ (fn_ne _ _ _ hR)]
  simp only [unifyMany, apply_nil, h]

/-- Two operands. -/
theorem infer_two (v v' P P' R : Ty) (A B : Subs) (hv : v'.apply A = v') (h : unify 5 v P = some (.ok A)) (hb : get A 'b' = none)
    (h' : unify 4 v' (P'.apply A) = some (.ok B)) (hb' : get B 'b' = none)
    (hR : R.occurs 'b' = false) (hR' : (R.apply A).occurs 'b' = false) (hR'' : ((R.apply A).apply B).occurs 'b' = false) :
    inferNodeType (mkFn [P, P'] R) [v, v'] = some (.ok ((R.apply A).apply B)) := by
  unfold inferNodeType
  rw [if_neg (by simp)]
  show (match unify (5 + 1) (.fn v (.fn v' (.var 'b'))) (.fn P (.fn P' R)) with
    | none => none | some (.ok sub) => _ | some .err => _ | some .panic => _) = _
  rw [unify_fn _ _ _ _ _ (by intro e; simp only [Ty.fn.injEq] at e; exact fn_ne v' P' R hR (by rw [e.2.1, e.2.2]))]
  simp only [unifyMany, apply_nil, h, compose_nil]
  have e1 : (Ty.fn v' (.var 'b')).apply A = .fn v' (.var 'b') := by simp [Ty.apply, hb, hv]
  have e2 : (Ty.fn P' R).apply A = .fn (P'.apply A) (R.apply A) := rfl
  rw [e1, e2, unify_fn 4 _ _ _ _ (fn_ne _ _ _ hR')]
  simp only [unifyMany, apply_nil, h', compose_nil]
  have : (Ty.var 'b').apply B = .var 'b' := by simp [Ty.apply, hb']
  rw [this, unify_ret 3 _ hR'']
  simp only
  rw [get_compose _ _ _ hb, get_compose _ _ _ hb']
  simp [get]

theorem infer_two_err (v v' P P' R : Ty) (h : unify 5 v P = some .err) (hR : R.occurs 'b' = false) :
    inferNodeType (mkFn [P, P'] R) [v, v'] = some .err := by
  unfold inferNodeType
  rw [if_neg (by simp)]
  show (match unify (5 + 1) (.fn v (.fn v' (.var 'b'))) (.fn P (.fn P' R)) with
    | none => none | some (.ok sub) => _ | some .err => _ | some .panic => _) = _
  rw [unify_fn _ _ _ _ _ (by intro e; simp only [Ty.fn.injEq] at e; exact fn_ne v' P' R hR (by rw [e.2.1, e.2.2]))]
  simp only [unifyMany, apply_nil, h]

theorem infer_two_err' (v v' P P' R : Ty) (A : Subs) (hv : v'.apply A = v') (h : unify 5 v P = some (.ok A)) (hb : get A 'b' = none)
    (h' : unify 4 v' (P'.apply A) = some .err) (hR : R.occurs 'b' = false) (hR' : (R.apply A).occurs 'b' = false) :
    inferNodeType (mkFn [P, P'] R) [v, v'] = some .err := by
  unfold inferNodeType
  rw [if_neg (by simp)]
  show (match unify (5 + 1) (.fn v (.fn v' (.var 'b'))) (.fn P (.fn P' R)) with
    | none => none | some (.ok sub) => _ | some .err => _ | some .panic => _) = _
  rw [unify_fn _ _ _ _ _ (by intro e; simp only [Ty.fn.injEq] at e; exact fn_ne v' P' R hR (by rw [e.2.1, e.2.2]))]
  simp only [unifyMany, apply_nil, h, compose_nil]
  have e1 : (Ty.fn v' (.var 'b')).apply A = .fn v' (.var 'b') := by simp [Ty.apply, hb, hv]
  have e2 : (Ty.fn P' R).apply A = .fn (P'.apply A) (R.apply A) := rfl
  rw [e1, e2, unify_fn 4 _ _ _ _ (fn_ne _ _ _ hR')]
  simp only [unifyMany, apply_nil, h']

theorem apply_occurs (c x : Char) (R t : Ty) (hR : R.occurs c = false) (ht : t.occurs c = false) : (R.apply [(x, t)]).occurs c = false := by
  induction R with
  | dt d => rfl
  | tens n R ih => simpa [Ty.apply, Ty.occurs] using ih hR
  | var y =>
    simp only [Ty.apply, get, List.find?_cons, List.find?_nil]
    by_cases h : x = y
    · simp [h, ht]
    · have h' : (x == y) = false := by simpa using h
      simpa [h'] using hR
  | fn p q ihp ihq =>
    simp only [Ty.occurs, Bool.or_eq_false_iff] at hR
    simp [Ty.apply, Ty.occurs, ihp hR.1, ihq hR.2]

theorem infer_any (R : Ty) (hR : R.occurs 'b' = false) (d : Dt) (r : Nat) :
    inferNodeType (mkFn [a] R) [valTy d r] = some (.ok (R.apply [('a', valTy d r)])) :=
  infer_one _ _ _ _ (unify_any 3 d r) (by simp [get]) hR (apply_occurs _ _ _ _ hR (valTy_occurs _ _ _))

theorem infer_ten (R : Ty) (hR : R.occurs 'b' = false) (d : Dt) (r : Nat) (k : Int) :
    inferNodeType (mkFn [.tens k a] R) [valTy d r] = some (if r = 0 then .err else .ok (R.apply [('a', .dt d)])) := by
  have h := unify_ten 2 d r k
  by_cases hr : r = 0
  · rw [if_pos hr] at h ⊢
    exact infer_one_err _ _ _ h hR
  · rw [if_neg hr] at h ⊢
    exact infer_one _ _ _ _ h (by simp [get]) hR (apply_occurs _ _ _ _ hR rfl)

theorem infer_any_any (R : Ty) (hR : R.occurs 'b' = false) (d d' : Dt) (r r' : Nat) :
    inferNodeType (mkFn [a, a] R) [valTy d r, valTy d' r'] =
      some (if d' = d ∧ (r' = 0 ↔ r = 0) then .ok (R.apply [('a', valTy d r)]) else .err) := by
  have h := unify_any 4 d r
  have e : a.apply [('a', valTy d r)] = valTy d r := by simp [a, Ty.apply, get]
  have h' := unify_val 2 d' d r' r
  have ho := apply_occurs 'b' 'a' R (valTy d r) hR (valTy_occurs _ _ _)
  by_cases hc : d' = d ∧ (r' = 0 ↔ r = 0)
  · rw [if_pos hc] at h' ⊢
    have := infer_two (valTy d r) (valTy d' r') a a R _ [] (apply_valTy _ _ _) h (by simp [get]) (by rw [e]; exact h') rfl hR ho
      (by rw [apply_nil]; exact ho)
    rw [this, apply_nil]
  · rw [if_neg hc] at h' ⊢
    exact infer_two_err' _ _ _ _ _ _ (apply_valTy _ _ _) h (by simp [get]) (by rw [e]; exact h') hR ho

theorem infer_any_const (R : Ty) (hR : R.occurs 'b' = false) (d d' i : Dt) (r r' : Nat) (k : Int) :
    inferNodeType (mkFn [a, .tens k (.dt i)] R) [valTy d r, valTy d' r'] =
      some (if d' = i ∧ r' ≠ 0 then .ok (R.apply [('a', valTy d r)]) else .err) := by
  have h := unify_any 4 d r
  have e : (Ty.tens k (.dt i)).apply [('a', valTy d r)] = .tens k (.dt i) := rfl
  have h' := unify_val_tens 2 d' i r' k
  have ho := apply_occurs 'b' 'a' R (valTy d r) hR (valTy_occurs _ _ _)
  by_cases hc : d' = i ∧ r' ≠ 0
  · rw [if_pos hc] at h' ⊢
    have := infer_two (valTy d r) (valTy d' r') a _ R _ [] (apply_valTy _ _ _) h (by simp [get]) (by rw [e]; exact h') rfl hR ho
      (by rw [apply_nil]; exact ho)
    rw [this, apply_nil]
  · rw [if_neg hc] at h' ⊢
    exact infer_two_err' _ _ _ _ _ _ (apply_valTy _ _ _) h (by simp [get]) (by rw [e]; exact h') hR ho

theorem infer_scal_ten (R : Ty) (hR : R.occurs 'b' = false) (d d' : Dt) (r' : Nat) (k : Int) :
    inferNodeType (mkFn [a, .tens k a] R) [valTy d 0, valTy d' r'] =
      some (if d' = d ∧ r' ≠ 0 then .ok (R.apply [('a', .dt d)]) else .err) := by
  have h := unify_any 4 d 0
  have e0 : valTy d 0 = .dt d := rfl
  have e : (Ty.tens k a).apply [('a', valTy d 0)] = .tens k (.dt d) := by simp [a, Ty.apply, get, e0]
  have h' := unify_val_tens 2 d' d r' k
  have ho := apply_occurs 'b' 'a' R (valTy d 0) hR (valTy_occurs _ _ _)
  by_cases hc : d' = d ∧ r' ≠ 0
  · rw [if_pos hc] at h' ⊢
    have := infer_two (valTy d 0) (valTy d' r') a _ R _ [] (apply_valTy _ _ _) h (by simp [get]) (by rw [e]; exact h') rfl hR ho
      (by rw [apply_nil]; exact ho)
    rw [this, apply_nil, e0]
  · rw [if_neg hc] at h' ⊢
    exact infer_two_err' _ _ _ _ _ _ (apply_valTy _ _ _) h (by simp [get]) (by rw [e]; exact h') hR ho

theorem infer_ten_any (R : Ty) (hR : R.occurs 'b' = false) (d d' : Dt) (r r' : Nat) (k : Int) :
    inferNodeType (mkFn [.tens k a, a] R) [valTy d r, valTy d' r'] =
      some (if r ≠ 0 ∧ d' = d ∧ r' = 0 then .ok (R.apply [('a', .dt d)]) else .err) := by
  have h := unify_ten 3 d r k
  by_cases hr : r = 0
  · rw [if_pos hr] at h
    rw [if_neg (by tauto)]
    exact infer_two_err _ _ _ _ _ h hR
  rw [if_neg hr] at h
  have e : a.apply [('a', .dt d)] = valTy d 0 := by simp [a, Ty.apply, get, valTy]
  have h' := unify_val 2 d' d r' 0
  have ho := apply_occurs 'b' 'a' R (.dt d) hR rfl
  by_cases hc : d' = d ∧ r' = 0
  · rw [if_pos (by tauto)] at h'
    rw [if_pos (by tauto)]
    have := infer_two (valTy d r) (valTy d' r') (.tens k a) a R _ [] (apply_valTy _ _ _) h (by simp [get]) (by rw [e]; exact h') rfl hR ho
      (by rw [apply_nil]; exact ho)
    rw [this, apply_nil]
  · rw [if_neg (by tauto)] at h'
    rw [if_neg (by tauto)]
    exact infer_two_err' _ _ _ _ _ _ (apply_valTy _ _ _) h (by simp [get]) (by rw [e]; exact h') hR ho

theorem infer_ten_ten (R : Ty) (hR : R.occurs 'b' = false) (d d' : Dt) (r r' : Nat) (k k' : Int) :
    inferNodeType (mkFn [.tens k a, .tens k' a] R) [valTy d r, valTy d' r'] =
      some (if r ≠ 0 ∧ d' = d ∧ r' ≠ 0 then .ok (R.apply [('a', .dt d)]) else .err) := by
  have h := unify_ten 3 d r k
  by_cases hr : r = 0
  · rw [if_pos hr] at h
    rw [if_neg (by tauto)]
    exact infer_two_err _ _ _ _ _ h hR
  rw [if_neg hr] at h
  have e : (Ty.tens k' a).apply [('a', .dt d)] = .tens k' (.dt d) := by simp [a, Ty.apply, get]
  have h' := unify_val_tens 2 d' d r' k'
  have ho := apply_occurs 'b' 'a' R (.dt d) hR rfl
  by_cases hc : d' = d ∧ r' ≠ 0
  · rw [if_pos hc] at h'
    rw [if_pos (by tauto)]
    have := infer_two (valTy d r) (valTy d' r') (.tens k a) (.tens k' a) R _ [] (apply_valTy _ _ _) h (by simp [get]) (by rw [e]; exact h') rfl hR ho
      (by rw [apply_nil]; exact ho)
    rw [this, apply_nil]
  · rw [if_neg hc] at h'
    rw [if_neg (by tauto)]
    exact infer_two_err' _ _ _ _ _ _ (apply_valTy _ _ _) h (by simp [get]) (by rw [e]; exact h') hR ho

theorem unify_free (n : Nat) (d : Dt) (r : Nat) : unify (n + 1) (valTy d r) (.var 'c') = some (.ok [('c', valTy d r)]) := by
  have h1 := valTy_ne_var d r 'c'
  have h2 := valTy_occurs 'c' d r
  unfold valTy at *
  by_cases h : r = 0 <;> simp [h, unify, bindVar] at h1 h2 ⊢ 
  · exact h2
  · exact h2

theorem infer_ten_free (R : Ty) (hR : R.occurs 'b' = false) (d d' : Dt) (r r' : Nat) (k : Int) :
    inferNodeType (mkFn [.tens k a, .var 'c'] R) [valTy d r, valTy d' r'] =
      some (if r ≠ 0 then .ok ((R.apply [('a', .dt d)]).apply [('c', valTy d' r')]) else .err) := by
  have h := unify_ten 3 d r k
  by_cases hr : r = 0
  · rw [if_pos hr] at h
    rw [if_neg (by tauto)]
    exact infer_two_err _ _ _ _ _ h hR
  rw [if_neg hr] at h
  have e : (Ty.var 'c').apply [('a', .dt d)] = .var 'c' := by simp [Ty.apply, get]
  have h' := unify_free 3 d' r'
  have ho := apply_occurs 'b' 'a' R (.dt d) hR rfl
  rw [if_pos hr]
  exact infer_two (valTy d r) (valTy d' r') _ _ R _ _ (apply_valTy _ _ _) h (by simp [get]) (by rw [e]; exact h') (by simp [get]) hR ho
      (apply_occurs _ _ _ _ ho (valTy_occurs _ _ _))

theorem infer_dt (R : Ty) (hR : R.occurs 'b' = false) (d f : Dt) (r : Nat) :
    inferNodeType (mkFn [.dt f] R) [valTy d r] = some (if d = f ∧ r = 0 then .ok R else .err) := by
  have h := unify_val 2 d f r 0
  have e : valTy f 0 = .dt f := rfl
  rw [e] at h
  by_cases hc : d = f ∧ r = 0
  · rw [if_pos hc]
    rw [if_pos (by tauto)] at h
    have := infer_one _ _ R _ h rfl hR (by rw [apply_nil]; exact hR)
    rw [apply_nil] at this
    exact this
  · rw [if_neg hc]
    rw [if_neg (by tauto)] at h
    exact infer_one_err _ _ _ h hR

theorem infer_tdt (R : Ty) (hR : R.occurs 'b' = false) (d f : Dt) (r : Nat) (k : Int) :
    inferNodeType (mkFn [.tens k (.dt f)] R) [valTy d r] = some (if d = f ∧ r ≠ 0 then .ok R else .err) := by
  have h := unify_val_tens 2 d f r k
  by_cases hc : d = f ∧ r ≠ 0
  · rw [if_pos hc] at h ⊢
    have := infer_one _ _ R _ h rfl hR (by rw [apply_nil]; exact hR)
    rw [apply_nil] at this
    exact this
  · rw [if_neg hc] at h ⊢
    exact infer_one_err _ _ _ h hR

/-! ### The type of a node -/

theorem applyOp_ok {op : TOp} {xs : List Operand} {t : Ty} {s : List Nat} (h : applyOp op xs = some (.ok (t, s))) :
    inferNodeType (opTy op xs) (xs.map Operand.ty) = some (.ok t) ∧ opShape op (xs.map Operand.shape) = .ok s := by
  unfold applyOp at h
  cases h1 : inferNodeType (opTy op xs) (xs.map Operand.ty) with
  | none => simp [h1] at h
  | some r =>
    cases r with
    | err => simp [h1] at h
    | panic => simp [h1] at h
    | ok t' =>
      cases h2 : opShape op (xs.map Operand.shape) with
      | err => simp [h1, h2, Res.bind] at h
      | panic => simp [h1, h2, Res.bind] at h
      | ok s' =>
        simp only [h1, h2, Res.bind, Option.some.injEq, Res.ok.injEq, Prod.mk.injEq] at h
        exact ⟨by rw [h.1], by rw [h.2]⟩

/-- The element type of the result: truth values for comparisons, the target of a conversion, else that of the operand. -/
def resDt : TOp → List Operand → Dt
  | .elem false false, _ => .bool
  | .dtConv _ t, _ => t
  | _, xs => (xs.getD 0 ⟨.bool, []⟩).dt

/-- The cases in which the type of the node is not the type of a value of the inferred shape. -/
def Wrong : TOp → List Operand → Prop
  /- two operands with a single element, of which the second has more axes -/
  | .elem _ _, [x, y] => (∀ d ∈ x.shape, d = 1) ∧ (∀ d ∈ y.shape, d = 1) ∧ 0 < x.shape.length ∧ x.shape.length < y.shape.length
  /- an axis listed twice, with two axes or more remaining -/
  | .reduce along, [x] => ¬ along.Nodup ∧ along.dedup.length + 1 < x.shape.length
  /- a vector repeated along an axis it does not have -/
  | .repeat_ along _, [x, _] => isVector x.shape = true ∧ x.shape.length ≤ along
  /- any tensor -/
  | .diagFlat, [x] => x.shape ≠ []
  | _, _ => False

theorem valTy_inj (d : Dt) (r r' : Nat) : valTy d r = valTy d r' ↔ r = r' := by
  unfold valTy
  constructor
  · intro h
    by_cases h1 : r = 0 <;> by_cases h2 : r' = 0 <;> simp [h1, h2] at h
    · omega
    · exact h
  · rintro rfl; rfl

theorem zeroAxes_lt (along : List Nat) (s r : List Nat) (h : zeroAxes (along.map Int.ofNat) s = .ok r) : ∀ a ∈ along, a < s.length := by
  induction along generalizing s with
  | nil => simp
  | cons a along ih =>
    simp only [List.map_cons, zeroAxes] at h
    by_cases h1 : (Int.ofNat a : Int) ≥ s.length
    · rw [if_pos h1] at h; cases h
    · rw [if_neg h1, if_neg (by simp)] at h
      intro b hb
      rcases List.mem_cons.1 hb with rfl | hb
      · simp only [ge_iff_le, not_le, Int.ofNat_eq_natCast] at h1
        exact_mod_cast h1
      · simpa using ih _ h b hb

theorem elem_rank (x y s : List Nat) (h : inferElem x y = .ok s) :
    s.length = (if (∀ d ∈ x, d = 1) ∧ (∀ d ∈ y, d = 1) ∧ 0 < x.length ∧ x.length < y.length then x.length else max x.length y.length) := by
  have hx : isScalarEquiv x = true ↔ ∀ d ∈ x, d = 1 := by simp [isScalarEquiv]
  have hy : isScalarEquiv y = true ↔ ∀ d ∈ y, d = 1 := by simp [isScalarEquiv]
  unfold inferElem at h
  by_cases h1 : isScalarEquiv x = true ∧ isScalarEquiv y = true
  · simp only [h1.1, h1.2, Bool.and_self, if_true] at h
    have g1 := hx.1 h1.1
    have g2 := hy.1 h1.2
    have p1 : 0 < x.length → x.getD 0 0 = 1 := by
      intro hl; cases x with
      | nil => simp at hl
      | cons d x => simpa using g1 d (by simp)
    have p2 : 0 < y.length → y.getD 0 0 = 1 := by
      intro hl; cases y with
      | nil => simp at hl
      | cons d y => simpa using g2 d (by simp)
    by_cases q1 : 0 < x.length
    · rw [if_pos ⟨q1, p1 q1⟩] at h
      cases h
      by_cases q : x.length < y.length
      · rw [if_pos ⟨g1, g2, q1, q⟩]
      · rw [if_neg (by tauto)]; omega
    · rw [if_neg (by tauto)] at h
      rw [if_neg (by tauto)]
      by_cases q2 : 0 < y.length
      · rw [if_pos ⟨q2, p2 q2⟩] at h
        cases h; omega
      · rw [if_neg (by tauto)] at h
        cases h; simp; omega
  · have h1' : ¬ ((∀ d ∈ x, d = 1) ∧ (∀ d ∈ y, d = 1)) := by rw [← hx, ← hy]; exact h1
    rw [if_neg (by tauto)]
    rw [if_neg (by simpa using h1)] at h
    by_cases q1 : x = []
    · rw [if_pos q1] at h; cases h; simp [q1]
    rw [if_neg q1] at h
    by_cases q2 : y = []
    · rw [if_pos q2] at h; cases h; simp [q2]
    rw [if_neg q2] at h
    by_cases q3 : (!shapeEq x y) = true
    · rw [if_pos q3] at h; cases h
    rw [if_neg q3] at h
    by_cases q4 : x.length > y.length
    · rw [if_pos q4] at h; cases h; omega
    · rw [if_neg q4] at h; cases h; omega

theorem reduce_rank (along s r : List Nat) (hne : along ≠ []) (hp : ∀ d ∈ s, d ≠ 0)
    (h : reduceShape (along.map Int.ofNat) s = .ok r) : (∀ a ∈ along, a < s.length) ∧ r.length + along.dedup.length = s.length := by
  have hl : ∀ a ∈ along, a < s.length := by
    unfold reduceShape at h
    rw [if_neg (by simpa using hne)] at h
    cases hz : zeroAxes (along.map Int.ofNat) s with
    | err => simp [hz, Res.bind] at h
    | panic => simp [hz, Res.bind] at h
    | ok z => exact zeroAxes_lt _ _ _ hz
  refine ⟨hl, ?_⟩
  rw [reduceShape_spec along s hne hl hp] at h
  cases h
  rw [dropAxes_congr s 0 (B := along.dedup) (by intro a _; simp)]
  have hl' : ∀ a ∈ along.dedup, a < s.length := fun a ha => hl a (List.mem_dedup.1 ha)
  have h1 := drop_length_eq along.dedup s along.nodup_dedup hl'
  have h2 := (perm_filter along.dedup s.length along.nodup_dedup hl').length_eq
  have h3 := List.length_filter_le (fun i => decide (i ∈ along.dedup)) (List.range s.length)
  rw [List.length_range] at h3
  omega

theorem repeat_rank (s r : List Nat) (along rep : Nat) (h : repeatShape s along rep = .ok r) :
    r.length = if isVector s = true ∧ s.length ≤ along then along + 1 else max 1 s.length := by
  unfold repeatShape at h
  by_cases hc : isVector s = true ∧ s.length ≤ along
  · rw [if_pos hc]
    simp only [hc.1, hc.2, Bool.true_and, decide_true, if_true] at h
    have hne : (s ++ List.replicate (along - s.length + 1) 0).map (fun d => if d = 0 then 1 else d) ≠ [] := by simp
    rw [if_neg hne] at h
    revert h
    generalize hs : (s ++ List.replicate (along - s.length + 1) 0).map (fun d => if d = 0 then 1 else d) = s'
    have hl : s'.length = along + 1 := by rw [← hs]; simp; omega
    intro h
    cases hg : s'[along]? with
    | none => rw [hg] at h; cases h
    | some d => rw [hg] at h; cases h; simp [hl]
  · rw [if_neg hc]
    rw [if_neg (by simpa using hc)] at h
    by_cases hn : s = []
    · subst hn
      simp only [if_true] at h
      cases hg : ([1] : List Nat)[along]? with
      | none => rw [hg] at h; cases h
      | some d => rw [hg] at h; cases h; simp
    · simp only [hn, if_false] at h
      have : 0 < s.length := List.length_pos_iff.2 hn
      cases hg : s[along]? with
      | none => rw [hg] at h; cases h
      | some d => rw [hg] at h; cases h; simp; omega

theorem apply_a (t : Ty) : a.apply [('a', t)] = t := by simp [a, Ty.apply, get]

theorem apply_ta (k : Int) (t : Ty) : (Ty.tens k a).apply [('a', t)] = .tens k t := by simp [a, Ty.apply, get]

theorem valTy_pos (d : Dt) (r : Nat) (h : r ≠ 0) : valTy d r = .tens r (.dt d) := by simp [valTy, h]

theorem generic_occurs (r : Nat) : (generic r).occurs 'b' = false := by
  unfold generic
  by_cases h : r = 0 <;> simp [h, a, Ty.occurs]

/-- The type inferred for an elementwise operation: accepted exactly for equal element types. -/
theorem elem_type (ar rs : Bool) (x y : Operand) :
    inferNodeType (elemTy ar rs x.shape.length y.shape.length) [x.ty, y.ty] =
      some (if y.dt = x.dt then .ok (valTy (resDt (.elem ar rs) [x, y]) (max x.shape.length y.shape.length)) else .err) := by
  obtain ⟨d, s⟩ := x
  obtain ⟨d', s'⟩ := y
  simp only [Operand.ty]
  generalize s.length = r
  generalize s'.length = r'
  have hg : elemRet r r' = generic (max r r') := by
    unfold elemRet
    by_cases h1 : r' ≠ 0 ∧ r' ≥ r
    · rw [if_pos h1, show max r r' = r' by omega, generic, if_neg h1.1]
    · rw [if_neg h1, show max r r' = r by omega]
  obtain ⟨R, e, ho, hv⟩ : ∃ R, elemTy ar rs r r' = mkFn [generic r, generic r'] R ∧ R.occurs 'b' = false ∧
      R.apply [('a', .dt d)] = valTy (resDt (.elem ar rs) [⟨d, s⟩, ⟨d', s'⟩]) (max r r') := by
    have hd : resDt (.elem ar rs) [⟨d, s⟩, ⟨d', s'⟩] = if (ar || (!ar && rs)) = true then d else .bool := by
      cases ar <;> cases rs <;> rfl
    rw [hd]
    unfold elemTy
    rw [hg]
    by_cases h : (ar || (!ar && rs)) = true
    · refine ⟨generic (max r r'), by rw [if_pos h], generic_occurs _, ?_⟩
      rw [if_pos h]
      unfold generic valTy
      by_cases hz : max r r' = 0
      · rw [if_pos hz, if_pos hz, apply_a]
      · rw [if_neg hz, if_neg hz, apply_ta]
    · refine ⟨truth (generic (max r r')), by rw [if_neg h], ?_⟩
      rw [if_neg h]
      unfold generic valTy
      by_cases hz : max r r' = 0
      · rw [if_pos hz, if_pos hz]; exact ⟨rfl, rfl⟩
      · rw [if_neg hz, if_neg hz]; exact ⟨rfl, rfl⟩
  rw [e, ← hv]
  unfold generic
  by_cases h1 : r = 0 <;> by_cases h2 : r' = 0
  · subst h1; subst h2
    simp only [if_true]
    rw [infer_any_any R ho]
    simp [valTy]
  · subst h1
    simp only [if_true, h2, if_false]
    rw [infer_scal_ten R ho]
    simp [h2]
  · subst h2
    simp only [if_true, h1, if_false]
    rw [infer_ten_any R ho]
    simp [h1]
  · simp only [h1, h2, if_false]
    rw [infer_ten_ten R ho]
    simp [h1, h2]

/-- The type inferred for a reduction. -/
theorem reduce_type (x : Operand) (along : List Nat) (t : Ty) (hne : along ≠ []) (hl : ∀ a ∈ along, a < x.shape.length)
    (hle : along.dedup.length ≤ x.shape.length) (h : inferNodeType (reductionTy x.shape.length along) [x.ty] = some (.ok t)) :
    t = if along.dedup.length + 1 < x.shape.length then .tens ((x.shape.length : Int) - along.length) (.dt x.dt)
      else valTy x.dt (x.shape.length - along.dedup.length) := by
  have hf : along.filter (· < x.shape.length) = along := List.filter_eq_self.2 (by intro b hb; simpa using hl b hb)
  have hd : 0 < along.dedup.length := List.length_pos_iff.2 (by
    cases along with
    | nil => exact absurd rfl hne
    | cons b l => exact List.ne_nil_of_mem (List.mem_dedup.2 (List.mem_cons_self (a := b) (l := l))))
  have hr : x.shape.length ≠ 0 := by
    cases along with
    | nil => exact absurd rfl hne
    | cons b l => have := hl b (by simp); omega
  unfold reductionTy at h
  simp only [hf] at h
  by_cases h1 : x.shape.length = 1 ∨ along.dedup.length = 0 ∨ along.dedup.length = x.shape.length
  · rw [if_pos h1, Operand.ty, infer_ten _ rfl, if_neg hr, apply_a] at h
    cases h
    have : x.shape.length - along.dedup.length = 0 := by omega
    rw [if_neg (by omega), this]
    rfl
  · rw [if_neg h1] at h
    by_cases h2 : along.dedup.length = x.shape.length - 1
    · rw [if_pos h2, Operand.ty, infer_ten _ rfl, if_neg hr, apply_ta] at h
      cases h
      have : x.shape.length - along.dedup.length = 1 := by omega
      rw [if_neg (by omega), this]
      rfl
    · rw [if_neg h2, Operand.ty, infer_ten _ rfl, if_neg hr, apply_ta] at h
      cases h
      rw [if_pos (by omega)]

theorem nodup_iff (l : List Nat) : l.Nodup ↔ l.dedup.length = l.length := by
  constructor
  · intro h; rw [h.dedup]
  · intro h
    have := (List.dedup_sublist l).eq_of_length h
    rw [← this]
    exact l.nodup_dedup

theorem slice_rank {along st e : Nat} {x s : List Nat}
    (h : ((sliceT along st e (⟨x, fun _ => ()⟩ : T Unit)).bind fun r => Res.ok r.shape) = .ok s) :
    st < e ∧ x ≠ [] ∧ s.length = if e - st = 1 then x.length - 1 else x.length := by
  unfold sliceT at h
  simp only at h
  by_cases h1 : along < x.length ∧ st < e ∧ e ≤ x.getD along 0
  · rw [if_pos h1] at h
    refine ⟨h1.2.1, by rintro rfl; simp at h1, ?_⟩
    by_cases h2 : e - st = 1
    · rw [if_pos h2] at h ⊢
      simp only [Res.bind, Res.ok.injEq] at h
      rw [← h, List.length_eraseIdx]
      simp [h1.1]
    · rw [if_neg h2] at h ⊢
      simp only [Res.bind, Res.ok.injEq] at h
      rw [← h]; simp
  · rw [if_neg h1] at h
    simp [Res.bind] at h

theorem matMul_rank {tA tB : Bool} {x y s : List Nat} (h : inferMatMul tA tB x y = .ok s) : s.length = 2 := by
  unfold inferMatMul at h
  simp only at h
  revert h
  generalize (if tA = true then transpose2D x else x) = x'
  generalize (if tB = true then transpose2D y else y) = y'
  intro h
  cases h1 : x'[0]? <;> cases h2 : x'[1]? <;> cases h3 : y'[0]? <;> cases h4 : y'[1]? <;> simp only [h1, h2, h3, h4] at h <;>
    try cases h
  rename_i b c d e
  by_cases q : c ≠ d
  · rw [if_pos q] at h; cases h
  · rw [if_neg q] at h; cases h; rfl

theorem matVec_rank {tA : Bool} {x y s : List Nat} (h : inferMatVec tA x y = .ok s) : s.length = 1 := by
  unfold inferMatVec at h
  simp only at h
  revert h
  generalize (if tA = true then transpose2D x else x) = x'
  intro h
  cases h1 : x'[0]? <;> cases h2 : x'[1]? <;> cases h3 : y[0]? <;> simp only [h1, h2, h3] at h <;> try cases h
  rename_i a b c
  by_cases q : a ≠ c ∧ b ≠ c
  · rw [if_pos q] at h; cases h
  rw [if_neg q] at h
  by_cases q' : a = c
  · rw [if_pos q'] at h; cases h; rfl
  · rw [if_neg q'] at h; cases h; rfl

theorem batched_rank {tA tB : Bool} {x y s : List Nat} (h : inferBatched tA tB x y = .ok s) : s.length = x.length := by
  unfold inferBatched at h
  by_cases h1 : x.length < 2 ∨ y.length < 2
  · rw [if_pos h1] at h; cases h
  · rw [if_neg h1] at h
    simp only at h
    by_cases h2 : (!shapeEq (x.take (x.length - 2)) (y.take (y.length - 2))) = true
    · rw [if_pos h2] at h; cases h
    · rw [if_neg h2] at h
      cases h
      simp; omega

/-- **C71.** Whenever a node is built, its type is the type of a value of its element type and inferred shape; except exactly in the cases of
`Wrong`, where it is not. -/
theorem applyOp_type (op : TOp) (xs : List Operand) (hp : ∀ x ∈ xs, ∀ d ∈ x.shape, d ≠ 0) (t : Ty) (s : List Nat)
    (h : applyOp op xs = some (.ok (t, s))) : t = valTy (resDt op xs) s.length ↔ ¬ Wrong op xs := by
  obtain ⟨ht, hs⟩ := applyOp_ok h
  clear h
  rcases xs with _ | ⟨x, _ | ⟨y, _ | ⟨z, xs⟩⟩⟩
  · cases op <;> simp [opShape] at hs
  · simp only [List.map_cons, List.map_nil] at ht hs
    cases op <;> simp only [opShape, Res.ok.injEq, reduceCtorEq] at hs <;> simp only [opTy, List.getD_cons_zero] at ht <;>
      simp only [Wrong, resDt, List.getD_cons_zero, not_false_iff, iff_true]
    case same =>
      rw [Operand.ty, infer_any _ rfl, apply_a] at ht
      cases ht; subst hs; rfl
    case reduce along =>
      by_cases h0 : x.shape.length = 0
      · exfalso
        have e : x.shape = [] := List.length_eq_zero_iff.1 h0
        by_cases ha : along = []
        · simp [e, ha, reductionTy] at ht
          rw [Operand.ty, e, infer_ten _ rfl] at ht
          simp at ht
        · rw [if_neg ha, e] at hs
          cases along with
          | nil => exact ha rfl
          | cons b l => simp [reduceShape, zeroAxes, Res.bind] at hs
      obtain ⟨al, hal⟩ : ∃ al, al = (if along = [] then List.range x.shape.length else along) := ⟨_, rfl⟩
      rw [← hal] at ht hs
      have hne : al ≠ [] := by
        rw [hal]; by_cases ha : along = []
        · rw [if_pos ha]; simpa using h0
        · rw [if_neg ha]; exact ha
      obtain ⟨hl, hr⟩ := reduce_rank al x.shape s hne (hp x (by simp)) hs
      rw [reduce_type x al t hne hl (by omega) ht]
      have hnd : (¬ along.Nodup ∧ along.dedup.length + 1 < x.shape.length) ↔ (¬ al.Nodup ∧ al.dedup.length + 1 < x.shape.length) := by
        by_cases ha : along = []
        · rw [if_pos ha] at hal
          have : al.Nodup := by rw [hal]; exact List.nodup_range
          simp [ha, this]
        · rw [if_neg ha] at hal; rw [hal]
      rw [hnd]
      by_cases h1 : al.dedup.length + 1 < x.shape.length
      · rw [if_pos h1, valTy_pos _ _ (by omega)]
        simp only [Ty.tens.injEq, and_true, h1, not_not]
        rw [nodup_iff al]
        omega
      · rw [if_neg h1, valTy_inj]
        simp only [h1, and_false, not_false_iff, iff_true]
        omega
    case at_ =>
      rw [Operand.ty, infer_ten _ rfl] at ht
      by_cases h0 : x.shape.length = 0
      · simp [h0] at ht
      · rw [if_neg h0, apply_a] at ht
        cases ht; subst hs; rfl
    case sizeOf =>
      by_cases h0 : x.shape.length = 0
      · rw [if_pos h0, Operand.ty, infer_any _ rfl, apply_a, h0] at ht
        cases ht; subst hs; rfl
      · rw [if_neg h0, Operand.ty, infer_ten _ rfl, if_neg h0, apply_a] at ht
        cases ht; subst hs; rfl
    case slice along st e =>
      obtain ⟨h1, h2, h3⟩ := slice_rank hs
      have h0 : x.shape.length ≠ 0 := by simpa using h2
      by_cases h4 : e - st = 1
      · rw [if_pos (by omega)] at ht
        rw [if_pos h4] at h3
        by_cases h5 : x.shape.length = 1
        · rw [if_pos h5, Operand.ty, infer_ten _ rfl, if_neg h0, apply_a] at ht
          cases ht
          rw [h3, h5]; rfl
        · rw [if_neg h5, Operand.ty, infer_ten _ rfl, if_neg h0, apply_ta] at ht
          cases ht
          rw [h3, valTy_pos _ _ (by omega)]
          congr 1; omega
      · rw [if_neg (by omega)] at ht
        rw [if_neg h4] at h3
        rw [Operand.ty, infer_ten _ rfl, if_neg h0, apply_ta] at ht
        cases ht
        rw [h3, valTy_pos _ _ h0]
    case transpose p =>
      by_cases h0 : x.shape = []
      · rw [if_pos h0] at hs; cases hs
      rw [if_neg h0] at hs
      by_cases h1 : p.length ≠ x.shape.length
      · rw [if_pos h1] at hs; cases hs
      rw [if_neg h1] at hs
      cases hs
      have h2 : x.shape.length ≠ 0 := by simpa using h0
      rw [Operand.ty, infer_ten _ rfl, if_neg h2, apply_ta] at ht
      cases ht
      rw [show (permute p x.shape).length = p.length by simp [permute], valTy_pos _ _ (by omega)]
    case reshape q =>
      subst hs
      by_cases h1 : x.shape.length ≠ q.length
      · rw [if_pos h1] at ht
        by_cases h2 : x.shape.length = 0
        · have h3 : q.length ≠ 0 := by omega
          rw [if_pos h2, if_neg h3, Operand.ty, h2, infer_any _ rfl, apply_ta] at ht
          cases ht
          rw [valTy_pos _ _ h3]; rfl
        · rw [if_neg h2, Operand.ty] at ht
          by_cases h3 : q.length = 0
          · rw [if_pos h3, infer_ten _ rfl, if_neg h2, apply_a] at ht
            cases ht
            rw [h3]; rfl
          · rw [if_neg h3, infer_ten _ rfl, if_neg h2, apply_ta] at ht
            cases ht
            rw [valTy_pos _ _ h3]
      · rw [if_neg h1, Operand.ty, infer_any _ rfl, apply_a] at ht
        cases ht
        rw [not_not.1 h1]
    case diagFlat =>
      subst hs
      rw [Operand.ty, infer_any _ rfl, apply_ta] at ht
      cases ht
      rw [show ([size x.shape, size x.shape] : List Nat).length = 2 from rfl, not_not]
      by_cases h0 : x.shape = []
      · simp [h0, valTy]
      · simp [h0, valTy]
    case dtConv f g =>
      subst hs
      by_cases h0 : x.shape.length = 0
      · rw [if_pos h0, Operand.ty, infer_dt _ rfl] at ht
        by_cases h1 : x.dt = f ∧ x.shape.length = 0
        · rw [if_pos h1] at ht; cases ht; rw [h0]; rfl
        · rw [if_neg h1] at ht; cases ht
      · rw [if_neg h0, Operand.ty, infer_tdt _ rfl] at ht
        by_cases h1 : x.dt = f ∧ x.shape.length ≠ 0
        · rw [if_pos h1] at ht; cases ht; rw [valTy_pos _ _ h0]
        · rw [if_neg h1] at ht; cases ht
    case spatial f =>
      by_cases h0 : x.shape.length < 4
      · rw [if_pos h0] at hs; cases hs
      · rw [if_neg h0] at hs
        cases hs
        rw [Operand.ty, infer_ten _ rfl, if_neg (by omega), apply_ta] at ht
        cases ht; rfl
    case batchNorm =>
      subst hs
      by_cases h0 : x.shape.length = 0
      · simp only [h0, if_true] at ht
        rw [Operand.ty, infer_ten _ rfl, if_pos h0] at ht
        cases ht
      · simp only [h0, if_false] at ht
        rw [Operand.ty, infer_ten _ rfl, if_neg h0, apply_ta] at ht
        cases ht
        rw [valTy_pos _ _ h0]
  · simp only [List.map_cons, List.map_nil] at ht hs
    cases op <;> simp only [opShape, Res.ok.injEq, reduceCtorEq] at hs <;>
      simp only [opTy, List.getD_cons_zero, List.getD_cons_succ] at ht <;>
      simp only [Wrong, resDt, List.getD_cons_zero, not_false_iff, iff_true]
    case elem ar rs =>
      rw [elem_type] at ht
      by_cases hd : y.dt = x.dt
      · rw [if_pos hd] at ht
        cases ht
        have he := elem_rank _ _ _ hs
        have key : ∀ D, valTy D (max x.shape.length y.shape.length) = valTy D s.length ↔
            ¬ ((∀ d ∈ x.shape, d = 1) ∧ (∀ d ∈ y.shape, d = 1) ∧ 0 < x.shape.length ∧ x.shape.length < y.shape.length) := by
          intro D
          rw [valTy_inj, he]
          by_cases hw : (∀ d ∈ x.shape, d = 1) ∧ (∀ d ∈ y.shape, d = 1) ∧ 0 < x.shape.length ∧ x.shape.length < y.shape.length
          · rw [if_pos hw]
            refine ⟨fun h => ?_, fun h => absurd hw h⟩
            have := hw.2.2.2
            omega
          · rw [if_neg hw]
            simp only [true_iff]
            exact hw
        cases ar <;> cases rs <;> exact key _
      · rw [if_neg hd] at ht; cases ht
    case matMul tA tB =>
      rw [matMul_rank hs]
      rw [Operand.ty, Operand.ty, infer_ten_ten _ rfl, apply_ta] at ht
      by_cases h1 : x.shape.length ≠ 0 ∧ y.dt = x.dt ∧ y.shape.length ≠ 0
      · rw [if_pos h1] at ht; cases ht; rfl
      · rw [if_neg h1] at ht; cases ht
    case matVec tA =>
      rw [matVec_rank hs]
      rw [Operand.ty, Operand.ty, infer_ten_ten _ rfl, apply_ta] at ht
      by_cases h1 : x.shape.length ≠ 0 ∧ y.dt = x.dt ∧ y.shape.length ≠ 0
      · rw [if_pos h1] at ht; cases ht; rfl
      · rw [if_neg h1] at ht; cases ht
    case vecDot =>
      cases hs
      rw [Operand.ty, Operand.ty, infer_ten_ten _ rfl, apply_a] at ht
      by_cases h1 : x.shape.length ≠ 0 ∧ y.dt = x.dt ∧ y.shape.length ≠ 0
      · rw [if_pos h1] at ht; cases ht; rfl
      · rw [if_neg h1] at ht; cases ht
    case outer =>
      cases hs
      rw [Operand.ty, Operand.ty, infer_ten_ten _ rfl, apply_ta] at ht
      by_cases h1 : x.shape.length ≠ 0 ∧ y.dt = x.dt ∧ y.shape.length ≠ 0
      · rw [if_pos h1] at ht; cases ht; rfl
      · rw [if_neg h1] at ht; cases ht
    case batched tA tB =>
      rw [batched_rank hs]
      rw [Operand.ty, Operand.ty, infer_any_any _ rfl, apply_a] at ht
      by_cases h1 : y.dt = x.dt ∧ (y.shape.length = 0 ↔ x.shape.length = 0)
      · rw [if_pos h1] at ht; cases ht; rfl
      · rw [if_neg h1] at ht; cases ht
    case repeat_ along rep =>
      have hr := repeat_rank _ _ _ _ hs
      have ht' : t = .tens (max 1 x.shape.length : Nat) (.dt x.dt) := by
        by_cases h0 : x.shape.length = 0
        · rw [if_pos h0, Operand.ty, Operand.ty, infer_any_any _ rfl, apply_ta, h0] at ht
          by_cases h1 : y.dt = x.dt ∧ (y.shape.length = 0 ↔ 0 = 0)
          · rw [if_pos h1] at ht; cases ht; rw [h0]; rfl
          · rw [if_neg h1] at ht; cases ht
        · rw [if_neg h0, Operand.ty, Operand.ty, infer_ten_any _ rfl, apply_ta] at ht
          by_cases h1 : x.shape.length ≠ 0 ∧ y.dt = x.dt ∧ y.shape.length = 0
          · rw [if_pos h1] at ht; cases ht; rw [show max 1 x.shape.length = x.shape.length by omega]
          · rw [if_neg h1] at ht; cases ht
      rw [ht', ← valTy_pos _ _ (by omega), valTy_inj, hr]
      by_cases h1 : isVector x.shape = true ∧ x.shape.length ≤ along
      · rw [if_pos h1]
        refine ⟨fun h => ?_, fun h => absurd h1 h⟩
        have : 0 < x.shape.length := by
          cases hx : x.shape with
          | nil => rw [hx] at h1; simp [isVector] at h1
          | cons _ _ => simp
        omega
      · rw [if_neg h1]; simp [h1]
    case sliceIncr =>
      subst hs
      rw [Operand.ty, Operand.ty, infer_ten_free _ rfl, apply_ta] at ht
      by_cases h1 : x.shape.length ≠ 0
      · rw [if_pos h1] at ht; cases ht; rw [valTy_pos _ _ h1]; rfl
      · rw [if_neg h1] at ht; cases ht
    case byIndices axis =>
      rw [Operand.ty, Operand.ty, infer_any_const _ rfl, apply_a] at ht
      by_cases h1 : y.dt = .int ∧ y.shape.length ≠ 0
      · rw [if_pos h1] at ht; cases ht
        unfold byIndicesShape at hs
        by_cases h2 : (!isVectorLike y.shape) = true
        · rw [if_pos h2] at hs; cases hs
        rw [if_neg h2] at hs
        by_cases h3 : axis < x.shape.length
        · rw [if_pos h3] at hs; cases hs; simp
        · rw [if_neg h3] at hs; cases hs
      · rw [if_neg h1] at ht; cases ht
    case between =>
      rw [Operand.ty, Operand.ty, infer_any_any _ rfl, apply_a] at ht
      by_cases h1 : y.dt = x.dt ∧ (y.shape.length = 0 ↔ x.shape.length = 0)
      · rw [if_pos h1] at ht; cases ht
        by_cases h2 : shapeEq x.shape y.shape = true
        · rw [if_pos h2] at hs; cases hs; rfl
        · rw [if_neg h2] at hs; cases hs
      · rw [if_neg h1] at ht; cases ht
  · cases op <;> simp [opShape] at hs

/-- The bound on the depth of unification in the model is never reached. -/
theorem applyOp_total (op : TOp) (xs : List Operand) (h : xs.length = arity op) : applyOp op xs ≠ none := by
  suffices hs : ∃ r, inferNodeType (opTy op xs) (xs.map Operand.ty) = some r by
    obtain ⟨r, hr⟩ := hs
    unfold applyOp
    rw [hr]
    cases r <;> simp
  rcases xs with _ | ⟨x, _ | ⟨y, _ | ⟨z, xs⟩⟩⟩
  · cases op <;> simp [arity] at h
  · simp only [List.map_cons, List.map_nil]
    have hten : ∀ k R, R.occurs 'b' = false → ∃ r, inferNodeType (mkFn [.tens k a] R) [x.ty] = some r :=
      fun k R hR => ⟨_, infer_ten R hR x.dt _ k⟩
    have hany : ∀ R, R.occurs 'b' = false → ∃ r, inferNodeType (mkFn [a] R) [x.ty] = some r := fun R hR => ⟨_, infer_any R hR x.dt _⟩
    cases op <;> simp [arity] at h <;> simp only [opTy, List.getD_cons_zero]
    case same => exact hany _ rfl
    case reduce =>
      have hred : ∀ d l, ∃ r, inferNodeType (reductionTy d l) [x.ty] = some r := by
        intro d l
        unfold reductionTy
        simp only
        generalize (l.filter (· < d)).dedup.length = n
        by_cases h1 : d = 1 ∨ n = 0 ∨ n = d
        · rw [if_pos h1]; exact hten _ _ rfl
        · rw [if_neg h1]
          by_cases h2 : n = d - 1
          · rw [if_pos h2]; exact hten _ _ rfl
          · rw [if_neg h2]; exact hten _ _ rfl
      exact hred _ _
    case at_ => exact hten _ _ rfl
    case sizeOf => split; exact hany _ rfl; exact hten _ _ rfl
    case slice =>
      split
      · split
        · exact hten _ _ rfl
        · exact hten _ _ rfl
      · exact hten _ _ rfl
    case transpose => exact hten _ _ rfl
    case reshape q =>
      split
      · by_cases h1 : x.shape.length = 0 <;> by_cases h2 : q.length = 0
        · rw [if_pos h1, if_pos h2]; exact hany _ rfl
        · rw [if_pos h1, if_neg h2]; exact hany _ rfl
        · rw [if_neg h1, if_pos h2]; exact hten _ _ rfl
        · rw [if_neg h1, if_neg h2]; exact hten _ _ rfl
      · exact hany _ rfl
    case diagFlat => exact hany _ rfl
    case dtConv f g => split; exact ⟨_, infer_dt _ rfl x.dt f _⟩; exact ⟨_, infer_tdt _ rfl x.dt f _ _⟩
    case spatial => exact hten _ _ rfl
    case batchNorm => exact hten _ _ rfl
  · simp only [List.map_cons, List.map_nil]
    cases op <;> simp [arity] at h <;> simp only [opTy, List.getD_cons_zero, List.getD_cons_succ]
    case elem ar rs => exact ⟨_, elem_type ar rs x y⟩
    case matMul => exact ⟨_, infer_ten_ten _ rfl x.dt y.dt _ _ _ _⟩
    case matVec => exact ⟨_, infer_ten_ten _ rfl x.dt y.dt _ _ _ _⟩
    case vecDot => exact ⟨_, infer_ten_ten _ rfl x.dt y.dt _ _ _ _⟩
    case outer => exact ⟨_, infer_ten_ten _ rfl x.dt y.dt _ _ _ _⟩
    case batched => exact ⟨_, infer_any_any _ rfl x.dt y.dt _ _⟩
    case repeat_ => split; exact ⟨_, infer_any_any _ rfl x.dt y.dt _ _⟩; exact ⟨_, infer_ten_any _ rfl x.dt y.dt _ _ _⟩
    case sliceIncr => exact ⟨_, infer_ten_free _ rfl x.dt y.dt _ _ _⟩
    case byIndices => exact ⟨_, infer_any_const _ rfl x.dt y.dt _ _ _ _⟩
    case between => exact ⟨_, infer_any_any _ rfl x.dt y.dt _ _⟩
  · cases op <;> simp [arity] at h

/-! ### What is checked -/

/-- The element type expected of the second operand. -/
def secondDt : TOp → Dt → Dt
  | .byIndices _, _ => .int
  | _, d => d

/-- **C71 (element types).** Operations of two operands are built only for equal element types; the exceptions are `ByIndices`, whose indices
have type `Int`, and the incrementing of a slice. -/
theorem applyOp_dt (op : TOp) (x y : Operand) (t : Ty) (s : List Nat) (h : applyOp op [x, y] = some (.ok (t, s)))
    (h1 : op ≠ .sliceIncr) : y.dt = secondDt op x.dt := by
  obtain ⟨ht, hs⟩ := applyOp_ok h
  clear h
  simp only [List.map_cons, List.map_nil] at ht hs
  cases op <;> simp only [opShape, Res.ok.injEq, reduceCtorEq] at hs <;>
    simp only [opTy, List.getD_cons_zero, List.getD_cons_succ] at ht <;> simp only [secondDt]
  case elem ar rs =>
    rw [elem_type] at ht
    by_contra hd
    rw [if_neg hd] at ht; cases ht
  case matMul =>
    rw [Operand.ty, Operand.ty, infer_ten_ten _ rfl] at ht
    by_contra hd
    rw [if_neg (by tauto)] at ht; cases ht
  case matVec =>
    rw [Operand.ty, Operand.ty, infer_ten_ten _ rfl] at ht
    by_contra hd
    rw [if_neg (by tauto)] at ht; cases ht
  case vecDot =>
    rw [Operand.ty, Operand.ty, infer_ten_ten _ rfl] at ht
    by_contra hd
    rw [if_neg (by tauto)] at ht; cases ht
  case outer =>
    rw [Operand.ty, Operand.ty, infer_ten_ten _ rfl] at ht
    by_contra hd
    rw [if_neg (by tauto)] at ht; cases ht
  case batched =>
    rw [Operand.ty, Operand.ty, infer_any_any _ rfl] at ht
    by_contra hd
    rw [if_neg (by tauto)] at ht; cases ht
  case between =>
    rw [Operand.ty, Operand.ty, infer_any_any _ rfl] at ht
    by_contra hd
    rw [if_neg (by tauto)] at ht; cases ht
  case repeat_ =>
    by_contra hd
    by_cases h0 : x.shape.length = 0
    · rw [if_pos h0, Operand.ty, Operand.ty, infer_any_any _ rfl, if_neg (by tauto)] at ht; cases ht
    · rw [if_neg h0, Operand.ty, Operand.ty, infer_ten_any _ rfl, if_neg (by tauto)] at ht; cases ht
  case sliceIncr => exact absurd rfl h1
  case byIndices =>
    rw [Operand.ty, Operand.ty, infer_any_const _ rfl] at ht
    by_cases hc : y.dt = .int ∧ y.shape.length ≠ 0
    · exact hc.1
    · rw [if_neg hc] at ht; cases ht

/-- **C71 (scalars).** Products of linear algebra are never built with a scalar operand. -/
theorem applyOp_no_scalar (op : TOp) (ho : (∃ tA tB, op = .matMul tA tB) ∨ (∃ tA, op = .matVec tA) ∨ op = .vecDot ∨ op = .outer)
    (x y : Operand) (t : Ty) (s : List Nat) (h : applyOp op [x, y] = some (.ok (t, s))) : x.shape ≠ [] ∧ y.shape ≠ [] := by
  obtain ⟨ht, _⟩ := applyOp_ok h
  have key : ∀ R k k', R.occurs 'b' = false → inferNodeType (mkFn [.tens k a, .tens k' a] R) [x.ty, y.ty] = some (.ok t) →
      x.shape ≠ [] ∧ y.shape ≠ [] := by
    intro R k k' hR hi
    rw [Operand.ty, Operand.ty, infer_ten_ten _ hR] at hi
    by_cases hc : x.shape.length ≠ 0 ∧ y.dt = x.dt ∧ y.shape.length ≠ 0
    · exact ⟨by simpa using hc.1, by simpa using hc.2.2⟩
    · rw [if_neg hc] at hi; cases hi
  rcases ho with ⟨tA, tB, rfl⟩ | ⟨tA, rfl⟩ | rfl | rfl <;> exact key _ _ _ rfl ht

/-- **C71, refuted: the number of axes is not checked.** The matrix product is built for tensors of any ranks from 2 up, whatever the sizes after
the first two. -/
theorem matMul_any_rank (d : Dt) (m k n : Nat) (p q : List Nat) :
    applyOp (.matMul false false) [⟨d, m :: k :: p⟩, ⟨d, k :: n :: q⟩] = some (.ok (.tens 2 (.dt d), [m, n])) := by
  have h := infer_ten_ten (.tens 2 a) rfl d d (p.length + 1 + 1) (q.length + 1 + 1) 2 2
  rw [if_pos ⟨by omega, rfl, by omega⟩, apply_ta] at h
  unfold applyOp
  simp only [List.map_cons, List.map_nil, opTy, Operand.ty, List.length_cons, h]
  simp [opShape, inferMatMul, Res.bind]

/-- **C71, refuted: incrementing a slice.** Any element type is accepted for the increment. -/
theorem sliceIncr_any_dt (d d' : Dt) (x y : List Nat) (hx : x ≠ []) :
    applyOp .sliceIncr [⟨d, x⟩, ⟨d', y⟩] = some (.ok (valTy d x.length, x)) := by
  have hl : x.length ≠ 0 := by simpa using hx
  have h := infer_ten_free (.tens x.length a) rfl d d' x.length y.length x.length
  rw [if_pos hl, apply_ta] at h
  unfold applyOp
  simp only [List.map_cons, List.map_nil, opTy, Operand.ty, List.getD_cons_zero, h]
  rw [valTy_pos _ _ hl]
  rfl

/-- **C71, refuted: `DiagFlat`.** For every tensor the node has a type that is not the type of any value: matrix of tensors. -/
theorem diagFlat_type (d : Dt) (x : List Nat) (hx : x ≠ []) :
    applyOp .diagFlat [⟨d, x⟩] = some (.ok (.tens 2 (.tens x.length (.dt d)), [size x, size x])) ∧
    ∀ d' r, Ty.tens 2 (.tens x.length (.dt d)) ≠ valTy d' r := by
  have hl : x.length ≠ 0 := by simpa using hx
  constructor
  · have h := infer_any (.tens 2 a) rfl d x.length
    rw [apply_ta] at h
    unfold applyOp
    simp only [List.map_cons, List.map_nil, opTy, Operand.ty, h]
    rw [valTy_pos _ _ hl]
    rfl
  · intro d' r
    unfold valTy
    by_cases h : r = 0 <;> simp [h]

/-- **C71, refuted: `Repeat` along a new axis.** The type of the node stays that of a vector. -/
theorem repeat_type (d : Dt) (n rep : Nat) (hn : n ≠ 0) :
    applyOp (.repeat_ 1 rep) [⟨d, [n]⟩, ⟨d, []⟩] = some (.ok (.tens 1 (.dt d), [n, rep])) := by
  have h := infer_ten_any (.tens 1 a) rfl d d 1 0 1
  rw [if_pos ⟨by omega, rfl, rfl⟩, apply_ta] at h
  unfold applyOp
  have e : opTy (.repeat_ 1 rep) [⟨d, [n]⟩, ⟨d, []⟩] = mkFn [.tens 1 a, a] (.tens 1 a) := rfl
  simp only [List.map_cons, List.map_nil, Operand.ty, e]
  rw [show ([n] : List Nat).length = 1 from rfl, show ([] : List Nat).length = 0 from rfl, h]
  simp [opShape, repeatShape, isVector, Res.bind, hn]

/-! ### Products -/

/-- **C71 (products).** For nodes with the right type, `Mul` picks the operation by the numbers of axes. -/
theorem mul_choice (x y : Operand) : mulOp x.nd y.nd =
    match x.shape.length, y.shape.length with
    | 0, _ => .ok (.elem true false, false)
    | _, 0 => .ok (.elem true false, false)
    | 1, 1 => .ok (.vecDot, false)
    | 1, 2 => .ok (.matVec true, true)
    | 2, 1 => .ok (.matVec false, false)
    | 2, 2 => .ok (.matMul false false, false)
    | _, _ => .err := by
  unfold mulOp Nd.isScalar Nd.isVector Nd.isMatrix Operand.nd Operand.ty
  simp only
  generalize x.shape.length = r
  generalize y.shape.length = r'
  match r, r' with
  | 0, _ => simp [valTy]
  | _ + 1, 0 => simp [valTy]
  | 1, 1 => simp [valTy]
  | 1, 2 => simp [valTy]
  | 2, 1 => simp [valTy]
  | 2, 2 => simp [valTy]
  | 1, n + 3 => simp [valTy]; omega
  | 2, n + 3 => simp [valTy]; omega
  | n + 3, 1 => simp [valTy]; omega
  | n + 3, 2 => simp [valTy]; omega
  | n + 3, m + 3 => simp [valTy]; omega

/-- **C71, refuted: products with repeated vectors.** A vector repeated into a matrix of shape `(k, n)`, multiplied from the left with a matrix of
shape `(m, k)`, is taken as a product with a vector: a node of shape `(m)` is built. -/
theorem mul_repeated (d : Dt) (m k n : Nat) (hk : k ≠ 0) :
    ∃ t, applyOp (.repeat_ 1 n) [⟨d, [k]⟩, ⟨d, []⟩] = some (.ok (t, [k, n])) ∧
      mulOp (Operand.nd ⟨d, [m, k]⟩) ⟨t, [k, n]⟩ = .ok (.matVec false, false) ∧
      inferNodeType (opTy (.matVec false) []) [valTy d 2, t] = some (.ok (valTy d 1)) ∧
      opShape (.matVec false) [[m, k], [k, n]] = .ok (if m = k then [k] else [m]) := by
  refine ⟨_, repeat_type d k n hk, by simp [mulOp, Nd.isScalar, Nd.isVector, Nd.isMatrix, Operand.nd, Operand.ty, valTy], ?_, ?_⟩
  · have h := infer_ten_ten (.tens 1 a) rfl d d 2 1 2 1
    rw [if_pos ⟨by omega, rfl, by omega⟩, apply_ta] at h
    exact h
  · by_cases h : m = k <;> simp [opShape, inferMatVec, h]

/-! ### Examples -/

/-- Sums over one of two axes; a comparison; a product. -/
example : applyOp (.reduce [1]) [⟨.float64, [2, 3]⟩] = some (.ok (.tens 1 (.dt .float64), [2])) := by decide
example : applyOp (.elem false false) [⟨.float32, [2, 3]⟩, ⟨.float32, []⟩] = some (.ok (.tens 2 (.dt .bool), [2, 3])) := by decide
example : applyOp (.matMul false true) [⟨.float32, [2, 3]⟩, ⟨.float32, [4, 3]⟩] = some (.ok (.tens 2 (.dt .float32), [2, 4])) := by decide
example : applyOp (.matMul false true) [⟨.float32, [2, 3]⟩, ⟨.float64, [4, 3]⟩] = some .err := by decide

/-- The remaining cases of `Wrong` occur: single elements with different numbers of axes, and an axis listed twice. -/
example : applyOp (.elem true false) [⟨.float64, [1]⟩, ⟨.float64, [1, 1]⟩] = some (.ok (.tens 2 (.dt .float64), [1])) := by decide
example : applyOp (.reduce [0, 0]) [⟨.float64, [2, 3, 4]⟩] = some (.ok (.tens 1 (.dt .float64), [3, 4])) := by decide

end Verif.Types
