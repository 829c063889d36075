import Verif.Shape.Reduce
import Mathlib.Algebra.BigOperators.Intervals
/-!
Gradients of the operations that only move elements around: `Repeat` (C60), `Broadcast` (C61), `Slice` (C62) and `Reshape`
(C63).  `/repo/op_tensor.go`, `/repo/broadcast.go`.
-/
set_option autoImplicit false
namespace Verif.Shape
open Verif.Tensor

/-! ### Model -/

/-- `repeatOp.SymDiff`, op_tensor.go 252-260: the gradient of the repeated operand. -/
noncomputable def repeatDiff (along : Nat) (g : T ℝ) : Res (T ℝ) := sumNode g [along]

/-- A vector counts as a column vector (op_tensor.go 283-286). -/
def colShape : List Nat → List Nat
  | [n] => [n, 1]
  | s => s

/-- The derivative `repeatOp.DoDiff` computes before adding (op_tensor.go 288-334). -/
noncomputable def repeatBack (along rep : Nat) (xs : List Nat) (yd : T ℝ) : Res (T ℝ) :=
  match (colShape xs)[along]? with
  | none => if xs = [] then reduceDo sumAxes [along] yd else .panic
  | some d =>
    if d = 1 then reduceDo sumAxes [along] yd
    else
      let newShape := (colShape xs).take (along + 1) ++ rep :: (colShape xs).drop (along + 1)
      if size newShape ≠ size yd.shape then .err
      else (reduceDo sumAxes [along + 1] (yd.reshape newShape)).bind fun d =>
        if size d.shape ≠ size (colShape xs) then .err else .ok (d.reshape (colShape xs))

/-- `repeatOp.DoDiff`, op_tensor.go 262-345: the new derivative of the operand. -/
noncomputable def repeatDoDiff (along rep : Nat) (xd yd : T ℝ) : Res (T ℝ) :=
  (repeatBack along rep xd.shape yd).bind fun d => elemVal (· + ·) xd d

/-- The gradient that reverse mode builds for the operand of one half of `Broadcast`: the repetitions are undone last axis
first (each by `repeatOp.SymDiff`), then the reshape (`reshapeOp.SymDiff`, op_tensor.go 1251-1258). -/
noncomputable def broadcastDiff (axes xshape : List Nat) (g : T ℝ) : Res (T ℝ) :=
  if axes = [] then .ok g
  else (axes.foldr (fun a (acc : Res (T ℝ)) => acc.bind (repeatDiff a)) (Res.ok g)).bind fun s => reshape s (xshape.map Int.ofNat)

/-- `sliceIncrOp.Do`, op_tensor.go 729-769: a zero tensor of the operand's shape, to whose slice the increment is added. The
values of the first operand are not used. -/
noncomputable def sliceIncr (ax s e : Nat) (t g : T ℝ) : T ℝ :=
  ⟨t.shape, fun i => if s ≤ i.getD ax 0 ∧ i.getD ax 0 < e then
      0 + (if e - s = 1 then g.at_ (i.eraseIdx ax) else g.at_ (i.set ax (i.getD ax 0 - s))) else 0⟩

/-- `sliceOp.DoDiff` (op_tensor.go 558-577) through `sliceIncrOp.UsePreallocDo` (776-814) on the derivative held: the
increment is added to the slice of it. -/
noncomputable def sliceDoDiff (ax s e : Nat) (xd yd : T ℝ) : T ℝ :=
  ⟨xd.shape, fun i => if s ≤ i.getD ax 0 ∧ i.getD ax 0 < e then
      xd.at_ i + (if e - s = 1 then yd.at_ (i.eraseIdx ax) else yd.at_ (i.set ax (i.getD ax 0 - s))) else xd.at_ i⟩

/-- `sliceIncrOp.DiffWRT` and `SymDiff`, op_tensor.go 689-705: which operands are differentiable, and the gradients. -/
def sliceIncrDiffWRT : Bool × Bool := (true, false)

noncomputable def sliceIncrSymDiff (ax s e : Nat) (g : T ℝ) : Res (T ℝ × T ℝ) :=
  (sliceT ax s e g).bind fun sl => .ok (g, sl)

/-- `reshapeOp.SymDiff`, op_tensor.go 1251-1258. -/
def reshapeDiff {α : Type} (from_ : List Nat) (g : T α) : Res (T α) := reshape g (from_.map Int.ofNat)

/-- `reshapeOp.DoDiff`, op_tensor.go 1260-1273: the gradient of the result is reshaped in place and becomes the derivative
of the operand. Result: new derivatives of operand and result. -/
def reshapeDoDiff {α : Type} (from_ : List Nat) (_xd yd : T α) : Res (T α × T α) :=
  if yd.shape = [] then .panic -- `grad.(tensor.Tensor)` of a scalar
  else if size from_ ≠ size yd.shape then .err
  else .ok (yd.reshape from_, yd.reshape from_)

/-! ### Moving elements -/

/-- An operation that reads element `φ i` for position `i` has as gradient the sum of the incoming gradient over the
positions that read an element. -/
theorem gather_grad (F : T ℝ → Res (T ℝ)) (t g r : T ℝ) (s' : List Nat) (φ : List Nat → List Nat)
    (hφ : ∀ i, InB s' i → InB t.shape (φ i))
    (hF : ∀ x : T ℝ, x.shape = t.shape → ∃ y, F x = .ok y ∧ y.shape = s' ∧ ∀ i, InB s' i → y.at_ i = x.at_ (φ i))
    (hg : g.shape = s') (hr : r.shape = t.shape)
    (hra : ∀ j, InB t.shape j → r.at_ j = sumOver s' fun i => if φ i = j then g.at_ i else 0) : IsGrad F t g r := by
  refine ⟨hr, fun d hd => ?_⟩
  choose y y1 y2 y3 using fun τ : ℝ => hF (moveT t d τ) rfl
  refine ⟨y, Filter.Eventually.of_forall fun τ => ⟨y1 τ, (y2 τ).trans hg.symm⟩, ?_⟩
  refine (hasDerivAt_pair g y (fun i => d.at_ (φ i)) (fun i hi => ?_)).congr_deriv ?_
  · have e : (fun τ => (y τ).at_ i) = fun τ => t.at_ (φ i) + τ * d.at_ (φ i) := funext fun τ => y3 τ i (hg ▸ hi)
    rw [e]
    exact hasDerivAt_line _ _
  · rw [pair_eq, hr, hg]
    have e : (sumOver t.shape fun j => r.at_ j * d.at_ j) =
        sumOver t.shape fun j => d.at_ j * sumOver s' fun i => if φ i = j then g.at_ i else 0 :=
      sumOver_congr _ _ _ (fun j hj => by rw [hra j hj]; ring)
    rw [e, sum_fibres s' t.shape φ hφ]
    exact sumOver_congr _ _ _ (fun i _ => by ring)

/-- Testing a gradient at one position. -/
theorem pair_single (r : T ℝ) (s i : List Nat) (hr : r.shape = s) (hi : InB s i) :
    pair r ⟨s, fun j => if i = j then 1 else 0⟩ = r.at_ i := by
  rw [pair_eq, hr, ← sumOver_single s i r.at_ hi]
  refine sumOver_congr _ _ _ (fun j _ => ?_)
  by_cases hj : i = j
  · subst hj; simp
  · rw [if_neg hj]
    show r.at_ j * (if i = j then 1 else 0) = 0
    rw [if_neg hj, mul_zero]

/-- Two gradients of the same function agree at every position. -/
theorem IsGrad.at {F : T ℝ → Res (T ℝ)} {t g r r' : T ℝ} (h : IsGrad F t g r) (h' : IsGrad F t g r') (i : List Nat)
    (hi : InB t.shape i) : r.at_ i = r'.at_ i := by
  have := h.unique h' ⟨t.shape, fun j => if i = j then 1 else 0⟩ rfl
  rwa [pair_single r _ i h.1 hi, pair_single r' _ i h'.1 hi] at this

theorem sumOver_zero (s : List Nat) (F : List Nat → ℝ) (h : ∀ i, InB s i → F i = 0) : sumOver s F = 0 := by
  rw [sumOver_congr s F (fun _ => 0) h]; simp [sumOver]

/-! ### Repeat -/

theorem repeat_spec {α : Type} (t : T α) (a rep : Nat) (ha : a < t.shape.length) : ∃ r, repeat_ t a rep = .ok r ∧
    r.shape = t.shape.set a (t.shape.getD a 0 * rep) ∧ ∀ i, r.at_ i = t.at_ (i.set a (i.getD a 0 / rep)) := by
  have hrs : repeatShape t.shape a rep = .ok (t.shape.set a (t.shape.getD a 0 * rep)) := by
    unfold repeatShape
    have c1 : (isVector t.shape && decide (t.shape.length ≤ a)) = false := by
      simp; intro _; omega
    have c2 : t.shape ≠ [] := by intro e; rw [e] at ha; simp at ha
    have c3 : t.shape[a]? = some (t.shape.getD a 0) := by simp [ha]
    simp only [c1, Bool.false_eq_true, if_false, c2, c3]
  exact ⟨⟨t.shape.set a (t.shape.getD a 0 * rep), fun i => t.at_ (i.set a (i.getD a 0 / rep))⟩, by unfold repeat_; rw [hrs]; rfl, rfl, fun _ => rfl⟩

theorem inB_set_lt {s i : List Nat} (hi : InB s i) (a d q : Nat) (hq : q < d) : InB (s.set a d) (i.set a q) := by
  rw [inB_iff] at hi ⊢
  refine ⟨by simpa using hi.1, fun k hk => ?_⟩
  simp only [List.length_set] at hk
  have h2 := hi.2 k hk
  by_cases hka : a = k
  · subst hka
    rw [getD_set _ _ _ _ (by rw [hi.1]; exact hk), getD_set _ _ _ _ hk, if_pos rfl, if_pos rfl]
    exact hq
  · simp only [List.getD_eq_getElem?_getD, List.getElem?_set_ne hka] at h2 ⊢
    exact h2

theorem inB_set_self {s i : List Nat} (a d q : Nat) (hi : InB (s.set a d) i) (ha : a < s.length) (hq : q < s.getD a 0) :
    InB s (i.set a q) := by
  have := inB_set_lt hi a (s.getD a 0) q hq
  rwa [List.set_set, set_getD_self] at this

theorem sum_range_mul (d rep : Nat) (F : Nat → ℝ) :
    (∑ k ∈ Finset.range (d * rep), F k) = ∑ q ∈ Finset.range d, ∑ r ∈ Finset.range rep, F (q * rep + r) := by
  induction d with
  | zero => simp
  | succ d ih => rw [Nat.succ_mul, Finset.sum_range_add, ih, Finset.sum_range_succ]

/-- The positions that read a given element of the operand of a repetition are its copies. -/
theorem repeat_fibre (s : List Nat) (a rep : Nat) (ha : a < s.length) (hrep : 0 < rep) (F : List Nat → ℝ) (j : List Nat)
    (hj : InB s j) :
    (sumOver (s.set a (s.getD a 0 * rep)) fun i => if i.set a (i.getD a 0 / rep) = j then F i else 0) =
      ∑ r ∈ Finset.range rep, F (j.set a (j.getD a 0 * rep + r)) := by
  induction s generalizing a F j with
  | nil => simp at ha
  | cons d s ih =>
    cases j with
    | nil => exact hj.elim
    | cons q j =>
      cases a with
      | zero =>
        simp only [List.set_cons_zero, List.getD_cons_zero]
        rw [sumOver_cons, sum_range_mul]
        simp only [List.set_cons_zero, List.getD_cons_zero]
        rw [Finset.sum_eq_single q]
        · refine Finset.sum_congr rfl (fun r hr => ?_)
          have hdiv : (q * rep + r) / rep = q := by
            rw [Nat.mul_comm, Nat.mul_add_div hrep, Nat.div_eq_of_lt (Finset.mem_range.1 hr)]; rfl
          rw [hdiv]
          rw [← sumOver_single s j (fun i => F ((q * rep + r) :: i)) hj.2]
          refine sumOver_congr _ _ _ (fun i _ => ?_)
          by_cases h : j = i
          · subst h; simp
          · rw [if_neg h, if_neg (by simp; exact fun e => h e.symm)]
        · intro b _ hb
          refine Finset.sum_eq_zero (fun r hr => ?_)
          have hdiv : (b * rep + r) / rep = b := by
            rw [Nat.mul_comm, Nat.mul_add_div hrep, Nat.div_eq_of_lt (Finset.mem_range.1 hr)]; rfl
          rw [hdiv]
          refine sumOver_zero _ _ (fun i _ => ?_)
          rw [if_neg (by simp [hb])]
        · intro h; exact absurd (Finset.mem_range.2 hj.1) h
      | succ a =>
        simp only [List.set_cons_succ, List.getD_cons_succ]
        rw [sumOver_cons]
        simp only [List.set_cons_succ, List.getD_cons_succ]
        rw [Finset.sum_eq_single q]
        · rw [← ih a (by simpa using ha) (fun i => F (q :: i)) j hj.2]
          refine sumOver_congr _ _ _ (fun i _ => ?_)
          by_cases h : i.set a (i.getD a 0 / rep) = j
          · rw [if_pos h, if_pos (by rw [h])]
          · rw [if_neg h, if_neg (by simp only [List.cons.injEq, true_and]; exact h)]
        · intro b _ hb
          refine sumOver_zero _ _ (fun i _ => ?_)
          rw [if_neg (by simp [hb])]
        · intro h; exact absurd (Finset.mem_range.2 hj.1) h

/-- The gradient of a repetition: every element gets the sum of the incoming gradient over its copies. -/
theorem repeat_grad (t g : T ℝ) (a rep : Nat) (ha : a < t.shape.length) (hrep : 0 < rep)
    (hg : g.shape = t.shape.set a (t.shape.getD a 0 * rep)) (r : T ℝ) (hr : r.shape = t.shape)
    (hra : ∀ j, InB t.shape j → r.at_ j = ∑ q ∈ Finset.range rep, g.at_ (j.set a (j.getD a 0 * rep + q))) :
    IsGrad (fun x => repeat_ x a rep) t g r := by
  refine gather_grad _ t g r (t.shape.set a (t.shape.getD a 0 * rep)) (fun i => i.set a (i.getD a 0 / rep)) ?_ ?_ hg hr ?_
  · intro i hi
    refine inB_set_self a _ _ hi ha ?_
    have := inB_getD hi (show (t.shape.set a (t.shape.getD a 0 * rep))[a]? = some (t.shape.getD a 0 * rep) by simp [ha])
    exact Nat.div_lt_of_lt_mul (by rw [Nat.mul_comm]; exact this)
  · intro x hx
    obtain ⟨y, y1, y2, y3⟩ := repeat_spec x a rep (by rw [hx]; exact ha)
    exact ⟨y, y1, by rw [y2, hx], fun i _ => y3 i⟩
  · intro j hj
    rw [hra j hj, repeat_fibre t.shape a rep ha hrep g.at_ j hj]

theorem drop_below (A l : List Nat) (k : Nat) (h : ∀ a ∈ A, a < k) : dropAxes A k l = l := by
  induction l generalizing k with
  | nil => rfl
  | cons x l ih =>
    simp only [dropAxes]
    rw [if_neg (fun hk => absurd (h k hk) (by omega)), ih (k + 1) (fun a ha => by have := h a ha; omega)]

/-- Positions of a tensor with one axis dropped. -/
theorem drop_fibre (s : List Nat) (p k : Nat) (hp : p < s.length) (F : List Nat → ℝ) (j : List Nat)
    (hj : InB (dropAxes [p + k] k s) j) :
    (sumOver s fun i => if dropAxes [p + k] k i = j then F i else 0) = ∑ q ∈ Finset.range (s.getD p 0), F (j.insertIdx p q) := by
  induction s generalizing p k F j with
  | nil => simp at hp
  | cons d s ih =>
    rw [sumOver_cons]
    cases p with
    | zero =>
      have hn : ∀ l : List Nat, dropAxes [0 + k] (k + 1) l = l := fun l => drop_below _ _ _ (by simp)
      have hc : ∀ (a : Nat) (l : List Nat), dropAxes [0 + k] k (a :: l) = l := by
        intro a l
        simp only [dropAxes]
        rw [if_pos (by simp), hn]
      rw [hc] at hj
      simp only [hc, List.getD_cons_zero, List.insertIdx_zero]
      refine Finset.sum_congr rfl (fun a _ => ?_)
      rw [← sumOver_single s j (fun i => F (a :: i)) hj]
      refine sumOver_congr _ _ _ (fun i _ => ?_)
      by_cases h : j = i
      · rw [if_pos h, if_pos h.symm]
      · rw [if_neg h, if_neg (fun e => h e.symm)]
    | succ p =>
      have hc : ∀ (a : Nat) (l : List Nat), dropAxes [p + 1 + k] k (a :: l) = a :: dropAxes [p + (k + 1)] (k + 1) l := by
        intro a l
        simp only [dropAxes]
        rw [if_neg (by simp)]
        have : p + 1 + k = p + (k + 1) := by omega
        rw [this]
      rw [hc] at hj
      cases j with
      | nil => exact hj.elim
      | cons b j =>
        simp only [hc, List.getD_cons_succ, List.insertIdx_succ_cons]
        rw [Finset.sum_eq_single b]
        · rw [← ih p (k + 1) (by simpa using hp) (fun i => F (b :: i)) j hj.2]
          refine sumOver_congr _ _ _ (fun i _ => ?_)
          by_cases h : dropAxes [p + (k + 1)] (k + 1) i = j
          · rw [if_pos h, if_pos (by rw [h])]
          · rw [if_neg h, if_neg (by simp only [List.cons.injEq, true_and]; exact h)]
        · intro c _ hcb
          refine sumOver_zero _ _ (fun i _ => ?_)
          rw [if_neg (by simp [hcb])]
        · intro h; exact absurd (Finset.mem_range.2 hj.1) h

theorem drop_fibre0 (s : List Nat) (p : Nat) (hp : p < s.length) (F : List Nat → ℝ) (j : List Nat)
    (hj : InB (dropAxes [p] 0 s) j) :
    (sumOver s fun i => if dropAxes [p] 0 i = j then F i else 0) = ∑ q ∈ Finset.range (s.getD p 0), F (j.insertIdx p q) :=
  drop_fibre s p 0 hp F j hj

theorem drop_one_size (s : List Nat) (p k : Nat) (hp : p < s.length) : size (dropAxes [p + k] k s) * s.getD p 0 = size s := by
  induction s generalizing p k with
  | nil => simp at hp
  | cons d s ih =>
    cases p with
    | zero =>
      simp only [dropAxes]
      rw [if_pos (by simp), drop_below _ _ _ (by simp)]
      simp [size, Nat.mul_comm]
    | succ p =>
      simp only [dropAxes]
      rw [if_neg (by simp)]
      have h := ih p (k + 1) (by simpa using hp)
      have e : p + 1 + k = p + (k + 1) := by omega
      rw [e]
      simp only [size, List.getD_cons_succ]
      rw [← h, Nat.mul_assoc]

/-- An index with one axis dropped, when the axis is put back. -/
theorem drop_insert (p k q : Nat) (j : List Nat) (hp : p ≤ j.length) : dropAxes [p + k] k (j.insertIdx p q) = j := by
  induction j generalizing p k with
  | nil =>
    have : p = 0 := by simpa using hp
    subst this
    simp [dropAxes]
  | cons b j ih =>
    cases p with
    | zero =>
      simp only [List.insertIdx_zero, dropAxes]
      rw [if_pos (by simp)]
      have := drop_below [0 + k] (b :: j) (k + 1) (by simp)
      simpa [dropAxes] using this
    | succ p =>
      simp only [List.insertIdx_succ_cons, dropAxes]
      rw [if_neg (by simp)]
      have e : p + 1 + k = p + (k + 1) := by omega
      rw [e, ih p (k + 1) (by simpa using hp)]

theorem insert_drop (p k q : Nat) (i : List Nat) (hp : p < i.length) :
    (dropAxes [p + k] k i).insertIdx p q = i.set p q := by
  induction i generalizing p k with
  | nil => simp at hp
  | cons b i ih =>
    cases p with
    | zero =>
      simp only [dropAxes]
      rw [if_pos (by simp), drop_below _ _ _ (by simp)]
      simp
    | succ p =>
      simp only [dropAxes]
      rw [if_neg (by simp)]
      have e : p + 1 + k = p + (k + 1) := by omega
      rw [e, List.insertIdx_succ_cons, ih p (k + 1) (by simpa using hp), List.set_cons_succ]

theorem ne_zero_set {s : List Nat} (hp : ∀ d ∈ s, d ≠ 0) (a v : Nat) (hv : v ≠ 0) : ∀ d ∈ s.set a v, d ≠ 0 := by
  intro d hd
  rcases List.mem_or_eq_of_mem_set hd with h | h
  · exact hp d h
  · rw [h]; exact hv

theorem drop_set_one (s : List Nat) (a v k : Nat) : dropAxes [a + k] k (s.set a v) = dropAxes [a + k] k s := by
  induction s generalizing a k with
  | nil => rfl
  | cons d s ih =>
    cases a with
    | zero => simp [dropAxes]
    | succ a =>
      simp only [List.set_cons_succ, dropAxes]
      have e : a + 1 + k = a + (k + 1) := by omega
      rw [if_neg (by simp), if_neg (by simp), e, ih a (k + 1)]

theorem setAxes_one (s : List Nat) (a v : Nat) : setAxes v [a] 0 s = s.set a v := by
  have := foldl_set v [a] s
  simpa using this.symm

/-- **C60 (unit axis, symbolic).** For an axis of size 1 the built gradient has the right elements, in a tensor without the
axis. Missing: the shape (`repeat_gradient_rank`), and every axis with more elements (`repeat_gradient_wrong`). -/
theorem repeat_gradient_partial (t g : T ℝ) (a rep : Nat) (ha : a < t.shape.length) (hrep : 0 < rep) (hp : ∀ d ∈ t.shape, d ≠ 0)
    (h1 : t.shape.getD a 0 = 1) (hg : g.shape = t.shape.set a rep) :
    ∃ r, repeatDiff a g = .ok r ∧ r.shape = dropAxes [a] 0 t.shape ∧
      IsGrad (fun x => repeat_ x a rep) t g (r.reshape t.shape) := by
  have hga : a < g.shape.length := by rw [hg]; simpa using ha
  obtain ⟨r, r1, r2, _, r3⟩ := sum_value g [a] (by intro e; rw [e] at hga; simp at hga) (by simpa using hga)
    (by rw [hg]; exact ne_zero_set hp a rep (by omega))
  have hax : axesOf g.shape.length [a] = [a] := rfl
  rw [hax] at r2 r3
  have hds : dropAxes [a] 0 g.shape = dropAxes [a] 0 t.shape := by rw [hg]; exact drop_set_one t.shape a rep 0
  rw [hds] at r2
  refine ⟨r, r1, r2, ?_⟩
  refine repeat_grad t g a rep ha hrep (by rw [h1, Nat.one_mul]; exact hg) _ rfl (fun j hj => ?_)
  have hja : j.getD a 0 = 0 := by
    have := inB_getD hj (show t.shape[a]? = some 1 by rw [← h1]; simp [ha])
    omega
  have hjs : j.set a 0 = j := by rw [← hja, set_getD_self]
  have hts : t.shape.set a 1 = t.shape := by rw [← h1, set_getD_self]
  have hrav : ravel t.shape j = ravel (dropAxes [a] 0 t.shape) (dropAxes [a] 0 j) := by
    have := ravel_drop [a] t.shape j 0 hj
    rwa [setAxes_one, setAxes_one, hjs, hts] at this
  have hb : InB (dropAxes [a] 0 t.shape) (dropAxes [a] 0 j) := inB_drop _ _ _ _ hj
  rw [reshape_at, hrav, ← r2, flat_ravel r (by rw [r2]; exact hb), r3 _ (by rw [r2]; exact hb)]
  rw [drop_fibre0 g.shape a hga g.at_ _ (by rw [hds]; exact hb)]
  have hgs : g.shape.getD a 0 = rep := by rw [hg, getD_set _ _ _ _ ha, if_pos rfl]
  rw [hgs]
  refine Finset.sum_congr rfl (fun q _ => ?_)
  rw [hja, Nat.zero_mul, Nat.zero_add]
  congr 1
  exact insert_drop a 0 q j (by rw [hj.length]; exact ha)

/-- **C60, refuted: rank.** The built gradient never has the shape of the operand. -/
theorem repeat_gradient_rank (t g : T ℝ) (a rep : Nat) (ha : a < t.shape.length) (hrep : 0 < rep) (hp : ∀ d ∈ t.shape, d ≠ 0)
    (hg : g.shape = t.shape.set a (t.shape.getD a 0 * rep)) :
    ∃ r, repeatDiff a g = .ok r ∧ r.shape = dropAxes [a] 0 t.shape ∧ r.shape.length + 1 = t.shape.length ∧
      size r.shape * t.shape.getD a 0 = size t.shape ∧ ¬ IsGrad (fun x => repeat_ x a rep) t g r := by
  have hga : a < g.shape.length := by rw [hg]; simpa using ha
  have hd0 : t.shape.getD a 0 ≠ 0 := by
    rw [getD_eq _ _ ha]; exact hp _ (List.getElem_mem ha)
  obtain ⟨r, r1, r2, _, _⟩ := sum_value g [a] (by intro e; rw [e] at hga; simp at hga) (by simpa using hga)
    (by rw [hg]; exact ne_zero_set hp a _ (Nat.mul_ne_zero hd0 (by omega)))
  have hax : axesOf g.shape.length [a] = [a] := rfl
  rw [hax] at r2
  have hds : dropAxes [a] 0 g.shape = dropAxes [a] 0 t.shape := by rw [hg]; exact drop_set_one t.shape a _ 0
  rw [hds] at r2
  have hlen : r.shape.length + 1 = t.shape.length := by
    rw [r2, drop_length_eq [a] t.shape (by simp) (by simpa using ha)]
    simp; omega
  refine ⟨r, r1, r2, hlen, ?_, fun h => ?_⟩
  · rw [r2]; exact drop_one_size t.shape a 0 ha
  · have := h.1
    rw [this] at hlen
    omega

/-- **C60, refuted for axes with more than one element.** The built gradient does not even have as many elements as the
operand. -/
theorem repeat_gradient_wrong (t g : T ℝ) (a rep : Nat) (ha : a < t.shape.length) (hrep : 0 < rep) (hp : ∀ d ∈ t.shape, d ≠ 0)
    (h2 : 2 ≤ t.shape.getD a 0) (hg : g.shape = t.shape.set a (t.shape.getD a 0 * rep)) :
    ∃ r, repeatDiff a g = .ok r ∧ size r.shape < size t.shape := by
  obtain ⟨r, r1, r2, _, r4, _⟩ := repeat_gradient_rank t g a rep ha hrep hp hg
  refine ⟨r, r1, ?_⟩
  have : 0 < size r.shape := by
    rcases Nat.eq_zero_or_pos (size r.shape) with h | h
    · rw [h, Nat.zero_mul] at r4
      have hz : ∀ s : List Nat, (∀ d ∈ s, d ≠ 0) → size s ≠ 0 := by
        intro s
        induction s with
        | nil => intro _; simp [size]
        | cons d s ih =>
          intro h
          simp only [size]
          exact Nat.mul_ne_zero (h d (by simp)) (ih (fun e he => h e (by simp [he])))
      exact absurd r4.symm (hz _ hp)
    · exact h
  nlinarith

/-! ### Repeat, define-by-run -/

theorem take_drop_insert (s : List Nat) (p v : Nat) (h : p ≤ s.length) : s.take p ++ v :: s.drop p = s.insertIdx p v := by
  induction s generalizing p with
  | nil =>
    have : p = 0 := by simpa using h
    subst this; rfl
  | cons d s ih =>
    cases p with
    | zero => rfl
    | succ p => simp [ih p (by simpa using h)]

/-- Splitting an axis keeps the flat position. -/
theorem ravel_split (s j : List Nat) (a rep q : Nat) (ha : a < s.length) (hj : j.length = s.length) :
    ravel (s.insertIdx (a + 1) rep) (j.insertIdx (a + 1) q) =
      ravel (s.set a (s.getD a 0 * rep)) (j.set a (j.getD a 0 * rep + q)) := by
  induction s generalizing a j with
  | nil => simp at ha
  | cons d s ih =>
    cases j with
    | nil => simp at hj
    | cons b j =>
      cases a with
      | zero =>
        simp only [Nat.zero_add, List.insertIdx_succ_cons, List.insertIdx_zero, ravel, List.set_cons_zero,
          List.getD_cons_zero, size]
        ring
      | succ a =>
        have hsz : ∀ (s : List Nat) (a : Nat), a < s.length → size (s.insertIdx (a + 1) rep) = size (s.set a (s.getD a 0 * rep)) := by
          intro s
          induction s with
          | nil => intro a h; simp at h
          | cons d s ih =>
            intro a h
            cases a with
            | zero => simp [size]; ring
            | succ a => simp only [List.insertIdx_succ_cons, size, List.set_cons_succ, List.getD_cons_succ]; rw [ih a (by simpa using h)]
        simp only [List.insertIdx_succ_cons, ravel, List.set_cons_succ, List.getD_cons_succ]
        rw [ih j a (by simpa using ha) (by simpa using hj), hsz s a (by simpa using ha)]

theorem size_split (s : List Nat) (a rep : Nat) (ha : a < s.length) :
    size (s.insertIdx (a + 1) rep) = size (s.set a (s.getD a 0 * rep)) := by
  induction s generalizing a with
  | nil => simp at ha
  | cons d s ih =>
    cases a with
    | zero => simp [size]; ring
    | succ a => simp only [List.insertIdx_succ_cons, size, List.set_cons_succ, List.getD_cons_succ]; rw [ih a (by simpa using ha)]

theorem inB_insert (s j : List Nat) (p v q : Nat) (hj : InB s j) (hp : p ≤ s.length) (hq : q < v) :
    InB (s.insertIdx p v) (j.insertIdx p q) := by
  induction s generalizing p j with
  | nil =>
    have : p = 0 := by simpa using hp
    subst this
    cases j with
    | nil => exact ⟨hq, trivial⟩
    | cons b j => exact hj.elim
  | cons d s ih =>
    cases j with
    | nil => exact hj.elim
    | cons b j =>
      cases p with
      | zero => exact ⟨hq, hj⟩
      | succ p => exact ⟨hj.1, ih j p hj.2 (by simpa using hp)⟩

theorem reduceDo_sum (a : Nat) (t : T ℝ) (ha : a < t.shape.length) (hp : ∀ d ∈ t.shape, d ≠ 0) :
    ∃ r, reduceDo sumAxes [a] t = .ok r ∧ r.shape = dropAxes [a] 0 t.shape ∧
      ∀ j, InB r.shape j → r.at_ j = ∑ q ∈ Finset.range (t.shape.getD a 0), t.at_ (j.insertIdx a q) := by
  have hne : t.shape ≠ [] := by intro e; rw [e] at ha; simp at ha
  obtain ⟨r, r1, r2, r3, r4⟩ := sum_value t [a] hne (by simpa using ha) hp
  have hax : axesOf t.shape.length [a] = [a] := rfl
  rw [hax] at r2 r3 r4
  refine ⟨r, ?_, r2, ?_⟩
  · have : sumNode t [a] = (reduceShape ([a].map Int.ofNat) t.shape).bind fun _ => reduceDo sumAxes [a] t := by
      unfold sumNode reduceNode
      rw [if_neg hne]
      rfl
    rw [this, r3] at r1
    exact r1
  · intro j hj
    rw [r4 j hj]
    exact drop_fibre0 t.shape a ha t.at_ j (by rw [← r2]; exact hj)

/-- The size of an axis, and what surrounds it, for a vector taken as a column. -/
theorem colShape_cases (s : List Nat) : colShape s = s ∨ ∃ n, s = [n] ∧ colShape s = [n, 1] := by
  match s with
  | [] => left; rfl
  | [n] => right; exact ⟨n, rfl, rfl⟩
  | _ :: _ :: _ => left; rfl

/-- The derivative computed for an axis with at least two elements, of a tensor with at least two axes or of a vector. -/
theorem repeat_back (xs : List Nat) (g : T ℝ) (a rep : Nat) (ha : a < xs.length) (hrep : 0 < rep) (hp : ∀ d ∈ xs, d ≠ 0)
    (h2 : xs.getD a 0 ≠ 1) (hg : g.shape = xs.set a (xs.getD a 0 * rep)) :
    ∃ d, repeatBack a rep xs g = .ok d ∧ d.shape = colShape xs ∧
      ∀ j, InB xs j → d.flat (ravel xs j) = ∑ q ∈ Finset.range rep, g.at_ (j.set a (j.getD a 0 * rep + q)) := by
  have hca : a < (colShape xs).length := by
    rcases colShape_cases xs with h | ⟨n, h, h'⟩
    · rw [h]; exact ha
    · rw [h']; rw [h] at ha; simp at ha ⊢; omega
  have hget : (colShape xs).getD a 0 = xs.getD a 0 := by
    rcases colShape_cases xs with h | ⟨n, h, h'⟩
    · rw [h]
    · rw [h']; rw [h] at ha ⊢
      have : a = 0 := by simpa using ha
      subst this; rfl
  have hcp : ∀ d ∈ colShape xs, d ≠ 0 := by
    rcases colShape_cases xs with h | ⟨n, h, h'⟩
    · rw [h]; exact hp
    · rw [h']; rw [h] at hp; simpa using hp
  have hd : (colShape xs)[a]? = some (xs.getD a 0) := by rw [← hget]; simp [hca]
  have hns : (colShape xs).take (a + 1) ++ rep :: (colShape xs).drop (a + 1) = (colShape xs).insertIdx (a + 1) rep :=
    take_drop_insert _ _ _ hca
  have hsc : size (colShape xs) = size xs := by
    rcases colShape_cases xs with h | ⟨n, h, h'⟩
    · rw [h]
    · rw [h', h]; simp [size]
  have hsg : size ((colShape xs).insertIdx (a + 1) rep) = size g.shape := by
    rw [size_split _ _ _ hca, hget, hg]
    rcases colShape_cases xs with h | ⟨n, h, h'⟩
    · rw [h]
    · rw [h']; rw [h] at ha ⊢
      have : a = 0 := by simpa using ha
      subst this; simp [size]
  obtain ⟨r, r1, r2, r3⟩ := reduceDo_sum (a + 1) (g.reshape ((colShape xs).insertIdx (a + 1) rep))
    (by show a + 1 < ((colShape xs).insertIdx (a + 1) rep).length
        rw [List.length_insertIdx_of_le_length (by omega)]; omega)
    (by intro d hd'
        rcases List.eq_or_mem_of_mem_insertIdx hd' with h | h
        · omega
        · exact hcp d h)
  have hrs : r.shape = colShape xs := by
    rw [r2]
    exact drop_insert (a + 1) 0 rep _ hca
  have hgetI : ((colShape xs).insertIdx (a + 1) rep).getD (a + 1) 0 = rep := by
    rw [List.getD_eq_getElem?_getD, List.getElem?_insertIdx_self, if_pos (by omega)]; rfl
  refine ⟨r.reshape (colShape xs), ?_, rfl, fun j hj => ?_⟩
  · unfold repeatBack
    rw [hd]
    simp only [if_neg h2, hns]
    rw [if_neg (by rw [hsg]; simp), r1]
    simp only [Res.bind]
    rw [if_neg (by rw [hrs]; simp)]
  · have hfl : (r.reshape (colShape xs)).flat (ravel xs j) = r.flat (ravel xs j) := by
      show r.flat (ravel (colShape xs) (unravel (colShape xs) (ravel xs j))) = _
      rw [ravel_unravel (by rw [hsc]; exact ravel_lt hj)]
    rw [hfl]
    -- the position of `j` in the column shape
    obtain ⟨j', hj', hrav, hset⟩ : ∃ j', InB (colShape xs) j' ∧ ravel (colShape xs) j' = ravel xs j ∧
        ∀ q, q < rep → ravel ((colShape xs).set a (xs.getD a 0 * rep)) (j'.set a (j'.getD a 0 * rep + q)) =
          ravel (xs.set a (xs.getD a 0 * rep)) (j.set a (j.getD a 0 * rep + q)) := by
      rcases colShape_cases xs with h | ⟨n, h, h'⟩
      · exact ⟨j, by rw [h]; exact hj, by rw [h], fun q _ => by rw [h]⟩
      · rw [h'] ; subst h
        have : a = 0 := by simpa using ha
        subst this
        match j, hj with
        | [b], hj =>
          refine ⟨[b, 0], ⟨hj.1, by decide, trivial⟩, by simp [ravel, size], fun q _ => ?_⟩
          simp [ravel, size]
    rw [← hrav, ← hrs, flat_ravel r (by rw [hrs]; exact hj'), r3 j' (by rw [hrs]; exact hj')]
    have e : (g.reshape ((colShape xs).insertIdx (a + 1) rep)).shape.getD (a + 1) 0 = rep := hgetI
    rw [e]
    refine Finset.sum_congr rfl (fun q hq => ?_)
    rw [reshape_at, ravel_split _ _ _ _ _ hca hj'.length, hget, hset q (Finset.mem_range.1 hq), ← hg]
    refine flat_ravel g ?_
    rw [hg]
    refine inB_set_lt hj a _ _ ?_
    have h1 := inB_getD hj (show xs[a]? = some (xs.getD a 0) by simp [ha])
    have h3 := Finset.mem_range.1 hq
    calc j.getD a 0 * rep + q < j.getD a 0 * rep + rep := by omega
      _ = (j.getD a 0 + 1) * rep := by ring
      _ ≤ xs.getD a 0 * rep := Nat.mul_le_mul_right _ h1

theorem shapeEq_col (s : List Nat) : shapeEq s (colShape s) = true := by
  rcases colShape_cases s with h | ⟨n, h, h'⟩
  · rw [h]; exact shapeEq_refl s
  · rw [h', h]; simp [shapeEq]

/-- **C60 (define-by-run, axes with more than one element).** The gradient of the repetition is added to the derivative
held, for every rank. -/
theorem repeat_dodiff (t xd g : T ℝ) (a rep : Nat) (ha : a < t.shape.length) (hrep : 0 < rep) (hp : ∀ d ∈ t.shape, d ≠ 0)
    (hx : xd.shape = t.shape) (h2 : t.shape.getD a 0 ≠ 1) (hg : g.shape = t.shape.set a (t.shape.getD a 0 * rep)) :
    ∃ r v, repeatDoDiff a rep xd g = .ok r ∧ IsGrad (fun x => repeat_ x a rep) t g v ∧ r.shape = t.shape ∧
      ∀ j, InB t.shape j → r.at_ j = xd.at_ j + v.at_ j := by
  obtain ⟨d, d1, d2, d3⟩ := repeat_back t.shape g a rep ha hrep hp h2 hg
  have hne : t.shape ≠ [] := by intro e; rw [e] at ha; simp at ha
  have hcne : colShape t.shape ≠ [] := by
    rcases colShape_cases t.shape with h | ⟨n, h, h'⟩
    · rw [h]; exact hne
    · rw [h']; simp
  refine ⟨⟨t.shape, fun i => xd.at_ i + d.flat (ravel t.shape i)⟩, ⟨t.shape, fun i => d.flat (ravel t.shape i)⟩, ?_,
    repeat_grad t g a rep ha hrep hg _ rfl (fun j hj => d3 j hj), rfl, fun _ _ => rfl⟩
  unfold repeatDoDiff
  rw [hx, d1]
  show elemVal (· + ·) xd d = _
  unfold elemVal
  rw [if_neg (by rw [hx]; exact hne), if_neg (by rw [d2]; exact hcne), hx, d2, shapeEq_col, if_pos rfl]

/-- The derivative computed for a unit axis. -/
theorem repeat_back_unit (xs : List Nat) (g : T ℝ) (a rep : Nat) (ha : a < xs.length) (hrep : 0 < rep) (hp : ∀ d ∈ xs, d ≠ 0)
    (h1 : xs.getD a 0 = 1) (hg : g.shape = xs.set a rep) :
    ∃ d, repeatBack a rep xs g = .ok d ∧ d.shape = dropAxes [a] 0 xs ∧
      ∀ j, InB xs j → d.at_ (dropAxes [a] 0 j) = ∑ q ∈ Finset.range rep, g.at_ (j.set a (j.getD a 0 * rep + q)) := by
  have hga : a < g.shape.length := by rw [hg]; simpa using ha
  obtain ⟨r, r1, r2, r3⟩ := reduceDo_sum a g hga (by rw [hg]; exact ne_zero_set hp a rep (by omega))
  have hds : dropAxes [a] 0 g.shape = dropAxes [a] 0 xs := by rw [hg]; exact drop_set_one xs a rep 0
  rw [hds] at r2
  have hca : (colShape xs)[a]? = some 1 := by
    rw [← h1]
    rcases colShape_cases xs with h | ⟨n, h, h'⟩
    · rw [h]; simp [ha]
    · rw [h']; rw [h] at ha ⊢
      have : a = 0 := by simpa using ha
      subst this; rfl
  refine ⟨r, by unfold repeatBack; rw [hca]; simp only [if_true]; exact r1, r2, fun j hj => ?_⟩
  have hja : j.getD a 0 = 0 := by
    have := inB_getD hj (show xs[a]? = some 1 by rw [← h1]; simp [ha])
    omega
  rw [r3 _ (by rw [r2]; exact inB_drop _ _ _ _ hj)]
  have hgs : g.shape.getD a 0 = rep := by rw [hg, getD_set _ _ _ _ ha, if_pos rfl]
  rw [hgs]
  refine Finset.sum_congr rfl (fun q _ => ?_)
  rw [hja, Nat.zero_mul, Nat.zero_add]
  congr 1
  exact insert_drop a 0 q j (by rw [hj.length]; exact ha)

/-- **C60 (define-by-run, unit axis).** For vectors and matrices the gradient is added to the derivative held. Missing:
more axes (`repeat_dodiff_fails`). -/
theorem repeat_dodiff_unit_partial (t xd g : T ℝ) (a rep : Nat) (ha : a < t.shape.length) (hrep : 0 < rep)
    (hp : ∀ d ∈ t.shape, d ≠ 0) (hx : xd.shape = t.shape) (h1 : t.shape.getD a 0 = 1) (hg : g.shape = t.shape.set a rep)
    (h2 : t.shape.length ≤ 2) :
    ∃ r v, repeatDoDiff a rep xd g = .ok r ∧ IsGrad (fun x => repeat_ x a rep) t g v ∧ r.shape = t.shape ∧
      ∀ j, InB t.shape j → r.at_ j = xd.at_ j + v.at_ j := by
  obtain ⟨d, d1, d2, d3⟩ := repeat_back_unit t.shape g a rep ha hrep hp h1 hg
  have hV := repeat_grad t g a rep ha hrep (by rw [h1, Nat.one_mul]; exact hg)
    ⟨t.shape, fun j => d.at_ (dropAxes [a] 0 j)⟩ rfl (fun j hj => d3 j hj)
  have hne : xd.shape ≠ [] := by rw [hx]; intro e; rw [e] at ha; simp at ha
  have hstart : repeatDoDiff a rep xd g = elemVal (· + ·) xd d := by
    unfold repeatDoDiff
    rw [hx, d1]; rfl
  rw [hstart]
  unfold elemVal
  rw [if_neg hne]
  by_cases hde : d.shape = []
  · rw [if_pos hde]
    refine ⟨_, _, rfl, hV, hx, fun j hj => ?_⟩
    have hb := inB_drop [a] t.shape j 0 hj
    rw [← d2, hde] at hb
    have : dropAxes [a] 0 j = [] := by
      have := hb.length
      simpa using this
    show xd.at_ j + d.at_ [] = xd.at_ j + d.at_ (dropAxes [a] 0 j)
    rw [this]
  · have hrav : ∀ j, InB t.shape j → d.flat (ravel t.shape j) = d.at_ (dropAxes [a] 0 j) := by
      intro j hj
      have hja : j.getD a 0 = 0 := by
        have := inB_getD hj (show t.shape[a]? = some 1 by rw [← h1]; simp [ha])
        omega
      have hjs : j.set a 0 = j := by rw [← hja, set_getD_self]
      have hts : t.shape.set a 1 = t.shape := by rw [← h1, set_getD_self]
      have := ravel_drop [a] t.shape j 0 hj
      rw [setAxes_one, setAxes_one, hjs, hts] at this
      rw [this, ← d2]
      exact flat_ravel d (by rw [d2]; exact inB_drop _ _ _ _ hj)
    have heq : shapeEq xd.shape d.shape = true := by
      rw [hx, d2]
      rw [d2] at hde
      generalize t.shape = s at ha h1 h2 hde
      match s, a, ha, h1, h2, hde with
      | [x], 0, _, h1, _, hde => simp [dropAxes] at hde
      | [x, y], 0, _, h1, _, _ =>
        have : x = 1 := h1
        subst this
        simp [dropAxes, shapeEq]
      | [x, y], 1, _, h1, _, _ =>
        have : y = 1 := h1
        subst this
        simp [dropAxes, shapeEq]
    rw [if_neg hde, heq, if_pos rfl]
    refine ⟨_, _, rfl, hV, hx, fun j hj => ?_⟩
    show xd.at_ j + d.flat (ravel xd.shape j) = xd.at_ j + d.at_ (dropAxes [a] 0 j)
    rw [hx, hrav j hj]

/-- **C60, refuted: more than two axes.** For a unit axis of a tensor with at least three axes the define-by-run derivative
fails: the sum has lost the axis, and the shapes no longer agree. -/
theorem repeat_dodiff_fails (t xd g : T ℝ) (a rep : Nat) (ha : a < t.shape.length) (hrep : 0 < rep)
    (hp : ∀ d ∈ t.shape, d ≠ 0) (hx : xd.shape = t.shape) (h1 : t.shape.getD a 0 = 1) (hg : g.shape = t.shape.set a rep)
    (h3 : 3 ≤ t.shape.length) : repeatDoDiff a rep xd g = .err := by
  obtain ⟨d, d1, d2, _⟩ := repeat_back_unit t.shape g a rep ha hrep hp h1 hg
  have hlen : d.shape.length + 1 = t.shape.length := by
    rw [d2, drop_length_eq [a] t.shape (by simp) (by simpa using ha)]
    simp; omega
  unfold repeatDoDiff
  rw [hx, d1]
  show elemVal (· + ·) xd d = _
  unfold elemVal
  rw [if_neg (by rw [hx]; intro e; rw [e] at ha; simp at ha), if_neg (by intro e; rw [e] at hlen; simp at hlen; omega), if_neg]
  rw [hx]
  intro he
  generalize t.shape = s at he hlen h3
  generalize d.shape = s' at he hlen
  match s, s', he, hlen, h3 with
  | x :: y :: z :: s, s', he, hlen, h3 =>
    have : shapeEq (x :: y :: z :: s) s' = decide ((x :: y :: z :: s) = s') := by
      unfold shapeEq; split <;> simp_all
    rw [this] at he
    have := of_decide_eq_true he
    rw [← this] at hlen
    omega

/-! ### Broadcast -/

theorem drop_empty (l : List Nat) (k : Nat) : dropAxes [] k l = l := drop_below [] l k (by simp)

theorem drop_drop (a : Nat) (rest l : List Nat) (k : Nat) (hk : k ≤ a) (h : ∀ b ∈ rest, a < b) :
    dropAxes [a] k (dropAxes rest k l) = dropAxes (a :: rest) k l := by
  induction l generalizing k with
  | nil => rfl
  | cons x l ih =>
    have hkr : k ∉ rest := fun hm => by have := h k hm; omega
    by_cases hka : k = a
    · subst hka
      simp only [dropAxes, if_neg hkr, List.mem_cons, true_or, if_true, List.mem_singleton]
      rw [drop_below [k] _ (k + 1) (by simp)]
      have : ∀ (l : List Nat) (m : Nat), k < m → dropAxes rest m l = dropAxes (k :: rest) m l := by
        intro l
        induction l with
        | nil => intro _ _; rfl
        | cons y l ih =>
          intro m hm
          simp only [dropAxes, List.mem_cons]
          have : ¬ m = k := by omega
          simp only [this, false_or]
          rw [ih (m + 1) (by omega)]
      exact this l (k + 1) (by omega)
    · simp only [dropAxes, if_neg hkr, List.mem_cons, hka, false_or, if_false, List.mem_singleton, List.not_mem_nil]
      rw [ih (k + 1) (by omega)]

theorem drop_keeps (rest l : List Nat) (a k : Nat) (ha : a < l.length) (h : ∀ b ∈ rest, a + k < b) :
    a < (dropAxes rest k l).length := by
  induction l generalizing a k with
  | nil => simp at ha
  | cons x l ih =>
    simp only [dropAxes]
    rw [if_neg (fun hm => by have := h k hm; omega)]
    cases a with
    | zero => simp
    | succ a =>
      have := ih a (k + 1) (by simpa using ha) (fun b hb => by have := h b hb; omega)
      simpa using this

theorem drop_mem (A l : List Nat) (k x : Nat) (h : x ∈ dropAxes A k l) : x ∈ l := by
  induction l generalizing k with
  | nil => exact h
  | cons y l ih =>
    simp only [dropAxes] at h
    split at h
    · exact List.mem_cons_of_mem _ (ih _ h)
    · rcases List.mem_cons.1 h with h | h
      · rw [h]; simp
      · exact List.mem_cons_of_mem _ (ih _ h)

/-- Undoing repetitions of ascending axes, last first, sums over all of them. -/
theorem undo_sum (axes : List Nat) (g : T ℝ) (hs : axes.Pairwise (· < ·)) (hlt : ∀ a ∈ axes, a < g.shape.length)
    (hp : ∀ d ∈ g.shape, d ≠ 0) :
    ∃ r, axes.foldr (fun a (acc : Res (T ℝ)) => acc.bind (repeatDiff a)) (Res.ok g) = .ok r ∧
      r.shape = dropAxes axes 0 g.shape ∧
      ∀ j, InB r.shape j → r.at_ j = sumOver g.shape fun i => if dropAxes axes 0 i = j then g.at_ i else 0 := by
  induction axes with
  | nil =>
    refine ⟨g, rfl, (drop_empty _ _).symm, fun j hj => ?_⟩
    rw [← sumOver_single g.shape j g.at_ hj]
    refine sumOver_congr _ _ _ (fun i _ => ?_)
    rw [drop_empty]
    by_cases h : j = i
    · rw [if_pos h, if_pos h.symm]
    · rw [if_neg h, if_neg (fun e => h e.symm)]
  | cons a rest ih =>
    obtain ⟨ha, hr⟩ := List.pairwise_cons.1 hs
    obtain ⟨r, r1, r2, r3⟩ := ih hr (fun b hb => hlt b (by simp [hb]))
    have hlen : a < r.shape.length := by
      rw [r2]; exact drop_keeps rest g.shape a 0 (hlt a (by simp)) (by simpa using ha)
    obtain ⟨v, v1, v2, _, v4⟩ := sum_value r [a] (by intro e; rw [e] at hlen; simp at hlen) (by simpa using hlen)
      (by rw [r2]; intro d hd; exact hp d (drop_mem _ _ _ _ hd))
    have hax : axesOf r.shape.length [a] = [a] := rfl
    rw [hax] at v2 v4
    refine ⟨v, ?_, ?_, fun j hj => ?_⟩
    · rw [List.foldr_cons, r1]; exact v1
    · rw [v2, r2]; exact drop_drop a rest g.shape 0 (Nat.zero_le _) ha
    · rw [v4 j hj]
      have e : (sumOver r.shape fun i => if dropAxes [a] 0 i = j then r.at_ i else 0) =
          sumOver r.shape fun i => (if dropAxes [a] 0 i = j then 1 else 0) *
            sumOver g.shape fun i' => if dropAxes rest 0 i' = i then g.at_ i' else 0 := by
        refine sumOver_congr _ _ _ (fun i hi => ?_)
        rw [← r3 i hi]
        by_cases h : dropAxes [a] 0 i = j
        · rw [if_pos h, if_pos h, one_mul]
        · rw [if_neg h, if_neg h, zero_mul]
      rw [e, sum_fibres g.shape r.shape (dropAxes rest 0) (fun i hi => by rw [r2]; exact inB_drop _ _ _ _ hi)]
      refine sumOver_congr _ _ _ (fun i _ => ?_)
      simp only [drop_drop a rest i 0 (Nat.zero_le _) ha]
      by_cases h : dropAxes (a :: rest) 0 i = j
      · rw [if_pos h, if_pos h, one_mul]
      · rw [if_neg h, if_neg h, zero_mul]

/-- Two positions agree off some axes exactly if they agree when the axes are dropped. -/
theorem set_eq_iff (A i j : List Nat) (k : Nat) (hl : i.length = j.length) :
    setAxes 0 A k i = setAxes 0 A k j ↔ dropAxes A k i = dropAxes A k j := by
  induction i generalizing j k with
  | nil => cases j with
    | nil => simp
    | cons _ _ => simp at hl
  | cons x i ih => cases j with
    | nil => simp at hl
    | cons y j =>
      simp only [setAxes, dropAxes]
      by_cases hk : k ∈ A
      · simp only [if_pos hk, List.cons.injEq, true_and]
        exact ih j (k + 1) (by simpa using hl)
      · simp only [if_neg hk, List.cons.injEq]
        rw [ih j (k + 1) (by simpa using hl)]

/-- A position of a shape with unit axes. -/
theorem inB_unit (A t j : List Nat) (k : Nat) (hp : ∀ d ∈ t, d ≠ 0) (hj : InB (setAxes 1 A k t) j) :
    InB t j ∧ setAxes 0 A k j = j := by
  induction t generalizing j k with
  | nil => cases j with
    | nil => exact ⟨trivial, rfl⟩
    | cons _ _ => exact hj.elim
  | cons d t ih => cases j with
    | nil => exact hj.elim
    | cons b j =>
      simp only [setAxes] at hj
      obtain ⟨h1, h2⟩ := ih j (k + 1) (fun d hd => hp d (by simp [hd])) hj.2
      have hb := hj.1
      by_cases hk : k ∈ A
      · rw [if_pos hk] at hb
        have : b = 0 := by omega
        subst this
        refine ⟨⟨Nat.pos_of_ne_zero (hp d (by simp)), h1⟩, ?_⟩
        simp only [setAxes, if_pos hk, h2]
      · rw [if_neg hk] at hb
        refine ⟨⟨hb, h1⟩, ?_⟩
        simp only [setAxes, if_neg hk, h2]

/-- **C61.** The gradient built for the operand of a broadcast, with unit axes or without them, is its gradient. -/
theorem broadcast_grad (axes t yshape : List Nat) (x g : T ℝ) (hs : axes.Pairwise (· < ·)) (hlt : ∀ a ∈ axes, a < t.length)
    (hp : ∀ d ∈ t, d ≠ 0) (hy : ∀ a ∈ axes, yshape[a]? = t[a]?) (hx : HasUnit x.shape axes t ∨ Lacks x.shape axes t)
    (hg : g.shape = t) :
    ∃ r, broadcastDiff axes x.shape g = .ok r ∧ IsGrad (fun x => broadcastHalf axes x t.length yshape) x g r := by
  have hn : axes.Nodup := hs.imp (fun h => Nat.ne_of_lt h)
  obtain ⟨v, v1, v2, v3⟩ := undo_sum axes g hs (by rw [hg]; exact hlt) (by rw [hg]; exact hp)
  rw [hg] at v2 v3
  -- the shape and the elements of the gradient, before the reshape
  have hφ : ∀ i, InB t i → InB x.shape (if x.shape.length = t.length then setAxes 0 axes 0 i else dropAxes axes 0 i) := by
    intro i hi
    rcases hx with h | h
    · have : x.shape.length = t.length := by rw [h]; simp
      rw [if_pos this, h]; exact inB_set _ _ _ _ hi
    · by_cases hl : x.shape.length = t.length
      · rw [h, drop_length_eq axes t hn hlt] at hl
        have hax : axes = [] := by
          cases axes with
          | nil => rfl
          | cons a r => have := hlt a (by simp); simp at hl; omega
        subst hax
        rw [h, drop_empty, if_pos rfl, setAxes_nil]; exact hi
      · rw [if_neg hl, h]; exact inB_drop _ _ _ _ hi
  have key : ∀ r : T ℝ, r.shape = x.shape → (∀ j, InB x.shape j → r.at_ j = v.flat (ravel x.shape j)) →
      IsGrad (fun x => broadcastHalf axes x t.length yshape) x g r := by
    intro r hr hra
    refine gather_grad _ x g r t (fun i => if x.shape.length = t.length then setAxes 0 axes 0 i else dropAxes axes 0 i)
      hφ ?_ hg hr ?_
    · intro z hz
      obtain ⟨y, y1, y2, y3⟩ := half_correct axes t yshape z hn hlt hp hy (by rw [hz]; exact hx)
      exact ⟨y, y1, y2, fun i hi => by rw [y3 i hi, hz]⟩
    · intro j hj
      rw [hra j hj]
      rcases hx with h | h
      · have hl : x.shape.length = t.length := by rw [h]; simp
        rw [h] at hj
        obtain ⟨hj1, hj2⟩ := inB_unit axes t j 0 hp hj
        have hrv := ravel_drop axes t j 0 hj1
        rw [hj2, ← h] at hrv
        rw [hrv, ← v2, flat_ravel v (by rw [v2]; exact inB_drop _ _ _ _ hj1), v3 _ (by rw [v2]; exact inB_drop _ _ _ _ hj1)]
        refine sumOver_congr _ _ _ (fun i hi => ?_)
        rw [if_pos hl]
        have hiff := set_eq_iff axes i j 0 (by rw [hi.length, hj1.length])
        rw [hj2] at hiff
        by_cases hc : dropAxes axes 0 i = dropAxes axes 0 j
        · rw [if_pos hc, if_pos (hiff.2 hc)]
        · rw [if_neg hc, if_neg (fun e => hc (hiff.1 e))]
      · have hxv : x.shape = v.shape := by rw [h, v2]
        rw [hxv] at hj ⊢
        rw [flat_ravel v hj, v3 j hj]
        refine sumOver_congr _ _ _ (fun i hi => ?_)
        by_cases hl : v.shape.length = t.length
        · have hl' := hl
          rw [v2, drop_length_eq axes t hn hlt] at hl'
          have hax : axes = [] := by
            cases axes with
            | nil => rfl
            | cons a r => have := hlt a (by simp); simp at hl'; omega
          subst hax
          rw [if_pos hl, drop_empty, setAxes_nil]
        · rw [if_neg hl]
  by_cases hne : axes = []
  · subst hne
    have hxg : x.shape = g.shape := by
      rw [hg]
      rcases hx with h | h
      · rw [h, setAxes_nil]
      · rw [h, drop_empty]
    have hv : v = g := by
      have : Res.ok g = Res.ok v := v1
      injection this with h; exact h.symm
    refine ⟨g, rfl, key g hxg.symm (fun j hj => ?_)⟩
    rw [hv, hxg, flat_ravel g (by rw [← hxg]; exact hj)]
  · refine ⟨v.reshape x.shape, ?_, key _ rfl (fun j _ => rfl)⟩
    unfold broadcastDiff
    rw [if_neg hne, v1]
    show reshape v _ = _
    unfold reshape
    rw [reshapeTo_ofNat _ _ (by
      rw [v2]
      rcases hx with h | h
      · rw [h]; exact size_set_drop _ _ _
      · rw [h])]
    rfl

/-- **C61 for patterns.** The axes of both halves of every broadcast pattern are ascending, so both gradients built for
`Broadcast` are right whenever the halves broadcast. -/
theorem broadcast_grad_pattern (pat : BitVec 8) (t yshape : List Nat) (x g : T ℝ)
    (axes : List Nat) (hax : axes = (on pat).1 ∨ axes = (on pat).2) (hlt : ∀ a ∈ axes, a < t.length)
    (hp : ∀ d ∈ t, d ≠ 0) (hy : ∀ a ∈ axes, yshape[a]? = t[a]?) (hx : HasUnit x.shape axes t ∨ Lacks x.shape axes t)
    (hg : g.shape = t) :
    ∃ r, broadcastDiff axes x.shape g = .ok r ∧ IsGrad (fun x => broadcastHalf axes x t.length yshape) x g r := by
  obtain ⟨s1, s2⟩ := on_sorted pat
  refine broadcast_grad axes t yshape x g ?_ hlt hp hy hx hg
  rcases hax with h | h <;> rw [h]
  · exact s1
  · exact s2

/-! ### Slice -/

theorem inB_eraseIdx {s j : List Nat} (h : InB s j) (a : Nat) : InB (s.eraseIdx a) (j.eraseIdx a) := by
  induction s generalizing j a with
  | nil => cases j with
    | nil => trivial
    | cons _ _ => exact h.elim
  | cons d s ih => cases j with
    | nil => exact h.elim
    | cons b j => cases a with
      | zero => exact h.2
      | succ a => exact ⟨h.1, ih h.2 a⟩

/-- **C62.** The gradient of a slice is the increment: zero everywhere but in the slice. -/
theorem slice_grad (ax s e : Nat) (t g : T ℝ) (ha : ax < t.shape.length) (hse : s < e) (he : e ≤ t.shape.getD ax 0)
    (hg : g.shape = if e - s = 1 then t.shape.eraseIdx ax else t.shape.set ax (e - s)) :
    IsGrad (sliceT ax s e) t g (sliceIncr ax s e t g) := by
  by_cases h1 : e - s = 1
  · rw [if_pos h1] at hg
    refine gather_grad _ t g _ (t.shape.eraseIdx ax) (fun i => i.insertIdx ax s) ?_ ?_ hg rfl ?_
    · intro i hi
      have hl := hi.length
      rw [List.length_eraseIdx_of_lt ha] at hl
      have := inB_insert (t.shape.eraseIdx ax) i ax (t.shape.getD ax 0) s hi
        (by rw [List.length_eraseIdx_of_lt ha]; omega) (by omega)
      rwa [getD_eq _ _ ha, List.insertIdx_eraseIdx_getElem] at this
    · intro x hx
      refine ⟨⟨x.shape.eraseIdx ax, fun j => x.at_ (j.insertIdx ax s)⟩, ?_, by rw [hx], fun i _ => rfl⟩
      unfold sliceT
      rw [if_pos ⟨by rw [hx]; exact ha, hse, by rw [hx]; exact he⟩, if_pos h1]
    · intro j hj
      have hja : ax < j.length := by rw [hj.length]; exact ha
      show (if s ≤ j.getD ax 0 ∧ j.getD ax 0 < e then
        0 + (if e - s = 1 then g.at_ (j.eraseIdx ax) else g.at_ (j.set ax (j.getD ax 0 - s))) else 0) = _
      by_cases hc : s ≤ j.getD ax 0 ∧ j.getD ax 0 < e
      · rw [if_pos hc, if_pos h1, zero_add]
        have hjs : j.getD ax 0 = s := by omega
        rw [getD_eq _ _ hja] at hjs
        have hb : InB (t.shape.eraseIdx ax) (j.eraseIdx ax) := inB_eraseIdx hj ax
        rw [← sumOver_single _ (j.eraseIdx ax) g.at_ hb]
        refine sumOver_congr _ _ _ (fun i hi => ?_)
        have hil : ax ≤ i.length := by
          have := hi.length; rw [List.length_eraseIdx_of_lt ha] at this; omega
        by_cases hij : j.eraseIdx ax = i
        · rw [if_pos hij, if_pos]
          rw [← hij, ← hjs, List.insertIdx_eraseIdx_getElem]
        · rw [if_neg hij, if_neg]
          intro h
          apply hij
          rw [← h, List.eraseIdx_insertIdx_self]
      · rw [if_neg hc]
        refine (sumOver_zero _ _ (fun i hi => ?_)).symm
        rw [if_neg]
        intro h
        apply hc
        have hil : ax ≤ i.length := by
          have := hi.length; rw [List.length_eraseIdx_of_lt ha] at this; omega
        have : j.getD ax 0 = s := by
          rw [← h, List.getD_eq_getElem?_getD, List.getElem?_insertIdx_self, if_pos hil]; rfl
        omega
  · rw [if_neg h1] at hg
    refine gather_grad _ t g _ (t.shape.set ax (e - s)) (fun i => i.set ax (i.getD ax 0 + s)) ?_ ?_ hg rfl ?_
    · intro i hi
      refine inB_set_self ax _ _ hi ha ?_
      have := inB_getD hi (show (t.shape.set ax (e - s))[ax]? = some (e - s) by simp [ha])
      omega
    · intro x hx
      refine ⟨⟨x.shape.set ax (e - s), fun j => x.at_ (j.set ax (j.getD ax 0 + s))⟩, ?_, by rw [hx], fun i _ => rfl⟩
      unfold sliceT
      rw [if_pos ⟨by rw [hx]; exact ha, hse, by rw [hx]; exact he⟩, if_neg h1]
    · intro j hj
      have hja : ax < j.length := by rw [hj.length]; exact ha
      show (if s ≤ j.getD ax 0 ∧ j.getD ax 0 < e then
        0 + (if e - s = 1 then g.at_ (j.eraseIdx ax) else g.at_ (j.set ax (j.getD ax 0 - s))) else 0) = _
      by_cases hc : s ≤ j.getD ax 0 ∧ j.getD ax 0 < e
      · rw [if_pos hc, if_neg h1, zero_add]
        have hb : InB (t.shape.set ax (e - s)) (j.set ax (j.getD ax 0 - s)) := inB_set_lt hj ax _ _ (by omega)
        rw [← sumOver_single _ _ g.at_ hb]
        refine sumOver_congr _ _ _ (fun i hi => ?_)
        have hil : ax < i.length := by rw [hi.length]; simpa using ha
        by_cases hij : j.set ax (j.getD ax 0 - s) = i
        · rw [if_pos hij, if_pos]
          rw [← hij, getD_set _ _ _ _ hja, if_pos rfl, List.set_set, Nat.sub_add_cancel hc.1, set_getD_self]
        · rw [if_neg hij, if_neg]
          intro h
          apply hij
          rw [← h, getD_set _ _ _ _ hil, if_pos rfl, List.set_set, Nat.add_sub_cancel, set_getD_self]
      · rw [if_neg hc]
        refine (sumOver_zero _ _ (fun i hi => ?_)).symm
        rw [if_neg]
        intro h
        apply hc
        have hil : ax < i.length := by rw [hi.length]; simpa using ha
        have hlt := inB_getD hi (show (t.shape.set ax (e - s))[ax]? = some (e - s) by simp [ha])
        have : j.getD ax 0 = i.getD ax 0 + s := by rw [← h, getD_set _ _ _ _ hil, if_pos rfl]
        omega

/-- **C62 (define-by-run).** The gradient of the slice is added to the derivative held. -/
theorem slice_dodiff (ax s e : Nat) (xd g : T ℝ) (i : List Nat) :
    (sliceDoDiff ax s e xd g).shape = xd.shape ∧
      (sliceDoDiff ax s e xd g).at_ i = xd.at_ i + (sliceIncr ax s e xd g).at_ i := by
  refine ⟨rfl, ?_⟩
  show (if _ then _ else _) = xd.at_ i + (if _ then _ else _)
  by_cases h : s ≤ i.getD ax 0 ∧ i.getD ax 0 < e
  · simp only [if_pos h, zero_add]
  · simp only [if_neg h, add_zero]

/-- Slicing and incrementing are adjoint. -/
theorem slice_adjoint (ax s e : Nat) (h r d : T ℝ) (hr : sliceT ax s e h = .ok r) (ha : ax < h.shape.length) (hse : s < e)
    (he : e ≤ h.shape.getD ax 0) (hd : d.shape = if e - s = 1 then h.shape.eraseIdx ax else h.shape.set ax (e - s)) :
    pair r d = pair (sliceIncr ax s e h d) h := by
  obtain ⟨y, hy, hD⟩ := (slice_grad ax s e h d ha hse he hd).2 h rfl
  have hrs : r.shape = d.shape := by
    unfold sliceT at hr
    rw [if_pos ⟨ha, hse, he⟩] at hr
    rw [hd]
    by_cases h1 : e - s = 1
    · rw [if_pos h1] at hr ⊢; injection hr with hr; rw [← hr]
    · rw [if_neg h1] at hr ⊢; injection hr with hr; rw [← hr]
  have hmove : ∀ τ : ℝ, sliceT ax s e (moveT h h τ) = .ok (moveT r r τ) := by
    intro τ
    unfold sliceT at hr ⊢
    have hc : ax < (moveT h h τ).shape.length ∧ s < e ∧ e ≤ (moveT h h τ).shape.getD ax 0 := ⟨ha, hse, he⟩
    rw [if_pos ⟨ha, hse, he⟩] at hr
    rw [if_pos hc]
    by_cases h1 : e - s = 1
    · rw [if_pos h1] at hr ⊢; injection hr with hr; rw [← hr]; rfl
    · rw [if_neg h1] at hr ⊢; injection hr with hr; rw [← hr]; rfl
  have hD' : HasDerivAt (fun τ => pair d (moveT r r τ)) (pair r d) 0 := by
    refine (hasDerivAt_pair d _ (fun i => r.at_ i) (fun i _ => hasDerivAt_line _ _)).congr_deriv ?_
    rw [pair_eq, hrs]
    exact sumOver_congr _ _ _ (fun i _ => by ring)
  refine hD'.unique (hD.congr_of_eventuallyEq ?_)
  filter_upwards [hy] with τ hτ
  have : Res.ok (moveT r r τ) = Res.ok (y τ) := by rw [← hmove τ]; exact hτ.1
  injection this with this
  rw [this]

/-- The increment is linear in what is added, and its gradient there is the slice. -/
theorem sliceIncr_grad (ax s e : Nat) (t g h : T ℝ) (ha : ax < t.shape.length) (hse : s < e) (he : e ≤ t.shape.getD ax 0)
    (hg : g.shape = if e - s = 1 then t.shape.eraseIdx ax else t.shape.set ax (e - s)) (hh : h.shape = t.shape) :
    ∃ r, sliceT ax s e h = .ok r ∧ IsGrad (fun x => .ok (sliceIncr ax s e t x)) g h r := by
  have hr : ∃ r, sliceT ax s e h = .ok r ∧ r.shape = g.shape := by
    unfold sliceT
    rw [hh, if_pos ⟨ha, hse, he⟩, hg]
    by_cases h1 : e - s = 1
    · exact ⟨_, by rw [if_pos h1], by rw [if_pos h1]⟩
    · exact ⟨_, by rw [if_neg h1], by rw [if_neg h1]⟩
  obtain ⟨r, r1, r2⟩ := hr
  refine ⟨r, r1, r2, fun d hd => ?_⟩
  refine ⟨fun τ => sliceIncr ax s e t (moveT g d τ), Filter.Eventually.of_forall fun τ => ⟨rfl, hh.symm⟩, ?_⟩
  have hsg := slice_grad ax s e t d ha hse he (hd.trans hg)
  refine (hasDerivAt_pair h _ (fun i => (sliceIncr ax s e t d).at_ i) (fun i _ => ?_)).congr_deriv ?_
  · have e1 : (fun τ => (sliceIncr ax s e t (moveT g d τ)).at_ i) =
        fun τ => (sliceIncr ax s e t g).at_ i + τ * (sliceIncr ax s e t d).at_ i := by
      funext τ
      show (if _ then _ else _) = (if _ then _ else _) + τ * (if _ then _ else _)
      by_cases hc : s ≤ i.getD ax 0 ∧ i.getD ax 0 < e
      · simp only [if_pos hc]
        by_cases h1 : e - s = 1
        · simp only [if_pos h1, moveT]; ring
        · simp only [if_neg h1, moveT]; ring
      · simp only [if_neg hc]; ring
    rw [e1]
    exact hasDerivAt_line _ _
  · rw [slice_adjoint ax s e h r d r1 (by rw [hh]; exact ha) hse (by rw [hh]; exact he) (by rw [hd, hg, hh])]
    have : sliceIncr ax s e h d = sliceIncr ax s e t d := by unfold sliceIncr; rw [hh]
    rw [this, pair_eq, hh]
    exact sumOver_congr _ _ _ (fun i _ => by ring)

/-- The increment operation ignores the values of its first operand. -/
theorem sliceIncr_first (ax s e : Nat) (t x g : T ℝ) (h : x.shape = t.shape) : sliceIncr ax s e x g = sliceIncr ax s e t g := by
  unfold sliceIncr; rw [h]

/-- **C62, refuted: second order.** The symbolic derivative of the increment claims that its first operand has as gradient the
whole incoming gradient `h`; the increment does not depend on that operand at all. It marks the second operand, on which the
increment does depend, as not differentiable. -/
theorem sliceIncr_gradient_wrong (ax s e : Nat) (t g h : T ℝ) (ha : ax < t.shape.length) (hse : s < e)
    (he : e ≤ t.shape.getD ax 0) (hg : g.shape = if e - s = 1 then t.shape.eraseIdx ax else t.shape.set ax (e - s))
    (hh : h.shape = t.shape) (p : List Nat) (hp : InB t.shape p) (hne : h.at_ p ≠ 0) :
    ∃ r, sliceIncrSymDiff ax s e h = .ok (h, r) ∧ ¬ IsGrad (fun x => .ok (sliceIncr ax s e x g)) t h h ∧
      IsGrad (fun x => .ok (sliceIncr ax s e t x)) g h r ∧ sliceIncrDiffWRT = (true, false) := by
  obtain ⟨r, r1, r2⟩ := sliceIncr_grad ax s e t g h ha hse he hg hh
  refine ⟨r, by unfold sliceIncrSymDiff; rw [r1]; rfl, fun hG => ?_, r2, rfl⟩
  have hz : IsGrad (fun x => .ok (sliceIncr ax s e x g)) t h ⟨t.shape, fun _ => 0⟩ := by
    refine ⟨rfl, fun d _ => ⟨fun _ => sliceIncr ax s e t g, Filter.Eventually.of_forall fun τ =>
      ⟨congrArg Res.ok (sliceIncr_first ax s e t (moveT t d τ) g rfl), hh.symm⟩, ?_⟩⟩
    refine (hasDerivAt_const (0 : ℝ) _).congr_deriv ?_
    rw [pair_eq]
    refine (sumOver_zero _ _ (fun i _ => ?_)).symm
    show (0 : ℝ) * _ = 0
    rw [zero_mul]
  exact hne (hG.at hz p hp)

/-- What reverse mode computes as gradient of the gradient of `½ Σ slice(x)²`, which is the increment of `x` by its own slice:
the incoming gradient through the first operand of the increment; nothing through the second, which is not differentiated
(differentiation.go prunes by `DiffWRT`). -/
noncomputable def sliceHessian (ax s e : Nat) (h : T ℝ) : Res (T ℝ) := (sliceIncrSymDiff ax s e h).bind fun p =>
  if sliceIncrDiffWRT.1 then .ok p.1 else .err

/-- **C62, refuted for `½ Σ slice(x)²`.** Its second derivative is the incoming gradient inside the slice and zero outside;
the computed one is not, as soon as the incoming gradient is nonzero somewhere outside. -/
theorem slice_hessian_wrong (ax s e : Nat) (t h : T ℝ) (ha : ax < t.shape.length) (hse : s < e) (he : e ≤ t.shape.getD ax 0)
    (hh : h.shape = t.shape) (p : List Nat) (hp : InB t.shape p) (hout : ¬ (s ≤ p.getD ax 0 ∧ p.getD ax 0 < e))
    (hne : h.at_ p ≠ 0) :
    ∃ r r', sliceHessian ax s e h = .ok r ∧ (sliceT ax s e h = .ok r' ∧
      IsGrad (fun x => (sliceT ax s e x).bind fun y => .ok (sliceIncr ax s e x y)) t h (sliceIncr ax s e t r')) ∧
      ¬ IsGrad (fun x => (sliceT ax s e x).bind fun y => .ok (sliceIncr ax s e x y)) t h r := by
  obtain ⟨r', hr', hrs⟩ : ∃ r, sliceT ax s e h = .ok r ∧
      r.shape = if e - s = 1 then t.shape.eraseIdx ax else t.shape.set ax (e - s) := by
    unfold sliceT
    rw [hh, if_pos ⟨ha, hse, he⟩]
    by_cases h1 : e - s = 1
    · exact ⟨_, by rw [if_pos h1], by rw [if_pos h1]⟩
    · exact ⟨_, by rw [if_neg h1], by rw [if_neg h1]⟩
  have hin : ∀ (u z : T ℝ), u.shape = t.shape → sliceT ax s e u = .ok z → ∀ i, InB t.shape i →
      (sliceIncr ax s e t z).at_ i = if s ≤ i.getD ax 0 ∧ i.getD ax 0 < e then u.at_ i else 0 := by
    intro u z hu hz i hi
    have hil : ax < i.length := by rw [hi.length]; exact ha
    unfold sliceT at hz
    rw [hu, if_pos ⟨ha, hse, he⟩] at hz
    show (if _ then _ else _) = _
    by_cases hc : s ≤ i.getD ax 0 ∧ i.getD ax 0 < e
    · rw [if_pos hc, if_pos hc, zero_add]
      by_cases h1 : e - s = 1
      · rw [if_pos h1] at hz ⊢
        injection hz with hz
        rw [← hz]
        show u.at_ ((i.eraseIdx ax).insertIdx ax s) = _
        rw [insert_erase _ _ _ hil]
        have : s = i.getD ax 0 := by omega
        rw [this, set_getD_self]
      · rw [if_neg h1] at hz ⊢
        injection hz with hz
        rw [← hz]
        show u.at_ ((i.set ax (i.getD ax 0 - s)).set ax ((i.set ax (i.getD ax 0 - s)).getD ax 0 + s)) = _
        rw [getD_set _ _ _ _ hil, if_pos rfl, List.set_set, Nat.sub_add_cancel hc.1, set_getD_self]
    · rw [if_neg hc, if_neg hc]
  have hF : ∀ u : T ℝ, u.shape = t.shape → ∃ z, sliceT ax s e u = .ok z := by
    intro u hu
    unfold sliceT
    rw [hu, if_pos ⟨ha, hse, he⟩]
    by_cases h1 : e - s = 1
    · exact ⟨_, by rw [if_pos h1]⟩
    · exact ⟨_, by rw [if_neg h1]⟩
  have hG : IsGrad (fun x => (sliceT ax s e x).bind fun y => .ok (sliceIncr ax s e x y)) t h (sliceIncr ax s e t r') := by
    refine ⟨rfl, fun d hd => ?_⟩
    choose z hz using fun τ : ℝ => hF (moveT t d τ) rfl
    refine ⟨fun τ => sliceIncr ax s e t (z τ), Filter.Eventually.of_forall fun τ => ⟨?_, hh.symm⟩, ?_⟩
    · show (sliceT ax s e (moveT t d τ)).bind _ = _
      rw [hz τ]
      show Res.ok _ = _
      rw [sliceIncr_first ax s e t (moveT t d τ) _ rfl]
    · refine (hasDerivAt_pair h _ (fun i => if s ≤ i.getD ax 0 ∧ i.getD ax 0 < e then d.at_ i else 0) (fun i hi => ?_)).congr_deriv ?_
      · rw [hh] at hi
        have e1 : (fun τ => (sliceIncr ax s e t (z τ)).at_ i) = fun τ =>
            (if s ≤ i.getD ax 0 ∧ i.getD ax 0 < e then t.at_ i else 0) +
              τ * (if s ≤ i.getD ax 0 ∧ i.getD ax 0 < e then d.at_ i else 0) := by
          funext τ
          rw [hin (moveT t d τ) (z τ) rfl (hz τ) i hi]
          by_cases hc : s ≤ i.getD ax 0 ∧ i.getD ax 0 < e
          · simp only [if_pos hc, moveT]
          · simp only [if_neg hc]; ring
        rw [e1]
        exact hasDerivAt_line _ _
      · rw [pair_eq, hh]
        refine sumOver_congr _ _ _ (fun i hi => ?_)
        rw [hin h r' hh hr' i hi]
        by_cases hc : s ≤ i.getD ax 0 ∧ i.getD ax 0 < e
        · rw [if_pos hc, if_pos hc]
        · rw [if_neg hc, if_neg hc]; ring
  refine ⟨h, r', ?_, ⟨hr', hG⟩, fun hW => ?_⟩
  · unfold sliceHessian sliceIncrSymDiff
    rw [hr']; rfl
  · have := hW.at hG p hp
    rw [hin h r' hh hr' p hp, if_neg hout] at this
    exact hne this

/-! ### Reshape -/

/-- **C63.** The symbolic gradient of a reshape is the incoming gradient, reshaped back. -/
theorem reshape_grad (t g : T ℝ) (s : List Nat) (hs : size s = size t.shape) (hg : g.shape = s) :
    ∃ r, reshapeDiff t.shape g = .ok r ∧ IsGrad (fun x => reshape x (s.map Int.ofNat)) t g r := by
  refine ⟨g.reshape t.shape, ?_, ?_⟩
  · unfold reshapeDiff reshape
    rw [reshapeTo_ofNat _ _ (by rw [hg, hs])]; rfl
  · refine gather_grad _ t g _ s (fun i => unravel t.shape (ravel s i)) ?_ ?_ hg rfl ?_
    · intro i hi
      exact inB_unravel (by rw [← hs]; exact ravel_lt hi)
    · intro x hx
      refine ⟨x.reshape s, ?_, rfl, fun i _ => ?_⟩
      · show reshape x _ = _
        unfold reshape
        rw [reshapeTo_ofNat _ _ (by rw [hx, hs])]; rfl
      · rw [reshape_at, T.flat, hx]
    · intro j hj
      have hb : InB s (unravel s (ravel t.shape j)) := inB_unravel (by rw [hs]; exact ravel_lt hj)
      rw [reshape_at, T.flat, hg, ← sumOver_single s _ g.at_ hb]
      refine sumOver_congr _ _ _ (fun i hi => ?_)
      by_cases hij : unravel s (ravel t.shape j) = i
      · rw [if_pos hij, if_pos]
        rw [← hij, ravel_unravel (by rw [hs]; exact ravel_lt hj), unravel_ravel hj]
      · rw [if_neg hij, if_neg]
        intro h
        apply hij
        rw [← h, ravel_unravel (by rw [← hs]; exact ravel_lt hi), unravel_ravel hi]

/-- **C63 (define-by-run, first use).** If no derivative is held yet, the derivative set is the gradient. Missing: operands
used elsewhere (`reshape_dodiff_overwrites`), and the result's own derivative (`reshape_dodiff_result`). -/
theorem reshape_dodiff_partial (t xd g : T ℝ) (s : List Nat) (hs : size s = size t.shape) (hne : s ≠ []) (hg : g.shape = s) :
    ∃ r y, reshapeDoDiff t.shape xd g = .ok (r, y) ∧ IsGrad (fun x => reshape x (s.map Int.ofNat)) t g r := by
  obtain ⟨r, r1, r2⟩ := reshape_grad t g s hs hg
  have hr : r = g.reshape t.shape := by
    unfold reshapeDiff reshape at r1
    rw [reshapeTo_ofNat _ _ (by rw [hg, hs])] at r1
    have : Res.ok (g.reshape t.shape) = Res.ok r := r1
    injection this with h; exact h.symm
  refine ⟨r, g.reshape t.shape, ?_, r2⟩
  unfold reshapeDoDiff
  rw [if_neg (by rw [hg]; exact hne), if_neg (by rw [hg, hs]; simp), hr]

/-- **C63, refuted: accumulation.** The derivative held is lost, whatever it was: the outcome never depends on it. -/
theorem reshape_dodiff_overwrites {α : Type} (from_ : List Nat) (xd xd' g : T α) :
    reshapeDoDiff from_ xd g = reshapeDoDiff from_ xd' g := rfl

/-- An operand used twice, as `x` and reshaped, ends up with less than its gradient: the outcome is not the derivative held
plus the gradient, as soon as the derivative held is nonzero somewhere. -/
theorem reshape_dodiff_not_added (t xd g r y v : T ℝ) (s : List Nat) (hs : size s = size t.shape) (hne : s ≠ []) (hg : g.shape = s)
    (p : List Nat) (hp : InB t.shape p) (hx : xd.at_ p ≠ 0) (hr : reshapeDoDiff t.shape xd g = .ok (r, y))
    (hv : IsGrad (fun x => reshape x (s.map Int.ofNat)) t g v) : r.at_ p ≠ xd.at_ p + v.at_ p := by
  obtain ⟨r', y', r1, r2⟩ := reshape_dodiff_partial t xd g s hs hne hg
  rw [r1] at hr
  injection hr with hr
  have hrr : r' = r := congrArg Prod.fst hr
  have := r2.at hv p hp
  rw [← hrr, this]
  intro h
  apply hx
  linarith

/-- **C63, refuted: the result's derivative.** It is reshaped in place, so afterwards it does not have the shape of the
result. -/
theorem reshape_dodiff_result {α : Type} (from_ : List Nat) (xd g r y : T α) (h : reshapeDoDiff from_ xd g = .ok (r, y))
    (hne : from_ ≠ g.shape) : y.shape = from_ ∧ y.shape ≠ g.shape := by
  unfold reshapeDoDiff at h
  by_cases h1 : g.shape = []
  · rw [if_pos h1] at h; simp at h
  · rw [if_neg h1] at h
    by_cases h2 : size from_ ≠ size g.shape
    · rw [if_pos h2] at h; simp at h
    · rw [if_neg h2] at h
      injection h with h
      have : g.reshape from_ = y := congrArg Prod.snd h
      rw [← this]
      exact ⟨rfl, hne⟩

/-! ### Examples -/

section Examples

/-- A vector of two elements. -/
private def v2 (a b : ℝ) : T ℝ := ⟨[2], fun i => if i.getD 0 0 = 0 then a else b⟩
private def v4 (a b c d : ℝ) : T ℝ :=
  ⟨[4], fun i => if i.getD 0 0 = 0 then a else if i.getD 0 0 = 1 then b else if i.getD 0 0 = 2 then c else d⟩

/-- Repeating `(5, 6)` twice along axis 0 gives `(5, 5, 6, 6)`; the built gradient of it is a scalar. -/
example : ∃ r, repeatDiff 0 (v4 1 2 3 4) = .ok r ∧ size r.shape < size (v2 5 6).shape :=
  repeat_gradient_wrong (v2 5 6) _ 0 2 (by decide) (by decide) (by decide) (by decide) rfl

/-- Define-by-run it is `(1 + 2, 3 + 4)`, added to the derivative held. -/
example : ∃ r v, repeatDoDiff 0 2 (v2 10 20) (v4 1 2 3 4) = .ok r ∧ IsGrad (fun x => repeat_ x 0 2) (v2 5 6) (v4 1 2 3 4) v ∧
    r.shape = [2] ∧ ∀ j, InB [2] j → r.at_ j = (v2 10 20).at_ j + v.at_ j :=
  repeat_dodiff (v2 5 6) _ _ 0 2 (by decide) (by decide) (by decide) rfl (by decide) rfl

example : IsGrad (fun x => repeat_ x 0 2) (v2 5 6) (v4 1 2 3 4) (v2 (1 + 2) (3 + 4)) := by
  refine repeat_grad _ _ 0 2 (by decide) (by decide) rfl _ rfl (fun j hj => ?_)
  match j, hj with
  | [0], _ => simp [v2, v4, Finset.sum_range_succ]
  | [1], _ => simp [v2, v4, Finset.sum_range_succ]

/-- A unit axis of a tensor with three axes. -/
example (x g : ℝ) : repeatDoDiff 1 3 ⟨[2, 1, 2], fun _ => x⟩ ⟨[2, 3, 2], fun _ => g⟩ = .err :=
  repeat_dodiff_fails ⟨[2, 1, 2], fun _ => x⟩ _ _ 1 3 (by simp) (by decide) (by simp) rfl rfl rfl (by simp)

/-- Broadcasting a row over a matrix, with the unit axis or without it. -/
example (x g : ℝ) : ∃ r, broadcastDiff [0] [1, 3] ⟨[2, 3], fun _ => g⟩ = .ok r ∧
    IsGrad (fun x => broadcastHalf [0] x 2 [2, 3]) ⟨[1, 3], fun _ => x⟩ ⟨[2, 3], fun _ => g⟩ r :=
  broadcast_grad [0] [2, 3] [2, 3] ⟨[1, 3], fun _ => x⟩ _ (by decide) (by decide) (by decide) (by decide) (Or.inl rfl) rfl

example (x g : ℝ) : ∃ r, broadcastDiff [0, 2] [3] ⟨[2, 3, 4], fun _ => g⟩ = .ok r ∧
    IsGrad (fun x => broadcastHalf [0, 2] x 3 [2, 3, 4]) ⟨[3], fun _ => x⟩ ⟨[2, 3, 4], fun _ => g⟩ r :=
  broadcast_grad [0, 2] [2, 3, 4] [2, 3, 4] ⟨[3], fun _ => x⟩ _ (by decide) (by decide) (by decide) (by decide) (Or.inr rfl) rfl

/-- The gradient of `x[1:2]` for a vector of two. -/
example (a b g : ℝ) : IsGrad (sliceT 0 1 2) (v2 a b) ⟨[], fun _ => g⟩ (sliceIncr 0 1 2 (v2 a b) ⟨[], fun _ => g⟩) :=
  slice_grad 0 1 2 _ _ (by simp [v2]) (by decide) (by simp [v2]) rfl

example (a b g : ℝ) : (sliceIncr 0 1 2 (v2 a b) ⟨[], fun _ => g⟩).at_ [0] = 0 ∧
    (sliceIncr 0 1 2 (v2 a b) ⟨[], fun _ => g⟩).at_ [1] = g := by
  constructor
  · simp [sliceIncr]
  · simp [sliceIncr]

/-- The second derivative of `½ x[1:2]²` in direction `(1, 0)`. -/
example (a b : ℝ) : ∃ r r', sliceHessian 0 1 2 (v2 1 0) = .ok r ∧ (sliceT 0 1 2 (v2 1 0) = .ok r' ∧
      IsGrad (fun x => (sliceT 0 1 2 x).bind fun y => .ok (sliceIncr 0 1 2 x y)) (v2 a b) (v2 1 0) (sliceIncr 0 1 2 (v2 a b) r')) ∧
      ¬ IsGrad (fun x => (sliceT 0 1 2 x).bind fun y => .ok (sliceIncr 0 1 2 x y)) (v2 a b) (v2 1 0) r :=
  slice_hessian_wrong 0 1 2 _ _ (by simp [v2]) (by decide) (by simp [v2]) rfl [0] (by simp [v2, InB]) (by decide) (by simp [v2])

example (a b : ℝ) : ∃ r, reshapeDiff [2] (⟨[2, 1], fun i => if i.getD 0 0 = 0 then a else b⟩ : T ℝ) = .ok r ∧
    IsGrad (fun x => reshape x [2, 1]) (v2 1 2) ⟨[2, 1], fun i => if i.getD 0 0 = 0 then a else b⟩ r :=
  reshape_grad (v2 1 2) _ [2, 1] rfl rfl

end Examples

end Verif.Shape
