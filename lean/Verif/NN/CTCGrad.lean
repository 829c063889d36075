import Verif.NN.CTC
/-!
The gradient of `CTCLoss`, `ctcLossDiffOp.f64s`, op_ctc_loss.go 579-746. The simplifications are those of `Verif.NN.CTC`; the
gradient is a function of the coordinates (time, batch, label), and `gradSlice` (line 654) a function of time and label.
-/
set_option autoImplicit false
namespace Verif.NN.CTC
open Finset Verif.Shape Fl

noncomputable section

/-! ### The model -/

/-- `gradSlice.SetAt(v, t, c)` -/
def set2 (g : Nat → Nat → Fl) (t c : Nat) (v : Fl) : Nat → Nat → Fl := fun t' c' => if t' = t ∧ c' = c then v else g t' c'

open Classical in
/-- Accumulate a logarithm in a slot, op_ctc_loss.go 716-726. -/
def accumulate (g : Nat → Nat → Fl) (t c : Nat) (v : Fl) : Nat → Nat → Fl :=
  let lcab := g t c
  if lcab = ninf then set2 g t c v
  else
    let m := Fl.max lcab v
    set2 g t c (add (log (add (exp (sub lcab m)) (exp (sub v m)))) m)

/-- One cell of the backward table and its contribution to the gradient, op_ctc_loss.go 681-726. -/
def betaCell (tp : Nat → Nat) (numLabels targetLength : Nat) (lpp la : Nat → Fl) (t s : Nat)
    (st : (Nat → Fl) × (Nat → Nat → Fl)) : (Nat → Fl) × (Nat → Nat → Fl) :=
  let targetWidth := 2 * targetLength + 1
  let lb := st.1
  let baseIndex := (t + 1) * targetWidth + s
  let lb1 := lb baseIndex
  let cur := tp s
  let lb2 := if s < 2 * targetLength then lb (baseIndex + 1) else ninf
  let lbmax := if s < 2 * targetLength then bump lb1 lb2 else lb1
  let lb3 := if s + 1 < 2 * targetLength ∧ tp (s + 2) ≠ cur then lb (baseIndex + 2) else ninf
  let lbmax := if s + 1 < 2 * targetLength ∧ tp (s + 2) ≠ cur then bump lbmax lb3 else lbmax
  let lbmax := unInf lbmax
  let v := add (add (log (add (add (exp (sub lb1 lbmax)) (exp (sub lb2 lbmax))) (exp (sub lb3 lbmax)))) lbmax)
      (lpp (t * numLabels + cur))
  (Function.update lb (t * targetWidth + s) v, accumulate st.2 t cur (add (la (t * targetWidth + s)) v))

/-- The last time step, op_ctc_loss.go 667-677. -/
def betaLast (tp : Nat → Nat) (numLabels inputLength targetLength : Nat) (lpp la : Nat → Fl)
    (st : (Nat → Fl) × (Nat → Nat → Fl)) : (Nat → Fl) × (Nat → Nat → Fl) :=
  let targetWidth := 2 * targetLength + 1
  let i := (inputLength - 1) * targetWidth + 2 * targetLength
  let lb := Function.update st.1 i (lpp ((inputLength - 1) * numLabels))
  let g := set2 st.2 (inputLength - 1) 0 (add (la i) (lb i))
  if 0 < targetLength then
    let cur := tp (2 * targetLength - 1)
    let i := (inputLength - 1) * targetWidth + (2 * targetLength - 1)
    let lb := Function.update lb i (lpp ((inputLength - 1) * numLabels + cur))
    (lb, set2 g (inputLength - 1) cur (add (la i) (lb i)))
  else (lb, g)

/-- The other time steps, from the last to the first, op_ctc_loss.go 679-728. -/
def betaTable (tp : Nat → Nat) (numLabels inputLength targetLength : Nat) (lpp la : Nat → Fl) :
    (Nat → Fl) × (Nat → Nat → Fl) :=
  loop (inputLength - 1) (fun i => loop (2 * targetLength + 1) fun j =>
    betaCell tp numLabels targetLength lpp la (inputLength - 2 - i) (2 * targetLength - j))
    (betaLast tp numLabels inputLength targetLength lpp la (fun _ => ninf, fun _ _ => ninf))

/-- The gradient from the accumulated logarithms, op_ctc_loss.go 730-739. -/
def gradFinal (numLabels inputLength : Nat) (lpp : Nat → Fl) (nll : Fl) (gradOut : ℝ) (g : Nat → Nat → Fl) : Nat → Nat → Fl :=
  loop inputLength (fun t => loop numLabels fun c g =>
    let res := g t c
    let lp := lpp (t * numLabels + c)
    set2 g t c (scale (sub (exp lp) (exp (sub (add res nll) lp))) gradOut)) g

/-- The callback of the backward pass, op_ctc_loss.go 645-741. -/
def backwardCb (I : Inputs) (st : State) (gradOut : ℝ) (b : Nat) (grad : Nat → Nat → Nat → Fl) : Nat → Nat → Nat → Fl :=
  let il := I.inputLengths.getD b 0
  let tl := I.targetLengths.getD b 0
  let gradSlice : Nat → Nat → Fl := fun t c => grad t b c
  let gradSlice :=
    if 0 < il then gradFinal I.C il (lppSection I b) (st.nll b) gradOut
      (betaTable (primeOf I b) I.C il tl (lppSection I b) (cut (sectionSize I) b st.logAlpha)).2
    else gradSlice
  fun t b' c => if b' = b then gradSlice t c else grad t b' c

/-- `ctcLossDiffOp.f64s`, op_ctc_loss.go 579-746: it does not look at the reduction. -/
def ctcDiff (order : List Nat) (I : Inputs) (st : State) (gradOut : ℝ) : Nat → Nat → Nat → Fl :=
  runInParallel order (backwardCb I st gradOut) fun _ _ _ => ninf

/-! ### The backward table -/

theorem set2_same (g : Nat → Nat → Fl) (t c : Nat) (v : Fl) : set2 g t c v t c = v := by simp [set2]

theorem set2_other {g : Nat → Nat → Fl} {t c t' c' : Nat} (v : Fl) (h : ¬ (t' = t ∧ c' = c)) : set2 g t c v t' c' = g t' c' :=
  if_neg h

theorem accumulate_other {g : Nat → Nat → Fl} {t c t' c' : Nat} (v : Fl) (h : ¬ (t' = t ∧ c' = c)) :
    accumulate g t c v t' c' = g t' c' := by
  unfold accumulate
  simp only
  split
  · exact set2_other _ h
  · exact set2_other _ h

theorem max_fin {x : ℝ} {v : Fl} (hv : Low v) : ∃ m, Fl.max (fin x) v = fin m := by
  cases v with
  | fin z =>
    simp only [Fl.max]
    by_cases h : gt (fin x) (fin z)
    · exact ⟨x, if_pos h⟩
    · exact ⟨z, if_neg h⟩
  | ninf => exact ⟨x, by simp [Fl.max, gt]⟩
  | nan => exact absurd hv (by simp [Low])
  | pinf => exact absurd hv (by simp [Low])

theorem accumulate_same {g : Nat → Nat → Fl} {t c : Nat} {v : Fl} (hg : Low (g t c)) (hv : Low v) :
    Low (accumulate g t c v t c) ∧ val (accumulate g t c v t c) = val (g t c) + val v := by
  unfold accumulate
  simp only
  by_cases h : g t c = ninf
  · rw [if_pos h, set2_same, h]
    exact ⟨hv, by simp [val]⟩
  · rw [if_neg h, set2_same]
    cases hgc : g t c with
    | fin x =>
      obtain ⟨m, hm⟩ := max_fin (x := x) hv
      rw [hm]
      exact lse2 (by simp [Low]) hv m
    | ninf => exact absurd hgc h
    | nan => rw [hgc] at hg; exact absurd hg (by simp [Low])
    | pinf => rw [hgc] at hg; exact absurd hg (by simp [Low])

/-- What stands in the slot of a label: the sum of the products over the positions with that label. -/
def slot (lab : Nat → Nat) (la lb : Nat → ℝ) (c : Nat) (S : Finset Nat) : ℝ := ∑ s ∈ S, if prime lab s = c then la s * lb s else 0

/-- The value of a cell. -/
theorem betaCell_same {lab : Nat → Nat} (C L : Nat) (lpp la : Nat → Fl) (hlpp : ∀ i, Low (lpp i)) (t s : Nat)
    (hs : s < 2 * L + 1) (st : (Nat → Fl) × (Nat → Nat → Fl)) (hlb : ∀ s < 2 * L + 1, Low (st.1 ((t + 1) * (2 * L + 1) + s))) :
    let r := betaCell (prime lab) C L lpp la t s st
    (Low (r.1 (t * (2 * L + 1) + s)) ∧ val (r.1 (t * (2 * L + 1) + s)) =
      to3 lab L s (fun s' => val (st.1 ((t + 1) * (2 * L + 1) + s'))) * val (lpp (t * C + prime lab s))) ∧
    (∀ j, j ≠ t * (2 * L + 1) + s → r.1 j = st.1 j) ∧
    r.2 = accumulate st.2 t (prime lab s) (add (la (t * (2 * L + 1) + s)) (r.1 (t * (2 * L + 1) + s))) := by
  intro r
  obtain ⟨W, hW⟩ : ∃ W, W = 2 * L + 1 := ⟨_, rfl⟩
  rw [← hW] at hlb ⊢
  have h1 : Low (st.1 ((t + 1) * W + s)) := hlb s (by omega)
  have h2 : Low (if s < 2 * L then st.1 ((t + 1) * W + s + 1) else ninf) ∧
      val (if s < 2 * L then st.1 ((t + 1) * W + s + 1) else ninf) =
        if s < 2 * L then val (st.1 ((t + 1) * W + (s + 1))) else 0 := by
    by_cases h : s < 2 * L
    · rw [if_pos h, if_pos h]; exact ⟨hlb (s + 1) (by omega), rfl⟩
    · rw [if_neg h, if_neg h]; exact ⟨trivial, rfl⟩
  have h3 : Low (if s + 1 < 2 * L ∧ prime lab (s + 2) ≠ prime lab s then st.1 ((t + 1) * W + s + 2) else ninf) ∧
      val (if s + 1 < 2 * L ∧ prime lab (s + 2) ≠ prime lab s then st.1 ((t + 1) * W + s + 2) else ninf) =
        if s + 1 < 2 * L ∧ prime lab (s + 2) ≠ prime lab s then val (st.1 ((t + 1) * W + (s + 2))) else 0 := by
    by_cases h : s + 1 < 2 * L ∧ prime lab (s + 2) ≠ prime lab s
    · rw [if_pos h, if_pos h]; exact ⟨hlb (s + 2) (by omega), rfl⟩
    · rw [if_neg h, if_neg h]; exact ⟨trivial, rfl⟩
  obtain ⟨m1, hm1⟩ : ∃ m1, m1 = (if s < 2 * L then bump (st.1 ((t + 1) * W + s))
      (if s < 2 * L then st.1 ((t + 1) * W + s + 1) else ninf) else st.1 ((t + 1) * W + s)) := ⟨_, rfl⟩
  have hl1 : Low m1 := by
    rw [hm1]
    by_cases h : s < 2 * L
    · rw [if_pos h]; exact bump_low h1 h2.1
    · rw [if_neg h]; exact h1
  obtain ⟨m2, hm2⟩ : ∃ m2, m2 = (if s + 1 < 2 * L ∧ prime lab (s + 2) ≠ prime lab s then
      bump m1 (if s + 1 < 2 * L ∧ prime lab (s + 2) ≠ prime lab s then st.1 ((t + 1) * W + s + 2) else ninf) else m1) := ⟨_, rfl⟩
  have hl2 : Low m2 := by
    rw [hm2]
    by_cases h : s + 1 < 2 * L ∧ prime lab (s + 2) ≠ prime lab s
    · rw [if_pos h]; exact bump_low hl1 h3.1
    · rw [if_neg h]; exact hl1
  obtain ⟨m, hm⟩ := unInf_fin hl2
  have h4 := lse3 h1 h2.1 h3.1 m
  have h5 := low_add h4.1 (hlpp (t * C + prime lab s))
  have hr : r.1 = Function.update st.1 (t * W + s) (add (add (log (add (add (exp (sub (st.1 ((t + 1) * W + s)) (fin m)))
      (exp (sub (if s < 2 * L then st.1 ((t + 1) * W + s + 1) else ninf) (fin m))))
      (exp (sub (if s + 1 < 2 * L ∧ prime lab (s + 2) ≠ prime lab s then st.1 ((t + 1) * W + s + 2) else ninf) (fin m))))) (fin m))
      (lpp (t * C + prime lab s))) := by
    rw [← hm, hm2, hm1, hW]; rfl
  refine ⟨?_, fun j hj => ?_, ?_⟩
  · rw [hr, Function.update_self]
    refine ⟨h5.1, ?_⟩
    rw [h5.2, h4.2, h2.2, h3.2]
    rfl
  · rw [hr]; exact Function.update_of_ne hj _ _
  · have h6 : r.2 = accumulate st.2 t (prime lab s) (add (la (t * W + s)) (add (add (log (add (add (exp (sub (st.1 ((t + 1) * W + s)) (fin m)))
      (exp (sub (if s < 2 * L then st.1 ((t + 1) * W + s + 1) else ninf) (fin m))))
      (exp (sub (if s + 1 < 2 * L ∧ prime lab (s + 2) ≠ prime lab s then st.1 ((t + 1) * W + s + 2) else ninf) (fin m))))) (fin m))
      (lpp (t * C + prime lab s)))) := by
      rw [← hm, hm2, hm1, hW]; rfl
    rw [h6, hr, Function.update_self]

/-- A row of the backward table, filled in from its end. -/
theorem betaRow {lab : Nat → Nat} (C L : Nat) (lpp la : Nat → Fl) (hlpp : ∀ i, Low (lpp i)) (t : Nat)
    (st : (Nat → Fl) × (Nat → Nat → Fl)) (hla : ∀ s < 2 * L + 1, Low (la (t * (2 * L + 1) + s)))
    (hlb : ∀ s < 2 * L + 1, Low (st.1 ((t + 1) * (2 * L + 1) + s))) (hg : ∀ c, st.2 t c = ninf) : ∀ n ≤ 2 * L + 1,
    let r := loop n (fun j => betaCell (prime lab) C L lpp la t (2 * L - j)) st
    (∀ j, (∀ s < 2 * L + 1, j ≠ t * (2 * L + 1) + s) → r.1 j = st.1 j) ∧
    (∀ s, s < 2 * L + 1 → 2 * L + 1 ≤ s + n → Low (r.1 (t * (2 * L + 1) + s)) ∧ val (r.1 (t * (2 * L + 1) + s)) =
      to3 lab L s (fun s' => val (st.1 ((t + 1) * (2 * L + 1) + s'))) * val (lpp (t * C + prime lab s))) ∧
    (∀ t' c, t' ≠ t → r.2 t' c = st.2 t' c) ∧
    (∀ c, Low (r.2 t c) ∧ val (r.2 t c) = ∑ j ∈ range n, if prime lab (2 * L - j) = c then
      val (la (t * (2 * L + 1) + (2 * L - j))) * (to3 lab L (2 * L - j) (fun s' => val (st.1 ((t + 1) * (2 * L + 1) + s'))) *
        val (lpp (t * C + prime lab (2 * L - j)))) else 0) := by
  intro n
  induction n with
  | zero =>
    intro _
    refine ⟨fun _ _ => rfl, fun s h1 h2 => by omega, fun _ _ _ => rfl, fun c => ?_⟩
    show Low (st.2 t c) ∧ val (st.2 t c) = _
    rw [hg c]
    exact ⟨trivial, by simp [val]⟩
  | succ n ih =>
    intro hn
    have hih := ih (by omega)
    clear ih
    simp only [loop_succ] at hih ⊢
    obtain ⟨q, hq⟩ : ∃ q, q = loop n (fun j => betaCell (prime lab) C L lpp la t (2 * L - j)) st := ⟨_, rfl⟩
    rw [← hq] at hih ⊢
    obtain ⟨i1, i2, i3, i4⟩ := hih
    have hrow : ∀ s < 2 * L + 1, q.1 ((t + 1) * (2 * L + 1) + s) = st.1 ((t + 1) * (2 * L + 1) + s) := fun s hs =>
      i1 _ fun s' hs' h => by
        have := (cell_inj hs hs' h).1
        omega
    obtain ⟨b1, b2, b3⟩ := betaCell_same (lab := lab) C L lpp la hlpp t (2 * L - n) (by omega) q
      (fun s hs => by rw [hrow s hs]; exact hlb s hs)
    have hto : to3 lab L (2 * L - n) (fun s' => val (q.1 ((t + 1) * (2 * L + 1) + s'))) =
        to3 lab L (2 * L - n) (fun s' => val (st.1 ((t + 1) * (2 * L + 1) + s'))) :=
      to3_congr lab L (by omega) fun s' hs' => by rw [hrow s' hs']
    rw [hto] at b1
    refine ⟨fun j hj => ?_, fun s hs hs' => ?_, fun t' c ht' => ?_, fun c => ?_⟩
    · rw [b2 j (hj _ (by omega)), i1 j hj]
    · by_cases h : s = 2 * L - n
      · rw [h]; exact b1
      · have : t * (2 * L + 1) + s ≠ t * (2 * L + 1) + (2 * L - n) := by omega
        rw [b2 _ this]
        exact i2 s hs (by omega)
    · rw [b3, accumulate_other _ (fun h => ht' h.1), i3 t' c ht']
    · have hadd := low_add (hla (2 * L - n) (by omega)) b1.1
      rw [b3, sum_range_succ]
      by_cases h : c = prime lab (2 * L - n)
      · subst h
        have h2 := accumulate_same (i4 (prime lab (2 * L - n))).1 hadd.1
        refine ⟨h2.1, ?_⟩
        rw [h2.2, (i4 _).2, hadd.2, b1.2, if_pos rfl]
      · rw [accumulate_other _ (fun h' => h h'.2), if_neg (fun h' => h h'.symm), add_zero]
        exact i4 c

/-- The last row. -/
theorem betaLast_spec {lab : Nat → Nat} (C L : Nat) (lpp la : Nat → Fl) (hlpp : ∀ i, Low (lpp i)) (hl : ∀ k < L, lab k ≠ 0)
    (il : Nat) (hla : ∀ s < 2 * L + 1, Low (la ((il - 1) * (2 * L + 1) + s))) :
    let r := betaLast (prime lab) C il L lpp la (fun _ => ninf, fun _ _ => ninf)
    (∀ s < 2 * L + 1, Low (r.1 ((il - 1) * (2 * L + 1) + s)) ∧ val (r.1 ((il - 1) * (2 * L + 1) + s)) =
      (if s = 2 * L ∨ s + 1 = 2 * L then 1 else 0) * val (lpp ((il - 1) * C + prime lab s))) ∧
    (∀ t c, t ≠ il - 1 → r.2 t c = ninf) ∧
    (∀ c, Low (r.2 (il - 1) c) ∧ val (r.2 (il - 1) c) = ∑ s ∈ range (2 * L + 1), if prime lab s = c then
      val (la ((il - 1) * (2 * L + 1) + s)) * ((if s = 2 * L ∨ s + 1 = 2 * L then 1 else 0) * val (lpp ((il - 1) * C + prime lab s)))
        else 0) := by
  intro r
  obtain ⟨T, hT⟩ : ∃ T, T = il - 1 := ⟨_, rfl⟩
  cases L with
  | zero =>
    have hr : r = (Function.update (fun _ => ninf) (T * 1 + 0) (lpp (T * C)),
      set2 (fun _ _ => ninf) T 0 (add (la (T * 1 + 0)) (lpp (T * C)))) := by
      have : r = betaLast (prime lab) C il 0 lpp la (fun _ => ninf, fun _ _ => ninf) := rfl
      rw [this]
      unfold betaLast
      simp [hT]
    rw [← hT] at hla ⊢
    have h0 := hla 0 (by omega)
    refine ⟨fun s hs => ?_, fun t c ht => ?_, fun c => ?_⟩
    · have : s = 0 := by omega
      subst this
      rw [hr]
      simp only [Nat.mul_zero, Nat.zero_add, Function.update_self, prime]
      refine ⟨hlpp _, by simp⟩
    · rw [hr]
      dsimp only
      rw [set2_other _ fun h => ht h.1]
    · rw [hr]
      simp only [Nat.mul_zero, Nat.zero_add, sum_range_one, prime] at h0 ⊢
      have hadd := low_add h0 (hlpp (T * C))
      by_cases h : c = 0
      · subst h
        rw [set2_same]
        refine ⟨hadd.1, ?_⟩
        rw [hadd.2]
        simp
      · rw [set2_other _ fun h' => h h'.2]
        exact ⟨trivial, by simp [val, Ne.symm h]⟩
  | succ L =>
    have e0 : 2 * (L + 1) - 1 = 2 * L + 1 := by omega
    have hk := hl L (by omega)
    obtain ⟨W, hW⟩ : ∃ W, W = 2 * (L + 1) + 1 := ⟨_, rfl⟩
    have hr : r = (Function.update (Function.update (fun _ => ninf) (T * W + (2 * L + 2)) (lpp (T * C))) (T * W + (2 * L + 1))
        (lpp (T * C + lab L)),
      set2 (set2 (fun _ _ => ninf) T 0 (add (la (T * W + (2 * L + 2))) (lpp (T * C)))) T (lab L)
        (add (la (T * W + (2 * L + 1))) (lpp (T * C + lab L)))) := by
      have : r = betaLast (prime lab) C il (L + 1) lpp la (fun _ => ninf, fun _ _ => ninf) := rfl
      rw [this]
      unfold betaLast
      simp only [if_pos (Nat.succ_pos L), e0, prime_odd, Function.update_self, ← hT, ← hW]
      rfl
    rw [← hT] at hla ⊢
    rw [← hW] at hla ⊢
    refine ⟨fun s hs => ?_, fun t c ht => ?_, fun c => ?_⟩
    · rw [hr]
      dsimp only
      by_cases h1 : s = 2 * L + 1
      · subst h1
        rw [Function.update_self, prime_odd, if_pos (Or.inr (by omega)), one_mul]
        exact ⟨hlpp _, rfl⟩
      · rw [Function.update_of_ne (by omega)]
        by_cases h2 : s = 2 * L + 2
        · subst h2
          have : prime lab (2 * L + 2) = 0 := prime_even lab (L + 1)
          rw [Function.update_self, this, if_pos (Or.inl (by omega)), one_mul]
          exact ⟨hlpp _, rfl⟩
        · rw [Function.update_of_ne (by omega), if_neg (by omega), zero_mul]
          exact ⟨trivial, rfl⟩
    · rw [hr]
      show set2 _ _ _ _ t c = ninf
      rw [set2_other _ fun h => ht h.1, set2_other _ fun h => ht h.1]
    · have hsum : (∑ s ∈ range W, if prime lab s = c then
          val (la (T * W + s)) * ((if s = 2 * (L + 1) ∨ s + 1 = 2 * (L + 1) then 1 else 0) * val (lpp (T * C + prime lab s))) else 0) =
          (if lab L = c then val (la (T * W + (2 * L + 1))) * val (lpp (T * C + lab L)) else 0) +
          (if 0 = c then val (la (T * W + (2 * L + 2))) * val (lpp (T * C)) else 0) := by
        have : W = 2 * L + 1 + 1 + 1 := by omega
        conv_lhs => rw [this]
        rw [sum_range_succ, sum_range_succ, sum_eq_zero, zero_add]
        · have h2 : prime lab (2 * L + 1 + 1) = 0 := prime_even lab (L + 1)
          rw [prime_odd, h2, if_pos (show 2 * L + 1 = 2 * (L + 1) ∨ 2 * L + 1 + 1 = 2 * (L + 1) from Or.inr (by omega)),
            if_pos (show 2 * L + 1 + 1 = 2 * (L + 1) ∨ 2 * L + 1 + 1 + 1 = 2 * (L + 1) from Or.inl (by omega)), one_mul, one_mul, this]
          rfl
        · intro s hs
          have := mem_range.1 hs
          rw [if_neg (show ¬ (s = 2 * (L + 1) ∨ s + 1 = 2 * (L + 1)) by omega), zero_mul, mul_zero, ite_self]
      rw [hsum, hr]
      show Low (set2 _ _ _ _ T c) ∧ val (set2 _ _ _ _ T c) = _
      have a1 := low_add (hla (2 * L + 1) (by omega)) (hlpp (T * C + lab L))
      have a2 := low_add (hla (2 * L + 2) (by omega)) (hlpp (T * C))
      by_cases h1 : c = lab L
      · subst h1
        rw [set2_same, if_pos rfl, if_neg (fun h => hk h.symm), add_zero]
        exact a1
      · rw [set2_other _ fun h => h1 h.2, if_neg (fun h => h1 h.symm), zero_add]
        by_cases h2 : c = 0
        · subst h2
          rw [set2_same, if_pos rfl]
          exact a2
        · rw [set2_other _ fun h => h2 h.2, if_neg (fun h => h2 h.symm)]
          exact ⟨trivial, rfl⟩

/-- The backward table, and what has been accumulated for the gradient. -/
theorem betaTable_spec {C L : Nat} {lab : Nat → Nat} (lpp la : Nat → Fl) (hlpp : ∀ i, Low (lpp i)) (hl : ∀ k < L, lab k ≠ 0)
    {il : Nat} (hil : 0 < il) (hla : ∀ t s, t < il → s < 2 * L + 1 → Low (la (t * (2 * L + 1) + s))) :
    let y : Nat → Nat → ℝ := fun t c => val (lpp (t * C + c))
    let r := betaTable (prime lab) C il L lpp la
    (∀ t c, il ≤ t → r.2 t c = ninf) ∧
    ∀ t c, t < il → Low (r.2 t c) ∧ val (r.2 t c) = ∑ s ∈ range (2 * L + 1), if prime lab s = c then
      val (la (t * (2 * L + 1) + s)) * (finish y lab L (il - 1) (il - 1 - t) s * y t c) else 0 := by
  intro y r
  have key : ∀ n, n ≤ il - 1 →
      let q := loop n (fun i => loop (2 * L + 1) fun j => betaCell (prime lab) C L lpp la (il - 2 - i) (2 * L - j))
        (betaLast (prime lab) C il L lpp la (fun _ => ninf, fun _ _ => ninf))
      (∀ s < 2 * L + 1, Low (q.1 ((il - 1 - n) * (2 * L + 1) + s)) ∧ val (q.1 ((il - 1 - n) * (2 * L + 1) + s)) =
        finish y lab L (il - 1) n s * y (il - 1 - n) (prime lab s)) ∧
      (∀ t c, t < il - 1 - n ∨ il - 1 < t → q.2 t c = ninf) ∧
      (∀ t c, il - 1 - n ≤ t → t < il → Low (q.2 t c) ∧ val (q.2 t c) = ∑ s ∈ range (2 * L + 1), if prime lab s = c then
        val (la (t * (2 * L + 1) + s)) * (finish y lab L (il - 1) (il - 1 - t) s * y t c) else 0) := by
    intro n
    induction n with
    | zero =>
      intro _
      obtain ⟨b1, b2, b3⟩ := betaLast_spec (lab := lab) C L lpp la hlpp hl il (fun s hs => hla _ s (by omega) hs)
      refine ⟨fun s hs => ?_, fun t c ht => ?_, fun t c h1 h2 => ?_⟩
      · exact b1 s hs
      · exact b2 t c (by omega)
      · have ht : t = il - 1 := by omega
        subst ht
        refine ⟨(b3 c).1, (b3 c).2.trans ?_⟩
        refine sum_congr rfl fun s _ => ?_
        by_cases h : prime lab s = c
        · rw [if_pos h, if_pos h, Nat.sub_self, h]; rfl
        · rw [if_neg h, if_neg h]
    | succ n ih =>
      intro hn
      have hih := ih (by omega)
      clear ih
      rw [loop_succ]
      obtain ⟨q, hq⟩ : ∃ q, q = loop n (fun i => loop (2 * L + 1) fun j =>
        betaCell (prime lab) C L lpp la (il - 2 - i) (2 * L - j))
        (betaLast (prime lab) C il L lpp la (fun _ => ninf, fun _ _ => ninf)) := ⟨_, rfl⟩
      rw [← hq] at hih ⊢
      obtain ⟨i1, i2, i3⟩ := hih
      have et : il - 1 - n = il - 2 - n + 1 := by omega
      have et' : il - 1 - (n + 1) = il - 2 - n := by omega
      rw [et] at i1 i2 i3
      rw [et']
      obtain ⟨t0, ht0⟩ : ∃ t0, t0 = il - 2 - n := ⟨_, rfl⟩
      rw [← ht0] at i1 i2 i3 ⊢
      have htn : il - 1 - (n + 1) = t0 := by omega
      have hfin : ∀ s < 2 * L + 1, to3 lab L s (fun s' => val (q.1 ((t0 + 1) * (2 * L + 1) + s'))) =
          finish y lab L (il - 1) (n + 1) s := fun s hs => by
        show _ = to3 lab L s fun s' => finish y lab L (il - 1) n s' * y (il - 1 - n) (prime lab s')
        rw [show il - 1 - n = t0 + 1 by omega]
        exact to3_congr lab L hs fun s' hs' => (i1 s' hs').2
      obtain ⟨r1, r2, r3, r4⟩ := betaRow (lab := lab) C L lpp la hlpp t0 q (fun s hs => hla t0 s (by omega) hs)
        (fun s hs => (i1 s hs).1) (fun c => i2 t0 c (Or.inl (by omega))) (2 * L + 1) (le_refl _)
      refine ⟨fun s hs => ?_, fun t c ht => ?_, fun t c h1 h2 => ?_⟩
      · have := r2 s hs (by omega)
        refine ⟨this.1, this.2.trans ?_⟩
        rw [hfin s hs]
      · rw [r3 t c (by omega)]
        exact i2 t c (by omega)
      · by_cases h : t = t0
        · subst h
          refine ⟨(r4 c).1, (r4 c).2.trans ?_⟩
          rw [← sum_range_reflect _ (2 * L + 1)]
          refine sum_congr rfl fun s hs => ?_
          have hs := mem_range.1 hs
          have e1 : 2 * L - (2 * L + 1 - 1 - s) = s := by omega
          rw [e1]
          by_cases h : prime lab s = c
          · rw [if_pos h, if_pos h, hfin s hs, show il - 1 - t = n + 1 by omega, h]
          · rw [if_neg h, if_neg h]
        · rw [r3 t c h]
          exact i3 t c (by omega) h2
  obtain ⟨k1, k2, k3⟩ := key (il - 1) (le_refl _)
  exact ⟨fun t c ht => k2 t c (Or.inr (by omega)), fun t c ht => k3 t c (by omega) ht⟩

/-! ### The gradient -/

theorem gradFinal_spec (C il : Nat) (lpp : Nat → Fl) (nll : Fl) (gout : ℝ) (g : Nat → Nat → Fl) :
    (∀ t c, t < il → c < C → gradFinal C il lpp nll gout g t c =
      scale (sub (exp (lpp (t * C + c))) (exp (sub (add (g t c) nll) (lpp (t * C + c))))) gout) ∧
    ∀ t c, il ≤ t → gradFinal C il lpp nll gout g t c = g t c := by
  have row : ∀ (t : Nat) (g : Nat → Nat → Fl) (n : Nat),
      let q := loop n (fun c g => set2 g t c (scale (sub (exp (lpp (t * C + c))) (exp (sub (add (g t c) nll) (lpp (t * C + c))))) gout)) g
      (∀ c < n, q t c = scale (sub (exp (lpp (t * C + c))) (exp (sub (add (g t c) nll) (lpp (t * C + c))))) gout) ∧
      ∀ t' c, t' ≠ t ∨ n ≤ c → q t' c = g t' c := by
    intro t g n
    induction n with
    | zero => exact ⟨fun c h => by omega, fun _ _ _ => rfl⟩
    | succ n ih =>
      simp only [loop_succ] at ih ⊢
      obtain ⟨i1, i2⟩ := ih
      refine ⟨fun c hc => ?_, fun t' c h => ?_⟩
      · by_cases h : c = n
        · subst h
          rw [set2_same, i2 t c (Or.inr (le_refl c))]
        · rw [set2_other _ fun h' => h h'.2]
          exact i1 c (by omega)
      · rw [set2_other _ (by omega), i2 t' c (by omega)]
  have all : ∀ n,
      let q := loop n (fun t => loop C fun c g =>
        set2 g t c (scale (sub (exp (lpp (t * C + c))) (exp (sub (add (g t c) nll) (lpp (t * C + c))))) gout)) g
      (∀ t c, t < n → c < C → q t c = scale (sub (exp (lpp (t * C + c))) (exp (sub (add (g t c) nll) (lpp (t * C + c))))) gout) ∧
      ∀ t c, n ≤ t → q t c = g t c := by
    intro n
    induction n with
    | zero => exact ⟨fun t c h => by omega, fun _ _ _ => rfl⟩
    | succ n ih =>
      simp only [loop_succ] at ih ⊢
      obtain ⟨i1, i2⟩ := ih
      obtain ⟨r1, r2⟩ := row n (loop n (fun t => loop C fun c g =>
        set2 g t c (scale (sub (exp (lpp (t * C + c))) (exp (sub (add (g t c) nll) (lpp (t * C + c))))) gout)) g) C
      refine ⟨fun t c ht hc => ?_, fun t c h => ?_⟩
      · by_cases h : t = n
        · subst h
          rw [r1 c hc, i2 t c (le_refl t)]
        · rw [r2 t c (Or.inl h)]
          exact i1 t c (by omega) hc
      · rw [r2 t c (Or.inl (by omega)), i2 t c (by omega)]
  exact all il

theorem ctcDiff_at {I : Inputs} {order : List Nat} (ho : order.Perm (List.range I.B)) (st : State) (gout : ℝ) {b : Nat} (hb : b < I.B)
    (hil : 0 < I.inputLengths.getD b 0) (t c : Nat) :
    ctcDiff order I st gout t b c = gradFinal I.C (I.inputLengths.getD b 0) (lppSection I b) (st.nll b) gout
      (betaTable (primeOf I b) I.C (I.inputLengths.getD b 0) (I.targetLengths.getD b 0) (lppSection I b)
        (cut (sectionSize I) b st.logAlpha)).2 t c := by
  have hp := par_spec (α := Nat → Nat → Fl) (backwardCb I st gout) (fun b g t c => g t b c)
    (fun b g => if 0 < I.inputLengths.getD b 0 then
      gradFinal I.C (I.inputLengths.getD b 0) (lppSection I b) (st.nll b) gout
        (betaTable (primeOf I b) I.C (I.inputLengths.getD b 0) (I.targetLengths.getD b 0) (lppSection I b)
          (cut (sectionSize I) b st.logAlpha)).2
      else g)
    (fun b g => by
      funext t c
      unfold backwardCb
      simp only [if_true])
    (fun b b' g h => by
      funext t c
      unfold backwardCb
      simp only [if_neg h])
    order (ho.nodup_iff.2 List.nodup_range) (fun _ _ _ => ninf) b
  rw [if_pos (ho.mem_iff.2 (List.mem_range.2 hb)), if_pos hil] at hp
  exact congrFun (congrFun hp t) c

theorem exp_res {res : Fl} (h : Low res) (ν x : ℝ) :
    exp (sub (add res (fin ν)) (fin x)) = fin (val res * Real.exp ν / Real.exp x) := by
  cases res with
  | fin z =>
    simp only [add, sub, neg, exp, val]
    rw [← Real.exp_add, ← Real.exp_sub, sub_eq_add_neg]
  | ninf => simp [add, sub, neg, exp, val]
  | nan => exact absurd h (by simp [Low])
  | pinf => exact absurd h (by simp [Low])

/-- What has been accumulated for an element of the batch. -/
theorem accumulated {I : Inputs} (hv : Valid I) {order : List Nat} (ho : order.Perm (List.range I.B)) {st : State}
    (hst : forward order I = .ok st) {b : Nat} (hb : b < I.B) :
    let r := betaTable (primeOf I b) I.C (I.inputLengths.getD b 0) (I.targetLengths.getD b 0) (lppSection I b)
      (cut (sectionSize I) b st.logAlpha)
    (∀ t c, I.inputLengths.getD b 0 ≤ t → r.2 t c = ninf) ∧
    ∀ t c, t < I.inputLengths.getD b 0 → c < I.C → Low (r.2 t c) ∧ val (r.2 t c) =
      labelProb I.C (I.inputLengths.getD b 0) (prob I b) (target I b) t c * prob I b t c := by
  intro r
  have hT := hv.steps b hb
  have hst' : st = runInParallel order (forwardCb I) (start I) := by
    have := forward_ok hv order
    rw [hst] at this
    exact Res.ok.inj this
  have hla : ∀ t s, t < I.inputLengths.getD b 0 → s < 2 * I.targetLengths.getD b 0 + 1 →
      Low (cut (sectionSize I) b st.logAlpha (t * (2 * I.targetLengths.getD b 0 + 1) + s)) ∧
      val (cut (sectionSize I) b st.logAlpha (t * (2 * I.targetLengths.getD b 0 + 1) + s)) =
        reach I.C (fun t c => val (lppSection I b (t * I.C + c))) (labOf I b) t s := by
    intro t s ht hs
    rw [hst', (forward_at ho hb).1 _ (section_in hb (by omega) hs)]
    exact table_spec hv hb ht hs
  obtain ⟨h1, h2⟩ := betaTable_spec (C := I.C) (lab := labOf I b) (lppSection I b) (cut (sectionSize I) b st.logAlpha)
    (fun i => hv.low _) (fun k hk => (labOf_mem hv hb hk).1) hT.1 (fun t s ht hs => (hla t s ht hs).1)
  refine ⟨h1, fun t c ht hc => ⟨(h2 t c ht).1, (h2 t c ht).2.trans ?_⟩⟩
  have hy : ∀ t < I.inputLengths.getD b 0, ∀ c < I.C, (fun t c => val (lppSection I b (t * I.C + c))) t c = prob I b t c :=
    fun t ht c hc => by simp only; rw [lppSection_eq I (by omega) hc]; rfl
  rw [← labelProb_congr _ _ _ hy, ← hy t ht c hc, target_eq hv hb]
  have hle := labelProb_eq (n := I.inputLengths.getD b 0 - 1) (t := t) (r := I.inputLengths.getD b 0 - 1 - t)
    (fun t c => val (lppSection I b (t * I.C + c))) hv.labels (fun k hk => (labOf_mem hv hb hk).1)
    (fun k hk => (labOf_mem hv hb hk).2) (by omega) c
  rw [show I.inputLengths.getD b 0 - 1 + 1 = I.inputLengths.getD b 0 by omega] at hle
  rw [hle, sum_mul]
  refine sum_congr rfl fun s hs => ?_
  by_cases h : prime (labOf I b) s = c
  · rw [if_pos h, if_pos h, (hla t s ht (mem_range.1 hs)).2]; ring
  · rw [if_neg h, if_neg h, zero_mul]

theorem labelProb_nonneg {I : Inputs} {b n t c : Nat} {l : List Nat} : 0 ≤ labelProb I.C n (prob I b) l t c :=
  sum_nonneg fun π _ => by
    split
    · exact prod_nonneg fun t _ => val_nonneg _
    · exact le_refl 0

theorem seqProb_nonneg {I : Inputs} {b n : Nat} {l : List Nat} : 0 ≤ seqProb I.C n (prob I b) l :=
  sum_nonneg fun π _ => by
    split
    · exact prod_nonneg fun t _ => val_nonneg _
    · exact le_refl 0

/-- The logarithms are numbers. -/
def AllFin (I : Inputs) : Prop := ∀ i, ∃ x, I.logProbs i = fin x

/-- What the code returns as gradient. Time steps beyond the length of the input get `-Inf`. -/
theorem ctc_grad {I : Inputs} (hv : Valid I) (hf : AllFin I) {order order' : List Nat} (ho : order.Perm (List.range I.B))
    (ho' : order'.Perm (List.range I.B)) {st : State} (hst : forward order I = .ok st) (gout : ℝ) {b : Nat} (hb : b < I.B) :
    let P := seqProb I.C (I.inputLengths.getD b 0) (prob I b) (target I b)
    (∀ t c, I.inputLengths.getD b 0 ≤ t → ctcDiff order' I st gout t b c = ninf) ∧
    ∀ t c, t < I.inputLengths.getD b 0 → c < I.C →
      (P ≠ 0 → target I b ≠ [] → ctcDiff order' I st gout t b c = fin ((prob I b t c -
        labelProb I.C (I.inputLengths.getD b 0) (prob I b) (target I b) t c / P) * gout)) ∧
      (P ≠ 0 → target I b = [] → ctcDiff order' I st gout t b c = fin ((prob I b t c -
        labelProb I.C (I.inputLengths.getD b 0) (prob I b) (target I b) t c * P) * gout)) ∧
      (P = 0 → target I b ≠ [] → ctcDiff order' I st gout t b c = nan) := by
  intro P
  have hT := hv.steps b hb
  obtain ⟨a1, a2⟩ := accumulated hv ho hst hb
  obtain ⟨st', hst', hn⟩ := ctc_nll hv ho
  rw [hst] at hst'
  cases hst'
  have hn := hn b hb
  obtain ⟨g1, g2⟩ := gradFinal_spec I.C (I.inputLengths.getD b 0) (lppSection I b) (st.nll b) gout
    (betaTable (primeOf I b) I.C (I.inputLengths.getD b 0) (I.targetLengths.getD b 0) (lppSection I b)
      (cut (sectionSize I) b st.logAlpha)).2
  refine ⟨fun t c ht => ?_, fun t c ht hc => ?_⟩
  · rw [ctcDiff_at ho' st gout hb hT.1, g2 t c ht, a1 t c ht]
  · rw [ctcDiff_at ho' st gout hb hT.1, g1 t c ht hc, lppSection_eq I (by omega) hc]
    obtain ⟨l1, l2⟩ := a2 t c ht hc
    obtain ⟨res, hres⟩ : ∃ res, res = (betaTable (primeOf I b) I.C (I.inputLengths.getD b 0) (I.targetLengths.getD b 0) (lppSection I b)
      (cut (sectionSize I) b st.logAlpha)).2 t c := ⟨_, rfl⟩
    rw [← hres] at l1 l2 ⊢
    obtain ⟨x, hx⟩ := hf (t * (I.B * I.C) + b * I.C + c)
    have hy : prob I b t c = Real.exp x := by unfold prob; rw [hx]; rfl
    rw [hx]
    have hP : 0 ≤ P := seqProb_nonneg
    refine ⟨fun h0 hne => ?_, fun h0 hne => ?_, fun h0 hne => ?_⟩
    · rw [if_neg hne] at hn
      have : st.nll b = fin (-Real.log P) := hn.trans (if_neg h0)
      rw [this, exp_res l1, l2, hy, Real.exp_neg, Real.exp_log (lt_of_le_of_ne hP (Ne.symm h0))]
      simp only [exp, sub, neg, add, scale]
      congr 2
      have := Real.exp_ne_zero x
      field_simp
      ring
    · rw [if_pos hne] at hn
      have hn' : st.nll b = neg (negLog P) := by rw [hn]; show _ = neg (negLog (seqProb _ _ _ _)); rw [hne]
      have : st.nll b = fin (Real.log P) := by
        rw [hn']; unfold negLog; rw [if_neg h0]; simp [neg]
      rw [this, exp_res l1, l2, hy, Real.exp_log (lt_of_le_of_ne hP (Ne.symm h0))]
      simp only [exp, sub, neg, add, scale]
      congr 2
      have := Real.exp_ne_zero x
      field_simp
      ring
    · rw [if_neg hne] at hn
      have : st.nll b = pinf := hn.trans (if_pos h0)
      have hl0 : labelProb I.C (I.inputLengths.getD b 0) (prob I b) (target I b) t c = 0 := by
        have hs := labelProb_sum I.C (I.inputLengths.getD b 0) (prob I b) (target I b) ht
        have := single_le_sum (f := fun c => labelProb I.C (I.inputLengths.getD b 0) (prob I b) (target I b) t c)
          (fun i _ => labelProb_nonneg) (mem_range.2 hc)
        have h1 : seqProb I.C (I.inputLengths.getD b 0) (prob I b) (target I b) = 0 := h0
        rw [hs, h1] at this
        exact le_antisymm this labelProb_nonneg
      have hr : res = ninf := by
        rw [hl0, zero_mul] at l2
        cases res with
        | fin z => exact absurd l2 (Real.exp_ne_zero z)
        | ninf => rfl
        | nan => exact absurd l1 (by simp [Low])
        | pinf => exact absurd l1 (by simp [Low])
      rw [this, hr]
      simp [add, sub, neg, exp, scale]

/-! ### Derivatives -/

/-- The derivative of the probability of a sequence. -/
theorem seqProb_deriv (C n : Nat) (l : List Nat) (u : ℝ → Nat → Nat → ℝ) (d : Nat → Nat → ℝ) (x : ℝ)
    (h : ∀ t < n, ∀ c < C, HasDerivAt (fun x => u x t c) (d t c) x) :
    HasDerivAt (fun x => seqProb C n (fun t c => Real.exp (u x t c)) l)
      (∑ t ∈ range n, ∑ c ∈ range C, labelProb C n (fun t c => Real.exp (u x t c)) l t c * d t c) x := by
  have h1 : ∀ π : Fin n → Fin C, HasDerivAt (fun x => if collapse (List.ofFn fun t => (π t : Nat)) = l then
      ∏ t : Fin n, Real.exp (u x t (π t)) else 0) (if collapse (List.ofFn fun t => (π t : Nat)) = l then
      (∏ t : Fin n, Real.exp (u x t (π t))) * ∑ t : Fin n, d t (π t) else 0) x := by
    intro π
    by_cases hc : collapse (List.ofFn fun t => (π t : Nat)) = l
    · simp only [if_pos hc, ← Real.exp_sum]
      exact (HasDerivAt.fun_sum fun (t : Fin n) _ => h t t.2 _ (π t).2).exp
    · simp only [if_neg hc]
      exact hasDerivAt_const x 0
  have h2 := HasDerivAt.fun_sum (u := univ) fun π _ => h1 π
  refine h2.congr_deriv ?_
  unfold labelProb
  simp only [sum_mul]
  rw [Finset.sum_range fun t => ∑ c ∈ range C, ∑ π : Fin n → Fin C, (if collapse (List.ofFn fun t => (π t : Nat)) = l ∧
    (∃ h : t < n, (π ⟨t, h⟩ : Nat) = c) then ∏ t : Fin n, Real.exp (u x t (π t)) else 0) * d t c]
  have h3 : ∀ t : Fin n, ∑ c ∈ range C, ∑ π : Fin n → Fin C, (if collapse (List.ofFn fun t => (π t : Nat)) = l ∧
      (∃ h : (t : Nat) < n, (π ⟨t, h⟩ : Nat) = c) then ∏ t : Fin n, Real.exp (u x t (π t)) else 0) * d t c =
      ∑ π : Fin n → Fin C, if collapse (List.ofFn fun t => (π t : Nat)) = l then (∏ t : Fin n, Real.exp (u x t (π t))) * d t (π t)
        else 0 := by
    intro t
    rw [sum_comm]
    refine sum_congr rfl fun π _ => ?_
    by_cases hc : collapse (List.ofFn fun t => (π t : Nat)) = l
    · rw [if_pos hc, sum_eq_single_of_mem (π t : Nat) (mem_range.2 (π t).2), if_pos ⟨hc, t.2, rfl⟩]
      intro c _ hne
      rw [if_neg, zero_mul]
      rintro ⟨_, _, h'⟩
      exact hne h'.symm
    · rw [if_neg hc]
      exact sum_eq_zero fun c _ => by rw [if_neg fun h' => hc h'.1, zero_mul]
  simp only [h3]
  rw [sum_comm]
  refine sum_congr rfl fun π _ => ?_
  by_cases hc : collapse (List.ofFn fun t => (π t : Nat)) = l
  · simp only [if_pos hc, mul_sum]
  · simp only [if_neg hc, sum_const_zero]

/-- Operands with the given logarithms of probabilities. -/
def withLog (I : Inputs) (u : Nat → Nat → Nat → ℝ) : Inputs :=
  { I with logProbs := fun i => fin (u (i / (I.B * I.C)) (i / I.C % I.B) (i % I.C)) }

theorem withLog_prob (I : Inputs) (u : Nat → Nat → Nat → ℝ) {b : Nat} (hb : b < I.B) (t : Nat) {c : Nat} (hc : c < I.C) :
    prob (withLog I u) b t c = Real.exp (u t b c) := by
  show val (fin (u ((t * (I.B * I.C) + b * I.C + c) / (I.B * I.C)) ((t * (I.B * I.C) + b * I.C + c) / I.C % I.B)
    ((t * (I.B * I.C) + b * I.C + c) % I.C))) = _
  have e0 : t * (I.B * I.C) + b * I.C + c = (t * I.B + b) * I.C + c := by ring
  have e1 : (t * (I.B * I.C) + b * I.C + c) / I.C = t * I.B + b := by
    rw [e0, Nat.mul_comm, Nat.mul_add_div (by omega), Nat.div_eq_of_lt hc, Nat.add_zero]
  have e2 : (t * (I.B * I.C) + b * I.C + c) % I.C = c := by
    rw [e0, Nat.mul_comm, Nat.mul_add_mod, Nat.mod_eq_of_lt hc]
  have e3 : (t * I.B + b) % I.B = b := by rw [Nat.mul_comm, Nat.mul_add_mod, Nat.mod_eq_of_lt hb]
  have e4 : (t * (I.B * I.C) + b * I.C + c) / (I.B * I.C) = t := by
    rw [Nat.mul_comm I.B, ← Nat.div_div_eq_div_mul, Nat.mul_comm I.C I.B, e1, Nat.mul_comm t, Nat.mul_add_div (by omega),
      Nat.div_eq_of_lt hb, Nat.add_zero]
  rw [e1, e2, e3, e4]
  rfl

/-- The derivative of what the loss of an element of the batch should be. -/
theorem nllSpec_deriv (I : Inputs) {b : Nat} (hb : b < I.B) (u : ℝ → Nat → Nat → Nat → ℝ) (d : Nat → Nat → Nat → ℝ) (x : ℝ)
    (h : ∀ t < I.inputLengths.getD b 0, ∀ c < I.C, HasDerivAt (fun x => u x t b c) (d t b c) x)
    (hp : seqProb I.C (I.inputLengths.getD b 0) (prob (withLog I (u x)) b) (target I b) ≠ 0) :
    HasDerivAt (fun x => nllSpec (withLog I (u x)) b)
      (∑ t ∈ range (I.inputLengths.getD b 0), ∑ c ∈ range I.C,
        -(labelProb I.C (I.inputLengths.getD b 0) (prob (withLog I (u x)) b) (target I b) t c /
          seqProb I.C (I.inputLengths.getD b 0) (prob (withLog I (u x)) b) (target I b)) * d t b c) x := by
  have hc : ∀ x, seqProb I.C (I.inputLengths.getD b 0) (prob (withLog I (u x)) b) (target I b) =
      seqProb I.C (I.inputLengths.getD b 0) (fun t c => Real.exp (u x t b c)) (target I b) := fun x =>
    seqProb_congr _ fun t _ c hc => withLog_prob I (u x) hb t hc
  have hl : ∀ t c, labelProb I.C (I.inputLengths.getD b 0) (prob (withLog I (u x)) b) (target I b) t c =
      labelProb I.C (I.inputLengths.getD b 0) (fun t c => Real.exp (u x t b c)) (target I b) t c := fun t c =>
    labelProb_congr _ _ _ fun t _ c hc => withLog_prob I (u x) hb t hc
  have h1 : (fun x => nllSpec (withLog I (u x)) b) = fun x =>
      -Real.log (seqProb I.C (I.inputLengths.getD b 0) (fun t c => Real.exp (u x t b c)) (target I b)) := by
    funext x
    rw [← hc x]
    rfl
  rw [h1]
  have hd := seqProb_deriv I.C (I.inputLengths.getD b 0) (target I b) (fun x t c => u x t b c) (fun t c => d t b c) x h
  have hp' := hp
  rw [hc x] at hp'
  refine ((hd.log hp').fun_neg).congr_deriv ?_
  rw [hc x]
  simp only [hl]
  rw [sum_div, ← sum_neg_distrib]
  refine sum_congr rfl fun t _ => ?_
  rw [sum_div, ← sum_neg_distrib]
  exact sum_congr rfl fun c _ => by ring

theorem withLog_valid {I : Inputs} (hv : Valid I) (u : Nat → Nat → Nat → ℝ) : Valid (withLog I u) where
  labels := hv.labels
  low := fun _ => trivial
  targetLengths := hv.targetLengths
  inputLengths := hv.inputLengths
  steps := hv.steps
  room := hv.room
  target := hv.target

/-- The gradient the code returns, for non-empty sequences that have a path and no padding. -/
def gradSpec (I : Inputs) (gout : ℝ) (t b c : Nat) : ℝ :=
  (prob I b t c - labelProb I.C (I.inputLengths.getD b 0) (prob I b) (target I b) t c /
    seqProb I.C (I.inputLengths.getD b 0) (prob I b) (target I b)) * gout

/-- Along normalised probabilities, what the code returns is the derivative of the loss of each element of the batch. -/
theorem nllSpec_deriv_normal (I : Inputs) {b : Nat} (hb : b < I.B) (u : ℝ → Nat → Nat → Nat → ℝ) (d : Nat → Nat → Nat → ℝ) (x : ℝ)
    (h : ∀ t < I.inputLengths.getD b 0, ∀ c < I.C, HasDerivAt (fun x => u x t b c) (d t b c) x)
    (hnorm : ∀ x, ∀ t < I.inputLengths.getD b 0, ∑ c ∈ range I.C, Real.exp (u x t b c) = 1)
    (hp : seqProb I.C (I.inputLengths.getD b 0) (prob (withLog I (u x)) b) (target I b) ≠ 0) (gout : ℝ) :
    HasDerivAt (fun x => gout * nllSpec (withLog I (u x)) b)
      (∑ t ∈ range (I.inputLengths.getD b 0), ∑ c ∈ range I.C, gradSpec (withLog I (u x)) gout t b c * d t b c) x := by
  have h1 := (nllSpec_deriv I hb u d x h hp).const_mul gout
  refine h1.congr_deriv ?_
  rw [mul_sum]
  refine sum_congr rfl fun t ht => ?_
  have ht := mem_range.1 ht
  have h0 : ∑ c ∈ range I.C, Real.exp (u x t b c) * d t b c = 0 := by
    have h2 : HasDerivAt (fun x => ∑ c ∈ range I.C, Real.exp (u x t b c)) (∑ c ∈ range I.C, Real.exp (u x t b c) * d t b c) x :=
      HasDerivAt.fun_sum fun c hc => (h t ht c (mem_range.1 hc)).exp
    have h3 : (fun x => ∑ c ∈ range I.C, Real.exp (u x t b c)) = fun _ => 1 := funext fun x => hnorm x t ht
    rw [h3] at h2
    exact h2.unique (hasDerivAt_const x 1)
  have h4 : ∑ c ∈ range I.C, gradSpec (withLog I (u x)) gout t b c * d t b c =
      gout * ∑ c ∈ range I.C, Real.exp (u x t b c) * d t b c + gout * ∑ c ∈ range I.C,
        -(labelProb I.C (I.inputLengths.getD b 0) (prob (withLog I (u x)) b) (target I b) t c /
          seqProb I.C (I.inputLengths.getD b 0) (prob (withLog I (u x)) b) (target I b)) * d t b c := by
    rw [mul_sum, mul_sum, ← sum_add_distrib]
    refine sum_congr rfl fun c hc => ?_
    have hc := mem_range.1 hc
    have h5 : gradSpec (withLog I (u x)) gout t b c = (Real.exp (u x t b c) -
        labelProb I.C (I.inputLengths.getD b 0) (prob (withLog I (u x)) b) (target I b) t c /
          seqProb I.C (I.inputLengths.getD b 0) (prob (withLog I (u x)) b) (target I b)) * gout := by
      rw [← withLog_prob I (u x) hb t hc]
      rfl
    rw [h5]
    ring
  rw [h4, h0, mul_zero, zero_add]

/-- For the sum of the losses, and as long as the probabilities stay normalised (as they do behind a log-softmax), the code returns
the gradient: its product with any change of the logarithms is the change of the loss. All inputs have full length, all sequences
have a path and none is empty. -/
theorem ctc_grad_sum {I : Inputs} (hv : Valid I) {order order' : List Nat} (ho : order.Perm (List.range I.B))
    (ho' : order'.Perm (List.range I.B)) (hne : ∀ b < I.B, target I b ≠ []) (hlen : ∀ b < I.B, I.inputLengths.getD b 0 = I.T)
    (u : ℝ → Nat → Nat → Nat → ℝ) (d : Nat → Nat → Nat → ℝ) (x : ℝ)
    (h : ∀ t < I.T, ∀ b < I.B, ∀ c < I.C, HasDerivAt (fun x => u x t b c) (d t b c) x)
    (hnorm : ∀ x, ∀ t < I.T, ∀ b < I.B, ∑ c ∈ range I.C, Real.exp (u x t b c) = 1)
    (hp : ∀ b < I.B, seqProb I.C I.T (prob (withLog I (u x)) b) (target I b) ≠ 0) (gout : ℝ) :
    ∃ (st : State) (g : Nat → Nat → Nat → ℝ), forward order (withLog I (u x)) = .ok st ∧
      (∀ t b c, t < I.T → b < I.B → c < I.C → ctcDiff order' (withLog I (u x)) st gout t b c = fin (g t b c)) ∧
      HasDerivAt (fun x => gout * ∑ b ∈ range I.B, nllSpec (withLog I (u x)) b)
        (∑ t ∈ range I.T, ∑ b ∈ range I.B, ∑ c ∈ range I.C, g t b c * d t b c) x ∧
      HasDerivAt (fun x => gout * ((∑ b ∈ range I.B, nllSpec (withLog I (u x)) b / ((target I b).length : ℝ)) / (I.B : ℝ)))
        (∑ t ∈ range I.T, ∑ b ∈ range I.B, (∑ c ∈ range I.C, g t b c * d t b c) / ((target I b).length * I.B : ℝ)) x := by
  have hv' := withLog_valid hv (u x)
  refine ⟨_, gradSpec (withLog I (u x)) gout, forward_ok hv' order, ?_, ?_, ?_⟩
  · intro t b c ht hb hc
    have hb' : b < (withLog I (u x)).B := hb
    have hl := hlen b hb
    have hpb : seqProb I.C (I.inputLengths.getD b 0) (prob (withLog I (u x)) b) (target I b) ≠ 0 := by rw [hl]; exact hp b hb
    have hl' : t < (withLog I (u x)).inputLengths.getD b 0 := by
      show t < I.inputLengths.getD b 0
      omega
    exact (((ctc_grad hv' (fun i => ⟨_, rfl⟩) ho ho' (forward_ok hv' order) gout hb').2 t c hl' hc).1 hpb (hne b hb))
  · have : (fun x => gout * ∑ b ∈ range I.B, nllSpec (withLog I (u x)) b) = fun x => ∑ b ∈ range I.B, gout * nllSpec (withLog I (u x)) b :=
      funext fun x => mul_sum _ _ _
    rw [this, sum_comm]
    refine HasDerivAt.fun_sum fun b hb => ?_
    have hb := mem_range.1 hb
    have hl := hlen b hb
    have := nllSpec_deriv_normal I hb u d x (fun t ht c hc => h t (by omega) b hb c hc) (fun x t ht => hnorm x t (by omega) b hb)
      (by rw [hl]; exact hp b hb) gout
    rw [hl] at this
    exact this
  · have : (fun x => gout * ((∑ b ∈ range I.B, nllSpec (withLog I (u x)) b / ((target I b).length : ℝ)) / (I.B : ℝ))) =
        fun x => ∑ b ∈ range I.B, (gout * nllSpec (withLog I (u x)) b) / ((target I b).length * I.B : ℝ) := by
      funext x
      rw [sum_div, mul_sum]
      refine sum_congr rfl fun b _ => ?_
      rw [div_div, mul_div_assoc]
    rw [this, sum_comm]
    refine HasDerivAt.fun_sum fun b hb => ?_
    have hb := mem_range.1 hb
    have hl := hlen b hb
    have := (nllSpec_deriv_normal I hb u d x (fun t ht c hc => h t (by omega) b hb c hc) (fun x t ht => hnorm x t (by omega) b hb)
      (by rw [hl]; exact hp b hb) gout).div_const ((target I b).length * I.B : ℝ)
    rw [hl, sum_div] at this
    exact this

/-- The code returns the same gradient for the mean, which is off by the product of the length of the sequences and the size of the
batch: whenever the derivative of the mean is not zero and that product is not 1, the gradient is wrong. -/
theorem ctc_grad_mean_wrong {I : Inputs} (hv : Valid I) {order order' : List Nat} (ho : order.Perm (List.range I.B))
    (ho' : order'.Perm (List.range I.B)) (hB : 0 < I.B) {len : Nat} (h0 : 0 < len) (hne : ∀ b < I.B, (target I b).length = len)
    (hlen : ∀ b < I.B, I.inputLengths.getD b 0 = I.T)
    (u : ℝ → Nat → Nat → Nat → ℝ) (d : Nat → Nat → Nat → ℝ) (x : ℝ)
    (h : ∀ t < I.T, ∀ b < I.B, ∀ c < I.C, HasDerivAt (fun x => u x t b c) (d t b c) x)
    (hnorm : ∀ x, ∀ t < I.T, ∀ b < I.B, ∑ c ∈ range I.C, Real.exp (u x t b c) = 1)
    (hp : ∀ b < I.B, seqProb I.C I.T (prob (withLog I (u x)) b) (target I b) ≠ 0) (gout D : ℝ)
    (hD : HasDerivAt (fun x => gout * ((∑ b ∈ range I.B, nllSpec (withLog I (u x)) b / ((target I b).length : ℝ)) / (I.B : ℝ))) D x) :
    ∃ (st : State) (g : Nat → Nat → Nat → ℝ), forward order (withLog I (u x)) = .ok st ∧
      (∀ t b c, t < I.T → b < I.B → c < I.C → ctcDiff order' (withLog I (u x)) st gout t b c = fin (g t b c)) ∧
      ∑ t ∈ range I.T, ∑ b ∈ range I.B, ∑ c ∈ range I.C, g t b c * d t b c = D * (len * I.B : ℝ) := by
  obtain ⟨st, g, h1, h2, _, h4⟩ := ctc_grad_sum hv ho ho' (fun b hb he => by have := hne b hb; rw [he] at this; simp at this; omega) hlen
    u d x h hnorm hp gout
  refine ⟨st, g, h1, h2, ?_⟩
  have he := hD.unique h4
  have hB' : (I.B : ℝ) ≠ 0 := by exact_mod_cast hB.ne'
  have hl' : (len : ℝ) ≠ 0 := by exact_mod_cast h0.ne'
  rw [he, sum_mul]
  refine sum_congr rfl fun t _ => ?_
  rw [sum_mul]
  refine sum_congr rfl fun b hb => ?_
  rw [hne b (mem_range.1 hb)]
  field_simp

/-- One entry changed. -/
def setOne (u : Nat → Nat → Nat → ℝ) (t b c : Nat) (x : ℝ) : Nat → Nat → Nat → ℝ :=
  fun t' b' c' => if t' = t ∧ b' = b ∧ c' = c then x else u t' b' c'

theorem setOne_self (u : Nat → Nat → Nat → ℝ) (t b c : Nat) : setOne u t b c (u t b c) = u := by
  funext t' b' c'
  unfold setOne
  by_cases h : t' = t ∧ b' = b ∧ c' = c
  · rw [if_pos h, h.1, h.2.1, h.2.2]
  · rw [if_neg h]

/-- As a gradient with respect to the logarithms themselves, what the code returns is off by the probability, always. -/
theorem ctc_grad_offset {I : Inputs} (hv : Valid I) {order order' : List Nat} (ho : order.Perm (List.range I.B))
    (ho' : order'.Perm (List.range I.B)) (u : Nat → Nat → Nat → ℝ) {t b c : Nat} (hb : b < I.B)
    (ht : t < I.inputLengths.getD b 0) (hc : c < I.C) (hne : target I b ≠ [])
    (hp : seqProb I.C (I.inputLengths.getD b 0) (prob (withLog I u) b) (target I b) ≠ 0) (gout : ℝ) :
    ∃ st D, forward order (withLog I u) = .ok st ∧
      HasDerivAt (fun x => gout * nllSpec (withLog I (setOne u t b c x)) b) D (u t b c) ∧
      ctcDiff order' (withLog I u) st gout t b c = fin (D + Real.exp (u t b c) * gout) := by
  have hv' := withLog_valid hv u
  have hb' : b < (withLog I u).B := hb
  have hd := (nllSpec_deriv I hb (fun x => setOne u t b c x) (fun t' b' c' => if t' = t ∧ b' = b ∧ c' = c then 1 else 0) (u t b c)
    (fun t' _ c' _ => by
      unfold setOne
      by_cases h : t' = t ∧ b = b ∧ c' = c
      · rw [if_pos h]
        refine (hasDerivAt_id (u t b c)).congr_of_eventuallyEq (Filter.Eventually.of_forall fun x => ?_)
        exact if_pos h
      · rw [if_neg h]
        refine (hasDerivAt_const (u t b c) (u t' b c')).congr_of_eventuallyEq (Filter.Eventually.of_forall fun x => ?_)
        exact if_neg h)
    (by rw [setOne_self]; exact hp)).const_mul gout
  refine ⟨_, _, forward_ok hv' order, hd, ?_⟩
  have hg := ((ctc_grad hv' (fun i => ⟨_, rfl⟩) ho ho' (forward_ok hv' order) gout hb').2 t c ht hc).1 hp hne
  rw [hg, setOne_self]
  congr 1
  rw [sum_eq_single_of_mem t (mem_range.2 ht), sum_eq_single_of_mem c (mem_range.2 hc)]
  · rw [if_pos ⟨rfl, rfl, rfl⟩, withLog_prob I u hb t hc]
    show (_ - labelProb I.C (I.inputLengths.getD b 0) (prob (withLog I u) b) (target I b) t c /
      seqProb I.C (I.inputLengths.getD b 0) (prob (withLog I u) b) (target I b)) * gout = _
    ring
  · intro c' _ h
    rw [if_neg (fun h' => h h'.2.2), mul_zero]
  · intro t' _ h
    exact sum_eq_zero fun c' _ => by rw [if_neg (fun h' => h h'.1), mul_zero]

/-! ### Examples -/

/-- Two sequences, each the one label 1, in one step, over the blank and the label 1. -/
def twoOnes : Inputs where
  T := 1
  B := 2
  C := 2
  logProbs := fun _ => fin 0
  targets := [1, 1]
  layout := .flat
  inputLengths := [1, 1]
  targetLengths := [1, 1]

theorem twoOnes_valid : Valid twoOnes where
  labels := by decide
  low := fun _ => trivial
  targetLengths := rfl
  inputLengths := by decide
  steps := by decide
  room := by show [1, 1].sum ≤ [1, 1].length; decide
  target := by decide

theorem seqProb_one (y : Nat → Nat → ℝ) : seqProb 2 1 y [1] = y 0 1 := by
  rw [seqProb_eq]
  simp [tot, collapse, squash, sum_range_succ, weight]

/-- The loss of the example. -/
example (u : Nat → Nat → Nat → ℝ) (order : List Nat) (ho : order.Perm (List.range 2)) :
    ctcLoss .sum order (withLog twoOnes u) = .ok (fin (-u 0 0 1 + -u 0 1 1)) := by
  have hv := withLog_valid twoOnes_valid u
  have ht : ∀ b < 2, target (withLog twoOnes u) b = [1] := by
    show ∀ b < 2, target twoOnes b = [1]
    decide
  have hs : ∀ b < 2, seqProb 2 ((withLog twoOnes u).inputLengths.getD b 0) (prob (withLog twoOnes u) b) (target (withLog twoOnes u) b) =
      Real.exp (u 0 b 1) := fun b hb => by
    have hl : (withLog twoOnes u).inputLengths.getD b 0 = 1 := by
      show twoOnes.inputLengths.getD b 0 = 1
      clear hv ht ho
      revert b; decide
    rw [ht b hb, hl, seqProb_one]
    exact withLog_prob twoOnes u hb 0 (by decide)
  have h := (ctc_loss (I := withLog twoOnes u) hv ho (show 0 < 2 by decide) (fun b hb => by rw [ht b hb]; simp)
    (fun b hb => by rw [show (withLog twoOnes u).C = 2 from rfl, hs b hb]; exact Real.exp_ne_zero _)).1
  rw [h]
  congr 2
  show ∑ b ∈ range 2, nllSpec (withLog twoOnes u) b = _
  rw [sum_range_succ, sum_range_one]
  unfold nllSpec
  rw [show (withLog twoOnes u).C = 2 from rfl, hs 0 (by decide), hs 1 (by decide), Real.log_exp, Real.log_exp]

/-- Logarithms of a probability `1 / (1 + exp (-x))` of the label and `1 / (1 + exp x)` of the blank. -/
def logistic (x : ℝ) : Nat → Nat → Nat → ℝ := fun _ _ c => if c = 1 then -Real.log (1 + Real.exp (-x)) else -Real.log (1 + Real.exp x)

theorem logistic_norm (x : ℝ) (t b : Nat) : ∑ c ∈ range 2, Real.exp (logistic x t b c) = 1 := by
  have h1 : 0 < 1 + Real.exp (-x) := by positivity
  have h2 : 0 < 1 + Real.exp x := by positivity
  simp only [logistic, sum_range_succ, range_zero, sum_empty, zero_add]
  rw [if_neg (by omega), if_pos trivial, Real.exp_neg, Real.exp_neg, Real.exp_log h1, Real.exp_log h2]
  have h3 : Real.exp (-x) * Real.exp x = 1 := by rw [← Real.exp_add]; simp
  field_simp
  linear_combination -h3

theorem logistic_deriv (t b c : Nat) :
    HasDerivAt (fun x => logistic x t b c) (if c = 1 then 1 / 2 else -(1 / 2)) 0 := by
  unfold logistic
  by_cases h : c = 1
  · simp only [if_pos h]
    have h1 : HasDerivAt (fun x : ℝ => 1 + Real.exp (-x)) (Real.exp (-0) * -1) 0 := ((hasDerivAt_neg (0 : ℝ)).exp).const_add 1
    refine ((h1.log (by positivity)).fun_neg).congr_deriv ?_
    norm_num
  · simp only [if_neg h]
    have h1 : HasDerivAt (fun x : ℝ => 1 + Real.exp x) (Real.exp 0) 0 := (Real.hasDerivAt_exp 0).const_add 1
    refine ((h1.log (by positivity)).fun_neg).congr_deriv ?_
    norm_num

/-- A mean whose gradient is wrong: the loss of the two sequences changes by `-1/2`, the code says `-1`. -/
theorem ctc_mean_example {order order' : List Nat} (ho : order.Perm (List.range 2)) (ho' : order'.Perm (List.range 2)) :
    HasDerivAt (fun x => (∑ b ∈ range 2, nllSpec (withLog twoOnes (logistic x)) b / ((target twoOnes b).length : ℝ)) / 2) (-(1 / 2)) 0 ∧
    ∃ (st : State) (g : Nat → Nat → Nat → ℝ), forward order (withLog twoOnes (logistic 0)) = .ok st ∧
      (∀ t b c, t < 1 → b < 2 → c < 2 → ctcDiff order' (withLog twoOnes (logistic 0)) st 1 t b c = fin (g t b c)) ∧
      ∑ t ∈ range 1, ∑ b ∈ range 2, ∑ c ∈ range 2, g t b c * (if c = 1 then 1 / 2 else -(1 / 2)) = -1 := by
  have ht : ∀ b < 2, target twoOnes b = [1] := by decide
  have hl : ∀ b < 2, twoOnes.inputLengths.getD b 0 = 1 := by decide
  have hs : ∀ x, ∀ b < 2, seqProb 2 1 (prob (withLog twoOnes (logistic x)) b) [1] = Real.exp (logistic x 0 b 1) := fun x b hb => by
    rw [seqProb_one]
    exact withLog_prob twoOnes (logistic x) hb 0 (by decide)
  have hn : ∀ x, ∀ b < 2, nllSpec (withLog twoOnes (logistic x)) b = -logistic x 0 b 1 := fun x b hb => by
    show -Real.log (seqProb 2 (twoOnes.inputLengths.getD b 0) (prob (withLog twoOnes (logistic x)) b) (target twoOnes b)) = _
    rw [ht b hb, hl b hb, hs x b hb, Real.log_exp]
  have hD : HasDerivAt (fun x => (∑ b ∈ range 2, nllSpec (withLog twoOnes (logistic x)) b / ((target twoOnes b).length : ℝ)) / 2)
      (-(1 / 2)) 0 := by
    have h1 : (fun x => (∑ b ∈ range 2, nllSpec (withLog twoOnes (logistic x)) b / ((target twoOnes b).length : ℝ)) / 2) =
        fun x => -logistic x 0 0 1 := by
      funext x
      rw [sum_range_succ, sum_range_one, hn x 0 (by omega), hn x 1 (by omega), ht 0 (by omega), ht 1 (by omega)]
      simp [logistic]
    rw [h1]
    refine ((logistic_deriv 0 0 1).fun_neg).congr_deriv ?_
    simp
  refine ⟨hD, ?_⟩
  have hD' : HasDerivAt (fun x => (1 : ℝ) * ((∑ b ∈ range twoOnes.B, nllSpec (withLog twoOnes (logistic x)) b /
      ((target twoOnes b).length : ℝ)) / (twoOnes.B : ℝ))) (-(1 / 2)) 0 := by
    have : (fun x => (1 : ℝ) * ((∑ b ∈ range twoOnes.B, nllSpec (withLog twoOnes (logistic x)) b /
      ((target twoOnes b).length : ℝ)) / (twoOnes.B : ℝ))) =
      fun x => (∑ b ∈ range 2, nllSpec (withLog twoOnes (logistic x)) b / ((target twoOnes b).length : ℝ)) / 2 := by
      funext x
      rw [one_mul]
      rfl
    rw [this]
    exact hD
  obtain ⟨st, g, h1, h2, h3⟩ := ctc_grad_mean_wrong twoOnes_valid ho ho' (by decide) (len := 1) (by decide)
    (fun b hb => by rw [ht b hb]; rfl) hl logistic (fun _ _ c => if c = 1 then 1 / 2 else -(1 / 2)) 0
    (fun t _ b _ c _ => logistic_deriv t b c) (fun x t _ b _ => logistic_norm x t b)
    (fun b hb => by rw [ht b hb]; exact (hs 0 b hb).symm ▸ Real.exp_ne_zero _) 1 _ hD'
  refine ⟨st, g, h1, h2, h3.trans ?_⟩
  show -(1 / 2) * ((1 : Nat) * (2 : Nat) : ℝ) = -1
  norm_num

/-- An empty sequence: one step, and `-1` as the logarithm of the blank. -/
def oneEmpty : Inputs where
  T := 1
  B := 1
  C := 1
  logProbs := fun _ => fin (-1)
  targets := []
  layout := .flat
  inputLengths := [1]
  targetLengths := [0]

/-- Its loss is the logarithm of its probability, a negative number, and not minus that. -/
theorem ctc_empty_example (order : List Nat) (ho : order.Perm (List.range 1)) :
    ∃ st, forward order oneEmpty = .ok st ∧ st.nll 0 = fin (-1) ∧
      negLog (seqProb 1 1 (prob oneEmpty 0) (target oneEmpty 0)) = fin 1 := by
  have hv : Valid oneEmpty := {
    labels := by decide
    low := fun _ => trivial
    targetLengths := rfl
    inputLengths := by decide
    steps := by decide
    room := by show [0].sum ≤ ([] : List Nat).length; decide
    target := by decide }
  have hp : seqProb 1 1 (prob oneEmpty 0) [] = Real.exp (-1) := by
    rw [seqProb_eq]
    simp [tot, collapse, squash, weight, prob, oneEmpty, val]
  obtain ⟨st, h1, h2⟩ := ctc_nll hv ho
  have h3 := h2 0 (by decide)
  have ht : target oneEmpty 0 = [] := by decide
  rw [if_pos ht] at h3
  have h4 : st.nll 0 = neg (negLog (seqProb 1 1 (prob oneEmpty 0) [])) := h3
  refine ⟨st, h1, ?_, ?_⟩
  · rw [h4, hp]
    simp [negLog, neg]
  · rw [ht, hp]
    simp [negLog]

end
end Verif.NN.CTC
