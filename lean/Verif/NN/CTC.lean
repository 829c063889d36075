import Verif.NN.CTCSpec
import Verif.NN.BatchNorm
import Mathlib.Analysis.SpecialFunctions.Log.Basic
import Mathlib.Analysis.SpecialFunctions.Log.Deriv
import Mathlib.Analysis.SpecialFunctions.ExpDeriv
/-!
`CTCLoss`, op_ctc_loss.go: the loss (`ctcLossOp.f64s`, lines 129-303) and its gradient (`ctcLossDiffOp.f64s`, lines 579-746).

Simplifications. Floating point numbers are real numbers with the two infinities and NaN (`Fl`), without rounding. The float32
branches are the same text. Lengths and targets are natural numbers (Go: int); the targets are contiguous. Arrays are functions of
the flat index; the targets and the probabilities are only read inside their bounds when the labels are smaller than the number of
labels, which the theorems assume. `tensor.Transpose`, `Narrow`, `Memset`, `SetAt`, `At` and `Slice` do what they say.
`runInParallel` runs its callbacks one after the other in an arbitrary order.
-/
set_option autoImplicit false
namespace Verif.NN.CTC
open Finset Verif.Shape

noncomputable section

/-! ### Numbers -/

/-- A Go float. -/
inductive Fl where
  | nan | ninf | pinf
  | fin (x : ℝ)

namespace Fl

def neg : Fl → Fl
  | nan => nan | ninf => pinf | pinf => ninf | fin x => fin (-x)

def add : Fl → Fl → Fl
  | fin x, fin y => fin (x + y)
  | ninf, fin _ => ninf | fin _, ninf => ninf | ninf, ninf => ninf
  | pinf, fin _ => pinf | fin _, pinf => pinf | pinf, pinf => pinf
  | _, _ => nan

def sub (a b : Fl) : Fl := add a (neg b)

/-- `math.Exp` -/
def exp : Fl → Fl
  | nan => nan | ninf => fin 0 | pinf => pinf | fin x => fin (Real.exp x)

open Classical in
/-- `math.Log` -/
def log : Fl → Fl
  | nan => nan | ninf => nan | pinf => pinf
  | fin x => if x < 0 then nan else if x = 0 then ninf else fin (Real.log x)

/-- `a > b` -/
def gt : Fl → Fl → Prop
  | fin x, fin y => x > y
  | fin _, ninf => True | pinf, ninf => True | pinf, fin _ => True
  | _, _ => False

open Classical in
/-- `math.Max` -/
def max (a b : Fl) : Fl :=
  match a, b with
  | pinf, _ => pinf
  | _, pinf => pinf
  | nan, _ => nan
  | _, nan => nan
  | a, b => if gt a b then a else b

open Classical in
/-- `a * r` for a finite factor. -/
def scale (a : Fl) (r : ℝ) : Fl :=
  match a with
  | fin x => fin (x * r)
  | nan => nan
  | ninf => if r = 0 then nan else if 0 < r then ninf else pinf
  | pinf => if r = 0 then nan else if 0 < r then pinf else ninf

/-- `a / float64(n)`. -/
def div (a : Fl) (n : Nat) : Fl :=
  match a with
  | fin x => if n = 0 then (if x = 0 then nan else if x < 0 then ninf else pinf) else fin (x / (n : ℝ))
  | a => a

end Fl

open Fl

open Classical in
/-- A number that is `-Inf` replaced by 0, as in op_ctc_loss.go 253-255. -/
def unInf (a : Fl) : Fl := if a = ninf then fin 0 else a

open Classical in
/-- `if b > a { a = b }` -/
def bump (a b : Fl) : Fl := if gt b a then b else a

/-! ### The forward pass -/

/-- `getPrimeTarget`, op_ctc_loss.go 85-92. -/
def getPrimeTarget (targets : List Nat) (offset stride idx : Nat) : Nat :=
  if idx % 2 = 0 then 0 else targets.getD (offset + stride * (idx / 2)) 0

/-- One cell of the table, op_ctc_loss.go 227-257. -/
def alphaCell (tp : Nat → Nat) (numLabels targetWidth : Nat) (lpp : Nat → Fl) (t s : Nat) (la : Nat → Fl) : Nat → Fl :=
  let cur := tp s
  let i := (t - 1) * targetWidth + s
  let la1 := la i
  let la2 := if 0 < s then la (i - 1) else ninf
  let lamax := if 0 < s then bump la1 la2 else la1
  let la3 := if 1 < s ∧ tp (s - 2) ≠ cur then la (i - 2) else ninf
  let lamax := if 1 < s ∧ tp (s - 2) ≠ cur then bump lamax la3 else lamax
  let lamax := unInf lamax
  Function.update la (t * targetWidth + s)
    (add (add (log (add (add (exp (sub la1 lamax)) (exp (sub la2 lamax))) (exp (sub la3 lamax)))) lamax)
      (lpp (t * numLabels + cur)))

/-- The table of one element of the batch, op_ctc_loss.go 206-259. -/
def alphaTable (tp : Nat → Nat) (numLabels inputLength targetLength : Nat) (lpp : Nat → Fl) (la : Nat → Fl) : Nat → Fl :=
  let targetWidth := 2 * targetLength + 1
  let la := Function.update la 0 (lpp 0)
  let la := if 0 < targetLength then Function.update la 1 (lpp (tp 1)) else la
  loop (inputLength - 1) (fun t => loop targetWidth fun s => alphaCell tp numLabels targetWidth lpp (t + 1) s) la

/-- The negative log likelihood from the table, op_ctc_loss.go 261-277. -/
def nllOf (inputLength targetLength : Nat) (la : Nat → Fl) : Fl :=
  let targetWidth := 2 * targetLength + 1
  if targetLength = 0 then la ((inputLength - 1) * targetWidth)
  else
    let l1 := la ((inputLength - 1) * targetWidth + targetLength * 2)
    let l2 := la ((inputLength - 1) * targetWidth + targetLength * 2 - 1)
    let m := unInf (bump l1 l2)
    neg (add (log (add (exp (sub l1 m)) (exp (sub l2 m)))) m)

/-- The shapes of the targets that are supported: a vector with one sequence after the other, or a matrix with a sequence, padded
to `width`, in each row. -/
inductive Layout where
  | flat
  | rows (width : Nat)
  deriving DecidableEq

/-- The operands of a `ctcLossOp`: `logProbs` of shape `(T, B, C)`, row by row, the targets and the lengths. -/
structure Inputs where
  T : Nat
  B : Nat
  C : Nat
  logProbs : Nat → Fl
  targets : List Nat
  layout : Layout
  inputLengths : List Nat
  targetLengths : List Nat

/-- `targetBatchOffsets`, op_ctc_loss.go 142-165. -/
def targetOffset (I : Inputs) (b : Nat) : Nat :=
  match I.layout with
  | .flat => loop b (fun i pos => pos + I.targetLengths.getD i 0) 0
  | .rows w => b * w

/-- `maxTargetLength`, op_ctc_loss.go 139-165. -/
def maxTargetLength (I : Inputs) : Nat :=
  loop I.B (fun i m => if m < I.targetLengths.getD i 0 then I.targetLengths.getD i 0 else m) 0

/-- `op.getPrimeTarget(targets, targetsOffset, targetStride, ·)` for an element of the batch. -/
def primeOf (I : Inputs) (b : Nat) : Nat → Nat := getPrimeTarget I.targets (targetOffset I b) 1

/-- `tensor.Transpose(logProbsT, 1, 0, 2)`, op_ctc_loss.go 196: the element at a flat index of shape `(B, T, C)`. -/
def lppA (I : Inputs) (j : Nat) : Fl := I.logProbs ((j / I.C % I.T) * (I.B * I.C) + j / (I.T * I.C) * I.C + j % I.C)

/-- `lppSection`, op_ctc_loss.go 211-213. -/
def lppSection (I : Inputs) (b i : Nat) : Fl := lppA I (b * (I.T * I.C) + i)

/-- `logAlphaSpatialDim`, op_ctc_loss.go 174-180. -/
def sectionSize (I : Inputs) : Nat := I.T * (2 * maxTargetLength I + 1)

/-- The slice `arr[b*n:(b+1)*n]`. -/
def cut (n b : Nat) (arr : Nat → Fl) : Nat → Fl := fun i => if i < n then arr (b * n + i) else fin 0

/-- The array after the slice has been written to. -/
def paste (n b : Nat) (sec arr : Nat → Fl) : Nat → Fl := fun j => if b * n ≤ j ∧ j < (b + 1) * n then sec (j - b * n) else arr j

/-- The arrays that the forward pass leaves in the op, op_ctc_loss.go 39-40. -/
structure State where
  logAlpha : Nat → Fl
  nll : Nat → Fl

/-- The callback of the forward pass, op_ctc_loss.go 205-278. -/
def forwardCb (I : Inputs) (b : Nat) (st : State) : State :=
  let n := sectionSize I
  let il := I.inputLengths.getD b 0
  let tl := I.targetLengths.getD b 0
  let sec := alphaTable (primeOf I b) I.C il tl (lppSection I b) (cut n b st.logAlpha)
  { logAlpha := paste n b sec st.logAlpha, nll := Function.update st.nll b (nllOf il tl sec) }

/-- The arrays before, op_ctc_loss.go 174-194: the first row of each table is `-Inf`. -/
def start (I : Inputs) : State where
  logAlpha := fun j => if j % sectionSize I < 2 * maxTargetLength I + 1 then ninf else fin 0
  nll := fun _ => fin 0

/-- `ctcLossOp.f64s` up to the loss, op_ctc_loss.go 129-278. An element without time steps makes its callback read at a negative
index. -/
def forward (order : List Nat) (I : Inputs) : Res State :=
  if I.targetLengths.length ≠ I.B ∨ I.inputLengths.length < I.B then .panic
  else if ∃ b < I.B, I.T < I.inputLengths.getD b 0 then .err
  else if ∃ b < I.B, I.inputLengths.getD b 0 = 0 then .panic
  else .ok (runInParallel order (forwardCb I) (start I))

/-- `Reduction`, op_ctc_loss.go 14-19. -/
inductive Reduction where
  | mean | sum
  deriving DecidableEq

/-- The loss, op_ctc_loss.go 280-296. -/
def lossOf (red : Reduction) (targetLengths : List Nat) (nll : Nat → Fl) : Fl :=
  let loss := loop targetLengths.length (fun i loss =>
    match red with
    | .sum => add loss (nll i)
    | .mean =>
      let v := targetLengths.getD i 0
      let v := if v < 1 then 1 else v
      add loss (div (nll i) v)) (fin 0)
  match red with
  | .mean => div loss targetLengths.length
  | .sum => loss

/-- `ctcLossOp.f64s`, op_ctc_loss.go 129-303. -/
def ctcLoss (red : Reduction) (order : List Nat) (I : Inputs) : Res Fl :=
  match forward order I with
  | .ok st => .ok (lossOf red I.targetLengths st.nll)
  | .err => .err
  | .panic => .panic

/-! ### Probabilities of logarithms -/

/-- A logarithm of a probability: not NaN, not `+Inf`. -/
def Low : Fl → Prop
  | fin _ => True | ninf => True | _ => False

/-- The number a logarithm stands for. -/
def val : Fl → ℝ
  | fin x => Real.exp x
  | _ => 0

theorem val_nonneg (a : Fl) : 0 ≤ val a := by
  cases a <;> simp [val]
  positivity

theorem low_add {a b : Fl} (ha : Low a) (hb : Low b) : Low (add a b) ∧ val (add a b) = val a * val b := by
  cases a <;> cases b <;> simp_all [Low, val, add, Real.exp_add]

theorem exp_sub_fin {a : Fl} (ha : Low a) (m : ℝ) : exp (sub a (fin m)) = fin (val a / Real.exp m) := by
  cases a <;> simp_all [Low, val, exp, sub, add, neg]
  rw [← Real.exp_sub, sub_eq_add_neg]

theorem log_add_fin {p : ℝ} (hp : 0 ≤ p) (m : ℝ) :
    Low (add (log (fin (p / Real.exp m))) (fin m)) ∧ val (add (log (fin (p / Real.exp m))) (fin m)) = p := by
  have h0 : 0 ≤ p / Real.exp m := div_nonneg hp (Real.exp_pos m).le
  simp only [log, if_neg (not_lt.2 h0)]
  by_cases h : p / Real.exp m = 0
  · rw [if_pos h]
    have : p = 0 := by
      rcases div_eq_zero_iff.1 h with h | h
      · exact h
      · exact absurd h (Real.exp_ne_zero m)
    exact ⟨by simp [add, Low], by simp [add, val, this]⟩
  · rw [if_neg h]
    refine ⟨by simp [add, Low], ?_⟩
    simp only [add, val]
    rw [Real.exp_add, Real.exp_log (lt_of_le_of_ne h0 (Ne.symm h)), div_mul_cancel₀ _ (Real.exp_ne_zero m)]

theorem bump_low {a b : Fl} (ha : Low a) (hb : Low b) : Low (bump a b) := by
  unfold bump
  by_cases h : gt b a
  · rw [if_pos h]; exact hb
  · rw [if_neg h]; exact ha

theorem unInf_fin {a : Fl} (ha : Low a) : ∃ m, unInf a = fin m := by
  unfold unInf
  cases a with
  | fin x => exact ⟨x, by simp⟩
  | ninf => exact ⟨0, by simp⟩
  | nan => exact absurd ha (by simp [Low])
  | pinf => exact absurd ha (by simp [Low])

/-- The logarithm of a sum of three exponentials. -/
theorem lse3 {a b c : Fl} (ha : Low a) (hb : Low b) (hc : Low c) (m : ℝ) :
    Low (add (log (add (add (exp (sub a (fin m))) (exp (sub b (fin m)))) (exp (sub c (fin m))))) (fin m)) ∧
    val (add (log (add (add (exp (sub a (fin m))) (exp (sub b (fin m)))) (exp (sub c (fin m))))) (fin m)) = val a + val b + val c := by
  rw [exp_sub_fin ha, exp_sub_fin hb, exp_sub_fin hc]
  have : add (add (fin (val a / Real.exp m)) (fin (val b / Real.exp m))) (fin (val c / Real.exp m)) =
      fin ((val a + val b + val c) / Real.exp m) := by simp only [add, add_div]
  rw [this]
  exact log_add_fin (add_nonneg (add_nonneg (val_nonneg a) (val_nonneg b)) (val_nonneg c)) m

theorem lse2 {a b : Fl} (ha : Low a) (hb : Low b) (m : ℝ) :
    Low (add (log (add (exp (sub a (fin m))) (exp (sub b (fin m))))) (fin m)) ∧
    val (add (log (add (exp (sub a (fin m))) (exp (sub b (fin m))))) (fin m)) = val a + val b := by
  rw [exp_sub_fin ha, exp_sub_fin hb]
  have : add (fin (val a / Real.exp m)) (fin (val b / Real.exp m)) = fin ((val a + val b) / Real.exp m) := by
    simp only [add, add_div]
  rw [this]
  exact log_add_fin (add_nonneg (val_nonneg a) (val_nonneg b)) m

/-! ### The table -/

/-- Two positions of a table of rows of `W`. -/
theorem cell_inj {W t s t' s' : Nat} (hs : s < W) (hs' : s' < W) (h : t * W + s = t' * W + s') : t = t' ∧ s = s' := by
  have h1 : (t * W + s) / W = t := by rw [Nat.mul_comm, Nat.mul_add_div (by omega), Nat.div_eq_of_lt hs, Nat.add_zero]
  have h2 : (t' * W + s') / W = t' := by rw [Nat.mul_comm, Nat.mul_add_div (by omega), Nat.div_eq_of_lt hs', Nat.add_zero]
  have : t = t' := by rw [← h1, ← h2, h]
  subst this
  exact ⟨rfl, by omega⟩

theorem alphaCell_other (tp : Nat → Nat) (C W : Nat) (lpp : Nat → Fl) (t s : Nat) (la : Nat → Fl) {j : Nat}
    (h : j ≠ t * W + s) : alphaCell tp C W lpp t s la j = la j := by
  unfold alphaCell
  exact Function.update_of_ne h _ _

theorem alphaCell_same {lab : Nat → Nat} (C W : Nat) (lpp : Nat → Fl) (hlpp : ∀ i, Low (lpp i)) (t s : Nat) (hs : s < W)
    (la : Nat → Fl) (hla : ∀ s < W, Low (la (t * W + s))) :
    Low (alphaCell (prime lab) C W lpp (t + 1) s la ((t + 1) * W + s)) ∧
    val (alphaCell (prime lab) C W lpp (t + 1) s la ((t + 1) * W + s)) =
      from3 lab s (fun s' => val (la (t * W + s'))) * val (lpp ((t + 1) * C + prime lab s)) := by
  unfold alphaCell
  simp only [Function.update_self, Nat.add_sub_cancel]
  have h1 : Low (la (t * W + s)) := hla s hs
  have h2 : Low (if 0 < s then la (t * W + s - 1) else ninf) ∧
      val (if 0 < s then la (t * W + s - 1) else ninf) = if 0 < s then val (la (t * W + (s - 1))) else 0 := by
    by_cases h : 0 < s
    · rw [if_pos h, if_pos h, show t * W + s - 1 = t * W + (s - 1) by omega]
      exact ⟨hla _ (by omega), rfl⟩
    · rw [if_neg h, if_neg h]; exact ⟨trivial, rfl⟩
  have h3 : Low (if 1 < s ∧ prime lab (s - 2) ≠ prime lab s then la (t * W + s - 2) else ninf) ∧
      val (if 1 < s ∧ prime lab (s - 2) ≠ prime lab s then la (t * W + s - 2) else ninf) =
        if 1 < s ∧ prime lab (s - 2) ≠ prime lab s then val (la (t * W + (s - 2))) else 0 := by
    by_cases h : 1 < s ∧ prime lab (s - 2) ≠ prime lab s
    · rw [if_pos h, if_pos h, show t * W + s - 2 = t * W + (s - 2) by omega]
      exact ⟨hla _ (by omega), rfl⟩
    · rw [if_neg h, if_neg h]; exact ⟨trivial, rfl⟩
  have hm1 : Low (if 0 < s then bump (la (t * W + s)) (if 0 < s then la (t * W + s - 1) else ninf) else la (t * W + s)) := by
    by_cases h : 0 < s
    · rw [if_pos h]; exact bump_low h1 h2.1
    · rw [if_neg h]; exact h1
  have hm2 : Low (if 1 < s ∧ prime lab (s - 2) ≠ prime lab s then
      bump (if 0 < s then bump (la (t * W + s)) (if 0 < s then la (t * W + s - 1) else ninf) else la (t * W + s))
        (if 1 < s ∧ prime lab (s - 2) ≠ prime lab s then la (t * W + s - 2) else ninf)
      else (if 0 < s then bump (la (t * W + s)) (if 0 < s then la (t * W + s - 1) else ninf) else la (t * W + s))) := by
    by_cases h : 1 < s ∧ prime lab (s - 2) ≠ prime lab s
    · rw [if_pos h]; exact bump_low hm1 h3.1
    · rw [if_neg h]; exact hm1
  obtain ⟨m, hm⟩ := unInf_fin hm2
  rw [hm]
  have h4 := lse3 h1 h2.1 h3.1 m
  have h5 := low_add h4.1 (hlpp ((t + 1) * C + prime lab s))
  refine ⟨h5.1, ?_⟩
  rw [h5.2, h4.2, h2.2, h3.2]
  rfl

/-- A row that has been filled in. -/
theorem alphaRow {lab : Nat → Nat} (C W : Nat) (lpp : Nat → Fl) (hlpp : ∀ i, Low (lpp i)) (t : Nat)
    (la : Nat → Fl) (hla : ∀ s < W, Low (la (t * W + s))) : ∀ n ≤ W,
    (∀ j, (∀ s < n, j ≠ (t + 1) * W + s) → loop n (alphaCell (prime lab) C W lpp (t + 1)) la j = la j) ∧
    (∀ s < n, Low (loop n (alphaCell (prime lab) C W lpp (t + 1)) la ((t + 1) * W + s)) ∧
      val (loop n (alphaCell (prime lab) C W lpp (t + 1)) la ((t + 1) * W + s)) =
        from3 lab s (fun s' => val (la (t * W + s'))) * val (lpp ((t + 1) * C + prime lab s))) := by
  intro n
  induction n with
  | zero => intro _; exact ⟨fun _ _ => rfl, fun s hs => absurd hs (Nat.not_lt_zero s)⟩
  | succ n ih =>
    intro hn
    obtain ⟨i1, i2⟩ := ih (by omega)
    have hrow : ∀ s < W, loop n (alphaCell (prime lab) C W lpp (t + 1)) la (t * W + s) = la (t * W + s) := fun s hs =>
      i1 _ fun s' hs' h => by
        have := (cell_inj (t' := t + 1) hs (show s' < W by omega) h).1
        omega
    rw [loop_succ]
    refine ⟨fun j hj => ?_, fun s hs => ?_⟩
    · rw [alphaCell_other _ _ _ _ _ _ _ (hj n (by omega)), i1 j fun s hs => hj s (by omega)]
    · by_cases h : s = n
      · subst h
        have := alphaCell_same (lab := lab) C W lpp hlpp t s (by omega)
          (loop s (alphaCell (prime lab) C W lpp (t + 1)) la) (fun s' hs' => by rw [hrow s' hs']; exact hla s' hs')
        refine ⟨this.1, this.2.trans ?_⟩
        congr 1
        exact from3_congr lab s fun s' hs' => by rw [hrow s' (by omega)]
      · rw [alphaCell_other]
        · exact i2 s (by omega)
        · intro he
          exact h (cell_inj (show s < W by omega) (show n < W by omega) he).2

/-- The whole table holds the forward variables. -/
theorem alphaTable_spec {C L : Nat} {lab : Nat → Nat} (hC : 0 < C) (hl : ∀ k < L, lab k ≠ 0) (hlC : ∀ k < L, lab k < C)
    (lpp : Nat → Fl) (hlpp : ∀ i, Low (lpp i)) (la : Nat → Fl) (h0 : ∀ s < 2 * L + 1, la s = ninf) (il : Nat) :
    ∀ t s, t < il → s < 2 * L + 1 →
      Low (alphaTable (prime lab) C il L lpp la (t * (2 * L + 1) + s)) ∧
      val (alphaTable (prime lab) C il L lpp la (t * (2 * L + 1) + s)) = reach C (fun t c => val (lpp (t * C + c))) lab t s := by
  obtain ⟨W, hW⟩ : ∃ W, W = 2 * L + 1 := ⟨_, rfl⟩
  obtain ⟨y, hy⟩ : ∃ y : Nat → Nat → ℝ, y = fun t c => val (lpp (t * C + c)) := ⟨_, rfl⟩
  rw [← hy]
  obtain ⟨la', hla'⟩ : ∃ la', la' = if 0 < L then Function.update (Function.update la 0 (lpp 0)) 1 (lpp (prime lab 1))
      else Function.update la 0 (lpp 0) := ⟨_, rfl⟩
  have hrow0 : ∀ s < W, Low (la' s) ∧ val (la' s) = reach C y lab 0 s := by
    intro s hs
    rw [reach_zero y hC hl hlC (by omega), hla', hy]
    rcases Nat.lt_trichotomy s 1 with h | h | h
    · have : s = 0 := by omega
      subst this
      have e : (if 0 < L then Function.update (Function.update la 0 (lpp 0)) 1 (lpp (prime lab 1))
          else Function.update la 0 (lpp 0)) 0 = lpp 0 := by
        by_cases hL : 0 < L
        · rw [if_pos hL, Function.update_of_ne (by omega), Function.update_self]
        · rw [if_neg hL, Function.update_self]
      rw [e, if_pos (by omega)]
      exact ⟨hlpp 0, by simp [prime]⟩
    · subst h
      rw [if_pos (show 0 < L by omega), Function.update_self, if_pos (le_refl 1)]
      exact ⟨hlpp _, by simp⟩
    · have e : (if 0 < L then Function.update (Function.update la 0 (lpp 0)) 1 (lpp (prime lab 1))
          else Function.update la 0 (lpp 0)) s = ninf := by
        rw [if_pos (show 0 < L by omega), Function.update_of_ne (by omega), Function.update_of_ne (by omega), h0 s (by omega)]
      rw [e, if_neg (by omega)]
      exact ⟨trivial, rfl⟩
  have key : ∀ n, ∀ t s, t ≤ n → s < W →
      Low (loop n (fun t => loop W fun s => alphaCell (prime lab) C W lpp (t + 1) s) la' (t * W + s)) ∧
      val (loop n (fun t => loop W fun s => alphaCell (prime lab) C W lpp (t + 1) s) la' (t * W + s)) = reach C y lab t s := by
    intro n
    induction n with
    | zero =>
      intro t s ht hs
      have : t = 0 := by omega
      subst this
      rw [Nat.zero_mul, Nat.zero_add]
      exact hrow0 s hs
    | succ n ih =>
      intro t s ht hs
      rw [loop_succ]
      obtain ⟨r1, r2⟩ := alphaRow (lab := lab) C W lpp hlpp n
        (loop n (fun t => loop W fun s => alphaCell (prime lab) C W lpp (t + 1) s) la')
        (fun s hs => (ih n s (le_refl n) hs).1) W (le_refl W)
      by_cases h : t = n + 1
      · subst h
        refine ⟨(r2 s hs).1, (r2 s hs).2.trans ?_⟩
        rw [reach_succ y hC hl hlC n (by omega), from3_congr lab s fun s' hs' => (ih n s' (le_refl n) (by omega)).2, hy]
      · have e := r1 (t * W + s) fun s' hs' he => h (cell_inj hs hs' he).1
        have := ih t s (by omega) hs
        exact ⟨e ▸ this.1, e ▸ this.2⟩
  intro t s ht hs
  have := key (il - 1) t s (by omega) (by omega)
  rw [hla', hW] at this
  exact this

/-- `-log p`, which is `+Inf` for 0. -/
def negLog (p : ℝ) : Fl := if p = 0 then pinf else fin (-Real.log p)

theorem neg_low {a : Fl} (ha : Low a) : neg a = negLog (val a) := by
  cases a with
  | fin x => simp [neg, negLog, val]
  | ninf => simp [neg, negLog, val]
  | nan => exact absurd ha (by simp [Low])
  | pinf => exact absurd ha (by simp [Low])

theorem low_eq {a : Fl} (ha : Low a) : a = neg (negLog (val a)) := by
  cases a with
  | fin x => simp [neg, negLog, val]
  | ninf => simp [neg, negLog, val]
  | nan => exact absurd ha (by simp [Low])
  | pinf => exact absurd ha (by simp [Low])

/-- The likelihood of a table of forward variables. -/
theorem nllOf_spec {C L : Nat} {lab : Nat → Nat} (hl : ∀ k < L, lab k ≠ 0) (y : Nat → Nat → ℝ)
    (la : Nat → Fl) {il : Nat} (hil : 0 < il)
    (h : ∀ s, s < 2 * L + 1 → Low (la ((il - 1) * (2 * L + 1) + s)) ∧ val (la ((il - 1) * (2 * L + 1) + s)) = reach C y lab (il - 1) s) :
    nllOf il L la = if L = 0 then neg (negLog (seqProb C il y [])) else negLog (seqProb C il y (pre lab L)) := by
  have hs := seqProb_reach (C := C) y hl (il - 1)
  rw [show il - 1 + 1 = il by omega] at hs
  unfold nllOf
  by_cases hL : L = 0
  · subst hL
    simp only [if_true]
    have h0 := h 0 (by omega)
    rw [Nat.add_zero] at h0
    rw [low_eq h0.1, h0.2]
    simp only [Nat.lt_irrefl, if_false, add_zero, Nat.mul_zero] at hs
    rw [← hs]
    rfl
  · simp only [if_neg hL]
    rw [if_pos (by omega)] at hs
    have h1 := h (2 * L) (by omega)
    have h2 := h (2 * L - 1) (by omega)
    rw [Nat.mul_comm L 2, show (il - 1) * (2 * L + 1) + 2 * L - 1 = (il - 1) * (2 * L + 1) + (2 * L - 1) by omega]
    obtain ⟨m, hm⟩ := unInf_fin (bump_low h1.1 h2.1)
    rw [hm]
    have h3 := lse2 h1.1 h2.1 m
    rw [neg_low h3.1, h3.2, h1.2, h2.2, hs]

/-! ### The batch -/

/-- The sequence of an element of the batch: the sequences follow each other, or each has its row. -/
def target (I : Inputs) (b : Nat) : List Nat :=
  match I.layout with
  | .flat => (I.targets.drop (I.targetLengths.take b).sum).take (I.targetLengths.getD b 0)
  | .rows w => (I.targets.drop (b * w)).take (I.targetLengths.getD b 0)

/-- The probability of a label at a time step for an element of the batch. -/
def prob (I : Inputs) (b t c : Nat) : ℝ := val (I.logProbs (t * (I.B * I.C) + b * I.C + c))

/-- Operands that make sense. -/
structure Valid (I : Inputs) : Prop where
  labels : 0 < I.C
  low : ∀ i, Low (I.logProbs i)
  targetLengths : I.targetLengths.length = I.B
  inputLengths : I.B ≤ I.inputLengths.length
  steps : ∀ b < I.B, 0 < I.inputLengths.getD b 0 ∧ I.inputLengths.getD b 0 ≤ I.T
  room : match I.layout with
    | .flat => I.targetLengths.sum ≤ I.targets.length
    | .rows w => (∀ b < I.B, I.targetLengths.getD b 0 ≤ w) ∧ I.B * w ≤ I.targets.length
  target : ∀ b < I.B, ∀ a ∈ target I b, 0 < a ∧ a < I.C

theorem seqProb_congr {C n : Nat} {y y' : Nat → Nat → ℝ} (l : List Nat) (h : ∀ t < n, ∀ c < C, y t c = y' t c) :
    seqProb C n y l = seqProb C n y' l := by
  unfold seqProb
  refine sum_congr rfl fun π _ => ?_
  congr 1
  exact prod_congr rfl fun t _ => h t t.2 _ (π t).2

theorem labelProb_congr {C n : Nat} {y y' : Nat → Nat → ℝ} (l : List Nat) (t c : Nat) (h : ∀ t < n, ∀ c < C, y t c = y' t c) :
    labelProb C n y l t c = labelProb C n y' l t c := by
  unfold labelProb
  refine sum_congr rfl fun π _ => ?_
  congr 1
  exact prod_congr rfl fun t _ => h t t.2 _ (π t).2

theorem lppSection_eq (I : Inputs) {b t c : Nat} (ht : t < I.T) (hc : c < I.C) :
    lppSection I b (t * I.C + c) = I.logProbs (t * (I.B * I.C) + b * I.C + c) := by
  unfold lppSection lppA
  have e0 : b * (I.T * I.C) + (t * I.C + c) = (b * I.T + t) * I.C + c := by ring
  have e1 : (b * (I.T * I.C) + (t * I.C + c)) / I.C = b * I.T + t := by
    rw [e0, Nat.mul_comm, Nat.mul_add_div (by omega), Nat.div_eq_of_lt hc, Nat.add_zero]
  have e2 : (b * (I.T * I.C) + (t * I.C + c)) % I.C = c := by
    rw [e0, Nat.mul_comm, Nat.mul_add_mod, Nat.mod_eq_of_lt hc]
  have e3 : (b * I.T + t) % I.T = t := by rw [Nat.mul_comm, Nat.mul_add_mod, Nat.mod_eq_of_lt ht]
  have e4 : (b * (I.T * I.C) + (t * I.C + c)) / (I.T * I.C) = b := by
    rw [Nat.mul_comm I.T, ← Nat.div_div_eq_div_mul, Nat.mul_comm I.C I.T, e1, Nat.mul_comm b, Nat.mul_add_div (by omega),
      Nat.div_eq_of_lt ht, Nat.add_zero]
  rw [e1, e2, e3, e4]

theorem loop_pos (l : List Nat) (b : Nat) : loop b (fun i pos => pos + l.getD i 0) 0 = (l.take b).sum := by
  induction b with
  | zero => rfl
  | succ b ih =>
    rw [loop_succ, ih]
    by_cases h : b < l.length
    · rw [List.take_add_one, List.sum_append]
      simp [List.getD, h]
    · rw [List.take_of_length_le (by omega), List.take_of_length_le (by omega)]
      simp [List.getD, show l.length ≤ b by omega]

theorem maxTarget_le (I : Inputs) : ∀ n b, b < n →
    I.targetLengths.getD b 0 ≤ loop n (fun i m => if m < I.targetLengths.getD i 0 then I.targetLengths.getD i 0 else m) 0 := by
  intro n
  induction n with
  | zero => intro b h; omega
  | succ n ih =>
    intro b h
    rw [loop_succ]
    rcases Nat.lt_succ_iff_lt_or_eq.1 h with h | h
    · refine (ih b h).trans ?_
      split <;> omega
    · subst h
      split <;> omega

theorem take_drop_pre (l : List Nat) (o n : Nat) (h : o + n ≤ l.length) :
    (l.drop o).take n = pre (fun k => l.getD (o + 1 * k) 0) n := by
  unfold pre
  refine List.ext_getElem (by simp; omega) fun i h1 h2 => ?_
  have : i < n := by simpa using h2
  simp [List.getD, show o + i < l.length by omega]

theorem sum_take_le (l : List Nat) : ∀ b, b < l.length → (l.take b).sum + l.getD b 0 ≤ l.sum := by
  intro b hb
  have h : (l.take (b + 1)).sum ≤ l.sum := by
    conv_rhs => rw [← List.take_append_drop (b + 1) l, List.sum_append]
    omega
  rw [List.take_add_one, List.sum_append] at h
  simpa [List.getD, hb] using h

/-- The labels of an element of the batch, as the code finds them. -/
def labOf (I : Inputs) (b k : Nat) : Nat := I.targets.getD (targetOffset I b + 1 * k) 0

theorem primeOf_eq (I : Inputs) (b : Nat) : primeOf I b = prime (labOf I b) := rfl

theorem target_eq {I : Inputs} (hv : Valid I) {b : Nat} (hb : b < I.B) : target I b = pre (labOf I b) (I.targetLengths.getD b 0) := by
  unfold target
  have hr := hv.room
  have hlen := hv.targetLengths
  cases hlay : I.layout with
  | flat =>
    rw [hlay] at hr
    have h := sum_take_le I.targetLengths b (by omega)
    simp only at hr ⊢
    rw [take_drop_pre _ _ _ (by omega)]
    unfold labOf targetOffset
    rw [hlay]
    simp only [loop_pos]
  | rows w =>
    rw [hlay] at hr
    simp only at hr ⊢
    have h1 := hr.1 b hb
    have h2 : (b + 1) * w ≤ I.B * w := Nat.mul_le_mul_right w hb
    have h3 : (b + 1) * w = b * w + w := by ring
    rw [take_drop_pre _ _ _ (by omega)]
    unfold labOf targetOffset
    rw [hlay]

theorem labOf_mem {I : Inputs} (hv : Valid I) {b : Nat} (hb : b < I.B) {k : Nat} (hk : k < I.targetLengths.getD b 0) :
    labOf I b k ≠ 0 ∧ labOf I b k < I.C := by
  have : labOf I b k ∈ target I b := by
    rw [target_eq hv hb]
    exact List.mem_map.2 ⟨k, List.mem_range.2 hk, rfl⟩
  have h := hv.target b hb _ this
  exact ⟨by omega, h.2⟩

theorem target_nil {I : Inputs} (hv : Valid I) {b : Nat} (hb : b < I.B) : target I b = [] ↔ I.targetLengths.getD b 0 = 0 := by
  rw [target_eq hv hb]
  simp [pre]

theorem cut_paste (n b : Nat) (sec arr : Nat → Fl) : cut n b (paste n b sec arr) = fun i => if i < n then sec i else fin 0 := by
  funext i
  unfold cut paste
  by_cases h : i < n
  · have : (b + 1) * n = b * n + n := by ring
    rw [if_pos h, if_pos h, if_pos ⟨by omega, by omega⟩, Nat.add_sub_cancel_left]
  · rw [if_neg h, if_neg h]

theorem cut_paste_other {n b c : Nat} (h : c ≠ b) (sec arr : Nat → Fl) : cut n c (paste n b sec arr) = cut n c arr := by
  funext i
  unfold cut paste
  by_cases hi : i < n
  · rw [if_pos hi, if_pos hi, if_neg]
    rintro ⟨h1, h2⟩
    rcases Nat.lt_or_gt_of_ne h with h | h
    · have : (c + 1) * n ≤ b * n := Nat.mul_le_mul_right n h
      have : (c + 1) * n = c * n + n := by ring
      omega
    · have : (b + 1) * n ≤ c * n := Nat.mul_le_mul_right n h
      omega
  · rw [if_neg hi, if_neg hi]

/-- What the forward pass leaves of an element of the batch. -/
theorem forward_at {I : Inputs} {order : List Nat} (ho : order.Perm (List.range I.B)) {b : Nat} (hb : b < I.B) :
    let st := runInParallel order (forwardCb I) (start I)
    let sec := alphaTable (primeOf I b) I.C (I.inputLengths.getD b 0) (I.targetLengths.getD b 0) (lppSection I b)
      (cut (sectionSize I) b (start I).logAlpha)
    (∀ i < sectionSize I, cut (sectionSize I) b st.logAlpha i = sec i) ∧
    st.nll b = nllOf (I.inputLengths.getD b 0) (I.targetLengths.getD b 0) sec := by
  intro st sec
  have hp := par_spec (α := (Nat → Fl) × Fl) (forwardCb I) (fun b st => (cut (sectionSize I) b st.logAlpha, st.nll b))
    (fun b p =>
      let sec := alphaTable (primeOf I b) I.C (I.inputLengths.getD b 0) (I.targetLengths.getD b 0) (lppSection I b) p.1
      (fun i => if i < sectionSize I then sec i else fin 0, nllOf (I.inputLengths.getD b 0) (I.targetLengths.getD b 0) sec))
    (fun c s => Prod.ext (cut_paste _ _ _ _) (Function.update_self _ _ _))
    (fun c c' s h => Prod.ext (cut_paste_other h _ _) (Function.update_of_ne h _ _))
    order (ho.nodup_iff.2 List.nodup_range) (start I) b
  rw [if_pos (ho.mem_iff.2 (List.mem_range.2 hb))] at hp
  have h1 := congrArg Prod.fst hp
  have h2 := congrArg Prod.snd hp
  refine ⟨fun i hi => ?_, h2⟩
  have := congrFun h1 i
  simp only [if_pos hi] at this
  exact this

theorem section_in {I : Inputs} {b t s : Nat} (hb : b < I.B) (ht : t < I.T) (hs : s < 2 * I.targetLengths.getD b 0 + 1) :
    t * (2 * I.targetLengths.getD b 0 + 1) + s < sectionSize I := by
  have hm : I.targetLengths.getD b 0 ≤ maxTargetLength I := maxTarget_le I I.B b hb
  obtain ⟨tl, htl⟩ : ∃ tl, tl = I.targetLengths.getD b 0 := ⟨_, rfl⟩
  rw [← htl] at hs hm ⊢
  unfold sectionSize
  have h1 : (t + 1) * (2 * tl + 1) ≤ I.T * (2 * tl + 1) := Nat.mul_le_mul_right _ ht
  have h2 : I.T * (2 * tl + 1) ≤ I.T * (2 * maxTargetLength I + 1) := Nat.mul_le_mul_left _ (by omega)
  have h3 : (t + 1) * (2 * tl + 1) = t * (2 * tl + 1) + (2 * tl + 1) := by ring
  omega

/-- The table of an element of the batch holds its forward variables. -/
theorem table_spec {I : Inputs} (hv : Valid I) {b : Nat} (hb : b < I.B) {t s : Nat} (ht : t < I.inputLengths.getD b 0)
    (hs : s < 2 * I.targetLengths.getD b 0 + 1) :
    let sec := alphaTable (primeOf I b) I.C (I.inputLengths.getD b 0) (I.targetLengths.getD b 0) (lppSection I b)
      (cut (sectionSize I) b (start I).logAlpha)
    Low (sec (t * (2 * I.targetLengths.getD b 0 + 1) + s)) ∧ val (sec (t * (2 * I.targetLengths.getD b 0 + 1) + s)) =
      reach I.C (fun t c => val (lppSection I b (t * I.C + c))) (labOf I b) t s := by
  intro sec
  have hm : I.targetLengths.getD b 0 ≤ maxTargetLength I := maxTarget_le I I.B b hb
  have hT := hv.steps b hb
  refine alphaTable_spec hv.labels (fun k hk => (labOf_mem hv hb hk).1) (fun k hk => (labOf_mem hv hb hk).2) (lppSection I b)
    (fun i => hv.low _) _ (fun s' hs' => ?_) _ t s ht hs
  have hin := section_in (I := I) hb (show 0 < I.T by omega) hs'
  rw [Nat.zero_mul, Nat.zero_add] at hin
  unfold cut start
  rw [if_pos hin]
  simp only
  rw [Nat.mul_comm b, Nat.mul_add_mod, Nat.mod_eq_of_lt hin, if_pos (by omega)]

theorem forward_ok {I : Inputs} (hv : Valid I) (order : List Nat) :
    forward order I = .ok (runInParallel order (forwardCb I) (start I)) := by
  unfold forward
  have h1 := hv.targetLengths
  have h2 := hv.inputLengths
  rw [if_neg (by omega), if_neg, if_neg]
  · rintro ⟨b, hb, h⟩
    have := (hv.steps b hb).1
    omega
  · rintro ⟨b, hb, h⟩
    have := (hv.steps b hb).2
    omega

/-- The forward pass finds minus the logarithm of the probability of each sequence, summed over all its paths, unless the sequence
is empty, and plus that logarithm if it is. -/
theorem ctc_nll {I : Inputs} (hv : Valid I) {order : List Nat} (ho : order.Perm (List.range I.B)) :
    ∃ st, forward order I = .ok st ∧ ∀ b < I.B, st.nll b =
      if target I b = [] then neg (negLog (seqProb I.C (I.inputLengths.getD b 0) (prob I b) []))
      else negLog (seqProb I.C (I.inputLengths.getD b 0) (prob I b) (target I b)) := by
  refine ⟨_, forward_ok hv order, fun b hb => ?_⟩
  have hT := hv.steps b hb
  rw [(forward_at ho hb).2, nllOf_spec (C := I.C) (fun k hk => (labOf_mem hv hb hk).1)
    (fun t c => val (lppSection I b (t * I.C + c))) _ hT.1
    (fun s hs => table_spec hv hb (by omega) hs)]
  have hc : ∀ l, seqProb I.C (I.inputLengths.getD b 0) (fun t c => val (lppSection I b (t * I.C + c))) l =
      seqProb I.C (I.inputLengths.getD b 0) (prob I b) l := fun l =>
    seqProb_congr l fun t ht c hc => by rw [lppSection_eq I (by omega) hc]; rfl
  rw [hc, hc]
  by_cases h : I.targetLengths.getD b 0 = 0
  · rw [if_pos h, if_pos ((target_nil hv hb).2 h)]
  · rw [if_neg h, if_neg (fun h' => h ((target_nil hv hb).1 h')), target_eq hv hb]

/-- What the loss of an element of the batch should be. -/
def nllSpec (I : Inputs) (b : Nat) : ℝ := -Real.log (seqProb I.C (I.inputLengths.getD b 0) (prob I b) (target I b))

theorem loop_fin (n : Nat) (f : Nat → Fl → Fl) (r : Nat → ℝ) (h : ∀ i < n, ∀ x, f i (fin x) = fin (x + r i)) :
    loop n f (fin 0) = fin (∑ i ∈ range n, r i) := by
  induction n with
  | zero => simp [loop]
  | succ n ih =>
    rw [loop_succ, ih fun i hi => h i (by omega), h n (by omega), sum_range_succ]

/-- The loss of a batch of non-empty sequences that have a path. -/
theorem ctc_loss {I : Inputs} (hv : Valid I) {order : List Nat} (ho : order.Perm (List.range I.B)) (hB : 0 < I.B)
    (hne : ∀ b < I.B, target I b ≠ []) (hp : ∀ b < I.B, seqProb I.C (I.inputLengths.getD b 0) (prob I b) (target I b) ≠ 0) :
    ctcLoss .sum order I = .ok (fin (∑ b ∈ range I.B, nllSpec I b)) ∧
    ctcLoss .mean order I = .ok (fin ((∑ b ∈ range I.B, nllSpec I b / ((target I b).length : ℝ)) / (I.B : ℝ))) := by
  obtain ⟨st, hst, hn⟩ := ctc_nll hv ho
  have hn' : ∀ b < I.B, st.nll b = fin (nllSpec I b) := fun b hb => by
    rw [hn b hb, if_neg (hne b hb)]
    exact if_neg (hp b hb)
  unfold ctcLoss lossOf
  rw [hst]
  simp only
  have hlen := hv.targetLengths
  constructor
  · rw [loop_fin _ _ (nllSpec I), hlen]
    intro i hi x
    rw [hn' i (by omega)]
    rfl
  · rw [loop_fin _ _ (fun b => nllSpec I b / ((target I b).length : ℝ)), hlen]
    · simp only [div, if_neg (show I.B ≠ 0 by omega)]
    · intro i hi x
      have h0 : I.targetLengths.getD i 0 ≠ 0 := fun h => hne i (by omega) ((target_nil hv (by omega)).2 h)
      have hl : (target I i).length = I.targetLengths.getD i 0 := by rw [target_eq hv (by omega)]; simp [pre]
      rw [hn' i (by omega), if_neg (by omega), hl]
      simp only [div, if_neg h0, add]

/-- The element of an empty sequence counts with the wrong sign, whatever the probabilities, unless its probability is 1. -/
theorem ctc_empty_wrong {I : Inputs} (hv : Valid I) {order : List Nat} (ho : order.Perm (List.range I.B)) {b : Nat} (hb : b < I.B)
    (he : target I b = []) {st : State} (hst : forward order I = .ok st) :
    st.nll b = negLog (seqProb I.C (I.inputLengths.getD b 0) (prob I b) (target I b)) ↔
      seqProb I.C (I.inputLengths.getD b 0) (prob I b) (target I b) = 1 := by
  obtain ⟨st', hst', hn⟩ := ctc_nll hv ho
  rw [hst] at hst'
  cases hst'
  rw [hn b hb, if_pos he, he]
  have hnn : 0 ≤ seqProb I.C (I.inputLengths.getD b 0) (prob I b) [] :=
    sum_nonneg fun π _ => by
      split
      · exact prod_nonneg fun t _ => val_nonneg _
      · exact le_refl 0
  obtain ⟨p, hpe⟩ : ∃ p, p = seqProb I.C (I.inputLengths.getD b 0) (prob I b) [] := ⟨_, rfl⟩
  rw [← hpe] at hnn ⊢
  unfold negLog
  by_cases h0 : p = 0
  · simp [h0, neg]
  · rw [if_neg h0]
    simp only [neg, neg_neg, Fl.fin.injEq]
    constructor
    · intro h
      have hl : Real.log p = 0 := by linarith
      rcases Real.log_eq_zero.1 hl with h | h | h
      · exact absurd h h0
      · exact h
      · linarith
    · intro h
      simp [h]

/-- A length of zero among the input lengths stops the program; a length that is too large is an error. -/
theorem ctc_zero_length {I : Inputs} (order : List Nat) (h1 : I.targetLengths.length = I.B) (h2 : I.B ≤ I.inputLengths.length)
    (h3 : ∀ b < I.B, I.inputLengths.getD b 0 ≤ I.T) {b : Nat} (hb : b < I.B) (h0 : I.inputLengths.getD b 0 = 0) (red : Reduction) :
    ctcLoss red order I = .panic := by
  unfold ctcLoss forward
  rw [if_neg (by omega), if_neg, if_pos ⟨b, hb, h0⟩]
  rintro ⟨b, hb, h⟩
  have := h3 b hb
  omega

end
end Verif.NN.CTC
