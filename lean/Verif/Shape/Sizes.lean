import Verif.Shape.Infer
import Verif.Types.Model
import Mathlib.Algebra.Order.Floor.Ring
import Mathlib.Data.Rat.Floor
import Mathlib.Data.Nat.Log
/-!
Sizes read off at run time and repetition into memory given beforehand (C106).

`Broadcast`, `Mean` and the gradient of `Sum` do not put the sizes of axes into the graph as numbers: they add `SizeOf` nodes
(`sizeOp`), whose value has the element type of the tensor, and hand them to `repeatOp`, which turns them back into an `int`. On
the tape machine `repeatOp` always gets the memory for its result (`CallsExtern` is true, op_tensor.go 219).

Numbers are rational, a bool is 0 or 1; NaN and infinities are left out. The element types of operand and result agree (this is
checked when the graph is built).
-/
set_option autoImplicit false
namespace Verif.Shape
open Verif.Tensor Verif.Types

/-! ### Model -/

/-- Scalars (`F64`, `F32`, `I`, …) and dense tensors. -/
inductive RV where
  | sc (dt : Dt) (x : ℚ)
  | tn (dt : Dt) (t : T ℚ)

/-- Conversion of a non-negative `int` into a float with `p` bits: the language rounds to the nearest, ties to even. -/
def roundTo (p n : Nat) : Nat :=
  if n < 2 ^ p then n
  else
    let e := Nat.log 2 n + 1 - p
    if 2 * (n % 2 ^ e) < 2 ^ e ∨ (2 * (n % 2 ^ e) = 2 ^ e ∧ n / 2 ^ e % 2 = 0) then n / 2 ^ e * 2 ^ e
    else (n / 2 ^ e + 1) * 2 ^ e

/-- The casts of `sizeOp.Do`, op_tensor.go 128-137. -/
def sizeCast (dt : Dt) (n : Nat) : Res RV :=
  match dt with
  | .float64 => .ok (.sc .float64 (roundTo 53 n))
  | .float32 => .ok (.sc .float32 (roundTo 24 n))
  | .int => .ok (.sc .int n)
  | _ => .err

/-- `sizeOp.Do`, op_tensor.go 107-141, for an axis that is not negative. -/
def sizeDo (axis : Nat) : RV → Res RV
  | .sc dt _ => .ok (if dt = .bool then .sc .int 1 else .sc dt 1)
  | .tn dt t => if t.shape.length ≤ axis then .err else sizeCast dt (t.shape.getD axis 0)

/-- Conversion of a float into an `int`: the language drops the fraction. -/
def truncQ (x : ℚ) : Int := if 0 ≤ x then ⌊x⌋ else ⌈x⌉

/-- `valueToInt`, utils.go 61-80. -/
def valueToInt : RV → Res Int
  | .sc .bool _ => .err
  | .sc _ x => .ok (truncQ x)
  | .tn _ _ => .err

/-- `tensor.Repeat` (assumed) of an axis that exists; the other axes are in `libRepeatShape`. -/
def libRepeat (t : T ℚ) (along rep : Nat) : Res (T ℚ) :=
  (libRepeatShape t.shape along rep).bind fun s => .ok ⟨s, fun i => t.at_ (i.set along (i.getD along 0 / rep))⟩

/-- `repeatOp.Do`, op_tensor.go 354-394. A negative count is left to the library, which fails. -/
def repeatDo (along : Nat) (x rep : RV) : Res RV :=
  (valueToInt rep).bind fun r =>
    let go (dt : Dt) (t : T ℚ) : Res RV :=
      if r = 1 then .ok (.tn dt t)
      else if r < 0 then .err
      else (libRepeat t along r.toNat).bind fun t' => .ok (.tn dt t')
    match x with
    | .sc dt v => go dt ⟨[], fun _ => v⟩
    | .tn dt t => go dt t

/-- All elements of the memory given set to one value (`Memset`, and the loops of op_tensor.go 436-454). -/
def fillAll (pt : T ℚ) (v : ℚ) : T ℚ := ⟨pt.shape, fun _ => v⟩

/-- The branch for tensors of one element, op_tensor.go 433-457: there are cases for floats only. The type assertion on the
memory fails if that is a scalar. -/
def repeatOne (dt : Dt) (pt t : T ℚ) : Res RV :=
  match dt with
  | .float64 | .float32 => if pt.shape = [] then .panic else .ok (.tn dt (fillAll pt (t.flat 0)))
  | _ => .ok (.tn dt pt)

/-- `tensor.RepeatReuse` (assumed): the memory must have the shape of the result, as `Shape.Eq` compares shapes. The elements are
written in their order. -/
def libRepeatReuse (t pt : T ℚ) (along rep : Nat) : Res (T ℚ) :=
  (libRepeat t along rep).bind fun t' => if shapeEq pt.shape t'.shape then .ok (t'.reshape pt.shape) else .err

/-- `repeatOp.UsePreallocDo`, op_tensor.go 411-472; `pt` is the memory given, with what it held before, and the result is what it
holds afterwards. `Copy` (values_utils.go 169-239) copies the elements in their order and keeps the shape of the destination; it is
used here for equal numbers of elements only. -/
def repeatPre (along : Nat) (pre x rep : RV) : Res RV :=
  match pre with
  | .sc _ _ => .err
  | .tn pdt pt =>
    (valueToInt rep).bind fun r =>
      match x with
      | .sc _ v => .ok (.tn pdt (fillAll pt v))
      | .tn dt t =>
        if isScalarEquiv t.shape then repeatOne dt pt t
        else if r = 1 then (if size t.shape = size pt.shape then .ok (.tn pdt (t.reshape pt.shape)) else .err)
        else if r < 0 then .err
        else (libRepeatReuse t pt along r.toNat).bind fun t' => .ok (.tn pdt t')

/-- `repeatedApply` (op_tensor.go 175-188) as the tape machine runs it: for each axis the size is read off `y` (`sizeOp.Do`), then
the repetition is made in memory of the inferred shape (`InferShape`, op_tensor.go 221-242) with the contents `junk`. -/
def runRepeats (dt : Dt) (junk : List Nat → ℚ) (y : RV) (known : Nat → Nat) : List Nat → T ℚ → Res RV
  | [], t => .ok (.tn dt t)
  | a :: along, t =>
    (sizeDo a y).bind fun n =>
      (repeatShape t.shape a (known a)).bind fun s =>
        (repeatPre a (.tn dt ⟨s, junk⟩) (.tn dt t) n).bind fun r =>
          match r with
          | .tn _ t' => runRepeats dt junk y known along t'
          | .sc _ _ => .panic

/-- `atOp.Do`, op_tensor.go 42-60; `At` of the tensor library (assumed) fails for places that do not exist. -/
def atDo (coords : List Nat) : RV → Res RV
  | .tn dt t => if coords.length = t.shape.length ∧ ∀ k < coords.length, coords.getD k 0 < t.shape.getD k 0 then .ok (.sc dt (t.at_ coords)) else .err
  | .sc _ _ => .err

/-! ### Rounding -/

/-- The whole numbers a float with `p` bits can hold (the exponents are large enough for all sizes). -/
def Representable (p n : Nat) : Prop := ∃ m e, m < 2 ^ p ∧ n = m * 2 ^ e

theorem roundTo_small {p n : Nat} (h : n < 2 ^ p) : roundTo p n = n := by
  unfold roundTo; rw [if_pos h]

theorem log_ge {p n : Nat} (h : ¬ n < 2 ^ p) : p ≤ Nat.log 2 n := by
  apply Nat.le_log_of_pow_le (by decide); omega

/-- The quotient has `p` bits exactly. -/
theorem quot_bounds {p n : Nat} (hp : 0 < p) (h : ¬ n < 2 ^ p) :
    2 ^ (p - 1) ≤ n / 2 ^ (Nat.log 2 n + 1 - p) ∧ n / 2 ^ (Nat.log 2 n + 1 - p) < 2 ^ p := by
  have hl := log_ge h
  have hn : n ≠ 0 := by
    intro e; apply h; rw [e]; exact Nat.pow_pos (by decide)
  have h1 := Nat.pow_log_le_self 2 hn
  have h2 := Nat.lt_pow_succ_log_self (b := 2) (by decide) n
  constructor
  · rw [Nat.le_div_iff_mul_le (Nat.pow_pos (by decide)), ← Nat.pow_add]
    rw [show p - 1 + (Nat.log 2 n + 1 - p) = Nat.log 2 n by omega]; exact h1
  · rw [Nat.div_lt_iff_lt_mul (Nat.pow_pos (by decide)), ← Nat.pow_add]
    rw [show p + (Nat.log 2 n + 1 - p) = Nat.log 2 n + 1 by omega]; exact h2

/-- What is rounded to can be represented. -/
theorem roundTo_representable {p : Nat} (hp : 0 < p) (n : Nat) : Representable p (roundTo p n) := by
  by_cases h : n < 2 ^ p
  · rw [roundTo_small h]; exact ⟨n, 0, h, by simp⟩
  · have hq := quot_bounds hp h
    unfold roundTo
    rw [if_neg h]
    simp only
    set e := Nat.log 2 n + 1 - p with he
    by_cases hc : 2 * (n % 2 ^ e) < 2 ^ e ∨ (2 * (n % 2 ^ e) = 2 ^ e ∧ n / 2 ^ e % 2 = 0)
    · rw [if_pos hc]; exact ⟨_, e, hq.2, rfl⟩
    · rw [if_neg hc]
      by_cases hl : n / 2 ^ e + 1 < 2 ^ p
      · exact ⟨_, e, hl, rfl⟩
      · have : n / 2 ^ e + 1 = 2 ^ p := by omega
        rw [this]
        refine ⟨1, p + e, Nat.one_lt_two_pow (by omega), ?_⟩
        rw [Nat.pow_add]; omega

/-- A number that can be represented lies on the grid of the larger numbers. -/
theorem rep_grid {p m k e : Nat} (hm : m < 2 ^ p) (hk : 2 ^ (p - 1) * 2 ^ e ≤ m * 2 ^ k) (hp : 0 < p) : 2 ^ e ∣ m * 2 ^ k := by
  have hek : e ≤ k := by
    by_contra hlt
    have h1 : m * 2 ^ k < 2 ^ p * 2 ^ k := Nat.mul_lt_mul_of_pos_right hm (Nat.pow_pos (by decide))
    have h2 : 2 ^ p * 2 ^ k ≤ 2 ^ (p - 1) * 2 ^ e := by
      rw [← Nat.pow_add, ← Nat.pow_add]; exact Nat.pow_le_pow_right (by decide) (by omega)
    omega
  exact Dvd.dvd.mul_left (pow_dvd_pow 2 hek) m

/-- **C106, rounding.** No number that can be represented is nearer than the one taken. -/
theorem roundTo_nearest {p : Nat} (hp : 0 < p) (n m : Nat) (hm : Representable p m) :
    |(roundTo p n : ℤ) - n| ≤ |(m : ℤ) - n| := by
  by_cases h : n < 2 ^ p
  · rw [roundTo_small h]; simp
  obtain ⟨a, k, ha, rfl⟩ := hm
  have hq := quot_bounds hp h
  unfold roundTo
  rw [if_neg h]
  simp only
  set e := Nat.log 2 n + 1 - p with he
  set E := 2 ^ e with hE
  have hEp : 0 < E := Nat.pow_pos (by decide)
  have hdm := Nat.div_add_mod n E
  have hml := Nat.mod_lt n hEp
  generalize hr : n % E = r at *
  generalize hqq : n / E = q at *
  have hn : n = q * E + r := by rw [Nat.mul_comm]; exact hdm.symm
  -- nothing on the grid lies strictly between the two neighbours
  have key : a * 2 ^ k ≤ q * E ∨ (q + 1) * E ≤ a * 2 ^ k := by
    by_contra hcon
    rw [not_or, not_le, not_le] at hcon
    have hge : 2 ^ (p - 1) * E ≤ a * 2 ^ k := le_trans (Nat.mul_le_mul_right E hq.1) hcon.1.le
    obtain ⟨c, hc⟩ := rep_grid ha hge hp
    rw [hc, ← hE, Nat.mul_comm E c] at hcon
    have h1 := Nat.lt_of_mul_lt_mul_right hcon.1
    have h2 := Nat.lt_of_mul_lt_mul_right hcon.2
    omega
  have hadd : (q + 1) * E = q * E + E := by ring
  generalize a * 2 ^ k = z at *
  rw [hadd] at key ⊢
  generalize q * E = w at *
  subst hn
  split_ifs with hc
  · rcases key with hk | hk
    · rw [abs_of_nonpos (by push_cast; omega), abs_of_nonpos (by push_cast; omega)]; push_cast; omega
    · rw [abs_of_nonpos (by push_cast; omega), abs_of_nonneg (by push_cast; omega)]; push_cast; omega
  · rcases key with hk | hk
    · rw [abs_of_nonneg (by push_cast; omega), abs_of_nonpos (by push_cast; omega)]; push_cast; omega
    · rw [abs_of_nonneg (by push_cast; omega), abs_of_nonneg (by push_cast; omega)]; push_cast; omega

/-- **C106, rounding.** A size survives the conversion exactly if the float can represent it. -/
theorem roundTo_exact {p : Nat} (hp : 0 < p) (n : Nat) : roundTo p n = n ↔ Representable p n := by
  constructor
  · intro h; rw [← h]; exact roundTo_representable hp n
  · intro h
    have := roundTo_nearest hp n n h
    simp only [sub_self, abs_zero] at this
    have h0 := abs_eq_zero.mp (le_antisymm this (abs_nonneg _))
    omega

/-- All numbers up to `2 ^ p` can be represented, the next cannot. -/
theorem representable_small {p n : Nat} (h : n ≤ 2 ^ p) (hp : 0 < p) : Representable p n := by
  rcases Nat.lt_or_eq_of_le h with h | h
  · exact ⟨n, 0, h, by simp⟩
  · exact ⟨1, p, Nat.one_lt_two_pow (by omega), by omega⟩

theorem not_representable_next {p : Nat} (hp : 0 < p) : ¬ Representable p (2 ^ p + 1) := by
  rintro ⟨m, e, hm, h⟩
  cases e with
  | zero => simp at h; omega
  | succ e =>
    have h2 : (2 ^ p + 1) % 2 = 0 := by rw [h, Nat.pow_succ]; simp [← Nat.mul_assoc]
    obtain ⟨q, rfl⟩ : ∃ q, p = q + 1 := ⟨p - 1, by omega⟩
    rw [Nat.pow_succ] at h2; omega

/-! ### Sizes -/

/-- The element types that can hold the size of an axis. -/
def Holds (dt : Dt) (n : Nat) : Prop :=
  (dt = .float64 ∧ Representable 53 n) ∨ (dt = .float32 ∧ Representable 24 n) ∨ dt = .int

theorem truncQ_nat (n : Nat) : truncQ (n : ℚ) = n := by
  unfold truncQ
  rw [if_pos (by exact_mod_cast Nat.zero_le n)]
  exact Int.floor_natCast n

theorem sizeDo_tn (dt : Dt) (t : T ℚ) (axis : Nat) :
    sizeDo axis (.tn dt t) = if t.shape.length ≤ axis then .err else sizeCast dt (t.shape.getD axis 0) := rfl

/-- **C106 (sizes).** The size of an axis read off a tensor and turned back into a number is the size of the axis exactly if the
element type of the tensor is `int`, or a float that can represent the size. For all other element types reading fails. -/
theorem size_exact (dt : Dt) (t : T ℚ) (axis : Nat) (h : axis < t.shape.length) :
    ((sizeDo axis (.tn dt t)).bind valueToInt = .ok (t.shape.getD axis 0 : Nat) ↔ Holds dt (t.shape.getD axis 0)) ∧
      (dt ≠ .float64 → dt ≠ .float32 → dt ≠ .int → sizeDo axis (.tn dt t) = .err) := by
  have hna : ¬ t.shape.length ≤ axis := by omega
  rw [sizeDo_tn, if_neg hna]
  generalize t.shape.getD axis 0 = n
  unfold Holds
  cases dt <;> simp [sizeCast, Res.bind, valueToInt, truncQ_nat, ← roundTo_exact]

/-- The error is met whatever the graph: an axis that the tensor lacks. -/
theorem size_axis (dt : Dt) (t : T ℚ) (axis : Nat) (h : t.shape.length ≤ axis) : sizeDo axis (.tn dt t) = .err := by
  rw [sizeDo_tn, if_pos h]

/-- **C106, refuted (sizes).** Axes of `2 ^ 24 + 1` elements of `float32` are taken to have one element less. -/
theorem size_float32_wrong (t : T ℚ) (axis : Nat) (h : t.shape[axis]? = some (2 ^ 24 + 1)) :
    (sizeDo axis (.tn .float32 t)).bind valueToInt = .ok (2 ^ 24) := by
  have hl : axis < t.shape.length := by
    by_contra hc; rw [List.getElem?_eq_none (by omega)] at h; cases h
  have hg : t.shape.getD axis 0 = 2 ^ 24 + 1 := by rw [List.getD_eq_getElem?_getD, h]; rfl
  rw [sizeDo_tn, if_neg (by omega), hg]
  have hr : roundTo 24 (2 ^ 24 + 1) = 2 ^ 24 := by
    have hlog : Nat.log 2 (2 ^ 24 + 1) = 24 := (Nat.log_eq_iff (Or.inl (by decide))).2 ⟨by decide, by decide⟩
    unfold roundTo
    rw [if_neg (by decide), hlog]
    decide
  show Res.ok (truncQ ((roundTo 24 (2 ^ 24 + 1) : Nat) : ℚ)) = _
  rw [hr, truncQ_nat]; rfl

/-- **C106 (sizes of scalars).** The size of a scalar is one, of its own type; but the size of a bool is an `int`, although the
type `a → a` of the operation (op_tensor.go 79-89) makes the node a bool. -/
theorem size_scalar (dt : Dt) (x : ℚ) (axis : Nat) :
    (dt ≠ .bool → sizeDo axis (.sc dt x) = .ok (.sc dt 1)) ∧ (dt = .bool → sizeDo axis (.sc dt x) = .ok (.sc .int 1)) := by
  constructor
  · intro h; simp [sizeDo, h]
  · intro h; simp [sizeDo, h]

/-! ### Repetition -/

/-- Every element of `t` stands `rep` times in a row along the axis. -/
def IsRepeat (t r : T ℚ) (a rep : Nat) : Prop :=
  r.shape = t.shape.set a (t.shape.getD a 0 * rep) ∧
    ∀ i k, InB t.shape i → k < rep → r.at_ (i.set a (i.getD a 0 * rep + k)) = t.at_ i

theorem set_self_getD {i : List Nat} {a : Nat} : i.set a (i.getD a 0) = i := set_getD_self i a

theorem libRepeat_spec (t : T ℚ) (a rep : Nat) (ha : a < t.shape.length) (hr : rep ≠ 1) :
    libRepeat t a rep = .ok ⟨t.shape.set a (t.shape.getD a 0 * rep), fun i => t.at_ (i.set a (i.getD a 0 / rep))⟩ := by
  have h := (repeat_shape t.shape a rep ha)
  have h2 : libRepeatShape t.shape a rep = .ok (t.shape.set a (t.shape.getD a 0 * rep)) := by
    have := h.2; rw [h.1] at this; unfold repeatDoShape at this; rw [if_neg hr] at this; exact this
  unfold libRepeat; rw [h2]; rfl

theorem isRepeat_lib (t : T ℚ) (a rep : Nat) :
    IsRepeat t ⟨t.shape.set a (t.shape.getD a 0 * rep), fun i => t.at_ (i.set a (i.getD a 0 / rep))⟩ a rep := by
  refine ⟨rfl, fun i k hi hk => ?_⟩
  show t.at_ ((i.set a (i.getD a 0 * rep + k)).set a ((i.set a (i.getD a 0 * rep + k)).getD a 0 / rep)) = t.at_ i
  congr 1
  by_cases ha : a < i.length
  · have hg : (i.set a (i.getD a 0 * rep + k)).getD a 0 = i.getD a 0 * rep + k := by
      rw [List.getD_eq_getElem?_getD, List.getElem?_set_self ha]; rfl
    rw [hg, List.set_set, Nat.mul_comm, Nat.mul_add_div (by omega), Nat.div_eq_of_lt hk, Nat.add_zero, set_self_getD]
  · rw [List.set_eq_of_length_le (by rw [List.length_set]; omega), List.set_eq_of_length_le (by omega)]

theorem valueToInt_ok {dt : Dt} {x : ℚ} (h : dt ≠ .bool) : valueToInt (.sc dt x) = .ok (truncQ x) := by
  cases dt <;> first | rfl | exact absurd rfl h

/-- **C106 (without memory).** `Do` repeats along every axis that exists. -/
theorem repeatDo_spec (dt : Dt) (t : T ℚ) (a rep : Nat) (n : RV) (hn : valueToInt n = .ok rep) (ha : a < t.shape.length) :
    ∃ r, repeatDo a (.tn dt t) n = .ok (.tn dt r) ∧ IsRepeat t r a rep := by
  unfold repeatDo
  rw [hn]
  simp only [Res.bind]
  by_cases h1 : rep = 1
  · subst h1
    refine ⟨t, by simp, ?_, fun i k _ hk => ?_⟩
    · rw [Nat.mul_one, set_getD_self]
    · obtain rfl : k = 0 := by omega
      rw [Nat.mul_one, Nat.add_zero, set_self_getD]
  · rw [if_neg (by exact_mod_cast h1), if_neg (by omega), Int.toNat_natCast, libRepeat_spec t a rep ha h1]
    exact ⟨_, rfl, isRepeat_lib t a rep⟩

theorem shapeEq_self (s : List Nat) : shapeEq s s = true := shapeEq_refl s

theorem isRepeat_one {t : T ℚ} (h : isScalarEquiv t.shape = true) (a rep : Nat) (ha : a < t.shape.length) :
    IsRepeat t ⟨t.shape.set a (t.shape.getD a 0 * rep), fun _ => t.flat 0⟩ a rep := by
  refine ⟨rfl, fun i k hi _ => ?_⟩
  have hall : ∀ d ∈ t.shape, d = 1 := by
    intro d hd
    have := List.all_eq_true.mp h d hd
    simpa using this
  have hsz : ∀ s : List Nat, (∀ d ∈ s, d = 1) → size s = 1 := by
    intro s
    induction s with
    | nil => intro _; rfl
    | cons d s ih => intro hs; simp [size, hs d (by simp), ih (fun d hd => hs d (by simp [hd]))]
  have hlt := ravel_lt hi
  rw [hsz _ hall] at hlt
  have := flat_ravel t hi
  rw [show ravel t.shape i = 0 by omega] at this
  exact this

/-- The elements of the memory given, at all places. -/
theorem sameReshapeQ (t : T ℚ) : (t.reshape t.shape).Same t := by
  refine ⟨rfl, fun i hi => ?_⟩
  rw [reshape_at]
  exact flat_ravel t hi

theorem inB_setPair {s i : List Nat} {a d x : Nat} (h : InB s i) (hx : x < d) : InB (s.set a d) (i.set a x) := by
  induction s generalizing i a with
  | nil => cases i with
    | nil => simpa using h
    | cons j i => simp [InB] at h
  | cons e s ih => cases i with
    | nil => simp [InB] at h
    | cons j i =>
      simp only [InB] at h
      cases a with
      | zero => simp only [List.set_cons_zero, InB]; exact ⟨hx, h.2⟩
      | succ a => simp only [List.set_cons_succ, InB]; exact ⟨h.1, ih h.2⟩

theorem inB_getLt {s i : List Nat} (h : InB s i) (a : Nat) (ha : a < s.length) : i.getD a 0 < s.getD a 0 := by
  induction s generalizing i a with
  | nil => simp at ha
  | cons e s ih => cases i with
    | nil => simp [InB] at h
    | cons j i =>
      simp only [InB] at h
      cases a with
      | zero => exact h.1
      | succ a => exact ih h.2 a (by simpa using ha)

theorem isRepeat_same {t r r' : T ℚ} {a rep : Nat} (h : IsRepeat t r a rep) (ha : a < t.shape.length) (hs : r'.Same r) :
    IsRepeat t r' a rep := by
  refine ⟨hs.1.trans h.1, fun i k hi hk => ?_⟩
  rw [hs.2 _ ?_, h.2 i k hi hk]
  rw [hs.1, h.1]
  apply inB_setPair hi
  have := inB_getLt hi a ha
  have h2 : (i.getD a 0 + 1) * rep ≤ t.shape.getD a 0 * rep := Nat.mul_le_mul_right rep this
  rw [Nat.add_mul] at h2; omega

/-- **C106 (with memory).** With memory of the inferred shape, floats are repeated along every axis that exists, whatever the
memory held before; so are tensors of the other element types that have more than one element. -/
theorem repeatPre_spec (dt : Dt) (t pt : T ℚ) (a rep : Nat) (n : RV) (hn : valueToInt n = .ok rep) (ha : a < t.shape.length)
    (hp : repeatShape t.shape a rep = .ok pt.shape)
    (hdt : dt = .float64 ∨ dt = .float32 ∨ isScalarEquiv t.shape = false) :
    ∃ r, repeatPre a (.tn dt pt) (.tn dt t) n = .ok (.tn dt r) ∧ IsRepeat t r a rep := by
  have hshape : pt.shape = t.shape.set a (t.shape.getD a 0 * rep) := by
    have := (repeat_shape t.shape a rep ha).1; rw [hp] at this; injection this
  unfold repeatPre
  simp only [hn, Res.bind]
  by_cases hs : isScalarEquiv t.shape = true
  · rw [if_pos hs]
    have hne : pt.shape ≠ [] := by
      rw [hshape]; intro e
      have := congrArg List.length e
      rw [List.length_set] at this; simp at this; rw [this] at ha; simp at ha
    have hone := isRepeat_one hs a rep ha
    have hfill : fillAll pt (t.flat 0) = ⟨t.shape.set a (t.shape.getD a 0 * rep), fun _ => t.flat 0⟩ := by
      unfold fillAll; rw [hshape]
    rcases hdt with h | h | h
    · refine ⟨_, ?_, hone⟩
      rw [← hfill, h]; unfold repeatOne; rw [if_neg hne]
    · refine ⟨_, ?_, hone⟩
      rw [← hfill, h]; unfold repeatOne; rw [if_neg hne]
    · rw [h] at hs; cases hs
  · rw [if_neg hs]
    by_cases h1 : rep = 1
    · subst h1
      have hsh : pt.shape = t.shape := by rw [hshape, Nat.mul_one, set_getD_self]
      rw [if_pos (by rfl), if_pos (by rw [hsh])]
      refine ⟨_, rfl, ?_⟩
      rw [hsh]
      refine isRepeat_same (r := t) ⟨?_, fun i k _ hk => ?_⟩ ha (sameReshapeQ t)
      · rw [Nat.mul_one, set_getD_self]
      · obtain rfl : k = 0 := by omega
        rw [Nat.mul_one, Nat.add_zero, set_self_getD]
    · rw [if_neg (by exact_mod_cast h1), if_neg (by omega), Int.toNat_natCast]
      unfold libRepeatReuse
      rw [libRepeat_spec t a rep ha h1]
      simp only [Res.bind]
      rw [if_pos (by rw [hshape]; exact shapeEq_self _)]
      refine ⟨_, rfl, ?_⟩
      rw [hshape]
      exact isRepeat_same (isRepeat_lib t a rep) ha (sameReshapeQ ⟨t.shape.set a (t.shape.getD a 0 * rep), fun i => t.at_ (i.set a (i.getD a 0 / rep))⟩)

/-- **C106, refuted (with memory).** A tensor of one element that is not a float is not repeated: the memory keeps what it held
before, for all contents, counts and axes. -/
theorem repeatPre_stale (dt : Dt) (t pt : T ℚ) (a : Nat) (rep : Int) (n : RV) (hn : valueToInt n = .ok rep)
    (h1 : isScalarEquiv t.shape = true) (hdt : dt ≠ .float64 ∧ dt ≠ .float32) :
    repeatPre a (.tn dt pt) (.tn dt t) n = .ok (.tn dt pt) := by
  unfold repeatPre
  simp only [hn, Res.bind]
  rw [if_pos h1]
  cases dt <;> first | rfl | exact absurd rfl hdt.1 | exact absurd rfl hdt.2

/-- **C106 (scalars).** A scalar fills the memory given, whatever the count. -/
theorem repeatPre_scalar (dt : Dt) (v : ℚ) (pt : T ℚ) (a : Nat) (rep : Int) (n : RV) (hn : valueToInt n = .ok rep) :
    ∃ r, repeatPre a (.tn dt pt) (.sc dt v) n = .ok (.tn dt r) ∧ r.shape = pt.shape ∧ ∀ i, r.at_ i = v := by
  unfold repeatPre
  simp only [hn, Res.bind]
  exact ⟨_, rfl, rfl, fun _ => rfl⟩

/-- **C106 (counts).** A count must be a number: tensors and bools are refused by both ways. -/
theorem repeat_count (a : Nat) (dt : Dt) (pt : T ℚ) (x n : RV) (h : (∃ d t, n = .tn d t) ∨ ∃ b, n = .sc .bool b) :
    repeatDo a x n = .err ∧ repeatPre a (.tn dt pt) x n = .err := by
  have : valueToInt n = .err := by
    rcases h with ⟨d, t, rfl⟩ | ⟨b, rfl⟩ <;> rfl
  constructor
  · unfold repeatDo; rw [this]; rfl
  · unfold repeatPre; simp only [this]; rfl

/-! ### Broadcasting as it is run -/

/-- Repeated one axis after the other. -/
def IsRepeats (t r : T ℚ) (f : Nat → Nat) : List Nat → Prop
  | [] => r.Same t
  | a :: axes => ∃ m, IsRepeat t m a (f a) ∧ IsRepeats m r f axes

/-- **C106 (broadcasting).** If the sizes of `y` can be represented in the element type, the nodes that `Broadcast` and the
gradient of `Sum` make for floats deliver at run time the operand repeated along all axes as often as `y` has elements there,
whatever the memory for the results held. -/
theorem run_repeats (dt : Dt) (junk : List Nat → ℚ) (y : T ℚ) (axes : List Nat) (t : T ℚ)
    (hdt : dt = .float64 ∨ dt = .float32) (hy : ∀ a ∈ axes, a < y.shape.length ∧ Holds dt (y.shape.getD a 0))
    (ht : ∀ a ∈ axes, a < t.shape.length) :
    ∃ r, runRepeats dt junk (.tn dt y) (fun a => sizeOf a y.shape) axes t = .ok (.tn dt r) ∧
      IsRepeats t r (fun a => y.shape.getD a 0) axes := by
  induction axes generalizing t with
  | nil => exact ⟨t, rfl, rfl, fun _ _ => rfl⟩
  | cons a axes ih =>
    obtain ⟨hya, hh⟩ := hy a (by simp)
    have hta := ht a (by simp)
    have hsz := (size_exact dt y a hya).1.2 hh
    cases hs : sizeDo a (.tn dt y) with
    | err => rw [hs] at hsz; cases hsz
    | panic => rw [hs] at hsz; cases hsz
    | ok n =>
      rw [hs] at hsz
      have hn : valueToInt n = .ok ((y.shape.getD a 0 : Nat) : Int) := hsz
      have hrs := (repeat_shape t.shape a (y.shape.getD a 0) hta).1
      obtain ⟨m, hm, hrep⟩ := repeatPre_spec dt t ⟨_, junk⟩ a (y.shape.getD a 0) n hn hta hrs (by tauto)
      obtain ⟨r, hr, hrr⟩ := ih m (fun b hb => hy b (by simp [hb])) (by
        intro b hb; rw [hrep.1, List.length_set]; exact ht b (by simp [hb]))
      refine ⟨r, ?_, m, hrep, hrr⟩
      simp only [runRepeats, hs, Res.bind]
      show Res.bind (repeatShape t.shape a (y.shape.getD a 0)) _ = _
      rw [hrs]
      simp only [Res.bind, hm]
      exact hr

/-- **C106, refuted (broadcasting).** A tensor of one element of type `int` is not broadcast: along any axis of any `y` with the
axis, the result holds what the memory held before (zeros, if it is fresh). -/
theorem run_int_stale (junk : List Nat → ℚ) (y t : T ℚ) (a : Nat) (hy : a < y.shape.length) (ht : a < t.shape.length)
    (h1 : isScalarEquiv t.shape = true) :
    ∃ r, runRepeats .int junk (.tn .int y) (fun a => sizeOf a y.shape) [a] t = .ok (.tn .int r) ∧
      r.shape = t.shape.set a (t.shape.getD a 0 * y.shape.getD a 0) ∧ ∀ i, r.at_ i = junk i := by
  have hs : sizeDo a (.tn .int y) = .ok (.sc .int (y.shape.getD a 0 : Nat)) := by
    rw [sizeDo_tn, if_neg (by omega)]; rfl
  have hrs := (repeat_shape t.shape a (y.shape.getD a 0) ht).1
  refine ⟨⟨t.shape.set a (t.shape.getD a 0 * y.shape.getD a 0), junk⟩, ?_, rfl, fun _ => rfl⟩
  simp only [runRepeats, hs, Res.bind]
  show Res.bind (repeatShape t.shape a (y.shape.getD a 0)) _ = _
  rw [hrs]
  simp only [Res.bind]
  rw [repeatPre_stale .int t _ a (truncQ (y.shape.getD a 0 : Nat)) _ rfl h1 (by decide)]

/-- **C106, refuted (broadcasting).** For the remaining element types nothing can be broadcast: the graph is built, the run fails. -/
theorem run_unsupported (dt : Dt) (junk : List Nat → ℚ) (y t : T ℚ) (a : Nat) (axes : List Nat) (hy : a < y.shape.length)
    (hdt : dt ≠ .float64 ∧ dt ≠ .float32 ∧ dt ≠ .int) :
    runRepeats dt junk (.tn dt y) (fun a => sizeOf a y.shape) (a :: axes) t = .err := by
  have := (size_exact dt y a hy).2 hdt.1 hdt.2.1 hdt.2.2
  unfold runRepeats; rw [this]; rfl

/-! ### Element access -/

/-- **C106 (element access).** The value is the element at the place, of the element type of the tensor; places off the tensor
are refused, and so are scalars. -/
theorem at_spec (dt : Dt) (t : T ℚ) (c : List Nat) :
    (InB t.shape c → atDo c (.tn dt t) = .ok (.sc dt (t.at_ c))) ∧ (¬ InB t.shape c → atDo c (.tn dt t) = .err) := by
  have key : ∀ (s c : List Nat), InB s c ↔ (c.length = s.length ∧ ∀ k < c.length, c.getD k 0 < s.getD k 0) := by
    intro s
    induction s with
    | nil => intro c; cases c <;> simp [InB]
    | cons d s ih =>
      intro c
      cases c with
      | nil => simp [InB]
      | cons j c =>
        simp only [InB, ih c, List.length_cons]
        constructor
        · rintro ⟨h1, h2, h3⟩
          refine ⟨by omega, fun k hk => ?_⟩
          cases k with
          | zero => exact h1
          | succ k => exact h3 k (by omega)
        · rintro ⟨h2, h3⟩
          exact ⟨h3 0 (by omega), by omega, fun k hk => h3 (k + 1) (by omega)⟩
  constructor
  · intro h; simp only [atDo]; rw [if_pos ((key _ _).1 h)]
  · intro h; simp only [atDo]; rw [if_neg (fun h' => h ((key _ _).2 h'))]

/-! ### Examples -/

example : roundTo 24 16777217 = 16777216 ∧ roundTo 24 16777219 = 16777220 ∧ roundTo 24 16777218 = 16777218 := by
  have h : ∀ n, 2 ^ 24 ≤ n → n < 2 ^ 25 → Nat.log 2 n = 24 := fun n h1 h2 => (Nat.log_eq_iff (Or.inl (by decide))).2 ⟨h1, h2⟩
  refine ⟨?_, ?_, ?_⟩ <;> (unfold roundTo; rw [if_neg (by decide), h _ (by decide) (by decide)]; decide)

example : ¬ Representable 24 (2 ^ 24 + 1) := not_representable_next (by decide)

/-- The row `(5, 7)` as three rows, in memory that held 9. -/
example : ∃ r, runRepeats .float32 (fun _ => 9) (.tn .float32 ⟨[3, 2], fun _ => 0⟩) (fun a => sizeOf a [3, 2]) [0]
    ⟨[1, 2], fun i => if i.getD 1 0 = 0 then 5 else 7⟩ = .ok (.tn .float32 r) ∧ r.shape = [3, 2] ∧ r.at_ [2, 0] = 5 ∧ r.at_ [1, 1] = 7 := by
  obtain ⟨r, h1, m, h2, h3⟩ := run_repeats .float32 (fun _ => 9) ⟨[3, 2], fun _ => 0⟩ [0] ⟨[1, 2], fun i => if i.getD 1 0 = 0 then 5 else 7⟩
    (Or.inr rfl) (by simp [Holds]; exact representable_small (by decide) (by decide)) (by simp)
  have hs : r.shape = [3, 2] := h3.1.trans h2.1
  refine ⟨r, h1, hs, ?_, ?_⟩
  · rw [h3.2 _ (by rw [hs]; simp [InB])]
    exact h2.2 [0, 0] 2 (by simp [InB]) (by simp)
  · rw [h3.2 _ (by rw [hs]; simp [InB])]
    exact h2.2 [0, 1] 1 (by simp [InB]) (by simp)

/-- `(5)` of type `int` for three elements: `(0, 0, 0)` in fresh memory. -/
example : ∃ r, runRepeats .int (fun _ => 0) (.tn .int ⟨[3], fun _ => 1⟩) (fun a => sizeOf a [3]) [0] ⟨[1], fun _ => 5⟩ = .ok (.tn .int r) ∧
    r.shape = [3] ∧ r.at_ [1] = 0 := by
  obtain ⟨r, h1, h2, h3⟩ := run_int_stale (fun _ => 0) ⟨[3], fun _ => 1⟩ ⟨[1], fun _ => 5⟩ 0 (by simp) (by simp) rfl
  exact ⟨r, h1, h2, h3 _⟩

/-- `Do` gives `(5, 5, 5)` for the same operands. -/
example : ∃ r, repeatDo 0 (.tn .int ⟨[1], fun _ => 5⟩) (.sc .int 3) = .ok (.tn .int r) ∧ r.shape = [3] ∧ r.at_ [1] = 5 := by
  obtain ⟨r, h1, h2, h3⟩ := repeatDo_spec .int ⟨[1], fun _ => 5⟩ 0 3 (.sc .int 3) (by
    show Res.ok (truncQ 3) = _; rw [show (3 : ℚ) = ((3 : Nat) : ℚ) by norm_num, truncQ_nat]) (by simp)
  exact ⟨r, h1, h2, h3 [0] 1 (by simp [InB]) (by decide)⟩

example : atDo [1, 0] (.tn .int ⟨[2, 2], fun i => 10 * i.getD 0 0 + i.getD 1 0⟩) = .ok (.sc .int 10) := by
  rw [(at_spec .int _ [1, 0]).1 (by simp [InB])]; norm_num

end Verif.Shape
