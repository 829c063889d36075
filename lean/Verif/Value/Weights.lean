import Verif.Types.Model
import Mathlib.Analysis.SpecialFunctions.Integrals.Basic
import Mathlib.Tactic.Ring
import Mathlib.Tactic.FieldSimp
import Mathlib.Tactic.Positivity
import Mathlib.Tactic.Linarith
/-!
Weight initialisers (`weights.go`).

A random initialiser is modelled by the distributions its elements are drawn from, one per element; the generators of `leesper/go_rng` are assumed to draw from the
distribution their parameters say. Numbers are real.
-/
set_option autoImplicit false
noncomputable section
namespace Verif.Value
open Verif.Shape Verif.Types

/-- `rand.Gaussian(mean, stdev)`, `rand.Float64Range(lo, hi)`. -/
inductive Dist where
  | normal (mean sd : ℝ)
  | uniform (lo hi : ℝ)

/-- `n1`, `n2` and `fieldSize` (weights.go 348-362 and 398-412). -/
def glorotFans : List Nat → Res (Nat × Nat × Nat)
  | [] => .panic
  | [n] => .ok (1, n, 1)
  | a :: b :: f => .ok (a, b, f.prod)

/-- `stdev` (weights.go 365-367 and 415-417). -/
def glorotSd (gain : ℝ) (n : Nat × Nat × Nat) : ℝ := gain * √(2 / ((n.1 + n.2.1) * n.2.2 : Nat))

/-- `GlorotEtAlN64` (weights.go 347-375). -/
def glorotN64 (gain : ℝ) (s : List Nat) : Res (List Dist) :=
  (glorotFans s).bind fun n => .ok (List.replicate s.prod (.normal 0 (glorotSd gain n)))

/-- `GlorotEtAlU64` (weights.go 397-427). -/
def glorotU64 (gain : ℝ) (s : List Nat) : Res (List Dist) :=
  (glorotFans s).bind fun n => .ok (List.replicate s.prod (.uniform (0 - √3 * glorotSd gain n) (0 + √3 * glorotSd gain n)))

/-- `GlorotEtAlN32` (weights.go 380-387). -/
def glorotN32 (gain : ℝ) (s : List Nat) : Res (List Dist) := glorotN64 gain s

/-- `GlorotEtAlU32` (weights.go 437-444). It calls `GlorotEtAlN64`. -/
def glorotU32 (gain : ℝ) (s : List Nat) : Res (List Dist) := glorotN64 gain s

/-- `fanIn` (weights.go 456-468 and 491-503). -/
def heFan : List Nat → Res Nat
  | [] => .panic
  | [_] => .panic
  | [a, _] => .ok a
  | _ :: s => .ok s.prod

/-- `HeEtAlN64` (weights.go 455-479). -/
def heN64 (gain : ℝ) (s : List Nat) : Res (List Dist) :=
  (heFan s).bind fun n => .ok (List.replicate s.prod (.normal 0 (gain * √(1 / n))))

/-- `HeEtAlU64` (weights.go 490-517). -/
def heU64 (gain : ℝ) (s : List Nat) : Res (List Dist) :=
  (heFan s).bind fun n => .ok (List.replicate s.prod (.uniform (0 - √3 * (gain * √(1 / n))) (0 + √3 * (gain * √(1 / n)))))

/-- `GlorotN`, `GlorotU`, `HeN`, `HeU` (weights.go 209-264). -/
def initGlorotN (gain : ℝ) (dt : Dt) (s : List Nat) : Res (List Dist) :=
  match dt with
  | .float64 => glorotN64 gain s
  | .float32 => glorotN32 gain s
  | _ => .panic
def initGlorotU (gain : ℝ) (dt : Dt) (s : List Nat) : Res (List Dist) :=
  match dt with
  | .float64 => glorotU64 gain s
  | .float32 => glorotU32 gain s
  | _ => .panic
def initHeN (gain : ℝ) (dt : Dt) (s : List Nat) : Res (List Dist) :=
  match dt with
  | .float64 => heN64 gain s
  | _ => .panic
def initHeU (gain : ℝ) (dt : Dt) (s : List Nat) : Res (List Dist) :=
  match dt with
  | .float64 => heU64 gain s
  | _ => .panic

/-! ### Specification -/

/-- Expectation and variance. -/
def Dist.mean : Dist → ℝ
  | .normal m _ => m
  | .uniform lo hi => (∫ x in lo..hi, x) / (hi - lo)

def Dist.var : Dist → ℝ
  | .normal _ sd => sd ^ 2
  | .uniform lo hi => (∫ x in lo..hi, (x - (Dist.uniform lo hi).mean) ^ 2) / (hi - lo)

def Dist.IsUniform : Dist → Prop
  | .normal _ _ => False
  | .uniform _ _ => True

theorem uniform_mean (c : ℝ) : (Dist.uniform (0 - c) (0 + c)).mean = 0 := by
  simp only [Dist.mean, integral_id]; ring_nf

theorem uniform_var (c : ℝ) (hc : c ≠ 0) : (Dist.uniform (0 - c) (0 + c)).var = c ^ 2 / 3 := by
  have h : ∀ x : ℝ, (x - 0) ^ 2 = x ^ 2 := fun x => by ring
  simp only [Dist.var, uniform_mean, h, integral_pow]
  have h2 : (0 + c - (0 - c)) = 2 * c := by ring
  rw [h2]
  field_simp
  norm_num
  ring

theorem uniform_sd (σ : ℝ) (hσ : σ ≠ 0) : (Dist.uniform (0 - √3 * σ) (0 + √3 * σ)).mean = 0 ∧ (Dist.uniform (0 - √3 * σ) (0 + √3 * σ)).var = σ ^ 2 := by
  refine ⟨uniform_mean _, ?_⟩
  rw [uniform_var _ (by positivity), mul_pow, Real.sq_sqrt (by norm_num)]
  ring

/-- The numbers of inputs and outputs of a unit: for a matrix the two sizes, for a filter (outputs, inputs, height, width, ...) each times the size of the field; a
vector counts as a column. -/
def fanA (s : List Nat) : Nat := match s with
  | [] => 0
  | [_] => 1
  | a :: _ :: f => a * f.prod
def fanB (s : List Nat) : Nat := match s with
  | [] => 0
  | [n] => n
  | _ :: b :: f => b * f.prod

theorem glorotSd_sq (gain : ℝ) (n : Nat × Nat × Nat) : glorotSd gain n ^ 2 = gain ^ 2 * (2 / ((n.1 + n.2.1) * n.2.2 : Nat)) := by
  rw [glorotSd, mul_pow, Real.sq_sqrt (by positivity)]

theorem glorotSd_ne (gain : ℝ) (n : Nat × Nat × Nat) (hg : gain ≠ 0) (hn : (n.1 + n.2.1) * n.2.2 ≠ 0) : glorotSd gain n ≠ 0 := by
  have h : (0 : ℝ) < ((n.1 + n.2.1) * n.2.2 : Nat) := by exact_mod_cast Nat.pos_of_ne_zero hn
  exact mul_ne_zero hg (Real.sqrt_ne_zero'.mpr (by positivity))

theorem glorotFans_spec (s : List Nat) (hs : s ≠ []) : ∃ n : Nat × Nat × Nat, glorotFans s = .ok n ∧ (n.1 + n.2.1) * n.2.2 = fanA s + fanB s := by
  match s with
  | [] => exact absurd rfl hs
  | [n] => exact ⟨_, rfl, by simp [fanA, fanB]⟩
  | a :: b :: f => exact ⟨_, rfl, by simp only [fanA, fanB]; ring⟩

/-- `GlorotN` for both float types: as many elements as the shape has, drawn from a normal distribution of mean 0 and variance gain² · 2/(fan in + fan out). -/
theorem glorotN_spec (gain : ℝ) (dt : Dt) (hdt : dt = .float64 ∨ dt = .float32) (s : List Nat) (hs : s ≠ []) :
    ∃ l : List Dist, initGlorotN gain dt s = .ok l ∧ l.length = s.prod ∧ ∀ δ ∈ l, ¬ δ.IsUniform ∧ δ.mean = 0 ∧ δ.var = gain ^ 2 * (2 / (fanA s + fanB s)) := by
  obtain ⟨n, e1, e2⟩ := glorotFans_spec s hs
  have e3 : ((((n.1 + n.2.1) * n.2.2 : Nat)) : ℝ) = fanA s + fanB s := by rw [e2]; push_cast; rfl
  refine ⟨List.replicate s.prod (.normal 0 (glorotSd gain n)), ?_, by simp, ?_⟩
  · rcases hdt with rfl | rfl <;> simp [initGlorotN, glorotN32, glorotN64, e1, Res.bind]
  · intro δ hδ
    rw [List.eq_of_mem_replicate hδ]
    exact ⟨id, rfl, by rw [Dist.var, glorotSd_sq, e3]⟩

/-- `GlorotU` for float64: the same with a uniform distribution. -/
theorem glorotU_partial (gain : ℝ) (hg : gain ≠ 0) (s : List Nat) (hs : s ≠ []) (hp : fanA s + fanB s ≠ 0) :
    ∃ l : List Dist, initGlorotU gain .float64 s = .ok l ∧ l.length = s.prod ∧ ∀ δ ∈ l, δ.IsUniform ∧ δ.mean = 0 ∧ δ.var = gain ^ 2 * (2 / (fanA s + fanB s)) := by
  obtain ⟨n, e1, e2⟩ := glorotFans_spec s hs
  have e3 : ((((n.1 + n.2.1) * n.2.2 : Nat)) : ℝ) = fanA s + fanB s := by rw [e2]; push_cast; rfl
  refine ⟨List.replicate s.prod (.uniform (0 - √3 * glorotSd gain n) (0 + √3 * glorotSd gain n)), ?_, by simp, ?_⟩
  · simp [initGlorotU, glorotU64, e1, Res.bind]
  · intro δ hδ
    rw [List.eq_of_mem_replicate hδ]
    obtain ⟨u1, u2⟩ := uniform_sd (glorotSd gain n) (glorotSd_ne gain n hg (by rw [e2]; exact hp))
    exact ⟨trivial, u1, by rw [u2, glorotSd_sq, e3]⟩

/-- `GlorotU` for float32 draws from a normal distribution, whatever the gain and the shape. -/
theorem glorotU32_normal (gain : ℝ) (s : List Nat) : initGlorotU gain .float32 s = initGlorotN gain .float32 s ∧
    ∀ l : List Dist, initGlorotU gain .float32 s = .ok l → ∀ δ ∈ l, ¬ δ.IsUniform := by
  refine ⟨rfl, fun l e δ hδ => ?_⟩
  by_cases hs : s = []
  · subst hs; simp [initGlorotU, glorotU32, glorotN64, glorotFans, Res.bind] at e
  · obtain ⟨l', e1, _, e2⟩ := glorotN_spec gain .float32 (Or.inr rfl) s hs
    have e' : initGlorotN gain .float32 s = .ok l := e
    rw [e1] at e'; cases e'
    exact (e2 δ hδ).1

/-- `HeN` and `HeU`, for float64 and at least two axes: variance gain²/n, where n is the first size of a matrix and the product of all but the first size otherwise. -/
theorem he_partial (gain : ℝ) (hg : gain ≠ 0) (s : List Nat) (n : Nat) (hn : n ≠ 0) (e : heFan s = .ok n) :
    (∃ l : List Dist, initHeN gain .float64 s = .ok l ∧ l.length = s.prod ∧ ∀ δ ∈ l, ¬ δ.IsUniform ∧ δ.mean = 0 ∧ δ.var = gain ^ 2 / n) ∧
    (∃ l : List Dist, initHeU gain .float64 s = .ok l ∧ l.length = s.prod ∧ ∀ δ ∈ l, δ.IsUniform ∧ δ.mean = 0 ∧ δ.var = gain ^ 2 / n) := by
  have hn' : (0 : ℝ) < n := by exact_mod_cast Nat.pos_of_ne_zero hn
  have hsq : (gain * √(1 / n)) ^ 2 = gain ^ 2 / n := by
    rw [mul_pow, Real.sq_sqrt (by positivity)]; ring
  constructor
  · refine ⟨List.replicate s.prod (.normal 0 (gain * √(1 / n))), by simp [initHeN, heN64, e, Res.bind], by simp, ?_⟩
    intro δ hδ
    rw [List.eq_of_mem_replicate hδ]
    exact ⟨id, rfl, hsq⟩
  · refine ⟨List.replicate s.prod (.uniform (0 - √3 * (gain * √(1 / n))) (0 + √3 * (gain * √(1 / n)))), by simp [initHeU, heU64, e, Res.bind], by simp, ?_⟩
    intro δ hδ
    rw [List.eq_of_mem_replicate hδ]
    obtain ⟨u1, u2⟩ := uniform_sd (gain * √(1 / n)) (mul_ne_zero hg (Real.sqrt_ne_zero'.mpr (by positivity)))
    exact ⟨trivial, u1, by rw [u2, hsq]⟩

/-- The documented 2/n is reached only with a gain of ±√2. -/
theorem he_documented (gain : ℝ) (n : Nat) (hn : n ≠ 0) : gain ^ 2 / n = 2 / n ↔ gain ^ 2 = 2 := by
  have : (n : ℝ) ≠ 0 := by exact_mod_cast hn
  rw [div_left_inj' this]

/-- The two cases of the fan do not fit together: a matrix of a × b counts a inputs, the same weights as a × b × 1 × 1 filters count b. -/
theorem he_fan (a b : Nat) : heFan [a, b] = .ok a ∧ heFan [a, b, 1, 1] = .ok b := by
  simp [heFan]

/-- Neither exists for float32, nor for vectors: a panic. -/
theorem he_panics (gain : ℝ) (s : List Nat) (k : Nat) : initHeN gain .float32 s = .panic ∧ initHeU gain .float32 s = .panic ∧
    initHeN gain .float64 [k] = .panic ∧ initHeU gain .float64 [k] = .panic := ⟨rfl, rfl, rfl, rfl⟩

example : ∃ l : List Dist, initGlorotU 1 .float64 [2, 3, 5, 5] = .ok l ∧ l.length = 150 ∧ ∀ δ ∈ l, δ.IsUniform ∧ δ.mean = 0 ∧ δ.var = 2 / 125 := by
  obtain ⟨l, e1, e2, e3⟩ := glorotU_partial 1 one_ne_zero [2, 3, 5, 5] (by simp) (by decide)
  refine ⟨l, e1, e2, fun δ hδ => ?_⟩
  obtain ⟨a, b, c⟩ := e3 δ hδ
  refine ⟨a, b, ?_⟩
  rw [c]; norm_num [fanA, fanB]

example : ∃ l : List Dist, initGlorotU 1 .float32 [2, 3] = .ok l ∧ l.length = 6 ∧ ∀ δ ∈ l, ¬ δ.IsUniform := by
  obtain ⟨l, e1, e2, e3⟩ := glorotN_spec 1 .float32 (Or.inr rfl) [2, 3] (by simp)
  exact ⟨l, e1, e2, fun δ hδ => (e3 δ hδ).1⟩

/-! ### Ranges and constants -/

/-- What the user passes as start and increment. -/
inductive Num where
  | f64 (x : ℝ)
  | f32 (x : ℝ)
  | int (n : Int)

/-- The conversions of `RangedFromWithStep` (weights.go 60-120). -/
def Num.conv (dt : Dt) (x : Num) : Res ℝ :=
  match dt, x with
  | .float64, .f64 x => .ok x
  | .float64, .int n => .ok n
  | .float32, .f32 x => .ok x
  | .float32, .f64 x => .ok x
  | .float32, .int n => .ok n
  | .int, .int n => .ok n
  | _, _ => .panic

/-- The loops of `RangedFromWithStep` (weights.go 81-86, 112-117, 121-126). -/
def rangeLoop (incr : ℝ) : Nat → ℝ → List ℝ
  | 0, _ => []
  | k + 1, st => st :: rangeLoop incr k (st + incr)

/-- `RangedFromWithStep` (weights.go 56-133). -/
def rangedFromWithStep (start incr : Num) (dt : Dt) (s : List Nat) : Res (List ℝ) :=
  (start.conv dt).bind fun st => (incr.conv dt).bind fun i => .ok (rangeLoop i s.prod st)

/-- `ValuesOf` (weights.go 136-168): the type of the value must be exactly the element type. -/
def valuesOf (v : Num) (dt : Dt) (s : List Nat) : Res (List ℝ) :=
  match dt, v with
  | .float64, .f64 x => .ok (List.replicate s.prod x)
  | .float32, .f32 x => .ok (List.replicate s.prod x)
  | .int, .int n => .ok (List.replicate s.prod (n : ℝ))
  | _, _ => .panic

theorem rangeLoop_spec (incr : ℝ) (k : Nat) (st : ℝ) : (rangeLoop incr k st).length = k ∧ ∀ i < k, (rangeLoop incr k st)[i]? = some (st + i * incr) := by
  induction k generalizing st with
  | zero => exact ⟨rfl, fun i hi => absurd hi (Nat.not_lt_zero _)⟩
  | succ k ih =>
    obtain ⟨h1, h2⟩ := ih (st + incr)
    refine ⟨by simp [rangeLoop, h1], fun i hi => ?_⟩
    cases i with
    | zero => simp [rangeLoop]
    | succ i =>
      simp only [rangeLoop, List.getElem?_cons_succ, h2 i (by omega), Option.some.injEq]
      push_cast; ring

/-- `RangedFromWithStep`: element i is start + i · increment, as many as the shape has. -/
theorem ranged_spec (start incr : Num) (dt : Dt) (s : List Nat) (st i : ℝ) (h1 : start.conv dt = .ok st) (h2 : incr.conv dt = .ok i) :
    ∃ l : List ℝ, rangedFromWithStep start incr dt s = .ok l ∧ l.length = s.prod ∧ ∀ k < s.prod, l[k]? = some (st + k * i) := by
  obtain ⟨a, b⟩ := rangeLoop_spec i s.prod st
  exact ⟨_, by simp only [rangedFromWithStep, h1, h2, Res.bind], a, b⟩

/-- A float64 literal serves for a float32 node in `RangedFromWithStep`; in `ValuesOf` it panics. -/
theorem literal_conversion (x y : ℝ) (s : List Nat) :
    (∃ l : List ℝ, rangedFromWithStep (.f64 x) (.f64 y) .float32 s = .ok l) ∧ valuesOf (.f64 x) .float32 s = .panic := ⟨⟨_, rfl⟩, rfl⟩

example : rangedFromWithStep (.int 1) (.f64 (1 / 2)) .float64 [3] = .ok [1, 3 / 2, 2] := by
  simp only [rangedFromWithStep, Num.conv, Res.bind, List.prod_cons, List.prod_nil, mul_one, rangeLoop]
  norm_num

end Verif.Value
