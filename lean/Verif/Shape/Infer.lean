import Verif.LinAlg.Theorems
import Verif.Shape.Gather
/-!
Inferred against computed shapes (C41) for the linear algebra operations and `Repeat`.
-/
set_option autoImplicit false
namespace Verif.Shape
open Verif.Tensor Verif.LinAlg

/-! ### Model -/

/-- `transpose2D`, shape.go 14-22. -/
def transpose2D : List Nat → List Nat
  | [a, b] => [b, a]
  | s => s

/-- `linAlgBinOp.InferShape` for `matMulOperator`, op_math.go 561-575. -/
def inferMatMul (tA tB : Bool) (x y : List Nat) : Res (List Nat) :=
  let x := if tA then transpose2D x else x
  let y := if tB then transpose2D y else y
  match x[0]?, x[1]?, y[0]?, y[1]? with
  | some x0, some x1, some y0, some y1 => if x1 ≠ y0 then .err else .ok [x0, y1]
  | _, _, _, _ => .panic

/-- For `matVecMulOperator`, 576-590. -/
def inferMatVec (tA : Bool) (x y : List Nat) : Res (List Nat) :=
  let x := if tA then transpose2D x else x
  match x[0]?, x[1]?, y[0]? with
  | some x0, some x1, some y0 =>
    if x0 ≠ y0 ∧ x1 ≠ y0 then .err else if x0 = y0 then .ok [x1] else .ok [x0]
  | _, _, _ => .panic

/-- For `vecDotOperator`, 592-593. -/
def inferVecDot (_x _y : List Nat) : Res (List Nat) := .ok []

/-- For `outerProdOperator`, 594-596. -/
def inferOuter (x y : List Nat) : Res (List Nat) := .ok [size x, size y]

/-- For `batchedMatMulOperator`, 597-618. -/
def inferBatched (tA tB : Bool) (x y : List Nat) : Res (List Nat) :=
  if x.length < 2 ∨ y.length < 2 then .panic
  else
    let innerX := if tA then transpose2D (x.drop (x.length - 2)) else x.drop (x.length - 2)
    let innerY := if tB then transpose2D (y.drop (y.length - 2)) else y.drop (y.length - 2)
    let outerX := x.take (x.length - 2)
    let outerY := y.take (y.length - 2)
    if !shapeEq outerX outerY then .err else .ok (outerX ++ [innerX.getD 0 0, innerY.getD 1 0])

/-- The shape of `tensor.Repeat` (assumed, `Shape.Repeat` of the tensor library): a scalar becomes a vector or a row, a vector
can be repeated along axis 1, and any other axis must exist. -/
def libRepeatShape : List Nat → Nat → Nat → Res (List Nat)
  | [], 0, rep => .ok [rep]
  | [], 1, rep => .ok [1, rep]
  | [], _, _ => .panic
  | [n], 1, rep => .ok [n, rep]
  | s, a, rep => if a < s.length then .ok (s.set a (s.getD a 0 * rep)) else .err

/-- The shape of the value of `repeatOp.Do`, op_tensor.go 354-394: one repetition returns the operand. -/
def repeatDoShape (s : List Nat) (a rep : Nat) : Res (List Nat) := if rep = 1 then .ok s else libRepeatShape s a rep

/-! ### Linear algebra -/

theorem flip_shape (t : Bool) (a : M) : (if t then transpose2D [a.r, a.c] else [a.r, a.c]) = [(a.flip t).r, (a.flip t).c] := by
  cases t <;> rfl

/-- **C41, matrix products.** Inference succeeds exactly if the product can be computed, with its shape. -/
theorem matMul_shape (tA tB : Bool) (a b : M) (s : List Nat) :
    inferMatMul tA tB [a.r, a.c] [b.r, b.c] = .ok s ↔ ∃ z, matMul tA tB a b = some z ∧ s = [z.r, z.c] := by
  unfold inferMatMul
  rw [flip_shape, flip_shape]
  simp only [List.getElem?_cons_zero, List.getElem?_cons_succ]
  unfold matMul matMul0
  by_cases h : (a.flip tA).c = (b.flip tB).r
  · rw [if_neg (by simpa using h), if_pos h]
    constructor
    · intro hs; injection hs with hs; exact ⟨_, rfl, hs.symm⟩
    · rintro ⟨z, hz, hs⟩
      injection hz with hz
      rw [hs, ← hz]
  · rw [if_pos h, if_neg h]
    constructor
    · intro hs; exact absurd hs (by simp)
    · rintro ⟨z, hz, _⟩; exact absurd hz (by simp)

/-- **C41, matrix and vector.** If the product can be computed, its shape is the inferred one. Missing: inference that
accepts only such products (`matVec_accepted`). -/
theorem matVec_shape_partial (tA : Bool) (a : M) (y z : V) (h : matVec tA a y = some z) :
    inferMatVec tA [a.r, a.c] [y.n] = .ok [z.n] := by
  unfold matVec at h
  by_cases hc : (a.flip tA).c = y.n
  · simp only [if_pos hc] at h
    injection h with h
    unfold inferMatVec
    rw [flip_shape]
    simp only [List.getElem?_cons_zero, List.getElem?_cons_succ]
    rw [if_neg (by intro ⟨_, h2⟩; exact h2 hc), ← h]
    by_cases hr : (a.flip tA).r = y.n
    · rw [if_pos hr, hc, hr]
    · rw [if_neg hr]
  · simp only [if_neg hc] at h
    exact absurd h (by simp)

/-- **C41, refuted: matrix and vector.** Inference accepts a vector as long as the rows of the matrix, and gives it the number
of columns; running fails unless the matrix is square. -/
theorem matVec_accepted (tA : Bool) (a : M) (y : V) (h : (a.flip tA).r = y.n) :
    inferMatVec tA [a.r, a.c] [y.n] = .ok [(a.flip tA).c] ∧ (matVec tA a y = none ↔ (a.flip tA).r ≠ (a.flip tA).c) := by
  constructor
  · unfold inferMatVec
    rw [flip_shape]
    simp only [List.getElem?_cons_zero, List.getElem?_cons_succ]
    rw [if_neg (by intro ⟨h1, _⟩; exact h1 h), if_pos h]
  · unfold matVec
    by_cases hc : (a.flip tA).c = y.n
    · simp only [if_pos hc]
      simp [h, hc]
    · simp only [if_neg hc, true_iff]
      rw [h]; exact fun e => hc e.symm

/-- **C41, inner products.** The shape is right if it can be computed; inference accepts vectors of different lengths. -/
theorem vecDot_shape (x y : V) : inferVecDot [x.n] [y.n] = .ok [] ∧ (vecDot x y = none ↔ x.n ≠ y.n) := by
  refine ⟨rfl, ?_⟩
  unfold vecDot
  by_cases h : x.n = y.n
  · rw [if_pos h]; simp [h]
  · rw [if_neg h]; simp [h]

/-- **C41, outer products.** -/
theorem outer_shape (x y : V) : inferOuter [x.n] [y.n] = .ok [(outer x y).r, (outer x y).c] := by
  simp [inferOuter, size, outer]

theorem inferBatched_eq (outer : List Nat) (tA tB : Bool) (a b : M) :
    inferBatched tA tB (outer ++ [a.r, a.c]) (outer ++ [b.r, b.c]) = .ok (outer ++ [(a.flip tA).r, (b.flip tB).c]) := by
  unfold inferBatched
  have hd : ∀ u v : Nat, (outer ++ [u, v]).drop ((outer ++ [u, v]).length - 2) = [u, v] := by
    intro u v; simp
  have ht : ∀ u v : Nat, (outer ++ [u, v]).take ((outer ++ [u, v]).length - 2) = outer := by
    intro u v; simp
  rw [if_neg (by simp), hd, hd, ht, ht, flip_shape, flip_shape]
  simp only [shapeEq_refl]
  rfl

/-- **C41, batched products.** If all products can be computed, the inferred shape is that of the batch and of each result. -/
theorem batched_shape_partial (outer : List Nat) (h : ∀ d ∈ outer, 0 < d) (tA tB : Bool) (r c r' c' : Nat) (a b z : List Nat → M)
    (ha : ∀ p, (a p).r = r ∧ (a p).c = c) (hb : ∀ p, (b p).r = r' ∧ (b p).c = c') (n : Nat) (hn : size outer ≤ n)
    (hz : ∀ p, InB outer p → ∃ z, matMul tA tB (a p) (b p) = some z) :
    ∃ res m k, batchedMatMul outer tA tB false a b z n = some res ∧
      inferBatched tA tB (outer ++ [r, c]) (outer ++ [r', c']) = .ok (outer ++ [m, k]) ∧
      ∀ p, InB outer p → (res p).r = m ∧ (res p).c = k := by
  obtain ⟨res, h1, h2, _⟩ := batchedMatMul_spec outer h tA tB a b z n hn hz
  refine ⟨res, ((a []).flip tA).r, ((b []).flip tB).c, h1, ?_, fun p hp => ?_⟩
  · have := inferBatched_eq outer tA tB (a []) (b [])
    rw [(ha []).1, (ha []).2, (hb []).1, (hb []).2] at this
    exact this
  · have hm := h2 p hp
    unfold matMul matMul0 at hm
    by_cases hc : ((a p).flip tA).c = ((b p).flip tB).r
    · rw [if_pos hc] at hm
      injection hm with hm
      rw [← hm]
      constructor
      · show ((a p).flip tA).r = _
        cases tA
        · show (a p).r = (a []).r; rw [(ha p).1, (ha []).1]
        · show (a p).c = (a []).c; rw [(ha p).2, (ha []).2]
      · show ((b p).flip tB).c = _
        cases tB
        · show (b p).c = (b []).c; rw [(hb p).2, (hb []).2]
        · show (b p).r = (b []).r; rw [(hb p).1, (hb []).1]
    · rw [if_neg hc] at hm
      exact absurd hm (by simp)

/-- **C41, refuted: batched products.** The inner sizes are not compared when the graph is built: whatever they are, a shape
is inferred, and if they differ the run fails. -/
theorem batched_accepted (outer : List Nat) (h : ∀ d ∈ outer, 0 < d) (tA tB : Bool) (a b z : List Nat → M) (n : Nat)
    (hn : size outer ≤ n) (hne : ∀ p, ((a p).flip tA).c ≠ ((b p).flip tB).r) :
    (∃ s, inferBatched tA tB (outer ++ [(a []).r, (a []).c]) (outer ++ [(b []).r, (b []).c]) = .ok s) ∧
      batchedMatMul outer tA tB false a b z n = none := by
  refine ⟨⟨_, inferBatched_eq outer tA tB (a []) (b [])⟩, ?_⟩
  unfold batchedMatMul
  have hpos := size_pos_of outer h
  obtain ⟨m, rfl⟩ : ∃ m, n = m + 1 := ⟨n - 1, by omega⟩
  simp only [visits, batchLoop]
  unfold matMul matMul0
  rw [if_neg (hne _)]

/-! ### Repeat -/

/-- **C41, repeat.** Along an axis that exists, the inferred shape is the computed one, for every repetition count. -/
theorem repeat_shape (s : List Nat) (a rep : Nat) (ha : a < s.length) :
    repeatShape s a rep = .ok (s.set a (s.getD a 0 * rep)) ∧ repeatDoShape s a rep = repeatShape s a rep := by
  have h1 : repeatShape s a rep = .ok (s.set a (s.getD a 0 * rep)) := by
    obtain ⟨r, h1, h2, _⟩ := repeat_spec (⟨s, fun _ => ()⟩ : T Unit) a rep ha
    unfold repeat_ at h1
    cases hr : repeatShape s a rep with
    | ok s' =>
      rw [hr] at h1
      have : Res.ok (⟨s', fun i => ()⟩ : T Unit) = .ok r := h1
      injection this with this
      rw [← this] at h2
      exact congrArg _ h2
    | err => rw [hr] at h1; exact absurd h1 (by simp [Res.bind])
    | panic => rw [hr] at h1; exact absurd h1 (by simp [Res.bind])
  refine ⟨h1, ?_⟩
  rw [h1]
  unfold repeatDoShape
  by_cases hr : rep = 1
  · rw [if_pos hr, hr, Nat.mul_one, set_getD_self]
  · rw [if_neg hr]
    have : libRepeatShape s a rep = if a < s.length then .ok (s.set a (s.getD a 0 * rep)) else .err := by
      unfold libRepeatShape
      split
      all_goals first | rfl | simp at ha
    rw [this, if_pos ha]

/-- **C41, scalars and vectors repeated along a new axis.** The shapes agree, unless the count is 1. -/
theorem repeat_shape_new (n rep : Nat) (hn : n ≠ 0) :
    (repeatDoShape [] 0 rep = repeatShape [] 0 rep ↔ rep ≠ 1) ∧ (repeatDoShape [n] 1 rep = repeatShape [n] 1 rep ↔ rep ≠ 1) := by
  have e1 : repeatShape [] 0 rep = .ok [rep] := by simp [repeatShape, isVector]
  have e2 : repeatShape [n] 1 rep = .ok [n, rep] := by simp [repeatShape, isVector, hn]
  rw [e1, e2]
  unfold repeatDoShape
  by_cases h : rep = 1
  · simp [h]
  · simp [h, libRepeatShape]

/-- **C41, refuted: vectors along later axes.** Inference extends the vector by unit axes; running fails. -/
theorem repeat_later_axis (n a rep : Nat) (hn : n ≠ 0) (ha : 2 ≤ a) (hr : rep ≠ 1) :
    (∃ s, repeatShape [n] a rep = .ok s ∧ s.length = a + 1) ∧ repeatDoShape [n] a rep = .err := by
  constructor
  · have hlen : (([n] ++ List.replicate (a - 1 + 1) 0).map fun d => if d = 0 then 1 else d).length = a + 1 := by
      simp; omega
    have hg : a < (([n] ++ List.replicate (a - 1 + 1) 0).map fun d => if d = 0 then 1 else d).length := by omega
    refine ⟨(([n] ++ List.replicate (a - 1 + 1) 0).map fun d => if d = 0 then 1 else d).set a
        ((([n] ++ List.replicate (a - 1 + 1) 0).map fun d => if d = 0 then 1 else d)[a] * rep), ?_, ?_⟩
    · unfold repeatShape
      have c1 : (isVector [n] && decide ([n].length ≤ a)) = true := by simp [isVector]; omega
      simp only [c1, if_true]
      have c2 : (([n] ++ List.replicate (a - [n].length + 1) 0).map fun d => if d = 0 then 1 else d) ≠ [] := by simp
      rw [if_neg c2]
      have c3 : (([n] ++ List.replicate (a - [n].length + 1) 0).map fun d => if d = 0 then 1 else d)[a]? =
          some (([n] ++ List.replicate (a - 1 + 1) 0).map fun d => if d = 0 then 1 else d)[a] :=
        List.getElem?_eq_getElem hg
      rw [c3]
      rfl
    · rw [List.length_set, hlen]
  · unfold repeatDoShape
    rw [if_neg hr]
    obtain ⟨b, rfl⟩ : ∃ b, a = b + 2 := ⟨a - 2, by omega⟩
    simp [libRepeatShape]

/-- A matrix with three rows and two columns is accepted with a vector of three. -/
example (f : Nat → Nat → ℝ) (v : Nat → ℝ) : inferMatVec false [3, 2] [3] = .ok [2] ∧ matVec false ⟨3, 2, f⟩ ⟨3, v⟩ = none := by
  have := matVec_accepted false ⟨3, 2, f⟩ ⟨3, v⟩ rfl
  exact ⟨this.1, this.2.2 (by simp [M.flip])⟩

example : inferMatMul true false [3, 2] [3, 5] = .ok [2, 5] ∧ inferMatMul false false [3, 2] [3, 5] = .err := by decide
example : inferBatched false false [7, 3, 2] [7, 9, 5] = .ok [7, 3, 5] := by decide
/-- The batch axes are compared up to unit axes of matrices: batches of different rank are accepted. -/
example : inferBatched false false [3, 1, 2, 2] [3, 2, 2] = .ok [3, 1, 2, 2] := by decide
example : repeatShape [] 0 1 = .ok [1] ∧ repeatDoShape [] 0 1 = .ok [] := by decide
example : repeatShape [4] 2 3 = .ok [4, 1, 3] ∧ repeatDoShape [4] 2 3 = .err := by decide
example : repeatShape [4, 5] 1 3 = .ok [4, 15] ∧ repeatDoShape [4, 5] 1 3 = .ok [4, 15] := by decide

end Verif.Shape
