import Verif.Shape.Gather
/-!
Model of `/repo/op_upsample.go` (`Upsample2D`, `upsampleOp`, `upsampleDiffOp`) and of `globalAveragePoolOp` of
`/repo/op_nn.go`: loops over a four-dimensional tensor that read with `At` and write with `SetAt`.

Simplifications: elements are real numbers, sizes are unbounded naturals; both element types run the same loop.
-/
set_option autoImplicit false
namespace Verif.NN
open Verif.Tensor Verif.Shape

/-- `for i := 0; i < n; i++ { s, err = f(i, s); if err != nil { return err } }`. -/
def forR {σ : Type} : Nat → (Nat → σ → Res σ) → σ → Res σ
  | 0, _, s => .ok s
  | n + 1, f, s => (forR n f s).bind (f n)

/-- `tensor.Dense.At` (assumed): the element, or an error when the coordinate is out of bounds. -/
def atR (t : T ℝ) (i : List Nat) : Res ℝ := if InB t.shape i then .ok (t.at_ i) else .err

/-- `tensor.Dense.SetAt` (assumed), with the error dropped: writes the element when the coordinate is in bounds. -/
def setAt (t : T ℝ) (i : List Nat) (v : ℝ) : T ℝ :=
  if InB t.shape i then ⟨t.shape, fun j => if j = i then v else t.at_ j⟩ else t

/-- `tensor.Dense.SetAt` with the error returned. -/
def setAtR (t : T ℝ) (i : List Nat) (v : ℝ) : Res (T ℝ) := if InB t.shape i then .ok (setAt t i v) else .err

/-- `tensor.New(tensor.Of(..), tensor.WithShape(s...))` (assumed): a tensor of zeros. -/
def newT (s : List Nat) : T ℝ := ⟨s, fun _ => 0⟩

/-- `upsampleOp.InferShape`, op_upsample.go 63-68: `s[2]`, `s[3]` are indexed without a check. -/
def upsampleShape (stride : Nat) (s : List Nat) : Res (List Nat) :=
  if s.length < 4 then .panic
  else .ok ((s.set 2 (s.getD 2 0 * (1 + stride))).set 3 (s.getD 3 0 * (1 + stride)))

/-- `upsampleOp.Do`, op_upsample.go 92-122. -/
def upsampleDo (stride : Nat) (x : T ℝ) : Res (T ℝ) :=
  match x.shape with
  | [b, c, h, w] =>
    forR b (fun bi => forR c (fun ci => forR h (fun hi => forR w (fun wi out =>
      (atR x [bi, ci, hi, wi]).bind fun val =>
        forR (stride + 1) (fun shi => forR (stride + 1) (fun swi out =>
          .ok (setAt out [bi, ci, hi * (stride + 1) + shi, wi * (stride + 1) + swi] val))) out))))
      (newT [b, c, h * (1 + stride), w * (1 + stride)])
  | _ => .err

/-- `Upsample2D`, op_upsample.go 35-43, with the type check of `ApplyOp` (`TensorType{Dims: 4}`) before the shape
inference. -/
def upsample2D (x : T ℝ) (scale : Int) : Res (T ℝ) :=
  if scale < 1 then .err
  else if x.shape.length ≠ 4 then .err
  else (upsampleShape (scale - 1).toNat x.shape).bind fun _ => upsampleDo (scale - 1).toNat x

/-- `upsampleDiffOp.Do`, op_upsample.go 183-226 (the second operand, the result of the operation, only gives the element
type). -/
def upsampleDiffDo (stride : Nat) (x g : T ℝ) : Res (T ℝ) :=
  match x.shape with
  | [b, c, h, w] =>
    forR b (fun bi => forR c (fun ci => forR h (fun hi => forR w (fun wi gradIn =>
      (forR (stride + 1) (fun sh => forR (stride + 1) (fun sw summ =>
        (atR g [bi, ci, hi * (stride + 1) + sh, wi * (stride + 1) + sw]).bind fun val => .ok (summ + val))) 0).bind fun summ =>
        .ok (setAt gradIn [bi, ci, hi, wi] summ)))))
      (newT [b, c, h, w])
  | _ => .err

/-- `globalAveragePoolOp.Do`, op_nn.go 1977-2033; a shape of fewer than four sizes is indexed out of range. -/
noncomputable def globalAveragePool (x : T ℝ) : Res (T ℝ) :=
  match x.shape with
  | b :: c :: h :: w :: _ =>
    forR b (fun bi => forR c (fun ci output =>
      (forR h (fun hi => forR w (fun wi sum => (atR x [bi, ci, hi, wi]).bind fun val => .ok (sum + val))) 0).bind fun sum =>
        setAtR output [bi, ci, 0, 0] (sum / ((h * w : Nat) : ℝ))))
      (newT [b, c, 1, 1])
  | _ => .panic

/-! ### Loops that write and loops that add -/

/-- The writes of a list, one after the other. -/
def applyW (l : List (List Nat × ℝ)) (t : T ℝ) : T ℝ := l.foldl (fun t w => setAt t w.1 w.2) t

theorem forR_writes (n : Nat) (f : Nat → T ℝ → Res (T ℝ)) (L : Nat → List (List Nat × ℝ)) (t : T ℝ) (s : List Nat)
    (hs : t.shape = s) (h : ∀ i < n, ∀ t : T ℝ, t.shape = s → f i t = .ok (applyW (L i) t)) :
    forR n f t = .ok (applyW ((List.range n).flatMap L) t) := by
  have sh : ∀ l (t : T ℝ), (applyW l t).shape = t.shape := by
    intro l
    induction l with
    | nil => intro t; rfl
    | cons w l ih =>
      intro t
      show (applyW l (setAt t w.1 w.2)).shape = _
      rw [ih]; unfold setAt; split <;> rfl
  induction n with
  | zero => rfl
  | succ n ih =>
    simp only [forR]
    rw [ih (fun i hi => h i (Nat.lt_succ_of_lt hi)), Res.bind, h n (Nat.lt_succ_self n) _ ((sh _ _).trans hs)]
    rw [List.range_succ, List.flatMap_append]
    simp [applyW, List.foldl_append]

theorem applyW_shape (l : List (List Nat × ℝ)) (t : T ℝ) : (applyW l t).shape = t.shape := by
  induction l generalizing t with
  | nil => rfl
  | cons w l ih =>
    show (applyW l (setAt t w.1 w.2)).shape = _
    rw [ih]; unfold setAt; split <;> rfl

/-- A position to which only `v` is written, and at least once, holds `v`. -/
theorem applyW_at (l : List (List Nat × ℝ)) (t : T ℝ) (p : List Nat) (v : ℝ) (hp : InB t.shape p)
    (h1 : ∀ w ∈ l, w.1 = p → w.2 = v) (h2 : (∃ w ∈ l, w.1 = p) ∨ t.at_ p = v) : (applyW l t).at_ p = v := by
  induction l generalizing t with
  | nil =>
    rcases h2 with ⟨w, hw, _⟩ | h
    · simp at hw
    · exact h
  | cons w l ih =>
    show (applyW l (setAt t w.1 w.2)).at_ p = v
    have e : (setAt t w.1 w.2).shape = t.shape := by unfold setAt; split <;> rfl
    refine ih _ (by rw [e]; exact hp) (fun w' hw' => h1 w' (List.mem_cons_of_mem _ hw')) ?_
    by_cases hw : w.1 = p
    · right
      have hv := h1 w List.mem_cons_self hw
      unfold setAt
      rw [if_pos (by rw [hw]; exact hp)]
      show (if p = w.1 then w.2 else t.at_ p) = v
      rw [if_pos hw.symm, hv]
    · rcases h2 with ⟨w', hw', hq⟩ | h
      · rcases List.mem_cons.1 hw' with rfl | hm
        · exact absurd hq hw
        · exact Or.inl ⟨w', hm, hq⟩
      · right
        unfold setAt
        split
        · show (if p = w.1 then w.2 else t.at_ p) = v
          rw [if_neg (fun e => hw e.symm), h]
        · exact h

theorem forR_sum (n : Nat) (f : Nat → ℝ → Res ℝ) (F : Nat → ℝ) (a : ℝ) (h : ∀ i < n, ∀ a, f i a = .ok (a + F i)) :
    forR n f a = .ok (a + ∑ i ∈ Finset.range n, F i) := by
  induction n with
  | zero => simp [forR]
  | succ n ih =>
    simp only [forR]
    rw [ih (fun i hi => h i (Nat.lt_succ_of_lt hi)), Res.bind, h n (Nat.lt_succ_self n), Finset.sum_range_succ, add_assoc]

theorem atR_ok (t : T ℝ) (i : List Nat) (h : InB t.shape i) : atR t i = .ok (t.at_ i) := by
  unfold atR; rw [if_pos h]

theorem inB4 {a b c d i j k l : Nat} : InB [a, b, c, d] [i, j, k, l] ↔ i < a ∧ j < b ∧ k < c ∧ l < d := by
  simp [InB]

theorem block_lt {d q k r : Nat} (hq : q < d) (hr : r < k) : q * k + r < d * k := by
  have : (q + 1) * k ≤ d * k := Nat.mul_le_mul_right k hq
  rw [Nat.succ_mul] at this
  omega

/-! ### Upsampling -/

/-- The result of the loops: every element is written to its block. -/
theorem upsampleDo_spec (stride : Nat) (x : T ℝ) (b c h w : Nat) (hx : x.shape = [b, c, h, w]) :
    ∃ y, upsampleDo stride x = .ok y ∧ y.shape = [b, c, h * (stride + 1), w * (stride + 1)] ∧
      ∀ bi ci i j, InB y.shape [bi, ci, i, j] → y.at_ [bi, ci, i, j] = x.at_ [bi, ci, i / (stride + 1), j / (stride + 1)] := by
  let s' := [b, c, h * (1 + stride), w * (1 + stride)]
  let L6 := fun bi ci hi wi shi swi : Nat =>
    [([bi, ci, hi * (stride + 1) + shi, wi * (stride + 1) + swi], x.at_ [bi, ci, hi, wi])]
  let L5 := fun bi ci hi wi shi : Nat => (List.range (stride + 1)).flatMap (L6 bi ci hi wi shi)
  let L4 := fun bi ci hi wi : Nat => (List.range (stride + 1)).flatMap (L5 bi ci hi wi)
  let L3 := fun bi ci hi : Nat => (List.range w).flatMap (L4 bi ci hi)
  let L2 := fun bi ci : Nat => (List.range h).flatMap (L3 bi ci)
  let L1 := fun bi : Nat => (List.range c).flatMap (L2 bi)
  have run : upsampleDo stride x = .ok (applyW ((List.range b).flatMap L1) (newT s')) := by
    unfold upsampleDo
    rw [hx]
    refine forR_writes b _ L1 _ s' rfl (fun bi hb t1 h1 => ?_)
    refine forR_writes c _ (L2 bi) _ s' h1 (fun ci hc t2 h2 => ?_)
    refine forR_writes h _ (L3 bi ci) _ s' h2 (fun hi hh t3 h3 => ?_)
    refine forR_writes w _ (L4 bi ci hi) _ s' h3 (fun wi hw t4 h4 => ?_)
    rw [atR_ok _ _ (by rw [hx, inB4]; exact ⟨hb, hc, hh, hw⟩), Res.bind]
    refine forR_writes (stride + 1) _ (L5 bi ci hi wi) _ s' h4 (fun shi _ t5 h5 => ?_)
    exact forR_writes (stride + 1) _ (L6 bi ci hi wi shi) _ s' h5 (fun swi _ t6 _ => rfl)
  have e1 : 1 + stride = stride + 1 := Nat.add_comm _ _
  refine ⟨_, run, ?_, ?_⟩
  · rw [applyW_shape]; show s' = _; simp only [s', e1]
  · intro bi ci i j hin
    rw [applyW_shape] at hin
    have hin' : InB s' [bi, ci, i, j] := hin
    simp only [s', inB4, e1] at hin'
    obtain ⟨hb, hc, hi, hj⟩ := hin'
    refine applyW_at _ _ _ _ hin ?_ (Or.inl ⟨([bi, ci, i, j], x.at_ [bi, ci, i / (stride + 1), j / (stride + 1)]), ?_, rfl⟩)
    · intro q hq hp
      simp only [L1, L2, L3, L4, L5, L6, List.mem_flatMap, List.mem_range, List.mem_singleton] at hq
      obtain ⟨a1, _, a2, _, a3, _, a4, _, a5, h5, a6, h6, rfl⟩ := hq
      simp only [List.cons.injEq, and_true] at hp
      obtain ⟨rfl, rfl, rfl, rfl⟩ := hp
      have d1 : (a3 * (stride + 1) + a5) / (stride + 1) = a3 := by
        rw [Nat.mul_comm, Nat.mul_add_div (Nat.succ_pos _), Nat.div_eq_of_lt h5]; rfl
      have d2 : (a4 * (stride + 1) + a6) / (stride + 1) = a4 := by
        rw [Nat.mul_comm, Nat.mul_add_div (Nat.succ_pos _), Nat.div_eq_of_lt h6]; rfl
      simp only [d1, d2]
    · simp only [L1, L2, L3, L4, L5, L6, List.mem_flatMap, List.mem_range, List.mem_singleton]
      refine ⟨bi, hb, ci, hc, i / (stride + 1), Nat.div_lt_of_lt_mul (by rw [Nat.mul_comm]; exact hi), j / (stride + 1),
        Nat.div_lt_of_lt_mul (by rw [Nat.mul_comm]; exact hj), i % (stride + 1), Nat.mod_lt _ (Nat.succ_pos _),
        j % (stride + 1), Nat.mod_lt _ (Nat.succ_pos _), ?_⟩
      rw [Nat.div_add_mod', Nat.div_add_mod']

/-- `Upsample2D` fails exactly for a scale below 1 or an operand that is not four-dimensional; otherwise the result has the
inferred shape, and every element is repeated in a `scale` × `scale` block. -/
theorem upsample2D_spec (x : T ℝ) (scale : Int) :
    ((scale < 1 ∨ x.shape.length ≠ 4) ∧ upsample2D x scale = .err) ∨
    ∃ b c h w s y, x.shape = [b, c, h, w] ∧ scale = ((s : Nat) : Int) ∧ 0 < s ∧ upsample2D x scale = .ok y ∧
      y.shape = [b, c, h * s, w * s] ∧ upsampleShape (s - 1) x.shape = .ok y.shape ∧
      ∀ bi ci i j, InB y.shape [bi, ci, i, j] → y.at_ [bi, ci, i, j] = x.at_ [bi, ci, i / s, j / s] := by
  by_cases c1 : scale < 1
  · exact Or.inl ⟨Or.inl c1, by unfold upsample2D; rw [if_pos c1]⟩
  by_cases c2 : x.shape.length ≠ 4
  · exact Or.inl ⟨Or.inr c2, by unfold upsample2D; rw [if_neg c1, if_pos c2]⟩
  right
  push Not at c2
  obtain ⟨b, c, h, w, hx⟩ : ∃ b c h w, x.shape = [b, c, h, w] := by
    match hs : x.shape, c2 with
    | [b, c, h, w], _ => exact ⟨b, c, h, w, rfl⟩
  obtain ⟨k, hk⟩ : ∃ k : Nat, scale = ((k + 1 : Nat) : Int) := ⟨(scale - 1).toNat, by omega⟩
  have hs : (scale - 1).toNat = k := by omega
  obtain ⟨y, y1, y2, y3⟩ := upsampleDo_spec k x b c h w hx
  have hinf : upsampleShape k x.shape = .ok y.shape := by
    rw [y2, hx]; simp [upsampleShape, Nat.add_comm 1 k]
  refine ⟨b, c, h, w, k + 1, y, hx, hk, Nat.succ_pos _, ?_, y2, ?_, y3⟩
  · unfold upsample2D
    rw [if_neg c1, if_neg (by rw [c2]; simp), hs, hinf, Res.bind, y1]
  · exact hinf

/-- A 1×1×1×2 operand at scale 2. -/
example : ∃ y, upsample2D ⟨[1, 1, 1, 2], fun i => i.getD 3 0⟩ 2 = .ok y ∧ y.shape = [1, 1, 2, 4] ∧
    y.at_ [0, 0, 1, 1] = 0 ∧ y.at_ [0, 0, 1, 2] = 1 := by
  rcases upsample2D_spec ⟨[1, 1, 1, 2], fun i => i.getD 3 0⟩ 2 with ⟨h, _⟩ | ⟨b, c, h, w, s, y, h1, h2, _, h4, h5, _, h7⟩
  · simp at h
  · simp only [List.cons.injEq, and_true] at h1
    obtain ⟨rfl, rfl, rfl, rfl⟩ := h1
    obtain rfl : s = 2 := by omega
    refine ⟨y, h4, h5, ?_, ?_⟩
    · rw [h7 _ _ _ _ (by rw [h5, inB4]; omega)]; simp
    · rw [h7 _ _ _ _ (by rw [h5, inB4]; omega)]; simp

theorem sum_if_const {ι : Type} (s : Finset ι) (P : Prop) [Decidable P] (f : ι → ℝ) :
    (∑ i ∈ s, if P then f i else 0) = if P then ∑ i ∈ s, f i else 0 := by
  split <;> simp

theorem sum_div_single (d k q : Nat) (hk : 0 < k) (hq : q < d) (F : Nat → ℝ) :
    (∑ y ∈ Finset.range (d * k), if y / k = q then F y else 0) = ∑ r ∈ Finset.range k, F (q * k + r) := by
  rw [sum_range_mul, Finset.sum_eq_single q]
  · refine Finset.sum_congr rfl (fun r hr => ?_)
    rw [if_pos]
    rw [Nat.mul_comm, Nat.mul_add_div hk, Nat.div_eq_of_lt (Finset.mem_range.1 hr)]; rfl
  · intro b _ hb
    refine Finset.sum_eq_zero (fun r hr => if_neg ?_)
    rw [Nat.mul_comm, Nat.mul_add_div hk, Nat.div_eq_of_lt (Finset.mem_range.1 hr)]
    exact hb
  · intro h; exact absurd (Finset.mem_range.2 hq) h

/-- The result of the loops of the gradient: every element gets the sum over its block. -/
theorem upsampleDiffDo_spec (stride : Nat) (x g : T ℝ) (b c h w : Nat) (hx : x.shape = [b, c, h, w])
    (hg : g.shape = [b, c, h * (stride + 1), w * (stride + 1)]) :
    ∃ r, upsampleDiffDo stride x g = .ok r ∧ r.shape = [b, c, h, w] ∧ ∀ bi ci hi wi, InB r.shape [bi, ci, hi, wi] →
      r.at_ [bi, ci, hi, wi] = ∑ p ∈ Finset.range (stride + 1), ∑ q ∈ Finset.range (stride + 1),
        g.at_ [bi, ci, hi * (stride + 1) + p, wi * (stride + 1) + q] := by
  let S := fun bi ci hi wi : Nat => ∑ p ∈ Finset.range (stride + 1), ∑ q ∈ Finset.range (stride + 1),
        g.at_ [bi, ci, hi * (stride + 1) + p, wi * (stride + 1) + q]
  let L4 := fun bi ci hi wi : Nat => [([bi, ci, hi, wi], S bi ci hi wi)]
  let L3 := fun bi ci hi : Nat => (List.range w).flatMap (L4 bi ci hi)
  let L2 := fun bi ci : Nat => (List.range h).flatMap (L3 bi ci)
  let L1 := fun bi : Nat => (List.range c).flatMap (L2 bi)
  have run : upsampleDiffDo stride x g = .ok (applyW ((List.range b).flatMap L1) (newT [b, c, h, w])) := by
    unfold upsampleDiffDo
    rw [hx]
    refine forR_writes b _ L1 _ _ rfl (fun bi hb t1 h1 => ?_)
    refine forR_writes c _ (L2 bi) _ _ h1 (fun ci hc t2 h2 => ?_)
    refine forR_writes h _ (L3 bi ci) _ _ h2 (fun hi hh t3 h3 => ?_)
    refine forR_writes w _ (L4 bi ci hi) _ _ h3 (fun wi hw t4 h4 => ?_)
    rw [forR_sum (stride + 1) _ (fun p => ∑ q ∈ Finset.range (stride + 1),
        g.at_ [bi, ci, hi * (stride + 1) + p, wi * (stride + 1) + q]) 0]
    · simp only [Res.bind, zero_add]
      rfl
    · intro p hp a
      refine forR_sum (stride + 1) _ (fun q => g.at_ [bi, ci, hi * (stride + 1) + p, wi * (stride + 1) + q]) a ?_
      intro q hq a
      rw [atR_ok _ _ (by rw [hg, inB4]; exact ⟨hb, hc, block_lt hh hp, block_lt hw hq⟩), Res.bind]
  refine ⟨_, run, by rw [applyW_shape]; rfl, fun bi ci hi wi hin => ?_⟩
  rw [applyW_shape] at hin
  have hin' : InB [b, c, h, w] [bi, ci, hi, wi] := hin
  obtain ⟨hb, hc, hh, hw⟩ := inB4.1 hin'
  refine applyW_at _ _ _ _ hin ?_ (Or.inl ⟨([bi, ci, hi, wi], S bi ci hi wi), ?_, rfl⟩)
  · intro q hq hp
    simp only [L1, L2, L3, L4, List.mem_flatMap, List.mem_range, List.mem_singleton] at hq
    obtain ⟨a1, _, a2, _, a3, _, a4, _, rfl⟩ := hq
    simp only [List.cons.injEq, and_true] at hp
    obtain ⟨rfl, rfl, rfl, rfl⟩ := hp
    rfl
  · simp only [L1, L2, L3, L4, List.mem_flatMap, List.mem_range, List.mem_singleton]
    exact ⟨bi, hb, ci, hc, hi, hh, wi, hw, rfl⟩

/-- The gradient of `Upsample2D` is the gradient: for every operand that it accepts, every scale and every incoming gradient
of the shape of the result, `upsampleDiffOp.Do` computes the gradient. -/
theorem upsample_grad (x g : T ℝ) (b c h w s : Nat) (hx : x.shape = [b, c, h, w]) (hs : 0 < s)
    (hg : g.shape = [b, c, h * s, w * s]) :
    ∃ r, upsampleDiffDo (s - 1) x g = .ok r ∧ IsGrad (fun x => upsample2D x (s : Int)) x g r := by
  obtain ⟨k, rfl⟩ : ∃ k, s = k + 1 := ⟨s - 1, by omega⟩
  obtain ⟨r, r1, r2, r3⟩ := upsampleDiffDo_spec k x g b c h w hx hg
  refine ⟨r, r1, gather_grad _ x g r [b, c, h * (k + 1), w * (k + 1)]
    (fun i => [i.getD 0 0, i.getD 1 0, i.getD 2 0 / (k + 1), i.getD 3 0 / (k + 1)]) ?_ ?_ hg (r2.trans hx.symm) ?_⟩
  · intro i hi
    match i, hi with
    | [i0, i1, i2, i3], hi =>
      obtain ⟨h0, h1, h2, h3⟩ := inB4.1 hi
      rw [hx, inB4]
      exact ⟨h0, h1, Nat.div_lt_of_lt_mul (by rw [Nat.mul_comm]; exact h2), Nat.div_lt_of_lt_mul (by rw [Nat.mul_comm]; exact h3)⟩
  · intro z hz
    rcases upsample2D_spec z ((k + 1 : Nat) : Int) with ⟨h, _⟩ | ⟨b', c', h', w', s', y, h1, h2, _, h4, h5, _, h7⟩
    · rcases h with h | h
      · omega
      · rw [hz, hx] at h; simp at h
    · rw [hz, hx] at h1
      simp only [List.cons.injEq, and_true] at h1
      obtain ⟨rfl, rfl, rfl, rfl⟩ := h1
      obtain rfl : s' = k + 1 := by omega
      refine ⟨y, h4, h5, fun i hi => ?_⟩
      match i, hi with
      | [i0, i1, i2, i3], hi => exact h7 i0 i1 i2 i3 (by rw [h5]; exact hi)
  · intro j hj
    rw [hx] at hj
    match j, hj with
    | [j0, j1, j2, j3], hj =>
      rw [r3 j0 j1 j2 j3 (by rw [r2]; exact hj)]
      obtain ⟨h0, h1, h2, h3⟩ := inB4.1 hj
      have e : ∀ i, InB [b, c, h * (k + 1), w * (k + 1)] i →
          (if [i.getD 0 0, i.getD 1 0, i.getD 2 0 / (k + 1), i.getD 3 0 / (k + 1)] = [j0, j1, j2, j3] then g.at_ i else 0) =
          (if i.getD 0 0 = j0 then if i.getD 1 0 = j1 then if i.getD 2 0 / (k + 1) = j2 then
            if i.getD 3 0 / (k + 1) = j3 then g.at_ i else 0 else 0 else 0 else 0) := by
        intro i _
        simp only [List.cons.injEq, and_true]
        by_cases q0 : i.getD 0 0 = j0 <;> by_cases q1 : i.getD 1 0 = j1 <;> by_cases q2 : i.getD 2 0 / (k + 1) = j2 <;>
          by_cases q3 : i.getD 3 0 / (k + 1) = j3 <;> simp only [q0, q1, q2, q3, if_true, if_false, and_true, and_false, true_and, false_and]
      rw [sumOver_congr _ _ _ e]
      simp only [sumOver_cons]
      have e0 : ∀ F : List Nat → ℝ, sumOver [] F = F [] := fun F => by simp [sumOver, size, unravel]
      simp only [e0, List.getD_cons_zero, List.getD_cons_succ, sum_if_const]
      rw [Finset.sum_ite_eq' _ j0, if_pos (Finset.mem_range.2 h0), Finset.sum_ite_eq' _ j1, if_pos (Finset.mem_range.2 h1),
        sum_div_single h (k + 1) j2 (Nat.succ_pos _) h2]
      refine Finset.sum_congr rfl (fun p _ => ?_)
      rw [sum_div_single w (k + 1) j3 (Nat.succ_pos _) h3]

/-- The gradient of a 1×1×1×1 operand at scale 2 is the sum of the four elements of the incoming gradient. -/
example : ∃ r, upsampleDiffDo 1 ⟨[1, 1, 1, 1], fun _ => 7⟩ ⟨[1, 1, 2, 2], fun i => i.getD 3 0 + 1⟩ = .ok r ∧
    r.at_ [0, 0, 0, 0] = 6 := by
  obtain ⟨r, r1, r2, r3⟩ := upsampleDiffDo_spec 1 ⟨[1, 1, 1, 1], fun _ => 7⟩ ⟨[1, 1, 2, 2], fun i => i.getD 3 0 + 1⟩ 1 1 1 1 rfl rfl
  refine ⟨r, r1, ?_⟩
  rw [r3 0 0 0 0 (by rw [r2, inB4]; omega)]
  norm_num [Finset.sum_range_succ]

/-! ### Global average pooling -/

/-- The mean over the last two axes of any four-dimensional operand. -/
theorem globalAveragePool_spec (x : T ℝ) (b c h w : Nat) (hx : x.shape = [b, c, h, w]) :
    ∃ y, globalAveragePool x = .ok y ∧ y.shape = [b, c, 1, 1] ∧ ∀ bi ci, bi < b → ci < c →
      y.at_ [bi, ci, 0, 0] = (∑ i ∈ Finset.range h, ∑ j ∈ Finset.range w, x.at_ [bi, ci, i, j]) / (h * w : ℝ) := by
  let S := fun bi ci : Nat => (∑ i ∈ Finset.range h, ∑ j ∈ Finset.range w, x.at_ [bi, ci, i, j]) / (h * w : ℝ)
  let L2 := fun bi ci : Nat => [([bi, ci, 0, 0], S bi ci)]
  let L1 := fun bi : Nat => (List.range c).flatMap (L2 bi)
  have run : globalAveragePool x = .ok (applyW ((List.range b).flatMap L1) (newT [b, c, 1, 1])) := by
    unfold globalAveragePool
    rw [hx]
    refine forR_writes b _ L1 _ _ rfl (fun bi hb t1 h1 => ?_)
    refine forR_writes c _ (L2 bi) _ _ h1 (fun ci hc t2 h2 => ?_)
    rw [forR_sum h _ (fun i => ∑ j ∈ Finset.range w, x.at_ [bi, ci, i, j]) 0]
    · simp only [Res.bind, zero_add]
      unfold setAtR
      rw [if_pos (by rw [h2]; exact inB4.2 ⟨hb, hc, Nat.one_pos, Nat.one_pos⟩)]
      simp only [L2, S, applyW, List.foldl_cons, List.foldl_nil, Nat.cast_mul]
    · intro i hi a
      refine forR_sum w _ (fun j => x.at_ [bi, ci, i, j]) a (fun j hj a => ?_)
      rw [atR_ok _ _ (by rw [hx, inB4]; exact ⟨hb, hc, hi, hj⟩), Res.bind]
  refine ⟨_, run, by rw [applyW_shape]; rfl, fun bi ci hb hc => ?_⟩
  refine applyW_at _ _ _ _ (inB4.2 ⟨hb, hc, Nat.one_pos, Nat.one_pos⟩) ?_ (Or.inl ⟨([bi, ci, 0, 0], S bi ci), ?_, rfl⟩)
  · intro q hq hp
    simp only [L1, L2, List.mem_flatMap, List.mem_range, List.mem_singleton] at hq
    obtain ⟨a1, _, a2, _, rfl⟩ := hq
    simp only [List.cons.injEq, and_true] at hp
    obtain ⟨rfl, rfl⟩ := hp
    rfl
  · simp only [L1, L2, List.mem_flatMap, List.mem_range, List.mem_singleton]
    exact ⟨bi, hb, ci, hc, rfl⟩

example : ∃ y, globalAveragePool ⟨[1, 1, 2, 2], fun i => i.getD 3 0⟩ = .ok y ∧ y.at_ [0, 0, 0, 0] = 1 / 2 := by
  obtain ⟨y, y1, _, y3⟩ := globalAveragePool_spec ⟨[1, 1, 2, 2], fun i => i.getD 3 0⟩ 1 1 2 2 rfl
  refine ⟨y, y1, ?_⟩
  rw [y3 0 0 (by omega) (by omega)]
  norm_num [Finset.sum_range_succ]

end Verif.NN
