import Verif.Tensor.Basic
import Mathlib.Algebra.BigOperators.Group.Finset.Basic
import Mathlib.Algebra.BigOperators.Intervals
/-! Go's `for i := 0; i < n; i++` over a state, with run-time panics, and nests of such loops. -/
set_option autoImplicit false
namespace Verif.NN
open Verif.Tensor

variable {σ : Type}

/-- `for i := 0; i < n; i++ { s = f(i, s) }`; `none` is a run-time panic. -/
def forN : Nat → (Nat → σ → Option σ) → σ → Option σ
  | 0, _, s => some s
  | n + 1, f, s => (forN n f s).bind (f n)

/-- A loop whose body keeps a relation and moves a position forward by `m` each time. -/
theorem forN_rel {pos : σ → Nat} {R : σ → σ → Prop} (hrefl : ∀ s, R s s) (htrans : ∀ a b c, R a b → R b c → R a c)
    {f : Nat → σ → Option σ} {m base : Nat} {s0 : σ} : ∀ n : Nat,
    (∀ i < n, ∀ s, R s0 s → pos s = base + i * m → ∃ s', f i s = some s' ∧ R s s' ∧ pos s' = pos s + m) →
    pos s0 = base → ∃ s', forN n f s0 = some s' ∧ R s0 s' ∧ pos s' = base + n * m := by
  intro n
  induction n with
  | zero => intro _ hp; exact ⟨s0, rfl, hrefl _, by simpa using hp⟩
  | succ n ih =>
    intro h hp
    obtain ⟨s1, e1, r1, p1⟩ := ih (fun i hi => h i (Nat.lt_succ_of_lt hi)) hp
    obtain ⟨s2, e2, r2, p2⟩ := h n (Nat.lt_succ_self n) s1 r1 p1
    refine ⟨s2, by simp only [forN, e1, Option.bind_some, e2], htrans _ _ _ r1 r2, ?_⟩
    rw [p2, p1, Nat.succ_mul]; omega

/-- A loop with an invariant. -/
theorem forN_inv {f : Nat → σ → Option σ} {s0 : σ} (P : Nat → σ → Prop) : ∀ n : Nat,
    (∀ i < n, ∀ s, P i s → ∃ s', f i s = some s' ∧ P (i + 1) s') → P 0 s0 →
    ∃ s', forN n f s0 = some s' ∧ P n s' := by
  intro n
  induction n with
  | zero => intro _ hp; exact ⟨s0, rfl, hp⟩
  | succ n ih =>
    intro h hp
    obtain ⟨s1, e1, p1⟩ := ih (fun i hi => h i (Nat.lt_succ_of_lt hi)) hp
    obtain ⟨s2, e2, p2⟩ := h n (Nat.lt_succ_self n) s1 p1
    exact ⟨s2, by simp only [forN, e1, Option.bind_some, e2], p2⟩

theorem forN_congr {f g : Nat → σ → Option σ} : ∀ (n : Nat) (s : σ), (∀ i < n, ∀ s, f i s = g i s) →
    forN n f s = forN n g s := by
  intro n
  induction n with
  | zero => intro _ _; rfl
  | succ n ih =>
    intro s h
    simp only [forN]
    rw [ih s fun i hi => h i (Nat.lt_succ_of_lt hi)]
    cases forN n g s with
    | none => rfl
    | some x => exact h n (Nat.lt_succ_self n) x

/-- Five nested loops, as in `im2colOp.f64s`. -/
def nest5 (a b c d e : Nat) (body : Nat → Nat → Nat → Nat → Nat → σ → Option σ) (s : σ) : Option σ :=
  forN a (fun i => forN b (fun j => forN c (fun k => forN d (fun l => forN e (fun m => body i j k l m))))) s

/-- If the body, entered at the position of its indices, keeps the relation and advances by one, the nest visits all
positions of the index space in order. -/
theorem nest5_rel {pos : σ → Nat} {R : σ → σ → Prop} (hrefl : ∀ s, R s s) (htrans : ∀ a b c, R a b → R b c → R a c)
    {a b c d e : Nat} {body : Nat → Nat → Nat → Nat → Nat → σ → Option σ} {s0 : σ}
    (hb : ∀ i j k l m s, InB [a, b, c, d, e] [i, j, k, l, m] → R s0 s → pos s = ravel [a, b, c, d, e] [i, j, k, l, m] →
      ∃ s', body i j k l m s = some s' ∧ R s s' ∧ pos s' = pos s + 1)
    (h0 : pos s0 = 0) :
    ∃ s', nest5 a b c d e body s0 = some s' ∧ R s0 s' ∧ pos s' = size [a, b, c, d, e] := by
  have key := forN_rel (pos := pos) hrefl htrans (m := size [b, c, d, e]) (base := 0) (s0 := s0)
    (f := fun i => forN b (fun j => forN c (fun k => forN d (fun l => forN e (fun m => body i j k l m))))) a ?_ h0
  · obtain ⟨s', h1, h2, h3⟩ := key
    exact ⟨s', h1, h2, by simp only [size] at h3 ⊢; omega⟩
  intro i hi s1 r1 p1
  have := forN_rel (pos := pos) hrefl htrans (m := size [c, d, e]) (base := pos s1) (s0 := s1)
    (f := fun j => forN c (fun k => forN d (fun l => forN e (fun m => body i j k l m)))) b ?_ rfl
  · obtain ⟨s', h1, h2, h3⟩ := this
    exact ⟨s', h1, h2, by rw [h3]; simp only [size]⟩
  intro j hj s2 r2 p2
  have := forN_rel (pos := pos) hrefl htrans (m := size [d, e]) (base := pos s2) (s0 := s2)
    (f := fun k => forN d (fun l => forN e (fun m => body i j k l m))) c ?_ rfl
  · obtain ⟨s', h1, h2, h3⟩ := this
    exact ⟨s', h1, h2, by rw [h3]; simp only [size]⟩
  intro k hk s3 r3 p3
  have := forN_rel (pos := pos) hrefl htrans (m := size [e]) (base := pos s3) (s0 := s3)
    (f := fun l => forN e (fun m => body i j k l m)) d ?_ rfl
  · obtain ⟨s', h1, h2, h3⟩ := this
    exact ⟨s', h1, h2, by rw [h3]; simp only [size]⟩
  intro l hl s4 r4 p4
  have := forN_rel (pos := pos) hrefl htrans (m := 1) (base := pos s4) (s0 := s4) (f := fun m => body i j k l m) e ?_ rfl
  · obtain ⟨s', h1, h2, h3⟩ := this
    exact ⟨s', h1, h2, by rw [h3]; simp only [size]⟩
  intro m hm s5 r5 p5
  refine hb i j k l m s5 ⟨hi, hj, hk, hl, hm, trivial⟩
    (htrans _ _ _ r1 (htrans _ _ _ r2 (htrans _ _ _ r3 (htrans _ _ _ r4 r5)))) ?_
  rw [p5, p4, p3, p2, p1]
  simp only [ravel, size]
  omega

/-- A sum over consecutive blocks. -/
theorem sum_blocks {M : Type} [AddCommMonoid M] (b m : Nat) (f : Nat → M) :
    ∑ k ∈ Finset.range (b * m), f k = ∑ i ∈ Finset.range b, ∑ j ∈ Finset.range m, f (i * m + j) := by
  induction b with
  | zero => simp
  | succ b ih => rw [Nat.succ_mul, Finset.sum_range_add, ih, Finset.sum_range_succ]

end Verif.NN
