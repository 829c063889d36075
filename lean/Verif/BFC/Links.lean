import Verif.BFC.Model
/-!
Doubly linked segments of the free list, generic in what is known about the `prev` pointers.
-/
set_option autoImplicit false
namespace Verif.BFC

/-- The cells `ids` are linked by `next` in this order, the last one to `nx`; `P pv x` relates the
expected and the actual `prev` pointer of each cell. -/
def seg (P : Option Nat → Option Nat → Prop) (h : Nat → Blk) (pv : Option Nat) : List Nat → Option Nat → Prop
  | [], _ => True
  | p :: ps, nx => P pv (h p).prev ∧ (h p).next = (ps.head?.or nx) ∧ seg P h (some p) ps nx

variable {P Q : Option Nat → Option Nat → Prop} {h h' : Nat → Blk}

theorem seg_append (pv : Option Nat) (A B : List Nat) (nx : Option Nat) :
    seg P h pv (A ++ B) nx ↔ seg P h pv A (B.head?.or nx) ∧ seg P h (A.getLast?.or pv) B nx := by
  induction A generalizing pv with
  | nil => simp [seg]
  | cons p A ih =>
    simp only [List.cons_append, seg, ih]
    have e1 : (A ++ B).head?.or nx = A.head?.or (B.head?.or nx) := by
      cases A <;> simp
    have e2 : (p :: A).getLast?.or pv = A.getLast?.or (some p) := by
      cases A with
      | nil => rfl
      | cons a A =>
        rw [List.getLast?_cons_cons]
        obtain ⟨y, hy⟩ : ∃ y, (a :: A).getLast? = some y := ⟨_, List.getLast?_eq_some_getLast (by simp)⟩
        rw [hy]; rfl
    rw [e1, e2]
    constructor
    · rintro ⟨a, b, c, d⟩; exact ⟨⟨a, b, c⟩, d⟩
    · rintro ⟨⟨a, b, c⟩, d⟩; exact ⟨a, b, c, d⟩

theorem seg_congr (pv : Option Nat) (A : List Nat) (nx : Option Nat)
    (hs : ∀ p ∈ A, (h' p).next = (h p).next ∧ (h' p).prev = (h p).prev) (H : seg P h pv A nx) :
    seg P h' pv A nx := by
  induction A generalizing pv with
  | nil => trivial
  | cons p A ih =>
    obtain ⟨a, b, c⟩ := H
    have := hs p (by simp)
    exact ⟨by rw [this.2]; exact a, by rw [this.1]; exact b, ih _ (fun q hq => hs q (by simp [hq])) c⟩

theorem seg_mono (pv : Option Nat) (A : List Nat) (nx : Option Nat)
    (hPQ : ∀ p ∈ A, ∀ a, P a (h p).prev → Q a (h p).prev)
    (H : seg P h pv A nx) : seg Q h pv A nx := by
  induction A generalizing pv with
  | nil => trivial
  | cons p A ih => exact ⟨hPQ p (by simp) _ H.1, H.2.1, ih _ (fun q hq => hPQ q (by simp [hq])) H.2.2⟩

/-- Redirecting the `next` pointer of the last cell. -/
theorem seg_left (pv : Option Nat) (A : List Nat) (nx nx' : Option Nat) (hn : A.Nodup)
    (hs : ∀ p ∈ A, (h' p).prev = (h p).prev ∧
      (h' p).next = if A.getLast? = some p then nx' else (h p).next)
    (H : seg P h pv A nx) : seg P h' pv A nx' := by
  induction A generalizing pv with
  | nil => trivial
  | cons p A ih =>
    obtain ⟨a, b, c⟩ := H
    have hp := hs p (by simp)
    have hnd := List.nodup_cons.mp hn
    refine ⟨by rw [hp.1]; exact a, ?_, ih _ hnd.2 ?_ c⟩
    · rw [hp.2]
      cases A with
      | nil => simp
      | cons q A =>
        have : (p :: q :: A).getLast? ≠ some p := by
          rw [List.getLast?_cons_cons]
          intro e
          exact hnd.1 (List.mem_of_getLast? e)
        rw [if_neg this, b]; simp
    · intro q hq
      have := hs q (by simp [hq])
      refine ⟨this.1, ?_⟩
      rw [this.2]
      cases A with
      | nil => simp at hq
      | cons r A => rw [List.getLast?_cons_cons]

/-- Redirecting the `prev` pointer of the first cell. -/
theorem seg_right (pv pv' : Option Nat) (B : List Nat) (nx : Option Nat) (hn : B.Nodup)
    (hs : ∀ p ∈ B, (h' p).next = (h p).next)
    (hp : ∀ p ∈ B.tail, (h' p).prev = (h p).prev)
    (hP : ∀ p, B.head? = some p → P pv' (h' p).prev)
    (H : seg P h pv B nx) : seg P h' pv' B nx := by
  cases B with
  | nil => trivial
  | cons b B =>
    obtain ⟨_, b2, c⟩ := H
    refine ⟨hP b rfl, by rw [hs b (by simp)]; exact b2, ?_⟩
    exact seg_congr _ _ _ (fun q hq => ⟨hs q (by simp [hq]), hp q hq⟩) c

/-- The pointer changes of linking cell `n` between `A` and `B`. -/
structure LinkIns (h h' : Nat → Blk) (A : List Nat) (n : Nat) (B : List Nat) : Prop where
  ap : ∀ p ∈ A, (h' p).prev = (h p).prev
  an : ∀ p ∈ A, (h' p).next = if A.getLast? = some p then some n else (h p).next
  bn : ∀ p ∈ B, (h' p).next = (h p).next
  bp : ∀ p ∈ B, (h' p).prev = if B.head? = some p then some n else (h p).prev
  nn : (h' n).next = B.head?
  np : (h' n).prev = A.getLast?

theorem seg_insert (A B : List Nat) (n : Nat) (hn : (A ++ B).Nodup) (L : LinkIns h h' A n B)
    (h1 : P A.getLast? A.getLast?) (h2 : P (some n) (some n)) (H : seg P h none (A ++ B) none) :
    seg P h' none (A ++ n :: B) none := by
  rw [seg_append] at H ⊢
  have hnd := List.nodup_append.mp hn
  refine ⟨seg_left none A _ _ hnd.1 (fun p hp => ⟨L.ap p hp, ?_⟩) H.1, ?_, ?_, ?_⟩
  · rw [L.an p hp]; simp
  · rw [L.np]; simpa using h1
  · rw [L.nn]; simp
  · refine seg_right _ _ B none hnd.2.1 L.bn ?_ ?_ H.2
    · intro p hp
      rw [L.bp p (List.mem_of_mem_tail hp), if_neg]
      intro e
      cases B with
      | nil => simp at e
      | cons b B =>
        simp at e; subst e
        exact (List.nodup_cons.mp hnd.2.1).1 hp
    · intro p hp
      rw [L.bp p (by cases B with | nil => simp at hp | cons b B => simp at hp; simp [hp]), if_pos hp]
      exact h2

/-- The pointer changes of unlinking `x` from between `A` and `B`. -/
theorem seg_remove (A B : List Nat) (x : Nat) (hn : (A ++ x :: B).Nodup)
    (ap : ∀ p ∈ A, (h' p).prev = (h p).prev)
    (an : ∀ p ∈ A, (h' p).next = if A.getLast? = some p then B.head? else (h p).next)
    (bn : ∀ p ∈ B, (h' p).next = (h p).next)
    (bt : ∀ p ∈ B.tail, (h' p).prev = (h p).prev)
    (bh : ∀ p, B.head? = some p → P A.getLast? (h' p).prev)
    (H : seg P h none (A ++ x :: B) none) : seg P h' none (A ++ B) none := by
  rw [seg_append] at H ⊢
  have hnd := List.nodup_append.mp hn
  have hnd2 := List.nodup_cons.mp hnd.2.1
  refine ⟨seg_left none A _ _ hnd.1 (fun p hp => ⟨ap p hp, ?_⟩) H.1, ?_⟩
  · rw [an p hp]; simp
  · refine seg_right _ _ B none hnd2.2 bn bt ?_ H.2.2.2
    intro p hp
    simpa using bh p hp

theorem upd_same (h : Nat → Blk) (p : Nat) (f : Blk → Blk) : upd h p f p = f (h p) := by simp [upd]
theorem upd_other (h : Nat → Blk) (p q : Nat) (f : Blk → Blk) (hq : q ≠ p) : upd h p f q = h q := by simp [upd, hq]

end Verif.BFC
