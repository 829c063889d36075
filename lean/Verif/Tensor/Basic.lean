/-!
Dense tensors, as far as the model needs them.  The tensor library (`gorgonia.org/tensor`) is outside
`/repo`; this file is the assumed meaning of the few notions of it that `/repo` uses: shapes, total size,
row-major layout and reshaping (which keeps the flat data).
-/
set_option autoImplicit false
namespace Verif.Tensor

/-- `tensor.Shape.TotalSize` (assumed): product of the sizes, 1 for the scalar shape. -/
def size : List Nat → Nat
  | [] => 1
  | d :: s => d * size s

/-- `i` is a coordinate of a tensor of shape `s`: as many entries as axes, each below the axis size. -/
def InB : List Nat → List Nat → Prop
  | [], [] => True
  | d :: s, i :: is => i < d ∧ InB s is
  | _, _ => False

instance : (s i : List Nat) → Decidable (InB s i)
  | [], [] => isTrue trivial
  | d :: s, i :: is =>
    match Nat.decLt i d, instDecidableInB s is with
    | isTrue a, isTrue b => isTrue ⟨a, b⟩
    | isFalse a, _ => isFalse (fun h => a h.1)
    | _, isFalse b => isFalse (fun h => b h.2)
  | [], _ :: _ => isFalse (fun h => h)
  | _ :: _, [] => isFalse (fun h => h)

/-- Row-major position of coordinate `i` in a tensor of shape `s`. -/
def ravel : List Nat → List Nat → Nat
  | _ :: s, i :: is => i * size s + ravel s is
  | _, _ => 0

/-- Coordinate of the `k`-th element (row-major) of a tensor of shape `s`. -/
def unravel : List Nat → Nat → List Nat
  | [], _ => []
  | _ :: s, k => k / size s :: unravel s (k % size s)

/-- A dense tensor: its shape and its elements by coordinate (only coordinates in bounds matter). -/
structure T (α : Type) where
  shape : List Nat
  at_ : List Nat → α

/-- Flat (row-major) data access. -/
def T.flat {α : Type} (t : T α) (k : Nat) : α := t.at_ (unravel t.shape k)

/-- Reading flat data as a tensor of shape `s`. -/
def ofFlat {α : Type} (s : List Nat) (f : Nat → α) : T α := ⟨s, fun i => f (ravel s i)⟩

/-- `tensor.Dense.Reshape` (assumed): same flat data, new shape. -/
def T.reshape {α : Type} (t : T α) (s : List Nat) : T α := ofFlat s t.flat

/-- Two tensors are the same value: same shape and same elements in bounds. -/
def T.Same {α : Type} (a b : T α) : Prop := a.shape = b.shape ∧ ∀ i, InB a.shape i → a.at_ i = b.at_ i

theorem InB.length {s i : List Nat} (h : InB s i) : i.length = s.length := by
  induction s generalizing i with
  | nil => cases i with
    | nil => rfl
    | cons _ _ => exact h.elim
  | cons d s ih => cases i with
    | nil => exact h.elim
    | cons a is => simp [ih h.2]

theorem InB.size_pos {s i : List Nat} (h : InB s i) : 0 < size s := by
  induction s generalizing i with
  | nil => simp [size]
  | cons d s ih => cases i with
    | nil => exact h.elim
    | cons a is => exact Nat.mul_pos (by have := h.1; omega) (ih h.2)

theorem ravel_lt {s i : List Nat} (h : InB s i) : ravel s i < size s := by
  induction s generalizing i with
  | nil => cases i with
    | nil => simp [ravel, size]
    | cons _ _ => exact h.elim
  | cons d s ih => cases i with
    | nil => exact h.elim
    | cons a is =>
      simp only [ravel, size]
      have h1 := ih h.2
      have h2 : (a + 1) * size s ≤ d * size s := Nat.mul_le_mul_right _ h.1
      rw [Nat.add_mul] at h2; omega

theorem unravel_ravel {s i : List Nat} (h : InB s i) : unravel s (ravel s i) = i := by
  induction s generalizing i with
  | nil => cases i with
    | nil => rfl
    | cons _ _ => exact h.elim
  | cons d s ih => cases i with
    | nil => exact h.elim
    | cons a is =>
      have h1 := ravel_lt h.2
      simp only [ravel, unravel]
      have e1 : (a * size s + ravel s is) / size s = a := by
        rw [Nat.mul_comm, Nat.mul_add_div (by omega), Nat.div_eq_of_lt h1]; rfl
      have e2 : (a * size s + ravel s is) % size s = ravel s is := by
        rw [Nat.mul_comm, Nat.mul_add_mod, Nat.mod_eq_of_lt h1]
      rw [e1, e2, ih h.2]

theorem inB_unravel {s : List Nat} {k : Nat} (h : k < size s) : InB s (unravel s k) := by
  induction s generalizing k with
  | nil => trivial
  | cons d s ih =>
    simp only [size] at h
    have hp : 0 < size s := by
      rcases Nat.eq_zero_or_pos (size s) with h0 | h0
      · rw [h0] at h; simp at h
      · exact h0
    exact ⟨by rw [Nat.div_lt_iff_lt_mul hp]; exact h, ih (Nat.mod_lt _ hp)⟩

theorem ravel_unravel {s : List Nat} {k : Nat} (h : k < size s) : ravel s (unravel s k) = k := by
  induction s generalizing k with
  | nil => simp [size] at h; simp [ravel, h]
  | cons d s ih =>
    simp only [size] at h
    have hp : 0 < size s := by
      rcases Nat.eq_zero_or_pos (size s) with h0 | h0
      · rw [h0] at h; simp at h
      · exact h0
    simp only [unravel, ravel]
    rw [ih (Nat.mod_lt _ hp), Nat.mul_comm]
    exact Nat.div_add_mod k (size s)

theorem flat_ravel {α : Type} (t : T α) {i : List Nat} (h : InB t.shape i) :
    t.flat (ravel t.shape i) = t.at_ i := by
  simp [T.flat, unravel_ravel h]

theorem reshape_at {α : Type} (t : T α) (s i : List Nat) :
    (t.reshape s).at_ i = t.flat (ravel s i) := rfl

/-- Reshaping back recovers the tensor. -/
theorem reshape_reshape {α : Type} (t : T α) (s : List Nat) (hs : size s = size t.shape) :
    ((t.reshape s).reshape t.shape).Same t := by
  refine ⟨rfl, fun i hi => ?_⟩
  have hk : ravel t.shape i < size s := by rw [hs]; exact ravel_lt hi
  show t.flat (ravel s (unravel s (ravel t.shape i))) = t.at_ i
  rw [ravel_unravel hk, flat_ravel t hi]

theorem size_append (a b : List Nat) : size (a ++ b) = size a * size b := by
  induction a with
  | nil => simp [size]
  | cons d s ih => simp [size, ih, Nat.mul_assoc]

end Verif.Tensor
