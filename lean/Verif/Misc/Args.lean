import Verif.Shape.Reshape
import Verif.Value.Model
/-!
Slices that are handed in by the caller (C102): what `NodeFromAny`, the other constructors of gorgonia.go, `Reshape`, `Transpose`,
`BindDualValues` and `Subgraph` do to them.

A slice is an array, an offset and a length; what lies behind its end up to the end of the array is its spare capacity. `append`
writes there if there is room, otherwise it makes a new array, of which only the beginning is known; `copy` moves (language
specification of Go).
-/
set_option autoImplicit false
namespace Verif.Misc
open Verif.Shape Verif.Tensor Verif.Types

/-- The arrays in memory; addresses from `next` on are free. -/
structure Arrays (α : Type) where
  data : Nat → List α
  next : Nat

/-- A slice; its capacity ends with the array. -/
structure Slc where
  arr : Nat
  off : Nat
  len : Nat

variable {α : Type}

/-- What the holder of the slice sees. -/
def Slc.view (s : Slc) (μ : Arrays α) : List α := ((μ.data s.arr).drop s.off).take s.len

def Slc.cap (s : Slc) (μ : Arrays α) : Nat := (μ.data s.arr).length - s.off

/-- The slice lies inside its array, which exists. -/
def Slc.Valid (s : Slc) (μ : Arrays α) : Prop := s.arr < μ.next ∧ s.off + s.len ≤ (μ.data s.arr).length

/-- Writing `xs` into an array from position `i` on. -/
def Arrays.put (μ : Arrays α) (a i : Nat) (xs : List α) : Arrays α :=
  { μ with data := fun b => if b = a then (μ.data a).take i ++ xs ++ (μ.data a).drop (i + xs.length) else μ.data b }

/-- `append(s, xs...)`; `spare` is what a new array holds behind the elements. -/
def goAppend (μ : Arrays α) (s : Slc) (xs spare : List α) : Arrays α × Slc :=
  if s.len + xs.length ≤ s.cap μ then (μ.put s.arr (s.off + s.len) xs, { s with len := s.len + xs.length })
  else (⟨fun b => if b = μ.next then s.view μ ++ xs ++ spare else μ.data b, μ.next + 1⟩, ⟨μ.next, 0, s.len + xs.length⟩)

/-- The end of `NodeFromAny` (gorgonia.go 38-39): the elements move up by one, the first becomes `WithShape(v.Shape()...)`. -/
def shiftIn (r : Arrays α × Slc) (shape : α) : Arrays α :=
  (r.1.put r.2.arr (r.2.off + 1) ((r.2.view r.1).take (r.2.len - 1))).put r.2.arr r.2.off [shape]

/-- `NodeFromAny` (gorgonia.go 25-44) for a tensor: the options handed to `NewTensor`. `value` is `WithValue(v)`. -/
def fromTensor (μ : Arrays α) (opts : Slc) (nil value shape : α) (sp1 sp2 : List α) : Arrays α × Slc :=
  let r1 := goAppend μ opts [value] sp1
  let r2 := goAppend r1.1 r1.2 [nil] sp2
  (shiftIn r2 shape, r2.2)

/-- `NodeFromAny` for a scalar (gorgonia.go 31-35): the options handed to `NewScalar`. -/
def fromScalar (μ : Arrays α) (opts : Slc) (value : α) (sp : List α) : Arrays α × Slc := goAppend μ opts [value] sp

/-- `NewScalar`, `NewVector`, `NewMatrix`, `NewTensor` (gorgonia.go 47-84): a new array with the options of the constructor, to which
those of the caller are appended. -/
def consOpts (μ : Arrays α) (own : List α) (opts : Slc) (sp : List α) : Arrays α × Slc :=
  goAppend ⟨fun b => if b = μ.next then own else μ.data b, μ.next + 1⟩ ⟨μ.next, 0, own.length⟩ (opts.view μ) sp

/-- `BindDualValues` (vm.go 274-286) as far as the slices are concerned: the nodes are appended to the machine's slice, which is then
sorted in place (`set.Uniq` only moves elements inside it). -/
def bindDV (μ : Arrays Nat) (own nodes : Slc) (sp : List Nat) (setf : List Nat → List Nat) : Arrays Nat × Slc :=
  let r := goAppend μ own (nodes.view μ) sp
  (r.1.put r.2.arr r.2.off (setf (r.2.view r.1)), r.2)

/-! ### Memory -/

theorem view_length {s : Slc} {μ : Arrays α} (h : s.Valid μ) : (s.view μ).length = s.len := by
  simp only [Slc.view, List.length_take, List.length_drop]; have := h.2; omega

theorem split_at {s : Slc} {μ : Arrays α} (h : s.Valid μ) :
    μ.data s.arr = (μ.data s.arr).take s.off ++ s.view μ ++ (μ.data s.arr).drop (s.off + s.len) := by
  unfold Slc.view
  rw [List.append_assoc, ← List.drop_drop, List.take_append_drop, List.take_append_drop]

theorem put_other (μ : Arrays α) (a i : Nat) (xs : List α) (b : Nat) (h : b ≠ a) : (μ.put a i xs).data b = μ.data b := by
  simp [Arrays.put, h]

theorem put_self (μ : Arrays α) (a i : Nat) (xs : List α) :
    (μ.put a i xs).data a = (μ.data a).take i ++ xs ++ (μ.data a).drop (i + xs.length) := by simp [Arrays.put]

/-- What an array looks like around a slice. -/
theorem view_of {s : Slc} {μ : Arrays α} {pre v post : List α} (h : μ.data s.arr = pre ++ v ++ post) (h1 : s.off = pre.length)
    (h2 : s.len = v.length) : s.view μ = v := by
  simp [Slc.view, h, h1, h2]

theorem goAppend_room {μ : Arrays α} {s : Slc} {xs sp : List α} (hv : s.Valid μ) (h : s.len + xs.length ≤ s.cap μ) :
    goAppend μ s xs sp = (μ.put s.arr (s.off + s.len) xs, { s with len := s.len + xs.length }) ∧
      (μ.put s.arr (s.off + s.len) xs).data s.arr =
        (μ.data s.arr).take s.off ++ (s.view μ ++ xs) ++ (μ.data s.arr).drop (s.off + s.len + xs.length) := by
  refine ⟨if_pos h, ?_⟩
  rw [put_self]
  have : (μ.data s.arr).take (s.off + s.len) = (μ.data s.arr).take s.off ++ s.view μ := by
    rw [List.take_add, Slc.view]
  rw [this, List.append_assoc, List.append_assoc, List.append_assoc, List.append_assoc]

theorem goAppend_full {μ : Arrays α} {s : Slc} {xs sp : List α} (h : ¬ s.len + xs.length ≤ s.cap μ) :
    goAppend μ s xs sp =
      (⟨fun b => if b = μ.next then s.view μ ++ xs ++ sp else μ.data b, μ.next + 1⟩, ⟨μ.next, 0, s.len + xs.length⟩) := if_neg h

/-- `append` gives the old elements and then the new ones. -/
theorem goAppend_view {μ : Arrays α} {s : Slc} {xs sp : List α} (hv : s.Valid μ) :
    (goAppend μ s xs sp).2.view (goAppend μ s xs sp).1 = s.view μ ++ xs ∧ (goAppend μ s xs sp).2.Valid (goAppend μ s xs sp).1 := by
  have hl := view_length hv
  by_cases h : s.len + xs.length ≤ s.cap μ
  · obtain ⟨e1, e2⟩ := goAppend_room (sp := sp) hv h
    have hoff : s.off ≤ (μ.data s.arr).length := by have := hv.2; omega
    rw [e1]
    refine ⟨view_of (s := { s with len := s.len + xs.length }) e2 (by simp; omega) (by simp [hl]), ?_, ?_⟩
    · exact hv.1
    · show s.off + (s.len + xs.length) ≤ _
      rw [e2]; simp only [List.length_append, List.length_take, hl]; omega
  · rw [goAppend_full h]
    refine ⟨?_, by simp [Slc.Valid, hl]⟩
    have : (Slc.mk μ.next 0 (s.len + xs.length)).view (⟨fun b => if b = μ.next then s.view μ ++ xs ++ sp else μ.data b, μ.next + 1⟩ : Arrays α) =
        s.view μ ++ xs := view_of (pre := []) (post := sp) (by simp) rfl (by simp [hl])
    exact this

/-- `append` changes no array but, if there is room, the one of the slice, behind its end. -/
theorem goAppend_frame {μ : Arrays α} {s : Slc} {xs sp : List α} (b : Nat) (hb : b < μ.next)
    (h : b ≠ s.arr ∨ s.cap μ < s.len + xs.length) : (goAppend μ s xs sp).1.data b = μ.data b := by
  by_cases hr : s.len + xs.length ≤ s.cap μ
  · rw [show goAppend μ s xs sp = _ from if_pos hr]
    rcases h with h | h
    · exact put_other _ _ _ _ _ h
    · omega
  · rw [goAppend_full hr]
    have : b ≠ μ.next := by omega
    simp [this]

/-! ### The constructors -/

/-- `NewScalar`, ..., `NewTensor`: the options are those of the constructor followed by the caller's, and no array that existed changes. -/
theorem cons_options (μ : Arrays α) (own : List α) (opts : Slc) (sp : List α) (hv : opts.Valid μ) :
    let r := consOpts μ own opts sp
    r.2.view r.1 = own ++ opts.view μ ∧ ∀ b, b < μ.next → r.1.data b = μ.data b := by
  intro r
  have hown : (⟨μ.next, 0, own.length⟩ : Slc).view (⟨fun b => if b = μ.next then own else μ.data b, μ.next + 1⟩ : Arrays α) = own := by
    simp [Slc.view]
  have hval : (⟨μ.next, 0, own.length⟩ : Slc).Valid (⟨fun b => if b = μ.next then own else μ.data b, μ.next + 1⟩ : Arrays α) := by
    simp [Slc.Valid]
  refine ⟨?_, fun b hb => ?_⟩
  · have := (goAppend_view (xs := opts.view μ) (sp := sp) hval).1
    rw [hown] at this
    exact this
  · show (goAppend _ _ _ _).1.data b = _
    have hne : b ≠ μ.next := by omega
    rw [goAppend_frame b (by simp only; omega) (Or.inl hne)]
    simp [hne]

/-- The array of the caller of `NodeFromAny` afterwards, whole. -/
def arrayAfter (μ : Arrays α) (opts : Slc) (value shape : α) : List α :=
  if opts.len + 2 ≤ opts.cap μ then
    (μ.data opts.arr).take opts.off ++ (shape :: (opts.view μ ++ [value])) ++ (μ.data opts.arr).drop (opts.off + opts.len + 2)
  else if opts.len + 1 ≤ opts.cap μ then
    (μ.data opts.arr).take opts.off ++ (opts.view μ ++ [value]) ++ (μ.data opts.arr).drop (opts.off + opts.len + 1)
  else μ.data opts.arr

theorem shift_put {r : Arrays α × Slc} {pre v post : List α} {x y : α} (h : r.1.data r.2.arr = pre ++ (v ++ [x]) ++ post)
    (h1 : r.2.off = pre.length) (h2 : r.2.len = v.length + 1) : (shiftIn r y).data r.2.arr = pre ++ (y :: v) ++ post := by
  have hview : r.2.view r.1 = v ++ [x] := view_of h h1 (by simp [h2])
  have htake : (r.2.view r.1).take (r.2.len - 1) = v := by rw [hview, h2]; simp
  have h3 : (r.1.put r.2.arr (r.2.off + 1) ((r.2.view r.1).take (r.2.len - 1))).data r.2.arr =
      pre ++ ((v ++ [x]).take 1 ++ v) ++ post := by
    rw [htake, put_self, h, h1]
    have e1 : (pre ++ (v ++ [x]) ++ post).take (pre.length + 1) = pre ++ (v ++ [x]).take 1 := by
      rw [List.append_assoc, List.take_length_add_append, List.take_append_of_le_length (by simp)]
    have e2 : (pre ++ (v ++ [x]) ++ post).drop (pre.length + 1 + v.length) = post := by
      have : pre.length + 1 + v.length = (pre ++ (v ++ [x])).length := by simp; omega
      rw [this, List.drop_left]
    rw [e1, e2]; simp
  obtain ⟨z, hz⟩ : ∃ z, (v ++ [x]).take 1 = [z] := by cases v <;> exact ⟨_, rfl⟩
  rw [shiftIn, put_self, h3, h1, hz]
  have e1 : (pre ++ ([z] ++ v) ++ post).take pre.length = pre := by rw [List.append_assoc, List.take_left]
  have e2 : (pre ++ ([z] ++ v) ++ post).drop (pre.length + [y].length) = v ++ post := by
    rw [← List.drop_drop, List.append_assoc, List.drop_left]; rfl
  rw [e1, e2]; simp

theorem shiftIn_other (r : Arrays α × Slc) (y : α) (b : Nat) (h : b ≠ r.2.arr) : (shiftIn r y).data b = r.1.data b := by
  rw [shiftIn, put_other _ _ _ _ _ h, put_other _ _ _ _ _ h]

theorem goAppend_len (μ : Arrays α) (s : Slc) (xs sp : List α) : (goAppend μ s xs sp).2.len = s.len + xs.length := by
  unfold goAppend; split <;> rfl

theorem goAppend_arr (μ : Arrays α) (s : Slc) (xs sp : List α) :
    (goAppend μ s xs sp).2.arr = s.arr ∨ (goAppend μ s xs sp).2.arr = μ.next := by
  unfold goAppend; split
  · exact Or.inl rfl
  · exact Or.inr rfl

theorem goAppend_next (μ : Arrays α) (s : Slc) (xs sp : List α) : μ.next ≤ (goAppend μ s xs sp).1.next := by
  unfold goAppend; split
  · exact le_refl _
  · simp

theorem goAppend_cap {μ : Arrays α} {s : Slc} {xs sp : List α} (hv : s.Valid μ) (h : s.len + xs.length ≤ s.cap μ) :
    (goAppend μ s xs sp).2.cap (goAppend μ s xs sp).1 = s.cap μ := by
  obtain ⟨e1, e2⟩ := goAppend_room (sp := sp) hv h
  rw [e1]
  simp only [Slc.cap] at h ⊢
  rw [e2]
  have := view_length hv
  simp only [List.length_append, List.length_take, List.length_drop, this]
  omega

/-- `NodeFromAny` of a tensor: the node is made with the shape of the tensor first, then the caller's options, then the value. The
array of the caller is as `arrayAfter` says, all others are as before. -/
theorem fromTensor_spec (μ : Arrays α) (opts : Slc) (nil value shape : α) (sp1 sp2 : List α) (hv : opts.Valid μ) :
    let r := fromTensor μ opts nil value shape sp1 sp2
    r.2.view r.1 = shape :: (opts.view μ ++ [value]) ∧ r.1.data opts.arr = arrayAfter μ opts value shape ∧
      ∀ b, b < μ.next → b ≠ opts.arr → r.1.data b = μ.data b := by
  have hl := view_length hv
  have hlt := hv.1
  have hv1 := goAppend_view (xs := [value]) (sp := sp1) hv
  have hv2 := goAppend_view (xs := [nil]) (sp := sp2) hv1.2
  have hlen2 : (goAppend (goAppend μ opts [value] sp1).1 (goAppend μ opts [value] sp1).2 [nil] sp2).2.len =
      (opts.view μ ++ [value]).length + 1 := by simp [goAppend_len, hl]
  have hs := split_at hv2.2
  rw [hv2.1, hv1.1] at hs
  have hpre : (goAppend (goAppend μ opts [value] sp1).1 (goAppend μ opts [value] sp1).2 [nil] sp2).2.off =
      (((goAppend (goAppend μ opts [value] sp1).1 (goAppend μ opts [value] sp1).2 [nil] sp2).1.data
        (goAppend (goAppend μ opts [value] sp1).1 (goAppend μ opts [value] sp1).2 [nil] sp2).2.arr).take
        (goAppend (goAppend μ opts [value] sp1).1 (goAppend μ opts [value] sp1).2 [nil] sp2).2.off).length := by
    have := hv2.2.2
    simp only [List.length_take]; omega
  have key := shift_put (y := shape) hs hpre hlen2
  have hold : ∀ b, b < μ.next → b ≠ opts.arr → (goAppend μ opts [value] sp1).1.data b = μ.data b ∧
      b ≠ (goAppend μ opts [value] sp1).2.arr := fun b hb hne =>
    ⟨goAppend_frame b hb (Or.inl hne), by rcases goAppend_arr μ opts [value] sp1 with h | h <;> rw [h] <;> omega⟩
  have hnx := goAppend_next μ opts [value] sp1
  refine ⟨?_, ?_, ?_⟩
  · exact view_of key hpre (hlen2.trans (by simp))
  · show (shiftIn _ shape).data opts.arr = _
    have hoff : opts.off ≤ (μ.data opts.arr).length := by have := hv.2; omega
    have hpl : ((μ.data opts.arr).take opts.off).length = opts.off := by simp; omega
    by_cases h1 : opts.len + 1 ≤ opts.cap μ
    · obtain ⟨e1, e2⟩ := goAppend_room (xs := [value]) (sp := sp1) hv h1
      have hcap := goAppend_cap (xs := [value]) (sp := sp1) hv h1
      by_cases h2 : opts.len + 2 ≤ opts.cap μ
      · have h2' : (goAppend μ opts [value] sp1).2.len + [nil].length ≤
            (goAppend μ opts [value] sp1).2.cap (goAppend μ opts [value] sp1).1 := by
          rw [hcap, goAppend_len]; exact h2
        obtain ⟨f1, f2⟩ := goAppend_room (sp := sp2) hv1.2 h2'
        rw [arrayAfter, if_pos h2]
        have harr : (goAppend (goAppend μ opts [value] sp1).1 (goAppend μ opts [value] sp1).2 [nil] sp2).2.arr = opts.arr := by
          rw [f1, e1]
        rw [harr] at key
        rw [key]
        have hd : (goAppend (goAppend μ opts [value] sp1).1 (goAppend μ opts [value] sp1).2 [nil] sp2).1.data opts.arr =
            (μ.data opts.arr).take opts.off ++ (opts.view μ ++ [value] ++ [nil]) ++
              (μ.data opts.arr).drop (opts.off + opts.len + 2) := by
          rw [f1]
          have : (goAppend μ opts [value] sp1).2.arr = opts.arr := by rw [e1]
          rw [this] at f2
          rw [this, f2, hv1.1]
          simp only [e1, e2]
          congr 1
          · congr 1
            rw [List.append_assoc]; exact List.take_left' hpl
          · have : opts.off + (opts.len + [value].length) + [nil].length =
                ((μ.data opts.arr).take opts.off ++ (opts.view μ ++ [value])).length + 1 := by
              simp only [List.length_append, hpl, hl, List.length_singleton]
            rw [this, ← List.drop_drop, List.drop_left, List.drop_drop]; rfl
        have hoff2 : (goAppend (goAppend μ opts [value] sp1).1 (goAppend μ opts [value] sp1).2 [nil] sp2).2.off = opts.off := by
          rw [f1, e1]
        rw [hoff2, hlen2, hd]
        congr 1
        · congr 1
          rw [List.append_assoc]; exact List.take_left' hpl
        · have : opts.off + ((opts.view μ ++ [value]).length + 1) =
              ((μ.data opts.arr).take opts.off ++ (opts.view μ ++ [value] ++ [nil])).length := by
            simp only [List.length_append, hpl, List.length_singleton]
          rw [this, List.drop_left]
      · have h2' : ¬ (goAppend μ opts [value] sp1).2.len + [nil].length ≤
            (goAppend μ opts [value] sp1).2.cap (goAppend μ opts [value] sp1).1 := by
          rw [hcap, goAppend_len]; exact h2
        have f1 := goAppend_full (sp := sp2) h2'
        rw [arrayAfter, if_neg h2, if_pos h1]
        have hne : opts.arr ≠ (goAppend (goAppend μ opts [value] sp1).1 (goAppend μ opts [value] sp1).2 [nil] sp2).2.arr := by
          rw [f1]; simp only; omega
        rw [shiftIn_other _ _ _ hne, goAppend_frame _ (by omega) (Or.inr (by omega)), e1]
        exact e2
    · rw [arrayAfter, if_neg (by omega), if_neg h1]
      have e1 := goAppend_full (xs := [value]) (sp := sp1) (s := opts) (μ := μ) h1
      have h3 : (goAppend μ opts [value] sp1).2.arr = μ.next := by rw [e1]
      have hne1 : opts.arr ≠ (goAppend μ opts [value] sp1).2.arr := by omega
      have hne : opts.arr ≠ (goAppend (goAppend μ opts [value] sp1).1 (goAppend μ opts [value] sp1).2 [nil] sp2).2.arr := by
        rcases goAppend_arr (goAppend μ opts [value] sp1).1 (goAppend μ opts [value] sp1).2 [nil] sp2 with h | h <;> omega
      rw [shiftIn_other _ _ _ hne, goAppend_frame _ (by omega) (Or.inl hne1),
        goAppend_frame _ hlt (Or.inr (by simp only [List.length_singleton]; omega))]
  · intro b hb hne
    obtain ⟨o1, o2⟩ := hold b hb hne
    show (shiftIn _ shape).data b = _
    rw [shiftIn_other, goAppend_frame b (by omega) (Or.inl o2), o1]
    rcases goAppend_arr (goAppend μ opts [value] sp1).1 (goAppend μ opts [value] sp1).2 [nil] sp2 with h | h <;> omega

/-- What the caller of `NodeFromAny` sees afterwards in the slice: with room for two more options, the shape of the tensor in front and
the last option gone. -/
theorem fromTensor_caller (μ : Arrays α) (opts : Slc) (nil value shape : α) (sp1 sp2 : List α) (hv : opts.Valid μ) :
    opts.view (fromTensor μ opts nil value shape sp1 sp2).1 =
      if opts.len + 2 ≤ opts.cap μ then (shape :: opts.view μ).take opts.len else opts.view μ := by
  have hl := view_length hv
  have hoff : opts.off ≤ (μ.data opts.arr).length := by have := hv.2; omega
  have hpl : ((μ.data opts.arr).take opts.off).length = opts.off := by simp; omega
  have h := (fromTensor_spec μ opts nil value shape sp1 sp2 hv).2.1
  unfold Slc.view at *
  rw [h]
  unfold arrayAfter Slc.view at *
  by_cases h2 : opts.len + 2 ≤ opts.cap μ
  · rw [if_pos h2, if_pos h2, List.append_assoc]
    conv_lhs => rw [← hpl]
    rw [hpl, List.drop_left' hpl, List.take_append_of_le_length (by simp only [List.length_cons, List.length_append, hl]; omega)]
    rw [← List.cons_append, List.take_append_of_le_length (by simp only [List.length_cons, hl]; omega)]
  · rw [if_neg h2, if_neg h2]
    by_cases h1 : opts.len + 1 ≤ opts.cap μ
    · rw [if_pos h1, List.append_assoc, List.drop_left' hpl, List.append_assoc,
        List.take_append_of_le_length (by omega), List.take_of_length_le (by omega)]
    · rw [if_neg h1]

theorem fromTensor_valid (μ : Arrays α) (opts : Slc) (nil value shape : α) (sp1 sp2 : List α) (hv : opts.Valid μ) :
    opts.Valid (fromTensor μ opts nil value shape sp1 sp2).1 := by
  have h := (fromTensor_spec μ opts nil value shape sp1 sp2 hv).2.1
  have hl := view_length hv
  have h2 := hv.2
  refine ⟨?_, ?_⟩
  · have n1 := goAppend_next μ opts [value] sp1
    have n2 := goAppend_next (goAppend μ opts [value] sp1).1 (goAppend μ opts [value] sp1).2 [nil] sp2
    have : (fromTensor μ opts nil value shape sp1 sp2).1.next =
      (goAppend (goAppend μ opts [value] sp1).1 (goAppend μ opts [value] sp1).2 [nil] sp2).1.next := rfl
    have := hv.1
    omega
  · rw [h, arrayAfter]
    split
    · simp only [List.length_append, List.length_take, List.length_cons, hl]; omega
    · split
      · simp only [List.length_append, List.length_take, hl]; omega
      · exact h2

/-- The same slice of options for two tensors, with room for two more: the second node gets the shape of the *first* tensor after its
own, and the last option is lost. -/
theorem fromTensor_twice (μ : Arrays α) (opts : Slc) (nil value shape value' shape' : α) (sp1 sp2 sp3 sp4 : List α)
    (hv : opts.Valid μ) (hc : opts.len + 2 ≤ opts.cap μ) :
    let r := fromTensor (fromTensor μ opts nil value shape sp1 sp2).1 opts nil value' shape' sp3 sp4
    r.2.view r.1 = shape' :: ((shape :: opts.view μ).take opts.len ++ [value']) := by
  have h := (fromTensor_spec (fromTensor μ opts nil value shape sp1 sp2).1 opts nil value' shape' sp3 sp4
    (fromTensor_valid μ opts nil value shape sp1 sp2 hv)).1
  simp only at h ⊢
  rw [h, fromTensor_caller μ opts nil value shape sp1 sp2 hv, if_pos hc]

/-- Without room for two more, the second call is as good as the first; so it is for options written out in the call. -/
theorem fromTensor_twice_full (μ : Arrays α) (opts : Slc) (nil value shape value' shape' : α) (sp1 sp2 sp3 sp4 : List α)
    (hv : opts.Valid μ) (hc : opts.cap μ < opts.len + 2) :
    let r := fromTensor (fromTensor μ opts nil value shape sp1 sp2).1 opts nil value' shape' sp3 sp4
    r.2.view r.1 = shape' :: (opts.view μ ++ [value']) := by
  have h := (fromTensor_spec (fromTensor μ opts nil value shape sp1 sp2).1 opts nil value' shape' sp3 sp4
    (fromTensor_valid μ opts nil value shape sp1 sp2 hv)).1
  simp only at h ⊢
  rw [h, fromTensor_caller μ opts nil value shape sp1 sp2 hv, if_neg (by omega)]

/-- `NodeFromAny` of a scalar leaves the caller's slice as it was (not what lies behind it). -/
theorem fromScalar_spec (μ : Arrays α) (opts : Slc) (value : α) (sp : List α) (hv : opts.Valid μ) :
    let r := fromScalar μ opts value sp
    r.2.view r.1 = opts.view μ ++ [value] ∧ opts.view r.1 = opts.view μ := by
  refine ⟨(goAppend_view hv).1, ?_⟩
  show opts.view (goAppend μ opts [value] sp).1 = _
  have hl := view_length hv
  have hoff : opts.off ≤ (μ.data opts.arr).length := by have := hv.2; omega
  have hpl : ((μ.data opts.arr).take opts.off).length = opts.off := by simp; omega
  by_cases h : opts.len + [value].length ≤ opts.cap μ
  · obtain ⟨e1, e2⟩ := goAppend_room (sp := sp) hv h
    rw [e1]
    refine view_of (post := [value] ++ (μ.data opts.arr).drop (opts.off + opts.len + [value].length)) ?_ hpl.symm hl.symm
    rw [e2]; simp
  · unfold Slc.view
    rw [goAppend_frame opts.arr hv.1 (Or.inr (by omega))]

/-! ### The node made from the wrong options -/

/-- `NewTensor` with the options a second call of `NodeFromAny` hands it if the caller's slice was a single option with room for two
more: as many axes in both tensors, and the node has the shape of the first tensor and the value of the second. -/
theorem second_node_shape {E : Type} (h : Value.Heap E) (p : Nat) (dt : Dt) (s s' : List Nat) (d' : List E)
    (hp : h.mem p = some (.tn dt s' d')) (hl : s.length = s'.length) :
    ∃ n, Value.newNode h [.type (.tens s'.length (.dt dt)), .shape s', .shape s, .value (.val (.base (.tn p)))] = .ok (h, n) ∧
      n.shape = some s ∧ n.bound = .base (.tn p) := by
  refine ⟨?_, ?_, ?_, ?_⟩
  rotate_left 1
  · simp only [Value.newNode, Value.applyOpts, Value.applyOpt, Value.Node.dims, Res.bind, Value.anyToValue, Value.typeOf, Value.info,
      Value.infoBase, hp, hl, Value.bind]
    simp [hp]
    rfl
  · rfl
  · rfl

/-- With different numbers of axes the second call panics. -/
theorem second_node_panics {E : Type} (h : Value.Heap E) (p : Nat) (dt : Dt) (s s' : List Nat)
    (hl : s.length ≠ s'.length) (h1 : s'.length ≠ 0) (h2 : Value.isVec s = false ∨ s'.length ≠ 1) :
    Value.newNode h [.type (.tens s'.length (.dt dt)), .shape s', .shape s, .value (.val (.base (.tn p)))] = .panic := by
  have h3 : ¬ ((s'.length : Int) = s.length) := by omega
  have h4 : ¬ ((s'.length : Int) = 0) := by omega
  have h5 : ¬ (Value.isVec s = true ∧ s'.length = 1) := by
    rintro ⟨e1, e2⟩
    rcases h2 with h2 | h2
    · rw [e1] at h2; cases h2
    · omega
  have h4' : s' ≠ [] := by rintro rfl; simp at h1
  simp only [Value.newNode, Value.applyOpts, Value.applyOpt, Value.Node.dims, Res.bind]
  simp [h3, h4', h5]

/-! ### `Reshape` -/

/-- What `Reshape` (operations.go 540-567) leaves in the slice it is given: line 566 overwrites the negative entry. -/
def reshapeArg (n : List Nat) (dst : List Int) : List Int :=
  let r := negs 0 dst (0, 0)
  if r.1 = 1 ∧ prodSkip r.2 0 dst ≠ 0 ∧ Int.tmod (size n) (prodSkip r.2 0 dst) = 0 then
    dst.set r.2 (Int.tdiv (size n) (prodSkip r.2 0 dst))
  else dst

theorem reshapeTo_nonneg (n : List Nat) (dst : List Int) (h : ∀ x ∈ dst, 0 ≤ x) :
    reshapeTo n dst = if n.length > 0 ∧ size n ≠ size (dst.map Int.toNat) then .err else .ok (dst.map Int.toNat) := by
  simp [reshapeTo, negs_none _ h, Res.bind]

/-- After a successful `Reshape` the caller's slice holds the shape of the result. -/
theorem reshape_arg (n : List Nat) (dst : List Int) (s : List Nat) (h : reshapeTo n dst = .ok s) :
    reshapeArg n dst = s.map Int.ofNat := by
  have hc := negs_fst dst 0 0 0
  by_cases h0 : dst.countP (fun x => decide (x < 0)) = 0
  · have hnn := countP_zero _ h0
    rw [reshapeTo_nonneg _ _ hnn] at h
    have hs : dst.map Int.toNat = s := by
      split at h
      · cases h
      · exact Res.ok.inj h
    rw [reshapeArg, negs_none _ hnn, if_neg (by simp), ← hs, List.map_map]
    refine (List.map_id dst).symm.trans (List.map_congr_left fun x hx => ?_)
    have := hnn x hx
    simp only [id, Function.comp, Int.ofNat_eq_natCast]; omega
  · by_cases h1 : dst.countP (fun x => decide (x < 0)) = 1
    · obtain ⟨pre, x, post, rfl, hp, hx, hq⟩ := countP_one _ h1
      have hn := negs_one pre post x hp hx hq 0 0 0
      have hps := prodSkip_one pre post x hp hq 0
      simp only [Nat.zero_add] at hn hps
      unfold reshapeTo at h
      unfold reshapeArg
      simp only [hn, hps] at h ⊢
      generalize hP : size (pre.map Int.toNat) * size (post.map Int.toNat) = P at *
      by_cases hz : (P : Int) = 0
      · simp [hz, Res.bind] at h
      · by_cases hm : Int.tmod (size n) P = 0
        · have hq0 : 0 ≤ Int.tdiv (size n) P := Int.tdiv_nonneg (Int.natCast_nonneg _) (Int.natCast_nonneg _)
          simp only [hm, hz, ne_eq, not_true, if_false, not_false_iff, and_self, if_true, Res.bind, gt_iff_lt, Nat.lt_irrefl] at h ⊢
          have hs : ((pre ++ x :: post).set pre.length (Int.tdiv (size n) P)).map Int.toNat = s := by
            split at h
            · cases h
            · exact Res.ok.inj h
          rw [← hs, List.map_map]
          refine (List.map_id _).symm.trans (List.map_congr_left fun y hy => ?_)
          have : 0 ≤ y := by
            simp only [List.set_append_right _ _ (le_refl pre.length), Nat.sub_self, List.set_cons_zero, List.mem_append, List.mem_cons] at hy
            rcases hy with hy | rfl | hy
            · exact hp y hy
            · exact hq0
            · exact hq y hy
          simp only [id, Function.comp, Int.ofNat_eq_natCast]; omega
        · have hz' : ¬ P = 0 := by omega
          simp [hz', hm, Res.bind] at h
    · exfalso
      simp only [reshapeTo] at h
      have : (negs 0 dst (0, 0)).1 > 1 := by omega
      simp [this] at h

/-- The same slice for another node: it works exactly for nodes of the same size (or without shape), and always gives the same shape. -/
theorem reshape_reuse (n n' : List Nat) (dst : List Int) (s : List Nat) (h : reshapeTo n dst = .ok s) :
    reshapeTo n' (reshapeArg n dst) = if n'.length > 0 ∧ size n' ≠ size s then .err else .ok s := by
  rw [reshape_arg n dst s h, reshapeTo_nonneg _ _ (by simp)]
  have : (s.map Int.ofNat).map Int.toNat = s := by simp [List.map_map, Function.comp_def]
  rw [this]

/-- With a negative entry this is not what a fresh slice gives: 4 and 6 elements in rows of two. -/
theorem reshape_reuse_differs :
    reshapeTo [4] [-1, 2] = .ok [2, 2] ∧ reshapeTo [6] [-1, 2] = .ok [3, 2] ∧ reshapeTo [6] (reshapeArg [4] [-1, 2]) = .err := by
  decide

/-- `Reshape` in memory; the slice also becomes the field `to` of the operation (operations.go 574-577). -/
def reshapeMem (μ : Arrays Int) (dst : Slc) (n : List Nat) : Arrays Int := μ.put dst.arr dst.off (reshapeArg n (dst.view μ))

/-- `reshapeOp.Do` (op_tensor.go 1153-1189) on a tensor of shape `n`: the shape of the result; other sizes are an error of the library
(assumed). -/
def runReshape (μ : Arrays Int) (op : Slc) (n : List Nat) : Res (List Nat) :=
  if size n = size ((op.view μ).map Int.toNat) then .ok ((op.view μ).map Int.toNat) else .err

theorem put_view {μ : Arrays α} {s : Slc} {xs : List α} (hv : s.Valid μ) (hl : xs.length = s.len) :
    s.view (μ.put s.arr s.off xs) = xs ∧ s.Valid (μ.put s.arr s.off xs) := by
  have h2 := hv.2
  refine ⟨view_of (put_self ..) (by simp; omega) hl.symm, hv.1, ?_⟩
  rw [put_self]; simp only [List.length_append, List.length_take, List.length_drop, hl]; omega

theorem reshapeArg_length (n : List Nat) (dst : List Int) : (reshapeArg n dst).length = dst.length := by
  unfold reshapeArg; dsimp only; split <;> simp

/-- A caller that fills the same slice anew for the next `Reshape` changes the operation of the node made before: run after that, it
gives the shape of the second request or fails, whatever was asked for first. -/
theorem reshape_alias (μ : Arrays Int) (dst : Slc) (hv : dst.Valid μ) (n n' : List Nat) (req : List Int) (s s' : List Nat)
    (hn : n ≠ []) (hr : req.length = dst.len) (h1 : reshapeTo n (dst.view μ) = .ok s) (h2 : reshapeTo n' req = .ok s') :
    let μ1 := reshapeMem μ dst n
    let μ3 := reshapeMem (μ1.put dst.arr dst.off req) dst n'
    runReshape μ1 dst n = .ok s ∧ runReshape μ3 dst n = if size n = size s' then .ok s' else .err := by
  intro μ1 μ3
  have e1 : dst.view μ1 = s.map Int.ofNat ∧ dst.Valid μ1 := by
    have := put_view (xs := reshapeArg n (dst.view μ)) hv (by rw [reshapeArg_length, view_length hv])
    exact ⟨this.1.trans (reshape_arg n _ s h1), this.2⟩
  have e2 := put_view (xs := req) e1.2 hr
  have e3 : dst.view μ3 = s'.map Int.ofNat := by
    have := put_view (xs := reshapeArg n' (dst.view (μ1.put dst.arr dst.off req))) e2.2 (by rw [reshapeArg_length, e2.1, hr])
    refine this.1.trans ?_
    rw [e2.1]; exact reshape_arg n' _ s' h2
  have hid : ∀ l : List Nat, (l.map Int.ofNat).map Int.toNat = l := fun l => by simp [List.map_map, Function.comp_def]
  have hsize : size n = size s := by
    cases (reshape_ok_iff n _ s hn).1 h1 with
    | exact _ _ hz => exact hz.symm
    | inferred _ _ _ _ _ _ _ _ _ _ hz => exact hz.symm
  refine ⟨?_, ?_⟩
  · simp only [runReshape, e1.1, hid, hsize, if_true]
  · simp only [runReshape, e3, hid]

/-! ### Sets of nodes -/

theorem view_congr {s : Slc} {μ μ' : Arrays α} (h : μ'.data s.arr = μ.data s.arr) : s.view μ' = s.view μ := by
  unfold Slc.view; rw [h]

/-- The machine keeps a slice of its own: the nodes handed to `BindDualValues` stay as they are, and the machine's slice is the set of
all. -/
theorem bindDV_spec (μ : Arrays Nat) (own nodes : Slc) (sp : List Nat) (setf : List Nat → List Nat) (ho : own.Valid μ)
    (hn : nodes.Valid μ) (hne : nodes.arr ≠ own.arr) (hs : ∀ l, (setf l).length = l.length) :
    let r := bindDV μ own nodes sp setf
    r.2.view r.1 = setf (own.view μ ++ nodes.view μ) ∧ nodes.view r.1 = nodes.view μ := by
  have hv := goAppend_view (xs := nodes.view μ) (sp := sp) ho
  refine ⟨?_, ?_⟩
  · show ((goAppend μ own (nodes.view μ) sp).2).view ((goAppend μ own (nodes.view μ) sp).1.put _ _ _) = _
    rw [(put_view hv.2 (by rw [hs, view_length hv.2])).1, hv.1]
  · show nodes.view ((goAppend μ own (nodes.view μ) sp).1.put _ _ _) = _
    have h1 : nodes.arr ≠ (goAppend μ own (nodes.view μ) sp).2.arr := by
      have := hn.1
      rcases goAppend_arr μ own (nodes.view μ) sp with h | h <;> rw [h] <;> omega
    exact view_congr ((put_other _ _ _ _ _ h1).trans (goAppend_frame _ hn.1 (Or.inl hne)))

/-- `ns.Set()` on a slice in memory. -/
def setIn (r : Arrays Nat × Slc) (setf : List Nat → List Nat) : Arrays Nat := r.1.put r.2.arr r.2.off (setf (r.2.view r.1))

/-- `subgraph` (graph.go 627-689) as far as the slice `ns` is concerned, which `Subgraph` (708-713) hands on from its caller: the
statements `stmts` that use one of the nodes are appended one by one, then the slice is sorted and made unique in place (`setf`: the
whole of what `Set` leaves in the slice, collections.go 35-40). -/
def subgraphMem (μ : Arrays Nat) (ns : Slc) (stmts sp : List Nat) (setf : List Nat → List Nat) : Arrays Nat :=
  let r := stmts.foldl (fun r p => goAppend r.1 r.2 [p] sp) (μ, ns)
  setIn r setf

/-- Without statements that use the nodes, `Subgraph` leaves the nodes in the caller's slice in the order of their addresses. -/
theorem subgraph_sorts (μ : Arrays Nat) (ns : Slc) (sp : List Nat) (setf : List Nat → List Nat) (hv : ns.Valid μ)
    (hs : ∀ l, (setf l).length = l.length) : ns.view (subgraphMem μ ns [] sp setf) = setf (ns.view μ) :=
  (put_view (xs := setf (ns.view μ)) hv (by rw [hs, view_length hv])).1

theorem take_view {μ : Arrays α} {s : Slc} {k : Nat} (hk : s.len ≤ k) :
    s.view μ = (({ s with len := k } : Slc).view μ).take s.len := by
  simp only [Slc.view, List.take_take, Nat.min_eq_left hk]

/-- With a statement and room for it, the caller is left with the first of all nodes together. -/
theorem subgraph_loses (μ : Arrays Nat) (ns : Slc) (p : Nat) (sp : List Nat) (setf : List Nat → List Nat) (hv : ns.Valid μ)
    (hs : ∀ l, (setf l).length = l.length) (hc : ns.len + 1 ≤ ns.cap μ) :
    ns.view (subgraphMem μ ns [p] sp setf) = (setf (ns.view μ ++ [p])).take ns.len := by
  have e1 := (goAppend_room (xs := [p]) (sp := sp) hv hc).1
  have hv1 := goAppend_view (xs := [p]) (sp := sp) hv
  have := (put_view (xs := setf ((goAppend μ ns [p] sp).2.view (goAppend μ ns [p] sp).1)) hv1.2 (by rw [hs, view_length hv1.2])).1
  show ns.view (setIn (goAppend μ ns [p] sp) setf) = _
  rw [take_view (k := ns.len + 1) (by omega)]
  have e2 : (goAppend μ ns [p] sp).2 = { ns with len := ns.len + 1 } := by rw [e1]; rfl
  rw [hv1.1] at this
  rw [setIn, hv1.1, ← e2, this]

/-- Without room for it, the caller's slice stays as it was. -/
theorem subgraph_full (μ : Arrays Nat) (ns : Slc) (p : Nat) (sp : List Nat) (setf : List Nat → List Nat) (hv : ns.Valid μ)
    (hc : ns.cap μ < ns.len + 1) : ns.view (subgraphMem μ ns [p] sp setf) = ns.view μ := by
  have e1 := goAppend_full (xs := [p]) (sp := sp) (s := ns) (μ := μ) (by simp only [List.length_singleton]; omega)
  show ns.view (setIn (goAppend μ ns [p] sp) setf) = _
  have hne : ns.arr ≠ (goAppend μ ns [p] sp).2.arr := by rw [e1]; have := hv.1; simp only; omega
  exact view_congr ((put_other _ _ _ _ _ hne).trans (goAppend_frame _ hv.1 (Or.inr (by simp only [List.length_singleton]; omega))))

/-- A slice of nodes at addresses 9 and 5 with a third place behind it, and a statement at address 7 that uses one of them: the caller
is left with 5 and the statement instead of 9. -/
theorem subgraph_loses_node :
    ∃ (μ : Arrays Nat) (ns : Slc), ns.Valid μ ∧ ns.view μ = [9, 5] ∧
      ns.view (subgraphMem μ ns [7] [] (fun l => l.insertionSort (· ≤ ·))) = [5, 7] :=
  ⟨⟨fun _ => [9, 5, 0], 1⟩, ⟨0, 0, 2⟩, ⟨by decide, by decide⟩, by decide, by decide⟩

/-! ### Examples -/

/-- Three options in an array of five. -/
def argMem : Arrays Nat := ⟨fun _ => [1, 2, 3, 0, 0], 1⟩

example : (⟨0, 0, 3⟩ : Slc).Valid argMem := ⟨by decide, by decide⟩
example : let r := fromTensor argMem ⟨0, 0, 3⟩ 0 7 8 [] []
    r.2.view r.1 = [8, 1, 2, 3, 7] ∧ (⟨0, 0, 3⟩ : Slc).view r.1 = [8, 1, 2] := by decide
example : let r := fromTensor (fromTensor argMem ⟨0, 0, 3⟩ 0 7 8 [] []).1 ⟨0, 0, 3⟩ 0 17 18 [] []
    r.2.view r.1 = [18, 8, 1, 2, 17] := by decide
example : let r := fromTensor argMem ⟨0, 2, 3⟩ 0 7 8 [] []
    r.2.view r.1 = [8, 3, 0, 0, 7] ∧ r.1.data 0 = [1, 2, 3, 0, 0] := by decide
example : let r := bindDV ⟨fun a => if a = 0 then [4, 2] else [3, 1, 5], 2⟩ ⟨0, 0, 2⟩ ⟨1, 0, 2⟩ [] (fun l => l.insertionSort (· ≤ ·))
    r.2.view r.1 = [1, 2, 3, 4] ∧ (⟨1, 0, 2⟩ : Slc).view r.1 = [3, 1] := by decide
example : reshapeArg [2, 6] [3, -1] = [3, 4] ∧ reshapeTo [2, 6] [3, -1] = .ok [3, 4] := by decide
example : let μ : Arrays Int := ⟨fun _ => [-1, 2], 1⟩
    let μ1 := reshapeMem μ ⟨0, 0, 2⟩ [4]
    let μ3 := reshapeMem (μ1.put 0 0 [-1, 2]) ⟨0, 0, 2⟩ [6]
    runReshape μ1 ⟨0, 0, 2⟩ [4] = .ok [2, 2] ∧ runReshape μ3 ⟨0, 0, 2⟩ [4] = .err := by decide

end Verif.Misc
