import Verif.Shape.Transpose
import Verif.Shape.Model
/-!
`StandardEngine.Transpose` (`engine.go`): the elements of a tensor whose axes have been permuted lazily are moved to the
row-major order of the new shape. The tensor library calls it with a tensor that has the new shape and the permuted
strides and the old data; its iterator (assumed) yields the positions of the elements in row-major order of the shape.
-/
set_option autoImplicit false
namespace Verif.Misc

open Verif.Tensor Verif.Shape

/-- Row-major strides (assumed meaning of `Shape.CalcStrides`). -/
def strides : List Nat → List Nat
  | [] => []
  | _ :: s => size s :: strides s

/-- Position of the coordinate `i` for the strides `st`. -/
def pos (i st : List Nat) : Nat := ((List.range st.length).map fun k => i.getD k 0 * st.getD k 0).sum

/-- The iterator of a tensor of shape `s` with strides `st`. -/
def nexts (s st : List Nat) : List Nat := (List.range (size s)).map fun k => pos (unravel s k) st

/-- The loops `tmp[i] = data[next]` (`engine.go:40-43` and `49-52`): `none` is an index out of range. -/
def fill {α : Type} (data : List α) : List Nat → Nat → List α → Option (List α)
  | [], _, tmp => some tmp
  | n :: ns, i, tmp =>
    if i < tmp.length then
      match data[n]? with
      | none => none
      | some x => fill data ns (i + 1) (tmp.set i x)
    else none

/-- Go's `copy(dst, src)`. -/
def goCopy {α : Type} (dst src : List α) : List α := src.take dst.length ++ dst.drop src.length

/-- The float64 case, `engine.go:23-45`. -/
def transpose64 {α : Type} (zero : α) (data : List α) (ns : List Nat) : Res (List α) :=
  match ns.getLast? with
  | none => .panic
  | some l =>
    if data.length < l + 1 then .panic
    else
      match fill (data.take (l + 1)) ns 0 (List.replicate (l + 1) zero) with
      | none => .panic
      | some tmp => .ok (goCopy data tmp)

/-- The float32 case, `engine.go:46-53`. -/
def transpose32 {α : Type} (zero : α) (data : List α) (ns : List Nat) : Res (List α) :=
  match fill data ns 0 (List.replicate data.length zero) with
  | none => .panic
  | some tmp => .ok (goCopy data tmp)

/-! ### The loops -/

theorem fill_spec {α : Type} (data : List α) (ns : List Nat) : ∀ (i : Nat) (tmp : List α),
    i + ns.length ≤ tmp.length → (∀ n ∈ ns, n < data.length) →
    ∃ out, fill data ns i tmp = some out ∧ out.length = tmp.length ∧
      (∀ k, k < ns.length → ∀ n, ns[k]? = some n → out[i + k]? = data[n]?) ∧
      (∀ k, k < i ∨ i + ns.length ≤ k → out[k]? = tmp[k]?) := by
  induction ns with
  | nil => intro i tmp _ _; exact ⟨tmp, rfl, rfl, by simp, by simp⟩
  | cons n ns ih =>
    intro i tmp hl hb
    have hn := hb n (List.mem_cons_self ..)
    simp only [List.length_cons] at hl
    obtain ⟨out, h1, h2, h3, h4⟩ := ih (i + 1) (tmp.set i data[n]) (by simp; omega)
      (fun m hm => hb m (List.mem_cons_of_mem _ hm))
    refine ⟨out, ?_, by simpa using h2, ?_, ?_⟩
    · unfold fill
      rw [if_pos (by omega)]
      simp only [List.getElem?_eq_getElem hn]
      exact h1
    · intro k hk m hm
      cases k with
      | zero =>
        simp only [List.getElem?_cons_zero, Option.some.injEq] at hm
        subst hm
        rw [h4 (i + 0) (Or.inl (by omega))]
        simp only [Nat.add_zero]
        rw [List.getElem?_set_self (by omega), List.getElem?_eq_getElem hn]
      | succ k =>
        simp only [List.getElem?_cons_succ] at hm
        have := h3 k (by simpa using hk) m hm
        rw [show i + 1 + k = i + (k + 1) by omega] at this
        exact this
    · intro k hk
      simp only [List.length_cons] at hk
      rw [h4 k (by omega), List.getElem?_set_ne (by omega)]

/-- What the float64 case does to any buffer, for any positions whose last one is the largest: the elements read come
first, the rest up to the largest position is zeroed, everything after that is kept. -/
theorem transpose64_any {α : Type} (zero : α) (data : List α) (ns : List Nat) (l : Nat) (hl : ns.getLast? = some l)
    (hm : ∀ n ∈ ns, n ≤ l) (hd : l < data.length) (hn : ns.length ≤ l + 1) :
    ∃ out, transpose64 zero data ns = .ok out ∧ out.length = data.length ∧
      (∀ k n : Nat, ns[k]? = some n → out[k]? = data[n]?) ∧
      (∀ k, ns.length ≤ k → k ≤ l → out[k]? = some zero) ∧
      (∀ k, l < k → out[k]? = data[k]?) := by
  obtain ⟨tmp, h1, h2, h3, h4⟩ := fill_spec (data.take (l + 1)) ns 0 (List.replicate (l + 1) zero) (by simpa using hn)
    (by intro n h; have := hm n h; simp; omega)
  simp only [List.length_replicate] at h2
  refine ⟨goCopy data tmp, ?_, ?_, ?_, ?_, ?_⟩
  · unfold transpose64
    simp only [hl]
    rw [if_neg (by omega)]
    simp only [h1]
  · simp [goCopy, h2]; omega
  · intro k n hk
    have hkl : k < ns.length := by
      rcases Nat.lt_or_ge k ns.length with h | h
      · exact h
      · rw [List.getElem?_eq_none h] at hk; cases hk
    have hnl := hm n (List.mem_of_getElem? hk)
    have := h3 k hkl n hk
    simp only [Nat.zero_add] at this
    unfold goCopy
    rw [List.getElem?_append_left (by simp; omega), List.getElem?_take_of_lt (by omega), this,
      List.getElem?_take_of_lt (by omega)]
  · intro k hk hkl
    unfold goCopy
    rw [List.getElem?_append_left (by simp; omega), List.getElem?_take_of_lt (by omega), h4 k (Or.inr (by omega)),
      List.getElem?_replicate, if_pos (by omega)]
  · intro k hk
    unfold goCopy
    rw [List.getElem?_append_right (by simp; omega), List.getElem?_drop]
    congr 1
    simp [h2]
    omega

/-- What the float32 case does: the elements read come first, everything else is zeroed. -/
theorem transpose32_any {α : Type} (zero : α) (data : List α) (ns : List Nat) (hm : ∀ n ∈ ns, n < data.length)
    (hn : ns.length ≤ data.length) :
    ∃ out, transpose32 zero data ns = .ok out ∧ out.length = data.length ∧
      (∀ k n : Nat, ns[k]? = some n → out[k]? = data[n]?) ∧
      (∀ k, ns.length ≤ k → k < data.length → out[k]? = some zero) := by
  obtain ⟨tmp, h1, h2, h3, h4⟩ := fill_spec data ns 0 (List.replicate data.length zero) (by simpa using hn) hm
  simp only [List.length_replicate] at h2
  have hc : goCopy data tmp = tmp := by
    unfold goCopy
    rw [List.take_of_length_le (by omega), List.drop_eq_nil_of_le (by omega), List.append_nil]
  refine ⟨tmp, ?_, h2, ?_, ?_⟩
  · unfold transpose32
    simp only [h1, hc]
  · intro k n hk
    have hkl : k < ns.length := by
      rcases Nat.lt_or_ge k ns.length with h | h
      · exact h
      · rw [List.getElem?_eq_none h] at hk; cases hk
    simpa using h3 k hkl n hk
  · intro k hk hkl
    rw [h4 k (Or.inr (by omega)), List.getElem?_replicate, if_pos (by omega)]

/-! ### Strides -/

theorem strides_length (s : List Nat) : (strides s).length = s.length := by
  induction s with
  | nil => rfl
  | cons d s ih => simp [strides, ih]

theorem pos_cons (a b : Nat) (i st : List Nat) : pos (a :: i) (b :: st) = a * b + pos i st := by
  unfold pos
  simp only [List.length_cons, List.range_succ_eq_map, List.map_cons, List.map_map, List.sum_cons]
  rfl

theorem pos_strides (s : List Nat) : ∀ i, i.length = s.length → pos i (strides s) = ravel s i := by
  induction s with
  | nil => intro i h; cases i with
    | nil => rfl
    | cons a i => simp at h
  | cons d s ih => intro i h; cases i with
    | nil => simp at h
    | cons a i =>
      simp only [strides, ravel]
      rw [pos_cons, ih i (by simpa using h)]

/-- Permuting the strides makes the coordinate `j` of the new shape stand where `scatter p j` stood. -/
theorem pos_permute {p : List Nat} (h : IsPerm p) (st j : List Nat) (hs : st.length = p.length) :
    pos j (permute p st) = pos (scatter p j) st := by
  have h1 : pos j (permute p st) = (p.map fun m => j.getD (p.idxOf m) 0 * st.getD m 0).sum := by
    unfold pos
    rw [permute_length]
    congr 1
    apply List.ext_getElem
    · simp
    · intro k hk hk'
      simp only [List.length_map, List.length_range] at hk
      have e1 : p.idxOf p[k] = k := List.Nodup.idxOf_getElem h.nodup k hk
      simp [permute, hk, e1]
  have h2 : pos (scatter p j) st = ((List.range p.length).map fun m => j.getD (p.idxOf m) 0 * st.getD m 0).sum := by
    unfold pos
    rw [hs]
    congr 1
    apply List.map_congr_left
    intro m hm
    rw [List.mem_range] at hm
    simp [scatter, hm]
  rw [h1, h2]
  exact (List.Perm.map _ h).sum_eq

theorem nexts_get (s st : List Nat) (k : Nat) (hk : k < size s) : (nexts s st)[k]? = some (pos (unravel s k) st) := by
  simp [nexts, hk]

theorem size_permute {p : List Nat} (h : IsPerm p) (s : List Nat) (hs : s.length = p.length) :
    size (permute p s) = size s := by
  have hp : ∀ l : List Nat, size l = l.prod := by
    intro l
    induction l with
    | nil => rfl
    | cons d l ih => simp [size, ih]
  rw [hp, hp]
  have h1 : (permute p s).Perm ((List.range p.length).map fun a => s.getD a 0) := List.Perm.map _ h
  rw [h1.prod_eq]
  congr 1
  apply List.ext_getElem
  · simp [hs]
  · intro k hk hk'
    simp [hk']

theorem ravel_last (s : List Nat) (hp : ∀ d ∈ s, 0 < d) : ravel s (s.map (· - 1)) = size s - 1 := by
  induction s with
  | nil => rfl
  | cons d s ih =>
    have hd := hp d (List.mem_cons_self ..)
    have hs : 0 < size s := by
      clear ih
      have : ∀ e ∈ s, 0 < e := fun e he => hp e (List.mem_cons_of_mem _ he)
      clear hp
      induction s with
      | nil => simp [size]
      | cons e s ih2 =>
        exact Nat.mul_pos (this e (List.mem_cons_self ..)) (ih2 (fun e he => this e (List.mem_cons_of_mem _ he)))
    simp only [List.map_cons, ravel, size]
    rw [ih (fun e he => hp e (List.mem_cons_of_mem _ he))]
    obtain ⟨d', rfl⟩ : ∃ d', d = d' + 1 := ⟨d - 1, by omega⟩
    simp only [Nat.add_sub_cancel, Nat.succ_mul]
    omega

theorem inB_last (s : List Nat) (hp : ∀ d ∈ s, 0 < d) : InB s (s.map (· - 1)) := by
  induction s with
  | nil => trivial
  | cons d s ih =>
    have := hp d (List.mem_cons_self ..)
    exact ⟨Nat.sub_lt this Nat.one_pos, ih (fun e he => hp e (List.mem_cons_of_mem _ he))⟩

/-- C97. For a whole tensor of positive sizes and any permutation of its axes, both cases return the elements of the
transposed tensor in row-major order: nothing is lost and the comment of `engine.go:33` holds. -/
theorem engine_transpose {α : Type} (zero : α) {p : List Nat} (h : IsPerm p) (s : List Nat) (hs : s.length = p.length)
    (hp : ∀ d ∈ s, 0 < d) (data : List α) (hd : data.length = size s) :
    ∃ out, transpose64 zero data (nexts (permute p s) (permute p (strides s))) = .ok out ∧
      transpose32 zero data (nexts (permute p s) (permute p (strides s))) = .ok out ∧ out.length = size s ∧
      ∀ j, InB (permute p s) j → out[ravel (permute p s) j]? = data[ravel s (scatter p j)]? := by
  have hlen : (nexts (permute p s) (permute p (strides s))).length = size s := by
    simp [nexts, size_permute h s hs]
  have hsz := size_permute h s hs
  have hget : ∀ j, InB (permute p s) j →
      (nexts (permute p s) (permute p (strides s)))[ravel (permute p s) j]? = some (ravel s (scatter p j)) := by
    intro j hj
    rw [nexts_get _ _ _ (ravel_lt hj), unravel_ravel hj, pos_permute h _ _ (by rw [strides_length, hs]),
      pos_strides _ _ (by rw [scatter_length, hs])]
  have hall : ∀ n ∈ nexts (permute p s) (permute p (strides s)), n ≤ size s - 1 := by
    intro n hn
    obtain ⟨k, hk, rfl⟩ := List.mem_map.mp hn
    rw [List.mem_range] at hk
    have hj := inB_unravel hk
    rw [pos_permute h _ _ (by rw [strides_length, hs]), pos_strides _ _ (by rw [scatter_length, hs])]
    have := ravel_lt (inB_scatter h s _ hs hj)
    omega
  have hpp : ∀ d ∈ permute p s, 0 < d := by
    intro d hdm
    obtain ⟨a, ha, rfl⟩ := List.mem_map.mp hdm
    have := h.mem.mp ha
    have hlt : a < s.length := by omega
    rw [getD_eq s a hlt]
    exact hp _ (List.getElem_mem hlt)
  have hpos : 0 < size s := (inB_last s hp).size_pos
  have hlast : (nexts (permute p s) (permute p (strides s))).getLast? = some (size s - 1) := by
    rw [List.getLast?_eq_getElem?, hlen, ← hsz, ← ravel_last (permute p s) hpp, hget _ (inB_last _ hpp)]
    congr 1
    have e : scatter p ((permute p s).map (· - 1)) = s.map (· - 1) := by
      have e1 : (permute p s).map (· - 1) = permute p (s.map (· - 1)) := by
        unfold permute
        rw [List.map_map]
        apply List.map_congr_left
        intro a ha
        have := h.mem.mp ha
        have hlt : a < s.length := by omega
        simp [hlt]
      rw [e1]
      exact scatter_permute h _ (by simpa using hs)
    rw [e, ravel_last s hp, ravel_last (permute p s) hpp, hsz]
  obtain ⟨o1, a1, a2, a3, -, -⟩ := transpose64_any zero data _ _ hlast hall (by omega) (by omega)
  obtain ⟨o2, b1, b2, b3, -⟩ := transpose32_any zero data (nexts (permute p s) (permute p (strides s)))
    (fun n hn => by have := hall n hn; omega) (by omega)
  have heq : o1 = o2 := by
    apply List.ext_getElem?
    intro k
    rcases Nat.lt_or_ge k (size s) with hk | hk
    · have := nexts_get (permute p s) (permute p (strides s)) k (by omega)
      rw [a3 k _ this, b3 k _ this]
    · rw [List.getElem?_eq_none (by omega), List.getElem?_eq_none (by omega)]
  refine ⟨o1, a1, by rw [heq]; exact b1, by omega, ?_⟩
  intro j hj
  exact a3 _ _ (hget j hj)

/-- C97, in terms of tensors: reading the new data in the new shape is the transposed tensor. -/
theorem engine_transpose_tensor {α : Type} (zero : α) {p : List Nat} (h : IsPerm p) (s : List Nat)
    (hs : s.length = p.length) (hp : ∀ d ∈ s, 0 < d) (data out : List α) (hd : data.length = size s)
    (ho : transpose64 zero data (nexts (permute p s) (permute p (strides s))) = .ok out) :
    (ofFlat (permute p s) fun k => out.getD k zero).Same (transposeT p (ofFlat s fun k => data.getD k zero)) := by
  obtain ⟨o, h1, -, -, h4⟩ := engine_transpose zero h s hs hp data hd
  rw [ho] at h1
  injection h1 with h1
  subst h1
  refine ⟨rfl, ?_⟩
  intro j hj
  show out.getD (ravel (permute p s) j) zero = data.getD (ravel s (scatter p j)) zero
  rw [List.getD_eq_getElem?_getD, List.getD_eq_getElem?_getD, h4 j hj]

/-- C97, where it fails: a tensor that is a view of part of a buffer. The float32 case zeroes every element of the buffer
after the elements of the view, for any view that does not fill the buffer. -/
theorem transpose32_destroys {α : Type} (zero : α) (data : List α) (ns : List Nat) (hm : ∀ n ∈ ns, n < data.length)
    (hn : ns.length < data.length) (x : α) (hx : data.getLast? = some x) (hz : x ≠ zero) :
    ∃ out, transpose32 zero data ns = .ok out ∧ out.getLast? = some zero ∧ out.getLast? ≠ data.getLast? := by
  obtain ⟨out, h1, h2, -, h4⟩ := transpose32_any zero data ns hm (by omega)
  have h : out.getLast? = some zero := by
    rw [List.getLast?_eq_getElem?, h2]
    exact h4 _ (by omega) (by omega)
  refine ⟨out, h1, h, ?_⟩
  rw [h, hx]
  intro e
  injection e with e
  exact hz e.symm

/-- C97, where it fails: an empty tensor makes the float64 case panic, the float32 case does nothing. -/
theorem transpose_empty {α : Type} (zero : α) (data : List α) :
    transpose64 zero data [] = .panic ∧ transpose32 zero ([] : List α) [] = .ok [] := ⟨rfl, rfl⟩

/-! ### Examples -/

example : nexts (permute [1, 0] [2, 3]) (permute [1, 0] (strides [2, 3])) = [0, 3, 1, 4, 2, 5] := by decide
example : transpose64 0 [1, 2, 3, 4, 5, 6] (nexts (permute [1, 0] [2, 3]) (permute [1, 0] (strides [2, 3])))
    = .ok [1, 4, 2, 5, 3, 6] := by decide
example : transpose32 0 [1, 2, 3, 4, 5, 6] (nexts (permute [1, 0] [2, 3]) (permute [1, 0] (strides [2, 3])))
    = .ok [1, 4, 2, 5, 3, 6] := by decide
example : transpose64 0 (List.range 24) (nexts (permute [2, 0, 1] [2, 3, 4]) (permute [2, 0, 1] (strides [2, 3, 4])))
    = .ok [0, 4, 8, 12, 16, 20, 1, 5, 9, 13, 17, 21, 2, 6, 10, 14, 18, 22, 3, 7, 11, 15, 19, 23] := by decide
/-- A 2×2 view (of the first two columns) of a 2×3 matrix: `12` and `15` are not part of the view; `12` is lost in both
cases, `15` in the float32 case. -/
example : transpose64 0 [10, 11, 12, 13, 14, 15] (nexts [2, 2] [1, 3]) = .ok [10, 13, 11, 14, 0, 15] ∧
    transpose32 0 [10, 11, 12, 13, 14, 15] (nexts [2, 2] [1, 3]) = .ok [10, 13, 11, 14, 0, 0] := by decide

end Verif.Misc
