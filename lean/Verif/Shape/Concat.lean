import Verif.Shape.Transpose
import Verif.Shape.Reshape
/-!
Slices, `Unconcat`, `Concat` and the gradient of `Concat` (C38).

Assumed of the tensor library: slicing `[s, e)` along an axis keeps the elements in it and drops the axis if it is left
with one element; concatenation puts the operands one after the other along the axis and requires the other axes to agree.
-/
set_option autoImplicit false
namespace Verif.Shape

open Verif.Tensor

variable {α : Type}

/-- `sliceOp` (op_tensor.go 475-601) with `tensor.Slice` and `Shape.S` (assumed). Simplified: empty and reversed ranges, which
`sliceOp.Do` treats as the whole axis (664), count as errors. -/
def sliceT (ax s e : Nat) (t : T α) : Res (T α) :=
  if ax < t.shape.length ∧ s < e ∧ e ≤ t.shape.getD ax 0 then
    if e - s = 1 then .ok ⟨t.shape.eraseIdx ax, fun j => t.at_ (j.insertIdx ax s)⟩
    else .ok ⟨t.shape.set ax (e - s), fun j => t.at_ (j.set ax (j.getD ax 0 + s))⟩
  else .err

/-- How many axes have been dropped before slice `i`: one more if the slice before it has a single element (operations.go
428-434). -/
def dropped (c : Nat) : Option (Nat × Nat) → Nat
  | some p => if p.2 - p.1 = 1 then c + 1 else c
  | none => c

/-- The loop of `Slice` (operations.go 426-441). -/
def sliceLoop (i c : Nat) (prev : Option (Nat × Nat)) : List (Nat × Nat) → T α → Res (T α)
  | [], t => .ok t
  | p :: ps, t => (sliceT (i - dropped c prev) p.1 p.2 t).bind (sliceLoop (i + 1) (dropped c prev) (some p) ps)

/-- `Slice` (operations.go 415-443) with a slice for every axis. -/
def sliceNode (ps : List (Nat × Nat)) (t : T α) : Res (T α) :=
  if t.shape.length < ps.length then .err else sliceLoop 0 0 none ps t

/-- The slices of one part (operations.go 521-528). -/
def partSlices (shp : List Nat) (along s q : Nat) : List (Nat × Nat) :=
  (List.range shp.length).map fun i => if i = along then (s, s + q) else (0, shp.getD i 0)

/-- The loop of `Unconcat` (operations.go 519-535). -/
def unconcatLoop (a : T α) (along q : Nat) : Nat → Nat → Res (List (T α))
  | 0, _ => .ok []
  | n + 1, start => (sliceNode (partSlices a.shape along start q) a).bind fun x =>
      (unconcatLoop a along q n (start + q)).bind fun xs => .ok (x :: xs)

/-- `Unconcat` (operations.go 504-537). -/
def unconcat (a : T α) (along n : Nat) : Res (List (T α)) :=
  if a.shape.length < along then .err
  else if a.shape.length = along then .panic -- aShape[along]
  else if n = 0 then .panic -- % 0
  else if a.shape.getD along 0 % n ≠ 0 then .err
  else
    let q := a.shape.getD along 0 / n
    if q = 0 then .panic -- division by newShapeAlong
    else unconcatLoop a along q (a.shape.getD along 0 / q) 0

/-- Element of a concatenation (assumed). -/
def concatAt (ax : Nat) : List (T α) → List Nat → Option α
  | [], _ => none
  | p :: ps, i =>
    if i.getD ax 0 < p.shape.getD ax 0 then some (p.at_ i)
    else concatAt ax ps (i.set ax (i.getD ax 0 - p.shape.getD ax 0))

/-- Shapes fit together along the axis. -/
def fits (ax : Nat) (s t : List Nat) : Bool := s.length == t.length && s.set ax 0 == t.set ax 0

/-- `Concat` (operations.go 473-500) with `concatOp` (op_tensor.go 994-1049). -/
def concat [Inhabited α] (ax : Nat) (ps : List (T α)) : Res (T α) :=
  match ps with
  | [] => .err
  | p :: qs =>
    if qs.any (fun q => q.shape.length != p.shape.length) then .err
    else if p.shape.length = 0 then .err
    else if p.shape.length ≤ ax then .err
    else if qs.all (fun q => fits ax p.shape q.shape) then
      .ok ⟨p.shape.set ax ((p :: qs).map fun q => q.shape.getD ax 0).sum, fun i => (concatAt ax (p :: qs) i).getD default⟩
    else .err

/-- `concatOp.SymDiff` (op_tensor.go 1064-1091): per operand shape, the slice of the gradient, with a dropped axis put back. -/
def concatDiff (ax : Nat) (g : T α) : List (List Nat) → Nat → Res (List (T α))
  | [], _ => .ok []
  | s :: ss, start =>
    if s.length ≤ ax then .err
    else
      let end_ := s.getD ax 0 + start
      (sliceT ax start end_ g).bind fun x =>
        (if end_ - start = 1 then reshape x ((x.shape.insertIdx ax 1).map Int.ofNat) else .ok x).bind fun x =>
          (concatDiff ax g ss end_).bind fun xs => .ok (x :: xs)

/-! ### Round trip -/

theorem set_getD_self (j : List Nat) (i : Nat) : j.set i (j.getD i 0) = j := by
  by_cases h : i < j.length
  · rw [getD_eq _ _ h]; exact List.set_getElem_self h
  · exact List.set_eq_of_length_le (by omega)

/-- Slicing a whole axis changes nothing, unless it has one element. -/
theorem sliceT_full (ax : Nat) (t : T α) (h : ax < t.shape.length) (h0 : t.shape.getD ax 0 ≠ 0) (h1 : t.shape.getD ax 0 ≠ 1) :
    sliceT ax 0 (t.shape.getD ax 0) t = .ok t := by
  unfold sliceT
  rw [if_pos ⟨h, by omega, Nat.le_refl _⟩, if_neg (by omega)]
  simp only [Nat.sub_zero, Nat.add_zero, set_getD_self]

theorem getD_set (l : List Nat) (a b v : Nat) (ha : a < l.length) : (l.set a v).getD b 0 = if a = b then v else l.getD b 0 := by
  simp only [List.getD_eq_getElem?_getD, List.getElem?_set]
  split
  · rename_i h; subst h; simp [ha]
  · rfl

/-- A list of whole-axis slices from axis `i` on. -/
theorem sliceLoop_full (t : T α) (n i : Nat) (prev : Option (Nat × Nat)) (hp : dropped 0 prev = 0) (hn : i + n = t.shape.length)
    (h : ∀ k, i ≤ k → k < t.shape.length → t.shape.getD k 0 ≠ 0 ∧ t.shape.getD k 0 ≠ 1) :
    sliceLoop i 0 prev ((List.range' i n).map fun k => (0, t.shape.getD k 0)) t = .ok t := by
  induction n generalizing i prev with
  | zero => rfl
  | succ n ih =>
    obtain ⟨a, b⟩ := h i (Nat.le_refl _) (by omega)
    simp only [List.range'_succ, List.map_cons, sliceLoop, hp, Nat.sub_zero]
    rw [sliceT_full i t (by omega) a b]
    simp only [Res.bind]
    exact ih (i + 1) _ (by simp only [dropped, Nat.sub_zero]; rw [if_neg b]) (by omega) (fun k hk => h k (by omega))

/-- A part of a tensor none of whose axes has one element. -/
theorem slice_part (a : T α) (along s q : Nat) (hal : along < a.shape.length) (hq : 2 ≤ q) (hs : s + q ≤ a.shape.getD along 0)
    (h : ∀ k, k < a.shape.length → a.shape.getD k 0 ≠ 0 ∧ a.shape.getD k 0 ≠ 1) :
    sliceNode (partSlices a.shape along s q) a =
      .ok ⟨a.shape.set along q, fun j => a.at_ (j.set along (j.getD along 0 + s))⟩ := by
  set b : T α := ⟨a.shape.set along q, fun j => a.at_ (j.set along (j.getD along 0 + s))⟩ with hb
  have hbl : b.shape.length = a.shape.length := by simp [hb]
  have hsl : sliceT along s (s + q) a = .ok b := by
    unfold sliceT
    rw [if_pos ⟨hal, by omega, hs⟩, if_neg (by omega)]
    simp only [Nat.add_sub_cancel_left, hb]
  unfold sliceNode
  rw [if_neg (by simp [partSlices])]
  -- the axes before
  have before : ∀ n i prev, dropped 0 prev = 0 → i + n = along → ∀ l : List (Nat × Nat),
      sliceLoop i 0 prev ((List.range' i n).map (fun k => (0, a.shape.getD k 0)) ++ (s, s + q) :: l) a =
        sliceLoop (along + 1) 0 (some (s, s + q)) l b := by
    intro n
    induction n with
    | zero =>
      intro i prev hp hi l
      have : i = along := by omega
      subst this
      simp only [List.range'_zero, List.map_nil, List.nil_append, sliceLoop, hp, Nat.sub_zero]
      rw [hsl]; rfl
    | succ n ih =>
      intro i prev hp hi l
      obtain ⟨x, y⟩ := h i (by omega)
      simp only [List.range'_succ, List.map_cons, List.cons_append, sliceLoop, hp, Nat.sub_zero]
      rw [sliceT_full i a (by omega) x y]
      simp only [Res.bind]
      exact ih (i + 1) _ (by simp only [dropped, Nat.sub_zero]; rw [if_neg y]) (by omega) l
  have hsplit : partSlices a.shape along s q = (List.range' 0 along).map (fun k => (0, a.shape.getD k 0)) ++
      (s, s + q) :: (List.range' (along + 1) (a.shape.length - along - 1)).map fun k => (0, b.shape.getD k 0) := by
    unfold partSlices
    have hr : List.range a.shape.length = List.range' 0 along ++ along :: List.range' (along + 1) (a.shape.length - along - 1) := by
      have e : a.shape.length = along + (1 + (a.shape.length - along - 1)) := by omega
      conv_lhs => rw [List.range_eq_range', e, ← List.range'_append_1, ← List.range'_append_1]
      simp [List.range'_succ]
    rw [hr, List.map_append, List.map_cons, if_pos rfl]
    congr 1
    · refine List.map_congr_left (fun k hk => ?_)
      rw [List.mem_range'_1] at hk
      rw [if_neg (by omega)]
    · congr 1
      refine List.map_congr_left (fun k hk => ?_)
      rw [List.mem_range'_1] at hk
      rw [if_neg (by omega)]
      have := getD_set a.shape along k q hal
      rw [if_neg (by omega)] at this
      rw [hb]; simp only; rw [this]
  rw [hsplit, before along 0 none rfl (by omega)]
  refine sliceLoop_full b _ _ _ ?_ (by omega) (fun k hk hk2 => ?_)
  · simp only [dropped]; rw [if_neg (by omega)]
  · have := getD_set a.shape along k q hal
    rw [if_neg (by omega)] at this
    have e : b.shape.getD k 0 = a.shape.getD k 0 := this
    rw [e]; exact h k (by omega)

theorem unconcatLoop_eq (a : T α) (along q : Nat) (hal : along < a.shape.length) (hq : 2 ≤ q)
    (h : ∀ k, k < a.shape.length → a.shape.getD k 0 ≠ 0 ∧ a.shape.getD k 0 ≠ 1) (n s : Nat)
    (hs : s + n * q ≤ a.shape.getD along 0) :
    unconcatLoop a along q n s = .ok ((List.range n).map fun k =>
      ⟨a.shape.set along q, fun j => a.at_ (j.set along (j.getD along 0 + (s + k * q)))⟩) := by
  induction n generalizing s with
  | zero => rfl
  | succ n ih =>
    have e : s + (n + 1) * q = (s + q) + n * q := by rw [Nat.add_mul]; omega
    rw [e] at hs
    have : s + q ≤ a.shape.getD along 0 := by
      have := Nat.zero_le (n * q); omega
    simp only [unconcatLoop]
    rw [slice_part a along s q hal hq this h, ih (s + q) hs]
    simp only [Res.bind, List.range_succ_eq_map, List.map_cons, List.map_map, Nat.zero_mul, Nat.add_zero]
    congr 2
    refine List.map_congr_left (fun k _ => ?_)
    simp only [Function.comp_apply, Nat.succ_eq_add_one]
    have : s + q + k * q = s + (k + 1) * q := by rw [Nat.add_mul]; omega
    rw [this]

theorem concatAt_parts (along q : Nat) (shp : List Nat) (f : List Nat → α) (hal : along < shp.length) (n s : Nat) (i : List Nat)
    (hi : i.length = shp.length) (hlt : i.getD along 0 < n * q) (hq : 0 < q) :
    concatAt along ((List.range' s n).map fun k => (⟨shp.set along q, fun j => f (j.set along (j.getD along 0 + k * q))⟩ : T α)) i =
      some (f (i.set along (i.getD along 0 + s * q))) := by
  induction n generalizing s i with
  | zero => omega
  | succ n ih =>
    simp only [List.range'_succ, List.map_cons, concatAt]
    have hsz : (shp.set along q).getD along 0 = q := by rw [getD_set _ _ _ _ hal, if_pos rfl]
    rw [hsz]
    split
    · rfl
    · rename_i hge
      have hal' : along < i.length := by omega
      have e1 : (i.set along (i.getD along 0 - q)).getD along 0 = i.getD along 0 - q := by rw [getD_set _ _ _ _ hal', if_pos rfl]
      rw [ih (s + 1) (i.set along (i.getD along 0 - q)) (by simp [hi]) (by rw [e1]; rw [Nat.add_mul] at hlt; omega), e1,
        List.set_set]
      have : i.getD along 0 - q + (s + 1) * q = i.getD along 0 + s * q := by rw [Nat.add_mul]; omega
      rw [this]

theorem sum_map_const {β : Type} (l : List β) (c : Nat) : (l.map fun _ => c).sum = l.length * c := by
  induction l with
  | nil => simp
  | cons x l ih => simp only [List.map_cons, List.sum_cons, ih, List.length_cons, Nat.add_mul]; omega

theorem set_getD_list (l : List Nat) (i v : Nat) (h : l.getD i 0 = v) : l.set i v = l := by rw [← h]; exact set_getD_self l i

theorem concat_uniform [Inhabited α] (ax : Nat) (ps : List (T α)) (shp : List Nat) (hne : ps ≠ []) (h : ∀ p ∈ ps, p.shape = shp)
    (hax : ax < shp.length) :
    concat ax ps = .ok ⟨shp.set ax (ps.length * shp.getD ax 0), fun i => (concatAt ax ps i).getD default⟩ := by
  cases ps with
  | nil => exact absurd rfl hne
  | cons p qs =>
    have hp := h p (List.mem_cons_self)
    have hqs : ∀ q ∈ qs, q.shape = shp := fun q hq => h q (List.mem_cons_of_mem _ hq)
    have hsum : ((p :: qs).map fun q => q.shape.getD ax 0).sum = (p :: qs).length * shp.getD ax 0 := by
      rw [← sum_map_const]
      exact congrArg List.sum (List.map_congr_left (fun q hq => by rw [h q hq]))
    unfold concat
    simp only
    rw [if_neg, if_neg (by rw [hp]; omega), if_neg (by rw [hp]; omega), if_pos, hsum, hp]
    · rw [List.all_eq_true]; intro q hq; simp [fits, hqs q hq, hp]
    · simp only [List.any_eq_true, not_exists, not_and]
      intro q hq; simp [hqs q hq, hp]

/-- **C38 (round trip), partial.** If no axis of the tensor, nor of its parts, has one element: splitting into `n` equal parts and
concatenating them gives the tensor back. Missing: axes or parts of one element, for which the result has another rank
(`unconcat_rank`, `unconcat_wrong`). -/
theorem concat_unconcat_partial [Inhabited α] (a : T α) (along n : Nat) (hal : along < a.shape.length) (hn : 0 < n)
    (hd : a.shape.getD along 0 % n = 0) (hq : 2 ≤ a.shape.getD along 0 / n)
    (h : ∀ k, k < a.shape.length → a.shape.getD k 0 ≠ 0 ∧ a.shape.getD k 0 ≠ 1) :
    ∃ parts r, unconcat a along n = .ok parts ∧ parts.length = n ∧ concat along parts = .ok r ∧ r.Same a := by
  set q := a.shape.getD along 0 / n with hqd
  have hmul : a.shape.getD along 0 = n * q := by
    have := Nat.div_add_mod (a.shape.getD along 0) n
    rw [hd, Nat.add_zero] at this
    exact this.symm
  have hb : a.shape.getD along 0 / q = n := by rw [hmul]; exact Nat.mul_div_cancel _ (by omega)
  have hparts := unconcatLoop_eq a along q hal hq h n 0 (by rw [hmul]; omega)
  simp only [Nat.zero_add] at hparts
  set parts : List (T α) := (List.range n).map fun k =>
    ⟨a.shape.set along q, fun j => a.at_ (j.set along (j.getD along 0 + k * q))⟩ with hpd
  have hsz : ∀ p ∈ parts, p.shape = a.shape.set along q := by
    intro p hp
    rw [hpd, List.mem_map] at hp
    obtain ⟨k, _, rfl⟩ := hp
    rfl
  have hne : parts ≠ [] := by
    intro e
    have := congrArg List.length e
    simp [hpd] at this
    omega
  have hun : unconcat a along n = .ok parts := by
    unfold unconcat
    rw [if_neg (by omega), if_neg (by omega), if_neg (by omega), if_neg (by simpa using hd)]
    simp only [← hqd]
    rw [if_neg (by omega), hb]
    exact hparts
  refine ⟨parts, _, hun, by simp [hpd], concat_uniform along parts (a.shape.set along q) hne hsz (by simpa using hal), ?_⟩
  have hql : (a.shape.set along q).getD along 0 = q := by rw [getD_set _ _ _ _ hal, if_pos rfl]
  refine ⟨?_, fun i hi => ?_⟩
  · simp only [List.set_set, hql]
    refine (set_getD_list _ _ _ ?_)
    rw [hmul, hpd]; simp
  · simp only [List.set_set, hql] at hi
    have hlen : parts.length * q = a.shape.getD along 0 := by rw [hmul, hpd]; simp
    rw [hlen, set_getD_self] at hi
    have hil : i.length = a.shape.length := hi.length
    have hlt : i.getD along 0 < n * q := by rw [← hmul]; exact ((inB_iff _ _).1 hi).2 along hal
    have := concatAt_parts along q a.shape a.at_ hal n 0 i hil hlt (by omega)
    rw [← List.range_eq_range', Nat.zero_mul, Nat.add_zero, set_getD_self, ← hpd] at this
    simp only [this, Option.getD_some]


/-! ### Slices in general -/

theorem insertIdx_app (a b : List Nat) (v : Nat) : (a ++ b).insertIdx a.length v = a ++ v :: b := by
  induction a with
  | nil => simp
  | cons x a ih => simpa using ih

theorem eraseIdx_app (a b : List Nat) (v : Nat) : (a ++ v :: b).eraseIdx a.length = a ++ b := by
  induction a with
  | nil => simp
  | cons x a ih => simpa using ih

theorem set_app (a b : List Nat) (u v : Nat) : (a ++ u :: b).set a.length v = a ++ v :: b := by
  induction a with
  | nil => simp
  | cons x a ih => simpa using ih

theorem getD_app (a b : List Nat) (u : Nat) : (a ++ u :: b).getD a.length 0 = u := by simp

/-- Sizes of the slices, without those of one element. -/
def keptSizes (ps : List (Nat × Nat)) : List Nat := (ps.map fun p => p.2 - p.1).filter (· ≠ 1)

/-- Position in the operand of position `j` of the slice. -/
def expand : List (Nat × Nat) → List Nat → List Nat
  | [], j => j
  | p :: ps, j => if p.2 - p.1 = 1 then p.1 :: expand ps j else (j.headD 0 + p.1) :: expand ps j.tail

/-- Non-empty slices within the axes. -/
def Within : List (Nat × Nat) → List Nat → Prop
  | [], [] => True
  | p :: ps, d :: s => p.1 < p.2 ∧ p.2 ≤ d ∧ Within ps s
  | _, _ => False

theorem sliceLoop_spec (ps : List (Nat × Nat)) (t : T α) (pre rest : List Nat) (i c : Nat) (prev : Option (Nat × Nat))
    (ht : t.shape = pre ++ rest) (hc : i = dropped c prev + pre.length) (hw : Within ps rest) :
    ∃ r, sliceLoop i c prev ps t = .ok r ∧ r.shape = pre ++ keptSizes ps ∧
      ∀ j, j.length = r.shape.length → r.at_ j = t.at_ (j.take pre.length ++ expand ps (j.drop pre.length)) := by
  induction ps generalizing t pre rest i c prev with
  | nil =>
    cases rest with
    | cons _ _ => exact hw.elim
    | nil => exact ⟨t, rfl, by rw [ht]; rfl, fun j _ => by simp [expand]⟩
  | cons p ps ih =>
    cases rest with
    | nil => exact hw.elim
    | cons d rest =>
      obtain ⟨w1, w2, w3⟩ := hw
      have hax : i - dropped c prev = pre.length := by omega
      simp only [sliceLoop, hax]
      have hcond : pre.length < t.shape.length ∧ p.1 < p.2 ∧ p.2 ≤ t.shape.getD pre.length 0 := by
        rw [ht, getD_app]; exact ⟨by simp, w1, w2⟩
      unfold sliceT
      rw [if_pos hcond]
      by_cases h1 : p.2 - p.1 = 1
      · rw [if_pos h1]
        simp only [Res.bind]
        obtain ⟨r, e1, e2, e3⟩ := ih ⟨t.shape.eraseIdx pre.length, fun j => t.at_ (j.insertIdx pre.length p.1)⟩ pre rest (i + 1)
          (dropped c prev) (some p) (by rw [ht]; exact eraseIdx_app _ _ _)
          (by simp only [dropped]; rw [if_pos h1]; simp only [dropped] at hc; omega) w3
        refine ⟨r, e1, by rw [e2]; simp [keptSizes, h1], fun j hj => ?_⟩
        rw [e3 j hj]
        have hl : (j.take pre.length).length = pre.length := by
          rw [List.length_take, hj, e2]; simp
        show t.at_ ((j.take pre.length ++ expand ps (j.drop pre.length)).insertIdx pre.length p.1) = _
        have ii := insertIdx_app (j.take pre.length) (expand ps (j.drop pre.length)) p.1
        rw [hl] at ii
        rw [ii]
        simp only [expand]
        rw [if_pos h1]
      · rw [if_neg h1]
        simp only [Res.bind]
        obtain ⟨r, e1, e2, e3⟩ := ih ⟨t.shape.set pre.length (p.2 - p.1), fun j => t.at_ (j.set pre.length (j.getD pre.length 0 + p.1))⟩
          (pre ++ [p.2 - p.1]) rest (i + 1)
          (dropped c prev) (some p) (by rw [ht]; simp only [set_app]; simp)
          (by simp only [dropped]; rw [if_neg h1]; simp only [dropped] at hc; simp only [List.length_append, List.length_singleton]; omega) w3
        refine ⟨r, e1, by rw [e2]; simp [keptSizes, h1], fun j hj => ?_⟩
        rw [e3 j hj]
        have hlt : pre.length < j.length := by rw [hj, e2]; simp
        have hl : (j.take pre.length).length = pre.length := by simp; omega
        have hd : j.drop pre.length = j[pre.length] :: j.drop (pre.length + 1) := List.drop_eq_getElem_cons hlt
        have ht' : j.take (pre.length + 1) = j.take pre.length ++ [j[pre.length]] := by
          rw [List.take_succ_eq_append_getElem hlt]
        have hpl : (pre ++ [p.2 - p.1]).length = pre.length + 1 := by simp
        rw [hpl, ht', hd]
        simp only [expand]
        rw [if_neg h1, List.append_assoc]
        show t.at_ _ = t.at_ _
        congr 1
        have g := getD_app (j.take pre.length) (expand ps (j.drop (pre.length + 1))) j[pre.length]
        have st := set_app (j.take pre.length) (expand ps (j.drop (pre.length + 1))) j[pre.length] (j[pre.length] + p.1)
        rw [hl] at g st
        simp only [List.cons_append, List.nil_append, g, st, List.headD_cons, List.tail_cons]

/-- `Slice` with a range for every axis: the elements within the ranges, the axes left with one element dropped. -/
theorem slice_spec (ps : List (Nat × Nat)) (t : T α) (hw : Within ps t.shape) :
    ∃ r, sliceNode ps t = .ok r ∧ r.shape = keptSizes ps ∧ ∀ j, j.length = r.shape.length → r.at_ j = t.at_ (expand ps j) := by
  have hl : ps.length = t.shape.length := by
    generalize t.shape = s at hw
    induction ps generalizing s with
    | nil => cases s with
      | nil => rfl
      | cons _ _ => exact hw.elim
    | cons p ps ih => cases s with
      | nil => exact hw.elim
      | cons _ _ => simp [ih _ hw.2.2]
  obtain ⟨r, a, b, c⟩ := sliceLoop_spec ps t [] t.shape 0 0 none rfl rfl hw
  refine ⟨r, ?_, by simpa using b, fun j hj => by simpa using c j hj⟩
  unfold sliceNode
  rw [if_neg (by omega)]; exact a

theorem within_iff (ps : List (Nat × Nat)) (s : List Nat) :
    Within ps s ↔ ps.length = s.length ∧ ∀ k (h : k < ps.length), ps[k].1 < ps[k].2 ∧ ps[k].2 ≤ s.getD k 0 := by
  induction ps generalizing s with
  | nil => cases s with
    | nil => simp [Within]
    | cons _ _ => simp [Within]
  | cons p ps ih =>
    cases s with
    | nil => simp [Within]
    | cons d s =>
      simp only [Within, ih, List.length_cons, Nat.add_right_cancel_iff]
      constructor
      · rintro ⟨a, b, c, e⟩
        refine ⟨c, fun k hk => ?_⟩
        cases k with
        | zero => exact ⟨a, by simpa using b⟩
        | succ k => simpa using e k (by simpa using hk)
      · rintro ⟨c, e⟩
        have z := e 0 (by simp)
        refine ⟨z.1, by simpa using z.2, c, fun k hk => ?_⟩
        have := e (k + 1) (by simpa using hk)
        simp only [List.getElem_cons_succ, List.getD_cons_succ] at this
        exact this

theorem within_part (shp : List Nat) (along s q : Nat) (hq : 0 < q) (hs : s + q ≤ shp.getD along 0) (h : ∀ d ∈ shp, d ≠ 0) :
    Within (partSlices shp along s q) shp := by
  rw [within_iff]
  refine ⟨by simp [partSlices], fun k hk => ?_⟩
  have hk' : k < shp.length := by simpa [partSlices] using hk
  simp only [partSlices, List.getElem_map, List.getElem_range]
  split
  · rename_i e; subst e; exact ⟨by show s < s + q; omega, hs⟩
  · refine ⟨?_, Nat.le_refl _⟩
    have := h shp[k] (List.getElem_mem _)
    rw [getD_eq _ _ hk']
    show 0 < shp[k]
    omega

theorem kept_part (shp : List Nat) (along s q : Nat) (hal : along < shp.length) :
    keptSizes (partSlices shp along s q) = (shp.set along q).filter (· ≠ 1) := by
  unfold keptSizes
  congr 1
  apply List.ext_getElem
  · simp [partSlices]
  · intro k h1 h2
    have hk : k < shp.length := by simpa using h2
    simp only [partSlices, List.map_map, List.getElem_map, List.getElem_range, Function.comp_apply, List.getElem_set]
    by_cases e : k = along
    · rw [if_pos e, if_pos e.symm]; simp
    · rw [if_neg e, if_neg (fun h => e h.symm)]; simp [hk]

theorem unconcatLoop_shapes (a : T α) (along q : Nat) (hal : along < a.shape.length) (hq : 0 < q) (h : ∀ d ∈ a.shape, d ≠ 0) (n s : Nat)
    (hs : s + n * q ≤ a.shape.getD along 0) :
    ∃ ps, unconcatLoop a along q n s = .ok ps ∧ ps.length = n ∧ ∀ p ∈ ps, p.shape = (a.shape.set along q).filter (· ≠ 1) := by
  induction n generalizing s with
  | zero => exact ⟨[], rfl, rfl, by simp⟩
  | succ n ih =>
    have e : s + (n + 1) * q = (s + q) + n * q := by rw [Nat.add_mul]; omega
    rw [e] at hs
    have : s + q ≤ a.shape.getD along 0 := by
      have := Nat.zero_le (n * q); omega
    obtain ⟨r, r1, r2, _⟩ := slice_spec _ a (within_part a.shape along s q hq this h)
    obtain ⟨ps, p1, p2, p3⟩ := ih (s + q) hs
    refine ⟨r :: ps, ?_, by simp [p2], ?_⟩
    · simp only [unconcatLoop]; rw [r1, p1]; rfl
    · intro p hp
      rcases List.mem_cons.1 hp with rfl | hp
      · rw [r2, kept_part _ _ _ _ hal]
      · exact p3 p hp

/-- **C38, general shapes of the parts**: the parts of a tensor have its shape with the split axis shortened, but without the
axes of one element. -/
theorem unconcat_shapes (a : T α) (along n : Nat) (hal : along < a.shape.length) (hn : 0 < n) (hd : a.shape.getD along 0 % n = 0)
    (h : ∀ d ∈ a.shape, d ≠ 0) :
    ∃ parts, unconcat a along n = .ok parts ∧ parts.length = n ∧
      ∀ p ∈ parts, p.shape = (a.shape.set along (a.shape.getD along 0 / n)).filter (· ≠ 1) := by
  set q := a.shape.getD along 0 / n with hqd
  have hmul : a.shape.getD along 0 = n * q := by
    have := Nat.div_add_mod (a.shape.getD along 0) n
    rw [hd, Nat.add_zero] at this
    exact this.symm
  have hpos : a.shape.getD along 0 ≠ 0 := by rw [getD_eq _ _ hal]; exact h _ (List.getElem_mem _)
  have hq : 0 < q := by
    rcases Nat.eq_zero_or_pos q with h0 | h0
    · rw [h0] at hmul; omega
    · exact h0
  have hb : a.shape.getD along 0 / q = n := by rw [hmul]; exact Nat.mul_div_cancel _ hq
  obtain ⟨ps, p1, p2, p3⟩ := unconcatLoop_shapes a along q hal hq h n 0 (by rw [hmul]; omega)
  refine ⟨ps, ?_, p2, p3⟩
  unfold unconcat
  rw [if_neg (by omega), if_neg (by omega), if_neg (by omega), if_neg (by simpa using hd)]
  simp only [← hqd]
  rw [if_neg (by omega), hb]
  exact p1

/-- **C38 fails** for every tensor with an axis of one element and for parts of one element: whatever the concatenation gives, it is
not of the tensor's rank. -/
theorem unconcat_rank [Inhabited α] (a : T α) (along n : Nat) (hal : along < a.shape.length) (hn : 0 < n)
    (hd : a.shape.getD along 0 % n = 0) (h : ∀ d ∈ a.shape, d ≠ 0)
    (h1 : 1 ∈ a.shape.set along (a.shape.getD along 0 / n)) :
    ∃ parts, unconcat a along n = .ok parts ∧ ∀ r, concat along parts = .ok r → r.shape.length < a.shape.length := by
  obtain ⟨parts, u, l, sh⟩ := unconcat_shapes a along n hal hn hd h
  refine ⟨parts, u, fun r hr => ?_⟩
  cases parts with
  | nil => simp [concat] at hr
  | cons p qs =>
    have hp := sh p List.mem_cons_self
    have hlen : p.shape.length < a.shape.length := by
      rw [hp]
      have : ((a.shape.set along (a.shape.getD along 0 / n)).filter (· ≠ 1)).length <
          (a.shape.set along (a.shape.getD along 0 / n)).length := by
        rw [List.length_filter_lt_length_iff_exists]
        exact ⟨1, h1, by simp⟩
      simpa using this
    unfold concat at hr
    simp only at hr
    split at hr
    · cases hr
    · split at hr
      · cases hr
      · split at hr
        · cases hr
        · split at hr
          · cases hr; simpa using hlen
          · cases hr

/-- The one axis too many that `Unconcat` lets through panics (its check compares with the rank, operations.go 508). -/
theorem unconcat_panics (a : T α) (n : Nat) : unconcat a a.shape.length n = .panic := by
  unfold unconcat
  rw [if_neg (by omega), if_pos rfl]

/-! ### Gradient -/

/-- Sum over all positions of a shape. -/
noncomputable def sumOver (s : List Nat) (F : List Nat → ℝ) : ℝ := ∑ k ∈ Finset.range (size s), F (unravel s k)

theorem pair_eq (a b : T ℝ) : pair a b = sumOver a.shape fun i => a.at_ i * b.at_ i := rfl

theorem sumOver_congr (s : List Nat) (F G : List Nat → ℝ) (h : ∀ i, InB s i → F i = G i) : sumOver s F = sumOver s G :=
  Finset.sum_congr rfl (fun _ hk => h _ (inB_unravel (Finset.mem_range.1 hk)))

theorem sumOver_cons (d : Nat) (s : List Nat) (F : List Nat → ℝ) :
    sumOver (d :: s) F = ∑ a ∈ Finset.range d, sumOver s fun i => F (a :: i) := by
  induction d with
  | zero => simp [sumOver, size]
  | succ d ih =>
    rw [Finset.sum_range_succ, ← ih]
    unfold sumOver
    have e : size ((d + 1) :: s) = size (d :: s) + size s := by simp only [size]; rw [Nat.add_mul]; omega
    rw [e, Finset.sum_range_add]
    congr 1
    refine Finset.sum_congr rfl (fun k hk => ?_)
    have hk' := Finset.mem_range.1 hk
    have hp : 0 < size s := by omega
    simp only [unravel, size]
    rw [Nat.mul_comm d, Nat.mul_add_div hp, Nat.div_eq_of_lt hk', Nat.mul_add_mod, Nat.mod_eq_of_lt hk', Nat.add_zero]

theorem sumOver_split (s : List Nat) (ax m n : Nat) (hax : ax < s.length) (F : List Nat → ℝ) :
    sumOver (s.set ax (m + n)) F =
      sumOver (s.set ax m) F + sumOver (s.set ax n) fun j => F (j.set ax (j.getD ax 0 + m)) := by
  induction s generalizing ax F with
  | nil => simp at hax
  | cons d s ih =>
    cases ax with
    | zero =>
      simp only [List.set_cons_zero, sumOver_cons]
      rw [Finset.sum_range_add]
      congr 1
      refine Finset.sum_congr rfl (fun k _ => ?_)
      simp only [List.getD_cons_zero]
      rw [Nat.add_comm m k]
    | succ ax =>
      simp only [List.set_cons_succ, sumOver_cons]
      rw [← Finset.sum_add_distrib]
      refine Finset.sum_congr rfl (fun k _ => ?_)
      rw [ih ax (by simpa using hax)]
      rfl

theorem concat_pair (s : List Nat) (ax : Nat) (hax : ax < s.length) (ps : List (T ℝ)) (hp : ∀ p ∈ ps, p.shape = s.set ax (p.shape.getD ax 0))
    (G : List Nat → ℝ) :
    sumOver (s.set ax (ps.map fun p => p.shape.getD ax 0).sum) (fun i => G i * (concatAt ax ps i).getD default) =
      ((ps.zipIdx.map fun p => sumOver p.1.shape fun i =>
        G (i.set ax (i.getD ax 0 + ((ps.take p.2).map fun p => p.shape.getD ax 0).sum)) * p.1.at_ i).sum) := by
  induction ps generalizing G with
  | nil =>
    simp only [List.map_nil, List.sum_nil, List.zipIdx_nil]
    have : ∀ (s : List Nat) ax, ax < s.length → size (s.set ax 0) = 0 := by
      intro s
      induction s with
      | nil => intro ax h; simp at h
      | cons d s ih =>
        intro ax h
        cases ax with
        | zero => simp [size]
        | succ ax => simp only [List.set_cons_succ, size]; rw [ih ax (by simpa using h)]; rfl
    unfold sumOver
    rw [this s ax hax]; rfl
  | cons p ps ih =>
    have hp0 := hp p List.mem_cons_self
    rw [List.map_cons, List.sum_cons, sumOver_split s ax _ _ hax, List.zipIdx_cons, List.map_cons, List.sum_cons]
    congr 1
    · conv_rhs => rw [hp0]
      refine sumOver_congr _ _ _ (fun i hi => ?_)
      have hb := ((inB_iff _ _).1 hi).2 ax (by simpa using hax)
      rw [getD_set _ _ _ _ hax, if_pos rfl] at hb
      simp only [concatAt]
      rw [if_pos hb]
      simp only [List.take_zero, List.map_nil, List.sum_nil, Nat.add_zero, set_getD_self, Option.getD_some]
    · have hz := ih (fun q hq => hp q (List.mem_cons_of_mem _ hq)) (fun j => G (j.set ax (j.getD ax 0 + p.shape.getD ax 0)))
      have hl : sumOver (s.set ax (ps.map fun p => p.shape.getD ax 0).sum)
          (fun j => G (j.set ax (j.getD ax 0 + p.shape.getD ax 0)) *
            (concatAt ax (p :: ps) (j.set ax (j.getD ax 0 + p.shape.getD ax 0))).getD default) =
          sumOver (s.set ax (ps.map fun p => p.shape.getD ax 0).sum)
          (fun j => G (j.set ax (j.getD ax 0 + p.shape.getD ax 0)) * (concatAt ax ps j).getD default) := by
        refine sumOver_congr _ _ _ (fun j hj => ?_)
        have hjl : ax < j.length := by rw [hj.length]; simpa using hax
        simp only [concatAt]
        rw [getD_set _ _ _ _ hjl, if_pos rfl, if_neg (by omega), List.set_set, Nat.add_sub_cancel, set_getD_self]
      rw [hl, hz, List.zipIdx_succ, List.map_map]
      congr 1
      refine List.map_congr_left (fun q hq => ?_)
      have hq' := List.mem_zipIdx hq
      simp only [Function.comp_apply, List.take_succ_cons, List.map_cons, List.sum_cons]
      have hsh : q.1.shape.length = s.length := by
        have := hp q.1 (List.mem_cons_of_mem _ (by rw [hq'.2.2]; exact List.getElem_mem _))
        rw [this]; simp
      refine sumOver_congr _ _ _ (fun i hi => ?_)
      have hil : ax < i.length := by rw [hi.length, hsh]; exact hax
      rw [getD_set _ _ _ _ hil, if_pos rfl, List.set_set]
      have : ∀ x y z : Nat, x + y + z = x + (z + y) := fun x y z => by omega
      rw [this]

theorem reshape_nat (t : T α) (s : List Nat) (h : size t.shape = size s) : reshape t (s.map Int.ofNat) = .ok (t.reshape s) := by
  unfold reshape reshapeTo
  rw [negs_none _ (by intro x hx; obtain ⟨y, _, rfl⟩ := List.mem_map.1 hx; exact Int.natCast_nonneg y)]
  have e : (s.map Int.ofNat).map Int.toNat = s := by
    rw [List.map_map]
    conv_rhs => rw [← List.map_id s]
    exact List.map_congr_left (fun x _ => rfl)
  simp only [gt_iff_lt, Nat.not_lt_zero, if_false, reduceCtorEq, Nat.zero_ne_one, Res.bind, e, h, ne_eq, not_true_eq_false, and_false]

theorem size_insert (l : List Nat) (ax : Nat) (h : ax ≤ l.length) : size (l.insertIdx ax 1) = size l := by
  induction l generalizing ax with
  | nil =>
    have : ax = 0 := by simpa using h
    subst this; simp [size]
  | cons d l ih =>
    cases ax with
    | zero => simp [size]
    | succ ax => simp only [List.insertIdx_succ_cons, size]; rw [ih ax (by simpa using h)]

theorem ravel_insert (l i : List Nat) (ax : Nat) (h : ax ≤ l.length) (hi : InB (l.insertIdx ax 1) i) :
    ravel (l.insertIdx ax 1) i = ravel l (i.eraseIdx ax) ∧ InB l (i.eraseIdx ax) := by
  induction l generalizing ax i with
  | nil =>
    have : ax = 0 := by simpa using h
    subst this
    cases i with
    | nil => exact hi.elim
    | cons a i =>
      cases i with
      | nil =>
        have : a < 1 := hi.1
        have : a = 0 := by omega
        subst this
        exact ⟨rfl, trivial⟩
      | cons _ _ => exact hi.2.elim
  | cons d l ih =>
    cases ax with
    | zero =>
      cases i with
      | nil => exact hi.elim
      | cons a i =>
        have : a < 1 := hi.1
        have : a = 0 := by omega
        subst this
        refine ⟨?_, hi.2⟩
        simp [ravel]
    | succ ax =>
      cases i with
      | nil => exact hi.elim
      | cons a i =>
        obtain ⟨x, y⟩ := ih i ax (by simpa using h) hi.2
        refine ⟨?_, hi.1, y⟩
        simp only [List.insertIdx_succ_cons, List.eraseIdx_cons_succ, ravel, x]
        rw [size_insert _ _ (by simpa using h)]

theorem insert_erase (i : List Nat) (ax v : Nat) (h : ax < i.length) : (i.eraseIdx ax).insertIdx ax v = i.set ax v := by
  induction i generalizing ax with
  | nil => simp at h
  | cons a i ih =>
    cases ax with
    | zero => simp
    | succ ax => simpa using ih ax (by simpa using h)

/-- One slice of the gradient, with a dropped axis put back. -/
theorem concatDiff_one (ax start n : Nat) (g : T α) (hax : ax < g.shape.length) (hn : 0 < n) (hs : start + n ≤ g.shape.getD ax 0) :
    ∃ x y, sliceT ax start (n + start) g = .ok x ∧
      (if n + start - start = 1 then reshape x ((x.shape.insertIdx ax 1).map Int.ofNat) else .ok x) = .ok y ∧
      y.shape = g.shape.set ax n ∧ ∀ i, InB y.shape i → y.at_ i = g.at_ (i.set ax (i.getD ax 0 + start)) := by
  unfold sliceT
  rw [if_pos ⟨hax, by omega, by omega⟩]
  by_cases h1 : n + start - start = 1
  · rw [if_pos h1]
    have h1' : n = 1 := by omega
    have hl : ax ≤ (g.shape.eraseIdx ax).length := by rw [List.length_eraseIdx, if_pos hax]; omega
    refine ⟨_, T.reshape ⟨g.shape.eraseIdx ax, fun j => g.at_ (j.insertIdx ax start)⟩
        ((g.shape.eraseIdx ax).insertIdx ax 1), rfl, ?_, ?_, ?_⟩
    · rw [if_pos h1]
      exact reshape_nat _ _ (size_insert _ _ hl).symm
    · show (g.shape.eraseIdx ax).insertIdx ax 1 = _
      rw [insert_erase _ _ _ hax, h1']
    · intro i hi
      have hi' : InB ((g.shape.eraseIdx ax).insertIdx ax 1) i := hi
      obtain ⟨e1, e2⟩ := ravel_insert _ _ _ hl hi'
      show T.flat ⟨g.shape.eraseIdx ax, fun j => g.at_ (j.insertIdx ax start)⟩ (ravel ((g.shape.eraseIdx ax).insertIdx ax 1) i) = _
      rw [e1, flat_ravel ⟨g.shape.eraseIdx ax, fun j => g.at_ (j.insertIdx ax start)⟩ e2]
      have hil : i.length = g.shape.length := by
        rw [hi'.length, insert_erase _ _ _ hax]; simp
      have h0 := ((inB_iff _ _).1 hi').2 ax (by rw [insert_erase _ _ _ hax]; simpa using hax)
      rw [insert_erase _ _ _ hax, getD_set _ _ _ _ hax, if_pos rfl] at h0
      show g.at_ ((i.eraseIdx ax).insertIdx ax start) = _
      rw [insert_erase _ _ _ (by omega), show i.getD ax 0 = 0 by omega, Nat.zero_add]
  · rw [if_neg h1]
    refine ⟨_, _, rfl, by rw [if_neg h1], ?_, fun i _ => rfl⟩
    show g.shape.set ax (n + start - start) = _
    rw [Nat.add_sub_cancel]

theorem concatDiff_spec (s : List Nat) (ax : Nat) (hax : ax < s.length) (g : T α) (hg : g.shape = s.set ax (g.shape.getD ax 0))
    (ss : List (List Nat)) (start : Nat) (hss : ∀ t ∈ ss, t = s.set ax (t.getD ax 0) ∧ 0 < t.getD ax 0)
    (hsum : start + (ss.map fun t => t.getD ax 0).sum ≤ g.shape.getD ax 0) :
    ∃ gs, concatDiff ax g ss start = .ok gs ∧ gs.map (·.shape) = ss ∧
      ∀ k (h : k < gs.length), ∀ i, InB gs[k].shape i →
        gs[k].at_ i = g.at_ (i.set ax (i.getD ax 0 + (start + ((ss.take k).map fun t => t.getD ax 0).sum))) := by
  induction ss generalizing start with
  | nil => exact ⟨[], rfl, rfl, fun k h => by simp at h⟩
  | cons t ss ih =>
    obtain ⟨t1, t2⟩ := hss t List.mem_cons_self
    rw [List.map_cons, List.sum_cons] at hsum
    have htl : t.length = s.length := by rw [t1]; simp
    have hgl : g.shape.length = s.length := by rw [hg]; simp
    obtain ⟨x, y, e1, e2, e3, e4⟩ := concatDiff_one ax start (t.getD ax 0) g (by omega) t2 (by omega)
    obtain ⟨gs, f1, f2, f3⟩ := ih (t.getD ax 0 + start) (fun u hu => hss u (List.mem_cons_of_mem _ hu)) (by omega)
    have ysh : y.shape = t := by
      rw [e3, hg, List.set_set]; exact t1.symm
    refine ⟨y :: gs, ?_, by simp [ysh, f2], ?_⟩
    · simp only [concatDiff]
      rw [if_neg (by omega), e1]
      simp only [Res.bind]
      rw [e2]
      simp only
      rw [f1]
    · intro k hk i hi
      cases k with
      | zero =>
        simp only [List.getElem_cons_zero] at hi ⊢
        rw [e4 i hi]; simp
      | succ k =>
        simp only [List.getElem_cons_succ] at hi ⊢
        rw [f3 k (by simpa using hk) i hi]
        simp only [List.take_succ_cons, List.map_cons, List.sum_cons]
        congr 3
        omega

/-- What the operands of a successful concatenation have in common, and the result's shape. -/
theorem concat_shape [Inhabited α] (ax : Nat) (ps : List (T α)) (r : T α) (h : concat ax ps = .ok r) :
    ax < r.shape.length ∧ r.shape.getD ax 0 = (ps.map fun p => p.shape.getD ax 0).sum ∧
      (∀ p ∈ ps, p.shape = r.shape.set ax (p.shape.getD ax 0)) ∧ ∀ i, r.at_ i = (concatAt ax ps i).getD default := by
  cases ps with
  | nil => simp [concat] at h
  | cons p qs =>
    unfold concat at h
    simp only at h
    split at h
    · cases h
    · split at h
      · cases h
      · split at h
        · cases h
        · rename_i hax
          split at h
          · rename_i hall
            cases h
            refine ⟨by simp; omega, by rw [getD_set _ _ _ _ (by omega), if_pos rfl], ?_, fun _ => rfl⟩
            intro q hq
            simp only [List.set_set]
            rcases List.mem_cons.1 hq with rfl | hq
            · exact (set_getD_self _ _).symm
            · have := List.all_eq_true.1 hall q hq
              simp only [fits, Bool.and_eq_true, beq_iff_eq] at this
              have e := congrArg (fun l => l.set ax (q.shape.getD ax 0)) this.2
              simp only [List.set_set] at e
              rw [e]
              exact (set_getD_self _ _).symm
          · cases h

/-- **C38 (gradient).** Whenever a concatenation of tensors with no empty operand succeeds, the gradient does, gives every operand a
gradient of its shape holding the corresponding slice of the incoming gradient, and is the adjoint of the concatenation. -/
theorem concat_grad (ax : Nat) (ps : List (T ℝ)) (r g : T ℝ) (h : concat ax ps = .ok r) (hpos : ∀ p ∈ ps, 0 < p.shape.getD ax 0)
    (hg : g.shape = r.shape) :
    ∃ gs, concatDiff ax g (ps.map (·.shape)) 0 = .ok gs ∧ gs.map (·.shape) = ps.map (·.shape) ∧
      (∀ k (h : k < gs.length), ∀ i, InB gs[k].shape i →
        gs[k].at_ i = g.at_ (i.set ax (i.getD ax 0 + ((ps.take k).map fun p => p.shape.getD ax 0).sum))) ∧
      ∀ (qs : List (T ℝ)) (w : T ℝ), qs.map (·.shape) = ps.map (·.shape) → concat ax qs = .ok w →
        pair g w = ((gs.zip qs).map fun e => pair e.1 e.2).sum := by
  obtain ⟨hax, hs, hp, _⟩ := concat_shape ax ps r h
  have hmm : ∀ l : List (T ℝ), (l.map (·.shape)).map (fun t => t.getD ax 0) = l.map fun p => p.shape.getD ax 0 := fun l => by simp
  obtain ⟨gs, e1, e2, e3⟩ := concatDiff_spec r.shape ax hax g (by rw [hg, set_getD_self]) (ps.map (·.shape)) 0
    (by
      intro t ht
      obtain ⟨p, hp', rfl⟩ := List.mem_map.1 ht
      exact ⟨hp p hp', hpos p hp'⟩)
    (by rw [hmm, hg, hs]; omega)
  have e3' : ∀ k (h : k < gs.length), ∀ i, InB gs[k].shape i →
      gs[k].at_ i = g.at_ (i.set ax (i.getD ax 0 + ((ps.take k).map fun p => p.shape.getD ax 0).sum)) := by
    intro k hk i hi
    have := e3 k hk i hi
    rw [Nat.zero_add, ← List.map_take, hmm] at this
    exact this
  refine ⟨gs, e1, e2, e3', fun qs w hqs hw => ?_⟩
  obtain ⟨wax, ws, wp, wat⟩ := concat_shape ax qs w hw
  have hgl : gs.length = qs.length := by
    have := congrArg List.length (e2.trans hqs.symm); simpa using this
  have hsz : (qs.map fun p => p.shape.getD ax 0) = ps.map fun p => p.shape.getD ax 0 := by rw [← hmm, ← hmm, hqs]
  have hwr : w.shape = r.shape := by
    cases ps with
    | nil => simp [concat] at h
    | cons p ps =>
      cases qs with
      | nil => simp at hqs
      | cons q qs =>
        have a := hp p List.mem_cons_self
        have b := wp q List.mem_cons_self
        have c : q.shape = p.shape := by simp at hqs; exact hqs.1
        rw [← set_getD_self w.shape ax, ← set_getD_self r.shape ax, hs, ws, hsz]
        rw [c, a] at b
        have d := congrArg (fun l => l.set ax ((p :: ps).map fun p => p.shape.getD ax 0).sum) b
        simp only [List.set_set] at d
        exact d.symm
  rw [pair_eq, hg, ← hwr]
  have hcp := concat_pair w.shape ax wax qs wp g.at_
  rw [← ws, set_getD_self] at hcp
  rw [sumOver_congr w.shape _ (fun i => g.at_ i * (concatAt ax qs i).getD default) (fun i _ => by rw [wat i]), hcp]
  congr 1
  apply List.ext_getElem
  · simp [hgl]
  · intro k h1 h2
    have hk : k < qs.length := by simpa using h1
    have hkg : k < gs.length := by omega
    simp only [List.getElem_map, List.getElem_zipIdx, List.getElem_zip, Nat.zero_add]
    have hshk : gs[k].shape = qs[k].shape := by
      have := e2.trans hqs.symm
      have := congrArg (fun l => l[k]?) this
      simp only [List.getElem?_map, List.getElem?_eq_getElem hkg, List.getElem?_eq_getElem hk, Option.map_some] at this
      exact Option.some.inj this
    rw [pair_eq, hshk]
    refine sumOver_congr _ _ _ (fun i hi => ?_)
    rw [e3' k hkg i (by rw [hshk]; exact hi)]
    have : ((qs.take k).map fun p => p.shape.getD ax 0) = (ps.take k).map fun p => p.shape.getD ax 0 := by
      rw [List.map_take, List.map_take, hsz]
    rw [this]

/-- **C38 fails for the define-by-run gradient**: `concatOp.DoDiff` (op_tensor.go 1093-1125) slices the incoming gradient along its
first axis whatever the axis of the concatenation (1107). For any other axis and at least two operands the slice, if there is one,
never has the shape of the operand it is added to. -/
theorem concat_doDiff_wrong (ax : Nat) (hax : 0 < ax) (ps : List (T ℝ)) (r g x : T ℝ) (h : concat ax ps = .ok r)
    (hpos : ∀ p ∈ ps, 0 < p.shape.getD ax 0) (hl : 2 ≤ ps.length) (hg : g.shape = r.shape) (p : T ℝ) (hp : p ∈ ps) (start : Nat)
    (hx : sliceT 0 start (p.shape.getD ax 0 + start) g = .ok x) : x.shape ≠ p.shape := by
  obtain ⟨hax', hs, hps, _⟩ := concat_shape ax ps r h
  have hpl : p.shape.length = r.shape.length := by rw [hps p hp]; simp
  unfold sliceT at hx
  split at hx
  · rename_i hc
    split at hx
    · cases hx
      intro e
      have := congrArg List.length e
      rw [hpl] at this
      simp only [List.length_eraseIdx, if_pos hc.1] at this
      rw [hg] at this
      omega
    · cases hx
      intro e
      have := congrArg (fun l => l.getD ax 0) e
      simp only at this
      rw [getD_set _ _ _ _ hc.1, if_neg (by omega), hg, hs] at this
      obtain ⟨a, b, rfl⟩ := List.append_of_mem hp
      simp only [List.map_append, List.map_cons, List.sum_append, List.sum_cons] at this
      have hz : (a.map fun p => p.shape.getD ax 0).sum = 0 ∧ (b.map fun p => p.shape.getD ax 0).sum = 0 := by omega
      have hpos' : ∀ l : List (T ℝ), (∀ q ∈ l, 0 < q.shape.getD ax 0) → (l.map fun p => p.shape.getD ax 0).sum = 0 → l = [] := by
        intro l hl0 h0
        cases l with
        | nil => rfl
        | cons q l =>
          have := hl0 q List.mem_cons_self
          simp only [List.map_cons, List.sum_cons] at h0
          omega
      have ha := hpos' a (fun q hq => hpos q (by simp [hq])) hz.1
      have hb := hpos' b (fun q hq => hpos q (by simp [hq])) hz.2
      subst ha; subst hb
      simp at hl
  · cases hx

/-! ### Examples -/

/-- Rows 0-3 of a 4×2 matrix holding 0..7. -/
def exA : T Nat := ⟨[4, 2], fun i => 2 * i.getD 0 0 + i.getD 1 0⟩

/-- The elements of a result, in row-major order. -/
def listing : Res (T Nat) → Option (List Nat × List Nat)
  | .ok t => some (t.shape, (List.range (size t.shape)).map fun k => t.at_ (unravel t.shape k))
  | _ => none

example : listing ((unconcat exA 0 2).bind (concat 0)) = some ([4, 2], [0, 1, 2, 3, 4, 5, 6, 7]) := by decide +kernel

example : (match unconcat exA 0 2 with | .ok ps => ps.map fun p => (listing (.ok p)) | _ => []) =
    [some ([2, 2], [0, 1, 2, 3]), some ([2, 2], [4, 5, 6, 7])] := by decide +kernel

/-- Split into rows: the parts lose the axis, and the concatenation is a vector. -/
example : listing ((unconcat exA 0 4).bind (concat 0)) = some ([8], [0, 1, 2, 3, 4, 5, 6, 7]) := by decide +kernel

/-- The gradient of a concatenation of a 4×1 and a 4×2 matrix along the second axis. -/
def exG : T Nat := ⟨[4, 3], fun i => 3 * i.getD 0 0 + i.getD 1 0⟩

example : (match concatDiff 1 exG [[4, 1], [4, 2]] 0 with | .ok ps => ps.map fun p => (listing (.ok p)) | _ => []) =
    [some ([4, 1], [0, 3, 6, 9]), some ([4, 2], [1, 2, 4, 5, 7, 8, 10, 11])] := by decide +kernel

example : listing (sliceNode [(1, 3), (1, 2)] exA) = some ([2], [3, 5]) := by decide +kernel

end Verif.Shape
