import Verif.BFC.Theorems
/-!
When the memory reserved for the allocator of a device is enough. The part of the memory above everything that was ever asked for stays in
one free range, so a history of calls cannot run out of memory if the sizes asked for, each rounded up to the alignment, fit in the
reservation together, whatever is freed in between. The engine reserves two and a half times the memory it expects and 256 bytes more
(cuda/external.go 157-167): enough for any program whose registers have 13 bytes or more, not enough for twelve scalars of 4 bytes.
-/
set_option autoImplicit false
namespace Verif.BFC

/-- Everything from `W` on is free and in one range. -/
def Tail (b : BFC) (ids : List Nat) (W : Int) : Prop :=
  W < b.reserved → ∃ p ∈ ids, (b.fl.heap p).addr ≤ W ∧ b.reserved ≤ (b.fl.heap p).cap

/-- A call of `alloc` that fits above `W` succeeds, without merging ranges, so the code and the repaired program agree on it. -/
theorem alloc_tail {b : BFC} {ids : List Nat} {W s : Int} (G : Good b ids) (ht : Tail b ids W) (hs : 0 < s)
    (hf : W + align b.blockSize s ≤ b.reserved) :
    ∃ b' a ids', (∀ r, alloc r b s = some (b', .addr a)) ∧ Good b' ids' ∧ b'.reserved = b.reserved ∧ b'.blockSize = b.blockSize ∧
      b'.start = b.start ∧ Tail b' ids' (W + align b.blockSize s) := by
  have hge := (align_ge G.bp hs).1
  obtain ⟨t, ht1, ht2, ht3⟩ := ht (by omega)
  have key : ∀ r, alloc r b s = (some (ids.find? (fun p => decide (align b.blockSize s ≤ (b.fl.heap p).size)))).bind fun
      | some p => take b p (align b.blockSize s) s
      | none =>
        (b.fl.coalesce r b.blockSize).bind fun l =>
          (l.bestFit (align b.blockSize s)).bind fun
            | none => some ({ b with fl := l }, .oom)
            | some p => take { b with fl := l } p (align b.blockSize s) s := by
    intro r
    unfold alloc
    rw [if_neg (by omega)]
    simp only
    rw [bestFit_J G.j.sg]
    rfl
  cases hfd : ids.find? (fun p => decide (align b.blockSize s ≤ (b.fl.heap p).size)) with
  | none =>
    exfalso
    have := List.find?_eq_none.mp hfd t ht1
    simp only [Blk.cap] at ht3
    simp at this
    omega
  | some p =>
    have h1 := List.mem_of_find?_eq_some hfd
    have h2 := List.find?_some hfd
    simp at h2
    obtain ⟨b', o, ids', k1, k2, k3, k4, k5, k6, k7⟩ := take_good G hs h1 h2
    have ho : ∃ a, o = .addr a := by
      unfold take at k1
      cases e : b.fl.splitOrRemove p (align b.blockSize s) s with
      | none => rw [e] at k1; cases k1
      | some l => rw [e] at k1; simp at k1; exact ⟨_, k1.2.symm⟩
    obtain ⟨a, rfl⟩ := ho
    refine ⟨b', a, ids', fun r => by rw [key r, hfd]; exact k1, k2, k3, k4, k5, fun hlt => ?_⟩
    rw [k3] at hlt ⊢
    by_cases hp : t = p
    · subst hp
      have hlt' : align b.blockSize s < (b.fl.heap t).size := by simp only [Blk.cap] at ht3; omega
      obtain ⟨q, hq, hqb⟩ := k7 hlt'
      have g1 : (b'.fl.heap q).addr = (b.fl.heap t).addr + align b.blockSize s := congrArg Prod.fst hqb
      have g2 : (b'.fl.heap q).size = (b.fl.heap t).size - align b.blockSize s := congrArg Prod.snd hqb
      refine ⟨q, hq, by omega, ?_⟩
      simp only [Blk.cap] at ht3 ⊢; omega
    · obtain ⟨m1, m2⟩ := k6 t ht1 hp
      have g1 : (b'.fl.heap t).addr = (b.fl.heap t).addr := congrArg Prod.fst m2
      have g2 : (b'.fl.heap t).size = (b.fl.heap t).size := congrArg Prod.snd m2
      refine ⟨t, m1, by omega, ?_⟩
      simp only [Blk.cap] at ht3 ⊢; omega

theorem free_tail {b : BFC} {ids : List Nat} {W : Int} (th : Nat → Nat → Bool) (a : Int) (G : Good b ids) (ht : Tail b ids W) :
    ∃ b' ids', free true th b a = some b' ∧ Good b' ids' ∧ b'.reserved = b.reserved ∧ b'.blockSize = b.blockSize ∧
      b'.start = b.start ∧ Tail b' ids' W := by
  obtain ⟨b', ids', h1, h2, h3, h4, h5, h6⟩ := free_good th a G
  refine ⟨b', ids', h1, h2, h3, h4, h5, fun hlt => ?_⟩
  rw [h3] at hlt ⊢
  obtain ⟨t, t1, t2, t3⟩ := ht hlt
  obtain ⟨p, p1, p2, p3⟩ := h6 t t1
  exact ⟨p, p1, by omega, by omega⟩

/-- The sizes asked for in a history. -/
def asked : List Op → List Int
  | [] => []
  | .alloc s :: os => s :: asked os
  | .free _ :: os => asked os

/-- A size rounded up to a multiple of the block size, as a mathematician writes it. -/
def rounded (bs s : Int) : Int := bs * ((s + bs - 1) / bs)

theorem align_rounded {bs s : Int} (hb : 0 < bs) : align bs s = rounded bs s := by
  have e := Int.mul_ediv_add_emod s bs
  have l := Int.emod_lt_of_pos s hb
  have n := Int.emod_nonneg s (by omega : bs ≠ 0)
  unfold align rounded
  simp only
  split
  · rename_i h0
    have := ((Int.ediv_emod_unique (a := s + bs - 1) (r := bs - 1) (q := s / bs) hb).mpr ⟨by omega, by omega, by omega⟩).1
    rw [this]; omega
  · rename_i h0
    have := ((Int.ediv_emod_unique (a := s + bs - 1) (r := s % bs - 1) (q := s / bs + 1) hb).mpr
      ⟨by rw [Int.mul_add]; omega, by omega, by omega⟩).1
    rw [this, Int.mul_add]; omega

theorem sum_pos {bs : Int} (hb : 0 < bs) : ∀ xs : List Int, (∀ y ∈ xs, 0 < y) → 0 ≤ (xs.map (rounded bs)).sum
  | [], _ => by simp
  | x :: xs, h => by
    have h1 := (align_ge (s := x) hb (h x (by simp))).1
    have h2 := h x (by simp)
    have h3 := sum_pos hb xs fun y hy => h y (by simp [hy])
    rw [align_rounded hb] at h1
    simp only [List.map_cons, List.sum_cons]
    omega

/-- No call of a history runs out of memory if the rounded sizes fit above `W`. -/
theorem run_tail (th : Nat → Nat → Bool) : ∀ (ops : List Op) {b : BFC} {ids : List Nat} {W : Int}, Good b ids → Tail b ids W →
    (∀ s ∈ asked ops, 0 < s) → W + ((asked ops).map (rounded b.blockSize)).sum ≤ b.reserved →
    ∃ b' outs, run true th b ops = some (b', outs) ∧ (∀ o ∈ outs, o = .none ∨ ∃ a, o = .addr a) ∧
      ((∀ o ∈ ops, ∃ s, o = .alloc s) → run false th b ops = some (b', outs))
  | [], b, ids, W, G, ht, hp, hf => ⟨b, [], rfl, by simp, fun _ => rfl⟩
  | .alloc s :: os, b, ids, W, G, ht, hp, hf => by
    have hs : 0 < s := hp s (by simp [asked])
    have hpos : 0 ≤ ((asked os).map (rounded b.blockSize)).sum :=
      sum_pos G.bp (asked os) fun y hy => hp y (by simp [asked, hy])
    simp only [asked, List.map_cons, List.sum_cons] at hf
    have ha := align_rounded (s := s) G.bp
    obtain ⟨b1, a1, i1, t1, G1, e1, e2, e3, T1⟩ := alloc_tail G ht hs (by omega)
    obtain ⟨b', outs, k1, k2, k3⟩ := run_tail th os G1 T1 (fun x hx => hp x (by simp [asked, hx])) (by rw [e1, e2]; omega)
    refine ⟨b', .addr a1 :: outs, ?_, ?_, ?_⟩
    · rw [run]; show ((alloc true b s).bind _) = _
      rw [t1 true, Option.bind_some]; simp only; rw [k1]; rfl
    · intro o ho
      rcases List.mem_cons.mp ho with rfl | ho
      · exact .inr ⟨a1, rfl⟩
      · exact k2 o ho
    · intro hall
      rw [run]; show ((alloc false b s).bind _) = _
      rw [t1 false, Option.bind_some]; simp only; rw [k3 (fun o ho => hall o (by simp [ho]))]; rfl
  | .free a :: os, b, ids, W, G, ht, hp, hf => by
    obtain ⟨b1, i1, t1, G1, e1, e2, e3, T1⟩ := free_tail th a G ht
    obtain ⟨b', outs, k1, k2, k3⟩ := run_tail th os G1 T1 hp (by rw [e1, e2]; exact hf)
    refine ⟨b', .none :: outs, ?_, ?_, fun hall => ?_⟩
    · rw [run]
      show (((free true th b a).map fun b => (b, Out.none)).bind _) = _
      rw [t1, Option.map_some, Option.bind_some]; simp only; rw [k1]; rfl
    · intro o ho
      rcases List.mem_cons.mp ho with rfl | ho
      · exact .inl rfl
      · exact k2 o ho
    · obtain ⟨s, hs⟩ := hall _ (List.mem_cons_self ..)
      cases hs

theorem allocs_some {th : Nat → Nat → Bool} {r : Bool} : ∀ (xs : List Int) {b b' : BFC} {outs : List Out},
    run r th b (xs.map .alloc) = some (b', outs) → Out.none ∉ outs
  | [], b, b', outs, h => by
    rw [List.map_nil, run] at h; injection h with h; injection h with _ h; subst h; simp
  | x :: xs, b, b', outs, h => by
    rw [List.map_cons, run] at h
    cases e : step r th b (.alloc x) with
    | none => rw [e] at h; cases h
    | some y =>
      obtain ⟨b1, o⟩ := y
      rw [e, Option.bind_some] at h
      simp only at h
      cases e2 : run r th b1 (xs.map .alloc) with
      | none => rw [e2] at h; cases h
      | some z =>
        rw [e2, Option.map_some] at h
        injection h with h; injection h with _ h; subst h
        intro hm
        rcases List.mem_cons.mp hm with rfl | hm
        · have ht : ∀ {b : BFC} {p : Nat} {x y : Int} {b' : BFC}, take b p x y ≠ some (b', .none) := by
            intro b p x y b' h
            unfold take at h
            cases e : b.fl.splitOrRemove p x y with
            | none => rw [e] at h; cases h
            | some l => rw [e] at h; simp at h
          simp only [step, alloc] at e
          split at e
          · simp at e
          · cases e3 : b.fl.bestFit (align b.blockSize x) with
            | none => rw [e3] at e; cases e
            | some w =>
              rw [e3, Option.bind_some] at e
              cases w with
              | some p => exact ht e
              | none =>
                simp only at e
                cases e4 : b.fl.coalesce r b.blockSize with
                | none => rw [e4] at e; cases e
                | some l =>
                  rw [e4, Option.bind_some] at e
                  cases e5 : l.bestFit (align b.blockSize x) with
                  | none => rw [e5] at e; cases e
                  | some w =>
                    rw [e5, Option.bind_some] at e
                    cases w with
                    | none => simp at e
                    | some p => exact ht e
        · exact allocs_some xs e2 hm

/-! ### Theorems -/

/-- **C128.** With the pointer reset in `coalesce`, no history of calls runs out of memory if the sizes it asks for fit in the reservation
together, each rounded up to the alignment, whatever is freed in between: every `alloc` gets an address. -/
theorem repaired_enough (thresh : Nat → Nat → Bool) (blockSize start size : Int) (hb : 0 < blockSize) (hz : 0 < size) (ops : List Op)
    (hp : ∀ s ∈ asked ops, 0 < s) (hf : ((asked ops).map (rounded blockSize)).sum ≤ size) :
    ∃ b0 b outs, reserve blockSize start size = some b0 ∧ run true thresh b0 ops = some (b, outs) ∧ ∀ o ∈ outs, o = .none ∨ ∃ a, o = .addr a := by
  obtain ⟨b0, i0, h0, G0, r1, r2, r3, q, hq, hqb⟩ := reserve_good (st := start) hb hz
  have g1 : (b0.fl.heap q).addr = 0 := congrArg Prod.fst hqb
  have g2 : (b0.fl.heap q).size = size := congrArg Prod.snd hqb
  have T : Tail b0 i0 0 := fun _ => ⟨q, hq, by omega, by simp only [Blk.cap]; omega⟩
  obtain ⟨b, outs, k1, k2, _⟩ := run_tail thresh ops G0 T hp (by rw [r1, r2]; omega)
  exact ⟨b0, b, outs, h0, k1, k2⟩

/-- **C128 (code as it is, nothing freed).** -/
theorem code_enough_allocs (thresh : Nat → Nat → Bool) (blockSize start size : Int) (hb : 0 < blockSize) (hz : 0 < size) (xs : List Int)
    (hp : ∀ s ∈ xs, 0 < s) (hf : (xs.map (rounded blockSize)).sum ≤ size) :
    ∃ b0 b outs, reserve blockSize start size = some b0 ∧ run false thresh b0 (xs.map .alloc) = some (b, outs) ∧ ∀ o ∈ outs, ∃ a, o = .addr a := by
  have hx : ∀ xs : List Int, asked (xs.map .alloc) = xs := by
    intro xs
    induction xs with
    | nil => rfl
    | cons x xs ih => simp [asked, ih]
  obtain ⟨b0, i0, h0, G0, r1, r2, r3, q, hq, hqb⟩ := reserve_good (st := start) hb hz
  have g1 : (b0.fl.heap q).addr = 0 := congrArg Prod.fst hqb
  have g2 : (b0.fl.heap q).size = size := congrArg Prod.snd hqb
  have T : Tail b0 i0 0 := fun _ => ⟨q, hq, by omega, by simp only [Blk.cap]; omega⟩
  obtain ⟨b, outs, k1, k2, k3⟩ := run_tail thresh (xs.map .alloc) G0 T (by rw [hx]; exact hp) (by rw [r1, r2, hx]; omega)
  have k4 := k3 (fun o ho => by obtain ⟨s, _, rfl⟩ := List.mem_map.mp ho; exact ⟨s, rfl⟩)
  refine ⟨b0, b, outs, h0, k4, fun o ho => ?_⟩
  rcases k2 o ho with rfl | h
  · exact absurd ho (allocs_some xs k4)
  · exact h

/-- **C128 (code as it is, partial).** The same for every history of the code after which no merge has left a stale pointer behind. -/
theorem code_enough_partial (thresh : Nat → Nat → Bool) (blockSize start size : Int) (hb : 0 < blockSize) (hz : 0 < size) (ops : List Op)
    (hp : ∀ s ∈ asked ops, 0 < s) (hf : ((asked ops).map (rounded blockSize)).sum ≤ size) (b0 b : BFC) (outs : List Out)
    (h0 : reserve blockSize start size = some b0) (h : run false thresh b0 ops = some (b, outs)) (hc : b.fl.clobbered = false) :
    ∀ o ∈ outs, o = .none ∨ ∃ a, o = .addr a := by
  obtain ⟨b0', b', outs', h0', h1, h2⟩ := repaired_enough thresh blockSize start size hb hz ops hp hf
  rw [h0] at h0'; injection h0' with h0'; subst h0'
  rw [(run_mono ops h hc).1] at h1
  injection h1 with h1; injection h1 with h1 h3; subst h3
  exact h2

/-! ### Examples -/

/-- A reservation filled to the last byte, with a range freed and asked for again. -/
example : ((reserve 32 4096 128).bind fun b => run true codeThresh b [.alloc 20, .alloc 33, .free 4096, .alloc 5]).map (·.2) =
    some [.addr 4096, .addr 4128, .none, .addr 4192] := by decide +kernel

example : (asked [.alloc 20, .alloc 33, .free 4096, .alloc 5]).map (rounded 32) = [32, 64, 32] := by decide

end Verif.BFC
