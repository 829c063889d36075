import Mathlib.Data.List.Nodup
/-!
Property C137: the lists of sizes that `ApplyOp` hands to `InferShape` (op.go 201-212, collections.go 211-221) come from pools, one for
each length (perf.go 85-114), that all goroutines share. Stated as a comparison with goroutines that make a list of their own each time.

Simplified: a step of a goroutine is not interrupted, which `sync.Pool` and `sync.Map` provide for the pools themselves; filling the list
is one step for each entry.
-/
set_option autoImplicit false
namespace Verif.Pool.Sizers

variable {α : Type}

/-- The lists in memory, the places that are free, and what each goroutine holds. The pools of all lengths are one list: `cap` of a list
says which pool it is in (perf.go 105). -/
structure S (α : Type) where
  cells : Nat → List (Option α)
  next : Nat
  free : List Nat
  held : Nat → Option Nat

def S.init : S α := ⟨fun _ => [], 0, [], fun _ => none⟩

/-- What goroutines do. -/
inductive Ev (α : Type) where
  /-- `borrowDimSizers` of goroutine `g`; `pick` is what the pool chooses -/
  | borrow (g n : Nat) (pick : Option Nat)
  /-- filling one entry (collections.go 213-219) -/
  | fill (g i : Nat) (v : α)
  /-- `returnDimSizers` -/
  | giveBack (g : Nat)
  /-- lists of a pool vanish: two goroutines make the pool of a length at once (perf.go 90-97), or `sync.Pool` drops them -/
  | lose (p : Nat → Bool)

def S.take (s : S α) (g a : Nat) : S α := { s with free := s.free.erase a, held := fun h => if h = g then some a else s.held h }

def S.fresh (s : S α) (g n : Nat) : S α :=
  { s with
    cells := fun b => if b = s.next then List.replicate n none else s.cells b
    next := s.next + 1
    held := fun h => if h = g then some s.next else s.held h }

/-- `borrowDimSizers` (perf.go 88-102). -/
def S.borrow (s : S α) (g n : Nat) (pick : Option Nat) : S α :=
  match pick with
  | none => s.fresh g n
  | some a => if a ∈ s.free ∧ (s.cells a).length = n then s.take g a else s.fresh g n

def S.write (s : S α) (a : Nat) (f : List (Option α) → List (Option α)) : S α :=
  { s with cells := fun b => if b = a then f (s.cells b) else s.cells b }

/-- The loop of `returnDimSizers` (perf.go 110-112). -/
def wipe (l : List (Option α)) : List (Option α) := l.map fun _ => none

/-- `returnDimSizers` (perf.go 104-114) of the list at `a`. -/
def S.putBack (s : S α) (g a : Nat) : S α :=
  { s.write a wipe with free := a :: s.free, held := fun h => if h = g then none else s.held h }

/-- A goroutine in `ApplyOp` has one list at a time: other steps do not happen. -/
def S.step (s : S α) : Ev α → S α
  | .borrow g n pick => match s.held g with
    | some _ => s
    | none => s.borrow g n pick
  | .fill g i v => match s.held g with
    | none => s
    | some a => s.write a fun l => l.set i (some v)
  | .giveBack g => match s.held g with
    | none => s
    | some a => s.putBack g a
  | .lose p => { s with free := s.free.filter p }

def run (es : List (Ev α)) : S α := es.foldl S.step S.init

/-- The list goroutine `g` works with. -/
def S.view (s : S α) (g : Nat) : Option (List (Option α)) := (s.held g).map s.cells

/-- Without pools: the list of a goroutine that makes an empty one when it needs one. -/
def own (g : Nat) : Option (List (Option α)) → Ev α → Option (List (Option α))
  | l, .borrow h n _ => if h = g then (match l with | none => some (List.replicate n none) | some l => some l) else l
  | l, .fill h i v => if h = g then l.map fun l => l.set i (some v) else l
  | l, .giveBack h => if h = g then none else l
  | l, .lose _ => l

structure Inv (s : S α) : Prop where
  lt : ∀ g a, s.held g = some a → a < s.next
  freeLt : ∀ a ∈ s.free, a < s.next
  nodup : s.free.Nodup
  apart : ∀ g a, s.held g = some a → a ∉ s.free
  inj : ∀ g h a, s.held g = some a → s.held h = some a → g = h
  clean : ∀ a ∈ s.free, s.cells a = List.replicate (s.cells a).length none

theorem inv_init : Inv (S.init : S α) :=
  by constructor <;> simp [S.init]

theorem inv_fresh {s : S α} (I : Inv s) (g n : Nat) (hg : s.held g = none) :
    Inv (s.fresh g n) ∧ ∀ h, (s.fresh g n).view h = if h = g then some (List.replicate n none) else s.view h := by
  refine ⟨⟨?_, ?_, I.nodup, ?_, ?_, ?_⟩, ?_⟩
  · intro h a e
    simp only [S.fresh] at e ⊢
    split at e
    · cases e; omega
    · have := I.lt h a e; omega
  · intro a ha
    have := I.freeLt a ha
    simp only [S.fresh]; omega
  · intro h a e
    simp only [S.fresh] at e ⊢
    split at e
    · cases e; intro hm; have := I.freeLt _ hm; omega
    · exact I.apart h a e
  · intro h k a e1 e2
    simp only [S.fresh] at e1 e2
    split at e1 <;> split at e2
    · omega
    · cases e1; have := I.lt _ _ e2; omega
    · cases e2; have := I.lt _ _ e1; omega
    · exact I.inj h k a e1 e2
  · intro a ha
    have hlt := I.freeLt a ha
    simp only [S.fresh]
    rw [if_neg (by omega)]
    exact I.clean a ha
  · intro h
    simp only [S.view, S.fresh]
    by_cases e : h = g
    · simp [e]
    · rw [if_neg e, if_neg e]
      cases hh : s.held h with
      | none => rfl
      | some a =>
        have := I.lt h a hh
        simp only [Option.map_some]
        rw [if_neg (by omega)]

theorem inv_take {s : S α} (I : Inv s) (g a : Nat) (hg : s.held g = none) (ha : a ∈ s.free) :
    Inv (s.take g a) ∧ ∀ h, (s.take g a).view h = if h = g then some (List.replicate (s.cells a).length none) else s.view h := by
  refine ⟨⟨?_, ?_, I.nodup.erase a, ?_, ?_, ?_⟩, ?_⟩
  · intro h b e
    simp only [S.take] at e ⊢
    split at e
    · cases e; exact I.freeLt a ha
    · exact I.lt h b e
  · exact fun b hb => I.freeLt b (List.mem_of_mem_erase hb)
  · intro h b e
    simp only [S.take] at e ⊢
    split at e
    · cases e; exact fun hm => (I.nodup.mem_erase_iff.1 hm).1 rfl
    · exact fun hm => I.apart h b e (List.mem_of_mem_erase hm)
  · intro h k b e1 e2
    simp only [S.take] at e1 e2
    split at e1 <;> split at e2
    · omega
    · cases e1; exact absurd ha (I.apart _ _ e2)
    · cases e2; exact absurd ha (I.apart _ _ e1)
    · exact I.inj h k b e1 e2
  · exact fun b hb => I.clean b (List.mem_of_mem_erase hb)
  · intro h
    simp only [S.view, S.take]
    by_cases e : h = g
    · simp only [e, if_true, Option.map_some]
      rw [← I.clean a ha]
    · rw [if_neg e, if_neg e]

theorem inv_write {s : S α} (I : Inv s) (g a : Nat) (hg : s.held g = some a) (f : List (Option α) → List (Option α)) :
    Inv (s.write a f) ∧ ∀ h, (s.write a f).view h = if h = g then some (f (s.cells a)) else s.view h := by
  refine ⟨⟨I.lt, I.freeLt, I.nodup, I.apart, I.inj, ?_⟩, ?_⟩
  · intro b hb
    have hne : b ≠ a := fun e => I.apart g a hg (e ▸ hb)
    simp only [S.write]
    rw [if_neg hne]
    exact I.clean b hb
  · intro h
    simp only [S.view, S.write]
    by_cases e : h = g
    · subst e
      rw [hg]
      simp
    · rw [if_neg e]
      cases hh : s.held h with
      | none => rfl
      | some b =>
        have hne : b ≠ a := fun e2 => e (I.inj h g a (e2 ▸ hh) hg)
        simp only [Option.map_some]
        rw [if_neg hne]

theorem inv_putBack {s : S α} (I : Inv s) (g a : Nat) (hg : s.held g = some a) :
    Inv (s.putBack g a) ∧ ∀ h, (s.putBack g a).view h = if h = g then none else s.view h := by
  obtain ⟨J, hv⟩ := inv_write I g a hg wipe
  refine ⟨⟨?_, ?_, ?_, ?_, ?_, ?_⟩, ?_⟩
  · intro h b e
    simp only [S.putBack] at e
    split at e
    · cases e
    · exact I.lt h b e
  · intro b hb
    rcases List.mem_cons.1 hb with rfl | hb
    · exact I.lt g b hg
    · exact I.freeLt b hb
  · exact List.nodup_cons.2 ⟨I.apart g a hg, I.nodup⟩
  · intro h b e
    simp only [S.putBack] at e
    split at e
    · cases e
    · rename_i hne
      intro hm
      rcases List.mem_cons.1 hm with rfl | hb
      · exact hne (I.inj h g b e hg)
      · exact I.apart h b e hb
  · intro h k b e1 e2
    simp only [S.putBack] at e1 e2
    split at e1 <;> split at e2
    · cases e1
    · cases e1
    · cases e2
    · exact I.inj h k b e1 e2
  · intro b hb
    rcases List.mem_cons.1 hb with rfl | hb
    · simp only [S.putBack, S.write, if_true, wipe, List.length_map]
      exact List.eq_replicate_iff.2 ⟨by simp, by simp⟩
    · exact J.clean b hb
  · intro h
    by_cases e : h = g
    · simp [S.view, S.putBack, e]
    · have := hv h
      rw [if_neg e] at this ⊢
      rw [← this]
      simp [S.view, S.putBack, e, S.write]

theorem step_ok {s : S α} (I : Inv s) (e : Ev α) : Inv (s.step e) ∧ ∀ g, (s.step e).view g = own g (s.view g) e := by
  cases e with
  | borrow g n pick =>
    simp only [S.step]
    cases hg : s.held g with
    | some a =>
      refine ⟨I, fun h => ?_⟩
      simp only [own]
      by_cases e : g = h
      · subst e; simp [S.view, hg]
      · simp [e]
    | none =>
      have key : ∀ s' : S α, (Inv s' ∧ ∀ h, s'.view h = if h = g then some (List.replicate n none) else s.view h) →
          Inv s' ∧ ∀ h, s'.view h = own h (s.view h) (.borrow g n pick) := by
        rintro s' ⟨J, hv⟩
        refine ⟨J, fun h => ?_⟩
        rw [hv h]
        simp only [own]
        by_cases e : h = g
        · subst e; simp [S.view, hg]
        · rw [if_neg e, if_neg (fun e2 => e e2.symm)]
      cases pick with
      | none => exact key _ (inv_fresh I g n hg)
      | some a =>
        simp only [S.borrow]
        split
        · rename_i h
          have := inv_take I g a hg h.1
          rw [h.2] at this
          exact key _ this
        · exact key _ (inv_fresh I g n hg)
  | fill g i v =>
    simp only [S.step]
    cases hg : s.held g with
    | none =>
      refine ⟨I, fun h => ?_⟩
      simp only [own]
      by_cases e : g = h
      · subst e; simp [S.view, hg]
      · simp [e]
    | some a =>
      obtain ⟨J, hv⟩ := inv_write I g a hg fun l => l.set i (some v)
      refine ⟨J, fun h => ?_⟩
      rw [hv h]
      simp only [own]
      by_cases e : h = g
      · subst e; simp [S.view, hg]
      · rw [if_neg e, if_neg (fun e2 => e e2.symm)]
  | giveBack g =>
    simp only [S.step]
    cases hg : s.held g with
    | none =>
      refine ⟨I, fun h => ?_⟩
      simp only [own]
      by_cases e : g = h
      · subst e; simp [S.view, hg]
      · simp [e]
    | some a =>
      obtain ⟨J, hv⟩ := inv_putBack I g a hg
      refine ⟨J, fun h => ?_⟩
      rw [hv h]
      simp only [own]
      by_cases e : h = g
      · subst e; simp
      · rw [if_neg e, if_neg (fun e2 => e e2.symm)]
  | lose p =>
    exact ⟨⟨I.lt, fun a ha => I.freeLt a (List.mem_of_mem_filter ha), I.nodup.filter p,
      fun g a e hm => I.apart g a e (List.mem_of_mem_filter hm), I.inj, fun a ha => I.clean a (List.mem_of_mem_filter ha)⟩, fun _ => rfl⟩

/-- **C137.** Whatever the goroutines do in whatever order, and whatever lists the pools hand out or lose: every goroutine sees the
list it would see if it had made its own, empty when it is borrowed and then with what it has filled in itself. -/
theorem sizers_own (es : List (Ev α)) (g : Nat) : (run es).view g = es.foldl (own g) none := by
  have : ∀ (es : List (Ev α)) (s : S α), Inv s → (es.foldl S.step s).view g = es.foldl (own g) (s.view g) := by
    intro es
    induction es with
    | nil => intro s _; rfl
    | cons e es ih =>
      intro s I
      obtain ⟨J, hv⟩ := step_ok I e
      rw [List.foldl_cons, List.foldl_cons, ih _ J, hv g]
  exact this es S.init inv_init

theorem run_inv (es : List (Ev α)) : Inv (run es) := by
  have : ∀ (es : List (Ev α)) (s : S α), Inv s → Inv (es.foldl S.step s) := by
    intro es
    induction es with
    | nil => intro s I; exact I
    | cons e es ih => intro s I; exact ih _ (step_ok I e).1
  exact this es S.init inv_init

/-- **C137 (nothing is shared).** No two goroutines hold the same list, and none holds one that is free. -/
theorem sizers_apart (es : List (Ev α)) (g h a : Nat) (hg : (run es).held g = some a) :
    ((run es).held h = some a → g = h) ∧ a ∉ (run es).free :=
  ⟨fun hh => (run_inv es).inj g h a hg hh, (run_inv es).apart g a hg⟩

/-- Two goroutines; the second gets the list that the first has given back, and it is empty. -/
example : let es : List (Ev Nat) := [.borrow 0 2 none, .fill 0 0 7, .fill 0 1 8, .borrow 1 2 (some 0), .giveBack 0, .giveBack 1,
      .borrow 1 2 (some 0), .fill 1 1 9]
    (run es).held 1 = some 0 ∧ (run es).view 1 = some [none, some 9] ∧ (run es).free = [1] := by decide

end Verif.Pool.Sizers
