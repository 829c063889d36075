import Verif.Solver.Model
/-!
What a solver remembers between two calls of `Step`, and for which parameter. RMSProp, Adam, Momentum and AdaGrad keep a slice, one entry
for each position of the model; AdamW keeps a map from nodes; Barzilai-Borwein keeps a slice that it fills while stepping.

`W` is what a parameter holds (value and gradient), `C` an entry of the cache. What the loop body does to them is left open: `upd` gives
the new contents, the new entry, and whether it ended without error.
-/
set_option autoImplicit false
namespace Verif.Solver.Cache

/-- How a call of `Step` ends. -/
inductive Out where
  | ok | err | panic
  deriving DecidableEq

variable {W C : Type}

/-- A solver's loop body: whether the parameter has a gradient (`extractWeightGrad`, solvers.go 48-57), the new entry (`newCachedDV`,
solvers.go 27-46; its failure is counted as a missing gradient), and the update. -/
structure Body (W C : Type) where
  ready : W → Bool
  new : W → C
  upd : W → C → W × C × Bool

/-- The solver's slice and the contents of all parameters. -/
structure St (W C : Type) where
  cache : Option (List (Option C))
  mem : Nat → W

/-- The loop `for i, n := range model` (solvers.go 278-292 of RMSProp; 470-484 of Adam; 980-994 of Momentum; 1208-1222 of AdaGrad), from
position `i` on: the gradient is asked for first, then the entry at position `i` is read, which panics beyond the end of the slice. -/
def loop (B : Body W C) : List Nat → Nat → List (Option C) → (Nat → W) → List (Option C) × (Nat → W) × Out
  | [], _, cache, mem => (cache, mem, .ok)
  | n :: rest, i, cache, mem =>
    if B.ready (mem n) = false then (cache, mem, .err)
    else match cache[i]? with
      | none => (cache, mem, .panic)
      | some c =>
        let r := B.upd (mem n) (c.getD (B.new (mem n)))
        let cache' := cache.set i (some r.2.1)
        let mem' := fun k => if k = n then r.1 else mem k
        if r.2.2 = false then (cache', mem', .err) else loop B rest (i + 1) cache' mem'

/-- `Step` (solvers.go 273-276, 461-464, 975-978, 1203-1206): the slice is made at the first call, as long as the model then is. -/
def step (B : Body W C) (model : List Nat) (s : St W C) : St W C × Out :=
  let r := loop B model 0 (s.cache.getD (List.replicate model.length none)) s.mem
  (⟨some r.1, r.2.1⟩, r.2.2)

/-- `AdamW.Step` (solvers.go 1602-1618): the entry is looked up under the node itself. -/
def loopMap (B : Body W C) : List Nat → (Nat → Option C) → (Nat → W) → (Nat → Option C) × (Nat → W) × Out
  | [], cache, mem => (cache, mem, .ok)
  | n :: rest, cache, mem =>
    if B.ready (mem n) = false then (cache, mem, .err)
    else
      let r := B.upd (mem n) ((cache n).getD (B.new (mem n)))
      let cache' := fun k => if k = n then some r.2.1 else cache k
      let mem' := fun k => if k = n then r.1 else mem k
      if r.2.2 = false then (cache', mem', .err) else loopMap B rest cache' mem'

/-- What a solver working on one parameter only remembers after having seen the contents `ws`, first one first. This is the meaning of
"its" moments, stated without models and positions. -/
def own (B : Body W C) : List W → Option C
  | [] => none
  | ws => ws.foldl (fun c w => some (B.upd w (c.getD (B.new w))).2.1) none

theorem own_snoc (B : Body W C) (ws : List W) (w : W) :
    own B (ws ++ [w]) = some (B.upd w ((own B ws).getD (B.new w))).2.1 := by
  cases ws with
  | nil => rfl
  | cons a l => simp [own, List.foldl_append]

/-- A loop over distinct parameters that does not fail gives every one of them its update from the entry at its position. -/
theorem loop_ok (B : Body W C) (l : List Nat) (i : Nat) (cache : List (Option C)) (mem : Nat → W) (hn : l.Nodup)
    (hlen : i + l.length ≤ cache.length)
    (hr : ∀ n ∈ l, B.ready (mem n) = true) (hu : ∀ n ∈ l, ∀ c, (B.upd (mem n) c).2.2 = true) :
    ∃ cache' mem', loop B l i cache mem = (cache', mem', .ok) ∧ cache'.length = cache.length ∧
      (∀ k, k < i ∨ i + l.length ≤ k → cache'[k]? = cache[k]?) ∧
      (∀ n, n ∉ l → mem' n = mem n) ∧
      ∀ (j n : Nat), l[j]? = some n → ∃ c, cache[i + j]? = some c ∧
        mem' n = (B.upd (mem n) (c.getD (B.new (mem n)))).1 ∧
        cache'[i + j]? = some (some (B.upd (mem n) (c.getD (B.new (mem n)))).2.1) := by
  induction l generalizing i cache mem with
  | nil => exact ⟨cache, mem, rfl, rfl, fun _ _ => rfl, fun _ _ => rfl, fun j n h => by simp at h⟩
  | cons a l ih =>
    have hi : i < cache.length := by simp at hlen; omega
    obtain ⟨hal, hl⟩ := List.nodup_cons.1 hn
    have hra := hr a (by simp)
    have hgi : cache[i]? = some cache[i] := List.getElem?_eq_getElem hi
    generalize hR : B.upd (mem a) (cache[i].getD (B.new (mem a))) = R
    have hR2 : R.2.2 = true := by rw [← hR]; exact hu a (by simp) _
    have hne : ∀ n ∈ l, n ≠ a := fun n h h' => hal (h' ▸ h)
    obtain ⟨cache', mem', h1, h2, h3, h4, h5⟩ := ih (i + 1) (cache.set i (some R.2.1)) (fun k => if k = a then R.1 else mem k) hl
      (by simp at hlen ⊢; omega) (fun n h => by simpa [hne n h] using hr n (by simp [h]))
      (fun n h c => by simpa [hne n h] using hu n (by simp [h]) c)
    refine ⟨cache', mem', ?_, by simpa using h2, ?_, ?_, ?_⟩
    · rw [loop, if_neg (by simp [hra]), hgi]
      simp only [hR, hR2]
      simpa using h1
    · intro k hk
      rw [h3 k (by simp at hk; omega), List.getElem?_set_ne (by simp at hk; omega)]
    · intro n hn'
      simp at hn'
      rw [h4 n hn'.2, if_neg hn'.1]
    · intro j n hj
      cases j with
      | zero =>
        have : a = n := by simpa using hj
        subst this
        refine ⟨cache[i], by simpa using hgi, ?_, ?_⟩
        · rw [h4 a hal]; simp [hR]
        · rw [Nat.add_zero, h3 i (by omega), List.getElem?_set_self hi, hR]
      | succ j =>
        have hj' : l[j]? = some n := by simpa using hj
        have hnl : n ∈ l := List.mem_of_getElem? hj'
        obtain ⟨c, g1, g2, g3⟩ := h5 j n hj'
        simp only [if_neg (hne n hnl)] at g2 g3
        refine ⟨c, ?_, g2, ?_⟩
        · rw [← g1, List.getElem?_set_ne (by omega)]; congr 1; omega
        · rw [← g3]; congr 1; omega

/-- The contents of parameter `p` in those of the first `k` rounds that stepped it, first one first. -/
def seen (models : Nat → List Nat) (before : Nat → Nat → W) (p : Nat) (k : Nat) : List W :=
  ((List.range k).filter fun j => (models j).contains p).map fun j => before j p

/-- A history of a solver: in round `j` the parameters hold `before j` (new gradients, or whatever else happened to them since the last
round), `Step` is called with `models j`, and gives `after j`; only the slice is carried over. -/
structure Rounds (B : Body W C) (models : Nat → List Nat) (before after : Nat → Nat → W) (cs : Nat → Option (List (Option C))) (N : Nat) :
    Prop where
  start : cs 0 = none
  round : ∀ j, j < N → step B (models j) ⟨cs j, before j⟩ = (⟨cs (j + 1), after j⟩, .ok)

theorem seen_succ (models : Nat → List Nat) (before : Nat → Nat → W) (p k : Nat) :
    seen models before p (k + 1) = if p ∈ models k then seen models before p k ++ [before k p] else seen models before p k := by
  unfold seen
  rw [List.range_succ, List.filter_append]
  by_cases h : p ∈ models k <;> simp [h]

/-- What holds of the slice after `k` rounds: as long as the first model, and at the position of each parameter its own moments. -/
def Fits (B : Body W C) (models : Nat → List Nat) (before : Nat → Nat → W) (c : Option (List (Option C))) (k : Nat) : Prop :=
  (c = none → k = 0) ∧ ∀ l, c = some l → l.length = (models 0).length ∧
    ∀ j i p, (models j)[i]? = some p → i < l.length → l[i]? = some (own B (seen models before p k))

theorem getD_fits (B : Body W C) (models : Nat → List Nat) (before : Nat → Nat → W) (c : Option (List (Option C))) (k : Nat)
    (h : Fits B models before c k) :
    (c.getD (List.replicate (models k).length none)).length = (models 0).length ∧
    ∀ j i p, (models j)[i]? = some p → i < (models 0).length →
      (c.getD (List.replicate (models k).length none))[i]? = some (own B (seen models before p k)) := by
  cases c with
  | none =>
    have hk := h.1 rfl
    subst hk
    refine ⟨by simp, fun j i p _ hi => ?_⟩
    simp [List.getElem?_replicate, hi, seen, own]
  | some l =>
    obtain ⟨h1, h2⟩ := h.2 l rfl
    exact ⟨by simpa using h1, fun j i p hj hi => by simpa using h2 j i p hj (h1 ▸ hi)⟩

theorem step_fits (B : Body W C) (models : Nat → List Nat) (before : Nat → Nat → W) (after : Nat → W) (c c' : Option (List (Option C)))
    (k : Nat) (h : Fits B models before c k) (hn : (models k).Nodup)
    (hpos : ∀ j j' i i' p q : Nat, (models j)[i]? = some p → (models j')[i']? = some q → (p = q ↔ i = i'))
    (hlen : (models k).length ≤ (models 0).length)
    (hr : ∀ n ∈ models k, B.ready (before k n) = true) (hu : ∀ n ∈ models k, ∀ c, (B.upd (before k n) c).2.2 = true)
    (hs : step B (models k) ⟨c, before k⟩ = (⟨c', after⟩, .ok)) :
    Fits B models before c' (k + 1) ∧ (∀ n, n ∉ models k → after n = before k n) ∧
    ∀ p ∈ models k, after p = (B.upd (before k p) ((own B (seen models before p k)).getD (B.new (before k p)))).1 := by
  obtain ⟨g1, g2⟩ := getD_fits B models before c k h
  obtain ⟨cache', mem', h1, h2, h3, h4, h5⟩ := loop_ok B (models k) 0 (c.getD (List.replicate (models k).length none)) (before k) hn
    (by omega) hr hu
  have hs' : (⟨some cache', mem'⟩, Out.ok) = ((⟨c', after⟩, Out.ok) : St W C × Out) := by rw [← hs, step, h1]
  injection hs' with e1 _
  injection e1 with e2 e3
  subst e2 e3
  refine ⟨⟨fun hc => (by cases hc), fun l hl => ?_⟩, h4, fun p hp => ?_⟩
  · injection hl with hl
    subst hl
    refine ⟨by omega, fun j i p hj hi => ?_⟩
    have hi0 : i < (models 0).length := by omega
    rw [seen_succ]
    by_cases hp : p ∈ models k
    · rw [if_pos hp, own_snoc]
      obtain ⟨i', hi'⟩ := List.mem_iff_getElem?.1 hp
      have : i = i' := (hpos j k i i' p p hj hi').1 rfl
      subst this
      obtain ⟨c0, k1, k2, k3⟩ := h5 i p hi'
      rw [Nat.zero_add] at k1 k3
      rw [g2 k i p hi' hi0] at k1
      injection k1 with k1
      rw [k3, k1]
    · rw [if_neg hp]
      have hnot : (models k).length ≤ i := by
        by_contra hlt
        have hlt : i < (models k).length := by omega
        have hq : (models k)[i]? = some (models k)[i] := List.getElem?_eq_getElem hlt
        have := (hpos j k i i p _ hj hq).2 rfl
        exact hp (this ▸ List.getElem_mem hlt)
      rw [h3 i (Or.inr (by omega)), g2 j i p hj hi0]
  · obtain ⟨i, hi⟩ := List.mem_iff_getElem?.1 hp
    have hi0 : i < (models 0).length := by
      have := (List.getElem?_eq_some_iff.1 hi).1
      omega
    obtain ⟨c0, k1, k2, _⟩ := h5 i p hi
    rw [Nat.zero_add, g2 k i p hi hi0] at k1
    injection k1 with k1
    rw [k2, k1]

/-- **C116.** If every parameter always comes at the same place of the model, no two parameters ever at the same place, and the first model
is the longest, then every round updates every parameter of its model from the moments that a solver of its own would have, and leaves the
other parameters alone; whatever happens between the rounds. -/
theorem moments_kept (B : Body W C) (models : Nat → List Nat) (before after : Nat → Nat → W) (cs : Nat → Option (List (Option C))) (N : Nat)
    (H : Rounds B models before after cs N) (hn : ∀ j, j < N → (models j).Nodup)
    (hpos : ∀ j j' i i' p q : Nat, (models j)[i]? = some p → (models j')[i']? = some q → (p = q ↔ i = i'))
    (hlen : ∀ j, j < N → (models j).length ≤ (models 0).length)
    (hr : ∀ j, j < N → ∀ n ∈ models j, B.ready (before j n) = true)
    (hu : ∀ j, j < N → ∀ n ∈ models j, ∀ c, (B.upd (before j n) c).2.2 = true) :
    ∀ k, k < N → (∀ n, n ∉ models k → after k n = before k n) ∧
      ∀ p ∈ models k, after k p = (B.upd (before k p) ((own B (seen models before p k)).getD (B.new (before k p)))).1 := by
  have hF : ∀ k, k ≤ N → Fits B models before (cs k) k := by
    intro k
    induction k with
    | zero => intro _; rw [H.start]; exact ⟨fun _ => rfl, fun l hl => by cases hl⟩
    | succ k ih =>
      intro hk
      exact (step_fits B models before (after k) (cs k) (cs (k + 1)) k (ih (by omega)) (hn k (by omega)) hpos (hlen k (by omega))
        (hr k (by omega)) (hu k (by omega)) (H.round k (by omega))).1
  intro k hk
  exact (step_fits B models before (after k) (cs k) (cs (k + 1)) k (hF k (by omega)) (hn k (by omega)) hpos (hlen k (by omega))
    (hr k (by omega)) (hu k (by omega)) (H.round k (by omega))).2

/-- The rounds of `moments_kept` never fail: such a history exists for all models and contents. -/
theorem rounds_exist (B : Body W C) (models : Nat → List Nat) (before : Nat → Nat → W) (N : Nat) (hn : ∀ j, j < N → (models j).Nodup)
    (hlen : ∀ j, j < N → (models j).length ≤ (models 0).length)
    (hr : ∀ j, j < N → ∀ n ∈ models j, B.ready (before j n) = true)
    (hu : ∀ j, j < N → ∀ n ∈ models j, ∀ c, (B.upd (before j n) c).2.2 = true) :
    ∃ after cs, Rounds B models before after cs N := by
  let go : Nat → Option (List (Option C)) := fun j => Nat.rec none (fun k c => (step B (models k) ⟨c, before k⟩).1.cache) j
  have hg : ∀ j, j ≤ N → ((go j).getD (List.replicate (models j).length none)).length = (models 0).length ∧ (go j = none → j = 0) ∧
      ∀ l, go j = some l → l.length = (models 0).length := by
    intro j
    induction j with
    | zero => intro _; exact ⟨by simp [go], fun _ => rfl, fun l hl => by cases hl⟩
    | succ j ih =>
      intro hj
      obtain ⟨i1, i2, i3⟩ := ih (by omega)
      obtain ⟨c', m', h1, h2, _⟩ := loop_ok B (models j) 0 ((go j).getD (List.replicate (models j).length none)) (before j) (hn j (by omega))
        (by have := hlen j (by omega); omega) (hr j (by omega)) (hu j (by omega))
      have hgo : go (j + 1) = some c' := by
        show (step B (models j) ⟨go j, before j⟩).1.cache = some c'
        rw [step, h1]
      rw [hgo]
      refine ⟨by simp [h2, i1], fun h => (by cases h), fun l hl => (by injection hl with hl; rw [← hl, h2, i1])⟩
  refine ⟨fun j => (step B (models j) ⟨go j, before j⟩).1.mem, go, rfl, fun j hj => ?_⟩
  obtain ⟨c', m', h1, _⟩ := loop_ok B (models j) 0 ((go j).getD (List.replicate (models j).length none)) (before j) (hn j hj)
    (by have := hlen j hj; have := (hg j (by omega)).1; omega) (hr j hj) (hu j hj)
  have : (step B (models j) ⟨go j, before j⟩).2 = .ok := by rw [step, h1]
  rw [← this]

/-- AdamW's map: a loop that does not fail gives every parameter its update from the entry under its own name. -/
theorem loopMap_ok (B : Body W C) (l : List Nat) (cache : Nat → Option C) (mem : Nat → W) (hn : l.Nodup)
    (hr : ∀ n ∈ l, B.ready (mem n) = true) (hu : ∀ n ∈ l, ∀ c, (B.upd (mem n) c).2.2 = true) :
    loopMap B l cache mem = (fun n => if n ∈ l then some (B.upd (mem n) ((cache n).getD (B.new (mem n)))).2.1 else cache n,
      fun n => if n ∈ l then (B.upd (mem n) ((cache n).getD (B.new (mem n)))).1 else mem n, .ok) := by
  induction l generalizing cache mem with
  | nil => simp [loopMap]
  | cons a l ih =>
    obtain ⟨hal, hl⟩ := List.nodup_cons.1 hn
    have hne : ∀ n ∈ l, n ≠ a := fun n h h' => hal (h' ▸ h)
    rw [loopMap, if_neg (by simp [hr a (by simp)])]
    simp only [hu a (by simp)]
    rw [if_neg (by simp), ih _ _ hl (fun n h => by simpa [hne n h] using hr n (by simp [h]))
      (fun n h c => by simpa [hne n h] using hu n (by simp [h]) c)]
    refine Prod.ext ?_ (Prod.ext ?_ rfl)
    · funext n
      by_cases h1 : n = a
      · subst h1; simp [hal]
      · simp [h1]
    · funext n
      by_cases h1 : n = a
      · subst h1; simp [hal]
      · simp [h1]

/-- **C116.** AdamW keeps the moments with the nodes, for models of any length and order. -/
theorem keyed_kept (B : Body W C) (models : Nat → List Nat) (before after : Nat → Nat → W) (cs : Nat → Nat → Option C) (N : Nat)
    (h0 : cs 0 = fun _ => none) (H : ∀ j, j < N → loopMap B (models j) (cs j) (before j) = (cs (j + 1), after j, .ok))
    (hn : ∀ j, j < N → (models j).Nodup) (hr : ∀ j, j < N → ∀ n ∈ models j, B.ready (before j n) = true)
    (hu : ∀ j, j < N → ∀ n ∈ models j, ∀ c, (B.upd (before j n) c).2.2 = true) :
    ∀ k, k < N → (∀ n, n ∉ models k → after k n = before k n) ∧
      ∀ p ∈ models k, after k p = (B.upd (before k p) ((own B (seen models before p k)).getD (B.new (before k p)))).1 := by
  have hF : ∀ k, k ≤ N → ∀ p, cs k p = own B (seen models before p k) := by
    intro k
    induction k with
    | zero => intro _ p; rw [h0]; rfl
    | succ k ih =>
      intro hk p
      have h1 := H k (by omega)
      rw [loopMap_ok B _ _ _ (hn k (by omega)) (hr k (by omega)) (hu k (by omega))] at h1
      have h2 := congrArg (fun r => r.1 p) h1
      simp only at h2
      rw [← h2, seen_succ]
      by_cases hp : p ∈ models k
      · rw [if_pos hp, if_pos hp, own_snoc, ih (by omega)]
      · rw [if_neg hp, if_neg hp, ih (by omega)]
  intro k hk
  have h1 := H k hk
  rw [loopMap_ok B _ _ _ (hn k hk) (hr k hk) (hu k hk)] at h1
  have h2 : after k = _ := (congrArg (fun r => r.2.1) h1).symm
  rw [h2]
  refine ⟨fun n h => by simp only [if_neg h], fun p hp => ?_⟩
  simp only [if_pos hp]
  rw [hF k (by omega)]

/-- **C116, violated.** A model longer than the first one: the parameters up to the length of the first are stepped, the next one panics. -/
theorem longer_panics (B : Body W C) (l rest : List Nat) (n : Nat) (cache : List (Option C)) (mem : Nat → W) (hl : l.length = cache.length)
    (hn : l.Nodup) (hnl : n ∉ l) (hr : ∀ k ∈ n :: l, B.ready (mem k) = true) (hu : ∀ k ∈ l, ∀ c, (B.upd (mem k) c).2.2 = true) :
    (step B (l ++ n :: rest) ⟨some cache, mem⟩).2 = .panic := by
  have key : ∀ (l : List Nat) (i : Nat) (cache : List (Option C)) (mem : Nat → W), i + l.length = cache.length → l.Nodup → n ∉ l →
      (∀ k ∈ n :: l, B.ready (mem k) = true) → (∀ k ∈ l, ∀ c, (B.upd (mem k) c).2.2 = true) →
      (loop B (l ++ n :: rest) i cache mem).2.2 = .panic := by
    intro l
    induction l with
    | nil =>
      intro i cache mem h1 _ _ h4 _
      rw [List.nil_append, loop, if_neg (by simp [h4 n (by simp)]), List.getElem?_eq_none (by simp at h1; omega)]
    | cons a l ih =>
      intro i cache mem h1 h2 h3 h4 h5
      obtain ⟨hal, hl⟩ := List.nodup_cons.1 h2
      have hne : ∀ k ∈ n :: l, k ≠ a := by
        intro k hk he
        subst he
        rcases List.mem_cons.1 hk with h | h
        · exact h3 (by simp [h])
        · exact hal h
      have hi : i < cache.length := by simp at h1; omega
      rw [List.cons_append, loop, if_neg (by simp [h4 a (by simp)]), List.getElem?_eq_getElem hi]
      simp only [h5 a (by simp)]
      rw [if_neg (by simp)]
      refine ih (i + 1) _ _ (by simp at h1 ⊢; omega) hl (fun h => h3 (by simp [h])) (fun k hk => ?_) (fun k hk c => ?_)
      · simp only [if_neg (hne k hk)]
        exact h4 k (by rcases List.mem_cons.1 hk with h | h <;> simp [h])
      · simp only [if_neg (hne k (by simp [hk]))]
        exact h5 k (by simp [hk]) c
  exact key l 0 cache mem (by simpa using hl) hn hnl hr hu

/-! ### Momentum on tensors -/

/-- The loop body of Momentum on tensors of `n` elements (`momentumNode` of `Verif.Solver.Model`). -/
noncomputable def momentumBody (F : Fields) (n : Nat) : Body (Dense n × Option (Dense n)) (Dense n × Dense n) where
  ready w := w.2.isSome
  new _ := (fun _ => 0, fun _ => 0)
  upd w c := match momentumNode F (.dense n w.1 w.2 (some c)) with
    | some (.dense m w' g' (some c')) =>
        if h : m = n then ((h ▸ w', h ▸ g'), (h ▸ c'), true) else (w, c, false)
    | _ => (w, c, false)

theorem momentumBody_upd (F : Fields) (n : Nat) (w g : Dense n) (c : Dense n × Dense n) (h1 : F.useL1Reg = false) (h2 : F.useL2Reg = false)
    (h3 : F.useClip = false) (h4 : F.batch = 1) :
    (momentumBody F n).upd (w, some g) c =
      ((fun i => w i + (c.1 i * F.momentum + g i * -F.eta), some fun _ => 0), (fun i => c.1 i * F.momentum + g i * -F.eta, c.2), true) := by
  simp [momentumBody, momentumNode, cacheD, prepT, h1, h2, h3, h4]

/-- **C116, violated.** The same parameters in another order: with learn rate 1 and momentum 1, `a` and `b` start from zero, only `a` has a
gradient (one, in the first round); the second round is given `b` before `a`. Then `a` stays where it was and `b`, whose gradient was zero
all along, moves by -1. -/
theorem reordered_wrong (F : Fields) (h1 : F.useL1Reg = false) (h2 : F.useL2Reg = false) (h3 : F.useClip = false) (h4 : F.batch = 1)
    (h5 : F.eta = 1) (h6 : F.momentum = 1) :
    let z : Dense 1 := fun _ => 0
    let r1 := step (momentumBody F 1) [0, 1] ⟨none, fun k => (z, some (if k = 0 then fun _ => 1 else z))⟩
    let r2 := step (momentumBody F 1) [1, 0] r1.1
    r1.2 = .ok ∧ r2.2 = .ok ∧ (r1.1.mem 0).1 0 = -1 ∧ (r1.1.mem 1).1 0 = 0 ∧
      (r2.1.mem 0).1 0 = -1 ∧ (r2.1.mem 1).1 0 = -1 := by
  have hu := fun w g c => momentumBody_upd F 1 w g c h1 h2 h3 h4
  have hr : ∀ w g, (momentumBody F 1).ready (w, some g) = true := fun _ _ => rfl
  have hnw : ∀ w, (momentumBody F 1).new w = (fun _ => 0, fun _ => 0) := fun _ => rfl
  have e1 : step (momentumBody F 1) [0, 1] ⟨none, fun k => ((fun _ => 0 : Dense 1), some (if k = 0 then fun _ => 1 else fun _ => 0))⟩
      = (⟨some [some (fun _ => -1, fun _ => 0), some (fun _ => 0, fun _ => 0)],
          fun k => if k = 1 then (fun _ => 0, some fun _ => 0) else if k = 0 then (fun _ => -1, some fun _ => 0)
            else ((fun _ => 0 : Dense 1), some (if k = 0 then fun _ => 1 else fun _ => 0))⟩, .ok) := by
    simp [step, loop, hu, hr, hnw, h5, h6]
  have e2 := e1
  intro z r1 r2
  have hr1 : r1 = _ := e1
  have hr2 : r2 = step (momentumBody F 1) [1, 0] r1.1 := rfl
  rw [hr1] at hr2
  rw [hr1, hr2]
  simp [step, loop, hu, hr, hnw, h5, h6]

/-! ### Barzilai-Borwein -/

/-- The slice `prevDV` of Barzilai-Borwein and the loops that touch it (solvers.go 1410-1414, 1421-1442, 1498-1514), as far as it is about
nil entries: `true` for an entry that is there. The first call makes the slice with all entries nil, the later ones read the entries of
all nodes first. -/
def bbCall (has : Nat → Bool) (model : List Nat) (prev : Option (List Bool)) : Option (List Bool) × Out :=
  match prev with
  | none => bbSave has model 0 (List.replicate model.length false)
  | some l =>
    match bbRead has l model 0 with
    | .ok => bbSave has model 0 l
    | o => (some l, o)
where
  /-- The loop computing the learn rate: an error for a node without gradient, a panic for a nil entry and beyond the end. -/
  bbRead (has : Nat → Bool) (l : List Bool) : List Nat → Nat → Out
    | [], _ => .ok
    | n :: rest, i => if has n = false then .err else if l[i]? = some true then bbRead has l rest (i + 1) else .panic
  /-- The loop saving the contents. -/
  bbSave (has : Nat → Bool) : List Nat → Nat → List Bool → Option (List Bool) × Out
    | [], _, l => (some l, .ok)
    | n :: rest, i, l =>
      if has n = false then (some l, .err) else if i < l.length then bbSave has rest (i + 1) (l.set i true) else (some l, .panic)

/-- **C116, violated.** A first `Step` that fails because a gradient is missing leaves Barzilai-Borwein broken: when the gradient is there
the next time, `Step` panics. -/
theorem bb_broken (n : Nat) (rest : List Nat) (has has' : Nat → Bool) (h : has n = false) (h' : has' n = true) :
    (bbCall has (n :: rest) none).2 = .err ∧ (bbCall has' (n :: rest) (bbCall has (n :: rest) none).1).2 = .panic := by
  have e : bbCall has (n :: rest) none = (some (List.replicate (n :: rest).length false), .err) := by
    simp [bbCall, bbCall.bbSave, h]
  rw [e]
  refine ⟨rfl, ?_⟩
  simp [bbCall, bbCall.bbRead, h', List.replicate_succ]

/-- The slice-keeping solvers are not: a failed first `Step` leaves nil entries, which are made when their turn comes. -/
theorem failed_first (B : Body W C) (n : Nat) (rest : List Nat) (mem mem' : Nat → W) (h : B.ready (mem n) = false) :
    step B (n :: rest) ⟨none, mem⟩ = (⟨some (List.replicate (n :: rest).length none), mem⟩, .err) ∧
    step B (n :: rest) ⟨some (List.replicate (n :: rest).length none), mem'⟩ = step B (n :: rest) ⟨none, mem'⟩ := by
  refine ⟨?_, rfl⟩
  simp [step, loop, h]

/-- Concrete case: sums as moments. Parameter 7 is stepped in rounds 0 and 1, parameter 8 only in round 0. -/
example (after : Nat → Nat → Nat) (cs : Nat → Option (List (Option Nat)))
    (H : Rounds (⟨fun _ => true, fun _ => 0, fun w c => (10 * (w + c), w + c, true)⟩ : Body Nat Nat)
      (fun j => if j = 0 then [7, 8] else [7]) (fun j p => p + j) after cs 2) :
    after 1 7 = 150 ∧ after 1 8 = 9 := by
  have h := moments_kept _ _ _ _ _ _ H (by intro j _; split <;> decide)
    (by
      intro j j' i i' p q hp hq
      have aux : ∀ (j i p : Nat), (if j = 0 then [7, 8] else [7])[i]? = some p → p = i + 7 := by
        intro j i p h
        split at h
        · match i, h with
          | 0, h => simpa using h.symm
          | 1, h => simpa using h.symm
          | i + 2, h => simp at h
        · match i, h with
          | 0, h => simpa using h.symm
          | i + 1, h => simp at h
      have := aux j i p hp
      have := aux j' i' q hq
      omega)
    (by intro j _; split <;> simp) (fun _ _ _ _ => rfl) (fun _ _ _ _ _ => rfl) 1 (by decide)
  refine ⟨?_, ?_⟩
  · rw [h.2 7 (by decide)]; decide
  · rw [h.1 8 (by decide)]

end Verif.Solver.Cache
