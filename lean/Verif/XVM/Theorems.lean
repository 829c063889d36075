import Verif.XVM.Model
import Mathlib.Algebra.BigOperators.Group.Finset.Basic
import Mathlib.Algebra.Order.BigOperators.Group.Finset
/-!
C28 (schedule independence) and C29 (no deadlock, bounded executions) of the goroutine-per-node machine.
-/
set_option autoImplicit false
namespace Verif.XVM

open Function

variable {V : Type} {G : Net V}

/-! ### Subscribers -/

theorem mem_subs (G : Net V) (i j p : Nat) : (j, p) ∈ G.subs i ↔ j < G.n ∧ G.isIn j = false ∧ (G.ops j)[p]? = some i := by
  unfold Net.subs
  simp only [List.mem_flatMap, List.mem_range]
  constructor
  · rintro ⟨j', hj', h⟩
    split at h
    · simp at h
    · rename_i hin
      simp only [List.mem_map, List.mem_filter, List.mem_range, beq_iff_eq, Prod.mk.injEq] at h
      obtain ⟨p', ⟨_, h2⟩, rfl, rfl⟩ := h
      exact ⟨hj', by simpa using hin, h2⟩
  · rintro ⟨a, b, c⟩
    refine ⟨j, a, ?_⟩
    rw [if_neg (by simp [b])]
    simp only [List.mem_map, List.mem_filter, List.mem_range, beq_iff_eq, Prod.mk.injEq]
    exact ⟨p, ⟨(List.getElem?_eq_some_iff.1 c).1, c⟩, trivial, rfl⟩

theorem subs_nodup (G : Net V) (i : Nat) : (G.subs i).Nodup := by
  unfold Net.subs
  rw [List.nodup_flatMap]
  refine ⟨fun j _ => ?_, ?_⟩
  · split
    · exact List.nodup_nil
    · exact (List.nodup_range.filter _).map (fun a b h => (Prod.mk.inj h).2)
  · refine List.nodup_range.imp ?_
    intro a b hab
    simp only [Function.onFun]
    intro x hx hy
    split at hx
    · simp at hx
    · split at hy
      · simp at hy
      · simp only [List.mem_map] at hx hy
        obtain ⟨_, _, rfl⟩ := hx
        obtain ⟨_, _, h⟩ := hy
        exact hab (Prod.mk.inj h).1.symm

theorem subs_inj {i k k' : Nat} {e : Nat × Nat} (h : (G.subs i)[k]? = some e) (h' : (G.subs i)[k']? = some e) : k = k' := by
  obtain ⟨a, b⟩ := List.getElem?_eq_some_iff.1 h
  obtain ⟨a', b'⟩ := List.getElem?_eq_some_iff.1 h'
  exact (subs_nodup G i).getElem_inj_iff.1 (b.trans b'.symm)

theorem subs_pub {i i' k k' : Nat} {j p : Nat} (h : (G.subs i)[k]? = some (j, p)) (h' : (G.subs i')[k']? = some (j, p)) : i = i' ∧ k = k' := by
  have a := ((mem_subs G i j p).1 (List.mem_of_getElem? h)).2.2
  have b := ((mem_subs G i' j p).1 (List.mem_of_getElem? h')).2.2
  have e : i = i' := by rw [a] at b; exact Option.some.inj b
  subst e
  exact ⟨rfl, subs_inj h h'⟩

theorem subs_of {j p : Nat} (hj : j < G.n) (hp : p < G.fan j) :
    ∃ i k : Nat, (G.ops j)[p]? = some i ∧ (G.subs i)[k]? = some (j, p) ∧ G.isIn j = false := by
  unfold Net.fan at hp
  split at hp
  · omega
  · rename_i hin
    have hin' : G.isIn j = false := by simpa using hin
    have h := List.getElem?_eq_getElem hp
    obtain ⟨k, hk⟩ := List.mem_iff_getElem?.1 ((mem_subs G _ j p).2 ⟨hj, hin', h⟩)
    exact ⟨_, k, h, hk, hin'⟩

/-! ### Expression values -/

theorem evals_unique {i : Nat} {v w : V} (h : Evals G i v) (h' : Evals G i w) : v = w := by
  induction h generalizing w with
  | input hin =>
    cases h' with
    | input _ => rfl
    | op hf _ _ _ => rw [hin] at hf; cases hf
  | @op i vs v hin hl ho hv ih =>
    cases h' with
    | input hf => rw [hin] at hf; cases hf
    | @op _ ws _ _ hl' ho' hv' =>
      have : vs = ws := by
        apply List.ext_getElem (hl.trans hl'.symm)
        intro p h1 h2
        exact ih p (by omega) h1 (ho' p (by omega) h2)
      subst this
      rw [hv] at hv'
      exact Option.some.inj hv'

/-! ### The invariant -/

/-- The node has emitted, or has no one to emit to. -/
def Ph.em : Ph → Bool
  | .fin false | .rep false => true
  | _ => false

/-- The node has received all its inputs. -/
def Ph.past : Ph → Bool
  | .comp | .emit | .fin false | .rep false => true
  | _ => false

/-- The node's output is set. -/
def Ph.set : Ph → Bool
  | .emit | .fin false | .rep false => true
  | _ => false

def Ph.isRep : Ph → Bool
  | .rep _ => true
  | _ => false

/-- What holds in every reachable state. `pos i`: to how many subscribers the broadcaster of `i` has handed the value; `got j p`:
node `j` has received operand `p`. -/
structure Iv (G : Net V) (s : St V) (pos : Nat → Nat) (got : Nat → Nat → Prop) : Prop where
  inPh : ∀ i, i < G.n → G.isIn i = true → (∀ c, s.ph i ≠ .recv c) ∧ s.ph i ≠ .comp
  recv : ∀ j c, j < G.n → G.isIn j = false → s.ph j = .recv c →
    c < G.arity j ∧ ∃ S : Finset Nat, S.card = c ∧ ∀ p, p ∈ S ↔ p < G.arity j ∧ got j p
  past : ∀ j, j < G.n → G.isIn j = false → (s.ph j).past = true → ∀ p, p < G.arity j → got j p
  inp : ∀ j p i, j < G.n → G.isIn j = false → got j p → (G.ops j)[p]? = some i → Evals G i (s.inp j p)
  out : ∀ i, i < G.n → (s.ph i).set = true → Evals G i (s.out i)
  inOut : ∀ i, i < G.n → G.isIn i = true → s.out i = G.inVal i
  send : ∀ i v k, i < G.n → s.bc i = .send v k → Evals G i v ∧ pos i = k ∧ (s.ph i).em = true
  wait : ∀ i, i < G.n → G.outC i = true → s.bc i = .wait → (s.ph i).em = true → pos i = (G.subs i).length
  pos0 : ∀ i, i < G.n → (s.ph i).em = false → pos i = 0
  hold : ∀ i k j p v, i < G.n → (G.subs i)[k]? = some (j, p) → s.mg j p = .hold v → Evals G i v ∧ k < pos i ∧ ¬ got j p
  mwait : ∀ i k j p, i < G.n → (G.subs i)[k]? = some (j, p) → s.mg j p = .wait → (k < pos i ↔ got j p)
  gotPos : ∀ i k j p, i < G.n → (G.subs i)[k]? = some (j, p) → got j p → k < pos i
  total : ∃ S : Finset Nat, S.card = s.total ∧ ∀ i, i ∈ S ↔ i < G.n ∧ (s.ph i).isRep = false
  repErr : ∀ i, i < G.n → s.ph i = .rep true → s.cancel = true
  bdead : ∀ i, i < G.n → s.bc i = .dead → s.stop = true
  mdead : ∀ j p, j < G.n → p < G.fan j → s.mg j p = .dead → s.stop = true
  stop : s.stop = true → s.cancel = true
  ret : s.ret = true → s.stop = true ∧ s.total = 0

theorem start_iv {s : St V} (hG : Good G) (h : Start G s) : Iv G s (fun _ => 0) (fun _ _ => False) := by
  have hem : ∀ i, i < G.n → (s.ph i).em = false := by
    intro i hi; rw [h.ph i hi]; split <;> rfl
  refine ⟨?_, ?_, ?_, ?_, ?_, h.out, ?_, ?_, ?_, ?_, ?_, ?_, ?_, ?_, ?_, ?_, ?_, ?_⟩
  · intro i hi hin; rw [h.ph i hi, if_pos hin]; exact ⟨fun c => by simp, by simp⟩
  · intro j c hj hin hph
    rw [h.ph j hj, hin] at hph
    simp at hph
    subst hph
    obtain ⟨a, b⟩ := hG.arity j hj hin
    refine ⟨by rw [a]; exact List.length_pos_iff.2 b, ∅, rfl, fun p => by simp⟩
  · intro j hj hin hp
    rw [h.ph j hj, hin] at hp
    simp [Ph.past] at hp
  · intro j p i _ _ hg; exact hg.elim
  · intro i hi hp
    rw [h.ph i hi] at hp
    split at hp
    · rename_i hin; rw [h.out i hi hin]; exact .input hin
    · simp [Ph.set] at hp
  · intro i v k _ hb; rw [h.bc i] at hb; cases hb
  · intro i hi _ _ hp; rw [hem i hi] at hp; cases hp
  · intro i _ _; rfl
  · intro i k j p v _ _ hm; rw [h.mg] at hm; cases hm
  · intro i k j p _ _ _; simp
  · intro i k j p _ _ hg; exact hg.elim
  · refine ⟨Finset.range G.n, by rw [h.total]; simp, fun i => ?_⟩
    simp only [Finset.mem_range]
    refine ⟨fun hi => ⟨hi, ?_⟩, fun hi => hi.1⟩
    rw [h.ph i hi]; split <;> rfl
  · intro i hi hp
    rw [h.ph i hi] at hp
    split at hp <;> cases hp
  · intro i _ hb; rw [h.bc] at hb; cases hb
  · intro j p _ _ hm; rw [h.mg] at hm; cases hm
  · intro hs; rw [h.stop] at hs; cases hs
  · intro hs; rw [h.ret] at hs; cases hs

theorem phase_iv {s : St V} {pos : Nat → Nat} {got : Nat → Nat → Prop} (h : Iv G s pos got) (j : Nat) (hj : j < G.n) (q : Ph)
    (out' : Nat → V) (total' : Nat) (cancel' : Bool) (hq : ∀ c, q ≠ .recv c) (hin : G.isIn j = true → q ≠ .comp)
    (hpast : G.isIn j = false → q.past = true → ∀ p, p < G.arity j → got j p) (ho : ∀ i, i ≠ j → out' i = s.out i)
    (hset : q.set = true → Evals G j (out' j)) (hinv : G.isIn j = true → out' j = G.inVal j)
    (hsend : ∀ v k, s.bc j = .send v k → q.em = true) (hwait : G.outC j = true → s.bc j = .wait → q.em = true → pos j = (G.subs j).length)
    (hpos : q.em = false → pos j = 0)
    (htot : ∃ S : Finset Nat, S.card = total' ∧ ∀ i, i ∈ S ↔ i < G.n ∧ (update s.ph j q i).isRep = false)
    (hcan : s.cancel = true → cancel' = true) (hrep : q = .rep true → cancel' = true) (hret : s.ret = true → total' = 0) :
    Iv G { s with ph := update s.ph j q, out := out', total := total', cancel := cancel' } pos got := by
  refine ⟨?_, ?_, ?_, h.inp, ?_, ?_, ?_, ?_, ?_, h.hold, h.mwait, h.gotPos, htot, ?_, h.bdead, h.mdead, fun e => hcan (h.stop e), fun e => ⟨(h.ret e).1, hret e⟩⟩
  · intro i hi hin'
    simp only [update_apply]
    split
    · rename_i e; subst e; exact ⟨hq, hin hin'⟩
    · exact h.inPh i hi hin'
  · intro i c hi hin' hph
    simp only [update_apply] at hph
    split at hph
    · exact absurd hph (hq c)
    · exact h.recv i c hi hin' hph
  · intro i hi hin' hp
    simp only [update_apply] at hp
    split at hp
    · rename_i e; subst e; exact hpast hin' hp
    · exact h.past i hi hin' hp
  · intro i hi hp
    simp only [update_apply] at hp
    split at hp
    · rename_i e; subst e; exact hset hp
    · rename_i e; show Evals G i (out' i); rw [ho i e]; exact h.out i hi hp
  · intro i hi hin'
    show out' i = _
    by_cases e : i = j
    · subst e; exact hinv hin'
    · rw [ho i e]; exact h.inOut i hi hin'
  · intro i v k hi hb
    obtain ⟨a, b, c⟩ := h.send i v k hi hb
    refine ⟨a, b, ?_⟩
    simp only [update_apply]
    split
    · rename_i e; subst e; exact hsend v k hb
    · exact c
  · intro i hi hoc hb he
    simp only [update_apply] at he
    split at he
    · rename_i e; subst e; exact hwait hoc hb he
    · exact h.wait i hi hoc hb he
  · intro i hi he
    simp only [update_apply] at he
    split at he
    · rename_i e; subst e; exact hpos he
    · exact h.pos0 i hi he
  · intro i hi hp
    simp only [update_apply] at hp
    split at hp
    · exact hrep hp
    · exact hcan (h.repErr i hi hp)

theorem total_same {s : St V} {t : Nat} (j : Nat) (q : Ph) (hq : q.isRep = (s.ph j).isRep)
    (h : ∃ S : Finset Nat, S.card = t ∧ ∀ i, i ∈ S ↔ i < G.n ∧ (s.ph i).isRep = false) :
    ∃ S : Finset Nat, S.card = t ∧ ∀ i, i ∈ S ↔ i < G.n ∧ (update s.ph j q i).isRep = false := by
  obtain ⟨S, a, b⟩ := h
  refine ⟨S, a, fun i => ?_⟩
  rw [b i, update_apply]
  split
  · rename_i e; subst e; rw [hq]
  · rfl

theorem total_report {s : St V} (j : Nat) (hj : j < G.n) (e : Bool) (hq : (s.ph j).isRep = false)
    (h : ∃ S : Finset Nat, S.card = s.total ∧ ∀ i, i ∈ S ↔ i < G.n ∧ (s.ph i).isRep = false) :
    ∃ S : Finset Nat, S.card = s.total - 1 ∧ ∀ i, i ∈ S ↔ i < G.n ∧ (update s.ph j (.rep e) i).isRep = false := by
  obtain ⟨S, a, b⟩ := h
  refine ⟨S.erase j, by rw [Finset.card_erase_of_mem ((b j).2 ⟨hj, hq⟩), a], fun i => ?_⟩
  rw [Finset.mem_erase, b i, update_apply]
  split
  · rename_i e; subst e; simp [Ph.isRep]
  · rename_i e; simp [e]

/-- A merger's value dropped or taken without being counted (bad arity, cancellation): only allowed if that cannot happen or the plumbing
has been stopped. -/
theorem mdie_iv {s : St V} {pos : Nat → Nat} {got : Nat → Nat → Prop} (h : Iv G s pos got) (j p : Nat) (hs : s.stop = true) :
    Iv G { s with mg := set2 s.mg j p .dead } pos got := by
  refine ⟨h.inPh, h.recv, h.past, h.inp, h.out, h.inOut, h.send, h.wait, h.pos0, ?_, ?_, h.gotPos, h.total, h.repErr, h.bdead, ?_, h.stop, h.ret⟩
  · intro i k j' p' v hi hk hm
    simp only [set2] at hm
    split at hm
    · cases hm
    · exact h.hold i k j' p' v hi hk hm
  · intro i k j' p' hi hk hm
    simp only [set2] at hm
    split at hm
    · cases hm
    · exact h.mwait i k j' p' hi hk hm
  · intro _ _ _ _ _; exact hs

theorem step_iv {s t : St V} {pos : Nat → Nat} {got : Nat → Nat → Prop} (hG : Good G) (h : Iv G s pos got) (hst : Step G s t) :
    ∃ pos' got', Iv G t pos' got' := by
  cases hst with
  | @recv j p c v hj hp hph hm ha =>
    obtain ⟨i0, k0, ho0, hk0, hin⟩ := subs_of hj hp
    have hi0 : i0 < G.n := (hG.build j hj hin i0 (List.mem_of_getElem? ho0)).1
    obtain ⟨ev, hlt, hng⟩ := h.hold i0 k0 j p v hi0 hk0 hm
    obtain ⟨hc, S, hS, hmem⟩ := h.recv j c hj hin hph
    have hpS : p ∉ S := fun e => hng ((hmem p).1 e).2
    refine ⟨pos, fun j' p' => got j' p' ∨ (j' = j ∧ p' = p), ?_⟩
    have hmem' : ∀ q, q ∈ insert p S ↔ q < G.arity j ∧ (got j q ∨ (j = j ∧ q = p)) := by
      intro q
      rw [Finset.mem_insert, hmem q]
      constructor
      · rintro (rfl | ⟨a, b⟩)
        · exact ⟨ha, Or.inr ⟨rfl, rfl⟩⟩
        · exact ⟨a, Or.inl b⟩
      · rintro ⟨a, b | ⟨_, rfl⟩⟩
        · exact Or.inr ⟨a, b⟩
        · exact Or.inl rfl
    have hcard : (insert p S).card = c + 1 := by rw [Finset.card_insert_of_notMem hpS, hS]
    have hq : (if c + 1 < G.arity j then Ph.recv (c + 1) else .comp).em = false := by split <;> rfl
    have hem : (s.ph j).em = false := by rw [hph]; rfl
    refine ⟨?_, ?_, ?_, ?_, ?_, h.inOut, ?_, ?_, ?_, ?_, ?_, ?_, ?_, ?_, h.bdead, ?_, h.stop, h.ret⟩
    · intro i hi hin'
      have : i ≠ j := by rintro rfl; rw [hin] at hin'; cases hin'
      simp only [update_of_ne this]; exact h.inPh i hi hin'
    · intro i c' hi hin' hp'
      by_cases e : i = j
      · subst e
        simp only [update_self] at hp'
        split at hp'
        · rename_i hlt'
          cases hp'
          exact ⟨hlt', insert p S, hcard, hmem'⟩
        · cases hp'
      · simp only [update_of_ne e] at hp'
        obtain ⟨a, S', b, d⟩ := h.recv i c' hi hin' hp'
        refine ⟨a, S', b, fun q => ?_⟩
        rw [d q]
        exact ⟨fun ⟨x, y⟩ => ⟨x, Or.inl y⟩, fun ⟨x, y⟩ => ⟨x, y.resolve_right (fun z => e z.1)⟩⟩
    · intro i hi hin' hp' q hq'
      by_cases e : i = j
      · subst e
        simp only [update_self] at hp'
        split at hp'
        · simp [Ph.past] at hp'
        · rename_i hge
          have hsub : insert p S ⊆ Finset.range (G.arity i) := fun x hx => Finset.mem_range.2 ((hmem' x).1 hx).1
          have := Finset.eq_of_subset_of_card_le hsub (by rw [hcard, Finset.card_range]; omega)
          have hx : q ∈ insert p S := by rw [this]; exact Finset.mem_range.2 hq'
          exact ((hmem' q).1 hx).2
      · simp only [update_of_ne e] at hp'
        exact Or.inl (h.past i hi hin' hp' q hq')
    · intro j' p' i hj' hin' hg hop
      simp only [set2]
      split
      · rename_i e
        obtain ⟨rfl, rfl⟩ := e
        rw [ho0] at hop
        rw [← Option.some.inj hop]; exact ev
      · rename_i e
        exact h.inp j' p' i hj' hin' (hg.resolve_right e) hop
    · intro i hi hp'
      by_cases e : i = j
      · subst e
        simp only [update_self] at hp'
        split at hp' <;> simp [Ph.set] at hp'
      · simp only [update_of_ne e] at hp'; exact h.out i hi hp'
    · intro i v' k hi hb
      obtain ⟨a, b, d⟩ := h.send i v' k hi hb
      refine ⟨a, b, ?_⟩
      have : i ≠ j := by rintro rfl; rw [hem] at d; cases d
      simp only [update_of_ne this]; exact d
    · intro i hi hoc hb he
      by_cases e : i = j
      · subst e; simp only [update_self] at he; rw [hq] at he; cases he
      · simp only [update_of_ne e] at he; exact h.wait i hi hoc hb he
    · intro i hi he
      by_cases e : i = j
      · subst e; exact h.pos0 i hi hem
      · simp only [update_of_ne e] at he; exact h.pos0 i hi he
    · intro i k j' p' v' hi hk hm'
      simp only [set2] at hm'
      split at hm'
      · cases hm'
      · rename_i e
        obtain ⟨a, b, d⟩ := h.hold i k j' p' v' hi hk hm'
        exact ⟨a, b, fun x => x.elim d e⟩
    · intro i k j' p' hi hk hm'
      simp only [set2] at hm'
      split at hm'
      · rename_i e
        obtain ⟨rfl, rfl⟩ := e
        obtain ⟨rfl, rfl⟩ := subs_pub hk hk0
        exact ⟨fun _ => Or.inr ⟨rfl, rfl⟩, fun _ => hlt⟩
      · rename_i e
        rw [h.mwait i k j' p' hi hk hm']
        exact ⟨Or.inl, fun x => x.resolve_right e⟩
    · intro i k j' p' hi hk hg
      rcases hg with hg | ⟨rfl, rfl⟩
      · exact h.gotPos i k j' p' hi hk hg
      · obtain ⟨rfl, rfl⟩ := subs_pub hk hk0; exact hlt
    · exact total_same j _ (by rw [hph]; split <;> rfl) h.total
    · intro i hi hp'
      by_cases e : i = j
      · subst e; simp only [update_self] at hp'; split at hp' <;> cases hp'
      · simp only [update_of_ne e] at hp'; exact h.repErr i hi hp'
    · intro j' p' hj' hp' hm'
      simp only [set2] at hm'
      split at hm'
      · cases hm'
      · exact h.mdead j' p' hj' hp' hm'
  | @recvBad j p c v hj hp hph hm ha =>
    exfalso
    obtain ⟨_, _, _, _, hin⟩ := subs_of hj hp
    rw [(hG.arity j hj hin).1] at ha
    unfold Net.fan at hp
    rw [hin] at hp
    exact ha (by simpa using hp)
  | @compOk j v hj hph hv =>
    have hin : G.isIn j = false := by
      cases e : G.isIn j with
      | false => rfl
      | true => exact absurd hph (h.inPh j hj e).2
    have hgot := h.past j hj hin (by rw [hph]; rfl)
    have hem : (s.ph j).em = false := by rw [hph]; rfl
    refine ⟨pos, got, phase_iv h j hj .emit (update s.out j v) s.total s.cancel (by simp) (by simp) (fun _ _ => hgot)
      (fun i e => update_of_ne e _ _) ?_ (fun e => by rw [hin] at e; cases e) ?_ (fun _ _ e => by cases e) (fun _ => h.pos0 j hj hem)
      (total_same j _ (by rw [hph]; rfl) h.total) id (fun e => by cases e) (fun e => (h.ret e).2)⟩
    · intro _
      rw [update_self]
      have har := (hG.arity j hj hin).1
      refine .op hin (vs := G.args s j) (by simp [Net.args, har]) ?_ hv
      intro p h1 h2
      simp only [Net.args, List.getElem_map, List.getElem_range]
      exact h.inp j p _ hj hin (hgot p (by omega)) (List.getElem?_eq_getElem h1)
    · intro v' k hb
      have := (h.send j v' k hj hb).2.2
      rw [hem] at this; cases this
  | @compErr j hj hph hv =>
    have hin : G.isIn j = false := by
      cases e : G.isIn j with
      | false => rfl
      | true => exact absurd hph (h.inPh j hj e).2
    have hem : (s.ph j).em = false := by rw [hph]; rfl
    refine ⟨pos, got, phase_iv h j hj (.fin true) s.out s.total s.cancel (by simp) (by simp) (fun _ e => by cases e)
      (fun i e => rfl) (fun e => by cases e) (fun e => by rw [hin] at e; cases e) ?_ (fun _ _ e => by cases e) (fun _ => h.pos0 j hj hem)
      (total_same j _ (by rw [hph]; rfl) h.total) id (fun e => by cases e) (fun e => (h.ret e).2)⟩
    intro v' k hb
    have := (h.send j v' k hj hb).2.2
    rw [hem] at this; cases this
  | @emit i hi hph ho hb =>
    have hem : (s.ph i).em = false := by rw [hph]; rfl
    have h0 := h.pos0 i hi hem
    refine ⟨pos, got, ⟨?_, ?_, ?_, h.inp, ?_, h.inOut, ?_, ?_, ?_, h.hold, h.mwait, h.gotPos, total_same i _ (by rw [hph]; rfl) h.total, ?_, ?_,
      h.mdead, h.stop, h.ret⟩⟩
    · intro j hj hin
      by_cases e : j = i
      · subst e; simp
      · simp only [update_of_ne e]; exact h.inPh j hj hin
    · intro j c hj hin hp
      by_cases e : j = i
      · subst e; simp at hp
      · simp only [update_of_ne e] at hp; exact h.recv j c hj hin hp
    · intro j hj hin hp
      by_cases e : j = i
      · subst e; exact h.past j hj hin (by rw [hph]; rfl)
      · simp only [update_of_ne e] at hp; exact h.past j hj hin hp
    · intro j hj hp
      by_cases e : j = i
      · subst e; exact h.out j hj (by rw [hph]; rfl)
      · simp only [update_of_ne e] at hp; exact h.out j hj hp
    · intro j v k hj hb'
      by_cases e : j = i
      · subst e
        simp only [update_self] at hb' ⊢
        cases hb'
        exact ⟨h.out j hj (by rw [hph]; rfl), h0, rfl⟩
      · simp only [update_of_ne e] at hb' ⊢; exact h.send j v k hj hb'
    · intro j hj hoc hb' he
      by_cases e : j = i
      · subst e; simp at hb'
      · simp only [update_of_ne e] at hb' he; exact h.wait j hj hoc hb' he
    · intro j hj he
      by_cases e : j = i
      · subst e; exact h0
      · simp only [update_of_ne e] at he; exact h.pos0 j hj he
    · intro j hj hp
      by_cases e : j = i
      · subst e; simp at hp
      · simp only [update_of_ne e] at hp; exact h.repErr j hj hp
    · intro j hj hb'
      by_cases e : j = i
      · subst e; simp at hb'
      · simp only [update_of_ne e] at hb'; exact h.bdead j hj hb'
  | @emitTop i hi hph ho =>
    have hem : (s.ph i).em = false := by rw [hph]; rfl
    refine ⟨pos, got, phase_iv h i hi (.fin false) s.out s.total s.cancel (by simp) (by simp)
      (fun hin _ => h.past i hi hin (by rw [hph]; rfl)) (fun _ _ => rfl) (fun _ => h.out i hi (by rw [hph]; rfl)) (h.inOut i hi)
      (fun _ _ _ => rfl) (fun e => by rw [ho] at e; cases e) (fun e => by cases e) (total_same i _ (by rw [hph]; rfl) h.total)
      id (fun e => by cases e) (fun e => (h.ret e).2)⟩
  | @bsend i k j p v hi hb hs hm =>
    obtain ⟨ev, hpos, hem⟩ := h.send i v k hi hb
    refine ⟨update pos i (k + 1), got, ⟨h.inPh, h.recv, h.past, h.inp, h.out, h.inOut, ?_, ?_, ?_, ?_, ?_, ?_, h.total, h.repErr, ?_, ?_, h.stop, h.ret⟩⟩
    · intro i' v' k' hi' hb'
      by_cases e : i' = i
      · subst e
        simp only [update_self] at hb' ⊢
        cases hb'
        exact ⟨ev, rfl, hem⟩
      · simp only [update_of_ne e] at hb' ⊢; exact h.send i' v' k' hi' hb'
    · intro i' hi' hoc hb' he
      by_cases e : i' = i
      · subst e; simp at hb'
      · simp only [update_of_ne e] at hb' ⊢; exact h.wait i' hi' hoc hb' he
    · intro i' hi' he
      by_cases e : i' = i
      · subst e; rw [hem] at he; cases he
      · simp only [update_of_ne e]; exact h.pos0 i' hi' he
    · intro i' k' j' p' v' hi' hk' hm'
      simp only [set2] at hm'
      split at hm'
      · rename_i e
        obtain ⟨rfl, rfl⟩ := e
        obtain ⟨rfl, rfl⟩ := subs_pub hk' hs
        cases hm'
        refine ⟨ev, by simp, ?_⟩
        rw [← h.mwait i' k' j' p' hi hs hm, hpos]; omega
      · obtain ⟨a, b, d⟩ := h.hold i' k' j' p' v' hi' hk' hm'
        refine ⟨a, ?_, d⟩
        rw [update_apply]
        split
        · rename_i e; subst e; omega
        · exact b
    · intro i' k' j' p' hi' hk' hm'
      simp only [set2] at hm'
      split at hm'
      · cases hm'
      · rename_i e
        rw [← h.mwait i' k' j' p' hi' hk' hm', update_apply]
        split
        · rename_i e'
          subst e'
          have : k' ≠ k := by
            rintro rfl
            rw [hk'] at hs
            cases hs
            exact e ⟨rfl, rfl⟩
          rw [hpos]; omega
        · rfl
    · intro i' k' j' p' hi' hk' hg
      have := h.gotPos i' k' j' p' hi' hk' hg
      rw [update_apply]
      split
      · rename_i e; subst e; omega
      · exact this
    · intro i' hi' hb'
      by_cases e : i' = i
      · subst e; simp at hb'
      · simp only [update_of_ne e] at hb'; exact h.bdead i' hi' hb'
    · intro j' p' hj' hp' hm'
      simp only [set2] at hm'
      split at hm'
      · cases hm'
      · exact h.mdead j' p' hj' hp' hm'
  | @bdone i v hi hb =>
    obtain ⟨ev, hpos, hem⟩ := h.send i v _ hi hb
    refine ⟨pos, got, ⟨h.inPh, h.recv, h.past, h.inp, h.out, h.inOut, ?_, ?_, h.pos0, h.hold, h.mwait, h.gotPos, h.total, h.repErr, ?_, h.mdead, h.stop, h.ret⟩⟩
    · intro i' v' k' hi' hb'
      by_cases e : i' = i
      · subst e; simp at hb'
      · simp only [update_of_ne e] at hb'; exact h.send i' v' k' hi' hb'
    · intro i' hi' hoc hb' he
      by_cases e : i' = i
      · subst e; exact hpos
      · simp only [update_of_ne e] at hb'; exact h.wait i' hi' hoc hb' he
    · intro i' hi' hb'
      by_cases e : i' = i
      · subst e; simp at hb'
      · simp only [update_of_ne e] at hb'; exact h.bdead i' hi' hb'
  | @report i e hi hph ht =>
    have hph' : (s.ph i).em = (Ph.rep e).em := by rw [hph]; cases e <;> rfl
    refine ⟨pos, got, phase_iv h i hi (.rep e) s.out (s.total - 1) (s.cancel || e) (by simp) (by simp)
      (fun hin hp => h.past i hi hin (by rw [hph]; cases e <;> simp_all [Ph.past])) (fun _ _ => rfl)
      (fun hp => h.out i hi (by rw [hph]; cases e <;> simp_all [Ph.set])) (h.inOut i hi)
      (fun v k hb => by rw [← hph']; exact (h.send i v k hi hb).2.2) (fun hoc hb he => h.wait i hi hoc hb (by rw [hph']; exact he))
      (fun he => h.pos0 i hi (by rw [hph']; exact he)) (total_report i hi e (by rw [hph]; rfl) h.total)
      (fun hc => by rw [hc]; rfl) (fun he => by cases he; simp) (fun hr => by have := (h.ret hr).2; omega)⟩
  | @nodeCancel i hi hc hph =>
    have hem : (s.ph i).em = false := by
      rcases hph with ⟨c, e⟩ | ⟨e, _⟩ <;> rw [e] <;> rfl
    have hre : (s.ph i).isRep = false := by
      rcases hph with ⟨c, e⟩ | ⟨e, _⟩ <;> rw [e] <;> rfl
    refine ⟨pos, got, phase_iv h i hi (.fin true) s.out s.total s.cancel (by simp) (by simp) (fun _ e => by cases e)
      (fun _ _ => rfl) (fun e => by cases e) (h.inOut i hi) ?_ (fun _ _ e => by cases e) (fun _ => h.pos0 i hi hem)
      (total_same i _ (by rw [hre]; rfl) h.total) id (fun e => by cases e) (fun e => (h.ret e).2)⟩
    intro v' k hb
    have := (h.send i v' k hi hb).2.2
    rw [hem] at this; cases this
  | mainEnd hn ht hs =>
    exact ⟨pos, got, ⟨h.inPh, h.recv, h.past, h.inp, h.out, h.inOut, h.send, h.wait, h.pos0, h.hold, h.mwait, h.gotPos, h.total,
      fun _ _ _ => rfl, fun _ _ _ => rfl, fun _ _ _ _ _ => rfl, fun _ => rfl, fun e => ⟨rfl, (h.ret e).2⟩⟩⟩
  | @bdie i hi ho hs hb =>
    refine ⟨pos, got, ⟨h.inPh, h.recv, h.past, h.inp, h.out, h.inOut, ?_, ?_, h.pos0, h.hold, h.mwait, h.gotPos, h.total, h.repErr,
      fun _ _ _ => hs, h.mdead, h.stop, h.ret⟩⟩
    · intro i' v' k' hi' hb'
      by_cases e : i' = i
      · subst e; simp at hb'
      · simp only [update_of_ne e] at hb'; exact h.send i' v' k' hi' hb'
    · intro i' hi' hoc hb' he
      by_cases e : i' = i
      · subst e; simp at hb'
      · simp only [update_of_ne e] at hb'; exact h.wait i' hi' hoc hb' he
  | @mdie j p hj hp hs hm => exact ⟨pos, got, mdie_iv h j p hs⟩
  | done hn ht hs hr hb hm =>
    exact ⟨pos, got, ⟨h.inPh, h.recv, h.past, h.inp, h.out, h.inOut, h.send, h.wait, h.pos0, h.hold, h.mwait, h.gotPos, h.total,
      h.repErr, h.bdead, h.mdead, h.stop, fun _ => ⟨hs, ht⟩⟩⟩

theorem reach_iv {s : St V} (hG : Good G) (h : Reach G s) : ∃ pos got, Iv G s pos got := by
  induction h with
  | start h => exact ⟨_, _, start_iv hG h⟩
  | step _ hs ih =>
    obtain ⟨pos, got, h⟩ := ih
    exact step_iv hG h hs
  | ext _ he ih =>
    obtain ⟨pos, got, h⟩ := ih
    cases he with
    | ext _ =>
      exact ⟨pos, got, ⟨h.inPh, h.recv, h.past, h.inp, h.out, h.inOut, h.send, h.wait, h.pos0, h.hold, h.mwait, h.gotPos, h.total,
        fun _ _ _ => rfl, fun _ _ _ => rfl, fun _ _ _ _ _ => rfl, fun _ => rfl, fun e => ⟨rfl, (h.ret e).2⟩⟩⟩

/-! ### C28 -/

/-- **C28.** In every reachable state, whatever the interleaving and whether or not the run is cancelled, a node that has completed
without error has the value of its expression. -/
theorem values_correct {s : St V} (hG : Good G) (h : Reach G s) (i : Nat) (hi : i < G.n) (hp : s.ph i = .rep false) : Evals G i (s.out i) := by
  obtain ⟨_, _, h⟩ := reach_iv hG h
  exact h.out i hi (by rw [hp]; rfl)

/-- **C28.** When `Run` returns every node has been reported; so if no node failed, every node has the value of its expression. -/
theorem returned_values {s : St V} (hG : Good G) (h : Reach G s) (hr : s.ret = true) :
    (∀ i, i < G.n → ∃ e, s.ph i = .rep e) ∧ ((∀ i, i < G.n → s.ph i ≠ .rep true) → ∀ i, i < G.n → Evals G i (s.out i)) := by
  obtain ⟨_, _, hv⟩ := reach_iv hG h
  obtain ⟨S, hS, hmem⟩ := hv.total
  rw [(hv.ret hr).2] at hS
  have he := Finset.card_eq_zero.1 hS
  have hrep : ∀ i, i < G.n → ∃ e, s.ph i = .rep e := by
    intro i hi
    by_contra hn
    have : i ∈ S := (hmem i).2 ⟨hi, by
      cases hp : s.ph i with
      | rep e => exact absurd ⟨e, hp⟩ hn
      | _ => rfl⟩
    rw [he] at this
    simp at this
  refine ⟨hrep, fun hne i hi => ?_⟩
  obtain ⟨e, hp⟩ := hrep i hi
  cases e with
  | true => exact absurd hp (hne i hi)
  | false => exact values_correct hG h i hi hp

/-- **C28.** Two executions, of different interleavings and from different leftovers, agree on every node both have completed. -/
theorem schedule_independent {s t : St V} (hG : Good G) (hs : Reach G s) (ht : Reach G t) (i : Nat) (hi : i < G.n)
    (h1 : s.ph i = .rep false) (h2 : t.ph i = .rep false) : s.out i = t.out i :=
  evals_unique (values_correct hG hs i hi h1) (values_correct hG ht i hi h2)

/-! ### C29: bounded executions -/

section
open Finset

def phW (l : Nat) : Ph → Nat
  | .recv _ => 2 * l + 6
  | .comp => 2 * l + 5
  | .emit => 2 * l + 4
  | .fin _ => 1
  | .rep _ => 0

def bcW (l : Nat) : Bc V → Nat
  | .wait => 1
  | .send _ k => 2 * (l - k) + 2
  | .dead => 0

def mgW : Mg V → Nat
  | .wait => 1
  | .hold _ => 2
  | .dead => 0

theorem phW_recv (l c : Nat) : phW l (.recv c) = 2 * l + 6 := rfl
theorem phW_comp (l : Nat) : phW l .comp = 2 * l + 5 := rfl
theorem phW_emit (l : Nat) : phW l .emit = 2 * l + 4 := rfl
theorem phW_fin (l : Nat) (e : Bool) : phW l (.fin e) = 1 := rfl
theorem phW_rep (l : Nat) (e : Bool) : phW l (.rep e) = 0 := rfl
theorem bcW_wait (l : Nat) : bcW l (.wait : Bc V) = 1 := rfl
theorem bcW_send (l k : Nat) (v : V) : bcW l (.send v k) = 2 * (l - k) + 2 := rfl
theorem bcW_dead (l : Nat) : bcW l (.dead : Bc V) = 0 := rfl
theorem mgW_wait : mgW (.wait : Mg V) = 1 := rfl
theorem mgW_hold (v : V) : mgW (.hold v) = 2 := rfl
theorem mgW_dead : mgW (.dead : Mg V) = 0 := rfl

/-- An upper bound on the number of steps left. -/
def left (G : Net V) (s : St V) : Nat :=
  ∑ i ∈ range G.n, phW (G.subs i).length (s.ph i) + ∑ i ∈ range G.n, bcW (G.subs i).length (s.bc i) +
    ∑ j ∈ range G.n, ∑ p ∈ range (G.fan j), mgW (s.mg j p) + (if s.ret then 0 else 1) + (if s.stop then 0 else 1) + (if s.cancel then 0 else 1)

theorem sum_change (n j : Nat) (hj : j < n) (f g : Nat → Nat) (h : ∀ i, i ≠ j → f i = g i) :
    ∑ i ∈ range n, f i + g j = ∑ i ∈ range n, g i + f j := by
  rw [← add_sum_erase (range n) f (mem_range.2 hj), ← add_sum_erase (range n) g (mem_range.2 hj),
    show ((range n).erase j).sum f = ((range n).erase j).sum g from sum_congr rfl (fun i hi => h i (mem_erase.1 hi).1)]
  have : ∀ x y z : Nat, x + y + z = z + y + x := fun x y z => by omega
  exact this _ _ _

theorem ph_change (s : St V) (j : Nat) (hj : j < G.n) (q : Ph) :
    ∑ i ∈ range G.n, phW (G.subs i).length (update s.ph j q i) + phW (G.subs j).length (s.ph j) =
      ∑ i ∈ range G.n, phW (G.subs i).length (s.ph i) + phW (G.subs j).length q := by
  have := sum_change G.n j hj (fun i => phW (G.subs i).length (update s.ph j q i)) (fun i => phW (G.subs i).length (s.ph i))
    (fun i hi => by simp only [update_of_ne hi])
  simpa using this

theorem bc_change (s : St V) (j : Nat) (hj : j < G.n) (q : Bc V) :
    ∑ i ∈ range G.n, bcW (G.subs i).length (update s.bc j q i) + bcW (G.subs j).length (s.bc j) =
      ∑ i ∈ range G.n, bcW (G.subs i).length (s.bc i) + bcW (G.subs j).length q := by
  have := sum_change G.n j hj (fun i => bcW (G.subs i).length (update s.bc j q i)) (fun i => bcW (G.subs i).length (s.bc i))
    (fun i hi => by simp only [update_of_ne hi])
  simpa using this

theorem mg_change (s : St V) (j p : Nat) (hj : j < G.n) (hp : p < G.fan j) (q : Mg V) :
    ∑ i ∈ range G.n, ∑ k ∈ range (G.fan i), mgW (set2 s.mg j p q i k) + mgW (s.mg j p) =
      ∑ i ∈ range G.n, ∑ k ∈ range (G.fan i), mgW (s.mg i k) + mgW q := by
  have a := sum_change (G.fan j) p hp (fun k => mgW (set2 s.mg j p q j k)) (fun k => mgW (s.mg j k))
    (fun k hk => by simp [set2, hk])
  have b := sum_change G.n j hj (fun i => ∑ k ∈ range (G.fan i), mgW (set2 s.mg j p q i k)) (fun i => ∑ k ∈ range (G.fan i), mgW (s.mg i k))
    (fun i hi => by simp [set2, hi])
  have c : set2 s.mg j p q j p = q := by simp [set2]
  simp only [c] at a
  omega

end

theorem fan_of_subs {i k j p : Nat} (h : (G.subs i)[k]? = some (j, p)) : j < G.n ∧ p < G.fan j ∧ G.isIn j = false := by
  obtain ⟨a, b, c⟩ := (mem_subs G i j p).1 (List.mem_of_getElem? h)
  refine ⟨a, ?_, b⟩
  unfold Net.fan
  rw [b]
  exact (List.getElem?_eq_some_iff.1 c).1

/-- **C29 (bounded).** Every step, and every cancellation from outside, uses up part of a finite budget. -/
theorem step_left {s t : St V} (h : Step G s t ∨ Ext s t) : left G t < left G s := by
  rcases h with h | h
  · cases h with
    | @recv j p c v hj hp hph hm ha =>
      have a := ph_change s j hj (if c + 1 < G.arity j then .recv (c + 1) else .comp)
      have b := mg_change s j p hj hp .wait
      rw [hph] at a
      rw [hm] at b
      have d : phW (G.subs j).length (if c + 1 < G.arity j then .recv (c + 1) else .comp) ≤ phW (G.subs j).length (.recv c) := by
        split <;> simp [phW]
      simp only [mgW_wait, mgW_hold, mgW_dead] at b
      simp only [left]
      omega
    | @recvBad j p c v hj hp hph hm ha =>
      have a := ph_change s j hj (.fin true)
      have b := mg_change s j p hj hp .wait
      rw [hph] at a
      rw [hm] at b
      simp only [mgW_wait, mgW_hold, mgW_dead] at b
      simp only [phW_recv, phW_comp, phW_emit, phW_fin, phW_rep] at a
      simp only [left]
      omega
    | @compOk j v hj hph hv =>
      have a := ph_change s j hj .emit
      rw [hph] at a
      simp only [phW_recv, phW_comp, phW_emit, phW_fin, phW_rep] at a
      simp only [left]
      omega
    | @compErr j hj hph hv =>
      have a := ph_change s j hj (.fin true)
      rw [hph] at a
      simp only [phW_recv, phW_comp, phW_emit, phW_fin, phW_rep] at a
      simp only [left]
      omega
    | @emit i hi hph ho hb =>
      have a := ph_change s i hi (.fin false)
      have b := bc_change s i hi (.send (s.out i) 0)
      rw [hph] at a
      rw [hb] at b
      simp only [phW_recv, phW_comp, phW_emit, phW_fin, phW_rep] at a
      simp only [bcW_wait, bcW_send, bcW_dead] at b
      simp only [left]
      omega
    | @emitTop i hi hph ho =>
      have a := ph_change s i hi (.fin false)
      rw [hph] at a
      simp only [phW_recv, phW_comp, phW_emit, phW_fin, phW_rep] at a
      simp only [left]
      omega
    | @bsend i k j p v hi hb hs hm =>
      obtain ⟨hj, hp, _⟩ := fan_of_subs hs
      have hk := (List.getElem?_eq_some_iff.1 hs).1
      have a := bc_change s i hi (.send v (k + 1))
      have b := mg_change s j p hj hp (.hold v)
      rw [hb] at a
      rw [hm] at b
      simp only [mgW_wait, mgW_hold, mgW_dead] at b
      simp only [bcW_wait, bcW_send, bcW_dead] at a
      simp only [left]
      omega
    | @bdone i v hi hb =>
      have a := bc_change s i hi .wait
      rw [hb] at a
      simp only [bcW_wait, bcW_send, bcW_dead] at a
      simp only [left]
      omega
    | @report i e hi hph ht =>
      have a := ph_change s i hi (.rep e)
      rw [hph] at a
      simp only [phW_recv, phW_comp, phW_emit, phW_fin, phW_rep] at a
      have b : (if (s.cancel || e) = true then 0 else 1) ≤ (if s.cancel = true then 0 else 1 : Nat) := by
        cases s.cancel <;> cases e <;> simp
      simp only [left]
      omega
    | @nodeCancel i hi hc hph =>
      have a := ph_change s i hi (.fin true)
      rcases hph with ⟨c, e⟩ | ⟨e, _⟩
      · rw [e] at a; simp only [phW_recv, phW_comp, phW_emit, phW_fin, phW_rep] at a; simp only [left]; omega
      · rw [e] at a; simp only [phW_recv, phW_comp, phW_emit, phW_fin, phW_rep] at a; simp only [left]; omega
    | mainEnd hn ht hs =>
      simp only [left, hs]
      split <;> simp <;> split <;> omega
    | @bdie i hi ho hs hb =>
      have a := bc_change s i hi .dead
      rcases hb with e | ⟨v, k, e, _⟩
      · rw [e] at a; simp only [bcW_wait, bcW_send, bcW_dead] at a; simp only [left]; omega
      · rw [e] at a; simp only [bcW_wait, bcW_send, bcW_dead] at a; simp only [left]; omega
    | @mdie j p hj hp hs hm =>
      have b := mg_change s j p hj hp .dead
      rcases hm with e | ⟨v, e⟩
      · rw [e] at b; simp only [mgW_wait, mgW_hold, mgW_dead] at b; simp only [left]; omega
      · rw [e] at b; simp only [mgW_wait, mgW_hold, mgW_dead] at b; simp only [left]; omega
    | done hn ht hs hr hb hm =>
      simp only [left, hr]
      simp
  · cases h with
    | ext h =>
      simp only [left]
      rcases h with h | h <;> rw [h] <;> simp <;> split <;> omega

/-- **C29 (bounded).** No execution is longer than the budget of its first state. -/
theorem executions_bounded (σ : Nat → St V) (N : Nat) (h : ∀ k, k < N → Step G (σ k) (σ (k + 1)) ∨ Ext (σ k) (σ (k + 1))) :
    N ≤ left G (σ 0) := by
  have : ∀ k, k ≤ N → left G (σ k) + k ≤ left G (σ 0) := by
    intro k
    induction k with
    | zero => intro _; omega
    | succ k ih =>
      intro hk
      have := step_left (h k (by omega))
      have := ih (by omega)
      omega
  have := this N (Nat.le_refl _)
  omega

/-! ### C29: no deadlock -/

theorem send_le {s : St V} (h : Reach G s) (i : Nat) (v : V) (k : Nat) (hb : s.bc i = .send v k) : k ≤ (G.subs i).length := by
  induction h generalizing i v k with
  | start h => rw [h.bc] at hb; cases hb
  | ext _ he ih => cases he; exact ih i v k hb
  | step _ hs ih =>
    cases hs with
    | @emit j hi hph ho hb' =>
      by_cases e : i = j
      · subst e; simp only [update_self] at hb; cases hb; omega
      · simp only [update_of_ne e] at hb; exact ih i v k hb
    | @bsend i' k' j p v' hi hb' hs hm =>
      by_cases e : i = i'
      · subst e; simp only [update_self] at hb; cases hb
        exact (List.getElem?_eq_some_iff.1 hs).1
      · simp only [update_of_ne e] at hb; exact ih i v k hb
    | @bdone j v' hi hb' =>
      by_cases e : i = j
      · subst e; simp at hb
      · simp only [update_of_ne e] at hb; exact ih i v k hb
    | @bdie j hi ho hs hb' =>
      by_cases e : i = j
      · subst e; simp at hb
      · simp only [update_of_ne e] at hb; exact ih i v k hb
    | _ => exact ih i v k hb

/-- **C29 (no deadlock).** As long as `Run` has not returned some goroutine can move. -/
theorem no_deadlock {s : St V} (hG : Good G) (hn : 0 < G.n) (hA : Acyclic G) (hR : Reach G s) (hr : s.ret = false) : ∃ t, Step G s t := by
  obtain ⟨pos, got, h⟩ := reach_iv hG hR
  by_contra hno
  have no : ∀ t, ¬ Step G s t := fun t ht => hno ⟨t, ht⟩
  obtain ⟨S, hS, hmem⟩ := h.total
  -- nodes that are neither receiving, emitting with a channel, nor reported
  have ncomp : ∀ i, i < G.n → s.ph i ≠ .comp := by
    intro i hi hp
    cases hv : G.f i (G.args s i) with
    | none => exact no _ (.compErr hi hp hv)
    | some v => exact no _ (.compOk hi hp hv)
  have nfin : ∀ i e, i < G.n → s.ph i ≠ .fin e := by
    intro i e hi hp
    refine no _ (.report hi hp ?_)
    have : i ∈ S := (hmem i).2 ⟨hi, by rw [hp]; rfl⟩
    have := Finset.card_pos.2 ⟨i, this⟩
    omega
  have nemit : ∀ i, i < G.n → s.ph i = .emit → G.outC i = true := by
    intro i hi hp
    cases ho : G.outC i with
    | true => rfl
    | false => exact absurd (.emitTop hi hp ho) (no _)
  have nsend : ∀ i v, i < G.n → s.bc i ≠ .send v (G.subs i).length := fun i v hi hb => no _ (.bdone hi hb)
  cases hc : s.cancel with
  | true =>
    have allrep : ∀ i, i < G.n → ∃ e, s.ph i = .rep e := by
      intro i hi
      cases hp : s.ph i with
      | recv c => exact absurd (.nodeCancel hi hc (Or.inl ⟨c, hp⟩)) (no _)
      | comp => exact absurd hp (ncomp i hi)
      | emit => exact absurd (.nodeCancel hi hc (Or.inr ⟨hp, nemit i hi hp⟩)) (no _)
      | fin e => exact absurd hp (nfin i e hi)
      | rep e => exact ⟨e, rfl⟩
    have ht : s.total = 0 := by
      rw [← hS, Finset.card_eq_zero]
      ext i
      rw [hmem i]
      constructor
      · rintro ⟨hi, hp⟩
        obtain ⟨e, he⟩ := allrep i hi
        rw [he] at hp; cases hp
      · intro h; simp at h
    cases hs : s.stop with
    | false => exact no _ (.mainEnd hn ht hs)
    | true =>
      refine no _ (.done hn ht hs hr ?_ ?_)
      · intro i hi ho
        cases hb : s.bc i with
        | dead => rfl
        | wait => exact absurd (.bdie hi ho hs (Or.inl hb)) (no _)
        | send v k =>
          have hk := send_le hR i v k hb
          rcases Nat.lt_or_ge k (G.subs i).length with hlt | hge
          · exact absurd (.bdie hi ho hs (Or.inr ⟨v, k, hb, hlt⟩)) (no _)
          · have : k = (G.subs i).length := by omega
            subst this
            exact absurd hb (nsend i v hi)
      · intro j p hj hp
        cases hm : s.mg j p with
        | dead => rfl
        | wait => exact absurd (.mdie hj hp hs (Or.inl hm)) (no _)
        | hold v => exact absurd (.mdie hj hp hs (Or.inr ⟨v, hm⟩)) (no _)
  | false =>
    have hs : s.stop = false := by
      cases e : s.stop with
      | false => rfl
      | true => rw [h.stop e] at hc; cases hc
    have nbdead : ∀ i, i < G.n → s.bc i ≠ .dead := by
      intro i hi hb; rw [h.bdead i hi hb] at hs; cases hs
    have nmdead : ∀ j p, j < G.n → p < G.fan j → s.mg j p ≠ .dead := by
      intro j p hj hp hm; rw [h.mdead j p hj hp hm] at hs; cases hs
    have nrep : ∀ i, i < G.n → s.ph i ≠ .rep true := by
      intro i hi hp; rw [h.repErr i hi hp] at hc; cases hc
    have ph2 : ∀ i, i < G.n → (∃ c, s.ph i = .recv c) ∨ s.ph i = .rep false := by
      intro i hi
      cases hp : s.ph i with
      | recv c => exact Or.inl ⟨c, rfl⟩
      | comp => exact absurd hp (ncomp i hi)
      | emit =>
        cases hb : s.bc i with
        | wait => exact absurd (.emit hi hp (nemit i hi hp) hb) (no _)
        | send v k =>
          have := (h.send i v k hi hb).2.2
          rw [hp] at this; cases this
        | dead => exact absurd hb (nbdead i hi)
      | fin e => exact absurd hp (nfin i e hi)
      | rep e =>
        cases e with
        | true => exact absurd hp (nrep i hi)
        | false => exact Or.inr rfl
    have nhold : ∀ (i k j p : Nat) (v : V), i < G.n → (G.subs i)[k]? = some (j, p) → s.mg j p ≠ .hold v := by
      intro i k j p v hi hk hm
      obtain ⟨hj, hp, hin⟩ := fan_of_subs hk
      have hpa : p < G.arity j := by
        rw [(hG.arity j hj hin).1]
        unfold Net.fan at hp
        rw [hin] at hp
        simpa using hp
      rcases ph2 j hj with ⟨c, hc'⟩ | hp'
      · exact no _ (.recv hj hp hc' hm hpa)
      · exact (h.hold i k j p v hi hk hm).2.2 (h.past j hj hin (by rw [hp']; rfl) p hpa)
    have bw : ∀ i, i < G.n → s.bc i = .wait := by
      intro i hi
      cases hb : s.bc i with
      | wait => rfl
      | dead => exact absurd hb (nbdead i hi)
      | send v k =>
        exfalso
        have hk := send_le hR i v k hb
        rcases Nat.lt_or_ge k (G.subs i).length with hlt | hge
        · obtain ⟨j, p, hget⟩ : ∃ j p, (G.subs i)[k]? = some (j, p) := ⟨_, _, List.getElem?_eq_getElem hlt⟩
          obtain ⟨hj, hp, hin⟩ := fan_of_subs hget
          cases hm : s.mg j p with
          | wait => exact no _ (.bsend hi hb hget hm)
          | hold v' => exact nhold i k j p v' hi hget hm
          | dead => exact nmdead j p hj hp hm
        · have : k = (G.subs i).length := by omega
          subst this
          exact nsend i v hi hb
    obtain ⟨rk, hrk⟩ := hA
    have allrep : ∀ r x, x < G.n → rk x = r → s.ph x = .rep false := by
      intro r
      induction r using Nat.strong_induction_on with
      | _ r ih =>
        intro x hx hr'
        rcases ph2 x hx with ⟨c, hp⟩ | hp
        · exfalso
          have hin : G.isIn x = false := by
            cases e : G.isIn x with
            | false => rfl
            | true => exact absurd hp ((h.inPh x hx e).1 c)
          obtain ⟨hcl, S', hS', hm'⟩ := h.recv x c hx hin hp
          have : ∃ p, p < G.arity x ∧ ¬ got x p := by
            by_contra hall
            push Not at hall
            have hsub : Finset.range (G.arity x) ⊆ S' := fun q hq => (hm' q).2 ⟨Finset.mem_range.1 hq, hall q (Finset.mem_range.1 hq)⟩
            have := Finset.card_le_card hsub
            rw [Finset.card_range] at this
            omega
          obtain ⟨p, hpa, hng⟩ := this
          have hpf : p < G.fan x := by
            unfold Net.fan
            rw [hin]
            rw [(hG.arity x hx hin).1] at hpa
            simpa using hpa
          obtain ⟨i, k, ho, hk, _⟩ := subs_of hx hpf
          have him := List.mem_of_getElem? ho
          obtain ⟨hi, hoc⟩ := hG.build x hx hin i him
          have hirep := ih (rk i) (by rw [← hr']; exact hrk x hx hin i him) i hi rfl
          have hpos := h.wait i hi hoc (bw i hi) (by rw [hirep]; rfl)
          have hkl := (List.getElem?_eq_some_iff.1 hk).1
          cases hm : s.mg x p with
          | wait => exact hng ((h.mwait i k x p hi hk hm).1 (by omega))
          | hold v => exact nhold i k x p v hi hk hm
          | dead => exact nmdead x p hx hpf hm
        · exact hp
    refine no _ (.mainEnd hn ?_ hs)
    rw [← hS, Finset.card_eq_zero]
    ext i
    rw [hmem i]
    constructor
    · rintro ⟨hi, hp⟩
      rw [allrep _ i hi rfl] at hp; cases hp
    · intro h; simp at h

/-! ### Executions without cancellation from outside -/

/-- States reachable without cancellation from outside. -/
inductive ReachI (G : Net V) : St V → Prop
  | start {s : St V} : Start G s → ReachI G s
  | step {s t : St V} : ReachI G s → Step G s t → ReachI G t

theorem ReachI.reach {s : St V} (h : ReachI G s) : Reach G s := by
  induction h with
  | start h => exact .start h
  | step _ hs ih => exact .step ih hs

theorem no_error {s : St V} (hG : Good G) (hE : ∀ i, i < G.n → ∃ v, Evals G i v) (hR : ReachI G s) :
    (∀ i, i < G.n → s.ph i ≠ .fin true ∧ s.ph i ≠ .rep true) ∧ (s.cancel = true → s.total = 0) := by
  induction hR with
  | start h =>
    refine ⟨fun i hi => ?_, fun hc => by rw [h.cancel] at hc; cases hc⟩
    rw [h.ph i hi]
    split <;> exact ⟨by simp, by simp⟩
  | @step s t hr hs ih =>
    obtain ⟨ih1, ih2⟩ := ih
    obtain ⟨pos, got, hv⟩ := reach_iv hG hr.reach
    have key : ∀ (j : Nat) (q : Ph), q ≠ .fin true → q ≠ .rep true → ∀ i, i < G.n → update s.ph j q i ≠ .fin true ∧ update s.ph j q i ≠ .rep true := by
      intro j q h1 h2 i hi
      rw [update_apply]
      split
      · exact ⟨h1, h2⟩
      · exact ih1 i hi
    cases hs with
    | @recv j p c v hj hp hph hm ha =>
      exact ⟨key j _ (by split <;> simp) (by split <;> simp), ih2⟩
    | @recvBad j p c v hj hp hph hm ha =>
      exfalso
      obtain ⟨_, _, _, _, hin⟩ := subs_of hj hp
      rw [(hG.arity j hj hin).1] at ha
      unfold Net.fan at hp
      rw [hin] at hp
      exact ha (by simpa using hp)
    | @compOk j v hj hph hv' => exact ⟨key j _ (by simp) (by simp), ih2⟩
    | @compErr j hj hph hn =>
      exfalso
      have hin : G.isIn j = false := by
        cases e : G.isIn j with
        | false => rfl
        | true => exact absurd hph (hv.inPh j hj e).2
      have hgot := hv.past j hj hin (by rw [hph]; rfl)
      obtain ⟨v, hev⟩ := hE j hj
      cases hev with
      | input e => rw [hin] at e; cases e
      | @op _ vs _ _ hl ho hf =>
        have har := (hG.arity j hj hin).1
        have : G.args s j = vs := by
          apply List.ext_getElem (by simp [Net.args, har, hl])
          intro p h1 h2
          simp only [Net.args, List.getElem_map, List.getElem_range]
          exact evals_unique (hv.inp j p _ hj hin (hgot p (by omega)) (List.getElem?_eq_getElem (by omega))) (ho p (by omega) h2)
        rw [this, hf] at hn; cases hn
    | @emit i hi hph ho hb => exact ⟨key i _ (by simp) (by simp), ih2⟩
    | @emitTop i hi hph ho => exact ⟨key i _ (by simp) (by simp), ih2⟩
    | @bsend i k j p v hi hb hs hm => exact ⟨ih1, ih2⟩
    | @bdone i v hi hb => exact ⟨ih1, ih2⟩
    | @report i e hi hph ht =>
      have he : e = false := by
        cases e with
        | false => rfl
        | true => exact absurd hph (ih1 i hi).1
      subst he
      refine ⟨key i _ (by simp) (by simp), fun hc => ?_⟩
      have : s.cancel = true := by simpa using hc
      have := ih2 this
      show s.total - 1 = 0
      omega
    | @nodeCancel i hi hc hph =>
      exfalso
      obtain ⟨S, hS, hmem⟩ := hv.total
      rw [ih2 hc] at hS
      have he := Finset.card_eq_zero.1 hS
      have : i ∈ S := (hmem i).2 ⟨hi, by rcases hph with ⟨c, e⟩ | ⟨e, _⟩ <;> rw [e] <;> rfl⟩
      rw [he] at this
      simp at this
    | mainEnd hn ht hs => exact ⟨ih1, fun _ => ht⟩
    | @bdie i hi ho hs hb => exact ⟨ih1, ih2⟩
    | @mdie j p hj hp hs hm => exact ⟨ih1, ih2⟩
    | done hn ht hs hr hb hm => exact ⟨ih1, ih2⟩

/-- **C28 and C29 together.** If every node has a value and nobody cancels, every maximal execution ends with `Run` having returned, no
error, and every node holding the value of its expression. -/
theorem run_complete {s : St V} (hG : Good G) (hn : 0 < G.n) (hA : Acyclic G) (hE : ∀ i, i < G.n → ∃ v, Evals G i v) (hR : ReachI G s)
    (hmax : ∀ t, ¬ Step G s t) : s.ret = true ∧ ∀ i, i < G.n → s.ph i = .rep false ∧ Evals G i (s.out i) := by
  have hret : s.ret = true := by
    cases e : s.ret with
    | true => rfl
    | false =>
      obtain ⟨t, ht⟩ := no_deadlock hG hn hA hR.reach e
      exact absurd ht (hmax t)
  obtain ⟨h1, h2⟩ := returned_values hG hR.reach hret
  have hne := fun i hi => ((no_error hG hE hR).1 i hi).2
  refine ⟨hret, fun i hi => ⟨?_, h2 hne i hi⟩⟩
  obtain ⟨e, he⟩ := h1 i hi
  cases e with
  | false => exact he
  | true => exact absurd he (hne i hi)

/-- **C29 fails for operations with fewer operands than their arity**, such as tensor constants (`constantTensor.Arity` is 1, op.go
268, with no operands): even if no operation ever fails, such a node waits forever and `Run` never returns. -/
theorem arity_hangs {s : St V} (j : Nat) (hj : j < G.n) (hin : G.isIn j = false) (ho : G.ops j = []) (hf : ∀ i l, G.f i l ≠ none)
    (har : ∀ i, i < G.n → G.fan i ≤ G.arity i) (hR : ReachI G s) : s.ret = false ∧ s.ph j = .recv 0 := by
  have hfan : G.fan j = 0 := by unfold Net.fan; rw [hin, ho]; rfl
  have main : (∀ i, i < G.n → s.ph i ≠ .fin true) ∧ s.cancel = false ∧ s.stop = false ∧ s.ret = false ∧ s.ph j = .recv 0 ∧
      ∃ S : Finset Nat, S.card = s.total ∧ ∀ i, i ∈ S ↔ i < G.n ∧ (s.ph i).isRep = false := by
    induction hR with
    | start h =>
      refine ⟨fun i hi => by rw [h.ph i hi]; split <;> simp, h.cancel, h.stop, h.ret, by rw [h.ph j hj, hin]; rfl,
        Finset.range G.n, by rw [h.total]; simp, fun i => ?_⟩
      simp only [Finset.mem_range]
      refine ⟨fun hi => ⟨hi, ?_⟩, fun hi => hi.1⟩
      rw [h.ph i hi]; split <;> rfl
    | @step s t hr hs ih =>
      obtain ⟨a, b, c, d, e, f⟩ := ih
      have no : ∀ (i : Nat) (q : Ph), i ≠ j → update s.ph i q j = .recv 0 := by
        intro i q h; rw [update_of_ne (Ne.symm h)]; exact e
      have key : ∀ (i : Nat) (q : Ph), q ≠ .fin true → ∀ k, k < G.n → update s.ph i q k ≠ .fin true := by
        intro i q h k hk
        rw [update_apply]
        split
        · exact h
        · exact a k hk
      have nej : ∀ i q, s.ph i = q → q ≠ .recv 0 → i ≠ j := by rintro i q h1 h2 rfl; exact h2 (h1.symm.trans e)
      cases hs with
      | @recv i p k v hi hp hph hm ha' =>
        have hne : i ≠ j := by rintro rfl; rw [hfan] at hp; omega
        exact ⟨key i _ (by split <;> simp), b, c, d, no i _ hne, total_same i _ (by rw [hph]; split <;> rfl) f⟩
      | @recvBad i p k v hi hp hph hm ha' => exact absurd (Nat.lt_of_lt_of_le hp (har i hi)) ha'
      | @compOk i v hi hph hv' => exact ⟨key i _ (by simp), b, c, d, no i _ (nej i _ hph (by simp)), total_same i _ (by rw [hph]; rfl) f⟩
      | @compErr i hi hph hn => exact absurd hn (hf _ _)
      | @emit i hi hph ho hb => exact ⟨key i _ (by simp), b, c, d, no i _ (nej i _ hph (by simp)), total_same i _ (by rw [hph]; rfl) f⟩
      | @emitTop i hi hph ho => exact ⟨key i _ (by simp), b, c, d, no i _ (nej i _ hph (by simp)), total_same i _ (by rw [hph]; rfl) f⟩
      | @report i e' hi hph ht =>
        have he : e' = false := by
          cases e' with
          | false => rfl
          | true => exact absurd hph (a i hi)
        subst he
        exact ⟨key i _ (by simp), by simp [b], c, d, no i _ (nej i _ hph (by simp)), total_report i hi _ (by rw [hph]; rfl) f⟩
      | @nodeCancel i hi hc hph => rw [hc] at b; cases b
      | mainEnd hn ht hs =>
        exfalso
        obtain ⟨S, hS, hmem⟩ := f
        rw [ht] at hS
        have : j ∈ S := (hmem j).2 ⟨hj, by rw [e]; rfl⟩
        rw [Finset.card_eq_zero.1 hS] at this
        simp at this
      | @bsend i k j p v hi hb hs hm => exact ⟨a, b, c, d, e, f⟩
      | @bdone i v hi hb => exact ⟨a, b, c, d, e, f⟩
      | @bdie i hi ho hs hb => rw [hs] at c; cases c
      | @mdie j p hj hp hs hm => rw [hs] at c; cases c
      | done hn ht hs hr hb hm => rw [hs] at c; cases c
  exact ⟨main.2.2.2.1, main.2.2.2.2.1⟩

/-- **C29 fails for the empty graph**: `runAllNodes` waits for a report that nobody will make (x/vm/machine.go 162-171), also when the
context is cancelled. -/
theorem empty_hangs {s : St V} (hn : G.n = 0) (hR : Reach G s) : s.ret = false := by
  induction hR with
  | start h => exact h.ret
  | step _ hs ih => cases hs <;> first | exact ih | omega
  | ext _ hs ih => cases hs; exact ih

/-! ### Examples -/

/-- Two inputs 5 and 3, their difference, and the product of the difference with itself (a shared operand). -/
def ex : Net Int where
  n := 4
  isIn i := i < 2
  used i := i < 3
  ops i := if i = 2 then [0, 1] else if i = 3 then [2, 2] else []
  arity i := if i < 2 then 0 else 2
  inVal i := if i = 0 then 5 else 3
  f i l := match i, l with
    | 2, [a, b] => some (a - b)
    | 3, [a, b] => some (a * b)
    | _, _ => none

example : ex.subs 0 = [(2, 0)] ∧ ex.subs 1 = [(2, 1)] ∧ ex.subs 2 = [(3, 0), (3, 1)] ∧ ex.subs 3 = [] := by decide

theorem ex_good : Good ex := by
  refine ⟨?_, ?_⟩
  · intro j hj hin i hi
    have : j = 0 ∨ j = 1 ∨ j = 2 ∨ j = 3 := by simp [ex] at hj; omega
    rcases this with rfl | rfl | rfl | rfl <;> simp [ex, Net.outC] at hin hi ⊢
    · rcases hi with rfl | rfl <;> simp
    · subst hi; simp
  · intro j hj hin
    have : j = 0 ∨ j = 1 ∨ j = 2 ∨ j = 3 := by simp [ex] at hj; omega
    rcases this with rfl | rfl | rfl | rfl <;> simp [ex] at hin ⊢

theorem ex_acyclic : Acyclic ex := by
  refine ⟨id, ?_⟩
  intro j hj hin i hi
  have : j = 0 ∨ j = 1 ∨ j = 2 ∨ j = 3 := by simp [ex] at hj; omega
  rcases this with rfl | rfl | rfl | rfl <;> simp [ex] at hin hi ⊢
  · omega
  · omega

theorem ex_evals2 : Evals ex 2 2 := by
  refine .op (vs := [5, 3]) rfl rfl ?_ rfl
  intro p h1 h2
  have : p = 0 ∨ p = 1 := by simp at h2; omega
  rcases this with rfl | rfl
  · exact Evals.input (G := ex) (i := 0) rfl
  · exact Evals.input (G := ex) (i := 1) rfl

/-- The product of the difference with itself is 4. -/
theorem ex_evals3 : Evals ex 3 4 := by
  refine .op (vs := [2, 2]) rfl rfl ?_ rfl
  intro p h1 h2
  have : p = 0 ∨ p = 1 := by simp at h2; omega
  rcases this with rfl | rfl <;> exact ex_evals2

/-- Every maximal execution gives the product node the value 4. -/
example (s : St Int) (h : ReachI ex s) (hmax : ∀ t, ¬ Step ex s t) : s.out 3 = 4 := by
  refine evals_unique ((run_complete ex_good (by decide) ex_acyclic ?_ h hmax).2 3 (by decide)).2 ex_evals3
  intro i hi
  have : i = 0 ∨ i = 1 ∨ i = 2 ∨ i = 3 := by simp [ex] at hi; omega
  rcases this with rfl | rfl | rfl | rfl
  · exact ⟨_, .input rfl⟩
  · exact ⟨_, .input rfl⟩
  · exact ⟨_, ex_evals2⟩
  · exact ⟨_, ex_evals3⟩

end Verif.XVM
