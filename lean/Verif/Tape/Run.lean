import Verif.Tape.Machine
/-!
The loop invariant of a run.
-/
set_option autoImplicit false
namespace Verif.Tape

variable {V : Type}

/-- Executes a list of instructions. -/
def runList (E : Env V) : M V → List Instr → Option (M V)
  | m, [] => some m
  | m, i :: is => match step E m i with
    | none => none
    | some m' => runList E m' is

theorem runList_append (E : Env V) (m : M V) (a b : List Instr) :
    runList E m (a ++ b) = (runList E m a).bind fun m' => runList E m' b := by
  induction a generalizing m with
  | nil => rfl
  | cons i is ih =>
    simp only [List.cons_append, runList]
    cases step E m i with
    | none => rfl
    | some m' => exact ih m'

/-- What a run should hand to the operations and read statements at position `i`. -/
def expectAt (P : Prog) (E : Env V) (mem : Nat → V) (i : Nat) : List (Nat × List V) :=
  match (P.node i).kind with
  | .arg | .letS | .atS => []
  | _ => match (P.node i).children.mapM (value P E mem) with
    | some vs => [(i, vs)]
    | none => []

/-- The same for the first `k` nodes. -/
def expect (P : Prog) (E : Env V) (mem : Nat → V) (k : Nat) : List (Nat × List V) :=
  (List.range k).flatMap (expectAt P E mem)

theorem expect_succ (P : Prog) (E : Env V) (mem : Nat → V) (k : Nat) :
    expect P E mem (k + 1) = expect P E mem k ++ expectAt P E mem k := by
  simp [expect, List.range_succ]

structure MInv (P : Prog) (E : Env V) (mem0 : Nat → V) (B : Nat) (seen0 : List (Nat × List V)) (k : Nat) (m : M V)
    (A : Nat → Nat) : Prop where
  cur : ∀ a, a < k → (P.node a).stmt = false →
    (∀ b, a < b → b < k → (P.node b).stmt = false → reg P b ≠ reg P a) → m.regs (reg P a) = some (A (loc P E a).1)
  val : ∀ a, a < k → (P.node a).stmt = false → Needed P a k → value P E mem0 a = some (m.mem (A (loc P E a).1))
  bnd : ∀ a, a < k → (P.node a).stmt = false → (P.node a).kind ≠ .arg → m.bound a = some (A (loc P E a).1)
  stat : ∀ a, a < k → (P.node a).stmt = false → (loc P E a).2 = true → A (loc P E a).1 < B
  fresh : ∀ a, a < k → (P.node a).stmt = false → (loc P E a).2 = false →
    B ≤ A (loc P E a).1 ∧ A (loc P E a).1 < m.next
  inj : ∀ a b, a < k → b < k → (P.node a).stmt = false → (P.node b).stmt = false → (loc P E a).2 = false →
    (loc P E b).2 = false → A (loc P E a).1 = A (loc P E b).1 → (loc P E a).1 = (loc P E b).1
  rep : ∀ a, a < k → (P.node a).stmt = false → (loc P E a).1 ≤ a
  user : ∀ x, x < B → m.mem x = mem0 x
  empty : ∀ r, (∀ a, a < k → (P.node a).stmt = false → reg P a ≠ r) → m.regs r = none
  next : B ≤ m.next
  seen : m.seen = seen0 ++ expect P E mem0 k

theorem Needed.mono {P : Prog} {a k : Nat} (h : Needed P a (k + 1)) : Needed P a k := by
  rcases h with ⟨j, h, u⟩ | h
  · exact .inl ⟨j, by omega, u⟩
  · exact .inr h

section
variable {P : Prog} {E : Env V} {mem0 : Nat → V} {B : Nat} {seen0 : List (Nat × List V)} {k : Nat} {m : M V}
  {A : Nat → Nat}

theorem MInv.addr_lt (I : MInv P E mem0 B seen0 k m A) (a : Nat) (ha : a < k) (hs : (P.node a).stmt = false) :
    A (loc P E a).1 < m.next := by
  cases h : (loc P E a).2 with
  | true => have := I.stat a ha hs h; have := I.next; omega
  | false => exact (I.fresh a ha hs h).2

/-- A result has been put into the register of the node at `k`. -/
theorem land (I : MInv P E mem0 B seen0 k m A) (hs : (P.node k).stmt = false)
    (y : V) (hv : value P E mem0 k = some y) (m' : M V) (p : Nat)
    (r1 : ∀ r, r ≠ reg P k → m'.regs r = m.regs r) (r2 : m'.regs (reg P k) = some p)
    (b1 : ∀ a, a ≠ k → m'.bound a = m.bound a) (b2 : (P.node k).kind ≠ .arg → m'.bound k = some p)
    (hn : m.next ≤ m'.next) (mm : m'.mem p = y)
    (hmem : ∀ a, a < k → (P.node a).stmt = false → Needed P a (k + 1) →
      m'.mem (A (loc P E a).1) = m.mem (A (loc P E a).1))
    (huser : ∀ x, x < B → m'.mem x = m.mem x)
    (hseen : m'.seen = seen0 ++ expect P E mem0 (k + 1))
    (hloc : ((loc P E k).1 = k ∧ ((loc P E k).2 = true ∧ p < B ∨
        (loc P E k).2 = false ∧ m.next ≤ p ∧ p < m'.next)) ∨
      ∃ c, c < k ∧ (P.node c).stmt = false ∧ loc P E k = loc P E c ∧ p = A (loc P E c).1) :
    ∃ A', MInv P E mem0 B seen0 (k + 1) m' A' := by
  -- the address map
  obtain ⟨A', hA', hAk, hrep, hst, hfr⟩ : ∃ A' : Nat → Nat, (∀ a, a < k → (P.node a).stmt = false → A' (loc P E a).1 = A (loc P E a).1) ∧
      A' (loc P E k).1 = p ∧ (loc P E k).1 ≤ k ∧ ((loc P E k).2 = true → p < B) ∧
      ((loc P E k).2 = false → B ≤ p ∧ p < m'.next ∧ ∀ a, a < k → (P.node a).stmt = false → (loc P E a).2 = false →
        A (loc P E a).1 = p → (loc P E a).1 = (loc P E k).1) := by
    rcases hloc with ⟨h1, h2⟩ | ⟨c, hc, hsc, h1, h2⟩
    · refine ⟨upd A k p, fun a ha hsa => ?_, ?_, by omega, ?_, ?_⟩
      · rw [upd_ne]; have := I.rep a ha hsa; omega
      · rw [h1, upd_same]
      · intro h
        rcases h2 with h2 | h2
        · exact h2.2
        · rw [h] at h2; cases h2.1
      · intro h
        rcases h2 with h2 | h2
        · rw [h] at h2; cases h2.1
        · have := I.next
          refine ⟨by omega, h2.2.2, fun a ha hsa hf he => ?_⟩
          have := (I.fresh a ha hsa hf).2
          omega
    · refine ⟨A, fun a _ _ => rfl, by rw [h1, h2], ?_, ?_, ?_⟩
      · rw [h1]; have := I.rep c hc hsc; omega
      · intro h; rw [h2]; rw [h1] at h; exact I.stat c hc hsc h
      · intro h
        rw [h1] at h
        have := I.fresh c hc hsc h
        refine ⟨by omega, by omega, fun a ha hsa hf he => ?_⟩
        rw [h1]; rw [h2] at he
        exact I.inj a c ha hc hsa hsc hf h he
  refine ⟨A', ?_, ?_, ?_, ?_, ?_, ?_, ?_, ?_, ?_, ?_, hseen⟩
  · intro a ha hsa hcur
    rcases Nat.lt_or_ge a k with h | h
    · rw [r1 _ (fun e => hcur k h (by omega) hs e.symm), hA' a h hsa]
      exact I.cur a h hsa (fun b hb1 hb2 => hcur b hb1 (by omega))
    · have : a = k := by omega
      subst this; rw [r2, hAk]
  · intro a ha hsa hnd
    rcases Nat.lt_or_ge a k with h | h
    · rw [hA' a h hsa, hmem a h hsa hnd]
      exact I.val a h hsa hnd.mono
    · have : a = k := by omega
      subst this; rw [hAk, mm, hv]
  · intro a ha hsa hka
    rcases Nat.lt_or_ge a k with h | h
    · rw [hA' a h hsa, b1 a (by omega)]; exact I.bnd a h hsa hka
    · have : a = k := by omega
      subst this; rw [hAk]; exact b2 hka
  · intro a ha hsa hst'
    rcases Nat.lt_or_ge a k with h | h
    · rw [hA' a h hsa]; exact I.stat a h hsa hst'
    · have : a = k := by omega
      subst this; rw [hAk]; exact hst hst'
  · intro a ha hsa hf
    rcases Nat.lt_or_ge a k with h | h
    · rw [hA' a h hsa]; have := I.fresh a h hsa hf; omega
    · have : a = k := by omega
      subst this; rw [hAk]; have := hfr hf; omega
  · intro a b ha hb hsa hsb hfa hfb he
    rcases Nat.lt_or_ge a k with h | h <;> rcases Nat.lt_or_ge b k with h' | h'
    · rw [hA' a h hsa, hA' b h' hsb] at he; exact I.inj a b h h' hsa hsb hfa hfb he
    · have : b = k := by omega
      subst this; rw [hA' a h hsa, hAk] at he; exact (hfr hfb).2.2 a h hsa hfa he
    · have : a = k := by omega
      subst this; rw [hA' b h' hsb, hAk] at he; exact ((hfr hfa).2.2 b h' hsb hfb he.symm).symm
    · have : a = k := by omega
      have : b = k := by omega
      subst this; subst a; rfl
  · intro a ha hsa
    rcases Nat.lt_or_ge a k with h | h
    · exact I.rep a h hsa
    · have : a = k := by omega
      subst this; exact hrep
  · intro x hx; rw [huser x hx]; exact I.user x hx
  · intro r hr
    rw [r1 r (fun e => hr k (by omega) hs e.symm)]
    exact I.empty r (fun a ha hsa => hr a (by omega) hsa)
  · have := I.next; omega

/-- A statement changes nothing but the record of what was read. -/
theorem pass (I : MInv P E mem0 B seen0 k m A) (hs : (P.node k).stmt = true) (m' : M V)
    (h1 : m'.regs = m.regs) (h2 : m'.mem = m.mem) (h3 : m'.bound = m.bound) (h4 : m'.next = m.next)
    (hseen : m'.seen = seen0 ++ expect P E mem0 (k + 1)) : MInv P E mem0 B seen0 (k + 1) m' A := by
  have lt : ∀ a, a < k + 1 → (P.node a).stmt = false → a < k := by
    intro a ha hsa
    rcases Nat.lt_or_ge a k with h | h
    · exact h
    · have : a = k := by omega
      subst this; rw [hs] at hsa; cases hsa
  refine ⟨?_, ?_, ?_, ?_, ?_, ?_, ?_, ?_, ?_, ?_, hseen⟩
  · intro a ha hsa hc; rw [h1]; exact I.cur a (lt a ha hsa) hsa (fun b x y => hc b x (by omega))
  · intro a ha hsa hn; rw [h2]; exact I.val a (lt a ha hsa) hsa hn.mono
  · intro a ha hsa hk; rw [h3]; exact I.bnd a (lt a ha hsa) hsa hk
  · intro a ha hsa h; exact I.stat a (lt a ha hsa) hsa h
  · intro a ha hsa h; rw [h4]; exact I.fresh a (lt a ha hsa) hsa h
  · intro a b ha hb hsa hsb; exact I.inj a b (lt a ha hsa) (lt b hb hsb) hsa hsb
  · intro a ha hsa; exact I.rep a (lt a ha hsa) hsa
  · intro x hx; rw [h2]; exact I.user x hx
  · intro r hr; rw [h1]; exact I.empty r (fun a ha hsa => hr a (by omega) hsa)
  · rw [h4]; exact I.next

/-- The operands are in their registers, with the right content. -/
theorem operand (W : WF P) (hn : NoLet P) (I : MInv P E mem0 B seen0 k m A) (hk : k < P.length) (c : Nat)
    (hc : c ∈ (P.node k).children) :
    c < k ∧ (P.node c).stmt = false ∧ m.regs (reg P c) = some (A (loc P E c).1) ∧
    value P E mem0 c = some (m.mem (A (loc P E c).1)) := by
  have hlt := W.before k hk c hc
  have hsc := W.nostmt k hk c hc
  refine ⟨hlt, hsc, ?_, ?_⟩
  · apply I.cur c hlt hsc
    intro b hb1 hb2 hsb e
    have := (registers_safe_partial P W hn c b hb1 (by omega) hsc hsb e.symm).1 k ⟨hk, hc⟩
    omega
  · exact I.val c hlt hsc (.inl ⟨k, Nat.le_refl _, hk, hc⟩)

theorem mapM_some {α β : Type} (f : α → Option β) (g : α → β) (l : List α) (h : ∀ x ∈ l, f x = some (g x)) :
    l.mapM f = some (l.map g) := by
  induction l with
  | nil => rfl
  | cons x xs ih =>
    rw [List.mapM_cons, h x (by simp), ih (fun y hy => h y (by simp [hy]))]; rfl

theorem mapM_map_some {α β γ : Type} (r : α → γ) (f : γ → Option β) (g : α → β) (l : List α)
    (h : ∀ x ∈ l, f (r x) = some (g x)) : (l.map r).mapM f = some (l.map g) := by
  induction l with
  | nil => rfl
  | cons x xs ih =>
    rw [List.map_cons, List.mapM_cons, h x (by simp), ih (fun y hy => h y (by simp [hy]))]; rfl

theorem value_op (W : WF P) (hk : k < P.length) (hs : (P.node k).stmt = false) (ha : (P.node k).kind ≠ .arg) :
    value P E mem0 k = ((P.node k).children.mapM (value P E mem0)).bind (E.sem k).f := by
  rw [value_eq P W E mem0 k hk]
  unfold evalNode
  cases hkd : (P.node k).kind <;> simp_all [Node.stmt]

theorem expectAt_op (hs : (P.node k).stmt = false) (ha : (P.node k).kind ≠ .arg) (vs : List V)
    (h : (P.node k).children.mapM (value P E mem0) = some vs) : expectAt P E mem0 k = [(k, vs)] := by
  unfold expectAt
  rw [h]
  cases hkd : (P.node k).kind <;> simp_all [Node.stmt]

theorem frag_op (hs : (P.node k).stmt = false) (ha : (P.node k).kind ≠ .arg) :
    frag P k = (if hasAlloc P k then [Instr.alloc k (reg P k)] else []) ++
    [Instr.exec k ((P.node k).children.map (reg P)) (reg P k) (hasAlloc P k)
      (decide ((P.node k).children.map (reg P) ≠ [] ∧ (P.node k).overwrites ≥ 0 ∧
        ((P.node k).children.map (reg P))[(P.node k).overwrites.toNat]? = some (reg P k)))] := by
  unfold frag
  cases hkd : (P.node k).kind <;> simp_all [Node.stmt]

/-- `Do`, in a state that differs from `m` at most in the register to be written and in memory not in use. -/
theorem doOp_land (W : WF P) (hn : NoLet P) (S : SemOK P E mem0 B) (I : MInv P E mem0 B seen0 k m A)
    (hk : k < P.length) (hs : (P.node k).stmt = false) (ha : (P.node k).kind ≠ .arg) (y : V)
    (hv : value P E mem0 k = some y) (m1 : M V)
    (q1 : ∀ r, r ≠ reg P k → m1.regs r = m.regs r) (q2 : m1.bound = m.bound) (q3 : m.next ≤ m1.next)
    (q4 : ∀ x, x < m.next → m1.mem x = m.mem x) (q5 : m1.seen = seen0 ++ expect P E mem0 (k + 1))
    (hf : (E.sem k).f (((P.node k).children.map fun c => A (loc P E c).1).map m1.mem) = some y)
    (hl : loc P E k = match (E.sem k).ret with
      | .fresh => (k, false)
      | .alias j => loc P E ((P.node k).children.getD j 0)
      | .static _ => (k, true)) :
    ∃ m' A', doOp E m1 k (reg P k) ((P.node k).children.map fun c => A (loc P E c).1) = some m' ∧
      MInv P E mem0 B seen0 (k + 1) m' A' := by
  unfold doOp
  rw [hf]
  simp only
  have hB := I.next
  have hmemold : ∀ a, a < k → (P.node a).stmt = false → m1.mem (A (loc P E a).1) = m.mem (A (loc P E a).1) :=
    fun a h1 h2 => q4 _ (I.addr_lt a h1 h2)
  cases hr : (E.sem k).ret with
  | fresh =>
    rw [hr] at hl
    simp only at hl ⊢
    have := land I hs y hv ({ m1 with mem := upd m1.mem m1.next y, next := m1.next + 1 }.put k (reg P k) m1.next) m1.next
      (fun r h => by simp only [M.put]; rw [upd_ne _ _ _ _ h]; exact q1 r h) (by simp only [M.put]; exact upd_same _ _ _)
      (fun a h => by simp only [M.put]; rw [upd_ne _ _ _ _ h, q2]) (fun _ => by simp only [M.put]; exact upd_same _ _ _)
      (by simp only [M.put]; omega) (by simp only [M.put]; exact upd_same _ _ _)
      (fun a h1 h2 _ => by
        simp only [M.put]
        rw [upd_ne _ _ _ _ (by have := I.addr_lt a h1 h2; omega)]; exact hmemold a h1 h2)
      (fun x hx => by simp only [M.put]; rw [upd_ne _ _ _ _ (by omega)]; exact q4 x (by omega))
      (by simp only [M.put]; exact q5)
      (.inl ⟨by rw [hl], .inr ⟨by rw [hl], q3, by simp only [M.put]; omega⟩⟩)
    obtain ⟨A', h⟩ := this
    exact ⟨_, A', rfl, h⟩
  | «alias» j =>
    rw [hr] at hl
    simp only at hl ⊢
    have hsh := S.share k j hk hr _ y hf
    rw [List.map_map, List.getElem?_map] at hsh
    cases hc : (P.node k).children[j]? with
    | none => rw [hc] at hsh; cases hsh
    | some c =>
      rw [hc] at hsh
      simp only [Option.map_some, Function.comp_apply, Option.some.injEq] at hsh
      have hcm : c ∈ (P.node k).children := List.mem_of_getElem? hc
      obtain ⟨o1, o2, o3, o4⟩ := operand W hn I hk c hcm
      rw [List.getElem?_map, hc]
      simp only [Option.map_some]
      have hgd : (P.node k).children.getD j 0 = c := by rw [List.getD_eq_getElem?_getD, hc]; rfl
      rw [hgd] at hl
      have := land I hs y hv (m1.put k (reg P k) (A (loc P E c).1)) (A (loc P E c).1)
        (fun r h => by simp only [M.put]; rw [upd_ne _ _ _ _ h]; exact q1 r h) (by simp only [M.put]; exact upd_same _ _ _)
        (fun a h => by simp only [M.put]; rw [upd_ne _ _ _ _ h, q2]) (fun _ => by simp only [M.put]; exact upd_same _ _ _)
        (by simp only [M.put]; omega) (by simp only [M.put]; exact hsh)
        (fun a h1 h2 _ => by simp only [M.put]; exact hmemold a h1 h2)
        (fun x hx => by simp only [M.put]; exact q4 x (by omega))
        (by simp only [M.put]; exact q5)
        (.inr ⟨c, o1, o2, hl, rfl⟩)
      obtain ⟨A', h⟩ := this
      exact ⟨_, A', rfl, h⟩
  | static a0 =>
    rw [hr] at hl
    simp only at hl ⊢
    obtain ⟨s1, s2, s3⟩ := S.static k a0 hk hr
    have hch : (P.node k).children = [] := W.leaf k (by simp [Node.live, s1])
    rw [hch] at hf
    simp only [List.map_nil] at hf
    rw [s3] at hf
    have hy : mem0 a0 = y := by injection hf
    have := land I hs y hv (m1.put k (reg P k) a0) a0
      (fun r h => by simp only [M.put]; rw [upd_ne _ _ _ _ h]; exact q1 r h) (by simp only [M.put]; exact upd_same _ _ _)
      (fun a h => by simp only [M.put]; rw [upd_ne _ _ _ _ h, q2]) (fun _ => by simp only [M.put]; exact upd_same _ _ _)
      (by simp only [M.put]; omega)
      (by simp only [M.put]; rw [q4 a0 (by omega), I.user a0 s2, hy])
      (fun a h1 h2 _ => by simp only [M.put]; exact hmemold a h1 h2)
      (fun x hx => by simp only [M.put]; exact q4 x (by omega))
      (by simp only [M.put]; exact q5)
      (.inl ⟨by rw [hl], .inl ⟨by rw [hl], s2⟩⟩)
    obtain ⟨A', h⟩ := this
    exact ⟨_, A', rfl, h⟩

/-- One operation. -/
theorem op_step (W : WF P) (hn : NoLet P) (S : SemOK P E mem0 B) (hsafe : Safe P E)
    (I : MInv P E mem0 B seen0 k m A) (hk : k < P.length) (hs : (P.node k).stmt = false)
    (ha : (P.node k).kind ≠ .arg) :
    match value P E mem0 k with
    | none => runList E m (frag P k) = none
    | some _ => ∃ m' A', runList E m (frag P k) = some m' ∧ MInv P E mem0 B seen0 (k + 1) m' A' := by
  have O := operand W hn I hk
  set g : Nat → Nat := fun c => A (loc P E c).1 with hg
  set vs := (P.node k).children.map (fun c => m.mem (g c)) with hvs
  have hvals : (P.node k).children.mapM (value P E mem0) = some vs :=
    mapM_some _ _ _ (fun c hc => (O c hc).2.2.2)
  have hvk := value_op (E := E) (mem0 := mem0) W hk hs ha
  rw [hvals] at hvk
  simp only [Option.bind_some] at hvk
  have hexp := expectAt_op (E := E) hs ha vs hvals
  have hseen : m.seen ++ [(k, vs)] = seen0 ++ expect P E mem0 (k + 1) := by
    rw [expect_succ, hexp, I.seen, List.append_assoc]
  have hB := I.next
  rw [frag_op hs ha]
  by_cases hocc : occ P k = true
  · -- the register holds the operand
    have T := (occ_takes P W k hk hs).1 hocc
    have hna : hasAlloc P k = false := by simp [hasAlloc, T.ext]
    have htm := target_mem P W k T.ow
    obtain ⟨t1, t2, t3, t4⟩ := O _ htm
    have hreg : m.regs (reg P k) = some (g (target P k)) := by rw [T.same]; exact t3
    have hga : getAddrs m ((P.node k).children.map (reg P)) = some ((P.node k).children.map g) :=
      mapM_map_some _ _ _ _ (fun c hc => (O c hc).2.2.1)
    have hmm : ((P.node k).children.map g).map m.mem = vs := by rw [List.map_map]; rfl
    rw [hna]
    simp only [Bool.false_eq_true, ↓reduceIte, List.nil_append, runList, step, execOp, hga, hreg, hmm]
    cases hpre : (E.sem k).pre with
    | true =>
      simp only [↓reduceIte, writeAt, hmm]
      cases hy : (E.sem k).f vs with
      | none => rw [hy] at hvk; rw [hvk];
      | some y =>
        rw [hy] at hvk
        rw [hvk]
        obtain ⟨sf1, sf2⟩ := hsafe k hk hs hpre hocc
        have hlk : loc P E k = loc P E (target P k) := by
          rw [loc_eq P W E mem0 B S k hk (by rw [hvals]; simp [hy])]
          unfold locStep
          rw [if_neg ha, if_pos ⟨hpre, hocc⟩]
        have hfr := I.fresh _ t1 t2 sf1
        have L := land I hs y hvk
          ({ { m with seen := m.seen ++ [(k, vs)] } with mem := upd m.mem (g (target P k)) y }.put k (reg P k)
            (g (target P k))) (g (target P k))
          (fun r h => by simp only [M.put]; rw [upd_ne _ _ _ _ h]) (by simp only [M.put]; exact upd_same _ _ _)
          (fun a h => by simp only [M.put]; rw [upd_ne _ _ _ _ h]) (fun _ => by simp only [M.put]; exact upd_same _ _ _)
          (by simp only [M.put]; omega) (by simp only [M.put]; exact upd_same _ _ _)
          (fun a h1 h2 hnd => by
            simp only [M.put]
            rw [upd_ne]
            intro e
            cases hst : (loc P E a).2 with
            | true => have := I.stat a h1 h2 hst; simp only [hg] at e; omega
            | false => exact sf2 a h1 h2 (I.inj a _ h1 t1 h2 t2 hst sf1 e) hnd)
          (fun x hx => by simp only [M.put]; rw [upd_ne]; simp only [hg]; omega)
          (by simp only [M.put]; exact hseen)
          (.inr ⟨target P k, t1, t2, hlk, rfl⟩)
        obtain ⟨A', h⟩ := L
        exact ⟨_, A', rfl, h⟩
    | false =>
      simp only [Bool.false_eq_true, ↓reduceIte]
      cases hy : (E.sem k).f vs with
      | none =>
        rw [hy] at hvk; rw [hvk]
        simp only [doOp, hmm, hy]
      | some y =>
        rw [hy] at hvk
        rw [hvk]
        have hlk : loc P E k = match (E.sem k).ret with
            | .fresh => (k, false)
            | .alias j => loc P E ((P.node k).children.getD j 0)
            | .static _ => (k, true) := by
          rw [loc_eq P W E mem0 B S k hk (by rw [hvals]; simp [hy])]
          unfold locStep
          rw [if_neg ha, if_neg (by rw [hpre]; simp), if_neg (by rw [hpre]; simp)]
          rfl
        obtain ⟨m', A', e, h⟩ := doOp_land W hn S I hk hs ha y hvk { m with seen := m.seen ++ [(k, vs)] }
          (fun _ _ => rfl) rfl (Nat.le_refl _) (fun _ _ => rfl) hseen
          (by rw [show (List.map (fun c => A (loc P E c).1) (P.node k).children) = List.map g (P.node k).children from rfl, hmm]; exact hy)
          hlk
        refine ⟨m', A', ?_, h⟩
        rw [show (List.map g (P.node k).children) = (List.map (fun c => A (loc P E c).1) (P.node k).children) from rfl, e]
  · -- the register is empty
    have hocc' : occ P k = false := by simpa using hocc
    have hne := not_occ P W k hk hs hocc'
    have hempty : m.regs (reg P k) = none := I.empty _ hne
    have huns : ¬ ((P.node k).children.map (reg P) ≠ [] ∧ (P.node k).overwrites ≥ 0 ∧
        ((P.node k).children.map (reg P))[(P.node k).overwrites.toNat]? = some (reg P k)) := by
      rintro ⟨_, h1, h2⟩
      rw [List.getElem?_map] at h2
      cases hc : (P.node k).children[(P.node k).overwrites.toNat]? with
      | none => rw [hc] at h2; cases h2
      | some c =>
        rw [hc] at h2
        simp only [Option.map_some, Option.some.injEq] at h2
        have hcm := List.mem_of_getElem? hc
        exact hne c (W.before k hk c hcm) (W.nostmt k hk c hcm) h2
    rw [show (decide ((P.node k).children.map (reg P) ≠ [] ∧ (P.node k).overwrites ≥ 0 ∧
        ((P.node k).children.map (reg P))[(P.node k).overwrites.toNat]? = some (reg P k))) = false from
      decide_eq_false huns]
    cases hal : hasAlloc P k with
    | false =>
      have hga : getAddrs m ((P.node k).children.map (reg P)) = some ((P.node k).children.map g) :=
        mapM_map_some _ _ _ _ (fun c hc => (O c hc).2.2.1)
      have hmm : ((P.node k).children.map g).map m.mem = vs := by rw [List.map_map]; rfl
      simp only [Bool.false_eq_true, ↓reduceIte, List.nil_append, runList, step, execOp, hga, hempty, hmm,
        false_and, and_false]
      cases hy : (E.sem k).f vs with
      | none =>
        rw [hy] at hvk; rw [hvk]
        simp only [doOp, hmm, hy]
      | some y =>
        rw [hy] at hvk
        rw [hvk]
        have hlk : loc P E k = match (E.sem k).ret with
            | .fresh => (k, false)
            | .alias j => loc P E ((P.node k).children.getD j 0)
            | .static _ => (k, true) := by
          rw [loc_eq P W E mem0 B S k hk (by rw [hvals]; simp [hy])]
          unfold locStep
          rw [if_neg ha, if_neg (by rw [hocc']; simp), if_neg (by rw [hal]; simp)]
          rfl
        obtain ⟨m', A', e, h⟩ := doOp_land W hn S I hk hs ha y hvk { m with seen := m.seen ++ [(k, vs)] }
          (fun _ _ => rfl) rfl (Nat.le_refl _) (fun _ _ => rfl) hseen
          (by rw [show (List.map (fun c => A (loc P E c).1) (P.node k).children) = List.map g (P.node k).children from rfl, hmm]; exact hy)
          hlk
        refine ⟨m', A', ?_, h⟩
        rw [show (List.map g (P.node k).children) = (List.map (fun c => A (loc P E c).1) (P.node k).children) from rfl, e]
    | true =>
      -- memory is allocated first
      simp only [↓reduceIte, List.cons_append, List.nil_append, runList, step, hempty]
      set m1 : M V := { m with regs := upd m.regs (reg P k) (some m.next), mem := upd m.mem m.next E.blank, next := m.next + 1 } with hm1
      have hgl : ∀ c ∈ (P.node k).children, g c < m.next := fun c hc => I.addr_lt c (O c hc).1 (O c hc).2.1
      have hga : getAddrs m1 ((P.node k).children.map (reg P)) = some ((P.node k).children.map g) := by
        apply mapM_map_some
        intro c hc
        rw [hm1]; simp only
        rw [upd_ne _ _ _ _ (hne c (O c hc).1 (O c hc).2.1)]
        exact (O c hc).2.2.1
      have hmm : ((P.node k).children.map g).map m1.mem = vs := by
        rw [List.map_map]
        apply List.map_congr_left
        intro c hc
        simp only [Function.comp_apply, hm1]
        rw [upd_ne _ _ _ _ (by have := hgl c hc; omega)]
      have hr1 : m1.regs (reg P k) = some m.next := upd_same _ _ _
      have hs1 : m1.seen = m.seen := rfl
      simp only [execOp, hga, hr1, hmm, hs1]
      cases hpre : (E.sem k).pre with
      | true =>
        simp only [↓reduceIte, writeAt, hmm]
        cases hy : (E.sem k).f vs with
        | none => rw [hy] at hvk; rw [hvk];
        | some y =>
          rw [hy] at hvk
          rw [hvk]
          have hlk : loc P E k = (k, false) := by
            rw [loc_eq P W E mem0 B S k hk (by rw [hvals]; simp [hy])]
            unfold locStep
            rw [if_neg ha, if_neg (by rw [hocc']; simp), if_pos ⟨hpre, hal⟩]
          have L := land I hs y hvk
            ({ { m1 with seen := m.seen ++ [(k, vs)] } with mem := upd m1.mem m.next y }.put k (reg P k) m.next) m.next
            (fun r h => by simp only [M.put, hm1]; rw [upd_ne _ _ _ _ h, upd_ne _ _ _ _ h])
            (by simp only [M.put]; exact upd_same _ _ _)
            (fun a h => by simp only [M.put, hm1]; rw [upd_ne _ _ _ _ h])
            (fun _ => by simp only [M.put]; exact upd_same _ _ _)
            (by simp only [M.put, hm1]; omega) (by simp only [M.put]; exact upd_same _ _ _)
            (fun a h1 h2 _ => by
              have := I.addr_lt a h1 h2
              simp only [M.put, hm1]
              rw [upd_ne _ _ _ _ (by omega), upd_ne _ _ _ _ (by omega)])
            (fun x hx => by
              simp only [M.put, hm1]
              rw [upd_ne _ _ _ _ (by omega), upd_ne _ _ _ _ (by omega)])
            (by simp only [M.put]; exact hseen)
            (.inl ⟨by rw [hlk], .inr ⟨by rw [hlk], Nat.le_refl _, by simp only [M.put, hm1]; omega⟩⟩)
          obtain ⟨A', h⟩ := L
          exact ⟨_, A', rfl, h⟩
      | false =>
        simp only [Bool.false_eq_true, ↓reduceIte]
        cases hy : (E.sem k).f vs with
        | none =>
          rw [hy] at hvk; rw [hvk]
          simp only [doOp, hmm, hy]
        | some y =>
          rw [hy] at hvk
          rw [hvk]
          have hlk : loc P E k = match (E.sem k).ret with
              | .fresh => (k, false)
              | .alias j => loc P E ((P.node k).children.getD j 0)
              | .static _ => (k, true) := by
            rw [loc_eq P W E mem0 B S k hk (by rw [hvals]; simp [hy])]
            unfold locStep
            rw [if_neg ha, if_neg (by rw [hpre]; simp), if_neg (by rw [hpre]; simp)]
            rfl
          obtain ⟨m', A', e, h⟩ := doOp_land W hn S I hk hs ha y hvk { m1 with seen := m.seen ++ [(k, vs)] }
            (fun r hr => by simp only [hm1]; rw [upd_ne _ _ _ _ hr]) rfl (by simp only [hm1]; omega)
            (fun x hx => by simp only [hm1]; rw [upd_ne _ _ _ _ (by omega)]) hseen
            (by rw [show (List.map (fun c => A (loc P E c).1) (P.node k).children) = List.map g (P.node k).children from rfl, hmm]; exact hy)
            hlk
          refine ⟨m', A', ?_, h⟩
          rw [show (List.map g (P.node k).children) = (List.map (fun c => A (loc P E c).1) (P.node k).children) from rfl, e]

end
end Verif.Tape
