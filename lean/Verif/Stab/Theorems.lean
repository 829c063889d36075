import Verif.Stab.Lemmas
/-!
What the stabilization rewrites do to the value of the requested operation (C19) and to nodes the caller holds (C20).
-/
set_option autoImplicit false
namespace Verif.Stab

open Verif.AD (UOp BOp)

variable {ι : Type} [Fintype ι]

/-- `j` is computed from `p` (or is `p`). -/
inductive Uses (H : Heap) : Nat → Nat → Prop
  | refl (p : Nat) : Uses H p p
  | step {j k p : Nat} : k < (H.op j).arity → Uses H (H.kid j k) p → Uses H j p

theorem Uses.le {H : Heap} (W : H.OK) {j p : Nat} (h : Uses H j p) : p ≤ j := by
  induction h with
  | refl => exact Nat.le_refl _
  | step hk _ ih => have := W _ _ hk; omega

/-- `Log` of this node is not rewritten by changing an existing node. -/
def Plain (H : Heap) (a : Nat) : Prop :=
  H.op a = .un .sigmoid ∨
  (logMatch H a = none ∧ isSoftmax H a = false ∧
    (H.op a = .bin .mul → isSoftmax H (H.kid a 0) = false ∧ isSoftmax H (H.kid a 1) = false))

/-- The products for which the rewrite of `log(p * q)` is right: a softmax and a factor that is neither rewritten by changing
a node nor computed from the softmax; or two softmaxes of which none is computed from the other. -/
def GoodProduct (H : Heap) (a : Nat) : Prop :=
  H.op a = .bin .mul ∧
  ((H.op (H.kid a 0) = .softmax false ∧ isSoftmax H (H.kid a 1) = false ∧ Plain H (H.kid a 1) ∧
      ¬ Uses H (H.kid a 1) (H.kid a 0)) ∨
   (H.op (H.kid a 1) = .softmax false ∧ isSoftmax H (H.kid a 0) = false ∧ Plain H (H.kid a 0) ∧
      ¬ Uses H (H.kid a 0) (H.kid a 1)) ∨
   (H.op (H.kid a 0) = .softmax false ∧ H.op (H.kid a 1) = .softmax false ∧
      (H.kid a 0 = H.kid a 1 ∨ (¬ Uses H (H.kid a 1) (H.kid a 0) ∧ ¬ Uses H (H.kid a 0) (H.kid a 1)))))

/-- Operands of `Log` for which the result is right. -/
def Safe (H : Heap) (a : Nat) : Prop :=
  Plain H a ∨ (logMatch H a).isSome ∨ isSoftmax H a = true ∨ GoodProduct H a

theorem ctx_all (H : Heap) (W : H.OK) : Ctx H (fun _ => True) H.length :=
  ⟨W, Nat.le_refl _, fun _ _ => trivial, fun _ _ _ _ => trivial⟩

theorem logMatch_lt {H : Heap} (W : H.OK) {a x : Nat} {b : Bool} (h : logMatch H a = some (x, b)) : x < a := by
  unfold logMatch at h
  split at h
  · rename_i hop
    have h0 := W a 0 (by rw [hop]; simp [Op.arity])
    have h1 := W a 1 (by rw [hop]; simp [Op.arity])
    split at h
    · simp only [Option.some.injEq, Prod.mk.injEq] at h; omega
    · split at h
      · simp only [Option.some.injEq, Prod.mk.injEq] at h; omega
      · cases h
  · rename_i hop
    have h1 := W a 1 (by rw [hop]; simp [Op.arity])
    split at h
    · simp only [Option.some.injEq, Prod.mk.injEq] at h; omega
    · cases h
  · cases h

theorem logMatch_val (cls : ι → Nat) {H : Heap} (W : H.OK) (ρ : Nat → ι → ℝ) {a x : Nat} {b : Bool}
    (h : logMatch H a = some (x, b)) (i : ι) :
    val cls H ρ a i = 1 + (if b then -(val cls H ρ x i) else val cls H ρ x i) := by
  unfold logMatch at h
  split at h
  · rename_i hop
    rw [val_bin cls W ρ hop i]
    split at h
    · rename_i h1
      simp only [Option.some.injEq, Prod.mk.injEq] at h
      obtain ⟨rfl, rfl⟩ := h
      rw [val_one cls W ρ h1 i]; simp [BOp.fn]
    · split at h
      · rename_i h1
        simp only [Option.some.injEq, Prod.mk.injEq] at h
        obtain ⟨rfl, rfl⟩ := h
        rw [val_one cls W ρ h1 i]; simp [BOp.fn, add_comm]
      · cases h
  · rename_i hop
    rw [val_bin cls W ρ hop i]
    split at h
    · rename_i h1
      simp only [Option.some.injEq, Prod.mk.injEq] at h
      obtain ⟨rfl, rfl⟩ := h
      rw [val_one cls W ρ h1 i]; simp [BOp.fn, sub_eq_add_neg]
    · cases h
  · cases h

theorem logMatch_not_sigmoid {H : Heap} {a : Nat} {r : Nat × Bool} (h : logMatch H a = some r) :
    H.op a ≠ .un .sigmoid := by
  intro e; unfold logMatch at h; rw [e] at h; cases h

/-- `Log` of a plain operand adds nodes only and gives the logarithm. -/
theorem mkLogF_plain (cls : ι → Nat) (ρ : Nat → ι → ℝ) (H : Heap) (P : Nat → Prop) (n₀ : Nat) (C : Ctx H P n₀)
    (f a : Nat) (ha : a < H.length) (hp : P a) (h : Plain H a) :
    Spec cls ρ H P n₀ (mkLogF f H a) (fun i => Real.log (val cls H ρ a i)) := by
  have hraw := raw_un cls ρ H P n₀ C .ln a ha hp
  cases f with
  | zero => exact hraw
  | succ f =>
    unfold mkLogF
    by_cases hs : H.op a = .un .sigmoid
    · rw [if_pos hs]
      have hk := kid_lt C.ok hs
      have A := mkNeg_spec cls ρ H P n₀ C (H.kid a 0) (by omega) (C.closed a hp 0 (by rw [hs]; simp [Op.arity]))
      have B := raw_un cls ρ _ P n₀ A.ctx .softplus _ A.lt A.p
      refine (A.trans B).trans ((mkNeg_spec cls ρ _ P n₀ B.ctx _ B.lt B.p).congr ?_)
      funext i
      rw [B.val, A.val, val_un cls C.ok ρ hs i]
      simp only [UOp.fn, one_div, Real.log_inv]
    · rw [if_neg hs]
      rcases h with h | ⟨h1, h2, h3⟩
      · exact absurd h hs
      rw [h1]
      simp only [h2, Bool.false_eq_true, if_false]
      by_cases hm : H.op a = .bin .mul
      · obtain ⟨h4, h5⟩ := h3 hm
        simp only [hm, h4, h5, if_true, Bool.false_eq_true, false_and, if_false]
        exact hraw
      · rw [if_neg hm]
        exact hraw

theorem op_setLog_ne {H : Heap} {p j : Nat} (h : j ≠ p) : (setLog H p).cell j = H.cell j := by
  unfold setLog
  split
  · exact cell_set_ne H p j _ h
  · rfl

theorem setLog_length (H : Heap) (p : Nat) : (setLog H p).length = H.length := by
  unfold setLog; split <;> simp

theorem kid_setLog (H : Heap) (p j k : Nat) : (setLog H p).kid j k = H.kid j k := by
  by_cases e : j = p
  · subst e
    unfold setLog
    split
    · by_cases hl : j < H.length
      · unfold Heap.kid; rw [cell_set_self H j _ hl]
      · rw [List.set_eq_of_length_le (by omega)]
    · rfl
  · unfold Heap.kid; rw [op_setLog_ne e]

theorem isSoftmax_setLog (H : Heap) (p j : Nat) : isSoftmax (setLog H p) j = isSoftmax H j := by
  by_cases e : j = p
  · subst e
    unfold setLog
    split
    · rename_i h
      by_cases hl : j < H.length
      · unfold isSoftmax Heap.op at *; rw [cell_set_self H j _ hl, h]
      · rw [List.set_eq_of_length_le (by omega)]
    · rfl
  · unfold isSoftmax Heap.op; rw [op_setLog_ne e]

theorem arity_setLog (H : Heap) (p j : Nat) : ((setLog H p).op j).arity = (H.op j).arity := by
  by_cases e : j = p
  · subst e
    unfold setLog
    split
    · rename_i h
      by_cases hl : j < H.length
      · unfold Heap.op at *; rw [cell_set_self H j _ hl, h]; rfl
      · rw [List.set_eq_of_length_le (by omega)]
    · rfl
  · unfold Heap.op; rw [op_setLog_ne e]

theorem op_setLog_other (H : Heap) (p j : Nat) (o : Op) (ho : ∀ l, o ≠ .softmax l) :
    ((setLog H p).op j = o ↔ H.op j = o) := by
  by_cases e : j = p
  · subst e
    unfold setLog
    split
    · rename_i l h
      by_cases hl : j < H.length
      · unfold Heap.op at *; rw [cell_set_self H j _ hl, h]
        exact ⟨fun h => absurd h.symm (ho _), fun h => absurd h.symm (ho _)⟩
      · rw [List.set_eq_of_length_le (by omega)]
    · exact Iff.rfl
  · unfold Heap.op; rw [op_setLog_ne e]

theorem ok_setLog {H : Heap} (W : H.OK) (p : Nat) : (setLog H p).OK := by
  intro a k hk
  rw [arity_setLog] at hk
  rw [kid_setLog]
  exact W a k hk

theorem logMatch_setLog (H : Heap) (p a : Nat) : logMatch (setLog H p) a = logMatch H a := by
  have e1 := fun j => op_setLog_other H p j .one (by intro l h; cases h)
  have e2 := op_setLog_other H p a (.bin .add) (by intro l h; cases h)
  have e3 := op_setLog_other H p a (.bin .sub) (by intro l h; cases h)
  by_cases h2 : H.op a = .bin .add
  · unfold logMatch
    simp only [e2.2 h2, h2, kid_setLog, e1]
  by_cases h3 : H.op a = .bin .sub
  · unfold logMatch
    simp only [e3.2 h3, h3, kid_setLog, e1]
  have n : ∀ G : Heap, G.op a ≠ .bin .add → G.op a ≠ .bin .sub → logMatch G a = none := by
    intro G g1 g2
    unfold logMatch
    split
    · exact absurd ‹_› g1
    · exact absurd ‹_› g2
    · rfl
  rw [n _ h2 h3, n _ (fun h => h2 (e2.1 h)) (fun h => h3 (e3.1 h))]

theorem plain_setLog {H : Heap} {p a : Nat} (h : Plain H a) : Plain (setLog H p) a := by
  rcases h with h | ⟨h1, h2, h3⟩
  · exact Or.inl ((op_setLog_other H p a _ (by intro l h; cases h)).2 h)
  · refine Or.inr ⟨by rw [logMatch_setLog, h1], by rw [isSoftmax_setLog, h2], fun hm => ?_⟩
    rw [kid_setLog, kid_setLog, isSoftmax_setLog, isSoftmax_setLog]
    exact h3 ((op_setLog_other H p a _ (by intro l h; cases h)).1 hm)

/-- A node not computed from `p` keeps its value when the op of `p` is flagged. -/
theorem val_setLog_other (cls : ι → Nat) (ρ : Nat → ι → ℝ) (H : Heap) (W : H.OK) (p j : Nat) (h : ¬ Uses H j p) :
    val cls (setLog H p) ρ j = val cls H ρ j := by
  unfold setLog
  split
  · exact val_set cls ρ H W (fun j => ¬ Uses H j p) (fun j hj k hk hu => hj (.step hk hu)) p (fun h => h (.refl p)) _ j h
  · rfl

/-- **C19**, unary operations. Wherever the operation asked for is defined, the node that is returned has the value of that
operation applied to the operand's value — `Log` of a product with a softmax factor only for the products described by
`GoodProduct`. (The rewritten `Log` of a softmax and of `1 ± x` are included: the value of the *result* is right. What becomes
of the operand is the subject of C20.) -/
theorem unary_rewrite_partial (cls : ι → Nat) (ρ : Nat → ι → ℝ) (u : UOp) (H : Heap) (W : H.OK) (a : Nat) (ha : a < H.length)
    (hs : u = .ln → Safe H a) (i : ι) (hd : u.dom (val cls H ρ a i)) :
    val cls (mkUn u H a).1 ρ (mkUn u H a).2 i = u.fn (val cls H ρ a i) := by
  have C := ctx_all H W
  have key : u ≠ .ln → val cls (mkUn u H a).1 ρ (mkUn u H a).2 i = u.fn (val cls H ρ a i) := by
    intro hu
    unfold mkUn
    split
    · exact absurd rfl hu
    · rw [(mkLog1p_spec cls ρ H _ _ C a ha trivial).val]; rfl
    · rw [(mkNeg_spec cls ρ H _ _ C a ha trivial).val]; rfl
    · rw [(raw_un cls ρ H _ _ C u a ha trivial).val]
  by_cases hu : u = .ln
  swap
  · exact key hu
  subst hu
  have hd' : 0 < val cls H ρ a i := hd
  show val cls (mkLog H a).1 ρ (mkLog H a).2 i = Real.log (val cls H ρ a i)
  unfold mkLog
  rcases hs rfl with h | h | h | h
  · rw [(mkLogF_plain cls ρ H _ _ C (a + 1) a ha trivial h).val]
  · obtain ⟨⟨x, b⟩, hm⟩ := Option.isSome_iff_exists.1 h
    have hx := logMatch_lt W hm
    have hv := logMatch_val cls W ρ hm i
    have hns := logMatch_not_sigmoid hm
    have CP : Ctx H (fun j => j < a ∨ H.length ≤ j) H.length := by
      refine ⟨W, Nat.le_refl _, fun j hj => Or.inr hj, ?_⟩
      rintro j (hj | hj) k hk
      · have := W j k hk; exact Or.inl (by omega)
      · rw [op_out H j hj] at hk; simp [Op.arity] at hk
    have fin : ∀ (r : Heap × Nat) (v : ι → ℝ), Spec cls ρ H (fun j => j < a ∨ H.length ≤ j) H.length r v →
        val cls (release r.1 a) ρ r.2 = v := by
      intro r v S
      unfold release
      rw [val_set cls ρ r.1 S.ctx.ok _ S.ctx.closed a (by omega) _ _ S.p, S.val]
    unfold mkLogF
    rw [if_neg hns, hm]
    cases b
    · simp only
      rw [fin _ _ (mkLog1p_spec cls ρ H _ _ CP x (by omega) (Or.inl hx)), hv]
      simp
    · have A := mkNeg_spec cls ρ H _ _ CP x (by omega) (Or.inl hx)
      simp only
      rw [fin _ _ (A.trans (mkLog1p_spec cls ρ _ _ _ A.ctx _ A.lt A.p)), hv, A.val]
      simp
  · have hnm : logMatch H a = none := by
      obtain ⟨l, hl⟩ := isSoftmax_iff.1 h
      unfold logMatch; rw [hl]
    have hns : H.op a ≠ .un .sigmoid := by
      obtain ⟨l, hl⟩ := isSoftmax_iff.1 h
      rw [hl]; intro e; cases e
    unfold mkLogF
    rw [if_neg hns, hnm]
    simp only [h, if_true]
    obtain ⟨l, hl⟩ := isSoftmax_iff.1 h
    cases l
    · exact (val_setLog cls ρ H W a ha hl i).2
    · exfalso
      rw [val_eq cls H W ρ a, hl] at hd'
      simp only at hd'
      rw [softmax_log] at hd'
      have := Real.log_nonpos (softmax_pos cls (val cls H ρ (H.kid a 0)) i).le
        (softmax_le_one cls (val cls H ρ (H.kid a 0)) i)
      linarith
  · obtain ⟨hm, hcases⟩ := h
    have hp : H.kid a 0 < a := W a 0 (by rw [hm]; simp [Op.arity])
    have hq : H.kid a 1 < a := W a 1 (by rw [hm]; simp [Op.arity])
    have hnm : logMatch H a = none := by unfold logMatch; rw [hm]
    have hns : H.op a ≠ .un .sigmoid := by rw [hm]; intro e; cases e
    have hnsm : isSoftmax H a = false := by unfold isSoftmax; rw [hm]
    have hva := val_bin cls W ρ hm i
    simp only [BOp.fn] at hva
    rw [hva] at hd' ⊢
    generalize hP : H.kid a 0 = p at *
    generalize hQ : H.kid a 1 = q at *
    have hv0 : val cls H ρ p i ≠ 0 := fun e => by rw [e] at hd'; simp at hd'
    have hv1 : val cls H ρ q i ≠ 0 := fun e => by rw [e] at hd'; simp at hd'
    rw [Real.log_mul hv0 hv1]
    unfold mkLogF
    rw [if_neg hns, hnm]
    simp only [hnsm, hm, hP, hQ, Bool.false_eq_true, if_false, if_true]
    rcases hcases with ⟨h1, h2, h3, h4⟩ | ⟨h1, h2, h3, h4⟩ | ⟨h1, h2, h3⟩
    · have hsm : isSoftmax H p = true := isSoftmax_iff.2 ⟨_, h1⟩
      simp only [hsm, h2, Bool.false_eq_true, and_false, if_false, if_true]
      have W1 := ok_setLog W p
      have C1 := ctx_all _ W1
      have A := mkLogF_plain cls ρ (setLog H p) _ _ C1 a q (by rw [setLog_length]; omega) trivial (plain_setLog h3)
      obtain ⟨l, hl⟩ := A.ext
      have hplen : p < (setLog H p).length := by rw [setLog_length]; omega
      have B := raw_bin cls ρ _ _ _ A.ctx .add p (mkLogF a (setLog H p) q).2
        (by rw [hl, List.length_append]; omega) trivial A.lt trivial
      rw [B.val]
      simp only [BOp.fn]
      rw [A.val, hl, val_append cls _ _ W1 ρ p hplen, val_setLog_other cls ρ H W p q h4,
        (val_setLog cls ρ H W p (by omega) h1 i).2]
    · have hsm : isSoftmax H q = true := isSoftmax_iff.2 ⟨_, h1⟩
      simp only [hsm, h2, Bool.false_eq_true, false_and, if_false, if_true]
      have W1 := ok_setLog W q
      have C1 := ctx_all _ W1
      have A := mkLogF_plain cls ρ (setLog H q) _ _ C1 a p (by rw [setLog_length]; omega) trivial (plain_setLog h3)
      obtain ⟨l, hl⟩ := A.ext
      have hplen : q < (setLog H q).length := by rw [setLog_length]; omega
      have B := raw_bin cls ρ _ _ _ A.ctx .add (mkLogF a (setLog H q) p).2 q A.lt trivial
        (by rw [hl, List.length_append]; omega) trivial
      rw [B.val]
      simp only [BOp.fn]
      rw [A.val, hl, val_append cls _ _ W1 ρ q hplen, val_setLog_other cls ρ H W q p h4,
        (val_setLog cls ρ H W q (by omega) h1 i).2]
    · have hs0 : isSoftmax H p = true := isSoftmax_iff.2 ⟨_, h1⟩
      have hs1 : isSoftmax H q = true := isSoftmax_iff.2 ⟨_, h2⟩
      simp only [hs0, hs1, and_self, if_true]
      have W1 := ok_setLog W p
      have W2 := ok_setLog W1 q
      have B := raw_bin cls ρ (setLog (setLog H p) q) _ _ (ctx_all _ W2) .add p q
        (by rw [setLog_length, setLog_length]; omega) trivial (by rw [setLog_length, setLog_length]; omega) trivial
      rw [B.val]
      simp only [BOp.fn]
      have hpl : p < H.length := by omega
      have hop1 : (setLog H p).op p = .softmax true := by
        rw [setLog_eq h1]; simp only [Heap.op]; rw [cell_set_self H p _ hpl]
      rcases h3 with h3 | ⟨h3, h4⟩
      · subst h3
        have hid : setLog (setLog H p) p = setLog H p := by
          rw [setLog_eq hop1]
          have : { (setLog H p).cell p with op := .softmax true } = (setLog H p).cell p := by
            have : (setLog H p).cell p = ⟨.softmax true, (H.cell p).kids, (H.cell p).inGraph⟩ := by
              rw [setLog_eq h1, cell_set_self H p _ hpl]
            rw [this]
          rw [this]
          refine List.ext_getElem? fun j => ?_
          by_cases e : j = p
          · subst e
            have hl : j < (setLog H j).length := by rw [setLog_length]; exact hpl
            simp [Heap.cell, hl]
          · rw [List.getElem?_set_ne (Ne.symm e)]
        rw [hid, (val_setLog cls ρ H W p hpl h1 i).2]
      · have hne : q ≠ p := fun e => h3 (e ▸ .refl _)
        have hop2 : (setLog H p).op q = .softmax false := by
          unfold Heap.op; rw [op_setLog_ne hne]; exact h2
        have huse : ∀ j x, Uses (setLog H p) j x → Uses H j x := by
          intro j x hu
          induction hu with
          | refl => exact .refl _
          | step hk _ ih =>
            rw [arity_setLog] at hk
            rw [kid_setLog] at ih
            exact .step hk ih
        rw [val_setLog_other cls ρ _ W1 q p (fun hu => h4 (huse _ _ hu)), (val_setLog cls ρ H W p hpl h1 i).2,
          (val_setLog cls ρ _ W1 q (by rw [setLog_length]; omega) hop2 i).2, val_setLog_other cls ρ H W p q h3]

/-- **C19**, binary operations: no restriction. -/
theorem binary_rewrite (cls : ι → Nat) (ρ : Nat → ι → ℝ) (b : BOp) (H : Heap) (W : H.OK) (x y : Nat) (hx : x < H.length)
    (hy : y < H.length) (i : ι) :
    val cls (mkBin b H x y).1 ρ (mkBin b H x y).2 i = b.fn (val cls H ρ x i) (val cls H ρ y i) := by
  have C := ctx_all H W
  unfold mkBin
  split
  · rw [(mkSub_spec cls ρ H _ _ C x y hx trivial hy trivial).val]; rfl
  · rw [(raw_bin cls ρ H _ _ C b x y hx trivial hy trivial).val]

/-- The hypothesis covers products: `y * softmax(x)` with `y` an input. -/
example : Safe [⟨.leaf, [], true⟩, ⟨.softmax false, [0], true⟩, ⟨.leaf, [], true⟩, ⟨.bin .mul, [2, 1], true⟩] 3 := by
  refine Or.inr (Or.inr (Or.inr ⟨by decide, Or.inr (Or.inl ⟨by decide, by decide, Or.inr ⟨by decide, by decide, ?_⟩, ?_⟩)⟩))
  · intro h; exact absurd h (by decide)
  · intro h
    cases h with
    | step hk _ => exact absurd hk (by simp [Heap.op, Heap.kid, Heap.cell, Op.arity])

/-! ### Where the rewrite of products is wrong -/

/-- `sm = softmax(x)`, `e = exp(sm)`, `sm * e`. -/
def dependent : Heap := [⟨.leaf, [], true⟩, ⟨.softmax false, [0], true⟩, ⟨.un .exp, [1], true⟩, ⟨.bin .mul, [1, 2], true⟩]

theorem dependent_ok : dependent.OK := by
  intro a k hk
  match a with
  | 0 | 1 | 2 => revert k; simp [dependent, Heap.op, Heap.kid, Heap.cell, Op.arity]
  | 3 => match k with
    | 0 | 1 => decide
    | k + 2 => simp [dependent, Heap.op, Heap.cell, Op.arity] at hk
  | n + 4 => simp [dependent, Heap.op, Heap.cell, Op.arity] at hk

/-- **C19 fails** for `log(sm * exp(sm))`: flagging the softmax as logarithmic changes the other factor too. With a single
element the softmax is 1 and the logarithm of the product is 1; the result has the value 0. -/
theorem product_rewrite_wrong : ∃ (H : Heap) (a : Nat) (ρ : Nat → Unit → ℝ), H.OK ∧ a < H.length ∧
    0 < val (fun _ => 0) H ρ a () ∧ Real.log (val (fun _ => 0) H ρ a ()) = 1 ∧
    val (fun _ => 0) (mkUn .ln H a).1 ρ (mkUn .ln H a).2 () = 0 := by
  refine ⟨dependent, 3, fun _ _ => 0, dependent_ok, by decide, ?_, ?_, ?_⟩
  · simp [val, valF, dependent, Heap.op, Heap.kid, Heap.cell, softmaxV, expSum, BOp.fn, UOp.fn, Real.exp_pos]
  · simp [val, valF, dependent, Heap.op, Heap.kid, Heap.cell, softmaxV, expSum, BOp.fn, UOp.fn]
  · simp [mkUn, mkLog, mkLogF, logMatch, isSoftmax, setLog, raw, val, valF, dependent, Heap.op, Heap.kid, Heap.cell,
      softmaxV, expSum, BOp.fn, UOp.fn]

/-- `LogSoftMax(y)` and `x * LogSoftMax(y)`. -/
def logsmProduct : Heap := [⟨.leaf, [], true⟩, ⟨.leaf, [], true⟩, ⟨.softmax true, [1], true⟩, ⟨.bin .mul, [0, 2], true⟩]

/-- **C19 fails** for `log(x * LogSoftMax(y))`: the rewrite does not look at the flag. With `x = -1` and two equal elements
the product is `log 2 > 0`, but the result takes the logarithm of `-1` and adds a log-softmax. -/
theorem logsoftmax_product_wrong : ∃ (H : Heap) (a : Nat) (ρ : Nat → Bool → ℝ), H.OK ∧ a < H.length ∧
    (∀ i, 0 < val (fun _ => 0) H ρ a i) ∧
    ∃ n, (mkUn .ln H a).1.op (mkUn .ln H a).2 = .bin .add ∧
      (mkUn .ln H a).1.kid (mkUn .ln H a).2 0 = n ∧ (mkUn .ln H a).1.op n = .un .ln ∧
      ∀ i, val (fun _ => 0) (mkUn .ln H a).1 ρ ((mkUn .ln H a).1.kid n 0) i = -1 := by
  refine ⟨logsmProduct, 3, fun a _ => if a = 0 then -1 else 0, ?_, by decide, ?_, 4, ?_, ?_, ?_, ?_⟩
  · intro a k hk
    match a with
    | 0 | 1 | 2 => revert k; simp [logsmProduct, Heap.op, Heap.kid, Heap.cell, Op.arity]
    | 3 => match k with
      | 0 | 1 => decide
      | k + 2 => simp [logsmProduct, Heap.op, Heap.cell, Op.arity] at hk
    | n + 4 => simp [logsmProduct, Heap.op, Heap.cell, Op.arity] at hk
  · intro i
    have : (0 : ℝ) < Real.log 2 := Real.log_pos (by norm_num)
    simp [val, valF, logsmProduct, Heap.op, Heap.kid, Heap.cell, softmaxV, expSum, BOp.fn]
    norm_num
    exact this
  · decide
  · decide
  · decide
  · intro i
    simp [mkUn, mkLog, mkLogF, logMatch, isSoftmax, setLog, raw, val, valF, logsmProduct, Heap.op, Heap.kid, Heap.cell]

/-! ### Nodes the caller holds -/

/-- **C20**, the builders that are right: every existing node keeps its op, operands, membership and value. -/
theorem held_nodes_kept_partial (cls : ι → Nat) (ρ : Nat → ι → ℝ) (H : Heap) (W : H.OK) :
    (∀ (u : UOp) (a : Nat), a < H.length → (u = .ln → Plain H a) → ∀ j, j < H.length →
      (mkUn u H a).1.cell j = H.cell j ∧ val cls (mkUn u H a).1 ρ j = val cls H ρ j) ∧
    (∀ (b : BOp) (x y : Nat), x < H.length → y < H.length → ∀ j, j < H.length →
      (mkBin b H x y).1.cell j = H.cell j ∧ val cls (mkBin b H x y).1 ρ j = val cls H ρ j) := by
  have C := ctx_all H W
  have fin : ∀ r : Heap × Nat, (∃ l, r.1 = H ++ l) → ∀ j, j < H.length →
      r.1.cell j = H.cell j ∧ val cls r.1 ρ j = val cls H ρ j := by
    rintro r ⟨l, hl⟩ j hj
    rw [hl]
    exact ⟨cell_append H l j hj, val_append cls H l W ρ j hj⟩
  constructor
  · intro u a ha hpl
    refine fin _ ?_
    unfold mkUn
    split
    · exact (mkLogF_plain cls ρ H _ _ C (a + 1) a ha trivial (hpl rfl)).ext
    · exact (mkLog1p_spec cls ρ H _ _ C a ha trivial).ext
    · exact (mkNeg_spec cls ρ H _ _ C a ha trivial).ext
    · exact (raw_un cls ρ H _ _ C u a ha trivial).ext
  · intro b x y hx hy
    refine fin _ ?_
    unfold mkBin
    split
    · exact (mkSub_spec cls ρ H _ _ C x y hx trivial hy trivial).ext
    · exact (raw_bin cls ρ H _ _ C b x y hx trivial hy trivial).ext

/-- **C20 fails** for every `Log(1 + x)`, `Log(x + 1)` and `Log(1 - x)`: the node `1 ± x`, which the caller holds and other
nodes may use, leaves the graph and loses its op and operands. -/
theorem log_releases_operand (H : Heap) (a : Nat) (ha : a < H.length) (hm : (logMatch H a).isSome) :
    (mkUn .ln H a).1.cell a = ⟨.leaf, [], false⟩ := by
  obtain ⟨⟨x, b⟩, hm⟩ := Option.isSome_iff_exists.1 hm
  have hns := logMatch_not_sigmoid hm
  have hrel : ∀ G : Heap, H.length ≤ G.length → (release G a).cell a = ⟨.leaf, [], false⟩ := by
    intro G hG
    unfold release
    exact cell_set_self G a _ (by omega)
  have hneg : ∀ (G : Heap) (y : Nat), G.length ≤ (mkNeg G y).1.length := by
    intro G y; unfold mkNeg; split <;> simp [raw]
  have h1p : ∀ (G : Heap) (y : Nat), G.length ≤ (mkLog1p G y).1.length := by
    intro G y; unfold mkLog1p; split
    · simp [raw]
    · split
      · refine Nat.le_trans ?_ (hneg _ _); simp [raw]
      · simp [raw]
  show (mkLogF (a + 1) H a).1.cell a = _
  unfold mkLogF
  rw [if_neg hns, hm]
  cases b
  · exact hrel _ (h1p _ _)
  · exact hrel _ (Nat.le_trans (hneg _ _) (h1p _ _))

/-- **C20 fails** for every `Log(softmax(x))`: the softmax node the caller holds becomes its own logarithm. -/
theorem log_changes_softmax (cls : ι → Nat) (ρ : Nat → ι → ℝ) (H : Heap) (W : H.OK) (a : Nat) (ha : a < H.length)
    (h : H.op a = .softmax false) (i : ι) :
    (mkUn .ln H a).2 = a ∧ (mkUn .ln H a).1.op a = .softmax true ∧
    val cls (mkUn .ln H a).1 ρ a i = Real.log (val cls H ρ a i) ∧ val cls (mkUn .ln H a).1 ρ a i ≠ val cls H ρ a i := by
  have hnm : logMatch H a = none := by unfold logMatch; rw [h]
  have hns : H.op a ≠ .un .sigmoid := by rw [h]; intro e; cases e
  have hsm : isSoftmax H a = true := isSoftmax_iff.2 ⟨_, h⟩
  have e : mkUn .ln H a = (setLog H a, a) := by
    show mkLogF (a + 1) H a = _
    unfold mkLogF
    rw [if_neg hns, hnm]
    simp only [hsm, if_true]
  have hv := (val_setLog cls ρ H W a ha h i).2
  rw [e]
  refine ⟨rfl, ?_, hv, ?_⟩
  · show (setLog H a).op a = _
    rw [setLog_eq h]; simp only [Heap.op]; rw [cell_set_self H a _ ha]
  · show val cls (setLog H a) ρ a i ≠ _
    rw [hv]
    have h0 : 0 < val cls H ρ a i := by
      rw [val_eq cls H W ρ a, h]; exact softmax_pos cls _ i
    have := Real.log_le_sub_one_of_pos h0
    linarith

/-- `1 + x` and `tanh(1 + x)`: after `Log(1 + x)` the second node has lost its operand's op. -/
def shared : Heap := [⟨.leaf, [], true⟩, ⟨.one, [], true⟩, ⟨.bin .add, [1, 0], true⟩, ⟨.un .tanh, [2], true⟩]

example : (mkUn .ln shared 2).1 =
    [⟨.leaf, [], true⟩, ⟨.one, [], true⟩, ⟨.leaf, [], false⟩, ⟨.un .tanh, [2], true⟩, ⟨.un .log1p, [0], true⟩] ∧
    (mkUn .ln shared 2).2 = 4 := by decide

/-- `log(1 - sigmoid(x))` becomes `-softplus(x)`… -/
def oneMinusSig : Heap := [⟨.leaf, [], true⟩, ⟨.one, [], true⟩, ⟨.un .sigmoid, [0], true⟩]

/-- …in two steps: `1 - sigmoid(x)` is already `sigmoid(-x)`, and its logarithm is `-softplus(-(-x)) = -softplus(x)`. -/
example : (mkBin .sub oneMinusSig 1 2).1 = oneMinusSig ++ [⟨.un .neg, [0], true⟩, ⟨.un .sigmoid, [3], true⟩] ∧
    (mkUn .ln (mkBin .sub oneMinusSig 1 2).1 4).1 =
      oneMinusSig ++ [⟨.un .neg, [0], true⟩, ⟨.un .sigmoid, [3], true⟩, ⟨.un .softplus, [0], true⟩, ⟨.un .neg, [5], true⟩] := by
  decide

end Verif.Stab
