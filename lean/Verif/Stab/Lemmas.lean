import Verif.Stab.Model
/-!
Values of heap nodes and how the builders change the heap.
-/
set_option autoImplicit false
namespace Verif.Stab

open Verif.AD (UOp BOp)

variable {ι : Type} [Fintype ι]

theorem valF_enough (cls : ι → Nat) (H : Heap) (W : H.OK) (ρ : Nat → ι → ℝ) (f f' a : Nat) (h : a < f) (h' : a < f') :
    valF cls H ρ f a = valF cls H ρ f' a := by
  induction f generalizing f' a with
  | zero => omega
  | succ f ih =>
    cases f' with
    | zero => omega
    | succ f' =>
      have hk := W a
      simp only [valF]
      cases hop : H.op a with
      | leaf => rfl
      | one => rfl
      | un u =>
        have := hk 0 (by rw [hop]; simp [Op.arity])
        simp only; rw [ih f' _ (by omega) (by omega)]
      | bin b =>
        have h0 := hk 0 (by rw [hop]; simp [Op.arity])
        have h1 := hk 1 (by rw [hop]; simp [Op.arity])
        simp only; rw [ih f' _ (by omega) (by omega), ih f' (H.kid a 1) (by omega) (by omega)]
      | softmax l =>
        have := hk 0 (by rw [hop]; simp [Op.arity])
        simp only; rw [ih f' _ (by omega) (by omega)]

/-- The value of a node in terms of the values of its operands. -/
theorem val_eq (cls : ι → Nat) (H : Heap) (W : H.OK) (ρ : Nat → ι → ℝ) (a : Nat) : val cls H ρ a =
    match H.op a with
    | .leaf => ρ a
    | .one => fun _ => 1
    | .un u => fun i => u.fn (val cls H ρ (H.kid a 0) i)
    | .bin b => fun i => b.fn (val cls H ρ (H.kid a 0) i) (val cls H ρ (H.kid a 1) i)
    | .softmax l => softmaxV cls l (val cls H ρ (H.kid a 0)) := by
  have hk := W a
  conv_lhs => unfold val
  simp only [valF]
  cases hop : H.op a with
  | leaf => rfl
  | one => rfl
  | un u =>
    have := hk 0 (by rw [hop]; simp [Op.arity])
    simp only [val]; rw [valF_enough cls H W ρ a (H.kid a 0 + 1) _ (by omega) (by omega)]
  | bin b =>
    have h0 := hk 0 (by rw [hop]; simp [Op.arity])
    have h1 := hk 1 (by rw [hop]; simp [Op.arity])
    simp only [val]
    rw [valF_enough cls H W ρ a (H.kid a 0 + 1) _ (by omega) (by omega),
      valF_enough cls H W ρ a (H.kid a 1 + 1) _ (by omega) (by omega)]
  | softmax l =>
    have := hk 0 (by rw [hop]; simp [Op.arity])
    simp only [val]; rw [valF_enough cls H W ρ a (H.kid a 0 + 1) _ (by omega) (by omega)]

/-- Two heaps that agree on a set closed under operands give its nodes the same values. -/
theorem val_congr (cls : ι → Nat) (H H' : Heap) (W : H.OK) (ρ : Nat → ι → ℝ) (P : Nat → Prop)
    (hP : ∀ j, P j → (H'.op j = H.op j) ∧ ∀ k, k < (H.op j).arity → H'.kid j k = H.kid j k ∧ P (H.kid j k))
    (a : Nat) (ha : P a) : val cls H' ρ a = val cls H ρ a := by
  have key : ∀ f a, P a → valF cls H' ρ f a = valF cls H ρ f a := by
    intro f
    induction f with
    | zero => intro a _; rfl
    | succ f ih =>
      intro a ha
      obtain ⟨h1, h2⟩ := hP a ha
      simp only [valF]
      rw [h1]
      cases hop : H.op a with
      | leaf => rfl
      | one => rfl
      | un u =>
        have := h2 0 (by rw [hop]; simp [Op.arity])
        simp only; rw [this.1, ih _ this.2]
      | bin b =>
        have h0 := h2 0 (by rw [hop]; simp [Op.arity])
        have h1 := h2 1 (by rw [hop]; simp [Op.arity])
        simp only; rw [h0.1, h1.1, ih _ h0.2, ih _ h1.2]
      | softmax l =>
        have := h2 0 (by rw [hop]; simp [Op.arity])
        simp only; rw [this.1, ih _ this.2]
  exact key _ a ha

theorem cell_append (H l : Heap) (j : Nat) (hj : j < H.length) : (H ++ l).cell j = H.cell j := by
  simp [Heap.cell, List.getElem?_append_left hj]

theorem op_append (H l : Heap) (j : Nat) (hj : j < H.length) : (H ++ l).op j = H.op j := by
  unfold Heap.op; rw [cell_append H l j hj]

theorem kid_append (H l : Heap) (j k : Nat) (hj : j < H.length) : (H ++ l).kid j k = H.kid j k := by
  unfold Heap.kid; rw [cell_append H l j hj]

theorem op_out (H : Heap) (j : Nat) (hj : H.length ≤ j) : H.op j = .leaf := by
  simp [Heap.op, Heap.cell, List.getElem?_eq_none hj]

/-- Old nodes keep their value when nodes are added. -/
theorem val_append (cls : ι → Nat) (H l : Heap) (W : H.OK) (ρ : Nat → ι → ℝ) (a : Nat) (ha : a < H.length) :
    val cls (H ++ l) ρ a = val cls H ρ a := by
  refine val_congr cls H (H ++ l) W ρ (· < H.length) ?_ a ha
  intro j hj
  refine ⟨op_append H l j hj, fun k hk => ⟨kid_append H l j k hj, ?_⟩⟩
  have := W j k hk
  show _ < _
  omega

/-! ### Building nodes -/

/-- The heap is in order, and `P` is closed under operands and holds of all nodes from `n₀` on. -/
structure Ctx (H : Heap) (P : Nat → Prop) (n₀ : Nat) : Prop where
  ok : H.OK
  le : n₀ ≤ H.length
  new : ∀ j, n₀ ≤ j → P j
  closed : ∀ j, P j → ∀ k, k < (H.op j).arity → P (H.kid j k)

/-- The outcome of a builder: the old heap with nodes added, and a node with the value `v` from which only nodes with `P`
are reached. -/
structure Spec (cls : ι → Nat) (ρ : Nat → ι → ℝ) (H : Heap) (P : Nat → Prop) (n₀ : Nat) (r : Heap × Nat) (v : ι → ℝ) :
    Prop where
  ext : ∃ l, r.1 = H ++ l
  ctx : Ctx r.1 P n₀
  lt : r.2 < r.1.length
  p : P r.2
  val : val cls r.1 ρ r.2 = v

theorem raw_ctx (H : Heap) (P : Nat → Prop) (n₀ : Nat) (C : Ctx H P n₀) (op : Op) (kids : List Nat)
    (har : op.arity = kids.length) (hk : ∀ c ∈ kids, c < H.length ∧ P c) : Ctx (raw H op kids).1 P n₀ := by
  have hnew : (H ++ [(⟨op, kids, true⟩ : Cell)]).cell H.length = ⟨op, kids, true⟩ := by simp [Heap.cell]
  have hkid : ∀ k, k < op.arity → (H ++ [(⟨op, kids, true⟩ : Cell)]).kid H.length k ∈ kids := by
    intro k hk
    simp only [Heap.kid, hnew]
    rw [har] at hk
    simp [hk]
  have hop : (H ++ [(⟨op, kids, true⟩ : Cell)]).op H.length = op := by simp only [Heap.op, hnew]
  have hlen : (H ++ [(⟨op, kids, true⟩ : Cell)]).length = H.length + 1 := by simp
  constructor
  · intro a k hka
    simp only [raw] at hka ⊢
    rcases Nat.lt_trichotomy a H.length with h | h | h
    · rw [op_append _ _ _ h] at hka
      rw [kid_append _ _ _ _ h]
      exact C.ok a k hka
    · subst h
      rw [hop] at hka
      exact (hk _ (hkid k hka)).1
    · rw [op_out _ _ (by rw [hlen]; omega)] at hka; simp [Op.arity] at hka
  · simp only [raw, hlen]; have := C.le; omega
  · exact C.new
  · intro a hPa k hka
    simp only [raw] at hka ⊢
    rcases Nat.lt_trichotomy a H.length with h | h | h
    · rw [op_append _ _ _ h] at hka
      rw [kid_append _ _ _ _ h]
      exact C.closed a hPa k hka
    · subst h
      rw [hop] at hka
      exact (hk _ (hkid k hka)).2
    · rw [op_out _ _ (by rw [hlen]; omega)] at hka; simp [Op.arity] at hka

theorem raw_un (cls : ι → Nat) (ρ : Nat → ι → ℝ) (H : Heap) (P : Nat → Prop) (n₀ : Nat) (C : Ctx H P n₀) (u : UOp)
    (a : Nat) (ha : a < H.length) (hp : P a) :
    Spec cls ρ H P n₀ (raw H (.un u) [a]) (fun i => u.fn (Stab.val cls H ρ a i)) := by
  have C' := raw_ctx H P n₀ C (.un u) [a] rfl (by simpa using ⟨ha, hp⟩)
  refine ⟨⟨_, rfl⟩, C', by simp [raw], C.new _ C.le, ?_⟩
  rw [val_eq cls _ C'.ok]
  have hop : (raw H (.un u) [a]).1.op (raw H (.un u) [a]).2 = .un u := by simp [raw, Heap.op, Heap.cell]
  have hkid : (raw H (.un u) [a]).1.kid (raw H (.un u) [a]).2 0 = a := by simp [raw, Heap.kid, Heap.cell]
  rw [hop]
  simp only [hkid]
  funext i
  rw [show (raw H (.un u) [a]).1 = H ++ [⟨.un u, [a], true⟩] from rfl, val_append cls _ _ C.ok ρ a ha]

theorem raw_bin (cls : ι → Nat) (ρ : Nat → ι → ℝ) (H : Heap) (P : Nat → Prop) (n₀ : Nat) (C : Ctx H P n₀) (b : BOp)
    (x y : Nat) (hx : x < H.length) (hpx : P x) (hy : y < H.length) (hpy : P y) :
    Spec cls ρ H P n₀ (raw H (.bin b) [x, y]) (fun i => b.fn (Stab.val cls H ρ x i) (Stab.val cls H ρ y i)) := by
  have C' := raw_ctx H P n₀ C (.bin b) [x, y] rfl (by
    intro c hc
    simp only [List.mem_cons, List.not_mem_nil, or_false] at hc
    rcases hc with rfl | rfl
    · exact ⟨hx, hpx⟩
    · exact ⟨hy, hpy⟩)
  refine ⟨⟨_, rfl⟩, C', by simp [raw], C.new _ C.le, ?_⟩
  rw [val_eq cls _ C'.ok]
  have hop : (raw H (.bin b) [x, y]).1.op (raw H (.bin b) [x, y]).2 = .bin b := by simp [raw, Heap.op, Heap.cell]
  have hk0 : (raw H (.bin b) [x, y]).1.kid (raw H (.bin b) [x, y]).2 0 = x := by simp [raw, Heap.kid, Heap.cell]
  have hk1 : (raw H (.bin b) [x, y]).1.kid (raw H (.bin b) [x, y]).2 1 = y := by simp [raw, Heap.kid, Heap.cell]
  rw [hop]
  simp only [hk0, hk1]
  funext i
  rw [show (raw H (.bin b) [x, y]).1 = H ++ [⟨.bin b, [x, y], true⟩] from rfl, val_append cls _ _ C.ok ρ x hx,
    val_append cls _ _ C.ok ρ y hy]

theorem Spec.trans {cls : ι → Nat} {ρ : Nat → ι → ℝ} {H : Heap} {P : Nat → Prop} {n₀ : Nat} {r s : Heap × Nat}
    {v w : ι → ℝ} (A : Spec cls ρ H P n₀ r v) (B : Spec cls ρ r.1 P n₀ s w) : Spec cls ρ H P n₀ s w := by
  obtain ⟨l, hl⟩ := A.ext
  obtain ⟨l', hl'⟩ := B.ext
  exact ⟨⟨l ++ l', by rw [hl', hl, List.append_assoc]⟩, B.ctx, B.lt, B.p, B.val⟩

theorem Spec.congr {cls : ι → Nat} {ρ : Nat → ι → ℝ} {H : Heap} {P : Nat → Prop} {n₀ : Nat} {r : Heap × Nat}
    {v w : ι → ℝ} (A : Spec cls ρ H P n₀ r v) (h : v = w) : Spec cls ρ H P n₀ r w := h ▸ A

theorem kid_lt {H : Heap} (W : H.OK) {a : Nat} {u : UOp} (h : H.op a = .un u) : H.kid a 0 < a :=
  W a 0 (by rw [h]; simp [Op.arity])

theorem val_un (cls : ι → Nat) {H : Heap} (W : H.OK) (ρ : Nat → ι → ℝ) {a : Nat} {u : UOp} (h : H.op a = .un u) (i : ι) :
    val cls H ρ a i = u.fn (val cls H ρ (H.kid a 0) i) := by
  rw [val_eq cls H W ρ a, h]

theorem val_one (cls : ι → Nat) {H : Heap} (W : H.OK) (ρ : Nat → ι → ℝ) {a : Nat} (h : H.op a = .one) (i : ι) :
    val cls H ρ a i = 1 := by
  rw [val_eq cls H W ρ a, h]

theorem val_bin (cls : ι → Nat) {H : Heap} (W : H.OK) (ρ : Nat → ι → ℝ) {a : Nat} {b : BOp} (h : H.op a = .bin b) (i : ι) :
    val cls H ρ a i = b.fn (val cls H ρ (H.kid a 0) i) (val cls H ρ (H.kid a 1) i) := by
  rw [val_eq cls H W ρ a, h]

/-! ### The rewrites that only add nodes -/

theorem mkNeg_spec (cls : ι → Nat) (ρ : Nat → ι → ℝ) (H : Heap) (P : Nat → Prop) (n₀ : Nat) (C : Ctx H P n₀)
    (a : Nat) (ha : a < H.length) (hp : P a) :
    Spec cls ρ H P n₀ (mkNeg H a) (fun i => -(Stab.val cls H ρ a i)) := by
  unfold mkNeg
  split
  · rename_i h
    have hk := kid_lt C.ok h
    refine ⟨⟨[], by simp⟩, C, by simp only; omega, C.closed a hp 0 (by rw [h]; simp [Op.arity]), ?_⟩
    funext i
    simp only
    rw [val_un cls C.ok ρ h i]
    simp [UOp.fn]
  · exact raw_un cls ρ H P n₀ C .neg a ha hp

theorem sig_pos (x : ℝ) : (0 : ℝ) < 1 + Real.exp (-x) := by positivity

theorem mkLog1p_spec (cls : ι → Nat) (ρ : Nat → ι → ℝ) (H : Heap) (P : Nat → Prop) (n₀ : Nat) (C : Ctx H P n₀)
    (a : Nat) (ha : a < H.length) (hp : P a) :
    Spec cls ρ H P n₀ (mkLog1p H a) (fun i => Real.log (1 + Stab.val cls H ρ a i)) := by
  unfold mkLog1p
  split
  · rename_i h
    have hk := kid_lt C.ok h
    refine (raw_un cls ρ H P n₀ C .softplus (H.kid a 0) (by omega) (C.closed a hp 0 (by rw [h]; simp [Op.arity]))).congr ?_
    funext i
    rw [val_un cls C.ok ρ h i]
    simp [UOp.fn]
  · split
    · rename_i h
      obtain ⟨h1, h2⟩ := h
      have k1 := kid_lt C.ok h1
      have k2 := kid_lt C.ok h2
      have A := raw_un cls ρ H P n₀ C .softplus (H.kid (H.kid a 0) 0) (by omega)
        (C.closed _ (C.closed a hp 0 (by rw [h1]; simp [Op.arity])) 0 (by rw [h2]; simp [Op.arity]))
      refine A.trans ((mkNeg_spec cls ρ _ P n₀ A.ctx _ A.lt A.p).congr ?_)
      funext i
      rw [A.val, val_un cls C.ok ρ h1 i, val_un cls C.ok ρ h2 i]
      simp only [UOp.fn]
      generalize Stab.val cls H ρ (H.kid (H.kid a 0) 0) i = x
      have hp := Real.exp_pos x
      rw [show 1 + -(1 / (1 + Real.exp (-x))) = (1 + Real.exp x)⁻¹ by
        rw [Real.exp_neg]; field_simp; ring]
      rw [Real.log_inv]
    · exact raw_un cls ρ H P n₀ C .log1p a ha hp

theorem mkSub_spec (cls : ι → Nat) (ρ : Nat → ι → ℝ) (H : Heap) (P : Nat → Prop) (n₀ : Nat) (C : Ctx H P n₀)
    (a b : Nat) (ha : a < H.length) (hpa : P a) (hb : b < H.length) (hpb : P b) :
    Spec cls ρ H P n₀ (mkSub H a b) (fun i => Stab.val cls H ρ a i - Stab.val cls H ρ b i) := by
  unfold mkSub
  split
  · rename_i h
    obtain ⟨h1, h2⟩ := h
    have hk := kid_lt C.ok h2
    refine (raw_un cls ρ H P n₀ C .expm1 (H.kid a 0) (by omega) (C.closed a hpa 0 (by rw [h2]; simp [Op.arity]))).congr ?_
    funext i
    rw [val_un cls C.ok ρ h2 i, val_one cls C.ok ρ h1 i]
    simp [UOp.fn]
  · split
    · rename_i h
      obtain ⟨h1, h2⟩ := h
      have hk := kid_lt C.ok h2
      have A := mkNeg_spec cls ρ H P n₀ C (H.kid b 0) (by omega) (C.closed b hpb 0 (by rw [h2]; simp [Op.arity]))
      refine A.trans ((raw_un cls ρ _ P n₀ A.ctx .sigmoid _ A.lt A.p).congr ?_)
      funext i
      rw [A.val, val_un cls C.ok ρ h2 i, val_one cls C.ok ρ h1 i]
      simp only [UOp.fn, neg_neg]
      generalize Stab.val cls H ρ (H.kid b 0) i = x
      have hp := Real.exp_pos x
      rw [Real.exp_neg]
      field_simp
      ring
    · exact raw_bin cls ρ H P n₀ C .sub a b ha hpa hb hpb

/-! ### The rewrites that change nodes -/

theorem cell_set_ne (H : Heap) (a j : Nat) (c : Cell) (h : j ≠ a) : Heap.cell (H.set a c) j = H.cell j := by
  simp [Heap.cell, List.getElem?_set_ne (Ne.symm h)]

theorem val_set (cls : ι → Nat) (ρ : Nat → ι → ℝ) (H : Heap) (W : H.OK) (P : Nat → Prop)
    (hP : ∀ j, P j → ∀ k, k < (H.op j).arity → P (H.kid j k)) (a : Nat) (ha : ¬ P a) (c : Cell) (j : Nat) (hj : P j) :
    val cls (H.set a c) ρ j = val cls H ρ j := by
  refine val_congr cls H _ W ρ P ?_ j hj
  intro j hj
  have hne : j ≠ a := fun e => ha (e ▸ hj)
  have := cell_set_ne H a j c hne
  refine ⟨by unfold Heap.op; rw [this], fun k hk => ⟨by unfold Heap.kid; rw [this], hP j hj k hk⟩⟩

theorem cell_set_self (H : Heap) (a : Nat) (c : Cell) (h : a < H.length) : Heap.cell (H.set a c) a = c := by
  simp [Heap.cell, h]

theorem expSum_pos (cls : ι → Nat) (v : ι → ℝ) (i : ι) : 0 < expSum cls v i := by
  unfold expSum
  refine Finset.sum_pos' (fun j _ => ?_) ⟨i, Finset.mem_univ _, ?_⟩
  · split
    · exact (Real.exp_pos _).le
    · exact le_refl _
  · simp [Real.exp_pos]

theorem softmax_log (cls : ι → Nat) (v : ι → ℝ) (i : ι) :
    softmaxV cls true v i = Real.log (softmaxV cls false v i) := by
  simp only [softmaxV, if_true, Bool.false_eq_true, if_false]
  rw [Real.log_div (Real.exp_pos _).ne' (expSum_pos cls v i).ne', Real.log_exp]

theorem softmax_pos (cls : ι → Nat) (v : ι → ℝ) (i : ι) : 0 < softmaxV cls false v i := by
  simp only [softmaxV, Bool.false_eq_true, if_false]
  exact div_pos (Real.exp_pos _) (expSum_pos cls v i)

theorem softmax_le_one (cls : ι → Nat) (v : ι → ℝ) (i : ι) : softmaxV cls false v i ≤ 1 := by
  simp only [softmaxV, Bool.false_eq_true, if_false]
  rw [div_le_one (expSum_pos cls v i)]
  unfold expSum
  have h : ∀ j ∈ Finset.univ, (0 : ℝ) ≤ if cls j = cls i then Real.exp (v j) else 0 := by
    intro j _
    split
    · exact (Real.exp_pos _).le
    · exact le_refl _
  have := Finset.single_le_sum h (Finset.mem_univ i)
  simpa using this

theorem isSoftmax_iff {H : Heap} {a : Nat} : isSoftmax H a = true ↔ ∃ l, H.op a = .softmax l := by
  unfold isSoftmax
  constructor
  · intro h; split at h
    · exact ⟨_, ‹_›⟩
    · cases h
  · rintro ⟨l, h⟩; rw [h]

theorem setLog_eq {H : Heap} {a : Nat} {l : Bool} (h : H.op a = .softmax l) :
    setLog H a = H.set a { H.cell a with op := .softmax true } := by unfold setLog; rw [h]

/-- After `isLog = true` the node has the logarithm of its former value. -/
theorem val_setLog (cls : ι → Nat) (ρ : Nat → ι → ℝ) (H : Heap) (W : H.OK) (a : Nat) (ha : a < H.length)
    (h : H.op a = .softmax false) (i : ι) :
    (setLog H a).OK ∧ val cls (setLog H a) ρ a i = Real.log (val cls H ρ a i) := by
  have hk : H.kid a 0 < a := W a 0 (by rw [h]; simp [Op.arity])
  rw [setLog_eq h]
  have hself := cell_set_self H a { H.cell a with op := .softmax true } ha
  have W' : Heap.OK (H.set a { H.cell a with op := .softmax true }) := by
    intro j k hjk
    by_cases e : j = a
    · subst e
      simp only [Heap.op, hself, Op.arity] at hjk
      simp only [Heap.kid, hself]
      exact W j k (by rw [h]; exact hjk)
    · have := cell_set_ne H a j { H.cell a with op := .softmax true } e
      unfold Heap.op at hjk
      unfold Heap.kid
      rw [this] at hjk ⊢
      exact W j k hjk
  refine ⟨W', ?_⟩
  rw [val_eq cls _ W', val_eq cls H W ρ a, h]
  have hop : Heap.op (H.set a { H.cell a with op := .softmax true }) a = .softmax true := by
    simp only [Heap.op, hself]
  have hkid : Heap.kid (H.set a { H.cell a with op := .softmax true }) a 0 = H.kid a 0 := by
    simp only [Heap.kid, hself]
  rw [hop]
  simp only [hkid]
  rw [val_set cls ρ H W (· < a) (fun j hj k hk => by have := W j k hk; show _ < _; omega) a (by omega) _ _ hk]
  exact softmax_log cls _ i

end Verif.Stab
