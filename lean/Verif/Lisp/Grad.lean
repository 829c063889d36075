import Verif.Lisp.Reset
/-!
The gradients the define-by-run machine leaves in the nodes (C21).
-/
set_option autoImplicit false
namespace Verif.Lisp

open Verif.AD (UOp BOp)

variable {ι : Type} [Fintype ι]

noncomputable section

/-- Pairing of a gradient with a perturbation. -/
def dot : Val ι → Val ι → ℝ
  | .s a, .s b => a * b
  | .t f, .t g => ∑ i, f i * g i
  | _, _ => 0

/-- A gradient of the shape of the result brought to the shape of the operand. -/
def fit (sc : Bool) (v : Val ι) : Val ι := if sc then .s v.sum else v

/-- What node `i` with gradient `g` adds to the gradient of its `k`-th operand. -/
def Graph.contrib (G : Graph) (W : Nat → Val ι) (i k : Nat) (g : Val ι) : Val ι :=
  match G.op i with
  | .input | .const => .s 0
  | .un u => Val.map3 ((numDiff u).getD fun _ _ _ => 0) (W (G.kid i 0)) (W i) g
  | .bin b => fit (G.sc (G.kid i k)) (Val.map4 (if k = 0 then binDiffL b else binDiffR b) (W (G.kid i 0)) (W (G.kid i 1)) (W i) g)
  | .sum => .t fun _ => g.sum
  | .reshape => g

/-- The gradient after the forward pass. -/
def Graph.seed (G : Graph) (W : Nat → Val ι) (j : Nat) : Val ι :=
  (W j).map fun _ => if (G.op j).isAD && G.root j then 1 else 0

def Graph.usum (G : Graph) (W : Nat → Val ι) (D : Nat → Val ι) (i j : Nat) (v : Val ι) : ℝ :=
  ∑ k ∈ Finset.range (G.op i).arity, if G.kid i k = j then dot (G.contrib W i k (D i)) v else 0

end

/-- No node after `i` uses `x`. -/
def Graph.LastUse (G : Graph) (i x : Nat) : Prop := ∀ j, i < j → ∀ k, k < (G.op j).arity → G.kid j k ≠ x

/-- Operands whose gradient is overwritten (reshape) or counted once per element (a scalar combined with a tensor) have no
later user. -/
def Graph.Fresh (G : Graph) : Prop := ∀ i k, k < (G.op i).arity → G.op (G.kid i k) ≠ .const →
  (G.op i = .reshape ∨ (G.sc (G.kid i k) = true ∧ G.sc i = false)) → G.LastUse i (G.kid i k)

/-! ### Kinds -/

theorem map_isS (g : ℝ → ℝ) (v : Val ι) : (v.map g).isS = v.isS := by cases v <;> rfl

theorem map2_isS (g : ℝ → ℝ → ℝ) (a b : Val ι) : (Val.map2 g a b).isS = (a.isS && b.isS) := by
  cases a <;> cases b <;> rfl

theorem map3_isS (g : ℝ → ℝ → ℝ → ℝ) (a b c : Val ι) : (Val.map3 g a b c).isS = (a.isS && b.isS && c.isS) := by
  cases a <;> cases b <;> cases c <;> rfl

theorem map4_isS (g : ℝ → ℝ → ℝ → ℝ → ℝ) (a b c d : Val ι) :
    (Val.map4 g a b c d).isS = (a.isS && b.isS && c.isS && d.isS) := by
  cases a <;> cases b <;> cases c <;> cases d <;> rfl

theorem acc_isS (sc : Bool) (d inc : Val ι) (h : d.isS = sc) : (acc sc d inc).isS = sc := by
  cases d <;> cases inc <;> subst h <;> rfl

theorem dot_acc (sc : Bool) (d inc v : Val ι) (hd : d.isS = sc) (hv : v.isS = sc)
    (hi : inc.isS = sc ∨ (sc = true ∧ d = .s 0)) :
    dot (acc sc d inc) v = dot d v + dot (fit sc inc) v := by
  rcases hi with hi | ⟨rfl, rfl⟩
  · cases sc
    · obtain ⟨f, rfl⟩ : ∃ f, d = .t f := by cases d with
        | s => cases hd
        | t f => exact ⟨f, rfl⟩
      obtain ⟨g, rfl⟩ : ∃ f, inc = .t f := by cases inc with
        | s => cases hi
        | t f => exact ⟨f, rfl⟩
      obtain ⟨w, rfl⟩ : ∃ f, v = .t f := by cases v with
        | s => cases hv
        | t f => exact ⟨f, rfl⟩
      simp [acc, fit, dot, Val.map2, Val.isS, Val.at', add_mul, Finset.sum_add_distrib]
    · obtain ⟨f, rfl⟩ : ∃ f, d = .s f := by cases d with
        | t => cases hd
        | s f => exact ⟨f, rfl⟩
      obtain ⟨g, rfl⟩ : ∃ f, inc = .s f := by cases inc with
        | t => cases hi
        | s f => exact ⟨f, rfl⟩
      obtain ⟨w, rfl⟩ : ∃ f, v = .s f := by cases v with
        | t => cases hv
        | s f => exact ⟨f, rfl⟩
      simp [acc, fit, dot, Val.map2, Val.isS, Val.sum, add_mul]
  · obtain ⟨w, rfl⟩ : ∃ f, v = .s f := by cases v with
      | t => cases hv
      | s f => exact ⟨f, rfl⟩
    cases inc <;> simp [acc, fit, dot, Val.map2, Val.isS, Val.sum, Val.at']

theorem isS_true {v : Val ι} (h : v.isS = true) : ∃ a, v = .s a := by
  cases v with
  | s a => exact ⟨a, rfl⟩
  | t f => cases h

theorem isS_false {v : Val ι} (h : v.isS = false) : ∃ f, v = .t f := by
  cases v with
  | s a => cases h
  | t f => exact ⟨f, rfl⟩

theorem dot_zero_left (v w : Val ι) : dot (v.map fun _ => 0) w = 0 := by cases v <;> cases w <;> simp [Val.map, dot]

theorem dot_zero_right (v w : Val ι) : dot w (v.map fun _ => 0) = 0 := by cases v <;> cases w <;> simp [Val.map, dot]

theorem dot_ones (v w : Val ι) (h : v.isS = w.isS) : dot (v.map fun _ => 1) w = w.sum := by
  cases v <;> cases w <;> simp [Val.map, dot, Val.sum, Val.isS] at h ⊢

/-! ### One step backward -/

theorem upd_acc (D : Nat → Val ι) (x : Nat) (sc : Bool) (inc : Val ι) (hD : (D x).isS = sc)
    (hi : inc.isS = sc ∨ (sc = true ∧ D x = .s 0)) (j : Nat) (v : Val ι) (hv : j = x → v.isS = sc) :
    dot (upd D x (acc sc (D x) inc) j) v = dot (D j) v + if x = j then dot (fit sc inc) v else 0 := by
  unfold upd
  by_cases h : j = x
  · subst h
    simp only [if_true]
    exact dot_acc sc (D j) inc v hD (hv rfl) hi
  · rw [if_neg h, if_neg (fun e => h e.symm)]; simp

theorem upd_isS (D : Nat → Val ι) (x : Nat) (val : Val ι) (sc : Nat → Bool) (h : ∀ j, (D j).isS = sc j)
    (hv : val.isS = sc x) (j : Nat) : (upd D x val j).isS = sc j := by
  unfold upd; split
  · rename_i e; rw [e]; exact hv
  · exact h j

/-- One `DoDiff`: every operand gains the contribution of the node and nothing else changes. -/
theorem doDiff_step (G : Graph) (ok : G.OK) (W D D' : Nat → Val ι) (i : Nat)
    (hW : ∀ j, (W j).isS = G.sc j) (hD : ∀ j, (D j).isS = G.sc j)
    (hfresh : ∀ k, k < (G.op i).arity → G.op (G.kid i k) ≠ .const →
      (G.op i = .reshape ∨ (G.sc (G.kid i k) = true ∧ G.sc i = false)) →
      D (G.kid i k) = (W (G.kid i k)).map fun _ => 0)
    (h : G.doDiff W i D = some D') :
    (∀ j, (D' j).isS = G.sc j) ∧
    (∀ j, (∀ k, k < (G.op i).arity → G.kid i k ≠ j) → D' j = D j) ∧
    (∀ j, G.op j ≠ .const → ∀ v : Val ι, v.isS = G.sc j → dot (D' j) v = dot (D j) v + G.usum W D i j v) := by
  unfold Graph.doDiff at h
  simp only at h
  cases hop : G.op i with
  | input => rw [hop] at h; simp only [Option.some.injEq] at h; subst h; simp [hD, Graph.usum, hop, Op.arity]
  | const => rw [hop] at h; simp only [Option.some.injEq] at h; subst h; simp [hD, Graph.usum, hop, Op.arity]
  | un u =>
    rw [hop] at h
    simp only at h
    obtain ⟨f, hf, rfl⟩ := Option.map_eq_some_iff.1 h
    have hk := ok.un i u hop
    refine ⟨upd_isS D _ _ _ hD (acc_isS _ _ _ (hD _)), fun j hj => ?_, fun j hc v hv => ?_⟩
    · have := hj 0 (by simp [Op.arity])
      unfold upd; rw [if_neg (Ne.symm this)]
    · have hi : (Val.map3 f (W (G.kid i 0)) (W i) (D i)).isS = G.sc (G.kid i 0) := by
        rw [map3_isS, hW, hW, hD, hk]; simp
      rw [upd_acc D (G.kid i 0) (G.sc (G.kid i 0)) _ (hD _) (Or.inl hi) j v (fun e => by rw [hv, e])]
      simp only [Graph.usum, hop, Op.arity, Finset.sum_range_one, Graph.contrib, hf, Option.getD_some]
      congr 1
      split
      · unfold fit
        split
        · rename_i e
          rw [e] at hi
          obtain ⟨a, ha⟩ := isS_true hi
          rw [ha]; rfl
        · rfl
      · rfl
  | bin b =>
    rw [hop] at h
    simp only at h
    have hk := ok.bin i b hop
    split at h
    · cases h
    · simp only [Option.some.injEq] at h
      have hiL : ∀ g, (Val.map4 g (W (G.kid i 0)) (W (G.kid i 1)) (W i) (D i)).isS = G.sc i := by
        intro g; rw [map4_isS, hW, hW, hW, hD, hk]; cases G.sc (G.kid i 0) <;> cases G.sc (G.kid i 1) <;> rfl
      -- the operand is of the kind of the result, or a scalar without gradient so far
      have hcond : ∀ k, k < 2 → G.op (G.kid i k) ≠ .const → ∀ g,
          (Val.map4 g (W (G.kid i 0)) (W (G.kid i 1)) (W i) (D i)).isS = G.sc (G.kid i k) ∨
          (G.sc (G.kid i k) = true ∧ G.sc i = false ∧ D (G.kid i k) = .s 0) := by
        intro k hk2 hc g
        rw [hiL]
        by_cases e : G.sc i = G.sc (G.kid i k)
        · exact Or.inl e
        · have h1 : G.sc (G.kid i k) = true ∧ G.sc i = false := by
            rw [hk] at e ⊢
            match k, hk2 with
            | 0, _ => revert e; cases G.sc (G.kid i 0) <;> cases G.sc (G.kid i 1) <;> simp
            | 1, _ => revert e; cases G.sc (G.kid i 0) <;> cases G.sc (G.kid i 1) <;> simp
          refine Or.inr ⟨h1.1, h1.2, ?_⟩
          rw [hfresh k (by rw [hop]; exact hk2) hc (Or.inr h1)]
          obtain ⟨a, ha⟩ := isS_true ((hW (G.kid i k)).trans h1.1)
          rw [ha]; rfl
      generalize hx : G.kid i 0 = x at *
      generalize hy : G.kid i 1 = y at *
      set D1 : Nat → Val ι := if b = .mul ∧ G.op x = .const then D
        else upd D x (acc (G.sc x) (D x) (Val.map4 (binDiffL b) (W x) (W y) (W i) (D i))) with hD1
      have k1 : ∀ j, (D1 j).isS = G.sc j := by
        rw [hD1]; split
        · exact hD
        · exact upd_isS D _ _ _ hD (acc_isS _ _ _ (hD _))
      have o1 : ∀ j, x ≠ j → D1 j = D j := by
        intro j hj; rw [hD1]; split
        · rfl
        · unfold upd; rw [if_neg (Ne.symm hj)]
      have d1 : ∀ j, G.op j ≠ .const → ∀ v : Val ι, v.isS = G.sc j → dot (D1 j) v = dot (D j) v +
          if x = j then dot (fit (G.sc x) (Val.map4 (binDiffL b) (W x) (W y) (W i) (D i))) v else 0 := by
        intro j hc v hv
        rw [hD1]; split
        · rename_i hm
          rw [if_neg (fun (e : _ = j) => hc (e ▸ hm.2))]; simp
        · by_cases e : x = j
          · subst e
            have := hcond 0 (by omega) (by rw [hx]; exact hc) (binDiffL b)
            rw [hx] at this
            exact upd_acc D x (G.sc x) _ (hD _) (this.imp id (fun h => ⟨h.1, h.2.2⟩)) x v (fun _ => hv)
          · unfold upd; rw [if_neg (Ne.symm e), if_neg e]; simp
      subst h
      refine ⟨?_, fun j hj => ?_, fun j hc v hv => ?_⟩
      · split
        · exact k1
        · exact upd_isS D1 _ _ _ k1 (acc_isS _ _ _ (k1 _))
      · have h0 := hj 0 (by simp [Op.arity]); rw [hx] at h0
        have h1 := hj 1 (by simp [Op.arity]); rw [hy] at h1
        split
        · exact o1 j h0
        · unfold upd; rw [if_neg (Ne.symm h1)]; exact o1 j h0
      · have husum : G.usum W D i j v = (if x = j then dot (fit (G.sc x) (Val.map4 (binDiffL b) (W x) (W y) (W i) (D i))) v else 0) +
            (if y = j then dot (fit (G.sc y) (Val.map4 (binDiffR b) (W x) (W y) (W i) (D i))) v else 0) := by
          simp [Graph.usum, hop, Op.arity, Finset.sum_range_succ, Graph.contrib, hx, hy]
        rw [husum, ← add_assoc, ← d1 j hc v hv]
        split
        · rename_i hm
          rw [if_neg (fun (e : _ = j) => hc (e ▸ hm.2))]; simp
        · by_cases e : y = j
          · subst e
            have h1 := hcond 1 (by omega) (by rw [hy]; exact hc) (binDiffR b)
            rw [hy] at h1
            refine upd_acc D1 y (G.sc y) _ (k1 _) ?_ y v (fun _ => hv)
            rcases h1 with h1 | ⟨h1, h2, h3⟩
            · exact Or.inl h1
            · refine Or.inr ⟨h1, ?_⟩
              rw [o1 y, h3]
              intro e
              rw [hk, e, h1] at h2
              cases h2
          · unfold upd; rw [if_neg (Ne.symm e), if_neg e]; simp
  | sum =>
    rw [hop] at h
    simp only [Option.some.injEq] at h
    obtain ⟨hk1, hk2⟩ := ok.sum i hop
    subst h
    obtain ⟨f, hf⟩ := isS_false ((hD (G.kid i 0)).trans hk2)
    refine ⟨upd_isS D _ _ _ hD (by rw [map2_isS, hf, hk2]; rfl), fun j hj => ?_, fun j hc v hv => ?_⟩
    · have := hj 0 (by simp [Op.arity])
      unfold upd; rw [if_neg (Ne.symm this)]
    · simp only [Graph.usum, hop, Op.arity, Finset.sum_range_one, Graph.contrib]
      by_cases e : G.kid i 0 = j
      · rw [if_pos e]
        rw [← e] at hv ⊢
        unfold upd
        rw [if_pos rfl]
        obtain ⟨w, rfl⟩ := isS_false (hv.trans hk2)
        rw [hf]
        simp [Val.map2, dot, Val.at', add_mul, Finset.sum_add_distrib]
      · unfold upd; rw [if_neg (Ne.symm e), if_neg e]; simp
  | reshape =>
    rw [hop] at h
    simp only [Option.some.injEq] at h
    obtain ⟨hk1, hk2⟩ := ok.reshape i hop
    subst h
    refine ⟨upd_isS D _ _ _ hD (by rw [hD, hk1, hk2]), fun j hj => ?_, fun j hc v hv => ?_⟩
    · have := hj 0 (by simp [Op.arity])
      unfold upd; rw [if_neg (Ne.symm this)]
    · simp only [Graph.usum, hop, Op.arity, Finset.sum_range_one, Graph.contrib]
      by_cases e : G.kid i 0 = j
      · rw [if_pos e]
        unfold upd
        rw [if_pos e.symm, ← e, hfresh 0 (by rw [hop]; simp [Op.arity]) (by rw [e]; exact hc) (Or.inl hop), dot_zero_left]
        simp
      · unfold upd; rw [if_neg (Ne.symm e), if_neg e]; simp

/-! ### The backward pass -/

/-- What holds when the nodes from `m` on have been treated. -/
structure BInv (G : Graph) (W D : Nat → Val ι) (m : Nat) : Prop where
  kind : ∀ j, (D j).isS = G.sc j
  untouched : ∀ j, G.op j ≠ .const → (∀ i, m ≤ i → ∀ k, k < (G.op i).arity → G.kid i k ≠ j) → D j = G.seed W j
  sums : ∀ j, G.op j ≠ .const → ∀ v : Val ι, v.isS = G.sc j →
    dot (D j) v = dot (G.seed W j) v + ∑ i ∈ Finset.Ico m G.length, G.usum W D i j v

theorem op_out (G : Graph) (i : Nat) (h : G.length ≤ i) : G.op i = .input := by
  simp [Graph.op, Graph.node, List.getElem?_eq_none h]

theorem not_root (G : Graph) (i k : Nat) (h : k < (G.op i).arity) : G.root (G.kid i k) = false := by
  have hi : i < G.length := by
    by_contra hc
    rw [op_out G i (by omega)] at h; simp [Op.arity] at h
  unfold Graph.root
  simp only [Bool.not_eq_false', List.any_eq_true, List.mem_range, beq_iff_eq]
  exact ⟨i, hi, k, h, rfl⟩

theorem seed_zero (G : Graph) (W : Nat → Val ι) (i k : Nat) (h : k < (G.op i).arity) :
    G.seed W (G.kid i k) = (W (G.kid i k)).map fun _ => 0 := by
  unfold Graph.seed; rw [not_root G i k h]; simp

theorem usum_congr (G : Graph) (W D D' : Nat → Val ι) (i j : Nat) (v : Val ι) (h : D' i = D i) :
    G.usum W D' i j v = G.usum W D i j v := by unfold Graph.usum; rw [h]

theorem BInv.step {G : Graph} (ok : G.OK) (fr : G.Fresh) {W D D' : Nat → Val ι} (hW : ∀ j, (W j).isS = G.sc j) {i : Nat}
    (hi : i < G.length) (I : BInv G W D (i + 1)) (h : G.doDiff W i D = some D') : BInv G W D' i := by
  obtain ⟨a, b, c⟩ := doDiff_step G ok W D D' i hW I.kind (by
    intro k hk hc hcase
    rw [← seed_zero G W i k hk]
    exact I.untouched _ hc (fun j hj k' hk' => fr i k hk hc hcase j (by omega) k' hk')) h
  have hsame : ∀ j, i ≤ j → D' j = D j := fun j hj => b j (fun k hk => by have := ok.lt i k hk; omega)
  refine ⟨a, fun j hc hj => ?_, fun j hc v hv => ?_⟩
  · rw [b j (hj i (Nat.le_refl _))]
    exact I.untouched j hc (fun i' hi' => hj i' (by omega))
  · rw [c j hc v hv, I.sums j hc v hv, Finset.sum_eq_sum_Ico_succ_bot hi, usum_congr G W D D' i j v (hsame i (Nat.le_refl _)),
      Finset.sum_congr rfl (fun i' hi' => usum_congr G W D D' i' j v (hsame i' (by
        have := (Finset.mem_Ico.1 hi').1; omega)))]
    ring

/-- The backward pass as a fold, last node first. -/
noncomputable def Graph.back (G : Graph) (W : Nat → Val ι) (l : List Nat) (D : Nat → Val ι) : Option (Nat → Val ι) :=
  l.foldr (fun i D => D.bind (G.doDiff W i)) (some D)

theorem back_inv {G : Graph} (ok : G.OK) (fr : G.Fresh) {W D D' : Nat → Val ι} (hW : ∀ j, (W j).isS = G.sc j)
    (n m : Nat) (hn : m + n = G.length) (I : BInv G W D G.length) (h : G.back W (List.range' m n) D = some D') :
    BInv G W D' m := by
  induction n generalizing m D' with
  | zero =>
    simp only [Graph.back, List.range'_zero, List.foldr_nil, Option.some.injEq] at h
    subst h
    have : m = G.length := by omega
    rw [this]; exact I
  | succ n ih =>
    simp only [Graph.back, List.range'_succ, List.foldr_cons] at h
    obtain ⟨D1, h1, h2⟩ := Option.bind_eq_some_iff.1 h
    exact (ih (m + 1) (by omega) h1).step ok fr hW (by omega) h2

theorem back_filter (G : Graph) (W : Nat → Val ι) (l : List Nat) (D : Nat → Val ι) :
    G.back W (l.filter fun i => (G.op i).isAD) D = G.back W l D := by
  induction l with
  | nil => rfl
  | cons i l ih =>
    by_cases h : (G.op i).isAD = true
    · rw [List.filter_cons_of_pos (p := fun i => (G.op i).isAD) h]
      simp only [Graph.back, List.foldr_cons] at ih ⊢
      rw [ih]
    · rw [List.filter_cons_of_neg (p := fun i => (G.op i).isAD) h, ih]
      simp only [Graph.back, List.foldr_cons]
      have : ∀ D : Nat → Val ι, G.doDiff W i D = some D := by
        intro D
        unfold Graph.doDiff
        cases hop : G.op i <;> simp [hop, Op.isAD] at h ⊢
      have e : (fun D => G.doDiff W i D) = some := funext this
      cases hb : List.foldr (fun i D => Option.bind D (G.doDiff W i)) (some D) l with
      | none => rfl
      | some x => exact (this x).symm

theorem loopB_back (G : Graph) (n : Nat) (m : Machine ι) (hb : m.bwd = (n : Int) - 1) (hn : n ≤ m.q.length) :
    (G.loopB n m).map (fun m => m.D) = G.back m.W (m.q.take n) m.D := by
  induction n generalizing m with
  | zero => simp [Graph.loopB, Graph.back]
  | succ n ih =>
    have hbn : m.bwd.toNat = n := by omega
    have hlt : n < m.q.length := by omega
    have hget : m.q[n]? = some (m.q[n]'hlt) := List.getElem?_eq_getElem hlt
    simp only [Graph.loopB, hbn, hget]
    rw [List.take_succ, hget]
    unfold Graph.back
    simp only [Option.toList_some, List.foldr_append, List.foldr_cons, List.foldr_nil, Option.bind_some]
    cases hd : G.doDiff m.W (m.q[n]'hlt) m.D with
    | none =>
      simp only [Option.map_none]
      clear ih hn hlt hget hbn hb hd
      induction (List.take n m.q) with
      | nil => rfl
      | cons a l ih => rw [List.foldr_cons, ← ih]; rfl
    | some D =>
      simp only
      exact ih { m with D := D, bwd := m.bwd - 1 } (by simp only; omega) (by simp only; omega)

/-! ### The forward pass -/

theorem value_eq (G : Graph) (ok : G.OK) (W : Nat → Val ι) (i : Nat) : G.value W i = match G.op i with
    | .input | .const => W i
    | .un u => (G.value W (G.kid i 0)).map u.fn
    | .bin b => Val.map2 b.fn (G.value W (G.kid i 0)) (G.value W (G.kid i 1))
    | .sum => .s (G.value W (G.kid i 0)).sum
    | .reshape => G.value W (G.kid i 0) := by
  have en : ∀ f f' a, a < f → a < f' → G.valueF W f a = G.valueF W f' a := by
    intro f
    induction f with
    | zero => intro f' a h; omega
    | succ f ih =>
      intro f' a h h'
      cases f' with
      | zero => omega
      | succ f' =>
        have hk := ok.lt a
        simp only [Graph.valueF]
        cases hop : G.op a <;> simp only [hop, Op.arity] at hk ⊢
        · have := hk 0 (by omega); rw [ih f' _ (by omega) (by omega)]
        · have := hk 0 (by omega); have := hk 1 (by omega)
          rw [ih f' _ (by omega) (by omega), ih f' (G.kid a 1) (by omega) (by omega)]
        · have := hk 0 (by omega); rw [ih f' _ (by omega) (by omega)]
        · have := hk 0 (by omega); rw [ih f' _ (by omega) (by omega)]
  have hk := ok.lt i
  conv_lhs => unfold Graph.value
  simp only [Graph.valueF]
  cases hop : G.op i <;> simp only [hop, Op.arity, Graph.value] at hk ⊢
  · have := hk 0 (by omega); rw [en i (G.kid i 0 + 1) _ (by omega) (by omega)]
  · have := hk 0 (by omega); have := hk 1 (by omega)
    rw [en i (G.kid i 0 + 1) _ (by omega) (by omega), en i (G.kid i 1 + 1) _ (by omega) (by omega)]
  · have := hk 0 (by omega); rw [en i (G.kid i 0 + 1) _ (by omega) (by omega)]
  · have := hk 0 (by omega); rw [en i (G.kid i 0 + 1) _ (by omega) (by omega)]

theorem value_isS (G : Graph) (ok : G.OK) (W : Nat → Val ι) (hb : G.Bound W) (i : Nat) : (G.value W i).isS = G.sc i := by
  induction i using Nat.strong_induction_on with
  | _ i ih =>
    rw [value_eq G ok]
    have hk := ok.lt i
    cases hop : G.op i with
    | input => exact hb i (by rw [hop]; rfl)
    | const => exact hb i (by rw [hop]; rfl)
    | un u => rw [hop] at hk; simp only [map_isS]; rw [ih _ (hk 0 (by simp [Op.arity])), ok.un i u hop]
    | bin b =>
      rw [hop] at hk
      simp only [map2_isS]
      rw [ih _ (hk 0 (by simp [Op.arity])), ih _ (hk 1 (by simp [Op.arity])), ok.bin i b hop]
    | sum => rw [(ok.sum i hop).1]; rfl
    | reshape =>
      rw [hop] at hk
      simp only
      rw [ih _ (hk 0 (by simp [Op.arity])), (ok.reshape i hop).1, (ok.reshape i hop).2]

theorem forward_input (G : Graph) (k : Nat) (m : Machine ι) (h : G.op k = .input) :
    (G.forward k m).W = m.W ∧ (G.forward k m).D = m.D := by
  unfold Graph.forward; rw [h]; exact ⟨rfl, rfl⟩

theorem forward_other (G : Graph) (k : Nat) (m : Machine ι) (h : G.op k ≠ .input) :
    (G.forward k m).W = upd m.W k (G.apply m.W k) ∧
    (G.forward k m).D = upd m.D k ((G.apply m.W k).map fun _ => if G.root k then 1 else 0) := by
  unfold Graph.forward
  cases hop : G.op k with
  | input => exact absurd hop h
  | _ => exact ⟨rfl, rfl⟩

theorem forward_q (G : Graph) (k : Nat) (m : Machine ι) (h : m.bp = true) :
    (G.forward k m).q = m.q ++ if (G.op k).isAD then [k] else [] := by
  unfold Graph.forward
  cases hop : G.op k <;> simp [Op.isAD, h]

theorem forward_bwd (G : Graph) (k : Nat) (m : Machine ι) : (G.forward k m).bwd = m.bwd := by
  unfold Graph.forward; cases G.op k <;> rfl

/-- After `k` steps of the forward loop. -/
theorem loopF_spec (G : Graph) (ok : G.OK) (W : Nat → Val ι) (n k : Nat) (m : Machine ι) (hf : m.fwd = k) (hbp : m.bp = true)
    (hw : ∀ j, m.W j = if j < k then G.value W j else W j)
    (hd : ∀ j, G.op j ≠ .const → m.D j = if j < k then G.seed (G.value W) j else (W j).map fun _ => 0)
    (hq : m.q = (List.range k).filter fun i => (G.op i).isAD)
    (hdk : ∀ j, (m.D j).isS = (m.W j).isS ∨ k ≤ j) :
    (∀ j, (G.loopF n m).W j = if j < k + n then G.value W j else W j) ∧
    (∀ j, G.op j ≠ .const → (G.loopF n m).D j = if j < k + n then G.seed (G.value W) j else (W j).map fun _ => 0) ∧
    (G.loopF n m).q = ((List.range (k + n)).filter fun i => (G.op i).isAD) ∧ (G.loopF n m).bwd = m.bwd ∧
    (∀ j, ((G.loopF n m).D j).isS = ((G.loopF n m).W j).isS ∨ k + n ≤ j) := by
  induction n generalizing k m with
  | zero => exact ⟨hw, hd, hq, rfl, hdk⟩
  | succ n ih =>
    have h0 : ¬ m.fwd < 0 := by omega
    have hk : m.fwd.toNat = k := by omega
    simp only [Graph.loopF, if_neg h0, hk]
    have happ : G.apply m.W k = G.value W k := by
      have hl := ok.lt k
      rw [value_eq G ok]
      unfold Graph.apply
      cases hop : G.op k <;> simp only [hop, Op.arity] at hl ⊢
      · rw [hw, if_neg (by omega)]
      · rw [hw, if_neg (by omega)]
      · rw [hw, if_pos (hl 0 (by omega))]
      · rw [hw, hw, if_pos (hl 0 (by omega)), if_pos (hl 1 (by omega))]
      · rw [hw, if_pos (hl 0 (by omega))]
      · rw [hw, if_pos (hl 0 (by omega))]
    have hfr := forward_ran G k m
    have hrange : List.range (k + 1) = List.range k ++ [k] := List.range_succ
    have key := ih (k + 1) { G.forward k m with fwd := (G.forward k m).fwd + 1 }
      (by show (G.forward k m).fwd + 1 = _; rw [hfr.2.1, hf]; rfl) (by show (G.forward k m).bp = _; rw [hfr.2.2, hbp])
      (by
        intro j
        show (G.forward k m).W j = _
        by_cases hin : G.op k = .input
        · have := (forward_input G k m hin).1
          rw [this, hw]
          by_cases e : j = k
          · subst e
            rw [if_neg (by omega), if_pos (by omega), value_eq G ok, hin]
          · split <;> split <;> first | rfl | omega
        · have := (forward_other G k m hin).1
          rw [this, happ]
          unfold upd
          by_cases e : j = k
          · subst e; rw [if_pos rfl, if_pos (by omega)]
          · rw [if_neg e, hw]; split <;> split <;> first | rfl | omega)
      (by
        intro j hc
        show (G.forward k m).D j = _
        by_cases hin : G.op k = .input
        · have := (forward_input G k m hin).2
          rw [this, hd j hc]
          by_cases e : j = k
          · subst e
            rw [if_neg (by omega), if_pos (by omega)]
            unfold Graph.seed
            rw [value_eq G ok, hin]; simp [Op.isAD]
          · split <;> split <;> first | rfl | omega
        · have := (forward_other G k m hin).2
          rw [this, happ]
          unfold upd
          by_cases e : j = k
          · subst e
            rw [if_pos rfl, if_pos (show j < j + 1 by omega)]
            unfold Graph.seed
            have : (G.op j).isAD = true := by
              cases hop : G.op j with
              | input => exact absurd hop hin
              | const => exact absurd hop hc
              | _ => rfl
            rw [this]; simp
          · rw [if_neg e, hd j hc]; split <;> split <;> first | rfl | omega)
      (by
        show (G.forward k m).q = _
        rw [hrange, List.filter_append, ← hq, forward_q G k m hbp]
        cases h : (G.op k).isAD <;> simp [h])
      (by
        intro j
        show ((G.forward k m).D j).isS = ((G.forward k m).W j).isS ∨ _
        by_cases hj : j < k + 1
        swap
        · exact Or.inr (by omega)
        refine Or.inl ?_
        by_cases hin : G.op k = .input
        · have h1 := (forward_input G k m hin).2
          have h2 := (forward_input G k m hin).1
          rw [h1, h2]
          by_cases e : j = k
          · subst e
            rw [hd j (by rw [hin]; intro h; cases h), hw, if_neg (by omega), if_neg (by omega), map_isS]
          · exact (hdk j).resolve_right (by omega)
        · have h1 := (forward_other G k m hin).2
          have h2 := (forward_other G k m hin).1
          rw [h1, h2]
          unfold upd
          by_cases e : j = k
          · rw [if_pos e, if_pos e, map_isS]
          · rw [if_neg e, if_neg e]; exact (hdk j).resolve_right (by omega))
    have hbw := forward_bwd G k m
    have e1 : k + 1 + n = k + (n + 1) := by omega
    rw [e1] at key
    refine ⟨key.1, key.2.1, key.2.2.1, ?_, key.2.2.2.2⟩
    rw [key.2.2.2.1]; exact hbw

/-! ### A whole run -/

/-- What the run leaves behind: the values, and gradients satisfying the invariant with all nodes treated. -/
theorem runAll_spec (G : Graph) (ok : G.OK) (fr : G.Fresh) (W : Nat → Val ι) (hb : G.Bound W) (m : Machine ι)
    (h : G.runAll (new true W) = some m) :
    (∀ j, j < G.length → m.W j = G.value W j) ∧ BInv G (G.value W) m.D 0 := by
  have hle : ((G.length : Int) - (new true W : Machine ι).fwd).toNat = G.length := by simp [new]
  obtain ⟨a, b, c, d, e⟩ := loopF_spec G ok W G.length 0 (new true W) rfl rfl (fun j => by simp [new])
    (fun j _ => by simp [new]) (by simp [new]) (fun j => Or.inr (Nat.zero_le _))
  have hbp : (G.loopF G.length (new true W : Machine ι)).bp = true := (loopF_ran G G.length 0 (new true W) rfl).2.2
  simp only [Nat.zero_add] at a b c d e
  unfold Graph.runAll at h
  simp only [hle] at h
  generalize hF : G.loopF G.length (new true W : Machine ι) = F at h a b c d e hbp
  rw [if_neg (by rw [hbp]; simp)] at h
  have hlt : F.bwd < 0 := by rw [d]; simp [new]
  rw [if_pos hlt] at h
  obtain ⟨m1, h1, rfl⟩ := Option.map_eq_some_iff.1 h
  have hq : ((F.q.length : Int) - 1 + 1).toNat = F.q.length := by omega
  simp only [hq] at h1
  have hr := loopB_ran G _ _ _ h1
  have hD := loopB_back G F.q.length { F with bwd := (F.q.length : Int) - 1 } rfl (Nat.le_refl _)
  rw [h1] at hD
  simp only [Option.map_some, List.take_length] at hD
  rw [c, back_filter] at hD
  have hWe : ∀ j, j < G.length → F.W j = G.value W j := fun j hj => by rw [a, if_pos hj]
  have hWall : F.W = G.value W := by
    funext j
    by_cases hj : j < G.length
    · exact hWe j hj
    · rw [a, if_neg hj, value_eq G ok, op_out G j (by omega)]
  refine ⟨fun j hj => ?_, ?_⟩
  · show m1.W j = _; rw [hr.2.2.1]; exact hWe j hj
  · rw [hWall] at hD
    refine back_inv ok fr (value_isS G ok W hb) G.length 0 (by omega) ?_ (by rw [← List.range_eq_range']; exact hD.symm)
    refine ⟨fun j => ?_, fun j hc hj => ?_, fun j hc v hv => ?_⟩
    · show (F.D j).isS = _
      by_cases hj : j < G.length
      · rw [(e j).resolve_right (by omega), hWe j hj, value_isS G ok W hb]
      · rw [b j (by rw [op_out G j (by omega)]; intro h; cases h), if_neg hj, map_isS]
        exact hb j (by rw [op_out G j (by omega)]; rfl)
    · show F.D j = _
      rw [b j hc]
      split
      · rfl
      · rename_i hj'
        unfold Graph.seed
        rw [value_eq G ok, op_out G j (by omega)]; simp [Op.isAD]
    · show dot (F.D j) v = _
      rw [Finset.Ico_self, Finset.sum_empty, add_zero, b j hc]
      split
      · rfl
      · rename_i hj'
        unfold Graph.seed
        rw [value_eq G ok, op_out G j (by omega)]; simp [Op.isAD]

/-- **C21, partial (the sums).** After a first run, the gradient of every node other than a constant is its own seed (ones
for a root, nothing otherwise) plus, for every node that uses it and once for every operand position, the contribution of
that user computed from the final gradient of the user. Missing: graphs in which a scalar combined with tensors, or the
operand of a reshape, has a later user (`Fresh`); for them it is false (`scalar_counted_twice`, `reshape_overwrites`). -/
theorem lisp_sums_partial (G : Graph) (ok : G.OK) (fr : G.Fresh) (W : Nat → Val ι) (hb : G.Bound W) (m : Machine ι)
    (h : G.runAll (new true W) = some m) (j : Nat) (hc : G.op j ≠ .const) (v : Val ι) (hv : v.isS = G.sc j) :
    dot (m.D j) v = dot (G.seed (G.value W) j) v +
      ∑ i ∈ Finset.range G.length, ∑ k ∈ Finset.range (G.op i).arity,
        if G.kid i k = j then dot (G.contrib (G.value W) i k (m.D i)) v else 0 := by
  have := (runAll_spec G ok fr W hb m h).2.sums j hc v hv
  rw [this, ← Finset.range_eq_Ico]
  rfl

/-! ### The contributions are adjoint to the derivatives -/

theorem numDiff_correct (u : UOp) (hu : u ≠ .inverseSqrt) (x g : ℝ) (hs : u.smooth x) :
    ((numDiff u).getD fun _ _ _ => 0) x (u.fn x) g = g * u.der x := by
  obtain ⟨hd, h0, h1, h2, h3⟩ := hs
  cases u <;> simp only [numDiff, Option.getD_some, UOp.fn, UOp.der, UOp.dom, ne_eq, not_true_eq_false, reduceCtorEq,
    not_false_eq_true, or_self, false_or, or_false, true_or, or_true, forall_const] at hu hd h0 h1 h2 h3 ⊢
  case ln => field_simp
  case log2 => have : Real.log 2 ≠ 0 := (Real.log_pos (by norm_num)).ne'; field_simp
  case sqrt => field_simp
  case inverse => field_simp
  case log1p => rw [add_comm x 1]; field_simp
  all_goals ring

theorem binDiff_correct (b : BOp) (x y : ℝ) (hd : b.dom x y) (a c : ℝ → ℝ) (a' c' t : ℝ) (ha : HasDerivAt a a' t)
    (hc : HasDerivAt c c' t) (ha0 : a t = x) (hc0 : c t = y) :
    ∃ v, HasDerivAt (fun s => b.fn (a s) (c s)) v t ∧
      ∀ g, g * v = binDiffL b x y (b.fn x y) g * a' + binDiffR b x y (b.fn x y) g * c' := by
  cases b <;> simp only [BOp.fn, BOp.dom, binDiffL, binDiffR] at hd ⊢
  case add => exact ⟨_, ha.add hc, fun g => by ring⟩
  case sub => exact ⟨_, ha.sub hc, fun g => by ring⟩
  case mul => refine ⟨_, ha.mul hc, fun g => ?_⟩; rw [ha0, hc0]; ring
  case div =>
    refine ⟨_, ha.div hc (by rw [hc0]; exact hd), fun g => ?_⟩
    rw [ha0, hc0]; field_simp
    ring
  case pow =>
    refine ⟨_, ha.rpow hc (by rw [ha0]; exact hd), fun g => ?_⟩
    rw [ha0, hc0]; ring

/-- A value moving with velocity `v`, elementwise. -/
def HasD (c : ℝ → Val ι) : Val ι → ℝ → Prop
  | .s v, t => ∃ f : ℝ → ℝ, (∀ s, c s = .s (f s)) ∧ HasDerivAt f v t
  | .t v, t => ∃ f : ℝ → ι → ℝ, (∀ s, c s = .t (f s)) ∧ ∀ i, HasDerivAt (fun s => f s i) (v i) t

def Val.All (P : ℝ → Prop) : Val ι → Prop
  | .s x => P x
  | .t f => ∀ i, P (f i)

def Val.All2 (P : ℝ → ℝ → Prop) : Val ι → Val ι → Prop
  | .s x, .s y => P x y
  | a, b => ∀ i, P (a.at' i) (b.at' i)

/-- Every operation is applied at values where it is differentiable, and it is not `inverseSqrt`. -/
structure Graph.Smooth (G : Graph) (W : Nat → Val ι) : Prop where
  un : ∀ i u, G.op i = .un u → u ≠ .inverseSqrt ∧ (G.value W (G.kid i 0)).All u.smooth
  bin : ∀ i b, G.op i = .bin b → (G.value W (G.kid i 0)).All2 b.dom (G.value W (G.kid i 1))

theorem HasD.at' {c : ℝ → Val ι} {v : Val ι} {t : ℝ} (h : HasD c v t) (i : ι) :
    HasDerivAt (fun s => (c s).at' i) (v.at' i) t := by
  cases v with
  | s v =>
    obtain ⟨f, h1, h2⟩ := h
    have : (fun s => (c s).at' i) = f := by funext s; rw [h1 s]; rfl
    rw [this]; exact h2
  | t v =>
    obtain ⟨f, h1, h2⟩ := h
    have : (fun s => (c s).at' i) = fun s => f s i := by funext s; rw [h1 s]; rfl
    rw [this]; exact h2 i

theorem HasD.isS {c : ℝ → Val ι} {v : Val ι} {t : ℝ} (h : HasD c v t) (s : ℝ) : (c s).isS = v.isS := by
  cases v with
  | s v => obtain ⟨f, h1, h2⟩ := h; rw [h1 s]; rfl
  | t v => obtain ⟨f, h1, h2⟩ := h; rw [h1 s]; rfl

theorem HasD.sum {c : ℝ → Val ι} {v : Val ι} {t : ℝ} (h : HasD c v t) : HasDerivAt (fun s => (c s).sum) v.sum t := by
  cases v with
  | s v =>
    obtain ⟨f, h1, h2⟩ := h
    have : (fun s => (c s).sum) = f := by funext s; rw [h1 s]; rfl
    rw [this]; exact h2
  | t v =>
    obtain ⟨f, h1, h2⟩ := h
    have : (fun s => (c s).sum) = fun s => ∑ i, f s i := by funext s; rw [h1 s]; rfl
    rw [this]
    exact HasDerivAt.fun_sum (fun i _ => h2 i)

theorem un_adjoint (u : UOp) (hu : u ≠ .inverseSqrt) (c : ℝ → Val ι) (c' : Val ι) (t : ℝ) (h : HasD c c' t)
    (hs : (c t).All u.smooth) : ∃ v : Val ι, v.isS = c'.isS ∧ HasD (fun s => (c s).map u.fn) v t ∧
      ∀ g : Val ι, g.isS = c'.isS →
        dot g v = dot (Val.map3 ((numDiff u).getD fun _ _ _ => 0) (c t) ((c t).map u.fn) g) c' := by
  cases c' with
  | s v =>
    obtain ⟨f, h1, h2⟩ := h
    rw [h1 t] at hs
    refine ⟨.s (u.der (f t) * v), rfl, ⟨fun s => u.fn (f s), fun s => by beta_reduce; rw [h1 s]; rfl, ?_⟩, ?_⟩
    · exact HasDerivAt.comp (h₂ := u.fn) (h := f) t (UOp.hasDerivAt u _ hs) h2
    · intro g hg
      obtain ⟨g, rfl⟩ := isS_true hg
      rw [h1 t]
      simp only [Val.map, Val.map3, dot]
      rw [numDiff_correct u hu _ _ hs]; ring
  | t v =>
    obtain ⟨f, h1, h2⟩ := h
    rw [h1 t] at hs
    refine ⟨.t fun i => u.der (f t i) * v i, rfl, ⟨fun s i => u.fn (f s i), fun s => by beta_reduce; rw [h1 s]; rfl, fun i => ?_⟩, ?_⟩
    · exact HasDerivAt.comp (h₂ := u.fn) (h := fun s => f s i) t (UOp.hasDerivAt u _ (hs i)) (h2 i)
    · intro g hg
      obtain ⟨g, rfl⟩ := isS_false hg
      rw [h1 t]
      simp only [Val.map, Val.map3, dot, Val.at']
      refine Finset.sum_congr rfl (fun i _ => ?_)
      rw [numDiff_correct u hu _ _ (hs i)]; ring

theorem fit_dot (w : ι → ℝ) (v : Val ι) : dot (fit v.isS (.t w)) v = ∑ i, w i * v.at' i := by
  cases v with
  | s x => simp [fit, Val.isS, Val.sum, dot, Val.at', Finset.sum_mul]
  | t f => rfl

theorem map2_t (g : ℝ → ℝ → ℝ) (a b : Val ι) (h : (a.isS && b.isS) = false) :
    Val.map2 g a b = .t fun i => g (a.at' i) (b.at' i) := by
  cases a <;> cases b <;> first | rfl | cases h

theorem map4_t (g : ℝ → ℝ → ℝ → ℝ → ℝ) (a b c d : Val ι) (h : c.isS = false) :
    Val.map4 g a b c d = .t fun i => g (a.at' i) (b.at' i) (c.at' i) (d.at' i) := by
  cases a <;> cases b <;> cases c <;> cases d <;> first | rfl | cases h

theorem All2_at (P : ℝ → ℝ → Prop) (a b : Val ι) (h : a.All2 P b) (i : ι) : P (a.at' i) (b.at' i) := by
  cases a <;> cases b <;> first | exact h | exact h i

theorem bin_adjoint (b : BOp) (a c : ℝ → Val ι) (a' c' : Val ι) (t : ℝ) (ha : HasD a a' t) (hc : HasD c c' t)
    (hd : (a t).All2 b.dom (c t)) : ∃ v : Val ι, v.isS = (a'.isS && c'.isS) ∧ HasD (fun s => Val.map2 b.fn (a s) (c s)) v t ∧
      ∀ g : Val ι, g.isS = (a'.isS && c'.isS) →
        dot g v = dot (fit a'.isS (Val.map4 (binDiffL b) (a t) (c t) (Val.map2 b.fn (a t) (c t)) g)) a' +
          dot (fit c'.isS (Val.map4 (binDiffR b) (a t) (c t) (Val.map2 b.fn (a t) (c t)) g)) c' := by
  by_cases hk : (a'.isS && c'.isS) = true
  · rw [Bool.and_eq_true] at hk
    obtain ⟨a', rfl⟩ := isS_true hk.1
    obtain ⟨c', rfl⟩ := isS_true hk.2
    obtain ⟨f, f1, f2⟩ := ha
    obtain ⟨e, e1, e2⟩ := hc
    rw [f1 t, e1 t] at hd
    obtain ⟨v, v1, v2⟩ := binDiff_correct b (f t) (e t) hd f e a' c' t f2 e2 rfl rfl
    refine ⟨.s v, rfl, ⟨_, fun s => by beta_reduce; rw [f1 s, e1 s]; rfl, v1⟩, ?_⟩
    intro g hg
    obtain ⟨g, rfl⟩ := isS_true hg
    rw [f1 t, e1 t]
    simp only [Val.map2, Val.map4, fit, Val.isS, if_true, Val.sum, dot]
    exact v2 g
  · have hk' : (a'.isS && c'.isS) = false := by simpa using hk
    have hs : ∀ s, ((a s).isS && (c s).isS) = false := fun s => by rw [ha.isS s, hc.isS s]; exact hk'
    have key : ∀ i, ∃ v, HasDerivAt (fun s => b.fn ((a s).at' i) ((c s).at' i)) v t ∧
      ∀ g, g * v = binDiffL b ((a t).at' i) ((c t).at' i) (b.fn ((a t).at' i) ((c t).at' i)) g * a'.at' i +
        binDiffR b ((a t).at' i) ((c t).at' i) (b.fn ((a t).at' i) ((c t).at' i)) g * c'.at' i := fun i =>
      binDiff_correct b _ _ (All2_at _ _ _ hd i) _ _ _ _ t (ha.at' i) (hc.at' i) rfl rfl
    choose v v1 v2 using key
    refine ⟨.t v, by rw [hk']; rfl, ⟨_, fun s => map2_t _ _ _ (hs s), v1⟩, ?_⟩
    intro g hg
    obtain ⟨g, rfl⟩ := isS_false (hg.trans hk')
    rw [map2_t _ _ _ (hs t), map4_t _ _ _ _ _ rfl, map4_t _ _ _ _ _ rfl, fit_dot, fit_dot, ← Finset.sum_add_distrib]
    exact Finset.sum_congr rfl (fun i _ => v2 i (g i))

/-- Along any curve of bindings, all nodes move with velocities that are adjoint to the contributions. -/
theorem tangents (G : Graph) (ok : G.OK) (c : ℝ → Nat → Val ι) (c' : Nat → Val ι) (t : ℝ) (hb : G.Bound (c t))
    (hin : ∀ j, G.op j = .input → HasD (fun s => c s j) (c' j) t)
    (hco : ∀ j, G.op j = .const → ∀ s, c s j = c t j)
    (hs : G.Smooth (c t)) (n : Nat) :
    ∃ T : Nat → Val ι, ∀ i, i < n → (T i).isS = G.sc i ∧ HasD (fun s => G.value (c s) i) (T i) t ∧
      (G.op i = .input → T i = c' i) ∧ (G.op i = .const → T i = (c t i).map fun _ => 0) ∧
      ((G.op i).isAD = true → ∀ g : Val ι, g.isS = G.sc i → dot g (T i) =
        ∑ k ∈ Finset.range (G.op i).arity, dot (G.contrib (G.value (c t)) i k g) (T (G.kid i k))) := by
  induction n with
  | zero => exact ⟨c', fun i h => absurd h (Nat.not_lt_zero i)⟩
  | succ n ih =>
    obtain ⟨T, hT⟩ := ih
    have hl := ok.lt n
    -- the velocity of node `n`
    have key : ∃ v : Val ι, v.isS = G.sc n ∧ HasD (fun s => G.value (c s) n) v t ∧
        (G.op n = .input → v = c' n) ∧ (G.op n = .const → v = (c t n).map fun _ => 0) ∧
        ((G.op n).isAD = true → ∀ g : Val ι, g.isS = G.sc n → dot g v =
          ∑ k ∈ Finset.range (G.op n).arity, dot (G.contrib (G.value (c t)) n k g) (T (G.kid n k))) := by
      have hval : ∀ s, G.value (c s) n = match G.op n with
        | .input | .const => c s n
        | .un u => (G.value (c s) (G.kid n 0)).map u.fn
        | .bin b => Val.map2 b.fn (G.value (c s) (G.kid n 0)) (G.value (c s) (G.kid n 1))
        | .sum => .s (G.value (c s) (G.kid n 0)).sum
        | .reshape => G.value (c s) (G.kid n 0) := fun s => value_eq G ok (c s) n
      have hfun : (fun s => G.value (c s) n) = fun s => _ := funext hval
      cases hop : G.op n with
      | input =>
        rw [hop] at hval
        refine ⟨c' n, ?_, ?_, fun _ => rfl, fun h => (by cases h), fun h => (by cases h)⟩
        · rw [← (hin n hop).isS t]; exact hb n (by rw [hop]; rfl)
        · rw [show (fun s => G.value (c s) n) = fun s => c s n from funext hval]; exact hin n hop
      | const =>
        rw [hop] at hval
        have hbn : (c t n).isS = G.sc n := hb n (by rw [hop]; rfl)
        refine ⟨(c t n).map fun _ => 0, by rw [map_isS]; exact hbn, ?_, fun h => (by cases h), fun _ => rfl, fun h => (by cases h)⟩
        rw [show (fun s => G.value (c s) n) = fun _ => c t n from funext fun s => (hval s).trans (hco n hop s)]
        cases c t n with
        | s x => exact ⟨fun _ => x, fun _ => rfl, hasDerivAt_const _ _⟩
        | t x => exact ⟨fun _ => x, fun _ => rfl, fun i => hasDerivAt_const _ _⟩
      | un u =>
        rw [hop] at hval hl
        obtain ⟨k1, k2, -⟩ := hT _ (hl 0 (by simp [Op.arity]))
        obtain ⟨su, sm⟩ := hs.un n u hop
        obtain ⟨v, v1, v2, v3⟩ := un_adjoint u su _ _ t k2 sm
        refine ⟨v, by rw [v1, k1, ok.un n u hop], ?_, fun h => (by cases h), fun h => (by cases h), fun _ g hg => ?_⟩
        · rw [funext hval]; exact v2
        · rw [v3 g (by rw [hg, k1, ok.un n u hop])]
          simp only [Op.arity, Finset.sum_range_one, Graph.contrib, hop]
          rw [hval t]
      | bin b =>
        rw [hop] at hval hl
        obtain ⟨k1, k2, -⟩ := hT _ (hl 0 (by simp [Op.arity]))
        obtain ⟨l1, l2, -⟩ := hT _ (hl 1 (by simp [Op.arity]))
        obtain ⟨v, v1, v2, v3⟩ := bin_adjoint b _ _ _ _ t k2 l2 (hs.bin n b hop)
        refine ⟨v, by rw [v1, k1, l1, ok.bin n b hop], ?_, fun h => (by cases h), fun h => (by cases h), fun _ g hg => ?_⟩
        · rw [funext hval]; exact v2
        · rw [v3 g (by rw [hg, k1, l1, ok.bin n b hop])]
          simp only [Op.arity, Finset.sum_range_succ, Finset.sum_range_zero, zero_add, Graph.contrib, hop, if_true,
            Nat.one_ne_zero, if_false]
          rw [hval t, k1, l1]
      | sum =>
        rw [hop] at hval hl
        obtain ⟨k1, k2, -⟩ := hT _ (hl 0 (by simp [Op.arity]))
        obtain ⟨s1, s2⟩ := ok.sum n hop
        refine ⟨.s (T (G.kid n 0)).sum, by rw [s1]; rfl, ?_, fun h => (by cases h), fun h => (by cases h), fun _ g hg => ?_⟩
        · rw [funext hval]; exact ⟨_, fun _ => rfl, k2.sum⟩
        · obtain ⟨g, rfl⟩ := isS_true (hg.trans s1)
          obtain ⟨w, hw⟩ := isS_false (k1.trans s2)
          simp only [Op.arity, Finset.sum_range_one, Graph.contrib, hop, hw, dot, Val.sum, Finset.mul_sum]
      | reshape =>
        rw [hop] at hval hl
        obtain ⟨k1, k2, -⟩ := hT _ (hl 0 (by simp [Op.arity]))
        obtain ⟨s1, s2⟩ := ok.reshape n hop
        refine ⟨T (G.kid n 0), by rw [k1, s1, s2], ?_, fun h => (by cases h), fun h => (by cases h), fun _ g hg => ?_⟩
        · rw [funext hval]; exact k2
        · simp only [Op.arity, Finset.sum_range_one, Graph.contrib, hop]
    obtain ⟨v, v1, v2, v3, v4, v5⟩ := key
    refine ⟨upd T n v, fun i hi => ?_⟩
    have hne : ∀ i, i ≠ n → upd T n v i = T i := fun i h => if_neg h
    have heq : upd T n v n = v := if_pos rfl
    by_cases e : i = n
    · subst e
      rw [heq]
      refine ⟨v1, v2, v3, v4, fun h g hg => ?_⟩
      rw [v5 h g hg]
      refine Finset.sum_congr rfl (fun k hk => ?_)
      rw [hne _ (Nat.ne_of_lt (hl k (Finset.mem_range.1 hk)))]
    · rw [hne i e]
      obtain ⟨a1, a2, a3, a4, a5⟩ := hT i (by omega)
      refine ⟨a1, a2, a3, a4, fun h g hg => ?_⟩
      rw [a5 h g hg]
      refine Finset.sum_congr rfl (fun k hk => ?_)
      have := ok.lt i k (Finset.mem_range.1 hk)
      rw [hne _ (by omega)]

/-- The sum of all elements of all roots (the cost, if there is one root and it is a scalar). -/
noncomputable def Graph.cost (G : Graph) (W : Nat → Val ι) : ℝ :=
  ∑ r ∈ Finset.range G.length, if ((G.op r).isAD && G.root r) = true then (G.value W r).sum else 0

/-- **C21, partial (the gradients).** After a first run on bindings `c t`, the gradients left in the inputs are the gradient
of the cost: along every curve of bindings through `c t`, the cost changes at the rate given by pairing the gradients of
the inputs with the velocities of the inputs. Missing: graphs violating `Fresh`, and `inverseSqrt`, for which it is false
(`scalar_counted_twice`, `reshape_overwrites`, `inverseSqrt_no_gradient`); powers of a tensor with a scalar exponent, for
which the run fails (`pow_fails`). -/
theorem lisp_gradient_partial (G : Graph) (ok : G.OK) (fr : G.Fresh) (c : ℝ → Nat → Val ι) (c' : Nat → Val ι) (t : ℝ)
    (hb : G.Bound (c t)) (hin : ∀ j, G.op j = .input → HasD (fun s => c s j) (c' j) t)
    (hco : ∀ j, G.op j = .const → ∀ s, c s j = c t j) (hs : G.Smooth (c t)) (m : Machine ι)
    (h : G.runAll (new true (c t)) = some m) :
    HasDerivAt (fun s => G.cost (c s))
      (∑ j ∈ Finset.range G.length, if G.op j = .input then dot (m.D j) (c' j) else 0) t := by
  obtain ⟨hW, I⟩ := runAll_spec G ok fr (c t) hb m h
  obtain ⟨T, hT⟩ := tangents G ok c c' t hb hin hco hs G.length
  have hcost : HasDerivAt (fun s => G.cost (c s))
      (∑ r ∈ Finset.range G.length, if ((G.op r).isAD && G.root r) = true then (T r).sum else 0) t := by
    unfold Graph.cost
    refine HasDerivAt.fun_sum (fun r hr => ?_)
    split
    · exact (hT r (Finset.mem_range.1 hr)).2.1.sum
    · exact hasDerivAt_const _ _
  refine hcost.congr_deriv ?_
  set n := G.length with hn
  -- total pairing over the nodes that are not constants
  let nc : Nat → Prop := fun j => G.op j ≠ .const
  have hseed : ∀ j, j < n → (if nc j then dot (G.seed (G.value (c t)) j) (T j) else 0) =
      if ((G.op j).isAD && G.root j) = true then (T j).sum else 0 := by
    intro j hj
    have hk : (G.value (c t) j).isS = (T j).isS := by rw [value_isS G ok _ hb, (hT j hj).1]
    unfold Graph.seed
    by_cases e : ((G.op j).isAD && G.root j) = true
    · have : nc j := by intro hc; rw [hc] at e; simp [Op.isAD] at e
      simp only [e, if_true, if_pos this]
      exact dot_ones _ _ hk
    · simp only [e, if_false, Bool.false_eq_true]
      rw [dot_zero_left]; simp
  have hsum : ∑ j ∈ Finset.range n, (if nc j then dot (m.D j) (T j) else 0) =
      (∑ r ∈ Finset.range n, if ((G.op r).isAD && G.root r) = true then (T r).sum else 0) +
      ∑ i ∈ Finset.range n, if (G.op i).isAD = true then dot (m.D i) (T i) else 0 := by
    have e1 : ∀ j ∈ Finset.range n, (if nc j then dot (m.D j) (T j) else 0) =
        (if ((G.op j).isAD && G.root j) = true then (T j).sum else 0) +
        ∑ i ∈ Finset.range n, ∑ k ∈ Finset.range (G.op i).arity,
          if G.kid i k = j ∧ nc j then dot (G.contrib (G.value (c t)) i k (m.D i)) (T j) else 0 := by
      intro j hj
      have hj' := Finset.mem_range.1 hj
      rw [← hseed j hj']
      by_cases e : nc j
      · simp only [e, if_true, and_true]
        rw [I.sums j e (T j) (hT j hj').1, ← Finset.range_eq_Ico]
        rfl
      · simp [e]
    rw [Finset.sum_congr rfl e1, Finset.sum_add_distrib]
    congr 1
    rw [Finset.sum_comm]
    refine Finset.sum_congr rfl (fun i hi => ?_)
    have hi' := Finset.mem_range.1 hi
    rw [Finset.sum_comm]
    have e2 : ∀ k ∈ Finset.range (G.op i).arity, (∑ j ∈ Finset.range n,
        if G.kid i k = j ∧ nc j then dot (G.contrib (G.value (c t)) i k (m.D i)) (T j) else 0) =
        dot (G.contrib (G.value (c t)) i k (m.D i)) (T (G.kid i k)) := by
      intro k hk
      have hlt := ok.lt i k (Finset.mem_range.1 hk)
      have hmem : G.kid i k ∈ Finset.range n := Finset.mem_range.2 (by omega)
      by_cases e : nc (G.kid i k)
      · rw [Finset.sum_eq_single_of_mem _ hmem (fun j _ hne => if_neg (fun h => hne h.1.symm)), if_pos ⟨rfl, e⟩]
      · have hz := (hT (G.kid i k) (by omega)).2.2.2.1 (not_not.1 e)
        rw [hz, dot_zero_right]
        exact Finset.sum_eq_zero (fun j _ => if_neg (fun (h : G.kid i k = j ∧ nc j) => e (h.1.symm ▸ h.2)))
    rw [Finset.sum_congr rfl e2]
    split
    · rename_i e
      exact ((hT i hi').2.2.2.2 e _ (I.kind i)).symm
    · rename_i e
      have : (G.op i).arity = 0 := by cases hop : G.op i <;> simp [hop, Op.isAD] at e <;> rfl
      rw [this]; rfl
  have hsplit : ∑ j ∈ Finset.range n, (if nc j then dot (m.D j) (T j) else 0) =
      (∑ j ∈ Finset.range n, if G.op j = .input then dot (m.D j) (c' j) else 0) +
      ∑ i ∈ Finset.range n, if (G.op i).isAD = true then dot (m.D i) (T i) else 0 := by
    rw [← Finset.sum_add_distrib]
    refine Finset.sum_congr rfl (fun j hj => ?_)
    have hj' := Finset.mem_range.1 hj
    by_cases h1 : G.op j = .input
    · have h2 : nc j := by show G.op j ≠ _; rw [h1]; intro h; cases h
      rw [if_pos h2, if_pos h1, (hT j hj').2.2.1 h1, if_neg (by rw [h1]; simp [Op.isAD]), add_zero]
    · rw [if_neg h1, zero_add]
      by_cases h2 : G.op j = .const
      · rw [if_neg (not_not.2 h2), if_neg (by rw [h2]; simp [Op.isAD])]
      · rw [if_pos h2, if_pos]
        cases hop : G.op j with
        | input => exact absurd hop h1
        | const => exact absurd hop h2
        | _ => rfl
  linarith [hsum, hsplit]

/-! ### When the run succeeds -/

theorem doDiff_some (G : Graph) (W : Nat → Val ι) (i : Nat) (D : Nat → Val ι) :
    (G.doDiff W i D).isSome = true ↔ (∀ u, G.op i = .un u → u ≠ .sign ∧ u ≠ .ceil ∧ u ≠ .floor) ∧
      ¬ (G.op i = .bin .pow ∧ G.sc (G.kid i 0) = false ∧ G.sc (G.kid i 1) = true) := by
  unfold Graph.doDiff
  cases hop : G.op i with
  | input => simp
  | const => simp
  | un u => cases u <;> simp [numDiff]
  | bin b =>
    simp only [reduceCtorEq, false_implies, implies_true, true_and, Op.bin.injEq]
    split
    · rename_i h; simp [h]
    · rename_i h; simpa using h
  | sum => simp
  | reshape => simp

theorem back_some (G : Graph) (W : Nat → Val ι) (l : List Nat) (D : Nat → Val ι) :
    (G.back W l D).isSome = true ↔ ∀ i ∈ l, (∀ u, G.op i = .un u → u ≠ .sign ∧ u ≠ .ceil ∧ u ≠ .floor) ∧
      ¬ (G.op i = .bin .pow ∧ G.sc (G.kid i 0) = false ∧ G.sc (G.kid i 1) = true) := by
  induction l with
  | nil => simp [Graph.back]
  | cons i l ih =>
    rw [List.forall_mem_cons, ← ih]
    show (Option.bind (G.back W l D) (G.doDiff W i)).isSome = true ↔ _
    cases hb : G.back W l D with
    | none => simp
    | some D' => rw [Option.bind_some, doDiff_some]; simp

/-- The first run of the machine succeeds exactly if no `sign`, `ceil` or `floor` occurs and no power of a tensor with a
scalar exponent. -/
theorem runAll_succeeds (G : Graph) (ok : G.OK) (W : Nat → Val ι) :
    (G.runAll (new true W)).isSome = true ↔ ∀ i, i < G.length →
      (∀ u, G.op i = .un u → u ≠ .sign ∧ u ≠ .ceil ∧ u ≠ .floor) ∧
      ¬ (G.op i = .bin .pow ∧ G.sc (G.kid i 0) = false ∧ G.sc (G.kid i 1) = true) := by
  have hle : ((G.length : Int) - (new true W : Machine ι).fwd).toNat = G.length := by simp [new]
  obtain ⟨-, -, c, d, -⟩ := loopF_spec G ok W G.length 0 (new true W) rfl rfl (fun j => by simp [new])
    (fun j _ => by simp [new]) (by simp [new]) (fun j => Or.inr (Nat.zero_le _))
  have hbp : (G.loopF G.length (new true W : Machine ι)).bp = true := (loopF_ran G G.length 0 (new true W) rfl).2.2
  simp only [Nat.zero_add] at c d
  unfold Graph.runAll
  simp only [hle]
  generalize hF : G.loopF G.length (new true W : Machine ι) = F at c d hbp ⊢
  rw [if_neg (by rw [hbp]; simp), if_pos (show F.bwd < 0 by rw [d]; simp [new])]
  have hq : ((F.q.length : Int) - 1 + 1).toNat = F.q.length := by omega
  simp only [hq, Option.isSome_map]
  have hD := loopB_back G F.q.length { F with bwd := (F.q.length : Int) - 1 } rfl (Nat.le_refl _)
  simp only [List.take_length] at hD
  rw [c, back_filter] at hD
  rw [← Option.isSome_map (f := fun m => m.D), c, hD, back_some]
  simp only [List.mem_range]

/-! ### Where it goes wrong -/

/-- `sum(x + v) + x` for a scalar `x` and a vector `v`. -/
def shared : Graph :=
  [⟨.input, [], true⟩, ⟨.input, [], false⟩, ⟨.bin .add, [0, 1], false⟩, ⟨.sum, [2], true⟩, ⟨.bin .add, [3, 0], true⟩]

/-- `sum(reshape v + v)`. -/
def reshaped : Graph :=
  [⟨.input, [], false⟩, ⟨.reshape, [0], false⟩, ⟨.bin .add, [1, 0], false⟩, ⟨.sum, [2], true⟩]

/-- `inverseSqrt x` for a scalar. -/
def invSqrt : Graph := [⟨.input, [], true⟩, ⟨.un .inverseSqrt, [0], true⟩]

/-- `v ^ x`, summed. -/
def power : Graph := [⟨.input, [], false⟩, ⟨.input, [], true⟩, ⟨.bin .pow, [0, 1], false⟩, ⟨.sum, [2], true⟩]

/-- **C21 fails** where a scalar is combined with a tensor and has a later user: the gradient of `x` in `sum(x + v) + x`
(for two elements) is 4, its derivative is 3. -/
theorem scalar_counted_twice (x : ℝ) (v : Bool → ℝ) :
    ∃ m : Machine Bool, shared.runAll (new true fun j => if j = 1 then .t v else .s x) = some m ∧ m.D 0 = .s 4 ∧
      HasDerivAt (fun s => shared.cost fun j => if j = 1 then .t v else (.s s : Val Bool)) 3 x := by
  refine ⟨_, rfl, ?_, ?_⟩
  · simp [shared, Graph.loopF, Graph.loopB, Graph.doDiff, Graph.forward, Graph.apply, Graph.op, Graph.kid, Graph.node, Graph.sc, Graph.root,
      upd, Val.map, Val.map2, Val.map4, Val.isS, Val.sum, Val.at', acc, binDiffL, binDiffR, Op.arity, Op.isAD, new, List.range_succ]
    norm_num
  · have : (fun s => shared.cost fun j => if j = 1 then .t v else (.s s : Val Bool)) =
        fun s => (s + v true) + (s + v false) + s := by
      funext s
      simp [shared, Graph.cost, Finset.sum_range_succ, Graph.value, Graph.valueF, Graph.op, Graph.kid, Graph.node, Graph.root,
        Op.arity, Op.isAD, List.range_succ, Val.map2, Val.sum, Val.at', BOp.fn]
    rw [this]
    refine ((((hasDerivAt_id x).add_const (v true)).add ((hasDerivAt_id x).add_const (v false))).add (hasDerivAt_id x)).congr_deriv ?_
    norm_num

/-- **C21 fails** where the operand of a reshape has a later user: the gradient of `v` in `sum(reshape v + v)` is 1 in every
element, its derivative is 2. -/
theorem reshape_overwrites (v : Unit → ℝ) :
    ∃ m : Machine Unit, reshaped.runAll (new true fun _ => .t v) = some m ∧ m.D 0 = .t (fun _ => 1) ∧
      ∀ x, HasDerivAt (fun s => reshaped.cost fun _ => (.t (fun _ => s) : Val Unit)) 2 x := by
  refine ⟨_, rfl, ?_, fun x => ?_⟩
  · simp [reshaped, Graph.loopF, Graph.loopB, Graph.doDiff, Graph.forward, Graph.apply, Graph.op, Graph.kid, Graph.node, Graph.sc, Graph.root,
      upd, Val.map, Val.map2, Val.map4, Val.isS, Val.sum, Val.at', acc, binDiffL, binDiffR, Op.arity, Op.isAD, new, List.range_succ]
  · have : (fun s => reshaped.cost fun _ => (.t (fun _ => s) : Val Unit)) = fun s => s + s := by
      funext s
      simp [reshaped, Graph.cost, Finset.sum_range_succ, Graph.value, Graph.valueF, Graph.op, Graph.kid, Graph.node, Graph.root,
        Op.arity, Op.isAD, List.range_succ, Val.map2, Val.sum, Val.at', BOp.fn]
    rw [this]
    refine ((hasDerivAt_id x).add (hasDerivAt_id x)).congr_deriv ?_
    norm_num

/-- **C21 fails** for `inverseSqrt`: it passes no gradient on, for any operand; its derivative is never 0. -/
theorem inverseSqrt_no_gradient (x : ℝ) (hx : 0 < x) :
    ∃ m : Machine Unit, invSqrt.runAll (new true fun _ => .s x) = some m ∧ m.D 1 = .s 1 ∧ m.D 0 = .s 0 ∧
      ∃ d, d ≠ 0 ∧ HasDerivAt (fun s => invSqrt.cost fun _ => (.s s : Val Unit)) d x := by
  refine ⟨_, rfl, ?_, ?_, UOp.der .inverseSqrt x, ?_, ?_⟩
  · simp [invSqrt, Graph.loopF, Graph.loopB, Graph.doDiff, Graph.forward, Graph.apply, Graph.op, Graph.kid, Graph.node, Graph.sc, Graph.root,
      upd, Val.map, Val.map2, Val.map3, Val.isS, Val.sum, Val.at', acc, numDiff, Op.arity, Op.isAD, new, List.range_succ]
  · simp [invSqrt, Graph.loopF, Graph.loopB, Graph.doDiff, Graph.forward, Graph.apply, Graph.op, Graph.kid, Graph.node, Graph.sc, Graph.root,
      upd, Val.map, Val.map2, Val.map3, Val.isS, Val.sum, Val.at', acc, numDiff, Op.arity, Op.isAD, new, List.range_succ]
  · have := Real.sqrt_pos.2 hx
    simp only [UOp.der]
    have : 0 < 1 / (2 * (x * Real.sqrt x)) := by positivity
    linarith
  · have : (fun s => invSqrt.cost fun _ => (.s s : Val Unit)) = UOp.fn .inverseSqrt := by
      funext s
      simp [invSqrt, Graph.cost, Finset.sum_range_succ, Graph.value, Graph.valueF, Graph.op, Graph.kid, Graph.node, Graph.root,
        Op.arity, Op.isAD, List.range_succ, Val.map, Val.sum]
    rw [this]
    exact UOp.hasDerivAt .inverseSqrt x ⟨hx, by simp, by simp, by simp, by simp⟩

/-! Checking the conditions on concrete graphs. -/

def Graph.kindsAt (G : Graph) (i : Nat) : Bool :=
  match G.op i with
  | .input | .const => true
  | .un _ => G.sc i == G.sc (G.kid i 0)
  | .bin _ => G.sc i == (G.sc (G.kid i 0) && G.sc (G.kid i 1))
  | .sum => G.sc i && !G.sc (G.kid i 0)
  | .reshape => !G.sc i && !G.sc (G.kid i 0)

theorem ok_of (G : Graph) (h : ∀ i < G.length, (∀ k < (G.op i).arity, G.kid i k < i) ∧ G.kindsAt i = true) : G.OK := by
  have hin : ∀ i, G.op i ≠ .input → i < G.length := fun i hi => by
    by_contra hc; exact hi (op_out G i (by omega))
  refine ⟨fun i k hk => ?_, fun i u e => ?_, fun i b e => ?_, fun i e => ?_, fun i e => ?_⟩
  · refine (h i (hin i ?_)).1 k hk
    intro e; rw [e] at hk; simp [Op.arity] at hk
  all_goals
    have := (h i (hin i (by rw [e]; intro h; cases h))).2
    simpa [Graph.kindsAt, e] using this

def Graph.freshB (G : Graph) : Bool :=
  (List.range G.length).all fun i => (List.range (G.op i).arity).all fun k => decide (G.op (G.kid i k) = .const) ||
    !(decide (G.op i = .reshape) || (G.sc (G.kid i k) && !G.sc i)) ||
    (List.range G.length).all fun j => (List.range (G.op j).arity).all fun k' => decide (j ≤ i) || decide (G.kid j k' ≠ G.kid i k)

theorem fresh_of (G : Graph) (h : G.freshB = true) : G.Fresh := by
  have hin : ∀ i k, k < (G.op i).arity → i < G.length := fun i k hk => by
    by_contra hc; rw [op_out G i (by omega)] at hk; simp [Op.arity] at hk
  intro i k hk hc hcase j hj k' hk'
  unfold Graph.freshB at h
  simp only [List.all_eq_true, List.mem_range, Bool.or_eq_true, decide_eq_true_eq, Bool.not_eq_true', Bool.or_eq_false_iff,
    decide_eq_false_iff_not, Bool.and_eq_false_iff, Bool.not_eq_false'] at h
  rcases h i (hin i k hk) k hk with (h | h) | h
  · exact absurd h hc
  · rcases hcase with e | ⟨e1, e2⟩
    · exact absurd e h.1
    · rcases h.2 with h | h
      · rw [e1] at h; cases h
      · rw [e2] at h; cases h
  · rcases h j (hin j k' hk') k' hk' with h | h
    · omega
    · exact h

theorem power_ok : power.OK := ok_of power (by decide)

/-- A power of a tensor with a scalar exponent makes every first run fail, although it has a derivative wherever the elements
are positive. -/
theorem pow_fails (W : Nat → Val ι) : power.runAll (new true W) = none := by
  have := (runAll_succeeds power power_ok W).not.2 (fun h => (h 2 (by decide)).2 ⟨rfl, rfl, rfl⟩)
  simpa using this

/-- `sum((x + v) * v)` for a scalar `x` and a vector `v`: `v` has two users, `x` is combined with a tensor. -/
def sharedOk : Graph :=
  [⟨.input, [], true⟩, ⟨.input, [], false⟩, ⟨.bin .add, [0, 1], false⟩, ⟨.bin .mul, [2, 1], false⟩, ⟨.sum, [3], true⟩]

/-- Concrete case: the conditions hold, and the gradients for `x = 5`, `v = (2, 3)` are `2 + 3` and `x + 2 v`. -/
example : sharedOk.OK ∧ sharedOk.Fresh ∧
    ∃ m : Machine Bool, sharedOk.runAll (new true fun j => if j = 1 then .t (fun b => if b then 3 else 2) else .s 5) = some m ∧
      m.D 0 = .s 5 ∧ m.D 1 = .t (fun b => if b then 11 else 9) := by
  refine ⟨ok_of _ (by decide), fresh_of _ (by decide), _, rfl, ?_, ?_⟩
  · simp [sharedOk, Graph.loopF, Graph.loopB, Graph.doDiff, Graph.forward, Graph.apply, Graph.op, Graph.kid, Graph.node, Graph.sc, Graph.root,
      upd, Val.map, Val.map2, Val.map4, Val.isS, Val.sum, Val.at', acc, binDiffL, binDiffR, Op.arity, Op.isAD, new, List.range_succ]
    norm_num
  · simp [sharedOk, Graph.loopF, Graph.loopB, Graph.doDiff, Graph.forward, Graph.apply, Graph.op, Graph.kid, Graph.node, Graph.sc, Graph.root,
      upd, Val.map, Val.map2, Val.map4, Val.isS, Val.sum, Val.at', acc, binDiffL, binDiffR, Op.arity, Op.isAD, new, List.range_succ, BOp.fn]
    funext b
    cases b <;> norm_num

end Verif.Lisp
