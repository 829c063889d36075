import Verif.AD.ConvNet
/-!
The cost of the convolutional network of `ConvNet.lean`, written out.
-/
set_option autoImplicit false
namespace Verif.AD
open Verif.Tensor Verif.Shape Verif.NN Verif.LinAlg Filter

noncomputable section

/-- The feature `(li, i, j)` of image `bi`: the largest rectified output of the convolution in the window. -/
def cnnFeature (op : Conv) (po : Pool) (X F : T ℝ) (c h w bi li i j : Nat) : ℝ :=
  sSup {v | ∃ y x, InWindow po po.padNorth po.padWest (op.retH h).toNat (op.retW w).toNat i j y x ∧ v = max (textbook op X F c h w bi li y x) 0}

/-- The score of class `k`: the features, in row-major order, times column `k` of the weights. -/
def cnnScore (op : Conv) (po : Pool) (X F W : T ℝ) (c h w l bi k : Nat) : ℝ :=
  let oh := (po.outH (op.retH h).toNat).toNat
  let ow := (po.outW (op.retW w).toNat).toNat
  ∑ li ∈ Finset.range l, ∑ i ∈ Finset.range oh, ∑ j ∈ Finset.range ow,
    cnnFeature op po X F c h w bi li i j * W.at_ [(li * oh + i) * ow + j, k]

/-- The cross entropy between `Y` and the softmax of the scores. -/
def cnnCost (op : Conv) (po : Pool) (X F W Y : T ℝ) (b c h w l k : Nat) : ℝ :=
  -∑ bi ∈ Finset.range b, ∑ ki ∈ Finset.range k, Y.at_ [bi, ki] *
    Real.log (Real.exp (cnnScore op po X F W c h w l bi ki) / ∑ kj ∈ Finset.range k, Real.exp (cnnScore op po X F W c h w l bi kj))

/-- The value of `maxPoolOp` on a tensor: the largest element of each window. -/
theorem poolRun_max (op : Pool) (hsym : op.symmetric) (lo : ℝ) (b c h w : Nat) (x : T ℝ) (hx : x.shape = [b, c, h, w])
    (hh : 0 ≤ op.outH h) (hw : 0 ≤ op.outW w) (hlo : ∀ i, InB x.shape i → lo < x.at_ i) (hcov : Covered op h w) :
    ∃ y, (maxPoolTOp op lo).run [x] = .ok y ∧ y.shape = [b, c, (op.outH h).toNat, (op.outW w).toNat] ∧
      ∀ bi ch i j : Nat, bi < b → ch < c → (i : Int) < op.outH h → (j : Int) < op.outW w → y.at_ [bi, ch, i, j] =
        sSup {v | ∃ p q, InWindow op op.padNorth op.padWest h w i j p q ∧ v = x.at_ [bi, ch, p, q]} := by
  have hs4 : size [b, c, h, w] = b * c * (h * w) := by simp only [size, Nat.mul_one]; ring
  obtain ⟨out, mk, e1, e2⟩ := pool_max_partial op hsym lo b c h w (data x) (List.replicate (b * c * ((op.outH h).toNat * (op.outW w).toNat)) 0)
    hh hw (by rw [data_length, hx, hs4]) (by
      intro z hz
      simp only [data, List.mem_map, List.mem_range] at hz
      obtain ⟨p, hp, rfl⟩ := hz
      exact hlo _ (inB_unravel hp)) (by rw [List.length_replicate])
  refine ⟨ofData [b, c, (op.outH h).toNat, (op.outW w).toNat] out, ?_, rfl, fun bi ch i j hb hc hi hj => ?_⟩
  · simp only [maxPoolTOp, TOp.one, poolRun, hx, e1]
    rfl
  · obtain ⟨p, q, f1, -, -, f2, f3⟩ := e2 bi ch i j hb hc hi hj (hcov i j hi hj)
    have hd : ∀ p q, InWindow op op.padNorth op.padWest h w i j p q →
        (data x).getD (ravel [b, c, h, w] [bi, ch, p, q]) 0 = x.at_ [bi, ch, p, q] := by
      intro p q hpq
      have hin : InB [b, c, h, w] [bi, ch, p, q] := ⟨hb, hc, hpq.2.2.1, hpq.2.2.2.2.2, trivial⟩
      rw [data_getD x _ (by rw [hx]; exact ravel_lt hin), T.flat, hx, unravel_ravel hin]
    show out.getD (ravel _ [bi, ch, i, j]) 0 = _
    rw [List.getD_eq_getElem?_getD, f2, Option.getD_some, hd p q f1]
    have hg : IsGreatest {v | ∃ p q, InWindow op op.padNorth op.padWest h w i j p q ∧ v = x.at_ [bi, ch, p, q]} (x.at_ [bi, ch, p, q]) := by
      refine ⟨⟨p, q, f1, rfl⟩, ?_⟩
      rintro v ⟨p', q', h1, rfl⟩
      rw [← hd p q f1, ← hd p' q' h1]
      exact f3 p' q' h1
    exact hg.csSup_eq.symm

/-- The cost of the network is the cross entropy, for all data. -/
theorem cnn_value (op : Conv) (o1 o2 : List Nat) (po : Pool) (lo : ℝ) (b c h w l k : Nat) (x : Nat → T ℝ)
    (h1 : o1.Perm (List.range b)) (h2 : o2.Perm (List.range b)) (hlo : lo < 0) (hsym : po.symmetric)
    (hcov : Covered po (op.retH h).toNat (op.retW w).toNat)
    (hY : (x 3).shape = [b, k])
    (hW : (x 7).shape = [l * ((po.outH (op.retH h).toNat).toNat * (po.outW (op.retW w).toNat).toNat), k])
    (hF : (x 18).shape = [l, c, op.h, op.w]) (hX : (x 19).shape = [b, c, h, w]) (hb : 0 < b) (hk : 0 < k)
    (hh : 0 < op.retH h) (hw : 0 < op.retW w) (ph : 0 ≤ po.outH (op.retH h).toNat) (pw : 0 ≤ po.outW (op.retW w).toNat)
    (p1 : 0 < op.h) (p2 : 0 < op.w) (p3 : 0 < op.strideH) (p4 : 0 < op.strideW) (p5 : 0 < op.dilationH) (p6 : 0 < op.dilationW) :
    ∃ y, (cnn op o1 o2 po lo b (op.retH h).toNat (op.retW w).toNat c l).value x 0 = .ok y ∧ y.shape = [] ∧
      y.at_ [] = cnnCost op po (x 19) (x 18) (x 7) (x 3) b c h w l k := by
  obtain ⟨m, hm⟩ : ∃ m, m = (op.retH h).toNat := ⟨_, rfl⟩
  obtain ⟨n, hn⟩ : ∃ n, n = (op.retW w).toNat := ⟨_, rfl⟩
  obtain ⟨G, hG⟩ : ∃ G, G = cnn op o1 o2 po lo b (op.retH h).toNat (op.retW w).toNat c l := ⟨_, rfl⟩
  have W : G.Sorted := by rw [hG]; exact cnn_sorted op o1 o2 po lo b _ _ c l
  rw [← hG]
  obtain ⟨-, u, u1, u2, u3⟩ := conv_part G W x 12 op o1 o2 b c h w l (by rw [hG]; rfl) h1 h2 hX hF hh.le hw.le p1 p2 p3 p4 p5 p6
  have hfeat : ∀ bi li i j, cnnFeature op po (x 19) (x 18) c h w bi li i j = sSup {v | ∃ y z, InWindow po po.padNorth po.padWest m n i j y z ∧
      v = max (textbook op (x 19) (x 18) c h w bi li y z) 0} := by
    intro bi li i j
    unfold cnnFeature
    rw [hm, hn]
  obtain ⟨oh, hoh⟩ : ∃ oh, oh = (po.outH m).toNat := ⟨_, rfl⟩
  obtain ⟨ow, how⟩ : ∃ ow, ow = (po.outW n).toNat := ⟨_, rfl⟩
  have hscore : ∀ bi k, cnnScore op po (x 19) (x 18) (x 7) c h w l bi k = ∑ li ∈ Finset.range l, ∑ i ∈ Finset.range oh,
      ∑ j ∈ Finset.range ow, cnnFeature op po (x 19) (x 18) c h w bi li i j * (x 7).at_ [(li * oh + i) * ow + j, k] := by
    intro bi k
    simp only [cnnScore, ← hm, ← hn, ← hoh, ← how]
  simp only [← hm, ← hn] at hG u2 hcov hW ph pw
  simp only [← hoh, ← how] at hW
  have g0 : G[0]? = some (.op (uTOp .neg) [1]) := by rw [hG]; rfl
  have g1 : G[1]? = some (.op (sumTOp []) [2]) := by rw [hG]; rfl
  have g2 : G[2]? = some (.op (bTOp .mul) [3, 4]) := by rw [hG]; rfl
  have g3 : G[3]? = some .leaf := by rw [hG]; rfl
  have g4 : G[4]? = some (.op (softTOp true 1) [5]) := by rw [hG]; rfl
  have g5 : G[5]? = some (.op (matMulTOp false false) [6, 7]) := by rw [hG]; rfl
  have g6 : G[6]? = some (.op (reshapeTOp [b, l * (oh * ow)]) [8]) := by rw [hG, hoh, how]; rfl
  have g7 : G[7]? = some .leaf := by rw [hG]; rfl
  have g8 : G[8]? = some (.op (maxPoolTOp po lo) [9]) := by rw [hG]; rfl
  have g9 : G[9]? = some (.op (bTOp .mul) [12, 10]) := by rw [hG]; rfl
  have g10 : G[10]? = some (.op (cmpTOp (· ≥ ·)) [12, 11]) := by rw [hG]; rfl
  have g11 : G[11]? = some (.cst (scalarT 0)) := by rw [hG]; rfl
  have v11 := value_cst W x g11
  -- the rectifier
  obtain ⟨q, k1, -, k3, k4⟩ := elem_bc (mask (· ≥ ·)) (s := [b, l, m, n]) (a := u) (c := scalarT 0) (.inl u2) (.inr rfl)
  have k3 := k3 (.inl u2)
  have v10 : G.value x 10 = .ok q := by
    rw [value_op W _ g10]
    show (resAll [G.value x 12, G.value x 11]).bind (cmpTOp (· ≥ ·)).run = _
    rw [show G.value x 12 = .ok u from u1, v11]
    exact k1
  obtain ⟨a, l1, -, l3, l4⟩ := elem_bc (BOp.fn .mul) (s := [b, l, m, n]) (a := u) (c := q) (.inl u2) (.inl k3)
  have l3 := l3 (.inl u2)
  have v9 : G.value x 9 = .ok a := by
    rw [value_op W _ g9]
    show (resAll [G.value x 12, G.value x 10]).bind (bTOp .mul).run = _
    rw [show G.value x 12 = .ok u from u1, v10]
    exact l1
  have har : ∀ i, InB [b, l, m, n] i → a.at_ i = max (u.at_ i) 0 := by
    intro i hi
    have e := l4 i hi
    rw [bc_at l3 hi] at e
    rw [e, k4 i hi, bc_at u2 hi, bc_scalar (show (scalarT (0 : ℝ)).shape = [] from rfl)]
    exact relu_mask _
  -- the pooling
  obtain ⟨p, r1, r2, r3⟩ := poolRun_max po hsym lo b l m n a l3 ph pw
    (fun i hi => by rw [l3] at hi; rw [har i hi]; exact lt_of_lt_of_le hlo (le_max_right _ _)) hcov
  rw [← hoh, ← how] at r2
  have v8 : G.value x 8 = .ok p := by
    rw [value_op W x g8]
    show (resAll [G.value x 9]).bind _ = _
    rw [v9]
    exact r1
  have hpool : ∀ bi li i j, bi < b → li < l → i < oh → j < ow → p.at_ [bi, li, i, j] = cnnFeature op po (x 19) (x 18) c h w bi li i j := by
    intro bi li i j hb' hl' hi hj
    rw [r3 bi li i j hb' hl' (by omega) (by omega), hfeat]
    congr 1
    ext v
    constructor
    · rintro ⟨y, z, hyz, rfl⟩
      refine ⟨y, z, hyz, ?_⟩
      rw [har [bi, li, y, z] ⟨hb', hl', hyz.2.2.1, hyz.2.2.2.2.2, trivial⟩, u3 bi li y z hb' hl' (by have := hyz.2.2.1; omega) (by have := hyz.2.2.2.2.2; omega)]
    · rintro ⟨y, z, hyz, rfl⟩
      refine ⟨y, z, hyz, ?_⟩
      rw [har [bi, li, y, z] ⟨hb', hl', hyz.2.2.1, hyz.2.2.2.2.2, trivial⟩, u3 bi li y z hb' hl' (by have := hyz.2.2.1; omega) (by have := hyz.2.2.2.2.2; omega)]
  -- the scores
  obtain ⟨y6, b1, b2, b3⟩ := reshapeTOp_good [b, l * (oh * ow)] p (by rw [r2]; simp only [size]; ring)
  have v6 := value_one W x g6 v8 b3
  have hy6 : y6 = p.reshape [b, l * (oh * ow)] := by
    unfold reshape at b1
    rw [reshapeTo_ofNat _ _ (by rw [r2]; simp only [size]; ring)] at b1
    cases b1
    rfl
  have v7 := value_leaf W x g7
  obtain ⟨y5, e1, e2, e3⟩ := matMulTOp_good false false y6 (x 7) (by rw [b2]; rfl) (by rw [hW]; rfl) (by simp [M.flip, AD.toM, b2, hW])
  have e2 : y5.shape = [b, k] := by rw [e2]; simp [M.flip, AD.toM, b2, hW]
  have v5 := value_two W x g5 v6 v7 e3
  have hsc : ∀ bi ki, bi < b → ki < k → y5.at_ [bi, ki] = cnnScore op po (x 19) (x 18) (x 7) c h w l bi ki := by
    intro bi ki hb' hk'
    have hy5 : y5.at_ [bi, ki] = ∑ t ∈ Finset.range (l * (oh * ow)), y6.at_ [bi, t] * (x 7).at_ [t, ki] := by
      unfold matMulRun at e1
      rw [if_pos ⟨by rw [b2]; rfl, by rw [hW]; rfl⟩] at e1
      unfold matMul matMul0 at e1
      rw [if_pos (by simp [M.flip, AD.toM, b2, hW])] at e1
      simp only [Res.ok.injEq] at e1
      rw [← e1]
      simp [M.flip, AD.toM, AD.ofM, b2]
    have hN : size [l, oh, ow] = l * (oh * ow) := by simp only [size, Nat.mul_one]
    rw [hy5, hscore, ← hN]
    have : ∀ t ∈ Finset.range (size [l, oh, ow]), y6.at_ [bi, t] * (x 7).at_ [t, ki] =
        (fun ix : List Nat => cnnFeature op po (x 19) (x 18) c h w bi (ix.getD 0 0) (ix.getD 1 0) (ix.getD 2 0) *
          (x 7).at_ [(ix.getD 0 0 * oh + ix.getD 1 0) * ow + ix.getD 2 0, ki]) (unravel [l, oh, ow] t) := by
      intro t ht
      have ht := Finset.mem_range.1 ht
      have hin := inB_unravel (s := [l, oh, ow]) ht
      have hr := ravel_unravel (s := [l, oh, ow]) ht
      have hu : unravel [b, l, oh, ow] (bi * size [l, oh, ow] + t) = bi :: unravel [l, oh, ow] t := by
        show (bi * size [l, oh, ow] + t) / size [l, oh, ow] :: unravel [l, oh, ow] ((bi * size [l, oh, ow] + t) % size [l, oh, ow]) = _
        rw [Nat.mul_comm bi, Nat.mul_add_div (by omega), Nat.div_eq_of_lt ht, Nat.mul_add_mod, Nat.mod_eq_of_lt ht, Nat.add_zero]
      have h6 : y6.at_ [bi, t] = p.at_ (bi :: unravel [l, oh, ow] t) := by
        rw [hy6]
        show p.at_ (unravel p.shape (ravel [b, l * (oh * ow)] [bi, t])) = _
        have hrav : ravel [b, l * (oh * ow)] [bi, t] = bi * size [l, oh, ow] + t := by rw [hN]; simp [ravel, size]
        rw [hrav, r2, hu]
      rw [h6]
      generalize unravel [l, oh, ow] t = ix at hin hr ⊢
      match ix, hin with
      | [i0, i1, i2], hin =>
        have ht' : t = (i0 * oh + i1) * ow + i2 := by rw [← hr]; simp only [ravel, size, Nat.mul_one]; ring
        rw [hpool bi i0 i1 i2 hb' hin.1 hin.2.1 hin.2.2.1, ht']
        rfl
    rw [Finset.sum_congr rfl this]
    refine (?_ : sumOver [l, oh, ow] (fun ix : List Nat => cnnFeature op po (x 19) (x 18) c h w bi (ix.getD 0 0) (ix.getD 1 0) (ix.getD 2 0) *
          (x 7).at_ [(ix.getD 0 0 * oh + ix.getD 1 0) * ow + ix.getD 2 0, ki]) = _)
    simp only [sumOver_cons, NN.sumOver_nil]
    rfl
  -- the cross entropy
  have hax : resolve (fwdAxis 1 y5.shape) y5.shape.length = 1 := by rw [e2]; rfl
  have v4 : G.value x 4 = .ok (logSoftAxis 1 y5) := by
    rw [value_op W x g4]
    show (resAll [G.value x 5]).bind (softTOp true 1).run = _
    rw [v5]
    show softDo true 1 y5 = _
    unfold softDo
    rw [if_neg (by rw [e2]; simp)]
    simp only [hax, if_true]
  have v3 := value_leaf W x g3
  have f2 : (logSoftAxis 1 y5).shape = [b, k] := e2
  have hbk : ∀ d ∈ [b, k], d ≠ 0 := by
    simp only [List.mem_cons, List.not_mem_nil, or_false]
    rintro d (rfl | rfl) <;> omega
  obtain ⟨y2, i1, i2, i4, i3⟩ := bTOp_good .mul [b, k] (x 3) (logSoftAxis 1 y5) (.inl hY) (.inl f2) (.inl hY) (fun _ => hbk) fun _ _ => trivial
  have v2 := value_two W x g2 v3 v4 i3
  obtain ⟨y1, j1, j2, j4, j3⟩ := sum_all y2 (by rw [i2]; simp) (by rw [i2]; exact hbk)
  have v1 := value_one W x g1 v2 j3
  have n3 := uTOp_good_partial .neg (by decide) (by decide) y1 (fun _ _ => trivial) fun _ _ => differentiable_neg _
  have v0 := value_one W x g0 v1 n3
  refine ⟨_, v0, j2, ?_⟩
  show -(y1.at_ []) = _
  rw [j4, i2]
  unfold cnnCost
  congr 1
  have : sumOver [b, k] y2.at_ = sumOver [b, k] fun ix => (x 3).at_ [ix.getD 0 0, ix.getD 1 0] *
      Real.log (Real.exp (cnnScore op po (x 19) (x 18) (x 7) c h w l (ix.getD 0 0) (ix.getD 1 0)) /
        ∑ kj ∈ Finset.range k, Real.exp (cnnScore op po (x 19) (x 18) (x 7) c h w l (ix.getD 0 0) kj)) := by
    refine sumOver_congr _ _ _ fun ix hi => ?_
    rw [i4 ix hi, bc_at hY hi, bc_at f2 hi]
    match ix, hi with
    | [bi, ki], hi =>
      have hpos : 0 < ∑ kj ∈ Finset.range k, Real.exp (cnnScore op po (x 19) (x 18) (x 7) c h w l bi kj) :=
        Finset.sum_pos (fun _ _ => Real.exp_pos _) ⟨0, Finset.mem_range.2 hk⟩
      have hline : lineSum y5.shape 1 (fun j => Real.exp (y5.at_ j)) [bi, ki] =
          ∑ kj ∈ Finset.range k, Real.exp (cnnScore op po (x 19) (x 18) (x 7) c h w l bi kj) := by
        unfold lineSum
        rw [e2]
        refine Finset.sum_congr rfl fun kj hkj => ?_
        show Real.exp (y5.at_ [bi, kj]) = _
        rw [hsc bi kj hi.1 (Finset.mem_range.1 hkj)]
      show _ * (y5.at_ [bi, ki] - Real.log (lineSum y5.shape 1 (fun j => Real.exp (y5.at_ j)) [bi, ki])) = _
      rw [hline, hsc bi ki hi.1 hi.2.1]
      simp only [List.getD_cons_zero, List.getD_cons_succ]
      rw [Real.log_div (Real.exp_pos _).ne' hpos.ne', Real.log_exp]
  rw [this]
  simp only [sumOver_cons, NN.sumOver_nil]
  rfl

end

end Verif.AD
