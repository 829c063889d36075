import Verif.NN.MaxPool
import Mathlib.Analysis.Calculus.Deriv.Add
import Mathlib.Analysis.Calculus.Deriv.Mul
/-! The gradient of max pooling (property C34). -/
set_option autoImplicit false
namespace Verif.NN
open Verif.Tensor

noncomputable section

/-- The element of the input that the mask names for output `k`. -/
def routed (mask : List Int) (inStride outStride k : Nat) : Nat := k / outStride * inStride + (mask.getD k 0).toNat

/-- What has been added up after the first `n` outputs. -/
structure Added (g : List ℝ) (mask : List Int) (Si So L n : Nat) (s : DSt) : Prop where
  len : s.inDiff.length = L
  val : ∀ p : Nat, s.inDiff.getD p 0 = ∑ k ∈ Finset.range n, if routed mask Si So k = p then g.getD k 0 else 0

theorem diffChannel_spec (g : List ℝ) (mask : List Int) (pH pW Si K L q : Nat) (hg : g.length = K * (pH * pW))
    (hm : mask.length = g.length) (hL : L = K * Si) (hq : q < K)
    (hr : ∀ (k : Nat) (m : Int), mask[k]? = some m → 0 ≤ m ∧ m < Si) (s : DSt)
    (hs : Added g mask Si (pH * pW) L (q * (pH * pW)) s) (h1 : s.outOff = q * (pH * pW)) (h2 : s.inOff = q * Si)
    (h3 : s.maskOff = q * (pH * pW)) :
    ∃ s', diffChannel g mask pH pW (pH * pW) Si (pH * pW) s = some s' ∧
      Added g mask Si (pH * pW) L ((q + 1) * (pH * pW)) s' ∧ s'.outOff = (q + 1) * (pH * pW) ∧ s'.inOff = (q + 1) * Si ∧
      s'.maskOff = (q + 1) * (pH * pW) := by
  have hblock : (q + 1) * (pH * pW) ≤ g.length := by rw [hg]; exact Nat.mul_le_mul_right _ hq
  have hblockI : (q + 1) * Si ≤ L := by rw [hL]; exact Nat.mul_le_mul_right _ hq
  rw [Nat.succ_mul] at hblock hblockI
  have key := nest2_inv (a := pH) (b := pW) (s0 := s) (f := fun ph pw => diffCell g mask pW ph pw)
    (fun n s' => Added g mask Si (pH * pW) L (q * (pH * pW) + n) s' ∧ s'.outOff = s.outOff ∧ s'.inOff = s.inOff ∧
      s'.maskOff = s.maskOff) ?_ ⟨by simpa using hs, rfl, rfl, rfl⟩
  · obtain ⟨s', e1, e2, e3, e4, e5⟩ := key
    unfold diffChannel
    rw [e1, Option.bind_some, if_pos ⟨by rw [e3, h1]; exact hblock, by rw [e4, h2, e2.len]; exact hblockI,
      by rw [e5, h3, hm]; exact hblock⟩]
    refine ⟨_, rfl, ⟨e2.len, ?_⟩, ?_, ?_, ?_⟩
    · rw [Nat.succ_mul]; exact e2.val
    · simp only; rw [e3, h1, Nat.succ_mul]
    · simp only; rw [e4, h2, Nat.succ_mul]
    · simp only; rw [e5, h3, Nat.succ_mul]
  · rintro ph pw t hph hpw ⟨ha, t1, t2, t3⟩
    have hcell : ph * pW + pw < pH * pW := cell_lt hph hpw
    have hk : q * (pH * pW) + (ph * pW + pw) < g.length := by omega
    have hkm : q * (pH * pW) + (ph * pW + pw) < mask.length := by rw [hm]; exact hk
    unfold diffCell
    simp only
    rw [t3, h3, t1, h1, t2, h2]
    rw [List.getElem?_eq_getElem hkm, Option.bind_some]
    obtain ⟨m0, m1⟩ := hr _ _ (List.getElem?_eq_getElem hkm)
    rw [if_neg (by omega)]
    generalize hmv : mask[q * (pH * pW) + (ph * pW + pw)] = mv at m0 m1 ⊢
    have hpl : q * Si + mv.toNat < t.inDiff.length := by rw [ha.len]; omega
    rw [List.getElem?_eq_getElem hpl, Option.bind_some, List.getElem?_eq_getElem hk, Option.bind_some]
    obtain ⟨a', hst⟩ := store_some (t.inDiff[q * Si + mv.toNat] + g[q * (pH * pW) + (ph * pW + pw)]) hpl
    obtain ⟨_, hl, hget⟩ := store_getElem? hst
    rw [hst]
    refine ⟨_, rfl, ⟨hl.trans ha.len, fun p => ?_⟩, by first | rfl | exact t1 | exact h1.symm, by first | rfl | exact h2.symm, by first | rfl | exact h3.symm⟩
    have hroute : routed mask Si (pH * pW) (q * (pH * pW) + (ph * pW + pw)) = q * Si + mv.toNat := by
      unfold routed
      rw [(divmod_cell hcell).1, List.getD_eq_getElem?_getD, List.getElem?_eq_getElem hkm, hmv]
      rfl
    rw [← Nat.add_assoc, Finset.sum_range_succ, hroute, ← ha.val p]
    simp only
    rw [List.getD_eq_getElem?_getD, hget p]
    by_cases hp : p = q * Si + mv.toNat
    · subst hp
      simp [List.getElem?_eq_getElem hpl, List.getElem?_eq_getElem hk]
    · rw [if_neg hp, if_neg (fun e => hp e.symm), add_zero, List.getD_eq_getElem?_getD]

/-- With all indices of the mask in range, the gradient of pooling does not panic, and adds every output gradient to the
element that the mask names. -/
theorem poolDiff_spec (B C pH pW Si : Nat) (inDiff g : List ℝ) (mask : List Int) (hi : inDiff.length = B * C * Si)
    (hg : g.length = B * C * (pH * pW)) (hm : mask.length = g.length)
    (hr : ∀ (k : Nat) (m : Int), mask[k]? = some m → 0 ≤ m ∧ m < Si) :
    ∃ out, poolDiff B C pH pW Si (pH * pW) (pH * pW) inDiff g mask = some out ∧ out.length = inDiff.length ∧
      ∀ p : Nat, out.getD p 0 =
        ∑ k ∈ Finset.range g.length, if routed mask Si (pH * pW) k = p then g.getD k 0 else 0 := by
  have key := nest2_inv (a := B) (b := C) (s0 := (⟨0, 0, 0, inDiff.map (fun _ => 0)⟩ : DSt))
    (f := fun _ _ => diffChannel g mask pH pW (pH * pW) Si (pH * pW))
    (fun n s => Added g mask Si (pH * pW) inDiff.length (n * (pH * pW)) s ∧ s.outOff = n * (pH * pW) ∧
      s.inOff = n * Si ∧ s.maskOff = n * (pH * pW)) ?_ ?_
  · obtain ⟨s', e1, e2, _⟩ := key
    refine ⟨s'.inDiff, by unfold poolDiff; rw [e1]; rfl, e2.len, fun p => ?_⟩
    rw [e2.val p, hg]
  · rintro i j s hi' hj ⟨p1, p2, p3, p4⟩
    exact diffChannel_spec g mask pH pW Si (B * C) _ (i * C + j) hg hm hi (cell_lt hi' hj) hr s p1 p2 p3 p4
  · refine ⟨⟨by simp, fun p => ?_⟩, by simp, by simp, by simp⟩
    have : (inDiff.map (fun _ => (0 : ℝ))).getD p 0 = 0 := by
      rw [List.getD_eq_getElem?_getD, List.getElem?_map]
      cases inDiff[p]? <;> rfl
    simp only [this]
    simp

/-- A recorded index of `-1` makes the gradient panic. -/
theorem diffCell_off {g : List ℝ} {mask : List Int} {pW ph pw : Nat} {s s' : DSt} (h : diffCell g mask pW ph pw s = some s') :
    s'.outOff = s.outOff ∧ s'.inOff = s.inOff ∧ s'.maskOff = s.maskOff ∧
      ∃ m, mask[s.maskOff + (ph * pW + pw)]? = some m ∧ 0 ≤ m := by
  unfold diffCell at h
  simp only [Option.bind_eq_some_iff] at h
  obtain ⟨m, hm, h⟩ := h
  split at h
  · simp at h
  · rename_i hm0
    simp only [Option.bind_eq_some_iff, Option.map_eq_some_iff] at h
    obtain ⟨_, _, _, _, _, _, rfl⟩ := h
    exact ⟨rfl, rfl, rfl, m, hm, by omega⟩

theorem forN_pres {σ : Type} {f : Nat → σ → Option σ} {s0 : σ} (I : Nat → σ → Prop) : ∀ (n : Nat) (s' : σ),
    (∀ i < n, ∀ s s', f i s = some s' → I i s → I (i + 1) s') → I 0 s0 → forN n f s0 = some s' →
    I n s' ∧ ∀ i < n, ∃ t t', I i t ∧ f i t = some t' := by
  intro n
  induction n with
  | zero => intro s' _ h0 h; simp only [forN, Option.some.injEq] at h; subst h; exact ⟨h0, fun i hi => absurd hi (Nat.not_lt_zero i)⟩
  | succ n ih =>
    intro s' hf h0 h
    simp only [forN, Option.bind_eq_some_iff] at h
    obtain ⟨t, h1, h2⟩ := h
    obtain ⟨a, b⟩ := ih t (fun i hi => hf i (Nat.lt_succ_of_lt hi)) h0 h1
    refine ⟨hf n (Nat.lt_succ_self n) t s' h2 a, fun i hi => ?_⟩
    rcases Nat.lt_succ_iff_lt_or_eq.1 hi with hlt | rfl
    · exact b i hlt
    · exact ⟨t, s', a, h2⟩

theorem diffChannel_off {g : List ℝ} {mask : List Int} {pH pW So Si Sm : Nat} {s s' : DSt}
    (h : diffChannel g mask pH pW So Si Sm s = some s') :
    s'.maskOff = s.maskOff + Sm ∧ ∀ ph < pH, ∀ pw < pW, ∃ m, mask[s.maskOff + (ph * pW + pw)]? = some m ∧ 0 ≤ m := by
  unfold diffChannel at h
  simp only [Option.bind_eq_some_iff] at h
  obtain ⟨t, h1, h2⟩ := h
  obtain ⟨a, b⟩ := forN_pres (fun _ x => x.maskOff = s.maskOff) pH t (fun i _ u u' hu hI => by
    obtain ⟨c, _⟩ := forN_pres (fun _ x => x.maskOff = s.maskOff) pW u'
      (fun j _ v v' hv hJ => (diffCell_off hv).2.2.1.trans hJ) hI hu
    exact c) rfl h1
  constructor
  · split at h2
    · simp only [Option.some.injEq] at h2; rw [← h2]; simp only; rw [a]
    · simp at h2
  · intro ph hph pw hpw
    obtain ⟨u, u', hI, hu⟩ := b ph hph
    obtain ⟨_, d⟩ := forN_pres (fun _ x => x.maskOff = s.maskOff) pW u'
      (fun j _ v v' hv hJ => (diffCell_off hv).2.2.1.trans hJ) hI hu
    obtain ⟨v, v', hJ, hv⟩ := d pw hpw
    have := (diffCell_off hv).2.2.2
    rw [hJ] at this
    exact this

/-- **C34 (defect).** If the recorded index of some output is `-1`, computing the gradient panics. -/
theorem poolDiff_panics (B C pH pW Si So : Nat) (inDiff g : List ℝ) (mask : List Int) (b c i j : Nat) (hb : b < B)
    (hc : c < C) (hi : i < pH) (hj : j < pW) (hm : mask[ravel [B, C, pH, pW] [b, c, i, j]]? = some (-1)) :
    poolDiff B C pH pW Si So (pH * pW) inDiff g mask = none := by
  by_contra hne
  obtain ⟨out, hout⟩ := Option.ne_none_iff_exists'.1 hne
  unfold poolDiff at hout
  simp only [Option.map_eq_some_iff] at hout
  obtain ⟨s, hs, _⟩ := hout
  obtain ⟨_, hB⟩ := forN_pres (fun n x => x.maskOff = n * C * (pH * pW)) B s (fun n _ u u' hu hI => by
    obtain ⟨d, _⟩ := forN_pres (fun k x => x.maskOff = (n * C + k) * (pH * pW)) C u'
      (fun k _ v v' hv hJ => by rw [(diffChannel_off hv).1, hJ, ← Nat.add_assoc, Nat.succ_mul]) (by simpa using hI) hu
    rw [d]; ring) (by simp) hs
  obtain ⟨u, u', hI, hu⟩ := hB b hb
  obtain ⟨_, hC⟩ := forN_pres (fun k x => x.maskOff = (b * C + k) * (pH * pW)) C u'
      (fun k _ v v' hv hJ => by rw [(diffChannel_off hv).1, hJ, ← Nat.add_assoc, Nat.succ_mul]) (by simpa using hI) hu
  obtain ⟨v, v', hJ, hv⟩ := hC c hc
  obtain ⟨m, hm1, hm2⟩ := (diffChannel_off hv).2 i hi j hj
  have : ravel [B, C, pH, pW] [b, c, i, j] = v.maskOff + (i * pW + j) := by
    rw [hJ]; simp only [ravel, size]; ring
  rw [this, hm1] at hm
  simp only [Option.some.injEq] at hm
  omega

/-- **C34 (defect).** The gradient operation of the define-by-run machine (`DoDiff`, op_nn.go 769-785) writes over the
derivative that the input already has: the result does not depend on it. -/
theorem pool_doDiff_overwrites (op : Pool) (b c h w : Nat) (old old' g : List ℝ) (mask : List Int)
    (hl : old.length = old'.length) : maxPoolDiff op b c h w old g mask = maxPoolDiff op b c h w old' g mask := by
  have : old.map (fun _ => (0 : ℝ)) = old'.map (fun _ => 0) := by
    rw [List.map_const', List.map_const', hl]
  simp only [maxPoolDiff, poolDiff, this]

/-- Every output position has a pixel in its window. -/
def Covered (op : Pool) (h w : Nat) : Prop :=
  ∀ i j : Nat, (i : Int) < op.outH h → (j : Int) < op.outW w → ∃ y x, InWindow op op.padNorth op.padWest h w i j y x

theorem split_index {b c oh ow k : Nat} (hk : k < b * c * (oh * ow)) :
    ∃ bi ch i j, bi < b ∧ ch < c ∧ i < oh ∧ j < ow ∧ k = ravel [b, c, oh, ow] [bi, ch, i, j] ∧
      k / (oh * ow) = bi * c + ch := by
  have hs : k < size [b, c, oh, ow] := by
    simp only [size, Nat.mul_one]; rw [show b * (c * (oh * ow)) = b * c * (oh * ow) by ring]; exact hk
  have hb := inB_unravel hs
  have hr := ravel_unravel hs
  generalize hu : unravel [b, c, oh, ow] k = l at hb hr
  match l, hb, hr with
  | [bi, ch, i, j], hb, hr =>
    refine ⟨bi, ch, i, j, hb.1, hb.2.1, hb.2.2.1, hb.2.2.2.1, hr.symm, ?_⟩
    rw [← hr, show ravel [b, c, oh, ow] [bi, ch, i, j] = (bi * c + ch) * (oh * ow) + (i * ow + j) by
      simp only [ravel, size]; ring]
    exact (divmod_cell (cell_lt hb.2.2.1 hb.2.2.2.1)).1

/-- What one forward run records serves for all gradients: the routing `t` does not depend on them. -/
theorem pool_routing (op : Pool) (hsym : op.symmetric) (lo : ℝ) (b c h w : Nat) (inData : List ℝ)
    (maskData : List Int) (hh : 0 ≤ op.outH h) (hw : 0 ≤ op.outW w) (hin : inData.length = b * c * (h * w))
    (hlo : ∀ x ∈ inData, lo < x) (hcov : Covered op h w)
    (hmask : maskData.length = b * c * ((op.outH h).toNat * (op.outW w).toNat)) :
    ∃ out mask, maxPool op lo b c h w inData maskData = some (out, mask) ∧ out.length = maskData.length ∧
      ∃ t : Nat → Nat, (∀ k < maskData.length, t k < inData.length ∧ out[k]? = inData[t k]?) ∧
        (∀ bi ch i j : Nat, bi < b → ch < c → (i : Int) < op.outH h → (j : Int) < op.outW w →
          ∃ y x, InWindow op op.padNorth op.padWest h w i j y x ∧
            t (ravel [b, c, (op.outH h).toNat, (op.outW w).toNat] [bi, ch, i, j]) = ravel [b, c, h, w] [bi, ch, y, x] ∧
            ∀ y' x', InWindow op op.padNorth op.padWest h w i j y' x' →
              inData.getD (ravel [b, c, h, w] [bi, ch, y', x']) 0 ≤ inData.getD (ravel [b, c, h, w] [bi, ch, y, x]) 0) ∧
        ∀ old g : List ℝ, old.length = inData.length → g.length = maskData.length →
          ∃ dx, maxPoolDiff op b c h w old g mask = some dx ∧ dx.length = inData.length ∧
            ∀ p, dx.getD p 0 = ∑ k ∈ Finset.range g.length, if t k = p then g.getD k 0 else 0 := by
  obtain ⟨out, mask, e1, e2⟩ := pool_max_partial op hsym lo b c h w inData maskData hh hw hin hlo hmask
  obtain ⟨out', mask', s1, s2, s3, _⟩ := pool_scan op lo b c h w inData maskData hh hw hin hmask
  rw [e1] at s1; cases s1
  generalize hoh : (op.outH h).toNat = oh at *
  generalize how : (op.outW w).toNat = ow at *
  -- every recorded index
  have hall : ∀ k < maskData.length, ∃ bi ch i j y x, bi < b ∧ ch < c ∧ i < oh ∧ j < ow ∧
      k = ravel [b, c, oh, ow] [bi, ch, i, j] ∧ k / (oh * ow) = bi * c + ch ∧
      InWindow op op.padNorth op.padWest h w i j y x ∧ ravel [h, w] [y, x] < h * w ∧
      mask[k]? = some (ravel [h, w] [y, x] : Int) ∧ out[k]? = some (inData.getD (ravel [b, c, h, w] [bi, ch, y, x]) 0) ∧
      routed mask (h * w) (oh * ow) k = ravel [b, c, h, w] [bi, ch, y, x] := by
    intro k hk
    rw [hmask] at hk
    obtain ⟨bi, ch, i, j, hb, hc, hi, hj, hkr, hkd⟩ := split_index hk
    obtain ⟨y, x, f1, f2, f3, f4, _⟩ := e2 bi ch i j hb hc (by omega) (by omega) (hcov i j (by omega) (by omega))
    rw [← hkr] at f3 f4
    refine ⟨bi, ch, i, j, y, x, hb, hc, hi, hj, hkr, hkd, f1, f2, f3, f4, ?_⟩
    unfold routed
    rw [hkd, List.getD_eq_getElem?_getD, f3, Option.getD_some, Int.toNat_natCast]
    simp only [ravel, size]; ring
  refine ⟨out, mask, e1, by rw [s2, hmask], routed mask (h * w) (oh * ow), ?_, ?_, fun old g hold hg => ?_⟩
  · intro k hk
    obtain ⟨bi, ch, i, j, y, x, hb, hc, _, _, _, _, f1, _, _, f4, f5⟩ := hall k hk
    have hlt : ravel [b, c, h, w] [bi, ch, y, x] < inData.length := by
      have := ravel_lt (s := [b, c, h, w]) (i := [bi, ch, y, x]) ⟨hb, hc, f1.2.2.1, f1.2.2.2.2.2, trivial⟩
      rw [hin]
      simp only [size, Nat.mul_one] at this
      rw [show b * c * (h * w) = b * (c * (h * w)) by ring]; exact this
    rw [f5]
    exact ⟨hlt, by rw [f4, List.getElem?_eq_getElem hlt, List.getD_eq_getElem?_getD, List.getElem?_eq_getElem hlt]; rfl⟩
  · intro bi ch i j hb hc hi hj
    obtain ⟨y, x, f1, f2, f3, f4, f6⟩ := e2 bi ch i j hb hc hi hj (hcov i j hi hj)
    refine ⟨y, x, f1, ?_, f6⟩
    unfold routed
    have hkr : ravel [b, c, oh, ow] [bi, ch, i, j] / (oh * ow) = bi * c + ch := by
      rw [show ravel [b, c, oh, ow] [bi, ch, i, j] = (bi * c + ch) * (oh * ow) + (i * ow + j) by
        simp only [ravel, size]; ring]
      exact (divmod_cell (cell_lt (by omega) (by omega))).1
    rw [hkr, List.getD_eq_getElem?_getD, f3, Option.getD_some, Int.toNat_natCast]
    simp only [ravel, size]; ring
  · obtain ⟨dx, d1, d2, d3⟩ := poolDiff_spec b c oh ow (h * w) old g mask (by rw [hold, hin]) (hg.trans hmask)
      (by rw [s3, s2, hg, hmask]) (fun k m hm => by
        have hk : k < maskData.length := by
          rcases Nat.lt_or_ge k mask.length with h' | h'
          · rw [hmask, ← s2, ← s3]; exact h'
          · rw [List.getElem?_eq_none h'] at hm; simp at hm
        obtain ⟨_, _, _, _, y, x, _, _, _, _, _, _, _, f2, f3, _⟩ := hall k hk
        rw [f3] at hm
        simp only [Option.some.injEq] at hm
        omega)
    exact ⟨dx, by unfold maxPoolDiff; simp only; rw [hoh, how]; exact d1, d2.trans hold, d3⟩

/-- **C34 (gradient).** With symmetric padding, every window covering a pixel and all inputs above `lo`: the gradient
operation, run with the mask left by the forward run, does not panic; the gradient of pixel `p` of the whole input is the sum
of the gradients of exactly those outputs whose recorded pixel is `p`. -/
theorem pool_gradient_partial (op : Pool) (hsym : op.symmetric) (lo : ℝ) (b c h w : Nat) (inData : List ℝ)
    (maskData : List Int) (hh : 0 ≤ op.outH h) (hw : 0 ≤ op.outW w) (hin : inData.length = b * c * (h * w))
    (hlo : ∀ x ∈ inData, lo < x) (hcov : Covered op h w)
    (hmask : maskData.length = b * c * ((op.outH h).toNat * (op.outW w).toNat)) (old g : List ℝ)
    (hold : old.length = inData.length) (hg : g.length = maskData.length) :
    ∃ out mask dx, maxPool op lo b c h w inData maskData = some (out, mask) ∧
      maxPoolDiff op b c h w old g mask = some dx ∧ dx.length = inData.length ∧ out.length = g.length ∧
      ∃ t : Nat → Nat, (∀ k < g.length, t k < inData.length ∧ out[k]? = inData[t k]?) ∧
        (∀ bi ch i j : Nat, bi < b → ch < c → (i : Int) < op.outH h → (j : Int) < op.outW w →
          ∃ y x, InWindow op op.padNorth op.padWest h w i j y x ∧
            t (ravel [b, c, (op.outH h).toNat, (op.outW w).toNat] [bi, ch, i, j]) = ravel [b, c, h, w] [bi, ch, y, x] ∧
            ∀ y' x', InWindow op op.padNorth op.padWest h w i j y' x' →
              inData.getD (ravel [b, c, h, w] [bi, ch, y', x']) 0 ≤ inData.getD (ravel [b, c, h, w] [bi, ch, y, x]) 0) ∧
        ∀ p, dx.getD p 0 = ∑ k ∈ Finset.range g.length, if t k = p then g.getD k 0 else 0 := by
  obtain ⟨out, mask, e1, e2, t, e3, e4, e5⟩ := pool_routing op hsym lo b c h w inData maskData hh hw hin hlo hcov hmask
  obtain ⟨dx, d1, d2, d3⟩ := e5 old g hold hg
  exact ⟨out, mask, dx, e1, d1, d2, e2.trans hg.symm, t, fun k hk => e3 k (hg ▸ hk), e4, d3⟩

/-- The input moved by `t` along a direction. -/
def moved (x d : List ℝ) (t : ℝ) : List ℝ := (List.range x.length).map fun p => x.getD p 0 + t * d.getD p 0

theorem moved_length (x d : List ℝ) (t : ℝ) : (moved x d t).length = x.length := by simp [moved]

theorem moved_getD (x d : List ℝ) (t : ℝ) {p : Nat} (hp : p < x.length) :
    (moved x d t).getD p 0 = x.getD p 0 + t * d.getD p 0 := by
  simp [moved, List.getD_eq_getElem?_getD, hp]

/-- The output of pooling as a list (empty if it panics). -/
def pooled (op : Pool) (lo : ℝ) (b c h w : Nat) (maskData : List Int) (x : List ℝ) : List ℝ :=
  ((maxPool op lo b c h w x maskData).map Prod.fst).getD []

theorem eventually_pos {a e : ℝ} (ha : 0 < a) : ∀ᶠ t : ℝ in nhds 0, 0 < a + t * e := by
  have hc : Continuous fun t : ℝ => a + t * e := by fun_prop
  have := hc.tendsto 0
  simp only [zero_mul, add_zero] at this
  exact this.eventually (lt_mem_nhds ha)

theorem pixel_lt {b c h w bi ch y x : Nat} {l : List ℝ} (hl : l.length = b * c * (h * w)) (hb : bi < b) (hc : ch < c)
    (hy : y < h) (hx : x < w) : ravel [b, c, h, w] [bi, ch, y, x] < l.length := by
  have := ravel_lt (s := [b, c, h, w]) (i := [bi, ch, y, x]) ⟨hb, hc, hy, hx, trivial⟩
  rw [hl]
  simp only [size, Nat.mul_one] at this
  rw [show b * c * (h * w) = b * (c * (h * w)) by ring]; exact this

/-- **C34 (derivative).** Under the conditions of `pool_gradient_partial`, and if every window has its maximum at one pixel
only, the gradient operation computes the derivative: for every direction `d` and all output gradients `g`, the weighted sum of
the outputs, as a function of the step `t` along `d`, has at 0 the derivative that `dx` gives. -/
theorem pool_derivative_partial (op : Pool) (hsym : op.symmetric) (lo : ℝ) (b c h w : Nat) (inData : List ℝ)
    (maskData : List Int) (hh : 0 ≤ op.outH h) (hw : 0 ≤ op.outW w) (hin : inData.length = b * c * (h * w))
    (hlo : ∀ x ∈ inData, lo < x) (hcov : Covered op h w)
    (huniq : ∀ bi ch i j y x y' x' : Nat, bi < b → ch < c → (i : Int) < op.outH h → (j : Int) < op.outW w →
      InWindow op op.padNorth op.padWest h w i j y x → InWindow op op.padNorth op.padWest h w i j y' x' →
      (∀ y₁ x₁, InWindow op op.padNorth op.padWest h w i j y₁ x₁ →
        inData.getD (ravel [b, c, h, w] [bi, ch, y₁, x₁]) 0 ≤ inData.getD (ravel [b, c, h, w] [bi, ch, y', x']) 0) →
      (y, x) ≠ (y', x') →
      inData.getD (ravel [b, c, h, w] [bi, ch, y, x]) 0 ≠ inData.getD (ravel [b, c, h, w] [bi, ch, y', x']) 0)
    (hmask : maskData.length = b * c * ((op.outH h).toNat * (op.outW w).toNat)) (old g d : List ℝ)
    (hold : old.length = inData.length) (hg : g.length = maskData.length) :
    ∃ out mask dx, maxPool op lo b c h w inData maskData = some (out, mask) ∧
      maxPoolDiff op b c h w old g mask = some dx ∧
      HasDerivAt (fun t => ∑ k ∈ Finset.range g.length,
          g.getD k 0 * (pooled op lo b c h w maskData (moved inData d t)).getD k 0)
        (∑ p ∈ Finset.range inData.length, dx.getD p 0 * d.getD p 0) 0 := by
  obtain ⟨out, mask, dx, e1, e2, e3, e4, tgt, e5, e6, e7⟩ := pool_gradient_partial op hsym lo b c h w inData maskData hh hw
    hin hlo hcov hmask old g hold hg
  refine ⟨out, mask, dx, e1, e2, ?_⟩
  -- near 0 all inputs stay above `lo`, and what is smaller stays smaller
  have hev : ∀ᶠ t : ℝ in nhds 0, (∀ p ∈ Finset.range inData.length, lo < inData.getD p 0 + t * d.getD p 0) ∧
      ∀ p ∈ Finset.range inData.length, ∀ q ∈ Finset.range inData.length, inData.getD p 0 < inData.getD q 0 →
        inData.getD p 0 + t * d.getD p 0 < inData.getD q 0 + t * d.getD q 0 := by
    refine Filter.Eventually.and ?_ ?_
    · rw [Filter.eventually_all_finset]
      intro p hp
      have hp' := Finset.mem_range.1 hp
      have : lo < inData.getD p 0 := by
        rw [List.getD_eq_getElem?_getD, List.getElem?_eq_getElem hp']
        exact hlo _ (List.getElem_mem hp')
      filter_upwards [eventually_pos (e := d.getD p 0) (sub_pos.2 this)] with t ht
      linarith
    · rw [Filter.eventually_all_finset]
      intro p _
      rw [Filter.eventually_all_finset]
      intro q _
      by_cases hpq : inData.getD p 0 < inData.getD q 0
      · filter_upwards [eventually_pos (e := d.getD q 0 - d.getD p 0) (sub_pos.2 hpq)] with t ht _
        nlinarith
      · exact Filter.Eventually.of_forall fun t h => absurd h hpq
  have hval : ∀ᶠ t : ℝ in nhds 0, (∑ k ∈ Finset.range g.length,
      g.getD k 0 * (pooled op lo b c h w maskData (moved inData d t)).getD k 0) =
      ∑ k ∈ Finset.range g.length, g.getD k 0 * (inData.getD (tgt k) 0 + t * d.getD (tgt k) 0) := by
    filter_upwards [hev] with t ht
    obtain ⟨hlow, hord⟩ := ht
    refine Finset.sum_congr rfl fun k hk => ?_
    have hk := Finset.mem_range.1 hk
    congr 1
    obtain ⟨o2, m2, p1, p2⟩ := pool_max_partial op hsym lo b c h w (moved inData d t) maskData hh hw
      ((moved_length _ _ _).trans hin) (by
        intro z hz
        simp only [moved, List.mem_map, List.mem_range] at hz
        obtain ⟨p, hp, rfl⟩ := hz
        exact hlow p (Finset.mem_range.2 hp)) hmask
    rw [hg, hmask] at hk
    obtain ⟨bi, ch, i, j, hb, hc, hi, hj, hkr, _⟩ := split_index hk
    have hi' : (i : Int) < op.outH h := by omega
    have hj' : (j : Int) < op.outW w := by omega
    obtain ⟨y, x, f1, _, _, f4, f5⟩ := p2 bi ch i j hb hc hi' hj' (hcov i j hi' hj')
    obtain ⟨y0, x0, q1, q2, q3⟩ := e6 bi ch i j hb hc hi' hj'
    rw [← hkr] at f4 q2
    have l1 := pixel_lt hin hb hc f1.2.2.1 f1.2.2.2.2.2
    have l2 := pixel_lt hin hb hc q1.2.2.1 q1.2.2.2.2.2
    have hsame : (y, x) = (y0, x0) := by
      by_contra hne
      have hlt := lt_of_le_of_ne (q3 y x f1) (huniq bi ch i j y x y0 x0 hb hc hi' hj' f1 q1 q3 hne)
      have h1 := hord _ (Finset.mem_range.2 l1) _ (Finset.mem_range.2 l2) hlt
      have h2 := f5 y0 x0 q1
      rw [moved_getD _ _ _ l1, moved_getD _ _ _ l2] at h2
      linarith
    obtain ⟨rfl, rfl⟩ := Prod.mk.inj hsame
    unfold pooled
    rw [p1, Option.map_some, Option.getD_some, List.getD_eq_getElem?_getD]
    simp only
    rw [f4, Option.getD_some, moved_getD _ _ _ l1, q2]
  have hder : HasDerivAt (fun t : ℝ => ∑ k ∈ Finset.range g.length,
      g.getD k 0 * (inData.getD (tgt k) 0 + t * d.getD (tgt k) 0))
      (∑ k ∈ Finset.range g.length, g.getD k 0 * d.getD (tgt k) 0) 0 := by
    apply HasDerivAt.fun_sum
    intro k _
    have := (((hasDerivAt_id (0 : ℝ)).mul_const (d.getD (tgt k) 0)).const_add (inData.getD (tgt k) 0)).const_mul (g.getD k 0)
    simpa using this
  have hsum : (∑ p ∈ Finset.range inData.length, dx.getD p 0 * d.getD p 0) =
      ∑ k ∈ Finset.range g.length, g.getD k 0 * d.getD (tgt k) 0 := by
    simp only [e7, Finset.sum_mul]
    rw [Finset.sum_comm]
    refine Finset.sum_congr rfl fun k hk => ?_
    rw [Finset.sum_eq_single (tgt k)]
    · simp
    · intro p _ hp; simp [Ne.symm hp]
    · intro hn; exact absurd (Finset.mem_range.2 (e5 k (Finset.mem_range.1 hk)).1) hn
  rw [hsum]
  exact hder.congr_of_eventuallyEq hval

/-- **C34 (defect).** A window wholly inside the padding: the forward run writes `-maxFloat`, and the gradient panics. The
constructor accepts such a padding. -/
theorem pool_empty_window_panics (op : Pool) (lo : ℝ) (b c h w : Nat) (inData : List ℝ) (maskData : List Int)
    (hh : 0 ≤ op.outH h) (hw : 0 ≤ op.outW w) (hin : inData.length = b * c * (h * w))
    (hmask : maskData.length = b * c * ((op.outH h).toNat * (op.outW w).toNat))
    (bi ch i j : Nat) (hb : bi < b) (hc : ch < c) (hi : (i : Int) < op.outH h) (hj : (j : Int) < op.outW w)
    (hempty : ∀ y x, ¬ InWindow op op.padH op.padW h w i j y x) (old g : List ℝ) :
    ∃ out mask, maxPool op lo b c h w inData maskData = some (out, mask) ∧
      out[ravel [b, c, (op.outH h).toNat, (op.outW w).toNat] [bi, ch, i, j]]? = some lo ∧
      maxPoolDiff op b c h w old g mask = none := by
  obtain ⟨out, mask, e1, e2, e3⟩ := pool_empty_window op lo b c h w inData maskData hh hw hin hmask bi ch i j hb hc hi hj hempty
  exact ⟨out, mask, e1, e2, poolDiff_panics b c _ _ _ _ _ _ _ bi ch i j hb hc (by omega) (by omega) e3⟩

/-- **C34 (defect).** A one-pixel image, a kernel of 1×1 and symmetric padding of one accepted by the checks of `MaxPool2D`
(nn.go 322-375): the output at the corner is `-maxFloat` and the gradient panics, whatever the pixel. -/
theorem pool_corner_panics (lo v : ℝ) (g : List ℝ) : ∃ op out mask, newPool 1 1 [1, 1] 1 1 = some op ∧
    maxPool op lo 1 1 1 1 [v] (List.replicate 9 0) = some (out, mask) ∧ out[0]? = some lo ∧
    maxPoolDiff op 1 1 1 1 [0] g mask = none := by
  obtain ⟨out, mask, e1, e2, e3⟩ := pool_empty_window_panics ⟨1, 1, 1, 1, 1, 1, false, 1, 1⟩ lo 1 1 1 1 [v]
    (List.replicate 9 0) (by decide) (by decide) rfl rfl 0 0 0 0 (by decide) (by decide) (by decide) (by decide)
    (by rintro y x ⟨h1, h2, h3, h4, h5, h6⟩; simp [Pool.padH, Pool.padW] at h1 h2; omega) [0] g
  exact ⟨_, out, mask, rfl, e1, e2, e3⟩

/-- **C34 (defect).** Explicit paddings are used the wrong way round: the windows are placed by the padding *below* and *to the
right*. With no padding above and one row below (`[0, 1, 0, 0]`), kernel 2×1 and the image (5, 7), the first window covers both
pixels, but the code returns 5 for it. -/
theorem pool_explicit_wrong (lo : ℝ) (hlo : lo < 5) : ∃ op out mask, newPool 2 1 [0, 1, 0, 0] 1 1 = some op ∧
    maxPool op lo 1 1 2 1 [5, 7] (List.replicate 2 0) = some (out, mask) ∧ out[0]? = some 5 ∧
    InWindow op op.padNorth op.padWest 2 1 0 0 1 0 ∧ ([5, 7] : List ℝ).getD (ravel [1, 1, 2, 1] [0, 0, 1, 0]) 0 = 7 := by
  refine ⟨⟨2, 1, 0, 0, 1, 0, true, 1, 1⟩, ?_⟩
  obtain ⟨out, mask, e1, _, _, e2⟩ := pool_scan ⟨2, 1, 0, 0, 1, 0, true, 1, 1⟩ lo 1 1 2 1 [5, 7] (List.replicate 2 0)
    (by decide) (by decide) rfl rfl
  refine ⟨out, mask, rfl, e1, ?_, by simp [InWindow], by simp [ravel, size]⟩
  obtain ⟨v, m, f1, _, f2⟩ := e2 0 0 0 0 (by decide) (by decide) (by decide) (by decide)
  have hz : ravel [1, 1, (Pool.outH ⟨2, 1, 0, 0, 1, 0, true, 1, 1⟩ 2).toNat,
      (Pool.outW ⟨2, 1, 0, 0, 1, 0, true, 1, 1⟩ 1).toNat] [0, 0, 0, 0] = 0 := by simp [ravel]
  rw [hz] at f1
  rw [f1]
  rcases f2 with ⟨_, _, hle⟩ | ⟨y, x, hin, _, hv, _⟩
  · have := hle 0 0 (by simp [InWindow, Pool.padH, Pool.padW])
    simp [ravel, size] at this
    linarith
  · obtain ⟨h1, h2, h3, h4, h5, h6⟩ := hin
    simp [Pool.padH, Pool.padW] at h1 h2 h4 h5
    have hy : y = 0 := by omega
    have hx : x = 0 := by omega
    subst hy hx
    rw [hv]; simp [ravel]

/-! ### Examples -/

/-- A 3×3 image, kernel 2×2, stride 1, no padding. -/
def exPool : Pool := ⟨2, 2, 0, 0, 0, 0, false, 1, 1⟩

theorem exPool_covered : Covered exPool 3 3 := by
  intro i j hi hj
  have e1 : exPool.outH 3 = 2 := by decide
  have e2 : exPool.outW 3 = 2 := by decide
  rw [e1] at hi; rw [e2] at hj
  exact ⟨i, j, by simp [InWindow, exPool]; omega⟩

example : ∃ out mask dx, maxPool exPool 0 1 1 3 3 [1, 2, 3, 4, 9, 5, 6, 7, 8] [0, 0, 0, 0] = some (out, mask) ∧
    maxPoolDiff exPool 1 1 3 3 (List.replicate 9 0) [1, 1, 1, 1] mask = some dx ∧ dx.length = 9 := by
  obtain ⟨out, mask, dx, h1, h2, h3, _⟩ := pool_gradient_partial exPool rfl 0 1 1 3 3 [1, 2, 3, 4, 9, 5, 6, 7, 8]
    [0, 0, 0, 0] (by decide) (by decide) rfl (by intro x hx; simp at hx; rcases hx with rfl | rfl | rfl | rfl | rfl | rfl | rfl | rfl | rfl <;> norm_num)
    exPool_covered rfl (List.replicate 9 0) [1, 1, 1, 1] rfl rfl
  exact ⟨out, mask, dx, h1, h2, h3⟩

end

end Verif.NN
