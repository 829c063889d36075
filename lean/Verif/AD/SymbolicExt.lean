import Verif.AD.SymbolicOps
import Verif.Shape.TensordotDo
/-!
What an operation computes depends only on the elements of its operands. (In the model a tensor is a function on all lists of
numbers; outside of its bounds it can be anything.)
-/
set_option autoImplicit false
namespace Verif.AD
open Verif.Tensor Verif.Shape Verif.NN Verif.LinAlg

noncomputable section

/-- On operands of the shapes `ss`, equal elements give equal elements. -/
def POp.Ext (o : POp) (ss : List (List Nat)) : Prop :=
  ∀ xs y vs, xs.map (·.shape) = ss → o.run xs = .ok y → List.Forall₂ T.Same vs xs → ∃ v, o.run vs = .ok v ∧ v.Same y

theorem ext1 {f : T ℝ → Res (T ℝ)} {s : List Nat → List Nat} {h : ∀ x y, f x = .ok y → y.shape = s x.shape} {q : List Nat}
    (H : ∀ x x' y, x.shape = q → f x = .ok y → x'.Same x → ∃ v, f x' = .ok v ∧ v.Same y) : (POp.of1 f s h).Ext [q] := by
  intro xs y vs hs hr hv
  match xs, vs, hv, hs, hr with
  | [x], [x'], .cons h1 .nil, hs, hr =>
    exact H x x' y (by simpa using hs) hr h1

theorem ext2 {f : T ℝ → T ℝ → Res (T ℝ)} {s : List Nat → List Nat → List Nat}
    {h : ∀ a b y, f a b = .ok y → y.shape = s a.shape b.shape} {p q : List Nat}
    (H : ∀ a b a' b' y, a.shape = p → b.shape = q → f a b = .ok y → a'.Same a → b'.Same b → ∃ v, f a' b' = .ok v ∧ v.Same y) :
    (POp.of2 f s h).Ext [p, q] := by
  intro xs y vs hs hr hv
  match xs, vs, hv, hs, hr with
  | [a, b], [a', b'], .cons h1 (.cons h2 .nil), hs, hr =>
    simp only [List.map_cons, List.map_nil, List.cons.injEq, and_true] at hs
    exact H a b a' b' y hs.1 hs.2 hr h1 h2

theorem same_flat {a b : T ℝ} (h : a.Same b) {k : Nat} (hk : k < size a.shape) : a.flat k = b.flat k := by
  unfold T.flat
  rw [h.2 _ (inB_unravel hk), h.1]

theorem same_scalar {a b : T ℝ} (h : a.Same b) (hs : a.shape = []) : a.at_ [] = b.at_ [] := h.2 [] (by rw [hs]; trivial)

theorem mapT_ext (u : UOp) (h : ∀ x y, (Res.ok (mapT u.fn x) : Res (T ℝ)) = .ok y → y.shape = id x.shape) (q : List Nat) :
    (POp.of1 (fun x => .ok (mapT u.fn x)) id h).Ext [q] :=
  ext1 fun x x' y _ hy hx => by
    cases hy
    exact ⟨_, rfl, hx.1, fun i hi => by simp only [mapT]; rw [hx.2 i hi]⟩

theorem elem_ext (f : ℝ → ℝ → ℝ) (h : ∀ a b y, elem f a b = .ok y → y.shape = elemShp a.shape b.shape) (p q : List Nat) :
    (POp.of2 (elem f) elemShp h).Ext [p, q] :=
  ext2 fun a b a' b' y _ _ hy ha hb => by
    unfold elem at hy ⊢
    obtain ⟨s, s1, hy⟩ := bind_ok.1 hy
    rw [ha.1, hb.1, s1]
    simp only [Res.bind]
    unfold elemVal at hy ⊢
    rw [ha.1, hb.1]
    by_cases c1 : a.shape = []
    · rw [if_pos c1] at hy ⊢
      cases hy
      exact ⟨_, rfl, rfl, fun i hi => by simp only [same_scalar ha (ha.1.trans c1), hb.2 i (by rw [hb.1]; exact hi)]⟩
    · rw [if_neg c1] at hy ⊢
      by_cases c2 : b.shape = []
      · rw [if_pos c2] at hy ⊢
        cases hy
        exact ⟨_, rfl, rfl, fun i hi => by simp only [same_scalar hb (hb.1.trans c2), ha.2 i (by rw [ha.1]; exact hi)]⟩
      · rw [if_neg c2] at hy ⊢
        by_cases c3 : shapeEq a.shape b.shape = true
        · rw [if_pos c3] at hy ⊢
          cases hy
          refine ⟨_, rfl, rfl, fun i hi => ?_⟩
          simp only [ha.2 i (by rw [ha.1]; exact hi)]
          rw [same_flat hb]
          rw [hb.1, ← shapeEq_size c3]
          exact ravel_lt hi
        · rw [if_neg c3] at hy
          cases hy

theorem sumAxes_same (al : List Nat) {a b : T ℝ} (h : a.Same b) : sumAxes al a = sumAxes al b := by
  unfold sumAxes
  rw [h.1]
  congr 1
  funext j
  refine sumOver_congr _ _ _ fun i hi => ?_
  rw [h.2 i (by rw [h.1]; exact hi)]

theorem sum_ext (along : List Nat) (h : ∀ x y, sumNode x along = .ok y → y.shape = sumShp along x.shape) (q : List Nat) :
    (POp.of1 (fun x => sumNode x along) (sumShp along) h).Ext [q] :=
  ext1 fun x x' y _ hy hx => by
    unfold sumNode reduceNode at hy ⊢
    rw [hx.1]
    by_cases c : x.shape = []
    · rw [if_pos c] at hy ⊢
      cases hy
      exact ⟨_, rfl, hx⟩
    · rw [if_neg c] at hy ⊢
      simp only at hy ⊢
      unfold reduceDo at hy ⊢
      rw [sumAxes_same _ hx, hx.1]
      exact ⟨y, hy, rfl, fun _ _ => rfl⟩

theorem reshapeTo_size {n s : List Nat} {dst : List Int} (h : reshapeTo n dst = .ok s) (hn : n ≠ []) : size n = size s := by
  unfold reshapeTo at h
  simp only at h
  split at h
  · cases h
  · obtain ⟨d, -, h⟩ := bind_ok.1 h
    split at h
    · cases h
    · next hc =>
      cases h
      by_contra hne
      exact hc ⟨List.length_pos_iff.2 hn, hne⟩

theorem reshape_ext (dst : List Int) (h : ∀ x y, reshape x dst = .ok y → y.shape = reshapeShp dst x.shape) (q : List Nat) :
    (POp.of1 (fun x => reshape x dst) (reshapeShp dst) h).Ext [q] :=
  ext1 fun x x' y _ hy hx => by
    unfold reshape at hy ⊢
    obtain ⟨s, s1, hy⟩ := bind_ok.1 hy
    cases hy
    rw [hx.1, s1]
    refine ⟨_, rfl, rfl, fun i hi => ?_⟩
    show x'.flat (ravel s i) = x.flat (ravel s i)
    by_cases c : x.shape = []
    · unfold T.flat
      rw [hx.1, c]
      exact same_scalar hx (hx.1.trans c)
    · refine same_flat hx ?_
      rw [hx.1, reshapeTo_size s1 c]
      exact ravel_lt hi

theorem sizeOf_ext (axis : Nat) (h : ∀ (x y : T ℝ), (Res.ok (scalarT (Shape.sizeOf axis x.shape : ℝ)) : Res (T ℝ)) = .ok y → y.shape = [])
    (q : List Nat) : (POp.of1 (fun x => .ok (scalarT (Shape.sizeOf axis x.shape : ℝ))) (fun _ => []) h).Ext [q] :=
  ext1 fun x x' y _ hy hx => by
    cases hy
    exact ⟨_, rfl, rfl, fun i _ => by simp only [scalarT, hx.1]⟩

theorem repeat_ext (along n : Nat) (h : ∀ a b y, repeatRun along n a b = .ok y → y.shape = repeatShp along n a.shape) (p : List Nat)
    (hp : along < p.length) : (POp.of2 (repeatRun along n) (fun s _ => repeatShp along n s) h).Ext [p, []] :=
  ext2 fun a b a' b' y ea eb hy ha hb => by
    unfold repeatRun at hy ⊢
    rw [same_scalar hb (hb.1.trans eb)]
    by_cases c : b.at_ [] = n
    swap
    · rw [if_neg c] at hy; cases hy
    rw [if_pos c] at hy ⊢
    subst ea
    obtain ⟨w, w1, w2, w3⟩ := repeat_spec a along n hp
    rw [w1] at hy
    cases hy
    obtain ⟨w', v1, v2, v3⟩ := repeat_spec a' along n (by rw [ha.1]; exact hp)
    refine ⟨w', v1, by rw [v2, w2, ha.1], fun i hi => ?_⟩
    rw [v3, w3]
    refine ha.2 _ ?_
    rw [v2] at hi
    have hl : along < a'.shape.length := by rw [ha.1]; exact hp
    refine inB_set_self along _ _ hi hl ?_
    have := ((inB_iff _ _).1 hi).2 along (by simpa using hl)
    rw [getD_set _ _ _ _ hl, if_pos rfl] at this
    exact Nat.div_lt_of_lt_mul (by rw [Nat.mul_comm]; exact this)

theorem slice_ext (ax s e : Nat) (h : ∀ x y, sliceT ax s e x = .ok y → y.shape = sliceShp ax s e x.shape) (q : List Nat) :
    (POp.of1 (sliceT ax s e) (sliceShp ax s e) h).Ext [q] :=
  ext1 fun x x' y _ hy hx => by
    unfold sliceT at hy ⊢
    rw [hx.1]
    by_cases c : ax < x.shape.length ∧ s < e ∧ e ≤ x.shape.getD ax 0
    swap
    · rw [if_neg c] at hy; cases hy
    rw [if_pos c] at hy ⊢
    by_cases c2 : e - s = 1
    · rw [if_pos c2] at hy ⊢
      cases hy
      refine ⟨_, rfl, rfl, fun i hi => hx.2 _ ?_⟩
      rw [hx.1]
      have hl : ax ≤ (x.shape.eraseIdx ax).length := by rw [List.length_eraseIdx]; simp only [c.1, if_true]; omega
      have := inB_insert _ i ax (x.shape.getD ax 0) s hi hl (by omega)
      rwa [Shape.getD_eq _ _ c.1, List.insertIdx_eraseIdx_getElem] at this
    · rw [if_neg c2] at hy ⊢
      cases hy
      refine ⟨_, rfl, rfl, fun i hi => hx.2 _ ?_⟩
      rw [hx.1]
      refine inB_set_self ax _ _ hi c.1 ?_
      have := ((inB_iff _ _).1 hi).2 ax (by simpa using c.1)
      rw [getD_set _ _ _ _ c.1, if_pos rfl] at this
      omega

theorem sliceIncr_ext (ax s e : Nat) (h : ∀ a b y, (Res.ok (sliceIncr ax s e a b) : Res (T ℝ)) = .ok y → y.shape = a.shape) (p : List Nat)
    (ha : ax < p.length) :
    (POp.of2 (fun x g => .ok (sliceIncr ax s e x g)) (fun a _ => a) h).Ext [p, sliceShp ax s e p] :=
  ext2 fun a b a' b' y ea eb hy h1 h2 => by
    cases hy
    refine ⟨_, rfl, h1.1, fun i hi => ?_⟩
    have hi : InB p i := by rw [← ea, ← h1.1]; exact hi
    simp only [sliceIncr]
    by_cases c : s ≤ i.getD ax 0 ∧ i.getD ax 0 < e
    swap
    · rw [if_neg c, if_neg c]
    rw [if_pos c, if_pos c]
    unfold sliceShp at eb
    by_cases c2 : e - s = 1
    · rw [if_pos c2, if_pos c2]
      rw [if_pos c2] at eb
      rw [h2.2 _ (by rw [h2.1, eb]; exact inB_eraseIdx hi ax)]
    · rw [if_neg c2, if_neg c2]
      rw [if_neg c2] at eb
      rw [h2.2 _ (by rw [h2.1, eb]; exact inB_set_lt hi ax _ _ (by omega))]

theorem transpose_ext (p : List Nat) (hp : IsPerm p) (h : ∀ x y, (Res.ok (transposeT p x) : Res (T ℝ)) = .ok y → y.shape = permute p x.shape)
    (q : List Nat) (hq : p.length = q.length) : (POp.of1 (fun x => .ok (transposeT p x)) (permute p) h).Ext [q] :=
  ext1 fun x x' y ex hy hx => by
    cases hy
    exact ⟨_, rfl, transposeT_same hp (by rw [hx.1, ex]; exact hq) hx⟩

theorem flip_at {t : Bool} {a b : T ℝ} (h : a.Same b) (hl : a.shape.length = 2) :
    ((toM a).flip t).r = ((toM b).flip t).r ∧ ((toM a).flip t).c = ((toM b).flip t).c ∧
    ∀ i j, i < ((toM a).flip t).r → j < ((toM a).flip t).c → ((toM a).flip t).f i j = ((toM b).flip t).f i j := by
  obtain ⟨r, c, e⟩ : ∃ r c, a.shape = [r, c] := by
    match a.shape, hl with
    | [r, c], _ => exact ⟨r, c, rfl⟩
  have e' : b.shape = [r, c] := by rw [← h.1]; exact e
  cases t
  · refine ⟨by simp [M.flip, toM, e, e'], by simp [M.flip, toM, e, e'], fun i j hi hj => ?_⟩
    simp only [M.flip, toM, e, Bool.false_eq_true, if_false, List.getD_cons_zero, List.getD_cons_succ] at hi hj ⊢
    exact h.2 [i, j] (by rw [e]; exact ⟨hi, hj, trivial⟩)
  · refine ⟨by simp [M.flip, M.T, toM, e, e'], by simp [M.flip, M.T, toM, e, e'], fun i j hi hj => ?_⟩
    simp only [M.flip, M.T, toM, e, if_true, List.getD_cons_zero, List.getD_cons_succ] at hi hj ⊢
    exact h.2 [j, i] (by rw [e]; exact ⟨hj, hi, trivial⟩)

theorem toV_at {a b : T ℝ} (h : a.Same b) (hl : a.shape.length = 1) :
    (toV a).n = (toV b).n ∧ ∀ i, i < (toV a).n → (toV a).f i = (toV b).f i := by
  obtain ⟨r, e⟩ : ∃ r, a.shape = [r] := by
    match a.shape, hl with
    | [r], _ => exact ⟨r, rfl⟩
  have e' : b.shape = [r] := by rw [← h.1]; exact e
  refine ⟨by simp [toV, e, e'], fun i hi => ?_⟩
  simp only [toV, e, List.getD_cons_zero] at hi ⊢
  exact h.2 [i] (by rw [e]; exact ⟨hi, trivial⟩)

theorem matMul_ext (tA tB : Bool) (h : ∀ a b y, matMulRun tA tB a b = .ok y → y.shape = [(flipShp tA a.shape).1, (flipShp tB b.shape).2])
    (p q : List Nat) :
    (POp.of2 (matMulRun tA tB) (fun s s' => [(flipShp tA s).1, (flipShp tB s').2]) h).Ext [p, q] :=
  ext2 fun a b a' b' y _ _ hy h1 h2 => by
    unfold matMulRun at hy ⊢
    rw [h1.1, h2.1]
    by_cases c : a.shape.length = 2 ∧ b.shape.length = 2
    swap
    · rw [if_neg c] at hy; cases hy
    rw [if_pos c] at hy ⊢
    obtain ⟨r1, c1, f1⟩ := flip_at (t := tA) h1 (by rw [h1.1]; exact c.1)
    obtain ⟨r2, c2, f2⟩ := flip_at (t := tB) h2 (by rw [h2.1]; exact c.2)
    unfold matMul matMul0 at hy ⊢
    rw [c1, r2]
    by_cases d : ((toM a).flip tA).c = ((toM b).flip tB).r
    swap
    · rw [if_neg d] at hy; cases hy
    rw [if_pos d] at hy ⊢
    simp only at hy ⊢
    cases hy
    refine ⟨_, rfl, by simp only [ofM, r1, c2], fun i hi => ?_⟩
    match i, hi with
    | [i, j], hi =>
      simp only [ofM, List.getD_cons_zero, List.getD_cons_succ]
      refine Finset.sum_congr rfl fun k hk => ?_
      have hk := Finset.mem_range.1 hk
      rw [f1 i k hi.1 (by rw [c1]; exact hk), f2 k j (by rw [r2, ← d]; exact hk) hi.2.1]

theorem matVec_ext (tA : Bool) (h : ∀ a b y, matVecRun tA a b = .ok y → y.shape = [(flipShp tA a.shape).1]) (p q : List Nat) :
    (POp.of2 (matVecRun tA) (fun s _ => [(flipShp tA s).1]) h).Ext [p, q] :=
  ext2 fun a b a' b' y _ _ hy h1 h2 => by
    unfold matVecRun at hy ⊢
    rw [h1.1, h2.1]
    by_cases c : a.shape.length = 2 ∧ b.shape.length = 1
    swap
    · rw [if_neg c] at hy; cases hy
    rw [if_pos c] at hy ⊢
    obtain ⟨r1, c1, f1⟩ := flip_at (t := tA) h1 (by rw [h1.1]; exact c.1)
    obtain ⟨n2, f2⟩ := toV_at h2 (by rw [h2.1]; exact c.2)
    unfold matVec at hy ⊢
    simp only at hy ⊢
    rw [c1, n2]
    by_cases d : ((toM a).flip tA).c = (toV b).n
    swap
    · rw [if_neg d] at hy; cases hy
    rw [if_pos d] at hy ⊢
    simp only at hy ⊢
    cases hy
    refine ⟨_, rfl, by simp only [ofV, r1], fun i hi => ?_⟩
    match i, hi with
    | [i], hi =>
      simp only [ofV, List.getD_cons_zero]
      refine Finset.sum_congr rfl fun k hk => ?_
      have hk := Finset.mem_range.1 hk
      rw [f1 i k hi.1 (by rw [c1]; exact hk), f2 k (by rw [n2, ← d]; exact hk)]

theorem outer_ext (h : ∀ a b y, outerRun a b = .ok y → y.shape = [a.shape.getD 0 0, b.shape.getD 0 0]) (p q : List Nat) :
    (POp.of2 outerRun (fun s s' => [s.getD 0 0, s'.getD 0 0]) h).Ext [p, q] :=
  ext2 fun a b a' b' y _ _ hy h1 h2 => by
    unfold outerRun at hy ⊢
    rw [h1.1, h2.1]
    by_cases c : a.shape.length = 1 ∧ b.shape.length = 1
    swap
    · rw [if_neg c] at hy; cases hy
    rw [if_pos c] at hy ⊢
    cases hy
    obtain ⟨n1, f1⟩ := toV_at h1 (by rw [h1.1]; exact c.1)
    obtain ⟨n2, f2⟩ := toV_at h2 (by rw [h2.1]; exact c.2)
    refine ⟨_, rfl, by simp only [ofM, outer, n1, n2], fun i hi => ?_⟩
    match i, hi with
    | [i, j], hi =>
      simp only [ofM, outer, List.getD_cons_zero, List.getD_cons_succ]
      rw [f1 i hi.1, f2 j hi.2.1]

theorem inB_line {s i : List Nat} (hi : InB s i) (ax k : Nat) (hk : k < s.getD ax 0) : InB s (i.set ax k) := by
  by_cases h : ax < s.length
  · exact inB_set_self ax (s.getD ax 0) k (by rw [set_getD_self]; exact hi) h hk
  · rw [List.set_eq_of_length_le (by rw [hi.length]; omega)]; exact hi

theorem lineSum_congr {s : List Nat} {ax : Nat} {F F' : List Nat → ℝ} {i : List Nat} (hi : InB s i)
    (h : ∀ j, InB s j → F j = F' j) : lineSum s ax F i = lineSum s ax F' i :=
  Finset.sum_congr rfl fun k hk => h _ (inB_line hi ax k (Finset.mem_range.1 hk))

theorem soft_ext (isLog : Bool) (axis : Int) (h : ∀ x y, softDo isLog axis x = .ok y → y.shape = id x.shape) (q : List Nat) :
    (POp.of1 (softDo isLog axis) id h).Ext [q] :=
  ext1 fun x x' y _ hy hx => by
    unfold softDo at hy ⊢
    rw [hx.1]
    by_cases c : x.shape = []
    · rw [if_pos c] at hy; cases hy
    rw [if_neg c] at hy ⊢
    simp only at hy ⊢
    cases hy
    have hx2 : ∀ j, InB x.shape j → x'.at_ j = x.at_ j := fun j hj => hx.2 j (by rw [hx.1]; exact hj)
    refine ⟨_, rfl, ?_, fun i hi => ?_⟩
    · cases isLog <;> exact hx.1
    cases isLog
    · have hi : InB x.shape i := by rw [← hx.1]; exact hi
      simp only [softAxis, Bool.false_eq_true, if_false, hx.1]
      rw [hx2 i hi, lineSum_congr hi fun j hj => by rw [hx2 j hj]]
    · have hi : InB x.shape i := by rw [← hx.1]; exact hi
      simp only [logSoftAxis, if_true, hx.1]
      rw [hx2 i hi, lineSum_congr hi fun j hj => by rw [hx2 j hj]]

theorem softDiff_ext (isLog : Bool) (axis : Int)
    (h : ∀ a b c y, (Res.ok (softDiff isLog axis b c) : Res (T ℝ)) = .ok y → y.shape = b.shape) (p q : List Nat) :
    (POp.of3 (fun (_ : T ℝ) y g => .ok (softDiff isLog axis y g)) (fun _ y _ => y) h).Ext [p, q, q] := by
  intro xs y vs hs hr hv
  match xs, vs, hv, hs, hr with
  | [a, b, g], [a', b', g'], .cons _ (.cons h2 (.cons h3 .nil)), hs, hr =>
    simp only [List.map_cons, List.map_nil, List.cons.injEq, and_true] at hs
    obtain ⟨-, rfl, hg⟩ := hs
    cases hr
    have e2 : ∀ j, InB b.shape j → b'.at_ j = b.at_ j := fun j hj => h2.2 j (by rw [h2.1]; exact hj)
    have e3 : ∀ j, InB b.shape j → g'.at_ j = g.at_ j := fun j hj => h3.2 j (by rw [h3.1, hg]; exact hj)
    refine ⟨_, rfl, by rw [softDiff_shp, softDiff_shp, h2.1], fun i hi => ?_⟩
    rw [softDiff_shp, h2.1] at hi
    unfold softDiff
    cases isLog
    · simp only [softAxisB, Bool.false_eq_true, if_false, h2.1]
      rw [e2 i hi, e3 i hi, lineSum_congr hi fun j hj => by rw [e2 j hj, e3 j hj]]
    · simp only [logSoftAxisB, if_true, h2.1]
      rw [e2 i hi, e3 i hi, lineSum_congr hi fun j hj => e3 j hj]

end

end Verif.AD
