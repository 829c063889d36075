import Verif.Round.Elem
/-!
Which operations have gradients that are continuous: sums, softmax, products.
-/
set_option autoImplicit false
namespace Verif.Round
open Verif.Tensor Verif.AD Filter
open Verif.Shape hiding bc
open Verif.NN (softDiff softDo resolve softAxisB logSoftAxisB lineSum isColVec)
open scoped Topology

noncomputable section

/-! ### Softmax -/

/-- The neighbourhoods of a tensor. -/
def nb (x : T ℝ) : Filter (T ℝ) where
  sets := {S | ∃ δ, 0 < δ ∧ ∀ x', Close δ x' x → x' ∈ S}
  univ_sets := ⟨1, one_pos, fun _ _ => trivial⟩
  sets_of_superset := fun ⟨δ, h, H⟩ hs => ⟨δ, h, fun x' hx => hs (H x' hx)⟩
  inter_sets := fun ⟨δ, h, H⟩ ⟨δ', h', H'⟩ => ⟨min δ δ', lt_min h h', fun x' hx =>
    ⟨H x' (hx.mono (min_le_left _ _)), H' x' (hx.mono (min_le_right _ _))⟩⟩

theorem mem_nb {x : T ℝ} {S : Set (T ℝ)} : S ∈ nb x ↔ ∃ δ, 0 < δ ∧ ∀ x', Close δ x' x → x' ∈ S := Iff.rfl

theorem entry_tendsto {x : T ℝ} {i : List Nat} (hi : InB x.shape i) : Tendsto (fun x' : T ℝ => x'.at_ i) (nb x) (𝓝 (x.at_ i)) := by
  rw [Metric.tendsto_nhds]
  intro ε hε
  refine mem_nb.2 ⟨ε / 2, half_pos hε, fun x' hx => ?_⟩
  have := hx.2 i hi
  simp only [Set.mem_setOf_eq, Real.dist_eq]
  linarith

/-- An operation that uses two of its operands is continuous if the elements of its results are. -/
theorem steady_pair {run : List (T ℝ) → Res (T ℝ)} {x y g : T ℝ} (F : T ℝ → T ℝ → T ℝ) (hrun : ∀ x y g, run [x, y, g] = .ok (F y g))
    (hsh : ∀ y' g', y'.shape = y.shape → (F y' g').shape = (F y g).shape)
    (ht : ∀ i, InB (F y g).shape i → Tendsto (fun p : T ℝ × T ℝ => (F p.1 p.2).at_ i) (nb y ×ˢ nb g) (𝓝 ((F y g).at_ i))) :
    Steady run [x, y, g] := by
  refine ⟨F y g, hrun _ _ _, fun ε hε => ?_⟩
  obtain ⟨δ, hδ, H⟩ := common_bound (P := fun k δ => ∀ y' g', Close δ y' y → Close δ g' g →
      |(F y' g').at_ (unravel (F y g).shape k) - (F y g).at_ (unravel (F y g).shape k)| ≤ ε)
    (fun k δ δ' hle H y' g' hy hg => H y' g' (hy.mono hle) (hg.mono hle)) (size (F y g).shape) (fun k hk => by
      have := Metric.tendsto_nhds.1 (ht _ (inB_unravel hk)) ε hε
      obtain ⟨S, hS, S', hS', hsub⟩ := Filter.mem_prod_iff.1 this
      obtain ⟨δ₁, h1, H1⟩ := mem_nb.1 hS
      obtain ⟨δ₂, h2, H2⟩ := mem_nb.1 hS'
      refine ⟨min δ₁ δ₂, lt_min h1 h2, fun y' g' hy hg => ?_⟩
      have := hsub (Set.mk_mem_prod (H1 y' (hy.mono (min_le_left _ _))) (H2 g' (hg.mono (min_le_right _ _))))
      simp only [Set.mem_setOf_eq, Real.dist_eq] at this
      exact this.le)
  refine ⟨δ, hδ, fun xs' hx => ?_⟩
  match xs', hx with
  | [x', y', g'], .cons _ (.cons hy (.cons hg .nil)) =>
    refine ⟨_, hrun _ _ _, hsh y' g' hy.1, fun i hi => ?_⟩
    have := H (ravel (F y g).shape i) (ravel_lt hi) y' g' hy hg
    rwa [unravel_ravel hi] at this

/-- The operation `softmaxDiffOp` is continuous. -/
theorem softDiff_steady (isLog : Bool) (axis : Int) {x y g : T ℝ} (hg : g.shape = y.shape) :
    Steady (POp.of3 (fun _ y g => .ok (softDiff isLog axis y g)) (fun _ y _ => y)
      (fun _ _ _ _ h => by cases h; exact softDiff_shp ..)).run [x, y, g] := by
  refine steady_pair (softDiff isLog axis) (fun _ _ _ => rfl) (fun y' g' h => by rw [softDiff_shp, softDiff_shp, h]) fun i hi => ?_
  rw [softDiff_shp] at hi
  have ty : ∀ j, InB y.shape j → Tendsto (fun p : T ℝ × T ℝ => p.1.at_ j) (nb y ×ˢ nb g) (𝓝 (y.at_ j)) := fun j hj =>
    (entry_tendsto hj).comp tendsto_fst
  have tg : ∀ j, InB y.shape j → Tendsto (fun p : T ℝ × T ℝ => p.2.at_ j) (nb y ×ˢ nb g) (𝓝 (g.at_ j)) := fun j hj =>
    (entry_tendsto (by rw [hg]; exact hj)).comp tendsto_snd
  have hshape : ∀ᶠ p : T ℝ × T ℝ in nb y ×ˢ nb g, p.1.shape = y.shape :=
    tendsto_fst.eventually (mem_nb.2 ⟨1, one_pos, fun y' h => h.1⟩)
  obtain ⟨ax, hax⟩ : ∃ ax, ax = resolve axis y.shape.length := ⟨_, rfl⟩
  cases isLog with
  | false =>
    have : Tendsto (fun p : T ℝ × T ℝ => p.1.at_ i * (p.2.at_ i - lineSum y.shape ax (fun j => p.1.at_ j * p.2.at_ j) i)) (nb y ×ˢ nb g)
        (𝓝 (y.at_ i * (g.at_ i - lineSum y.shape ax (fun j => y.at_ j * g.at_ j) i))) := by
      refine (ty i hi).mul ((tg i hi).sub ?_)
      unfold lineSum
      refine tendsto_finset_sum _ fun k hk => ?_
      have hk' := NN.inB_set_line hi ax k (Finset.mem_range.1 hk)
      exact (ty _ hk').mul (tg _ hk')
    have e : (softDiff false axis y g).at_ i = y.at_ i * (g.at_ i - lineSum y.shape ax (fun j => y.at_ j * g.at_ j) i) := by
      rw [hax]; rfl
    rw [e]
    refine this.congr' ?_
    filter_upwards [hshape] with p hp
    simp only [softDiff, softAxisB, hp, hax, Bool.false_eq_true, if_false]
  | true =>
    have : Tendsto (fun p : T ℝ × T ℝ => p.2.at_ i - Real.exp (p.1.at_ i) * lineSum y.shape ax p.2.at_ i) (nb y ×ˢ nb g)
        (𝓝 (g.at_ i - Real.exp (y.at_ i) * lineSum y.shape ax g.at_ i)) := by
      refine (tg i hi).sub (((Real.continuous_exp.tendsto _).comp (ty i hi)).mul ?_)
      unfold lineSum
      refine tendsto_finset_sum _ fun k hk => ?_
      exact tg _ (NN.inB_set_line hi ax k (Finset.mem_range.1 hk))
    have e : (softDiff true axis y g).at_ i = g.at_ i - Real.exp (y.at_ i) * lineSum y.shape ax g.at_ i := by
      rw [hax]; rfl
    rw [e]
    refine this.congr' ?_
    filter_upwards [hshape] with p hp
    simp only [softDiff, logSoftAxisB, hp, hax, if_true]

/-- The gradient nodes of softmax. -/
theorem soft_symSteady {imp : POp → Impl} (hF : Faithful imp) (isLog : Bool) (axis : Int) (x y : T ℝ) :
    SymSteady imp (softDOp isLog axis) [x] y := by
  intro ρ sh args out gx g es _ ha ho hg hgs hsa hso hsg hes
  match args, ha, hes with
  | [a], .cons hxa .nil, hes =>
    simp only [softDOp, softSym, Option.some.injEq] at hes
    subst hes
    simp only [List.mem_singleton, forall_eq]
    refine xSteady_app hF (xs := [x, y, g]) (by simp only [XSteadyL]; exact ⟨hsa a (by simp), hso, hsg, trivial⟩)
      (by simp only [XT.evalL, hxa, ho, hg, Res.bind]) (softDiff_steady isLog axis hgs)

/-! ### Sums -/

/-- `sizeOp` and `repeatOp` as operations of gradient nodes. -/
def sizePOp (d : Nat) : POp := .of1 (fun x => .ok (scalarT (Shape.sizeOf d x.shape : ℝ))) (fun _ => []) (fun _ _ h => by cases h; rfl)

def repeatPOp (along n : Nat) : POp := .of2 (repeatRun along n) (fun s _ => repeatShp along n s) (fun _ _ _ h => repeat_shp h)

/-- What is assumed of the implementations: they are accurate where the operation is continuous, sizes are computed exactly, and
repeating elements only copies them. -/
structure Sound (imp : POp → Impl) : Prop where
  faithful : Faithful imp
  size : ∀ d u xs y, imp (sizePOp d) u xs y → (sizePOp d).run xs = .ok y
  rep : ∀ along n u xs y, imp (repeatPOp along n) u xs y → (repeatPOp along n).run xs = .ok y

/-- Sizes are computed without error from rounded operands. -/
theorem size_sharp {imp : POp → Impl} (hS : Sound imp) {ρ : Nat → Res (T ℝ)} {e : XT} {v : T ℝ} (he : e.eval ρ = .ok v) (h : XSteady imp ρ e)
    (d : Nat) : Sharp imp ρ (.sizeOf d e) := by
  refine ⟨scalarT (Shape.sizeOf d v.shape : ℝ), by rw [XT.sizeOf, XT.eval_app1 he], ?_⟩
  obtain ⟨u₀, hu₀, δ, hδ, H⟩ := term_rounded imp ρ e h 1 one_pos
  refine ⟨u₀, hu₀, δ, hδ, fun u h0 hu V hV w hw => ?_⟩
  simp only [XT.sizeOf, XT.app1, Comp, CompL] at hw
  obtain ⟨vs, ⟨v', vs', rfl, hv', rfl⟩, himp⟩ := hw
  obtain ⟨z, hz, hc⟩ := H u h0 hu V hV v' hv'
  rw [he] at hz
  cases hz
  have := hS.size d u [v'] w himp
  simp only [sizePOp, POp.of1, Res.ok.injEq] at this
  rw [← this, hc.1]

/-- Repeating along an axis of the operand is continuous in the elements, with an exact count. -/
theorem repeat_steady {along n : Nat} {x : T ℝ} (ha : along < x.shape.length) :
    SteadyX (repeatPOp along n).run [false, true] [x, scalarT (n : ℝ)] ∧
      ∃ w, repeatRun along n x (scalarT (n : ℝ)) = .ok w ∧ w.shape = x.shape.set along (x.shape.getD along 0 * n) := by
  have hs : ∀ x' : T ℝ, x'.shape = x.shape → repeatRun along n x' (scalarT (n : ℝ)) =
      .ok ⟨x.shape.set along (x.shape.getD along 0 * n), fun i => x'.at_ (i.set along (i.getD along 0 / n))⟩ := by
    intro x' hx
    have hsc : (scalarT (n : ℝ)).at_ [] = (n : ℝ) := rfl
    unfold repeatRun repeat_ repeatShape
    rw [if_pos hsc, hx]
    have h1 : decide (x.shape.length ≤ along) = false := by simp; omega
    have h2 : x.shape ≠ [] := by intro h; rw [h] at ha; simp at ha
    simp only [h1, Bool.and_false, Bool.false_eq_true, if_false, if_neg h2, List.getElem?_eq_getElem ha, Res.bind]
    simp [List.getD_eq_getElem?_getD, List.getElem?_eq_getElem ha]
  refine ⟨⟨_, hs x rfl, fun ε hε => ⟨ε, hε, fun xs' hx => ?_⟩⟩, _, hs x rfl, rfl⟩
  match xs', hx with
  | [x', c'], hx =>
    simp only [CloseX, Bool.false_eq_true, if_false, if_true, and_true] at hx
    obtain ⟨h1, rfl⟩ := hx
    refine ⟨_, hs x' h1.1, rfl, fun i hi => ?_⟩
    simp only at hi ⊢
    refine h1.2 _ (inB_set_self along _ _ hi ha ?_)
    have hlt : i.getD along 0 < x.shape.getD along 0 * n := by
      have := ((inB_iff _ _).1 hi).2 along (by simpa using ha)
      simpa [List.getD_eq_getElem?_getD, List.getElem?_set, ha] using this
    exact Nat.div_lt_of_lt_mul (by rwa [Nat.mul_comm] at hlt)
  | [], hx => simp [CloseX] at hx
  | [_], hx => simp [CloseX] at hx
  | _ :: _ :: _ :: _, hx => simp [CloseX] at hx

theorem rep_accurate {imp : POp → Impl} (hS : Sound imp) (along n : Nat) (ms : List Bool) (xs : List (T ℝ)) :
    AccurateX (repeatPOp along n).run (imp (repeatPOp along n)) ms xs :=
  fun ε hε => ⟨1, one_pos, 1, one_pos, fun u _ _ xs' _ y' hy => ⟨y', hS.rep along n u xs' y' hy, Close.refl hε.le y'⟩⟩

theorem repeatedX_steady {imp : POp → Impl} (hS : Sound imp) {ρ : Nat → Res (T ℝ)} {sh : XT → List Nat}
    (hsh : ∀ e v, XT.eval ρ e = .ok v → sh e = v.shape) {x : XT} {xv : T ℝ} (hx : x.eval ρ = .ok xv) (hxs : XSteady imp ρ x) (along : List Nat)
    {a : XT} {v : T ℝ} (ha : a.eval ρ = .ok v) (has : XSteady imp ρ a) (hl : ∀ d ∈ along, d < v.shape.length) :
    XSteady imp ρ (repeatedX sh x along a) := by
  induction along generalizing a v with
  | nil => exact has
  | cons d ds ih =>
    have hd : d < v.shape.length := hl d (by simp)
    obtain ⟨hst, w, hw, hws⟩ := repeat_steady (n := Shape.sizeOf d xv.shape) hd
    have hz : (XT.sizeOf d x).eval ρ = .ok (scalarT (Shape.sizeOf d xv.shape : ℝ)) := by rw [XT.sizeOf, XT.eval_app1 hx]
    refine ih (a := .repeat d (Shape.sizeOf d (sh x)) a (.sizeOf d x)) (v := w) ?_ ?_ fun d' hd' => ?_
    · rw [XT.repeat, XT.eval_app2 ha hz, hsh x xv hx]
      exact hw
    · rw [hsh x xv hx]
      have hss : XSteady imp ρ (.sizeOf d x) := by
        have : Steady (sizePOp d).run [xv] := by
          refine ⟨_, rfl, fun ε hε => ⟨1, one_pos, fun xs' hc => ?_⟩⟩
          match xs', hc with
          | [x'], .cons h1 .nil => exact ⟨_, rfl, by rw [h1.1]; exact Close.refl hε.le _⟩
        exact xSteady_app hS.faithful (xs := [xv]) (by simp only [XSteadyL]; exact ⟨hxs, trivial⟩) (by simp only [XT.evalL, hx, Res.bind]) this
      show XSteady imp ρ (.app (repeatPOp d (Shape.sizeOf d xv.shape)) [a, .sizeOf d x])
      simp only [XSteady, XSteadyL]
      refine ⟨⟨has, hss, trivial⟩, [v, scalarT (Shape.sizeOf d xv.shape : ℝ)], [false, true], by simp only [XT.evalL, ha, hz, Res.bind], ?_, hst,
        rep_accurate hS d _ _ _⟩
      simp only [SharpL]
      exact ⟨fun h => (by cases h), fun _ => size_sharp hS hx hxs d, trivial⟩
    · rw [hws, List.length_set]
      exact hl d' (by simp [hd'])

theorem fillFirst_length (s : Nat) (l : List Nat) : (fillFirst s l).length = l.length := by
  induction l with
  | nil => rfl
  | cons a l ih =>
    cases a with
    | zero => rfl
    | succ a => simp [fillFirst, ih]

theorem calcBroadcast_length (shp : List Nat) (n : Nat) (along : List Nat) : (calcBroadcastShape shp n along).length = n := by
  have h1 : (onesAt n along).length = n := by
    unfold onesAt
    have : ∀ (l : List Nat) (s : List Nat), (l.foldl (fun s i => s.set i 1) s).length = s.length := by
      intro l
      induction l with
      | nil => intro s; rfl
      | cons a l ih => intro s; rw [List.foldl_cons, ih, List.length_set]
    rw [this, List.length_replicate]
  have h2 : ∀ (l ns : List Nat), (l.foldl (fun ns s => fillFirst s ns) ns).length = ns.length := by
    intro l
    induction l with
    | nil => intro ns; rfl
    | cons a l ih => intro ns; rw [List.foldl_cons, ih, fillFirst_length]
  unfold calcBroadcastShape
  by_cases h : shp.length = n
  · simp only [if_pos h]
    split
    · simpa using h
    · exact h
  · simp only [if_neg h]
    split
    · simpa using h1
    · rw [h2, h1]

theorem size_ones (l : List Nat) : size (l.map fun _ => 1) = 1 := by
  induction l with
  | nil => rfl
  | cons a l ih => rw [List.map_cons, size, ih]

theorem negs_nat (l : List Nat) (k : Nat) (p : Nat × Nat) : negs k (l.map Int.ofNat) p = p := by
  induction l generalizing k with
  | nil => rfl
  | cons a l ih =>
    obtain ⟨n, i⟩ := p
    simp only [List.map_cons, negs]
    rw [if_neg (by simp), ih]

/-- A reshape that works keeps the number of elements, unless the operand is a scalar. -/
theorem reshape_size {g q : T ℝ} {s : List Nat} (hg : g.shape ≠ []) (h : reshape g (s.map Int.ofNat) = .ok q) : size s = size g.shape := by
  unfold reshape reshapeTo at h
  rw [negs_nat] at h
  obtain ⟨s', h1, -⟩ := bind_ok.1 h
  simp only [Nat.not_lt_zero, gt_iff_lt, if_false, OfNat.zero_ne_ofNat, zero_ne_one, Res.bind] at h1
  have e : (s.map Int.ofNat).map Int.toNat = s := by simp [Function.comp_def]
  rw [e] at h1
  by_contra hc
  rw [if_pos ⟨List.length_pos_iff.2 hg, fun e => hc e.symm⟩] at h1
  cases h1

/-- The gradient nodes of sums. -/
theorem sum_symSteady {imp : POp → Impl} (hS : Sound imp) (along : List Nat) {x y : T ℝ} (hr : x.shape ≠ [])
    (h : ∀ a ∈ along, a < x.shape.length) (hn : along.Nodup) (hp : ∀ d ∈ x.shape, d ≠ 0) (hy : sumNode x along = .ok y) :
    SymSteady imp (sumDOp along) [x] y := by
  intro ρ sh args out gx g es hsh ha ho hg hgs hsa hso hsg hes
  match args, ha, hes with
  | [a], .cons hxa .nil, hes =>
    simp only [sumDOp, sumSym, Option.some.injEq] at hes
    subst hes
    obtain ⟨y', y1, -, hgood⟩ := sumTOp_good along x hr h hn hp
    rw [hy] at y1
    cases y1
    obtain ⟨ts, hts, -⟩ := hgood.total (by simp [sumTOp, TOp.one]) g hgs
    simp only [sumTOp, TOp.one, Option.map_eq_some_iff, opt_some] at hts
    obtain ⟨r, hr', -⟩ := hts
    unfold sumDiff at hr'
    obtain ⟨q, q1, -⟩ := bind_ok.1 hr'
    have hsize : size (calcBroadcastShape g.shape x.shape.length (axesOf x.shape.length along)) = size g.shape := by
      by_cases c : g.shape = []
      · rw [c]
        unfold calcBroadcastShape
        simp only [if_true]
        exact size_ones _
      · exact reshape_size c q1
    obtain ⟨q', e1, e2, e3⟩ := reshapeTOp_good _ g hsize
    rw [q1] at e1
    cases e1
    simp only [List.mem_singleton, forall_eq]
    rw [hsh a x hxa, hsh gx g hg]
    refine repeatedX_steady hS hsh hxa (hsa a (by simp)) _ (v := q) (by rw [XT.reshape, XT.eval_app1 hg]; exact q1) ?_ fun d hd => ?_
    · have hst := good_steady e3
      rw [(reshapeSym_of _).run] at hst
      exact xSteady_app hS.faithful (xs := [g]) (by simp only [XSteadyL]; exact ⟨hsg, trivial⟩) (by simp only [XT.evalL, hg, Res.bind]) hst
    · rw [e2, calcBroadcast_length]
      exact axesOf_lt h d hd

/-! ### Products -/

theorem batch_x {imp : POp → Impl} (hF : Faithful imp) {ρ : Nat → Res (T ℝ)} (tA tB : Bool) {o : List Nat} {a b : XT} {v w : T ℝ} {r c r' c' : Nat}
    (ho : ∀ d ∈ o, 0 < d) (ha : a.eval ρ = .ok v) (hb : b.eval ρ = .ok w) (hsa : XSteady imp ρ a) (hsb : XSteady imp ρ b)
    (hv : v.shape = o ++ [r, c]) (hw : w.shape = o ++ [r', c']) (h : (sz tA r c).2 = (sz tB r' c').1) : XSteady imp ρ (.batch tA tB a b) := by
  obtain ⟨y, -, -, hg⟩ := batchTOp_good tA tB o v w r c r' c' ho hv hw h
  have hst := good_steady hg
  rw [(batchSym_of tA tB).run] at hst
  exact xSteady_app hF (xs := [v, w]) (by simp only [XSteadyL]; exact ⟨hsa, hsb, trivial⟩) (by simp only [XT.evalL, ha, hb, Res.bind]) hst

/-- The gradient nodes of batched products, for all flags. -/
theorem batch_symSteady {imp : POp → Impl} (hF : Faithful imp) (tA tB : Bool) {o : List Nat} {a b y : T ℝ} {r c r' c' : Nat}
    (ho : ∀ d ∈ o, 0 < d) (ha : a.shape = o ++ [r, c]) (hb : b.shape = o ++ [r', c']) (h : (sz tA r c).2 = (sz tB r' c').1)
    (hy : batchRun tA tB a b = .ok y) : SymSteady imp (batchDOp tA tB) [a, b] y := by
  intro ρ sh args out gx g es _ hargs _ hg hgs hsa _ hsg hes
  obtain ⟨y', y1, y2, -⟩ := batchTOp_good tA tB o a b r c r' c' ho ha hb h
  rw [hy] at y1
  cases y1
  match args, hargs, hes with
  | [p, q], .cons hp (.cons hq .nil), hes =>
    have sp := hsa p (by simp)
    have sq := hsa q (by simp)
    rw [y2] at hgs
    simp only [batchDOp, batchSym, Option.some.injEq] at hes
    subst hes
    cases tA <;> cases tB <;> simp only [sz, Bool.false_eq_true, if_false, if_true] at h hgs <;> intro e he <;>
      simp only [List.mem_cons, List.not_mem_nil, or_false] at he <;> rcases he with rfl | rfl
    · exact batch_x hF _ _ ho hg hq hsg sq hgs hb (by simp [sz])
    · exact batch_x hF _ _ ho hp hg sp hsg ha hgs (by simp [sz])
    · exact batch_x hF _ _ ho hg hq hsg sq hgs hb (by simp [sz])
    · exact batch_x hF _ _ ho hg hp hsg sp hgs ha (by simp [sz])
    · exact batch_x hF _ _ ho hq hg sq hsg hb hgs (by simp [sz])
    · exact batch_x hF _ _ ho hp hg sp hsg ha hgs (by simp [sz])
    · exact batch_x hF _ _ ho hq hg sq hsg hb hgs (by simp [sz])
    · exact batch_x hF _ _ ho hg hp hsg sp hgs ha (by simp [sz])

theorem matMul_x {imp : POp → Impl} (hF : Faithful imp) {ρ : Nat → Res (T ℝ)} (tA tB : Bool) {a b : XT} {v w : T ℝ} {r c r' c' : Nat}
    (ha : a.eval ρ = .ok v) (hb : b.eval ρ = .ok w) (hsa : XSteady imp ρ a) (hsb : XSteady imp ρ b)
    (hv : v.shape = [r, c]) (hw : w.shape = [r', c']) (h : (sz tA r c).2 = (sz tB r' c').1) : XSteady imp ρ (.matMul tA tB a b) := by
  obtain ⟨y, -, -, hg⟩ := matMulTOp_good tA tB v w (by rw [hv]; rfl) (by rw [hw]; rfl) (by
    cases tA <;> cases tB <;> simpa [LinAlg.M.flip, LinAlg.M.T, AD.toM, hv, hw, sz] using h)
  have hst := good_steady hg
  rw [(matMulSym_of tA tB).run] at hst
  exact xSteady_app hF (xs := [v, w]) (by simp only [XSteadyL]; exact ⟨hsa, hsb, trivial⟩) (by simp only [XT.evalL, ha, hb, Res.bind]) hst

/-- The gradient nodes of matrix products, for all flags. -/
theorem matMul_symSteady {imp : POp → Impl} (hF : Faithful imp) (tA tB : Bool) {a b y : T ℝ} {r c r' c' : Nat}
    (ha : a.shape = [r, c]) (hb : b.shape = [r', c']) (h : (sz tA r c).2 = (sz tB r' c').1)
    (hy : matMulRun tA tB a b = .ok y) : SymSteady imp (matMulDOp tA tB) [a, b] y := by
  intro ρ sh args out gx g es _ hargs _ hg hgs hsa _ hsg hes
  have y2 : y.shape = [(sz tA r c).1, (sz tB r' c').2] := by
    rw [matMul_shp hy, ha, hb]
    cases tA <;> cases tB <;> rfl
  match args, hargs, hes with
  | [p, q], .cons hp (.cons hq .nil), hes =>
    have sp := hsa p (by simp)
    have sq := hsa q (by simp)
    rw [y2] at hgs
    simp only [matMulDOp, matMulSym, Option.some.injEq] at hes
    subst hes
    cases tA <;> cases tB <;> simp only [sz, Bool.false_eq_true, if_false, if_true] at h hgs <;> intro e he <;>
      simp only [List.mem_cons, List.not_mem_nil, or_false] at he <;> rcases he with rfl | rfl
    · exact matMul_x hF _ _ hg hq hsg sq hgs hb (by simp [sz])
    · exact matMul_x hF _ _ hp hg sp hsg ha hgs (by simp [sz])
    · exact matMul_x hF _ _ hg hq hsg sq hgs hb (by simp [sz])
    · exact matMul_x hF _ _ hg hp hsg sp hgs ha (by simp [sz])
    · exact matMul_x hF _ _ hq hg sq hsg hb hgs (by simp [sz])
    · exact matMul_x hF _ _ hp hg sp hsg ha hgs (by simp [sz])
    · exact matMul_x hF _ _ hq hg sq hsg hb hgs (by simp [sz])
    · exact matMul_x hF _ _ hg hp hsg sp hgs ha (by simp [sz])

end

end Verif.Round
