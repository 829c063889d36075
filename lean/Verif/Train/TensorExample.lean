import Verif.Train.Tensor
/-!
The training loop on a concrete program with a tensor weight of any shape: the cost is the sum of squares.
-/
set_option autoImplicit false
namespace Verif.Train
open Verif.Shape (Res elem scalarT pair sumNode)
open Verif.Tensor (T InB size ravel unravel)
open Verif.Tape (upd upd_same upd_ne Prog Env M compile runAll reset value WF)
open Verif.AD (TG TOp TNode gradT theT Moves zeroT den tens Reach sumTOp bTOp)
open Verif.Solver (Fields vanillaNode Param processed ClipOk Dense)
open Filter
open scoped Topology

noncomputable section

/-- `Sum(w ⊙ w)`: nodes 0, 1; the weight is node 2. -/
def sqG : TG := [.op (sumTOp []) [1], .op (bTOp .mul) [2, 2], .leaf]

theorem sq_sorted : sqG.Sorted := by
  intro i n h c hc
  match i, h with
  | 0, h | 1, h | 2, h =>
    simp [sqG] at h
    subst h
    simp [TNode.kids, sqG] at hc ⊢
    try omega
  | i + 3, h => simp [sqG] at h

theorem sq_good (s : List Nat) (hs : s ≠ []) (hp : ∀ d ∈ s, d ≠ 0) (x : Nat → T ℝ) (h : (x 2).shape = s) :
    sqG.Good x ∧ ∃ y, sqG.value x 0 = .ok y ∧ y.shape = [] ∧ y.at_ [] = ∑ k, flatD (size s) (x 2) k ^ 2 := by
  have W := sq_sorted
  have v2 : sqG.value x 2 = .ok (x 2) := by rw [TG.value_eq _ W]; rfl
  obtain ⟨d, d1, d2, d4, d3⟩ := AD.bTOp_good .mul s (x 2) (x 2) (.inl h) (.inl h) (.inl h) (fun _ => hp) fun _ _ => trivial
  have v1 : sqG.value x 1 = .ok d := by
    rw [TG.value_eq _ W]
    show (AD.resAll [sqG.value x 2, sqG.value x 2]).bind (bTOp .mul).run = _
    rw [v2]
    exact d3.run
  obtain ⟨e, e1, e2, e3⟩ := AD.sumTOp_good [] d (by rw [d2]; exact hs) (by simp) List.nodup_nil (by rw [d2]; exact hp)
  obtain ⟨e', f1, f2, -, f4⟩ := Shape.sum_value d [] (by rw [d2]; exact hs) (by simp) (by rw [d2]; exact hp)
  rw [e1] at f1
  cases f1
  have hdrop : ∀ i : List Nat, i.length = d.shape.length → Shape.dropAxes (Shape.axesOf d.shape.length []) 0 i = [] := by
    intro i hl
    refine Shape.drop_all i 0 _ fun j _ hj => ?_
    simp only [Shape.axesOf, if_pos, List.mem_range]
    omega
  have e2 : e.shape = [] := e2.trans (hdrop _ rfl)
  have v0 : sqG.value x 0 = .ok e := by
    rw [TG.value_eq _ W]
    show (AD.resAll [sqG.value x 1]).bind (sumTOp []).run = _
    rw [v1]
    exact e3.run
  refine ⟨fun i o ks h => ?_, e, v0, e2, ?_⟩
  · match i, h with
    | 0, h => cases h; exact ⟨[d], _, by simp [v1, AD.resAll, Res.bind], e3⟩
    | 1, h => cases h; exact ⟨[x 2, x 2], _, by simp [v2, AD.resAll, Res.bind], d3⟩
    | 2, h => cases h
    | i + 3, h => simp [sqG] at h
  · rw [f4 [] (by rw [e2]; trivial), d2]
    unfold Shape.sumOver
    rw [Finset.sum_range]
    refine Finset.sum_congr rfl fun k _ => ?_
    have hb := Tensor.inB_unravel k.2
    have := hdrop (unravel s k) (by rw [d2]; exact hb.length)
    rw [d2] at this
    simp only []
    rw [if_pos this, d4 _ hb, AD.bc_at h hb]
    simp only [AD.BOp.fn, flatD, h]
    ring

/-- The gradient is twice the weight. -/
theorem sq_gradient (s : List Nat) (hs : s ≠ []) (hp : ∀ d ∈ s, d ≠ 0) (x r : Nat → T ℝ) (h : (x 2).shape = s)
    (hr : IsGradient sqG 0 [2] x r) : (r 2).shape = s ∧ flatD (size s) (r 2) = fun k => 2 * flatD (size s) (x 2) k := by
  have hrs : (r 2).shape = s := by rw [hr.1 2 (by simp), h]
  refine ⟨hrs, funext fun k => ?_⟩
  set v : T ℝ := ofD s (Pi.single k 1 : Dense (size s)) with hv
  have hvs : v.shape = s := rfl
  have hvf : flatD (size s) v = Pi.single k 1 := flatD_ofD s _
  have d1 := hr.2 (fun t i => if i = 2 then Shape.moveT (x 2) v t else x i) (fun _ => v) 0 (by
    funext i
    by_cases e : i = 2
    · subst e; simp [AD.moveT_zero]
    · simp [e]) (by simpa using Moves.line (x 2) v (hvs.trans h.symm)) (by
    intro i hi t
    simp at hi
    simp [hi])
  have hval : (fun t : ℝ => (theT (sqG.value (fun i => if i = 2 then Shape.moveT (x 2) v t else x i) 0)).at_ []) =
      fun t => ∑ j, (flatD (size s) (x 2) j + t * flatD (size s) v j) ^ 2 := by
    funext t
    obtain ⟨-, y, y1, -, y2⟩ := sq_good s hs hp (fun i => if i = 2 then Shape.moveT (x 2) v t else x i) h
    rw [y1]
    simp only [theT]
    rw [y2]
    refine Finset.sum_congr rfl fun j _ => ?_
    simp [flatD, Shape.moveT, h, hvs]
  rw [hval] at d1
  have d2 : HasDerivAt (fun t : ℝ => ∑ j, (flatD (size s) (x 2) j + t * flatD (size s) v j) ^ 2)
      (∑ j, 2 * flatD (size s) (x 2) j * flatD (size s) v j) 0 := by
    refine HasDerivAt.fun_sum fun j _ => ?_
    have := (((hasDerivAt_id (0 : ℝ)).mul_const (flatD (size s) v j)).const_add (flatD (size s) (x 2) j)).pow 2
    refine this.congr_deriv ?_
    simp
  have := d1.unique d2
  simp only [List.toFinset_cons, List.toFinset_nil, insert_empty_eq, Finset.sum_singleton] at this
  rw [pair_flat hrs hvs, hvf] at this
  simpa [Pi.single_apply] using this

/-- The graph with the gradients, sorted: `w`, `w ⊙ w`, the cost, ones of the shape of `w ⊙ w`, their product with `w`
(what each operand contributes, merged), the gradient. -/
def sqP : Prog :=
  [{ kind := .arg, hash := 0 }, { children := [0, 0], hash := 1 }, { children := [1], hash := 2 },
   { children := [1], hash := 3 }, { children := [3, 0], hash := 4 }, { children := [4, 4], hash := 5, derivOfInput := true }]

def elemSem (f : ℝ → ℝ → ℝ) : Tape.OpSem (T ℝ) := { f := fun l => match l with | [a, b] => elemN f a b | _ => none }

def sqSem : Nat → Tape.OpSem (T ℝ)
  | 1 => elemSem (· * ·)
  | 2 => { f := fun l => match l with | [a] => (AD.Res.opt (sumNode a [])).map norm | _ => none }
  | 3 => { f := fun l => match l with | [a] => some (ofD a.shape fun _ : Fin (size a.shape) => 1) | _ => none }
  | 4 => elemSem (· * ·)
  | 5 => elemSem (· + ·)
  | _ => { f := fun _ => none }

def sqE : Env (T ℝ) :=
  { sem := sqSem, inp := fun i => if i = 0 then some 0 else none, over := fun _ => -1, blank := scalarT 0 }

def sqPos : Nat → Nat := fun w => w - 2
def sqAd : Nat → Nat := fun w => if w = 2 then 0 else 1

def sqCfg (s : List Nat) : Cfg (T ℝ) :=
  { gn := fun i => if i = 5 then { derivOf := [0] } else if i = 3 then { derivOf := [2] } else {}
    only := [0], add := elemN (· + ·), zero := fun _ => zeroT s, tens := fun _ => true }

theorem sq_reach : Reach sqG.gr 0 2 := by
  have s : ∀ i j k : Nat, (sqG.gr.node i).children[k]? = some j → (sqG.gr.node i).diffs[k]? = some true → AD.Dep sqG.gr i j :=
    fun i j k h1 h2 => List.mem_of_getElem? (i := k) (by rw [List.getElem?_zip_eq_some]; exact ⟨h1, h2⟩)
  exact (Relation.ReflTransGen.single (s 0 1 0 rfl rfl)).tail (s 1 2 0 rfl rfl)

theorem sq_ws : ∀ w ∈ [2], w < sqG.length ∧ (sqG.gr.node w).input = true ∧ Reach sqG.gr 0 w := by
  intro w hw
  simp only [List.mem_singleton] at hw
  subst hw
  exact ⟨by decide, rfl, sq_reach⟩

theorem sq_okay (s : List Nat) (hs : s ≠ []) (hp : ∀ d ∈ s, d ≠ 0) (x : Nat → T ℝ) (h : (x 2).shape = s) :
    TOkay sqG 0 [2] (fun _ => s) x := by
  obtain ⟨a, y, b, c, -⟩ := sq_good s hs hp x h
  exact ⟨a.fine, ⟨y, b, c⟩, by simpa using h⟩

theorem sq_gradAt (s : List Nat) (hs : s ≠ []) (hp : ∀ d ∈ s, d ≠ 0) (users : Nat → Nat) (x : Nat → T ℝ)
    (h : (x 2).shape = s) : gradAt sqG users 0 [2] x 2 = ofD s fun k => 2 * flatD (size s) (x 2) k := by
  have hg := gradAt_gradient sqG sq_sorted users 0 (by decide) [2] (by simp) sq_ws (fun _ => s) x (sq_okay s hs hp x h)
  obtain ⟨h1, h2⟩ := sq_gradient s hs hp x _ h hg
  rw [← h2]
  -- the gradient is in normal form
  have : ∃ q, gradAt sqG users 0 [2] x 2 = norm q := by
    unfold gradAt at h1 ⊢
    split
    · exact ⟨_, rfl⟩
    · next hn => rw [hn] at h1; exact absurd h1.symm hs
  obtain ⟨q, hq⟩ := this
  rw [hq] at h1 ⊢
  rw [norm_shape] at h1
  subst h1
  rw [flatD_norm]
  rfl

theorem sq_values (s : List Nat) (hs : s ≠ []) (hp : ∀ d ∈ s, d ≠ 0) (mem : Nat → T ℝ) (h : (mem 0).shape = s) :
    (∀ i, i < 6 → value sqP sqE mem i ≠ none) ∧
    value sqP sqE mem 5 = some (ofD s fun k => 2 * flatD (size s) (mem 0) k) := by
  have W : WF sqP := by
    refine ⟨by decide, ?_, by decide, ?_⟩
    · intro i h
      match i, h with
      | 0, _ => rfl
      | 1, h | 2, h | 3, h | 4, h | 5, h => exact absurd h (by decide)
      | i + 6, h => simp [sqP, Prog.node, Tape.Node.live] at h
    · intro i
      match i with
      | 0 | 1 | 2 | 3 | 4 | 5 => decide
      | i + 6 => simp [sqP, Prog.node]
  have ev := fun i hi => Tape.value_eq sqP W sqE mem i hi
  have v0 : value sqP sqE mem 0 = some (mem 0) := by rw [ev 0 (by decide)]; rfl
  have v1 : value sqP sqE mem 1 = some (ofD s fun k => flatD (size s) (mem 0) k * flatD (size s) (mem 0) k) := by
    rw [ev 1 (by decide)]
    show ([0, 0].mapM (value sqP sqE mem)).bind (sqSem 1).f = _
    simp only [List.mapM_cons, List.mapM_nil, v0, Option.pure_def, Option.bind_eq_bind, Option.bind_some, sqSem, elemSem]
    exact elemN_eq _ s _ _ h h
  have v3 : value sqP sqE mem 3 = some (ofD s fun _ : Fin (size s) => 1) := by
    rw [ev 3 (by decide)]
    show ([1].mapM (value sqP sqE mem)).bind (sqSem 3).f = _
    simp only [List.mapM_cons, List.mapM_nil, v1, Option.pure_def, Option.bind_eq_bind, Option.bind_some, sqSem]
    rfl
  have v4 : value sqP sqE mem 4 = some (ofD s fun k => flatD (size s) (mem 0) k) := by
    rw [ev 4 (by decide)]
    show ([3, 0].mapM (value sqP sqE mem)).bind (sqSem 4).f = _
    simp only [List.mapM_cons, List.mapM_nil, v3, v0, Option.pure_def, Option.bind_eq_bind, Option.bind_some, sqSem, elemSem]
    rw [elemN_eq _ s (ofD s _) _ rfl h, flatD_ofD]
    simp
  have v5 : value sqP sqE mem 5 = some (ofD s fun k => 2 * flatD (size s) (mem 0) k) := by
    rw [ev 5 (by decide)]
    show ([4, 4].mapM (value sqP sqE mem)).bind (sqSem 5).f = _
    simp only [List.mapM_cons, List.mapM_nil, v4, Option.pure_def, Option.bind_eq_bind, Option.bind_some, sqSem, elemSem]
    rw [elemN_eq _ s _ _ rfl rfl, flatD_ofD]
    simp only [two_mul]
  have v2 : value sqP sqE mem 2 ≠ none := by
    rw [ev 2 (by decide)]
    show ([1].mapM (value sqP sqE mem)).bind (sqSem 2).f ≠ _
    simp only [List.mapM_cons, List.mapM_nil, v1, Option.pure_def, Option.bind_eq_bind, Option.bind_some, sqSem]
    obtain ⟨r, r1, -⟩ := Shape.sum_value (ofD s fun k => flatD (size s) (mem 0) k * flatD (size s) (mem 0) k) [] hs (by simp) hp
    rw [r1]
    simp [AD.Res.opt]
  refine ⟨fun i hi => ?_, v5⟩
  match i, hi with
  | 0, _ => rw [v0]; simp
  | 1, _ => rw [v1]; simp
  | 2, _ => exact v2
  | 3, _ => rw [v3]; simp
  | 4, _ => rw [v4]; simp
  | 5, _ => rw [v5]; simp

theorem sq_setup (s : List Nat) (hs : s ≠ []) (hp : ∀ d ∈ s, d ≠ 0) (users : Nat → Nat) :
    Setup sqP [0] sqE 2 [2] (sqCfg s) sqPos sqAd (TOkay sqG 0 [2] fun _ => s) (gradAt sqG users 0 [2]) (fun _ => zeroT s) where
  wf := by
    refine ⟨by decide, ?_, by decide, ?_⟩
    · intro i h
      match i, h with
      | 0, _ => rfl
      | 1, h | 2, h | 3, h | 4, h | 5, h => exact absurd h (by decide)
      | i + 6, h => simp [sqP, Prog.node, Tape.Node.live] at h
    · intro i
      match i with
      | 0 | 1 | 2 | 3 | 4 | 5 => decide
      | i + 6 => simp [sqP, Prog.node]
  leaves := by decide
  noclash := by
    have h : ∀ i, i < sqP.length → ∀ j, j < sqP.length → (sqP.node i).hash = (sqP.node j).hash → i = j := by decide
    exact fun i j hi hj => h i hi j hj
  nolet := by
    intro i
    match i with
    | 0 | 1 | 2 | 3 | 4 | 5 => decide
    | i + 6 => simp [sqP, Prog.node]
  safe := by
    intro i _ _ h
    exfalso
    match i, h with
    | 0, h | 2, h | 3, h => simp [sqE, sqSem] at h
    | 1, h | 4, h | 5, h => simp [sqE, sqSem, elemSem] at h
    | i + 6, h => simp [sqE, sqSem] at h
  inp := by
    intro i a h
    by_cases h3 : i = 0
    · simp [sqE, h3] at h; omega
    · simp [sqE, h3] at h
  static := by
    intro i a _ h
    exfalso
    match i, h with
    | 0, h | 2, h | 3, h => simp [sqE, sqSem] at h
    | 1, h | 4, h | 5, h => simp [sqE, sqSem, elemSem] at h
    | i + 6, h => simp [sqE, sqSem] at h
  share := by
    intro i k _ h
    exfalso
    match i, h with
    | 0, h | 2, h | 3, h => simp [sqE, sqSem] at h
    | 1, h | 4, h | 5, h => simp [sqE, sqSem, elemSem] at h
    | i + 6, h => simp [sqE, sqSem] at h
  reads := by decide
  defined := by
    intro mem hok i hi _
    exact (sq_values s hs hp mem (hok.2.2 2 (by simp))).1 i hi
  some_w := by simp
  nodup := by simp
  own := by
    intro w hw w' h
    simp only [List.mem_singleton] at hw
    subst hw
    by_contra hne
    simp [sqAd, hne] at h
  apart := by simp
  adB := by
    intro i
    unfold sqAd
    split <;> omega
  only := rfl
  zero := fun _ _ => rfl
  noiop := by
    intro i
    simp only [sqCfg]
    split
    · rfl
    · split <;> rfl
  label := by
    intro w hw
    simp only [List.mem_singleton] at hw
    subst hw
    refine ⟨5, by decide, rfl, ?_, ?_⟩
    · intro mem hok
      have h := hok.2.2 2 (by simp)
      rw [sq_gradAt s hs hp users _ h]
      refine ⟨_, (sq_values s hs hp mem h).2, ?_⟩
      show elemN (· + ·) (zeroT s) _ = _
      rw [elemN_eq _ s _ _ rfl rfl, flatD_ofD]
      simp [flatD, zeroT]
      rfl
    · intro i hi _
      match i, hi with
      | 0, _ | 1, _ | 2, _ | 3, _ | 4, _ | 5, _ => simp [sqCfg, sqPos]
      | i + 6, h => simp [sqP] at h

/-- A new machine with the weight bound. -/
def sqStart (w : T ℝ) : TS (T ℝ) (Option (T ℝ × T ℝ)) :=
  { m := { regs := fun _ => none, mem := fun a => if a = 0 then w else scalarT 0
           bound := fun _ => none, next := 2, seen := [] }
    s := { bd := fun i => if i = 0 then .plain else .none }
    c := fun _ => none }

theorem sq_ready (s : List Nat) (w : T ℝ) :
    Ready sqP sqE 2 [2] sqPos sqAd (fun _ => zeroT s) (fun i => (sqStart w).m.mem (sqAd i)) (sqStart w) where
  regs := fun _ => rfl
  next := Nat.le_refl _
  consts := by
    intro i a _ h
    exfalso
    match i, h with
    | 0, h | 2, h | 3, h => simp [sqE, sqSem] at h
    | 1, h | 4, h | 5, h => simp [sqE, sqSem, elemSem] at h
    | i + 6, h => simp [sqE, sqSem] at h
  vals := fun _ => rfl
  queue := rfl
  derivs := by
    intro w hw
    simp only [List.mem_singleton] at hw
    subst hw
    exact .inl rfl

/-- **C93 (a concrete program with a tensor weight).** The sum of squares of a weight of any shape without empty axes,
trained by the plain solver with learn rate `η`: after `k` rounds every element is `(1 - 2 η)^k` times the initial one,
so if `0 < η < 1` all elements converge to zero. -/
theorem sq_converges (F : Fields) (h1 : F.useClip = false) (h2 : F.useL1Reg = false) (h3 : F.useL2Reg = false)
    (hb : F.batch = 1) (s : List Nat) (hs : s ≠ []) (hp : ∀ d ∈ s, d ≠ 0) (w : T ℝ) (hw : w.shape = s) :
    ∃ v : Nat → T ℝ, v 0 = w ∧
      (∀ k, ∃ t', epochs sqP [0] sqE (sqCfg s) (fun _ => tensorSol (vanillaNode F)) sqPos sqAd [2] k (sqStart w) = some t' ∧
        t'.m.mem 0 = v k) ∧
      (∀ k (i : Fin (size s)), (v k).at_ (unravel s i) = (1 - 2 * F.eta) ^ k * w.at_ (unravel s i)) ∧
      (0 < F.eta → F.eta < 1 → ∀ i : Fin (size s), Tendsto (fun k => (v k).at_ (unravel s i)) atTop (𝓝 0)) := by
  obtain ⟨xs, x0, hrun, -, hsh, hstep⟩ := training_tensor_descends_partial sq_sorted (fun _ => 2) 0 (by decide) sq_ws
    (fun _ => s) (sq_setup s hs hp (fun _ => 2)) F (by simp [ClipOk, h1]) _ (by simpa [sqStart, sqAd] using hw) (sqStart w) (sq_ready s w)
  have hok : ∀ k, TOkay sqG 0 [2] (fun _ => s) (xs k) := fun k => sq_okay s hs hp _ (hsh k 2 (by simp))
  have hrec : ∀ k (i : Fin (size s)), (xs (k + 1) 2).at_ (unravel s i) = (1 - 2 * F.eta) * (xs k 2).at_ (unravel s i) := by
    intro k i
    obtain ⟨d, hd, hst⟩ := hstep k (hok k)
    have hst := hst 2 (by simp) i
    obtain ⟨g1, g2⟩ := sq_gradient s hs hp (xs k) d (hsh k 2 (by simp)) hd
    have g2 := congrFun g2 i
    simp only [flatD, g1, hsh k 2 (by simp)] at g2
    rw [hst, g2]
    simp only [processed, Solver.regularised, h1, h2, h3, hb]
    norm_num
    ring
  have hclosed : ∀ k (i : Fin (size s)), (xs k 2).at_ (unravel s i) = (1 - 2 * F.eta) ^ k * w.at_ (unravel s i) := by
    intro k i
    induction k with
    | zero => rw [x0]; simp [sqStart, sqAd]
    | succ k ih => rw [hrec k i, ih, pow_succ]; ring
  refine ⟨fun k => xs k 2, by simp only [x0]; rfl, ?_, hclosed, ?_⟩
  · intro k
    obtain ⟨t', h, R⟩ := hrun k (fun j _ => hok j)
    exact ⟨t', h, R.vals 2⟩
  · intro e0 e1 i
    have habs : |1 - 2 * F.eta| < 1 := by rw [abs_lt]; constructor <;> linarith
    have := (tendsto_pow_atTop_nhds_zero_of_abs_lt_one habs).mul_const (w.at_ (unravel s i))
    rw [zero_mul] at this
    simpa [hclosed] using this

end

end Verif.Train
