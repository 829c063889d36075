import Verif.Train.Scalar
import Mathlib.Analysis.SpecificLimits.Basic
/-!
The training loop on a concrete program: least squares with one weight. From the graph over `Grad`, compilation, the
tape machine and the solver to convergence of the weight.
-/
set_option autoImplicit false
namespace Verif.Train
open Verif.Shape (Res)
open Verif.Tape (upd upd_same upd_ne Prog Env M compile runAll reset value WF)
open Verif.AD (SG SNode Tm UOp BOp Cst)
open Verif.Solver (Fields vanillaNode Param processed ClipOk)

/-- `cost = d · d`, `d = p - y`, `p = w · x`: nodes 0, 1, 2; `w`, `x`, `y` are nodes 3, 4, 5. -/
def fitG : SG := [.bin .mul 1 1, .bin .sub 2 5, .bin .mul 3 4, .leaf, .leaf, .leaf]

/-- `d · 1`, what each operand of the product contributes. -/
def fitC : Tm := .bin .mul (.node 1) (.cst .one)

/-- The gradient of the weight. -/
def fitDw : Tm := .bin .mul (.node 4) (.bin .add fitC fitC)

/-- `Grad(cost, w)`. -/
theorem fit_grad : ∃ d, AD.grad fitG (fun _ => 2) (fun _ => none) 0 [3] = some ([fitDw], d) := ⟨_, rfl⟩

/-- The graph with the gradients, sorted: `w`, `x`, `y`, `p`, `d`, `cost`, the constant one, `d · 1` (one node, equal
nodes are merged when they are added to the graph), the sum, the gradient of `w`. -/
def fitP : Prog :=
  [{ kind := .arg, hash := 0 }, { kind := .arg, hash := 1 }, { kind := .arg, hash := 2 },
   { children := [0, 1], hash := 3 }, { children := [3, 2], hash := 4 }, { children := [4, 4], hash := 5 },
   { kind := .const, hash := 6 }, { children := [4, 6], hash := 7 }, { children := [7, 7], hash := 8 },
   { children := [1, 8], hash := 9, derivOfInput := true }]

noncomputable section

def binSem (o : BOp) : Tape.OpSem ℝ :=
  { f := fun l => match l with | [a, b] => some (o.fn a b) | _ => none }

/-- The operations; scalar operations return new values (operatorPointwise_binary.go 40-53), the constant returns its
own. -/
def fitSem : Nat → Tape.OpSem ℝ
  | 3 => binSem .mul
  | 4 => binSem .sub
  | 5 => binSem .mul
  | 6 => { f := fun l => match l with | [] => some 1 | _ => none, ret := .static 3 }
  | 7 => binSem .mul
  | 8 => binSem .add
  | 9 => binSem .mul
  | _ => { f := fun _ => none }

def fitE : Env ℝ :=
  { sem := fitSem, inp := fun i => if i < 3 then some i else none, over := fun _ => -1, blank := 0 }

def fitPos : Nat → Nat := fun w => w - 3
def fitAd : Nat → Nat
  | 3 => 0
  | 4 => 1
  | 5 => 2
  | _ => 4

def fitCfg : Cfg ℝ :=
  { gn := fun i => if i = 9 then { derivOf := [0] } else if i = 6 then { derivOf := [5] } else
      if i = 8 then { derivOf := [4, 3] } else {}
    only := [0], add := fun a b => some (a + b), zero := fun _ => 0, tens := fun _ => false }

/-- Which node computes which expression. -/
def fitD (i : Nat) (t : Tm) : Prop :=
  (i, t) ∈ [(0, Tm.node 3), (1, .node 4), (2, .node 5), (3, .node 2), (4, .node 1), (5, .node 0), (6, .cst .one),
    (7, fitC), (8, .bin .add fitC fitC), (9, fitDw)]

theorem fit_wf : WF fitP := by
  refine ⟨by decide, ?_, by decide, ?_⟩
  · intro i h
    match i, h with
    | 0, _ => rfl
    | 1, _ => rfl
    | 2, _ => rfl
    | 6, _ => rfl
    | 3, h | 4, h | 5, h | 7, h | 8, h | 9, h => exact absurd h (by decide)
    | i + 10, h => simp [fitP, Prog.node, Tape.Node.live] at h
  · intro i
    match i with
    | 0 | 1 | 2 | 3 | 4 | 5 | 6 | 7 | 8 | 9 => decide
    | i + 10 => simp [fitP, Prog.node]

theorem fit_static (i a : Nat) (h : (fitE.sem i).ret = .static a) : i = 6 ∧ a = 3 := by
  match i, h with
  | 6, h => simp [fitE, fitSem] at h; exact ⟨rfl, h.symm⟩
  | 0, h | 1, h | 2, h => simp [fitE, fitSem] at h
  | 3, h | 4, h | 5, h | 7, h | 8, h | 9, h => simp [fitE, fitSem, binSem] at h
  | i + 10, h => simp [fitE, fitSem] at h

theorem fit_setup : SSetup fitP [0, 1, 2, 6] fitE 5 fitG [3] [fitDw] fitCfg fitPos fitAd fitD where
  wf := fit_wf
  leaves := by decide
  noclash := by
    have h : ∀ i, i < fitP.length → ∀ j, j < fitP.length → (fitP.node i).hash = (fitP.node j).hash → i = j := by decide
    exact fun i j hi hj => h i hi j hj
  nolet := by
    intro i
    match i with
    | 0 | 1 | 2 | 3 | 4 | 5 | 6 | 7 | 8 | 9 => decide
    | i + 10 => simp [fitP, Prog.node]
  safe := by
    intro i _ _ hp
    exfalso
    match i, hp with
    | 0, h | 1, h | 2, h | 6, h => simp [fitE, fitSem] at h
    | 3, h | 4, h | 5, h | 7, h | 8, h | 9, h => simp [fitE, fitSem, binSem] at h
    | i + 10, h => simp [fitE, fitSem] at h
  inp := by
    intro i a h
    by_cases h3 : i < 3
    · simp [fitE, h3] at h; omega
    · simp [fitE, h3] at h
  static := by
    intro i a _ h
    obtain ⟨rfl, rfl⟩ := fit_static i a h
    exact ⟨rfl, by decide, by decide⟩
  share := by
    intro i k _ h
    exfalso
    match i, h with
    | 0, h | 1, h | 2, h | 6, h => simp [fitE, fitSem] at h
    | 3, h | 4, h | 5, h | 7, h | 8, h | 9, h => simp [fitE, fitSem, binSem] at h
    | i + 10, h => simp [fitE, fitSem] at h
  reads := by decide
  all := by
    intro i hi _
    match i, hi with
    | 0, _ => exact ⟨.node 3, by simp [fitD]⟩
    | 1, _ => exact ⟨.node 4, by simp [fitD]⟩
    | 2, _ => exact ⟨.node 5, by simp [fitD]⟩
    | 3, _ => exact ⟨.node 2, by simp [fitD]⟩
    | 4, _ => exact ⟨.node 1, by simp [fitD]⟩
    | 5, _ => exact ⟨.node 0, by simp [fitD]⟩
    | 6, _ => exact ⟨.cst .one, by simp [fitD]⟩
    | 7, _ => exact ⟨fitC, by simp [fitD]⟩
    | 8, _ => exact ⟨.bin .add fitC fitC, by simp [fitD]⟩
    | 9, _ => exact ⟨fitDw, by simp [fitD]⟩
    | i + 10, h => simp [fitP] at h
  comp := by
    intro i t _ h
    simp only [fitD, List.mem_cons, Prod.mk.injEq, List.not_mem_nil, or_false] at h
    rcases h with ⟨rfl, rfl⟩ | ⟨rfl, rfl⟩ | ⟨rfl, rfl⟩ | ⟨rfl, rfl⟩ | ⟨rfl, rfl⟩ | ⟨rfl, rfl⟩ | ⟨rfl, rfl⟩ |
      ⟨rfl, rfl⟩ | ⟨rfl, rfl⟩ | ⟨rfl, rfl⟩
    · exact .inl ⟨3, rfl, rfl, rfl, rfl⟩
    · exact .inl ⟨4, rfl, rfl, rfl, rfl⟩
    · exact .inl ⟨5, rfl, rfl, rfl, rfl⟩
    · exact .inr (.inr (.inr ⟨.mul, 0, 1, rfl, rfl, fun _ _ => rfl, .inr ⟨2, 3, 4, rfl, rfl, by simp [fitD], by simp [fitD]⟩⟩))
    · exact .inr (.inr (.inr ⟨.sub, 3, 2, rfl, rfl, fun _ _ => rfl, .inr ⟨1, 2, 5, rfl, rfl, by simp [fitD], by simp [fitD]⟩⟩))
    · exact .inr (.inr (.inr ⟨.mul, 4, 4, rfl, rfl, fun _ _ => rfl, .inr ⟨0, 1, 1, rfl, rfl, by simp [fitD], by simp [fitD]⟩⟩))
    · exact .inr (.inl ⟨.one, rfl, rfl, rfl, .inl rfl⟩)
    · exact .inr (.inr (.inr ⟨.mul, 4, 6, rfl, rfl, fun _ _ => rfl, .inl ⟨_, _, rfl, by simp [fitD], by simp [fitD]⟩⟩))
    · exact .inr (.inr (.inr ⟨.add, 7, 7, rfl, rfl, fun _ _ => rfl, .inl ⟨_, _, rfl, by simp [fitD], by simp [fitD]⟩⟩))
    · exact .inr (.inr (.inr ⟨.mul, 1, 8, rfl, rfl, fun _ _ => rfl, .inl ⟨_, _, rfl, by simp [fitD], by simp [fitD]⟩⟩))
  some_w := by simp
  nodup := by decide
  own := by
    intro w hw w' h
    simp only [List.mem_singleton] at hw
    subst hw
    match w', h with
    | 3, _ => rfl
    | 0, h | 1, h | 2, h | 4, h | 5, h => simp [fitAd] at h
    | w' + 6, h => simp [fitAd] at h
  apart := by decide
  adB := by
    intro i
    match i with
    | 0 | 1 | 2 | 3 | 4 | 5 => decide
    | i + 6 => simp [fitAd]
  only := rfl
  add := rfl
  zero := fun _ => rfl
  noiop := by
    intro i
    simp only [fitCfg]
    split
    · rfl
    · split
      · rfl
      · split <;> rfl
  label := by
    intro k w t hk ht
    match k, hk, ht with
    | 0, hk, ht =>
      simp at hk ht
      subst hk ht
      refine ⟨9, by decide, rfl, by simp [fitD], ?_⟩
      intro i hi _
      match i, hi with
      | 0, _ | 1, _ | 2, _ | 3, _ | 4, _ | 5, _ | 6, _ | 7, _ | 8, _ | 9, _ => simp [fitCfg, fitPos]
      | i + 10, h => simp [fitP] at h
    | k + 1, hk, ht => simp at hk

/-- A new machine with the inputs bound. -/
def fitStart (w x y : ℝ) : TS ℝ (Option (ℝ × ℝ)) :=
  { m := { regs := fun _ => none, mem := fun a => match a with | 0 => w | 1 => x | 2 => y | 3 => 1 | _ => 0
           bound := fun _ => none, next := 5, seen := [] }
    s := { bd := fun i => if i < 3 then .plain else .none }
    c := fun _ => none }

theorem fit_ready (w x y : ℝ) :
    Ready fitP fitE 5 [3] fitPos fitAd (fun _ => 0) (fun i => (fitStart w x y).m.mem (fitAd i)) (fitStart w x y) where
  regs := fun _ => rfl
  next := Nat.le_refl _
  consts := by
    intro i a _ h
    obtain ⟨rfl, rfl⟩ := fit_static i a h
    rfl
  vals := fun _ => rfl
  queue := rfl
  derivs := by
    intro w hw
    simp only [List.mem_singleton] at hw
    subst hw
    exact .inl rfl

theorem fit_sorted : fitG.Sorted := by
  intro i n hn c hc
  match i, hn with
  | 0, hn => simp [fitG] at hn; subst hn; simp [SNode.kids] at hc; subst hc; decide
  | 1, hn => simp [fitG] at hn; subst hn; simp [SNode.kids] at hc; rcases hc with rfl | rfl <;> decide
  | 2, hn => simp [fitG] at hn; subst hn; simp [SNode.kids] at hc; rcases hc with rfl | rfl <;> decide
  | 3, hn | 4, hn | 5, hn => simp [fitG] at hn; subst hn; simp [SNode.kids] at hc
  | i + 6, hn => simp [fitG] at hn

theorem fit_smooth (x : Nat → ℝ) : fitG.Smooth x := by
  constructor
  · intro i u a h
    match i, h with
    | 0, h | 1, h | 2, h | 3, h | 4, h | 5, h => simp [fitG] at h
    | i + 6, h => simp [fitG] at h
  · intro i b a c h
    match i, h with
    | 0, h | 1, h | 2, h => simp [fitG] at h; obtain ⟨rfl, rfl, rfl⟩ := h; trivial
    | 3, h | 4, h | 5, h => simp [fitG] at h
    | i + 6, h => simp [fitG] at h

/-- **C93 (a concrete program).** Least squares with one weight, trained by the plain solver with learn rate `η`: after
`k` rounds the weight in memory misses the target by `(1 - 2 η x²)^k` times the initial miss; so if `|1 - 2 η x²| < 1`
the cost converges to zero. Everything is concrete: the graph, the gradient `Grad` returns, the compiled program, the
machine, the solver. -/
theorem fit_converges (F : Fields) (h1 : F.useClip = false) (h2 : F.useL1Reg = false) (h3 : F.useL2Reg = false)
    (hb : F.batch = 1) (w x y : ℝ) :
    ∃ v : Nat → ℝ, v 0 = w ∧
      (∀ k, ∃ t', epochs fitP [0, 1, 2, 6] fitE fitCfg (fun _ => scalarSol (vanillaNode F)) fitPos fitAd [3] k (fitStart w x y) = some t' ∧
        t'.m.mem 0 = v k) ∧
      (∀ k, v k * x - y = (1 - 2 * F.eta * x ^ 2) ^ k * (w * x - y)) ∧
      (|1 - 2 * F.eta * x ^ 2| < 1 → Filter.Tendsto (fun k => (v k * x - y) ^ 2) Filter.atTop (nhds 0)) := by
  obtain ⟨d', hg⟩ := fit_grad
  obtain ⟨xs, x0, hrun, hoth, hstep⟩ := training_descends_partial fit_sorted (fun _ => 2) 0
    (by decide) (by decide) hg fit_setup F (by simp [ClipOk, h1]) h2 _ (fitStart w x y) (fit_ready w x y)
  have hx : ∀ k, xs k 4 = x ∧ xs k 5 = y := by
    intro k
    induction k with
    | zero => rw [x0]; exact ⟨rfl, rfl⟩
    | succ k ih => rw [hoth k 4 (by decide), hoth k 5 (by decide)]; exact ih
  have hrec : ∀ k, xs (k + 1) 3 = xs k 3 - F.eta * (2 * x * (xs k 3 * x - y)) := by
    intro k
    obtain ⟨d, hd, hs⟩ := hstep k (fit_smooth _) 3 (by simp)
    have hval : (fun s => fitG.value (AD.upd (xs k) 3 s) 0) = fun s => (s * x - y) * (s * x - y) := by
      funext s
      have e4 := (hx k).1
      have e5 := (hx k).2
      simp [SG.value, SG.valueF, fitG, BOp.fn, AD.upd, e4, e5]
    rw [hval] at hd
    have hd' : HasDerivAt (fun s => (s * x - y) * (s * x - y)) (2 * x * (xs k 3 * x - y)) (xs k 3) := by
      have hb : HasDerivAt (fun s => s * x - y) x (xs k 3) := by
        simpa using ((hasDerivAt_id (xs k 3)).mul_const x).sub_const y
      exact (hb.mul hb).congr_deriv (by ring)
    rw [hs, hd.unique hd']
    simp [processed, Solver.regularised, h1, h2, h3, hb]
  have hclosed : ∀ k, xs k 3 * x - y = (1 - 2 * F.eta * x ^ 2) ^ k * (w * x - y) := by
    intro k
    induction k with
    | zero => rw [x0]; simp [fitStart, fitAd]
    | succ k ih =>
      have : (xs k 3 - F.eta * (2 * x * (xs k 3 * x - y))) * x - y =
        (1 - 2 * F.eta * x ^ 2) * (xs k 3 * x - y) := by ring
      rw [hrec k, this, ih, pow_succ]; ring
  refine ⟨fun k => xs k 3, by simp only [x0]; rfl, ?_, hclosed, ?_⟩
  · intro k
    obtain ⟨t', h, R⟩ := hrun k
    exact ⟨t', h, R.vals 3⟩
  · intro habs
    have hp := (tendsto_pow_atTop_nhds_zero_of_abs_lt_one habs).mul_const (w * x - y)
    rw [zero_mul] at hp
    have := hp.pow 2
    simpa [hclosed] using this

end

end Verif.Train
