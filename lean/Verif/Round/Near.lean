import Verif.AD.Symbolic
import Mathlib.Analysis.Calculus.FDeriv.Basic
import Mathlib.Analysis.SpecificLimits.Basic
/-!
Floating point arithmetic instead of real numbers. The machines compute with rounded numbers; the models of the operations
compute with real ones. Here an operation is replaced by a relation which says what may come out of it if single operations on
numbers err by at most `u` (the unit roundoff), and the results of whole graphs are compared with the exact ones.

Overflow and values that are not numbers are left out: an implementation that runs into them is not `Accurate`.
-/
set_option autoImplicit false
namespace Verif.Round
open Verif.Tensor Verif.Shape Verif.AD Filter
open scoped Topology

noncomputable section

/-- Same shape, and entries that differ by at most `ε`. -/
def Close (ε : ℝ) (a b : T ℝ) : Prop := a.shape = b.shape ∧ ∀ i, InB b.shape i → |a.at_ i - b.at_ i| ≤ ε

/-- The same for lists of operands. -/
def CloseL (ε : ℝ) : List (T ℝ) → List (T ℝ) → Prop := List.Forall₂ (Close ε)

theorem Close.mono {ε ε' : ℝ} (h : ε ≤ ε') {a b : T ℝ} (c : Close ε a b) : Close ε' a b :=
  ⟨c.1, fun i hi => (c.2 i hi).trans h⟩

theorem CloseL.mono {ε ε' : ℝ} (h : ε ≤ ε') {a b : List (T ℝ)} (c : CloseL ε a b) : CloseL ε' a b :=
  List.Forall₂.imp (fun _ _ => Close.mono h) c

theorem Close.refl {ε : ℝ} (h : 0 ≤ ε) (a : T ℝ) : Close ε a a := ⟨rfl, fun i _ => by simpa using h⟩

theorem CloseL.refl {ε : ℝ} (h : 0 ≤ ε) (l : List (T ℝ)) : CloseL ε l l := by
  induction l with
  | nil => exact .nil
  | cons a l ih => exact .cons (Close.refl h a) ih

theorem Close.trans {ε ε' : ℝ} {a b c : T ℝ} (h : Close ε a b) (h' : Close ε' b c) : Close (ε + ε') a c := by
  refine ⟨h.1.trans h'.1, fun i hi => ?_⟩
  have h1 := h.2 i (by rw [h'.1]; exact hi)
  have h2 := h'.2 i hi
  calc |a.at_ i - c.at_ i| = |(a.at_ i - b.at_ i) + (b.at_ i - c.at_ i)| := by ring_nf
    _ ≤ _ := (abs_add_le _ _).trans (add_le_add h1 h2)

/-- The operation works on all operands near `xs`, and its result depends continuously on them. -/
def Steady (run : List (T ℝ) → Res (T ℝ)) (xs : List (T ℝ)) : Prop :=
  ∃ y, run xs = .ok y ∧ ∀ ε, 0 < ε → ∃ δ, 0 < δ ∧ ∀ xs', CloseL δ xs' xs → ∃ y', run xs' = .ok y' ∧ Close ε y' y

/-- What may come out of an operation on given operands if operations on numbers err by at most `u`. -/
abbrev Impl := ℝ → List (T ℝ) → T ℝ → Prop

/-- With smaller roundoff the results approach the exact ones, near `xs`. -/
def Accurate (run : List (T ℝ) → Res (T ℝ)) (imp : Impl) (xs : List (T ℝ)) : Prop :=
  ∀ ε, 0 < ε → ∃ u₀, 0 < u₀ ∧ ∃ δ, 0 < δ ∧ ∀ u, 0 ≤ u → u ≤ u₀ → ∀ xs', CloseL δ xs' xs → ∀ y', imp u xs' y' →
    ∃ y, run xs' = .ok y ∧ Close ε y' y

/-! ### Operations that can be differentiated are continuous -/

/-- A function that goes away from its value at `0` at most like `t²` has the derivative zero there. -/
theorem hasDerivAt_of_sq {f : ℝ → ℝ} (h : ∀ t, |f t - f 0| ≤ t ^ 2) : HasDerivAt f 0 0 := by
  have h1 : (fun t => f t - f 0) =O[𝓝 (0 : ℝ)] fun t => ‖t - 0‖ ^ 2 := by
    refine Asymptotics.IsBigO.of_bound 1 (Eventually.of_forall fun t => ?_)
    simpa using h t
  have h2 := (Asymptotics.IsBigO.hasFDerivAt (𝕜 := ℝ) h1 (by norm_num)).hasDerivAt
  simpa using h2

/-- The curve through given operands: at `1/(n+1)` it is at `X n`, elsewhere at `xs`. -/
def through (X : Nat → List (T ℝ)) (xs : List (T ℝ)) (t : ℝ) : List (T ℝ) :=
  open Classical in if h : ∃ n : Nat, t = 1 / ((n : ℝ) + 1) then X h.choose else xs

theorem through_zero (X : Nat → List (T ℝ)) (xs : List (T ℝ)) : through X xs 0 = xs := by
  unfold through
  rw [dif_neg]
  rintro ⟨n, h⟩
  have : (0 : ℝ) < 1 / ((n : ℝ) + 1) := by positivity
  linarith

theorem through_close {X : Nat → List (T ℝ)} {xs : List (T ℝ)} (hX : ∀ n : Nat, CloseL ((1 / ((n : ℝ) + 1)) ^ 2) (X n) xs) (t : ℝ) :
    CloseL (t ^ 2) (through X xs t) xs := by
  unfold through
  by_cases h : ∃ n : Nat, t = 1 / ((n : ℝ) + 1)
  · rw [dif_pos h]
    have := hX h.choose
    rwa [← h.choose_spec] at this
  · rw [dif_neg h]
    exact CloseL.refl (sq_nonneg t) xs

theorem through_at (X : Nat → List (T ℝ)) (xs : List (T ℝ)) (n : Nat) : ∃ m, through X xs (1 / ((n : ℝ) + 1)) = X m := by
  unfold through
  rw [dif_pos ⟨n, rfl⟩]
  exact ⟨_, rfl⟩

theorem map_getD (d : T ℝ) (l : List (T ℝ)) (n : Nat) (h : l.length = n) : (List.range n).map (fun k => l.getD k d) = l := by
  refine List.ext_getElem (by simp [h]) fun k h1 h2 => ?_
  simp [List.getElem?_eq_getElem h2]

/-- **C121.** An operation whose `SymDiff` is right at `xs` is continuous there. (If it were not, there would be operands that
approach `xs` quadratically and whose results stay away; a curve through them has velocity zero, and the operation has no
derivative along it.) -/
theorem good_steady {o : TOp} {xs : List (T ℝ)} {y : T ℝ} (h : o.Good xs y) : Steady o.run xs := by
  refine ⟨y, h.run, fun ε hε => ?_⟩
  by_contra hc
  push Not at hc
  choose! X hX hbad using fun n : Nat => hc ((1 / ((n : ℝ) + 1)) ^ 2) (by positivity)
  have hcl := through_close hX
  have hlen : ∀ t, (through X xs t).length = xs.length := fun t => (hcl t).length_eq
  let d : T ℝ := ⟨[], fun _ => 0⟩
  let γs : List (ℝ → T ℝ) := (List.range xs.length).map fun k t => (through X xs t).getD k d
  let vs : List (T ℝ) := (List.range xs.length).map fun k => ⟨(xs.getD k d).shape, fun _ => 0⟩
  have hγ : ∀ t, γs.map (· t) = through X xs t := fun t => by
    simp only [γs, List.map_map]
    exact map_getD d _ _ (hlen t)
  have hk : ∀ t k, k < xs.length → Close (t ^ 2) ((through X xs t).getD k d) (xs.getD k d) := fun t k hk => by
    have := List.Forall₂.get (hcl t) (by rw [hlen]; exact hk) hk
    simpa [List.getD_eq_getElem?_getD, List.getElem?_eq_getElem hk, List.getElem?_eq_getElem (by rw [hlen]; exact hk : k < (through X xs t).length)] using this
  have hmv : List.Forall₂ (fun γ v => Moves γ v 0) γs vs := by
    rw [List.forall₂_iff_get]
    refine ⟨by simp [γs, vs], fun k h1 h2 => ?_⟩
    have hk' : k < xs.length := by simpa [γs] using h1
    simp only [γs, vs, List.get_eq_getElem, List.getElem_map, List.getElem_range]
    refine ⟨?_, Eventually.of_forall fun t => ?_, fun i hi => ?_⟩
    · simp only [through_zero]
    · simp only [through_zero]
      exact (hk t k hk').1
    · refine hasDerivAt_of_sq fun t => ?_
      simp only [through_zero] at hi ⊢
      exact (hk t k hk').2 i hi
  obtain ⟨z, hz, hder⟩ := h.deriv γs vs 0 (by rw [hγ, through_zero]) hmv
  have hz0 := hz.self_of_nhds
  rw [hγ, through_zero, h.run] at hz0
  have e0 : y = z 0 := by simpa using hz0.1
  have hcont : ∀ k : Nat, k < size y.shape → ∀ᶠ t in 𝓝 (0 : ℝ), |(z t).at_ (unravel y.shape k) - y.at_ (unravel y.shape k)| ≤ ε := by
    intro k hk
    have hc := (hder (basis y.shape k) rfl).continuousAt
    simp only [pair_basis _ hk] at hc
    have := Metric.tendsto_nhds.1 hc ε hε
    refine this.mono fun t ht => ?_
    rw [Real.dist_eq] at ht
    rw [e0] at ht ⊢
    exact le_of_lt ht
  have hall : ∀ᶠ t in 𝓝 (0 : ℝ), ∀ k ∈ Finset.range (size y.shape), |(z t).at_ (unravel y.shape k) - y.at_ (unravel y.shape k)| ≤ ε :=
    (eventually_all_finset _).2 fun k hk => hcont k (Finset.mem_range.1 hk)
  obtain ⟨n, hn1, hn2⟩ := (tendsto_one_div_add_atTop_nhds_zero_nat.eventually (hz.and hall)).exists
  rw [hγ] at hn1
  obtain ⟨m, hm⟩ := through_at X xs n
  rw [hm] at hn1
  refine hbad m (z (1 / ((n : ℝ) + 1))) hn1.1 ⟨hn1.2, fun i hi => ?_⟩
  have := hn2 (ravel y.shape i) (Finset.mem_range.2 (ravel_lt hi))
  rwa [unravel_ravel hi] at this

/-! ### Graphs -/

/-- `V` holds, for every node, something that a run of the graph may compute with roundoff `u`: the inputs and constants up to
`u`, and for every operation a result of its implementation on what was computed for its operands. (Numbers that belong to no
node are treated as inputs.) -/
def Computed (G : TG) (x : Nat → T ℝ) (imp : Nat → Impl) (u : ℝ) (V : Nat → T ℝ) : Prop :=
  ∀ i, match G.getD i .leaf with
    | .leaf => Close u (V i) (x i)
    | .cst t => Close u (V i) t
    | .op _ ks => imp i u (ks.map V) (V i)

theorem valueF_enough (G : TG) (W : G.Sorted) (x : Nat → T ℝ) (f f' i : Nat) (h : G.length ≤ f + i) (h' : G.length ≤ f' + i)
    (hi : i < G.length) : G.valueF x f i = G.valueF x f' i := by
  induction f generalizing f' i with
  | zero => omega
  | succ f ih =>
    cases f' with
    | zero => omega
    | succ f' =>
      simp only [TG.valueF]
      rcases hn : G.getD i .leaf with _ | t | ⟨o, ks⟩
      · rfl
      · rfl
      · have hg : G[i]? = some (.op o ks) := by
          rw [List.getD_eq_getElem?_getD, List.getElem?_eq_getElem hi] at hn
          rw [List.getElem?_eq_getElem hi]
          simpa using hn
        simp only
        congr 2
        refine List.map_congr_left fun c hc => ?_
        have := W i _ hg c hc
        exact ih f' c (by omega) (by omega) this.2

theorem value_op {G : TG} (W : G.Sorted) (x : Nat → T ℝ) {i : Nat} {o : TOp} {ks : List Nat} (hg : G[i]? = some (.op o ks)) :
    G.value x i = (resAll (ks.map (G.value x))).bind o.run := by
  have hi : i < G.length := by
    by_contra h
    rw [List.getElem?_eq_none (by omega)] at hg
    cases hg
  have hn : G.getD i .leaf = .op o ks := by rw [List.getD_eq_getElem?_getD, hg]; rfl
  obtain ⟨f, hf⟩ : ∃ f, G.length = f + 1 := ⟨G.length - 1, by omega⟩
  have : G.value x i = (resAll (ks.map (G.valueF x f))).bind o.run := by
    unfold TG.value
    rw [hf, TG.valueF, hn]
  rw [this]
  congr 2
  refine List.map_congr_left fun c hc => ?_
  have := W i _ hg c hc
  exact valueF_enough G W x f G.length c (by omega) (by omega) this.2

theorem resAll_of {α : Type} {rs : List (Res α)} {l : List α} (h : List.Forall₂ (fun r a => r = .ok a) rs l) : resAll rs = .ok l := by
  induction h with
  | nil => rfl
  | cons h _ ih => simp [resAll, h, ih, Res.bind]

theorem of_resAll {α : Type} {rs : List (Res α)} {l : List α} (h : resAll rs = .ok l) : List.Forall₂ (fun r a => r = .ok a) rs l := by
  induction rs generalizing l with
  | nil => simp only [resAll, Res.ok.injEq] at h; subst h; exact .nil
  | cons r rs ih =>
    simp only [resAll, bind_ok] at h
    obtain ⟨a, h1, as, h2, h3⟩ := h
    simp only [Res.ok.injEq] at h3
    subst h3
    exact .cons h1 (ih h2)

theorem closeL_kids {δ : ℝ} {val : Nat → Res (T ℝ)} {V : Nat → T ℝ} {ks : List Nat} {xs : List (T ℝ)}
    (h : List.Forall₂ (fun r a => r = .ok a) (ks.map val) xs) (hk : ∀ c ∈ ks, ∀ a, val c = .ok a → Close δ (V c) a) :
    CloseL δ (ks.map V) xs := by
  rw [List.forall₂_map_left_iff] at h
  unfold CloseL
  rw [List.forall₂_map_left_iff]
  induction h with
  | nil => exact .nil
  | cons hca _ ih => exact .cons (hk _ (List.mem_cons_self ..) _ hca) (ih fun c' hc' => hk c' (List.mem_cons_of_mem _ hc'))

/-- **C121.** If the operations of a graph are continuous where they are used and the implementations are accurate there, then
everything a run computes is as near to the exact values as one likes, if the roundoff is small enough. -/
theorem graph_rounded {G : TG} (W : G.Sorted) (x : Nat → T ℝ) (imp : Nat → Impl)
    (h : ∀ (i : Nat) (o : TOp) (ks : List Nat), G[i]? = some (.op o ks) →
      ∃ xs, resAll (ks.map (G.value x)) = .ok xs ∧ Steady o.run xs ∧ Accurate o.run (imp i) xs) :
    ∀ ε, 0 < ε → ∃ u₀, 0 < u₀ ∧ ∀ u, 0 ≤ u → u ≤ u₀ → ∀ V, Computed G x imp u V →
      ∀ i, ∃ v, G.value x i = .ok v ∧ Close ε (V i) v := by
  have key : ∀ n, n ≤ G.length → ∀ ε, 0 < ε → ∃ u₀, 0 < u₀ ∧ ∀ u, 0 ≤ u → u ≤ u₀ → ∀ V, Computed G x imp u V →
      ∀ i, G.length - n ≤ i → i < G.length → ∃ v, G.value x i = .ok v ∧ Close ε (V i) v := by
    intro n
    induction n with
    | zero => exact fun _ ε _ => ⟨1, one_pos, fun u _ _ V _ i h1 h2 => by omega⟩
    | succ n ih =>
      intro hn ε hε
      have hj : G.length - (n + 1) < G.length := by omega
      obtain ⟨j, ej⟩ : ∃ j, j = G.length - (n + 1) := ⟨_, rfl⟩
      rw [← ej] at hj ⊢
      have hlf : ∀ t, (G.getD j .leaf = .leaf ∧ t = x j) ∨ G.getD j .leaf = .cst t → G.value x j = .ok t := by
        intro t ht
        unfold TG.value
        obtain ⟨f, hf⟩ : ∃ f, G.length = f + 1 := ⟨G.length - 1, by omega⟩
        rw [hf, TG.valueF]
        rcases ht with ⟨h1, rfl⟩ | h1 <;> rw [h1]
      have simple : ∀ t, G.value x j = .ok t → (∀ u V, Computed G x imp u V → Close u (V j) t) →
          ∃ u₀, 0 < u₀ ∧ ∀ u, 0 ≤ u → u ≤ u₀ → ∀ V, Computed G x imp u V →
            ∀ i, j ≤ i → i < G.length → ∃ v, G.value x i = .ok v ∧ Close ε (V i) v := by
        intro t ht hc
        obtain ⟨u₁, hu₁, h1⟩ := ih (by omega) ε hε
        refine ⟨min u₁ ε, lt_min hu₁ hε, fun u hu hle V hV i hi hil => ?_⟩
        rcases Nat.eq_or_lt_of_le hi with rfl | hlt
        · exact ⟨t, ht, (hc u V hV).mono (hle.trans (min_le_right _ _))⟩
        · exact h1 u hu (hle.trans (min_le_left _ _)) V hV i (by omega) hil
      rcases hnode : G.getD j .leaf with _ | t | ⟨o, ks⟩
      · refine simple (x j) (hlf _ (.inl ⟨hnode, rfl⟩)) fun u V hV => ?_
        have := hV j
        rw [hnode] at this
        exact this
      · refine simple t (hlf _ (.inr hnode)) fun u V hV => ?_
        have := hV j
        rw [hnode] at this
        exact this
      · have hg : G[j]? = some (.op o ks) := by
          rw [List.getD_eq_getElem?_getD, List.getElem?_eq_getElem hj] at hnode
          rw [List.getElem?_eq_getElem hj]
          simpa using hnode
        obtain ⟨xs, hxs, ⟨y, hy, hst⟩, hac⟩ := h j o ks hg
        obtain ⟨δ₁, hδ₁, hst⟩ := hst (ε / 2) (half_pos hε)
        obtain ⟨u₂, hu₂, δ₂, hδ₂, hac⟩ := hac (ε / 2) (half_pos hε)
        obtain ⟨u₁, hu₁, h1⟩ := ih (by omega) (min ε (min δ₁ δ₂)) (lt_min hε (lt_min hδ₁ hδ₂))
        refine ⟨min u₁ u₂, lt_min hu₁ hu₂, fun u hu hle V hV i hi hil => ?_⟩
        have h1' := h1 u hu (hle.trans (min_le_left _ _)) V hV
        rcases Nat.eq_or_lt_of_le hi with rfl | hlt
        · have hv : G.value x j = .ok y := by
            rw [value_op W x hg, hxs]
            exact hy
          refine ⟨y, hv, ?_⟩
          have hcl : CloseL (min δ₁ δ₂) (ks.map V) xs := by
            refine closeL_kids (of_resAll hxs) fun c hc a hca => ?_
            obtain ⟨h2, h3⟩ := W j _ hg c hc
            obtain ⟨v, e1, e2⟩ := h1' c (by omega) h3
            rw [hca] at e1
            cases e1
            exact e2.mono (min_le_right _ _)
          obtain ⟨y', e1, e2⟩ := hst _ (hcl.mono (min_le_left _ _))
          have himp : imp j u (ks.map V) (V j) := by
            have := hV j
            rw [hnode] at this
            exact this
          obtain ⟨y'', e3, e4⟩ := hac u hu (hle.trans (min_le_right _ _)) _ (hcl.mono (min_le_right _ _)) _ himp
          rw [e1] at e3
          cases e3
          have := e4.trans e2
          rwa [add_halves] at this
        · obtain ⟨v, e1, e2⟩ := h1' i (by omega) hil
          exact ⟨v, e1, e2.mono (min_le_left _ _)⟩
  intro ε hε
  obtain ⟨u₀, hu₀, h⟩ := key G.length le_rfl ε hε
  refine ⟨min u₀ ε, lt_min hu₀ hε, fun u hu hle V hV i => ?_⟩
  by_cases hi : i < G.length
  · exact h u hu (hle.trans (min_le_left _ _)) V hV i (by omega) hi
  · have hn : G.getD i .leaf = .leaf := by rw [List.getD_eq_getElem?_getD, List.getElem?_eq_none (by omega)]; rfl
    refine ⟨x i, ?_, ?_⟩
    · unfold TG.value
      cases G.length with
      | zero => rfl
      | succ f => rw [TG.valueF, hn]
    · have := hV i
      rw [hn] at this
      exact Close.mono (hle.trans (min_le_right _ _)) this

end

end Verif.Round
