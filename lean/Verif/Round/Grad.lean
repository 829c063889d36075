import Verif.Round.Near
import Verif.Train.Symbolic
/-!
Gradient nodes with rounded numbers. The nodes that `Grad` adds are run like the others: with the values that were computed for the
nodes of the graph, and with operations that round. The results approach the exact gradients.
-/
set_option autoImplicit false
namespace Verif.Round
open Verif.Tensor Verif.Shape Verif.AD Filter
open scoped Topology

noncomputable section

mutual
/-- `v` may come out for the node `t` when the nodes of the graph have the values `V` and numbers are rounded with `u`. (Every use of
a node may even be computed anew, with another result.) -/
def Comp (imp : POp → Impl) (u : ℝ) (V : Nat → T ℝ) : XT → T ℝ → Prop
  | .node j, v => v = V j
  | .cst t, v => Close u v t
  | .app o as, v => ∃ vs, CompL imp u V as vs ∧ imp o u vs v
def CompL (imp : POp → Impl) (u : ℝ) (V : Nat → T ℝ) : List XT → List (T ℝ) → Prop
  | [], vs => vs = []
  | a :: as, vs => ∃ v vs', vs = v :: vs' ∧ Comp imp u V a v ∧ CompL imp u V as vs'
end

/-- The values `V` are near the exact ones. -/
def Around (δ : ℝ) (ρ : Nat → Res (T ℝ)) (V : Nat → T ℝ) : Prop := ∀ j v, ρ j = .ok v → Close δ (V j) v

theorem Around.mono {δ δ' : ℝ} (h : δ ≤ δ') {ρ : Nat → Res (T ℝ)} {V : Nat → T ℝ} (a : Around δ ρ V) : Around δ' ρ V :=
  fun j v hv => (a j v hv).mono h

/-- Operands as near as `δ`, and equal where `ms` says so. -/
def CloseX (δ : ℝ) : List Bool → List (T ℝ) → List (T ℝ) → Prop
  | _, [], [] => True
  | [], a :: as, b :: bs => Close δ a b ∧ CloseX δ [] as bs
  | m :: ms, a :: as, b :: bs => (if m then a = b else Close δ a b) ∧ CloseX δ ms as bs
  | _, _, _ => False

theorem CloseX.toL {δ : ℝ} {as bs : List (T ℝ)} (h : CloseX δ [] as bs) : CloseL δ as bs := by
  induction as generalizing bs with
  | nil =>
    cases bs with
    | nil => exact .nil
    | cons b bs => simp [CloseX] at h
  | cons a as ih =>
    cases bs with
    | nil => simp [CloseX] at h
    | cons b bs =>
      simp only [CloseX] at h
      exact .cons h.1 (ih h.2)

/-- The operation works on operands near `xs` (and equal to them where `ms` says so), and depends continuously on them. -/
def SteadyX (run : List (T ℝ) → Res (T ℝ)) (ms : List Bool) (xs : List (T ℝ)) : Prop :=
  ∃ y, run xs = .ok y ∧ ∀ ε, 0 < ε → ∃ δ, 0 < δ ∧ ∀ xs', CloseX δ ms xs' xs → ∃ y', run xs' = .ok y' ∧ Close ε y' y

/-- With smaller roundoff the results approach the exact ones, on the operands near `xs`. -/
def AccurateX (run : List (T ℝ) → Res (T ℝ)) (imp : Impl) (ms : List Bool) (xs : List (T ℝ)) : Prop :=
  ∀ ε, 0 < ε → ∃ u₀, 0 < u₀ ∧ ∃ δ, 0 < δ ∧ ∀ u, 0 ≤ u → u ≤ u₀ → ∀ xs', CloseX δ ms xs' xs → ∀ y', imp u xs' y' →
    ∃ y, run xs' = .ok y ∧ Close ε y' y

theorem Steady.toX {run : List (T ℝ) → Res (T ℝ)} {xs : List (T ℝ)} (h : Steady run xs) : SteadyX run [] xs := by
  obtain ⟨y, hy, h⟩ := h
  refine ⟨y, hy, fun ε hε => ?_⟩
  obtain ⟨δ, hδ, h⟩ := h ε hε
  exact ⟨δ, hδ, fun xs' hc => h xs' hc.toL⟩

theorem Accurate.toX {run : List (T ℝ) → Res (T ℝ)} {imp : Impl} {xs : List (T ℝ)} (h : Accurate run imp xs) : AccurateX run imp [] xs := by
  intro ε hε
  obtain ⟨u₀, hu, δ, hδ, h⟩ := h ε hε
  exact ⟨u₀, hu, δ, hδ, fun u h1 h2 xs' hc => h u h1 h2 xs' hc.toL⟩

/-- The node is computed without error, if the roundoff is small and the nodes of the graph are near their values. (Sizes are.) -/
def Sharp (imp : POp → Impl) (ρ : Nat → Res (T ℝ)) (e : XT) : Prop :=
  ∃ w, e.eval ρ = .ok w ∧ ∃ u₀, 0 < u₀ ∧ ∃ δ, 0 < δ ∧ ∀ u, 0 ≤ u → u ≤ u₀ → ∀ V, Around δ ρ V → ∀ v, Comp imp u V e v → v = w

/-- The operands that have to be exact are. -/
def SharpL (imp : POp → Impl) (ρ : Nat → Res (T ℝ)) : List Bool → List XT → Prop
  | m :: ms, a :: as => (m = true → Sharp imp ρ a) ∧ SharpL imp ρ ms as
  | _, _ => True

mutual
/-- The operations of the node are continuous and accurately implemented where they are used. -/
def XSteady (imp : POp → Impl) (ρ : Nat → Res (T ℝ)) : XT → Prop
  | .node j => ∃ v, ρ j = .ok v
  | .cst _ => True
  | .app o as => XSteadyL imp ρ as ∧ ∃ xs ms, XT.evalL ρ as = .ok xs ∧ SharpL imp ρ ms as ∧ SteadyX o.run ms xs ∧ AccurateX o.run (imp o) ms xs
def XSteadyL (imp : POp → Impl) (ρ : Nat → Res (T ℝ)) : List XT → Prop
  | [] => True
  | a :: as => XSteady imp ρ a ∧ XSteadyL imp ρ as
end

/-- What is computed for a node is near its value. -/
def Tracks (imp : POp → Impl) (ρ : Nat → Res (T ℝ)) (e : XT) : Prop :=
  ∀ ε, 0 < ε → ∃ u₀, 0 < u₀ ∧ ∃ δ, 0 < δ ∧ ∀ u, 0 ≤ u → u ≤ u₀ → ∀ V, Around δ ρ V → ∀ v, Comp imp u V e v →
    ∃ w, e.eval ρ = .ok w ∧ Close ε v w

mutual
/-- **C121 (nodes added by `Grad`).** If the operations of a node are continuous and accurately implemented where they are used, then
what is computed for it is as near to its value as one likes, if the roundoff is small enough and the nodes of the graph are near
enough to their values. -/
theorem term_rounded (imp : POp → Impl) (ρ : Nat → Res (T ℝ)) : ∀ e : XT, XSteady imp ρ e → Tracks imp ρ e
  | .node j, h => fun ε hε => by
    refine ⟨1, one_pos, ε, hε, fun u _ _ V hV v hv => ?_⟩
    simp only [XSteady] at h
    obtain ⟨w, hw⟩ := h
    simp only [Comp] at hv
    subst hv
    exact ⟨w, hw, hV j w hw⟩
  | .cst t, _ => fun ε hε => by
    refine ⟨ε, hε, 1, one_pos, fun u _ hu V _ v hv => ?_⟩
    simp only [Comp] at hv
    exact ⟨t, rfl, hv.mono hu⟩
  | .app o as, h => fun ε hε => by
    simp only [XSteady] at h
    obtain ⟨has, xs, ms, hxs, hsh, ⟨y, hy, hst⟩, hac⟩ := h
    obtain ⟨δ₁, hδ₁, hst⟩ := hst (ε / 2) (half_pos hε)
    obtain ⟨u₂, hu₂, δ₂, hδ₂, hac⟩ := hac (ε / 2) (half_pos hε)
    obtain ⟨u₁, hu₁, δ, hδ, H⟩ := terms_rounded imp ρ as has ms xs hxs hsh (min δ₁ δ₂) (lt_min hδ₁ hδ₂)
    refine ⟨min u₁ u₂, lt_min hu₁ hu₂, δ, hδ, fun u h0 hu V hV v hv => ?_⟩
    simp only [Comp] at hv
    obtain ⟨vs, hvs, himp⟩ := hv
    have hc := H u h0 (hu.trans (min_le_left _ _)) V hV vs hvs
    obtain ⟨y', e1, e2⟩ := hst vs (hc δ₁ (min_le_left _ _))
    obtain ⟨y'', e3, e4⟩ := hac u h0 (hu.trans (min_le_right _ _)) vs (hc δ₂ (min_le_right _ _)) v himp
    rw [e1] at e3
    cases e3
    refine ⟨y, by simp only [XT.eval, hxs, Res.bind]; exact hy, ?_⟩
    have := e4.trans e2
    rwa [add_halves] at this
theorem terms_rounded (imp : POp → Impl) (ρ : Nat → Res (T ℝ)) : ∀ as : List XT, XSteadyL imp ρ as → ∀ (ms : List Bool) (xs : List (T ℝ)),
    XT.evalL ρ as = .ok xs → SharpL imp ρ ms as → ∀ ε, 0 < ε → ∃ u₀, 0 < u₀ ∧ ∃ δ, 0 < δ ∧ ∀ u, 0 ≤ u → u ≤ u₀ → ∀ V, Around δ ρ V →
      ∀ vs, CompL imp u V as vs → (∀ ε', ε ≤ ε' → CloseX ε' ms vs xs)
  | [], _ => fun ms xs hxs _ ε hε => by
    refine ⟨1, one_pos, 1, one_pos, fun u _ _ V _ vs hvs => ?_⟩
    simp only [CompL] at hvs
    simp only [XT.evalL, Res.ok.injEq] at hxs
    subst hvs hxs
    intro ε' _
    cases ms <;> simp [CloseX]
  | a :: as, h => fun ms xs hxs hsh ε hε => by
    simp only [XSteadyL] at h
    simp only [XT.evalL, bind_ok] at hxs
    obtain ⟨x, hx, xs', hxs', e⟩ := hxs
    simp only [Res.ok.injEq] at e
    subst e
    obtain ⟨u₁, hu₁, δ₁, hδ₁, H1⟩ := term_rounded imp ρ a h.1 ε hε
    have htail : SharpL imp ρ ms.tail as := by
      cases ms with
      | nil => simp only [List.tail_nil]; cases as <;> simp [SharpL]
      | cons m ms => simp only [SharpL] at hsh; exact hsh.2
    obtain ⟨u₂, hu₂, δ₂, hδ₂, H2⟩ := terms_rounded imp ρ as h.2 ms.tail xs' hxs' htail ε hε
    have hsharp : ∃ u₀, 0 < u₀ ∧ ∃ δ, 0 < δ ∧ ∀ u, 0 ≤ u → u ≤ u₀ → ∀ V, Around δ ρ V → ∀ v, Comp imp u V a v →
        ms.headD false = true → v = x := by
      by_cases hm : ms.headD false = true
      · have : Sharp imp ρ a := by
          cases ms with
          | nil => cases hm
          | cons m ms => simp only [SharpL] at hsh; exact hsh.1 hm
        obtain ⟨w, hw, u₃, hu₃, δ₃, hδ₃, H3⟩ := this
        rw [hx] at hw
        cases hw
        exact ⟨u₃, hu₃, δ₃, hδ₃, fun u h0 hu V hV v hv _ => H3 u h0 hu V hV v hv⟩
      · exact ⟨1, one_pos, 1, one_pos, fun u _ _ V _ v _ h => absurd h hm⟩
    obtain ⟨u₃, hu₃, δ₃, hδ₃, H3⟩ := hsharp
    refine ⟨min u₁ (min u₂ u₃), lt_min hu₁ (lt_min hu₂ hu₃), min δ₁ (min δ₂ δ₃), lt_min hδ₁ (lt_min hδ₂ hδ₃), fun u h0 hu V hV vs hvs ε' hle => ?_⟩
    simp only [CompL] at hvs
    obtain ⟨v, vs', rfl, hv, hvs'⟩ := hvs
    obtain ⟨w, hw, hc⟩ := H1 u h0 (hu.trans (min_le_left _ _)) V (hV.mono (min_le_left _ _)) v hv
    rw [hx] at hw
    cases hw
    have k2 := H2 u h0 (hu.trans ((min_le_right _ _).trans (min_le_left _ _))) V (hV.mono ((min_le_right _ _).trans (min_le_left _ _))) vs' hvs' ε' hle
    have k3 := H3 u h0 (hu.trans ((min_le_right _ _).trans (min_le_right _ _))) V (hV.mono ((min_le_right _ _).trans (min_le_right _ _))) v hv
    cases ms with
    | nil => simp only [CloseX]; exact ⟨hc.mono hle, by simpa using k2⟩
    | cons m ms =>
      simp only [CloseX]
      refine ⟨?_, by simpa using k2⟩
      by_cases hm : m = true
      · rw [if_pos hm]; exact k3 (by simpa using hm)
      · rw [if_neg hm]; exact hc.mono hle
end

/-! ### Gradients -/

/-- The nodes that `SymDiff` of the operation builds are continuous and accurately implemented, at the operands `xs` with the result
`y`, for all gradients. -/
def SymSteady (imp : POp → Impl) (d : DOp) (xs : List (T ℝ)) (y : T ℝ) : Prop :=
  ∀ (ρ : Nat → Res (T ℝ)) (sh : XT → List Nat) (args : List XT) (out gx : XT) (g : T ℝ) (es : List XT),
    (∀ e v, XT.eval ρ e = .ok v → sh e = v.shape) → List.Forall₂ (fun e v => XT.eval ρ e = .ok v) args xs →
    out.eval ρ = .ok y → gx.eval ρ = .ok g → g.shape = y.shape → (∀ a ∈ args, XSteady imp ρ a) → XSteady imp ρ out → XSteady imp ρ gx →
    d.sym.sym sh args out gx = some es → ∀ e ∈ es, XSteady imp ρ e

/-- The implementation is accurate wherever the operation is continuous. -/
def Faithful (imp : POp → Impl) : Prop := ∀ (o : POp) (xs : List (T ℝ)), Steady o.run xs → Accurate o.run (imp o) xs

theorem xSteady_app {imp : POp → Impl} (hF : Faithful imp) {ρ : Nat → Res (T ℝ)} {o : POp} {as : List XT} {xs : List (T ℝ)}
    (has : XSteadyL imp ρ as) (he : XT.evalL ρ as = .ok xs) (hs : Steady o.run xs) : XSteady imp ρ (.app o as) := by
  simp only [XSteady]
  refine ⟨has, xs, [], he, by cases as <;> simp [SharpL], hs.toX, (hF o xs hs).toX⟩

/-- Sums of tensors of one shape are continuous. -/
theorem add_steady {a b : T ℝ} (h : a.shape = b.shape) :
    Steady (POp.of2 (elem (· + ·)) elemShp (fun _ _ _ h => elem_shape _ h)).run [a, b] := by
  obtain ⟨y, -, -, -, hg⟩ := bTOp_good .add a.shape a b (.inl rfl) (.inl h.symm) (.inl rfl) (fun c => absurd h c) (fun _ _ => trivial)
  have := good_steady hg
  exact this

theorem reduceAdd_steady {imp : POp → Impl} (hF : Faithful imp) {ρ : Nat → Res (T ℝ)} {s : List Nat} {l : List (T ℝ)} {m : List XT} {a : T ℝ}
    (h : List.Forall₂ (fun v e => (XT.eval ρ e = .ok v ∧ v.shape = s) ∧ XSteady imp ρ e) l m) (ha : reduceAddT l = some a) :
    ∃ b, reduceAddX m = some b ∧ (b.eval ρ = .ok a ∧ a.shape = s) ∧ XSteady imp ρ b := by
  obtain ⟨b, hb, hev⟩ := reduceAdd_sim (List.Forall₂.imp (fun _ _ h => h.1) h) ha
  refine ⟨b, hb, hev, ?_⟩
  have fold : ∀ (l : List (T ℝ)) (m : List XT) (v : T ℝ) (e : XT),
      List.Forall₂ (fun v e => (XT.eval ρ e = .ok v ∧ v.shape = s) ∧ XSteady imp ρ e) l m → XT.eval ρ e = .ok v → v.shape = s →
      XSteady imp ρ e → XSteady imp ρ (m.foldl XT.add e) := by
    intro l
    induction l with
    | nil => intro m v e h _ _ hx; cases h; exact hx
    | cons w l ih =>
      intro m v e h he hs hx
      cases h with
      | cons hw hl =>
        rename_i e' m'
        rw [List.foldl_cons]
        have hst := add_steady (hs.trans hw.1.2.symm)
        obtain ⟨q, hq, -⟩ := hst
        have hqe : (XT.add e e').eval ρ = .ok q := by unfold XT.add; rw [XT.eval_app2 he hw.1.1]; exact hq
        refine ih m' q _ hl hqe ?_ ?_
        · rw [elem_shape _ hq, hs, hw.1.2]
          unfold elemShp
          by_cases c : s = []
          · rw [if_pos c]
          · rw [if_neg c]
        · refine xSteady_app hF (xs := [v, w]) (by simp only [XSteadyL]; exact ⟨hx, hw.2, trivial⟩) ?_ (add_steady (hs.trans hw.1.2.symm))
          simp only [XT.evalL, he, hw.1.1, Res.bind]
  match l, m, h, hb with
  | [v], [e], .cons hv .nil, hb => cases hb; exact hv.2
  | v1 :: v2 :: l, e1 :: e2 :: m, .cons h1 (.cons h2 hl), hb =>
    cases hb
    exact fold (v2 :: l) (e2 :: m) v1 e1 (.cons h2 hl) h1.1.1 h1.1.2 h1.2
  | [], [], .nil, hb => cases hb

/-- The gradient nodes that `Grad` builds are continuous and accurately implemented if the nodes of the single operations are. -/
theorem gradT_steady {imp : POp → Impl} (hF : Faithful imp) (G : XG) (W : G.tg.Sorted) (x : Nat → T ℝ) (S : G.tg.Fine x) (sh : Nat → List Nat)
    (hsh : ∀ i y, G.tg.value x i = .ok y → sh i = y.shape)
    (hsym : ∀ (i : Nat) (o : DOp) (ks : List Nat), G[i]? = some (.op o ks) → ∃ xs y, resAll (ks.map (G.tg.value x)) = .ok xs ∧
      o.op.run xs = .ok y ∧ SymSteady imp o xs y)
    (users : Nat → Nat) (cost : Nat) (wrt : List Nat)
    {res : List (T ℝ)} {dv : Nat → Option (T ℝ)} (h : gradT G.tg x users (fun _ => none) cost wrt = some (res, dv)) :
    ∃ es dv', gradX G sh users (fun _ => none) cost wrt = some (es, dv') ∧ ∀ t ∈ es, XSteady imp (G.tg.value x) t := by
  unfold gradT at h
  by_cases hc : (theT (G.tg.value x cost)).shape = [] ∧ wrt.all (fun w => (G.tg.gr.node w).input)
  swap
  · rw [if_neg hc] at h; cases h
  rw [if_pos hc] at h
  have hyc := S.ok W cost
  set yc := theT (G.tg.value x cost) with hycdef
  have hsc : sh cost = [] := by rw [hsh cost yc hyc]; exact hc.1
  unfold gradX
  rw [if_pos ⟨hsc, hc.2⟩]
  let R : Nat → T ℝ → XT → Prop := fun i v e => (XT.eval (G.tg.value x) e = .ok v ∧ v.shape = sh i) ∧ XSteady imp (G.tg.value x) e
  have hsd : ∀ i g e ts, R i g e → G.tg.symDiff x i g = some ts → ∃ es, G.symDiff sh i e = some es ∧ ts.length = es.length ∧
      ∀ (k c : Nat) (t : T ℝ) (e : XT), (G.tg.gr.node i).children[k]? = some c → (G.tg.gr.node i).diffs[k]? = some true →
        ts[k]? = some t → es[k]? = some e → R c t e := by
    intro i g e ts hRS hs
    obtain ⟨hR, hRx⟩ := hRS
    unfold TG.symDiff at hs
    unfold XG.symDiff
    rw [List.getD_eq_getElem?_getD, G.tg_getElem] at hs
    rw [List.getD_eq_getElem?_getD]
    cases hn : G[i]? with
    | none => rw [hn] at hs; cases hs
    | some n =>
      rw [hn] at hs
      have hnt : G.tg[i]? = some n.tnode := by rw [G.tg_getElem, hn]; rfl
      cases n with
      | leaf => cases hs
      | cst t =>
        simp only [Option.map_some, XNode.tnode, Option.getD_some, Option.some.injEq] at hs
        subst hs
        exact ⟨[], rfl, rfl, fun k _ _ _ _ _ h _ => by simp at h⟩
      | op o ks =>
        simp only [Option.map_some, XNode.tnode, Option.getD_some] at hs
        obtain ⟨y, hy⟩ : ∃ y, G.tg.value x i = .ok y := ⟨_, S.ok W i⟩
        have hv := TG.value_eq G.tg W x i
        rw [List.getD_eq_getElem?_getD, hnt] at hv
        simp only [XNode.tnode, Option.getD_some] at hv
        obtain ⟨xs, hxs, hrun⟩ := bind_ok.1 (hv.symm.trans hy)
        rw [hxs, hy] at hs
        simp only at hs
        have hargs : List.Forall₂ (fun e v => XT.eval (G.tg.value x) e = .ok v) (ks.map XT.node) xs := by
          have := resAll_ok hxs
          clear hxs hv hs hrun hnt hn
          induction ks generalizing xs with
          | nil => cases xs with
            | nil => exact .nil
            | cons a as => simp at this
          | cons k ks ih =>
            cases xs with
            | nil => simp at this
            | cons a as =>
              simp only [List.map_cons, List.cons.injEq] at this
              exact .cons this.1 (ih as this.2)
        obtain ⟨es, h1, h2⟩ := o.of.sym (G.tg.value x) (XT.shape sh) (ks.map .node) (.node i) e xs y g ts
          (fun e v h => XT.shape_eval hsh e v h) hargs hy hR.1 hrun (by rw [hR.2, hsh i y hy]) hs
        refine ⟨es, h1, h2.length_eq.symm, fun k c t e' k1 k2 k3 k4 => ⟨⟨?_, ?_⟩, ?_⟩⟩
        · have := List.Forall₂.get h2 (i := k) (by rw [List.getElem?_eq_some_iff] at k4; exact k4.1)
            (by rw [List.getElem?_eq_some_iff] at k3; exact k3.1)
          simp only [List.get_eq_getElem] at this
          rw [List.getElem?_eq_some_iff] at k3 k4
          rw [k3.2, k4.2] at this
          exact this
        · have hgn : G.tg.gr.node i = { children := ks, diffs := o.op.diffs } := by
            simp only [Gr.node, TG.gr, List.getD_eq_getElem?_getD, List.getElem?_map, hnt]
            rfl
          rw [hgn] at k1 k2
          simp only at k1 k2
          obtain ⟨xs', y', P, r1, r2, -⟩ := S i o.op ks hnt
          rw [hxs] at r1
          cases r1
          have hyy : y' = y := by have := r2.run; rw [hrun] at this; cases this; rfl
          subst hyy
          obtain ⟨ts', q1, q2, q3⟩ := r2.total (List.mem_of_getElem? k2) g (by rw [hR.2, hsh i _ hy])
          rw [hs] at q1
          cases q1
          have hxk : ∃ v, xs[k]? = some v ∧ G.tg.value x c = .ok v := by
            have hm := resAll_ok hxs
            have : (ks.map (G.tg.value x))[k]? = (xs.map Res.ok)[k]? := by rw [hm]
            rw [List.getElem?_map, k1, List.getElem?_map] at this
            simp only [Option.map_some] at this
            cases hx : xs[k]? with
            | none => rw [hx] at this; cases this
            | some v => rw [hx] at this; simp only [Option.map_some, Option.some.injEq] at this; exact ⟨v, rfl, this⟩
          obtain ⟨v, hv1, hv2⟩ := hxk
          rw [q3 k t v k2 k3 hv1, hsh c v hv2]
        · obtain ⟨xs', y', r1, r2, r3⟩ := hsym i o ks hn
          rw [hxs] at r1
          cases r1
          rw [hrun] at r2
          cases r2
          refine r3 (G.tg.value x) (XT.shape sh) (ks.map .node) (.node i) e g es (fun e v h => XT.shape_eval hsh e v h) hargs hy hR.1
            (by rw [hR.2, hsh i y hy]) (fun a ha => ?_) ?_ hRx h1 e' (List.mem_of_getElem? k4)
          · obtain ⟨c', -, rfl⟩ := List.mem_map.1 ha
            simp only [XSteady]
            exact ⟨_, S.ok W c'⟩
          · simp only [XSteady]
            exact ⟨y, hy⟩
  obtain ⟨es, dv', e1, l1, l2, hk⟩ := backprop_sim (R := R) (sd' := G.symDiff sh) (ra' := reduceAddX) hsd
    (fun i l m a h ha => reduceAdd_steady hF h ha) cost (scalarT 1) (.cst (scalarT 1)) ⟨⟨rfl, by rw [hsc]; rfl⟩, by simp only [XSteady]⟩ wrt h
  refine ⟨es, dv', e1, fun t ht => ?_⟩
  obtain ⟨k, hk', rfl⟩ := List.getElem_of_mem ht
  exact (hk k (wrt[k]'(by omega)) (res[k]'(by omega)) es[k] (List.getElem?_eq_getElem _) (List.getElem?_eq_getElem _) (List.getElem?_eq_getElem _)).2

/-- The implementation of the operation of node `i`. -/
def impAt (imp : POp → Impl) (G : XG) (i : Nat) : Impl := match G.getD i .leaf with
  | .op o _ => imp o.sym.op
  | _ => fun _ _ _ => True

/-- **C121 (gradients).** Everything is rounded: the inputs, the operations of the graph, and those of the gradient nodes that `Grad`
built, which use the rounded values of the graph. What comes out for the gradient nodes is as near to the gradient of the cost as one
likes, if the roundoff is small enough. -/
theorem gradient_rounded {imp : POp → Impl} (hF : Faithful imp) {G : XG} (hG : G.tg.Sorted) (users : Nat → Nat) (cost : Nat)
    (hcost : cost < G.length) {sh : Nat → List Nat} {ws : List Nat} (hne : ws ≠ [])
    (hws : ∀ w ∈ ws, w < G.length ∧ (G.tg.gr.node w).input = true ∧ Reach G.tg.gr cost w) {res : List XT} {dv : Nat → Option XT}
    (hgrad : gradX G sh users (fun _ => none) cost ws = some (res, dv)) (x : Nat → T ℝ) (hx : Train.XOkay G sh x)
    (hop : ∀ (i : Nat) (o : DOp) (ks : List Nat), G[i]? = some (.op o ks) → ∃ xs y, resAll (ks.map (G.tg.value x)) = .ok xs ∧
      o.op.run xs = .ok y ∧ Steady o.op.run xs ∧ SymSteady imp o xs y) :
    ∃ r, Train.IsGradient G.tg cost ws x r ∧ ∀ ε, 0 < ε → ∃ u₀, 0 < u₀ ∧ ∀ u, 0 ≤ u → u ≤ u₀ →
      ∀ V, Computed G.tg x (impAt imp G) u V → ∀ (k w : Nat) (t : XT) (v : T ℝ), ws[k]? = some w → res[k]? = some t →
        Comp imp u V t v → Close ε v (r w) := by
  have hsc := Train.gradX_scalar hgrad
  obtain ⟨res', dv', e1, -, hcor⟩ := Train.gradX_correct hG users cost hcost hsc hne hws ⟨x, hx⟩
  rw [hgrad] at e1
  cases e1
  obtain ⟨r, hr, hval⟩ := hcor x hx
  refine ⟨r, hr, fun ε hε => ?_⟩
  have hok := hx.okay hG hsc (fun w hw => (hws w hw).2.1)
  obtain ⟨⟨rs, d⟩, hg⟩ := (AD.gradT_succeeds_iff G.tg hG x hx.1 users (fun _ => none) cost ws fun _ _ _ => rfl).2
    ⟨hok.2.1, hne, fun w hw => (hws w hw).2⟩
  obtain ⟨es, dv', e1, hst⟩ := gradT_steady hF G hG x hx.1 sh hx.2 (fun i o ks h => by
    obtain ⟨xs, y, h1, h2, -, h4⟩ := hop i o ks h
    exact ⟨xs, y, h1, h2, h4⟩) users cost ws hg
  rw [hgrad] at e1
  cases e1
  -- the gradient nodes, all at once
  have hall : ∀ l : List XT, (∀ t ∈ l, XSteady imp (G.tg.value x) t) → ∃ u₀, 0 < u₀ ∧ ∃ δ, 0 < δ ∧ ∀ u, 0 ≤ u → u ≤ u₀ →
      ∀ V, Around δ (G.tg.value x) V → ∀ t ∈ l, ∀ v, Comp imp u V t v → ∃ w, t.eval (G.tg.value x) = .ok w ∧ Close ε v w := by
    intro l
    induction l with
    | nil => exact fun _ => ⟨1, one_pos, 1, one_pos, fun _ _ _ _ _ t ht => by simp at ht⟩
    | cons t l ih =>
      intro hl
      obtain ⟨u₁, hu₁, δ₁, hδ₁, H1⟩ := term_rounded imp _ t (hl t (by simp)) ε hε
      obtain ⟨u₂, hu₂, δ₂, hδ₂, H2⟩ := ih fun t ht => hl t (by simp [ht])
      refine ⟨min u₁ u₂, lt_min hu₁ hu₂, min δ₁ δ₂, lt_min hδ₁ hδ₂, fun u h0 hu V hV t' ht' v hv => ?_⟩
      rcases List.mem_cons.1 ht' with rfl | ht'
      · exact H1 u h0 (hu.trans (min_le_left _ _)) V (hV.mono (min_le_left _ _)) v hv
      · exact H2 u h0 (hu.trans (min_le_right _ _)) V (hV.mono (min_le_right _ _)) t' ht' v hv
  obtain ⟨u₁, hu₁, δ, hδ, H⟩ := hall res hst
  obtain ⟨u₂, hu₂, H2⟩ := graph_rounded hG x (impAt imp G) (fun i o ks h => by
    rw [G.tg_getElem] at h
    cases hn : G[i]? with
    | none => rw [hn] at h; cases h
    | some n =>
      rw [hn] at h
      cases n with
      | leaf => cases h
      | cst t => cases h
      | op d ks' =>
        simp only [Option.map_some, XNode.tnode, Option.some.injEq, TNode.op.injEq] at h
        obtain ⟨rfl, rfl⟩ := h
        obtain ⟨xs, y, h1, -, h3, -⟩ := hop i d ks' hn
        refine ⟨xs, h1, h3, ?_⟩
        have : impAt imp G i = imp d.sym.op := by
          unfold impAt
          rw [List.getD_eq_getElem?_getD, hn]
          rfl
        rw [this]
        have := h3
        rw [d.of.run] at this ⊢
        exact hF _ _ this) δ hδ
  refine ⟨min u₁ u₂, lt_min hu₁ hu₂, fun u h0 hu V hV k w t v hk ht hv => ?_⟩
  have hA : Around δ (G.tg.value x) V := by
    intro j a ha
    obtain ⟨b, hb, hc⟩ := H2 u h0 (hu.trans (min_le_right _ _)) V hV j
    rw [ha] at hb
    cases hb
    exact hc
  obtain ⟨a, ha, hc⟩ := H u h0 (hu.trans (min_le_left _ _)) V hA t (List.mem_of_getElem? ht) v hv
  obtain ⟨t', b, b1, b2, b3⟩ := hval k w hk
  rw [ht] at b1
  cases b1
  rw [ha] at b2
  cases b2
  refine ⟨hc.1.trans b3.1, fun i hi => ?_⟩
  have hi' : InB a.shape i := by rw [b3.1]; exact hi
  rw [← b3.2 i hi']
  exact hc.2 i hi'

end

end Verif.Round
