import Verif.AD.Grad
/-!
The gradient of a gradient. The nodes that `Grad` builds are part of the graph, so `Grad` can be asked for their gradients (gorgonia.go
211-243, differentiation.go 133-332). If no node on the way carries a derivative from the first call, the result is the second derivative;
as the nodes of the first call do carry one (differentiation.go 219-223), the library's answer for the same input is wrong.
-/
set_option autoImplicit false
namespace Verif.AD
open Filter

/-- The same node with operands elsewhere. -/
def SNode.move (ι : Nat → Nat) : SNode → SNode
  | .leaf => .leaf
  | .cst c => .cst c
  | .un u a => .un u (ι a)
  | .bin b a c => .bin b (ι a) (ι c)

/-- `G'` contains the nodes of `G`, node `i` at `ι i`, each once. -/
structure SG.In (G G' : SG) (ι : Nat → Nat) : Prop where
  node : ∀ i n, G[i]? = some n → G'[ι i]? = some (n.move ι)
  inj : ∀ i j, i < G.length → j < G.length → ι i = ι j → i = j

/-- Node `j` of `G'` is the expression over the nodes of `G`. Which of its parts are shared is left open. -/
inductive Built (G' : SG) (ι : Nat → Nat) : Tm → Nat → Prop where
  | node (i : Nat) : Built G' ι (.node i) (ι i)
  | cst (c : Cst) (j : Nat) (h : G'[j]? = some (.cst c)) : Built G' ι (.cst c) j
  | un (u : UOp) (t : Tm) (a j : Nat) (h : G'[j]? = some (.un u a)) (ht : Built G' ι t a) : Built G' ι (.un u t) j
  | bin (b : BOp) (s t : Tm) (a c j : Nat) (h : G'[j]? = some (.bin b a c)) (hs : Built G' ι s a) (ht : Built G' ι t c) : Built G' ι (.bin b s t) j

/-- Every node that the expression mentions is one of the graph. -/
def Tm.Over (n : Nat) : Tm → Prop
  | .node i => i < n
  | .cst _ => True
  | .un _ a => a.Over n
  | .bin _ a b => a.Over n ∧ b.Over n

theorem SG.getD_of {G : SG} {i : Nat} {n : SNode} (h : G[i]? = some n) : G.getD i .leaf = n := by
  rw [List.getD_eq_getElem?_getD, h]; rfl

/-- The nodes of `G` have their values in `G'`. -/
theorem SG.In.value {G G' : SG} {ι : Nat → Nat} (H : G.In G' ι) (W : G.Sorted) (W' : G'.Sorted) (x : Nat → ℝ) (i : Nat) (hi : i < G.length) :
    G'.value x (ι i) = G.value (fun k => x (ι k)) i := by
  have step : ∀ m i, G.length - i ≤ m → i < G.length → G'.value x (ι i) = G.value (fun k => x (ι k)) i := by
    intro m
    induction m with
    | zero => intro i a b; omega
    | succ m ih =>
      intro i hm hi
      have hn : G[i]? = some G[i] := List.getElem?_eq_getElem hi
      have hn' := H.node i _ hn
      rw [G'.value_eq W' x (ι i), G.value_eq W _ i, SG.getD_of hn, SG.getD_of hn']
      cases hc : G[i] with
      | leaf => rfl
      | cst c => rfl
      | un u a =>
        rw [hc] at hn
        have ha := W i _ hn a (by simp [SNode.kids])
        simp only [SNode.move]
        rw [ih a (by omega) ha.2]
      | bin b a c =>
        rw [hc] at hn
        have ha := W i _ hn a (by simp [SNode.kids])
        have hd := W i _ hn c (by simp [SNode.kids])
        simp only [SNode.move]
        rw [ih a (by omega) ha.2, ih c (by omega) hd.2]
  exact step _ i (Nat.le_refl _) hi

/-- A node that was built for an expression has the value of the expression. -/
theorem Built.value {G G' : SG} {ι : Nat → Nat} (H : G.In G' ι) (W : G.Sorted) (W' : G'.Sorted) (x : Nat → ℝ) {t : Tm} {j : Nat}
    (ho : t.Over G.length) (hb : Built G' ι t j) : G'.value x j = t.eval (G.value fun k => x (ι k)) := by
  induction hb with
  | node i => exact H.value W W' x i ho
  | cst c j h => rw [G'.value_eq W' x j, SG.getD_of h]; rfl
  | un u t a j h ht ih => rw [G'.value_eq W' x j, SG.getD_of h]; simp only [Tm.eval]; rw [ih ho]
  | bin b s t a c j h hs ht ih1 ih2 => rw [G'.value_eq W' x j, SG.getD_of h]; simp only [Tm.eval]; rw [ih1 ho.1, ih2 ho.2]

/-! ### The expressions that `Grad` returns -/

theorem UOp.diffExpr_over {u : UOp} {x y g t : Tm} {n : Nat} (hx : x.Over n) (hy : y.Over n) (hg : g.Over n) (h : u.diffExpr x y g = some t) :
    t.Over n := by
  cases u <;> simp only [UOp.diffExpr, Option.some.injEq, reduceCtorEq] at h <;> subst h <;> simp [Tm.Over, hx, hy, hg]

theorem BOp.diffExpr_over (b : BOp) {x y z g : Tm} {n : Nat} (hx : x.Over n) (hy : y.Over n) (hz : z.Over n) (hg : g.Over n) :
    (b.diffExpr x y z g).1.Over n ∧ (b.diffExpr x y z g).2.Over n := by
  cases b <;> simp [BOp.diffExpr, Tm.Over, hx, hy, hz, hg]

theorem foldl_tadd_over {n : Nat} (l : List Tm) (a : Tm) (ha : a.Over n) (h : ∀ t ∈ l, t.Over n) : (l.foldl tadd a).Over n := by
  induction l generalizing a with
  | nil => exact ha
  | cons b l ih => exact ih _ ⟨ha, h b (by simp)⟩ fun t ht => h t (by simp [ht])

/-- They are expressions over the nodes of the graph. -/
theorem grad_over (G : SG) (W : G.Sorted) (users : Nat → Nat) (deriv : Nat → Option Tm) (cost : Nat) (hcost : cost < G.length) (wrt : List Nat)
    (hd : ∀ i, Reach G.gr cost i → (∃ w ∈ wrt, Reach G.gr i w) → deriv i = none) (hwl : ∀ w ∈ wrt, w < G.length) (res : List Tm)
    (deriv' : Nat → Option Tm) (h : grad G users deriv cost wrt = some (res, deriv')) : ∀ t ∈ res, t.Over G.length := by
  unfold grad at h
  split at h
  swap
  · cases h
  rename_i hin
  have hin : ∀ w ∈ wrt, (G.gr.node w).input = true := by simpa using hin
  haveI : Inhabited Tm := ⟨.cst .one⟩
  have hgl := G.gr_length
  have hloc : LocalOK (E := fun _ => ℝ) G.gr (fun _ t => t.Over G.length) (fun _ _ => 0) (fun _ _ _ => 0) G.symDiff reduceAdd := by
    constructor
    · intro i g ts hi hg hts k c t hc hk ht
      refine ⟨?_, fun v => by simp⟩
      rw [hgl] at hi
      have hi? : G[i]? = some G[i] := List.getElem?_eq_getElem hi
      have hkid := fun c hc => (W i _ hi? c hc).2
      have hgd : G.getD i .leaf = G[i] := by simp [hi]
      simp only [SG.symDiff, hgd] at hts
      have htm := List.mem_of_getElem? ht
      cases hn : G[i] with
      | leaf => rw [hn] at hts; cases hts
      | cst c' => rw [hn] at hts; simp only [Option.some.injEq] at hts; subst hts; simp at htm
      | un u a =>
        rw [hn] at hts hkid
        simp only at hts
        cases hde : u.diffExpr (.node a) (.node i) g with
        | none => rw [hde] at hts; cases hts
        | some t' =>
          rw [hde] at hts
          simp only [Option.map_some, Option.some.injEq] at hts
          subst hts
          simp only [List.mem_singleton] at htm
          subst htm
          exact UOp.diffExpr_over (x := .node a) (y := .node i) (hkid a (by simp [SNode.kids])) hi hg hde
      | bin b a d =>
        rw [hn] at hts hkid
        simp only [Option.some.injEq] at hts
        subst hts
        have := BOp.diffExpr_over b (x := .node a) (y := .node d) (z := .node i) (hkid a (by simp [SNode.kids]))
          (hkid d (by simp [SNode.kids])) hi hg
        simp only [List.mem_cons, List.not_mem_nil, or_false] at htm
        rcases htm with rfl | rfl
        · exact this.1
        · exact this.2
    · intro i l s hall _ h
      refine ⟨?_, by simp⟩
      obtain ⟨_, a, r, rfl, rfl⟩ := reduceAdd_eval l s h (fun _ => 0)
      exact foldl_tadd_over r a (hall a (by simp)) fun t ht => hall t (by simp [ht])
  obtain ⟨r, hr, hok, _⟩ := backprop_adjoint (E := fun _ => ℝ) G.gr (G.gok W) users (fun _ t => t.Over G.length) (fun _ _ => 0)
    (fun _ _ _ => 0) G.symDiff reduceAdd hloc deriv [(cost, .cst .one)] (by simp [Tm.Over]) (by simp) (by simpa [hgl] using hcost) wrt
    (fun w hw => ⟨by rw [hgl]; exact hwl w hw, hin w hw⟩) (fun i h1 h2 => hd i (by simpa using h1) h2) res deriv' h
  intro t ht
  rw [hr] at ht
  obtain ⟨w, hw, rfl⟩ := List.mem_map.mp ht
  exact hok w hw

/-! ### Second derivatives -/

/-- **C129.** Let `Grad` of `cost` give the gradient `t` of `w`, and let `G'` be any graph that contains `G` and, as node `j`, the gradient. If
then `Grad` of node `j` succeeds and no node between `j` and the inputs asked for carries a derivative, its result for the input `v` is the
derivative with respect to `v` of the derivative of `cost` with respect to `w`. -/
theorem second_derivative (G G' : SG) (ι : Nat → Nat) (W : G.Sorted) (W' : G'.Sorted) (H : G.In G' ι) (users users' : Nat → Nat)
    (deriv : Nat → Option Tm) (cost : Nat) (hcost : cost < G.length) (wrt : List Nat)
    (hd : ∀ i, Reach G.gr cost i → (∃ w ∈ wrt, Reach G.gr i w) → deriv i = none) (hwl : ∀ w ∈ wrt, w < G.length) (res : List Tm)
    (d : Nat → Option Tm) (h : grad G users deriv cost wrt = some (res, d)) (k w : Nat) (t : Tm) (hk : wrt[k]? = some w) (ht : res[k]? = some t)
    (j : Nat) (hj : j < G'.length) (hb : Built G' ι t j) (deriv' : Nat → Option Tm) (wrt' : List Nat)
    (hd' : ∀ i, Reach G'.gr j i → (∃ v ∈ wrt', Reach G'.gr i v) → deriv' i = none) (hwl' : ∀ v ∈ wrt', v < G'.length) (res' : List Tm)
    (d' : Nat → Option Tm) (h' : grad G' users' deriv' j wrt' = some (res', d')) (k' v : Nat) (t' : Tm) (hv : v < G.length)
    (hk' : wrt'[k']? = some (ι v)) (ht' : res'[k']? = some t') (x : Nat → ℝ) (S' : G'.Smooth x)
    (S : ∀ᶠ s in nhds (x (ι v)), G.Smooth (upd (fun i => x (ι i)) v s)) :
    HasDerivAt (fun s => _root_.deriv (fun r => G.value (upd (upd (fun i => x (ι i)) v s) w r) cost) (upd (fun i => x (ι i)) v s w))
      (t'.eval (G'.value x)) (x (ι v)) := by
  have h2 := (grad_partial_derivatives G' W' users' deriv' j hj wrt' hd' hwl' res' d' h' x S').2 k' (ι v) t' hk' ht'
  have hover := grad_over G W users deriv cost hcost wrt hd hwl res d h t (List.mem_of_getElem? ht)
  refine h2.congr_of_eventuallyEq ?_
  filter_upwards [S] with s hs
  have h1 := (grad_partial_derivatives G W users deriv cost hcost wrt hd hwl res d h _ hs).2 k w t hk ht
  rw [h1.deriv, hb.value H W W' _ hover]
  -- the two ways to change the input agree on the nodes of the graph
  have hval : ∀ i, i < G.length → G.value (fun k => upd x (ι v) s (ι k)) i = G.value (upd (fun i => x (ι i)) v s) i := by
    have step : ∀ m i, G.length - i ≤ m → i < G.length →
        G.value (fun k => upd x (ι v) s (ι k)) i = G.value (upd (fun i => x (ι i)) v s) i := by
      intro m
      induction m with
      | zero => intro i a b; omega
      | succ m ih =>
        intro i hm hi
        have hn : G[i]? = some G[i] := List.getElem?_eq_getElem hi
        rw [G.value_eq W _ i, G.value_eq W _ i, SG.getD_of hn]
        cases hc : G[i] with
        | leaf =>
          simp only [upd]
          by_cases e : i = v
          · subst e; simp
          · rw [if_neg e, if_neg fun e' => e (H.inj i v hi hv e')]
        | cst c => rfl
        | un u a =>
          rw [hc] at hn
          have ha := W i _ hn a (by simp [SNode.kids])
          simp only
          rw [ih a (by omega) ha.2]
        | bin b a c =>
          rw [hc] at hn
          have ha := W i _ hn a (by simp [SNode.kids])
          have hd := W i _ hn c (by simp [SNode.kids])
          simp only
          rw [ih a (by omega) ha.2, ih c (by omega) hd.2]
    exact fun i hi => step _ i (Nat.le_refl _) hi
  have heval : ∀ t : Tm, t.Over G.length → t.eval (G.value (upd (fun i => x (ι i)) v s)) = t.eval (G.value fun k => upd x (ι v) s (ι k)) := by
    intro t
    induction t with
    | node i => exact fun hi => (hval i hi).symm
    | cst c => exact fun _ => rfl
    | un u a ih => intro ho; simp only [Tm.eval]; rw [ih ho]
    | bin b a c ih1 ih2 => intro ho; simp only [Tm.eval]; rw [ih1 ho.1, ih2 ho.2]
  exact heval t hover

/-- The `deriv` fields of the nodes of `G'` are those that the first call has left. -/
structure Carried (G' : SG) (ι : Nat → Nat) (d : Nat → Option Tm) (d' : Nat → Option Tm) : Prop where
  old : ∀ i t, d i = some t → ∃ j, Built G' ι t j ∧ d' (ι i) = some (.node j)
  new : ∀ j, d' j ≠ none → ∃ i, j = ι i ∧ d i ≠ none

/-! ### What the derivatives of the first call do -/

/-- The cube of an input. -/
def cubeG : SG := [.un .cube 1, .leaf]

/-- The same with the gradient, `((x * x) * 3) * 1`. -/
def cubeG' : SG := [.bin .mul 1 5, .bin .mul 2 4, .bin .mul 6 6, .un .cube 6, .cst .three, .cst .one, .leaf]

def cubeι : Nat → Nat
  | 0 => 3
  | i + 1 => i + 6

def cubeD : Nat → Option Tm := upd (upd (fun _ => none) 3 (some (.node 5))) 6 (some (.node 0))

/-- **C129.** The second derivative of `x * x * x` at 1 is 6. After `Grad` of the cube, `Grad` of the gradient answers 3: the input carries a
derivative, so its contributions are not added up and the first one is returned. -/
theorem second_derivative_wrong :
    ∃ t d t' d', grad cubeG (fun _ => 1) (fun _ => none) 0 [1] = some ([t], d) ∧ cubeG.In cubeG' cubeι ∧ Built cubeG' cubeι t 0 ∧
      Carried cubeG' cubeι d cubeD ∧ grad cubeG' (fun _ => 1) cubeD 0 [6] = some ([t'], d') ∧ t'.eval (cubeG'.value fun _ => 1) = 3 ∧
      HasDerivAt (fun s => deriv (fun r => cubeG.value (upd (upd (fun _ => 1) 1 s) 1 r) 0) (upd (fun _ => 1) 1 s 1)) 6 1 := by
  refine ⟨_, _, _, _, rfl, ⟨?_, ?_⟩, ?_, ⟨?_, ?_⟩, rfl, ?_, ?_⟩
  · intro i n h
    match i with
    | 0 => cases h; rfl
    | 1 => cases h; rfl
    | i + 2 => simp [cubeG] at h
  · intro i j hi hj h
    simp only [cubeG, List.length_cons, List.length_nil] at hi hj
    match i, j with
    | 0, 0 => rfl
    | 0, 1 => simp [cubeι] at h
    | 1, 0 => simp [cubeι] at h
    | 1, 1 => rfl
    | i + 2, _ => omega
    | _, j + 2 => omega
  · exact .bin _ _ _ 1 5 0 rfl (.bin _ _ _ 2 4 1 rfl (.bin _ _ _ 6 6 2 rfl (.node 1) (.node 1)) (.cst _ 4 rfl)) (.cst _ 5 rfl)
  · intro i t h
    match i with
    | 0 =>
      cases h
      exact ⟨5, .cst _ 5 rfl, rfl⟩
    | 1 =>
      cases h
      exact ⟨0, .bin _ _ _ 1 5 0 rfl (.bin _ _ _ 2 4 1 rfl (.bin _ _ _ 6 6 2 rfl (.node 1) (.node 1)) (.cst _ 4 rfl)) (.cst _ 5 rfl), rfl⟩
    | i + 2 => simp [upd] at h
  · intro j hj
    simp only [cubeD, upd] at hj
    by_cases h6 : j = 6
    · exact ⟨1, h6, by simp [upd]⟩
    · by_cases h3 : j = 3
      · exact ⟨0, h3, by simp [upd]⟩
      · simp [h6, h3] at hj
  · norm_num [Tm.eval, BOp.fn, UOp.fn, Cst.val, BOp.diffExpr, SG.value, SG.valueF, cubeG']
  · have e : (fun s : ℝ => deriv (fun r => cubeG.value (upd (upd (fun _ => 1) 1 s) 1 r) 0) (upd (fun _ => 1) 1 s 1)) = fun s => 3 * s ^ 2 := by
      funext s
      have e1 : (fun r : ℝ => cubeG.value (upd (upd (fun _ => 1) 1 s) 1 r) 0) = fun r => r ^ 3 := by
        funext r
        simp [SG.value, SG.valueF, cubeG, UOp.fn, upd]
        try ring
      rw [e1]
      simp [upd]
    rw [e]
    have := ((hasDerivAt_pow 2 (1 : ℝ)).const_mul 3)
    refine this.congr_deriv ?_
    norm_num

/-- `exp (x * 2)`. -/
def expG : SG := [.un .exp 1, .bin .mul 2 3, .leaf, .cst .two]

/-- The same with the gradient, `2 * (y * 1)`. -/
def expG' : SG := [.bin .mul 5 1, .bin .mul 2 6, .un .exp 3, .bin .mul 4 5, .leaf, .cst .two, .cst .one]

def expι (i : Nat) : Nat := i + 2

def expD : Nat → Option Tm := upd (upd (upd (fun _ => none) 2 (some (.node 6))) 3 (some (.node 1))) 4 (some (.node 0))

/-- **C129.** Where every way from the gradient to the input leads over a node with a derivative, `Grad` of the gradient returns the gradient
itself: for `exp (x * 2)` at every `x` half the second derivative. -/
theorem second_derivative_is_first :
    ∃ t d t' d', grad expG (fun _ => 1) (fun _ => none) 0 [2] = some ([t], d) ∧ Built expG' expι t 0 ∧
      (∀ i t, d i = some t → ∃ j, Built expG' expι t j ∧ expD (expι i) = some (.node j)) ∧
      grad expG' (fun _ => 2) expD 0 [4] = some ([t'], d') ∧ ∀ x : ℝ,
        t'.eval (expG'.value fun _ => x) = 2 * Real.exp (x * 2) ∧ HasDerivAt (fun s : ℝ => 2 * Real.exp (s * 2)) (4 * Real.exp (x * 2)) x ∧
        ∀ s, HasDerivAt (fun r => expG.value (upd (fun _ => x) 2 r) 0) (2 * Real.exp (s * 2)) s := by
  refine ⟨_, _, _, _, rfl, ?_, ?_, rfl, ?_⟩
  · exact .bin _ _ _ 5 1 0 rfl (.node 3) (.bin _ _ _ 2 6 1 rfl (.node 0) (.cst _ 6 rfl))
  · intro i t h
    match i with
    | 0 => cases h; exact ⟨6, .cst _ 6 rfl, rfl⟩
    | 1 => cases h; exact ⟨1, .bin _ _ _ 2 6 1 rfl (.node 0) (.cst _ 6 rfl), rfl⟩
    | 2 => cases h; exact ⟨0, .bin _ _ _ 5 1 0 rfl (.node 3) (.bin _ _ _ 2 6 1 rfl (.node 0) (.cst _ 6 rfl)), rfl⟩
    | i + 3 => simp [upd] at h
  · intro x
    have hexp : ∀ s : ℝ, HasDerivAt (fun r : ℝ => Real.exp (r * 2)) (Real.exp (s * 2) * 2) s := by
      intro s
      have := ((hasDerivAt_id s).mul_const 2).exp
      simpa using this
    refine ⟨?_, ?_, ?_⟩
    · norm_num [Tm.eval, BOp.fn, UOp.fn, Cst.val, SG.value, SG.valueF, expG']
    · refine ((hexp x).const_mul 2).congr_deriv ?_
      ring
    · intro s
      have e : (fun r : ℝ => expG.value (upd (fun _ => x) 2 r) 0) = fun r => Real.exp (r * 2) := by
        funext r
        simp [SG.value, SG.valueF, expG, BOp.fn, UOp.fn, Cst.val, upd]
      rw [e]
      refine (hexp s).congr_deriv ?_
      ring

/-! ### Two different inputs -/

/-- `(x * x) * y`: `x` is node 2, `y` node 3. -/
def mixG : SG := [.bin .mul 1 3, .bin .mul 2 2, .leaf, .leaf]

/-- The same with the gradient of `x`, `x * (y * 1) + x * (y * 1)`. -/
def mixG' : SG := [.bin .add 1 1, .bin .mul 5 2, .bin .mul 6 7, .bin .mul 4 6, .bin .mul 5 5, .leaf, .leaf, .cst .one]

def mixι (i : Nat) : Nat := i + 3

/-- What the first call leaves. -/
def mixD : Nat → Option Tm := upd (upd (upd (fun _ => none) 3 (some (.node 7))) 4 (some (.node 2))) 5 (some (.node 0))

theorem mix_sorted : mixG.Sorted := by
  intro i n hn c hc
  match i, hn with
  | 0, hn => cases hn; simp [SNode.kids] at hc; rcases hc with rfl | rfl <;> decide
  | 1, hn => cases hn; simp [SNode.kids] at hc; subst hc; decide
  | 2, hn => cases hn; simp [SNode.kids] at hc
  | 3, hn => cases hn; simp [SNode.kids] at hc
  | i + 4, hn => simp [mixG] at hn

theorem mix_sorted' : mixG'.Sorted := by
  intro i n hn c hc
  match i, hn with
  | 0, hn => cases hn; simp [SNode.kids] at hc; subst hc; decide
  | 1, hn => cases hn; simp [SNode.kids] at hc; rcases hc with rfl | rfl <;> decide
  | 2, hn => cases hn; simp [SNode.kids] at hc; rcases hc with rfl | rfl <;> decide
  | 3, hn => cases hn; simp [SNode.kids] at hc; rcases hc with rfl | rfl <;> decide
  | 4, hn => cases hn; simp [SNode.kids] at hc; subst hc; decide
  | 5, hn => cases hn; simp [SNode.kids] at hc
  | 6, hn => cases hn; simp [SNode.kids] at hc
  | 7, hn => cases hn; simp [SNode.kids] at hc
  | i + 8, hn => simp [mixG'] at hn

theorem mix_in : mixG.In mixG' mixι := by
  refine ⟨?_, fun i j _ _ h => by simpa [mixι] using h⟩
  intro i n h
  match i with
  | 0 => cases h; rfl
  | 1 => cases h; rfl
  | 2 => cases h; rfl
  | 3 => cases h; rfl
  | i + 4 => simp [mixG] at h

/-- The hypotheses of `second_derivative` hold with the derivatives that the first call has left, if the second call asks for the other input:
the derivative of `2 * x * y` with respect to `y` is `2 * x`. -/
example (x : Nat → ℝ) : ∃ t d t' d', grad mixG (fun _ => 1) (fun _ => none) 0 [2] = some ([t], d) ∧
    (∀ i t, d i = some t → ∃ j, Built mixG' mixι t j ∧ mixD (mixι i) = some (.node j)) ∧
    grad mixG' (fun _ => 2) mixD 0 [6] = some ([t'], d') ∧ t'.eval (mixG'.value x) = 2 * x 5 ∧
    HasDerivAt (fun s => deriv (fun r => mixG.value (upd (upd (fun i => x (mixι i)) 3 s) 2 r) 0) (upd (fun i => x (mixι i)) 3 s 2))
      (t'.eval (mixG'.value x)) (x 6) := by
  refine ⟨_, _, _, _, rfl, ?_, rfl, ?_, ?_⟩
  · intro i t h
    match i with
    | 0 => cases h; exact ⟨7, .cst _ 7 rfl, rfl⟩
    | 1 => cases h; exact ⟨2, .bin _ _ _ 6 7 2 rfl (.node 3) (.cst _ 7 rfl), rfl⟩
    | 2 =>
      cases h
      exact ⟨0, .bin _ _ _ 1 1 0 rfl (.bin _ _ _ 5 2 1 rfl (.node 2) (.bin _ _ _ 6 7 2 rfl (.node 3) (.cst _ 7 rfl)))
        (.bin _ _ _ 5 2 1 rfl (.node 2) (.bin _ _ _ 6 7 2 rfl (.node 3) (.cst _ 7 rfl))), rfl⟩
    | i + 3 => simp [upd] at h
  · norm_num [Tm.eval, BOp.fn, UOp.fn, Cst.val, BOp.diffExpr, SG.value, SG.valueF, mixG']
    try ring
  · refine second_derivative mixG mixG' mixι mix_sorted mix_sorted' mix_in (fun _ => 1) (fun _ => 2) (fun _ => none) 0 (by decide) [2]
      (fun _ _ _ => rfl) (by simp [mixG]) _ _ rfl 0 2 _ rfl rfl 0 (by decide) ?_ mixD [6] ?_ (by simp [mixG']) _ _ rfl 0 3 _ (by decide) rfl rfl x
      ?_ ?_
    · exact .bin _ _ _ 1 1 0 rfl (.bin _ _ _ 5 2 1 rfl (.node 2) (.bin _ _ _ 6 7 2 rfl (.node 3) (.cst _ 7 rfl)))
        (.bin _ _ _ 5 2 1 rfl (.node 2) (.bin _ _ _ 6 7 2 rfl (.node 3) (.cst _ 7 rfl)))
    · intro i h1 h2
      have hf := (forward_reach mixG'.gr (mixG'.gok mix_sorted') [0] _ rfl i).2 ⟨0, by simp, h1⟩
      have hb := (backward_reach mixG'.gr (mixG'.gok mix_sorted') (fun _ => 2) [6] _ rfl i).2 h2
      match i with
      | 0 | 1 | 2 | 6 | 7 => rfl
      | 3 => cases hf
      | 4 => cases hf
      | 5 => cases hb
      | i + 8 => simp [mixD, upd]
    · constructor
      · intro i u a h
        match i with
        | 0 | 1 | 2 | 3 | 4 | 5 | 6 | 7 => cases h
        | i + 8 => simp [mixG'] at h
      · intro i b a c h
        match i with
        | 0 | 1 | 2 | 3 | 4 | 5 | 6 | 7 => cases h <;> trivial
        | i + 8 => simp [mixG'] at h
    · refine Filter.Eventually.of_forall fun s => ?_
      constructor
      · intro i u a h
        match i with
        | 0 | 1 | 2 | 3 => cases h
        | i + 4 => simp [mixG] at h
      · intro i b a c h
        match i with
        | 0 | 1 | 2 | 3 => cases h <;> trivial
        | i + 4 => simp [mixG] at h

end Verif.AD
