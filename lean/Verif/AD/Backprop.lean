import Mathlib.Analysis.InnerProductSpace.Basic
/-!
`Backpropagate`: reverse-mode symbolic differentiation of a graph.

The nodes of the graph are numbered in the order of `Sort`: users before operands, roots first. Gradient expressions are
elements of a type `T`; what matters about them is what the ops' `SymDiff` and `ReduceAdd` build.
-/
set_option autoImplicit false
namespace Verif.AD

/-- A node as far as differentiation is concerned: whether it is an input (node.go 323), a statement, its operands, and
`DiffWRT` of its op (empty if the op is not an `SDOp`, node.go 856-861). -/
structure GNode where
  input : Bool := false
  stmt : Bool := false
  children : List Nat := []
  diffs : List Bool := []
  deriving Repr

abbrev Gr := List GNode

def Gr.node (G : Gr) (i : Nat) : GNode := G.getD i {}

/-- Function update. -/
def upd {α : Type} (f : Nat → α) (i : Nat) (v : α) : Nat → α := fun j => if j = i then v else f j

/-- One round of the loop in `forwardDiffAnalysis` (differentiation.go 35-45). `diffs[j]` of an op that is not an `SDOp`
is out of range and panics: `none`. -/
def fwdStep (G : Gr) (S : Nat → Bool) (i : Nat) : Option (Nat → Bool) :=
  let nd := G.node i
  if S i = true ∧ nd.input = false then
    if nd.children.length ≤ nd.diffs.length then
      some ((nd.children.zip nd.diffs).foldl (fun S cd => if cd.2 then upd S cd.1 true else S) S)
    else none
  else some S

/-- `forwardDiffAnalysis` (differentiation.go 21-47). -/
def forward (G : Gr) (outs : List Nat) : Option (Nat → Bool) :=
  (List.range G.length).foldlM (fwdStep G) (fun i => decide (i ∈ outs))

/-- One round of the loop in `backwardDiffAnalysis` (differentiation.go 64-117). `users` is the number of parents of a
node in the graph. -/
def bwdStep (G : Gr) (users : Nat → Nat) (S : Nat → Bool) (i : Nat) : Option (Nat → Bool) :=
  let nd := G.node i
  if nd.diffs = [] then
    if nd.stmt = true ∨ nd.input = true ∨ nd.children = [] then some S
    else if nd.children.any (fun c => users c = 1 ∧ (G.node c).children ≠ []) then none
    else some S
  else if nd.children.length ≤ nd.diffs.length then
    if (nd.children.zip nd.diffs).any (fun cd => S cd.1 && cd.2) then some (upd S i true) else some S
  else none

/-- `backwardDiffAnalysis` (differentiation.go 51-121). -/
def backward (G : Gr) (users : Nat → Nat) (wrt : List Nat) : Option (Nat → Bool) :=
  (List.range G.length).reverse.foldlM (bwdStep G users) (fun i => decide (i ∈ wrt))

section
variable {T : Type}

/-- `nodeGradMap` and the `deriv` fields of the nodes. -/
structure BP (T : Type) where
  gm : Nat → List T
  deriv : Nat → Option T

/-- The loop over the operands (differentiation.go 288-309). -/
def push (gm : Nat → List T) : List Nat → List Bool → List T → Option (Nat → List T)
  | [], _, _ => some gm
  | c :: cs, d :: ds, t :: ts => push (if d then upd gm c (gm c ++ [t]) else gm) cs ds ts
  | _ :: _, _, _ => none

/-- The switch over the number of gradients found for a node (differentiation.go 230-262). -/
def collect (reduceAdd : List T → Option T) : List T → Option T
  | [] => none
  | [g] => some g
  | l => reduceAdd l

/-- One round of the main loop of `Backpropagate` (differentiation.go 213-317). -/
def bpStep (G : Gr) (active : Nat → Bool) (symDiff : Nat → T → Option (List T)) (reduceAdd : List T → Option T)
    (s : BP T) (i : Nat) : Option (BP T) :=
  if active i = false then some s
  else match s.deriv i with
    | some d => some { s with gm := upd s.gm i (s.gm i ++ [d]) }
    | none =>
      match collect reduceAdd (s.gm i) with
      | none => none
      | some g =>
        let s : BP T := { gm := upd s.gm i [g], deriv := upd s.deriv i (some g) }
        if (G.node i).input then some s
        else match symDiff i g with
          | none => none
          | some ts => match push s.gm (G.node i).children (G.node i).diffs ts with
            | none => none
            | some gm => some { s with gm := gm }

/-- `Backpropagate` (differentiation.go 133-332), after the removal of lonely nodes and sorting. `deriv` are the `deriv`
fields of the nodes before the call. Result: the gradients of `wrt` and the `deriv` fields after the call. -/
def backprop (G : Gr) (users : Nat → Nat) (symDiff : Nat → T → Option (List T)) (reduceAdd : List T → Option T)
    (deriv : Nat → Option T) (outs : List (Nat × T)) (wrt : List Nat) : Option (List T × (Nat → Option T)) := do
  let F ← forward G (outs.map (·.1))
  let B ← backward G users wrt
  if wrt.all F = false then none
  else if (outs.map (·.1)).all B = false then none
  else
    let gm := outs.foldl (fun gm o => upd gm o.1 [o.2]) (fun _ => [])
    let s ← (List.range G.length).foldlM (bpStep G (fun i => F i && B i) symDiff reduceAdd) ⟨gm, deriv⟩
    let res ← wrt.mapM fun w => (s.gm w).head?
    some (res, s.deriv)

end

/-! ### The two analyses -/

/-- A graph in the order of `Sort`; inputs have no operands; `DiffWRT` answers for every operand. -/
structure GOK (G : Gr) : Prop where
  after : ∀ i, i < G.length → ∀ c ∈ (G.node i).children, i < c ∧ c < G.length
  leaf : ∀ i, (G.node i).input = true → (G.node i).children = []

/-- `c` is an operand of `i` with respect to which the op of `i` is differentiable. -/
def Dep (G : Gr) (i c : Nat) : Prop := (c, true) ∈ (G.node i).children.zip (G.node i).diffs

theorem Dep.mem {G : Gr} {i c : Nat} (h : Dep G i c) : c ∈ (G.node i).children := (List.of_mem_zip h).1

theorem node_out {G : Gr} {i : Nat} (h : G.length ≤ i) : G.node i = {} := by
  simp [Gr.node, List.getElem?_eq_none h]

theorem Dep.lt {G : Gr} (W : GOK G) {i c : Nat} (h : Dep G i c) : i < c ∧ c < G.length := by
  rcases Nat.lt_or_ge i G.length with hi | hi
  · exact W.after i hi c h.mem
  · unfold Dep at h; rw [node_out hi] at h; simp at h

theorem fold_add (l : List (Nat × Bool)) (S : Nat → Bool) (j : Nat) :
    (l.foldl (fun S cd => if cd.2 then upd S cd.1 true else S) S) j = true ↔ S j = true ∨ (j, true) ∈ l := by
  induction l generalizing S with
  | nil => simp
  | cons cd l ih =>
    rw [List.foldl_cons, ih]
    obtain ⟨c, d⟩ := cd
    cases d with
    | false => simp
    | true =>
      simp only [↓reduceIte, upd, List.mem_cons, Prod.mk.injEq, and_true]
      by_cases h : j = c <;> simp [h]

/-- The forward set: the least set that contains the outputs and is closed under differentiable operands. -/
theorem forward_spec (G : Gr) (W : GOK G) (outs : List Nat) (F : Nat → Bool) (h : forward G outs = some F) :
    (∀ o ∈ outs, F o = true) ∧
    (∀ i, i < G.length → F i = true → ∀ c, Dep G i c → F c = true) ∧
    (∀ j, F j = true → j ∈ outs ∨ ∃ i, i < G.length ∧ F i = true ∧ Dep G i j) := by
  have key : ∀ k S, k ≤ G.length → (List.range k).foldlM (fwdStep G) (fun i => decide (i ∈ outs)) = some S →
      (∀ o ∈ outs, S o = true) ∧ (∀ i, i < k → S i = true → ∀ c, Dep G i c → S c = true) ∧
      (∀ j, S j = true → j ∈ outs ∨ ∃ i, i < k ∧ S i = true ∧ Dep G i j) := by
    intro k
    induction k with
    | zero =>
      intro S _ h
      simp only [List.range_zero, List.foldlM_nil] at h
      injection h with h; subst h
      exact ⟨fun o ho => by simpa using ho, fun i hi => by omega, fun j hj => .inl (by simpa using hj)⟩
    | succ k ih =>
      intro S hk h
      rw [List.range_succ, List.foldlM_append] at h
      cases h1 : (List.range k).foldlM (fwdStep G) (fun i => decide (i ∈ outs)) with
      | none => rw [h1] at h; cases h
      | some S1 =>
        rw [h1] at h
        have h2 : fwdStep G S1 k = some S := by
          have h2 : (fwdStep G S1 k).bind some = some S := by simpa using h
          simpa using h2
        obtain ⟨i1, i2, i3⟩ := ih S1 (by omega) h1
        unfold fwdStep at h2
        simp only at h2
        by_cases hc : S1 k = true ∧ (G.node k).input = false
        · rw [if_pos hc] at h2
          split at h2
          · injection h2 with h2
            have hS : ∀ j, S j = true ↔ S1 j = true ∨ Dep G k j := by
              intro j; rw [← h2]; exact fold_add _ _ _
            refine ⟨fun o ho => (hS o).2 (.inl (i1 o ho)), ?_, ?_⟩
            · intro i hi hSi c hd
              rw [hS]
              rcases (hS i).1 hSi with hSi | hdk
              · rcases Nat.lt_or_ge i k with hik | hik
                · exact .inl (i2 i hik hSi c hd)
                · have : i = k := by omega
                  subst this; exact .inr hd
              · have := (hdk.lt W).1; omega
            · intro j hj
              rcases (hS j).1 hj with hj | hj
              · rcases i3 j hj with h | ⟨i, a, b, c⟩
                · exact .inl h
                · exact .inr ⟨i, by omega, (hS i).2 (.inl b), c⟩
              · exact .inr ⟨k, by omega, (hS k).2 (.inl hc.1), hj⟩
          · cases h2
        · rw [if_neg hc] at h2
          injection h2 with h2; subst h2
          refine ⟨i1, ?_, ?_⟩
          · intro i hi hSi c hd
            rcases Nat.lt_or_ge i k with hik | hik
            · exact i2 i hik hSi c hd
            · have : i = k := by omega
              subst this
              exfalso
              apply hc
              refine ⟨hSi, ?_⟩
              cases hin : (G.node i).input with
              | false => rfl
              | true => have := hd.mem; rw [W.leaf i hin] at this; simp at this
          · intro j hj
            rcases i3 j hj with h | ⟨i, a, b, c⟩
            · exact .inl h
            · exact .inr ⟨i, by omega, b, c⟩
  exact key G.length F (Nat.le_refl _) h

/-- The backward set: the least set that contains `wrt` and every node with a differentiable operand in the set. -/
theorem backward_spec (G : Gr) (W : GOK G) (users : Nat → Nat) (wrt : List Nat) (B : Nat → Bool)
    (h : backward G users wrt = some B) :
    (∀ w ∈ wrt, B w = true) ∧
    (∀ i, i < G.length → ∀ c, Dep G i c → B c = true → B i = true) ∧
    (∀ j, B j = true → j ∈ wrt ∨ ∃ c, Dep G j c ∧ B c = true) := by
  have key : ∀ k S, k ≤ G.length →
      ((List.range G.length).reverse.take k).foldlM (bwdStep G users) (fun i => decide (i ∈ wrt)) = some S →
      (∀ w ∈ wrt, S w = true) ∧ (∀ i, G.length - k ≤ i → i < G.length → ∀ c, Dep G i c → S c = true → S i = true) ∧
      (∀ j, S j = true → j ∈ wrt ∨ ∃ c, Dep G j c ∧ S c = true) := by
    intro k
    induction k with
    | zero =>
      intro S _ h
      simp only [List.take_zero, List.foldlM_nil] at h
      injection h with h; subst h
      exact ⟨fun o ho => by simpa using ho, fun i hi hi' => by omega, fun j hj => .inl (by simpa using hj)⟩
    | succ k ih =>
      intro S hk h
      have hlt : k < (List.range G.length).reverse.length := by simp; omega
      rw [List.take_succ_eq_append_getElem hlt, List.foldlM_append] at h
      have hget : (List.range G.length).reverse[k] = G.length - 1 - k := by simp
      rw [hget] at h
      set n := G.length - 1 - k with hn
      cases h1 : ((List.range G.length).reverse.take k).foldlM (bwdStep G users) (fun i => decide (i ∈ wrt)) with
      | none => rw [h1] at h; cases h
      | some S1 =>
        rw [h1] at h
        have h2 : bwdStep G users S1 n = some S := by
          have h2 : (bwdStep G users S1 n).bind some = some S := by simpa using h
          simpa using h2
        obtain ⟨i1, i2, i3⟩ := ih S1 (by omega) h1
        -- either the set is unchanged and no operand is in it, or the node is added
        have hcase : (S = S1 ∧ ∀ c, Dep G n c → S1 c = false) ∨ (S = upd S1 n true ∧ ∃ c, Dep G n c ∧ S1 c = true) := by
          unfold bwdStep at h2
          simp only at h2
          split at h2
          · rename_i hd
            have hno : ∀ c, Dep G n c → S1 c = false := by
              intro c hc; unfold Dep at hc; rw [hd] at hc; simp at hc
            split at h2
            · injection h2 with h2; exact .inl ⟨h2.symm, hno⟩
            · split at h2
              · cases h2
              · injection h2 with h2; exact .inl ⟨h2.symm, hno⟩
          · split at h2
            · split at h2
              · rename_i hany
                injection h2 with h2
                right
                refine ⟨h2.symm, ?_⟩
                rw [List.any_eq_true] at hany
                obtain ⟨⟨c, d⟩, hm, hcd⟩ := hany
                simp only [Bool.and_eq_true] at hcd
                obtain ⟨hsc, hcd⟩ := hcd
                subst hcd
                exact ⟨c, hm, hsc⟩
              · rename_i hany
                injection h2 with h2
                left
                refine ⟨h2.symm, fun c hc => ?_⟩
                rw [List.any_eq_true] at hany
                cases hs : S1 c with
                | false => rfl
                | true => exact absurd ⟨(c, true), hc, by simp [hs]⟩ hany
            · cases h2
        rcases hcase with ⟨rfl, hno⟩ | ⟨rfl, hex⟩
        · refine ⟨i1, ?_, i3⟩
          intro i hi hi' c hd hS
          rcases Nat.lt_or_ge i (n + 1) with h' | h'
          · have : i = n := by omega
            subst this
            rw [hno c hd] at hS; cases hS
          · exact i2 i (by omega) hi' c hd hS
        · have hup : ∀ j, upd S1 n true j = true ↔ j = n ∨ S1 j = true := by
            intro j; unfold upd; by_cases e : j = n <;> simp [e]
          refine ⟨fun w hw => (hup w).2 (.inr (i1 w hw)), ?_, ?_⟩
          · intro i hi hi' c hd hS
            rw [hup]
            rcases Nat.lt_or_ge i (n + 1) with h' | h'
            · left; omega
            · right
              rcases (hup c).1 hS with e | hS
              · have := (hd.lt W).1; omega
              · exact i2 i (by omega) hi' c hd hS
          · intro j hj
            rcases (hup j).1 hj with e | hj
            · subst e
              obtain ⟨c, h1, h2⟩ := hex
              exact .inr ⟨c, h1, (hup c).2 (.inr h2)⟩
            · rcases i3 j hj with h | ⟨c, h1, h2⟩
              · exact .inl h
              · exact .inr ⟨c, h1, (hup c).2 (.inr h2)⟩
  have ht : (List.range G.length).reverse.take G.length = (List.range G.length).reverse := by
    rw [List.take_of_length_le]; simp
  obtain ⟨a, b, c⟩ := key G.length B (Nat.le_refl _) (by rw [ht]; exact h)
  exact ⟨a, fun i hi => b i (by omega) hi, c⟩

/-- A path of differentiable operands. -/
def Reach (G : Gr) : Nat → Nat → Prop := Relation.ReflTransGen (Dep G)

/-- The forward set is what the outputs reach. -/
theorem forward_reach (G : Gr) (W : GOK G) (outs : List Nat) (F : Nat → Bool) (h : forward G outs = some F) (j : Nat) :
    F j = true ↔ ∃ o ∈ outs, Reach G o j := by
  obtain ⟨F1, F2, F3⟩ := forward_spec G W outs F h
  constructor
  · intro hj
    have : ∀ m j, j ≤ m → F j = true → ∃ o ∈ outs, Reach G o j := by
      intro m
      induction m with
      | zero =>
        intro j hm hj
        rcases F3 j hj with ho | ⟨i, _, _, hd⟩
        · exact ⟨j, ho, .refl⟩
        · have := (hd.lt W).1; omega
      | succ m ih =>
        intro j hm hj
        rcases F3 j hj with ho | ⟨i, _, hi, hd⟩
        · exact ⟨j, ho, .refl⟩
        · have := (hd.lt W).1
          obtain ⟨o, ho, hr⟩ := ih i (by omega) hi
          exact ⟨o, ho, hr.tail hd⟩
    exact this j j (Nat.le_refl _) hj
  · rintro ⟨o, ho, hr⟩
    induction hr with
    | refl => exact F1 o ho
    | @tail b c _ hd ih =>
      have hb : b < G.length := by have := hd.lt W; omega
      exact F2 b hb ih c hd

/-- The backward set is what reaches `wrt`. -/
theorem backward_reach (G : Gr) (W : GOK G) (users : Nat → Nat) (wrt : List Nat) (B : Nat → Bool)
    (h : backward G users wrt = some B) (j : Nat) : B j = true ↔ ∃ w ∈ wrt, Reach G j w := by
  obtain ⟨B1, B2, B3⟩ := backward_spec G W users wrt B h
  constructor
  · intro hj
    have : ∀ m j, G.length - j ≤ m → B j = true → ∃ w ∈ wrt, Reach G j w := by
      intro m
      induction m with
      | zero =>
        intro j hm hj
        rcases B3 j hj with ho | ⟨c, hd, _⟩
        · exact ⟨j, ho, .refl⟩
        · have := hd.lt W; omega
      | succ m ih =>
        intro j hm hj
        rcases B3 j hj with ho | ⟨c, hd, hc⟩
        · exact ⟨j, ho, .refl⟩
        · have := hd.lt W
          obtain ⟨w, hw, hr⟩ := ih c (by omega) hc
          exact ⟨w, hw, .head hd hr⟩
    exact this _ j (Nat.le_refl _) hj
  · rintro ⟨w, hw, hr⟩
    induction hr using Relation.ReflTransGen.head_induction_on with
    | refl => exact B1 w hw
    | @head a c hd _ ih =>
      have hb : a < G.length := by have := hd.lt W; omega
      exact B2 a hb c hd ih

end Verif.AD
