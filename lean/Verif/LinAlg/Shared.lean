import Verif.LinAlg.Model
import Mathlib.Algebra.BigOperators.Group.Finset.Basic
import Mathlib.Algebra.Group.Nat.Even
import Mathlib.Algebra.Order.BigOperators.Group.List
import Mathlib.Tactic.NormNum
/-!
Products of matrices that are held in memory (C101): `linAlgBinOp.do` (op_math.go 745-795) transposes an operand that carries
a transposition flag in place, multiplies, and transposes it back. Operands may be the same tensor, and several goroutines may
run such products at the same time (`computeFwd` of x/vm/node.go 69-77 calls `Do` on values that all readers share).

Simplified: a transposition, the product and the transposition back are one step each, so that goroutines interleave between
them only. In the code `T` consists of several unsynchronised writes, so there are even more interleavings.
-/
set_option autoImplicit false
namespace Verif.LinAlg
open Function

noncomputable section

/-- The tensors in memory, as they are seen at the moment. -/
abbrev Mem := Nat → M

/-- One step of `linAlgBinOp.do`. -/
inductive Act where
  /-- `T()` on the tensor at this address; also the deferred one (op_math.go 752-768) -/
  | tr (p : Nat)
  /-- `tensor.MatMul` (op_math.go 771-772), the result is stored for the goroutine -/
  | mul (a b : Nat)
  deriving DecidableEq

/-- A product to be computed: flags and addresses of the operands. -/
structure Job where
  tA : Bool
  tB : Bool
  a : Nat
  b : Nat

/-- `linAlgBinOp.do` for `matMulOperator`, op_math.go 750-795; deferred calls run in reverse order. -/
def Job.prog (j : Job) : List Act :=
  (if j.tA then [.tr j.a] else []) ++ (if j.tB then [.tr j.b] else []) ++ [.mul j.a j.b]
    ++ (if j.tB then [.tr j.b] else []) ++ (if j.tA then [.tr j.a] else [])

/-- Memory and, per goroutine, the result (`none`: not computed yet; `some none`: an error). -/
structure State where
  mem : Mem
  res : Nat → Option (Option M)

def step (s : State) : Nat × Act → State
  | (_, .tr p) => { s with mem := update s.mem p (s.mem p).T }
  | (i, .mul a b) => { s with res := update s.res i (some (matMul0 (s.mem a) (s.mem b))) }

def exec (m : Mem) (l : List (Nat × Act)) : State := l.foldl step ⟨m, fun _ => none⟩

/-- A list of steps is a schedule of the jobs: each goroutine does the steps of its job in order. -/
def Schedule (jobs : List Job) (l : List (Nat × Act)) : Prop :=
  (∀ x ∈ l, x.1 < jobs.length) ∧
    ∀ i (h : i < jobs.length), (l.filter fun x => x.1 == i).map (·.2) = jobs[i].prog

/-- One after the other. -/
def serial (jobs : List Job) : List (Nat × Act) := jobs.zipIdx.flatMap fun x => x.1.prog.map fun a => (x.2, a)

/-- What was asked for: the textbook product of the operands as they are in memory, transposed as the flags say. -/
def Job.asked (m : Mem) (j : Job) : Option M := matMul j.tA j.tB (m j.a) (m j.b)

/-! ### Parity of transpositions -/

def trs (p : Nat) (l : List (Nat × Act)) : Nat := l.countP fun x => x.2 == .tr p

theorem M.T_T (a : M) : a.T.T = a := rfl

theorem flip_T (t : Bool) (a : M) : (a.flip t).T = a.flip (!t) := by cases t <;> rfl

theorem foldl_mem (l : List (Nat × Act)) (s : State) (p : Nat) :
    (l.foldl step s).mem p = (s.mem p).flip (trs p l % 2 == 1) := by
  induction l generalizing s with
  | nil => rfl
  | cons x l ih =>
    obtain ⟨i, x⟩ := x
    rw [List.foldl_cons, ih]
    cases x with
    | mul a b =>
      have : trs p ((i, Act.mul a b) :: l) = trs p l := by simp [trs]
      rw [this]; rfl
    | tr q =>
      by_cases h : q = p
      · subst h
        have : trs q ((i, Act.tr q) :: l) = trs q l + 1 := by simp [trs]
        rw [this]
        simp only [step, update_self]
        by_cases h2 : trs q l % 2 = 1
        · have : ¬ (trs q l + 1) % 2 = 1 := by omega
          simp [h2, this, M.flip, M.T_T]
        · have h3 : (trs q l + 1) % 2 = 1 := by omega
          simp [h2, h3, M.flip]
      · have : trs p ((i, Act.tr q) :: l) = trs p l := by simp [trs, h]
        rw [this]
        simp [step, update_of_ne (Ne.symm h)]

/-- The transpositions of a schedule are those of the goroutines. -/
theorem countP_tags (q : Nat × Act → Bool) (l : List (Nat × Act)) (n : Nat) (h : ∀ x ∈ l, x.1 < n) :
    l.countP q = ∑ i ∈ Finset.range n, (l.filter fun x => x.1 == i).countP q := by
  induction l with
  | nil => simp
  | cons x l ih =>
    rw [List.countP_cons, ih fun y hy => h y (List.mem_cons_of_mem _ hy)]
    have hx := h x (List.mem_cons_self ..)
    have : (if q x = true then 1 else 0) = ∑ i ∈ Finset.range n, if i = x.1 then (if q x = true then 1 else 0) else 0 := by
      rw [Finset.sum_ite_eq' (Finset.range n) x.1]; simp [hx]
    rw [this, ← Finset.sum_add_distrib]
    refine Finset.sum_congr rfl fun i _ => ?_
    by_cases hi : x.1 = i
    · simp [hi, List.countP_cons]
    · have : ¬ i = x.1 := fun e => hi e.symm
      simp [hi, this]

theorem trs_prog (p i : Nat) (j : Job) : (j.prog.map fun a => (i, a)).countP (fun x => x.2 == .tr p) % 2 = 0 := by
  obtain ⟨tA, tB, a, b⟩ := j
  cases tA <;> cases tB <;> simp [Job.prog, List.countP_cons] <;> (try split) <;> (try split) <;> omega

theorem sum_even (n : Nat) (f : Nat → Nat) (h : ∀ i, i < n → f i % 2 = 0) : (∑ i ∈ Finset.range n, f i) % 2 = 0 := by
  induction n with
  | zero => simp
  | succ n ih =>
    rw [Finset.sum_range_succ]
    have := ih fun i hi => h i (by omega)
    have := h n (by omega)
    omega

theorem filter_tag {l : List (Nat × Act)} (i : Nat) :
    l.filter (fun x => x.1 == i) = ((l.filter fun x => x.1 == i).map (·.2)).map fun a => (i, a) := by
  rw [List.map_map]
  conv_lhs => rw [← List.map_id (l.filter fun x => x.1 == i)]
  refine List.map_congr_left fun x hx => ?_
  have : x.1 = i := by simpa using (List.mem_filter.1 hx).2
  rw [← this]; rfl

/-! ### Every schedule leaves the operands as they were -/

/-- Whatever the jobs share and in whatever order they run: at the end every tensor is as it was. -/
theorem operands_restored (jobs : List Job) (l : List (Nat × Act)) (h : Schedule jobs l) (m : Mem) (p : Nat) :
    (exec m l).mem p = m p := by
  unfold exec
  rw [foldl_mem]
  have : trs p l % 2 = 0 := by
    unfold trs
    rw [countP_tags _ l jobs.length h.1]
    refine sum_even _ _ fun i hi => ?_
    rw [filter_tag, h.2 i hi]
    exact trs_prog p i _
  simp [this, M.flip]

/-! ### Results -/

theorem foldl_res_other (l : List (Nat × Act)) (s : State) (i : Nat) (h : ∀ x ∈ l, x.1 = i → ∀ a b, x.2 ≠ .mul a b) :
    (l.foldl step s).res i = s.res i := by
  induction l generalizing s with
  | nil => rfl
  | cons x l ih =>
    obtain ⟨k, x⟩ := x
    rw [List.foldl_cons, ih _ fun y hy => h y (List.mem_cons_of_mem _ hy)]
    cases x with
    | tr q => rfl
    | mul a b =>
      have : k ≠ i := fun e => h (k, .mul a b) (List.mem_cons_self ..) e a b rfl
      simp [step, update_of_ne this.symm]

/-- The result is computed from the operands as they happen to be at that moment. -/
theorem exec_res (m : Mem) (l1 l2 : List (Nat × Act)) (i a b : Nat) (h : ∀ x ∈ l2, x.1 = i → ∀ a b, x.2 ≠ .mul a b) :
    (exec m (l1 ++ (i, .mul a b) :: l2)).res i =
      some (matMul0 ((m a).flip (trs a l1 % 2 == 1)) ((m b).flip (trs b l1 % 2 == 1))) := by
  unfold exec
  rw [List.foldl_append, List.foldl_cons, foldl_res_other _ _ _ h]
  simp only [step, update_self, foldl_mem]

/-- The steps of a job before and after its product. -/
theorem prog_split (j : Job) :
    j.prog = ((if j.tA then [.tr j.a] else []) ++ (if j.tB then [.tr j.b] else [])) ++
      (.mul j.a j.b :: ((if j.tB then [.tr j.b] else []) ++ (if j.tA then [.tr j.a] else []))) := by
  simp [Job.prog]

/-- In a schedule the product of goroutine `i` stands between its transpositions. -/
theorem schedule_split (jobs : List Job) (l : List (Nat × Act)) (h : Schedule jobs l) (i : Nat) (hi : i < jobs.length) :
    ∃ l1 l2, l = l1 ++ (i, .mul jobs[i].a jobs[i].b) :: l2 ∧
      (l1.filter fun x => x.1 == i).map (·.2) =
        (if jobs[i].tA then [.tr jobs[i].a] else []) ++ (if jobs[i].tB then [.tr jobs[i].b] else []) ∧
      (l2.filter fun x => x.1 == i).map (·.2) =
        (if jobs[i].tB then [.tr jobs[i].b] else []) ++ (if jobs[i].tA then [.tr jobs[i].a] else []) := by
  have h2 := h.2 i hi
  rw [prog_split] at h2
  obtain ⟨k1, k2, hk, e1, e2⟩ := List.map_eq_append_iff.1 h2
  obtain ⟨l1, l2, rfl, f1, f2⟩ := List.filter_eq_append_iff.1 hk
  obtain ⟨y, k3, rfl, ey, e3⟩ := List.map_eq_cons_iff.1 e2
  obtain ⟨l3, l4, rfl, f3, f4, f5⟩ := List.filter_eq_cons_iff.1 f2
  refine ⟨l1 ++ l3, l4, ?_, ?_, ?_⟩
  · have : y = (i, .mul jobs[i].a jobs[i].b) := by
      have : y.1 = i := by simpa using f4
      rw [← ey, ← this]
    simp [this]
  · have : l3.filter (fun x => x.1 == i) = [] := by
      rw [List.filter_eq_nil_iff]; exact f3
    rw [List.filter_append, this, f1, List.append_nil, e1]
  · rw [f5, e3]

theorem no_mul_after {l : List (Nat × Act)} {i : Nat} {j : Job}
    (h : (l.filter fun x => x.1 == i).map (·.2) = (if j.tB then [.tr j.b] else []) ++ (if j.tA then [.tr j.a] else [])) :
    ∀ x ∈ l, x.1 = i → ∀ a b, x.2 ≠ .mul a b := by
  intro x hx e a b he
  have : x.2 ∈ (l.filter fun x => x.1 == i).map (·.2) :=
    List.mem_map.2 ⟨x, List.mem_filter.2 ⟨hx, by simpa using e⟩, rfl⟩
  rw [h, he] at this
  cases hA : j.tA <;> cases hB : j.tB <;> simp [hA, hB] at this

/-- No goroutine but `i` transposes the tensor at `p`. -/
def Only (jobs : List Job) (i p : Nat) : Prop := ∀ k, ∀ h : k < jobs.length, k ≠ i → .tr p ∉ jobs[k].prog

theorem trs_own {jobs : List Job} {l1 l2 : List (Nat × Act)} {x : Nat × Act} (h : Schedule jobs (l1 ++ x :: l2)) {i p : Nat}
    (ho : Only jobs i p) : trs p l1 = ((l1.filter fun x => x.1 == i).map (·.2)).countP (· == .tr p) := by
  rw [trs, List.countP_map, List.countP_filter]
  refine List.countP_congr fun y hy => ?_
  simp only [Function.comp, Bool.and_eq_true, beq_iff_eq]
  refine ⟨fun e => ⟨e, ?_⟩, fun e => e.1⟩
  by_contra hne
  have hlt : y.1 < jobs.length := h.1 y (by simp [hy])
  refine ho y.1 hlt hne ?_
  rw [← h.2 y.1 hlt, List.mem_map]
  exact ⟨y, List.mem_filter.2 ⟨by simp [hy], by simp⟩, e⟩

/-- A product of two different tensors that nobody else transposes meanwhile is the one that was asked for, in every
schedule, whatever the others do. -/
theorem product_right (jobs : List Job) (l : List (Nat × Act)) (h : Schedule jobs l) (m : Mem) (i : Nat)
    (hi : i < jobs.length) (hab : jobs[i].a ≠ jobs[i].b) (ha : Only jobs i jobs[i].a) (hb : Only jobs i jobs[i].b) :
    (exec m l).res i = some (jobs[i].asked m) := by
  obtain ⟨l1, l2, rfl, e1, e2⟩ := schedule_split jobs l h i hi
  rw [exec_res m l1 l2 i _ _ (no_mul_after e2), trs_own h ha, trs_own h hb, e1]
  generalize jobs[i] = j at *
  obtain ⟨tA, tB, a, b⟩ := j
  have hba : ¬ b = a := fun e => hab e.symm
  have hab' : ¬ a = b := hab
  cases tA <;> cases tB <;> simp [Job.asked, matMul, M.flip, List.countP_cons, hba, hab']

/-- The same tensor on both sides: each flag transposes both operands, so that with one flag the product of the transposed
tensor with itself comes out, and with both flags the plain square. -/
theorem product_same (jobs : List Job) (l : List (Nat × Act)) (h : Schedule jobs l) (m : Mem) (i : Nat)
    (hi : i < jobs.length) (hab : jobs[i].a = jobs[i].b) (ha : Only jobs i jobs[i].a) :
    (exec m l).res i = some (matMul (jobs[i].tA ^^ jobs[i].tB) (jobs[i].tA ^^ jobs[i].tB) (m jobs[i].a) (m jobs[i].a)) := by
  obtain ⟨l1, l2, rfl, e1, e2⟩ := schedule_split jobs l h i hi
  rw [exec_res m l1 l2 i _ _ (no_mul_after e2), ← hab, trs_own h ha, e1]
  generalize jobs[i] = j at *
  obtain ⟨tA, tB, a, b⟩ := j
  simp only at hab
  subst hab
  cases tA <;> cases tB <;> simp [matMul, M.flip, List.countP_cons]

/-! ### Serial execution -/

theorem filter_serial_aux (jobs : List Job) (k i : Nat) :
    (((jobs.zipIdx k).flatMap fun x => x.1.prog.map fun a => (x.2, a)).filter fun x => x.1 == i).map (·.2) =
      if h : k ≤ i ∧ i < k + jobs.length then jobs[i - k].prog else [] := by
  induction jobs generalizing k with
  | nil => simp
  | cons j jobs ih =>
    rw [List.zipIdx_cons, List.flatMap_cons, List.filter_append, List.map_append, ih]
    by_cases hk : k = i
    · subst hk
      have : (List.map (fun a => (k, a)) j.prog).filter (fun x => x.1 == k) = List.map (fun a => (k, a)) j.prog := by
        rw [List.filter_eq_self]; intro x hx; obtain ⟨a, _, rfl⟩ := List.mem_map.1 hx; simp
      simp only [this]
      rw [dif_neg (by omega), dif_pos ⟨le_refl _, by simp⟩]
      simp [List.map_map, Function.comp_def]
    · have : (List.map (fun a => (k, a)) j.prog).filter (fun x => x.1 == i) = [] := by
        rw [List.filter_eq_nil_iff]; intro x hx; obtain ⟨a, _, rfl⟩ := List.mem_map.1 hx; simpa using hk
      simp only [this]
      by_cases hi : k + 1 ≤ i ∧ i < k + 1 + jobs.length
      · rw [dif_pos hi, dif_pos ⟨by omega, by simp; omega⟩]
        obtain ⟨n, rfl⟩ : ∃ n, i = k + 1 + n := ⟨i - (k + 1), by omega⟩
        simp [show k + 1 + n - k = n + 1 by omega]
      · rw [dif_neg hi, dif_neg (by simp; omega)]; rfl

/-- Running one after the other is a schedule. -/
theorem serial_schedule (jobs : List Job) : Schedule jobs (serial jobs) := by
  refine ⟨fun x hx => ?_, fun i hi => ?_⟩
  · obtain ⟨y, hy, hx⟩ := List.mem_flatMap.1 hx
    obtain ⟨a, _, rfl⟩ := List.mem_map.1 hx
    have := List.snd_lt_of_mem_zipIdx hy
    simpa using this
  · have := filter_serial_aux jobs 0 i
    rw [serial, this, dif_pos ⟨by omega, by omega⟩]; rfl

theorem trs_flatMap (p k : Nat) (jobs : List Job) :
    trs p ((jobs.zipIdx k).flatMap fun x => x.1.prog.map fun a => (x.2, a)) % 2 = 0 := by
  induction jobs generalizing k with
  | nil => rfl
  | cons j jobs ih =>
    have h1 := ih (k + 1)
    have h2 := trs_prog p k j
    rw [List.zipIdx_cons, List.flatMap_cons]
    simp only [trs, List.countP_append] at *
    omega

/-- One after the other, every product of two different tensors is the one that was asked for, whatever is shared. -/
theorem serial_right (jobs : List Job) (m : Mem) (i : Nat) (hi : i < jobs.length) (hab : jobs[i].a ≠ jobs[i].b) :
    (exec m (serial jobs)).res i = some (jobs[i].asked m) := by
  have hd : jobs = jobs.take i ++ jobs[i] :: jobs.drop (i + 1) := by simp
  generalize hJ : jobs[i] = J at *
  have hser : serial jobs =
      ((((jobs.take i).zipIdx 0).flatMap fun x => x.1.prog.map fun a => (x.2, a)) ++
        (((if J.tA then [Act.tr J.a] else []) ++ (if J.tB then [Act.tr J.b] else [])).map fun a => (i, a))) ++
      (i, .mul J.a J.b) ::
        ((((if J.tB then [Act.tr J.b] else []) ++ (if J.tA then [Act.tr J.a] else [])).map fun a => (i, a)) ++
          (((jobs.drop (i + 1)).zipIdx (i + 1)).flatMap fun x => x.1.prog.map fun a => (x.2, a))) := by
    have e : min i jobs.length = i := by omega
    conv_lhs => rw [serial, hd, List.zipIdx_append, List.flatMap_append, List.zipIdx_cons, List.flatMap_cons, prog_split]
    simp [e]
  rw [hser, exec_res]
  · have h0 := fun p => trs_flatMap p 0 (jobs.take i)
    have hba : ¬ J.b = J.a := fun e => hab e.symm
    have hab' : ¬ J.a = J.b := hab
    have ha := h0 J.a
    have hb := h0 J.b
    unfold trs at *
    simp only [List.countP_append]
    generalize List.countP _ (List.flatMap _ ((jobs.take i).zipIdx 0)) = n1 at *
    generalize List.countP _ (List.flatMap _ ((jobs.take i).zipIdx 0)) = n2 at *
    cases hA : J.tA <;> cases hB : J.tB <;>
      simp [Job.asked, matMul, M.flip, hA, hB, List.countP_cons, hba, hab', ha, hb, Nat.add_mod]
  · intro x hx e a b he
    rcases List.mem_append.1 hx with hx | hx
    · obtain ⟨c, hc, rfl⟩ := List.mem_map.1 hx
      simp only at he
      subst he
      cases hA : J.tA <;> cases hB : J.tB <;> simp [hA, hB] at hc
    · obtain ⟨y, hy, hx⟩ := List.mem_flatMap.1 hx
      obtain ⟨c, _, rfl⟩ := List.mem_map.1 hx
      have := List.le_snd_of_mem_zipIdx hy
      simp only at e
      omega

/-! ### Overlapping goroutines -/

/-- Two products with the same transposed operand `x`, as the gradients of `x·u` and `x·w` for `u` and `w` are
(`matMulDiffExpr`, operatorLinAlg.go 86-97). -/
def twoGrads : List Job := [⟨true, false, 0, 1⟩, ⟨true, false, 0, 2⟩]

/-- Both transpose, both multiply, both transpose back. -/
def overlap : List (Nat × Act) := [(0, .tr 0), (1, .tr 0), (0, .mul 0 1), (1, .mul 0 2), (0, .tr 0), (1, .tr 0)]

theorem overlap_schedule : Schedule twoGrads overlap := by
  refine ⟨by simp [twoGrads, overlap], ?_⟩
  intro i hi
  have : i = 0 ∨ i = 1 := by simp [twoGrads] at hi; omega
  rcases this with rfl | rfl <;> rfl

/-- Then both get the product with the operand that is not transposed. -/
theorem overlap_results (m : Mem) :
    (exec m overlap).res 0 = some (matMul false false (m 0) (m 1)) ∧
      (exec m overlap).res 1 = some (matMul false false (m 0) (m 2)) := by
  constructor
  · simp [exec, overlap, step, matMul, M.flip, M.T_T, update_apply]
  · simp [exec, overlap, step, matMul, M.flip, M.T_T, update_apply]

/-- The nilpotent matrix of size two. -/
def nil2 : M := ⟨2, 2, fun i j => if i = 0 ∧ j = 1 then 1 else 0⟩
/-- The first unit vector as a column. -/
def e1 : M := ⟨2, 1, fun i _ => if i = 0 then 1 else 0⟩

def exMem : Mem := fun p => if p = 0 then nil2 else e1

/-- So the result depends on the schedule: refutes schedule independence for products that share a transposed operand. -/
theorem schedule_dependent :
    ∃ (jobs : List Job) (l l' : List (Nat × Act)) (m : Mem), Schedule jobs l ∧ Schedule jobs l' ∧
      (∀ i (h : i < jobs.length), jobs[i].a ≠ jobs[i].b) ∧ (exec m l).res 0 ≠ (exec m l').res 0 := by
  refine ⟨twoGrads, serial twoGrads, overlap, exMem, serial_schedule _, overlap_schedule, ?_, ?_⟩
  · intro i hi
    have : i = 0 ∨ i = 1 := by simp [twoGrads] at hi; omega
    rcases this with rfl | rfl <;> simp [twoGrads]
  · rw [serial_right twoGrads exMem 0 (by simp [twoGrads]) (by simp [twoGrads]), (overlap_results exMem).1]
    intro h
    have := congrArg (fun o => (o.bind id).map fun a : M => a.f 1 0) h
    simp [Job.asked, twoGrads, matMul, matMul0, M.flip, M.T, exMem, nil2, e1, Finset.sum_range_succ] at this

/-- The same tensor twice with one flag: `xᵀ·x` is asked for, `xᵀ·xᵀ` is computed. -/
theorem same_operand_wrong :
    ∃ (j : Job) (m : Mem), j.a = j.b ∧ (exec m (serial [j])).res 0 ≠ some (j.asked m) := by
  refine ⟨⟨true, false, 0, 0⟩, exMem, rfl, ?_⟩
  rw [product_same [⟨true, false, 0, 0⟩] _ (serial_schedule _) exMem 0 (by simp) rfl (by intro k hk hne; simp at hk; omega)]
  intro h
  have := congrArg (fun o => (o.bind id).map fun a : M => a.f 1 1) h
  simp [Job.asked, matMul, matMul0, M.flip, M.T, exMem, nil2, Finset.sum_range_succ] at this

/-- For matrices that are not square the product of the same tensor with one flag cannot even be computed, although the
product asked for exists. -/
theorem same_operand_error (x : M) (hx : x.r ≠ x.c) (m : Mem) (hm : m 0 = x) :
    (exec m (serial [⟨true, false, 0, 0⟩])).res 0 = some none ∧ Job.asked m ⟨true, false, 0, 0⟩ ≠ none := by
  refine ⟨?_, ?_⟩
  · rw [product_same [⟨true, false, 0, 0⟩] _ (serial_schedule _) m 0 (by simp) rfl (by intro k hk hne; simp at hk; omega)]
    simp [matMul, matMul0, M.flip, M.T, hm, hx]
  · simp [Job.asked, matMul, matMul0, M.flip, M.T]

/-- Three goroutines with no common transposed operand in some schedule: the second result. -/
example (m : Mem) (l : List (Nat × Act)) (h : Schedule [⟨true, false, 0, 1⟩, ⟨false, true, 3, 2⟩, ⟨false, false, 1, 3⟩] l) :
    (exec m l).res 1 = some (matMul false true (m 3) (m 2)) := by
  refine product_right _ l h m 1 (by simp) (by simp) ?_ ?_ <;>
  · intro k hk hne
    have : k = 0 ∨ k = 2 := by simp at hk; omega
    rcases this with rfl | rfl <;> simp [Job.prog]

end
end Verif.LinAlg
