import Verif.Device.Flush
import Verif.BFC.Enough
/-!
The memory reserved on the device (CUDA build): the code generator adds up the sizes of the registers it allocates (`addInstr`, compile.go
148-216), the machine hands the sum to the engine (vm_tape_cuda.go 35, cuda.go 224-261), the engine reserves two and a half times the sum and
256 bytes more and makes an allocator with an alignment of 32 bytes (cuda/external.go 21, 117, 157-167), and `alloc` and `free` instructions
take memory from it and give it back (vm_tape.go 584-622, 639-653). One device. Left out: memory that an operation or the delivery of a
gradient takes for itself (vm_tape_cuda.go 183, cuda.go 183), which the sum does not count.
-/
set_option autoImplicit false
namespace Verif.Device
open Verif.BFC (Op Out asked rounded reserve codeThresh)

/-- `calcMemSize` (values.go 179-188) of a type with elements of `dt` bytes. -/
def calcMem (dt : Int) (shape : List Int) : Int := (if shape = [] then 1 else shape.prod) * dt

/-- What an instruction adds to the memory of the device (compile.go 159-211); `bytes` gives the size of the value of an entry. -/
def adds (P : DProg) (bytes : Nat → Int) (i : Nat) : Ins → Int
  | .alloc r => if r.dev = -1 then 0 else bytes i
  | .exec j => match (P.at j).cls with
    | .arg | .imm => if (P.reg j).dev = -1 then 0 else bytes j
    | _ => 0
  | _ => 0

/-- `gpumem` after code generation. -/
def gpuMem (P : DProg) (user : Nat → Nat) (bytes : Nat → Int) : Int :=
  (List.range P.length).foldl (fun m i => (entryIns P user (cgTo P user i) i).2.foldl (fun m x => m + adds P bytes i x) m) 0

/-- What `doInit` reserves (cuda/external.go 158, cuda/bfc.go 11-12). -/
def reserved (size : Int) : Int := 2 * size + size / 2 + 256

/-- The instructions of the program, each with the entry it belongs to. -/
def tagged (P : DProg) (user : Nat → Nat) : List (Nat × Ins) :=
  ((List.range P.length).flatMap fun i => (withFrees P user i).map fun x => (i, x)) ++
    (lastFrees P).map (fun r => (P.length, .free r)) ++ [(P.length, .flush)]

/-- The calls of the allocator that a run may make. An `alloc` of the device asks for the size of its entry unless its register has memory that
suits it; a `free` gives an address back. -/
inductive Calls (bytes : Nat → Int) : List (Nat × Ins) → List Op → Prop where
  | done : Calls bytes [] []
  | ask (i : Nat) (r : Reg) (l : List (Nat × Ins)) (ops : List Op) (h : r.dev ≠ -1) (hc : Calls bytes l ops) :
      Calls bytes ((i, .alloc r) :: l) (.alloc (bytes i) :: ops)
  | give (i : Nat) (r : Reg) (a : Int) (l : List (Nat × Ins)) (ops : List Op) (h : r.dev ≠ -1) (hc : Calls bytes l ops) :
      Calls bytes ((i, .free r) :: l) (.free a :: ops)
  | other (i : Nat) (x : Ins) (l : List (Nat × Ins)) (ops : List Op) (hc : Calls bytes l ops) : Calls bytes ((i, x) :: l) ops

/-- The size that an instruction can ask for. -/
def want (bytes : Nat → Int) : Nat × Ins → Option Int
  | (i, .alloc r) => if r.dev = -1 then none else some (bytes i)
  | _ => none

/-- The sizes of the registers on the device, in the order of their `alloc` instructions. -/
def devSizes (P : DProg) (user : Nat → Nat) (bytes : Nat → Int) : List Int := (tagged P user).filterMap (want bytes)

/-! ### What is asked for is counted -/

theorem calls_asked (bytes : Nat → Int) (l : List (Nat × Ins)) (ops : List Op) (h : Calls bytes l ops) :
    (asked ops).Sublist (l.filterMap (want bytes)) := by
  induction h with
  | done => exact List.Sublist.slnil
  | ask i r l ops h hc ih =>
    rw [List.filterMap_cons, show want bytes (i, .alloc r) = some (bytes i) from if_neg h]
    exact ih.cons_cons _
  | give i r a l ops h hc ih =>
    rw [List.filterMap_cons, show want bytes (i, .free r) = none from rfl]
    exact ih
  | other i x l ops hc ih =>
    rw [List.filterMap_cons]
    cases want bytes (i, x) with
    | none => exact ih
    | some v => exact ih.cons _

theorem foldl_add {α : Type} (g : α → Int) (l : List α) (m : Int) : l.foldl (fun m x => m + g x) m = m + (l.map g).sum := by
  induction l generalizing m with
  | nil => simp
  | cons x l ih => rw [List.foldl_cons, ih]; simp; omega

theorem want_le (P : DProg) (bytes : Nat → Int) (hb : ∀ i, 0 < bytes i) (i : Nat) (l : List Ins) :
    ((l.map fun x => (i, x)).filterMap (want bytes)).sum ≤ (l.map (adds P bytes i)).sum := by
  induction l with
  | nil => simp
  | cons x l ih =>
    simp only [List.map_cons, List.filterMap_cons, List.sum_cons]
    cases x with
    | alloc r =>
      simp only [want, adds]
      by_cases h : r.dev = -1
      · simp only [if_pos h]; omega
      · simp only [if_neg h, List.sum_cons]; omega
    | exec j =>
      simp only [want, adds]
      have := hb j
      split <;> (try split) <;> omega
    | flush => simp only [want, adds]; omega
    | free r => simp only [want, adds]; omega

theorem free_none (bytes : Nat → Int) (l : List (Nat × Ins)) (h : ∀ p ∈ l, ∀ r, p.2 ≠ .alloc r) : l.filterMap (want bytes) = [] := by
  rw [List.filterMap_eq_nil_iff]
  rintro ⟨i, x⟩ hp
  cases x with
  | alloc r => exact absurd rfl (h _ hp r)
  | _ => rfl

theorem counted (P : DProg) (user : Nat → Nat) (bytes : Nat → Int) (hb : ∀ i, 0 < bytes i) :
    (devSizes P user bytes).sum ≤ gpuMem P user bytes := by
  have key : ∀ (l : List Nat) (m : Int),
      m + ((l.flatMap fun i => (withFrees P user i).map fun x => (i, x)).filterMap (want bytes)).sum ≤
        l.foldl (fun m i => (entryIns P user (cgTo P user i) i).2.foldl (fun m x => m + adds P bytes i x) m) m := by
    intro l
    induction l with
    | nil => intro m; simp
    | cons i l ih =>
      intro m
      rw [List.foldl_cons, List.flatMap_cons, List.filterMap_append, List.sum_append]
      refine le_trans ?_ (ih _)
      rw [foldl_add]
      have h1 := want_le P bytes hb i (entryIns P user (cgTo P user i) i).2
      have h2 : ((withFrees P user i).map fun x => (i, x)).filterMap (want bytes) =
          ((entryIns P user (cgTo P user i) i).2.map fun x => (i, x)).filterMap (want bytes) := by
        have : ((((frees P).out.filter fun p => p.1 = i).map fun p => Ins.free p.2).map fun x => (i, x)).filterMap (want bytes) = [] :=
          free_none _ _ (by simp)
        rw [withFrees, List.map_append, List.filterMap_append, this, List.append_nil]
      rw [h2]
      omega
  unfold devSizes gpuMem tagged
  rw [List.filterMap_append, List.filterMap_append, free_none bytes (List.map _ (lastFrees P)) (by simp),
    free_none bytes [(P.length, Ins.flush)] (by simp), List.append_nil, List.append_nil]
  have := key (List.range P.length) 0
  omega

/-! ### The sum suffices -/

theorem rounded_pos {x : Int} (h : 0 < x) : 0 < rounded 32 x := by unfold rounded; omega

theorem sublist_rounded {xs ys : List Int} (h : xs.Sublist ys) (hp : ∀ y ∈ ys, 0 < y) : (xs.map (rounded 32)).sum ≤ (ys.map (rounded 32)).sum := by
  induction h with
  | slnil => simp
  | cons y h ih =>
    have := rounded_pos (hp y (by simp))
    have := ih fun z hz => hp z (by simp [hz])
    simp only [List.map_cons, List.sum_cons]; omega
  | cons_cons y h ih =>
    have := ih fun z hz => hp z (by simp [hz])
    simp only [List.map_cons, List.sum_cons]; omega

theorem rounded_sum (xs : List Int) (hp : ∀ x ∈ xs, 0 < x) : 2 * (xs.map (rounded 32)).sum ≤ 5 * xs.sum + 64 * (xs.countP (· < 13) : Nat) := by
  induction xs with
  | nil => simp
  | cons x xs ih =>
    have h1 := hp x (by simp)
    have h2 := ih fun y hy => hp y (by simp [hy])
    rw [List.countP_cons]
    simp only [List.map_cons, List.sum_cons]
    by_cases h : x < 13
    · have : 2 * rounded 32 x ≤ 64 := by unfold rounded; omega
      simp only [h, decide_true, if_true]
      omega
    · have : 2 * rounded 32 x ≤ 5 * x := by unfold rounded; omega
      simp only [h, decide_false]
      push_cast
      simp
      omega

theorem fits (P : DProg) (user : Nat → Nat) (bytes : Nat → Int) (hb : ∀ i, 0 < bytes i) (hs : (devSizes P user bytes).countP (· < 13) ≤ 8)
    (ops : List Op) (hc : Calls bytes (tagged P user) ops) :
    (∀ s ∈ asked ops, 0 < s) ∧ ((asked ops).map (rounded 32)).sum ≤ reserved (gpuMem P user bytes) := by
  have hsub : (asked ops).Sublist (devSizes P user bytes) := calls_asked bytes _ ops hc
  have hpos : ∀ y ∈ devSizes P user bytes, 0 < y := by
    intro y hy
    obtain ⟨⟨i, x⟩, _, hx⟩ := List.mem_filterMap.mp hy
    cases x with
    | alloc r =>
      simp only [want] at hx
      split at hx
      · cases hx
      · injection hx with hx; rw [← hx]; exact hb i
    | _ => cases hx
  refine ⟨fun s h => hpos s (hsub.subset h), ?_⟩
  have h1 := sublist_rounded hsub hpos
  have h2 := rounded_sum _ hpos
  have h3 := counted P user bytes hb
  unfold reserved
  omega

/-- **C128.** If at most eight registers of the device have less than 13 bytes, no instruction of the program runs out of memory on the device:
every call that asks for memory gets an address. For the allocator with the pointer reset in `coalesce`. -/
theorem memory_suffices (P : DProg) (user : Nat → Nat) (bytes : Nat → Int) (hb : ∀ i, 0 < bytes i)
    (hs : (devSizes P user bytes).countP (· < 13) ≤ 8) (start : Int) (ops : List Op) (hc : Calls bytes (tagged P user) ops) :
    ∃ b0 b outs, reserve 32 start (reserved (gpuMem P user bytes)) = some b0 ∧ Verif.BFC.run true codeThresh b0 ops = some (b, outs) ∧
      ∀ o ∈ outs, o = .none ∨ ∃ a, o = .addr a := by
  obtain ⟨h1, h2⟩ := fits P user bytes hb hs ops hc
  have h3 := counted P user bytes hb
  have h4 : 0 ≤ (devSizes P user bytes).sum := by
    have : ∀ xs : List Int, (∀ x ∈ xs, 0 < x) → 0 ≤ xs.sum := by
      intro xs
      induction xs with
      | nil => simp
      | cons x xs ih =>
        intro h
        have a := h x (by simp)
        have b := ih fun y hy => h y (by simp [hy])
        simp only [List.sum_cons]; omega
    apply this
    intro y hy
    obtain ⟨⟨i, x⟩, _, hx⟩ := List.mem_filterMap.mp hy
    cases x with
    | alloc r =>
      simp only [want] at hx
      split at hx
      · cases hx
      · injection hx with hx; rw [← hx]; exact hb i
    | _ => cases hx
  exact Verif.BFC.repaired_enough codeThresh 32 start _ (by omega) (by unfold reserved; omega) ops h1 h2

/-- **C128 (code as it is, partial).** The same for the allocator of the code in every history after which no merge has left a stale pointer. -/
theorem memory_suffices_code_partial (P : DProg) (user : Nat → Nat) (bytes : Nat → Int) (hb : ∀ i, 0 < bytes i)
    (hs : (devSizes P user bytes).countP (· < 13) ≤ 8) (start : Int) (ops : List Op) (hc : Calls bytes (tagged P user) ops)
    (b0 b : Verif.BFC.BFC) (outs : List Out) (h0 : reserve 32 start (reserved (gpuMem P user bytes)) = some b0)
    (h : Verif.BFC.run false codeThresh b0 ops = some (b, outs)) (hcl : b.fl.clobbered = false) : ∀ o ∈ outs, o = .none ∨ ∃ a, o = .addr a := by
  obtain ⟨b0', b', outs', h0', h1, h2⟩ := memory_suffices P user bytes hb hs start ops hc
  rw [h0] at h0'; injection h0' with h0'; subst h0'
  rw [(Verif.BFC.run_mono ops h hcl).1] at h1
  injection h1 with h1; injection h1 with h1 h3; subst h3
  exact h2

/-! ### A deviation -/

/-- One scalar input and eleven functions of it that run on the device. -/
def manyInfo : Info where
  cls n := if n = 0 then .arg else .ptr none 0 true
  kind n := if n = 0 then .host else .cuda
  live n := decide (n = 0)
  deriv _ := false

def manyKids (n : Nat) : List Nat := if n = 0 then [] else [0]

def manyP : DProg := program (placed manyKids manyInfo fun _ => CPU) manyInfo (List.range 12)

def manyUser : Nat → Nat := userOf (items (placed manyKids manyInfo fun _ => CPU) (List.range 12))

/-- The calls of a run: nothing is freed before the end. -/
def manyOps : List Op := List.replicate 12 (.alloc 4)

theorem many_tagged : tagged manyP manyUser =
    (0, .exec 0) :: (1, .alloc ⟨0, 0⟩) :: (1, .exec 1) :: (2, .alloc ⟨1, 0⟩) :: (2, .flush) :: (2, .exec 2) ::
      ((List.range 10).flatMap fun k => [(k + 3, .alloc ⟨k + 2, 0⟩), (k + 3, .exec (k + 3))]) ++
      (List.range 11).map (fun k => (13, .free ⟨k + 1, 0⟩)) ++ [(13, .flush)] := by decide +kernel

/-- The program allocates twelve scalars of 4 bytes on the device, 376 bytes are reserved, and the allocator has no room for the last of them,
because each takes 32 bytes of its own. -/
theorem many_scalars_fail : gpuMem manyP manyUser (fun _ => calcMem 4 []) = 48 ∧ Calls (fun _ => calcMem 4 []) (tagged manyP manyUser) manyOps ∧
    ((reserve 32 0 (reserved 48)).bind fun b => Verif.BFC.run false codeThresh b manyOps).map (fun r => r.2.getLast?) = some (some .oom) := by
  refine ⟨by decide +kernel, ?_, by decide +kernel⟩
  rw [many_tagged]
  have hd : ∀ n : Nat, (⟨n, 0⟩ : Reg).dev ≠ -1 := fun n => by show (0 : Int) ≠ -1; decide
  refine .other _ _ _ _ (.ask _ _ _ _ (hd _) (.other _ _ _ _ (.ask _ _ _ _ (hd _) (.other _ _ _ _ (.other _ _ _ _ ?_)))))
  iterate 10 refine .ask _ _ _ _ (hd _) (.other _ _ _ _ ?_)
  iterate 12 refine .other _ _ _ _ ?_
  exact .done

/-- So the reservation does not suffice for all programs, whichever of the two allocators is used. -/
theorem memory_not_enough (repair : Bool) : ¬ ∀ (P : DProg) (user : Nat → Nat) (bytes : Nat → Int), (∀ i, 0 < bytes i) → ∀ ops : List Op,
    Calls bytes (tagged P user) ops → ∃ b0 b outs, reserve 32 0 (reserved (gpuMem P user bytes)) = some b0 ∧
      Verif.BFC.run repair codeThresh b0 ops = some (b, outs) ∧ .oom ∉ outs := by
  intro h
  obtain ⟨b0, b, outs, h0, h1, h2⟩ := h manyP manyUser (fun _ => calcMem 4 []) (fun _ => by decide) manyOps many_scalars_fail.2.1
  rw [many_scalars_fail.1] at h0
  have h3 : ((reserve 32 0 (reserved 48)).bind fun b => Verif.BFC.run repair codeThresh b manyOps).map (fun r => decide (Out.oom ∈ r.2)) = some true := by
    cases repair <;> decide +kernel
  rw [h0, Option.bind_some, h1, Option.map_some] at h3
  injection h3 with h3
  exact h2 (of_decide_eq_true h3)

/-! ### Examples -/

/-- The same program with vectors of 4 elements has no register below 13 bytes, and its calls succeed. -/
example : devSizes manyP manyUser (fun _ => calcMem 4 [4]) = List.replicate 12 16 ∧ gpuMem manyP manyUser (fun _ => calcMem 4 [4]) = 192 := by decide +kernel

example : ((reserve 32 0 (reserved 192)).bind fun b => Verif.BFC.run false codeThresh b (List.replicate 12 (.alloc 16))).map (fun r => r.2) =
    some ((List.range 12).map fun k => .addr (32 * k)) := by decide +kernel

/-- A program with registers that are freed: one free and three requests. -/
example : Calls (fun _ => calcMem 8 [2, 3]) (tagged exQ (userOf exItems)) [.alloc 48, .alloc 48, .alloc 48, .free 128, .free 0] := by
  have e : tagged exQ (userOf exItems) = [(0, .exec 0), (1, .exec 1), (2, .alloc ⟨0, 0⟩), (2, .exec 2), (3, .alloc ⟨1, 0⟩), (3, .exec 3),
      (4, .alloc ⟨2, 0⟩), (4, .flush), (4, .exec 4), (5, .alloc ⟨2, -1⟩), (5, .exec 5), (5, .flush), (6, .exec 6), (7, .exec 7),
      (8, .alloc ⟨4, -1⟩), (8, .exec 8), (8, .flush), (8, .free ⟨2, 0⟩), (9, .flush), (9, .exec 9), (10, .free ⟨3, -1⟩), (10, .free ⟨0, 0⟩),
      (10, .flush)] := by decide +kernel
  rw [e]
  have hd : ∀ n : Nat, (⟨n, 0⟩ : Reg).dev ≠ -1 := fun n => by show (0 : Int) ≠ -1; decide
  iterate 2 refine .other _ _ _ _ ?_
  iterate 3 refine .ask _ _ _ _ (hd _) (.other _ _ _ _ ?_)
  iterate 9 refine .other _ _ _ _ ?_
  refine .give _ _ _ _ _ (hd _) (.other _ _ _ _ (.other _ _ _ _ (.other _ _ _ _ (.give _ _ _ _ _ (hd _) (.other _ _ _ _ .done)))))

end Verif.Device
