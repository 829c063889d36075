import Mathlib.Logic.Relation
import Mathlib.Tactic.Ring
import Mathlib.Algebra.Order.BigOperators.Group.Finset

/-!
# Elementwise kernels on the device

Model of the launch geometry of `cuda/external.go` and of the elementwise kernels of
`cuda modules/src/elembinop.cu` and `elemunaryop.cu`. A launch is a set of threads. A thread reads its operands one
after the other and then writes; the steps of different threads interleave in any order.

Simplifications: the index arithmetic of the kernels is done in `Nat` (it is 32-bit arithmetic in the source, so sizes
of `2^31` or more are outside the model); addresses count elements and not bytes; a thread of a unary kernel reads its
cell twice at the most in the model, where `cube` reads it three times.
-/

set_option autoImplicit false

namespace Verif.Cuda

/-- The limits of a device kept in the engine (`cuda/engine.go:52-58`, set in `cuda/external.go:139-143`). -/
structure Limits where
  mtpb : Nat
  mgdx : Nat
  mgdy : Nat
  mgdz : Nat

/-- Grid and block dimensions of a launch (results of `ElemGridSize`, `cuda/external.go:52`). -/
structure Grid where
  gdx : Nat
  gdy : Nat
  gdz : Nat
  bdx : Nat
  bdy : Nat
  bdz : Nat
deriving DecidableEq

/-- `calcBlocks` (`cuda/external.go:303`). -/
def calcBlocks (n maxThreads : Nat) : Nat := (n + maxThreads - 1) / maxThreads

/-- `Engine.ElemGridSize` (`cuda/external.go:52-84`). -/
def elemGridSize (l : Limits) (n : Nat) : Grid :=
  let blocks := calcBlocks n l.mtpb
  if blocks = 1 then ⟨1, 1, 1, n, 1, 1⟩
  else if l.mgdx * l.mgdy * l.mgdz ≤ blocks then ⟨1, 1, 1, 1, 1, 1⟩
  else if l.mgdx * l.mgdy ≤ blocks then
    ⟨l.mgdx, l.mgdy, calcBlocks (blocks % (l.mgdx * l.mgdy)) l.mgdz, l.mtpb, 1, 1⟩
  else if l.mgdx ≤ blocks then
    ⟨l.mgdx, calcBlocks (blocks % l.mgdx) l.mgdy, 1, l.mtpb, 1, 1⟩
  else ⟨blocks, 1, 1, l.mtpb, 1, 1⟩

/-- The coordinates of a thread: `blockIdx` and `threadIdx` of the kernels. -/
structure Thread where
  bx : Nat
  by' : Nat
  bz : Nat
  tx : Nat
  ty : Nat
  tz : Nat
deriving DecidableEq

/-- The threads which a launch starts. -/
def Grid.Has (g : Grid) (t : Thread) : Prop :=
  t.bx < g.gdx ∧ t.by' < g.gdy ∧ t.bz < g.gdz ∧ t.tx < g.bdx ∧ t.ty < g.bdy ∧ t.tz < g.bdz

/-- `THREADID` (`cuda modules/src/elembinop.cu:4-6`, `elemunaryop.cu:4-6`). -/
def Grid.index (g : Grid) (t : Thread) : Nat :=
  let blockId := t.bx + t.by' * g.gdx + g.gdx * g.gdy * t.bz
  blockId * (g.bdx * g.bdy * g.bdz) + t.tz * (g.bdx * g.bdy) + t.ty * g.bdx + t.tx

/-- Number of threads in a launch. -/
def Grid.threads (g : Grid) : Nat := g.gdx * g.gdy * g.gdz * (g.bdx * g.bdy * g.bdz)

/-! ## Geometry -/

theorem mix_inj {a b c a' b' c' x y : Nat} (ha : a < x) (ha' : a' < x) (hb : b < y) (hb' : b' < y)
    (h : a + b * x + x * y * c = a' + b' * x + x * y * c') : a = a' ∧ b = b' ∧ c = c' := by
  have e1 : a + b * x + x * y * c = a + x * (b + y * c) := by ring
  have e2 : a' + b' * x + x * y * c' = a' + x * (b' + y * c') := by ring
  rw [e1, e2] at h
  have hx : 0 < x := by omega
  have hy : 0 < y := by omega
  have h1 := congrArg (· % x) h
  have h2 := congrArg (· / x) h
  simp only [Nat.add_mul_mod_self_left, Nat.mod_eq_of_lt ha, Nat.mod_eq_of_lt ha'] at h1
  simp only [Nat.add_mul_div_left _ _ hx, Nat.div_eq_of_lt ha, Nat.div_eq_of_lt ha', Nat.zero_add] at h2
  have h3 := congrArg (· % y) h2
  have h4 := congrArg (· / y) h2
  simp only [Nat.add_mul_mod_self_left, Nat.mod_eq_of_lt hb, Nat.mod_eq_of_lt hb'] at h3
  simp only [Nat.add_mul_div_left _ _ hy, Nat.div_eq_of_lt hb, Nat.div_eq_of_lt hb', Nat.zero_add] at h4
  exact ⟨h1, h3, h4⟩

theorem mix_lt {a b c x y z : Nat} (ha : a < x) (hb : b < y) (hc : c < z) :
    a + b * x + x * y * c < x * y * z := by
  have h1 : a + b * x < x * y := by
    calc a + b * x < x + b * x := by omega
      _ = x * (b + 1) := by ring
      _ ≤ x * y := Nat.mul_le_mul_left _ hb
  calc a + b * x + x * y * c < x * y + x * y * c := by omega
    _ = x * y * (c + 1) := by ring
    _ ≤ x * y * z := Nat.mul_le_mul_left _ hc

theorem mix_surj {i x y z : Nat} (h : i < x * y * z) :
    ∃ a b c, a < x ∧ b < y ∧ c < z ∧ a + b * x + x * y * c = i := by
  have hx : 0 < x := by
    rcases Nat.eq_zero_or_pos x with h0 | h0
    · subst h0; simp at h
    · exact h0
  have hy : 0 < y := by
    rcases Nat.eq_zero_or_pos y with h0 | h0
    · subst h0; simp at h
    · exact h0
  refine ⟨i % x, i / x % y, i / x / y, Nat.mod_lt _ hx, Nat.mod_lt _ hy, ?_, ?_⟩
  · rw [Nat.div_div_eq_div_mul]
    exact Nat.div_lt_of_lt_mul h
  · have h1 := Nat.mod_add_div (i / x) y
    have h2 := Nat.mod_add_div i x
    calc i % x + i / x % y * x + x * y * (i / x / y)
        = i % x + x * (i / x % y + y * (i / x / y)) := by ring
      _ = i := by rw [h1, h2]

theorem index_eq (g : Grid) (t : Thread) :
    g.index t = (t.tx + t.ty * g.bdx + g.bdx * g.bdy * t.tz)
      + (t.bx + t.by' * g.gdx + g.gdx * g.gdy * t.bz) * (g.bdx * g.bdy * g.bdz) := by
  simp only [Grid.index]; ring

/-- No two threads of a launch work on the same index. -/
theorem index_inj (g : Grid) {t t' : Thread} (h : g.Has t) (h' : g.Has t') (e : g.index t = g.index t') :
    t = t' := by
  obtain ⟨h1, h2, h3, h4, h5, h6⟩ := h
  obtain ⟨k1, k2, k3, k4, k5, k6⟩ := h'
  rw [index_eq, index_eq] at e
  have l := mix_lt h4 h5 h6
  have l' := mix_lt k4 k5 k6
  obtain ⟨p, q, _⟩ := mix_inj (c := 0) (c' := 0) (y := g.gdx * g.gdy * g.gdz) l l'
    (mix_lt h1 h2 h3) (mix_lt k1 k2 k3) (by simpa using e)
  obtain ⟨p1, p2, p3⟩ := mix_inj h4 k4 h5 k5 p
  obtain ⟨q1, q2, q3⟩ := mix_inj h1 k1 h2 k2 q
  cases t; cases t'; simp_all

/-- The indices of the threads of a launch are exactly the numbers below the number of threads. -/
theorem index_range (g : Grid) (i : Nat) : (∃ t, g.Has t ∧ g.index t = i) ↔ i < g.threads := by
  constructor
  · rintro ⟨t, ⟨h1, h2, h3, h4, h5, h6⟩, rfl⟩
    rw [index_eq]
    have := mix_lt (c := 0) (z := 1) (mix_lt h4 h5 h6) (mix_lt h1 h2 h3) Nat.one_pos
    simp only [Grid.threads]
    rw [Nat.mul_comm (g.gdx * g.gdy * g.gdz)]
    simpa using this
  · intro h
    have h' : i < (g.bdx * g.bdy * g.bdz) * (g.gdx * g.gdy * g.gdz) * 1 := by
      simp only [Grid.threads] at h
      rw [Nat.mul_comm (g.gdx * g.gdy * g.gdz)] at h
      simpa using h
    obtain ⟨a, b, c, ha, hb, hc, e⟩ := mix_surj h'
    have : c = 0 := by omega
    subst this
    obtain ⟨tx, ty, tz, h1, h2, h3, e1⟩ := mix_surj ha
    obtain ⟨bx, b', bz, h4, h5, h6, e2⟩ := mix_surj hb
    refine ⟨⟨bx, b', bz, tx, ty, tz⟩, ⟨h4, h5, h6, h1, h2, h3⟩, ?_⟩
    rw [index_eq]
    simp only [e1, e2]
    simpa using e

theorem le_calcBlocks_mul (n : Nat) {m : Nat} (hm : 0 < m) : n ≤ calcBlocks n m * m := by
  unfold calcBlocks
  have h := Nat.div_add_mod (n + m - 1) m
  have h2 := Nat.mod_lt (n + m - 1) hm
  rw [Nat.mul_comm]
  omega

theorem calcBlocks_mul_lt {n m : Nat} (hm : 0 < m) : calcBlocks n m * m < n + m := by
  unfold calcBlocks
  have h := Nat.div_mul_le_self (n + m - 1) m
  omega

/-- A launch for fewer blocks than the device takes in the first dimension has a thread for each element. -/
theorem elemGridSize_covers (l : Limits) (n : Nat) (hm : 0 < l.mtpb) (hy : 0 < l.mgdy) (hz : 0 < l.mgdz)
    (hb : n ≤ l.mtpb ∨ n ≤ l.mtpb * (l.mgdx - 1)) : n ≤ (elemGridSize l n).threads := by
  rcases Nat.eq_zero_or_pos n with h0 | h0
  · omega
  have hc := le_calcBlocks_mul n hm
  have hlt := calcBlocks_mul_lt (n := n) hm
  have hp : 0 < calcBlocks n l.mtpb := by
    rcases Nat.eq_zero_or_pos (calcBlocks n l.mtpb) with e | e
    · rw [e] at hc; omega
    · exact e
  unfold elemGridSize
  by_cases c1 : calcBlocks n l.mtpb = 1
  · simp [c1, Grid.threads]
  · have h2 : 2 * l.mtpb ≤ calcBlocks n l.mtpb * l.mtpb := Nat.mul_le_mul_right _ (by omega)
    have hb' : n ≤ l.mtpb * (l.mgdx - 1) := by
      rcases hb with hb | hb
      · omega
      · exact hb
    have hx : calcBlocks n l.mtpb < l.mgdx := by
      by_contra h
      have hx0 : 0 < l.mgdx := by
        rcases Nat.eq_zero_or_pos l.mgdx with e | e
        · rw [e] at hb'; simp at hb'; omega
        · exact e
      have h1 : l.mgdx * l.mtpb ≤ calcBlocks n l.mtpb * l.mtpb := Nat.mul_le_mul_right _ (by omega)
      have e : l.mgdx * l.mtpb = l.mtpb * (l.mgdx - 1) + l.mtpb := by
        conv_lhs => rw [show l.mgdx = (l.mgdx - 1) + 1 by omega]
        ring
      omega
    have hxy : l.mgdx ≤ l.mgdx * l.mgdy := Nat.le_mul_of_pos_right _ hy
    have hxyz : l.mgdx * l.mgdy ≤ l.mgdx * l.mgdy * l.mgdz := Nat.le_mul_of_pos_right _ hz
    rw [if_neg c1, if_neg (by omega), if_neg (by omega), if_neg (by omega)]
    simpa [Grid.threads] using hc

/-- As soon as there is one block more than the device takes in the first dimension, elements are left without a thread:
the second dimension is computed from the remainder. -/
theorem elemGridSize_misses (l : Limits) (hm : 0 < l.mtpb) (hx : 2 ≤ l.mgdx) (hy : 2 ≤ l.mgdy) (hz : 0 < l.mgdz) :
    (elemGridSize l (l.mtpb * (l.mgdx + 1))).threads = l.mtpb * l.mgdx := by
  have hb : calcBlocks (l.mtpb * (l.mgdx + 1)) l.mtpb = l.mgdx + 1 := by
    unfold calcBlocks
    rw [show l.mtpb * (l.mgdx + 1) + l.mtpb - 1 = (l.mtpb - 1) + l.mtpb * (l.mgdx + 1) by omega,
      Nat.add_mul_div_left _ _ hm, Nat.div_eq_of_lt (by omega)]
    omega
  have h2 : l.mgdx * 2 ≤ l.mgdx * l.mgdy := Nat.mul_le_mul_left _ hy
  have h3 : l.mgdx * l.mgdy ≤ l.mgdx * l.mgdy * l.mgdz := Nat.le_mul_of_pos_right _ hz
  have hr : (l.mgdx + 1) % l.mgdx = 1 := by
    rw [Nat.add_mod_left]; exact Nat.mod_eq_of_lt (by omega)
  have hc : calcBlocks 1 l.mgdy = 1 := by
    unfold calcBlocks
    rw [show 1 + l.mgdy - 1 = l.mgdy by omega, Nat.div_self (by omega)]
  unfold elemGridSize
  simp only [hb, hr, hc]
  by_cases c : l.mgdx * l.mgdy ≤ l.mgdx + 1
  · exfalso; omega
  · rw [if_neg (by omega), if_neg (by omega), if_neg c, if_pos (by omega)]
    simp [Grid.threads, Nat.mul_comm]

/-! ## Kernels -/

/-- What the thread with a given index does after `CHECKSIZE`: two reads, a computation, one write. -/
structure Kernel (α : Type) where
  rd1 : Nat → Nat
  rd2 : Nat → Nat
  wr : Nat → Nat
  fn : α → α → α

/-- `VVBINOP` and `VVFNBINOP` (`elembinop.cu:13-17` and `168-172`): `A[idx] = A[idx] op B[idx]`. -/
def vv {α : Type} (op : α → α → α) (A B : Nat) : Kernel α := ⟨(A + ·), (B + ·), (A + ·), op⟩

/-- `VSBINOP` and `VSFNBINOP` (`elembinop.cu:19-23` and `174-178`): `A[idx] = A[idx] op B[0]`. -/
def vs {α : Type} (op : α → α → α) (A B : Nat) : Kernel α := ⟨(A + ·), fun _ => B, (A + ·), op⟩

/-- `SVBINOP` and `SVFNBINOP` (`elembinop.cu:25-29` and `180-184`): `B[idx] = A[0] op B[idx]`. -/
def sv {α : Type} (op : α → α → α) (A B : Nat) : Kernel α := ⟨fun _ => A, (B + ·), (B + ·), op⟩

/-- `SSBINOP` and `SSFNBINOP` (`elembinop.cu:31-35` and `186-190`): `A[0] = A[0] op B[0]`. -/
def ss {α : Type} (op : α → α → α) (A B : Nat) : Kernel α := ⟨fun _ => A, fun _ => B, fun _ => A, op⟩

/-- `UNARYOP` (`elemunaryop.cu:13-18`) and the kernels written out below it: `A[idx] = op(A[idx])`. -/
def un {α : Type} (op : α → α) (A : Nat) : Kernel α := ⟨(A + ·), (A + ·), (A + ·), fun x _ => op x⟩

/-- Where a thread is. -/
inductive PC (α : Type) where
  | start
  | one (v : α)
  | two (v w : α)
  | done

/-- Device memory and the places of the threads. -/
structure Dev (α : Type) where
  mem : Nat → α
  pc : Thread → PC α

/-- Writing one cell. -/
def put {κ β : Type} [DecidableEq κ] (f : κ → β) (k : κ) (v : β) : κ → β := fun x => if x = k then v else f x

/-- One step of one thread. -/
inductive Step {α : Type} (g : Grid) (k : Kernel α) (size : Nat) : Dev α → Dev α → Prop
  | skip (d : Dev α) (t : Thread) : g.Has t → d.pc t = .start → size ≤ g.index t →
      Step g k size d ⟨d.mem, put d.pc t .done⟩
  | load1 (d : Dev α) (t : Thread) : g.Has t → d.pc t = .start → g.index t < size →
      Step g k size d ⟨d.mem, put d.pc t (.one (d.mem (k.rd1 (g.index t))))⟩
  | load2 (d : Dev α) (t : Thread) (v : α) : g.Has t → d.pc t = .one v →
      Step g k size d ⟨d.mem, put d.pc t (.two v (d.mem (k.rd2 (g.index t))))⟩
  | store (d : Dev α) (t : Thread) (v w : α) : g.Has t → d.pc t = .two v w →
      Step g k size d ⟨put d.mem (k.wr (g.index t)) (k.fn v w), put d.pc t .done⟩

/-- The launch starts with all threads at the start. -/
def begin {α : Type} (m : Nat → α) : Dev α := ⟨m, fun _ => .start⟩

/-- `m'` is the memory after some complete run of the launch on memory `m`. -/
def Launch {α : Type} (g : Grid) (k : Kernel α) (size : Nat) (m m' : Nat → α) : Prop :=
  ∃ d, Relation.ReflTransGen (Step g k size) (begin m) d ∧ (∀ t, g.Has t → d.pc t = .done) ∧ d.mem = m'

/-- No thread touches a cell which another one writes. -/
def NoRace {α : Type} (k : Kernel α) (n : Nat) : Prop :=
  ∀ i j, i < n → j < n → i ≠ j → k.wr i ≠ k.wr j ∧ k.wr i ≠ k.rd1 j ∧ k.wr i ≠ k.rd2 j

/-- What holds at any time of a run without races. -/
structure Sound {α : Type} (g : Grid) (k : Kernel α) (size : Nat) (m : Nat → α) (d : Dev α) : Prop where
  one : ∀ t v, g.Has t → d.pc t = .one v → g.index t < size ∧ v = m (k.rd1 (g.index t))
  two : ∀ t v w, g.Has t → d.pc t = .two v w →
    g.index t < size ∧ v = m (k.rd1 (g.index t)) ∧ w = m (k.rd2 (g.index t))
  done : ∀ t, g.Has t → d.pc t = .done → g.index t < size →
    d.mem (k.wr (g.index t)) = k.fn (m (k.rd1 (g.index t))) (m (k.rd2 (g.index t)))
  rest : ∀ a, (∀ t, g.Has t → g.index t < size → d.pc t = .done → a ≠ k.wr (g.index t)) → d.mem a = m a

theorem sound_begin {α : Type} (g : Grid) (k : Kernel α) (size : Nat) (m : Nat → α) :
    Sound g k size m (begin m) :=
  ⟨fun _ _ _ h => (by cases h), fun _ _ _ _ h => (by cases h), fun _ _ h => (by cases h), fun _ _ => rfl⟩

theorem sound_step {α : Type} {g : Grid} {k : Kernel α} {size : Nat} {m : Nat → α} (hr : NoRace k size)
    {d d' : Dev α} (s : Step g k size d d') (h : Sound g k size m d) : Sound g k size m d' := by
  cases s with
  | skip t ht hp hi =>
    refine ⟨fun u v hu e => ?_, fun u v w hu e => ?_, fun u hu e l => ?_, fun a ha => ?_⟩
    · by_cases c : u = t
      · simp [put, c] at e
      · exact h.one u v hu (by simpa [put, c] using e)
    · by_cases c : u = t
      · simp [put, c] at e
      · exact h.two u v w hu (by simpa [put, c] using e)
    · by_cases c : u = t
      · subst c; omega
      · exact h.done u hu (by simpa [put, c] using e) l
    · refine h.rest a fun u hu l e => ha u hu l ?_
      by_cases c : u = t
      · simp [put, c]
      · simpa [put, c] using e
  | load1 t ht hp hi =>
    refine ⟨fun u v hu e => ?_, fun u v w hu e => ?_, fun u hu e l => ?_, fun a ha => ?_⟩
    · by_cases c : u = t
      · subst c
        simp only [put, if_true, PC.one.injEq] at e
        refine ⟨hi, e ▸ h.rest _ fun x hx l ex => ?_⟩
        have ne : u ≠ x := fun hh => by subst hh; rw [hp] at ex; cases ex
        exact fun hh => (hr _ _ l hi (fun q => ne (index_inj g hu hx q.symm))).2.1 hh.symm
      · exact h.one u v hu (by simpa [put, c] using e)
    · by_cases c : u = t
      · simp [put, c] at e
      · exact h.two u v w hu (by simpa [put, c] using e)
    · by_cases c : u = t
      · simp [put, c] at e
      · exact h.done u hu (by simpa [put, c] using e) l
    · refine h.rest a fun u hu l e => ha u hu l ?_
      by_cases c : u = t
      · subst c; rw [hp] at e; cases e
      · simpa [put, c] using e
  | load2 t v0 ht hp =>
    obtain ⟨hi, hv⟩ := h.one t v0 ht hp
    refine ⟨fun u v hu e => ?_, fun u v w hu e => ?_, fun u hu e l => ?_, fun a ha => ?_⟩
    · by_cases c : u = t
      · simp [put, c] at e
      · exact h.one u v hu (by simpa [put, c] using e)
    · by_cases c : u = t
      · subst c
        simp only [put, if_true, PC.two.injEq] at e
        refine ⟨hi, e.1 ▸ hv, e.2 ▸ h.rest _ fun x hx l ex => ?_⟩
        have ne : u ≠ x := fun hh => by subst hh; rw [hp] at ex; cases ex
        exact fun hh => (hr _ _ l hi (fun q => ne (index_inj g hu hx q.symm))).2.2 hh.symm
      · exact h.two u v w hu (by simpa [put, c] using e)
    · by_cases c : u = t
      · simp [put, c] at e
      · exact h.done u hu (by simpa [put, c] using e) l
    · refine h.rest a fun u hu l e => ha u hu l ?_
      by_cases c : u = t
      · subst c; rw [hp] at e; cases e
      · simpa [put, c] using e
  | store t v0 w0 ht hp =>
    obtain ⟨hi, hv, hw⟩ := h.two t v0 w0 ht hp
    refine ⟨fun u v hu e => ?_, fun u v w hu e => ?_, fun u hu e l => ?_, fun a ha => ?_⟩
    · by_cases c : u = t
      · simp [put, c] at e
      · exact h.one u v hu (by simpa [put, c] using e)
    · by_cases c : u = t
      · simp [put, c] at e
      · exact h.two u v w hu (by simpa [put, c] using e)
    · by_cases c : u = t
      · subst c; simp [put, hv, hw]
      · have ne := (hr _ _ l hi (fun q => c (index_inj g hu ht q))).1
        have := h.done u hu (by simpa [put, c] using e) l
        simpa [put, ne] using this
    · have ne : a ≠ k.wr (g.index t) := ha t ht hi (by simp [put])
      have := h.rest a fun u hu l e => ha u hu l (by
        by_cases c : u = t
        · simp [put, c]
        · simpa [put, c] using e)
      simpa [put, ne] using this

/-- Every complete run of a launch with a thread for each element, and without races, computes the result of every
element from the memory before the launch and leaves the rest of the memory alone. -/
theorem launch_spec {α : Type} {g : Grid} {k : Kernel α} {n : Nat} {m m' : Nat → α} (hr : NoRace k n)
    (hc : n ≤ g.threads) (h : Launch g k n m m') :
    (∀ i, i < n → m' (k.wr i) = k.fn (m (k.rd1 i)) (m (k.rd2 i)))
      ∧ ∀ a, (∀ i, i < n → a ≠ k.wr i) → m' a = m a := by
  obtain ⟨d, hd, hf, rfl⟩ := h
  have hs : Sound g k n m d := by
    clear hf
    induction hd with
    | refl => exact sound_begin g k n m
    | tail _ s ih => exact sound_step hr s ih
  constructor
  · intro i hi
    obtain ⟨t, ht, e⟩ := (index_range g i).2 (by omega)
    have := hs.done t ht (hf t ht) (by omega)
    rwa [e] at this
  · intro a ha
    exact hs.rest a fun t _ l _ => ha _ l

/-- Whatever the kernel, a launch with too few threads leaves alone the cells which only the missing threads write. -/
theorem launch_misses {α : Type} {g : Grid} {k : Kernel α} {n : Nat} {m m' : Nat → α} (h : Launch g k n m m')
    (a : Nat) (ha : ∀ i, i < g.threads → k.wr i ≠ a) : m' a = m a := by
  obtain ⟨d, hd, hf, rfl⟩ := h
  clear hf
  induction hd with
  | refl => rfl
  | tail _ s ih =>
    cases s with
    | skip t ht hp hi => exact ih
    | load1 t ht hp hi => exact ih
    | load2 t v ht hp => exact ih
    | store t v w ht hp =>
      have := ha _ ((index_range g _).1 ⟨t, ht, rfl⟩)
      have ne : a ≠ k.wr (g.index t) := fun e => this e.symm
      simpa [put, ne] using ih

/-- A run which is not complete can go on. -/
theorem launch_progress {α : Type} (g : Grid) (k : Kernel α) (size : Nat) (d : Dev α) (t : Thread) (ht : g.Has t)
    (hn : d.pc t ≠ .done) : ∃ d', Step g k size d d' := by
  rcases e : d.pc t with _ | v | ⟨v, w⟩ | _
  · by_cases c : g.index t < size
    · exact ⟨_, .load1 d t ht e c⟩
    · exact ⟨_, .skip d t ht e (by omega)⟩
  · exact ⟨_, .load2 d t v ht e⟩
  · exact ⟨_, .store d t v w ht e⟩
  · exact absurd e hn

/-- The steps which a thread still has before it, at the most. -/
def PC.left {α : Type} : PC α → Nat
  | .start => 3
  | .one _ => 2
  | .two _ _ => 1
  | .done => 0

/-- The threads of a launch as a finite set. -/
def Grid.all (g : Grid) : Finset Thread :=
  (Finset.range g.gdx ×ˢ Finset.range g.gdy ×ˢ Finset.range g.gdz ×ˢ Finset.range g.bdx ×ˢ Finset.range g.bdy
    ×ˢ Finset.range g.bdz).image fun x => ⟨x.1, x.2.1, x.2.2.1, x.2.2.2.1, x.2.2.2.2.1, x.2.2.2.2.2⟩

theorem mem_all (g : Grid) (t : Thread) : t ∈ g.all ↔ g.Has t := by
  simp only [Grid.all, Finset.mem_image, Finset.mem_product, Finset.mem_range, Grid.Has]
  constructor
  · rintro ⟨x, hx, rfl⟩; exact hx
  · intro h; exact ⟨(t.bx, t.by', t.bz, t.tx, t.ty, t.tz), h, rfl⟩

/-- The steps which a launch still has before it, at the most. -/
def Dev.left {α : Type} (g : Grid) (d : Dev α) : Nat := ∑ t ∈ g.all, (d.pc t).left

theorem sum_put_lt {α : Type} (g : Grid) (pc : Thread → PC α) (t : Thread) (q : PC α) (ht : g.Has t)
    (h : q.left < (pc t).left) : ∑ u ∈ g.all, (put pc t q u).left < ∑ u ∈ g.all, (pc u).left := by
  refine Finset.sum_lt_sum (fun u _ => ?_) ⟨t, (mem_all g t).2 ht, by simpa [put] using h⟩
  by_cases c : u = t
  · subst c; simpa [put] using h.le
  · simp [put, c]

/-- Every step brings the launch nearer to its end, so all runs are finite. -/
theorem step_left {α : Type} {g : Grid} {k : Kernel α} {size : Nat} {d d' : Dev α} (s : Step g k size d d') :
    d'.left g < d.left g := by
  cases s with
  | skip t ht hp hi => exact sum_put_lt g d.pc t _ ht (by simp [hp, PC.left])
  | load1 t ht hp hi => exact sum_put_lt g d.pc t _ ht (by simp [hp, PC.left])
  | load2 t v ht hp => exact sum_put_lt g d.pc t _ ht (by simp [hp, PC.left])
  | store t v w ht hp => exact sum_put_lt g d.pc t _ ht (by simp [hp, PC.left])

theorem finishes {α : Type} (g : Grid) (k : Kernel α) (size : Nat) : ∀ (c : Nat) (d : Dev α), d.left g ≤ c →
    ∃ d', Relation.ReflTransGen (Step g k size) d d' ∧ ∀ t, g.Has t → d'.pc t = .done := by
  intro c
  induction c with
  | zero =>
    intro d h
    refine ⟨d, .refl, fun t ht => ?_⟩
    have h0 : d.left g = 0 := by omega
    have := (Finset.sum_eq_zero_iff.1 h0) t ((mem_all g t).2 ht)
    rcases e : d.pc t with _ | v | ⟨v, w⟩ | _ <;> simp_all [PC.left]
  | succ c ih =>
    intro d h
    by_cases q : ∀ t, g.Has t → d.pc t = .done
    · exact ⟨d, .refl, q⟩
    · push Not at q
      obtain ⟨t, ht, hn⟩ := q
      obtain ⟨d1, s⟩ := launch_progress g k size d t ht hn
      obtain ⟨d2, r, f⟩ := ih d1 (by have := step_left s; omega)
      exact ⟨d2, .head s r, f⟩

/-- Every launch has a complete run. -/
theorem launch_exists {α : Type} (g : Grid) (k : Kernel α) (size : Nat) (m : Nat → α) : ∃ m', Launch g k size m m' := by
  obtain ⟨d, r, f⟩ := finishes g k size _ (begin m) le_rfl
  exact ⟨d.mem, d, r, f, rfl⟩

end Verif.Cuda
