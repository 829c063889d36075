/-
Execution of an op outside of a machine (`execution.go`): `ExternalOp` with its preallocated value, its value to be
incremented and its permission to overwrite the first operand. The build without CUDA: no op is a `CUDADoer`.

Values are tensors in memory, named by their address; the elements are abstract (`α`). The op itself is given by the
function it computes and by the optional methods it has; those are taken to do what their interfaces promise
(`UsePreallocDo` writes the result into the preallocated value, `IncrDo` adds it, `UnsafeDo` overwrites the first
operand), each reading its operands before it writes.
-/

set_option autoImplicit false

namespace Verif.Misc

/-- Tensors in memory; `calls` counts how often the function of the op was evaluated. -/
structure Mem (α : Type) where
  at_ : Nat → α
  next : Nat
  calls : Nat

/-- An op: the function (`none` is an error), addition for `IncrDo`, and the optional interfaces it implements. `inPlace`
says whether `IncrDo` adds in place or hands out the sum through an error with a value (`noIncrErr`, `errors.go:31-37`,
`op_math.go:354-372`). -/
structure XOp (α : Type) where
  f : List α → Option α
  add : α → α → α
  incrDoer : Bool
  inPlace : Bool
  preallocDoer : Bool
  unsafeDoer : Bool
  clDoer : Bool

/-- What a call of `Do` does: return a value, return an error, panic. -/
inductive Out where
  | ok (a : Nat)
  | err
  | panic
deriving DecidableEq

variable {α : Type}

def Mem.write (m : Mem α) (a : Nat) (x : α) : Mem α := { m with at_ := fun b => if b = a then x else m.at_ b }

def Mem.called (m : Mem α) : Mem α := { m with calls := m.calls + 1 }

def Mem.alloc (m : Mem α) (x : α) : Nat × Mem α :=
  (m.next, { (m.write m.next x) with next := m.next + 1 })

/-- `Op.Do`: a fresh value. -/
def XOp.do_ (o : XOp α) (vals : List Nat) (m : Mem α) : Out × Mem α :=
  match o.f (vals.map m.at_) with
  | none => (.err, m.called)
  | some x => let r := m.called.alloc x; (.ok r.1, r.2)

/-- `UsePreallocDo`. -/
def XOp.preallocDo (o : XOp α) (p : Nat) (vals : List Nat) (m : Mem α) : Out × Mem α :=
  match o.f (vals.map m.at_) with
  | none => (.err, m.called)
  | some x => (.ok p, m.called.write p x)

/-- `UnsafeDo`. -/
def XOp.unsafeDo (o : XOp α) (vals : List Nat) (m : Mem α) : Out × Mem α :=
  match o.f (vals.map m.at_) with
  | none => (.err, m.called)
  | some x =>
    match vals with
    | [] => (.panic, m.called)
    | v :: _ => (.ok v, m.called.write v x)

/-- `IncrDo` with the treatment of its error, `execution.go:86-92` and `131-137`. -/
def XOp.incrDo (o : XOp α) (i : Nat) (vals : List Nat) (m : Mem α) : Out × Mem α :=
  match o.f (vals.map m.at_) with
  | none => (.err, m.called)
  | some x =>
    if o.inPlace then (.ok i, m.called.write i (o.add (m.at_ i) x))
    else let r := m.called.alloc (o.add (m.at_ i) x); (.ok r.1, r.2)

/-- `ExternalOp`, `execution.go:33-40`. -/
structure External (α : Type) where
  op : XOp α
  cpu : Bool
  prealloc : Option Nat
  incr : Option Nat
  useUnsafe : Bool

/-- `NewExternalOp`, `execution.go:43-52`. -/
def newExternal (op : XOp α) (cpu : Bool) (prealloc : Option Nat) : External α :=
  { op := op, cpu := cpu, prealloc := prealloc, incr := none, useUnsafe := false }

/-- The second switch of `Do`, `execution.go:113-154`, without the `CUDADoer` case. -/
def External.second (e : External α) (vals : List Nat) (m : Mem α) : Out × Mem α :=
  if e.op.clDoer then (.panic, m)
  else if e.op.incrDoer then
    match e.incr with
    | some i => e.op.incrDo i vals m
    | none => e.op.do_ vals m
  else if e.op.preallocDoer then
    match e.prealloc with
    | some p => e.op.preallocDo p vals m
    | none => e.op.do_ vals m
  else if e.op.unsafeDoer then
    if e.useUnsafe then e.op.unsafeDo vals m else e.op.do_ vals m
  else e.op.do_ vals m

/-- The case of a preallocated value, `execution.go:94-102`: the result of `UsePreallocDo` is dropped, `Do` is called
again, and its result copied. -/
def External.preallocCase (e : External α) (p : Nat) (vals : List Nat) (m : Mem α) : Out × Mem α :=
  let m1 := if e.op.preallocDoer then (e.op.preallocDo p vals m).2 else m
  match e.op.do_ vals m1 with
  | (.ok a, m2) => (.ok p, m2.write p (m2.at_ a))
  | r => r

/-- `Do`, `execution.go:81-155`. -/
def External.run (e : External α) (vals : List Nat) (m : Mem α) : Out × Mem α :=
  if e.cpu then
    match e.incr with
    | some i => if e.op.incrDoer then e.op.incrDo i vals m else e.second vals m
    | none =>
      match e.prealloc with
      | some p => e.preallocCase p vals m
      | none => if e.useUnsafe && e.op.unsafeDoer then e.op.unsafeDo vals m else e.op.do_ vals m
  else e.second vals m

/-- The loop of `DetermineDevice`, `execution.go:59-71`: devices are integers, `-2` is the initial `inDev`; the
result is `none` for the error, otherwise the final `allSame`. -/
def determineLoop (dev : Int) : List Int → Int → Bool → Option Bool
  | [], _, same => some same
  | d :: ds, inDev, same =>
    let same := if d ≠ dev then false else same
    if inDev = -2 then determineLoop dev ds d same
    else if d ≠ inDev ∧ d ≠ dev then none
    else determineLoop dev ds inDev same

/-- `DetermineDevice`, `execution.go:55-78`: the device set, or an error. -/
def determineDevice (ins : List Int) (dev : Int) : Option Int :=
  match determineLoop dev ins (-2) false with
  | some true => some dev
  | _ => none

/-! ### Properties -/

theorem map_write_next (m : Mem α) (vals : List Nat) (x : α) (h : ∀ v ∈ vals, v < m.next) :
    vals.map (m.alloc x).2.at_ = vals.map m.at_ := by
  apply List.map_congr_left
  intro v hv
  have := h v hv
  simp only [Mem.alloc, Mem.write]
  rw [if_neg (by omega)]

theorem map_write_off (m : Mem α) (vals : List Nat) (p : Nat) (x : α) (h : p ∉ vals) :
    vals.map (m.write p x).at_ = vals.map m.at_ := by
  apply List.map_congr_left
  intro v hv
  simp only [Mem.write]
  rw [if_neg (by rintro rfl; exact h hv)]

/-- C95. Without a value to increment, a preallocated value or leave to overwrite, on the CPU: the value of the function
on the operands, in a fresh place; nothing that existed is changed; the function is evaluated once. -/
theorem plain_spec (op : XOp α) (vals : List Nat) (m : Mem α) (x : α) (hx : op.f (vals.map m.at_) = some x) :
    let r := (newExternal op true none).run vals m
    r.1 = .ok m.next ∧ r.2.at_ m.next = x ∧ (∀ a, a < m.next → r.2.at_ a = m.at_ a) ∧ r.2.calls = m.calls + 1 := by
  have h : (newExternal op true none).run vals m = (.ok m.next, (m.called.alloc x).2) := by
    simp [External.run, newExternal, XOp.do_, hx]
    rfl
  simp only [h]
  refine ⟨trivial, ?_, ?_, rfl⟩
  · simp [Mem.alloc, Mem.write, Mem.called]
  · intro a ha
    have : a ≠ m.next := by omega
    simp [Mem.alloc, Mem.write, Mem.called, this]

/-- C95. With a value to increment, an op that can increment leaves the sum of the old value and the result in the value
returned, and changes nothing else; when it adds in place, the value returned is the one given. -/
theorem incr_spec (e : External α) (i : Nat) (vals : List Nat) (m : Mem α) (x : α) (hi : e.incr = some i)
    (hd : e.op.incrDoer = true) (hl : e.op.clDoer = false) (hx : e.op.f (vals.map m.at_) = some x) (hb : i < m.next) :
    ∃ a, (e.run vals m).1 = .ok a ∧ (e.run vals m).2.at_ a = e.op.add (m.at_ i) x ∧
      (e.op.inPlace = true → a = i) ∧ (e.op.inPlace = false → a = m.next) ∧
      (∀ b, b < m.next → b ≠ i → (e.run vals m).2.at_ b = m.at_ b) ∧ (e.run vals m).2.calls = m.calls + 1 := by
  have h : e.run vals m = e.op.incrDo i vals m := by
    unfold External.run External.second
    cases e.cpu <;> simp [hi, hd, hl]
  rw [h]
  unfold XOp.incrDo
  simp only [hx]
  cases hp : e.op.inPlace with
  | true =>
    refine ⟨i, rfl, ?_, fun _ => rfl, fun h => by simp at h, ?_, rfl⟩
    · simp [Mem.write]
    · intro b _ hbi
      simp [Mem.write, hbi, Mem.called]
  | false =>
    refine ⟨m.next, rfl, ?_, fun h => by simp at h, fun _ => rfl, ?_, rfl⟩
    · simp [Mem.alloc, Mem.write, Mem.called]
    · intro b hb' _
      have : b ≠ m.next := by omega
      simp [Mem.alloc, Mem.write, Mem.called, this]

/-- C95. With a preallocated value that is no operand, on the CPU: the result ends up in the preallocated value, which is
returned, and no operand changes. An op that can use the value is evaluated twice. -/
theorem prealloc_spec_partial (e : External α) (p : Nat) (vals : List Nat) (m : Mem α) (x : α) (hc : e.cpu = true)
    (hi : e.incr = none) (hp : e.prealloc = some p) (hx : e.op.f (vals.map m.at_) = some x) (hv : p ∉ vals)
    (hb : p < m.next) :
    (e.run vals m).1 = .ok p ∧ (e.run vals m).2.at_ p = x ∧
      (∀ a, a < m.next → a ≠ p → (e.run vals m).2.at_ a = m.at_ a) ∧
      (e.run vals m).2.calls = m.calls + if e.op.preallocDoer then 2 else 1 := by
  have h : e.run vals m = e.preallocCase p vals m := by simp [External.run, hc, hi, hp]
  rw [h]
  unfold External.preallocCase
  cases hd : e.op.preallocDoer with
  | false =>
    have h3 : e.op.do_ vals m = (.ok m.next, (m.called.alloc x).2) := by simp [XOp.do_, hx]; rfl
    simp only [Bool.false_eq_true, if_false, h3]
    refine ⟨trivial, by simp [Mem.alloc, Mem.write, Mem.called], ?_, rfl⟩
    intro a ha hap
    have : a ≠ m.next := by omega
    simp [Mem.alloc, Mem.write, Mem.called, this, hap]
  | true =>
    have h1 : (e.op.preallocDo p vals m).2 = m.called.write p x := by simp [XOp.preallocDo, hx]
    have h2 : vals.map (m.called.write p x).at_ = vals.map m.at_ := map_write_off m.called vals p x hv
    have h3 : e.op.do_ vals (m.called.write p x) = (.ok m.next, ((m.called.write p x).called.alloc x).2) := by
      simp only [XOp.do_, h2, hx]; rfl
    simp only [if_true, h1, h3]
    refine ⟨trivial, by simp [Mem.alloc, Mem.write, Mem.called], ?_, rfl⟩
    intro a ha hap
    have : a ≠ m.next := by omega
    simp [Mem.alloc, Mem.write, Mem.called, this, hap]

/-- C95, where it fails. If the preallocated value is the only operand of an op that can use preallocated values, the
function is applied twice: the value returned is `f (f v)` instead of `f v`, for every function and value. -/
theorem prealloc_aliased (e : External α) (p : Nat) (m : Mem α) (x y : α) (hc : e.cpu = true) (hi : e.incr = none)
    (hp : e.prealloc = some p) (hd : e.op.preallocDoer = true) (hx : e.op.f [m.at_ p] = some x)
    (hy : e.op.f [x] = some y) :
    (e.run [p] m).1 = .ok p ∧ (e.run [p] m).2.at_ p = y := by
  have h : e.run [p] m = e.preallocCase p [p] m := by simp [External.run, hc, hi, hp]
  rw [h]
  have h1 : (e.op.preallocDo p [p] m).2 = m.called.write p x := by simp [XOp.preallocDo, hx]
  have h2 : [p].map (m.called.write p x).at_ = [x] := by simp [Mem.write]
  simp [External.preallocCase, hd, h1, XOp.do_, Mem.alloc, Mem.write, Mem.called, hy]

/-- C95, where it fails. An op that cannot increment ignores the value to increment: that value stays as it was (unless
it is itself the preallocated value, or the first operand of an op that overwrites it). -/
theorem incr_ignored (e : External α) (i : Nat) (vals : List Nat) (m : Mem α) (hi : e.incr = some i)
    (hd : e.op.incrDoer = false) (hb : i < m.next) (hp : e.prealloc ≠ some i) (hv : vals.head? ≠ some i) :
    (e.run vals m).2.at_ i = m.at_ i := by
  have h : e.run vals m = e.second vals m := by
    unfold External.run
    cases e.cpu <;> simp [hi, hd]
  have hdo : (e.op.do_ vals m).2.at_ i = m.at_ i := by
    unfold XOp.do_
    cases e.op.f (vals.map m.at_) with
    | none => rfl
    | some x =>
      have : i ≠ m.next := by omega
      simp [Mem.alloc, Mem.write, Mem.called, this]
  rw [h]
  unfold External.second
  simp only [hd, Bool.false_eq_true, if_false]
  by_cases hl : e.op.clDoer
  · simp [hl]
  rw [if_neg hl]
  by_cases hpd : e.op.preallocDoer
  · rw [if_pos hpd]
    cases hpa : e.prealloc with
    | none => exact hdo
    | some p =>
      unfold XOp.preallocDo
      cases e.op.f (vals.map m.at_) with
      | none => rfl
      | some x =>
        simp only [Mem.write, Mem.called]
        rw [if_neg (fun h => hp (by rw [hpa, h]))]
  · rw [if_neg hpd]
    by_cases hu : e.op.unsafeDoer
    · rw [if_pos hu]
      by_cases hs : e.useUnsafe
      · rw [if_pos hs]
        unfold XOp.unsafeDo
        cases e.op.f (vals.map m.at_) with
        | none => rfl
        | some x =>
          cases vals with
          | nil => rfl
          | cons v vs =>
            simp only [Mem.write, Mem.called]
            rw [if_neg (fun h => hv (by simp [h]))]
      · rw [if_neg hs]; exact hdo
    · rw [if_neg hu]; exact hdo

/-- C95, where it fails. Away from the CPU, an op that can increment ignores the preallocated value: it is not written,
and the result is elsewhere. -/
theorem prealloc_ignored_off_cpu (e : External α) (p : Nat) (vals : List Nat) (m : Mem α) (hc : e.cpu = false)
    (hi : e.incr = none) (_hp : e.prealloc = some p) (hd : e.op.incrDoer = true) (hb : p < m.next) :
    (e.run vals m).1 ≠ .ok p ∧ (e.run vals m).2.at_ p = m.at_ p := by
  unfold External.run External.second
  simp only [hc, hd, hi, Bool.false_eq_true, if_false]
  by_cases hl : e.op.clDoer
  · simp [hl]
  rw [if_neg hl]
  simp only [if_true]
  unfold XOp.do_
  cases e.op.f (vals.map m.at_) with
  | none => simp [Mem.called]
  | some x =>
    have : p ≠ m.next := by omega
    refine ⟨by intro h; injection h with h; exact this h.symm, ?_⟩
    simp [Mem.alloc, Mem.write, Mem.called, this]

/-- C95. Leave to overwrite: the result is in the first operand, which is returned, and no other value changes. -/
theorem unsafe_spec (e : External α) (v : Nat) (vs : List Nat) (m : Mem α) (x : α) (hi : e.incr = none)
    (hp : e.prealloc = none) (hu : e.useUnsafe = true) (hd : e.op.unsafeDoer = true) (hc : e.cpu = true)
    (hx : e.op.f ((v :: vs).map m.at_) = some x) :
    (e.run (v :: vs) m).1 = .ok v ∧ (e.run (v :: vs) m).2.at_ v = x ∧
      ∀ a, a ≠ v → (e.run (v :: vs) m).2.at_ a = m.at_ a := by
  have h : e.run (v :: vs) m = (.ok v, m.called.write v x) := by
    simp only [External.run, hc, hi, hp, hu, hd, if_true, Bool.and_self, XOp.unsafeDo, hx]
  rw [h]
  refine ⟨rfl, by simp [Mem.write], ?_⟩
  intro a ha
  simp [Mem.write, ha, Mem.called]

theorem determineLoop_false (dev : Int) (ins : List Int) : ∀ inDev, determineLoop dev ins inDev false ≠ some true := by
  induction ins with
  | nil => intro inDev; simp [determineLoop]
  | cons d ds ih =>
    intro inDev
    unfold determineLoop
    have : (if d ≠ dev then false else false) = false := by split <;> rfl
    simp only [this]
    by_cases h : inDev = -2
    · rw [if_pos h]; exact ih d
    · rw [if_neg h]
      by_cases h' : d ≠ inDev ∧ d ≠ dev
      · rw [if_pos h']; simp
      · rw [if_neg h']; exact ih inDev

/-- C95, where it fails. `DetermineDevice` never determines a device, not even when all nodes are on the same one. -/
theorem determineDevice_fails (ins : List Int) (dev : Int) : determineDevice ins dev = none := by
  unfold determineDevice
  have := determineLoop_false dev ins (-2)
  cases h : determineLoop dev ins (-2) false with
  | none => rfl
  | some b => cases b with
    | false => rfl
    | true => exact absurd h this

/-! ### Examples: numbers, `f` the sum plus one -/

def exOp (incr pre uns : Bool) : XOp Int :=
  { f := fun l => if l.isEmpty then none else some (l.sum + 1), add := (· + ·), incrDoer := incr, inPlace := true,
    preallocDoer := pre, unsafeDoer := uns, clDoer := false }

def exMem : Mem Int := { at_ := fun a => if a = 0 then 10 else if a = 1 then 20 else 0, next := 3, calls := 0 }

example : (newExternal (exOp true true true) true none).run [0, 1] exMem
    = (.ok 3, ((exMem.called.alloc 31).2)) := rfl
example : let r := (newExternal (exOp true true true) true (some 2)).run [0, 1] exMem
    r.1 = .ok 2 ∧ r.2.at_ 2 = 31 ∧ r.2.at_ 0 = 10 ∧ r.2.calls = 2 := by decide
example : let r := (newExternal (exOp true true true) true (some 0)).run [0] exMem
    r.1 = .ok 0 ∧ r.2.at_ 0 = 12 := by decide
example : let r := ({ newExternal (exOp true true true) true none with incr := some 2 }).run [0, 1] exMem
    r.1 = .ok 2 ∧ r.2.at_ 2 = 31 := by decide
example : let r := ({ newExternal (exOp false true true) true none with incr := some 2 }).run [0, 1] exMem
    r.1 = .ok 3 ∧ r.2.at_ 2 = 0 := by decide
example : let r := (newExternal (exOp true true true) false (some 2)).run [0, 1] exMem
    r.1 = .ok 3 ∧ r.2.at_ 2 = 0 := by decide
example : let r := ({ newExternal (exOp true true true) true none with useUnsafe := true }).run [0, 1] exMem
    r.1 = .ok 0 ∧ r.2.at_ 0 = 31 ∧ r.2.at_ 1 = 20 := by decide
example : (newExternal (exOp true true true) true none).run [] exMem = (.err, exMem.called) := rfl
example : determineDevice [-1, -1] (-1) = none := by decide

end Verif.Misc
