/-!
Model of the device memory allocator `/repo/cuda/bfc.go`.

Memory blocks are cells of a pointer heap, so that the code's doubly linked free list is modelled with its
actual pointer assignments.  Addresses and sizes are unbounded integers (no 64-bit overflow), a panic (nil
dereference, explicit `panic`) or an endless loop is `none`, and the logging calls are left out.

`repair` selects the program: `false` is the code of the repository; `true` additionally resets the `prev`
pointer of the block after a merged one (what `coalesce` forgets to do at bfc.go 437).  The ghost flag
`clobbered` records that a merge of the unrepaired code has left a stale `prev` pointer.
-/
set_option autoImplicit false
namespace Verif.BFC

/-- `memblock`, bfc.go 20-25; pointers are heap positions. -/
structure Blk where
  addr : Int
  size : Int
  next : Option Nat
  prev : Option Nat

/-- `cap`, bfc.go 34. -/
def Blk.cap (b : Blk) : Int := b.addr + b.size

/-- `freelist`, bfc.go 95-98, with the heap its pointers live in; `fresh` is the next unused position. -/
structure FL where
  heap : Nat → Blk
  fresh : Nat
  first : Option Nat
  last : Option Nat
  len : Int
  clobbered : Bool

/-- Assignment through a pointer. -/
def upd (h : Nat → Blk) (p : Nat) (f : Blk → Blk) : Nat → Blk := fun q => if q = p then f (h p) else h q

/-- `newMemblock`, bfc.go 27-32: the new block sits at `l.fresh`. -/
def FL.newBlock (l : FL) (addr size : Int) : FL :=
  { l with heap := upd l.heap l.fresh (fun _ => ⟨addr, size, none, none⟩), fresh := l.fresh + 1 }

/-- `overlaps`, bfc.go 37-59. -/
def overlaps (h : Nat → Blk) (a b : Nat) : Bool :=
  if a = b then true
  else if (h a).addr = (h b).addr then true
  else if (h a).addr < (h b).addr then decide ((h b).addr < (h a).cap)
  else decide ((h a).addr < (h b).cap)

/-- Assignment to a `size` field. -/
def FL.addSize (l : FL) (p : Nat) (d : Int) : FL :=
  { l with heap := upd l.heap p (fun b => { b with size := b.size + d }) }

/-- The search loop of `insert`, bfc.go 166-222. `fuel` bounds the number of iterations; running out of it
is an endless loop. -/
def insertLoop (l : FL) (n : Nat) : Nat → Nat → Option FL
  | 0, _ => none
  | fuel + 1, b =>
    let h := l.heap
    let ov := overlaps h b n
    if (h b).addr < (h n).addr ∧ ov then
      if (h n).cap ≤ (h b).cap then some l
      else some (l.addSize b ((h b).cap - (h n).cap))
    else if (h b).addr < (h n).addr then
      match (h b).next with
      | none => none
      | some c =>
        if (h c).addr ≥ (h n).cap then
          let h1 := upd h b (fun x => { x with next := some n })
          let h2 := upd h1 n (fun x => { x with next := some c, prev := some b })
          let h3 := upd h2 c (fun x => { x with prev := some n })
          some { l with heap := h3, len := l.len + 1 }
        else insertLoop l n fuel c
    else if (h b).addr = (h n).addr then
      if (h b).size > (h n).size then some l
      else some { l with heap := upd h b (fun x => { x with size := (h n).size }) }
    else if ov then
      if (h b).cap ≤ (h n).cap then
        some { l with heap := upd h b (fun x => { x with addr := (h n).addr, size := (h n).size }) }
      else
        some { l with heap := upd h b (fun x => { x with addr := (h n).addr,
                                                         size := (h n).size + ((h b).cap - (h n).cap) }) }
    else none

/-- `insert`, bfc.go 113-223. -/
def FL.insert (l : FL) (n : Nat) : Option FL :=
  match l.first with
  | none => some { l with first := some n, last := some n, len := l.len + 1 }
  | some f =>
    match l.last with
    | none => none
    | some la =>
      let h := l.heap
      if (h n).addr ≥ (h la).addr then
        if overlaps h n la then
          if (h n).cap < (h la).cap then some l
          else some (l.addSize la ((h n).cap - (h la).cap))
        else
          let h1 := upd h la (fun x => { x with next := some n })
          let h2 := upd h1 n (fun x => { x with prev := some la, next := none })
          some { l with heap := h2, last := some n, len := l.len + 1 }
      else if (h n).addr < (h f).addr then
        if overlaps h n f then
          if (h f).cap < (h n).cap then some l
          else some (l.addSize f ((h n).cap - (h f).cap))
        else
          let h1 := upd h f (fun x => { x with prev := some n })
          let h2 := upd h1 n (fun x => { x with next := some f })
          some { l with heap := h2, first := some n, len := l.len + 1 }
      else insertLoop l n l.fresh f

/-- `remove`, bfc.go 225-243. -/
def FL.remove (l : FL) (p : Nat) : Option FL :=
  let step1 : Option FL :=
    if l.first = some p then some { l with first := (l.heap p).next }
    else
      match (l.heap p).prev with
      | none => none
      | some q => some { l with heap := upd l.heap q (fun x => { x with next := (l.heap p).next }) }
  step1.bind fun l =>
    let step2 : Option FL :=
      if l.last = some p then some { l with last := (l.heap p).prev }
      else
        match (l.heap p).next with
        | none => none
        | some q => some { l with heap := upd l.heap q (fun x => { x with prev := (l.heap p).prev }) }
    step2.map fun l =>
      { l with heap := upd l.heap p (fun x => { x with next := none, prev := none }), len := l.len - 1 }

/-- `split` followed by `insert` of the part cut off (bfc.go 61-71, 247-254). -/
def FL.splitInsert (l : FL) (p : Nat) (size : Int) : Option FL :=
  if (l.heap p).size > size then
    let b := l.heap p
    let l1 := { l with heap := upd l.heap p (fun x => { x with size := size }) }
    let l2 := l1.newBlock (b.addr + size) (b.size - size)
    l2.insert l1.fresh
  else some l

/-- `splitOrRemove`, bfc.go 246-256. -/
def FL.splitOrRemove (l : FL) (p : Nat) (aligned size : Int) : Option FL :=
  (l.splitInsert p aligned).bind fun l => (l.splitInsert p size).bind fun l => l.remove p

/-- Merging `q = p.next` into `p`, bfc.go 436-445. -/
def FL.merge (repair : Bool) (l : FL) (p q : Nat) : FL :=
  let qb := l.heap q
  let h1 := upd l.heap p (fun x => { x with size := x.size + qb.size, next := qb.next })
  let h2 := match repair, qb.next with
    | true, some r => upd h1 r (fun x => { x with prev := some p })
    | _, _ => h1
  let h3 := upd h2 q (fun x => { x with next := none, prev := none })
  { l with heap := h3, last := if l.last = some q then some p else l.last, len := l.len - 1,
           clobbered := l.clobbered || (!repair && qb.next.isSome) }

/-- The inner loop of `coalesce`, bfc.go 432-452. -/
def innerLoop (repair : Bool) : Nat → FL → Nat → Option FL
  | 0, _, _ => none
  | fuel + 1, l, p =>
    match (l.heap p).next with
    | none => some l
    | some q =>
      if (l.heap p).cap = (l.heap q).addr then innerLoop repair fuel (l.merge repair p q) p
      else if overlaps l.heap p q then none
      else some l

/-- The outer loop of `coalesce`, bfc.go 428-453. -/
def outerLoop (repair : Bool) (bs : Int) : Nat → FL → Option Nat → Option FL
  | _, l, none => some l
  | 0, _, some _ => none
  | fuel + 1, l, some p =>
    if (l.heap p).addr % bs ≠ 0 then outerLoop repair bs fuel l (l.heap p).next
    else (innerLoop repair (l.fresh + 1) l p).bind fun l => outerLoop repair bs fuel l (l.heap p).next

/-- `coalesce`, bfc.go 425-454. -/
def FL.coalesce (repair : Bool) (bs : Int) (l : FL) : Option FL :=
  outerLoop repair bs (l.fresh + 1) l l.first

/-- The loop of `bestFit`, bfc.go 413-420 (which returns the first fit). `none` outside is an endless
loop. -/
def bestFitLoop (h : Nat → Blk) (size : Int) : Nat → Option Nat → Option (Option Nat)
  | _, none => some none
  | 0, some _ => none
  | fuel + 1, some p => if (h p).size ≥ size then some (some p) else bestFitLoop h size fuel (h p).next

/-- `bestFit`, bfc.go 413-420. -/
def FL.bestFit (l : FL) (size : Int) : Option (Option Nat) := bestFitLoop l.heap size (l.fresh + 1) l.first

/-- `bfc`, bfc.go 298-311. `used` is the Go map as an association list with unique keys. -/
structure BFC where
  start : Int
  size : Int
  blockSize : Int
  reserved : Int
  fl : FL
  used : List (Int × Int)
  allocated : Int
  allocs : Nat
  frees : Nat

/-- Map lookup. -/
def look (m : List (Int × Int)) (k : Int) : Option Int := (m.find? (fun e => e.1 == k)).map (·.2)

/-- Map deletion. -/
def del (m : List (Int × Int)) (k : Int) : List (Int × Int) := m.filter (fun e => e.1 != k)

/-- `align`, bfc.go 456-463 (sizes positive here, so Go's `%` is the Euclidean one). -/
def align (bs size : Int) : Int :=
  let blocks := size % bs
  if blocks = 0 then size else size - blocks + bs

/-- An empty free list, `new(freelist)`. -/
def FL.empty : FL := ⟨fun _ => ⟨0, 0, none, none⟩, 0, none, none, 0, false⟩

/-- `makeBFC` and `reserve`, bfc.go 318-324 and 333-340. -/
def reserve (blockSize start size : Int) : Option BFC :=
  let l := FL.empty.newBlock 0 size
  (l.insert 0).map fun l =>
    { start := start, size := size - size % blockSize, blockSize := blockSize, reserved := size,
      fl := l, used := [], allocated := 0, allocs := 0, frees := 0 }

/-- Result of `alloc`. -/
inductive Out where
  | addr (a : Int)
  | bad
  | oom
  | none
  deriving DecidableEq

/-- The part of `alloc` after a block was found, bfc.go 375-381. -/
def take (b : BFC) (p : Nat) (aligned size : Int) : Option (BFC × Out) :=
  (b.fl.splitOrRemove p aligned size).map fun l =>
    let a := (l.heap p).addr
    ({ b with fl := l, used := (a, size) :: del b.used a, allocated := b.allocated + size,
              allocs := b.allocs + 1 }, .addr (a + b.start))

/-- `alloc`, bfc.go 351-382. -/
def alloc (repair : Bool) (b : BFC) (size : Int) : Option (BFC × Out) :=
  if size ≤ 0 then some (b, .bad)
  else
    let aligned := align b.blockSize size
    (b.fl.bestFit aligned).bind fun
      | some p => take b p aligned size
      | none =>
        (b.fl.coalesce repair b.blockSize).bind fun l =>
          (l.bestFit aligned).bind fun
            | none => some ({ b with fl := l }, .oom)
            | some p => take { b with fl := l } p aligned size

/-- `free`, bfc.go 384-411. The test on the ratio of frees to allocations (floating point, bfc.go 408) is
an arbitrary predicate `thresh`. -/
def free (repair : Bool) (thresh : Nat → Nat → Bool) (b : BFC) (address : Int) : Option BFC :=
  let a := address - b.start
  match look b.used a with
  | none => some b
  | some size =>
    let l := b.fl.newBlock a size
    (l.insert b.fl.fresh).bind fun l =>
      let b' := { b with fl := l, used := del b.used a, allocated := b.allocated - size, frees := b.frees + 1 }
      if thresh b'.frees b'.allocs then
        (l.coalesce repair b.blockSize).map fun l => { b' with fl := l }
      else some b'

/-- The ratio test of the code, bfc.go 14 and 408, exact on integers. -/
def codeThresh (frees allocs : Nat) : Bool := decide (4 * frees ≥ 3 * allocs)

/-- Client calls. -/
inductive Op where
  | alloc (size : Int)
  | free (address : Int)

/-- One client call. -/
def step (repair : Bool) (thresh : Nat → Nat → Bool) (b : BFC) : Op → Option (BFC × Out)
  | .alloc s => alloc repair b s
  | .free a => (free repair thresh b a).map (fun b => (b, .none))

/-- A history of client calls, with the results; `none` if some call panics or loops. -/
def run (repair : Bool) (thresh : Nat → Nat → Bool) (b : BFC) : List Op → Option (BFC × List Out)
  | [] => some (b, [])
  | o :: os => (step repair thresh b o).bind fun (b, r) =>
      (run repair thresh b os).map fun (b, rs) => (b, r :: rs)

end Verif.BFC
