/-!
Model of `/repo/bitmap.go`.

`[]uint64` is a list of 64-bit words, a Go `int` is an `Int`, a panic is `none`.
-/
set_option autoImplicit false
namespace Verif.Bitmap

/-- `bitmapBits`, bitmap.go 5-7. -/
abbrev bits : Nat := 64

/-- `type bitmap struct`, bitmap.go 10-13. -/
structure Bitmap where
  n : List (BitVec 64)
  max : Int
  deriving DecidableEq

/-- `newBitmap`, bitmap.go 16-27. `size` non-negative (`make` panics otherwise). -/
def new (size : Nat) : Bitmap :=
  let q := size / bits
  let r := size % bits
  let q := if r > 0 then q + 1 else q
  { n := List.replicate q 0#64, max := size }

/-- `(*bitmap).Set`, bitmap.go 30-37. -/
def Bitmap.set (bm : Bitmap) (i : Int) : Option Bitmap :=
  if i ≥ bm.max ∨ i < 0 then none
  else
    let block := i.toNat / bits
    let pos := i.toNat % bits
    match bm.n[block]? with
    | none => none
    | some w => some { bm with n := bm.n.set block (w ||| (1#64 <<< pos)) }

/-- `(*bitmap).IsSet`, bitmap.go 40-47. -/
def Bitmap.isSet (bm : Bitmap) (i : Int) : Option Bool :=
  if i ≥ bm.max ∨ i < 0 then none
  else
    let block := i.toNat / bits
    let pos := i.toNat % bits
    match bm.n[block]? with
    | none => none
    | some w => some (((w >>> pos) &&& 1#64) == 1#64)

/-- `(*bitmap).Clear`, bitmap.go 50-57. -/
def Bitmap.clear (bm : Bitmap) (i : Int) : Option Bitmap :=
  if i ≥ bm.max ∨ i < 0 then none
  else
    let block := i.toNat / bits
    let pos := i.toNat % bits
    match bm.n[block]? with
    | none => none
    | some w => some { bm with n := bm.n.set block (w &&& ~~~(1#64 <<< pos)) }

/-- `bits.OnesCount64` of the Go standard library (used at bitmap.go 63). -/
def onesCount (b : BitVec 64) : Nat := (List.range 64).countP (fun j => b.getLsbD j)

/-- `bits.LeadingZeros64` of the Go standard library (used at bitmap.go 65): number of zero bits above
the highest one bit. -/
def leadingZeros (b : BitVec 64) : Nat :=
  ((List.range 64).takeWhile (fun j => !b.getLsbD (63 - j))).length

/-- Inner loop of `BlocksWithZero`, bitmap.go 69-79: `js` are the remaining bit positions. -/
def scanBlock (b : BitVec 64) (atleast : Nat) : List Nat → Nat → Bool
  | [], _ => false
  | j :: js, consecutive =>
    let consecutive := if ((b >>> j) &&& 1#64) == 0#64 then consecutive + 1 else 0
    if consecutive > atleast then true else scanBlock b atleast js consecutive

/-- Loop of `BlocksWithZero`, bitmap.go 62-81; `i` is the index of the head of the list. -/
def blocksWithZeroFrom (atleast : Nat) : List (BitVec 64) → Nat → Int
  | [], _ => -1
  | b :: bs, i =>
    if onesCount b ≠ 64 then
      if leadingZeros b > atleast then i
      else if scanBlock b atleast (List.range 64) 0 then i
      else blocksWithZeroFrom atleast bs (i + 1)
    else blocksWithZeroFrom atleast bs (i + 1)

/-- `(*bitmap).BlocksWithZero`, bitmap.go 60-83 (argument restricted to non-negative). -/
def Bitmap.blocksWithZero (bm : Bitmap) (atleast : Nat) : Int :=
  blocksWithZeroFrom atleast bm.n 0

/-- One mutating call. -/
inductive Op where
  | set (i : Int)
  | clear (i : Int)
  deriving DecidableEq

/-- Executing one call. -/
def step (bm : Bitmap) : Op → Option Bitmap
  | .set i => bm.set i
  | .clear i => bm.clear i

/-- Executing a sequence of calls; `none` as soon as one panics. -/
def run (bm : Bitmap) : List Op → Option Bitmap
  | [] => some bm
  | o :: os => (step bm o).bind (fun bm => run bm os)

end Verif.Bitmap
