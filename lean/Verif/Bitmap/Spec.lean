import Verif.Bitmap.Model
/-! Specification of the bitmap, independent of words and blocks. -/
set_option autoImplicit false
namespace Verif.Bitmap

/-- The index an operation talks about. -/
def Op.index : Op → Int
  | .set i => i
  | .clear i => i

/-- Is it a `Set` call? -/
def Op.isSetOp : Op → Bool
  | .set _ => true
  | .clear _ => false

/-- Membership after a history: was the last call about `i` a `Set`? -/
def member (ops : List Op) (i : Int) : Bool :=
  match ops.reverse.find? (fun o => o.index == i) with
  | some o => o.isSetOp
  | none => false

/-- The word has `k` zero bits in a row. -/
def HasZeroRun (b : BitVec 64) (k : Nat) : Prop :=
  ∃ j, j + k ≤ 64 ∧ ∀ t, t < k → b.getLsbD (j + t) = false

/-- `r` is the position of the first word of the list that has a run of `k` zeroes, `-1` if there is none. -/
def IsFirstBlock (n : List (BitVec 64)) (k : Nat) (r : Int) : Prop :=
  (r = -1 ∧ ∀ b ∈ n, ¬ HasZeroRun b k) ∨
  (∃ i : Nat, ∃ h : i < n.length, r = i ∧ HasZeroRun n[i] k ∧
    ∀ i' : Nat, ∀ h' : i' < n.length, i' < i → ¬ HasZeroRun n[i'] k)

end Verif.Bitmap
