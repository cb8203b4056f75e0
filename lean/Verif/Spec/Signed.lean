import Mathlib.Data.Int.Notation
import Verif.Spec.Val

/-!
# Specification vocabulary for two's complement

Independent of the model: the signed value of a byte array and what it means to wrap an integer
into the range of `N` bytes.
-/

namespace Verif

/-- The signed (two's complement) number denoted by a little-endian byte list. -/
def sval (l : List (BitVec 8)) : ℤ :=
  if 2 * val l < 256 ^ l.length then val l else (val l : ℤ) - 256 ^ l.length

/-- `y` is the integer `x` wrapped into `[-256^N / 2, 256^N / 2)`. -/
def WrapsTo (N : Nat) (x y : ℤ) : Prop :=
  -(256 ^ N : ℤ) ≤ 2 * y ∧ 2 * y < 256 ^ N ∧ (256 ^ N : ℤ) ∣ y - x

end Verif
