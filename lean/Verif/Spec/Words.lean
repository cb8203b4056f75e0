import Mathlib.Data.Nat.Digits.Defs

/-!
# A natural number as words of `w` bits
-/

namespace Verif

/-- How many words of `w` bits `n` takes; zero takes one. -/
def words (w n : Nat) : Nat := max 1 (Nat.digits (2 ^ w) n).length

/-- The words of `n` read in the wrong direction, the least significant one first. -/
def backwards (w n : Nat) : Nat := Nat.ofDigits (2 ^ w) (Nat.digits (2 ^ w) n).reverse

end Verif
