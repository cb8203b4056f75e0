/-!
# Specification vocabulary for limb lists

Independent of the model: the number denoted by a little-endian limb list, and what it means
to be normalised.
-/

namespace Verif

variable {w : Nat}

/-- The number denoted by a little-endian list of `w`-bit limbs. -/
def val : List (BitVec w) → Nat
  | [] => 0
  | x :: xs => x.toNat + 2 ^ w * val xs

/-- Normalised: nonempty, and a single limb or no high zero limb. -/
def Norm (s : List (BitVec w)) : Prop := s ≠ [] ∧ (s.length = 1 ∨ s.getLast? ≠ some 0)

instance (s : List (BitVec w)) : Decidable (Norm s) := by unfold Norm; infer_instance

/-- The number of values representable in the slice: `2 ^ bits`. -/
def modulus (s : List (BitVec w)) : Nat := 2 ^ (w * s.length)

end Verif
