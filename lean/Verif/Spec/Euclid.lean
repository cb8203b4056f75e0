/-!
# Specification vocabulary: Euclid's algorithm with signs
-/

namespace Verif

/-- The last nonzero remainder of Euclid's algorithm with truncating division, started at `a`, `b`.
Up to sign this is the greatest common divisor. -/
def lastRem (a b : Int) : Int :=
  if _h : b = 0 then a else lastRem b (a.tmod b)
termination_by b.natAbs
decreasing_by
  rw [Int.natAbs_tmod]
  exact Nat.mod_lt _ (Int.natAbs_pos.mpr _h)

/-- Euclid's algorithm on two numbers, the larger one divided by the smaller one first. -/
def signedGcd (a b : Int) : Int := lastRem (max a b) (min a b)

end Verif
