import Mathlib.Data.Rat.Floor
import Verif.Model.Rat

/-!
# Specification vocabulary for the real number types
-/

namespace Verif

/-- The number denoted by a fixed-point value with `N` fractional bits. -/
def fval (N : Nat) (x : Int) : ℚ := (x : ℚ) / 2 ^ N

/-- The fraction dropped toward zero. -/
def truncQ (q : ℚ) : Int := if 0 ≤ q then ⌊q⌋ else ⌈q⌉

/-- The number denoted by a fraction. -/
def qval (x : RatM) : ℚ := (x.num : ℚ) / x.denom

/-- A fraction that `Rat` may hold: both parts are values of the type, the denominator is not zero. -/
structure RatValid (p : Prim) (x : RatM) : Prop where
  num : p.InRange x.num
  denom : p.InRange x.denom
  nonzero : x.denom ≠ 0

/-- `a` is not the minimum of a signed type. -/
def NoMin (p : Prim) (a : Int) : Prop := ¬ (p.signed = true ∧ a = p.minV)

end Verif
