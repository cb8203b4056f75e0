import Verif.Model.Float

/-!
# What floats stand for

The numbers a format can hold, and the exact results floating-point computations approximate.
-/

namespace Verif

/-- The numbers `m * 2^e` with `prec` significant bits and an exponent in the range of the format. -/
def FloatFmt.Has (f : FloatFmt) (q : ℚ) : Prop :=
  ∃ m e : Int, |m| < 2 ^ f.prec ∧ f.emin - (f.prec - 1) ≤ e ∧ q = m * 2 ^ e ∧ |q| < 2 ^ (f.emax + 1)

/-- The formats with at least one bit and the usual exponents around zero. -/
structure FloatFmt.Ok (f : FloatFmt) : Prop where
  prec_pos : 1 ≤ f.prec
  emin_le : f.emin ≤ 0
  prec_le : f.prec ≤ f.emax

/-- The relative error of one operation, and the absolute error of one that underflows. -/
def FloatFmt.u (f : FloatFmt) : ℚ := 1 / 2 ^ f.prec
def FloatFmt.eta (f : FloatFmt) : ℚ := 2 ^ (f.emin - f.prec)

/-- The largest finite number. -/
def FloatFmt.max (f : FloatFmt) : ℚ := (2 ^ f.prec - 1) * 2 ^ (f.emax - (f.prec - 1))

/-- The smallest number that is rounded to infinity: half-way between the largest finite number and the next
power of two. -/
def FloatFmt.over (f : FloatFmt) : ℚ := 2 ^ (f.emax + 1) - 2 ^ (f.emax - f.prec)

/-- A number that does not underflow. -/
def FloatFmt.Safe (f : FloatFmt) (x : ℚ) : Prop := x = 0 ∨ 2 ^ f.emin ≤ |x|

namespace Flt

/-- A float of the format, as opposed to any element of the type of the model. -/
def Valid {f : FloatFmt} : Flt f → Prop
  | .fin q => f.Has q
  | _ => True

/-- A vector of finite floats with given values. -/
def vec {f : FloatFmt} {n : Nat} (x : Fin n → ℚ) : List (Flt f) := List.ofFn fun i => .fin (x i)

/-- The finite float that is an integer. -/
def ofZ {f : FloatFmt} (z : Int) : Flt f := .fin z

/-- The result of adding up `n` terms, the magnitudes of which add up to `mag`: if it is finite, it
differs from the exact result by a relative error of about `n` units in the last place of `mag` only, and
it is finite unless `mag` comes near the largest finite number. -/
def Accurate {f : FloatFmt} (r : Flt f) (exact mag : ℚ) (n : Nat) : Prop :=
  (∀ v, r = .fin v →
    |v - exact| ≤ ((1 + f.u) ^ n - 1) * mag + n * (1 + f.u) ^ (n - 1) * f.eta) ∧
  ((1 + f.u) ^ n * mag + n * (1 + f.u) ^ (n - 1) * f.eta ≤ f.max → ∃ v, r = .fin v)

/-- The same for the result of adding up `n` terms each of which is a sum or a difference of two
products, `mag` being the sum of the magnitudes of all these products. -/
def AccuratePairs {f : FloatFmt} (r : Flt f) (exact mag : ℚ) (n : Nat) : Prop :=
  (∀ v, r = .fin v →
    |v - exact| ≤ ((1 + f.u) ^ (n + 1) - 1) * mag + 2 * n * (1 + f.u) ^ n * f.eta) ∧
  ((1 + f.u) ^ (n + 1) * mag + 2 * n * (1 + f.u) ^ n * f.eta ≤ f.max → ∃ v, r = .fin v)

end Flt

end Verif
