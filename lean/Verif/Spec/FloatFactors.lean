import Mathlib.LinearAlgebra.Matrix.Determinant.Basic
import Verif.Spec.Float
import Verif.Spec.Matrix

/-!
# Specification of elimination with rounding errors

What backward error analysis promises about a matrix that elimination returns.
-/

namespace Verif

open Flt

variable {N : Nat}

/-- The sizes of the terms that make up an entry of the product of two matrices. -/
def magnitude (L U : Matrix (Fin N) (Fin N) ℚ) : Matrix (Fin N) (Fin N) ℚ :=
  L.map (fun x => |x|) * U.map (fun x => |x|)

/-- What underflow may contribute to entry `(i, j)`. -/
def FloatFmt.underflow (f : FloatFmt) (U : Matrix (Fin N) (Fin N) ℚ) (i j : Fin N) : ℚ :=
  ∑ m with m < i, f.eta * (1 + |U m j|)

/-- `B` consists of the rows of `U`, up to entries as small as rounding errors where `U` is zero, and the
matrix `A` with its rows ordered by `σ` is the product of `L` and `U`, up to rounding errors: the errors
of row `i` are those of `i` operations on the terms of the product. -/
structure Factors (f : FloatFmt) (A B : Matrix (Fin N) (Fin N) ℚ) (σ : Equiv.Perm (Fin N))
    (L U : Matrix (Fin N) (Fin N) ℚ) : Prop where
  diagonal : ∀ i, L i i = 1
  lower : ∀ i j, i < j → L i j = 0
  echelon : IsEchelon U
  close : ∀ i j, |A (σ i) j - (L * U) i j| ≤
    ((1 + f.u) ^ (i : Nat) - 1) * magnitude L U i j + (1 + f.u) ^ (i : Nat) * f.underflow U i j
  result : ∀ i j, B i j = U i j ∨
    U i j = 0 ∧ |B i j| ≤ (1 + f.u) * (2 * f.u * magnitude L U i j + f.underflow U i j)

end Verif
