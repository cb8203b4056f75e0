import Mathlib.LinearAlgebra.Matrix.Determinant.Basic

/-!
# Specification of exact elimination

Which matrices arise from a square matrix of rational numbers if in each round the smallest nonzero entry
of the first column that is not cleared yet is taken for the pivot.
-/

namespace Verif

variable {N : Nat}

/-- Rows from `k` on are not finished: `q` is the first column in which one of them is not zero, and `p`
a row of the smallest number other than zero there. -/
structure IsPivot (k : Nat) (B : Matrix (Fin N) (Fin N) ℚ) (p q : Fin N) : Prop where
  row : k ≤ p
  ne : B p q ≠ 0
  smallest : ∀ i : Fin N, k ≤ i → B i q ≠ 0 → B p q ≤ B i q
  first : ∀ i j : Fin N, k ≤ i → j < q → B i j = 0

/-- Rows `p` and `k` are exchanged, and multiples of the new row `k` subtracted from the rows below, so that
column `q` becomes zero there. -/
def eliminate (k : Fin N) (B : Matrix (Fin N) (Fin N) ℚ) (p q : Fin N) : Matrix (Fin N) (Fin N) ℚ :=
  Matrix.of fun i j => if k < i then B (Equiv.swap p k i) j - B p j * (B (Equiv.swap p k i) q / B p q)
    else B (Equiv.swap p k i) j

/-- `B` arises from `A` in `k` rounds of elimination. -/
inductive Arises (A : Matrix (Fin N) (Fin N) ℚ) : Nat → Matrix (Fin N) (Fin N) ℚ → Prop
  | start : Arises A 0 A
  | step {k : Fin N} {B : Matrix (Fin N) (Fin N) ℚ} {p q : Fin N} :
    Arises A k B → IsPivot k B p q → Arises A (k + 1) (eliminate k B p q)

end Verif
