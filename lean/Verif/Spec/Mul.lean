import Mathlib.Data.Nat.Notation

/-!
# Spec: overflow noticed by schoolbook multiplication in a register

Plain arithmetic on natural numbers; no reference to the model.
-/

namespace Verif

/-- Multiply `x` by `y` row by row, from the highest base-`2^w` digit of `x` down, in a register of
`n` digits, dropping everything above the register. For digit `i` the product of the digits above
`i` is already in the register and the row of digit `i` is added to it. A row carries if the two,
cut to the `n - i` digits from position `i` up, do not fit these. -/
def RowCarries (w n x y : Nat) : Prop :=
  ∃ i < n, 2 ^ (w * (n - i)) ≤
    2 ^ w * (x / 2 ^ (w * (i + 1))) * y % 2 ^ (w * (n - i))
      + x / 2 ^ (w * i) % 2 ^ w * y % 2 ^ (w * (n - i))

end Verif
