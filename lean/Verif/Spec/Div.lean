import Mathlib.Data.Nat.Notation

/-!
# Spec: when shift-and-subtract division with a low-limb-first comparison is right

Plain arithmetic on natural numbers; no reference to the model.
-/

namespace Verif

/-- "At least" in the order that compares base-`2^w` digits from the least significant one: equal,
or larger in the lowest digit that differs. -/
def LowGe (w x y : Nat) : Prop :=
  x = y ∨ ∃ j, (∀ k < j, x / 2 ^ (w * k) % 2 ^ w = y / 2 ^ (w * k) % 2 ^ w) ∧
    y / 2 ^ (w * j) % 2 ^ w < x / 2 ^ (w * j) % 2 ^ w

/-- The partial remainder of schoolbook binary division of `n` by `d` just before bit `i` of the
quotient is decided: the remainder of the bits above `i`, doubled, plus bit `i`. -/
def partialRem (n d i : Nat) : Nat := 2 * (n / 2 ^ (i + 1) % d) + (n.testBit i).toNat

/-- Every comparison made while dividing `n` by `d` in a register of `W` bits comes out right,
although it is made in the low-digit-first order and on the partial remainder cut to `W` bits. -/
def ComparesRight (w W n d : Nat) : Prop :=
  ∀ i < W, (LowGe w (partialRem n d i % 2 ^ W) d ↔ d ≤ partialRem n d i)

/-- What is left of the limbs of the number `n` from limb `i` on, modulo `2^W`, after subtracting the divisor
`d` as often as the limbs of `q` above `i` say, and `k` times more. -/
def leftOver (w W n d q i k : Nat) : Nat :=
  (((n / 2 ^ (w * i) : Nat) - (q / 2 ^ (w * (i + 1)) * 2 ^ w + k : Nat) * d : Int) % 2 ^ W).toNat

/-- The quotient `q` and remainder `r` of dividing `n` by `d` by shift and subtract in a register of `W`
bits, if what is left is compared with the divisor in the low-digit-first order: bit `i` of `q` is set just if
what is left of the bits from `i` on, the divisor being subtracted as often as the higher bits of `q` say, is
not less than the divisor in that order; and `r` is what is left in the end. -/
def LowQuot (w W n d q r : Nat) : Prop :=
  q < 2 ^ W ∧ r < 2 ^ W ∧ (q * d + r) % 2 ^ W = n % 2 ^ W ∧
    ∀ i < W, (q.testBit i = true ↔ LowGe w (leftOver 1 W n d q i 0) d)

end Verif
