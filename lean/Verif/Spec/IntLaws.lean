import Mathlib.Data.Rat.Floor
import Verif.Spec.Real
import Verif.Model.SignedInts

/-!
# What a type of integers has to satisfy

`v` is the integer a value stands for, `Valid` says which values there are, `Fits` which integers the type
can represent.
-/

namespace Verif

/-- Whenever the exact result can be represented, it is returned. Comparisons are right. (Nothing is said
about results that cannot be represented.) -/
structure Computes {α : Type} (o : IntOps α) (v : α → Int) (Valid : α → Prop) (Fits : Int → Prop) :
    Prop where
  fits : ∀ a, Valid a → Fits (v a)
  interval : ∀ z z', Fits z → (0 ≤ z' ∧ z' ≤ z) ∨ (z ≤ z' ∧ z' ≤ 0) → Fits z'
  zero : Valid o.zero ∧ v o.zero = 0
  one : Valid o.one ∧ v o.one = 1
  add : ∀ a b, Valid a → Valid b → Fits (v a + v b) → ∃ c, o.add a b = .ok c ∧ Valid c ∧ v c = v a + v b
  sub : ∀ a b, Valid a → Valid b → Fits (v a - v b) → ∃ c, o.sub a b = .ok c ∧ Valid c ∧ v c = v a - v b
  mul : ∀ a b, Valid a → Valid b → Fits (v a * v b) → ∃ c, o.mul a b = .ok c ∧ Valid c ∧ v c = v a * v b
  div : ∀ a b, Valid a → Valid b → v b ≠ 0 → Fits ((v a).tdiv (v b)) →
    ∃ c, o.div a b = .ok c ∧ Valid c ∧ v c = (v a).tdiv (v b)
  rem : ∀ a b, Valid a → Valid b → v b ≠ 0 → Fits ((v a).tdiv (v b)) →
    ∃ c, o.rem a b = .ok c ∧ Valid c ∧ v c = (v a).tmod (v b)
  eq : ∀ a b, Valid a → Valid b → (o.eq a b = true ↔ v a = v b)
  cmp : ∀ a b, Valid a → Valid b → o.cmp a b = .ok (compare (v a) (v b))

/-- Likewise for the operators on bits: `<<` multiplies, `>>` divides and rounds down, `x & !k` with
`k = 2^n - 1` is `x` exactly for the multiples of `2^n`. -/
structure ComputesBits {α : Type} (o : IntOps α) (v : α → Int) (Valid : α → Prop) (Fits : Int → Prop) :
    Prop where
  shl : ∀ a n, Valid a → Fits (2 ^ n) → Fits (v a * 2 ^ n) →
    ∃ c, o.shl a n = .ok c ∧ Valid c ∧ v c = v a * 2 ^ n
  shr : ∀ a n, Valid a → Fits (2 ^ n) → ∃ c, o.shr a n = .ok c ∧ Valid c ∧ v c = v a / 2 ^ n
  clear : ∀ a k n, Valid a → Valid k → Fits (2 ^ n) → v k = 2 ^ n - 1 →
    ∃ k' c, o.not k = .ok k' ∧ o.and a k' = .ok c ∧ Valid c ∧ (v c = v a ↔ (2 ^ n : Int) ∣ v a)

/-- Whatever the arithmetic operators return is exact. (They may panic.) -/
structure Checks {α : Type} (o : IntOps α) (v : α → Int) (Valid : α → Prop) : Prop where
  zero : Valid o.zero ∧ v o.zero = 0
  one : Valid o.one ∧ v o.one = 1
  add : ∀ a b c, Valid a → Valid b → o.add a b = .ok c → Valid c ∧ v c = v a + v b
  sub : ∀ a b c, Valid a → Valid b → o.sub a b = .ok c → Valid c ∧ v c = v a - v b
  mul : ∀ a b c, Valid a → Valid b → o.mul a b = .ok c → Valid c ∧ v c = v a * v b
  div : ∀ a b c, Valid a → Valid b → o.div a b = .ok c → v b ≠ 0 ∧ Valid c ∧ v c = (v a).tdiv (v b)
  rem : ∀ a b c, Valid a → Valid b → o.rem a b = .ok c → v b ≠ 0 ∧ Valid c ∧ v c = (v a).tmod (v b)
  eq : ∀ a b, Valid a → Valid b → (o.eq a b = true ↔ v a = v b)
  cmp : ∀ a b c, Valid a → Valid b → o.cmp a b = .ok c → c = compare (v a) (v b)

/-- `gcd` returns, if anything, a greatest common divisor, of either sign. -/
def ChecksGcd {α : Type} (gcd : α → α → Res α) (v : α → Int) (Valid : α → Prop) : Prop :=
  ∀ a b g, Valid a → Valid b → gcd a b = .ok g → Valid g ∧ (v g).natAbs = Int.gcd (v a) (v b)

/-- `-x` and `abs` return the exact result whenever it can be represented, and the sign queries are those
the trait documents. -/
structure Signs {α : Type} (s : SignOps α) (v : α → Int) (Valid : α → Prop) (Fits : Int → Prop) : Prop where
  neg : ∀ a, Valid a → Fits (-v a) → ∃ c, s.neg a = .ok c ∧ Valid c ∧ v c = -v a
  abs : ∀ a, Valid a → Fits |v a| → ∃ c, s.abs a = .ok c ∧ Valid c ∧ v c = |v a|
  isPositive : ∀ a, Valid a → s.isPositive a = .ok (decide (0 ≤ v a))
  isNegative : ∀ a, Valid a → s.isNegative a = .ok (decide (v a < 0))

/-- The bounds are the extreme values, there are all integers between them, and as many below 0 as above, or
one more. -/
structure Bounds {α : Type} (b : BoundOps α) (v : α → Int) (Valid : α → Prop) : Prop where
  minValue : Valid b.minValue ∧ ∀ a, Valid a → v b.minValue ≤ v a
  maxValue : Valid b.maxValue ∧ ∀ a, Valid a → v a ≤ v b.maxValue
  minPositive : Valid b.minPositive ∧ 0 < v b.minPositive ∧
    ∀ a, Valid a → 0 < v a → v b.minPositive ≤ v a
  maxNegative : Valid b.maxNegative ∧ v b.maxNegative < 0 ∧
    ∀ a, Valid a → v a < 0 → v a ≤ v b.maxNegative
  between : ∀ z, v b.minValue ≤ z → z ≤ v b.maxValue → ∃ a, Valid a ∧ v a = z
  symmetric : v b.minValue = -v b.maxValue ∨ v b.minValue = -v b.maxValue - 1

/-- The number a fraction stands for. -/
def ratVal {α : Type} (v : α → Int) (x : RatG α) : ℚ := (v x.num : ℚ) / v x.denom

/-- A fraction as `Rat` may hold it. -/
structure RatOk {α : Type} (v : α → Int) (Valid : α → Prop) (x : RatG α) : Prop where
  num : Valid x.num
  denom : Valid x.denom
  nonzero : v x.denom ≠ 0

end Verif
