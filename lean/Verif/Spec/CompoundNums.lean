import Verif.Spec.Real
import Verif.Spec.RealPrograms
import Verif.Spec.BigInt
import Verif.Spec.Signed
import Verif.Lemmas.Profile

/-!
# Specification vocabulary for compound types over the library's own numbers
-/

namespace Verif

namespace RatM

/-- What a computation of the number `q` (none: something is divided by zero) with `Rat<T>` may end in:
in both builds it ends; a debug build returns the exact number or panics; a release build returns the
same whenever the debug build returns. -/
def Outcome (p : Prim) (c : Mode → Res RatM) (q : Option ℚ) : Prop :=
  (∀ m, c m ≠ .hang) ∧ (∀ v, c .debug = .ok v → RatValid p v ∧ q = some (qval v)) ∧ SameResult c

/-- In both builds the exact number is returned. -/
def Returns (p : Prim) (c : Mode → Res RatM) (q : ℚ) : Prop :=
  ∀ m, ∃ v, c m = .ok v ∧ RatValid p v ∧ qval v = q

/-- The expression stands for the number `q`, and what is written in it are values of the type. -/
def Prog.StandsFor (p : Prim) (e : Prog) (q : ℚ) : Prop := e.Typed p ∧ e.denote = some q

end RatM

/-- The outcome is a value of the width `N` with the exact integer `z`, reduced modulo `256^N`. -/
def HoldsU (N : Nat) (r : Res Bytes) (z : ℤ) : Prop :=
  ∃ v, r = .ok v ∧ v.length = N ∧ (val v : ℤ) = z % 256 ^ N

/-- The outcome is a value of the width `N` with the exact integer `z`, reduced to
`-256^N/2 .. 256^N/2`. -/
def HoldsI (N : Nat) (r : Res Bytes) (z : ℤ) : Prop :=
  ∃ v, r = .ok v ∧ v.length = N ∧ WrapsTo N z (sval v)

/-- The outcome is a value of the width `N` with the exact integer `z`. -/
def ExactU (N : Nat) (r : Res Bytes) (z : ℤ) : Prop :=
  ∃ v, r = .ok v ∧ v.length = N ∧ (val v : ℤ) = z

/-- The outcome is a canonically stored `BigInt` with the integer `z`. -/
def HoldsB (r : Res BInt) (z : Int) : Prop := ∃ v, r = .ok v ∧ BInt.Canon v ∧ BInt.ival v = z

/-- The sum of `x` and `y` is one that `BigInt` computes correctly (C43). -/
def AddsUp (x y : Int) : Prop := (x < 0 ↔ y < 0) ∨ y.natAbs ≤ x.natAbs ∨ (x + y) % 2 ≠ 0

/-- What `BigInt` makes of the sum of `x` and `y`, both canonically stored (C43). -/
def bigAdd (x y : Int) : Int :=
  if (x < 0 ↔ y < 0) ∨ y.natAbs ≤ x.natAbs ∨ (x + y) % 2 ≠ 0 then x + y else x + y + if x < 0 then -2 else 2

/-- The difference of `x` and `y` is one that `BigInt` computes correctly (C43). -/
def Subtracts (x y : Int) : Prop := (x < 0 ↔ 0 ≤ y) ∨ y.natAbs ≤ x.natAbs ∨ (x - y) % 2 ≠ 0

/-- The outcome of a fixed-point computation of the number `q`: in debug builds a panic, or `q` itself, and then
in release builds as well. -/
def Fixed.Outcome (p : Prim) (N : Nat) (r : Mode → Res Int) (q : ℚ) : Prop :=
  r .debug = .panic ∨ ∃ v, r .debug = .ok v ∧ r .release = .ok v ∧ p.InRange v ∧ fval N v = q

end Verif
