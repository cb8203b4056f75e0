import Mathlib.Data.Int.ModEq
import Verif.Model.Checked

/-!
# Specification vocabulary for computations with primitive integers
-/

namespace Verif

/-- `r` is what a computation of the integer `z` in machine arithmetic may end in: in release builds a
value congruent to `z`; in debug builds `z` itself or a panic. -/
def Tracks (m : Mode) (p : Prim) (r : Res Int) (z : Int) : Prop :=
  r ≠ .hang ∧
  (∀ v, r = .ok v → p.InRange v ∧ v ≡ z [ZMOD 2 ^ p.bits]) ∧
  (m = .release → ∃ v, r = .ok v) ∧
  (m = .debug → ∀ v, r = .ok v → v = z)

/-- Adding up `l` from the left, starting with 0, stays in range: every summand does, and every
partial sum. -/
def SumsFit (p : Prim) (l : List Int) : Prop :=
  (∀ x ∈ l, p.InRange x) ∧ ∀ k ≤ l.length, p.InRange (l.take k).sum

end Verif
