import Verif.Spec.Val
import Verif.Model.BigInt

/-!
# Specification vocabulary for `BigInt`
-/

namespace Verif

namespace BInt

/-- The integer denoted. -/
def ival (b : BInt) : Int := if b.neg then -(val b.limbs : Int) else (val b.limbs : Int)

/-- Well stored: inline below `2^62`, otherwise a normalised slice. Negative zero is allowed. -/
def Rep (b : BInt) : Prop :=
  match b.mag with
  | .inline v => v.toNat < 2 ^ 62
  | .slice s => Norm s ∧ 2 ^ 62 ≤ val s

/-- Canonically stored: moreover zero is not negative. -/
def Canon (b : BInt) : Prop := Rep b ∧ (b.neg = true → val b.limbs ≠ 0)

instance (b : BInt) : Decidable (Rep b) := by unfold Rep; split <;> infer_instance
instance (b : BInt) : Decidable (Canon b) := by unfold Canon; infer_instance

end BInt

end Verif
