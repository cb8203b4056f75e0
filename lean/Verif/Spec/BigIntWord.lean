import Verif.Spec.Val
import Verif.Model.BigIntWord

/-!
# Specification vocabulary for `BigInt` on targets of any pointer width
-/

namespace Verif

namespace WInt

variable {w : Nat}

/-- The integer denoted. -/
def ival (b : WInt w) : Int := if b.neg then -(val b.limbs : Int) else (val b.limbs : Int)

/-- Well stored: inline below `2^(w-2)`, otherwise a normalised slice. Negative zero is allowed. -/
def Rep (b : WInt w) : Prop :=
  match b.mag with
  | .inline v => v.toNat < 2 ^ (w - 2)
  | .slice s => Norm s ∧ 2 ^ (w - 2) ≤ val s

/-- Canonically stored: moreover zero is not negative. -/
def Canon (b : WInt w) : Prop := Rep b ∧ (b.neg = true → val b.limbs ≠ 0)

instance (b : WInt w) : Decidable (Rep b) := by unfold Rep; split <;> infer_instance
instance (b : WInt w) : Decidable (Canon b) := by unfold Canon; infer_instance

end WInt

end Verif
