import Verif.Model.InternProg

/-!
# Programs that drop what they own

The borrow checker and the drops that the compiler inserts make all programs like this, except those that leak on purpose.
-/

namespace Verif

namespace InternProg

variable {T R : Type}

/-- A program that never calls anything by a name in use (`u`), and when it is done has none in use: it has dropped, sent
or given back everything. -/
def Prog.Tidy : Prog T R → (Nat → Prop) → Prop
  | .ret _, u => ∀ x, ¬ u x
  | .add _ x p, u => ¬ u x ∧ p.Tidy (fun z => z = x ∨ u z)
  | .get _ k, u => ∀ v, (k v).Tidy u
  | .clone _ y p, u => ¬ u y ∧ p.Tidy (fun z => z = y ∨ u z)
  | .drop x p, u => p.Tidy (fun z => z ≠ x ∧ u z)
  | .send x _ p, u => p.Tidy (fun z => z ≠ x ∧ u z)
  | .lend _ _ p, u => p.Tidy u
  | .recv y p, u => ¬ u y ∧ p.Tidy (fun z => z = y ∨ u z)
  | .giveBack y p, u => p.Tidy (fun z => z ≠ y ∧ u z)

end InternProg

end Verif
