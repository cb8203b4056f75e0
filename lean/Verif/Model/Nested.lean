import Verif.Model.Complex
import Verif.Model.Matrix
import Verif.Model.CheckedNum

/-!
# Compound types as components of matrices

`Matrix<T, R, C>` asks of its entries for `Add`, `Mul` and `Clone`, which `Complex<T>` and square
matrices have. For complex numbers the operators are total functions if those of `T` are; those of
matrices may panic, and are used by way of `Comp` (`Model/CheckedNum.lean`).
-/

namespace Verif

namespace Complex

variable {α : Type}

/-- The traits `Add`, `Sub`, `Mul`, `Zero`, `One` (`complex.rs` L53-121, L156-177). -/
instance [Add α] : Add (Complex α) := ⟨add⟩
instance [Sub α] : Sub (Complex α) := ⟨sub⟩
instance [Add α] [Sub α] [Mul α] : Mul (Complex α) := ⟨mul⟩
instance [Zero α] : Zero (Complex α) := ⟨zero⟩
instance [Zero α] [One α] : One (Complex α) := ⟨one⟩

end Complex

namespace Mat

/-- The operators of `Matrix<T, N, N>` (`static.rs` L87-181). There is no division; the undefined
behaviour of static iterators (`none`), which C85 excludes, counts as a panic. -/
def squareOps (α : Type) [Zero α] [One α] [Add α] [Sub α] [Mul α] (N : Nat) : NumOps (List (List α)) :=
  ⟨zero N N, .ok (one N N), fun a b => Res.ofOption (add N N a b), fun a b => Res.ofOption (sub N N a b),
    mul N N N, fun _ _ => .panic⟩

end Mat

end Verif
