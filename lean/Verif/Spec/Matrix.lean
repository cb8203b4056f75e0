import Mathlib.LinearAlgebra.Matrix.Determinant.Basic

/-!
# Specification of matrices

Lists of rows are compared with Mathlib's matrices; echelon forms are defined on those.
-/

namespace Verif

variable {α : Type}

/-- `l` lists the rows of the `R × C` matrix `A`. -/
def MatOf {R C : Nat} (l : List (List α)) (A : Matrix (Fin R) (Fin C) α) : Prop :=
  l = List.ofFn fun i => List.ofFn fun j => A i j

/-- The leading entry of row `i` is in column `c`. -/
def Leads {R C : Nat} [Zero α] (A : Matrix (Fin R) (Fin C) α) (i : Fin R) (c : Fin C) : Prop :=
  A i c ≠ 0 ∧ ∀ c' < c, A i c' = 0

/-- Row echelon form: above a nonzero row there are only nonzero rows, the leading entries of which are
further left. -/
def IsEchelon {R C : Nat} [Zero α] (A : Matrix (Fin R) (Fin C) α) : Prop :=
  ∀ i i' c', i < i' → Leads A i' c' → ∃ c, c < c' ∧ Leads A i c

/-- Same row space: each of the matrices is the other one multiplied by a square matrix from the left. -/
def RowEquiv {R C : Nat} [Fintype (Fin R)] [NonUnitalNonAssocSemiring α]
    (A B : Matrix (Fin R) (Fin C) α) : Prop :=
  (∃ P : Matrix (Fin R) (Fin R) α, B = P * A) ∧ ∃ Q : Matrix (Fin R) (Fin R) α, A = Q * B

end Verif
