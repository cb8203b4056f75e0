import Verif.Spec.Val

/-!
# Spec: total orders given by a three-way comparison
-/

namespace Verif

/-- The comparison `cmp` is a total order on the elements satisfying `P`, with `same` as its
equality: what sorting and ordered maps rely on. -/
structure TotalOrder {α : Type} (P : α → Prop) (same : α → α → Prop)
    (cmp : α → α → Ordering) : Prop where
  /-- `Equal` exactly for the same elements -/
  eq_iff : ∀ a b, P a → P b → (cmp a b = .eq ↔ same a b)
  /-- exchanging the operands exchanges the answer -/
  swap : ∀ a b, P a → P b → cmp b a = (cmp a b).swap
  /-- "at most" is transitive -/
  trans : ∀ a b c, P a → P b → P c → cmp a b ≠ .gt → cmp b c ≠ .gt → cmp a c ≠ .gt

/-- The number whose base-`2^w` digits, most significant first, are the elements of the list. -/
def bigEnd {w : Nat} (s : List (BitVec w)) : Nat := s.foldl (fun acc x => acc * 2 ^ w + x.toNat) 0

end Verif
