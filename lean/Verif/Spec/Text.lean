/-!
# Specification vocabulary for numerals
-/

namespace Verif

/-- The value of a character as a digit: decimal digits, then letters in either case. -/
def digitValue (c : Char) : Option Nat :=
  if '0' ≤ c ∧ c ≤ '9' then some (c.toNat - '0'.toNat)
  else if 'a' ≤ c ∧ c ≤ 'z' then some (c.toNat - 'a'.toNat + 10)
  else if 'A' ≤ c ∧ c ≤ 'Z' then some (c.toNat - 'A'.toNat + 10)
  else none

/-- A digit of the given radix. -/
def IsDigit (radix : Nat) (c : Char) : Prop := ∃ d, digitValue c = some d ∧ d < radix

instance (radix : Nat) (c : Char) : Decidable (IsDigit radix c) :=
  match h : digitValue c with
  | some d => if hd : d < radix then .isTrue ⟨d, h, hd⟩
    else .isFalse fun ⟨e, h1, h2⟩ => hd (by rw [h] at h1; cases h1; exact h2)
  | none => .isFalse fun ⟨e, h1, _⟩ => by rw [h] at h1; cases h1

/-- The number that a string of digits represents, most significant digit first. -/
def numeral (radix : Nat) (cs : List Char) : Nat :=
  cs.foldl (fun n c => n * radix + (digitValue c).getD 0) 0

end Verif
