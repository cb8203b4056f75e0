import Mathlib.Algebra.Field.Rat
import Verif.Spec.Text

/-!
# The number written by a text with a point
-/

namespace Verif

/-- The number written by a text of digits, possibly with one point and a leading minus sign;
`none` if the text is not of that form (at least one digit is required). -/
def pointVal (radix : Nat) : List Char → Option Rat
  | '-' :: s => (unsigned s).map (-·)
  | s => unsigned s
where
  unsigned (s : List Char) : Option Rat :=
    let i := s.takeWhile (· ≠ '.')
    let f := (s.drop i.length).drop 1
    if i ++ f ≠ [] ∧ ∀ c ∈ i ++ f, IsDigit radix c then
      some ((numeral radix i : Rat) + (numeral radix f : Rat) / (radix : Rat) ^ f.length)
    else none

/-- The number written by a text `a / b`, where `a` and `b` are numerals as above; `none` if the text is not of
that form, or `b` is zero. -/
def quotientVal (radix : Nat) (s : List Char) : Option Rat :=
  let a := s.takeWhile (· ≠ ' ')
  match s.drop a.length with
  | ' ' :: '/' :: ' ' :: b =>
    (pointVal radix a).bind fun x => (pointVal radix b).bind fun y => if y = 0 then none else some (x / y)
  | _ => none

end Verif
