import Mathlib.Data.Rat.Defs
import Mathlib.Algebra.Field.Rat

/-!
# The number denoted by a posit (Posit Standard 2022, section 3)

A posit is a bit string: a sign bit `s`, a regime (a run of equal bits, ended by the opposite bit or
by the end of the string), two exponent bits `e` and the fraction `f`; bits beyond the end of the
string are 0. The string `00…0` is zero, `10…0` is not a real, every other string is
`((1 - 3s) + f) * 2^((1 - 2s) * (4r + e + s))`.
-/

namespace Verif

/-- Length of the run of `b` at the start of the string. -/
def runLen (b : Bool) : List Bool → Nat
  | [] => 0
  | x :: t => if x = b then runLen b t + 1 else 0

/-- The number `r` of the regime: a run of `k` ones means `k - 1`, a run of `k` zeros means `-k`. -/
def regime : List Bool → Int
  | [] => 0
  | true :: t => runLen true t
  | false :: t => -(runLen false t + 1)

/-- What follows the regime and the bit that ends it. -/
def afterRegime : List Bool → List Bool
  | [] => []
  | b :: t => t.drop (runLen b t + 1)

/-- Two bits, the first with weight 2; missing bits are 0. -/
def expBits : List Bool → Nat
  | [] => 0
  | [b] => 2 * b.toNat
  | b :: c :: _ => 2 * b.toNat + c.toNat

/-- The binary fraction `0.b₁b₂b₃…`. -/
def fracBits : List Bool → Rat
  | [] => 0
  | b :: t => ((b.toNat : Rat) + fracBits t) / 2

/-- The real number denoted by a bit string, `none` for NaR. -/
def posVal : List Bool → Option Rat
  | [] => none
  | s :: t =>
    if t.all (· = false) then (if s then none else some 0)
    else
      let k : Int := 4 * regime t + expBits (afterRegime t)
      let f := fracBits ((afterRegime t).drop 2)
      if s then some ((-2 + f) * 2 ^ (-(k + 1))) else some ((1 + f) * 2 ^ k)

/-- The bits of an array of bytes, in the order in which `is_negative` and the format comment
`[S|R..|R0|EE|F..]` of the code read them: the first bit is the low bit of the first byte. -/
def byteBits (a : List (BitVec 8)) : List Bool :=
  a.flatMap fun b => (List.range 8).map b.getLsbD

end Verif
