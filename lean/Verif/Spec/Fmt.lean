import Verif.Model.Fmt
import Verif.Spec.Text

/-!
# Specification vocabulary for formatting

## How the core library formats integers

`Formatter::pad_integral`, as documented: the sign (`-`, or `+` if asked for), the prefix if `#` is given, and
the digits; padded to the width, with `0` after the prefix, or with the fill character on the side that the
alignment leaves free, numbers being aligned to the right.
-/

namespace Verif

/-- The text of an integer with the given sign, prefix and digits. -/
def stdInt (o : FmtOpts) (nonneg : Bool) (pre digits : List Char) : List Char :=
  let head := (if nonneg then (if o.plus then ['+'] else []) else ['-']) ++
    (if o.alternate then pre else [])
  let pad := o.width.getD 0 - (head.length + digits.length)
  if o.zero then head ++ List.replicate pad '0' ++ digits
  else
    let left := match o.align with
      | some .left => 0
      | some .center => pad / 2
      | _ => pad
    List.replicate left o.fill ++ head ++ digits ++ List.replicate (pad - left) o.fill

/-! ## Writers that fail -/

/-- `x` delivers the text `r` to every writer: piece by piece, up to the first piece the writer refuses. It
returns an error exactly in that case; what the writer has then been given is the beginning of the text. -/
def Delivers (x : Fmt) (r : Res (List Char)) : Prop :=
  ∀ f, match x f [] with
    | (.ok true, h) => r = .ok h.flatten ∧ ∀ p, p ≠ [] → p <+: h → f.accepts p = true
    | (.ok false, h) => h ≠ [] ∧ f.accepts h = false ∧
        (∀ p, p ≠ [] → p <+: h → p ≠ h → f.accepts p = true) ∧ ∀ t, r = .ok t → h.flatten <+: t
    | (.panic, _) => r = .panic
    | (.hang, _) => r = .hang

/-! ## Numbers in a text -/

/-- The decimal numbers in a text, from left to right: the values of its maximal runs of digits; `acc` is the
value of the digits just before, if any. -/
def numbersIn : Option Nat → List Char → List Nat
  | acc, [] => acc.toList
  | acc, c :: cs =>
    if '0' ≤ c ∧ c ≤ '9' then numbersIn (some (acc.getD 0 * 10 + (c.toNat - '0'.toNat))) cs
    else acc.toList ++ numbersIn none cs

/-- The decimal integers in a text, from left to right: its maximal runs of digits, negated if a `-` stands directly
before; `neg` tells whether the run under way is negated, `acc` is the value of its digits so far, if any. -/
def integersIn : Bool → Option Nat → List Char → List Int
  | neg, acc, [] => acc.toList.map fun (n : Nat) => if neg then -(n : Int) else (n : Int)
  | neg, acc, c :: cs =>
    if '0' ≤ c ∧ c ≤ '9' then integersIn neg (some (acc.getD 0 * 10 + (c.toNat - '0'.toNat))) cs
    else (acc.toList.map fun (n : Nat) => if neg then -(n : Int) else (n : Int)) ++ integersIn (decide (c = '-')) none cs

/-- The text of an integer, as the core library formats it. -/
def stdDecimal (o : FmtOpts) (z : Int) : List Char := stdInt o (decide (0 ≤ z)) [] (Nat.toDigits 10 z.natAbs)

/-! ## Layout of derived debug texts -/

/-- `Name([x, y, z])`. -/
def oneLine (name : String) (xs : List (List Char)) : List Char :=
  name.toList ++ "([".toList ++ List.intercalate ", ".toList xs ++ "])".toList

/-- The layout with line breaks:
```
Name(
    [
        x,
        y,
    ],
)
```
and `[]` if there are no entries. -/
def manyLines (name : String) (xs : List (List Char)) : List Char :=
  name.toList ++ "(\n    [".toList ++
    (if xs = [] then [] else
      "\n".toList ++ (xs.flatMap fun x => "        ".toList ++ x ++ ",\n".toList) ++ "    ".toList) ++
    "],\n)".toList

/-- A list with line breaks, in a line that is indented by `n`:
```
[
    x,
    y,
]
```
and `[]` if there are no entries. The lines behind the first are indented by `n` more. -/
def block (n : Nat) (xs : List (List Char)) : List Char :=
  if xs = [] then "[]".toList
  else "[\n".toList ++ (xs.flatMap fun x => List.replicate (n + 4) ' ' ++ x ++ ",\n".toList) ++
    List.replicate n ' ' ++ "]".toList

/-- `x`, run with options `o` on whatever writer. -/
def Fmt.withOpts (x : Fmt) (o : FmtOpts) : Fmt := fun f h => x { f with opts := o } h

end Verif
