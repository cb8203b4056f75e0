import Verif.Model.Fmt

/-!
# Model of derived `Debug` implementations, with options

`I<N>` (`crates/ints/src/i.rs` L24-25), `Vector<T, N>` (`crates/compounds/src/vector.rs` L15-16),
`Matrix<T, ROW, COL>` (`crates/compounds/src/matrix/static.rs` L11-12) and `DynMatrix<T>`
(`crates/compounds/src/matrix/dynamic.rs` L6-11) derive `Debug`, which hands its formatter, with the options, on to
the components; `#` selects the texts with line breaks. The helpers of the core library which the derived code
calls are modelled by the strings that they hand to the writer, in order. The components are primitive integers;
the options `x?` and `X?` are in `Model/FmtDebugHex.lean`.
-/

namespace Verif

namespace Fmt

/-- The strings, one after the other, up to the first that is refused. -/
def writeAll : List (List Char) → Fmt
  | [] => done
  | s :: ss => (write s).seq (writeAll ss)

/-- Code that writes strings which depend on the options. -/
def ofPieces (ps : FmtOpts → List (List Char)) : Fmt := fun f h => writeAll (ps f.opts) f h

/-- `Debug` of a primitive integer (core library, `Formatter::pad_integral`): sign and (empty) prefix are written
before the digits; `0` pads between them; other padding is written character by character. -/
def intPieces (o : FmtOpts) (z : Int) : List (List Char) :=
  let sign := if z < 0 then [['-']] else if o.plus then [['+']] else []
  let pre := if o.alternate then [[]] else []
  let digits := Nat.toDigits 10 z.natAbs
  let pad := o.width.getD 0 - (sign.length + digits.length)
  if o.zero then sign ++ pre ++ List.replicate pad ['0'] ++ [digits]
  else
    let left := match o.align with
      | some .left => 0
      | some .center => pad / 2
      | _ => pad
    List.replicate left [o.fill] ++ (sign ++ pre ++ [digits]) ++ List.replicate (pad - left) [o.fill]

/-- `str::split_inclusive('\n')`. -/
def lines : List Char → List (List Char)
  | [] => []
  | c :: cs =>
    if c = '\n' then [c] :: lines cs
    else
      match lines cs with
      | [] => [[c]]
      | l :: ls => (c :: l) :: ls

/-- `PadAdapter` (core library): four spaces before every line. -/
def indentLines : Bool → List (List Char) → List (List Char)
  | _, [] => []
  | nl, s :: ss => (if nl then [List.replicate 4 ' '] else []) ++ s :: indentLines (s.getLast? = some '\n') ss
def indent (ps : List (List Char)) : List (List Char) := indentLines true (ps.flatMap lines)

/-- The entries of `debug_list` behind the first (core library). -/
def moreEntries : List (List (List Char)) → List (List Char)
  | [] => []
  | x :: xs => [[',', ' ']] ++ x ++ moreEntries xs

/-- `debug_list` (core library), of items that write the given strings. -/
def listPieces (o : FmtOpts) (items : List (List (List Char))) : List (List Char) :=
  [['[']] ++
  (match items with
    | [] => []
    | x :: xs =>
      if o.alternate then [['\n']] ++ (x :: xs).flatMap fun y => indent (y ++ [[',', '\n']])
      else x ++ moreEntries xs) ++
  [[']']]

/-- `debug_tuple` with one field (core library). -/
def tuplePieces (o : FmtOpts) (name : List Char) (x : List (List Char)) : List (List Char) :=
  [name] ++
  (if o.alternate then [['(', '\n']] ++ indent (x ++ [[',', '\n']]) else [['(']] ++ x) ++
  [[')']]

/-- The fields of `debug_struct` behind the first (core library). -/
def moreFields (o : FmtOpts) : List (List Char × List (List Char)) → List (List Char)
  | [] => []
  | (n, x) :: fs =>
    (if o.alternate then indent ([n, [':', ' ']] ++ x ++ [[',', '\n']]) else [[',', ' '], n, [':', ' ']] ++ x) ++
    moreFields o fs

/-- `debug_struct` with at least one field (core library). -/
def structPieces (o : FmtOpts) (name n : List Char) (x : List (List Char))
    (fs : List (List Char × List (List Char))) : List (List Char) :=
  [name] ++
  (if o.alternate then [[' ', '{', '\n']] ++ indent ([n, [':', ' ']] ++ x ++ [[',', '\n']])
    else [[' ', '{', ' '], n, [':', ' ']] ++ x) ++
  moreFields o fs ++
  [if o.alternate then ['}'] else [' ', '}']]

end Fmt

open Fmt

/-- `Debug` of `I<N>`, derived (`i.rs` L24-25). -/
def IN.fmtDebugOpts (a : Bytes) : Fmt := ofPieces fun o =>
  tuplePieces o ['I'] (listPieces o (a.map fun x => intPieces o x.toNat))

/-- `Debug` of `Vector<T, N>`, derived (`vector.rs` L15-16). -/
def Vect.fmtDebug (a : List Int) : Fmt := ofPieces fun o =>
  tuplePieces o ['V', 'e', 'c', 't', 'o', 'r'] (listPieces o (a.map (intPieces o)))

/-- `Debug` of `Matrix<T, ROW, COL>`, derived (`static.rs` L11-12). -/
def Mat.fmtDebug (a : List (List Int)) : Fmt := ofPieces fun o =>
  tuplePieces o ['M', 'a', 't', 'r', 'i', 'x']
    (listPieces o (a.map fun r => listPieces o (r.map (intPieces o))))

/-- `Debug` of `DynMatrix<T>`, derived (`dynamic.rs` L6-11). -/
def DynMat.fmtDebug (data : List Int) (rows cols : Nat) : Fmt := ofPieces fun o =>
  structPieces o ['D', 'y', 'n', 'M', 'a', 't', 'r', 'i', 'x']
    ['d', 'a', 't', 'a'] (listPieces o (data.map (intPieces o)))
    [(['r', 'o', 'w', 's'], intPieces o rows), (['c', 'o', 'l', 's'], intPieces o cols)]

end Verif
