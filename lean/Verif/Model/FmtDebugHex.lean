import Verif.Model.FmtDebug

/-!
# Model of derived `Debug` implementations with `x?` and `X?`

As `Model/FmtDebug.lean`. With these options `Debug` of a primitive integer is its `LowerHex` or `UpperHex`; the
derived code (`i.rs` L24-25, `vector.rs` L15-16, `static.rs` L11-12, `dynamic.rs` L6-11) hands them on like the others.
-/

namespace Verif

namespace Fmt

/-- `LowerHex` and `UpperHex` of a primitive integer of `w` bits (core library): the digits of its two's complement,
which has no sign, and the prefix `0x` with `#`. Padding as for `intPieces`. -/
def hexPieces (upper : Bool) (w : Nat) (o : FmtOpts) (z : Int) : List (List Char) :=
  let sign := if o.plus then [['+']] else []
  let pre := if o.alternate then [['0', 'x']] else []
  let lower := Nat.toDigits 16 (z % 2 ^ w).toNat
  let digits := if upper then lower.map Char.toUpper else lower
  let pad := o.width.getD 0 - (sign.length + 2 * pre.length + digits.length)
  if o.zero then sign ++ pre ++ List.replicate pad ['0'] ++ [digits]
  else
    let left := match o.align with
      | some .left => 0
      | some .center => pad / 2
      | _ => pad
    List.replicate left [o.fill] ++ (sign ++ pre ++ [digits]) ++ List.replicate (pad - left) [o.fill]

end Fmt

open Fmt

/-- `Debug` of `I<N>` with `x?` or `X?`, derived (`i.rs` L24-25). -/
def IN.fmtDebugHex (upper : Bool) (a : Bytes) : Fmt := ofPieces fun o =>
  tuplePieces o ['I'] (listPieces o (a.map fun x => hexPieces upper 8 o x.toNat))

/-- `Debug` of `Vector<T, N>` with `x?` or `X?`, for integers `T` of `w` bits, derived (`vector.rs` L15-16). -/
def Vect.fmtDebugHex (upper : Bool) (w : Nat) (a : List Int) : Fmt := ofPieces fun o =>
  tuplePieces o ['V', 'e', 'c', 't', 'o', 'r'] (listPieces o (a.map (hexPieces upper w o)))

/-- `Debug` of `Matrix<T, ROW, COL>` with `x?` or `X?`, derived (`static.rs` L11-12). -/
def Mat.fmtDebugHex (upper : Bool) (w : Nat) (a : List (List Int)) : Fmt := ofPieces fun o =>
  tuplePieces o ['M', 'a', 't', 'r', 'i', 'x']
    (listPieces o (a.map fun r => listPieces o (r.map (hexPieces upper w o))))

/-- `Debug` of `DynMatrix<T>` with `x?` or `X?`, derived (`dynamic.rs` L6-11); the dimensions, which are `usize`
of `P` bits, are written the same way. -/
def DynMat.fmtDebugHex (upper : Bool) (w P : Nat) (data : List Int) (rows cols : Nat) : Fmt := ofPieces fun o =>
  structPieces o ['D', 'y', 'n', 'M', 'a', 't', 'r', 'i', 'x']
    ['d', 'a', 't', 'a'] (listPieces o (data.map (hexPieces upper w o)))
    [(['r', 'o', 'w', 's'], hexPieces upper P o rows), (['c', 'o', 'l', 's'], hexPieces upper P o cols)]

end Verif
