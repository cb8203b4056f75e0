import Verif.Model.UInt
import Verif.Model.BigInt
import Verif.Model.Fixed
import Verif.Model.Rat

/-!
# Model of formatting: options and writers that fail

`Model/UInt`, `Model/BigInt`, `Model/Fixed` and `Model/Rat` compute the texts. Here the same functions run
on a `fmt::Formatter`: an object with format options (width, fill, …) and a writer behind it, which may
refuse what it is given; `?` passes the refusal on. The writer is any function of what has been handed to
it. `write!(f, ..)` with arguments formats them with default options, whatever the options of `f`. The derived
`Debug` of `I` is here with default options; with others it is in `Model/FmtDebug`.
-/

namespace Verif

/-- Alignment of a padded text. -/
inductive Align where
  | left | center | right
deriving DecidableEq, Repr

/-- Format options, as in `{:*>+#010}`. -/
structure FmtOpts where
  fill : Char := ' '
  align : Option Align := none
  width : Option Nat := none
  plus : Bool := false
  alternate : Bool := false
  zero : Bool := false
deriving DecidableEq, Repr

/-- `fmt::Formatter`: the options, and the writer. `accepts h` says whether the writer accepts the last string
of `h`, after it has been given the others. -/
structure Formatter where
  opts : FmtOpts := {}
  accepts : List (List Char) → Bool := fun _ => true

/-- Code that writes to a formatter, with the strings it has handed over. `.ok true` is `Ok(())`, `.ok false` is
`Err(fmt::Error)`. -/
def Fmt := Formatter → List (List Char) → Res Bool × List (List Char)

namespace Fmt

/-- `Ok(())`. -/
def done : Fmt := fun _ h => (.ok true, h)

/-- `f.write_str(s)`, `f.write_char(c)`, `write!(f, "s")`. -/
def write (s : List Char) : Fmt := fun f h => (.ok (f.accepts (h ++ [s])), h ++ [s])

/-- `x?; y`. -/
def seq (x y : Fmt) : Fmt := fun f h =>
  match x f h with
  | (.ok true, h) => y f h
  | p => p

/-- Code that computes before it writes. -/
def comp {α : Type} (r : Res α) (k : α → Fmt) : Fmt := fun f h =>
  match r with
  | .ok a => k a f h
  | .panic => (.panic, h)
  | .hang => (.hang, h)

/-- `{}` and `{:?}` of a primitive integer with default options (core library): the sign, then the digits. -/
def prim (z : Int) : Fmt :=
  if z < 0 then (write ['-']).seq (write (Nat.toDigits 10 z.natAbs)) else write (Nat.toDigits 10 z.natAbs)

/-- The strings that are written with some options to a writer that accepts everything. -/
def text (x : Fmt) (o : FmtOpts) : Res (List Char) :=
  match x { opts := o } [] with
  | (.ok _, h) => .ok h.flatten
  | (.panic, _) => .panic
  | (.hang, _) => .hang

/-- `for &d in digits.iter().rev() { w.write_char(chars[d as usize])?; }` (`u.rs` L112-115,
`big_int.rs` L225-227). -/
def digits (chars : List Char) : List (BitVec 8) → Fmt
  | [] => done
  | d :: ds => comp (Res.ofOption chars[d.toNat]?) fun c => (write [c]).seq (digits chars ds)

end Fmt

open Fmt

namespace UN

/-- `write_base` (`u.rs` L94-116). -/
def fmtBase (m : Mode) (fuel : Nat) (a : Bytes) (base : Nat) (chars : List Char) : Fmt :=
  comp (fromPrimChecked a.length 8 (BitVec.ofNat 64 base)) fun o => comp (Res.ofOption o) fun base =>
  comp (writeLoop m base fuel a []) fun ds =>
  Fmt.digits chars (if ds.isEmpty then [0] else ds).reverse

/-- `Display` and `Debug` (`u.rs` L226-237). -/
def fmtDisplay (m : Mode) (fuel : Nat) (a : Bytes) : Fmt := fmtBase m fuel a 10 decDigits
def fmtDebug (m : Mode) (fuel : Nat) (a : Bytes) : Fmt := fmtDisplay m fuel a

end UN

namespace BInt

/-- `write_base` (`big_int.rs` L208-229). -/
def fmtBase (m : Mode) (fuel : Nat) (base : BitVec 64) (chars : List Char) (b : BInt) : Fmt :=
  comp (digitLoop m base fuel b []) fun ds =>
  Fmt.digits chars (if ds.isEmpty then [0] else ds).reverse

/-- `if self.is_negative() { write!(f, "-")?; }` -/
def fmtSign (b : BInt) (x : Fmt) : Fmt := if b.isNegative then (write ['-']).seq x else x

/-- `Display` and `Debug` (`big_int.rs` L264-279). -/
def fmtDisplay (m : Mode) (fuel : Nat) (b : BInt) : Fmt := fmtSign b (fmtBase m fuel 10 decChars b)
def fmtDebug (m : Mode) (fuel : Nat) (b : BInt) : Fmt := fmtDisplay m fuel b

/-- `UpperHex` and `LowerHex` (`big_int.rs` L296-322). -/
def fmtUpperHex (m : Mode) (fuel : Nat) (b : BInt) : Fmt :=
  fmtSign b ((write ['0', 'x']).seq (fmtBase m fuel 16 upperHexChars b))
def fmtLowerHex (m : Mode) (fuel : Nat) (b : BInt) : Fmt :=
  fmtSign b ((write ['0', 'x']).seq (fmtBase m fuel 16 lowerHexChars b))

/-- The loop of `Binary` (`big_int.rs` L288-290) over the indices below `n`, downwards. -/
def fmtBits (s : List (BitVec 64)) : Nat → Fmt
  | 0 => done
  | n + 1 => comp (BitSlice.getBit s n) fun x => (Fmt.prim (if x then 1 else 0)).seq (fmtBits s n)

/-- `Binary` (`big_int.rs` L281-294). -/
def fmtBinary (b : BInt) : Fmt :=
  fmtSign b ((write ['0', 'b']).seq (fmtBits b.limbs (BitSlice.bitLen b.limbs)))

end BInt

namespace Fixed

/-- `Debug` (`fixed.rs` L46-80): the text is put together in a `String`. -/
def fmtDebug (m : Mode) (p : Prim) (N : Nat) (x : Int) : Fmt :=
  comp (Fixed.debug m p N x) fun s => write s

/-- `Binary` (`fixed.rs` L82-94): the arguments are computed before anything is written. -/
def fmtBinary (m : Mode) (p : Prim) (N : Nat) (x : Int) : Fmt :=
  comp (trunc m p N x) fun t => comp (fract m p N x) fun f =>
  (write (binText p t)).seq ((write ['.']).seq (write (binText p f)))

end Fixed

namespace RatM

/-- `Debug` (`rat.rs` L82-87). -/
def fmtDebug (x : RatM) : Fmt :=
  (Fmt.prim x.num).seq ((write [' ', '/', ' ']).seq (Fmt.prim x.denom))

end RatM

namespace IN

/-- The elements of an array of bytes, as its `Debug` writes them (core library). -/
def fmtElems : List (BitVec 8) → Fmt
  | [] => done
  | [x] => Fmt.prim x.toNat
  | x :: xs => (Fmt.prim x.toNat).seq ((write [',', ' ']).seq (fmtElems xs))

/-- `Debug` of `I<N>`, derived (`i.rs` L24-25), with default options. -/
def fmtDebug (a : Bytes) : Fmt :=
  (write ['I']).seq ((write ['(']).seq ((write ['[']).seq ((fmtElems a).seq
    ((write [']']).seq (write [')'])))))

end IN

end Verif
