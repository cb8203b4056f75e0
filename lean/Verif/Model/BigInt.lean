import Verif.Model.Element
import Verif.Model.Bitwise

/-!
# Model of `BigInt` values (`crates/ints/src/big_int.rs`, `big_int/macros.rs`)

Here a `BigInt` is what its tagged word stands for: the sign bit, and either an inline number or
the slice in the interner that the word refers to. The words themselves and the interner are in
`Model/BigIntHandle.lean`, together with the operations on them, which call the `…Raw` functions
of this file. `usize` has 64 bits. Operators on `&BigInt`/`BigInt`, the assigning operators and the
operators with a primitive right operand (`macros.rs` L1-39, L206-268, `big_int.rs` L563-596) only
convert and forward; they are in `Model/BigIntOwn.lean`.
-/

namespace Verif

/-- `MaybeInline` (`big_int.rs` L124-127). -/
inductive Mag where
  | inline (v : BitVec 64)
  | slice (s : List (BitVec 64))
deriving DecidableEq, Repr

/-- `BigInt` (`big_int.rs` L140), with its word decoded: `neg` is the low bit of the tag. -/
structure BInt where
  neg : Bool
  mag : Mag
deriving DecidableEq, Repr

/-- `Side` (`big_int.rs` L401-405). -/
inductive Side where
  | above
  | below
deriving DecidableEq, Repr

namespace BInt

/-- `with_slice` / `MaybeInline::slice` (`big_int.rs` L129-137, L203-206). -/
def limbs (b : BInt) : List (BitVec 64) :=
  match b.mag with
  | .inline v => [v]
  | .slice s => s

/-- `usize::MAX >> 2`. -/
def inlineMax : Nat := (2 ^ 64 - 1) >>> 2

/-- `new_inline` (`big_int.rs` L169-178); the assertion is in `TaggedOffset::new` (L93-96). -/
def newInline (v : BitVec 64) (neg : Bool) : Res BInt :=
  if v.toNat ≤ inlineMax then .ok ⟨v ≠ 0 && neg, .inline v⟩ else .panic

/-- `new_intern` (`big_int.rs` L180-189). -/
def newIntern (s : List (BitVec 64)) (neg : Bool) : BInt := ⟨neg, .slice s⟩

/-- `new_slice` (`big_int.rs` L191-201). -/
def newSlice (s : List (BitVec 64)) (neg : Bool) : Res BInt :=
  (shrink s).bind fun v =>
  if v.length = 1 ∧ (v.getD 0 0).toNat ≤ inlineMax then newInline (v.getD 0 0) neg
  else .ok (newIntern v neg)

/-- `new` and `Zero::zero` (`big_int.rs` L161-166, L599-601). -/
def zero : BInt := ⟨false, .inline 0⟩

/-- `One::one` (`big_int.rs` L609-611). -/
def one : BInt := ⟨false, .inline 1⟩

/-- `is_negative` (`big_int.rs` L702-704). -/
def isNegative (b : BInt) : Bool := b.neg

/-- `is_positive` (`big_int.rs` L698-700). -/
def isPositive (b : BInt) : Bool := !b.neg

/-- `is_zero` (`big_int.rs` L603-605). -/
def isZero (b : BInt) : Bool := b = zero

/-- `is_one` (`big_int.rs` L613-615). -/
def isOne (b : BInt) : Bool := b = one

/-- `is_inline` (`big_int.rs` L234-236). -/
def isInline (b : BInt) : Bool :=
  match b.mag with
  | .inline _ => true
  | .slice _ => false

/-- `PartialEq::eq` (`big_int.rs` L349-359). -/
def eq (a b : BInt) : Bool :=
  if a = b then true
  else if a.neg = b.neg ∧ a.isInline = b.isInline ∧ ¬ a.isInline then a.limbs = b.limbs
  else false

/-- The `zip`/`find_map` of `cmp` (`big_int.rs` L383-389): the first difference decides, least
significant limb first. -/
def zipCmp : List (BitVec 64) → List (BitVec 64) → Ordering
  | x :: xs, y :: ys =>
    match compare x.toNat y.toNat with
    | .eq => zipCmp xs ys
    | o => o
  | _, _ => .eq

/-- `Ord::cmp` (`big_int.rs` L369-399). -/
def cmp (a b : BInt) : Ordering :=
  if a = b then .eq
  else if a.isNegative ∧ b.isPositive then .lt
  else if a.isPositive ∧ b.isNegative then .gt
  else
    let out :=
      if a.limbs.length ≠ b.limbs.length then compare a.limbs.length b.limbs.length
      else zipCmp a.limbs b.limbs
    if a.isNegative then out.swap else out

/-- `Add` up to `new_slice` (`big_int.rs` L433-451). -/
def addRaw (a b : BInt) : Res (List (BitVec 64) × Bool) :=
  match a.isPositive, b.isPositive with
  | true, true | false, false =>
    (ElementAdd.add a.limbs b.limbs).bind fun out => .ok (out, a.isNegative)
  | true, false => ElementSub.sub a.limbs b.limbs
  | false, true => (ElementSub.sub a.limbs b.limbs).bind fun x => .ok (x.1, !x.2)

/-- `Mul` up to `new_slice` (`big_int.rs` L453-459). -/
def mulRaw (a b : BInt) : Res (List (BitVec 64) × Bool) :=
  (ElementMul.mul a.limbs b.limbs).bind fun out => .ok (out, a.isNegative != b.isNegative)

/-- `Sub` up to `new_slice` (`big_int.rs` L461-480). -/
def subRaw (a b : BInt) : Res (List (BitVec 64) × Bool) :=
  match a.isPositive, b.isPositive with
  | true, false | false, true =>
    (ElementAdd.add a.limbs b.limbs).bind fun out => .ok (out, a.isNegative)
  | true, true => ElementSub.sub a.limbs b.limbs
  | false, false => (ElementSub.sub a.limbs b.limbs).bind fun x => .ok (x.1, !x.2)

/-- `Div` up to `new_slice` (`big_int.rs` L482-487). -/
def divRaw (m : Mode) (a b : BInt) : Res (List (BitVec 64) × Bool) :=
  (BitwiseDiv.divLong m a.limbs b.limbs).bind fun x => .ok (x.1, a.isNegative != b.isNegative)

/-- `Rem` up to `new_slice` (`big_int.rs` L489-494). -/
def remRaw (m : Mode) (a b : BInt) : Res (List (BitVec 64) × Bool) :=
  (BitwiseDiv.divLong m a.limbs b.limbs).bind fun x => .ok (x.2, a.isNegative != b.isNegative)

/-- `BitAnd` up to `new_slice` (`big_int.rs` L510-515). -/
def bitandRaw (a b : BInt) : Res (List (BitVec 64) × Bool) :=
  (elementBitand a.limbs b.limbs).bind fun out => .ok (out, a.isNegative)

/-- `BitOr` up to `new_slice` (`big_int.rs` L517-522). -/
def bitorRaw (a b : BInt) : Res (List (BitVec 64) × Bool) :=
  (elementBitor a.limbs b.limbs).bind fun out => .ok (out, a.isNegative)

/-- `BitXor` up to `new_slice` (`big_int.rs` L524-529). -/
def bitxorRaw (a b : BInt) : Res (List (BitVec 64) × Bool) :=
  (elementBitxor a.limbs b.limbs).bind fun out => .ok (out, a.isNegative)

/-- `Not` up to `new_slice` (`big_int.rs` L531-542). -/
def notRaw (a : BInt) : Res (List (BitVec 64) × Bool) := .ok (elementNot a.limbs, a.isNegative)

/-- The common end of all operators: `BigInt::new_slice(out, neg)`. -/
def finish (x : Res (List (BitVec 64) × Bool)) : Res BInt := x.bind fun x => newSlice x.1 x.2

/-- `a + b`. -/
def add (a b : BInt) : Res BInt := finish (addRaw a b)
/-- `a * b`. -/
def mul (a b : BInt) : Res BInt := finish (mulRaw a b)
/-- `a - b`. -/
def sub (a b : BInt) : Res BInt := finish (subRaw a b)
/-- `a / b`. -/
def div (m : Mode) (a b : BInt) : Res BInt := finish (divRaw m a b)
/-- `a % b`. -/
def rem (m : Mode) (a b : BInt) : Res BInt := finish (remRaw m a b)
/-- `a & b`. -/
def bitand (a b : BInt) : Res BInt := finish (bitandRaw a b)
/-- `a | b`. -/
def bitor (a b : BInt) : Res BInt := finish (bitorRaw a b)
/-- `a ^ b`. -/
def bitxor (a b : BInt) : Res BInt := finish (bitxorRaw a b)
/-- `!a`. -/
def not (a : BInt) : Res BInt := finish (notRaw a)

/-- `Neg` (`big_int.rs` L544-561): inverts the sign bit of the word (L98-102). -/
def neg' (a : BInt) : BInt := ⟨!a.neg, a.mag⟩

/-- `abs` (`big_int.rs` L676-682). -/
def abs (a : BInt) : BInt := if a.isNegative then neg' a else a

/-! ## Primitive integers

An unsigned primitive of `t` bits is a `BitVec t`; a signed one is a `BitVec t` read as two's
complement (`toInt`). `t` is 8, 16, 32, 64 or 128. -/

/-- `arr_size` (`big_int.rs` L422-424) for a type of `t` bits. -/
def arrSize (t : Nat) : Nat := t / 8 / 8 + 1

/-- `From<unsigned>` (`macros.rs` L57-64). -/
def fromU (t : Nat) (v : BitVec t) : Res BInt :=
  (intToArr t 64 (arrSize t) v).bind fun a => newSlice a false

/-- `unsigned_abs` of a signed primitive. -/
def unsignedAbs {t : Nat} (v : BitVec t) : BitVec t := if v.toInt < 0 then -v else v

/-- `From<signed>` (`macros.rs` L45-55). -/
def fromS (t : Nat) (v : BitVec t) : Res BInt :=
  (intToArr t 64 (arrSize t) (unsignedAbs v)).bind fun a => newSlice a (decide (v.toInt < 0))

/-- One iteration of the loop of `arr_to_int` (`bits/src/utils.rs` L72-75) into a signed type of `u`
bits: `from_checked` fails above `MAX`, `checked_shl` drops high bits, `+=` panics on overflow in
debug builds. -/
def arrToIntSStep (t u : Nat) (m : Mode) (idx : Nat) (i : BitVec t) (out : Option (BitVec u)) :
    Res (Option (BitVec u)) :=
  match out with
  | none => .ok none
  | some out =>
    if i.toNat < 2 ^ (u - 1) then
      match checkedShl (BitVec.ofNat u i.toNat) (idx * t) with
      | none => .ok none
      | some x =>
        if out.saddOverflow x then
          match m with
          | .debug => .panic
          | .release => .ok (some (out + x))
        else .ok (some (out + x))
    else .ok none

/-- `arr_to_int::<T, U>` (`bits/src/utils.rs` L64-77) into a signed type of `u` bits. -/
def arrToIntS (t u : Nat) (m : Mode) (arr : List (BitVec t)) : Res (Option (BitVec u)) :=
  forUpM arr.length (fun idx out => arrToIntSStep t u m idx (arr.getD idx 0) out) (some 0)

/-- `TryFrom<&BigInt>` for an unsigned type (`macros.rs` L97-110); also `FromChecked`, which
discards the error (`macros.rs` L128-132). -/
def tryIntoU (t : Nat) (m : Mode) (b : BInt) : Res (Except Side (BitVec t)) :=
  (fromU t (BitVec.allOnes t)).bind fun max => (fromU t 0).bind fun min =>
  if cmp b max = .gt then .ok (.error .above)
  else if cmp b min = .lt then .ok (.error .below)
  else (arrToInt 64 t m b.limbs).bind fun r =>
    match r with
    | some x => .ok (.ok x)
    | none => .ok (.error .above)

/-- `TryFrom<&BigInt>` for a signed type (`macros.rs` L82-95); also `FromChecked` (L134-138). -/
def tryIntoS (t : Nat) (m : Mode) (b : BInt) : Res (Except Side (BitVec t)) :=
  (fromS t (BitVec.intMax t)).bind fun max => (fromS t (BitVec.intMin t)).bind fun min =>
  if cmp b max = .gt then .ok (.error .above)
  else if cmp b min = .lt then .ok (.error .below)
  else (arrToIntS 64 t m b.limbs).bind fun r =>
    match r with
    | some x => .ok (.ok x)
    | none => .ok (.error .above)

/-- `FromSaturating` for an unsigned type (`macros.rs` L140-148). -/
def saturateU (t : Nat) (m : Mode) (b : BInt) : Res (BitVec t) :=
  (tryIntoU t m b).bind fun r => .ok (match r with
    | .ok x => x
    | .error .above => BitVec.allOnes t
    | .error .below => 0)

/-- `FromSaturating` for a signed type (`macros.rs` L150-158). -/
def saturateS (t : Nat) (m : Mode) (b : BInt) : Res (BitVec t) :=
  (tryIntoS t m b).bind fun r => .ok (match r with
    | .ok x => x
    | .error .above => BitVec.intMax t
    | .error .below => BitVec.intMin t)

/-- `FromTruncating` for an unsigned type (`macros.rs` L114-119). -/
def truncateU (t : Nat) (m : Mode) (b : BInt) : Res (BitVec t) :=
  (arrToInt 64 t m b.limbs).bind fun r => .ok (r.getD (BitVec.allOnes t))

/-- `FromTruncating` for a signed type (`macros.rs` L121-126); multiplying `MIN` by -1 overflows. -/
def truncateS (t : Nat) (m : Mode) (b : BInt) : Res (BitVec t) :=
  (arrToIntS 64 t m b.limbs).bind fun r =>
    let x := r.getD (BitVec.intMax t)
    if b.isNegative then
      if x = BitVec.intMin t then
        match m with
        | .debug => .panic
        | .release => .ok x
      else .ok (-x)
    else .ok x

/-- `PartialEq<unsigned>` (`macros.rs` L176-183). -/
def eqU (t : Nat) (b : BInt) (v : BitVec t) : Res Bool :=
  (intToArr t 64 (arrSize t) v).bind fun a => (shrink a).bind fun a => .ok (decide (b.limbs = a))

/-- `PartialEq<signed>` (`macros.rs` L162-174); `abs` of `MIN` overflows: debug builds panic,
release builds wrap. -/
def eqS (t : Nat) (m : Mode) (b : BInt) (v : BitVec t) : Res Bool :=
  if b.isNegative ≠ decide (v.toInt < 0) then .ok false
  else if v = BitVec.intMin t ∧ m = .debug then .panic
  else (intToArr t 64 (arrSize t) (if v.toInt < 0 then -v else v)).bind fun a =>
    (shrink a).bind fun a => .ok (decide (b.limbs = a))

/-- `PartialOrd<unsigned>` (`macros.rs` L191-195). -/
def cmpU (t : Nat) (b : BInt) (v : BitVec t) : Res Ordering :=
  (fromU t v).bind fun x => .ok (cmp b x)

/-- `PartialOrd<signed>` (`macros.rs` L185-189). -/
def cmpS (t : Nat) (b : BInt) (v : BitVec t) : Res Ordering :=
  (fromS t v).bind fun x => .ok (cmp b x)

/-- `usize::try_from(rhs).expect(..)` in the shift operators. -/
def shiftAmount (m : Mode) (b : BInt) : Res Nat :=
  (tryIntoU 64 m b).bind fun r =>
    match r with
    | .ok k => .ok k.toNat
    | .error _ => .panic

/-- `Shl` up to `new_slice` (`big_int.rs` L496-501). -/
def shlRaw (m : Mode) (a b : BInt) : Res (List (BitVec 64) × Bool) :=
  (shiftAmount m b).bind fun k => (ElementShl.shl a.limbs k).bind fun out =>
  .ok (out, a.isNegative)

/-- `Shr` up to `new_slice` (`big_int.rs` L503-508). -/
def shrRaw (m : Mode) (a b : BInt) : Res (List (BitVec 64) × Bool) :=
  (shiftAmount m b).bind fun k => (ElementShr.shr m a.limbs k).bind fun out =>
  .ok (out, a.isNegative)

/-- `a << b`. -/
def shl (m : Mode) (a b : BInt) : Res BInt := finish (shlRaw m a b)
/-- `a >> b`. -/
def shr (m : Mode) (a b : BInt) : Res BInt := finish (shrRaw m a b)

/-! ## Pow, formatting and parsing -/

/-- The loop `while rhs > 1` of `pow` (`big_int.rs` L716-719), for at most `fuel` rounds. -/
def powLoop (self : BInt) : Nat → BInt → BInt → Res BInt
  | 0, _, _ => .hang
  | fuel + 1, rhs, out =>
    (cmpS 32 rhs 1).bind fun c =>
    if c = .gt then
      (mul out self).bind fun out => (fromS 32 1).bind fun x => (sub rhs x).bind fun rhs =>
      powLoop self fuel rhs out
    else .ok out

/-- `pow` (`big_int.rs` L710-722). -/
def pow (m : Mode) (fuel : Nat) (self rhs : BInt) : Res BInt :=
  (eqS 32 m rhs 0).bind fun z =>
  if z then fromS 32 1 else powLoop self fuel rhs self

/-- The digit loop of `write_base` (`big_int.rs` L214-219): digits least significant first, for at
most `fuel` rounds. -/
def digitLoop (m : Mode) (base : BitVec 64) : Nat → BInt → List (BitVec 8) → Res (List (BitVec 8))
  | 0, _, _ => .hang
  | fuel + 1, scratch, digits =>
    (cmpS 32 scratch 0).bind fun c =>
    if c = .gt then
      (fromU 64 base).bind fun b => (rem m scratch b).bind fun r => (tryIntoU 8 m r).bind fun d =>
      match d with
      | .error _ => .panic
      | .ok d => (div m scratch b).bind fun scratch => digitLoop m base fuel scratch (digits ++ [d])
    else .ok digits

/-- `write_char(chars[d as usize])` for each digit (`big_int.rs` L225-227). -/
def writeDigits (chars : List Char) : List (BitVec 8) → Res (List Char)
  | [] => .ok []
  | d :: ds =>
    (Res.ofOption chars[d.toNat]?).bind fun c => (writeDigits chars ds).bind fun cs => .ok (c :: cs)

/-- `write_base` (`big_int.rs` L208-229). -/
def writeBase (m : Mode) (fuel : Nat) (base : BitVec 64) (chars : List Char) (b : BInt) :
    Res (List Char) :=
  (digitLoop m base fuel b []).bind fun digits =>
  let digits := if digits.isEmpty then [0] else digits
  writeDigits chars digits.reverse

/-- The digit tables (`big_int.rs` L272, L298-300, L312-314). -/
def decChars : List Char := ['0', '1', '2', '3', '4', '5', '6', '7', '8', '9']
def upperHexChars : List Char :=
  ['0', '1', '2', '3', '4', '5', '6', '7', '8', '9', 'A', 'B', 'C', 'D', 'E', 'F']
def lowerHexChars : List Char :=
  ['0', '1', '2', '3', '4', '5', '6', '7', '8', '9', 'a', 'b', 'c', 'd', 'e', 'f']

/-- `write!(f, "-")` for negative numbers. -/
def signChars (b : BInt) : List Char := if b.isNegative then ['-'] else []

/-- `Display` (`big_int.rs` L270-279). -/
def display (m : Mode) (fuel : Nat) (b : BInt) : Res (List Char) :=
  (writeBase m fuel 10 decChars b).bind fun cs => .ok (signChars b ++ cs)

/-- `UpperHex` (`big_int.rs` L296-308). -/
def upperHex (m : Mode) (fuel : Nat) (b : BInt) : Res (List Char) :=
  (writeBase m fuel 16 upperHexChars b).bind fun cs => .ok (signChars b ++ ['0', 'x'] ++ cs)

/-- `LowerHex` (`big_int.rs` L310-322). -/
def lowerHex (m : Mode) (fuel : Nat) (b : BInt) : Res (List Char) :=
  (writeBase m fuel 16 lowerHexChars b).bind fun cs => .ok (signChars b ++ ['0', 'x'] ++ cs)

/-- `Binary` (`big_int.rs` L281-294): all bits of the slice, most significant first. -/
def binary (b : BInt) : Res (List Char) :=
  (forDownM (BitSlice.bitLen b.limbs) (fun idx (cs : List Char) =>
    (BitSlice.getBit b.limbs idx).bind fun x => .ok (cs ++ [if x then '1' else '0'])) []).bind
    fun cs => .ok (signChars b ++ ['0', 'b'] ++ cs)

/-- `FromStrError` (`big_int.rs` L618-625). -/
inductive ParseError where
  | invalidRadix (radix : Nat)
  | invalidChar (c : Char)
deriving DecidableEq, Repr

/-- `INSENS_CHARS` (`big_int.rs` L632-636). -/
def insensChars : List Char :=
  ['0', '1', '2', '3', '4', '5', '6', '7', '8', '9', 'a', 'b', 'c', 'd', 'e', 'f', 'g',
   'h', 'i', 'j', 'k', 'l', 'm', 'n', 'o', 'p', 'q', 'r', 's', 't', 'u', 'v', 'w', 'x',
   'y', 'z']

/-- `val_from_char` (`big_int.rs` L631-655); `Char.toLower` lowers ASCII letters only, as
`to_ascii_lowercase` does. -/
def valFromChar (c : Char) (radix : Nat) : Except ParseError Nat :=
  if radix ≤ 36 then
    match (insensChars.take radix).findIdx? (· == c.toLower) with
    | some i => .ok i
    | none => .error (.invalidChar c)
  else .error (.invalidRadix radix)

/-- The loop of `from_str_radix` (`big_int.rs` L663-666). -/
def parseLoop (radix : BitVec 32) : List Char → BInt → Res (Except ParseError BInt)
  | [], out => .ok (.ok out)
  | c :: cs, out =>
    match valFromChar c radix.toNat with
    | .error e => .ok (.error e)
    | .ok d =>
      (fromU 32 radix).bind fun r => (mul out r).bind fun x =>
      (fromU 32 (BitVec.ofNat 32 d)).bind fun d => (add x d).bind fun out => parseLoop radix cs out

/-- `from_str_radix` (`big_int.rs` L661-668). -/
def fromStrRadix (s : List Char) (radix : BitVec 32) : Res (Except ParseError BInt) :=
  parseLoop radix s zero

end BInt

end Verif
