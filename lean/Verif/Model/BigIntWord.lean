import Verif.Model.BigInt
import Verif.Model.Approx

/-!
# Model of `BigInt` on targets of any pointer width (`crates/ints/src/big_int.rs`)

`Model/BigInt.lean` takes `usize` to have 64 bits. Here `usize` has `w` bits: 16, 32 or 64. A limb of
a `BigInt` is a `usize`, an inline number has `w - 2` bits, and the index arithmetic inside division
and the shifts is done with `w` bits. Functions that do not depend on the width (digit tables, the
loops of `arr_to_int`, the limb-wise operators) are those of the other models.
-/

namespace Verif

open BitSlice

variable {w : Nat}

/-- `MaybeInline` (`big_int.rs` L124-127). -/
inductive WMag (w : Nat) where
  | inline (v : BitVec w)
  | slice (s : List (BitVec w))
deriving DecidableEq, Repr

/-- `BigInt` (`big_int.rs` L140) where `usize` has `w` bits, with its word decoded. -/
structure WInt (w : Nat) where
  neg : Bool
  mag : WMag w
deriving DecidableEq, Repr

namespace WInt

/-- `with_slice` / `MaybeInline::slice` (`big_int.rs` L129-137, L203-206). -/
def limbs (b : WInt w) : List (BitVec w) :=
  match b.mag with
  | .inline v => [v]
  | .slice s => s

/-- `usize::MAX >> 2`. -/
def inlineMax (w : Nat) : Nat := (2 ^ w - 1) >>> 2

/-- `new_inline` (`big_int.rs` L169-178); the assertion is in `TaggedOffset::new` (L93-96). -/
def newInline (v : BitVec w) (neg : Bool) : Res (WInt w) :=
  if v.toNat ≤ inlineMax w then .ok ⟨v ≠ 0 && neg, .inline v⟩ else .panic

/-- `new_intern` (`big_int.rs` L180-189). -/
def newIntern (s : List (BitVec w)) (neg : Bool) : WInt w := ⟨neg, .slice s⟩

/-- `new_slice` (`big_int.rs` L191-201). -/
def newSlice (s : List (BitVec w)) (neg : Bool) : Res (WInt w) :=
  (shrink s).bind fun v =>
  if v.length = 1 ∧ (v.getD 0 0).toNat ≤ inlineMax w then newInline (v.getD 0 0) neg
  else .ok (newIntern v neg)

/-- `new` and `Zero::zero` (`big_int.rs` L161-166, L599-601). -/
def zero : WInt w := ⟨false, .inline 0⟩

/-- `One::one` (`big_int.rs` L609-611). -/
def one : WInt w := ⟨false, .inline 1⟩

/-- `is_negative` (`big_int.rs` L702-704). -/
def isNegative (b : WInt w) : Bool := b.neg

/-- `is_positive` (`big_int.rs` L698-700). -/
def isPositive (b : WInt w) : Bool := !b.neg

/-- `is_zero` (`big_int.rs` L603-605). -/
def isZero (b : WInt w) : Bool := b = zero

/-- `is_one` (`big_int.rs` L613-615). -/
def isOne (b : WInt w) : Bool := b = one

/-- `is_inline` (`big_int.rs` L234-236). -/
def isInline (b : WInt w) : Bool :=
  match b.mag with
  | .inline _ => true
  | .slice _ => false

/-- `PartialEq::eq` (`big_int.rs` L349-359). -/
def eq (a b : WInt w) : Bool :=
  if a = b then true
  else if a.neg = b.neg ∧ a.isInline = b.isInline ∧ ¬ a.isInline then a.limbs = b.limbs
  else false

/-- The `zip`/`find_map` of `cmp` (`big_int.rs` L383-389): the first difference decides, least
significant limb first. -/
def zipCmp : List (BitVec w) → List (BitVec w) → Ordering
  | x :: xs, y :: ys =>
    match compare x.toNat y.toNat with
    | .eq => zipCmp xs ys
    | o => o
  | _, _ => .eq

/-- `Ord::cmp` (`big_int.rs` L369-399). -/
def cmp (a b : WInt w) : Ordering :=
  if a = b then .eq
  else if a.isNegative ∧ b.isPositive then .lt
  else if a.isPositive ∧ b.isNegative then .gt
  else
    let out :=
      if a.limbs.length ≠ b.limbs.length then compare a.limbs.length b.limbs.length
      else zipCmp a.limbs b.limbs
    if a.isNegative then out.swap else out

/-- `usize::leading_zeros`. -/
def leadingZeros (w n : Nat) : Nat := if n = 0 then w else w - 1 - Nat.log2 n

/-- `right & usize::MAX >> (leading_zeros(bit_len) + 1)` (`element/shl.rs` L85-86). A shift of
`usize` by its width or more panics in debug builds; release builds mask the amount. -/
def maskShift (w : Nat) (m : Mode) (bitLen right : Nat) : Res Nat :=
  let numZeroes := leadingZeros w bitLen + 1
  if numZeroes < w then .ok (right &&& (2 ^ w - 1) >>> numZeroes)
  else match m with
    | .debug => .panic
    | .release => .ok (right &&& (2 ^ w - 1) >>> (numZeroes % w))

/-- `ElementShl::shl_wrapping` (`element/shl.rs` L83-87). -/
def shlWrapping (m : Mode) (left : List (BitVec w)) (right : Nat) : Res (List (BitVec w)) :=
  (maskShift w m (bitLen left) right).bind fun k => ElementShl.inner left k

/-- `BitwiseDiv::div_long` (`bitwise/div.rs` L10-31), on (quotient, remainder). -/
def divLong (m : Mode) (num div : List (BitVec w)) : Res (List (BitVec w) × List (BitVec w)) :=
  let len := max num.length div.length
  let bitLength := max (bitLen num) (bitLen div)
  forDownM bitLength (fun idx (st : List (BitVec w) × List (BitVec w)) =>
    (shlWrapping m st.2 1).bind fun remainder =>
    (getBit num idx).bind fun b =>
    (setBit remainder 0 b).bind fun remainder =>
    if isGe (elementCmp remainder div) then
      let remainder := ElementSub.subWrapping remainder div
      (setBit st.1 idx true).bind fun quotient => .ok (quotient, remainder)
    else .ok (st.1, remainder))
    (List.replicate len 0, List.replicate len 0)

/-- `a - b` on `usize`: underflow panics in debug builds and wraps in release builds. -/
def usub (w : Nat) (m : Mode) (a b : Nat) : Res Nat :=
  if b ≤ a then .ok (a - b)
  else match m with
    | .debug => .panic
    | .release => .ok (a + 2 ^ w - b)

/-- Loop body of `shr` for index `idx` and value `val` (`element/shr.rs` L19-34). -/
def shrBody (m : Mode) (arrShift elemShift idx : Nat) (val : BitVec w) (out : List (BitVec w)) :
    Res (List (BitVec w)) :=
  let inverse := (w - elemShift) % w
  let mask := ElementShr.elemMask w elemShift
  let high := val <<< inverse
  let low := val >>> elemShift
  (if idx ≠ 0 then
    (usub w m idx arrShift).bind fun i =>
      let high := (getZ out i &&& ~~~mask) ||| (high &&& mask)
      .ok (setIgnore out i high)
   else .ok out).bind fun out =>
    (usub w m (idx + 1) arrShift).bind fun i =>
      let low := (getZ out i &&& mask) ||| (low &&& ~~~mask)
      .ok (setIgnore out i low)

/-- `ElementShr::shr` (`element/shr.rs` L11-37). -/
def shrSlice (m : Mode) (left : List (BitVec w)) (right : Nat) : Res (List (BitVec w)) :=
  let arrShift := right / w + 1
  let elemShift := right % w
  (forUpM left.length (fun idx out => shrBody m arrShift elemShift idx (left.getD idx 0) out)
    (List.replicate left.length 0)).bind shrink

/-- `Add` up to `new_slice` (`big_int.rs` L433-451). -/
def addRaw (a b : WInt w) : Res (List (BitVec w) × Bool) :=
  match a.isPositive, b.isPositive with
  | true, true | false, false =>
    (ElementAdd.add a.limbs b.limbs).bind fun out => .ok (out, a.isNegative)
  | true, false => ElementSub.sub a.limbs b.limbs
  | false, true => (ElementSub.sub a.limbs b.limbs).bind fun x => .ok (x.1, !x.2)

/-- `Mul` up to `new_slice` (`big_int.rs` L453-459). -/
def mulRaw (a b : WInt w) : Res (List (BitVec w) × Bool) :=
  (ElementMul.mul a.limbs b.limbs).bind fun out => .ok (out, a.isNegative != b.isNegative)

/-- `Sub` up to `new_slice` (`big_int.rs` L461-480). -/
def subRaw (a b : WInt w) : Res (List (BitVec w) × Bool) :=
  match a.isPositive, b.isPositive with
  | true, false | false, true =>
    (ElementAdd.add a.limbs b.limbs).bind fun out => .ok (out, a.isNegative)
  | true, true => ElementSub.sub a.limbs b.limbs
  | false, false => (ElementSub.sub a.limbs b.limbs).bind fun x => .ok (x.1, !x.2)

/-- `Div` up to `new_slice` (`big_int.rs` L482-487). -/
def divRaw (m : Mode) (a b : WInt w) : Res (List (BitVec w) × Bool) :=
  (divLong m a.limbs b.limbs).bind fun x => .ok (x.1, a.isNegative != b.isNegative)

/-- `Rem` up to `new_slice` (`big_int.rs` L489-494). -/
def remRaw (m : Mode) (a b : WInt w) : Res (List (BitVec w) × Bool) :=
  (divLong m a.limbs b.limbs).bind fun x => .ok (x.2, a.isNegative != b.isNegative)

/-- `BitAnd` up to `new_slice` (`big_int.rs` L510-515). -/
def bitandRaw (a b : WInt w) : Res (List (BitVec w) × Bool) :=
  (elementBitand a.limbs b.limbs).bind fun out => .ok (out, a.isNegative)

/-- `BitOr` up to `new_slice` (`big_int.rs` L517-522). -/
def bitorRaw (a b : WInt w) : Res (List (BitVec w) × Bool) :=
  (elementBitor a.limbs b.limbs).bind fun out => .ok (out, a.isNegative)

/-- `BitXor` up to `new_slice` (`big_int.rs` L524-529). -/
def bitxorRaw (a b : WInt w) : Res (List (BitVec w) × Bool) :=
  (elementBitxor a.limbs b.limbs).bind fun out => .ok (out, a.isNegative)

/-- `Not` up to `new_slice` (`big_int.rs` L531-542). -/
def notRaw (a : WInt w) : Res (List (BitVec w) × Bool) := .ok (elementNot a.limbs, a.isNegative)

/-- The common end of all operators: `BigInt::new_slice(out, neg)`. -/
def finish (x : Res (List (BitVec w) × Bool)) : Res (WInt w) := x.bind fun x => newSlice x.1 x.2

/-- `a + b`. -/
def add (a b : WInt w) : Res (WInt w) := finish (addRaw a b)
/-- `a * b`. -/
def mul (a b : WInt w) : Res (WInt w) := finish (mulRaw a b)
/-- `a - b`. -/
def sub (a b : WInt w) : Res (WInt w) := finish (subRaw a b)
/-- `a / b`. -/
def div (m : Mode) (a b : WInt w) : Res (WInt w) := finish (divRaw m a b)
/-- `a % b`. -/
def rem (m : Mode) (a b : WInt w) : Res (WInt w) := finish (remRaw m a b)
/-- `a & b`. -/
def bitand (a b : WInt w) : Res (WInt w) := finish (bitandRaw a b)
/-- `a | b`. -/
def bitor (a b : WInt w) : Res (WInt w) := finish (bitorRaw a b)
/-- `a ^ b`. -/
def bitxor (a b : WInt w) : Res (WInt w) := finish (bitxorRaw a b)
/-- `!a`. -/
def not (a : WInt w) : Res (WInt w) := finish (notRaw a)

/-- `Neg` (`big_int.rs` L544-561): inverts the sign bit of the word (L98-102). -/
def neg' (a : WInt w) : WInt w := ⟨!a.neg, a.mag⟩

/-- `abs` (`big_int.rs` L676-682). -/
def abs (a : WInt w) : WInt w := if a.isNegative then neg' a else a

/-! ## Primitive integers -/

/-- `arr_size` (`big_int.rs` L422-424) for a type of `t` bits. -/
def arrSize (w t : Nat) : Nat := t / 8 / (w / 8) + 1

/-- `From<unsigned>` (`macros.rs` L57-64). -/
def fromU (w t : Nat) (v : BitVec t) : Res (WInt w) :=
  (intToArr t w (arrSize w t) v).bind fun a => newSlice a false

/-- `From<signed>` (`macros.rs` L45-55). -/
def fromS (w t : Nat) (v : BitVec t) : Res (WInt w) :=
  (intToArr t w (arrSize w t) (BInt.unsignedAbs v)).bind fun a => newSlice a (decide (v.toInt < 0))

/-- `TryFrom<&BigInt>` for an unsigned type (`macros.rs` L97-110); also `FromChecked`, which
discards the error (`macros.rs` L128-132). -/
def tryIntoU (t : Nat) (m : Mode) (b : WInt w) : Res (Except Side (BitVec t)) :=
  (fromU w t (BitVec.allOnes t)).bind fun max => (fromU w t 0).bind fun min =>
  if cmp b max = .gt then .ok (.error .above)
  else if cmp b min = .lt then .ok (.error .below)
  else (arrToInt w t m b.limbs).bind fun r =>
    match r with
    | some x => .ok (.ok x)
    | none => .ok (.error .above)

/-- `TryFrom<&BigInt>` for a signed type (`macros.rs` L82-95); also `FromChecked` (L134-138). -/
def tryIntoS (t : Nat) (m : Mode) (b : WInt w) : Res (Except Side (BitVec t)) :=
  (fromS w t (BitVec.intMax t)).bind fun max => (fromS w t (BitVec.intMin t)).bind fun min =>
  if cmp b max = .gt then .ok (.error .above)
  else if cmp b min = .lt then .ok (.error .below)
  else (BInt.arrToIntS w t m b.limbs).bind fun r =>
    match r with
    | some x => .ok (.ok x)
    | none => .ok (.error .above)

/-- `FromSaturating` for an unsigned type (`macros.rs` L140-148). -/
def saturateU (t : Nat) (m : Mode) (b : WInt w) : Res (BitVec t) :=
  (tryIntoU t m b).bind fun r => .ok (match r with
    | .ok x => x
    | .error .above => BitVec.allOnes t
    | .error .below => 0)

/-- `FromSaturating` for a signed type (`macros.rs` L150-158). -/
def saturateS (t : Nat) (m : Mode) (b : WInt w) : Res (BitVec t) :=
  (tryIntoS t m b).bind fun r => .ok (match r with
    | .ok x => x
    | .error .above => BitVec.intMax t
    | .error .below => BitVec.intMin t)

/-- `FromTruncating` for an unsigned type (`macros.rs` L114-119). -/
def truncateU (t : Nat) (m : Mode) (b : WInt w) : Res (BitVec t) :=
  (arrToInt w t m b.limbs).bind fun r => .ok (r.getD (BitVec.allOnes t))

/-- `FromTruncating` for a signed type (`macros.rs` L121-126); multiplying `MIN` by -1 overflows. -/
def truncateS (t : Nat) (m : Mode) (b : WInt w) : Res (BitVec t) :=
  (BInt.arrToIntS w t m b.limbs).bind fun r =>
    let x := r.getD (BitVec.intMax t)
    if b.isNegative then
      if x = BitVec.intMin t then
        match m with
        | .debug => .panic
        | .release => .ok x
      else .ok (-x)
    else .ok x

/-- `PartialEq<unsigned>` (`macros.rs` L176-183). -/
def eqU (t : Nat) (b : WInt w) (v : BitVec t) : Res Bool :=
  (intToArr t w (arrSize w t) v).bind fun a => (shrink a).bind fun a => .ok (decide (b.limbs = a))

/-- `PartialEq<signed>` (`macros.rs` L162-174); `abs` of `MIN` overflows: debug builds panic,
release builds wrap. -/
def eqS (t : Nat) (m : Mode) (b : WInt w) (v : BitVec t) : Res Bool :=
  if b.isNegative ≠ decide (v.toInt < 0) then .ok false
  else if v = BitVec.intMin t ∧ m = .debug then .panic
  else (intToArr t w (arrSize w t) (if v.toInt < 0 then -v else v)).bind fun a =>
    (shrink a).bind fun a => .ok (decide (b.limbs = a))

/-- `PartialOrd<unsigned>` (`macros.rs` L191-195). -/
def cmpU (t : Nat) (b : WInt w) (v : BitVec t) : Res Ordering :=
  (fromU w t v).bind fun x => .ok (cmp b x)

/-- `PartialOrd<signed>` (`macros.rs` L185-189). -/
def cmpS (t : Nat) (b : WInt w) (v : BitVec t) : Res Ordering :=
  (fromS w t v).bind fun x => .ok (cmp b x)

/-- `usize::try_from(rhs).expect(..)` in the shift operators. -/
def shiftAmount (m : Mode) (b : WInt w) : Res Nat :=
  (tryIntoU w m b).bind fun r =>
    match r with
    | .ok k => .ok k.toNat
    | .error _ => .panic

/-- `Shl` up to `new_slice` (`big_int.rs` L496-501). -/
def shlRaw (m : Mode) (a b : WInt w) : Res (List (BitVec w) × Bool) :=
  (shiftAmount m b).bind fun k => (ElementShl.shl a.limbs k).bind fun out =>
  .ok (out, a.isNegative)

/-- `Shr` up to `new_slice` (`big_int.rs` L503-508). -/
def shrRaw (m : Mode) (a b : WInt w) : Res (List (BitVec w) × Bool) :=
  (shiftAmount m b).bind fun k => (shrSlice m a.limbs k).bind fun out =>
  .ok (out, a.isNegative)

/-- `a << b`. -/
def shl (m : Mode) (a b : WInt w) : Res (WInt w) := finish (shlRaw m a b)
/-- `a >> b`. -/
def shr (m : Mode) (a b : WInt w) : Res (WInt w) := finish (shrRaw m a b)

/-! ## Pow, formatting and parsing -/

/-- The loop `while rhs > 1` of `pow` (`big_int.rs` L716-719), for at most `fuel` rounds. -/
def powLoop (self : WInt w) : Nat → WInt w → WInt w → Res (WInt w)
  | 0, _, _ => .hang
  | fuel + 1, rhs, out =>
    (cmpS 32 rhs 1).bind fun c =>
    if c = .gt then
      (mul out self).bind fun out => (fromS w 32 1).bind fun x => (sub rhs x).bind fun rhs =>
      powLoop self fuel rhs out
    else .ok out

/-- `pow` (`big_int.rs` L710-722). -/
def pow (m : Mode) (fuel : Nat) (self rhs : WInt w) : Res (WInt w) :=
  (eqS 32 m rhs 0).bind fun z =>
  if z then fromS w 32 1 else powLoop self fuel rhs self

/-- The digit loop of `write_base` (`big_int.rs` L214-219): digits least significant first, for at
most `fuel` rounds. -/
def digitLoop (m : Mode) (base : BitVec w) : Nat → WInt w → List (BitVec 8) → Res (List (BitVec 8))
  | 0, _, _ => .hang
  | fuel + 1, scratch, digits =>
    (cmpS 32 scratch 0).bind fun c =>
    if c = .gt then
      (fromU w w base).bind fun b => (rem m scratch b).bind fun r => (tryIntoU 8 m r).bind fun d =>
      match d with
      | .error _ => .panic
      | .ok d => (div m scratch b).bind fun scratch => digitLoop m base fuel scratch (digits ++ [d])
    else .ok digits

/-- `write_base` (`big_int.rs` L208-229). -/
def writeBase (m : Mode) (fuel : Nat) (base : BitVec w) (chars : List Char) (b : WInt w) :
    Res (List Char) :=
  (digitLoop m base fuel b []).bind fun digits =>
  let digits := if digits.isEmpty then [0] else digits
  BInt.writeDigits chars digits.reverse

/-- `write!(f, "-")` for negative numbers. -/
def signChars (b : WInt w) : List Char := if b.isNegative then ['-'] else []

/-- `Display` (`big_int.rs` L270-279). -/
def display (m : Mode) (fuel : Nat) (b : WInt w) : Res (List Char) :=
  (writeBase m fuel 10 BInt.decChars b).bind fun cs => .ok (signChars b ++ cs)

/-- `UpperHex` (`big_int.rs` L296-308). -/
def upperHex (m : Mode) (fuel : Nat) (b : WInt w) : Res (List Char) :=
  (writeBase m fuel 16 BInt.upperHexChars b).bind fun cs => .ok (signChars b ++ ['0', 'x'] ++ cs)

/-- `LowerHex` (`big_int.rs` L310-322). -/
def lowerHex (m : Mode) (fuel : Nat) (b : WInt w) : Res (List Char) :=
  (writeBase m fuel 16 BInt.lowerHexChars b).bind fun cs => .ok (signChars b ++ ['0', 'x'] ++ cs)

/-- `Binary` (`big_int.rs` L281-294): all bits of the slice, most significant first. -/
def binary (b : WInt w) : Res (List Char) :=
  (forDownM (bitLen b.limbs) (fun idx (cs : List Char) =>
    (getBit b.limbs idx).bind fun x => .ok (cs ++ [if x then '1' else '0'])) []).bind
    fun cs => .ok (signChars b ++ ['0', 'b'] ++ cs)

/-- The loop of `from_str_radix` (`big_int.rs` L663-666). -/
def parseLoop (radix : BitVec 32) : List Char → WInt w → Res (Except BInt.ParseError (WInt w))
  | [], out => .ok (.ok out)
  | c :: cs, out =>
    match BInt.valFromChar c radix.toNat with
    | .error e => .ok (.error e)
    | .ok d =>
      (fromU w 32 radix).bind fun r => (mul out r).bind fun x =>
      (fromU w 32 (BitVec.ofNat 32 d)).bind fun d => (add x d).bind fun out => parseLoop radix cs out

/-- `from_str_radix` (`big_int.rs` L661-668). -/
def fromStrRadix (s : List Char) (radix : BitVec 32) : Res (Except BInt.ParseError (WInt w)) :=
  parseLoop radix s zero

/-! ## Approximation by a float -/

/-- `USIZE_MAX` (`big_int.rs` L249). -/
def usizeMaxF (w : Nat) : Fl := Fl.round (BitVec.allOnes w).toNat

/-- The `try_fold` (`big_int.rs` L251-260); `i32::try_from(idx)` fails from `2^31` on. -/
def approxLoop : Nat → List (BitVec w) → Fl → Fl
  | _, [], acc => acc
  | idx, v :: vs, acc =>
    if idx < 2 ^ 31 then
      approxLoop (idx + 1) vs (Fl.mulAdd (Fl.round v.toNat) (Fl.powi (usizeMaxF w) idx) acc)
    else .inf

/-- `approx_float` (`big_int.rs` L248-262). `powi` is taken to be correctly rounded. -/
def approxFloat (b : WInt w) : Fl := approxLoop 0 b.limbs (.fin 0)

end WInt

end Verif
