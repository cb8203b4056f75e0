import Verif.Model.Element

/-!
# Bit-wise algorithms (`crates/bits/src/algos/bitwise/*.rs`)
-/

namespace Verif

open BitSlice

variable {w : Nat}

namespace BitwiseAdd

/-- One bit of the addition (`bitwise/add.rs` L23-43 and L66-86): `match c + l + r`. -/
def bit (l r carry : Bool) : Bool × Bool :=
  match carry.toNat + l.toNat + r.toNat with
  | 0 => (false, false)
  | 1 => (true, false)
  | 2 => (false, true)
  | _ => (true, true)

/-- `BitwiseAdd::add` (`bitwise/add.rs` L10-51). -/
def add (left right : List (BitVec w)) : List (BitVec w) :=
  let len := max left.length right.length
  let bitLength := max (bitLen left) (bitLen right)
  (forUp (bitLength + 1) (fun idx (st : List (BitVec w) × Bool) =>
    let l := (getBitOpt left idx).getD false
    let r := (getBitOpt right idx).getD false
    let (new, carry) := bit l r st.2
    (if new then setBitPush st.1 idx new else st.1, carry)) (List.replicate len 0, false)).1

/-- `BitwiseAdd::add_in_place` (`bitwise/add.rs` L55-92). -/
def addInPlace (left right : List (BitVec w)) : Res (List (BitVec w)) :=
  let bitLength := max (bitLen left) (bitLen right)
  (forUpM (bitLength + 1) (fun idx (st : List (BitVec w) × Bool) =>
    (getBit st.1 idx).bind fun l =>
    (getBit right idx).bind fun r =>
    let (new, carry) := bit l r st.2
    (setBit st.1 idx new).bind fun left => .ok (left, carry)) (left, false)).bind
  fun st => .ok st.1

end BitwiseAdd

namespace BitwiseSub

/-- One bit of the subtraction (`bitwise/sub.rs` L23-41). -/
def bit (l r c : Bool) : Bool × Bool :=
  match l, r, c with
  | true, false, false => (true, false)
  | true, true, false => (false, false)
  | true, false, true => (false, false)
  | false, false, false => (false, false)
  | false, true, false => (true, true)
  | false, false, true => (true, true)
  | true, true, true => (true, true)
  | false, true, true => (false, true)

/-- `BitwiseSub::sub` (`bitwise/sub.rs` L10-52). -/
def sub (left right : List (BitVec w)) : Res (List (BitVec w) × Bool) :=
  let len := max left.length right.length
  let bitLength := max (bitLen left) (bitLen right)
  (forUpM bitLength (fun idx (st : List (BitVec w) × Bool) =>
    let l := (getBitOpt left idx).getD false
    let r := (getBitOpt right idx).getD false
    let (new, carry) := bit l r st.2
    (setBit st.1 idx new).bind fun out => .ok (out, carry)) (List.replicate len 0, false)).bind
  fun st =>
    (if st.2 then ElementSub.negate st.1 else .ok st.1).bind fun out => .ok (out, st.2)

end BitwiseSub

namespace BitIter

/-- Draining an iterator with `next` until it returns `None` (at most `fuel` items). -/
def drain : Nat → BitIter w → List Bool
  | 0, _ => []
  | fuel + 1, it =>
    match next it with
    | (none, _) => []
    | (some b, it) => b :: drain fuel it

end BitIter

/-- `iter_bits()` (`bit_slice.rs` L155-157) run to its end. -/
def iterBits (s : List (BitVec w)) : List Bool := BitIter.drain (bitLen s + 1) (BitIter.new s)

/-- `BitwiseShl::shl` (`bitwise/shl.rs` L9-18). -/
def bitwiseShl (left : List (BitVec w)) (right : Nat) : List (BitVec w) :=
  let bitLength := bitLen left
  let bits := iterBits left
  forUp bits.length (fun idx out =>
    let new := bits.getD idx false
    if new || decide (idx + right < bitLength) then setBitPush out (idx + right) new else out)
    (List.replicate left.length 0)

/-- `BitwiseShr::shr` (`bitwise/shr.rs` L10-19). -/
def bitwiseShr (left : List (BitVec w)) (right : Nat) : Res (List (BitVec w)) :=
  shrink (forDown (bitLen left + 1) (fun idx out =>
    let new := (getBitOpt left idx).getD false
    if right ≤ idx then setBitIgnore out (idx - right) new else out)
    (List.replicate left.length 0))

/-- `BitwiseMul::mul` (`bitwise/mul.rs` L10-27). -/
def bitwiseMul (left right : List (BitVec w)) : Res (List (BitVec w)) :=
  let len := max left.length right.length
  (ElementShl.shl left 0).bind fun newSelf =>
  (forUpM (bitLen right) (fun idx (st : List (BitVec w) × List (BitVec w)) =>
    (getBit right idx).bind fun r =>
    (if r then ElementAdd.add st.1 st.2 else .ok st.1).bind fun out =>
    (ElementShl.shl st.2 1).bind fun newSelf => .ok (out, newSelf))
    (List.replicate (len * 2) 0, newSelf)).bind fun st => .ok st.1

namespace BitwiseDiv

/-- `BitwiseDiv::div_long` (`bitwise/div.rs` L10-31), on (quotient, remainder). -/
def divLong (m : Mode) (num div : List (BitVec w)) : Res (List (BitVec w) × List (BitVec w)) :=
  let len := max num.length div.length
  let bitLength := max (bitLen num) (bitLen div)
  forDownM bitLength (fun idx (st : List (BitVec w) × List (BitVec w)) =>
    (ElementShl.shlWrapping m st.2 1).bind fun remainder =>
    (getBit num idx).bind fun b =>
    (setBit remainder 0 b).bind fun remainder =>
    if isGe (elementCmp remainder div) then
      let remainder := ElementSub.subWrapping remainder div
      (setBit st.1 idx true).bind fun quotient => .ok (quotient, remainder)
    else .ok (st.1, remainder))
    (List.replicate len 0, List.replicate len 0)

/-- `BitwiseDiv::div_long_overflowing` (`bitwise/div.rs` L34-56): overwrites `num` bit by bit
from the top while reading it; returns (num, remainder scratch). The Boolean result of the Rust
function is the constant `false`. -/
def divLongOverflowing (m : Mode) (num div remainder : List (BitVec w)) :
    Res (List (BitVec w) × List (BitVec w)) :=
  let bitLength := max (bitLen num) (bitLen div)
  forDownM bitLength (fun idx (st : List (BitVec w) × List (BitVec w)) =>
    (ElementShl.shlWrapping m st.2 1).bind fun remainder =>
    (getBit st.1 idx).bind fun b =>
    (setBit remainder 0 b).bind fun remainder =>
    if isGe (elementCmp remainder div) then
      let remainder := ElementSub.subWrapping remainder div
      (setBit st.1 idx true).bind fun num => .ok (num, remainder)
    else (setBit st.1 idx false).bind fun num => .ok (num, remainder))
    (num, remainder)

/-- `BitwiseDiv::div_long_checked` (`bitwise/div.rs` L59-73): always `Some`. -/
def divLongChecked (m : Mode) (left right scratch : List (BitVec w)) :
    Res (Option (List (BitVec w))) :=
  (divLongOverflowing m left right scratch).bind fun st => .ok (some st.1)

/-- `BitwiseDiv::div_long_wrapping` (`bitwise/div.rs` L76-85). -/
def divLongWrapping (m : Mode) (left right scratch : List (BitVec w)) : Res (List (BitVec w)) :=
  (divLongOverflowing m left right scratch).bind fun st => .ok st.1

/-- `BitwiseDiv::rem_long_overflowing` (`bitwise/div.rs` L88-109). `copy_from_slice` panics if
the lengths differ. -/
def remLongOverflowing (m : Mode) (num div remainder : List (BitVec w)) :
    Res (List (BitVec w)) :=
  let bitLength := max (bitLen num) (bitLen div)
  (forDownM bitLength (fun idx (rem : List (BitVec w)) =>
    (ElementShl.shlWrapping m rem 1).bind fun remainder =>
    (getBit num idx).bind fun b =>
    (setBit remainder 0 b).bind fun remainder =>
    .ok (if isGe (elementCmp remainder div) then ElementSub.subWrapping remainder div
      else remainder))
    remainder).bind fun rem => if rem.length = num.length then .ok rem else .panic

/-- `BitwiseDiv::rem_long_checked` (`bitwise/div.rs` L112-126): always `Some`. -/
def remLongChecked (m : Mode) (left right scratch : List (BitVec w)) :
    Res (Option (List (BitVec w))) :=
  (remLongOverflowing m left right scratch).bind fun r => .ok (some r)

/-- `BitwiseDiv::rem_long_wrapping` (`bitwise/div.rs` L129-138). -/
def remLongWrapping (m : Mode) (left right scratch : List (BitVec w)) : Res (List (BitVec w)) :=
  remLongOverflowing m left right scratch

end BitwiseDiv

end Verif
