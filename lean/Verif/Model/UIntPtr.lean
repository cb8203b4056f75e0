import Verif.Model.IInt
import Verif.Model.BigIntWord

/-!
# Model of `U<N>` and `I<N>` on targets of any pointer width (`crates/ints/src/u.rs`, `i.rs`)

`Model/UInt.lean` and `Model/IInt.lean` take `usize` to have 64 bits. Here `usize` has `p` bits: 16, 32 or
64. The bytes of a `U<N>` do not depend on the target; what does is the index arithmetic inside the shifts
and long division (`crates/bits/src/algos/element/shl.rs`, `shr.rs`, `bitwise/div.rs`), and the
conversions between `U<N>` and `usize` that shifts by a `U<N>`, `pow` and `Display` go through. Functions
that do not use `usize` arithmetic are those of the other models. The number of bits of a value
(`bit_len`) is taken not to overflow `usize`.
-/

namespace Verif

open BitSlice

variable {w : Nat}

namespace Ptr

/-- `ElementShl::shl_wrapping` (`element/shl.rs` L83-87). -/
def shlWrapping (p : Nat) (m : Mode) (left : List (BitVec w)) (right : Nat) : Res (List (BitVec w)) :=
  (WInt.maskShift p m (bitLen left) right).bind fun k => ElementShl.inner left k

/-- `inner_shr_wrap_and_mask` (`element/shr.rs` L39-70). -/
def innerShr (p : Nat) (m : Mode) (left : List (BitVec w)) (right : Nat) : Res (List (BitVec w)) :=
  let arrShift := right / w + 1
  let elemShift := right % w
  let left := forUp left.length (ElementShr.innerBody arrShift elemShift) left
  (WInt.usub p m left.length arrShift).bind fun e =>
    let empty := (e + 1) % 2 ^ p
    if empty ≤ left.length then
      .ok (left.take empty ++ List.replicate (left.length - empty) 0)
    else .panic

/-- `ElementShr::shr_checked` (`element/shr.rs` L74-80). -/
def shrChecked (p : Nat) (m : Mode) (left : List (BitVec w)) (right : Nat) :
    Res (Option (List (BitVec w))) :=
  if right > bitLen left then .ok none
  else (innerShr p m left right).bind fun out => .ok (some out)

/-- `ElementShr::shr_wrapping` (`element/shr.rs` L84-88). -/
def shrWrapping (p : Nat) (m : Mode) (left : List (BitVec w)) (right : Nat) : Res (List (BitVec w)) :=
  (WInt.maskShift p m (bitLen left) right).bind fun k => innerShr p m left k

/-- `BitwiseDiv::div_long_overflowing` (`bitwise/div.rs` L34-56). -/
def divLongOverflowing (p : Nat) (m : Mode) (num div remainder : List (BitVec w)) :
    Res (List (BitVec w) × List (BitVec w)) :=
  let bitLength := max (bitLen num) (bitLen div)
  forDownM bitLength (fun idx (st : List (BitVec w) × List (BitVec w)) =>
    (shlWrapping p m st.2 1).bind fun remainder =>
    (getBit st.1 idx).bind fun b =>
    (setBit remainder 0 b).bind fun remainder =>
    if isGe (elementCmp remainder div) then
      let remainder := ElementSub.subWrapping remainder div
      (setBit st.1 idx true).bind fun num => .ok (num, remainder)
    else (setBit st.1 idx false).bind fun num => .ok (num, remainder))
    (num, remainder)

/-- `BitwiseDiv::rem_long_overflowing` (`bitwise/div.rs` L88-109). -/
def remLongOverflowing (p : Nat) (m : Mode) (num div remainder : List (BitVec w)) :
    Res (List (BitVec w)) :=
  let bitLength := max (bitLen num) (bitLen div)
  (forDownM bitLength (fun idx (rem : List (BitVec w)) =>
    (shlWrapping p m rem 1).bind fun remainder =>
    (getBit num idx).bind fun b =>
    (setBit remainder 0 b).bind fun remainder =>
    .ok (if isGe (elementCmp remainder div) then ElementSub.subWrapping remainder div
      else remainder))
    remainder).bind fun rem => if rem.length = num.length then .ok rem else .panic

end Ptr

namespace UN

/-- `checked_div` (`u.rs` L478-485) through `div_long_checked` (`bitwise/div.rs` L59-73). -/
def checkedDivAt (p : Nat) (m : Mode) (a b : Bytes) : Res (Option Bytes) :=
  (Ptr.divLongOverflowing p m a b (List.replicate a.length 0)).bind fun st => .ok (some st.1)

/-- `/` (`u.rs` L275-285). -/
def divAt (p : Nat) (m : Mode) (a b : Bytes) : Res Bytes :=
  match m with
  | .debug => (checkedDivAt p m a b).bind Res.ofOption
  | .release => (Ptr.divLongOverflowing p m a b (List.replicate a.length 0)).bind fun st => .ok st.1

/-- `%` (`u.rs` L287-297) through `rem_long_checked` (`bitwise/div.rs` L112-126). -/
def remAt (p : Nat) (m : Mode) (a b : Bytes) : Res Bytes :=
  ((Ptr.remLongOverflowing p m a b (List.replicate a.length 0)).bind fun r => .ok (some r)).bind
    Res.ofOption

/-- `<< usize` (`u.rs` L375-385). -/
def shlAt (p : Nat) (m : Mode) (a : Bytes) (k : Nat) : Res Bytes :=
  match m with
  | .debug => (ElementShl.shlChecked a k).bind Res.ofOption
  | .release => Ptr.shlWrapping p m a k

/-- `>> usize` (`u.rs` L387-397). -/
def shrAt (p : Nat) (m : Mode) (a : Bytes) (k : Nat) : Res Bytes :=
  match m with
  | .debug => (Ptr.shrChecked p m a k).bind Res.ofOption
  | .release => Ptr.shrWrapping p m a k

/-- `usize::from_checked(rhs).unwrap()` (`u.rs` L353, L366, L439): `usize` has `p / 8` bytes. -/
def toUsizeAt (p : Nat) (v : Bytes) : Res Nat :=
  (toPrimChecked (p / 8) v).bind fun o => (Res.ofOption o).bind fun x => .ok x.toNat

/-- `<< U<N>` (`u.rs` L349-360). -/
def shlUAt (p : Nat) (m : Mode) (a b : Bytes) : Res Bytes :=
  (toUsizeAt p b).bind fun k => shlAt p m a k
/-- `>> U<N>` (`u.rs` L362-373). -/
def shrUAt (p : Nat) (m : Mode) (a b : Bytes) : Res Bytes :=
  (toUsizeAt p b).bind fun k => shrAt p m a k

/-- `pow` (`u.rs` L429-443). -/
def powAt (p : Nat) (m : Mode) (a b : Bytes) : Res Bytes :=
  if isZero a then .ok a
  else (isOne a).bind fun o =>
    if o then .ok a
    else if isZero b then .ok (one a.length)
    else (toUsizeAt p b).bind fun k => product m a k

/-- The digit loop of `write_base` (`u.rs` L101-106). -/
def writeLoopAt (p : Nat) (m : Mode) (base : Bytes) :
    Nat → Bytes → List (BitVec 8) → Res (List (BitVec 8))
  | fuel, scratch, digits =>
    if cmp scratch (zero scratch.length) = .gt then
      match fuel with
      | 0 => .hang
      | fuel + 1 =>
        (remAt p m scratch base).bind fun r =>
        (toPrimChecked 1 r).bind fun o => (Res.ofOption o).bind fun digit =>
        (divAt p m scratch base).bind fun scratch =>
        writeLoopAt p m base fuel scratch (digits ++ [digit])
    else .ok digits

/-- `write_base` (`u.rs` L94-116); `base` is a `usize`. -/
def writeBaseAt (p : Nat) (m : Mode) (fuel : Nat) (a : Bytes) (base : Nat) (chars : List Char) :
    Res (List Char) :=
  (fromPrimChecked a.length (p / 8) (BitVec.ofNat _ base)).bind fun o =>
  (Res.ofOption o).bind fun base =>
  (writeLoopAt p m base fuel a []).bind fun digits =>
  let digits := if digits.isEmpty then [0] else digits
  digits.reverse.foldl (fun out d =>
    out.bind fun out => (Res.ofOption chars[d.toNat]?).bind fun c => .ok (out ++ [c])) (.ok [])

/-- `Display::fmt` (`u.rs` L232-237). -/
def displayAt (p : Nat) (m : Mode) (fuel : Nat) (a : Bytes) : Res (List Char) :=
  writeBaseAt p m fuel a 10 decDigits

end UN

namespace IN

/-- `/` (`i.rs` L59-72) through `div_long_wrapping` (`bitwise/div.rs` L76-85). -/
def divAt (p : Nat) (m : Mode) (a b : Bytes) : Res Bytes :=
  (isNegative a).bind fun na => (isNegative b).bind fun nb =>
  (abs a).bind fun a' => (abs b).bind fun b' =>
  ((Ptr.divLongOverflowing p m a' b' (List.replicate a.length 0)).bind fun st => .ok st.1).bind fun q =>
  .ok (if na != nb then neg q else q)

/-- `%` (`i.rs` L74-87). -/
def remAt (p : Nat) (m : Mode) (a b : Bytes) : Res Bytes :=
  (isNegative a).bind fun na => (isNegative b).bind fun nb =>
  (abs a).bind fun a' => (abs b).bind fun b' =>
  (Ptr.remLongOverflowing p m a' b' (List.replicate a.length 0)).bind fun r =>
  .ok (if na != nb then neg r else r)

end IN

end Verif
