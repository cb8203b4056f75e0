import Verif.Model.Slice

/-!
# Element-wise algorithms (`crates/bits/src/algos/element/*.rs`)

`left`/`right` are limb lists of the same width `w`; every function is written from the Rust
body cited in its comment, with the same loop order and the same loop-carried variables.
-/

namespace Verif

open BitSlice

variable {w : Nat}

/-! ## Widening multiplication (`crates/traits/src/ops/widening.rs`) -/

/-- `widening_mul` for u8..u64 and usize (`widening.rs` L10-21): compute in the type of twice
the width, then truncate the low and the shifted high part. -/
def wideningMul (a b c : BitVec w) : BitVec w × BitVec w :=
  let wide : BitVec (w + w) := a.setWidth (w + w) * b.setWidth (w + w) + c.setWidth (w + w)
  (wide.setWidth w, (wide >>> w).setWidth w)

/-- `widening_mul` for u128 (`widening.rs` L35-73), for an even width `2h` (upstream `h = 64`). -/
def wideningMulHalves (h : Nat) (a b c : BitVec (2 * h)) : BitVec (2 * h) × BitVec (2 * h) :=
  let loMask : BitVec (2 * h) := BitVec.allOnes (2 * h) >>> h
  let lhsLo := a &&& loMask
  let rhsLo := b &&& loMask
  let lhsHi := a >>> h
  let rhsHi := b >>> h
  let tmp0 := lhsLo * rhsLo
  let tmp1 := lhsLo * rhsHi
  let tmp2 := lhsHi * rhsLo
  let tmp3 := lhsHi * rhsHi
  let (sum0, carry0) := ovfAdd tmp0 (tmp1 <<< h)
  let (sum0, carry1) := ovfAdd sum0 (tmp2 <<< h)
  let (sum0, carry2) := ovfAdd sum0 c
  let sum1 := tmp3 + (tmp1 >>> h) + (tmp2 >>> h)
    + BitVec.ofNat (2 * h) carry0.toNat + BitVec.ofNat (2 * h) carry1.toNat
    + BitVec.ofNat (2 * h) carry2.toNat
  (sum0, sum1)

/-! ## Addition (`element/add.rs`) -/

namespace ElementAdd

/-- The limb addition with carry in the loop bodies (`add.rs` L26-32 and L55-62). -/
def limb (l r : BitVec w) (carry : Bool) : BitVec w × Bool :=
  let (res, newCarry) := ovfAdd l (if carry then 1 else 0)
  let carry := newCarry
  let (res, newCarry) := ovfAdd res r
  let carry := if newCarry then true else carry
  (res, carry)

/-- `ElementAdd::add` (`add.rs` L11-38). -/
def add (left right : List (BitVec w)) : Res (List (BitVec w)) :=
  let len := max left.length right.length
  let st := forUp (len + 1) (fun idx (st : List (BitVec w) × Bool) =>
    let l := getZ left idx
    let r := getZ right idx
    let (res, carry) := limb l r st.2
    (setIgnore st.1 idx res, carry)) (List.replicate (len + 1) 0, false)
  shrink st.1

/-- `ElementAdd::add_overflowing` (`add.rs` L41-68). -/
def addOverflowing (left right : List (BitVec w)) : List (BitVec w) × Bool :=
  let len := max left.length right.length
  forUp len (fun idx (st : List (BitVec w) × Bool) =>
    let l := getZ st.1 idx
    let r := getZ right idx
    let (res, carry) := limb l r st.2
    (setIgnore st.1 idx res, carry)) (left, false)

/-- `ElementAdd::add_checked` (`add.rs` L71-81). -/
def addChecked (left right : List (BitVec w)) : Option (List (BitVec w)) :=
  let (out, carry) := addOverflowing left right
  if carry then none else some out

/-- `ElementAdd::add_wrapping` (`add.rs` L84-89). -/
def addWrapping (left right : List (BitVec w)) : List (BitVec w) :=
  (addOverflowing left right).1

end ElementAdd

/-! ## Complement (`element/neg.rs`) -/

/-- `ElementNot::not` (`neg.rs` L3-7). -/
def elementNot (this : List (BitVec w)) : List (BitVec w) := this.map fun v => ~~~v

/-! ## Subtraction (`element/sub.rs`) -/

namespace ElementSub

/-- The limb subtraction with borrow in the loop bodies (`sub.rs` L26-41 and L70-85). -/
def limb (l r : BitVec w) (carry : Bool) : BitVec w × Bool :=
  let (carry, extra) : Bool × BitVec w := if carry then (false, 1) else (carry, 0)
  let (res, newCarry) := ovfSub l r
  let carry := if newCarry then true else carry
  let (res, newCarry) := ovfSub res extra
  let carry := if newCarry then true else carry
  (res, carry)

/-- The negate step shared by `ElementSub::sub` (`sub.rs` L46-49) and `BitwiseSub::sub`
(`bitwise/sub.rs` L46-49): flip bit 0, then complement every limb. -/
def negate (out : List (BitVec w)) : Res (List (BitVec w)) :=
  (getBit out 0).bind fun b => (setBit out 0 (!b)).bind fun out => .ok (elementNot out)

/-- `ElementSub::sub` (`sub.rs` L12-52). -/
def sub (left right : List (BitVec w)) : Res (List (BitVec w) × Bool) :=
  let len := max left.length right.length
  let st := forUp len (fun idx (st : List (BitVec w) × Bool) =>
    let l := getZ left idx
    let r := getZ right idx
    let (res, carry) := limb l r st.2
    (setIgnore st.1 idx res, carry)) (List.replicate len 0, false)
  (if st.2 then negate st.1 else .ok st.1).bind fun out =>
    (shrink out).bind fun out => .ok (out, st.2)

/-- `ElementSub::sub_overflowing` (`sub.rs` L56-91). -/
def subOverflowing (left right : List (BitVec w)) : List (BitVec w) × Bool :=
  let len := max left.length right.length
  forUp len (fun idx (st : List (BitVec w) × Bool) =>
    let l := getZ st.1 idx
    let r := getZ right idx
    let (res, carry) := limb l r st.2
    (setIgnore st.1 idx res, carry)) (left, false)

/-- `ElementSub::sub_checked` (`sub.rs` L94-104). -/
def subChecked (left right : List (BitVec w)) : Option (List (BitVec w)) :=
  let (out, carry) := subOverflowing left right
  if carry then none else some out

/-- `ElementSub::sub_wrapping` (`sub.rs` L107-112). -/
def subWrapping (left right : List (BitVec w)) : List (BitVec w) :=
  (subOverflowing left right).1

end ElementSub

/-! ## Comparison (`element/cmp.rs`) -/

/-- `Ord::cmp` of two unsigned limbs. -/
def limbCmp (a b : BitVec w) : Ordering := compare a.toNat b.toNat

/-- `ElementCmp::cmp` (`cmp.rs` L6-29): `none` in the loop state means "not returned yet". -/
def elementCmp (left right : List (BitVec w)) : Ordering :=
  let len := max left.length right.length
  (forUp len (fun idx (ret : Option Ordering) =>
    match ret with
    | some ord => some ord
    | none =>
      match limbCmp (getZ left idx) (getZ right idx) with
      | .eq => none
      | ord => some ord) none).getD .eq

/-- `Ordering::is_ge`. -/
def isGe : Ordering → Bool
  | .lt => false
  | _ => true

/-! ## Bit operations (`element/bitand.rs`, `bitor.rs`, `bitxor.rs`) -/

/-- `ElementBitand::bitand` (`bitand.rs` L8-24). `out.set` cannot panic: `idx < len`. -/
def elementBitand (left right : List (BitVec w)) : Res (List (BitVec w)) :=
  let len := max left.length right.length
  forUpM len (fun idx out => BitSlice.set out idx (getZ left idx &&& getZ right idx))
    (List.replicate len 0)

/-- `ElementBitor::bitor` (`bitor.rs` L8-24). -/
def elementBitor (left right : List (BitVec w)) : Res (List (BitVec w)) :=
  let len := max left.length right.length
  forUpM len (fun idx out => BitSlice.set out idx (getZ left idx ||| getZ right idx))
    (List.replicate len 0)

/-- `ElementBitxor::bitxor` (`bitxor.rs` L8-24). -/
def elementBitxor (left right : List (BitVec w)) : Res (List (BitVec w)) :=
  let len := max left.length right.length
  forUpM len (fun idx out => BitSlice.set out idx (getZ left idx ^^^ getZ right idx))
    (List.replicate len 0)

/-! ## Shifts (`element/shl.rs`, `element/shr.rs`) -/

/-- `usize::leading_zeros`. -/
def leadingZeros (n : Nat) : Nat := if n = 0 then 64 else 63 - Nat.log2 n

/-- `right & usize::MAX >> (leading_zeros(bit_len) + 1)` (`shl.rs` L85-86, `shr.rs` L86-87). A
shift of `usize` by 64 or more panics in debug builds; release builds mask the amount. -/
def maskShift (m : Mode) (bitLen right : Nat) : Res Nat :=
  let numZeroes := leadingZeros bitLen + 1
  if numZeroes < 64 then .ok (right &&& (usizeSize - 1) >>> numZeroes)
  else match m with
    | .debug => .panic
    | .release => .ok (right &&& (usizeSize - 1) >>> (numZeroes % 64))

namespace ElementShl

/-- `!(MAX << elem_shift)` (`shl.rs` L17 and L48). -/
def elemMask (w elemShift : Nat) : BitVec w := ~~~(BitVec.allOnes w <<< elemShift)

/-- Loop body for index `idx` and value `val` (`shl.rs` L26-38, L53-64). -/
def body (arrShift elemShift : Nat) (idx : Nat) (val : BitVec w) (out : List (BitVec w)) :
    List (BitVec w) :=
  let inverse := (w - elemShift) % w
  let mask := elemMask w elemShift
  let high := val >>> inverse
  let low := val <<< elemShift
  let high := (getZ out (idx + arrShift) &&& ~~~mask) ||| (high &&& mask)
  let out := setIgnore out (idx + arrShift) high
  let low := low &&& ~~~mask
  setIgnore out (idx + arrShift - 1) low

/-- `ElementShl::shl` (`shl.rs` L13-42). -/
def shl (left : List (BitVec w)) (right : Nat) : Res (List (BitVec w)) :=
  let arrShift := right / w + 1
  let elemShift := right % w
  let out := forDown left.length (fun idx out => body arrShift elemShift idx (left.getD idx 0) out)
    (List.replicate (left.length + arrShift) 0)
  shrink out

/-- `inner_shl_wrap_and_mask` (`shl.rs` L44-69). The final `fill` panics if the range is not
inside the slice. -/
def inner (left : List (BitVec w)) (right : Nat) : Res (List (BitVec w)) :=
  let arrShift := right / w + 1
  let elemShift := right % w
  let left := forDown left.length (fun idx s => body arrShift elemShift idx (s.getD idx 0) s) left
  if arrShift - 1 ≤ left.length then
    .ok (List.replicate (arrShift - 1) 0 ++ left.drop (arrShift - 1))
  else .panic

/-- `ElementShl::shl_checked` (`shl.rs` L73-79). -/
def shlChecked (left : List (BitVec w)) (right : Nat) : Res (Option (List (BitVec w))) :=
  if right > bitLen left then .ok none
  else (inner left right).bind fun out => .ok (some out)

/-- `ElementShl::shl_wrapping` (`shl.rs` L83-87). -/
def shlWrapping (m : Mode) (left : List (BitVec w)) (right : Nat) : Res (List (BitVec w)) :=
  (maskShift m (bitLen left) right).bind fun k => inner left k

end ElementShl

namespace ElementShr

/-- `!(MAX >> elem_shift)` (`shr.rs` L15 and L43). -/
def elemMask (w elemShift : Nat) : BitVec w := ~~~(BitVec.allOnes w >>> elemShift)

/-- Loop body of `shr` for index `idx` and value `val` (`shr.rs` L19-34). `idx - arr_shift` and
`idx + 1 - arr_shift` are `usize` subtractions. -/
def body (m : Mode) (arrShift elemShift idx : Nat) (val : BitVec w) (out : List (BitVec w)) :
    Res (List (BitVec w)) :=
  let inverse := (w - elemShift) % w
  let mask := elemMask w elemShift
  let high := val <<< inverse
  let low := val >>> elemShift
  (if idx ≠ 0 then
    (usub m idx arrShift).bind fun i =>
      let high := (getZ out i &&& ~~~mask) ||| (high &&& mask)
      .ok (setIgnore out i high)
   else .ok out).bind fun out =>
    (usub m (idx + 1) arrShift).bind fun i =>
      let low := (getZ out i &&& mask) ||| (low &&& ~~~mask)
      .ok (setIgnore out i low)

/-- `ElementShr::shr` (`shr.rs` L11-37). -/
def shr (m : Mode) (left : List (BitVec w)) (right : Nat) : Res (List (BitVec w)) :=
  let arrShift := right / w + 1
  let elemShift := right % w
  (forUpM left.length (fun idx out => body m arrShift elemShift idx (left.getD idx 0) out)
    (List.replicate left.length 0)).bind shrink

/-- Loop body of `inner_shr_wrap_and_mask` for index `idx` (`shr.rs` L49-65); `checked_sub`
guards the index. -/
def innerBody (arrShift elemShift idx : Nat) (s : List (BitVec w)) : List (BitVec w) :=
  let inverse := (w - elemShift) % w
  let mask := elemMask w elemShift
  let val := s.getD idx 0
  let high := val <<< inverse
  let low := val >>> elemShift
  let s :=
    if arrShift ≤ idx then
      let i := idx - arrShift
      let high := (getZ s i &&& ~~~mask) ||| (high &&& mask)
      setIgnore s i high
    else s
  if arrShift ≤ idx + 1 then
    let i := idx + 1 - arrShift
    let low := (getZ s i &&& mask) ||| (low &&& ~~~mask)
    setIgnore s i low
  else s

/-- `inner_shr_wrap_and_mask` (`shr.rs` L39-70). The computation of `empty` is a plain `usize`
expression; the final `fill` panics if `empty` exceeds the length. -/
def inner (m : Mode) (left : List (BitVec w)) (right : Nat) : Res (List (BitVec w)) :=
  let arrShift := right / w + 1
  let elemShift := right % w
  let left := forUp left.length (innerBody arrShift elemShift) left
  (usub m left.length arrShift).bind fun e =>
    let empty := (e + 1) % usizeSize
    if empty ≤ left.length then
      .ok (left.take empty ++ List.replicate (left.length - empty) 0)
    else .panic

/-- `ElementShr::shr_checked` (`shr.rs` L74-80). -/
def shrChecked (m : Mode) (left : List (BitVec w)) (right : Nat) :
    Res (Option (List (BitVec w))) :=
  if right > bitLen left then .ok none
  else (inner m left right).bind fun out => .ok (some out)

/-- `ElementShr::shr_wrapping` (`shr.rs` L84-88). -/
def shrWrapping (m : Mode) (left : List (BitVec w)) (right : Nat) : Res (List (BitVec w)) :=
  (maskShift m (bitLen left) right).bind fun k => inner m left k

end ElementShr

/-! ## Multiplication (`element/mul.rs`) -/

namespace ElementMul

/-- The `while` loop of `add_item` (`mul.rs` L40-51); `fuel` bounds the number of iterations,
and `addItem` supplies more than can be used. -/
def addItemLoop : Nat → List (BitVec w) → Nat → BitVec w → Bool → List (BitVec w) × Bool
  | 0, s, _, _, carry => (s, carry)
  | fuel + 1, s, idx, val, carry =>
    match s[idx]? with
    | none => (s, carry)
    | some loc =>
      let (new, newCarry) := ovfAdd loc val
      let s := s.set idx new
      if !newCarry then (s, newCarry) else addItemLoop fuel s (idx + 1) 1 newCarry

/-- `ElementMul::add_item` (`mul.rs` L36-54). -/
def addItem (s : List (BitVec w)) (idx : Nat) (val : BitVec w) : List (BitVec w) × Bool :=
  addItemLoop (s.length + 1) s idx val false

/-- `ElementMul::mul` (`mul.rs` L12-34). -/
def mul (left right : List (BitVec w)) : Res (List (BitVec w)) :=
  let out := forUp left.length (fun idx out =>
    let l := left.getD idx 0
    let st := forUp right.length (fun offset (st : List (BitVec w) × BitVec w) =>
      let (low, high) := wideningMul l (right.getD offset 0) st.2
      ((addItem st.1 (idx + offset) low).1, high)) (out, 0)
    if st.2 ≠ 0 then (addItem st.1 (idx + right.length) st.2).1 else st.1)
    (List.replicate (left.length + right.length) 0)
  shrink out

/-- State of the inner loop of `mul_overflowing`. -/
structure MulState (w : Nat) where
  left : List (BitVec w)
  carry : BitVec w
  newOverflow : Bool

/-- Loop body of `mul_overflowing` for one index (`mul.rs` L65-86). -/
def mulStep (right : List (BitVec w)) (idx : Nat) (st : List (BitVec w) × Bool) :
    List (BitVec w) × Bool :=
  let l := st.1.getD idx 0
  let left := st.1.set idx 0
  let inner := forUp right.length (fun offset (s : MulState w) =>
    let (low, high) := wideningMul l (right.getD offset 0) s.carry
    let (left, c) := addItem s.left (idx + offset) low
    { left := left, carry := high, newOverflow := if c then true else s.newOverflow })
    ⟨left, 0, false⟩
  let (left, c) :=
    if inner.carry ≠ 0 then addItem inner.left (idx + right.length) inner.carry
    else (inner.left, false)
  let newOverflow := if c then true else inner.newOverflow
  (left, st.2 || newOverflow)

/-- `ElementMul::mul_overflowing` (`mul.rs` L57-90). -/
def mulOverflowing (left right : List (BitVec w)) : List (BitVec w) × Bool :=
  forDown left.length (mulStep right) (left, false)

/-- `ElementMul::mul_checked` (`mul.rs` L93-103). -/
def mulChecked (left right : List (BitVec w)) : Option (List (BitVec w)) :=
  let (out, carry) := mulOverflowing left right
  if carry then none else some out

/-- `ElementMul::mul_wrapping` (`mul.rs` L106-111). -/
def mulWrapping (left right : List (BitVec w)) : List (BitVec w) := (mulOverflowing left right).1

end ElementMul

/-! ## Division (`element/div.rs`) -/

namespace ElementDiv

/-- The inner `while` loop of `div_long` (`div.rs` L43-48), on (quotient, remainder). It does
not terminate for a zero divisor, hence the fuel. -/
def divWhile (right one : List (BitVec w)) :
    Nat → List (BitVec w) × List (BitVec w) → Res (List (BitVec w) × List (BitVec w))
  | fuel, (quotient, remainder) =>
    if isGe (elementCmp remainder right) then
      match fuel with
      | 0 => .hang
      | fuel + 1 =>
        divWhile right one fuel
          (ElementAdd.addWrapping quotient one, ElementSub.subWrapping remainder right)
    else .ok (quotient, remainder)

/-- State of the outer loop of `div_long`. -/
structure DivState (w : Nat) where
  quotient : List (BitVec w)
  remainder : List (BitVec w)
  one : List (BitVec w)

/-- `ElementDiv::div_long` (`div.rs` L16-54). `fuel` bounds the iterations of each run of the
inner loop. `one[len - 1]` panics for empty operands. -/
def divLong (m : Mode) (fuel : Nat) (left right : List (BitVec w)) :
    Res (List (BitVec w) × List (BitVec w)) :=
  let len := max left.length right.length
  if len = 0 then .panic
  else
    (forDownM len (fun idx (st : DivState w) =>
      (ElementShl.shlWrapping m st.remainder w).bind fun remainder =>
      (BitSlice.get left idx).bind fun v =>
      (BitSlice.set remainder 0 v).bind fun remainder =>
      (divWhile right st.one fuel (st.quotient, remainder)).bind fun qr =>
      (ElementShr.shrWrapping m st.one w).bind fun one =>
      .ok ⟨qr.1, qr.2, one⟩)
      ⟨List.replicate len 0, List.replicate len 0, (List.replicate len 0).set (len - 1) 1⟩).bind
    fun st =>
      (shrink st.quotient).bind fun q => (shrink st.remainder).bind fun r => .ok (q, r)

/-- `ElementDiv::div_long_overflowing` (`div.rs` L57-62): `todo!()`. -/
def divLongOverflowing (_left _right : List (BitVec w)) : Res (List (BitVec w) × Bool) := .panic

/-- `ElementDiv::div_long_checked` (`div.rs` L93-103). -/
def divLongChecked (left right : List (BitVec w)) : Res (Option (List (BitVec w))) :=
  (divLongOverflowing left right).bind fun (out, carry) => .ok (if carry then none else some out)

/-- `ElementDiv::div_long_wrapping` (`div.rs` L106-111). -/
def divLongWrapping (left right : List (BitVec w)) : Res (List (BitVec w)) :=
  (divLongOverflowing left right).bind fun p => .ok p.1

end ElementDiv

end Verif
