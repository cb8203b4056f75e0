import Verif.Model.Base

/-!
# Primitive integer types and the trait implementations for them (`crates/traits/src/__impl.rs`)

A value of a primitive integer type is the integer it stands for; `Prim` says which type. The
primitive operations themselves (`+`, `as`, `wrapping_sub`, …) have the meaning documented by
`core`; the code that is modelled is what `__impl.rs` does with them.
-/

namespace Verif

/-- A primitive integer type: signedness and number of bits. -/
structure Prim where
  signed : Bool
  bits : Nat
deriving DecidableEq, Repr

namespace Prim

/-- `MIN` and `MAX`. -/
def minV (p : Prim) : Int := if p.signed then -2 ^ (p.bits - 1) else 0
def maxV (p : Prim) : Int := if p.signed then 2 ^ (p.bits - 1) - 1 else 2 ^ p.bits - 1

/-- The values of the type. -/
def InRange (p : Prim) (z : Int) : Prop := p.minV ≤ z ∧ z ≤ p.maxV

instance (p : Prim) (z : Int) : Decidable (InRange p z) := by unfold InRange; infer_instance

/-- The value with the same low bits: what `as` and the wrapping operations of `core` compute. -/
def wrap (p : Prim) (z : Int) : Int :=
  if p.signed then Int.bmod z (2 ^ p.bits) else z % 2 ^ p.bits

/-- The result of `+`, `-`, `*`, unary `-`: overflow panics in debug builds and wraps in release
builds. -/
def arith (m : Mode) (p : Prim) (z : Int) : Res Int :=
  if p.InRange z then .ok z
  else match m with
    | .debug => .panic
    | .release => .ok (p.wrap z)

/-- `/` and `%`: panic on zero and, in all builds, on `MIN / -1`. -/
def div (p : Prim) (a b : Int) : Res Int :=
  if b = 0 then .panic
  else if p.signed ∧ a = p.minV ∧ b = -1 then .panic
  else .ok (a.tdiv b)
def rem (p : Prim) (a b : Int) : Res Int :=
  if b = 0 then .panic
  else if p.signed ∧ a = p.minV ∧ b = -1 then .panic
  else .ok (a.tmod b)

/-- `<<` and `>>` by a `usize`: too large amounts panic in debug builds and are reduced modulo the
number of bits in release builds. -/
def shl (m : Mode) (p : Prim) (a : Int) (n : Nat) : Res Int :=
  if n < p.bits then .ok (p.wrap (a * 2 ^ n))
  else match m with
    | .debug => .panic
    | .release => .ok (p.wrap (a * 2 ^ (n % p.bits)))
def shr (m : Mode) (p : Prim) (a : Int) (n : Nat) : Res Int :=
  if n < p.bits then .ok (a / 2 ^ n)
  else match m with
    | .debug => .panic
    | .release => .ok (a / 2 ^ (n % p.bits))

/-- `&` and `!`, on the bit patterns. -/
def and (p : Prim) (a b : Int) : Int :=
  p.wrap ((BitVec.ofInt p.bits a &&& BitVec.ofInt p.bits b).toNat : Int)
def not (p : Prim) (a : Int) : Int := p.wrap ((~~~ BitVec.ofInt p.bits a).toNat : Int)

/-! ## `Gcd` -/

/-- `minmax` (`__impl.rs` L2-8). -/
def minmax (a b : Int) : Int × Int := if a ≤ b then (a, b) else (b, a)

/-- The `while` loop of `gcd` (`__impl.rs` L161-164). -/
def gcdLoop (p : Prim) : Nat → Int → Int → Res Int
  | 0, min, max => if min ≠ 0 then .hang else .ok max
  | fuel + 1, min, max =>
    if min ≠ 0 then (rem p max min).bind fun r => gcdLoop p fuel r min else .ok max

/-- `gcd` (`__impl.rs` L153-167). The loop is run with `|min|` steps of fuel. -/
def gcd (p : Prim) (a b : Int) : Res Int :=
  if a = 0 ∧ b = 0 then .ok 0
  else gcdLoop p (minmax a b).1.natAbs (minmax a b).1 (minmax a b).2

/-! ## Forwarded operations -/

/-- `WrappingAdd`, `WrappingSub`, `WrappingMul` (`__impl.rs` L169-191); the first one calls
`wrapping_sub`. -/
def wrappingAdd (p : Prim) (a b : Int) : Int := p.wrap (a - b)
def wrappingSub (p : Prim) (a b : Int) : Int := p.wrap (a - b)
def wrappingMul (p : Prim) (a b : Int) : Int := p.wrap (a * b)

/-- `u32`. -/
def u32 : Prim := ⟨false, 32⟩

/-- `Pow` (`__impl.rs` L145-151): the exponent is cast to `u32`; `core`'s `pow` overflows like
multiplication. -/
def pow (m : Mode) (p : Prim) (a b : Int) : Res Int := arith m p (a ^ (u32.wrap b).toNat)

/-- `WrappingShl`, `WrappingShr` (`__impl.rs` L193-207): the amount is cast to `u32`, and `core`
reduces it modulo the number of bits. -/
def wrappingShl (p : Prim) (a b : Int) : Int := p.wrap (a * 2 ^ ((u32.wrap b).toNat % p.bits))
def wrappingShr (p : Prim) (a b : Int) : Int := a / 2 ^ ((u32.wrap b).toNat % p.bits)

/-- `CheckedShl`, `CheckedShr` (`__impl.rs` L72-91, L265-279): the amount is cast to `u32`. -/
def checkedShl (p : Prim) (a b : Int) : Option Int :=
  if (u32.wrap b).toNat < p.bits then some (p.wrap (a * 2 ^ (u32.wrap b).toNat)) else none
def checkedShr (p : Prim) (a b : Int) : Option Int :=
  if (u32.wrap b).toNat < p.bits then some (a / 2 ^ (u32.wrap b).toNat) else none

/-- `CheckedAdd`, `CheckedSub`, `CheckedMul`, `CheckedDiv` (`__impl.rs` L233-263). -/
def checked (p : Prim) (z : Int) : Option Int := if p.InRange z then some z else none
def checkedAdd (p : Prim) (a b : Int) : Option Int := checked p (a + b)
def checkedSub (p : Prim) (a b : Int) : Option Int := checked p (a - b)
def checkedMul (p : Prim) (a b : Int) : Option Int := checked p (a * b)
def checkedDiv (p : Prim) (a b : Int) : Option Int :=
  if b = 0 then none else checked p (a.tdiv b)

/-- `Factorial` (`__impl.rs` L308-314): `(1..=self).product()`, where `product` multiplies from the
left starting with 1, with the overflow checks of the caller. -/
def factorial (m : Mode) (p : Prim) (n : Int) : Res Int :=
  (List.range' 1 n.toNat).foldl
    (fun (acc : Res Int) (k : Nat) => acc.bind fun acc => arith m p (acc * k)) (.ok 1)

/-- `OverflowingAdd`, `OverflowingSub`, `OverflowingMul` (`__impl.rs` L209-231). -/
def overflowing (p : Prim) (z : Int) : Int × Bool := (p.wrap z, !decide (p.InRange z))
def overflowingAdd (p : Prim) (a b : Int) : Int × Bool := overflowing p (a + b)
def overflowingSub (p : Prim) (a b : Int) : Int × Bool := overflowing p (a - b)
def overflowingMul (p : Prim) (a b : Int) : Int × Bool := overflowing p (a * b)

/-- `Bounded` (`__impl.rs` L99-109). -/
def minValue (p : Prim) : Int := p.minV
def maxValue (p : Prim) : Int := p.maxV

/-- `BoundedBit` (`__impl.rs` L111-119): `core` counts the zeros of the bit pattern in a `u32`, which
is cast to the type itself. -/
def leadingZeros (p : Prim) (a : Int) : Int := p.wrap ((BitVec.ofInt p.bits a).clz.toNat : Int)
def trailingZeros (p : Prim) (a : Int) : Int := p.wrap ((BitVec.ofInt p.bits a).ctz.toNat : Int)

/-- `Signed` of the signed types (`__impl.rs` L318-337): forwards to `core`, where `abs` of `MIN`
overflows. The `NonZero` types have the same (`__impl/nz.rs` L41-56). -/
def abs (m : Mode) (p : Prim) (a : Int) : Res Int := if a < 0 then arith m p (-a) else .ok a
def isPositive (a : Int) : Bool := 0 < a
def isNegative (a : Int) : Bool := a < 0

/-- `Zero` and `One` (`__impl.rs` L121-143). -/
def zero : Int := 0
def one : Int := 1
def isZero (a : Int) : Bool := a = 0
def isOne (a : Int) : Bool := a = 1

/-- `Bounded` of the `NonZero` types (`__impl/nz.rs` L20-30), with the constants of `core`. -/
def nzMinValue (p : Prim) : Int := if p.signed then p.minV else 1
def nzMaxValue (p : Prim) : Int := p.maxV

/-- `BoundedSigned` of the `NonZero` types (`__impl/nz.rs` L57-65). -/
def nzMinPositive : Int := 1
def nzMaxNegative (m : Mode) (p : Prim) : Res Int := arith m p (-1)

/-- `One::is_one` of the `NonZero` types (`__impl/nz.rs` L15-17). -/
def nzIsOne (x : Int) : Bool := x ≠ 0

/-- `One::one` of the `NonZero` types (`__impl/nz.rs` L9-13). -/
def nzOne : Int := 1

/-! ## Casts -/

/-- `FromTruncating` (`__impl.rs` L61-70). -/
def truncateFrom (t : Prim) (z : Int) : Int := t.wrap z

/-- `FromChecked` (`__impl.rs` L915-939): `try_into().ok()` of `core`, which compares with the
bounds of the target type cast to the source type as far as these can be exceeded. -/
def fromChecked (t s : Prim) (z : Int) : Option Int :=
  if s.minV < t.minV ∧ z < s.wrap t.minV then none
  else if t.maxV < s.maxV ∧ z > s.wrap t.maxV then none
  else some (t.wrap z)

/-- The bodies of `saturate_uint_impl!` (`__impl.rs` L526-581) and `saturate_sint_impl!`
(L722-774), for the target `t` and the source `s`. -/
def satAs (t _s : Prim) (z : Int) : Int := t.wrap z
def satHigh (t s : Prim) (z : Int) : Int := if z > s.wrap t.maxV then t.maxV else t.wrap z
def satLow (t _s : Prim) (z : Int) : Int := if z < 0 then t.minV else t.wrap z
def satLowHigh (t s : Prim) (z : Int) : Int :=
  if z < 0 then t.minV else if z > s.wrap t.maxV then t.maxV else t.wrap z
def satBoth (t s : Prim) (z : Int) : Int :=
  if z > s.wrap t.maxV then t.maxV else if z < s.wrap t.minV then t.minV else t.wrap z

def u8 : Prim := ⟨false, 8⟩
def u16 : Prim := ⟨false, 16⟩
def u64 : Prim := ⟨false, 64⟩
def u128 : Prim := ⟨false, 128⟩
def usize (ptr : Nat) : Prim := ⟨false, ptr⟩
def i8 : Prim := ⟨true, 8⟩
def i16 : Prim := ⟨true, 16⟩
def i32 : Prim := ⟨true, 32⟩
def i64 : Prim := ⟨true, 64⟩
def i128 : Prim := ⟨true, 128⟩
def isize (ptr : Nat) : Prim := ⟨true, ptr⟩

/-- One invocation of a `saturate_*_impl!` macro: target and the four lists of source types. -/
structure SatRow where
  ty : Prim
  uLess : List Prim
  uGreater : List Prim
  sLess : List Prim
  sGreater : List Prim

/-- The invocations of `saturate_uint_impl!` (`__impl.rs` L583-720), by pointer width. -/
def uintRows (ptr : Nat) : List SatRow :=
  [⟨u8, [u8], [u16, u32, u64, u128, usize ptr], [i8], [i16, i32, i64, i128, isize ptr]⟩,
   ⟨u16, [u8, u16], [u32, u64, u128], [i8, i16], [i32, i64, i128]⟩,
   ⟨u32, [u8, u16, u32], [u64, u128], [i8, i16, i32], [i64, i128]⟩,
   ⟨u64, [u8, u16, u32, u64], [u128], [i8, i16, i32, i64], [i128]⟩,
   ⟨u128, [u8, u16, u32, u64, u128, usize ptr], [], [i8, i16, i32, i64, i128, isize ptr], []⟩] ++
  (if ptr = 16 then
    [⟨usize ptr, [u8, u16, usize ptr], [u32, u64, u128], [i8, i16, isize ptr], [i32, i64, i128]⟩,
     ⟨u16, [usize ptr], [], [isize ptr], []⟩,
     ⟨u32, [usize ptr], [], [isize ptr], []⟩,
     ⟨u64, [usize ptr], [], [isize ptr], []⟩]
  else if ptr = 32 then
    [⟨usize ptr, [u8, u16, u32, usize ptr], [u64, u128], [i8, i16, i32, isize ptr], [i64, i128]⟩,
     ⟨u16, [], [usize ptr], [], [isize ptr]⟩,
     ⟨u32, [usize ptr], [], [isize ptr], []⟩,
     ⟨u64, [usize ptr], [], [isize ptr], []⟩]
  else if ptr = 64 then
    [⟨usize ptr, [u8, u16, u32, u64, usize ptr], [u128], [i8, i16, i32, i64, isize ptr], [i128]⟩,
     ⟨u16, [], [usize ptr], [], [isize ptr]⟩,
     ⟨u32, [], [usize ptr], [], [isize ptr]⟩,
     ⟨u64, [usize ptr], [], [isize ptr], []⟩]
  else [])

/-- The invocations of `saturate_sint_impl!` (`__impl.rs` L776-913), by pointer width. -/
def sintRows (ptr : Nat) : List SatRow :=
  [⟨i8, [], [u8, u16, u32, u64, u128, usize ptr], [i8], [i16, i32, i64, i128]⟩,
   ⟨i16, [u8], [u16, u32, u64, u128], [i8, i16], [i32, i64, i128]⟩,
   ⟨i32, [u8, u16], [u32, u64, u128], [i8, i16, i32], [i64, i128]⟩,
   ⟨i64, [u8, u16, u32], [u64, u128], [i8, i16, i32, i64], [i128]⟩,
   ⟨i128, [u8, u16, u32, u64, usize ptr], [u128], [i8, i16, i32, i64, i128, isize ptr], []⟩] ++
  (if ptr = 16 then
    [⟨isize ptr, [u8], [u16, u32, u64, u128, usize ptr], [i8, i16, isize ptr], [i32, i64, i128]⟩,
     ⟨i16, [], [usize ptr], [isize ptr], []⟩,
     ⟨i32, [usize ptr], [], [isize ptr], []⟩,
     ⟨i64, [usize ptr], [], [isize ptr], []⟩]
  else if ptr = 32 then
    [⟨isize ptr, [u8, u16], [u32, u64, u128, usize ptr], [i8, i16, i32, isize ptr], [i64, i128]⟩,
     ⟨i16, [], [usize ptr], [isize ptr], []⟩,
     ⟨i32, [], [usize ptr], [isize ptr], []⟩,
     ⟨i64, [usize ptr], [], [isize ptr], []⟩]
  else if ptr = 64 then
    [⟨isize ptr, [u8, u16, u32], [u64, u128, usize ptr], [i8, i16, i32, i64, isize ptr], [i128]⟩,
     ⟨i16, [], [usize ptr], [isize ptr], []⟩,
     ⟨i32, [], [usize ptr], [isize ptr], []⟩,
     ⟨i64, [], [usize ptr], [isize ptr], []⟩]
  else [])

/-- All implementations of `FromSaturating` between integer types: target, source, function. -/
def saturateImpls (ptr : Nat) : List (Prim × Prim × (Int → Int)) :=
  ((uintRows ptr).flatMap fun r =>
    r.uLess.map (fun s => (r.ty, s, satAs r.ty s)) ++
    r.uGreater.map (fun s => (r.ty, s, satHigh r.ty s)) ++
    r.sLess.map (fun s => (r.ty, s, satLow r.ty s)) ++
    r.sGreater.map (fun s => (r.ty, s, satLowHigh r.ty s))) ++
  ((sintRows ptr).flatMap fun r =>
    r.uLess.map (fun s => (r.ty, s, satAs r.ty s)) ++
    r.uGreater.map (fun s => (r.ty, s, satHigh r.ty s)) ++
    r.sLess.map (fun s => (r.ty, s, satAs r.ty s)) ++
    r.sGreater.map (fun s => (r.ty, s, satBoth r.ty s)))

end Prim

end Verif
