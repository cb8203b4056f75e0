import Verif.Model.Prim

/-!
# Model of `Fixed<T, N>` (`crates/reals/src/fixed.rs`) for primitive integers `T`

A value is its raw integer. `pow` and `log` are `todo!()` in the code: they panic.
-/

namespace Verif

namespace Fixed

open Prim

variable (m : Mode) (p : Prim) (N : Nat)

/-- `mask` (`fixed.rs` L13-15). -/
def mask : Res Int := (shl m p 1 N).bind fun x => arith m p (x - 1)

/-- `from_val` (`fixed.rs` L27-29). -/
def fromVal (v : Int) : Res Int := shl m p v N

/-- `from_raw` (`fixed.rs` L31-33). -/
def fromRaw (v : Int) : Int := v

/-- `is_whole` (`fixed.rs` L35-37). -/
def isWhole (x : Int) : Res Bool :=
  (mask m p N).bind fun k => .ok (decide (Prim.and p x (Prim.not p k) = x))

/-- `PartialEq` and `Ord` (`fixed.rs` L94-114). -/
def eq (x y : Int) : Bool := x = y
def cmp (x y : Int) : Ordering := compare x y

/-- `Add`, `Sub`, `Mul`, `Div`, `Rem`, `Neg` (`fixed.rs` L116-162): all on the raw integers. -/
def add (x y : Int) : Res Int := arith m p (x + y)
def sub (x y : Int) : Res Int := arith m p (x - y)
def mul (x y : Int) : Res Int := arith m p (x * y)
def div (x y : Int) : Res Int := Prim.div p x y
def rem (x y : Int) : Res Int := Prim.rem p x y
def neg (x : Int) : Res Int := arith m p (-x)

/-- `Zero`, `One` (`fixed.rs` L172-190). -/
def zero : Int := 0
def isZero (x : Int) : Bool := x = 0
def one : Res Int := shl m p 1 N
def isOne (x : Int) : Res Bool := (one m p N).bind fun o => .ok (eq x o)

/-- `Signed` (`fixed.rs` L214-226). -/
def abs (x : Int) : Res Int := if x < 0 then arith m p (-x) else .ok x
def isPositive (x : Int) : Bool := 0 < x
def isNegative (x : Int) : Bool := x < 0

/-- `Bounded`, `BoundedSigned` (`fixed.rs` L192-210). -/
def minValue : Int := p.minV
def maxValue : Int := p.maxV
def maxNegative : Res Int := arith m p (-1)
def minPositive : Int := 1

/-- `floor` (`fixed.rs` L232-234). -/
def floor (x : Int) : Res Int := (shr m p x N).bind fun y => shl m p y N

/-- `ceil` (`fixed.rs` L236-242). -/
def ceil (x : Int) : Res Int :=
  (isWhole m p N x).bind fun w =>
  if w then floor m p N x
  else (floor m p N x).bind fun f => (one m p N).bind fun o => add m p f o

/-- `fract` (`fixed.rs` L263-265). -/
def fract (x : Int) : Res Int := (one m p N).bind fun o => rem p x o

/-- `trunc` (`fixed.rs` L259-261). -/
def trunc (x : Int) : Res Int := (fract m p N x).bind fun f => sub m p x f

/-- `round` (`fixed.rs` L244-257). -/
def round (x : Int) : Res Int :=
  (one m p N).bind fun o => (add m p o o).bind fun two => (div p o two).bind fun half =>
  (fract m p N x).bind fun f =>
  (if f ≥ 0 then .ok f else sub m p o f).bind fun f =>
  if f > half then ceil m p N x else floor m p N x

/-! ## Formatting -/

/-- The `while` loop of `Debug` (`fixed.rs` L62-71): `idx` counts the digits, `buf` is the text in
reverse. A digit is below ten, so `{digit:?}` is one character. -/
def debugLoop : Nat → Int → Nat → List Char → Res (Nat × List Char)
  | 0, _, _, _ => .hang
  | fuel + 1, whole, idx, buf =>
    if whole > 0 then
      (Prim.rem p whole (p.truncateFrom 10)).bind fun digit =>
      let buf := if idx = N then buf ++ ['.'] else buf
      let buf := buf ++ [Nat.digitChar digit.toNat]
      (Prim.div p whole (p.truncateFrom 10)).bind fun whole =>
      debugLoop fuel whole (idx + 1) buf
    else .ok (idx, buf)

/-- `Debug` (`fixed.rs` L46-80). The loop is run with `whole + 1` steps of fuel. -/
def debug (x : Int) : Res (List Char) :=
  (Prim.pow m p (p.truncateFrom 10) (p.truncateFrom N)).bind fun t =>
  (arith m p (x * t)).bind fun y =>
  (Prim.pow m p (p.truncateFrom 2) (p.truncateFrom N)).bind fun b =>
  (Prim.div p y b).bind fun whole =>
  (debugLoop p N (whole.toNat + 1) whole 0 []).bind fun r =>
  let buf := if r.1 = N then r.2 ++ ['.'] else r.2
  .ok buf.reverse

/-- `{:b}` of a primitive integer (core library): the digits of the bit pattern. -/
def binText (x : Int) : List Char := Nat.toDigits 2 (BitVec.ofInt p.bits x).toNat

/-- `Binary` (`fixed.rs` L82-94). -/
def binary (x : Int) : Res (List Char) :=
  (trunc m p N x).bind fun t => (fract m p N x).bind fun f =>
  .ok (binText p t ++ ['.'] ++ binText p f)

/-- `pow` (`fixed.rs` L164-170) and `log` (`fixed.rs` L267-269): `todo!()`. -/
def pow (_ _ : Int) : Res Int := .panic
def log (_ _ : Int) : Res Int := .panic

/-- `sqrt` (`crates/traits/src/class.rs` L70-72). -/
def sqrt (x : Int) : Res Int :=
  (one m p N).bind fun e => (arith m p (e + e)).bind fun two => (div p e two).bind fun h => pow x h

/-- `root` and `cbrt` (`class.rs` L65-67, L75-80). -/
def root (x base : Int) : Res Int :=
  (one m p N).bind fun e => (div p e base).bind fun h => pow x h
def cbrt (x : Int) : Res Int :=
  (one m p N).bind fun e => (arith m p (e + e)).bind fun two => (arith m p (two + e)).bind fun three =>
  (div p e three).bind fun h => pow x h

end Fixed

end Verif
