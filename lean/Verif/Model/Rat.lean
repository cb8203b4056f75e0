import Verif.Model.Prim

/-!
# Model of `Rat<T>` (`crates/reals/src/rat.rs`) for primitive integers `T`

Ordering, `%`, `pow`, `trunc`, `fract`, `log` and `sqrt` are `todo!()` in the code: they panic.
-/

namespace Verif

/-- `Rat<T>` (`rat.rs` L15-19). -/
structure RatM where
  num : Int
  denom : Int
deriving DecidableEq, Repr

namespace RatM

open Prim

variable (m : Mode) (p : Prim)

/-- `zero`, `one` (`rat.rs` L168-186). -/
def zero : RatM := ⟨0, 1⟩
def one : RatM := ⟨1, 1⟩
def isZero (x : RatM) : Bool := x.num = 0
def isOne (x : RatM) : Bool := x = one

/-- `reduce` (`rat.rs` L51-66); `||` is short-circuiting. -/
def reduce (num denom : Int) : Res RatM :=
  if num = 0 then .ok zero
  else if num = 1 ∧ denom = 1 then .ok ⟨num, denom⟩
  else (rem p num denom).bind fun r1 =>
    if r1 = 0 then .ok ⟨num, denom⟩
    else (rem p denom num).bind fun r2 =>
      if r2 = 0 then .ok ⟨num, denom⟩
      else (gcd p num denom).bind fun g =>
        (div p num g).bind fun n => (div p denom g).bind fun d => .ok ⟨n, d⟩

/-- `new` (`rat.rs` L40-49). -/
def new (num denom : Int) : Res (Option RatM) :=
  if denom = 0 then .ok none else (reduce p num denom).bind fun r => .ok (some r)

/-- `Rat::new(..).unwrap()`. -/
def newUnwrap (num denom : Int) : Res RatM := (new p num denom).bind Res.ofOption

/-- Derived `PartialEq` (`rat.rs` L15). -/
def eq (x y : RatM) : Bool := x = y

/-- `Add`, `Sub`, `Mul`, `Div`, `Neg` (`rat.rs` L112-166). -/
def add (x y : RatM) : Res RatM :=
  (arith m p (x.num * y.denom)).bind fun a => (arith m p (y.num * x.denom)).bind fun b =>
  (arith m p (a + b)).bind fun n => (arith m p (x.denom * y.denom)).bind fun d => newUnwrap p n d
def sub (x y : RatM) : Res RatM :=
  (arith m p (x.num * y.denom)).bind fun a => (arith m p (y.num * x.denom)).bind fun b =>
  (arith m p (a - b)).bind fun n => (arith m p (x.denom * y.denom)).bind fun d => newUnwrap p n d
def mul (x y : RatM) : Res RatM :=
  (arith m p (x.num * y.num)).bind fun n => (arith m p (x.denom * y.denom)).bind fun d =>
  newUnwrap p n d
def div (x y : RatM) : Res RatM :=
  (arith m p (x.num * y.denom)).bind fun n => (arith m p (x.denom * y.num)).bind fun d =>
  newUnwrap p n d
def neg (x : RatM) : Res RatM := (arith m p (-x.num)).bind fun n => .ok ⟨n, x.denom⟩

/-- `abs`, `is_positive`, `is_negative` (`rat.rs` L188-200). -/
def abs (x : RatM) : Res RatM :=
  (if x.num < 0 then arith m p (-x.num) else .ok x.num).bind fun n => .ok ⟨n, x.denom⟩
def isPositive (x : RatM) : Bool := 0 < x.num
def isNegative (x : RatM) : Bool := x.num < 0

/-- `Bounded` (`rat.rs` L202-210). (`BoundedSigned` asks for the same trait of `T`, which no primitive
integer has.) -/
def minValue : RatM := ⟨p.minV, 1⟩
def maxValue : RatM := ⟨p.maxV, 1⟩

/-- `floor` (`rat.rs` L233-236). -/
def floor (x : RatM) : Res RatM :=
  (rem p x.num x.denom).bind fun diff => (arith m p (x.num - diff)).bind fun n =>
  (Prim.div p n x.denom).bind fun q => newUnwrap p q 1

/-- `ceil` (`rat.rs` L238-241). -/
def ceil (x : RatM) : Res RatM :=
  (rem p x.num x.denom).bind fun r => (arith m p (x.denom - r)).bind fun diff =>
  (arith m p (x.num + diff)).bind fun n => (Prim.div p n x.denom).bind fun q => newUnwrap p q 1

/-- `round` (`rat.rs` L243-257). -/
def round (x : RatM) : Res RatM :=
  (rem p x.num x.denom).bind fun diff => (Prim.div p x.denom 2).bind fun half =>
  (Prim.div p x.num x.denom).bind fun q =>
  (arith m p (q + if diff > half then 1 else 0)).bind fun n => newUnwrap p n 1

/-- `{:?}` of a primitive integer without flags (core library): decimal digits after a minus sign if it is
negative. -/
def intText (z : Int) : List Char :=
  if z < 0 then '-' :: Nat.toDigits 10 z.natAbs else Nat.toDigits 10 z.natAbs

/-- `Debug` (`rat.rs` L82-87), without flags. -/
def debug (x : RatM) : List Char := intText x.num ++ [' ', '/', ' '] ++ intText x.denom

/-! The operations with the body `todo!()`. -/

/-- `partial_cmp` and `cmp` (`rat.rs` L95-110). -/
def cmp (_ _ : RatM) : Res Ordering := .panic
/-- `%` (`rat.rs` L152-158). -/
def ratRem (_ _ : RatM) : Res RatM := .panic
/-- `pow` (`rat.rs` L222-228). -/
def pow (_ _ : RatM) : Res RatM := .panic
/-- `trunc`, `fract`, `log`, `sqrt` (`rat.rs` L259-274). -/
def trunc (_ : RatM) : Res RatM := .panic
def fract (_ : RatM) : Res RatM := .panic
def log (_ _ : RatM) : Res RatM := .panic
def sqrt (_ : RatM) : Res RatM := .panic

/-- `root` and `cbrt` (`crates/traits/src/class.rs` L65-67, L75-80). -/
def root (x base : RatM) : Res RatM := (div m p one base).bind fun h => pow x h
def cbrt (x : RatM) : Res RatM :=
  (add m p one one).bind fun two => (add m p two one).bind fun three => (div m p one three).bind fun h =>
  pow x h

end RatM

end Verif
