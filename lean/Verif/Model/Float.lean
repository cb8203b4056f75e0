import Mathlib.Data.Int.Log
import Mathlib.Algebra.Order.Floor.Ring
import Mathlib.Data.Rat.Floor
import Verif.Model.Prim

/-!
# Model of the primitive floats `f32` and `f64` as the library uses them

`crates/traits/src/__impl.rs` L368-530 implements the traits of the library for `f32` and `f64` by their
built-in operations; `Vector`, `Matrix` and `Complex` then compute with them. The built-in operations are
those of IEEE 754 with rounding to nearest, ties to even, including subnormal numbers, infinities and
NaN. The sign of a zero is not kept: no comparison shows it, and of the operations only a division by
zero does, in the sign of the infinity it gives (`Verif/Model/FloatSign.lean` has the sign, and C191 says that
nothing else depends on it). `sin`, `cos`, `tan` and `powf` are parameters of the
functions that use them, `log` is not modelled.
-/

namespace Verif

/-- A binary floating-point format: the number of significant bits and the range of exponents. -/
structure FloatFmt where
  prec : Nat
  emin : Int
  emax : Int
deriving DecidableEq, Repr

def FloatFmt.f32 : FloatFmt := ⟨24, -126, 127⟩
def FloatFmt.f64 : FloatFmt := ⟨53, -1022, 1023⟩

/-- A float: NaN, an infinity or a finite number, given by its value. -/
inductive Flt (f : FloatFmt) where
  | nan
  | inf (neg : Bool)
  | fin (q : ℚ)
deriving DecidableEq, Repr

namespace Flt

variable {f : FloatFmt}

/-- The integer nearest to a rational number, the even one of two. -/
def roundEven (x : ℚ) : Int :=
  let n := ⌊x⌋
  let r := x - n
  if r < 1 / 2 then n else if 1 / 2 < r then n + 1 else if n % 2 = 0 then n else n + 1

/-- The distance of neighbouring floats around `x`. -/
def ulp (f : FloatFmt) (x : ℚ) : ℚ := 2 ^ (max (Int.log 2 |x|) f.emin - (f.prec - 1))

/-- Rounding of an exact result. -/
def rnd (f : FloatFmt) (x : ℚ) : Flt f :=
  if x = 0 then .fin 0
  else
    let y := roundEven (x / ulp f x) * ulp f x
    if |y| < 2 ^ (f.emax + 1) then .fin y else .inf (decide (x < 0))

/-- The built-in operators. -/
def add : Flt f → Flt f → Flt f
  | .fin a, .fin b => rnd f (a + b)
  | .inf s, .inf t => if s = t then .inf s else .nan
  | .inf s, .fin _ => .inf s
  | .fin _, .inf s => .inf s
  | _, _ => .nan
def neg : Flt f → Flt f
  | .fin a => .fin (-a)
  | .inf s => .inf (!s)
  | .nan => .nan
def sub (a b : Flt f) : Flt f := add a (neg b)
def mul : Flt f → Flt f → Flt f
  | .fin a, .fin b => rnd f (a * b)
  | .inf s, .inf t => .inf (xor s t)
  | .inf s, .fin b => if b = 0 then .nan else .inf (xor s (decide (b < 0)))
  | .fin a, .inf t => if a = 0 then .nan else .inf (xor (decide (a < 0)) t)
  | _, _ => .nan
def div : Flt f → Flt f → Flt f
  | .fin a, .fin b =>
    if b = 0 then (if a = 0 then .nan else .inf (decide (a < 0))) else rnd f (a / b)
  | .fin _, .inf _ => .fin 0
  | .inf s, .fin b => .inf (xor s (decide (b < 0)))
  | _, _ => .nan

/-- `<` and `>=`: false if an operand is NaN. -/
def ltB : Flt f → Flt f → Bool
  | .fin a, .fin b => decide (a < b)
  | .inf s, .inf t => s && !t
  | .inf s, .fin _ => s
  | .fin _, .inf t => !t
  | _, _ => false
def geB : Flt f → Flt f → Bool
  | .nan, _ => false
  | _, .nan => false
  | a, b => !ltB a b

/-- `==`: NaN differs from itself. -/
def eqB : Flt f → Flt f → Bool
  | .nan, _ => false
  | _, .nan => false
  | a, b => decide (a = b)

instance : Zero (Flt f) := ⟨.fin 0⟩
instance : One (Flt f) := ⟨.fin 1⟩
instance : Neg (Flt f) := ⟨neg⟩
instance : Add (Flt f) := ⟨add⟩
instance : Sub (Flt f) := ⟨sub⟩
instance : Mul (Flt f) := ⟨mul⟩
instance : Div (Flt f) := ⟨div⟩
instance : LT (Flt f) := ⟨fun a b => ltB a b = true⟩
instance : DecidableLT (Flt f) := fun a b => inferInstanceAs (Decidable (ltB a b = true))

/-- `partial_cmp`: `None` if an operand is NaN. -/
instance : PartialCmp (Flt f) := ⟨fun a b => decide (a ≠ .nan) && decide (b ≠ .nan)⟩

/-! ## The trait implementations -/

/-- `Zero::is_zero`, `One::is_one` (`__impl.rs` L445-467). -/
def isZero (x : Flt f) : Bool := eqB x 0
def isOne (x : Flt f) : Bool := eqB x 1

/-- `Signed::abs`, `is_negative`, `is_positive` (`__impl.rs` L372-387). -/
def abs : Flt f → Flt f
  | .fin a => .fin |a|
  | .inf _ => .inf false
  | .nan => .nan
def isNegative (x : Flt f) : Bool := ltB x 0
def isPositive (x : Flt f) : Bool := geB x 0

/-- `Real::floor`, `ceil`, `trunc`, `round`, `fract` (`__impl.rs` L389-408): those of `core`. -/
def onFin (g : ℚ → ℚ) : Flt f → Flt f
  | .fin a => .fin (g a)
  | x => x
def towardZero (a : ℚ) : Int := if 0 ≤ a then ⌊a⌋ else ⌈a⌉
def floor (x : Flt f) : Flt f := onFin (fun a => ⌊a⌋) x
def ceil (x : Flt f) : Flt f := onFin (fun a => ⌈a⌉) x
def trunc (x : Flt f) : Flt f := onFin (fun a => towardZero a) x
/-- Half-way cases away from zero. -/
def round (x : Flt f) : Flt f := onFin (fun a => if 0 ≤ a then ⌊a + 1 / 2⌋ else ⌈a - 1 / 2⌉) x
def fract (x : Flt f) : Flt f := sub x (trunc x)

/-- `Real::sqrt` (`__impl.rs` L414-416): that of `core`, which is rounded correctly. `n` is the whole part of
the root in units of the last place; no root of a float is half-way between two floats. -/
def sqrt : Flt f → Flt f
  | .fin q =>
    if q < 0 then .nan
    else if q = 0 then .fin 0
    else
      let u : ℚ := 2 ^ (max (Int.log 2 q / 2) f.emin - (f.prec - 1))
      let n := Nat.sqrt ⌊q / u ^ 2⌋₊
      .fin ((if q / u ^ 2 < (n + 1 / 2) ^ 2 then n else n + 1) * u)
  | .inf s => if s then .nan else .inf false
  | .nan => .nan

/-- `Real::root`, `cbrt` (`crates/traits/src/class.rs` L65-67, L75-80), default methods which `f32` and `f64`
keep. `powf` of `core` (`__impl.rs` L469-475), the precision of which is not specified, is a parameter. -/
def root (powf : Flt f → Flt f → Flt f) (x base : Flt f) : Flt f := powf x (1 / base)
def cbrt (powf : Flt f → Flt f → Flt f) (x : Flt f) : Flt f := powf x (1 / (1 + 1 + 1))

/-- `TrigOps::csc`, `sec`, `cot` (`__impl.rs` L490-500), `sin`, `cos` and `tan` of `core` being parameters. -/
def csc (sin : Flt f → Flt f) (x : Flt f) : Flt f := 1 / sin x
def sec (cos : Flt f → Flt f) (x : Flt f) : Flt f := 1 / cos x
def cot (tan : Flt f → Flt f) (x : Flt f) : Flt f := 1 / tan x

/-- `Bounded` and `BoundedSigned` (`__impl.rs` L421-443): `MAX`, `MIN`, `MIN_POSITIVE` of `core`. -/
def maxValue : Flt f := .fin ((2 ^ f.prec - 1) * 2 ^ (f.emax - (f.prec - 1)))
def minValue : Flt f := neg maxValue
def minPositive : Flt f := .fin (2 ^ f.emin)
def maxNegative : Flt f := neg minPositive

/-- `saturate_from` of an integer (`__impl.rs` L50-59, L503-515): the cast `as`. -/
def ofInt (f : FloatFmt) (n : Int) : Flt f := rnd f n

/-- `saturate_from` of a float for a primitive integer (`__impl.rs` L50-59, L297-298): the cast `as`. -/
def toInt (p : Prim) : Flt f → Int
  | .nan => 0
  | .inf s => if s then p.minV else p.maxV
  | .fin a => max p.minV (min p.maxV (towardZero a))

end Flt

end Verif
