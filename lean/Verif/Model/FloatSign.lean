import Mathlib.Data.NNRat.Defs
import Mathlib.Data.NNRat.Order
import Verif.Model.Float
import Verif.Model.Vector

/-!
# Model of the primitive floats, with the sign of zero

As `Verif/Model/Float.lean`, except that `0.0` and `-0.0` are two values: a finite float is a sign and a
magnitude. The rules for signs are those of IEEE 754: a product or quotient is negative if just one operand
is; a sum that is exactly zero is `-0.0` only if both operands are negative; rounding keeps the sign, also
when the result becomes zero; `-0.0` equals `0.0` in all comparisons; a division by a zero gives an infinity
that has the sign of a quotient. `f32` and `f64` have these operations from `core`
(`crates/traits/src/__impl.rs` L368-530).
-/

namespace Verif

/-- A float: NaN, an infinity, or a finite number given by its sign and its magnitude. -/
inductive SFlt (f : FloatFmt) where
  | nan
  | inf (neg : Bool)
  | num (neg : Bool) (mag : ℚ≥0)
deriving DecidableEq

namespace SFlt

variable {f : FloatFmt}

/-- The number with the given sign and magnitude. -/
def val (s : Bool) (a : ℚ≥0) : ℚ := if s then -a else a

/-- The sign and magnitude of a number, `s` being the sign if it is zero. -/
def ofRat (s : Bool) (x : ℚ) : SFlt f := .num (if x = 0 then s else decide (x < 0)) (Rat.toNNRat |x|)

/-- Rounding of an exact result, which has the sign `s` if it is zero. -/
def rnd (f : FloatFmt) (s : Bool) (x : ℚ) : SFlt f :=
  match Flt.rnd f x with
  | .fin y => .num (if x = 0 then s else decide (x < 0)) (Rat.toNNRat |y|)
  | .inf t => .inf t
  | .nan => .nan

/-- The built-in operators. -/
def add : SFlt f → SFlt f → SFlt f
  | .num s a, .num t b => rnd f (s && t) (val s a + val t b)
  | .inf s, .inf t => if s = t then .inf s else .nan
  | .inf s, .num _ _ => .inf s
  | .num _ _, .inf s => .inf s
  | _, _ => .nan
def neg : SFlt f → SFlt f
  | .num s a => .num (!s) a
  | .inf s => .inf (!s)
  | .nan => .nan
def sub (a b : SFlt f) : SFlt f := add a (neg b)
def mul : SFlt f → SFlt f → SFlt f
  | .num s a, .num t b => rnd f (xor s t) (val s a * val t b)
  | .inf s, .inf t => .inf (xor s t)
  | .inf s, .num t b => if b = 0 then .nan else .inf (xor s t)
  | .num s a, .inf t => if a = 0 then .nan else .inf (xor s t)
  | _, _ => .nan
def div : SFlt f → SFlt f → SFlt f
  | .num s a, .num t b =>
    if b = 0 then (if a = 0 then .nan else .inf (xor s t)) else rnd f (xor s t) (val s a / val t b)
  | .num s _, .inf t => .num (xor s t) 0
  | .inf s, .num t _ => .inf (xor s t)
  | _, _ => .nan

/-- `<`, `>=` and `==`: false if an operand is NaN. -/
def ltB : SFlt f → SFlt f → Bool
  | .num s a, .num t b => decide (val s a < val t b)
  | .inf s, .inf t => s && !t
  | .inf s, .num _ _ => s
  | .num _ _, .inf t => !t
  | _, _ => false
def geB : SFlt f → SFlt f → Bool
  | .nan, _ => false
  | _, .nan => false
  | a, b => !ltB a b
def eqB : SFlt f → SFlt f → Bool
  | .num s a, .num t b => decide (val s a = val t b)
  | .inf s, .inf t => s == t
  | _, _ => false

instance : Zero (SFlt f) := ⟨.num false 0⟩
instance : One (SFlt f) := ⟨.num false 1⟩
instance : Neg (SFlt f) := ⟨neg⟩
instance : Add (SFlt f) := ⟨add⟩
instance : Sub (SFlt f) := ⟨sub⟩
instance : Mul (SFlt f) := ⟨mul⟩
instance : Div (SFlt f) := ⟨div⟩
instance : LT (SFlt f) := ⟨fun a b => ltB a b = true⟩
instance : DecidableLT (SFlt f) := fun a b => inferInstanceAs (Decidable (ltB a b = true))
/-- `partial_cmp`: `None` if an operand is NaN. -/
instance : PartialCmp (SFlt f) := ⟨fun a b => decide (a ≠ .nan) && decide (b ≠ .nan)⟩

/-- `Zero::is_zero`, `One::is_one` (`__impl.rs` L445-467): by `==`. -/
def isZero (x : SFlt f) : Bool := eqB x 0
def isOne (x : SFlt f) : Bool := eqB x 1
instance : ZeroTest (SFlt f) := ⟨fun x => isZero x = true, fun x => inferInstanceAs (Decidable (isZero x = true))⟩

/-- `Signed::abs`, `is_negative`, `is_positive` (`__impl.rs` L372-387). -/
def abs : SFlt f → SFlt f
  | .num _ a => .num false a
  | .inf _ => .inf false
  | .nan => .nan
def isNegative (x : SFlt f) : Bool := ltB x 0
def isPositive (x : SFlt f) : Bool := geB x 0

/-- `Real::floor`, `ceil`, `trunc`, `round`, `fract` (`__impl.rs` L389-408): those of `core`, which keep the
sign of what they make zero. -/
def onNum (g : ℚ → ℚ) : SFlt f → SFlt f
  | .num s a => ofRat s (g (val s a))
  | x => x
def floor (x : SFlt f) : SFlt f := onNum (fun a => ⌊a⌋) x
def ceil (x : SFlt f) : SFlt f := onNum (fun a => ⌈a⌉) x
def trunc (x : SFlt f) : SFlt f := onNum (fun a => Flt.towardZero a) x
/-- Half-way cases away from zero. -/
def round (x : SFlt f) : SFlt f := onNum (fun a => if 0 ≤ a then ⌊a + 1 / 2⌋ else ⌈a - 1 / 2⌉) x
def fract (x : SFlt f) : SFlt f := sub x (trunc x)

/-- `Real::sqrt` (`__impl.rs` L414-416): that of `core`, which is rounded correctly, and gives `-0.0` for
`-0.0`. -/
def sqrt : SFlt f → SFlt f
  | .num s a =>
    if a = 0 then .num s 0
    else if s then .nan
    else match (Flt.sqrt (.fin a) : Flt f) with
      | .fin y => .num false (Rat.toNNRat y)
      | .inf t => .inf t
      | .nan => .nan
  | .inf s => if s then .nan else .inf false
  | .nan => .nan

/-- `Real::root`, `cbrt` (`crates/traits/src/class.rs` L65-67, L75-80), `powf` of `core` being a
parameter. -/
def root (powf : SFlt f → SFlt f → SFlt f) (x base : SFlt f) : SFlt f := powf x (1 / base)
def cbrt (powf : SFlt f → SFlt f → SFlt f) (x : SFlt f) : SFlt f := powf x (1 / (1 + 1 + 1))

/-- `TrigOps::csc`, `sec`, `cot` (`__impl.rs` L490-500), `sin`, `cos` and `tan` of `core` being parameters. -/
def csc (sin : SFlt f → SFlt f) (x : SFlt f) : SFlt f := 1 / sin x
def sec (cos : SFlt f → SFlt f) (x : SFlt f) : SFlt f := 1 / cos x
def cot (tan : SFlt f → SFlt f) (x : SFlt f) : SFlt f := 1 / tan x

/-- `saturate_from` of a float for a primitive integer (`__impl.rs` L50-59, L297-298): the cast `as`. -/
def toInt (p : Prim) : SFlt f → Int
  | .nan => 0
  | .inf s => if s then p.minV else p.maxV
  | .num s a => max p.minV (min p.maxV (Flt.towardZero (val s a)))

end SFlt

end Verif
