import Verif.Model.BigInt

/-!
# Model of `BigInt::approx_float` (`crates/ints/src/big_int.rs` L245-262)

Only nonnegative integral `f64` values, infinity and NaN occur, so an `f64` is one of these here.
The operations of `f64` are those of IEEE 754 with rounding to nearest, ties to even. `powi` is taken
to be correctly rounded; `core` leaves its precision open, but the powers here are powers of two.
-/

namespace Verif

/-- A nonnegative integral `f64`, infinity or NaN. -/
inductive Fl where
  | fin (n : Nat)
  | inf
  | nan
deriving DecidableEq, Repr

namespace Fl

/-- The first power of two that is not an `f64`. -/
def limit : Nat := 2 ^ 1024

/-- Rounding to 53 significant bits, to nearest, ties to even. -/
def round53 (n : Nat) : Nat :=
  let e := Nat.log2 n - 52
  let q := n / 2 ^ e
  let r := n % 2 ^ e
  (if 2 ^ e < 2 * r ∨ (2 * r = 2 ^ e ∧ q % 2 = 1) then q + 1 else q) * 2 ^ e

/-- Infinity if the rounded number is too large. -/
def clip (l z : Nat) : Fl := if z < l then .fin z else .inf

/-- Rounding to an `f64`. -/
def round (n : Nat) : Fl := clip limit (round53 n)

/-- `usize as f64`. -/
def ofUsize (v : BitVec 64) : Fl := round v.toNat

/-- `powi` with a nonnegative exponent. -/
def powi : Fl → Nat → Fl
  | _, 0 => .fin 1
  | .fin b, k => round (b ^ k)
  | .inf, _ => .inf
  | .nan, _ => .nan

/-- `a.mul_add(b, c)`: one rounding; `0 * inf` is NaN. -/
def mulAdd : Fl → Fl → Fl → Fl
  | .fin a, .fin b, .fin c => round (a * b + c)
  | .fin _, .fin _, .inf => .inf
  | .fin a, .inf, .fin _ => if a = 0 then .nan else .inf
  | .fin a, .inf, .inf => if a = 0 then .nan else .inf
  | .inf, .fin b, .fin _ => if b = 0 then .nan else .inf
  | .inf, .fin b, .inf => if b = 0 then .nan else .inf
  | .inf, .inf, .fin _ => .inf
  | .inf, .inf, .inf => .inf
  | .nan, _, _ => .nan
  | _, .nan, _ => .nan
  | _, _, .nan => .nan

end Fl

namespace BInt

/-- `USIZE_MAX` (`big_int.rs` L249). -/
def usizeMaxF : Fl := Fl.ofUsize (BitVec.allOnes 64)

/-- The `try_fold` (`big_int.rs` L251-260); `i32::try_from(idx)` fails from `2^31` on. -/
def approxLoop : Nat → List (BitVec 64) → Fl → Fl
  | _, [], acc => acc
  | idx, v :: vs, acc =>
    if idx < 2 ^ 31 then
      approxLoop (idx + 1) vs (Fl.mulAdd (Fl.ofUsize v) (Fl.powi usizeMaxF idx) acc)
    else .inf

/-- `approx_float` (`big_int.rs` L248-262). -/
def approxFloat (b : BInt) : Fl := approxLoop 0 b.limbs (.fin 0)

end BInt

end Verif
