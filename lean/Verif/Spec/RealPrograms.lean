import Verif.Model.Fixed
import Verif.Spec.Real

/-!
# Computations with rational and fixed-point numbers

Expressions nested to any depth, with their evaluation by the operators of the library (operands first,
the first panic wins) and the number they stand for.
-/

namespace Verif

namespace RatM

/-- Expressions over `Rat<T>`. -/
inductive Prog where
  | new (n d : Int)
  | add (a b : Prog)
  | sub (a b : Prog)
  | mul (a b : Prog)
  | div (a b : Prog)
  | neg (a : Prog)

namespace Prog

/-- Evaluates with `Rat::new(n, d).unwrap()` and the operators. -/
def run (m : Mode) (p : Prim) : Prog → Res RatM
  | .new n d => newUnwrap p n d
  | .add a b => (run m p a).bind fun x => (run m p b).bind fun y => RatM.add m p x y
  | .sub a b => (run m p a).bind fun x => (run m p b).bind fun y => RatM.sub m p x y
  | .mul a b => (run m p a).bind fun x => (run m p b).bind fun y => RatM.mul m p x y
  | .div a b => (run m p a).bind fun x => (run m p b).bind fun y => RatM.div m p x y
  | .neg a => (run m p a).bind fun x => RatM.neg m p x

/-- The rational number the expression stands for; none if something is divided by zero. -/
def denote : Prog → Option ℚ
  | .new n d => if d = 0 then none else some ((n : ℚ) / d)
  | .add a b => do return (← denote a) + (← denote b)
  | .sub a b => do return (← denote a) - (← denote b)
  | .mul a b => do return (← denote a) * (← denote b)
  | .div a b => do
    let x ← denote a
    let y ← denote b
    if y = 0 then none else some (x / y)
  | .neg a => do return -(← denote a)

/-- The integers written in the expression are values of the type. -/
def Typed (p : Prim) : Prog → Prop
  | .new n d => p.InRange n ∧ p.InRange d
  | .add a b | .sub a b | .mul a b | .div a b => Typed p a ∧ Typed p b
  | .neg a => Typed p a

/-- How large numerator and denominator become if fractions are never reduced. -/
def size : Prog → Nat × Nat
  | .new n d => (n.natAbs, d.natAbs)
  | .add a b | .sub a b => ((size a).1 * (size b).2 + (size b).1 * (size a).2, (size a).2 * (size b).2)
  | .mul a b => ((size a).1 * (size b).1, (size a).2 * (size b).2)
  | .div a b => ((size a).1 * (size b).2, (size a).2 * (size b).1)
  | .neg a => size a

/-- These sizes are at most `M` in every subexpression. -/
def Fits (M : Nat) : Prog → Prop
  | .new n d => n.natAbs ≤ M ∧ d.natAbs ≤ M
  | .add a b => Fits M a ∧ Fits M b ∧ (size (.add a b)).1 ≤ M ∧ (size (.add a b)).2 ≤ M
  | .sub a b => Fits M a ∧ Fits M b ∧ (size (.sub a b)).1 ≤ M ∧ (size (.sub a b)).2 ≤ M
  | .mul a b => Fits M a ∧ Fits M b ∧ (size (.mul a b)).1 ≤ M ∧ (size (.mul a b)).2 ≤ M
  | .div a b => Fits M a ∧ Fits M b ∧ (size (.div a b)).1 ≤ M ∧ (size (.div a b)).2 ≤ M
  | .neg a => Fits M a

/-- No subtraction or negation occurs. -/
def SubFree : Prog → Prop
  | .new _ _ => True
  | .add a b | .mul a b | .div a b => SubFree a ∧ SubFree b
  | .sub _ _ | .neg _ => False

end Prog

end RatM

namespace Fixed

/-- Expressions over `Fixed<T, N>`, without `*` and `/`. -/
inductive Prog where
  | raw (x : Int)
  | val (v : Int)
  | add (a b : Prog)
  | sub (a b : Prog)
  | rem (a b : Prog)
  | neg (a : Prog)
  | abs (a : Prog)
  | floor (a : Prog)
  | trunc (a : Prog)
  | fract (a : Prog)

namespace Prog

/-- Evaluates with `from_raw`, `from_val` and the operators and methods. -/
def run (m : Mode) (p : Prim) (N : Nat) : Prog → Res Int
  | .raw x => .ok (Fixed.fromRaw x)
  | .val v => Fixed.fromVal m p N v
  | .add a b => (run m p N a).bind fun x => (run m p N b).bind fun y => Fixed.add m p x y
  | .sub a b => (run m p N a).bind fun x => (run m p N b).bind fun y => Fixed.sub m p x y
  | .rem a b => (run m p N a).bind fun x => (run m p N b).bind fun y => Fixed.rem p x y
  | .neg a => (run m p N a).bind fun x => Fixed.neg m p x
  | .abs a => (run m p N a).bind fun x => Fixed.abs m p x
  | .floor a => (run m p N a).bind fun x => Fixed.floor m p N x
  | .trunc a => (run m p N a).bind fun x => Fixed.trunc m p N x
  | .fract a => (run m p N a).bind fun x => Fixed.fract m p N x

/-- The number the expression stands for. The remainder is that of truncated division, `none` if the
divisor is zero. -/
def denote (N : Nat) : Prog → Option ℚ
  | .raw x => some ((x : ℚ) / 2 ^ N)
  | .val v => some v
  | .add a b => do return (← denote N a) + (← denote N b)
  | .sub a b => do return (← denote N a) - (← denote N b)
  | .rem a b => do
    let x ← denote N a
    let y ← denote N b
    if y = 0 then none else some (x - truncQ (x / y) * y)
  | .neg a => do return -(← denote N a)
  | .abs a => do return |← denote N a|
  | .floor a => do return ⌊← denote N a⌋
  | .trunc a => do return truncQ (← denote N a)
  | .fract a => do
    let x ← denote N a
    return x - truncQ x

/-- The numbers written in the expression are representable. -/
def Typed (p : Prim) (N : Nat) : Prog → Prop
  | .raw x => p.InRange x
  | .val v => p.InRange (v * 2 ^ N)
  | .add a b | .sub a b | .rem a b => Typed p N a ∧ Typed p N b
  | .neg a | .abs a | .floor a | .trunc a | .fract a => Typed p N a

/-- Every subexpression of the forms that can leave the type stands for a representable number, and
no remainder is taken. -/
def Within (p : Prim) (N : Nat) : Prog → Prop
  | .raw _ | .val _ => True
  | .add a b => Within p N a ∧ Within p N b ∧
    ∃ r : Int, p.InRange r ∧ denote N (.add a b) = some ((r : ℚ) / 2 ^ N)
  | .sub a b => Within p N a ∧ Within p N b ∧
    ∃ r : Int, p.InRange r ∧ denote N (.sub a b) = some ((r : ℚ) / 2 ^ N)
  | .rem _ _ => False
  | .neg a => Within p N a ∧ ∃ r : Int, p.InRange r ∧ denote N (.neg a) = some ((r : ℚ) / 2 ^ N)
  | .abs a => Within p N a ∧ ∃ r : Int, p.InRange r ∧ denote N (.abs a) = some ((r : ℚ) / 2 ^ N)
  | .floor a | .trunc a | .fract a => Within p N a

/-- Only literals, `+`, `-` and negation. -/
def Linear : Prog → Prop
  | .raw _ | .val _ => True
  | .add a b | .sub a b => Linear a ∧ Linear b
  | .neg a => Linear a
  | _ => False

end Prog

end Fixed

end Verif
