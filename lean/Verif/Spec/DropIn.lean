import Verif.Model.UInt
import Verif.Model.IInt

/-!
# Expressions over all operators, and what they mean for the primitive integers (C195)

The primitive integers are those of the Rust reference: a debug build panics on overflow and for shift
amounts of at least the width, a release build wraps and takes the amount modulo the width; division by zero
panics in both.
-/

namespace Verif

namespace Word

/-- Expressions over the operators of the integer types; shift amounts are constants of type `usize`. -/
inductive Expr (α : Type) where
  | lit (a : α)
  | add (p q : Expr α)
  | sub (p q : Expr α)
  | mul (p q : Expr α)
  | div (p q : Expr α)
  | rem (p q : Expr α)
  | and (p q : Expr α)
  | or (p q : Expr α)
  | xor (p q : Expr α)
  | not (p : Expr α)
  | shl (p : Expr α) (k : Nat)
  | shr (p : Expr α) (k : Nat)

/-- The operators of one type in one build profile. -/
structure Ops (α : Type) where
  add : α → α → Res α
  sub : α → α → Res α
  mul : α → α → Res α
  div : α → α → Res α
  rem : α → α → Res α
  and : α → α → Res α
  or : α → α → Res α
  xor : α → α → Res α
  not : α → Res α
  shl : α → Nat → Res α
  shr : α → Nat → Res α

variable {α β : Type}

/-- Evaluates the expression, operands from left to right. -/
def Expr.run (o : Ops α) : Expr α → Res α
  | .lit a => .ok a
  | .add p q => (run o p).bind fun x => (run o q).bind fun y => o.add x y
  | .sub p q => (run o p).bind fun x => (run o q).bind fun y => o.sub x y
  | .mul p q => (run o p).bind fun x => (run o q).bind fun y => o.mul x y
  | .div p q => (run o p).bind fun x => (run o q).bind fun y => o.div x y
  | .rem p q => (run o p).bind fun x => (run o q).bind fun y => o.rem x y
  | .and p q => (run o p).bind fun x => (run o q).bind fun y => o.and x y
  | .or p q => (run o p).bind fun x => (run o q).bind fun y => o.or x y
  | .xor p q => (run o p).bind fun x => (run o q).bind fun y => o.xor x y
  | .not p => (run o p).bind fun x => o.not x
  | .shl p k => (run o p).bind fun x => o.shl x k
  | .shr p k => (run o p).bind fun x => o.shr x k

/-- The same expression over another type. -/
def Expr.map (f : α → β) : Expr α → Expr β
  | .lit a => .lit (f a)
  | .add p q => .add (p.map f) (q.map f)
  | .sub p q => .sub (p.map f) (q.map f)
  | .mul p q => .mul (p.map f) (q.map f)
  | .div p q => .div (p.map f) (q.map f)
  | .rem p q => .rem (p.map f) (q.map f)
  | .and p q => .and (p.map f) (q.map f)
  | .or p q => .or (p.map f) (q.map f)
  | .xor p q => .xor (p.map f) (q.map f)
  | .not p => .not (p.map f)
  | .shl p k => .shl (p.map f) k
  | .shr p k => .shr (p.map f) k

/-- `x` in builds that check, if it is in range. -/
def checked {w : Nat} (m : Mode) (inRange : Bool) (x : BitVec w) : Res (BitVec w) :=
  if m = .debug ∧ inRange = false then .panic else .ok x

/-- The amount by which a primitive of `w` bits is shifted. -/
def amount {α : Type} (m : Mode) (w k : Nat) (f : Nat → α) : Res α :=
  if k < w then .ok (f k) else match m with
    | .debug => .panic
    | .release => .ok (f (k % w))

/-- The operators of the unsigned primitive of `w` bits. -/
def prim (m : Mode) (w : Nat) : Ops (BitVec w) where
  add a b := checked m (a.toNat + b.toNat < 2 ^ w) (a + b)
  sub a b := checked m (b.toNat ≤ a.toNat) (a - b)
  mul a b := checked m (a.toNat * b.toNat < 2 ^ w) (a * b)
  div a b := if b = 0 then .panic else .ok (a / b)
  rem a b := if b = 0 then .panic else .ok (a % b)
  and a b := .ok (a &&& b)
  or a b := .ok (a ||| b)
  xor a b := .ok (a ^^^ b)
  not a := .ok (~~~a)
  shl a k := amount m w k fun k => a <<< k
  shr a k := amount m w k fun k => a >>> k

/-- The integer `x` fits the signed primitive of `w` bits. -/
def fitsS (w : Nat) (x : Int) : Bool := decide (-2 ^ w ≤ 2 * x ∧ 2 * x < 2 ^ w)

/-- The operators of the signed primitive of `w` bits. -/
def primS (m : Mode) (w : Nat) : Ops (BitVec w) where
  add a b := checked m (fitsS w (a.toInt + b.toInt)) (a + b)
  sub a b := checked m (fitsS w (a.toInt - b.toInt)) (a - b)
  mul a b := checked m (fitsS w (a.toInt * b.toInt)) (a * b)
  div a b := if b = 0 ∨ fitsS w (a.toInt.tdiv b.toInt) = false then .panic else .ok (a.sdiv b)
  rem a b := if b = 0 ∨ fitsS w (a.toInt.tdiv b.toInt) = false then .panic else .ok (a.srem b)
  and a b := .ok (a &&& b)
  or a b := .ok (a ||| b)
  xor a b := .ok (a ^^^ b)
  not a := .ok (~~~a)
  shl a k := amount m w k fun k => a <<< k
  shr a k := amount m w k fun k => a.sshiftRight k

/-- `P` holds of the shift amounts to the left, `Q` of those to the right, and `D` of the divisors, which
are literals. -/
def Expr.Only (P Q : Nat → Prop) (D : α → Prop) : Expr α → Prop
  | .lit _ => True
  | .add p q | .sub p q | .mul p q | .and p q | .or p q | .xor p q => p.Only P Q D ∧ q.Only P Q D
  | .div p q | .rem p q => p.Only P Q D ∧ ∃ d, q = .lit d ∧ D d
  | .not p => p.Only P Q D
  | .shl p k => p.Only P Q D ∧ P k
  | .shr p k => p.Only P Q D ∧ Q k

/-- No multiplication occurs. -/
def Expr.MulFree : Expr α → Prop
  | .lit _ => True
  | .mul _ _ => False
  | .add p q | .sub p q | .div p q | .rem p q | .and p q | .or p q | .xor p q => p.MulFree ∧ q.MulFree
  | .not p | .shl p _ | .shr p _ => p.MulFree

end Word

/-- The operators of `U<N>`. -/
def UN.wordOps (m : Mode) : Word.Ops Bytes where
  add := UN.add m
  sub := UN.sub m
  mul := UN.mul m
  div := UN.div m
  rem := UN.rem m
  and a b := .ok (UN.bitand a b)
  or a b := .ok (UN.bitor a b)
  xor a b := .ok (UN.bitxor a b)
  not a := .ok (UN.not a)
  shl := UN.shl m
  shr := UN.shr m

/-- The operators of `I<N>`. -/
def IN.wordOps (m : Mode) : Word.Ops Bytes where
  add a b := .ok (IN.add a b)
  sub a b := .ok (IN.sub a b)
  mul a b := .ok (IN.mul a b)
  div := IN.div m
  rem := IN.rem m
  and a b := .ok (IN.bitand a b)
  or a b := .ok (IN.bitor a b)
  xor a b := .ok (IN.bitxor a b)
  not a := .ok (IN.not a)
  shl := IN.shlUsize
  shr := IN.shrUsize

end Verif
