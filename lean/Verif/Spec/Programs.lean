import Verif.Spec.BigInt
import Verif.Spec.Text
import Verif.Spec.Div
import Verif.Model.UInt
import Verif.Model.IInt

/-!
# Specification vocabulary for whole computations

Expressions over a number type: literals and operators, nested to any depth. `run` evaluates an
expression with the operators of the library (each operand first, then the operator, and the first
panic wins, as Rust does); the `denote`s are what the expression means in Int.
-/

namespace Verif

/-- `+`, `-` and `*` over literals of type `α`. -/
inductive Expr (α : Type) where
  | lit (a : α)
  | add (p q : Expr α)
  | sub (p q : Expr α)
  | mul (p q : Expr α)

namespace Expr

variable {α : Type}

/-- Evaluates with the given operators. -/
def run (add sub mul : α → α → Res α) : Expr α → Res α
  | .lit a => .ok a
  | .add p q => (run add sub mul p).bind fun x => (run add sub mul q).bind fun y => add x y
  | .sub p q => (run add sub mul p).bind fun x => (run add sub mul q).bind fun y => sub x y
  | .mul p q => (run add sub mul p).bind fun x => (run add sub mul q).bind fun y => mul x y

/-- The integer the expression stands for, if the literals stand for `v`. -/
def denote (v : α → Int) : Expr α → Int
  | .lit a => v a
  | .add p q => denote v p + denote v q
  | .sub p q => denote v p - denote v q
  | .mul p q => denote v p * denote v q

/-- `P` holds of every literal. -/
def Lits (P : α → Prop) : Expr α → Prop
  | .lit a => P a
  | .add p q | .sub p q | .mul p q => Lits P p ∧ Lits P q

/-- The integers all subexpressions stand for, the expression itself included, satisfy `P`. -/
def Within (v : α → Int) (P : Int → Prop) : Expr α → Prop
  | .lit a => P (v a)
  | .add p q => Within v P p ∧ Within v P q ∧ P (denote v p + denote v q)
  | .sub p q => Within v P p ∧ Within v P q ∧ P (denote v p - denote v q)
  | .mul p q => Within v P p ∧ Within v P q ∧ P (denote v p * denote v q)

/-- No subtraction occurs. -/
def SubFree : Expr α → Prop
  | .lit _ => True
  | .add p q | .mul p q => SubFree p ∧ SubFree q
  | .sub _ _ => False

/-- No multiplication occurs. -/
def MulFree : Expr α → Prop
  | .lit _ => True
  | .add p q | .sub p q => MulFree p ∧ MulFree q
  | .mul _ _ => False

end Expr

/-- A `U<N>` expression, evaluated by the operators of the given build profile. -/
def UN.eval (m : Mode) (e : Expr Bytes) : Res Bytes := e.run (UN.add m) (UN.sub m) (UN.mul m)

/-- An `I<N>` expression; its operators wrap in every build profile. -/
def IN.eval (e : Expr Bytes) : Res Bytes :=
  e.run (fun a b => .ok (IN.add a b)) (fun a b => .ok (IN.sub a b)) (fun a b => .ok (IN.mul a b))

namespace BInt

/-- Expressions over `BigInt`: conversions from primitives (of `t` bits), parsed digits, and all
operators that return a `BigInt`. -/
inductive Prog where
  | unsigned (t : Nat) (v : BitVec t)
  | signed (t : Nat) (v : BitVec t)
  | parse (s : List Char) (radix : BitVec 32)
  | neg (p : Prog)
  | abs (p : Prog)
  | not (p : Prog)
  | add (p q : Prog)
  | sub (p q : Prog)
  | mul (p q : Prog)
  | div (p q : Prog)
  | rem (p q : Prog)
  | bitand (p q : Prog)
  | bitor (p q : Prog)
  | bitxor (p q : Prog)
  | shl (p q : Prog)
  | shr (p q : Prog)
  | pow (p q : Prog)

namespace Prog

/-- Evaluates with the operators of `BigInt`; `pow` is given `fuel` rounds, a parse error counts as
a panic (`unwrap`). -/
def run (m : Mode) (fuel : Nat) : Prog → Res BInt
  | .unsigned t v => fromU t v
  | .signed t v => fromS t v
  | .parse s radix => (fromStrRadix s radix).bind fun r =>
      match r with
      | .ok b => .ok b
      | .error _ => .panic
  | .neg p => (run m fuel p).bind fun x => .ok (neg' x)
  | .abs p => (run m fuel p).bind fun x => .ok (BInt.abs x)
  | .not p => (run m fuel p).bind fun x => BInt.not x
  | .add p q => (run m fuel p).bind fun x => (run m fuel q).bind fun y => BInt.add x y
  | .sub p q => (run m fuel p).bind fun x => (run m fuel q).bind fun y => BInt.sub x y
  | .mul p q => (run m fuel p).bind fun x => (run m fuel q).bind fun y => BInt.mul x y
  | .div p q => (run m fuel p).bind fun x => (run m fuel q).bind fun y => BInt.div m x y
  | .rem p q => (run m fuel p).bind fun x => (run m fuel q).bind fun y => BInt.rem m x y
  | .bitand p q => (run m fuel p).bind fun x => (run m fuel q).bind fun y => BInt.bitand x y
  | .bitor p q => (run m fuel p).bind fun x => (run m fuel q).bind fun y => BInt.bitor x y
  | .bitxor p q => (run m fuel p).bind fun x => (run m fuel q).bind fun y => BInt.bitxor x y
  | .shl p q => (run m fuel p).bind fun x => (run m fuel q).bind fun y => BInt.shl m x y
  | .shr p q => (run m fuel p).bind fun x => (run m fuel q).bind fun y => BInt.shr m x y
  | .pow p q => (run m fuel p).bind fun x => (run m fuel q).bind fun y => BInt.pow m fuel x y

/-- The outermost operation is a negation, or a power whose base is such. -/
def Negation : Prog → Prop
  | .neg _ => True
  | .pow p _ => Negation p
  | _ => False

/-- Where `/` is right: one 64-bit digit each, or a divisor up to `2^63`, or else a divisor with no more
digits than the numerator such that every comparison comes out right though it starts from the lowest
digit. (The last includes the others. Nonzero divisors outside give a wrong quotient or a panic, C44.) -/
def Divides (x y : Int) : Prop :=
  x.natAbs < 2 ^ 64 ∧ y.natAbs < 2 ^ 64 ∨ x.natAbs.log2 < 2 ^ 57 ∧ y.natAbs ≤ 2 ^ 63 ∨
  x.natAbs.log2 < 2 ^ 57 ∧ y.natAbs.log2 / 64 ≤ x.natAbs.log2 / 64 ∧
    ComparesRight 64 (64 * (x.natAbs.log2 / 64 + 1)) x.natAbs y.natAbs

/-- `Exact m fuel p x`: `p` stands for the integer `x`, and each of its operations is used where that
operation is exact. The side conditions are on the integers, not on the way they are stored;
numbers of `2^57` bits and more (which no memory can hold) are left out where it matters. -/
inductive Exact (m : Mode) (fuel : Nat) : Prog → Int → Prop
  | unsigned {t : Nat} (v : BitVec t) (ht : 0 < t) : Exact m fuel (.unsigned t v) v.toNat
  | signed {t : Nat} (v : BitVec t) (ht : 0 < t) : Exact m fuel (.signed t v) v.toInt
  | parse {s : List Char} {radix : BitVec 32} (h2 : 2 ≤ radix.toNat) (h36 : radix.toNat ≤ 36)
      (hs : ∀ c ∈ s, IsDigit radix.toNat c) :
      Exact m fuel (.parse s radix) (numeral radix.toNat s)
  | neg {p : Prog} {x : Int} (hp : Exact m fuel p x) (h : x ≠ 0) : Exact m fuel (.neg p) (-x)
  | abs {p : Prog} {x : Int} (hp : Exact m fuel p x) : Exact m fuel (.abs p) x.natAbs
  | add {p q : Prog} {x y : Int} (hp : Exact m fuel p x) (hq : Exact m fuel q y)
      (h : (x < 0 ↔ y < 0) ∨ y.natAbs ≤ x.natAbs ∨ (x + y) % 2 ≠ 0) :
      Exact m fuel (.add p q) (x + y)
  | sub {p q : Prog} {x y : Int} (hp : Exact m fuel p x) (hq : Exact m fuel q y)
      (h : (x < 0 ↔ 0 ≤ y) ∨ y.natAbs ≤ x.natAbs ∨ (x - y) % 2 ≠ 0) :
      Exact m fuel (.sub p q) (x - y)
  | mul {p q : Prog} {x y : Int} (hp : Exact m fuel p x) (hq : Exact m fuel q y) :
      Exact m fuel (.mul p q) (x * y)
  | div {p q : Prog} {x y : Int} (hp : Exact m fuel p x) (hq : Exact m fuel q y) (h0 : y ≠ 0)
      (hx : Divides x y) : Exact m fuel (.div p q) (x.tdiv y)
  | rem {p q : Prog} {x y : Int} (hp : Exact m fuel p x) (hq : Exact m fuel q y) (h0 : y ≠ 0)
      (hs : 0 < y ∨ y ∣ x) (hx : Divides x y) : Exact m fuel (.rem p q) (x.tmod y)
  | bitand {p q : Prog} {x y : Nat} (hp : Exact m fuel p x) (hq : Exact m fuel q y) :
      Exact m fuel (.bitand p q) (x &&& y : Nat)
  | bitor {p q : Prog} {x y : Nat} (hp : Exact m fuel p x) (hq : Exact m fuel q y) :
      Exact m fuel (.bitor p q) (x ||| y : Nat)
  | bitxor {p q : Prog} {x y : Nat} (hp : Exact m fuel p x) (hq : Exact m fuel q y) :
      Exact m fuel (.bitxor p q) (x ^^^ y : Nat)
  | shl {p q : Prog} {x : Int} {k : Nat} (hp : Exact m fuel p x) (hq : Exact m fuel q k)
      (hk : k < 2 ^ 64) : Exact m fuel (.shl p q) (x * 2 ^ k)
  | shr {p q : Prog} {x : Int} {k : Nat} (hp : Exact m fuel p x) (hq : Exact m fuel q k)
      (hk : k < 64 ∨ m = .release ∧ k < 2 ^ 64) (hx : x.natAbs.log2 < 2 ^ 57)
      (h : 0 ≤ x ∨ 2 ^ k ∣ x) : Exact m fuel (.shr p q) (x / 2 ^ k)
  | pow {p q : Prog} {x : Int} {k : Nat} (hp : Exact m fuel p x) (hq : Exact m fuel q k)
      (hk : k ≤ fuel) : Exact m fuel (.pow p q) (x ^ k)

end Prog

end BInt

end Verif
