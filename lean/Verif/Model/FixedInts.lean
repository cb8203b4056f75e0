import Verif.Model.Fixed
import Verif.Model.UInt
import Verif.Model.IInt
import Verif.Model.BigIntMixed

/-!
# Model of `Fixed<T, N>` (`crates/reals/src/fixed.rs`) for the library's own integers `T`

The code is generic in `T: Integral`, a trait that `U<M>`, `I<M>` and `BigInt` implement as well as the
primitive integers (`u.rs` L560, `i.rs` L329, `big_int.rs` L673). Here the functions of `fixed.rs` are
modelled for any operators of the backing type, `IntOps`. For primitives `Model/Fixed.lean` says the same
with less detail. A value is its raw integer.
-/

namespace Verif

/-- The operators of `Integral` that `fixed.rs` uses (`crates/traits/src/class.rs` L13-37). -/
structure IntOps (α : Type) where
  zero : α
  one : α
  add : α → α → Res α
  sub : α → α → Res α
  mul : α → α → Res α
  div : α → α → Res α
  rem : α → α → Res α
  shl : α → Nat → Res α
  shr : α → Nat → Res α
  and : α → α → Res α
  not : α → Res α
  eq : α → α → Bool
  cmp : α → α → Res Ordering

/-- The primitive integers. -/
def Prim.intOps (m : Mode) (p : Prim) : IntOps Int where
  zero := 0
  one := 1
  add a b := Prim.arith m p (a + b)
  sub a b := Prim.arith m p (a - b)
  mul a b := Prim.arith m p (a * b)
  div := Prim.div p
  rem := Prim.rem p
  shl a k := Prim.shl m p a k
  shr a k := Prim.shr m p a k
  and a b := .ok (Prim.and p a b)
  not a := .ok (Prim.not p a)
  eq a b := a = b
  cmp a b := .ok (compare a b)

/-- `U<M>` (`crates/ints/src/u.rs` L239-427, L538-551). -/
def UN.intOps (m : Mode) (M : Nat) : IntOps Bytes where
  zero := UN.zero M
  one := UN.one M
  add := UN.add m
  sub := UN.sub m
  mul := UN.mul m
  div := UN.div m
  rem := UN.rem m
  shl := UN.shl m
  shr := UN.shr m
  and a b := .ok (UN.bitand a b)
  not a := .ok (UN.not a)
  eq := UN.eq
  cmp a b := .ok (UN.cmp a b)

/-- `I<M>` (`crates/ints/src/i.rs` L32-223, L281-294). -/
def IN.intOps (m : Mode) (M : Nat) : IntOps Bytes where
  zero := IN.zero M
  one := IN.one M
  add a b := .ok (IN.add a b)
  sub a b := .ok (IN.sub a b)
  mul a b := .ok (IN.mul a b)
  div := IN.div m
  rem := IN.rem m
  shl := IN.shlUsize
  shr := IN.shrUsize
  and a b := .ok (IN.bitand a b)
  not a := .ok (IN.not a)
  eq a b := a = b
  cmp := IN.cmp

/-- `BigInt` (`crates/ints/src/big_int.rs` L349-542, L598-611); the shifts by a `usize` convert it first
(`big_int/macros.rs` L19-37). -/
def BInt.intOps (m : Mode) : IntOps BInt where
  zero := BInt.zero
  one := BInt.one
  add := BInt.add
  sub := BInt.sub
  mul := BInt.mul
  div := BInt.div m
  rem := BInt.rem m
  shl a k := BInt.opPrim m .shl a false 64 (BitVec.ofNat 64 k)
  shr a k := BInt.opPrim m .shr a false 64 (BitVec.ofNat 64 k)
  and := BInt.bitand
  not := BInt.not
  eq := BInt.eq
  cmp a b := .ok (BInt.cmp a b)

namespace FixedOf

variable {α : Type} (o : IntOps α) (N : Nat)

/-- `mask` (`fixed.rs` L13-15). -/
def mask : Res α := (o.shl o.one N).bind fun x => o.sub x o.one

/-- `new` (`fixed.rs` L23-25) and `Zero::zero` (L173-175). -/
def zero : α := o.zero

/-- `from_val` (`fixed.rs` L27-29). -/
def fromVal (v : α) : Res α := o.shl v N

/-- `from_raw` (`fixed.rs` L31-33). -/
def fromRaw (v : α) : α := v

/-- `is_whole` (`fixed.rs` L35-37). -/
def isWhole (x : α) : Res Bool :=
  (mask o N).bind fun k => (o.not k).bind fun k => (o.and x k).bind fun y => .ok (o.eq y x)

/-- `PartialEq` and `Ord` (`fixed.rs` L94-114). -/
def eq (x y : α) : Bool := o.eq x y
def cmp (x y : α) : Res Ordering := o.cmp x y

/-- `Add`, `Sub`, `Mul`, `Div`, `Rem` (`fixed.rs` L116-154): all on the raw integers. -/
def add (x y : α) : Res α := o.add x y
def sub (x y : α) : Res α := o.sub x y
def mul (x y : α) : Res α := o.mul x y
def div (x y : α) : Res α := o.div x y
def rem (x y : α) : Res α := o.rem x y

/-- `One` (`fixed.rs` L182-190). -/
def one : Res α := o.shl o.one N
def isOne (x : α) : Res Bool := (one o N).bind fun i => .ok (eq o x i)

/-- `floor` (`fixed.rs` L232-234). -/
def floor (x : α) : Res α := (o.shr x N).bind fun y => o.shl y N

/-- `ceil` (`fixed.rs` L236-242). -/
def ceil (x : α) : Res α :=
  (isWhole o N x).bind fun w =>
  if w then floor o N x
  else (floor o N x).bind fun f => (one o N).bind fun i => add o f i

/-- `fract` (`fixed.rs` L263-265). -/
def fract (x : α) : Res α := (one o N).bind fun i => rem o x i

/-- `trunc` (`fixed.rs` L259-261). -/
def trunc (x : α) : Res α := (fract o N x).bind fun f => sub o x f

/-- `round` (`fixed.rs` L244-257). -/
def round (x : α) : Res α :=
  (one o N).bind fun i => (add o i i).bind fun two => (div o i two).bind fun half =>
  (fract o N x).bind fun f =>
  (cmp o f (zero o)).bind fun c =>
  (if c ≠ .lt then .ok f else sub o i f).bind fun f =>
  (cmp o f half).bind fun c =>
  if c = .gt then ceil o N x else floor o N x

end FixedOf

end Verif
