import Verif.Model.UInt

/-!
# Model of `P<N>` (`crates/reals/src/p.rs`) and `F<N>` (`crates/reals/src/f.rs`)

Both are wrappers around `[u8; N]`. Comparing, adding and subtracting posits is `todo!()`.
-/

namespace Verif

namespace Posit

/-- `P::new` and `Default` (`p.rs` L26-28, L39-43). -/
def new (n : Nat) : Bytes := List.replicate n 0

/-- `is_negative` (`p.rs` L30-32); indexing panics for `N = 0`. -/
def isNegative (a : Bytes) : Res Bool :=
  match a with
  | [] => .panic
  | b :: _ => .ok (b &&& 1 != 0)

/-- `is_nar` (`p.rs` L34-36). -/
def isNar (a : Bytes) : Res Bool :=
  match a with
  | [] => .panic
  | b :: bs => .ok (b == 1 && bs.all fun b => b == 0)

/-- Derived `PartialEq` (`p.rs` L19): the arrays are compared. -/
def eq (a b : Bytes) : Bool := a == b

/-- `neg` (`p.rs` L57-64). -/
def neg (a : Bytes) : Res Bytes :=
  match a with
  | [] => .panic
  | b :: bs => .ok ((b ^^^ 1) :: bs)

/-- `partial_cmp` and `cmp` (`p.rs` L45-55): `todo!()`. -/
def cmp (_ _ : Bytes) : Res Ordering := .panic

/-- `add` and `sub` (`p.rs` L66-80): `todo!()`. -/
def add (_ _ : Bytes) : Res Bytes := .panic
def sub (_ _ : Bytes) : Res Bytes := .panic

end Posit

namespace FN

/-- `<[u8]>::reverse` of the core library: swaps the ends. -/
def reverse (b : Bytes) : Bytes := b.reverse

/-- `from_le_bytes` (`f.rs` L35-37). -/
def fromLeBytes (b : Bytes) : Bytes := b
/-- `from_be_bytes` (`f.rs` L41-44). -/
def fromBeBytes (b : Bytes) : Bytes := reverse b
/-- `from_ne_bytes` (`f.rs` L48-54); `little` is `cfg!(target_endian = "little")`. -/
def fromNeBytes (little : Bool) (b : Bytes) : Bytes :=
  if little then fromLeBytes b else fromBeBytes b
/-- `to_le_bytes` (`f.rs` L58-60). -/
def toLeBytes (a : Bytes) : Bytes := a
/-- `to_be_bytes` (`f.rs` L64-67). -/
def toBeBytes (a : Bytes) : Bytes := reverse a
/-- `to_ne_bytes` (`f.rs` L71-77). -/
def toNeBytes (little : Bool) (a : Bytes) : Bytes :=
  if little then toLeBytes a else toBeBytes a
/-- `to_bits` (`f.rs` L24-26). -/
def toBits (a : Bytes) : Bytes := UN.fromLeBytes (toLeBytes a)
/-- `from_bits` (`f.rs` L29-31). -/
def fromBits (u : Bytes) : Bytes := UN.toLeBytes u

end FN

end Verif
