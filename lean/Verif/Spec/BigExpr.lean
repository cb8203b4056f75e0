import Verif.Spec.BigIntWord

/-!
# Expressions over `BigInt`

Programs a user may write with `BigInt`, without reference to the width of `usize`.
-/

namespace Verif

/-- An expression of type `BigInt`. Numbers come from primitive integers of a fixed width (not
`usize` or `isize`) or from text. -/
inductive BigExpr where
  /-- `BigInt::from(v)` for `u8` to `u128`. -/
  | unsigned (t : Nat) (ht : t ∈ [8, 16, 32, 64, 128]) (v : BitVec t)
  /-- `BigInt::from(v)` for `i8` to `i128`. -/
  | signed (t : Nat) (ht : t ∈ [8, 16, 32, 64, 128]) (v : BitVec t)
  /-- `BigInt::from_str_radix(s, radix).unwrap()`. -/
  | parse (s : List Char) (radix : BitVec 32)
  | add (a b : BigExpr)
  | sub (a b : BigExpr)
  | mul (a b : BigExpr)
  | neg (a : BigExpr)
  | abs (a : BigExpr)
  | pow (a b : BigExpr)
  | and (a b : BigExpr)
  | or (a b : BigExpr)
  | xor (a b : BigExpr)
  /-- `a << BigInt::from(k)` for a literal `k: u16`. -/
  | shl (a : BigExpr) (k : BitVec 16)
  /-- `a >> BigInt::from(k)` for a literal `k: u16` below 16. -/
  | shr (a : BigExpr) (k : BitVec 16) (hk : k.toNat < 16)

/-- The value of an expression on a target where `usize` has `w` bits. `fuel` bounds the number of
rounds of the loop of `pow`. -/
def BigExpr.run (w : Nat) (m : Mode) (fuel : Nat) : BigExpr → Res (WInt w)
  | .unsigned t _ v => WInt.fromU w t v
  | .signed t _ v => WInt.fromS w t v
  | .parse s radix => (WInt.fromStrRadix s radix).bind fun r =>
    match r with
    | .ok b => .ok b
    | .error _ => .panic
  | .add a b => (a.run w m fuel).bind fun x => (b.run w m fuel).bind fun y => WInt.add x y
  | .sub a b => (a.run w m fuel).bind fun x => (b.run w m fuel).bind fun y => WInt.sub x y
  | .mul a b => (a.run w m fuel).bind fun x => (b.run w m fuel).bind fun y => WInt.mul x y
  | .neg a => (a.run w m fuel).bind fun x => .ok (WInt.neg' x)
  | .abs a => (a.run w m fuel).bind fun x => .ok (WInt.abs x)
  | .pow a b =>
    (a.run w m fuel).bind fun x => (b.run w m fuel).bind fun y => WInt.pow m fuel x y
  | .and a b => (a.run w m fuel).bind fun x => (b.run w m fuel).bind fun y => WInt.bitand x y
  | .or a b => (a.run w m fuel).bind fun x => (b.run w m fuel).bind fun y => WInt.bitor x y
  | .xor a b => (a.run w m fuel).bind fun x => (b.run w m fuel).bind fun y => WInt.bitxor x y
  | .shl a k => (a.run w m fuel).bind fun x => (WInt.fromU w 16 k).bind fun y => WInt.shl m x y
  | .shr a k _ => (a.run w m fuel).bind fun x => (WInt.fromU w 16 k).bind fun y => WInt.shr m x y

end Verif
