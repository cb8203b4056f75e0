import Verif.Model.UInt

/-!
# Byte conversions of primitive integers (`crates/traits/src/bytes.rs`, `traits/src/__impl.rs`)

`ConvertBytes` for a primitive integer of `size` bytes forwards to the functions of the core library
of the same names. A primitive is its bit pattern, so signed and unsigned types are alike. The bytes
are a list of `size` bytes.
-/

namespace Verif

namespace Prim

/-- `to_le_bytes` (`__impl.rs` L42-44). -/
def toLeBytes (size : Nat) (v : BitVec (8 * size)) : Bytes := leBytes size v
/-- `to_be_bytes` (`__impl.rs` L37-39): the most significant byte first. -/
def toBeBytes (size : Nat) (v : BitVec (8 * size)) : Bytes :=
  (List.range size).map fun i => BitVec.ofNat 8 (v.toNat / 2 ^ (8 * (size - 1 - i)))
/-- `to_ne_bytes` (`__impl.rs` L32-34); the default of the trait (`bytes.rs` L21-27) is the same.
`little` is `cfg!(target_endian = "little")`. -/
def toNeBytes (little : Bool) (size : Nat) (v : BitVec (8 * size)) : Bytes :=
  if little then toLeBytes size v else toBeBytes size v
/-- `from_le_bytes` (`__impl.rs` L27-29). -/
def fromLeBytes (size : Nat) (b : Bytes) : BitVec (8 * size) := ofLeBytes size b
/-- `from_be_bytes` (`__impl.rs` L22-24). -/
def fromBeBytes (size : Nat) (b : Bytes) : BitVec (8 * size) :=
  b.foldl (fun acc x => acc * 256 + x.setWidth (8 * size)) 0
/-- `from_ne_bytes` (`__impl.rs` L17-19; `bytes.rs` L6-12). -/
def fromNeBytes (little : Bool) (size : Nat) (b : Bytes) : BitVec (8 * size) :=
  if little then fromLeBytes size b else fromBeBytes size b

end Prim

end Verif
