import Verif.Model.Rat
import Verif.Model.Fixed
import Verif.Model.UInt
import Verif.Model.IInt
import Verif.Model.BigInt

/-!
# The library's own numbers as components

As in `Model/Checked.lean`: vectors, matrices and complex numbers are modelled for any component type.
`Comp o` is the component type "a value of the number type with the operators `o`, or the panic of
computing it". The operations used with it evaluate all components, so that the Rust call panics
exactly if one of the resulting components is a panic.
-/

namespace Verif

/-- The operators of a number type that compound types use. -/
structure NumOps (α : Type) where
  zero : α
  one : Res α
  add : α → α → Res α
  sub : α → α → Res α
  mul : α → α → Res α
  div : α → α → Res α

/-- A component: the outcome of computing a number. -/
structure Comp {α : Type} (o : NumOps α) where
  res : Res α

namespace Comp

variable {α : Type} {o : NumOps α}

/-- A value that is already there. -/
def of (x : α) : Comp o := ⟨.ok x⟩

/-- An operator on two components: the left operand first, the first panic wins. -/
def lift₂ (f : α → α → Res α) (a b : Comp o) : Comp o :=
  ⟨a.res.bind fun x => b.res.bind fun y => f x y⟩

instance : Zero (Comp o) := ⟨of o.zero⟩
instance : One (Comp o) := ⟨⟨o.one⟩⟩
instance : Add (Comp o) := ⟨lift₂ o.add⟩
instance : Sub (Comp o) := ⟨lift₂ o.sub⟩
instance : Mul (Comp o) := ⟨lift₂ o.mul⟩
instance : Div (Comp o) := ⟨lift₂ o.div⟩

end Comp

/-- `Rat<T>` (`crates/reals/src/rat.rs` L112-150, L168-186). -/
def RatM.ops (m : Mode) (p : Prim) : NumOps RatM :=
  ⟨RatM.zero, .ok RatM.one, RatM.add m p, RatM.sub m p, RatM.mul m p, RatM.div m p⟩

/-- `Fixed<T, N>` (`crates/reals/src/fixed.rs` L116-146, L172-190), by the raw values. -/
def Fixed.ops (m : Mode) (p : Prim) (N : Nat) : NumOps Int :=
  ⟨Fixed.zero, Fixed.one m p N, Fixed.add m p, Fixed.sub m p, Fixed.mul m p, Fixed.div p⟩

/-- `U<N>` (`crates/ints/src/u.rs` L239-286, L538-556). -/
def UN.ops (m : Mode) (N : Nat) : NumOps Bytes :=
  ⟨UN.zero N, .ok (UN.one N), UN.add m, UN.sub m, UN.mul m, UN.div m⟩

/-- `I<N>` (`crates/ints/src/i.rs` L32-72, L281-299). -/
def IN.ops (m : Mode) (N : Nat) : NumOps Bytes :=
  ⟨IN.zero N, .ok (IN.one N), fun a b => .ok (IN.add a b), fun a b => .ok (IN.sub a b),
    fun a b => .ok (IN.mul a b), IN.div m⟩

/-- `BigInt` (`crates/ints/src/big_int.rs` L433-487, L598-616). -/
def BInt.ops (m : Mode) : NumOps BInt :=
  ⟨BInt.zero, .ok BInt.one, BInt.add, BInt.sub, BInt.mul, BInt.div m⟩

end Verif
