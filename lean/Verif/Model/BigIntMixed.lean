import Verif.Model.BigInt

/-!
# Model of the operators between `BigInt` and primitive integers (`big_int/macros.rs` L1-39) and of the
assigning operators (`big_int.rs` L563-596)
-/

namespace Verif

namespace BInt

/-- The operators with a primitive on the right (`macros.rs` L19-26). -/
inductive Op where
  | add | sub | mul | div | rem | shl | shr
deriving DecidableEq, Repr

/-- The operator between two `BigInt`s. -/
def Op.run (m : Mode) : Op → BInt → BInt → Res BInt
  | .add => BInt.add
  | .sub => BInt.sub
  | .mul => BInt.mul
  | .div => BInt.div m
  | .rem => BInt.rem m
  | .shl => BInt.shl m
  | .shr => BInt.shr m

/-- `BigInt::from` of a primitive of `t` bits. -/
def fromPrim (signed : Bool) (t : Nat) (x : BitVec t) : Res BInt :=
  if signed then fromS t x else fromU t x

/-- `a op x` (`macros.rs` L29-37). -/
def opPrim (m : Mode) (op : Op) (a : BInt) (signed : Bool) (t : Nat) (x : BitVec t) : Res BInt :=
  (fromPrim signed t x).bind fun b => op.run m a b

/-- `a op= x` for the first five operators (`macros.rs` L1-16): the new value of `a`. -/
def opAssignPrim (m : Mode) (op : Op) (a : BInt) (signed : Bool) (t : Nat) (x : BitVec t) :
    Res BInt :=
  (fromPrim signed t x).bind fun b => op.run m a b

/-- `a op= b` for the first five operators (`big_int.rs` L563-596): the new value of `a`. -/
def opAssign (m : Mode) (op : Op) (a b : BInt) : Res BInt := op.run m a b

end BInt

end Verif
