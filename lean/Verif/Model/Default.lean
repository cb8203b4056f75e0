import Verif.Model.UInt
import Verif.Model.BigIntHandle
import Verif.Model.FixedInts
import Verif.Model.SignedInts
import Verif.Model.Posit
import Verif.Model.Vector
import Verif.Model.Matrix
import Verif.Model.Complex

/-!
# Model of the `Default` implementations

Those of `Vector` and `Rat` are in `Model/Vector` and `Model/SignedInts`; the default of a type of components is a
parameter.
-/

namespace Verif

/-- `Default` of `U<N>`: `new()` (`crates/ints/src/u.rs` L46-48, L219-224). -/
def UN.default (n : Nat) : Bytes := List.replicate n 0

/-- `Default` of `BigInt`: `new()` (`crates/ints/src/big_int.rs` L164-166, L343-347), as an integer and as a word. -/
def BInt.default : Res BInt := BInt.newInline 0 false
def BigWord.default : Res Nat := BigWord.newInline 0 false

/-- `Default` of `Fixed<T, N>`: `new()` (`crates/reals/src/fixed.rs` L22-25, L40-44). -/
def FixedOf.default {α : Type} (o : IntOps α) : α := o.zero

/-- `Default` of `P<N>`: `new()` (`crates/reals/src/p.rs` L26-28, L39-43). -/
def Posit.default (n : Nat) : Bytes := Posit.new n

/-- `Default` of `Matrix<T, ROW, COL>` (`crates/compounds/src/matrix/static.rs` L78-85). -/
def Mat.dflt {α : Type} [Inhabited α] (R C : Nat) : List (List α) :=
  (List.range R).map fun _ => (List.range C).map fun _ => default

/-- `Default` of `Complex<T>`, derived (`crates/compounds/src/complex.rs` L7-11). -/
def Complex.dflt {α : Type} [Inhabited α] : Complex α := ⟨default, default⟩

end Verif
