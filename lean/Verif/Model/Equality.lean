import Verif.Model.Matrix
import Verif.Model.Vector
import Verif.Model.Complex
import Verif.Model.PrimBytes

/-!
# Model of derived equality and hashing of the compound types

`Vector`, `Matrix`, `DynMatrix` and `Complex` derive `PartialEq`, `Vector` derives `Hash`. `eq` is the `==` of the
components, which answers without panicking; `==` of arrays and of `Vec` is that of slices of the core library.
-/

namespace Verif

variable {α : Type}

/-- `==` of slices (core library): the lengths, then the elements up to the first that differ. -/
def sliceEqFrom (eq : α → α → Bool) : List α → List α → Bool
  | a :: as, b :: bs => if eq a b then sliceEqFrom eq as bs else false
  | _, _ => true
def sliceEq (eq : α → α → Bool) (a b : List α) : Bool :=
  if a.length ≠ b.length then false else sliceEqFrom eq a b

/-- `==` of vectors (`vector.rs` L15-16). -/
def Vect.eq (eq : α → α → Bool) (a b : List α) : Bool := sliceEq eq a b

/-- `==` of matrices (`static.rs` L11-12). -/
def Mat.eq (eq : α → α → Bool) (a b : List (List α)) : Bool := sliceEq (sliceEq eq) a b

/-- `==` of dynamic matrices (`dynamic.rs` L6-11): field by field. -/
def DynMat.eq (eq : α → α → Bool) (a b : DynMat α) : Bool :=
  sliceEq eq a.data b.data && a.rows == b.rows && a.cols == b.cols

/-- `==` of complex numbers (`complex.rs` L7-11). -/
def Complex.eq (eq : α → α → Bool) (a b : Complex α) : Bool := eq a.real b.real && eq a.imag b.imag

/-- `Hash` of vectors (`vector.rs` L15-16), as what is handed to the hasher: the length of the slice as a `usize` of
`P` bits, then the elements in order. `h` is what an element hands over. -/
def Vect.hash (P : Nat) (h : α → List Bytes) (a : List α) : List Bytes :=
  (List.range (P / 8)).map (fun i => BitVec.ofNat 8 (a.length / 256 ^ i)) :: a.flatMap h

/-- `Hash` of vectors of primitive integers: their bytes are handed over at once (core library, `hash_slice`). -/
def Vect.hashPrim (P : Nat) (little : Bool) (size : Nat) (a : List (BitVec (8 * size))) : List Bytes :=
  [(List.range (P / 8)).map (fun i => BitVec.ofNat 8 (a.length / 256 ^ i)), a.flatMap (Prim.toNeBytes little size)]

end Verif
