import Verif.Model.Base

/-!
# Model of `Complex<T>` (`crates/compounds/src/complex.rs`)

The component type is any type with the operations the code uses; they are taken as total functions
(panics and rounding of a component type are not modelled).
-/

namespace Verif

/-- `struct Complex` (`complex.rs` L7-11). -/
structure Complex (α : Type) where
  real : α
  imag : α
deriving DecidableEq, Repr

namespace Complex

variable {α : Type}

/-- `Complex::from_real`, `from_imag` (`complex.rs` L28-40). -/
def fromReal [Zero α] (r : α) : Complex α := ⟨r, 0⟩
def fromImag [Zero α] (i : α) : Complex α := ⟨0, i⟩

/-- `Complex::abs_squared` (`complex.rs` L44-46). -/
def absSquared [Add α] [Mul α] (z : Complex α) : α := z.real * z.real + z.imag * z.imag

/-- `Complex::abs` (`complex.rs` L48-50); `sqrt` is `T::sqrt`. -/
def abs [Add α] [Mul α] (sqrt : α → α) (z : Complex α) : α := sqrt z.absSquared

/-- `Add`, with a complex and with a scalar right-hand side (`complex.rs` L53-73). -/
def add [Add α] (a b : Complex α) : Complex α := ⟨a.real + b.real, a.imag + b.imag⟩
def addScalar [Add α] (a : Complex α) (r : α) : Complex α := ⟨a.real + r, a.imag⟩

/-- `Sub` (`complex.rs` L75-95). -/
def sub [Sub α] (a b : Complex α) : Complex α := ⟨a.real - b.real, a.imag - b.imag⟩
def subScalar [Sub α] (a : Complex α) (r : α) : Complex α := ⟨a.real - r, a.imag⟩

/-- `Mul` (`complex.rs` L97-121). -/
def mul [Add α] [Sub α] [Mul α] (a b : Complex α) : Complex α :=
  ⟨a.real * b.real - a.imag * b.imag, a.real * b.imag + b.real * a.imag⟩
def mulScalar [Mul α] (a : Complex α) (r : α) : Complex α := ⟨a.real * r, a.imag * r⟩

/-- `Div` (`complex.rs` L123-152). -/
def div [Add α] [Sub α] [Mul α] [Div α] (a b : Complex α) : Complex α :=
  let divisor := b.real * b.real + b.imag * b.imag
  ⟨(a.real * b.real + a.imag * b.imag) / divisor, (a.imag * b.real - a.real * b.imag) / divisor⟩
def divScalar [Mul α] [Div α] (a : Complex α) (r : α) : Complex α :=
  let divisor := r * r
  ⟨(a.real * r) / divisor, (a.imag * r) / divisor⟩

/-- `Zero`, `One` (`complex.rs` L156-177). -/
def zero [Zero α] : Complex α := ⟨0, 0⟩
def isZero [Zero α] [DecidableEq α] (a : Complex α) : Bool := a == zero
def one [Zero α] [One α] : Complex α := fromReal 1
def isOne [Zero α] [One α] [DecidableEq α] (a : Complex α) : Bool := a == one

end Complex

end Verif
