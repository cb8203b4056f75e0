import Verif.Model.Prim

/-!
# Primitive integers as components

The models of the compound types (`Model/Complex.lean`, `Model/Vector.lean`, `Model/Matrix.lean`) are
written for any component type. `Chk m p` is the component type "a value of the primitive integer
type `p`, or the panic of computing it" in the build profile `m`: an operation panics if an operand
did, or if it overflows. The operations used with it (sums, products, componentwise operations)
evaluate all components, so that the Rust call panics exactly if one of the resulting components is
a panic. Everything else is the code of `core` (see `Prim.arith`).
-/

namespace Verif

/-- A component: the outcome of computing an integer. -/
structure Chk (m : Mode) (p : Prim) where
  res : Res Int
deriving DecidableEq, Repr

namespace Chk

variable {m : Mode} {p : Prim}

/-- A value that is already there. -/
def of (z : Int) : Chk m p := ⟨.ok z⟩

/-- An operator on two components. -/
def lift₂ (f : Int → Int → Res Int) (a b : Chk m p) : Chk m p :=
  ⟨a.res.bind fun x => b.res.bind fun y => f x y⟩

instance : Zero (Chk m p) := ⟨of 0⟩
instance : One (Chk m p) := ⟨of 1⟩
instance : Add (Chk m p) := ⟨lift₂ fun x y => Prim.arith m p (x + y)⟩
instance : Sub (Chk m p) := ⟨lift₂ fun x y => Prim.arith m p (x - y)⟩
instance : Mul (Chk m p) := ⟨lift₂ fun x y => Prim.arith m p (x * y)⟩
instance : Div (Chk m p) := ⟨lift₂ fun x y => p.div x y⟩
instance : Mod (Chk m p) := ⟨lift₂ fun x y => p.rem x y⟩

end Chk

end Verif
