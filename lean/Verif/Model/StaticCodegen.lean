import Verif.Model.Prim
import Verif.Model.StaticIter

/-!
# Model of the functions of `crates/static-iter/src/codegen.rs`

They are public, pipelines over arrays of `i32`. The operators in the closures panic on overflow in debug
builds; the world notes whether one has. (After that nothing can be observed but the panic.)
-/

namespace Verif

namespace StaticIter

/-- A closure with a result that may be a panic. -/
def panicking {α : Type} (g : α → Res Int) (a : α) (w : Bool) : Int × Bool :=
  match g a with
  | .ok z => (z, w)
  | _ => (0, true)

/-- The outcome of a pipeline of such closures. -/
def outcome (r : Option (List Int × Bool)) : Option (Res (List Int)) :=
  r.map fun x => if x.2 then .panic else .ok x.1

/-- `zip_add` (`codegen.rs` L3-9), for arrays of length `N`. -/
def zipAdd (m : Mode) (N : Nat) (a b : List Int) : Option (Res (List Int)) :=
  outcome (collectArray N (map (zip (intoIter a) (intoIter b))
    (panicking fun x => Prim.arith m Prim.i32 (x.1 + x.2))) false)

/-- `zip_mul` (`codegen.rs` L11-17). -/
def zipMul (m : Mode) (N : Nat) (a b : List Int) : Option (Res (List Int)) :=
  outcome (collectArray N (map (zip (intoIter a) (intoIter b))
    (panicking fun x => Prim.arith m Prim.i32 (x.1 * x.2))) false)

/-- `map_neg` (`codegen.rs` L19-22). -/
def mapNeg (m : Mode) (N : Nat) (a : List Int) : Option (Res (List Int)) :=
  outcome (collectArray N (map (intoIter a) (panicking fun x => Prim.arith m Prim.i32 (-x))) false)

/-- `zip_many` (`codegen.rs` L24-29): the products are taken from the left. -/
def zipMany (m : Mode) (N : Nat) (a b c d : List Int) : Option (Res (List Int)) :=
  outcome (collectArray N (map (zipAll [intoIter a, intoIter b, intoIter c, intoIter d])
    (panicking fun x => match x with
      | [a, b, c, d] => (Prim.arith m Prim.i32 (a * b)).bind fun ab =>
        (Prim.arith m Prim.i32 (ab * c)).bind fun abc => Prim.arith m Prim.i32 (abc * d)
      | _ => .panic)) false)

end StaticIter

end Verif
