import Verif.Model.Base
import Verif.Model.StaticIter

/-!
# Model of `Vector<T, N>` (`crates/compounds/src/vector.rs`)

A vector is a list of length `N`. The arithmetic of components is taken as total functions; it is
written with the static-iterator model where the code uses static iterators (there `none` is undefined
behaviour, which C77 and C78 exclude).
-/

namespace Verif

/-- `is_zero` of the component type. -/
class ZeroTest (α : Type) where
  IsZero : α → Prop
  dec : DecidablePred IsZero

attribute [reducible, instance] ZeroTest.dec

/-- For most types it is equality with zero. -/
instance {α : Type} [Zero α] [DecidableEq α] : ZeroTest α := ⟨fun v => v = 0, fun v => inferInstanceAs (Decidable (v = 0))⟩

@[simp] theorem isZero_iff {α : Type} [Zero α] [DecidableEq α] (v : α) : ZeroTest.IsZero v ↔ v = 0 := Iff.rfl


namespace Vect

open StaticIter

variable {α β γ : Type}

/-- `Vector::zeroed`, `Zero::zero`, `Vector::from_scalar` (`vector.rs` L23-36, L260-263). -/
def zeroed [Zero α] (N : Nat) : List α := (List.range N).map fun _ => 0
def fromScalar (N : Nat) (v : α) : List α := (List.range N).map fun _ => v

/-- `Vector::into_row`, `into_column` (`vector.rs` L39-50). -/
def intoRow (a : List α) : List (List α) := [a]
def intoColumn (N : Nat) (a : List α) : Option (List (List α)) :=
  (collectArray N (map (intoIter a) fun i w => ([i], w)) ()).map (·.1)

/-- `Vector::sum`, `product` (`vector.rs` L54-60). -/
def sum [Zero α] [Add α] (N : Nat) (a : List α) : Option α :=
  (StaticIter.sum N (intoIter a) ()).map (·.1)
def product [One α] [Mul α] (N : Nat) (a : List α) : Option α :=
  (StaticIter.product N (intoIter a) ()).map (·.1)

/-- `core::iter::zip`, which stops at the shorter one. -/
def stdZip : List α → List β → List (α × β)
  | a :: as, b :: bs => (a, b) :: stdZip as bs
  | _, _ => []

/-- `Vector::dot_product` (`vector.rs` L62-66). -/
def dotProduct [Zero α] [Add α] [Mul α] (a b : List α) : α :=
  ((stdZip a b).map fun p => p.1 * p.2).foldl (fun acc v => acc + v) 0

/-- `Vector::distance_squared` (`vector.rs` L68-74); `pow` is `T::pow`. -/
def distanceSquared [Zero α] [One α] [Add α] [Sub α] (pow : α → α → α) (a b : List α) : α :=
  let two : α := 1 + 1
  ((stdZip a b).map fun p => pow (p.1 - p.2) two).foldl (fun acc v => acc + v) 0

/-- `Vector::distance` (`vector.rs` L76-78); `sqrt` is `T::sqrt`. -/
def distance [Zero α] [One α] [Add α] [Sub α] (pow : α → α → α) (sqrt : α → α) (a b : List α) : α :=
  sqrt (distanceSquared pow a b)

/-- `Vec3::x`, `y`, `z` and `cross` (`vector.rs` L133-191). -/
def cross [Sub α] [Mul α] : List α → List α → List α
  | [sx, sy, sz], [ox, oy, oz] =>
    let x1 := sy * oz
    let x2 := sz * oy
    let y1 := sz * ox
    let y2 := sx * oz
    let z1 := sx * oy
    let z2 := sy * ox
    [x1 - x2, y1 - y2, z1 - z2]
  | _, _ => []

/-- `Default::default` (`vector.rs` L270-274). -/
def dflt [Inhabited α] (N : Nat) : List α := (List.range N).map fun _ => default

/-- Indexing, `index` and `index_mut` followed by an assignment (`vector.rs` L288-301): those of the
array, which panic out of bounds. -/
def index (a : List α) (i : Nat) : Res α := Res.ofOption a[i]?
def setIndex (a : List α) (i : Nat) (v : α) : Res (List α) :=
  if i < a.length then .ok (a.set i v) else .panic

/-- The accessors `x`, `y`, `z`, `w` of `Vec2`, `Vec3`, `Vec4` (`vector.rs` L95-98, L110-113; L132-135,
L147-150, L162-165; L199-202, L214-217, L229-232, L244-247). -/
def x (a : List α) : Res α := index a 0
def y (a : List α) : Res α := index a 1
def z (a : List α) : Res α := index a 2
def w (a : List α) : Res α := index a 3

/-- `set_x`, …, and assignments through `x_mut`, … (`vector.rs` L100-108, L115-123; L137-145, L152-160,
L167-175; L204-212, L219-227, L234-242, L249-257). -/
def setX (a : List α) (v : α) : Res (List α) := setIndex a 0 v
def setY (a : List α) (v : α) : Res (List α) := setIndex a 1 v
def setZ (a : List α) (v : α) : Res (List α) := setIndex a 2 v
def setW (a : List α) (v : α) : Res (List α) := setIndex a 3 v

/-- `from_xy`, `from_xyz`, `from_xyzw` (`vector.rs` L90-93, L127-130, L195-197). -/
def fromXY (x y : α) : List α := [x, y]
def fromXYZ (x y z : α) : List α := [x, y, z]
def fromXYZW (x y z w : α) : List α := [x, y, z, w]

/-- `Zero::is_zero` (`vector.rs` L265-267). -/
def isZero [ZeroTest α] (N : Nat) (a : List α) : Option Bool :=
  (all N (refIter a) (fun x w => (decide (ZeroTest.IsZero x), w)) ()).map (·.1)

/-- `ops_impl!` with a vector on the right (`vector.rs` L310-331; owned and by reference). -/
def opVec (f : α → β → γ) (N : Nat) (a : List α) (b : List β) : Option (List γ) :=
  (collectArray N (map (zip (intoIter a) (intoIter b)) fun p w => (f p.1 p.2, w)) ()).map (·.1)
def opVecRef (f : α → β → γ) (N : Nat) (a : List α) (b : List β) : Option (List γ) :=
  (collectArray N (map (zip (intoIter a) (refIter b)) fun p w => (f p.1 p.2, w)) ()).map (·.1)

/-- `ops_impl!` with a scalar on the right (`vector.rs` L340-353). -/
def opScalar (f : α → β → γ) (a : List α) (r : β) : List γ := a.map fun x => f x r

/-- `assign_ops_impl!` with a vector on the right (`vector.rs` L370-376, L393-399): the left vector is
overwritten, slot by slot, as long as there are slots on both sides. -/
def assignVec (f : α → β → α) : List α → List β → List α
  | l :: ls, r :: rs => f l r :: assignVec f ls rs
  | ls, _ => ls

/-- `assign_ops_impl!` with a scalar on the right (`vector.rs` L383-386, L406-409). -/
def assignScalar (f : α → β → α) : List α → β → List α
  | l :: ls, r => f l r :: assignScalar f ls r
  | [], _ => []

/-- The five instances of `ops_impl!` (`vector.rs` L358-362). -/
def add [Add α] := opVec (α := α) (· + ·)
def sub [Sub α] := opVec (α := α) (· - ·)
def mul [Mul α] := opVec (α := α) (· * ·)
def div [Div α] := opVec (α := α) (· / ·)
def rem [Mod α] := opVec (α := α) (· % ·)
def addRef [Add α] := opVecRef (α := α) (· + ·)
def subRef [Sub α] := opVecRef (α := α) (· - ·)
def mulRef [Mul α] := opVecRef (α := α) (· * ·)
def divRef [Div α] := opVecRef (α := α) (· / ·)
def remRef [Mod α] := opVecRef (α := α) (· % ·)
def addS [Add α] := opScalar (α := α) (· + ·)
def subS [Sub α] := opScalar (α := α) (· - ·)
def mulS [Mul α] := opScalar (α := α) (· * ·)
def divS [Div α] := opScalar (α := α) (· / ·)
def remS [Mod α] := opScalar (α := α) (· % ·)

/-- The five instances of `assign_ops_impl!` (`vector.rs` L414-418). -/
def addAssign [Add α] := assignVec (α := α) (· + ·)
def subAssign [Sub α] := assignVec (α := α) (· - ·)
def mulAssign [Mul α] := assignVec (α := α) (· * ·)
def divAssign [Div α] := assignVec (α := α) (· / ·)
def remAssign [Mod α] := assignVec (α := α) (· % ·)
def addAssignS [Add α] := assignScalar (α := α) (· + ·)
def subAssignS [Sub α] := assignScalar (α := α) (· - ·)
def mulAssignS [Mul α] := assignScalar (α := α) (· * ·)
def divAssignS [Div α] := assignScalar (α := α) (· / ·)
def remAssignS [Mod α] := assignScalar (α := α) (· % ·)

/-- `CheckedAdd` and `CheckedSub` (`vector.rs` L426-434, L443-451), `f` being the checked operation of
the components. -/
def checkedOp (f : α → α → Option γ) (N : Nat) (a b : List α) : Option (Option (List γ)) :=
  (collect N (map (zip (intoIter a) (intoIter b)) fun p w => (f p.1 p.2, w))
    (optionColl (arrayColl γ N)) ()).map (·.1)

end Vect

end Verif
