import Verif.Model.RatInts

/-!
# Model of the signs, identities and bounds of `Fixed<T, N>` and `Rat<T>` for any integer type `T`
-/

namespace Verif

/-- The traits `Signed` and `Neg` (`crates/traits/src/class.rs` L20-32). -/
structure SignOps (α : Type) where
  neg : α → Res α
  abs : α → Res α
  isPositive : α → Res Bool
  isNegative : α → Res Bool

/-- The traits `Bounded` and `BoundedSigned` (`class.rs` L122-140). -/
structure BoundOps (α : Type) where
  minValue : α
  maxValue : α
  minPositive : α
  maxNegative : α

/-- `I<M>` (`crates/ints/src/i.rs` L89-97, L311-327). -/
def IN.signOps : SignOps Bytes where
  neg a := .ok (IN.neg a)
  abs := IN.abs
  isPositive := IN.isPositive
  isNegative := IN.isNegative

/-- `I<M>` (`i.rs` L181-200). -/
def IN.boundOps (M : Nat) : BoundOps Bytes where
  minValue := IN.minValue M
  maxValue := IN.maxValue M
  minPositive := IN.minPositive M
  maxNegative := IN.maxNegative M

namespace FixedOf

variable {α : Type} (o : IntOps α) (s : SignOps α) (b : BoundOps α)

/-- `Neg` (`fixed.rs` L156-162). -/
def neg (x : α) : Res α := s.neg x

/-- `is_zero` (`fixed.rs` L177-179); `z` is the `is_zero` of `T`. -/
def isZero (z : α → Bool) (x : α) : Bool := z x

/-- `Bounded` and `BoundedSigned` (`fixed.rs` L192-210). The former two are asked of `T`. -/
def minValue : α := b.minValue
def maxValue : α := b.maxValue
def maxNegative : Res α := s.neg o.one
def minPositive : α := o.one

/-- `abs`, `is_positive`, `is_negative` (`fixed.rs` L214-226). -/
def abs (x : α) : Res α := s.abs x
def isPositive (x : α) : Res Bool := s.isPositive x
def isNegative (x : α) : Res Bool := s.isNegative x

end FixedOf

namespace RatOf

variable {α : Type} (o : IntOps α) (s : SignOps α) (b : BoundOps α)

/-- `Default` (`rat.rs` L89-93). -/
def default : RatG α := zero o

/-- Derived `PartialEq` (`rat.rs` L15). -/
def eq (x y : RatG α) : Bool := o.eq x.num y.num && o.eq x.denom y.denom

/-- `is_zero` and `is_one` (`rat.rs` L173-175, L183-185); `z` is the `is_zero` of `T`. -/
def isZero (z : α → Bool) (x : RatG α) : Bool := z x.num
def isOne (x : RatG α) : Bool := eq o x (one o)

/-- `abs`, `is_positive`, `is_negative` (`rat.rs` L188-200). -/
def abs (x : RatG α) : Res (RatG α) := (s.abs x.num).bind fun n => .ok ⟨n, x.denom⟩
def isPositive (x : RatG α) : Res Bool := s.isPositive x.num
def isNegative (x : RatG α) : Res Bool := s.isNegative x.num

/-- `Bounded` and `BoundedSigned` (`rat.rs` L202-220). -/
def minValue : RatG α := ⟨b.minValue, o.one⟩
def maxValue : RatG α := ⟨b.maxValue, o.one⟩
def minPositive : RatG α := ⟨b.minPositive, b.maxValue⟩
def maxNegative : RatG α := ⟨b.maxNegative, b.maxValue⟩

end RatOf

end Verif
