import Verif.Model.Rat
import Verif.Model.FixedInts

/-!
# Model of `Rat<T>` (`crates/reals/src/rat.rs`) for any integer type `T`

The code is generic in `T: Integral + Gcd`. Of the library's types only the primitive integers implement
`Gcd` (`crates/traits/src/__impl.rs` L153-167), and `Model/Rat.lean` is about these; here the functions are
modelled for the operators of any `T`, such as one a user of the library defines. `gcd` and `neg` are the
implementations of `Gcd` and `Neg` of `T`.
-/

namespace Verif

/-- `Rat<T>` (`rat.rs` L15-19). -/
structure RatG (α : Type) where
  num : α
  denom : α

namespace RatOf

variable {α : Type} (o : IntOps α) (gcd : α → α → Res α)

/-- `zero`, `one` (`rat.rs` L168-186). -/
def zero : RatG α := ⟨o.zero, o.one⟩
def one : RatG α := ⟨o.one, o.one⟩

/-- `reduce` (`rat.rs` L51-66); `||` is short-circuiting. -/
def reduce (num denom : α) : Res (RatG α) :=
  if o.eq num o.zero then .ok (zero o)
  else if o.eq num o.one && o.eq denom o.one then .ok ⟨num, denom⟩
  else (o.rem num denom).bind fun r1 =>
    if o.eq r1 o.zero then .ok ⟨num, denom⟩
    else (o.rem denom num).bind fun r2 =>
      if o.eq r2 o.zero then .ok ⟨num, denom⟩
      else (gcd num denom).bind fun g =>
        (o.div num g).bind fun n => (o.div denom g).bind fun d => .ok ⟨n, d⟩

/-- `new` (`rat.rs` L40-49). -/
def new (num denom : α) : Res (Option (RatG α)) :=
  if o.eq denom o.zero then .ok none else (reduce o gcd num denom).bind fun r => .ok (some r)

/-- `Rat::new(..).unwrap()`. -/
def newUnwrap (num denom : α) : Res (RatG α) := (new o gcd num denom).bind Res.ofOption

/-- `Add`, `Sub`, `Mul`, `Div` (`rat.rs` L112-150). -/
def add (x y : RatG α) : Res (RatG α) :=
  (o.mul x.num y.denom).bind fun a => (o.mul y.num x.denom).bind fun b =>
  (o.add a b).bind fun n => (o.mul x.denom y.denom).bind fun d => newUnwrap o gcd n d
def sub (x y : RatG α) : Res (RatG α) :=
  (o.mul x.num y.denom).bind fun a => (o.mul y.num x.denom).bind fun b =>
  (o.sub a b).bind fun n => (o.mul x.denom y.denom).bind fun d => newUnwrap o gcd n d
def mul (x y : RatG α) : Res (RatG α) :=
  (o.mul x.num y.num).bind fun n => (o.mul x.denom y.denom).bind fun d => newUnwrap o gcd n d
def div (x y : RatG α) : Res (RatG α) :=
  (o.mul x.num y.denom).bind fun n => (o.mul x.denom y.num).bind fun d => newUnwrap o gcd n d

/-- `Neg` (`rat.rs` L160-166). -/
def neg (ng : α → Res α) (x : RatG α) : Res (RatG α) := (ng x.num).bind fun n => .ok ⟨n, x.denom⟩

/-- `floor` (`rat.rs` L233-236). -/
def floor (x : RatG α) : Res (RatG α) :=
  (o.rem x.num x.denom).bind fun diff => (o.sub x.num diff).bind fun n =>
  (o.div n x.denom).bind fun q => newUnwrap o gcd q o.one

/-- `ceil` (`rat.rs` L238-241). -/
def ceil (x : RatG α) : Res (RatG α) :=
  (o.rem x.num x.denom).bind fun r => (o.sub x.denom r).bind fun diff =>
  (o.add x.num diff).bind fun n => (o.div n x.denom).bind fun q => newUnwrap o gcd q o.one

/-- `round` (`rat.rs` L243-257). -/
def round (x : RatG α) : Res (RatG α) :=
  (o.add o.one o.one).bind fun two => (o.rem x.num x.denom).bind fun diff =>
  (o.div x.denom two).bind fun half => (o.cmp diff half).bind fun c =>
  (o.div x.num x.denom).bind fun q =>
  (o.add q (if c = .gt then o.one else o.zero)).bind fun n => newUnwrap o gcd n o.one

end RatOf

end Verif
