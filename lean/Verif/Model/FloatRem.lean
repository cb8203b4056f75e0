import Verif.Model.FloatSign

/-!
# Model of `%` of the primitive floats

`f32` and `f64` have `%` from `core`; `NumOps` (`crates/traits/src/ops/core.rs` L8-22) requires it, and
`%` and `%=` of vectors (`crates/compounds/src/vector.rs` L362, L418) apply it to the components. The result is
the exact remainder of a division that is rounded toward zero, which is then rounded like any other result.
-/

namespace Verif

namespace Flt

variable {f : FloatFmt}

/-- `%` of `core`; NaN for an infinite dividend or the divisor zero. -/
def rem : Flt f → Flt f → Flt f
  | .fin a, .fin b => if b = 0 then .nan else rnd f (a - b * towardZero (a / b))
  | .fin a, .inf _ => .fin a
  | _, _ => .nan

instance : Mod (Flt f) := ⟨rem⟩

end Flt

namespace SFlt

variable {f : FloatFmt}

/-- The same with the sign of zero: a result that is zero has the sign of the dividend. -/
def rem : SFlt f → SFlt f → SFlt f
  | .num s a, .num t b =>
    if b = 0 then .nan else rnd f s (val s a - val t b * Flt.towardZero (val s a / val t b))
  | .num s a, .inf _ => .num s a
  | _, _ => .nan

instance : Mod (SFlt f) := ⟨rem⟩

end SFlt

end Verif
