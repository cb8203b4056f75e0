import Verif.Model.Intern

/-!
# Model of `Interner::with_capacity` where `usize` has `w` bits (`crates/utils/src/intern.rs`)
-/

namespace Verif

namespace Intern

variable {T : Type}

/-- `usize` addition: it panics on overflow in debug builds and wraps in release builds. -/
def usizeAdd (m : Mode) (w a b : Nat) : Res Nat :=
  if a + b < 2 ^ w then .ok (a + b)
  else match m with
    | .debug => .panic
    | .release => .ok ((a + b) % 2 ^ w)

/-- The loop of `with_capacity` (`intern.rs` L86-88): push a new chunk `n` times. -/
def pushFresh (st : Store T) : Nat → Store T
  | 0 => st
  | n + 1 => pushFresh (st ++ [newChunk]) n

/-- `Interner::with_capacity` (`intern.rs` L84-90): `(capacity + CHUNK_SIZE - 1) / 32` chunks. The sum is computed
first; subtracting 1 does not underflow unless the sum wrapped to 0, in which case it wraps too (release builds). -/
def withCapacityAt (m : Mode) (w capacity : Nat) : Res (Store T) :=
  (usizeAdd m w capacity chunkSize).bind fun sum =>
  if sum = 0 then match m with
    | .debug => .panic
    | .release => .ok (pushFresh new ((2 ^ w - 1) / 32))
  else .ok (pushFresh new ((sum - 1) / 32))

end Intern

end Verif
