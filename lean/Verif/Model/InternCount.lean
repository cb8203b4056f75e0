import Verif.Model.Intern

/-!
# Model of counting references where `usize` has `w` bits (`crates/utils/src/intern.rs`)

`Model/Intern.lean` takes the counts to have 64 bits. Functions that do not count up (`find`, `get`, `decr`,
`refcount`) are those of that model.
-/

namespace Verif

namespace Intern

variable {T : Type} [DecidableEq T]

/-- `incr_inner` (`intern.rs` L112-116). -/
def incrInnerW (m : Mode) (w : Nat) (s : Slot T) : Res (Slot T) :=
  if s.refs = 2 ^ w - 1 then
    match m with
    | .debug => .panic
    | .release => .ok { s with refs := 0 }
  else .ok { s with refs := s.refs + 1 }

/-- `incr` (`intern.rs` L185-188). -/
def incrW (m : Mode) (w : Nat) (st : Store T) (offset : Nat) : Res (Store T) :=
  (slot st (offsetToIdx offset)).bind fun s => (incrInnerW m w s).bind fun s =>
  .ok (setSlot st (offsetToIdx offset) s)

/-- What `incr` leaves behind whether or not it panics (`intern.rs` L112-116, L185-188): `fetch_add` has wrapped the
count around by the time the assertion fails. -/
def incrLeavesW (w : Nat) (st : Store T) (offset : Nat) : Res (Store T) :=
  (slot st (offsetToIdx offset)).bind fun s =>
  .ok (setSlot st (offsetToIdx offset) { s with refs := (s.refs + 1) % 2 ^ w })

/-- `add` (`intern.rs` L132-169). -/
def addW (m : Mode) (w : Nat) (st : Store T) (v : T) : Res (Store T × Nat) :=
  match find st v with
  | .exists_ loc =>
    (slot st loc).bind fun s => (incrInnerW m w s).bind fun s =>
    .ok (setSlot st loc s, loc.1 * 32 + loc.2)
  | .dead loc =>
    (slot st loc).bind fun s => (incrInnerW m w s).bind fun s =>
    .ok (setSlot st loc { s with val := some v }, loc.1 * 32 + loc.2)
  | .none =>
    let st := st ++ [newChunk]
    let len := st.length
    (slot st (len - 1, 0)).bind fun s => (incrInnerW m w s).bind fun s =>
    .ok (setSlot st (len - 1, 0) { s with val := some v }, (len - 1) * 32)

/-- `incr` of one id, `n` times. -/
def incrsW (m : Mode) (w : Nat) (st : Store T) (offset : Nat) : Nat → Res (Store T)
  | 0 => .ok st
  | n + 1 => (incrsW m w st offset n).bind fun st => incrW m w st offset

end Intern

end Verif
