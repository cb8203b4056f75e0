import Verif.Model.Base

/-!
# Model of the interner (`crates/utils/src/intern.rs`), single-threaded

The linked list of chunks is a list of chunks; a chunk is a list of 32 slots. A slot is a
reference count and an optional value. The values `U`, `V` of the generic signatures are all `T`
here (`Borrow` is the identity). Memory orderings and `unsafe` are not modelled; the concurrent
steps are modelled in `Model/InternConc.lean`.
-/

namespace Verif

variable {T : Type} [DecidableEq T]

/-- `CHUNK_SIZE` (`intern.rs` L9). -/
def chunkSize : Nat := 32

/-- `Interned<T>` (`intern.rs` L17-20); `refs` is a `usize`. -/
structure Slot (T : Type) where
  refs : Nat
  val : Option T
deriving DecidableEq, Repr

namespace Intern

/-- `Interned::new_uninit` (`intern.rs` L24-29). -/
def newUninit : Slot T := ⟨0, none⟩

/-- A freshly allocated chunk (`intern.rs` L87, L162). -/
def newChunk : List (Slot T) := List.replicate chunkSize newUninit

/-- `Interner<T>` (`intern.rs` L69-71). -/
abbrev Store (T : Type) := List (List (Slot T))

/-- `Interner::new` (`intern.rs` L78-82). -/
def new : Store T := []

/-- `Interner::with_capacity` (`intern.rs` L84-90); `capacity + 32` does not overflow here (in the code it
does from `2^64 - 32` on, see `Model/InternCapacity`). -/
def withCapacity (capacity : Nat) : Store T :=
  List.replicate ((capacity + chunkSize - 1) / 32) newChunk

/-- `Find` (`intern.rs` L11-15). -/
inductive Find where
  | exists_ (loc : Nat × Nat)
  | dead (loc : Nat × Nat)
  | none
deriving DecidableEq, Repr

/-- The inner loop of `find` (`intern.rs` L98-107) over the slots of chunk number `idx`, starting at
slot number `idx2`; `none` means that the loop ended without returning. -/
def findSlots (v : T) (idx : Nat) : Nat → List (Slot T) → Option Find
  | _, [] => Option.none
  | idx2, s :: rest =>
    if s.val = some v then some (.exists_ (idx, idx2))
    else if s.refs = 0 then some (.dead (idx, idx2))
    else findSlots v idx (idx2 + 1) rest

/-- The outer loop of `find` (`intern.rs` L97-109). -/
def findChunks (v : T) : Nat → Store T → Find
  | _, [] => .none
  | idx, c :: rest =>
    match findSlots v idx 0 c with
    | some f => f
    | Option.none => findChunks v (idx + 1) rest

/-- `find` (`intern.rs` L92-110). -/
def find (st : Store T) (v : T) : Find := findChunks v 0 st

/-- `self.inner[loc1][loc2]`: both index operations panic out of bounds. -/
def slot (st : Store T) (loc : Nat × Nat) : Res (Slot T) :=
  (Res.ofOption st[loc.1]?).bind fun c => Res.ofOption c[loc.2]?

/-- Writing to `self.inner[loc1][loc2]`. -/
def setSlot (st : Store T) (loc : Nat × Nat) (s : Slot T) : Store T :=
  st.modify loc.1 fun c => c.set loc.2 s

/-- `incr_inner` (`intern.rs` L112-116): `fetch_add` wraps, and a debug assertion rejects the
wrap-around. -/
def incrInner (m : Mode) (s : Slot T) : Res (Slot T) :=
  if s.refs = usizeSize - 1 then
    match m with
    | .debug => .panic
    | .release => .ok { s with refs := 0 }
  else .ok { s with refs := s.refs + 1 }

/-- `decr_inner` (`intern.rs` L118-125): `checked_sub(1)`, so a zero count stays. -/
def decrInner (s : Slot T) : Slot T := { s with refs := s.refs - 1 }

/-- `offset_to_idx` (`intern.rs` L127-130). -/
def offsetToIdx (offset : Nat) : Nat × Nat := (offset / 32, offset % 32)

/-- `add` (`intern.rs` L132-169). -/
def add (m : Mode) (st : Store T) (v : T) : Res (Store T × Nat) :=
  match find st v with
  | .exists_ loc =>
    (slot st loc).bind fun s => (incrInner m s).bind fun s =>
    .ok (setSlot st loc s, loc.1 * 32 + loc.2)
  | .dead loc =>
    (slot st loc).bind fun s => (incrInner m s).bind fun s =>
    .ok (setSlot st loc { s with val := some v }, loc.1 * 32 + loc.2)
  | .none =>
    let st := st ++ [newChunk]
    let len := st.length
    (slot st (len - 1, 0)).bind fun s => (incrInner m s).bind fun s =>
    .ok (setSlot st (len - 1, 0) { s with val := some v }, (len - 1) * 32)

/-- `try_get` (`intern.rs` L171-179); `val()` unwraps (unchecked in the code) the value, which
the model turns into a panic if there is none. -/
def tryGet (st : Store T) (offset : Nat) : Res (Option T) :=
  (slot st (offsetToIdx offset)).bind fun s =>
  if s.refs = 0 then .ok none
  else (Res.ofOption s.val).bind fun v => .ok (some v)

/-- `get` (`intern.rs` L181-183). -/
def get (st : Store T) (offset : Nat) : Res T := (tryGet st offset).bind Res.ofOption

/-- `incr` (`intern.rs` L185-188). -/
def incr (m : Mode) (st : Store T) (offset : Nat) : Res (Store T) :=
  (slot st (offsetToIdx offset)).bind fun s => (incrInner m s).bind fun s =>
  .ok (setSlot st (offsetToIdx offset) s)

/-- `decr` (`intern.rs` L190-193). -/
def decr (st : Store T) (offset : Nat) : Res (Store T) :=
  (slot st (offsetToIdx offset)).bind fun s =>
  .ok (setSlot st (offsetToIdx offset) (decrInner s))

/-- `refcount` (`intern.rs` L195-199). -/
def refcount (st : Store T) (offset : Nat) : Res Nat :=
  (slot st (offsetToIdx offset)).bind fun s => .ok s.refs

end Intern

end Verif
