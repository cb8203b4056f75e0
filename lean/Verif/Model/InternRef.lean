import Verif.Model.Intern

/-!
# Model of the references that the interner gives out (`crates/utils/src/intern.rs`), single-threaded

`try_get` and `get` return references to values inside the interner, which the caller may go on using
while calling other methods (all of them take `&self`). Two places are `unsafe`: reading a value with
`unwrap_unchecked`, and overwriting one. Either can be undefined behaviour, which is an explicit outcome
here. The values do not call back into the interner when they are compared or converted; a conversion that
panics is modelled.
-/

namespace Verif

namespace InternRef

open Intern

variable {T : Type} [DecidableEq T]

/-- What a call does: it has undefined behaviour, or ends in one of the usual ways. -/
inductive Out (α : Type) where
  | ub
  | of (r : Res α)
deriving DecidableEq, Repr

/-- An interner, the ids of the values to which references are in use, and (bookkeeping only) the ids
that `add` has returned. -/
structure World (T : Type) where
  store : Store T
  reads : List Nat
  ids : List Nat
deriving DecidableEq, Repr

/-- `Interner::with_capacity` (`intern.rs` L84-90). -/
def start (n : Nat) : World T := ⟨withCapacity n, [], []⟩

/-- `add` (`intern.rs` L133-169): as in `Intern.add`, with `set_val` (L43-49) called unless the value was
found; overwriting a value to which a reference is in use is undefined behaviour. -/
def add (m : Mode) (w : World T) (v : T) : Out (World T) :=
  match find w.store v, Intern.add m w.store v with
  | .exists_ _, .ok (st, id) => .of (.ok { w with store := st, ids := id :: w.ids })
  | _, .ok (st, id) =>
    if id ∈ w.reads then .ub else .of (.ok { w with store := st, ids := id :: w.ids })
  | _, .panic => .of .panic
  | _, .hang => .of .hang

/-- `add` when `val.into()` panics (`intern.rs` L157, L165): the reference has been counted by then, and
no value is stored. A value that is found is not converted (L144-147). -/
def addPanics (m : Mode) (w : World T) (v : T) : Out (World T) :=
  match find w.store v with
  | .exists_ _ => add m w v
  | .dead loc =>
    .of <| (slot w.store loc).bind fun s => (incrInner m s).bind fun s =>
      .ok { w with store := setSlot w.store loc s }
  | .none =>
    let st := w.store ++ [newChunk]
    .of <| (slot st (st.length - 1, 0)).bind fun s => (incrInner m s).bind fun s =>
      .ok { w with store := setSlot st (st.length - 1, 0) s }

/-- `incr` and `decr` (`intern.rs` L185-193). -/
def incr (m : Mode) (w : World T) (i : Nat) : Out (World T) :=
  .of <| (Intern.incr m w.store i).bind fun st => .ok { w with store := st }
def decr (w : World T) (i : Nat) : Out (World T) :=
  .of <| (Intern.decr w.store i).bind fun st => .ok { w with store := st }

/-- `Interned::val` (`intern.rs` L37-41): `unwrap_unchecked` of an absent value is undefined behaviour. -/
def val (s : Slot T) : Out T :=
  match s.val with
  | some v => .of (.ok v)
  | none => .ub

/-- `try_get` (`intern.rs` L171-179), with the value read; a reference that is returned is in use from
then on. -/
def tryGet (w : World T) (i : Nat) : Out (World T × Option T) :=
  match slot w.store (offsetToIdx i) with
  | .ok s =>
    if s.refs = 0 then .of (.ok (w, none))
    else
      match val s with
      | .of (.ok v) => .of (.ok ({ w with reads := i :: w.reads }, some v))
      | .of _ => .of .panic
      | .ub => .ub
  | .panic => .of .panic
  | .hang => .of .hang

/-- `get` (`intern.rs` L181-183). -/
def get (w : World T) (i : Nat) : Out (World T × T) :=
  match tryGet w i with
  | .of (.ok (w, some v)) => .of (.ok (w, v))
  | .of (.ok (_, none)) => .of .panic
  | .of .panic => .of .panic
  | .of .hang => .of .hang
  | .ub => .ub

/-- The calls, and the end of the use of a reference. -/
inductive Act (T : Type) where
  | add (v : T)
  | addPanics (v : T)
  | incr (i : Nat)
  | decr (i : Nat)
  | tryGet (i : Nat)
  | get (i : Nat)
  | release (i : Nat)

/-- One of them; afterwards, the world without the value read. -/
def act (m : Mode) (w : World T) : Act T → Out (World T)
  | .add v => add m w v
  | .addPanics v => addPanics m w v
  | .incr i => incr m w i
  | .decr i => decr w i
  | .tryGet i =>
    match tryGet w i with
    | .of r => .of (r.bind fun x => .ok x.1)
    | .ub => .ub
  | .get i =>
    match get w i with
    | .of r => .of (r.bind fun x => .ok x.1)
    | .ub => .ub
  | .release i => .of (.ok { w with reads := w.reads.erase i })

/-- What `incr` leaves behind whether or not it panics (`intern.rs` L111-114, L185-188): `fetch_add` has
wrapped the count around by the time the assertion fails. -/
def incrLeaves (st : Store T) (i : Nat) : Res (Store T) :=
  (slot st (offsetToIdx i)).bind fun s =>
  .ok (setSlot st (offsetToIdx i) { s with refs := (s.refs + 1) % usizeSize })

end InternRef

end Verif
