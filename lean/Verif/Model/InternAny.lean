import Verif.Model.InternRef

/-!
# Model of the interner with values that run code of their own (`crates/utils/src/intern.rs`), single-threaded

`add` calls code that the interner does not know: comparisons (`PartialEq`, `Borrow`), the conversion
(`Into`), and the destructor of a value that is overwritten. Here these are programs: they have a state,
answer as they like, panic, and may call the interner again, which runs such programs again. `eq` of a key and
a value need not be an equivalence, nor give the same answer twice.

All code uses the interner through handles, as `BigInt` does: an id that `add` returned, whose count goes up
when the handle is cloned and down when it is dropped. `get` gives a copy of the value. The ids `add` has not
returned, and references that are kept, are in `Model/InternRef`.

Simplified: the chunks are one list of slots; counts do not wrap around (C161); `hang` is a program that ran
out of fuel.
-/

namespace Verif

namespace InternAny

open InternRef (Out)

/-- The calls that can be made; `j` is the number of a handle. -/
inductive Call (κ : Type) where
  | add (k : κ)
  | clone (j : Nat)
  | drop (j : Nat)
  | get (j : Nat)

/-- What a call returns. -/
inductive Reply (T : Type) where
  | handle (j : Nat)
  | done
  | value (v : T)
deriving DecidableEq, Repr

/-- A program with state `σ`, keys `κ`, values `T` and result `α`. After a call it goes on with the reply, or
with `none` if the call panicked. -/
inductive Prog (σ κ T α : Type) where
  | ret (a : α)
  | panic
  | read (k : σ → Prog σ κ T α)
  | write (s : σ) (p : Prog σ κ T α)
  | call (c : Call κ) (k : Option (Reply T) → Prog σ κ T α)

/-- The code of keys and values: `val == cur_val.borrow()` (`intern.rs` L102), `val.into()` (L157, L165) and
`Drop::drop`. -/
structure User (σ κ T : Type) where
  eq : κ → T → Prog σ κ T Bool
  into : κ → Prog σ κ T T
  drop : T → Prog σ κ T Unit

/-- The slots; those whose value is being compared; those whose value is being dropped; the handles (those not
dropped), each with its id and the value it stood for when `add` returned it; the state of the user's code. -/
structure World (σ T : Type) where
  slots : List (Slot T)
  reads : List Nat
  frozen : List Nat
  handles : List (Option (Nat × T))
  user : σ

/-- A new interner. -/
def World.new {σ : Type} (T : Type) (s : σ) : World σ T := ⟨[], [], [], [], s⟩

variable {σ κ T : Type}

/-- How programs are run inside the interner's functions. -/
abbrev Runner (σ κ T : Type) := (α : Type) → Prog σ κ T α → World σ T → Out α × World σ T

/-- `Find` (`intern.rs` L11-15). -/
inductive Found where
  | exists_ (i : Nat)
  | dead (i : Nat)
  | none

/-- `find` (`intern.rs` L92-109), from slot `i` on; the count is loaded before the comparison. The value is
borrowed while it is compared. Looking at a value that is being dropped is undefined behaviour. -/
def find (u : User σ κ T) (rec : Runner σ κ T) (k : κ) : Nat → Nat → World σ T → Out Found × World σ T
  | 0, _, w => (.of .hang, w)
  | n + 1, i, w =>
    match w.slots[i]? with
    | none => (.of (.ok .none), w)
    | some s =>
      if i ∈ w.frozen then (.ub, w)
      else
        match s.val with
        | none => if s.refs = 0 then (.of (.ok (.dead i)), w) else find u rec k n (i + 1) w
        | some v =>
          match rec Bool (u.eq k v) { w with reads := i :: w.reads } with
          | (.of (.ok b), w) =>
            let w := { w with reads := w.reads.erase i }
            if b then (.of (.ok (.exists_ i)), w)
            else if s.refs = 0 then (.of (.ok (.dead i)), w)
            else find u rec k n (i + 1) w
          | (.of .panic, w) => (.of .panic, { w with reads := w.reads.erase i })
          | (.of .hang, w) => (.of .hang, w)
          | (.ub, w) => (.ub, w)

/-- `incr_inner` and `decr_inner` (`intern.rs` L111-124). -/
def incr (i : Nat) (w : World σ T) : World σ T :=
  { w with slots := w.slots.modify i fun s => { s with refs := s.refs + 1 } }
def decr (i : Nat) (w : World σ T) : World σ T :=
  { w with slots := w.slots.modify i fun s => { s with refs := s.refs - 1 } }

/-- `*self.val.get() = Some(val)` in `set_val` (`intern.rs` L43-49): the old value is dropped, then the new one
written, also if the destructor panics. Undefined behaviour if the old value is borrowed. -/
def setVal (u : User σ κ T) (rec : Runner σ κ T) (i : Nat) (v : T) (w : World σ T) :
    Out Unit × World σ T :=
  if i ∈ w.reads ∨ i ∈ w.frozen then (.ub, w)
  else
    let put := fun w : World σ T => { w with slots := w.slots.modify i fun s => { s with val := some v } }
    match (w.slots[i]?).bind Slot.val with
    | none => (.of (.ok ()), put w)
    | some old =>
      match rec Unit (u.drop old) { w with frozen := i :: w.frozen } with
      | (.of (.ok ()), w) => (.of (.ok ()), put { w with frozen := w.frozen.erase i })
      | (.of .panic, w) => (.of .panic, put { w with frozen := w.frozen.erase i })
      | (.of .hang, w) => (.of .hang, w)
      | (.ub, w) => (.ub, w)

/-- Slot `i` is used for `k` (`intern.rs` L151-158, L163-166): counted, then the key is converted, then the value
is written. -/
def make (u : User σ κ T) (rec : Runner σ κ T) (k : κ) (i : Nat) (w : World σ T) :
    Out Nat × World σ T :=
  match rec T (u.into k) (incr i w) with
  | (.of (.ok v), w) =>
    match setVal u rec i v w with
    | (.of (.ok ()), w) => (.of (.ok i), w)
    | (.of .panic, w) => (.of .panic, w)
    | (.of .hang, w) => (.of .hang, w)
    | (.ub, w) => (.ub, w)
  | (.of .panic, w) => (.of .panic, w)
  | (.of .hang, w) => (.of .hang, w)
  | (.ub, w) => (.ub, w)

/-- `add` (`intern.rs` L133-169). -/
def add (u : User σ κ T) (rec : Runner σ κ T) (n : Nat) (k : κ) (w : World σ T) : Out Nat × World σ T :=
  match find u rec k n 0 w with
  | (.of (.ok (.exists_ i)), w) => (.of (.ok i), incr i w)
  | (.of (.ok (.dead i)), w) => make u rec k i w
  | (.of (.ok .none), w) =>
    make u rec k w.slots.length { w with slots := w.slots ++ List.replicate chunkSize ⟨0, none⟩ }
  | (.of .panic, w) => (.of .panic, w)
  | (.of .hang, w) => (.of .hang, w)
  | (.ub, w) => (.ub, w)

/-- `get` (`intern.rs` L171-183): undefined behaviour if the value is absent or is being dropped. -/
def get (i : Nat) (w : World σ T) : Out T :=
  match w.slots[i]? with
  | none => .of .panic
  | some s =>
    if s.refs = 0 then .of .panic
    else if i ∈ w.frozen then .ub
    else
      match s.val with
      | none => .ub
      | some v => .of (.ok v)

/-- A call, through the handles. -/
def call (u : User σ κ T) (rec : Runner σ κ T) (n : Nat) : Call κ → World σ T → Out (Reply T) × World σ T
  | .add k, w =>
    match add u rec n k w with
    | (.of (.ok i), w) =>
      match (w.slots[i]?).bind Slot.val with
      | some v => (.of (.ok (.handle w.handles.length)), { w with handles := w.handles ++ [some (i, v)] })
      | none => (.of .panic, w)
    | (.of .panic, w) => (.of .panic, w)
    | (.of .hang, w) => (.of .hang, w)
    | (.ub, w) => (.ub, w)
  | .clone j, w =>
    match w.handles[j]? with
    | some (some h) =>
      (.of (.ok (.handle w.handles.length)), incr h.1 { w with handles := w.handles ++ [some h] })
    | _ => (.of .panic, w)
  | .drop j, w =>
    match w.handles[j]? with
    | some (some h) => (.of (.ok .done), decr h.1 { w with handles := w.handles.set j none })
    | _ => (.of .panic, w)
  | .get j, w =>
    match w.handles[j]? with
    | some (some h) =>
      match get h.1 w with
      | .of (.ok v) => (.of (.ok (.value v)), w)
      | .of .panic => (.of .panic, w)
      | .of .hang => (.of .hang, w)
      | .ub => (.ub, w)
    | _ => (.of .panic, w)

/-- Programs. -/
def run (u : User σ κ T) : Nat → Runner σ κ T
  | 0, _, _, w => (.of .hang, w)
  | n + 1, α, p, w =>
    match p with
    | .ret a => (.of (.ok a), w)
    | .panic => (.of .panic, w)
    | .read k => run u n α (k w.user) w
    | .write s p => run u n α p { w with user := s }
    | .call c k =>
      match call u (run u n) n c w with
      | (.of (.ok r), w) => run u n α (k (some r)) w
      | (.of .panic, w) => run u n α (k none) w
      | (.of .hang, w) => (.of .hang, w)
      | (.ub, w) => (.ub, w)

end InternAny

end Verif
