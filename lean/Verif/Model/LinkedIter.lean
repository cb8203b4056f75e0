import Verif.Model.Linked

/-!
# Model of `iter`, `len`, `is_empty` and `Drop` of the shared list (`crates/utils/src/linked.rs`)

As in `Model/Linked`, every atomic memory access is one step. An iterator is used by one thread while
any number of other threads go on; each call of `next` has one atomic access.
-/

namespace Verif

namespace Linked

variable {T : Type}

/-- `Iter::cur`, a reference to a pointer: the one in the list or the one in a node
(`linked.rs` L152-155). -/
inductive Cursor where
  | head
  | next (n : Nat)
deriving DecidableEq, Repr

/-- `iter` (`linked.rs` L122-127). -/
def iter : Cursor := .head

/-- Loading the pointer that the cursor refers to. -/
def Cursor.load (m : Mem T) : Cursor → Option Nat
  | .head => m.head
  | .next n => m.next n

/-- `Iter::next` (`linked.rs` L166-176), with the node whose value it refers to. -/
def iterNext (m : Mem T) (c : Cursor) : Option Nat × Cursor :=
  match c.load m with
  | none => (none, c)
  | some n => (some n, .next n)

/-- A thread iterates while others run; `R` are the results of `next` so far. -/
inductive Iterates : State T → Cursor → List (Option Nat) → State T → Cursor → Prop
  | refl (s : State T) (c : Cursor) : Iterates s c [] s c
  | other {s s' s'' : State T} {c c' : Cursor} {R : List (Option Nat)} :
      Iterates s c R s' c' → Step s' s'' → Iterates s c R s'' c'
  | next {s s' : State T} {c c' : Cursor} {R : List (Option Nat)} :
      Iterates s c R s' c' →
      Iterates s c (R ++ [(iterNext s'.mem c').1]) s' (iterNext s'.mem c').2

/-- Where a thread is inside `len` (`linked.rs` L64-84). -/
inductive LenPC where
  /-- before `self.head.load` (L65) -/
  | head
  /-- before the load in `get_next_opt(cur_node)` (L73, L35) -/
  | load (cur len : Nat)
  /-- before `new_node.load` (L74) -/
  | next (cur len : Nat)
  /-- has returned -/
  | ret (len : Nat)
  /-- a null pointer was followed -/
  | crash
deriving DecidableEq, Repr

/-- One atomic step of `len` (`linked.rs` L64-84). -/
def lenStep (m : Mem T) : LenPC → LenPC
  | .head =>
    match m.head with
    | none => .ret 0
    | some cur => .load cur 1
  | .load cur len =>
    match m.next cur with
    | none => .ret len
    | some _ => .next cur len
  | .next cur len =>
    match m.next cur with
    | none => .crash
    | some cur' => .load cur' (len + 1)
  | .ret n => .ret n
  | .crash => .crash

/-- A thread computes the length while others run. -/
inductive Lens : State T → LenPC → State T → LenPC → Prop
  | refl (s : State T) (p : LenPC) : Lens s p s p
  | other {s s' s'' : State T} {p p' : LenPC} : Lens s p s' p' → Step s' s'' → Lens s p s'' p'
  | own {s s' : State T} {p p' : LenPC} : Lens s p s' p' → Lens s p s' (lenStep s'.mem p')

/-- `is_empty` (`linked.rs` L87-89). -/
def isEmpty (m : Mem T) : Bool := m.head.isNone

/-- The outcome of `drop`: the nodes freed, in order; the same with a panic; a node used after it was freed; no
end. -/
inductive DropRes where
  | ok (freed : List Nat)
  | panic (freed : List Nat)
  | useAfterFree
  | hang
deriving DecidableEq, Repr

/-- The loop of `drop` (`linked.rs` L140-147): `Box::from_raw` takes the node, its `next` is read and
the node is freed. -/
def dropLoop (m : Mem T) : Nat → Option Nat → List Nat → DropRes
  | _, none, freed => .ok freed
  | 0, some _, _ => .hang
  | fuel + 1, some n, freed =>
    if n ∈ freed then .useAfterFree else dropLoop m fuel (m.next n) (freed ++ [n])

/-- `drop` (`linked.rs` L139-148), with at most `fuel` rounds of its loop. -/
def drop (fuel : Nat) (m : Mem T) : DropRes := dropLoop m fuel m.head []

/-- `drop` again, when the destructors of the elements for which `bad` holds panic: the box is freed, with the
panic, and the loop is left. -/
def dropLoopPanics (bad : T → Bool) (m : Mem T) : Nat → Option Nat → List Nat → DropRes
  | _, none, freed => .ok freed
  | 0, some _, _ => .hang
  | fuel + 1, some n, freed =>
    if n ∈ freed then .useAfterFree
    else if (m.val n).any bad then .panic (freed ++ [n])
    else dropLoopPanics bad m fuel (m.next n) (freed ++ [n])
def dropPanics (bad : T → Bool) (fuel : Nat) (m : Mem T) : DropRes := dropLoopPanics bad m fuel m.head []

end Linked

end Verif
