import Mathlib.Logic.Function.Basic
import Verif.Model.Base

/-!
# Model of the shared append-only list (`crates/utils/src/linked.rs`)

A heap of nodes, any number of threads, each with a program counter; one step is one atomic
memory access of one thread, under sequential consistency (memory orderings, deallocation and
`usize` overflow of the length are not modelled). Node `n` is the `n`-th node allocated.
A null pointer is `none`; following a null pointer leads to the explicit program counter `crash`.
-/

namespace Verif

namespace Linked

/-- Where a thread is inside `push`/`tail`/`set_next` or `get`. `new` is the node being pushed.
`retries` is bookkeeping only: how often `push` moved on after a failed exchange. -/
inductive PC where
  /-- not in a call -/
  | idle
  /-- `push`: before the exchange on `head` (`linked.rs` L94-97) -/
  | casHead (new : Nat)
  /-- `tail`: before `self.head.load` (`linked.rs` L65) -/
  | tailHead (new : Nat)
  /-- `tail`: before the load in `get_next_opt(cur_node)` (`linked.rs` L73, L35) -/
  | tailLoad (new cur len : Nat)
  /-- `tail`: before `new_node.load` (`linked.rs` L74) -/
  | tailNext (new cur len : Nat)
  /-- `push`: before the exchange in `set_next(tail, new)` (`linked.rs` L101, L21-25) -/
  | setNext (new tail len retries : Nat)
  /-- `push`: before the load in `get_next_opt(tail)` (`linked.rs` L102) -/
  | failLoad (new tail len retries : Nat)
  /-- `push`: before `next.load` (`linked.rs` L103) -/
  | failNext (new tail len retries : Nat)
  /-- `push` has returned `ret` -/
  | done (new ret retries : Nat)
  /-- `get`: before `self.head.load` (`linked.rs` L112) -/
  | getHead (idx : Nat)
  /-- `get`: loop round `k`, before the load in `get_next_opt(cur_node)` (`linked.rs` L117) -/
  | getLoad (idx k cur : Nat)
  /-- `get`: loop round `k`, before the second load (`linked.rs` L117) -/
  | getNext (idx k cur : Nat)
  /-- `get` has returned (the node whose value it refers to, if any) -/
  | got (idx : Nat) (res : Option Nat)
  /-- a null pointer was followed -/
  | crash
deriving DecidableEq, Repr

/-- The memory: `UnsyncLinked::head`, and `next` and `val` of all nodes (`linked.rs` L7-10, L52-54);
`alloc` nodes exist. -/
structure Mem (T : Type) where
  head : Option Nat
  next : Nat → Option Nat
  val : Nat → Option T
  alloc : Nat

/-- Memory and threads. -/
structure State (T : Type) where
  mem : Mem T
  pc : Nat → PC

variable {T : Type}

/-- `UnsyncLinked::new` (`linked.rs` L57-61). -/
def init : State T := ⟨⟨none, fun _ => none, fun _ => none, 0⟩, fun _ => .idle⟩

/-- The head of the loop `for _ in 0..idx` of `get` (`linked.rs` L116-119). -/
def getLoop (idx k cur : Nat) : PC := if k = idx then .got idx (some cur) else .getLoad idx k cur

/-- One atomic step of a thread that is inside a call (`linked.rs` L21-42, L64-79, L92-120);
`none` if it is not inside a call. -/
def step (m : Mem T) : PC → Option (Mem T × PC)
  | .casHead new =>
    match m.head with
    | none => some ({ m with head := some new }, .done new 1 0)
    | some _ => some (m, .tailHead new)
  | .tailHead new =>
    match m.head with
    | none => some (m, .crash)
    | some cur => some (m, .tailLoad new cur 1)
  | .tailLoad new cur len =>
    match m.next cur with
    | none => some (m, .setNext new cur len 0)
    | some _ => some (m, .tailNext new cur len)
  | .tailNext new cur len =>
    match m.next cur with
    | none => some (m, .crash)
    | some cur' => some (m, .tailLoad new cur' (len + 1))
  | .setNext new tail len r =>
    match m.next tail with
    | none => some ({ m with next := Function.update m.next tail (some new) }, .done new (len + 1) r)
    | some _ => some (m, .failLoad new tail len r)
  | .failLoad new tail len r =>
    match m.next tail with
    | none => some (m, .setNext new tail len r)
    | some _ => some (m, .failNext new tail len r)
  | .failNext new tail len r =>
    match m.next tail with
    | none => some (m, .crash)
    | some tail' => some (m, .setNext new tail' len (r + 1))
  | .getHead idx =>
    match m.head with
    | none => some (m, .got idx none)
    | some cur => some (m, getLoop idx 0 cur)
  | .getLoad idx k cur =>
    match m.next cur with
    | none => some (m, .got idx none)
    | some _ => some (m, .getNext idx k cur)
  | .getNext idx k cur =>
    match m.next cur with
    | none => some (m, .crash)
    | some cur' => some (m, getLoop idx (k + 1) cur')
  | .idle | .done .. | .got .. | .crash => none

/-- The thread is outside of any call and may start one. -/
def PC.ready : PC → Bool
  | .idle | .done .. | .got .. => true
  | _ => false

/-- `Node::new(val)` (`linked.rs` L13-18): the node is private to the thread until it is linked. -/
def newNode (m : Mem T) (v : T) : Mem T :=
  { m with
    next := Function.update m.next m.alloc none
    val := Function.update m.val m.alloc (some v)
    alloc := m.alloc + 1 }

/-- Any thread takes its next step, or starts a `push` or a `get`. -/
inductive Step : State T → State T → Prop
  | push (s : State T) (t : Nat) (v : T) (h : (s.pc t).ready = true) :
      Step s ⟨newNode s.mem v, Function.update s.pc t (.casHead s.mem.alloc)⟩
  | get (s : State T) (t : Nat) (idx : Nat) (h : (s.pc t).ready = true) :
      Step s ⟨s.mem, Function.update s.pc t (.getHead idx)⟩
  | run (s : State T) (t : Nat) (m' : Mem T) (pc' : PC) (h : step s.mem (s.pc t) = some (m', pc')) :
      Step s ⟨m', Function.update s.pc t pc'⟩

/-- Any number of steps. -/
inductive Steps : State T → State T → Prop
  | refl (s : State T) : Steps s s
  | tail {a b c : State T} : Steps a b → Step b c → Steps a c

/-- The node currently owned by a thread inside `push`. -/
def PC.owner : PC → Option Nat
  | .casHead new | .tailHead new | .tailLoad new _ _ | .tailNext new _ _ | .setNext new _ _ _
  | .failLoad new _ _ _ | .failNext new _ _ _ => some new
  | _ => none

end Linked

end Verif
