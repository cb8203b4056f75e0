import Mathlib.Logic.Function.Basic
import Verif.Model.Base

/-!
# The shared append-only list under its memory orderings (`crates/utils/src/linked.rs`)

`Verif.Model.Linked` runs the list under sequential consistency. Here the orderings written in the
code count: `Relaxed`, `Acquire`, `AcqRel`. Every thread has a *view*: the nodes whose
initialisation happened before its current point, and the pointers (`head`, or `next` of a node)
it knows to be set. A pointer is written at most once, from null to a node, by a compare-exchange.

* A load may still return null after the pointer was set, unless the thread's view has it set.
* A load that sees the pointer set adds that to the view; with `Acquire` it adds everything in the
  view the writer released.
* A compare-exchange from null succeeds if the pointer is not yet set, and releases the view of the
  writer if its ordering says so; otherwise it fails, having read the node with its failure ordering.
* A thread may come to know all another thread knows at any moment (`sync`: spawning or joining a
  thread, a lock, a channel).

A thread about to access a node that is not in its view is a data race with the writes of
`Node::new`. Simplified: a load never sees a write that has not been executed yet (a relaxed load
of the code cannot either, once the thread knows the pointer to be set, as all but the one of `len`
do); no deallocation; lengths do not overflow.
-/

namespace Verif

namespace LinkedWeak

/-- A pointer in memory: `UnsyncLinked::head` or `Node::next` (`linked.rs` L8, L54). -/
inductive Loc where
  | head
  | next (n : Nat)
deriving DecidableEq, Repr

/-- The orderings of `core::sync::atomic::Ordering` used by the code. -/
inductive Ord where
  | relaxed | acquire | release | acqRel
deriving DecidableEq, Repr

def Ord.acquires : Ord → Bool
  | .acquire | .acqRel => true
  | _ => false

def Ord.releases : Ord → Bool
  | .release | .acqRel => true
  | _ => false

/-- What has happened before: nodes initialised, pointers set. -/
structure View where
  nodes : Nat → Prop
  locs : Loc → Prop

namespace View

def empty : View := ⟨fun _ => False, fun _ => False⟩

def join (v w : View) : View := ⟨fun n => v.nodes n ∨ w.nodes n, fun l => v.locs l ∨ w.locs l⟩

/-- The pointer is now known to be set. -/
def see (v : View) (l : Loc) : View := { v with locs := fun x => x = l ∨ v.locs x }

/-- The node was initialised by this thread. -/
def own (v : View) (n : Nat) : View := { v with nodes := fun x => x = n ∨ v.nodes x }

end View

/-- What a write to a pointer left: the node, and the view released with it. -/
structure Msg where
  ptr : Nat
  view : View

/-- The memory: all pointers (`none` is null), and `val` of all nodes (`linked.rs` L7-10, L53-55);
`alloc` nodes exist. -/
structure Mem (T : Type) where
  cell : Loc → Option Msg
  val : Nat → Option T
  alloc : Nat

variable {T : Type}

/-- Reading a set pointer with the given ordering. -/
def View.read (v : View) (o : Ord) (l : Loc) (msg : Msg) : View :=
  if o.acquires then (v.join msg.view).see l else v.see l

/-- `load(o)`: the pointer found, and the view afterwards. -/
inductive Load (m : Mem T) (v : View) (l : Loc) (o : Ord) : Option Nat → View → Prop
  | null (h : ¬ v.locs l) : Load m v l o none v
  | set (msg : Msg) (h : m.cell l = some msg) : Load m v l o (some msg.ptr) (v.read o l msg)

/-- The pointer is set. -/
def Mem.write (m : Mem T) (l : Loc) (msg : Msg) : Mem T :=
  { m with cell := Function.update m.cell l (some msg) }

/-- `compare_exchange(null, new, ok, err)`: the memory, the view and the success. -/
inductive Cas (m : Mem T) (v : View) (l : Loc) (new : Nat) (ok err : Ord) :
    Mem T → View → Bool → Prop
  | ok (h : m.cell l = none) :
      Cas m v l new ok err
        (m.write l ⟨new, (if ok.releases then v else View.empty).see l⟩) (v.see l) true
  | err (msg : Msg) (h : m.cell l = some msg) :
      Cas m v l new ok err m (v.read err l msg) false

/-- Where a thread is inside a call; as in `Linked.PC`, with `len`, `is_empty` and the iterator. -/
inductive PC where
  | idle
  /-- `push`: before the exchange on `head` (`linked.rs` L94-97) -/
  | casHead (new : Nat)
  /-- `tail`: before `self.head.load` (`linked.rs` L65) -/
  | tailHead (new : Nat)
  /-- `tail`: before the load in `get_next_opt(cur_node)` (`linked.rs` L73, L35) -/
  | tailLoad (new cur len : Nat)
  /-- `tail`: before `new_node.load` (`linked.rs` L74) -/
  | tailNext (new cur len : Nat)
  /-- `push`: before the exchange in `set_next(tail, new)` (`linked.rs` L101, L21-25) -/
  | setNext (new tail len retries : Nat)
  /-- `push`: before the load in `get_next_opt(tail)` (`linked.rs` L102) -/
  | failLoad (new tail len retries : Nat)
  /-- `push`: before `next.load` (`linked.rs` L103) -/
  | failNext (new tail len retries : Nat)
  /-- `push` has returned `ret` -/
  | done (new ret retries : Nat)
  /-- `get`: before `self.head.load` (`linked.rs` L112) -/
  | getHead (idx : Nat)
  /-- `get`: loop round `k`, before the load in `get_next_opt(cur_node)` (`linked.rs` L117) -/
  | getLoad (idx k cur : Nat)
  /-- `get`: loop round `k`, before the second load (`linked.rs` L117) -/
  | getNext (idx k cur : Nat)
  /-- `get`: before `get_val(cur_node)` (`linked.rs` L119, L47-50) -/
  | getVal (idx cur : Nat)
  /-- `get` has returned (the node whose value it refers to, if any) -/
  | got (idx : Nat) (res : Option Nat)
  /-- an iterator is held, outside of `next`: its cursor, the nodes it has returned -/
  | iter (cur : Loc) (seen : List Nat)
  /-- `Iter::next`: before `self.cur.load` (`linked.rs` L167) -/
  | iterLoad (cur : Loc) (seen : List Nat)
  /-- `Iter::next`: before `get_val(ptr)` and `get_next(ptr)` (`linked.rs` L171-172) -/
  | iterVal (ptr : Nat) (seen : List Nat)
  /-- `Iter::next` has returned `None` -/
  | iterEnd (cur : Loc) (seen : List Nat)
  /-- `len`: before `self.head.load` (`linked.rs` L65, L82-84) -/
  | lenHead
  /-- `len`: before the load in `get_next_opt(cur_node)` (`linked.rs` L73, L35) -/
  | lenLoad (cur len : Nat)
  /-- `len`: before `new_node.load` (`linked.rs` L74) -/
  | lenNext (cur len : Nat)
  /-- `len` has returned -/
  | lenDone (len : Nat)
  /-- `is_empty`: before `self.head.load` (`linked.rs` L87-89) -/
  | emptyHead
  /-- `is_empty` has returned -/
  | emptyDone (res : Bool)
  /-- a null pointer was followed -/
  | crash
deriving DecidableEq, Repr

/-- The head of the loop `for _ in 0..idx` of `get` (`linked.rs` L116-119). -/
def getLoop (idx k cur : Nat) : PC := if k = idx then .getVal idx cur else .getLoad idx k cur

/-- The node a cursor points into. -/
def Loc.node : Loc → Option Nat
  | .head => none
  | .next n => some n

/-- The node the next step of a thread accesses. -/
def PC.access : PC → Option Nat
  | .tailLoad _ cur _ | .tailNext _ cur _ | .lenLoad cur _ | .lenNext cur _ => some cur
  | .setNext _ tl _ _ | .failLoad _ tl _ _ | .failNext _ tl _ _ => some tl
  | .getLoad _ _ cur | .getNext _ _ cur | .getVal _ cur => some cur
  | .iterLoad cur _ => cur.node
  | .iterVal ptr _ => some ptr
  | _ => none

/-- One atomic step of a thread that is inside a call (`linked.rs` L21-50, L64-120, L166-175). -/
inductive Run : Mem T → View → PC → Mem T → View → PC → Prop
  | casHead {m v new m' v' b} (h : Cas m v .head new .acqRel .acquire m' v' b) :
      Run m v (.casHead new) m' v' (if b then .done new 1 0 else .tailHead new)
  | tailHead {m v new r v'} (h : Load m v .head .relaxed r v') :
      Run m v (.tailHead new) m v' (match r with | none => .crash | some cur => .tailLoad new cur 1)
  | tailLoad {m v new cur len r v'} (h : Load m v (.next cur) .acquire r v') :
      Run m v (.tailLoad new cur len) m v'
        (match r with | none => .setNext new cur len 0 | some _ => .tailNext new cur len)
  | tailNext {m v new cur len r v'} (h : Load m v (.next cur) .relaxed r v') :
      Run m v (.tailNext new cur len) m v'
        (match r with | none => .crash | some c => .tailLoad new c (len + 1))
  | setNext {m v new tl len k m' v' b} (h : Cas m v (.next tl) new .acqRel .acquire m' v' b) :
      Run m v (.setNext new tl len k) m' v'
        (if b then .done new (len + 1) k else .failLoad new tl len k)
  | failLoad {m v new tl len k r v'} (h : Load m v (.next tl) .acquire r v') :
      Run m v (.failLoad new tl len k) m v'
        (match r with | none => .setNext new tl len k | some _ => .failNext new tl len k)
  | failNext {m v new tl len k r v'} (h : Load m v (.next tl) .relaxed r v') :
      Run m v (.failNext new tl len k) m v'
        (match r with | none => .crash | some c => .setNext new c len (k + 1))
  | getHead {m v idx r v'} (h : Load m v .head .acquire r v') :
      Run m v (.getHead idx) m v'
        (match r with | none => .got idx none | some cur => getLoop idx 0 cur)
  | getLoad {m v idx k cur r v'} (h : Load m v (.next cur) .acquire r v') :
      Run m v (.getLoad idx k cur) m v'
        (match r with | none => .got idx none | some _ => .getNext idx k cur)
  | getNext {m v idx k cur r v'} (h : Load m v (.next cur) .relaxed r v') :
      Run m v (.getNext idx k cur) m v'
        (match r with | none => .crash | some c => getLoop idx (k + 1) c)
  | getVal {m v idx cur} : Run m v (.getVal idx cur) m v (.got idx (some cur))
  | iterLoad {m v cur seen r v'} (h : Load m v cur .acquire r v') :
      Run m v (.iterLoad cur seen) m v'
        (match r with | none => .iterEnd cur seen | some p => .iterVal p seen)
  | iterVal {m v ptr seen} : Run m v (.iterVal ptr seen) m v (.iter (.next ptr) (seen ++ [ptr]))
  | lenHead {m v r v'} (h : Load m v .head .relaxed r v') :
      Run m v .lenHead m v' (match r with | none => .lenDone 0 | some cur => .lenLoad cur 1)
  | lenLoad {m v cur len r v'} (h : Load m v (.next cur) .acquire r v') :
      Run m v (.lenLoad cur len) m v'
        (match r with | none => .lenDone len | some _ => .lenNext cur len)
  | lenNext {m v cur len r v'} (h : Load m v (.next cur) .relaxed r v') :
      Run m v (.lenNext cur len) m v'
        (match r with | none => .crash | some c => .lenLoad c (len + 1))
  | emptyHead {m v r v'} (h : Load m v .head .acquire r v') :
      Run m v .emptyHead m v' (.emptyDone r.isNone)

/-- The thread is outside of any call and may start one. -/
def PC.ready : PC → Bool
  | .idle | .done .. | .got .. | .iter .. | .iterEnd .. | .lenDone _ | .emptyDone _ => true
  | _ => false

/-- The cursor and the results of the iterator a thread holds. -/
def PC.iterator : PC → Option (Loc × List Nat)
  | .iter c l | .iterEnd c l => some (c, l)
  | _ => none

/-- Memory and threads: where each thread is and what it knows. -/
structure State (T : Type) where
  mem : Mem T
  pc : Nat → PC
  view : Nat → View

/-- `UnsyncLinked::new` (`linked.rs` L58-62). -/
def init : State T := ⟨⟨fun _ => none, fun _ => none, 0⟩, fun _ => .idle, fun _ => .empty⟩

/-- `Node::new(val)` (`linked.rs` L13-18): the next pointer of the new node is null. -/
def newNode (m : Mem T) (v : T) : Mem T :=
  { cell := Function.update m.cell (.next m.alloc) none
    val := Function.update m.val m.alloc (some v)
    alloc := m.alloc + 1 }

/-- The head is set and its node is in the view. -/
def KnowsHead (m : Mem T) (v : View) : Prop := ∃ msg, m.cell .head = some msg ∧ v.nodes msg.ptr

/-- Any thread takes its next step, starts a call, or learns what another thread knows. With
`guard` the function `len` is only called by threads that have the first node in their view. -/
inductive Step (guard : Bool) : State T → State T → Prop
  | push (s : State T) (t : Nat) (x : T) (h : (s.pc t).ready = true) :
      Step guard s ⟨newNode s.mem x, Function.update s.pc t (.casHead s.mem.alloc),
        Function.update s.view t ((s.view t).own s.mem.alloc)⟩
  | get (s : State T) (t : Nat) (idx : Nat) (h : (s.pc t).ready = true) :
      Step guard s { s with pc := Function.update s.pc t (.getHead idx) }
  | iter (s : State T) (t : Nat) (h : (s.pc t).ready = true) :
      Step guard s { s with pc := Function.update s.pc t (.iter .head []) }
  | next (s : State T) (t : Nat) (c : Loc) (l : List Nat) (h : (s.pc t).iterator = some (c, l)) :
      Step guard s { s with pc := Function.update s.pc t (.iterLoad c l) }
  | isEmpty (s : State T) (t : Nat) (h : (s.pc t).ready = true) :
      Step guard s { s with pc := Function.update s.pc t .emptyHead }
  | len (s : State T) (t : Nat) (h : (s.pc t).ready = true)
      (hg : guard = true → KnowsHead s.mem (s.view t)) :
      Step guard s { s with pc := Function.update s.pc t .lenHead }
  | run (s : State T) (t : Nat) (m' : Mem T) (v' : View) (pc' : PC)
      (h : Run s.mem (s.view t) (s.pc t) m' v' pc') :
      Step guard s ⟨m', Function.update s.pc t pc', Function.update s.view t v'⟩
  | sync (s : State T) (t t' : Nat) :
      Step guard s { s with view := Function.update s.view t' ((s.view t').join (s.view t)) }

/-- Any number of steps. -/
inductive Steps (guard : Bool) : State T → State T → Prop
  | refl (s : State T) : Steps guard s s
  | tail {a b c : State T} : Steps guard a b → Step guard b c → Steps guard a c

/-- A thread is about to access a node whose initialisation did not happen before. -/
def Racy (s : State T) : Prop := ∃ t n, (s.pc t).access = some n ∧ ¬ (s.view t).nodes n

/-- The node currently owned by a thread inside `push`. -/
def PC.owner : PC → Option Nat
  | .casHead new | .tailHead new | .tailLoad new _ _ | .tailNext new _ _ | .setNext new _ _ _
  | .failLoad new _ _ _ | .failNext new _ _ _ => some new
  | _ => none

end LinkedWeak

end Verif
