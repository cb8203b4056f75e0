import Mathlib.Logic.Function.Basic
import Verif.Model.LinkedWeak

/-!
# The interner under its memory orderings (`crates/utils/src/intern.rs`)

Threads share interned values; the calls of `add` take turns (the callers hold a lock around them),
everything else is concurrent. As in `Verif.Model.LinkedWeak` the orderings of the code count.

* The reference count of a slot is the sequence of its values in modification order. A load returns
  any of them that is not older than one the thread already knows of; with `Acquire` the thread learns
  what was released with the value. A read-modify-write takes the newest one.
* The value of a slot is plain memory (`UnsafeCell`). Its accesses are numbered, and a view says
  which of them happened before. A read that does not know of all writes, or a write that does not
  know of all accesses, is a data race.
* A handle is an id with the value it was added for; this value and the key that tells handles apart
  are not part of the code. Handles are moved between threads and lent to threads (`&BigInt` in a
  scoped thread), which always synchronises: what the one thread knows the other knows then.

Simplified: slots are numbered through; the chunks they live in are there for every thread that
got to know their number (C153), and `push` returns the length (C62: there is no contention); the
count does not overflow. `fetch_update` is a loop: the attempts that fail are steps of their own
(`peek`), the one that succeeds is `drop`.
-/

namespace Verif

namespace InternWeak

open LinkedWeak (Ord)

/-- What happened before: for each slot the newest known entry of its count, and the accesses to
plain memory. -/
structure View where
  ts : Nat → Nat
  seen : Nat → Prop

namespace View

def empty : View := ⟨fun _ => 0, fun _ => False⟩

def join (v w : View) : View := ⟨fun i => max (v.ts i) (w.ts i), fun a => v.seen a ∨ w.seen a⟩

/-- Entry `k` of the count of slot `i` is known. -/
def reach (v : View) (i k : Nat) : View := { v with ts := Function.update v.ts i (max (v.ts i) k) }

/-- The access `a` has been made. -/
def see (v : View) (a : Nat) : View := { v with seen := fun x => x = a ∨ v.seen x }

end View

/-- A value of a reference count, and the view released with it. -/
structure Msg where
  count : Nat
  view : View

/-- `Interned` (`intern.rs` L17-20): the older values of `refs`, its newest one, `val`, and the
accesses to `val` so far. -/
structure Slot (T : Type) where
  old : List Msg
  cur : Msg
  val : Option T
  reads : List Nat
  writes : List Nat

/-- `Interned::new_uninit` (`intern.rs` L24-29). -/
def Slot.new {T : Type} : Slot T := ⟨[], ⟨0, .empty⟩, none, [], []⟩

/-- An id somebody owns. -/
structure Handle (T : Type) where
  key : Nat
  owner : Nat
  id : Nat
  val : T
deriving DecidableEq

/-- Where a thread is inside `add` or `get`. -/
inductive PC (T : Type) where
  | idle
  /-- `find`: before stepping the iterators to slot `i` (`intern.rs` L97-98) -/
  | scan (v : T) (i : Nat)
  /-- `find`: before `i.refs.load` (`intern.rs` L101) -/
  | load (v : T) (i : Nat)
  /-- `find`: before `i.val_opt()` (`intern.rs` L102) -/
  | check (v : T) (i count : Nat)
  /-- `Find::Exists`: before `incr_inner` (`intern.rs` L143) -/
  | incrExists (v : T) (i : Nat)
  /-- `Find::None`: before `push` (`intern.rs` L160-162) -/
  | pushChunk (v : T)
  /-- `Find::Dead`, `Find::None`: before `incr_inner` (`intern.rs` L149, L163) -/
  | claim (v : T) (i : Nat)
  /-- `Find::Dead`, `Find::None`: before `set_val` (`intern.rs` L156, L165) -/
  | write (v : T) (i : Nat)
  /-- `try_get`: before `slot.refs.load` (`intern.rs` L171-174) -/
  | getLoad (h : Handle T)
  /-- `try_get`: before `slot.val()` (`intern.rs` L177, L37-41) -/
  | getVal (h : Handle T)
  /-- `get` has returned a reference, which was last used to read `x` -/
  | got (h : Handle T) (x : T)
  /-- `get` has panicked (`intern.rs` L182) -/
  | panicked
  /-- `unwrap_unchecked` on `None` (`intern.rs` L40) -/
  | undefined

variable {T : Type}

/-- The thread is outside of any call and may start one. -/
def PC.ready : PC T → Bool
  | .idle | .got .. => true
  | _ => false

/-- Slots, handles, loans (a handle and the borrowing thread), threads, and the lock around
`add`: what was known when it was last released, and who holds it. -/
structure State (T : Type) where
  slots : Nat → Slot T
  size : Nat
  clock : Nat
  handles : List (Handle T)
  loans : List (Handle T × Nat)
  pc : Nat → PC T
  view : Nat → View
  lock : View
  holder : Option Nat

/-- `Interner::new` (`intern.rs` L78-82). -/
def init : State T :=
  ⟨fun _ => .new, 0, 0, [], [], fun _ => .idle, fun _ => .empty, .empty, none⟩

namespace State

/-- Thread `t` continues at `p`. -/
def goto (s : State T) (t : Nat) (p : PC T) : State T := { s with pc := Function.update s.pc t p }

/-- Thread `t` has the view `v`. -/
def setView (s : State T) (t : Nat) (v : View) : State T :=
  { s with view := Function.update s.view t v }

/-- Thread `t` learns `w`. -/
def learn (s : State T) (t : Nat) (w : View) : State T := s.setView t ((s.view t).join w)

/-- The view of thread `t` after it has read entry `k`, which is `m`, of the count of slot `i`. -/
def afterRead (s : State T) (t i : Nat) (o : Ord) (k : Nat) (m : Msg) : View :=
  (if o.acquires then (s.view t).join m.view else s.view t).reach i k

/-- A read-modify-write of the count of slot `i` by thread `t`. -/
def rmw (s : State T) (t i : Nat) (o : Ord) (f : Nat → Nat) : State T :=
  let sl := s.slots i
  let v := (s.afterRead t i o sl.old.length sl.cur).reach i (sl.old.length + 1)
  { s with
    slots := Function.update s.slots i
      { sl with old := sl.old ++ [sl.cur],
                cur := ⟨f sl.cur.count, if o.releases then v else sl.cur.view⟩ }
    view := Function.update s.view t v }

/-- Thread `t` reads the value of slot `i`. -/
def readVal (s : State T) (t i : Nat) : State T :=
  { s with
    slots := Function.update s.slots i { s.slots i with reads := s.clock :: (s.slots i).reads }
    view := Function.update s.view t ((s.view t).see s.clock)
    clock := s.clock + 1 }

/-- Thread `t` writes the value of slot `i`. -/
def writeVal (s : State T) (t i : Nat) (x : T) : State T :=
  { s with
    slots := Function.update s.slots i
      { s.slots i with val := some x, writes := s.clock :: (s.slots i).writes }
    view := Function.update s.view t ((s.view t).see s.clock)
    clock := s.clock + 1 }

/-- `add` returns the id `i` to thread `t`, which releases the lock. -/
def finish (s : State T) (t i : Nat) (v : T) : State T :=
  { s with
    handles := ⟨s.clock, t, i, v⟩ :: s.handles
    clock := s.clock + 1
    pc := Function.update s.pc t .idle
    lock := s.view t
    holder := none }

end State

/-- `load(o)` of the count of slot `i` by thread `t`: entry `k`, which is `m`. -/
def Readable (s : State T) (t i k : Nat) (m : Msg) : Prop :=
  ((s.slots i).old ++ [(s.slots i).cur])[k]? = some m ∧ (s.view t).ts i ≤ k

/-- One step of thread `t` inside a call (`intern.rs` L92-183). -/
inductive Run [DecidableEq T] (s : State T) (t : Nat) : State T → Prop
  | scan (v : T) (i : Nat) (hp : s.pc t = .scan v i) :
      Run s t (s.goto t (if i < s.size then .load v i else .pushChunk v))
  | load (v : T) (i k : Nat) (m : Msg) (hp : s.pc t = .load v i) (hm : Readable s t i k m) :
      Run s t ((s.setView t (s.afterRead t i .acquire k m)).goto t (.check v i m.count))
  | check (v : T) (i count : Nat) (hp : s.pc t = .check v i count) :
      Run s t ((s.readVal t i).goto t
        (if (s.slots i).val = some v then .incrExists v i
         else if count = 0 then .claim v i else .scan v (i + 1)))
  | incrExists (v : T) (i : Nat) (hp : s.pc t = .incrExists v i) :
      Run s t ((s.rmw t i .acqRel (· + 1)).finish t i v)
  | pushChunk (v : T) (hp : s.pc t = .pushChunk v) :
      Run s t ({ s with size := s.size + 32 }.goto t (.claim v s.size))
  | claim (v : T) (i : Nat) (hp : s.pc t = .claim v i) :
      Run s t ((s.rmw t i .acqRel (· + 1)).goto t (.write v i))
  | write (v : T) (i : Nat) (hp : s.pc t = .write v i) :
      Run s t ((s.writeVal t i v).finish t i v)
  | getLoad (h : Handle T) (k : Nat) (m : Msg) (hp : s.pc t = .getLoad h)
      (hm : Readable s t h.id k m) :
      Run s t ((s.setView t (s.afterRead t h.id .relaxed k m)).goto t
        (if h.id < s.size ∧ m.count ≠ 0 then .getVal h else .panicked))
  | getVal (h : Handle T) (hp : s.pc t = .getVal h) :
      Run s t ((s.readVal t h.id).goto t
        (match (s.slots h.id).val with
         | some x => .got h x
         | none => .undefined))

/-- Thread `t` may use the handle: it owns it or has it on loan. -/
def Usable (s : State T) (t : Nat) (h : Handle T) : Prop :=
  (h ∈ s.handles ∧ h.owner = t) ∨ (h, t) ∈ s.loans

/-- The handle is lent to nobody. -/
def NotLent (s : State T) (h : Handle T) : Prop := ∀ b, (h, b) ∉ s.loans

/-- What may happen next. -/
inductive Step [DecidableEq T] : State T → State T → Prop
  /-- the lock is taken and `add(v)` called -/
  | add (s : State T) (t : Nat) (v : T) (h : (s.pc t).ready = true) (hl : s.holder = none) :
      Step s ((({ s with holder := some t } : State T).learn t s.lock).goto t (.scan v 0))
  | run (s s' : State T) (t : Nat) (h : Run s t s') : Step s s'
  /-- `get(id)` -/
  | get (s : State T) (t : Nat) (h : Handle T) (hr : (s.pc t).ready = true) (hu : Usable s t h) :
      Step s (s.goto t (.getLoad h))
  /-- the reference from `get` is used again, while there is the handle -/
  | look (s : State T) (t : Nat) (h : Handle T) (x : T) (hp : s.pc t = .got h x)
      (hu : Usable s t h) :
      Step s ((s.readVal t h.id).goto t
        (match (s.slots h.id).val with
         | some x => .got h x
         | none => .undefined))
  /-- `incr(id)`: the handle is cloned (`intern.rs` L185-188, L113-116) -/
  | clone (s : State T) (t : Nat) (h : Handle T) (hr : (s.pc t).ready = true) (hu : Usable s t h) :
      Step s { s.rmw t h.id .acqRel (· + 1) with
        handles := ⟨s.clock, t, h.id, h.val⟩ :: s.handles, clock := s.clock + 1 }
  /-- `decr(id)`: the handle is dropped (`intern.rs` L190-193, L119-125) -/
  | drop (s : State T) (t : Nat) (h : Handle T) (hr : (s.pc t).ready = true)
      (hu : h ∈ s.handles ∧ h.owner = t) (hn : NotLent s h) :
      Step s { s.rmw t h.id .acqRel (· - 1) with handles := s.handles.erase h }
  /-- an attempt of `fetch_update` in `decr(id)` that does not succeed: the first load, or an exchange that
  fails and returns what it has read (`intern.rs` L119-125, both `Acquire`); or `refcount(id)`
  (`intern.rs` L195-199), for any ordering -/
  | peek (s : State T) (t : Nat) (h : Handle T) (o : Ord) (k : Nat) (m : Msg) (hr : (s.pc t).ready = true)
      (hu : Usable s t h) (hm : Readable s t h.id k m) :
      Step s (s.setView t (s.afterRead t h.id o k m))
  /-- the handle is moved to another thread -/
  | give (s : State T) (t t' : Nat) (h : Handle T) (hr : (s.pc t).ready = true)
      (hu : h ∈ s.handles ∧ h.owner = t) (hn : NotLent s h) :
      Step s { s.learn t' (s.view t) with handles := { h with owner := t' } :: s.handles.erase h }
  /-- the handle is lent to another thread -/
  | lend (s : State T) (t t' : Nat) (h : Handle T) (hu : h ∈ s.handles ∧ h.owner = t) :
      Step s { s.learn t' (s.view t) with loans := (h, t') :: s.loans }
  /-- the loan ends, and the owner knows -/
  | giveBack (s : State T) (t' : Nat) (h : Handle T) (hr : (s.pc t').ready = true)
      (hu : (h, t') ∈ s.loans) :
      Step s { s.learn h.owner (s.view t') with loans := s.loans.erase (h, t') }
  /-- any other synchronisation -/
  | sync (s : State T) (t t' : Nat) : Step s (s.learn t' (s.view t))

/-- Any number of steps. -/
inductive Steps [DecidableEq T] : State T → State T → Prop
  | refl (s : State T) : Steps s s
  | tail {a b c : State T} : Steps a b → Step b c → Steps a c

/-- A thread is about to read a value (or may do so) without knowing of a write, or to write it
without knowing of an access. -/
def Racy (s : State T) : Prop :=
  ∃ t, match s.pc t with
    | .check _ i _ => ∃ w ∈ (s.slots i).writes, ¬ (s.view t).seen w
    | .getVal h => ∃ w ∈ (s.slots h.id).writes, ¬ (s.view t).seen w
    | .got h _ => Usable s t h ∧ ∃ w ∈ (s.slots h.id).writes, ¬ (s.view t).seen w
    | .write _ i => ∃ a ∈ (s.slots i).reads ++ (s.slots i).writes, ¬ (s.view t).seen a
    | _ => False

end InternWeak

end Verif
