import Mathlib.Logic.Function.Basic
import Verif.Model.Intern

/-!
# Model of concurrent `Interner::add` (`crates/utils/src/intern.rs`)

One step is one access of one thread to the shared store, under sequential consistency. Slots are
numbered through (chunk number times 32 plus slot number, as in an id). Reading and writing the
value of a slot, which the code does through `UnsafeCell`, counts as one step each. Pushing a chunk
is one step here (its own steps are in `Model/Linked.lean`); the length it returns may be stale
(see C62), so it is a parameter of the step. If the debug assertion of `incr_inner` fails, the
model leaves the count as it was (the code has already wrapped it to 0).
-/

namespace Verif

namespace Intern

variable {T : Type} [DecidableEq T]

/-- Where a thread is inside `add(v)`. -/
inductive APC (T : Type) where
  /-- not in a call -/
  | idle
  /-- `find`: before stepping the iterators to slot `i` (`intern.rs` L97-98) -/
  | scan (v : T) (i : Nat)
  /-- `find`: before `i.refs.load` (`intern.rs` L101) -/
  | load (v : T) (i : Nat)
  /-- `find`: before `i.val_opt()` (`intern.rs` L102) -/
  | check (v : T) (i count : Nat)
  /-- `Find::Exists`: before `incr_inner` (`intern.rs` L143) -/
  | incrExists (v : T) (i : Nat)
  /-- `Find::Dead`: before `incr_inner` (`intern.rs` L149) -/
  | incrDead (v : T) (i : Nat)
  /-- `Find::Dead`: before `set_val` (`intern.rs` L156) -/
  | setDead (v : T) (i : Nat)
  /-- `Find::None`: before `push` (`intern.rs` L160-162) -/
  | pushChunk (v : T)
  /-- `Find::None`: before `incr_inner` (`intern.rs` L163) -/
  | incrNew (v : T) (len : Nat)
  /-- `Find::None`: before `set_val` (`intern.rs` L165) -/
  | setNew (v : T) (len : Nat)
  /-- `add` has returned `id` -/
  | done (v : T) (id : Nat)
  /-- `add` has panicked -/
  | panicked
deriving DecidableEq, Repr

/-- `incr_inner` on slot `i`, then go to `next`. -/
def incrAt (m : Mode) (st : Store T) (i : Nat) (next : APC T) : Store T × APC T :=
  match incr m st i with
  | .ok st' => (st', next)
  | _ => (st, .panicked)

/-- `set_val(v)` on slot `i` (`intern.rs` L43-48), then go to `next`. -/
def setAt (st : Store T) (i : Nat) (v : T) (next : APC T) : Store T × APC T :=
  match slot st (offsetToIdx i) with
  | .ok s => (setSlot st (offsetToIdx i) { s with val := some v }, next)
  | _ => (st, .panicked)

/-- One step of a thread inside `add`; `ret` is the length returned by `push`. -/
def addStep (m : Mode) (ret : Nat) (st : Store T) : APC T → Option (Store T × APC T)
  | .scan v i =>
    match slot st (offsetToIdx i) with
    | .ok _ => some (st, .load v i)
    | _ => some (st, .pushChunk v)
  | .load v i =>
    match slot st (offsetToIdx i) with
    | .ok s => some (st, .check v i s.refs)
    | _ => some (st, .panicked)
  | .check v i count =>
    match slot st (offsetToIdx i) with
    | .ok s =>
      if s.val = some v then some (st, .incrExists v i)
      else if count = 0 then some (st, .incrDead v i)
      else some (st, .scan v (i + 1))
    | _ => some (st, .panicked)
  | .incrExists v i => some (incrAt m st i (.done v i))
  | .incrDead v i => some (incrAt m st i (.setDead v i))
  | .setDead v i => some (setAt st i v (.done v i))
  | .pushChunk v => some (st ++ [newChunk], .incrNew v ret)
  | .incrNew v len => some (incrAt m st ((len - 1) * 32) (.setNew v len))
  | .setNew v len => some (setAt st ((len - 1) * 32) v (.done v ((len - 1) * 32)))
  | .idle | .done .. | .panicked => none

/-- `decr` on slot `i` (`intern.rs` L190-193), then go to `next`; `fetch_update` counts as one step. -/
def decrAt (st : Store T) (i : Nat) (next : APC T) : Store T × APC T :=
  match decr st i with
  | .ok st' => (st', next)
  | _ => (st, .panicked)

/-! ## Clients

The log is not part of the code: it records the finished operations, so that statements can refer
to them. -/

/-- A finished operation. -/
inductive Ev (T : Type) where
  | add (v : T) (id : Nat)
  | incr (id : Nat)
  | decr (id : Nat)
deriving DecidableEq, Repr

/-- What a step that ends in this place adds to the log. -/
def APC.ev : APC T → List (Ev T)
  | .done v id => [.add v id]
  | _ => []

/-- The number of logged operations that gained a reference to `i`. -/
def gained (i : Nat) (l : List (Ev T)) : Nat :=
  l.countP fun e => match e with
    | .add _ id => id == i
    | .incr id => id == i
    | .decr _ => false

/-- The number of logged operations that gave up a reference to `i`. -/
def lost (i : Nat) (l : List (Ev T)) : Nat :=
  l.countP fun e => match e with
    | .decr id => id == i
    | _ => false

/-- The store, all threads, and the log. -/
structure Sys (T : Type) where
  store : Store T
  pc : Nat → APC T
  log : List (Ev T)

/-- The thread may start a call. -/
def APC.ready : APC T → Bool
  | .idle | .done .. => true
  | _ => false

/-- The slot a thread is about to use: it has seen it free, has found its value there, is counting its
reference to it or writing it (`intern.rs` L101-105, L142-165). Not part of the code: for statements about which
threads meet. -/
def APC.target : APC T → Option Nat
  | .check _ i count => if count = 0 then some i else none
  | .incrExists _ i | .incrDead _ i | .setDead _ i => some i
  | .incrNew _ len | .setNew _ len => some ((len - 1) * 32)
  | _ => none

/-- The thread has found its value in a slot and is about to count its reference. -/
def APC.found : APC T → Bool
  | .incrExists .. => true
  | _ => false

/-- Any thread `t` starts adding a value allowed by `V t`, takes its next step inside `add`, or
clones or drops an id allowed by `I t` of which a reference gained in this run is still held.
`R` relates the number of chunks before a `push` to the length it may return. -/
inductive SysStep (m : Mode) (V : Nat → T → Prop) (I : Nat → Nat → Prop) (R : Nat → Nat → Prop) :
    Sys T → Sys T → Prop
  | start (s : Sys T) (t : Nat) (v : T) (hv : V t v) (h : (s.pc t).ready = true) :
      SysStep m V I R s ⟨s.store, Function.update s.pc t (.scan v 0), s.log⟩
  | run (s : Sys T) (t ret : Nat) (st' : Store T) (pc' : APC T) (hr : R s.store.length ret)
      (h : addStep m ret s.store (s.pc t) = some (st', pc')) :
      SysStep m V I R s ⟨st', Function.update s.pc t pc', s.log ++ pc'.ev⟩
  | clone (s : Sys T) (t i : Nat) (hi : I t i) (h : (s.pc t).ready = true)
      (held : lost i s.log < gained i s.log) :
      SysStep m V I R s ⟨(incrAt m s.store i (s.pc t)).1,
        Function.update s.pc t (incrAt m s.store i (s.pc t)).2, s.log ++ [.incr i]⟩
  | drop (s : Sys T) (t i : Nat) (hi : I t i) (h : (s.pc t).ready = true)
      (held : lost i s.log < gained i s.log) :
      SysStep m V I R s ⟨(decrAt s.store i (s.pc t)).1,
        Function.update s.pc t (decrAt s.store i (s.pc t)).2, s.log ++ [.decr i]⟩

/-- Any number of steps, each from a state satisfying `B`. -/
inductive SysSteps (m : Mode) (V : Nat → T → Prop) (I : Nat → Nat → Prop) (R : Nat → Nat → Prop)
    (B : Sys T → Prop) : Sys T → Sys T → Prop
  | refl (s : Sys T) : SysSteps m V I R B s s
  | tail {a b c : Sys T} : SysSteps m V I R B a b → B b → SysStep m V I R b c →
      SysSteps m V I R B a c

/-- What `push` may return under contention (C62): at least 1 and at most the true length. -/
def maybeStale (len ret : Nat) : Prop := 1 ≤ ret ∧ ret ≤ len + 1

/-- What `push` returns without contention. -/
def exactLen (len ret : Nat) : Prop := ret = len + 1

/-- A single thread running alone (then `push` returns the true length). -/
inductive Solo (m : Mode) : Store T × APC T → Store T × APC T → Prop
  | refl (x : Store T × APC T) : Solo m x x
  | tail {x y z : Store T × APC T} : Solo m x y →
      addStep m (y.1.length + 1) y.1 y.2 = some z → Solo m x z

end Intern

end Verif
