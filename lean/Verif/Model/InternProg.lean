import Verif.Model.InternWeak

/-!
# Programs that share interned values (`crates/utils/src/intern.rs`)

Threads run programs that add values to one interner, read, clone and drop what they have added, and pass it on
or lend it to other threads. The calls of `add` take turns, as in `Verif.Model.InternWeak`, whose steps these are.
A program has names for its handles. It may depend on the values it reads, but not on the ids: the callers in
`big_int.rs` do not either, except to use them.

`Pure` (below) runs the same programs without an interner: there a name stands for the value itself.
-/

namespace Verif

namespace InternProg

open InternWeak

variable {T R : Type}

/-- What a thread does. -/
inductive Prog (T R : Type) where
  /-- it is done -/
  | ret (r : R)
  /-- `let x = add(v)` (`intern.rs` L132-168) -/
  | add (v : T) (x : Nat) (p : Prog T R)
  /-- `get(x)` (`intern.rs` L181-183), and go on with the value -/
  | get (x : Nat) (k : T → Prog T R)
  /-- `let y = x.clone()`, which calls `incr` (`intern.rs` L185-188) -/
  | clone (x y : Nat) (p : Prog T R)
  /-- `drop(x)`, which calls `decr` (`intern.rs` L190-193) -/
  | drop (x : Nat) (p : Prog T R)
  /-- move `x` to thread `t` -/
  | send (x t : Nat) (p : Prog T R)
  /-- lend `x` to thread `t` -/
  | lend (x t : Nat) (p : Prog T R)
  /-- call `y` what another thread moves or lends to this one -/
  | recv (y : Nat) (p : Prog T R)
  /-- give a handle back that was borrowed -/
  | giveBack (y : Nat) (p : Prog T R)

/-- A thread: what is left to do, and what the names stand for. -/
structure Thread (V T R : Type) where
  prog : Prog T R
  env : Nat → Option V

namespace Thread

variable {V : Type}

/-- `y` is `v` from now on. -/
def bind (a : Thread V T R) (y : Nat) (v : V) (p : Prog T R) : Thread V T R :=
  ⟨p, Function.update a.env y (some v)⟩

/-- There is no `x` any more. -/
def unbind (a : Thread V T R) (x : Nat) (p : Prog T R) : Thread V T R :=
  ⟨p, Function.update a.env x none⟩

end Thread

/-- The interner and the threads. -/
structure Sys (T R : Type) where
  base : State T
  th : Nat → Thread (Handle T) T R

/-- Thread `t` is now `a`. -/
def Sys.put (s : Sys T R) (b : State T) (t : Nat) (a : Thread (Handle T) T R) : Sys T R :=
  ⟨b, Function.update s.th t a⟩

/-- Thread `t` has taken a step inside `add` or `get`, which has led the interner to `b`: if the call is over,
the program continues. -/
def Sys.after (s : Sys T R) (t : Nat) (b : State T) : Sys T R :=
  match (s.th t).prog, b.pc t, b.handles with
  | .add _ x p, .idle, h :: _ => s.put b t ((s.th t).bind x h p)
  | .get _ k, .got _ v, _ => s.put b t { s.th t with prog := k v }
  | _, _, _ => { s with base := b }

/-- One step of some thread (two, when they pass something on). -/
inductive Move [DecidableEq T] : Sys T R → Sys T R → Prop
  | add (s : Sys T R) (b : State T) (t x : Nat) (v : T) (p : Prog T R) (hp : (s.th t).prog = .add v x p)
      (hr : (s.base.pc t).ready = true) (hl : s.base.holder = none)
      (hb : b = ((({ s.base with holder := some t } : State T).learn t s.base.lock).goto t (.scan v 0))) :
      Move s { s with base := b }
  | get (s : Sys T R) (t x : Nat) (h : Handle T) (k : T → Prog T R) (hp : (s.th t).prog = .get x k)
      (hr : (s.base.pc t).ready = true) (he : (s.th t).env x = some h) :
      Move s { s with base := s.base.goto t (.getLoad h) }
  /-- the next step inside `add` or `get` -/
  | run (s : Sys T R) (b : State T) (t : Nat) (hr : Run s.base t b) : Move s (s.after t b)
  | clone (s : Sys T R) (b : State T) (t x y : Nat) (h : Handle T) (p : Prog T R)
      (hp : (s.th t).prog = .clone x y p) (hr : (s.base.pc t).ready = true) (he : (s.th t).env x = some h)
      (hb : b = { s.base.rmw t h.id .acqRel (· + 1) with
        handles := ⟨s.base.clock, t, h.id, h.val⟩ :: s.base.handles, clock := s.base.clock + 1 }) :
      Move s (s.put b t ((s.th t).bind y ⟨s.base.clock, t, h.id, h.val⟩ p))
  /-- an attempt to lower the count that fails -/
  | peek (s : Sys T R) (t x k : Nat) (h : Handle T) (p : Prog T R) (m : Msg) (hp : (s.th t).prog = .drop x p)
      (hr : (s.base.pc t).ready = true) (he : (s.th t).env x = some h) (hm : Readable s.base t h.id k m) :
      Move s { s with base := s.base.setView t (s.base.afterRead t h.id .acquire k m) }
  /-- only the owner drops, and when nobody borrows -/
  | drop (s : Sys T R) (b : State T) (t x : Nat) (h : Handle T) (p : Prog T R) (hp : (s.th t).prog = .drop x p)
      (hr : (s.base.pc t).ready = true) (he : (s.th t).env x = some h) (ho : h.owner = t)
      (hn : NotLent s.base h)
      (hb : b = { s.base.rmw t h.id .acqRel (· - 1) with handles := s.base.handles.erase h }) :
      Move s (s.put b t ((s.th t).unbind x p))
  | send (s : Sys T R) (b : State T) (t t' x y : Nat) (h : Handle T) (p p' : Prog T R)
      (hp : (s.th t).prog = .send x t' p) (hp' : (s.th t').prog = .recv y p') (hr : (s.base.pc t).ready = true)
      (he : (s.th t).env x = some h) (ho : h.owner = t) (hn : NotLent s.base h)
      (hb : b = { s.base.learn t' (s.base.view t) with
        handles := { h with owner := t' } :: s.base.handles.erase h }) :
      Move s ((s.put b t ((s.th t).unbind x p)).put b t' ((s.th t').bind y { h with owner := t' } p'))
  /-- a thread borrows a handle once at most; it may use it as often as it likes -/
  | lend (s : Sys T R) (b : State T) (t t' x y : Nat) (h : Handle T) (p p' : Prog T R)
      (hp : (s.th t).prog = .lend x t' p) (hp' : (s.th t').prog = .recv y p') (he : (s.th t).env x = some h)
      (ho : h.owner = t) (hn : (h, t') ∉ s.base.loans)
      (hb : b = { s.base.learn t' (s.base.view t) with loans := (h, t') :: s.base.loans }) :
      Move s ((s.put b t { s.th t with prog := p }).put b t' ((s.th t').bind y h p'))
  | giveBack (s : Sys T R) (b : State T) (t y : Nat) (h : Handle T) (p : Prog T R)
      (hp : (s.th t).prog = .giveBack y p) (hr : (s.base.pc t).ready = true) (he : (s.th t).env y = some h)
      (hl : (h, t) ∈ s.base.loans)
      (hb : b = { s.base.learn h.owner (s.base.view t) with loans := s.base.loans.erase (h, t) }) :
      Move s (s.put b t ((s.th t).unbind y p))
  /-- any other synchronisation -/
  | sync (s : Sys T R) (t t' : Nat) : Move s { s with base := s.base.learn t' (s.base.view t) }

/-- Any number of steps. -/
inductive Moves [DecidableEq T] : Sys T R → Sys T R → Prop
  | refl (s : Sys T R) : Moves s s
  | tail {a b c : Sys T R} : Moves a b → Move b c → Moves a c

/-- The start: nothing interned, no names. -/
def start (p : Nat → Prog T R) : Sys T R := ⟨init, fun t => ⟨p t, fun _ => none⟩⟩

/-- The threads, when each name stands for the value that its handle was added for. -/
def Sys.values (s : Sys T R) (t : Nat) : Thread T T R :=
  ⟨(s.th t).prog, fun x => ((s.th t).env x).map (·.val)⟩

end InternProg

namespace Pure

open InternProg

variable {T R : Type}

/-- One step of the same programs, when names stand for values. -/
inductive Move : (Nat → Thread T T R) → (Nat → Thread T T R) → Prop
  | add (a : Nat → Thread T T R) (t x : Nat) (v : T) (p : Prog T R) (hp : (a t).prog = .add v x p) :
      Move a (Function.update a t ((a t).bind x v p))
  | get (a : Nat → Thread T T R) (t x : Nat) (v : T) (k : T → Prog T R) (hp : (a t).prog = .get x k)
      (he : (a t).env x = some v) : Move a (Function.update a t { a t with prog := k v })
  | clone (a : Nat → Thread T T R) (t x y : Nat) (v : T) (p : Prog T R) (hp : (a t).prog = .clone x y p)
      (he : (a t).env x = some v) : Move a (Function.update a t ((a t).bind y v p))
  | drop (a : Nat → Thread T T R) (t x : Nat) (v : T) (p : Prog T R) (hp : (a t).prog = .drop x p)
      (he : (a t).env x = some v) : Move a (Function.update a t ((a t).unbind x p))
  | send (a : Nat → Thread T T R) (t t' x y : Nat) (v : T) (p p' : Prog T R) (hp : (a t).prog = .send x t' p)
      (hp' : (a t').prog = .recv y p') (he : (a t).env x = some v) :
      Move a (Function.update (Function.update a t ((a t).unbind x p)) t' ((a t').bind y v p'))
  | lend (a : Nat → Thread T T R) (t t' x y : Nat) (v : T) (p p' : Prog T R) (hp : (a t).prog = .lend x t' p)
      (hp' : (a t').prog = .recv y p') (he : (a t).env x = some v) :
      Move a (Function.update (Function.update a t { a t with prog := p }) t' ((a t').bind y v p'))
  | giveBack (a : Nat → Thread T T R) (t y : Nat) (v : T) (p : Prog T R) (hp : (a t).prog = .giveBack y p)
      (he : (a t).env y = some v) : Move a (Function.update a t ((a t).unbind y p))

/-- Any number of steps. -/
inductive Moves : (Nat → Thread T T R) → (Nat → Thread T T R) → Prop
  | refl (a : Nat → Thread T T R) : Moves a a
  | tail {a b c : Nat → Thread T T R} : Moves a b → Move b c → Moves a c

/-- The start: no names. -/
def start (p : Nat → Prog T R) : Nat → Thread T T R := fun t => ⟨p t, fun _ => none⟩

end Pure

end Verif
