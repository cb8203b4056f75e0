import Verif.Model.Base

/-!
# What threads may do with the elements of a shared list (`crates/utils/src/linked.rs`)

`Verif.Model.LinkedWeak` covers the pointers and the initialisation of the nodes. Here are the elements
themselves: `get`, `index` and the iterator hand out `&T`, and L151-154 say that a list may be sent to and
shared with other threads whatever `T` is. The calls on the list are single events: `LinkedWeak` shows
what they synchronise (every exchange is `AcqRel`, every load that finds a node has been or is `Acquire`).

The types are the few below, with the rules of the language and of `std` for `Send` and `Sync`. Simplified:
different elements share no memory; `cell` is accessed as a whole.
-/

namespace Verif

namespace LinkedElems

/-- Types of elements: a plain value, `Cell<_>`, an atomic integer, `Rc<_>`, `Arc<_>`, a pair,
`UnsyncLinked<_>`. -/
inductive Ty where
  | plain
  | cell (t : Ty)
  | atomic
  | rc (t : Ty)
  | arc (t : Ty)
  | pair (a b : Ty)
  | list (t : Ty)
deriving DecidableEq, Repr

/-- How memory is accessed. -/
inductive Acc where
  | read
  | write
  | atomic
deriving DecidableEq, Repr

/-- The memory that safe code can access through a `&T`, and how: `Cell::get` and `Cell::set`; atomic
operations; the counts changed by `Rc::clone` and `Arc::clone`; the elements of a list (`get`,
`linked.rs` L111-120). The list of numbers is the path to the memory inside the value. -/
inductive Shared : Ty → List Nat → Acc → Prop
  | plain : Shared .plain [] .read
  | cellGet (t : Ty) : Shared (.cell t) [] .read
  | cellSet (t : Ty) : Shared (.cell t) [] .write
  | atomic : Shared .atomic [] .atomic
  | rcClone (t : Ty) : Shared (.rc t) [] .write
  | rcDeref {t : Ty} {p : List Nat} {a : Acc} : Shared t p a → Shared (.rc t) (0 :: p) a
  | arcClone (t : Ty) : Shared (.arc t) [] .atomic
  | arcDeref {t : Ty} {p : List Nat} {a : Acc} : Shared t p a → Shared (.arc t) (0 :: p) a
  | fst {t u : Ty} {p : List Nat} {a : Acc} : Shared t p a → Shared (.pair t u) (0 :: p) a
  | snd {t u : Ty} {p : List Nat} {a : Acc} : Shared u p a → Shared (.pair t u) (1 :: p) a
  | elem {t : Ty} {p : List Nat} {a : Acc} (i : Nat) : Shared t p a → Shared (.list t) (i :: p) a

/-- `Send` and `Sync` for a type as the compiler sees them: the rules of `std`, and
`unsafe impl<T> Send for UnsyncLinked<T> {}`, `unsafe impl<T> Sync for UnsyncLinked<T> {}`
(`linked.rs` L150-153). -/
def sendSync : Ty → Bool × Bool
  | .plain => (true, true)
  | .cell t => ((sendSync t).1, false)
  | .atomic => (true, true)
  | .rc _ => (false, false)
  | .arc t => ((sendSync t).1 && (sendSync t).2, (sendSync t).1 && (sendSync t).2)
  | .pair a b => ((sendSync a).1 && (sendSync b).1, (sendSync a).2 && (sendSync b).2)
  | .list _ => (true, true)

/-- What the threads do, in the order in which it takes effect. -/
inductive Ev where
  /-- `push` by `t` (`linked.rs` L92-109) puts an element at index `i` -/
  | push (t i : Nat)
  /-- `t` gets a reference to the element at index `i` (`get`, `index`, `iter().next()`) -/
  | see (t i : Nat)
  /-- `t` accesses memory of the element at index `i` through a reference it has -/
  | acc (t i : Nat) (p : List Nat) (a : Acc)
  /-- `u` learns what `t` has done (spawning or joining a thread, a lock, a channel) -/
  | sync (t u : Nat)
deriving DecidableEq, Repr

/-- The threads whose earlier events happen before the event. -/
def Ev.after : Ev → List Nat
  | .push t _ | .see t _ | .acc t _ _ _ => [t]
  | .sync t u => [t, u]

/-- The threads whose later events happen after the event. -/
def Ev.before : Ev → List Nat
  | .push t _ | .see t _ | .acc t _ _ _ => [t]
  | .sync _ u => [u]

/-- A push is released to the calls that walk over its node: those that return the node or a later one,
and later pushes (`linked.rs` L21-40, L64-80, L96, L112-117, L167). -/
def Ev.released : Ev → Ev → Prop
  | .push _ i, .push _ j | .push _ i, .see _ j => i ≤ j
  | _, _ => False

/-- Happens before, between positions of an execution. -/
inductive HB (tr : List Ev) : Nat → Nat → Prop
  | thread {p q : Nat} {a b : Ev} {t : Nat} (h : p < q) (ha : tr[p]? = some a) (hb : tr[q]? = some b)
      (h1 : t ∈ a.before) (h2 : t ∈ b.after) : HB tr p q
  | released {p q : Nat} {a b : Ev} (h : p < q) (ha : tr[p]? = some a) (hb : tr[q]? = some b)
      (hr : a.released b) : HB tr p q
  | trans {p q r : Nat} : HB tr p q → HB tr q r → HB tr p r

/-- Two accesses conflict: one of them changes the memory, and they are not both atomic. -/
def Acc.conflict : Acc → Acc → Bool
  | .read, .read | .atomic, .atomic => false
  | _, _ => true

/-- An execution has a data race (which is undefined behaviour): conflicting accesses of two threads to the
same memory, neither happening before the other. -/
def Race (tr : List Ev) : Prop :=
  ∃ p q t u i l a b, p < q ∧ tr[p]? = some (.acc t i l a) ∧ tr[q]? = some (.acc u i l b) ∧
    t ≠ u ∧ a.conflict b = true ∧ ¬ HB tr p q

/-- The indices used so far. -/
def pushes (tr : List Ev) : Nat :=
  (tr.filter fun e => match e with | .push .. => true | _ => false).length

/-- What safe code can do next, with a list of elements of type `T`, after `tr`: push at the end, get a
reference to an element that is there, use a reference the thread has got. -/
def Next (T : Ty) (tr : List Ev) : Ev → Prop
  | .push _ i => i = pushes tr
  | .see _ i => i < pushes tr
  | .acc t i p a => .see t i ∈ tr ∧ Shared T p a
  | .sync _ _ => True

/-- The executions of safe code in which all threads share one `UnsyncLinked<T>`. -/
inductive Exec (T : Ty) : List Ev → Prop
  | nil : Exec T []
  | snoc {tr : List Ev} {e : Ev} : Exec T tr → Next T tr e → Exec T (tr ++ [e])

end LinkedElems

end Verif
