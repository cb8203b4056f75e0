import Verif.Model.LinkedElems

/-!
# Moving a list to another thread (`crates/utils/src/linked.rs`)

`linked.rs` L150-151 says that a list may be sent to another thread whatever its elements are. The thread
that made an element may have kept something that shares memory with it: a clone of the same `Rc` or
`Arc`. Here is what the threads can then do: the one that has the list uses or drops the elements
(`linked.rs` L111-148), the one that made an element uses what it kept. Moving a list synchronises
(spawning or joining a thread, a channel). Types as in `Model/LinkedElems`.
-/

namespace Verif

namespace LinkedSend

open LinkedElems

/-- The memory that two values of the type can have in common although each is owned by somebody, and
how safe code that owns one of them can access it: the counts of `Rc` and `Arc` (`clone`, `drop`) and what
lies behind them. Everything else is copied when a value is cloned. -/
inductive Common : Ty → List Nat → Acc → Prop
  | cell {t : Ty} {p : List Nat} {a : Acc} : Common t p a → Common (.cell t) (0 :: p) a
  | rcCount (t : Ty) : Common (.rc t) [] .write
  | rcDeref {t : Ty} {p : List Nat} {a : Acc} : Shared t p a → Common (.rc t) (0 :: p) a
  | arcCount (t : Ty) : Common (.arc t) [] .atomic
  | arcDeref {t : Ty} {p : List Nat} {a : Acc} : Shared t p a → Common (.arc t) (0 :: p) a
  | fst {t u : Ty} {p : List Nat} {a : Acc} : Common t p a → Common (.pair t u) (0 :: p) a
  | snd {t u : Ty} {p : List Nat} {a : Acc} : Common u p a → Common (.pair t u) (1 :: p) a
  | elem {t : Ty} {p : List Nat} {a : Acc} (i : Nat) : Common t p a → Common (.list t) (i :: p) a

/-- What the threads do, in the order in which it takes effect. -/
inductive Ev where
  /-- `t` makes element `i`, keeps a clone, and pushes it (`linked.rs` L92-109) -/
  | push (t i : Nat)
  /-- the list is moved from `t` to `u` -/
  | move (t u : Nat)
  /-- `t`, who has the list, accesses memory of element `i`: what only the element has (`none`), or what
  the clone has too (using or dropping the element, `linked.rs` L111-148) -/
  | elem (t i : Nat) (l : Option (List Nat)) (a : Acc)
  /-- `t` accesses memory of element `i` through the clone it has kept -/
  | kept (t i : Nat) (l : List Nat) (a : Acc)
deriving DecidableEq, Repr

/-- The threads whose earlier events happen before the event. -/
def Ev.after : Ev → Nat
  | .push t _ | .move t _ | .elem t _ _ _ | .kept t _ _ _ => t

/-- The threads whose later events happen after the event. -/
def Ev.before : Ev → List Nat
  | .push t _ | .elem t _ _ _ | .kept t _ _ _ => [t]
  | .move t u => [t, u]

/-- Happens before, between positions of an execution. -/
inductive HB (tr : List Ev) : Nat → Nat → Prop
  | thread {p q : Nat} {a b : Ev} (h : p < q) (ha : tr[p]? = some a) (hb : tr[q]? = some b)
      (h1 : b.after ∈ a.before) : HB tr p q
  | trans {p q r : Nat} : HB tr p q → HB tr q r → HB tr p r

/-- The memory an event accesses, and how. -/
def Ev.access : Ev → Option (Nat × Option (List Nat) × Acc)
  | .elem _ i l a => some (i, l, a)
  | .kept _ i l a => some (i, some l, a)
  | _ => none

/-- A data race: conflicting accesses to the same memory, neither happening before the other. -/
def Race (tr : List Ev) : Prop :=
  ∃ p q e f i l a b, p < q ∧ tr[p]? = some e ∧ tr[q]? = some f ∧ e.access = some (i, l, a) ∧
    f.access = some (i, l, b) ∧ a.conflict b = true ∧ ¬ HB tr p q

/-- Who has the list: at first thread 0. -/
def owner : List Ev → Nat
  | tr => tr.foldl (fun o e => match e with | .move _ u => u | _ => o) 0

/-- What safe code can do next with a list of elements of type `T` that is moved between threads. -/
def Next (T : Ty) (tr : List Ev) : Ev → Prop
  | .push t i => t = owner tr ∧ ∀ u, .push u i ∉ tr
  | .move t _ => t = owner tr
  | .elem t i l a => t = owner tr ∧ (∃ u, .push u i ∈ tr) ∧ ∀ p, l = some p → Common T p a
  | .kept t i p a => .push t i ∈ tr ∧ Common T p a

/-- The executions of safe code in which an `UnsyncLinked<T>` is moved between threads. -/
inductive Exec (T : Ty) : List Ev → Prop
  | nil : Exec T []
  | snoc {tr : List Ev} {e : Ev} : Exec T tr → Next T tr e → Exec T (tr ++ [e])

end LinkedSend

end Verif
