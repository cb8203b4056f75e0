/-!
# Model of `numeric-static-iter` with owned elements and closures that panic

`Model/StaticIter` says what a pipeline computes; this one says what becomes of the elements. An element
owns resources, named by tokens (`Tok`); a closure may drop resources, create new ones, hand them on, or
panic. What has been created and dropped is noted in the world. Unwinding drops what the frames of the
stack own: the arguments of the closure that panics (its own business, see `Effect`), values already
obtained and not yet passed on, and the consumer's local variables. A `MaybeUninit` drops nothing, so
what the slots of an iterator or a buffer hold when they go is leaked.

The order in which things are dropped is not modelled, and a destructor does not panic.
-/

namespace Verif

namespace StaticDrop

/-- The name of a resource. -/
abbrev Tok := Nat

/-- A value and the resources it owns. -/
structure Item (V : Type) where
  val : V
  own : List Tok
deriving DecidableEq, Repr

/-- What the closures of a pipeline capture, and the resources created and dropped so far. -/
structure World (W : Type) where
  env : W
  created : List Tok := []
  dropped : List Tok := []
deriving DecidableEq, Repr

/-- How a call ends: with a value, with a panic, or (`ub`) it is undefined. -/
inductive Out (α : Type) where
  | ret (a : α)
  | panic
  | ub
deriving DecidableEq, Repr

/-- What a call of a closure does: it returns a value or panics (`none`), having created and dropped
resources. -/
structure Effect (W V : Type) where
  out : Option (Item V)
  created : List Tok := []
  dropped : List Tok := []
  env : W

section

variable {W V V' : Type}

/-- The world after a call. -/
def World.after (w : World W) (e : Effect W V) : World W :=
  ⟨e.env, w.created ++ e.created, w.dropped ++ e.dropped⟩

/-- The world after dropping something. -/
def World.drop (w : World W) (ts : List Tok) : World W := { w with dropped := w.dropped ++ ts }

/-- A `StaticIter` (`lib.rs` L119-126): its state, `idx`, and the resources in its initialised
slots. -/
structure SIter (W V : Type) where
  St : Type
  st : St
  idx : St → Nat → World W → Out (Item V) × St × World W
  held : St → List Tok

/-- What slots hold. -/
def slots : List (Option (Item V)) → List Tok
  | [] => []
  | none :: s => slots s
  | some a :: s => a.own ++ slots s

/-- `array::IntoIter::new` and its `idx` (`array.rs` L24-45). The array is forgotten after it has been
copied into the slots. -/
def intoIter (l : List (Item V)) : SIter W V where
  St := List (Option (Item V))
  st := l.map some
  idx s i w :=
    match s[i]? with
    | some (some a) => (.ret a, s.set i none, w)
    | _ => (.ub, s, w)
  held := slots

/-- `array::RefIter` (`array.rs` L47-65): references own nothing. -/
def refIter (l : List V) : SIter W V where
  St := Unit
  st := ()
  idx _ i w :=
    match l[i]? with
    | some a => (.ret ⟨a, []⟩, (), w)
    | none => (.ub, (), w)
  held _ := []

/-- `adapter::Map` (`adapter.rs` L3-19). -/
def map (it : SIter W V) (f : Item V → W → Effect W V') : SIter W V' where
  St := it.St
  st := it.st
  idx s i w :=
    match it.idx s i w with
    | (.ret a, s, w) =>
      match (f a w.env).out with
      | some b => (.ret b, s, w.after (f a w.env))
      | none => (.panic, s, w.after (f a w.env))
    | (.panic, s, w) => (.panic, s, w)
    | (.ub, s, w) => (.ub, s, w)
  held := it.held

/-- `adapter::Zip` (`adapter.rs` L21-37) and `zip_all` of a pair (`zip_all.rs` L39-68): if the right one
panics, the element of the left one is dropped. -/
def zip (l : SIter W V) (r : SIter W V') : SIter W (V × V') where
  St := l.St × r.St
  st := (l.st, r.st)
  idx s i w :=
    match l.idx s.1 i w with
    | (.ret a, s₁, w) =>
      match r.idx s.2 i w with
      | (.ret b, s₂, w) => (.ret ⟨(a.val, b.val), a.own ++ b.own⟩, (s₁, s₂), w)
      | (.panic, s₂, w) => (.panic, (s₁, s₂), w.drop a.own)
      | (.ub, s₂, w) => (.ub, (s₁, s₂), w)
    | (.panic, s₁, w) => (.panic, (s₁, s.2), w)
    | (.ub, s₁, w) => (.ub, (s₁, s.2), w)
  held s := l.held s.1 ++ r.held s.2

/-- `adapter::Enumerate` (`adapter.rs` L39-53). -/
def enumerate (it : SIter W V) : SIter W (Nat × V) where
  St := it.St
  st := it.st
  idx s i w :=
    match it.idx s i w with
    | (.ret a, s, w) => (.ret ⟨(i, a.val), a.own⟩, s, w)
    | (.panic, s, w) => (.panic, s, w)
    | (.ub, s, w) => (.ub, s, w)
  held := it.held

/-- `ArrayZipIter` (`zip_all.rs` L24-37), as the array of iterators is walked in `idx`; the `map` of
arrays drops the elements it has already got if one of the iterators panics. -/
def zipNil : SIter W (List V) where
  St := Unit
  st := ()
  idx _ _ w := (.ret ⟨[], []⟩, (), w)
  held _ := []
def zipCons (l : SIter W V) (r : SIter W (List V)) : SIter W (List V) where
  St := l.St × r.St
  st := (l.st, r.st)
  idx s i w :=
    match l.idx s.1 i w with
    | (.ret a, s₁, w) =>
      match r.idx s.2 i w with
      | (.ret b, s₂, w) => (.ret ⟨a.val :: b.val, a.own ++ b.own⟩, (s₁, s₂), w)
      | (.panic, s₂, w) => (.panic, (s₁, s₂), w.drop a.own)
      | (.ub, s₂, w) => (.ub, (s₁, s₂), w)
    | (.panic, s₁, w) => (.panic, (s₁, s.2), w)
    | (.ub, s₁, w) => (.ub, (s₁, s.2), w)
  held s := l.held s.1 ++ r.held s.2

/-- What a consumer leaves: how it ends, the resources that neither it nor anybody else will ever drop,
and the world. -/
structure End (W α : Type) where
  out : Out α
  leaked : List Tok
  world : World W
deriving DecidableEq, Repr

/-- The resources of several items. -/
def owned (l : List (Item V)) : List Tok := (l.map Item.own).flatten

/-- The loop of `collect` into an array (`lib.rs` L51-53), from the index `i`, with the elements got so
far: `array::from_fn` drops those if its argument panics. -/
def collectArrayFrom (it : SIter W V) :
    List Nat → List (Item V) → it.St → World W → End W (List (Item V))
  | [], acc, s, w => ⟨.ret acc, it.held s, w⟩
  | i :: is, acc, s, w =>
    match it.idx s i w with
    | (.ret a, s, w) => collectArrayFrom it is (acc ++ [a]) s w
    | (.panic, s, w) => ⟨.panic, it.held s, w.drop (owned acc)⟩
    | (.ub, s, w) => ⟨.ub, it.held s, w⟩
def collectArray (N : Nat) (it : SIter W V) (w : World W) : End W (List (Item V)) :=
  collectArrayFrom it (List.range N) [] it.st w

/-- The loop of `collect` into `Option` or `Result` (`lib.rs` L24-30, with `write` of L62-72 and
L93-103): `cls` says whether a value is stored (`Some`, `Ok`) or decides the result (`None`, `Err`). The
buffer consists of `MaybeUninit`s: what it holds is leaked if the loop is left early. -/
def collectTryFrom {X O : Type} (cls : V → X ⊕ O) (it : SIter W V) :
    List Nat → List (Item X) → it.St → World W → End W (List (Item X) ⊕ Item O)
  | [], acc, s, w => ⟨.ret (.inl acc), it.held s, w⟩
  | i :: is, acc, s, w =>
    match it.idx s i w with
    | (.ret a, s, w) =>
      match cls a.val with
      | .inl x => collectTryFrom cls it is (acc ++ [⟨x, a.own⟩]) s w
      | .inr o => ⟨.ret (.inr ⟨o, a.own⟩), owned acc ++ it.held s, w⟩
    | (.panic, s, w) => ⟨.panic, owned acc ++ it.held s, w⟩
    | (.ub, s, w) => ⟨.ub, owned acc ++ it.held s, w⟩
def collectTry {X O : Type} (cls : V → X ⊕ O) (N : Nat) (it : SIter W V) (w : World W) :
    End W (List (Item X) ⊕ Item O) :=
  collectTryFrom cls it (List.range N) [] it.st w

/-- The loop of `try_fold` (`lib.rs` L160-170), which `fold`, `any`, `all`, `sum` and `product` are made
of (L150-156, L176-197): the closure takes the accumulator and the element, and returns a new
accumulator (`inl`) or an error. If the iterator panics the accumulator is dropped. -/
def tryFoldFrom {G E : Type} (it : SIter W V) (f : Item G → Item V → W → Effect W (G ⊕ E)) :
    List Nat → Item G → it.St → World W → End W (Item G ⊕ Item E)
  | [], acc, s, w => ⟨.ret (.inl acc), it.held s, w⟩
  | i :: is, acc, s, w =>
    match it.idx s i w with
    | (.ret a, s, w) =>
      match (f acc a w.env).out with
      | some ⟨.inl g, own⟩ => tryFoldFrom it f is ⟨g, own⟩ s (w.after (f acc a w.env))
      | some ⟨.inr e, own⟩ => ⟨.ret (.inr ⟨e, own⟩), it.held s, w.after (f acc a w.env)⟩
      | none => ⟨.panic, it.held s, w.after (f acc a w.env)⟩
    | (.panic, s, w) => ⟨.panic, it.held s, w.drop acc.own⟩
    | (.ub, s, w) => ⟨.ub, it.held s, w⟩
def tryFold {G E : Type} (N : Nat) (it : SIter W V) (start : Item G)
    (f : Item G → Item V → W → Effect W (G ⊕ E)) (w : World W) : End W (Item G ⊕ Item E) :=
  tryFoldFrom it f (List.range N) start it.st w

end

end StaticDrop

end Verif
