/-!
# Model of `numeric-static-iter` (`crates/static-iter/src`)

Everything is threaded through a world `W`: it holds whatever the closures of a pipeline capture, so a
closure `FnMut(A) -> B` is a function `A → W → B × W`. Closures do not panic in the model. `none` is
undefined behaviour (reading a slot that is not initialised, or out of bounds) or an out-of-bounds
panic.

`[T; N]` is a list of length `N`, `[MaybeUninit<T>; N]` a list of options. Dropping a
`[MaybeUninit<T>; N]` drops no element; the final state of an iterator is therefore returned by the
consumers, so that elements left behind can be counted.
-/

namespace Verif

namespace StaticIter

/-- `core::ops::ControlFlow`. -/
inductive Flow (β γ : Type) where
  | cont (c : γ)
  | brk (b : β)
deriving DecidableEq, Repr

/-- `ControlFlow::map_break`. -/
def Flow.mapBreak {β β' γ : Type} (f : β → β') : Flow β γ → Flow β' γ
  | .cont c => .cont c
  | .brk b => .brk (f b)

/-- A `StaticIter` (`lib.rs` L119-126): its state and `idx`. -/
structure SIter (W α : Type) where
  St : Type
  st : St
  idx : St → Nat → W → Option (α × St × W)

section sources

variable {W α : Type}

/-- `array::IntoIter::new` and its `idx` (`array.rs` L24-45): the slot is replaced by an uninitialised
one and assumed initialised. -/
def intoIter (l : List α) : SIter W α where
  St := List (Option α)
  st := l.map some
  idx s i w :=
    match s[i]? with
    | some (some a) => some (a, s.set i none, w)
    | _ => none

/-- `array::RefIter` (`array.rs` L47-65). -/
def refIter (l : List α) : SIter W α where
  St := Unit
  st := ()
  idx _ i w := l[i]?.map fun a => (a, (), w)

/-- `StaticRangeTo` (`lib.rs` L216-235). -/
def rangeTo : SIter W Nat where
  St := Unit
  st := ()
  idx _ i w := some (i, (), w)

/-- An iterator implemented outside the crate, with its state in the world. -/
def custom (g : Nat → W → α × W) : SIter W α where
  St := Unit
  st := ()
  idx _ i w := some ((g i w).1, (), (g i w).2)

end sources

section adapters

variable {W α β : Type}

/-- `adapter::Map` (`adapter.rs` L3-19). -/
def map (it : SIter W α) (f : α → W → β × W) : SIter W β where
  St := it.St
  st := it.st
  idx s i w := (it.idx s i w).map fun r => ((f r.1 r.2.2).1, r.2.1, (f r.1 r.2.2).2)

/-- `adapter::Zip` (`adapter.rs` L21-37) and `zip_all` of a pair (`zip_all.rs` L39-68): the left one
is polled first. -/
def zip (l : SIter W α) (r : SIter W β) : SIter W (α × β) where
  St := l.St × r.St
  st := (l.st, r.st)
  idx s i w :=
    (l.idx s.1 i w).bind fun x => (r.idx s.2 i x.2.2).map fun y =>
      ((x.1, y.1), (x.2.1, y.2.1), y.2.2)

/-- `adapter::Enumerate` (`adapter.rs` L39-53). -/
def enumerate (it : SIter W α) : SIter W (Nat × α) where
  St := it.St
  st := it.st
  idx s i w := (it.idx s i w).map fun r => ((i, r.1), r.2)

/-- `ArrayZipIter` (`zip_all.rs` L24-37), as the array of iterators is walked in `idx`: an empty
array, and one more iterator in front. -/
def zipNil : SIter W (List α) where
  St := Unit
  st := ()
  idx _ _ w := some ([], (), w)
def zipCons (l : SIter W α) (r : SIter W (List α)) : SIter W (List α) where
  St := l.St × r.St
  st := (l.st, r.st)
  idx s i w :=
    (l.idx s.1 i w).bind fun x => (r.idx s.2 i x.2.2).map fun y =>
      (x.1 :: y.1, (x.2.1, y.2.1), y.2.2)

/-- `zip_all` of an array (`zip_all.rs` L10-22, L70-72). -/
def zipAll (its : List (SIter W α)) : SIter W (List α) := its.foldr zipCons zipNil

end adapters

section consumers

variable {W α : Type}

/-- `(a..b).try_fold(acc, |acc, idx| f(acc, idx, self.idx(idx)))`, for the indices listed. -/
def pollFold {β γ : Type} (it : SIter W α) (f : γ → Nat → α → W → Option (Flow β γ × W)) :
    List Nat → γ → it.St → W → Option (Flow β γ × it.St × W)
  | [], acc, s, w => some (.cont acc, s, w)
  | i :: is, acc, s, w =>
    (it.idx s i w).bind fun r => (f acc i r.1 r.2.2).bind fun o =>
      match o.1 with
      | .cont acc => pollFold it f is acc r.2.1 o.2
      | .brk b => some (.brk b, r.2.1, o.2)

/-- `StaticIter::fold` (`lib.rs` L150-156). -/
def fold {γ : Type} (N : Nat) (it : SIter W α) (start : γ) (f : γ → α → W → γ × W) (w : W) :
    Option (γ × W) :=
  (pollFold (β := Empty) it (fun acc _ a w => some (.cont (f acc a w).1, (f acc a w).2))
    (List.range N) start it.st w).bind fun r =>
  match r.1 with
  | .cont acc => some (acc, r.2.2)

/-- `StaticIter::try_fold` (`lib.rs` L160-170), `Result` as a `Flow`. -/
def tryFold {γ ε : Type} (N : Nat) (it : SIter W α) (start : γ)
    (f : γ → α → W → Flow ε γ × W) (w : W) : Option (Flow ε γ × W) :=
  (pollFold it (fun acc _ a w => some (f acc a w)) (List.range N) start it.st w).map fun r =>
    (r.1, r.2.2)

/-- `StaticIter::any`, `all` (`lib.rs` L176-182). -/
def any (N : Nat) (it : SIter W α) (f : α → W → Bool × W) (w : W) : Option (Bool × W) :=
  (tryFold N it () (fun _ a w => (if (f a w).1 then .brk () else .cont (), (f a w).2)) w).map
    fun r => (match r.1 with | .brk _ => true | .cont _ => false, r.2)
def all (N : Nat) (it : SIter W α) (f : α → W → Bool × W) (w : W) : Option (Bool × W) :=
  (tryFold N it () (fun _ a w => (if (f a w).1 then .cont () else .brk (), (f a w).2)) w).map
    fun r => (match r.1 with | .brk _ => false | .cont _ => true, r.2)

/-- `StaticIter::sum`, `product` (`lib.rs` L185-197). -/
def sum [Zero α] [Add α] (N : Nat) (it : SIter W α) (w : W) : Option (α × W) :=
  fold N it 0 (fun acc a w => (acc + a, w)) w
def product [One α] [Mul α] (N : Nat) (it : SIter W α) (w : W) : Option (α × W) :=
  fold N it 1 (fun acc a w => (acc * a, w)) w

/-- `FromStaticIter` (`lib.rs` L10-22). -/
structure Coll (T O : Type) where
  Uninit : Type
  Break : Type
  uninit : Uninit
  write : Uninit → Nat → T → Option (Flow Break Uninit)
  finish : Flow Break Uninit → Option O

/-- All slots, if all are initialised. -/
def assumeInit : List (Option α) → Option (List α)
  | [] => some []
  | none :: _ => none
  | some a :: s => (assumeInit s).map (a :: ·)

/-- `FromStaticIter for [T; N]`, the parts used by the containers around it (`lib.rs` L33-49). -/
def arrayColl (T : Type) (N : Nat) : Coll T (List T) where
  Uninit := List (Option T)
  Break := Empty
  uninit := List.replicate N none
  write u i v := if i < u.length then some (.cont (u.set i (some v))) else none
  finish
    | .cont u => assumeInit u

/-- `FromStaticIter for Option<C>` (`lib.rs` L57-86). -/
def optionColl {T O : Type} (c : Coll T O) : Coll (Option T) (Option O) where
  Uninit := c.Uninit
  Break := Option c.Break
  uninit := c.uninit
  write u i
    | some v => (c.write u i v).map (Flow.mapBreak some)
    | none => some (.brk none)
  finish
    | .cont u => (c.finish (.cont u)).map some
    | .brk (some b) => (c.finish (.brk b)).map some
    | .brk none => some none

/-- `FromStaticIter for Result<C, E>` (`lib.rs` L88-117). -/
def resultColl {T O : Type} (E : Type) (c : Coll T O) : Coll (Except E T) (Except E O) where
  Uninit := c.Uninit
  Break := Except E c.Break
  uninit := c.uninit
  write u i
    | .ok v => (c.write u i v).map (Flow.mapBreak .ok)
    | .error e => some (.brk (.error e))
  finish
    | .cont u => (c.finish (.cont u)).map .ok
    | .brk (.ok b) => (c.finish (.brk b)).map .ok
    | .brk (.error e) => some (.error e)

/-- `FromStaticIter::from_static_iter` as provided by the trait (`lib.rs` L24-30), used by `Option` and
`Result`; with the final state of the iterator and, if it stopped early, the last buffer lost. -/
def collectState {T O : Type} (N : Nat) (it : SIter W T) (c : Coll T O) (w : W) :
    Option (O × it.St × W) :=
  (pollFold it (fun acc i a w => (c.write acc i a).map fun o => (o, w)) (List.range N) c.uninit
    it.st w).bind fun r => (c.finish r.1).map fun o => (o, r.2)
def collect {T O : Type} (N : Nat) (it : SIter W T) (c : Coll T O) (w : W) : Option (O × W) :=
  (collectState N it c w).map fun r => (r.1, r.2.2)

/-- What the loop of the provided `from_static_iter` (`lib.rs` L24-30) throws away when it stops early:
the buffer last passed to `write`, which `Option` and `Result` let go of on failure (`lib.rs` L69-78,
L100-109). Its slots are `MaybeUninit`, so the elements in it are not dropped. -/
def collectLost {T O : Type} (N : Nat) (it : SIter W T) (c : Coll T O) (w : W) :
    Option (Option c.Uninit × it.St × W) :=
  (pollFold it (fun acc i a w => (c.write acc i a).map fun o => (o.mapBreak fun _ => acc, w))
    (List.range N) c.uninit it.st w).map fun r =>
  (match r.1 with | .cont _ => none | .brk u => some u, r.2)

/-- `from_static_iter` for arrays (`lib.rs` L51-53): `array::from_fn`, which calls its argument for
each index in increasing order. -/
def collectArrayState {T : Type} (N : Nat) (it : SIter W T) (w : W) :
    Option (List T × it.St × W) :=
  (pollFold (β := Empty) it (fun acc _ a w => some (.cont (acc ++ [a]), w)) (List.range N) []
    it.st w).bind fun r =>
  match r.1 with
  | .cont acc => some (acc, r.2)
def collectArray {T : Type} (N : Nat) (it : SIter W T) (w : W) : Option (List T × W) :=
  (collectArrayState N it w).map fun r => (r.1, r.2.2)

end consumers

end StaticIter

end Verif
