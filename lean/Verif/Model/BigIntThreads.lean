import Verif.Model.BigInt
import Verif.Model.InternProg

/-!
# Threads that compute with `BigInt`s (`crates/ints/src/big_int.rs` over `crates/utils/src/intern.rs`)

Programs over `BigInt`s, as the programs over the interner that the code makes of them. A name stands for
a word: the sign is in it, and either the number itself or the id of its limbs, for which the interner is called.
What a thread still owns when it is done or panics is dropped, and what it has borrowed is given back.
Calls of `add` take turns, and the memory orderings count, as in `Verif.Model.InternWeak`.

Simplified: the assertion that ids fit the word (`big_int.rs` L93-96) is left out, as it takes `2^62` stored numbers to
fail; what `==` does first, comparing words, makes no difference to its answer; a panic ends the thread, and a
thread that hangs is written as one that ends with that result. A thread that
receives a number is told which word it is: the word is what is sent.
-/

namespace Verif

namespace BigThreads

open InternProg

abbrev Limbs := List (BitVec 64)

/-- A word (`big_int.rs` L30-37, L86-122): the sign, and the number if it is inline. -/
structure Word where
  neg : Bool
  inline : Option (BitVec 64)

/-- What a thread does with `BigInt`s. -/
inductive BProg (R : Type) where
  /-- it is done -/
  | ret (r : R)
  /-- `x` is made of limbs, by a conversion from a primitive integer (`big_int/macros.rs` L42-64) -/
  | make (l : Limbs) (neg : Bool) (x : Nat) (p : BProg R)
  /-- `let z = f(&x, &y)`, where `f` is an operator up to the call of `new_slice` (`big_int.rs` L433-542) -/
  | op (f : BInt → BInt → Res (Limbs × Bool)) (x y z : Nat) (p : BProg R)
  /-- `x` is read, for a comparison, a conversion or to be printed, and the thread goes on with it -/
  | look (x : Nat) (k : BInt → BProg R)
  /-- `let y = x.clone()` (`big_int.rs` L324-332) -/
  | clone (x y : Nat) (p : BProg R)
  /-- `drop(x)` (`big_int.rs` L334-341) -/
  | drop (x : Nat) (p : BProg R)
  /-- `x = -x` (`big_int.rs` L544-551) -/
  | neg (x : Nat) (p : BProg R)
  /-- move `x` to thread `t` -/
  | send (x t : Nat) (p : BProg R)
  /-- lend `x` to thread `t` -/
  | lend (x t : Nat) (p : BProg R)
  /-- call `y` what another thread moves (`own`) or lends to this one, which is the word `w` -/
  | recv (own : Bool) (w : Word) (y : Nat) (p : BProg R)

/-- What a thread has: the words of its names, the names whose limbs it owns, and those whose limbs it has
borrowed. -/
structure Scope where
  word : Nat → Option Word
  own : List Nat
  lent : List Nat

namespace Scope

/-- Nothing. -/
def empty : Scope := ⟨fun _ => none, [], []⟩

/-- `x` is the word `w` from now on, which is owned. -/
def bind (e : Scope) (x : Nat) (w : Word) : Scope :=
  ⟨Function.update e.word x (some w), if w.inline.isSome then e.own else x :: e.own, e.lent⟩

/-- `x` is the word `w` from now on, which is borrowed. -/
def borrow (e : Scope) (x : Nat) (w : Word) : Scope :=
  ⟨Function.update e.word x (some w), e.own, if w.inline.isSome then e.lent else x :: e.lent⟩

/-- There is no `x` any more. -/
def unbind (e : Scope) (x : Nat) : Scope := ⟨Function.update e.word x none, e.own.erase x, e.lent⟩

/-- The thread ends: it returns, or unwinds. -/
def leave {R : Type} (e : Scope) (r : Res R) : Prog Limbs (Res R) :=
  e.own.foldr .drop (e.lent.foldr .giveBack (.ret r))

end Scope

/-- `val` (`big_int.rs` L147-153), and go on with the number. -/
def read {R : Type} (e : Scope) (x : Nat) (k : BInt → Prog Limbs (Res R)) : Prog Limbs (Res R) :=
  match e.word x with
  | none => e.leave .panic
  | some ⟨neg, some v⟩ => k ⟨neg, .inline v⟩
  | some ⟨neg, none⟩ => .get x fun l => k ⟨neg, .slice l⟩

/-- `new_slice` (`big_int.rs` L191-201), and call the result `x`. -/
def newSlice {R : Type} (l : Limbs) (neg : Bool) (e : Scope) (x : Nat) (k : Scope → Prog Limbs (Res R)) :
    Prog Limbs (Res R) :=
  match shrink l with
  | .panic => e.leave .panic
  | .hang => e.leave .hang
  | .ok v =>
    if v.length = 1 ∧ (v.getD 0 0).toNat ≤ BInt.inlineMax then
      k (e.bind x ⟨v.getD 0 0 ≠ 0 && neg, some (v.getD 0 0)⟩)
    else .add v x (k (e.bind x ⟨neg, none⟩))

/-- The program that is run in a scope. -/
def code {R : Type} : BProg R → Scope → Prog Limbs (Res R)
  | .ret r, e => e.leave (.ok r)
  | .make l neg x p, e => newSlice l neg e x fun e => code p e
  | .op f x y z p, e =>
    read e x fun a => read e y fun b =>
      match f a b with
      | .panic => e.leave .panic
      | .hang => e.leave .hang
      | .ok c => newSlice c.1 c.2 e z fun e => code p e
  | .look x k, e => read e x fun a => code (k a) e
  | .clone x y p, e =>
    match e.word x with
    | none => e.leave .panic
    | some ⟨n, some v⟩ => code p (e.bind y ⟨n, some v⟩)
    | some ⟨n, none⟩ => .clone x y (code p (e.bind y ⟨n, none⟩))
  | .drop x p, e =>
    match e.word x with
    | none => e.leave .panic
    | some ⟨_, some _⟩ => code p (e.unbind x)
    | some ⟨_, none⟩ => .drop x (code p (e.unbind x))
  | .neg x p, e =>
    match e.word x with
    | none => e.leave .panic
    | some w => code p { e with word := Function.update e.word x (some ⟨!w.neg, w.inline⟩) }
  | .send x t p, e =>
    match e.word x with
    | none => e.leave .panic
    | some ⟨_, some _⟩ => code p (e.unbind x)
    | some ⟨_, none⟩ => .send x t (code p (e.unbind x))
  | .lend x t p, e =>
    match e.word x with
    | none => e.leave .panic
    | some ⟨_, some _⟩ => code p e
    | some ⟨_, none⟩ => .lend x t (code p e)
  | .recv own w y p, e =>
    if w.inline.isSome then code p (if own then e.bind y w else e.borrow y w)
    else .recv y (code p (if own then e.bind y w else e.borrow y w))

end BigThreads

end Verif
