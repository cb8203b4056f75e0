import Verif.Model.InternConc
import Verif.Model.BigIntConc

/-!
# `push` inside `Interner::add` as two steps (`crates/utils/src/intern.rs` L159-166, `linked.rs` L90-107)

In `Model/InternConc` a chunk is pushed in one step. The code counts the elements of the list first (`tail`, `linked.rs`
L64-79), until it meets the one whose successor is null, and appends afterwards, possibly behind chunks that others have
appended meanwhile; it returns the number it has counted plus one (see C62). Here these are two steps: `seen t` is what
thread `t` has counted. If the list is empty, the exchange of `head` (`linked.rs` L92-96) counts and appends at once.
-/

namespace Verif

namespace Intern

variable {T : Type} [DecidableEq T]

/-- The store and all threads, and for each thread inside `push` the number of chunks it has counted. -/
structure PSys (T : Type) where
  sys : Sys T
  seen : Nat → Option Nat

/-- A thread counts the chunks, or appends one, or some thread does something else: all steps of `SysStep` but the
appending of a chunk to a list that is not empty. -/
inductive PStep (m : Mode) : PSys T → PSys T → Prop
  | count (s : PSys T) (t : Nat) (v : T) (h : s.sys.pc t = .pushChunk v) (h0 : s.sys.store ≠ [])
      (hn : s.seen t = none) :
      PStep m s ⟨s.sys, Function.update s.seen t (some s.sys.store.length)⟩
  | push (s : PSys T) (t : Nat) (v : T) (len : Nat) (h : s.sys.pc t = .pushChunk v) (hs : s.seen t = some len) :
      PStep m s ⟨⟨s.sys.store ++ [newChunk], Function.update s.sys.pc t (.incrNew v (len + 1)), s.sys.log⟩,
        Function.update s.seen t none⟩
  | other (s : PSys T) (s' : Sys T) (h : SysStep m (fun _ _ => True) (fun _ _ => True) exactLen s.sys s')
      (hl : s.sys.store = [] ∨ s'.store.length = s.sys.store.length) : PStep m s ⟨s', s.seen⟩

/-- Any number of steps, each from a state satisfying `B`. -/
inductive PSteps (m : Mode) (B : PSys T → Prop) : PSys T → PSys T → Prop
  | refl (s : PSys T) : PSteps m B s s
  | tail {a b c : PSys T} : PSteps m B a b → B b → PStep m b c → PSteps m B a c

end Intern

namespace BigConc

open Intern

/-- The same for `BigInt`s on several threads. -/
structure PConc where
  conc : Conc
  seen : Nat → Option Nat

inductive PStep (m : Mode) : PConc → PConc → Prop
  | count (s : PConc) (t : Nat) (neg : Bool) (v : List (BitVec 64)) (want : Res BInt)
      (h : s.conc.pc t = .adding neg (.pushChunk v) want) (h0 : s.conc.store ≠ []) (hn : s.seen t = none) :
      PStep m s ⟨s.conc, Function.update s.seen t (some s.conc.store.length)⟩
  | push (s : PConc) (t : Nat) (neg : Bool) (v : List (BitVec 64)) (want : Res BInt) (len : Nat)
      (h : s.conc.pc t = .adding neg (.pushChunk v) want) (hs : s.seen t = some len) :
      PStep m s ⟨({ s.conc with store := s.conc.store ++ [newChunk] } : Conc).added t neg want (.incrNew v (len + 1)),
        Function.update s.seen t none⟩
  | other (s : PConc) (c : Conc) (t : Nat) (x : Act) (free : Nat → Bool)
      (hfree : ∀ k, free k = true → ∀ t', (s.conc.pc t').borrows k = false)
      (h : step m free s.conc t x = some c) (hl : s.conc.store = [] ∨ c.store.length = s.conc.store.length) :
      PStep m s ⟨c, s.seen⟩

/-- Any number of steps, each from a state satisfying `B`. -/
inductive PSteps (m : Mode) (B : PConc → Prop) : PConc → PConc → Prop
  | refl (s : PConc) : PSteps m B s s
  | tail {a b c : PConc} : PSteps m B a b → B b → PStep m b c → PSteps m B a c

end BigConc

end Verif
