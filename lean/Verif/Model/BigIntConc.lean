import Verif.Model.BigIntHandle
import Verif.Model.InternConc

/-!
# Model of `BigInt`s on several threads (`crates/ints/src/big_int.rs` over `crates/utils/src/intern.rs`)

`BigInt` is `Send + Sync` (`big_int.rs` L144). One step is one access of one thread to the interner; reading
an operand counts as one step. The live `BigInt`s are one list, as they may be moved between threads
and borrowed by any; an operand that is borrowed cannot be dropped or negated meanwhile, which the borrow checker
sees to. Beside each word stands the number it was computed to be by `Model/BigInt`, which is
not part of the code: it is there for statements to refer to.
-/

namespace Verif

namespace BigConc

open BigWord Intern

/-- A computation on two numbers (`big_int.rs` L433-529), before its result is stored. -/
abbrev Raw := BInt → BInt → Res (List (BitVec 64) × Bool)

/-- Where a thread is. `want` is what the result should be. -/
inductive TPC where
  /-- between operations -/
  | idle
  /-- in a binary operator on the variables `j` and `k`, before reading the first -/
  | left (f : Raw) (j k : Nat) (want : Res BInt)
  /-- before reading the second operand -/
  | right (f : Raw) (x : BInt) (j k : Nat) (want : Res BInt)
  /-- in `new_intern` (`big_int.rs` L180-189), inside `add` -/
  | adding (neg : Bool) (pc : APC (List (BitVec 64))) (want : Res BInt)
  /-- panicked, or caught in an infinite loop -/
  | stopped (hung : Bool) (want : Res BInt)

/-- The variables a thread borrows. -/
def TPC.borrows : TPC → Nat → Bool
  | .left _ j k _, i => i = j ∨ i = k
  | .right _ _ j k _, i => i = j ∨ i = k
  | _, _ => false

/-- `INT_STORE`, the threads, and the variables: `none` if dropped, else a word and the number it should be. -/
structure Conc where
  store : IntStore
  pc : Nat → TPC
  vars : List (Option (Nat × Res BInt))

/-- Thread `t` goes to `p`. -/
def Conc.goto (s : Conc) (t : Nat) (p : TPC) : Conc := { s with pc := Function.update s.pc t p }

/-- Thread `t` has computed a `BigInt`. -/
def Conc.give (s : Conc) (t w : Nat) (want : Res BInt) : Conc :=
  { s.goto t .idle with vars := s.vars ++ [some (w, want)] }

/-- Continue with the result of a computation, or panic or hang with it. -/
def Conc.cont {α : Type} (s : Conc) (t : Nat) (want : Res BInt) (r : Res α) (k : α → Conc) : Conc :=
  match r with
  | .ok a => k a
  | .panic => s.goto t (.stopped false want)
  | .hang => s.goto t (.stopped true want)

/-- `new_slice` (`big_int.rs` L191-201) up to the call of `add`. -/
def Conc.newSlice (s : Conc) (t : Nat) (l : List (BitVec 64)) (neg : Bool) (want : Res BInt) : Conc :=
  s.cont t want (shrink l) fun v =>
  if v.length = 1 ∧ (v.getD 0 0).toNat ≤ BInt.inlineMax then
    s.cont t want (newInline (v.getD 0 0) neg) fun w => s.give t w want
  else s.goto t (.adding neg (.scan v 0) want)

/-- What `new_intern` does when a step of `add` has led to `pc`. -/
def Conc.added (s : Conc) (t : Nat) (neg : Bool) (want : Res BInt) (pc : APC (List (BitVec 64))) : Conc :=
  match pc with
  | .done _ id => s.cont t want (new id (if neg then tagNeg else tagNone)) fun w => s.give t w want
  | .panicked => s.goto t (.stopped false want)
  | pc => s.goto t (.adding neg pc want)

/-- What a thread may be about to do. -/
inductive Act where
  /-- `new_slice`, called by the conversions and the parser (`macros.rs` L42-65, `big_int.rs` L414-431) -/
  | make (l : List (BitVec 64)) (neg : Bool)
  /-- an operator on two variables -/
  | op (f : Raw) (j k : Nat)
  /-- the next step of the operation it is in -/
  | run
  /-- `clone` (`big_int.rs` L324-332) -/
  | clone (k : Nat)
  /-- `drop` (`big_int.rs` L334-341) -/
  | drop (k : Nat)
  /-- `Neg` (`big_int.rs` L544-561) -/
  | neg (k : Nat)

/-- One step of thread `t`; `none` if it cannot do this now. `free k` says that no thread borrows variable `k`. -/
def step (m : Mode) (free : Nat → Bool) (s : Conc) (t : Nat) : Act → Option Conc
  | .make l neg =>
    match s.pc t with
    | .idle => some (s.newSlice t l neg (BInt.newSlice l neg))
    | _ => none
  | .op f j k =>
    match s.pc t, s.vars[j]?, s.vars[k]? with
    | .idle, some (some (_, u)), some (some (_, v)) =>
      some (s.goto t (.left f j k (u.bind fun x => v.bind fun y => BInt.finish (f x y))))
    | _, _, _ => none
  | .run =>
    match s.pc t with
    | .left f j k want =>
      match s.vars[j]? with
      | some (some (a, _)) => some (s.cont t want (view s.store a) fun x => s.goto t (.right f x j k want))
      | _ => none
    | .right f x _ k want =>
      match s.vars[k]? with
      | some (some (b, _)) => some (s.cont t want (view s.store b) fun y =>
          s.cont t want (f x y) fun r => s.newSlice t r.1 r.2 want)
      | _ => none
    | .adding neg pc want =>
      (addStep m (s.store.length + 1) s.store pc).map fun x =>
        ({ s with store := x.1 } : Conc).added t neg want x.2
    | _ => none
  | .clone k =>
    match s.pc t, s.vars[k]? with
    | .idle, some (some (a, u)) =>
      some (s.cont t u (BigWord.clone m s.store a) fun x => ({ s with store := x.1 } : Conc).give t x.2 u)
    | _, _ => none
  | .drop k =>
    match s.pc t, s.vars[k]? with
    | .idle, some (some (a, u)) =>
      if free k then
        some (s.cont t u (BigWord.drop s.store a) fun st =>
          { s with store := st, vars := s.vars.set k none })
      else none
    | _, _ => none
  | .neg k =>
    match s.pc t, s.vars[k]? with
    | .idle, some (some (a, u)) =>
      if free k then
        some { s with vars := s.vars.set k (some (invertNeg a, u.bind fun x => .ok (BInt.neg' x))) }
      else none
    | _, _ => none

/-- Any number of steps of any threads, each from a state satisfying `B`. -/
inductive Steps (m : Mode) (B : Conc → Prop) : Conc → Conc → Prop
  | refl (s : Conc) : Steps m B s s
  | tail {a b c : Conc} (t : Nat) (x : Act) (free : Nat → Bool)
      (hfree : ∀ k, free k = true → ∀ t', (b.pc t').borrows k = false) :
      Steps m B a b → B b → step m free b t x = some c → Steps m B a c

/-- The start of a program: nothing stored, no variables, all threads idle. -/
def init : Conc := ⟨withCapacity 0, fun _ => .idle, []⟩

end BigConc

end Verif
