import Verif.Model.InternWeak

/-!
# The interner, if additions take turns without a lock (`crates/utils/src/intern.rs`)

`Verif.Model.InternWeak` has a lock around `add`, from which a thread learns what the thread before it did. Here
the calls of `add` only do not overlap: each begins after the one before has returned, as it happens to
programs that use large numbers in several threads at different times.
-/

namespace Verif

namespace InternTurns

open InternWeak

variable {T : Type}

/-- Everything in `v` is known in `w`. -/
def Knows (w v : View) : Prop := (∀ i, v.ts i ≤ w.ts i) ∧ ∀ a, v.seen a → w.seen a

/-- What may happen next. With `guard` a thread that calls `add` must have got to know (by any
means) what the thread that called it last knew when `add` returned, which is `lock` of the state. -/
inductive Step [DecidableEq T] (guard : Bool) : State T → State T → Prop
  /-- `add(v)` is called, nobody else being inside `add` (`intern.rs` L134-140) -/
  | add (s : State T) (t : Nat) (v : T) (h : (s.pc t).ready = true) (hl : s.holder = none)
      (hg : guard = true → Knows (s.view t) s.lock) :
      Step guard s (({ s with holder := some t } : State T).goto t (.scan v 0))
  /-- anything else, as in `Verif.Model.InternWeak` (where `add` under the lock is another case of `guard`) -/
  | other (s s' : State T) (h : InternWeak.Step s s') (ha : guard = false → s'.holder = s.holder ∨ s'.holder = none) :
      Step guard s s'

/-- Any number of steps. -/
inductive Steps [DecidableEq T] (guard : Bool) : State T → State T → Prop
  | refl (s : State T) : Steps guard s s
  | tail {a b c : State T} : Steps guard a b → Step guard b c → Steps guard a c

end InternTurns

end Verif
