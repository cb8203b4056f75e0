/-!
# Conventions shared by all models

* `Res` makes panics explicit.
* `Mode` is the build profile (`debug_assertions` on or off).
* `forUp` / `forDown` are the two loop shapes of the library.
-/

namespace Verif

/-- Outcome of a library call: a value or a panic. `hang` is used only for the one
`while` loop of the library that can run forever (`ElementDiv::div_long`), which is modelled
with fuel: `hang` means "still running after the given number of iterations". -/
inductive Res (α : Type _) where
  | ok (a : α)
  | panic
  | hang
deriving DecidableEq, Repr

namespace Res

variable {α β : Type _}

/-- Sequencing: a panic aborts everything that follows. -/
def bind (x : Res α) (f : α → Res β) : Res β :=
  match x with
  | ok a => f a
  | panic => panic
  | hang => hang

instance : Monad Res where
  pure := ok
  bind := bind

/-- `Option::expect` / `unwrap`: `None` panics. -/
def ofOption : Option α → Res α
  | some a => ok a
  | none => panic

end Res

/-- Build profile. `debug` has overflow checks and `cfg!(debug_assertions)`. -/
inductive Mode where
  | debug
  | release
deriving DecidableEq, Repr

/-- `for idx in 0..n { s = f(idx, s) }` -/
def forUp {σ : Type _} : Nat → (Nat → σ → σ) → σ → σ
  | 0, _, s => s
  | n + 1, f, s => f n (forUp n f s)

/-- `for idx in (0..n).rev() { s = f(idx, s) }` -/
def forDown {σ : Type _} : Nat → (Nat → σ → σ) → σ → σ
  | 0, _, s => s
  | n + 1, f, s => forDown n f (f n s)

/-- `for idx in 0..n`, where the body may panic. -/
def forUpM {σ : Type _} : Nat → (Nat → σ → Res σ) → σ → Res σ
  | 0, _, s => .ok s
  | n + 1, f, s => (forUpM n f s).bind (f n)

/-- `for idx in (0..n).rev()`, where the body may panic. -/
def forDownM {σ : Type _} : Nat → (Nat → σ → Res σ) → σ → Res σ
  | 0, _, s => .ok s
  | n + 1, f, s => (f n s).bind (forDownM n f)

/-- Whether `partial_cmp` of two values gives an ordering, as it does unless one of them is NaN. -/
class PartialCmp (α : Type) where
  comparable : α → α → Bool

/-- `2^64`: `usize` is taken to be 64 bits wide. -/
def usizeSize : Nat := 2 ^ 64

/-- `a - b` on `usize`: underflow panics in debug builds and wraps in release builds. -/
def usub (m : Mode) (a b : Nat) : Res Nat :=
  if b ≤ a then .ok (a - b)
  else match m with
    | .debug => .panic
    | .release => .ok (a + usizeSize - b)

end Verif
