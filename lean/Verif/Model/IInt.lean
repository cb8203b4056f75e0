import Verif.Model.UInt

/-!
# Model of `I<N>` (`crates/ints/src/i.rs`)

Shifts, checked and saturating arithmetic and `pow` are `todo!()` in the code: they panic.
-/

namespace Verif

namespace IN

/-- `I::zero` (`i.rs` L282-284). -/
def zero (n : Nat) : Bytes := List.replicate n 0
/-- `I::one` (`i.rs` L292-294). -/
def one (n : Nat) : Bytes := (List.range n).map fun idx => if idx = 0 then 1 else 0

/-- `I::is_zero` (`i.rs` L286-288). -/
def isZero (a : Bytes) : Bool := a.all fun b => b == 0
/-- `I::is_one` (`i.rs` L296-298); indexing panics for `N = 0`. -/
def isOne (a : Bytes) : Res Bool :=
  match a with
  | [] => .panic
  | x :: xs => .ok (x == 1 && xs.all fun b => b == 0)

/-- `+` (`i.rs` L32-39). -/
def add (a b : Bytes) : Bytes := ElementAdd.addWrapping a b
/-- `-` (`i.rs` L41-48). -/
def sub (a b : Bytes) : Bytes := ElementSub.subWrapping a b
/-- `*` (`i.rs` L50-57). -/
def mul (a b : Bytes) : Bytes := ElementMul.mulWrapping a b
/-- Unary `-` (`i.rs` L89-97). -/
def neg (a : Bytes) : Bytes := add (a.map fun v => ~~~v) (one a.length)
/-- `!` (`i.rs` L99-105). -/
def not (a : Bytes) : Bytes := a.map fun b => ~~~b
/-- `&` (`i.rs` L107-119). -/
def bitand (a b : Bytes) : Bytes := List.zipWith (fun l r => l &&& r) a b
/-- `|` (`i.rs` L121-133). -/
def bitor (a b : Bytes) : Bytes := List.zipWith (fun l r => l ||| r) a b
/-- `^` (`i.rs` L135-147). -/
def bitxor (a b : Bytes) : Bytes := List.zipWith (fun l r => l ^^^ r) a b

/-- `min_value` (`i.rs` L182-184). -/
def minValue (n : Nat) : Bytes :=
  (List.range n).map fun idx => if idx = n - 1 then 0x80 else 0
/-- `max_value` (`i.rs` L186-188). -/
def maxValue (n : Nat) : Bytes :=
  (List.range n).map fun idx => if idx = n - 1 then 0x7F else 0xFF
/-- `min_positive` (`i.rs` L192-194). -/
def minPositive (n : Nat) : Bytes := one n
/-- `max_negative` (`i.rs` L196-199). -/
def maxNegative (n : Nat) : Bytes := List.replicate n 0xFF

/-- `abs` (`i.rs` L312-316). -/
def abs (a : Bytes) : Res Bytes :=
  match a.getLast? with
  | none => .panic
  | some last => .ok (a.dropLast ++ [last &&& 0x7F])
/-- `is_positive` (`i.rs` L318-321). -/
def isPositive (a : Bytes) : Res Bool :=
  match a.getLast? with
  | none => .panic
  | some last => .ok (last &&& 0x80 == 0)
/-- `is_negative` (`i.rs` L323-326). -/
def isNegative (a : Bytes) : Res Bool :=
  match a.getLast? with
  | none => .panic
  | some last => .ok (last &&& 0x80 != 0)

/-- `/` (`i.rs` L59-72). -/
def div (m : Mode) (a b : Bytes) : Res Bytes :=
  (isNegative a).bind fun na => (isNegative b).bind fun nb =>
  (abs a).bind fun a' => (abs b).bind fun b' =>
  (BitwiseDiv.divLongWrapping m a' b' (List.replicate a.length 0)).bind fun q =>
  .ok (if na != nb then neg q else q)

/-- `%` (`i.rs` L74-87). -/
def rem (m : Mode) (a b : Bytes) : Res Bytes :=
  (isNegative a).bind fun na => (isNegative b).bind fun nb =>
  (abs a).bind fun a' => (abs b).bind fun b' =>
  (BitwiseDiv.remLongWrapping m a' b' (List.replicate a.length 0)).bind fun r =>
  .ok (if na != nb then neg r else r)

/-- Lexicographic order of arrays of equal length, first element first (`[u8; N]::cmp`, core
library). -/
def lexCmp : Bytes → Bytes → Ordering
  | x :: xs, y :: ys => (limbCmp x y).then (lexCmp xs ys)
  | [], [] => .eq
  | [], _ => .lt
  | _, [] => .gt

/-- `bool::cmp` (core library): `false < true`. -/
def boolCmp : Bool → Bool → Ordering
  | false, true => .lt
  | true, false => .gt
  | _, _ => .eq

/-- `cmp` (`i.rs` L216-223). -/
def cmp (a b : Bytes) : Res Ordering :=
  (isNegative a).bind fun na => (isNegative b).bind fun nb =>
  match boolCmp na nb with
  | .eq => .ok (lexCmp a b)
  | o => .ok o.swap

/-! The operations with the body `todo!()`. -/

/-- `<<` and `>>` by an `I<N>` (`i.rs` L149-163). -/
def shl (_ _ : Bytes) : Res Bytes := .panic
def shr (_ _ : Bytes) : Res Bytes := .panic
/-- `<<` and `>>` by a `usize` (`i.rs` L165-179). -/
def shlUsize (_ : Bytes) (_ : Nat) : Res Bytes := .panic
def shrUsize (_ : Bytes) (_ : Nat) : Res Bytes := .panic
/-- `checked_add`, `checked_sub`, `checked_mul`, `checked_div` (`i.rs` L225-255). -/
def checkedAdd (_ _ : Bytes) : Res (Option Bytes) := .panic
def checkedSub (_ _ : Bytes) : Res (Option Bytes) := .panic
def checkedMul (_ _ : Bytes) : Res (Option Bytes) := .panic
def checkedDiv (_ _ : Bytes) : Res (Option Bytes) := .panic
/-- `saturating_add`, `saturating_sub`, `saturating_mul` (`i.rs` L257-279). -/
def saturatingAdd (_ _ : Bytes) : Res Bytes := .panic
def saturatingSub (_ _ : Bytes) : Res Bytes := .panic
def saturatingMul (_ _ : Bytes) : Res Bytes := .panic
/-- `pow` (`i.rs` L301-307). -/
def pow (_ _ : Bytes) : Res Bytes := .panic

end IN

end Verif
