import Verif.Model.Bitwise

/-!
# Model of `U<N>` (`crates/ints/src/u.rs`)

A `U<N>` is its byte array, here a list of `N` bytes, least significant first. `N` is the length of
the list; the theorems assume that both operands have the same length. `m : Mode` is the build
profile.
-/

namespace Verif

/-- The `[u8; N]` of a `U<N>` or `I<N>`. -/
abbrev Bytes := List (BitVec 8)

/-- `uX::to_le_bytes` of a primitive integer of `size` bytes (core library). -/
def leBytes (size : Nat) (v : BitVec (8 * size)) : Bytes :=
  (List.range size).map fun i => BitVec.ofNat 8 (v.toNat / 2 ^ (8 * i))

/-- `uX::from_le_bytes` of a primitive integer of `size` bytes (core library). The sum is written
out here, rather than with the specification function `val`. -/
def ofLeBytes (size : Nat) (b : Bytes) : BitVec (8 * size) :=
  b.foldr (fun x acc => acc * 256 + x.setWidth (8 * size)) 0

namespace UN

/-- `U::zero` (`u.rs` L539-541), `U::min_value` (L400-402), `U::new` (L46-48). -/
def zero (n : Nat) : Bytes := List.replicate n 0

/-- `U::is_zero` (`u.rs` L543-545). -/
def isZero (a : Bytes) : Bool := a.all fun b => b == 0

/-- `U::one` (`u.rs` L549-551). -/
def one (n : Nat) : Bytes := (List.range n).map fun idx => if idx = 0 then 1 else 0

/-- `U::is_one` (`u.rs` L553-555); indexing panics for `N = 0`. -/
def isOne (a : Bytes) : Res Bool :=
  match a with
  | [] => .panic
  | x :: xs => .ok (x == 1 && xs.all fun b => b == 0)

/-- `U::min_value` (`u.rs` L400-402). -/
def minValue (n : Nat) : Bytes := List.replicate n 0

/-- `U::max_value` (`u.rs` L404-406). -/
def maxValue (n : Nat) : Bytes := List.replicate n 0xFF

/-- `from_le_bytes` (`u.rs` L52-54). -/
def fromLeBytes (b : Bytes) : Bytes := b
/-- `from_be_bytes` (`u.rs` L58-60). -/
def fromBeBytes (b : Bytes) : Bytes := constReverse b
/-- `from_ne_bytes` (`u.rs` L64-70); `little` is `cfg!(target_endian = "little")`. -/
def fromNeBytes (little : Bool) (b : Bytes) : Bytes :=
  if little then fromLeBytes b else fromBeBytes b
/-- `to_le_bytes` (`u.rs` L74-76). -/
def toLeBytes (a : Bytes) : Bytes := a
/-- `to_be_bytes` (`u.rs` L80-82). -/
def toBeBytes (a : Bytes) : Bytes := constReverse a
/-- `to_ne_bytes` (`u.rs` L86-92). -/
def toNeBytes (little : Bool) (a : Bytes) : Bytes :=
  if little then toLeBytes a else toBeBytes a

/-- `as_uX` (`u.rs` L119-217). -/
def asPrim (size : Nat) (a : Bytes) : BitVec (8 * size) := ofLeBytes size a
/-- `from_uX` (`u.rs` L119-217). -/
def fromPrim (size : Nat) (v : BitVec (8 * size)) : Bytes := leBytes size v

/-- `checked_add` (`u.rs` L451-458). -/
def checkedAdd (a b : Bytes) : Option Bytes := ElementAdd.addChecked a b
/-- `checked_sub` (`u.rs` L460-467). -/
def checkedSub (a b : Bytes) : Option Bytes := ElementSub.subChecked a b
/-- `checked_mul` (`u.rs` L469-476). -/
def checkedMul (a b : Bytes) : Option Bytes := ElementMul.mulChecked a b
/-- `checked_div` (`u.rs` L478-485). -/
def checkedDiv (m : Mode) (a b : Bytes) : Res (Option Bytes) :=
  BitwiseDiv.divLongChecked m a b (List.replicate a.length 0)
/-- `wrapping_add` (`u.rs` L487-494). -/
def wrappingAdd (a b : Bytes) : Bytes := ElementAdd.addWrapping a b
/-- `wrapping_sub` (`u.rs` L496-503). -/
def wrappingSub (a b : Bytes) : Bytes := ElementSub.subWrapping a b
/-- `saturating_add` (`u.rs` L505-514). -/
def saturatingAdd (a b : Bytes) : Bytes :=
  match ElementAdd.addChecked a b with
  | some x => x
  | none => maxValue a.length
/-- `saturating_sub` (`u.rs` L516-525). -/
def saturatingSub (a b : Bytes) : Bytes :=
  match ElementSub.subChecked a b with
  | some x => x
  | none => zero a.length
/-- `saturating_mul` (`u.rs` L527-536). -/
def saturatingMul (a b : Bytes) : Bytes :=
  match ElementMul.mulChecked a b with
  | some x => x
  | none => maxValue a.length

/-- `+` (`u.rs` L239-249). -/
def add (m : Mode) (a b : Bytes) : Res Bytes :=
  match m with
  | .debug => Res.ofOption (checkedAdd a b)
  | .release => .ok (wrappingAdd a b)
/-- `-` (`u.rs` L251-261). -/
def sub (m : Mode) (a b : Bytes) : Res Bytes :=
  match m with
  | .debug => Res.ofOption (checkedSub a b)
  | .release => .ok (wrappingSub a b)
/-- `*` (`u.rs` L263-273). -/
def mul (m : Mode) (a b : Bytes) : Res Bytes :=
  match m with
  | .debug => Res.ofOption (ElementMul.mulChecked a b)
  | .release => .ok (ElementMul.mulWrapping a b)
/-- `/` (`u.rs` L275-285). -/
def div (m : Mode) (a b : Bytes) : Res Bytes :=
  match m with
  | .debug => (BitwiseDiv.divLongChecked m a b (List.replicate a.length 0)).bind Res.ofOption
  | .release => BitwiseDiv.divLongWrapping m a b (List.replicate a.length 0)
/-- `%` (`u.rs` L287-297): `rem_long_checked` in both build profiles. -/
def rem (m : Mode) (a b : Bytes) : Res Bytes :=
  (BitwiseDiv.remLongChecked m a b (List.replicate a.length 0)).bind Res.ofOption

/-- `!` (`u.rs` L299-305). -/
def not (a : Bytes) : Bytes := a.map fun b => ~~~b
/-- `&` (`u.rs` L307-319). The static-iterator pipeline is modelled as `zipWith` (see C85). -/
def bitand (a b : Bytes) : Bytes := List.zipWith (fun l r => l &&& r) a b
/-- `|` (`u.rs` L321-333). -/
def bitor (a b : Bytes) : Bytes := List.zipWith (fun l r => l ||| r) a b
/-- `^` (`u.rs` L335-347). -/
def bitxor (a b : Bytes) : Bytes := List.zipWith (fun l r => l ^^^ r) a b

/-- Loop body of `uX::from_checked(U<N>)` for `N > SIZE` (`u.rs` L576-582). -/
def toPrimStep (size : Nat) (v : Bytes) (i : Nat) (st : Option Bytes) : Res (Option Bytes) :=
  match st with
  | none => .ok none
  | some arr =>
    if i ≤ size then (BitSlice.set arr i (v.getD i 0)).bind fun arr => .ok (some arr)
    else if v.getD i 0 ≠ 0 then .ok none
    else .ok (some arr)

/-- `uX::from_checked(U<N>)` (`u.rs` L564-587); `none` in the loop state is the early
`return None`. The inner condition is `i <= SIZE`, as in the code. -/
def toPrimChecked (size : Nat) (v : Bytes) : Res (Option (BitVec (8 * size))) :=
  let n := v.length
  if n ≤ size then
    (forUpM n (fun i arr => BitSlice.set arr i (v.getD i 0)) (List.replicate size 0)).bind
      fun arr => .ok (some (ofLeBytes size arr))
  else
    (forUpM n (toPrimStep size v) (some (List.replicate size 0))).bind
      fun st => .ok (st.map fun arr => ofLeBytes size arr)

/-- `uX::saturate_from(U<N>)` (`u.rs` L589-593). -/
def toPrimSaturating (size : Nat) (v : Bytes) : Res (BitVec (8 * size)) :=
  (toPrimChecked size v).bind fun o => .ok (o.getD (BitVec.allOnes (8 * size)))

/-- `uX::truncate_from(U<N>)` (`u.rs` L595-604). -/
def toPrimTruncating (size : Nat) (v : Bytes) : Res (BitVec (8 * size)) :=
  (forUpM v.length (fun i arr => BitSlice.set arr i (v.getD i 0)) (List.replicate size 0)).bind
    fun arr => .ok (ofLeBytes size arr)

/-- Loop body of `U<N>::from_checked(uX)` for `N < SIZE` (`u.rs` L618-624). -/
def fromPrimStep (n : Nat) (bytes : Bytes) (i : Nat) (st : Option Bytes) : Res (Option Bytes) :=
  match st with
  | none => .ok none
  | some arr =>
    (BitSlice.get bytes i).bind fun b =>
    if i ≤ n then (BitSlice.set arr i b).bind fun arr => .ok (some arr)
    else if b ≠ 0 then .ok none
    else .ok (some arr)

/-- `U<N>::from_checked(uX)` (`u.rs` L606-630); the inner condition is `i <= N`, as in the
code. -/
def fromPrimChecked (n size : Nat) (v : BitVec (8 * size)) : Res (Option Bytes) :=
  let bytes := leBytes size v
  if size ≤ n then
    (forUpM n (fun i arr =>
      (BitSlice.get bytes i).bind fun b => BitSlice.set arr i b) (List.replicate n 0)).bind
      fun arr => .ok (some arr)
  else
    forUpM n (fromPrimStep n bytes) (some (List.replicate n 0))

/-- `usize::from_checked(rhs).unwrap()` (`u.rs` L353, L366, L439), with 64-bit `usize`. -/
def toUsize (v : Bytes) : Res Nat :=
  (toPrimChecked 8 v).bind fun o => (Res.ofOption o).bind fun x => .ok x.toNat

/-- `<< usize` (`u.rs` L375-385). -/
def shl (m : Mode) (a : Bytes) (k : Nat) : Res Bytes :=
  match m with
  | .debug => (ElementShl.shlChecked a k).bind Res.ofOption
  | .release => ElementShl.shlWrapping m a k
/-- `>> usize` (`u.rs` L387-397). -/
def shr (m : Mode) (a : Bytes) (k : Nat) : Res Bytes :=
  match m with
  | .debug => (ElementShr.shrChecked m a k).bind Res.ofOption
  | .release => ElementShr.shrWrapping m a k
/-- `<< U<N>` (`u.rs` L349-360). -/
def shlU (m : Mode) (a b : Bytes) : Res Bytes := (toUsize b).bind fun k => shl m a k
/-- `>> U<N>` (`u.rs` L362-373). -/
def shrU (m : Mode) (a b : Bytes) : Res Bytes := (toUsize b).bind fun k => shr m a k

/-- `==` (`u.rs` L409-413). -/
def eq (a b : Bytes) : Bool := decide (a = b)
/-- `cmp` (`u.rs` L423-427). -/
def cmp (a b : Bytes) : Ordering := elementCmp a b

/-- `iter::repeat_n(x, k).product()` (`u.rs` L440, L445-449). -/
def product (m : Mode) (x : Bytes) (k : Nat) : Res Bytes :=
  forUpM k (fun _ acc => mul m acc x) (one x.length)

/-- `pow` (`u.rs` L429-443). -/
def pow (m : Mode) (a b : Bytes) : Res Bytes :=
  if isZero a then .ok a
  else (isOne a).bind fun o =>
    if o then .ok a
    else if isZero b then .ok (one a.length)
    else (toUsize b).bind fun k => product m a k

/-- The digit loop of `write_base` (`u.rs` L101-106): digits, least significant first. -/
def writeLoop (m : Mode) (base : Bytes) : Nat → Bytes → List (BitVec 8) → Res (List (BitVec 8))
  | fuel, scratch, digits =>
    if cmp scratch (zero scratch.length) = .gt then
      match fuel with
      | 0 => .hang
      | fuel + 1 =>
        (rem m scratch base).bind fun r =>
        (toPrimChecked 1 r).bind fun o => (Res.ofOption o).bind fun digit =>
        (div m scratch base).bind fun scratch =>
        writeLoop m base fuel scratch (digits ++ [digit])
    else .ok digits

/-- `write_base` (`u.rs` L94-116); the output is the list of characters written. -/
def writeBase (m : Mode) (fuel : Nat) (a : Bytes) (base : Nat) (chars : List Char) :
    Res (List Char) :=
  (fromPrimChecked a.length 8 (BitVec.ofNat 64 base)).bind fun o => (Res.ofOption o).bind fun base =>
  (writeLoop m base fuel a []).bind fun digits =>
  let digits := if digits.isEmpty then [0] else digits
  digits.reverse.foldl (fun out d =>
    out.bind fun out => (Res.ofOption chars[d.toNat]?).bind fun c => .ok (out ++ [c])) (.ok [])

/-- `DIGITS` of `Display` (`u.rs` L234). -/
def decDigits : List Char := ['0', '1', '2', '3', '4', '5', '6', '7', '8', '9']

/-- `Display::fmt` (`u.rs` L232-237). -/
def display (m : Mode) (fuel : Nat) (a : Bytes) : Res (List Char) := writeBase m fuel a 10 decDigits

end UN

end Verif
