import Verif.Model.Base

/-!
# Bit slices (`crates/bits/src/bit_slice.rs`, `bit_slice/iter.rs`, `utils.rs`)

A slice of bit containers (`&[I]`, `[I; N]` or `Vec<I>`) is a `List (BitVec w)`, least
significant limb first; `w` is `BIT_LEN`. Mutating functions return the new slice.
-/

namespace Verif

variable {w : Nat}

/-- `overflowing_add` of primitive unsigned integers
(`crates/traits/src/__impl.rs` L209-215, which forwards to core). -/
def ovfAdd (a b : BitVec w) : BitVec w × Bool := (a + b, decide (2 ^ w ≤ a.toNat + b.toNat))

/-- `overflowing_sub` of primitive unsigned integers
(`crates/traits/src/__impl.rs` L217-223, which forwards to core). -/
def ovfSub (a b : BitVec w) : BitVec w × Bool := (a - b, decide (a.toNat < b.toNat))

namespace BitSlice

/-- `idx_bit` (`bit_slice.rs` L15-17). -/
def idxBit (w idx : Nat) : Nat × Nat := (idx / w, idx % w)

/-- `bit_len` (`bit_slice.rs` L68-70). -/
def bitLen (s : List (BitVec w)) : Nat := s.length * w

/-- `get_opt` (`bit_slice.rs` L79-81). -/
def getOpt (s : List (BitVec w)) (idx : Nat) : Option (BitVec w) := s[idx]?

/-- `get` (`bit_slice.rs` L73-75). -/
def get (s : List (BitVec w)) (idx : Nat) : Res (BitVec w) := Res.ofOption (getOpt s idx)

/-- `get_opt(idx).unwrap_or(zero)`, the form used by all element algorithms. -/
def getZ (s : List (BitVec w)) (idx : Nat) : BitVec w := (getOpt s idx).getD 0

/-- `get_bit_opt` (`bit_slice.rs` L93-99). -/
def getBitOpt (s : List (BitVec w)) (idx : Nat) : Option Bool :=
  let (i, bit) := idxBit w idx
  s[i]?.map fun v => v &&& ((1 : BitVec w) <<< bit) != 0

/-- `get_bit` (`bit_slice.rs` L88-90). -/
def getBit (s : List (BitVec w)) (idx : Nat) : Res Bool := Res.ofOption (getBitOpt s idx)

/-- `set_opt` (`bit_slice.rs` L113-117). -/
def setOpt (s : List (BitVec w)) (idx : Nat) (v : BitVec w) : Option (List (BitVec w)) :=
  if idx < s.length then some (s.set idx v) else none

/-- `set` (`bit_slice.rs` L106-109). -/
def set (s : List (BitVec w)) (idx : Nat) (v : BitVec w) : Res (List (BitVec w)) :=
  Res.ofOption (setOpt s idx v)

/-- `set_ignore` (`bit_slice.rs` L144-146). -/
def setIgnore (s : List (BitVec w)) (idx : Nat) (v : BitVec w) : List (BitVec w) :=
  (setOpt s idx v).getD s

/-- The update of one limb in `set_bit_opt` (`bit_slice.rs` L135-138). -/
def limbSetBit (item : BitVec w) (bit : Nat) (b : Bool) : BitVec w :=
  let item := item &&& ~~~((1 : BitVec w) <<< bit)
  if b then item ||| ((1 : BitVec w) <<< bit) else item

/-- `set_bit_opt` (`bit_slice.rs` L132-140). -/
def setBitOpt (s : List (BitVec w)) (idx : Nat) (b : Bool) : Option (List (BitVec w)) :=
  let (i, bit) := idxBit w idx
  s[i]?.map fun item => s.set i (limbSetBit item bit b)

/-- `set_bit` (`bit_slice.rs` L124-129). -/
def setBit (s : List (BitVec w)) (idx : Nat) (b : Bool) : Res (List (BitVec w)) :=
  Res.ofOption (setBitOpt s idx b)

/-- `set_bit_ignore` (`bit_slice.rs` L150-152). -/
def setBitIgnore (s : List (BitVec w)) (idx : Nat) (b : Bool) : List (BitVec w) :=
  (setBitOpt s idx b).getD s

/-- `extend` for `Vec` (`bit_slice.rs` L225-229); `resize` appends copies of `v`. -/
def extend (s : List (BitVec w)) (len : Nat) (v : BitVec w) : List (BitVec w) :=
  if len > s.length then s ++ List.replicate (len - s.length) v else s

/-- `set_push` (`bit_slice.rs` L210-213). -/
def setPush (s : List (BitVec w)) (idx : Nat) (v : BitVec w) : List (BitVec w) :=
  setIgnore (extend s idx 0) idx v

/-- `set_bit_push` (`bit_slice.rs` L216-220). -/
def setBitPush (s : List (BitVec w)) (idx : Nat) (b : Bool) : List (BitVec w) :=
  let (len, _) := idxBit w idx
  setBitIgnore (extend s (len + 1) 0) idx b

end BitSlice

/-- `BitIter` (`bit_slice/iter.rs` L5-9): the not yet fetched limbs, the current limb and the
total number of bits produced. -/
structure BitIter (w : Nat) where
  iter : List (BitVec w)
  cur : Option (BitVec w)
  idx : Nat
deriving DecidableEq, Repr

namespace BitIter

/-- `BitIter::new` (`bit_slice/iter.rs` L12-22). -/
def new (s : List (BitVec w)) : BitIter w := ⟨s.tail, s.head?, 0⟩

/-- `next` (`bit_slice/iter.rs` L31-41): the item and the new iterator state. -/
def next (it : BitIter w) : Option Bool × BitIter w :=
  match it.cur with
  | none => (none, it)
  | some v =>
    let bitIdx := it.idx % w
    let it' : BitIter w := { it with idx := it.idx + 1 }
    let it' : BitIter w :=
      if bitIdx = w - 1 then { it' with cur := it'.iter.head?, iter := it'.iter.tail } else it'
    (some (v &&& ((1 : BitVec w) <<< bitIdx) != 0), it')

/-- `len` (`bit_slice/iter.rs` L53-62), with `usize` subtraction. -/
def len (m : Mode) (it : BitIter w) : Res Nat :=
  let remaining := it.iter.length
  match it.cur with
  | some _ => (usub m w it.idx).bind fun d => .ok ((w * remaining + d) % usizeSize)
  | none => .ok (w * remaining)

end BitIter

/-- `iter().rposition(|v| *v != 0)`: the last index holding a nonzero limb. -/
def rposNZ : List (BitVec w) → Option Nat
  | [] => none
  | x :: xs =>
    match rposNZ xs with
    | some i => some (i + 1)
    | none => if x ≠ 0 then some 0 else none

/-- `IntSlice::shrink` (`utils.rs` L11-16 for slices, L18-25 for `Vec`): both panic on an
empty input, because index 0 is out of range. -/
def shrink (s : List (BitVec w)) : Res (List (BitVec w)) :=
  let idx := (rposNZ s).getD 0
  if idx + 1 ≤ s.length then .ok (s.take (idx + 1)) else .panic

/-- `const_reverse` (`utils.rs` L79-88): swaps positions `idx` and `N - idx - 1`. -/
def constReverse (bytes : List (BitVec 8)) : List (BitVec 8) :=
  let n := bytes.length
  forUp (n / 2) (fun idx b =>
    let tmp := b.getD idx 0
    let b := b.set idx (b.getD (n - idx - 1) 0)
    b.set (n - idx - 1) tmp) bytes

/-- State of the loop of `int_to_arr`: array, what is left, whether the loop was left by
`break`. -/
structure IntToArrState (t u : Nat) where
  out : List (BitVec u)
  left : BitVec t
  done : Bool

/-- `int_to_arr::<T, U, N>` (`utils.rs` L27-62) for unsigned primitive `T` of `t` bits and `U`
of `u` bits. `U::from_checked(x)` succeeds iff `x < 2^u`. `max` is computed in `T`; it is only
evaluated when `val` does not fit `U`, i.e. when `u < t`. For `N = 0` the `debug_assert` of L32
panics in debug builds; in release builds `out[0]` panics when the value fits `U`, and otherwise
the loop runs over nothing and the empty array is returned. The mode only matters for `N = 0`;
it defaults to debug for the callers that pass a positive `N`. -/
def intToArr (t u n : Nat) (v : BitVec t) (m : Mode := .debug) : Res (List (BitVec u)) :=
  if n = 0 ∧ (m = .debug ∨ v.toNat < 2 ^ u) then .panic
  else if v.toNat < 2 ^ u then
    .ok ((List.replicate n (0 : BitVec u)).set 0 (BitVec.ofNat u v.toNat))
  else
    let max : BitVec t := BitVec.ofNat t (2 ^ u - 1) + 1
    let st := forUp n (fun i (st : IntToArrState t u) =>
      if st.done then st
      else if st.left.toNat < 2 ^ u then
        { st with out := st.out.set i (BitVec.ofNat u st.left.toNat), done := true }
      else
        let rem := st.left % max
        { st with left := st.left / max, out := st.out.set i (BitVec.ofNat u rem.toNat) })
      ⟨List.replicate n 0, v, false⟩
    .ok st.out

/-- `checked_shl(usize)` of a primitive integer (`crates/traits/src/__impl.rs` L72-91): the
amount is first truncated to `u32`, then `None` iff it is at least the width. -/
def checkedShl (x : BitVec w) (k : Nat) : Option (BitVec w) :=
  let k := k % 2 ^ 32
  if k < w then some (x <<< k) else none

/-- One iteration of the loop of `arr_to_int` (`utils.rs` L72-75); `none` is the early return by
`?`. `i` is the limb, `out` the sum so far; `out += ..` overflowing panics in debug builds. -/
def arrToIntStep (t u : Nat) (m : Mode) (idx : Nat) (i : BitVec t) (out : Option (BitVec u)) :
    Res (Option (BitVec u)) :=
  match out with
  | none => .ok none
  | some out =>
    if i.toNat < 2 ^ u then
      match checkedShl (BitVec.ofNat u i.toNat) (idx * t) with
      | none => .ok none
      | some x =>
        if (ovfAdd out x).2 then
          match m with
          | .debug => .panic
          | .release => .ok (some (ovfAdd out x).1)
        else .ok (some (ovfAdd out x).1)
    else .ok none

/-- `arr_to_int::<T, U>` (`utils.rs` L64-77): limbs of `t` bits into an unsigned integer of `u`
bits. The `Option` is the function's result, and the `Res` records the overflow check of
`out += ..` in debug builds. -/
def arrToInt (t u : Nat) (m : Mode) (arr : List (BitVec t)) : Res (Option (BitVec u)) :=
  forUpM arr.length (fun idx out => arrToIntStep t u m idx (arr.getD idx 0) out) (some 0)

end Verif
