import Verif.Model.Element
import Verif.Model.Bitwise

/-!
# The slice algorithms over an arbitrary container (`crates/bits/src/bit_slice.rs`,
`algos/element/shl.rs`, `algos/element/shr.rs`, `algos/bitwise/add.rs`)

`BitSliceExt` is a public trait that is safe to implement, and every one of its methods may be
overridden. The algorithms are written once, for all implementations, and four places in them
contain `unsafe` blocks: the in-place shifts read a limb with `unwrap_unchecked`, and bitwise
addition ends a `match` with `unreachable_unchecked`. Here a container is an object with the
methods the algorithms call; a method may change the object (a container may use interior
mutability) and may panic. The outcome `ub` is undefined behaviour.

The other models of these functions (`Model/Element.lean`, `Model/Bitwise.lean`) take a container
to be a list of limbs, as it is for `[I]`, `[I; N]` and `Vec<I>`.
Simplification: limbs are `BitVec w`; a user-defined limb type is not modelled.
-/

namespace Verif

namespace Container

/-- Outcome of a call with `unsafe` blocks: a value, a panic, or undefined behaviour. -/
inductive Out (α : Type _) where
  | ok (a : α)
  | panic
  | ub
deriving DecidableEq, Repr

namespace Out

variable {α β : Type _}

/-- Sequencing: a panic or undefined behaviour ends the call. -/
def bind (x : Out α) (f : α → Out β) : Out β :=
  match x with
  | ok a => f a
  | panic => panic
  | ub => ub

/-- A call of safe code, which has no undefined behaviour of its own. None of the methods called
here runs forever, and `hang` is never produced. -/
def ofRes : Res α → Out α
  | .ok a => ok a
  | .panic => panic
  | .hang => panic

/-- `Option::unwrap_unchecked`: undefined behaviour on `None`. -/
def unwrapUnchecked : Option α → Out α
  | some a => ok a
  | none => ub

end Out

/-- `for idx in 0..n` with a body that has `unsafe` blocks. -/
def forUpO {σ : Type _} : Nat → (Nat → σ → Out σ) → σ → Out σ
  | 0, _, s => .ok s
  | n + 1, f, s => (forUpO n f s).bind (f n)

/-- `for idx in (0..n).rev()` with a body that has `unsafe` blocks. -/
def forDownO {σ : Type _} : Nat → (Nat → σ → Out σ) → σ → Out σ
  | 0, _, s => .ok s
  | n + 1, f, s => (f n s).bind (forDownO n f)

/-- The methods of `BitSliceExt` that the in-place shifts and bitwise addition call
(`bit_slice.rs` L45-157), for objects with state `σ`. `slice` is only asked for its length, and
`sliceMut` gives the limbs together with what the object becomes when they are overwritten. -/
structure Methods (w : Nat) (σ : Type) where
  /-- `self.slice().len()` (L50) -/
  sliceLen : σ → Res (Nat × σ)
  /-- `slice_mut` (L53) -/
  sliceMut : σ → Res (List (BitVec w) × (List (BitVec w) → σ))
  /-- `len` (L56-59) -/
  len : σ → Res (Nat × σ)
  /-- `bit_len` (L68-70) -/
  bitLen : σ → Res (Nat × σ)
  /-- `get_opt` (L79-81) -/
  getOpt : σ → Nat → Res (Option (BitVec w) × σ)
  /-- `set_ignore` (L144-146) -/
  setIgnore : σ → Nat → BitVec w → Res σ
  /-- `get_bit_opt` (L93-99) -/
  getBitOpt : σ → Nat → Res (Option Bool × σ)
  /-- `get_bit` (L88-90) -/
  getBit : σ → Nat → Res (Bool × σ)
  /-- `set_bit` (L124-129) -/
  setBit : σ → Nat → Bool → Res σ

/-- The methods a container has when it implements only `slice` and `slice_mut`, as `view` and
`put`, and takes the default for all others (`bit_slice.rs` L55-157): `view s` are its limbs, and
`put s l` is the container after its limbs are overwritten with `l`. -/
def defaults {w : Nat} {σ : Type} (view : σ → List (BitVec w))
    (put : σ → List (BitVec w) → σ) : Methods w σ where
  sliceLen s := .ok ((view s).length, s)
  sliceMut s := .ok (view s, put s)
  len s := .ok ((view s).length, s)
  bitLen s := .ok (BitSlice.bitLen (view s), s)
  getOpt s i := .ok (BitSlice.getOpt (view s) i, s)
  setIgnore s i v := .ok (match BitSlice.setOpt (view s) i v with
    | some l => put s l
    | none => s)
  getBitOpt s i := .ok (BitSlice.getBitOpt (view s) i, s)
  getBit s i := (BitSlice.getBit (view s) i).bind fun b => .ok (b, s)
  setBit s i b := (BitSlice.setBit (view s) i b).bind fun l => .ok (put s l)

/-- `impl BitSliceExt for [I]`, `for [I; N]` and `for Vec<I>` (`bit_slice.rs` L160-201). -/
def plain (w : Nat) : Methods w (List (BitVec w)) := defaults (fun s => s) (fun _ l => l)

section Shl

variable {w : Nat} {σ : Type} (c : Methods w σ)

/-- One turn of the loop of `inner_shl_wrap_and_mask` (`shl.rs` L51-65). -/
def shlBody (arrShift elemShift idx : Nat) (s : σ) : Out σ :=
  let inverse := (w - elemShift) % w
  let mask := ElementShl.elemMask w elemShift
  (Out.ofRes (c.getOpt s idx)).bind fun (v, s) =>
  (Out.unwrapUnchecked v).bind fun val =>
  let high := val >>> inverse
  let low := val <<< elemShift
  (Out.ofRes (c.getOpt s (idx + arrShift))).bind fun (v, s) =>
  let high := (v.getD 0 &&& ~~~mask) ||| (high &&& mask)
  (Out.ofRes (c.setIgnore s (idx + arrShift) high)).bind fun s =>
  let low := low &&& ~~~mask
  Out.ofRes (c.setIgnore s (idx + arrShift - 1) low)

/-- `inner_shl_wrap_and_mask` (`shl.rs` L44-69). -/
def innerShl (s : σ) (right : Nat) : Out σ :=
  let arrShift := right / w + 1
  let elemShift := right % w
  (Out.ofRes (c.sliceLen s)).bind fun (n, s) =>
  (forDownO n (shlBody c arrShift elemShift) s).bind fun s =>
  (Out.ofRes (c.sliceMut s)).bind fun (l, put) =>
  if arrShift - 1 ≤ l.length then
    .ok (put (List.replicate (arrShift - 1) 0 ++ l.drop (arrShift - 1)))
  else .panic

/-- `ElementShl::shl_checked` (`shl.rs` L73-79). `None` leaves the container as it is. -/
def shlChecked (s : σ) (right : Nat) : Out (Option σ) :=
  (Out.ofRes (c.bitLen s)).bind fun (n, s) =>
  if right > n then .ok none
  else (innerShl c s right).bind fun s => .ok (some s)

/-- `ElementShl::shl_wrapping` (`shl.rs` L83-87). -/
def shlWrapping (m : Mode) (s : σ) (right : Nat) : Out σ :=
  (Out.ofRes (c.bitLen s)).bind fun (n, s) =>
  (Out.ofRes (maskShift m n right)).bind fun k => innerShl c s k

end Shl

section Shr

variable {w : Nat} {σ : Type} (c : Methods w σ)

/-- One turn of the loop of `inner_shr_wrap_and_mask` (`shr.rs` L48-65). -/
def shrBody (arrShift elemShift idx : Nat) (s : σ) : Out σ :=
  let inverse := (w - elemShift) % w
  let mask := ElementShr.elemMask w elemShift
  (Out.ofRes (c.getOpt s idx)).bind fun (v, s) =>
  (Out.unwrapUnchecked v).bind fun val =>
  let high := val <<< inverse
  let low := val >>> elemShift
  (if arrShift ≤ idx then
    (Out.ofRes (c.getOpt s (idx - arrShift))).bind fun (v, s) =>
    let high := (v.getD 0 &&& ~~~mask) ||| (high &&& mask)
    Out.ofRes (c.setIgnore s (idx - arrShift) high)
   else .ok s).bind fun s =>
  if arrShift ≤ idx + 1 then
    (Out.ofRes (c.getOpt s (idx + 1 - arrShift))).bind fun (v, s) =>
    let low := (v.getD 0 &&& mask) ||| (low &&& ~~~mask)
    Out.ofRes (c.setIgnore s (idx + 1 - arrShift) low)
  else .ok s

/-- `inner_shr_wrap_and_mask` (`shr.rs` L39-70). -/
def innerShr (m : Mode) (s : σ) (right : Nat) : Out σ :=
  let arrShift := right / w + 1
  let elemShift := right % w
  (Out.ofRes (c.sliceLen s)).bind fun (n, s) =>
  (forUpO n (shrBody c arrShift elemShift) s).bind fun s =>
  (Out.ofRes (c.len s)).bind fun (n, s) =>
  (Out.ofRes (usub m n arrShift)).bind fun e =>
  let empty := (e + 1) % usizeSize
  (Out.ofRes (c.sliceMut s)).bind fun (l, put) =>
  if empty ≤ l.length then
    .ok (put (l.take empty ++ List.replicate (l.length - empty) 0))
  else .panic

/-- `ElementShr::shr_checked` (`shr.rs` L74-80). -/
def shrChecked (m : Mode) (s : σ) (right : Nat) : Out (Option σ) :=
  (Out.ofRes (c.bitLen s)).bind fun (n, s) =>
  if right > n then .ok none
  else (innerShr c m s right).bind fun s => .ok (some s)

/-- `ElementShr::shr_wrapping` (`shr.rs` L84-88). -/
def shrWrapping (m : Mode) (s : σ) (right : Nat) : Out σ :=
  (Out.ofRes (c.bitLen s)).bind fun (n, s) =>
  (Out.ofRes (maskShift m n right)).bind fun k => innerShr c m s k

end Shr

section Add

variable {w : Nat} {σ τ : Type} (c : Methods w σ) (d : Methods w τ)

/-- The `match c + l + r` of bitwise addition, which gives the new bit and the new carry
(`add.rs` L22-43 and L65-86): the last arm is `unreachable_unchecked`. -/
def addBit (l r carry : Bool) : Out (Bool × Bool) :=
  match carry.toNat + l.toNat + r.toNat with
  | 0 => .ok (false, false)
  | 1 => .ok (true, false)
  | 2 => .ok (false, true)
  | 3 => .ok (true, true)
  | _ => .ub

/-- `BitwiseAdd::add` (`add.rs` L10-51); the output is a `Vec`. -/
def bitwiseAdd (s : σ) (t : τ) : Out (List (BitVec w)) :=
  (Out.ofRes (c.len s)).bind fun (ls, s) =>
  (Out.ofRes (d.len t)).bind fun (lt, t) =>
  (Out.ofRes (c.bitLen s)).bind fun (bs, s) =>
  (Out.ofRes (d.bitLen t)).bind fun (bt, t) =>
  (forUpO (max bs bt + 1) (fun idx (st : (σ × τ) × (List (BitVec w) × Bool)) =>
    (Out.ofRes (c.getBitOpt st.1.1 idx)).bind fun (l, s) =>
    (Out.ofRes (d.getBitOpt st.1.2 idx)).bind fun (r, t) =>
    (addBit (l.getD false) (r.getD false) st.2.2).bind fun (new, carry) =>
    .ok ((s, t), (if new then BitSlice.setBitPush st.2.1 idx new else st.2.1, carry)))
    ((s, t), (List.replicate (max ls lt) 0, false))).bind fun st => .ok st.2.1

/-- `BitwiseAdd::add_in_place` (`add.rs` L55-92). -/
def bitwiseAddInPlace (s : σ) (t : τ) : Out σ :=
  (Out.ofRes (c.bitLen s)).bind fun (bs, s) =>
  (Out.ofRes (d.bitLen t)).bind fun (bt, t) =>
  (forUpO (max bs bt + 1) (fun idx (st : (σ × τ) × Bool) =>
    (Out.ofRes (c.getBit st.1.1 idx)).bind fun (l, s) =>
    (Out.ofRes (d.getBit st.1.2 idx)).bind fun (r, t) =>
    (addBit l r st.2).bind fun (new, carry) =>
    (Out.ofRes (c.setBit s idx new)).bind fun s => .ok ((s, t), carry))
    ((s, t), false)).bind fun st => .ok st.1.1

end Add

end Container

end Verif
