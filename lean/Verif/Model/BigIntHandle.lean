import Verif.Model.BigInt
import Verif.Model.Intern

/-!
# Model of `BigInt` words over the interner (`crates/ints/src/big_int.rs`)

A `BigInt` is one `usize`: an inline number or the offset of an interned slice, shifted left by two,
with a tag in the low two bits. `INT_STORE` is passed around explicitly; single-threaded.
-/

namespace Verif

namespace BigWord

open BInt

/-- The type of `INT_STORE` (`big_int.rs` L28). -/
abbrev IntStore := Intern.Store (List (BitVec 64))

/-- `Tag` (`big_int.rs` L30-37). -/
def tagNone : Nat := 0
def tagNeg : Nat := 1
def tagInline : Nat := 2
def tagInlineNeg : Nat := 3

/-- `TaggedOffset::new` (`big_int.rs` L90-97). -/
def new (offset tag : Nat) : Res Nat :=
  if offset ≤ inlineMax then .ok (offset * 4 + tag) else .panic

/-- `invert_neg` (`big_int.rs` L99-103). -/
def invertNeg (w : Nat) : Nat := w ^^^ 1

/-- `offset` and `tag` (`big_int.rs` L111-121). -/
def offset (w : Nat) : Nat := w / 4
def tag (w : Nat) : Nat := w % 4

/-- `Tag::inline` and `Tag::negative` (`big_int.rs` L58-68). -/
def inline (t : Nat) : Bool := t = tagInline ∨ t = tagInlineNeg
def negative (t : Nat) : Bool := t = tagNeg ∨ t = tagInlineNeg

/-- `val` (`big_int.rs` L147-153). -/
def mag (st : IntStore) (w : Nat) : Res Mag :=
  if inline (tag w) then .ok (.inline (BitVec.ofNat 64 (offset w)))
  else (Intern.get st (offset w)).bind fun s => .ok (.slice s)

/-- The number that the word stands for now, with its sign. -/
def view (st : IntStore) (w : Nat) : Res BInt :=
  (mag st w).bind fun x => .ok ⟨negative (tag w), x⟩

/-- `new_inline` (`big_int.rs` L168-178). -/
def newInline (v : BitVec 64) (neg : Bool) : Res Nat :=
  new v.toNat (if v ≠ 0 ∧ neg then tagInlineNeg else tagInline)

/-- `new_intern` (`big_int.rs` L180-189). -/
def newIntern (m : Mode) (st : IntStore) (s : List (BitVec 64)) (neg : Bool) :
    Res (IntStore × Nat) :=
  (Intern.add m st s).bind fun x =>
  (new x.2 (if neg then tagNeg else tagNone)).bind fun w => .ok (x.1, w)

/-- `new_slice` (`big_int.rs` L191-201). -/
def newSlice (m : Mode) (st : IntStore) (s : List (BitVec 64)) (neg : Bool) :
    Res (IntStore × Nat) :=
  (shrink s).bind fun v =>
  if v.length = 1 ∧ (v.getD 0 0).toNat ≤ inlineMax then
    (newInline (v.getD 0 0) neg).bind fun w => .ok (st, w)
  else newIntern m st v neg

/-- A binary operator on `&BigInt`s (`big_int.rs` L433-529): read both operands, compute
(`op` is one of the `…Raw` functions), store the result. -/
def binop (op : BInt → BInt → Res (List (BitVec 64) × Bool)) (m : Mode) (st : IntStore) (a b : Nat) :
    Res (IntStore × Nat) :=
  (view st a).bind fun x => (view st b).bind fun y => (op x y).bind fun r =>
  newSlice m st r.1 r.2

/-- `clone` (`big_int.rs` L324-332). -/
def clone (m : Mode) (st : IntStore) (w : Nat) : Res (IntStore × Nat) :=
  if inline (tag w) then .ok (st, w)
  else (Intern.incr m st (offset w)).bind fun st => .ok (st, w)

/-- `drop` (`big_int.rs` L334-341). -/
def drop (st : IntStore) (w : Nat) : Res IntStore :=
  if inline (tag w) then .ok st else Intern.decr st (offset w)

/-- `eq` (`big_int.rs` L349-359). -/
def eq (st : IntStore) (a b : Nat) : Res Bool :=
  if a = b then .ok true
  else if tag a = tag b ∧ ¬ inline (tag a) then
    (mag st a).bind fun x => (mag st b).bind fun y =>
    .ok (decide (BInt.limbs ⟨false, x⟩ = BInt.limbs ⟨false, y⟩))
  else .ok false

/-- `cmp` (`big_int.rs` L369-399). -/
def cmp (st : IntStore) (a b : Nat) : Res Ordering :=
  if a = b then .ok .eq
  else if negative (tag a) ∧ ¬ negative (tag b) then .ok .lt
  else if ¬ negative (tag a) ∧ negative (tag b) then .ok .gt
  else
    (mag st a).bind fun x => (mag st b).bind fun y =>
    let l := BInt.limbs ⟨false, x⟩
    let r := BInt.limbs ⟨false, y⟩
    let out := if l.length ≠ r.length then compare l.length r.length else zipCmp l r
    .ok (if negative (tag a) then out.swap else out)

end BigWord

end Verif
