import Verif.Model.BigIntHandle

/-!
# Model of what `BigInt` code does to the store: temporaries, drops and unwinding
(`crates/ints/src/big_int.rs`, `big_int/macros.rs`)

`Model/BigInt.lean` computes with values; here the same functions run on words over `INT_STORE`. Every
`BigInt` that the code creates on the way is there: clones, `BigInt::from` temporaries, the operands
of by-value operators, old values of assigned variables. A variable is dropped where its scope ends,
and also when a panic unwinds through the scope. The store outlives a panic, so every outcome comes
with the store that it leaves.
-/

namespace Verif

namespace BigOwn

open BInt BigWord

/-- Code that uses the store: its outcome, and the store afterwards. -/
def Act (α : Type) := IntStore → Res α × IntStore

namespace Act

variable {α β : Type}

/-- Code that computes without touching the store. -/
def pur (r : Res α) : Act α := fun st => (r, st)

/-- Code that only reads the store. -/
def read (f : IntStore → Res α) : Act α := fun st => (f st, st)

/-- `x; f` — a panic in `x` skips `f`. -/
def bind (x : Act α) (f : α → Act β) : Act β := fun st =>
  match x st with
  | (.ok a, st) => f a st
  | (.panic, st) => (.panic, st)
  | (.hang, st) => (.hang, st)

/-- A call that returns the new store. When it panics the store is as before; the one exception, a
count that wraps in a debug build, needs `2^64 - 1` references to one value. -/
def call (f : IntStore → Res (IntStore × α)) : Act α := fun st =>
  match f st with
  | .ok (st, a) => (.ok a, st)
  | .panic => (.panic, st)
  | .hang => (.hang, st)

/-- `drop` of a `BigInt` (`big_int.rs` L334-341). -/
def dropWord (w : Nat) : Act Unit := call fun st => (BigWord.drop st w).bind fun st => .ok (st, ())

/-- `f` in the scope of a variable or temporary `w`, which is dropped when `f` returns or unwinds. (A
panic while dropping during an unwind would abort; it is ignored here, and never happens.) -/
def owning (w : Nat) (f : Act α) : Act α := fun st =>
  match f st with
  | (.ok a, st) => (dropWord w).bind (fun _ => pur (.ok a)) st
  | (.panic, st) => (.panic, ((dropWord w) st).2)
  | (.hang, st) => (.hang, st)

/-- `f` in the scope of a variable `w` that lives on when `f` returns, and is dropped when `f`
unwinds. -/
def guarding (w : Nat) (f : Act α) : Act α := fun st =>
  match f st with
  | (.ok a, st) => (.ok a, st)
  | (.panic, st) => (.panic, ((dropWord w) st).2)
  | (.hang, st) => (.hang, st)

end Act

open Act

/-- `new_intern` (`big_int.rs` L180-189). If the offset does not fit the word, the reference that
`add` has taken stays. -/
def newIntern (m : Mode) (s : List (BitVec 64)) (neg : Bool) : Act Nat :=
  (call fun st => Intern.add m st s).bind fun id =>
  pur (BigWord.new id (if neg then tagNeg else tagNone))

/-- `new_slice` (`big_int.rs` L191-201). -/
def newSlice (m : Mode) (s : List (BitVec 64)) (neg : Bool) : Act Nat :=
  (pur (shrink s)).bind fun v =>
  if v.length = 1 ∧ (v.getD 0 0).toNat ≤ inlineMax then pur (BigWord.newInline (v.getD 0 0) neg)
  else newIntern m v neg

/-- `clone` (`big_int.rs` L324-332). -/
def clone (m : Mode) (w : Nat) : Act Nat := call fun st => BigWord.clone m st w

/-- The slice and the sign of a `BigInt`, as `with_slice` and `is_negative` give them
(`big_int.rs` L203-206, L702-704). -/
def value (w : Nat) : Act BInt := read fun st => BigWord.view st w

/-- A value of a primitive integer type: of an unsigned or a signed type of `t` bits. -/
inductive Prim where
  | u (t : Nat) (v : BitVec t)
  | s (t : Nat) (v : BitVec t)

/-- `From` of the primitive types (`macros.rs` L45-64). -/
def fromPrim (m : Mode) : Prim → Act Nat
  | .u t v => (pur (intToArr t 64 (arrSize t) v)).bind fun a => newSlice m a false
  | .s t v => (pur (intToArr t 64 (arrSize t) (unsignedAbs v))).bind fun a =>
      newSlice m a (decide (v.toInt < 0))

/-- `PartialOrd` with a primitive (`macros.rs` L185-195): the temporary is dropped afterwards. -/
def cmpPrim (m : Mode) (a : Nat) (p : Prim) : Act Ordering :=
  (fromPrim m p).bind fun x => owning x (read fun st => BigWord.cmp st a x)

/-- `PartialEq` with a primitive (`macros.rs` L162-183): no temporary. -/
def eqPrim (m : Mode) (a : Nat) : Prim → Act Bool
  | .u t v => (value a).bind fun x => pur (BInt.eqU t x v)
  | .s t v => (value a).bind fun x => pur (BInt.eqS t m x v)

/-- `TryFrom<&BigInt>` for an unsigned type (`macros.rs` L97-110): the temporary of each condition is
dropped before its branch is taken. -/
def tryU (t : Nat) (m : Mode) (a : Nat) : Act (Except Side (BitVec t)) :=
  (cmpPrim m a (.u t (BitVec.allOnes t))).bind fun c =>
  if c = .gt then pur (.ok (.error .above))
  else (cmpPrim m a (.u t 0)).bind fun c =>
  if c = .lt then pur (.ok (.error .below))
  else (value a).bind fun x => pur ((arrToInt 64 t m x.limbs).bind fun r =>
    match r with
    | some x => .ok (.ok x)
    | none => .ok (.error .above))

/-- `TryFrom<&BigInt>` for a signed type (`macros.rs` L82-95). -/
def tryS (t : Nat) (m : Mode) (a : Nat) : Act (Except Side (BitVec t)) :=
  (cmpPrim m a (.s t (BitVec.intMax t))).bind fun c =>
  if c = .gt then pur (.ok (.error .above))
  else (cmpPrim m a (.s t (BitVec.intMin t))).bind fun c =>
  if c = .lt then pur (.ok (.error .below))
  else (value a).bind fun x => pur ((BInt.arrToIntS 64 t m x.limbs).bind fun r =>
    match r with
    | some x => .ok (.ok x)
    | none => .ok (.error .above))

/-- `TryFrom<BigInt>` and `FromChecked` (`macros.rs` L66-80, L128-138). -/
def tryUVal (t : Nat) (m : Mode) (a : Nat) : Act (Except Side (BitVec t)) := owning a (tryU t m a)
def trySVal (t : Nat) (m : Mode) (a : Nat) : Act (Except Side (BitVec t)) := owning a (tryS t m a)

/-- `FromSaturating` (`macros.rs` L140-158). -/
def saturateU (t : Nat) (m : Mode) (a : Nat) : Act (BitVec t) :=
  (tryUVal t m a).bind fun r => pur (.ok (match r with
    | .ok x => x
    | .error .above => BitVec.allOnes t
    | .error .below => 0))
def saturateS (t : Nat) (m : Mode) (a : Nat) : Act (BitVec t) :=
  (trySVal t m a).bind fun r => pur (.ok (match r with
    | .ok x => x
    | .error .above => BitVec.intMax t
    | .error .below => BitVec.intMin t))

/-- `FromTruncating` (`macros.rs` L114-126). -/
def truncateU (t : Nat) (m : Mode) (a : Nat) : Act (BitVec t) :=
  owning a ((value a).bind fun x => pur (BInt.truncateU t m x))
def truncateS (t : Nat) (m : Mode) (a : Nat) : Act (BitVec t) :=
  owning a ((value a).bind fun x => pur (BInt.truncateS t m x))

/-- The binary operators. -/
inductive Op where
  | add | mul | sub | div | rem | shl | shr | bitand | bitor | bitxor
deriving DecidableEq, Repr

/-- What the operators other than shifts compute from the two slices and signs. -/
def Op.raw (m : Mode) : Op → BInt → BInt → Res (List (BitVec 64) × Bool)
  | .add => addRaw
  | .mul => mulRaw
  | .sub => subRaw
  | .div => divRaw m
  | .rem => remRaw m
  | .bitand => bitandRaw
  | .bitor => bitorRaw
  | .bitxor => bitxorRaw
  | .shl => shlRaw m
  | .shr => shrRaw m

/-- `usize::try_from(rhs).expect(..)` (`big_int.rs` L496-508). -/
def shiftAmount (m : Mode) (b : Nat) : Act Nat :=
  (tryU 64 m b).bind fun r => pur (match r with
    | .ok k => .ok k.toNat
    | .error _ => .panic)

/-- `&a op &b` (`big_int.rs` L433-529); the shifts convert the amount while they hold the slice. -/
def opRef (m : Mode) (o : Op) (a b : Nat) : Act Nat :=
  match o with
  | .shl => (value a).bind fun x => (shiftAmount m b).bind fun k =>
      (pur (ElementShl.shl x.limbs k)).bind fun out => newSlice m out x.isNegative
  | .shr => (value a).bind fun x => (shiftAmount m b).bind fun k =>
      (pur (ElementShr.shr m x.limbs k)).bind fun out => newSlice m out x.isNegative
  | o => (value a).bind fun x => (value b).bind fun y => (pur (o.raw m x y)).bind fun r =>
      newSlice m r.1 r.2

/-- `a` is moved into the function if `v`: dropped at its end. -/
def moved {α : Type} (v : Bool) (a : Nat) (f : Act α) : Act α := if v then owning a f else f

/-- The four versions of an operator (`macros.rs` L237-268): by value (`va`, `vb`) or by reference. -/
def op (m : Mode) (o : Op) (va vb : Bool) (a b : Nat) : Act Nat :=
  moved va a (moved vb b (opRef m o a b))

/-- `a op p` for a primitive `p` (`macros.rs` L18-39). -/
def opPrim (m : Mode) (o : Op) (a : Nat) (p : Prim) : Act Nat :=
  (guarding a (fromPrim m p)).bind fun x => op m o true true a x

/-- `a op= &b` (`big_int.rs` L583-596): the old value is dropped once the new one is there. -/
def assignRef (m : Mode) (o : Op) (a b : Nat) : Act Nat :=
  (opRef m o a b).bind fun w => (dropWord a).bind fun _ => pur (.ok w)

/-- `a op= b` (`big_int.rs` L583-587), by value or by reference. -/
def assign (m : Mode) (o : Op) (vb : Bool) (a b : Nat) : Act Nat := moved vb b (assignRef m o a b)

/-- `a op= p` for a primitive `p` (`macros.rs` L1-16). -/
def assignPrim (m : Mode) (o : Op) (a : Nat) (p : Prim) : Act Nat :=
  (fromPrim m p).bind fun x => (op m o false true a x).bind fun w =>
  (dropWord a).bind fun _ => pur (.ok w)

/-- `!a` (`big_int.rs` L531-542). -/
def not (m : Mode) (a : Nat) : Act Nat :=
  owning a ((value a).bind fun x => (pur (notRaw x)).bind fun r => newSlice m r.1 r.2)

/-- `-a` (`big_int.rs` L544-551). -/
def neg (a : Nat) : Act Nat := pur (.ok (invertNeg a))

/-- `-&a` (`big_int.rs` L553-561). -/
def negRef (m : Mode) (a : Nat) : Act Nat := (clone m a).bind fun w => pur (.ok (invertNeg w))

/-- `abs` (`big_int.rs` L676-682). -/
def abs (a : Nat) : Act Nat := if negative (tag a) then neg a else pur (.ok a)

/-- The loop `while rhs > 1` of `pow` (`big_int.rs` L716-719), for at most `fuel` rounds; `rhs` and
`out` are variables of the loop, and `rhs` is dropped after it. -/
def powLoop (m : Mode) (self : Nat) : Nat → Nat → Nat → Act Nat
  | 0, _, _ => pur .hang
  | fuel + 1, rhs, out =>
    (guarding rhs (guarding out (cmpPrim m rhs (.s 32 1)))).bind fun c =>
    if c = .gt then
      (guarding rhs (guarding out ((clone m self).bind fun t =>
        assign m .mul true out t))).bind fun out =>
      (guarding rhs (guarding out (assignPrim m .sub rhs (.s 32 1)))).bind fun rhs =>
      powLoop m self fuel rhs out
    else (dropWord rhs).bind fun _ => pur (.ok out)

/-- `pow` (`big_int.rs` L710-722). -/
def pow (m : Mode) (fuel : Nat) (self rhs : Nat) : Act Nat :=
  owning self
    ((guarding rhs (eqPrim m rhs (.s 32 0))).bind fun z =>
    if z then owning rhs (fromPrim m (.s 32 1))
    else (guarding rhs (clone m self)).bind fun out => powLoop m self fuel rhs out)

/-- The digit loop of `write_base` (`big_int.rs` L214-219), for at most `fuel` rounds; the variable
`scratch` is dropped after it. -/
def digitLoop (m : Mode) (base : BitVec 64) : Nat → Nat → List (BitVec 8) → Act (List (BitVec 8))
  | 0, _, _ => pur .hang
  | fuel + 1, scratch, digits =>
    (guarding scratch (cmpPrim m scratch (.s 32 0))).bind fun c =>
    if c = .gt then
      (guarding scratch ((clone m scratch).bind fun t => (opPrim m .rem t (.u 64 base)).bind fun r =>
        (tryUVal 8 m r).bind fun d => pur (match d with
          | .ok d => .ok d
          | .error _ => .panic))).bind fun d =>
      (guarding scratch (assignPrim m .div scratch (.u 64 base))).bind fun scratch =>
      digitLoop m base fuel scratch (digits ++ [d])
    else (dropWord scratch).bind fun _ => pur (.ok digits)

/-- `write_base` (`big_int.rs` L208-229). (`scratch` is gone before the digits are written, not after:
writing them does not touch the store.) -/
def writeBase (m : Mode) (fuel : Nat) (base : BitVec 64) (chars : List Char) (a : Nat) :
    Act (List Char) :=
  (clone m a).bind fun scratch => (digitLoop m base fuel scratch []).bind fun digits =>
  let digits := if digits.isEmpty then [0] else digits
  pur (writeDigits chars digits.reverse)

/-- `Display`, `UpperHex` and `LowerHex` (`big_int.rs` L270-279, L296-322). -/
def format (m : Mode) (fuel : Nat) (base : BitVec 64) (pre chars : List Char) (a : Nat) :
    Act (List Char) :=
  (value a).bind fun x => (writeBase m fuel base chars a).bind fun cs =>
  pur (.ok (signChars x ++ pre ++ cs))

/-- The loop of `from_str_radix` (`big_int.rs` L663-666); `out` is dropped when a character is
refused. -/
def parseLoop (m : Mode) (radix : BitVec 32) : List Char → Nat → Act (Except ParseError Nat)
  | [], out => pur (.ok (.ok out))
  | c :: cs, out =>
    match valFromChar c radix.toNat with
    | .error e => owning out (pur (.ok (.error e)))
    | .ok d =>
      (opPrim m .mul out (.u 32 radix)).bind fun x =>
      (opPrim m .add x (.u 32 (BitVec.ofNat 32 d))).bind fun out => parseLoop m radix cs out

/-- `from_str_radix` (`big_int.rs` L661-668); `zero` is inline (L161-166). -/
def fromStrRadix (m : Mode) (s : List Char) (radix : BitVec 32) : Act (Except ParseError Nat) :=
  (pur (BigWord.newInline 0 false)).bind fun out => parseLoop m radix s out

end BigOwn

end Verif
