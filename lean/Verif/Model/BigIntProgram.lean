import Verif.Model.BigIntOwn

/-!
# Programs that call the functions of `BigInt`

A program is a list of calls on numbered variables. It runs on words over the store
(`runWords`, by the code of `Model/BigIntOwn.lean`), or on values (`runValues`, by
`Model/BigInt.lean`), where nothing is shared and nothing has to be freed. Panics are caught, and the
program goes on.
-/

namespace Verif

namespace BigOwn

open BInt BigWord Act

/-- A call of a function of `BigInt`. Variables are given by number; `v…` says that the argument is
moved rather than borrowed. The calls that return a `BigInt` make a new variable. -/
inductive Call where
  /-- `BigInt::from` (`macros.rs` L45-64). -/
  | ofPrim (p : Prim)
  /-- `from_str_radix` (`big_int.rs` L661-668). -/
  | parse (s : List Char) (radix : BitVec 32)
  /-- `clone` and the end of a variable (`big_int.rs` L324-341). -/
  | clone (j : Nat)
  | drop (j : Nat)
  /-- Operators and assigning operators (`big_int.rs` L433-529, L563-596, `macros.rs` L1-39). -/
  | op (o : Op) (vj vk : Bool) (j k : Nat)
  | opPrim (o : Op) (j : Nat) (p : Prim)
  | assign (o : Op) (vk : Bool) (j k : Nat)
  | assignPrim (o : Op) (j : Nat) (p : Prim)
  /-- `!x`, `-x`, `-&x`, `abs` (`big_int.rs` L531-561, L676-682). -/
  | not (j : Nat)
  | neg (j : Nat)
  | negRef (j : Nat)
  | abs (j : Nat)
  /-- `pow` (`big_int.rs` L710-722), for at most `fuel` rounds. -/
  | pow (fuel j k : Nat)
  /-- Comparisons (`big_int.rs` L349-399, `macros.rs` L162-195). -/
  | eq (j k : Nat)
  | cmp (j k : Nat)
  | eqPrim (j : Nat) (p : Prim)
  | cmpPrim (j : Nat) (p : Prim)
  /-- Conversions to a type of `t + 1` bits (`macros.rs` L66-158). -/
  | tryU (t : Nat) (v : Bool) (j : Nat)
  | tryS (t : Nat) (v : Bool) (j : Nat)
  | saturateU (t j : Nat)
  | saturateS (t j : Nat)
  | truncateU (t j : Nat)
  | truncateS (t j : Nat)
  /-- `Display`, `UpperHex` and `LowerHex` (`big_int.rs` L270-279, L296-322), for at most `fuel`
  digits. -/
  | format (fuel : Nat) (base : BitVec 64) (pre chars : List Char) (j : Nat)
  /-- `Binary` (`big_int.rs` L281-294). -/
  | binary (j : Nat)

/-- What the caller gets besides `BigInt`s. -/
inductive Shown where
  | nothing
  | refused (e : ParseError)
  | bool (b : Bool)
  | order (o : Ordering)
  | prim (t : Nat) (v : BitVec t)
  | outOfRange (s : Side)
  | text (cs : List Char)

/-- The result of a conversion. -/
def Shown.conv {t : Nat} : Except Side (BitVec t) → Shown
  | .ok v => .prim t v
  | .error s => .outOfRange s

/-- The variables that are moved into the call. -/
def Call.moves : Call → List Nat
  | .drop j | .opPrim _ j _ | .not j | .neg j | .abs j | .saturateU _ j | .saturateS _ j
  | .truncateU _ j | .truncateS _ j => [j]
  | .op _ vj vk j k => (if vj then [j] else []) ++ (if vk then [k] else [])
  | .assign _ vk _ k => if vk then [k] else []
  | .pow _ j k => [j, k]
  | .tryU _ v j | .tryS _ v j => if v then [j] else []
  | _ => []

/-- The variable that is assigned to. -/
def Call.target : Call → Option Nat
  | .assign _ _ j _ | .assignPrim _ j _ => some j
  | _ => none

/-- The variables after the call has ended, before its result is put anywhere. -/
def Call.left {α : Type} (c : Call) (vars : List (Option α)) : List (Option α) :=
  c.moves.foldl (fun vars j => vars.set j none) vars

/-- The variables after the call has returned `r`. -/
def Call.after {α : Type} (c : Call) (vars : List (Option α)) : Option α → List (Option α)
  | none => c.left vars
  | some w =>
    match c.target with
    | some j => (c.left vars).set j (some w)
    | none => c.left vars ++ [some w]

/-- A live variable. -/
def var {α : Type} (vars : List (Option α)) (j : Nat) : Option α := vars[j]?.join

/-- Give a `BigInt`. -/
def give (x : Act Nat) : Act (Option Nat × Shown) := x.bind fun w => pur (.ok (some w, .nothing))

/-- Show something. -/
def tell {α : Type} (f : α → Shown) (x : Act α) : Act (Option Nat × Shown) :=
  x.bind fun a => pur (.ok (none, f a))

/-- The call on words; `none` if the program would not compile: a variable is not there (any more),
is moved while borrowed, or is moved twice. -/
def Call.run (m : Mode) (c : Call) (ws : List (Option Nat)) : Option (Act (Option Nat × Shown)) :=
  match c with
  | .ofPrim p => some (give (fromPrim m p))
  | .parse s radix => some ((fromStrRadix m s radix).bind fun r => pur (.ok (match r with
      | .ok w => (some w, .nothing)
      | .error e => (none, .refused e))))
  | .clone j => (var ws j).map fun a => give (BigOwn.clone m a)
  | .drop j => (var ws j).map fun a => tell (fun _ => .nothing) (dropWord a)
  | .op o vj vk j k =>
    if j = k ∧ (vj ∨ vk) then none
    else (var ws j).bind fun a => (var ws k).map fun b => give (BigOwn.op m o vj vk a b)
  | .opPrim o j p => (var ws j).map fun a => give (BigOwn.opPrim m o a p)
  | .assign o vk j k =>
    if j = k then none
    else (var ws j).bind fun a => (var ws k).map fun b => give (BigOwn.assign m o vk a b)
  | .assignPrim o j p => (var ws j).map fun a => give (BigOwn.assignPrim m o a p)
  | .not j => (var ws j).map fun a => give (BigOwn.not m a)
  | .neg j => (var ws j).map fun a => give (BigOwn.neg a)
  | .negRef j => (var ws j).map fun a => give (BigOwn.negRef m a)
  | .abs j => (var ws j).map fun a => give (BigOwn.abs a)
  | .pow fuel j k =>
    if j = k then none
    else (var ws j).bind fun a => (var ws k).map fun b => give (BigOwn.pow m fuel a b)
  | .eq j k => (var ws j).bind fun a => (var ws k).map fun b =>
      tell .bool (read fun st => BigWord.eq st a b)
  | .cmp j k => (var ws j).bind fun a => (var ws k).map fun b =>
      tell .order (read fun st => BigWord.cmp st a b)
  | .eqPrim j p => (var ws j).map fun a => tell .bool (BigOwn.eqPrim m a p)
  | .cmpPrim j p => (var ws j).map fun a => tell .order (BigOwn.cmpPrim m a p)
  | .tryU t v j => (var ws j).map fun a => tell .conv (moved v a (BigOwn.tryU (t + 1) m a))
  | .tryS t v j => (var ws j).map fun a => tell .conv (moved v a (BigOwn.tryS (t + 1) m a))
  | .saturateU t j => (var ws j).map fun a => tell (.prim _) (BigOwn.saturateU (t + 1) m a)
  | .saturateS t j => (var ws j).map fun a => tell (.prim _) (BigOwn.saturateS (t + 1) m a)
  | .truncateU t j => (var ws j).map fun a => tell (.prim _) (BigOwn.truncateU (t + 1) m a)
  | .truncateS t j => (var ws j).map fun a => tell (.prim _) (BigOwn.truncateS (t + 1) m a)
  | .format fuel base pre chars j => (var ws j).map fun a =>
      tell .text (BigOwn.format m fuel base pre chars a)
  | .binary j => (var ws j).map fun a => tell .text ((value a).bind fun x => pur (BInt.binary x))

/-- Give a value. -/
def giveV (x : Res BInt) : Res (Option BInt × Shown) := x.bind fun w => .ok (some w, .nothing)

/-- Show something. -/
def tellV {α : Type} (f : α → Shown) (x : Res α) : Res (Option BInt × Shown) :=
  x.bind fun a => .ok (none, f a)

/-- The `BigInt` that a primitive converts to. -/
def Prim.value : Prim → Res BInt
  | .u t v => fromU t v
  | .s t v => fromS t v

/-- The operators on values. -/
def Op.value (m : Mode) : Op → BInt → BInt → Res BInt
  | .add => BInt.add
  | .mul => BInt.mul
  | .sub => BInt.sub
  | .div => BInt.div m
  | .rem => BInt.rem m
  | .shl => BInt.shl m
  | .shr => BInt.shr m
  | .bitand => BInt.bitand
  | .bitor => BInt.bitor
  | .bitxor => BInt.bitxor

/-- The call on values. -/
def Call.runValue (m : Mode) (c : Call) (xs : List (Option BInt)) :
    Option (Res (Option BInt × Shown)) :=
  match c with
  | .ofPrim p => some (giveV p.value)
  | .parse s radix => some ((BInt.fromStrRadix s radix).bind fun r => .ok (match r with
      | .ok x => (some x, .nothing)
      | .error e => (none, .refused e)))
  | .clone j => (var xs j).map fun a => giveV (.ok a)
  | .drop j => (var xs j).map fun _ => .ok (none, .nothing)
  | .op o vj vk j k =>
    if j = k ∧ (vj ∨ vk) then none
    else (var xs j).bind fun a => (var xs k).map fun b => giveV (o.value m a b)
  | .opPrim o j p => (var xs j).map fun a => giveV (p.value.bind fun b => o.value m a b)
  | .assign o _ j k =>
    if j = k then none
    else (var xs j).bind fun a => (var xs k).map fun b => giveV (o.value m a b)
  | .assignPrim o j p => (var xs j).map fun a => giveV (p.value.bind fun b => o.value m a b)
  | .not j => (var xs j).map fun a => giveV (BInt.not a)
  | .neg j => (var xs j).map fun a => giveV (.ok a.neg')
  | .negRef j => (var xs j).map fun a => giveV (.ok a.neg')
  | .abs j => (var xs j).map fun a => giveV (.ok a.abs)
  | .pow fuel j k =>
    if j = k then none
    else (var xs j).bind fun a => (var xs k).map fun b => giveV (BInt.pow m fuel a b)
  | .eq j k => (var xs j).bind fun a => (var xs k).map fun b => tellV .bool (.ok (BInt.eq a b))
  | .cmp j k => (var xs j).bind fun a => (var xs k).map fun b => tellV .order (.ok (BInt.cmp a b))
  | .eqPrim j p => (var xs j).map fun a => tellV .bool (match p with
      | .u t v => BInt.eqU t a v
      | .s t v => BInt.eqS t m a v)
  | .cmpPrim j p => (var xs j).map fun a => tellV .order (p.value.bind fun b => .ok (BInt.cmp a b))
  | .tryU t _ j => (var xs j).map fun a => tellV .conv (BInt.tryIntoU (t + 1) m a)
  | .tryS t _ j => (var xs j).map fun a => tellV .conv (BInt.tryIntoS (t + 1) m a)
  | .saturateU t j => (var xs j).map fun a => tellV (.prim _) (BInt.saturateU (t + 1) m a)
  | .saturateS t j => (var xs j).map fun a => tellV (.prim _) (BInt.saturateS (t + 1) m a)
  | .truncateU t j => (var xs j).map fun a => tellV (.prim _) (BInt.truncateU (t + 1) m a)
  | .truncateS t j => (var xs j).map fun a => tellV (.prim _) (BInt.truncateS (t + 1) m a)
  | .format fuel base pre chars j => (var xs j).map fun a =>
      tellV .text ((BInt.writeBase m fuel base chars a).bind fun cs => .ok (signChars a ++ pre ++ cs))
  | .binary j => (var xs j).map fun a => tellV .text (BInt.binary a)

/-- Run a program on words: what each call has shown (`none`: it panicked), the store and the
variables. There is no result if a call does not compile or does not return. -/
def runWords (m : Mode) : List Call → IntStore → List (Option Nat) →
    Option (List (Option Shown) × IntStore × List (Option Nat))
  | [], st, ws => some ([], st, ws)
  | c :: cs, st, ws =>
    (c.run m ws).bind fun act =>
    match act st with
    | (.ok (r, s), st) => (runWords m cs st (c.after ws r)).map fun x => (some s :: x.1, x.2)
    | (.panic, st) => (runWords m cs st (c.left ws)).map fun x => (none :: x.1, x.2)
    | (.hang, _) => none

/-- Run a program on values. -/
def runValues (m : Mode) : List Call → List (Option BInt) →
    Option (List (Option Shown) × List (Option BInt))
  | [], xs => some ([], xs)
  | c :: cs, xs =>
    (c.runValue m xs).bind fun g =>
    match g with
    | .ok (r, s) => (runValues m cs (c.after xs r)).map fun x => (some s :: x.1, x.2)
    | .panic => (runValues m cs (c.left xs)).map fun x => (none :: x.1, x.2)
    | .hang => none

/-- At no time are more than `n` variables of the program alive. -/
def AtMost (m : Mode) (n : Nat) (prog : List Call) (xs : List (Option BInt)) : Prop :=
  ∀ p, p <+: prog → ∀ out xs', runValues m p xs = some (out, xs') →
    xs'.countP Option.isSome ≤ n

end BigOwn

end Verif
