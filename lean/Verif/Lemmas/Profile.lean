import Verif.Model.UInt
import Verif.Model.IInt
import Verif.Model.BigIntMixed
import Verif.Model.BigIntHandle
import Verif.Model.Fixed
import Verif.Model.Rat
import Verif.Model.BiVec
import Verif.Model.Intern

/-!
# Debug and release builds: calculus for C116

`SameResult f` is closed under sequencing, branching and loops, and the overflow checks satisfy it.
-/

namespace Verif

/-- Specification for C116: a call `f` (depending on the build profile) that returns in a debug build
returns the same value in a release build. -/
def SameResult {α : Type _} (f : Mode → Res α) : Prop :=
  ∀ v, f .debug = .ok v → f .release = .ok v

namespace SameResult

variable {α β : Type _}

theorem const (x : Res α) : SameResult (fun _ => x) := fun _ h => h

theorem bind {x : Mode → Res α} {f : Mode → α → Res β} (hx : SameResult x)
    (hf : ∀ a, SameResult (fun m => f m a)) : SameResult (fun m => (x m).bind (f m)) := by
  intro v h
  change (x .debug).bind (f .debug) = .ok v at h
  change (x .release).bind (f .release) = .ok v
  cases hd : x .debug with
  | ok a => rw [hd] at h; rw [hx a hd]; exact hf a v h
  | panic => rw [hd] at h; cases h
  | hang => rw [hd] at h; cases h

theorem ite {c : Prop} [Decidable c] {x y : Mode → Res α} (hx : c → SameResult x)
    (hy : ¬ c → SameResult y) : SameResult (fun m => if c then x m else y m) := by
  by_cases h : c
  · simpa only [if_pos h] using hx h
  · simpa only [if_neg h] using hy h

theorem forUpM {f : Mode → Nat → α → Res α} (hf : ∀ i s, SameResult (fun m => f m i s)) (n : Nat) (s : α) :
    SameResult (fun m => Verif.forUpM n (f m) s) := by
  induction n with
  | zero => exact const _
  | succ n ih => exact bind ih (fun a => hf n a)

theorem forDownM {f : Mode → Nat → α → Res α} (hf : ∀ i s, SameResult (fun m => f m i s)) (n : Nat) :
    ∀ s : α, SameResult (fun m => Verif.forDownM n (f m) s) := by
  induction n with
  | zero => intro s; exact const _
  | succ n ih => intro s; exact bind (hf n s) (fun a => ih a)

theorem foldl {ι : Type _} {f : Mode → α → ι → Res α} (hf : ∀ a i, SameResult (fun m => f m a i)) (l : List ι) :
    ∀ {x : Mode → Res α}, SameResult x →
      SameResult (fun m => l.foldl (fun acc i => acc.bind fun a => f m a i) (x m)) := by
  induction l with
  | nil => intro x hx; exact hx
  | cons i l ih =>
    intro x hx
    exact ih (x := fun m => (x m).bind fun a => f m a i) (bind hx fun a => hf a i)

/-- A check that panics in debug builds only. -/
theorem check (x : Res α) : SameResult (fun m => match m with | .debug => .panic | .release => x) := by
  intro v h; cases h

theorem usub (a b : Nat) : SameResult (fun m => Verif.usub m a b) :=
  ite (fun _ => const _) (fun _ => check _)

theorem maskShift (a b : Nat) : SameResult (fun m => Verif.maskShift m a b) := by
  unfold Verif.maskShift
  exact ite (fun _ => const _) (fun _ => check _)

theorem usz (P n : Nat) : SameResult (fun m => Verif.usz m P n) := by
  unfold Verif.usz
  exact ite (fun _ => const _) (fun _ => check _)

theorem arith (p : Prim) (z : Int) : SameResult (fun m => Prim.arith m p z) := by
  unfold Prim.arith
  exact ite (fun _ => const _) (fun _ => check _)

theorem primShl (p : Prim) (a : Int) (n : Nat) : SameResult (fun m => Prim.shl m p a n) := by
  unfold Prim.shl
  exact ite (fun _ => const _) (fun _ => check _)

theorem primShr (p : Prim) (a : Int) (n : Nat) : SameResult (fun m => Prim.shr m p a n) := by
  unfold Prim.shr
  exact ite (fun _ => const _) (fun _ => check _)

end SameResult

/-- Closes goals `SameResult f` by the rules above. -/
macro "same_result" : tactic => `(tactic| repeat' (first
  | exact SameResult.const _
  | assumption
  | exact SameResult.usub _ _
  | exact SameResult.maskShift _ _
  | exact SameResult.usz _ _
  | exact SameResult.arith _ _
  | exact SameResult.primShl _ _ _
  | exact SameResult.primShr _ _ _
  | exact SameResult.check _
  | refine SameResult.bind ?_ (fun _ => ?_)
  | refine SameResult.ite (fun _ => ?_) (fun _ => ?_)
  | refine SameResult.forUpM (fun _ _ => ?_) _ _
  | refine SameResult.forDownM (fun _ _ => ?_) _ _))

namespace SameResult

variable {w : Nat}

theorem shlWrapping (s : List (BitVec w)) (k : Nat) : SameResult (fun m => ElementShl.shlWrapping m s k) := by
  unfold ElementShl.shlWrapping
  same_result

theorem shrInner (s : List (BitVec w)) (k : Nat) : SameResult (fun m => ElementShr.inner m s k) := by
  unfold ElementShr.inner
  same_result

theorem shr (s : List (BitVec w)) (k : Nat) : SameResult (fun m => ElementShr.shr m s k) := by
  unfold ElementShr.shr ElementShr.body
  same_result

theorem shrChecked (s : List (BitVec w)) (k : Nat) : SameResult (fun m => ElementShr.shrChecked m s k) := by
  unfold ElementShr.shrChecked ElementShr.inner
  same_result

theorem shrWrapping (s : List (BitVec w)) (k : Nat) : SameResult (fun m => ElementShr.shrWrapping m s k) := by
  unfold ElementShr.shrWrapping ElementShr.inner
  same_result

theorem elementDivLong (fuel : Nat) (a b : List (BitVec w)) :
    SameResult (fun m => ElementDiv.divLong m fuel a b) := by
  unfold ElementDiv.divLong ElementShr.shrWrapping ElementShr.inner ElementShl.shlWrapping
  same_result

theorem divLong (a b : List (BitVec w)) : SameResult (fun m => BitwiseDiv.divLong m a b) := by
  unfold BitwiseDiv.divLong ElementShl.shlWrapping
  same_result

theorem divLongOverflowing (a b c : List (BitVec w)) :
    SameResult (fun m => BitwiseDiv.divLongOverflowing m a b c) := by
  unfold BitwiseDiv.divLongOverflowing ElementShl.shlWrapping
  same_result

theorem remLongOverflowing (a b c : List (BitVec w)) :
    SameResult (fun m => BitwiseDiv.remLongOverflowing m a b c) := by
  unfold BitwiseDiv.remLongOverflowing ElementShl.shlWrapping
  same_result

theorem divLongChecked (a b c : List (BitVec w)) :
    SameResult (fun m => BitwiseDiv.divLongChecked m a b c) :=
  bind (divLongOverflowing a b c) fun _ => const _

theorem divLongWrapping (a b c : List (BitVec w)) :
    SameResult (fun m => BitwiseDiv.divLongWrapping m a b c) :=
  bind (divLongOverflowing a b c) fun _ => const _

theorem remLongChecked (a b c : List (BitVec w)) :
    SameResult (fun m => BitwiseDiv.remLongChecked m a b c) :=
  bind (remLongOverflowing a b c) fun _ => const _

theorem remLongWrapping (a b c : List (BitVec w)) :
    SameResult (fun m => BitwiseDiv.remLongWrapping m a b c) := remLongOverflowing a b c

theorem bitIterLen (it : BitIter w) : SameResult (fun m => BitIter.len m it) := by
  unfold BitIter.len
  cases it.cur with
  | none => exact const _
  | some v => same_result

theorem arrToInt (t u : Nat) (arr : List (BitVec t)) : SameResult (fun m => Verif.arrToInt t u m arr) := by
  unfold Verif.arrToInt
  refine forUpM (fun i s => ?_) _ _
  unfold arrToIntStep
  cases s with
  | none => exact const _
  | some out =>
    refine ite (fun _ => ?_) (fun _ => const _)
    cases checkedShl (BitVec.ofNat u (arr.getD i 0).toNat) (i * t) with
    | none => exact const _
    | some x => same_result

theorem arrToIntS (t u : Nat) (arr : List (BitVec t)) :
    SameResult (fun m => BInt.arrToIntS t u m arr) := by
  unfold BInt.arrToIntS
  refine forUpM (fun i s => ?_) _ _
  unfold BInt.arrToIntSStep
  cases s with
  | none => exact const _
  | some out =>
    refine ite (fun _ => ?_) (fun _ => const _)
    cases checkedShl (BitVec.ofNat u (arr.getD i 0).toNat) (i * t) with
    | none => exact const _
    | some x => same_result

/-! ## `U<N>`, `I<N>` -/

theorem uMul (a b : Bytes) : SameResult (fun m => UN.mul m a b) := by
  intro v h
  change Res.ofOption (ElementMul.mulChecked a b) = .ok v at h
  change Res.ok (ElementMul.mulWrapping a b) = .ok v
  unfold ElementMul.mulChecked at h
  unfold ElementMul.mulWrapping
  by_cases c : (ElementMul.mulOverflowing a b).2
  · simp only [c, if_true] at h; cases h
  · simp only [c] at h; exact h

theorem uProduct (a : Bytes) (k : Nat) : SameResult (fun m => UN.product m a k) :=
  forUpM (fun _ s => uMul s a) _ _

theorem uDiv (a b : Bytes) : SameResult (fun m => UN.div m a b) := by
  intro v h
  have h1 : SameResult (fun m => BitwiseDiv.divLongWrapping m a b (List.replicate a.length 0)) :=
    divLongWrapping _ _ _
  apply h1
  change ((BitwiseDiv.divLongOverflowing .debug a b (List.replicate a.length 0)).bind
    fun st => .ok (some st.1)).bind Res.ofOption = .ok v at h
  change (BitwiseDiv.divLongOverflowing .debug a b (List.replicate a.length 0)).bind
    (fun st => .ok st.1) = .ok v
  cases hh : BitwiseDiv.divLongOverflowing .debug a b (List.replicate a.length 0) with
  | ok x => rw [hh] at h; exact h
  | panic => rw [hh] at h; cases h
  | hang => rw [hh] at h; cases h

theorem uRem (a b : Bytes) : SameResult (fun m => UN.rem m a b) :=
  bind (remLongChecked _ _ _) fun _ => const _

theorem uWriteLoop (base : Bytes) (fuel : Nat) :
    ∀ (s : Bytes) (d : List (BitVec 8)), SameResult (fun m => UN.writeLoop m base fuel s d) := by
  induction fuel with
  | zero => intro s d; exact const _
  | succ n ih =>
    intro s d
    unfold UN.writeLoop
    refine ite (fun _ => ?_) (fun _ => const _)
    exact bind (uRem s base) fun r => bind (const _) fun o => bind (const _) fun dg =>
      bind (uDiv s base) fun s' => ih s' _

/-! ## `BigInt` -/

theorem tryIntoU (t : Nat) (b : BInt) : SameResult (fun m => BInt.tryIntoU t m b) := by
  unfold BInt.tryIntoU
  have := arrToInt 64 t b.limbs
  same_result

theorem tryIntoS (t : Nat) (b : BInt) : SameResult (fun m => BInt.tryIntoS t m b) := by
  unfold BInt.tryIntoS
  have := arrToIntS 64 t b.limbs
  same_result

theorem bFinish {x : Mode → Res (List (BitVec 64) × Bool)} (h : SameResult x) :
    SameResult (fun m => BInt.finish (x m)) := bind h fun _ => const _

theorem bDivRaw (a b : BInt) : SameResult (fun m => BInt.divRaw m a b) :=
  bind (divLong _ _) fun _ => const _

theorem bRemRaw (a b : BInt) : SameResult (fun m => BInt.remRaw m a b) :=
  bind (divLong _ _) fun _ => const _

theorem bShiftAmount (b : BInt) : SameResult (fun m => BInt.shiftAmount m b) :=
  bind (tryIntoU 64 b) fun _ => const _

theorem bShlRaw (a b : BInt) : SameResult (fun m => BInt.shlRaw m a b) :=
  bind (bShiftAmount b) fun _ => const _

theorem bShrRaw (a b : BInt) : SameResult (fun m => BInt.shrRaw m a b) :=
  bind (bShiftAmount b) fun k => bind (shr a.limbs k) fun _ => const _

theorem bEqS (t : Nat) (b : BInt) (v : BitVec t) : SameResult (fun m => BInt.eqS t m b v) := by
  unfold BInt.eqS
  refine ite (fun _ => const _) (fun _ => ?_)
  intro x h
  by_cases c : v = BitVec.intMin t
  · simp only [c, and_self, if_true] at h; cases h
  · simp only [c, false_and, if_false] at h ⊢; exact h

theorem bDigitLoop (base : BitVec 64) (fuel : Nat) :
    ∀ (s : BInt) (d : List (BitVec 8)), SameResult (fun m => BInt.digitLoop m base fuel s d) := by
  induction fuel with
  | zero => intro s d; exact const _
  | succ n ih =>
    intro s d
    unfold BInt.digitLoop
    refine bind (const _) fun c => ite (fun _ => ?_) (fun _ => const _)
    refine bind (const _) fun b => bind (bFinish (bRemRaw s b)) fun r => bind (tryIntoU 8 r) fun x => ?_
    cases x with
    | error e => exact const _
    | ok x => exact bind (bFinish (bDivRaw s b)) fun s' => ih s' _

theorem bWriteBase (fuel : Nat) (base : BitVec 64) (chars : List Char) (b : BInt) :
    SameResult (fun m => BInt.writeBase m fuel base chars b) :=
  bind (bDigitLoop base fuel b []) fun _ => const _

/-! ## Matrices -/

theorem dynOffset (P cols i j : Nat) : SameResult (fun m => DynMat.offset m P cols i j) := by
  unfold DynMat.offset
  same_result

theorem dynGet {α : Type} (P : Nat) (d : DynMat α) (i j : Nat) : SameResult (fun m => DynMat.get m P d i j) :=
  bind (dynOffset _ _ _ _) fun _ => const _

theorem dynSet {α : Type} (P : Nat) (d : DynMat α) (i j : Nat) (v : α) :
    SameResult (fun m => DynMat.set m P d i j v) :=
  bind (dynOffset _ _ _ _) fun _ => const _

theorem dynSwap {α : Type} (P : Nat) (d : DynMat α) (i j : Nat) :
    SameResult (fun m => DynMat.swapRows m P d i j) := by
  unfold DynMat.swapRows
  same_result

section gauss

variable {M α : Type} (o : Mode → MatOps M α) (hg : ∀ x i j, SameResult (fun m => (o m).get x i j))
  (hs : ∀ x i j v, SameResult (fun m => (o m).set x i j v))
  (hw : ∀ x i j, SameResult (fun m => (o m).swapRows x i j))

include hg in
theorem allZero [Zero α] [DecidableEq α] (x : M) (col n : Nat) :
    ∀ r, SameResult (fun m => (o m).allZero x col n r) := by
  induction n with
  | zero => intro r; exact const _
  | succ n ih => intro r; exact bind (hg x r col) fun v => ite (fun _ => ih _) (fun _ => const _)

include hg in
theorem smallIdx [Zero α] [DecidableEq α] [LT α] [DecidableLT α] [PartialCmp α] (x : M)
    (col row rows : Nat) :
    SameResult (fun m => (o m).smallIdx x col row rows) :=
  bind (forUpM (f := fun m idx best => ((o m).get x (row + idx) col).bind fun v =>
    if MatOps.clash best v then .panic else .ok (MatOps.keepMin best idx v)) (fun i _ => bind (hg x (row + i) col) fun _ => const _) _ _)
    fun _ => const _

include hg hs in
theorem elimRow [Sub α] [Mul α] (col cols row r : Nat) (f : α) (x : M) :
    SameResult (fun m => (o m).elimRow col cols row r f x) :=
  forUpM (fun _ s => bind (hg s _ _) fun _ => bind (hg s _ _) fun _ => hs s _ _ _) _ _

include hg hs in
theorem elimBelow [Sub α] [Mul α] [Div α] (col cols row rows : Nat) (t : α) (x : M) :
    SameResult (fun m => (o m).elimBelow col cols row rows t x) :=
  forUpM (fun _ s => bind (hg s _ _) fun _ => elimRow o hg hs _ _ _ _ _ s) _ _

variable [Zero α] [One α] [Neg α] [Sub α] [Mul α] [Div α] [DecidableEq α] [LT α] [DecidableLT α]
  [PartialCmp α]

omit [One α] in
include hg hs hw in
theorem gaussStep (cols rows col : Nat) (s : MatOps.GState M α) :
    SameResult (fun m => (o m).gaussStep cols rows col s) := by
  refine bind (allZero o hg s.m col _ _) fun z => ite (fun _ => const _) (fun _ => ?_)
  refine bind (smallIdx o hg s.m col _ _) fun i => bind ?_ fun s' => bind (hg _ _ _) fun t =>
    bind (elimBelow o hg hs _ _ _ _ _ _) fun _ => const _
  exact ite (fun _ => bind (hw _ _ _) fun _ => const _) (fun _ => const _)

include hg hs hw in
theorem gaussElim (cols rows : Nat) (x : M) :
    SameResult (fun m => (o m).gaussElim cols rows x) := by
  unfold MatOps.gaussElim
  exact bind (forUpM (fun _ s => gaussStep o hg hs hw _ _ _ s) _ _) fun _ => const _

end gauss

end SameResult

end Verif
