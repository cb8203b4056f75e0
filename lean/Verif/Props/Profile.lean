import Verif.Lemmas.Profile
import Verif.Props.ShiftExact

/-!
# C116: release builds compute what debug builds compute

The overflow checks and assertions of debug builds only turn results into panics: a call that returns
in a debug build returns the same in a release build (`SameResult`). The one exception are `<<` and
`>>` of `U<N>`.
-/

namespace Verif

/-- C116: slices: the length of a bit iterator, conversion to an integer, in-place and growing shifts,
division. -/
theorem C116_slices {w : Nat} (a b c : List (BitVec w)) (it : BitIter w) (u k fuel : Nat) :
    SameResult (fun m => BitIter.len m it) ∧
    SameResult (fun m => arrToInt w u m a) ∧
    SameResult (fun m => ElementShl.shlWrapping m a k) ∧
    SameResult (fun m => ElementShr.shr m a k) ∧
    SameResult (fun m => ElementShr.shrChecked m a k) ∧
    SameResult (fun m => ElementShr.shrWrapping m a k) ∧
    SameResult (fun m => ElementDiv.divLong m fuel a b) ∧
    SameResult (fun m => BitwiseDiv.divLong m a b) ∧
    SameResult (fun m => BitwiseDiv.divLongOverflowing m a b c) ∧
    SameResult (fun m => BitwiseDiv.divLongChecked m a b c) ∧
    SameResult (fun m => BitwiseDiv.divLongWrapping m a b c) ∧
    SameResult (fun m => BitwiseDiv.remLongOverflowing m a b c) ∧
    SameResult (fun m => BitwiseDiv.remLongChecked m a b c) ∧
    SameResult (fun m => BitwiseDiv.remLongWrapping m a b c) :=
  ⟨.bitIterLen it, .arrToInt w u a, .shlWrapping a k, .shr a k, .shrChecked a k, .shrWrapping a k,
    .elementDivLong fuel a b, .divLong a b, .divLongOverflowing a b c, .divLongChecked a b c,
    .divLongWrapping a b c, .remLongOverflowing a b c, .remLongChecked a b c, .remLongWrapping a b c⟩

/-- C116: the operators of `U<N>` and `I<N>` other than the shifts of `U<N>`; missing: those (see
`C116_u_shift_violated`). -/
theorem C116_fixed_width_partial (a b : Bytes) (fuel : Nat) :
    SameResult (fun m => UN.add m a b) ∧ SameResult (fun m => UN.sub m a b) ∧
    SameResult (fun m => UN.mul m a b) ∧ SameResult (fun m => UN.div m a b) ∧
    SameResult (fun m => UN.rem m a b) ∧ SameResult (fun m => UN.checkedDiv m a b) ∧
    SameResult (fun m => UN.pow m a b) ∧ SameResult (fun m => UN.display m fuel a) ∧
    SameResult (fun m => IN.div m a b) ∧ SameResult (fun m => IN.rem m a b) := by
  refine ⟨?_, ?_, .uMul a b, .uDiv a b, .uRem a b, .divLongChecked _ _ _, ?_, ?_, ?_, ?_⟩
  · intro v h
    change Res.ofOption (ElementAdd.addChecked a b) = .ok v at h
    change Res.ok (ElementAdd.addWrapping a b) = .ok v
    unfold ElementAdd.addChecked at h
    unfold ElementAdd.addWrapping
    by_cases c : (ElementAdd.addOverflowing a b).2
    · simp only [c, if_true] at h; cases h
    · simp only [c] at h; exact h
  · intro v h
    change Res.ofOption (ElementSub.subChecked a b) = .ok v at h
    change Res.ok (ElementSub.subWrapping a b) = .ok v
    unfold ElementSub.subChecked at h
    unfold ElementSub.subWrapping
    by_cases c : (ElementSub.subOverflowing a b).2
    · simp only [c, if_true] at h; cases h
    · simp only [c] at h; exact h
  · have := fun k => SameResult.uProduct a k
    unfold UN.pow
    refine .ite (fun _ => .const _) (fun _ => .bind (.const _) fun o => .ite (fun _ => .const _)
      (fun _ => .ite (fun _ => .const _) (fun _ => .bind (.const _) fun k => this k)))
  · exact .bind (.const _) fun o => .bind (.const _) fun base =>
      .bind (.uWriteLoop base fuel a []) fun _ => .const _
  · exact .bind (.const _) fun _ => .bind (.const _) fun _ => .bind (.const _) fun _ =>
      .bind (.const _) fun _ => .bind (.divLongWrapping _ _ _) fun _ => .const _
  · exact .bind (.const _) fun _ => .bind (.const _) fun _ => .bind (.const _) fun _ =>
      .bind (.const _) fun _ => .bind (.remLongWrapping _ _ _) fun _ => .const _

/-- C116: `BigInt`. -/
theorem C116_big_int (a b : BInt) (t fuel : Nat) (x : BitVec t) (signed : Bool) (op : BInt.Op) :
    SameResult (fun m => op.run m a b) ∧
    SameResult (fun m => BInt.opPrim m op a signed t x) ∧
    SameResult (fun m => BInt.opAssignPrim m op a signed t x) ∧
    SameResult (fun m => BInt.tryIntoU t m a) ∧ SameResult (fun m => BInt.tryIntoS t m a) ∧
    SameResult (fun m => BInt.saturateU t m a) ∧ SameResult (fun m => BInt.saturateS t m a) ∧
    SameResult (fun m => BInt.truncateU t m a) ∧ SameResult (fun m => BInt.truncateS t m a) ∧
    SameResult (fun m => BInt.eqS t m a x) ∧
    SameResult (fun m => BInt.pow m fuel a b) ∧
    SameResult (fun m => BInt.display m fuel a) ∧
    SameResult (fun m => BInt.upperHex m fuel a) ∧ SameResult (fun m => BInt.lowerHex m fuel a) := by
  have hop : ∀ b, SameResult (fun m => op.run m a b) := by
    intro b
    cases op with
    | add => exact .const _
    | sub => exact .const _
    | mul => exact .const _
    | div => exact .bFinish (.bDivRaw a b)
    | rem => exact .bFinish (.bRemRaw a b)
    | shl => exact .bFinish (.bShlRaw a b)
    | shr => exact .bFinish (.bShrRaw a b)
  refine ⟨hop b, .bind (.const _) hop, .bind (.const _) hop, .tryIntoU t a, .tryIntoS t a,
    .bind (.tryIntoU t a) fun _ => .const _, .bind (.tryIntoS t a) fun _ => .const _,
    .bind (.arrToInt 64 t a.limbs) fun _ => .const _,
    .bind (.arrToIntS 64 t a.limbs) fun r => ?_, .bEqS t a x,
    .bind (.bEqS 32 b 0) fun _ => .const _,
    .bind (.bWriteBase fuel _ _ a) fun _ => .const _,
    .bind (.bWriteBase fuel _ _ a) fun _ => .const _,
    .bind (.bWriteBase fuel _ _ a) fun _ => .const _⟩
  exact .ite (fun _ => .ite (fun _ => .check _) (fun _ => .const _)) (fun _ => .const _)

/-- C116: reference counting of the interner and of `BigInt` handles. -/
theorem C116_interner {T : Type} [DecidableEq T] (st : Intern.Store T) (v : T) (k : Nat)
    (is : BigWord.IntStore) (s : List (BitVec 64)) (neg : Bool) :
    SameResult (fun m => Intern.add m st v) ∧ SameResult (fun m => Intern.incr m st k) ∧
    SameResult (fun m => BigWord.newSlice m is s neg) ∧ SameResult (fun m => BigWord.clone m is k) ∧
    (∀ (op : Mode → BInt → BInt → Res (List (BitVec 64) × Bool)) (x y : Nat),
      (∀ a b, SameResult fun m => op m a b) → SameResult fun m => BigWord.binop (op m) m is x y) := by
  have hi : ∀ {T : Type} (s : Slot T), SameResult (fun m => Intern.incrInner m s) := by
    intro T s
    exact .ite (fun _ => .check _) (fun _ => .const _)
  have hadd : ∀ {T : Type} [DecidableEq T] (st : Intern.Store T) (v : T),
      SameResult (fun m => Intern.add m st v) := by
    intro T _ st v
    unfold Intern.add
    cases Intern.find st v with
    | exists_ loc => exact .bind (.const _) fun s => .bind (hi s) fun _ => .const _
    | dead loc => exact .bind (.const _) fun s => .bind (hi s) fun _ => .const _
    | none => exact .bind (.const _) fun s => .bind (hi s) fun _ => .const _
  have hincr : ∀ {T : Type} [DecidableEq T] (st : Intern.Store T) (k : Nat),
      SameResult (fun m => Intern.incr m st k) := by
    intro T _ st k
    exact .bind (.const _) fun s => .bind (hi s) fun _ => .const _
  have hnew : ∀ (is : BigWord.IntStore) (s : List (BitVec 64)) (neg : Bool),
      SameResult (fun m => BigWord.newSlice m is s neg) := fun is s neg =>
    .bind (.const _) fun v => .ite (fun _ => .const _)
      (fun _ => .bind (hadd is v) fun _ => .const _)
  refine ⟨hadd st v, hincr st k, hnew is s neg, ?_, fun op x y hop =>
    .bind (.const _) fun a => .bind (.const _) fun b => .bind (hop a b) fun r => hnew is _ _⟩
  · exact .ite (fun _ => .const _) (fun _ => .bind (hincr is _) fun _ => .const _)

/-- C116: the generic operations on primitive integers, and fixed-point numbers. -/
theorem C116_prim_fixed (p : Prim) (N : Nat) (x y : Int) :
    SameResult (fun m => Prim.pow m p x y) ∧ SameResult (fun m => Prim.factorial m p x) ∧
    SameResult (fun m => Prim.abs m p x) ∧
    SameResult (fun m => Fixed.fromVal m p N x) ∧ SameResult (fun m => Fixed.isWhole m p N x) ∧
    SameResult (fun m => Fixed.add m p x y) ∧ SameResult (fun m => Fixed.sub m p x y) ∧
    SameResult (fun m => Fixed.mul m p x y) ∧ SameResult (fun m => Fixed.neg m p x) ∧
    SameResult (fun m => Fixed.one m p N) ∧ SameResult (fun m => Fixed.isOne m p N x) ∧
    SameResult (fun m => Fixed.abs m p x) ∧ SameResult (fun m => Fixed.maxNegative m p) ∧
    SameResult (fun m => Fixed.floor m p N x) ∧ SameResult (fun m => Fixed.ceil m p N x) ∧
    SameResult (fun m => Fixed.fract m p N x) ∧ SameResult (fun m => Fixed.trunc m p N x) ∧
    SameResult (fun m => Fixed.round m p N x) ∧ SameResult (fun m => Fixed.debug m p N x) ∧
    SameResult (fun m => Fixed.binary m p N x) := by
  have fract : SameResult (fun m => Fixed.fract m p N x) := by
    unfold Fixed.fract Fixed.one
    same_result
  have floor : SameResult (fun m => Fixed.floor m p N x) := by
    unfold Fixed.floor
    same_result
  have whole : SameResult (fun m => Fixed.isWhole m p N x) := by
    unfold Fixed.isWhole Fixed.mask
    same_result
  have ceil : SameResult (fun m => Fixed.ceil m p N x) := by
    unfold Fixed.ceil Fixed.one Fixed.add
    same_result
  have trunc : SameResult (fun m => Fixed.trunc m p N x) := by
    unfold Fixed.trunc Fixed.sub
    same_result
  refine ⟨.arith _ _, ?_, ?_, .primShl _ _ _, whole, .arith _ _, .arith _ _, .arith _ _, .arith _ _,
    .primShl _ _ _, .bind (.primShl _ _ _) fun _ => .const _, ?_, .arith _ _, floor, ceil, fract, trunc,
    ?_, ?_, .bind trunc fun _ => .bind fract fun _ => .const _⟩
  · exact SameResult.foldl (f := fun m (acc : Int) (k : Nat) => Prim.arith m p (acc * k))
      (fun _ _ => .arith _ _) _ (.const _)
  · unfold Prim.abs; same_result
  · unfold Fixed.abs; same_result
  · unfold Fixed.round Fixed.one Fixed.add Fixed.sub; same_result
  · unfold Fixed.debug Prim.pow; same_result

/-- C116: rational numbers. -/
theorem C116_rational (p : Prim) (x y : RatM) :
    SameResult (fun m => RatM.add m p x y) ∧ SameResult (fun m => RatM.sub m p x y) ∧
    SameResult (fun m => RatM.mul m p x y) ∧ SameResult (fun m => RatM.div m p x y) ∧
    SameResult (fun m => RatM.neg m p x) ∧ SameResult (fun m => RatM.abs m p x) ∧
    SameResult (fun m => RatM.floor m p x) ∧ SameResult (fun m => RatM.ceil m p x) ∧
    SameResult (fun m => RatM.round m p x) := by
  unfold RatM.add RatM.sub RatM.mul RatM.div RatM.neg RatM.abs RatM.floor RatM.ceil RatM.round
  refine ⟨?_, ?_, ?_, ?_, ?_, ?_, ?_, ?_, ?_⟩ <;> same_result

/-- C116: dynamic matrices, views of matrices, binomial coefficients and bivectors. For a view, which may
also read outside the matrix (`none`, see C83), a returned entry is the same. -/
theorem C116_matrices {α : Type} [Zero α] [One α] [Neg α] [Sub α] [Mul α] [Div α] [DecidableEq α] [LT α]
    [DecidableLT α] [PartialCmp α] (P : Nat) (d : DynMat α) (data a b : List α) (i j D : Nat) (v : α)
    (view : MatView α) :
    SameResult (fun m => DynMat.new m P data i j) ∧
    SameResult (fun m => DynMat.get m P d i j) ∧ SameResult (fun m => DynMat.set m P d i j v) ∧
    SameResult (fun m => DynMat.swapRows m P d i j) ∧ SameResult (fun m => DynMat.rowReduce m P d) ∧
    (∀ x, MatView.index .debug P view i j = some (.ok x) →
      MatView.index .release P view i j = some (.ok x)) ∧
    (∀ x, MatView.assign .debug P view i j v = some (.ok x) →
      MatView.assign .release P view i j v = some (.ok x)) ∧
    SameResult (fun m => BiVec.choose m P i j) ∧ SameResult (fun m => BiVec.new m P D a b) := by
  have hoff : ∀ {k}, DynMat.offset .debug P view.cols i j = .ok k →
      DynMat.offset .release P view.cols i j = .ok k :=
    fun {k} h => SameResult.dynOffset P view.cols i j k h
  have hloop : ∀ r n out denom, SameResult (fun m => BiVec.chooseLoop m P r n out denom) := by
    intro r
    induction r with
    | zero => intro n out denom; exact .const _
    | succ r ih =>
      intro n out denom
      have hd : SameResult (fun m => BiVec.dec m P n) := by
        cases n with
        | zero => exact .check _
        | succ n => exact .const _
      exact .bind (.usz _ _) fun o => .bind (.usz _ _) fun d => .ite (fun _ => .const _)
        (fun _ => .ite (fun _ => .bind hd fun _ => ih _ _ _) (fun _ => .bind hd fun _ => ih _ _ _))
  have hch : ∀ i j, SameResult (fun m => BiVec.choose m P i j) :=
    fun i j => .ite (fun _ => .const _) (fun _ => hloop _ _ _ _)
  refine ⟨.bind (.usz _ _) fun _ => .const _, .dynGet P d i j, .dynSet P d i j v, .dynSwap P d i j,
    .bind (.gaussElim (DynMat.ops · P) (fun _ _ _ => .dynGet _ _ _ _) (fun _ _ _ _ => .dynSet _ _ _ _ _)
      (fun _ _ _ => .dynSwap _ _ _ _) _ _ _) fun _ => .const _, ?_, ?_, hch i j,
    .bind (hch D 2) fun _ => .const _⟩
  · intro x h
    unfold MatView.index at h ⊢
    by_cases c : view.rows < i ∨ view.cols < j
    · rw [if_pos c] at h; cases h
    · rw [if_neg c] at h ⊢
      cases ho : DynMat.offset .debug P view.cols i j with
      | ok k => rw [ho] at h; rw [hoff ho]; exact h
      | panic => rw [ho] at h; cases h
      | hang => rw [ho] at h; cases h
  · intro x h
    unfold MatView.assign at h ⊢
    by_cases c : i < view.rows ∧ j < view.cols
    · rw [if_pos c] at h ⊢
      cases ho : DynMat.offset .debug P view.cols i j with
      | ok k => rw [ho] at h; rw [hoff ho]; exact h
      | panic => rw [ho] at h; cases h
      | hang => rw [ho] at h; cases h
    · rw [if_neg c] at h; cases h

/-! ## The exception -/

/-- C116 is violated by shifts of `U<N>`: for `U<1>`, `1 << 8` is 0 in debug builds and 1 in release
builds; for `U<3>`, `1 << 17` is `2^17` and 2, and `2^17 >> 17` is 1 and `2^16`. -/
theorem C116_u_shift_violated :
    ¬ (∀ a k, SameResult fun m => UN.shl m a k) ∧ ¬ (∀ a k, SameResult fun m => UN.shr m a k) := by
  have e1 : UN.shl .debug [1#8] 8 = .ok [0] ∧ UN.shl .release [1#8] 8 = .ok [1] := by decide
  have e2 : UN.shl .debug [1#8, 0, 0] 17 = .ok [0, 0, 2] ∧
    UN.shl .release [1#8, 0, 0] 17 = .ok [2, 0, 0] := by decide
  have e3 : UN.shr .debug [0#8, 0, 2] 17 = .ok [1, 0, 0] ∧
    UN.shr .release [0#8, 0, 2] 17 = .ok [0, 0, 1] := by decide
  refine ⟨fun h => ?_, fun h => ?_⟩
  · have := h [1#8] 8 _ e1.1
    beta_reduce at this
    rw [e1.2] at this
    revert this
    decide
  · have := h [0#8, 0, 2] 17 _ e3.1
    beta_reduce at this
    rw [e3.2] at this
    revert this
    decide

/-- C116 for the shifts of `U<N>`, exactly: the profiles agree just when the debug build panics or the
two amounts, `k` and `k` modulo the largest power of two not above `8N`, give the same value (for `>>`,
with the stale bits of C11). In particular they agree for all amounts below that power of two. -/
theorem C116_u_shifts_exact_partial (a : Bytes) (k : Nat) (ha : a ≠ []) (hfit : a.length < 2 ^ 60) :
    (SameResult (fun m => UN.shl m a k) ↔ 8 * a.length < k ∨
      val a * 2 ^ k % 256 ^ a.length =
        val a * 2 ^ (k % 2 ^ Nat.log2 (8 * a.length)) % 256 ^ a.length) ∧
    (SameResult (fun m => UN.shr m a k) ↔ 8 * a.length ≤ k ∨
      staleShr 8 (8 * a.length) (val a) k =
        staleShr 8 (8 * a.length) (val a) (k % 2 ^ Nat.log2 (8 * a.length))) ∧
    (k < 2 ^ Nat.log2 (8 * a.length) → SameResult (fun m => UN.shl m a k) ∧
      SameResult (fun m => UN.shr m a k)) := by
  obtain ⟨l1, l2, r1, r2, ⟨lo, hl1, hl2, hl3⟩, ⟨ro, hr1, hr2, hr3⟩⟩ :=
    C34_shifts_exact_partial a k ha hfit
  have hL : SameResult (fun m => UN.shl m a k) ↔ 8 * a.length < k ∨
      val a * 2 ^ k % 256 ^ a.length =
        val a * 2 ^ (k % 2 ^ Nat.log2 (8 * a.length)) % 256 ^ a.length := by
    constructor
    · intro h
      by_cases hk : 8 * a.length < k
      · exact .inl hk
      · right
        obtain ⟨o, e, eo, ev⟩ := l1 (by omega)
        have := h o e
        change UN.shl .release a k = .ok o at this
        rw [hl1] at this
        cases this
        rw [← ev, ← hl3]
    · rintro (hk | hv)
      · intro v e
        change UN.shl .debug a k = .ok v at e
        rw [l2 hk] at e
        cases e
      · intro v e
        change UN.shl .debug a k = .ok v at e
        change UN.shl .release a k = .ok v
        by_cases hk : 8 * a.length < k
        · rw [l2 hk] at e
          cases e
        · obtain ⟨o, e', eo, ev⟩ := l1 (by omega)
          rw [e'] at e
          cases e
          rw [hl1, eq_of_val_eq (hl2.trans eo.symm) (by rw [hl3, ev, hv])]
  have hR : SameResult (fun m => UN.shr m a k) ↔ 8 * a.length ≤ k ∨
      staleShr 8 (8 * a.length) (val a) k =
        staleShr 8 (8 * a.length) (val a) (k % 2 ^ Nat.log2 (8 * a.length)) := by
    constructor
    · intro h
      by_cases hk : 8 * a.length ≤ k
      · exact .inl hk
      · right
        obtain ⟨o, e, eo, ev⟩ := r1 (by omega)
        have := h o e
        change UN.shr .release a k = .ok o at this
        rw [hr1] at this
        cases this
        rw [← ev, ← hr3]
    · rintro (hk | hv)
      · intro v e
        change UN.shr .debug a k = .ok v at e
        rw [r2 hk] at e
        cases e
      · intro v e
        change UN.shr .debug a k = .ok v at e
        change UN.shr .release a k = .ok v
        by_cases hk : 8 * a.length ≤ k
        · rw [r2 hk] at e
          cases e
        · obtain ⟨o, e', eo, ev⟩ := r1 (by omega)
          rw [e'] at e
          cases e
          rw [hr1, eq_of_val_eq (hr2.trans eo.symm) (by rw [hr3, ev, hv])]
  refine ⟨hL, hR, fun hk => ?_⟩
  rw [hL, hR, Nat.mod_eq_of_lt hk]
  exact ⟨.inr rfl, .inr rfl⟩

example : UN.add .debug [200, 1] [100, 2] = .ok [44, (4 : BitVec 8)] ∧
    UN.add .release [200, 1] [100, 2] = .ok [44, (4 : BitVec 8)] ∧
    UN.add .debug [200] [100] = .panic ∧ UN.add .release [200] [100] = .ok [(44 : BitVec 8)] ∧
    Fixed.round .debug ⟨true, 16⟩ 4 40 = .ok 48 ∧ Fixed.round .release ⟨true, 16⟩ 4 40 = .ok 48 ∧
    BiVec.choose .debug 8 6 2 = .ok 15 ∧ BiVec.choose .release 8 6 2 = .ok 15 := by decide +kernel

end Verif
