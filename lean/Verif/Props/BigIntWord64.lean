import Verif.Props.BigIntWord

/-!
# C196: the model with `usize` of 64 bits is the model of any width at 64
-/

namespace Verif

/-- A `BigInt` of the 64-bit model in the model of any width. -/
def BInt.word (b : BInt) : WInt 64 :=
  ⟨b.neg, match b.mag with
    | .inline v => .inline v
    | .slice s => .slice s⟩

/-- The same on results. -/
def BInt.wordR (x : Res BInt) : Res (WInt 64) := x.bind fun b => .ok b.word

namespace BInt

theorem word_inj {a b : BInt} : a.word = b.word ↔ a = b := by
  refine ⟨fun h => ?_, fun h => by rw [h]⟩
  obtain ⟨na, ma⟩ := a
  obtain ⟨nb, mb⟩ := b
  cases ma <;> cases mb <;> simp_all [word]

theorem word_limbs (b : BInt) : b.word.limbs = b.limbs := by
  obtain ⟨n, m⟩ := b
  cases m <;> rfl

theorem word_ival (b : BInt) : WInt.ival b.word = ival b := by
  unfold WInt.ival ival
  rw [word_limbs]
  rfl

theorem newSlice_word (s : List (BitVec 64)) (neg : Bool) :
    WInt.newSlice s neg = wordR (newSlice s neg) := by
  unfold WInt.newSlice newSlice WInt.newInline newInline wordR
  cases shrink s with
  | ok v =>
    simp only [Res.bind]
    by_cases h : v.length = 1 ∧ (v.getD 0 0).toNat ≤ inlineMax
    · rw [if_pos h, if_pos (c := _ ∧ _ ≤ WInt.inlineMax 64) h, if_pos h.2,
        if_pos (c := _ ≤ WInt.inlineMax 64) h.2]
      rfl
    · rw [if_neg h, if_neg (c := _ ∧ _ ≤ WInt.inlineMax 64) h]
      rfl
  | panic => rfl
  | hang => rfl

theorem finish_word (x : Res (List (BitVec 64) × Bool)) : WInt.finish x = wordR (finish x) := by
  unfold WInt.finish finish
  cases x with
  | ok x => exact newSlice_word x.1 x.2
  | panic => rfl
  | hang => rfl

theorem zipCmp_word : @WInt.zipCmp 64 = zipCmp := by
  funext l r
  induction l generalizing r with
  | nil => rfl
  | cons x xs ih =>
    cases r with
    | nil => rfl
    | cons y ys =>
      unfold WInt.zipCmp zipCmp
      rw [ih]
      rfl

theorem cmp_word (a b : BInt) : WInt.cmp a.word b.word = cmp a b := by
  unfold WInt.cmp cmp
  rw [word_limbs, word_limbs, zipCmp_word]
  by_cases h : a = b
  · rw [if_pos h, if_pos (word_inj.mpr h)]
  · rw [if_neg h, if_neg (fun e => h (word_inj.mp e))]
    rfl

theorem eq_word (a b : BInt) : WInt.eq a.word b.word = eq a b := by
  unfold WInt.eq eq
  rw [word_limbs, word_limbs]
  have hi : ∀ b : BInt, b.word.isInline = b.isInline := by
    rintro ⟨n, m⟩; cases m <;> rfl
  rw [hi, hi]
  by_cases h : a = b
  · rw [if_pos h, if_pos (word_inj.mpr h)]
  · rw [if_neg h, if_neg (fun e => h (word_inj.mp e))]
    rfl

theorem divLong_word : @WInt.divLong 64 = @BitwiseDiv.divLong 64 := rfl

theorem shrSlice_word : @WInt.shrSlice 64 = @ElementShr.shr 64 := rfl

theorem fromU_word (t : Nat) (v : BitVec t) : WInt.fromU 64 t v = wordR (fromU t v) := by
  unfold WInt.fromU fromU
  change ((intToArr t 64 (arrSize t) v).bind fun a => WInt.newSlice a false) = _
  cases intToArr t 64 (arrSize t) v with
  | ok a => exact newSlice_word a false
  | panic => rfl
  | hang => rfl

theorem fromS_word (t : Nat) (v : BitVec t) : WInt.fromS 64 t v = wordR (fromS t v) := by
  unfold WInt.fromS fromS
  change ((intToArr t 64 (arrSize t) (unsignedAbs v)).bind fun a =>
    WInt.newSlice a (decide (v.toInt < 0))) = _
  cases intToArr t 64 (arrSize t) (unsignedAbs v) with
  | ok a => exact newSlice_word a _
  | panic => rfl
  | hang => rfl

theorem bind_wordR {α : Type} (x : Res BInt) (f : WInt 64 → Res α) :
    (wordR x).bind f = x.bind fun b => f b.word := by cases x <;> rfl

theorem tryIntoU_word (t : Nat) (m : Mode) (b : BInt) :
    WInt.tryIntoU t m b.word = tryIntoU t m b := by
  unfold WInt.tryIntoU tryIntoU
  rw [fromU_word, fromU_word, bind_wordR]
  congr 1
  funext mx
  rw [bind_wordR]
  congr 1
  funext mn
  rw [cmp_word, cmp_word, word_limbs]
  rfl

theorem tryIntoS_word (t : Nat) (m : Mode) (b : BInt) :
    WInt.tryIntoS t m b.word = tryIntoS t m b := by
  unfold WInt.tryIntoS tryIntoS
  rw [fromS_word, fromS_word, bind_wordR]
  congr 1
  funext mx
  rw [bind_wordR]
  congr 1
  funext mn
  rw [cmp_word, cmp_word, word_limbs]
  rfl

theorem cmpS_word (t : Nat) (b : BInt) (v : BitVec t) :
    WInt.cmpS t b.word v = cmpS t b v := by
  unfold WInt.cmpS cmpS
  rw [fromS_word, bind_wordR]
  congr 1
  funext x
  rw [cmp_word]

theorem raw_word (a b : BInt) (m : Mode) :
    WInt.addRaw a.word b.word = addRaw a b ∧ WInt.subRaw a.word b.word = subRaw a b ∧
    WInt.mulRaw a.word b.word = mulRaw a b ∧ WInt.divRaw m a.word b.word = divRaw m a b ∧
    WInt.remRaw m a.word b.word = remRaw m a b ∧ WInt.bitandRaw a.word b.word = bitandRaw a b ∧
    WInt.bitorRaw a.word b.word = bitorRaw a b ∧ WInt.bitxorRaw a.word b.word = bitxorRaw a b ∧
    WInt.notRaw a.word = notRaw a := by
  refine ⟨?_, ?_, ?_, ?_, ?_, ?_, ?_, ?_, ?_⟩
  · unfold WInt.addRaw addRaw; rw [word_limbs, word_limbs]; rfl
  · unfold WInt.subRaw subRaw; rw [word_limbs, word_limbs]; rfl
  · unfold WInt.mulRaw mulRaw; rw [word_limbs, word_limbs]; rfl
  · unfold WInt.divRaw divRaw; rw [word_limbs, word_limbs]; rfl
  · unfold WInt.remRaw remRaw; rw [word_limbs, word_limbs]; rfl
  · unfold WInt.bitandRaw bitandRaw; rw [word_limbs, word_limbs]; rfl
  · unfold WInt.bitorRaw bitorRaw; rw [word_limbs, word_limbs]; rfl
  · unfold WInt.bitxorRaw bitxorRaw; rw [word_limbs, word_limbs]; rfl
  · unfold WInt.notRaw notRaw; rw [word_limbs]; rfl

theorem shift_word (a b : BInt) (m : Mode) :
    WInt.shlRaw m a.word b.word = shlRaw m a b ∧ WInt.shrRaw m a.word b.word = shrRaw m a b := by
  have h : WInt.shiftAmount m b.word = shiftAmount m b := by
    unfold WInt.shiftAmount shiftAmount
    rw [tryIntoU_word]
    congr 1
    funext r
    cases r <;> rfl
  constructor
  · unfold WInt.shlRaw shlRaw; rw [word_limbs, h]; rfl
  · unfold WInt.shrRaw shrRaw; rw [word_limbs, h, shrSlice_word]; rfl

theorem wordR_bind {α : Type} (x : Res α) (f : α → Res BInt) :
    wordR (x.bind f) = x.bind fun b => wordR (f b) := by cases x <;> rfl

theorem digitLoop_word (m : Mode) (base : BitVec 64) (fuel : Nat) (b : BInt)
    (ds : List (BitVec 8)) : WInt.digitLoop m base fuel b.word ds = digitLoop m base fuel b ds := by
  induction fuel generalizing b ds with
  | zero => rfl
  | succ fuel ih =>
    unfold WInt.digitLoop digitLoop
    rw [cmpS_word]
    congr 1
    funext c
    split
    · rw [fromU_word, bind_wordR]
      congr 1
      funext x
      rw [show WInt.rem m b.word x.word = wordR (rem m b x) by
        unfold WInt.rem rem; rw [(raw_word b x m).2.2.2.2.1, finish_word], bind_wordR]
      congr 1
      funext r
      rw [tryIntoU_word]
      congr 1
      funext d
      cases d with
      | error _ => rfl
      | ok d =>
        simp only
        rw [show WInt.div m b.word x.word = wordR (div m b x) by
          unfold WInt.div div; rw [(raw_word b x m).2.2.2.1, finish_word], bind_wordR]
        congr 1
        funext q
        exact ih q _
    · rfl

theorem approx_word (idx : Nat) (l : List (BitVec 64)) (acc : Fl) :
    WInt.approxLoop idx l acc = approxLoop idx l acc := by
  induction l generalizing idx acc with
  | nil => rfl
  | cons v vs ih =>
    unfold WInt.approxLoop approxLoop
    rw [ih]
    rfl

theorem add_word (a b : BInt) : WInt.add a.word b.word = wordR (add a b) := by
  unfold WInt.add add; rw [(raw_word a b .debug).1, finish_word]

theorem sub_word (a b : BInt) : WInt.sub a.word b.word = wordR (sub a b) := by
  unfold WInt.sub sub; rw [(raw_word a b .debug).2.1, finish_word]

theorem mul_word (a b : BInt) : WInt.mul a.word b.word = wordR (mul a b) := by
  unfold WInt.mul mul; rw [(raw_word a b .debug).2.2.1, finish_word]

theorem powLoop_word (self : BInt) (fuel : Nat) (rhs out : BInt) :
    WInt.powLoop self.word fuel rhs.word out.word = wordR (powLoop self fuel rhs out) := by
  induction fuel generalizing rhs out with
  | zero => rfl
  | succ fuel ih =>
    unfold WInt.powLoop powLoop
    rw [cmpS_word, wordR_bind]
    congr 1
    funext c
    split
    · rw [mul_word, bind_wordR, wordR_bind]
      congr 1
      funext o
      rw [fromS_word, bind_wordR, wordR_bind]
      congr 1
      funext x
      rw [sub_word, bind_wordR, wordR_bind]
      congr 1
      funext r
      exact ih r o
    · rfl

theorem eqS_word (t : Nat) (m : Mode) (a : BInt) (v : BitVec t) :
    WInt.eqS t m a.word v = eqS t m a v := by
  unfold WInt.eqS eqS; rw [word_limbs]; rfl

theorem pow_word (m : Mode) (fuel : Nat) (a b : BInt) :
    WInt.pow m fuel a.word b.word = wordR (pow m fuel a b) := by
  unfold WInt.pow pow
  rw [eqS_word, wordR_bind]
  congr 1
  funext z
  split
  · exact fromS_word 32 1
  · exact powLoop_word a fuel b a

/-- What `from_str_radix` returns in the model of any width. -/
def wordE (x : Res (Except ParseError BInt)) : Res (Except ParseError (WInt 64)) :=
  x.bind fun r => .ok (match r with | .ok b => .ok b.word | .error e => .error e)

theorem wordE_bind (x : Res BInt) (f : BInt → Res (Except ParseError BInt)) :
    wordE (x.bind f) = x.bind fun b => wordE (f b) := by cases x <;> rfl

theorem parseLoop_word (radix : BitVec 32) (s : List Char) (out : BInt) :
    WInt.parseLoop radix s out.word = wordE (parseLoop radix s out) := by
  induction s generalizing out with
  | nil => rfl
  | cons c cs ih =>
    unfold WInt.parseLoop parseLoop
    cases valFromChar c radix.toNat with
    | error e => rfl
    | ok d =>
      simp only
      rw [fromU_word, bind_wordR, wordE_bind]
      congr 1
      funext r
      rw [mul_word, bind_wordR, wordE_bind]
      congr 1
      funext x
      rw [fromU_word, bind_wordR, wordE_bind]
      congr 1
      funext d
      rw [add_word, bind_wordR, wordE_bind]
      congr 1
      funext o
      exact ih o

/-- C196, the link to all other results about `BigInt`: at 64 bits the model of any width does what the
64-bit model does, so that everything shown there about the operators, the order, equality, the
conversions, `pow`, printing, parsing and `approx_float` is the case `w = 64`. -/
theorem C196_at_64 (m : Mode) (a b : BInt) :
    (WInt.ival a.word = ival a ∧ WInt.eq a.word b.word = eq a b ∧
      WInt.cmp a.word b.word = cmp a b) ∧
    (WInt.add a.word b.word = wordR (add a b) ∧ WInt.sub a.word b.word = wordR (sub a b) ∧
      WInt.mul a.word b.word = wordR (mul a b) ∧ WInt.div m a.word b.word = wordR (div m a b) ∧
      WInt.rem m a.word b.word = wordR (rem m a b) ∧
      WInt.bitand a.word b.word = wordR (bitand a b) ∧
      WInt.bitor a.word b.word = wordR (bitor a b) ∧
      WInt.bitxor a.word b.word = wordR (bitxor a b) ∧ WInt.not a.word = wordR (BInt.not a) ∧
      WInt.shl m a.word b.word = wordR (shl m a b) ∧
      WInt.shr m a.word b.word = wordR (shr m a b) ∧
      WInt.neg' a.word = (neg' a).word ∧ WInt.abs a.word = (BInt.abs a).word) ∧
    (∀ t (v : BitVec t), WInt.fromU 64 t v = wordR (fromU t v) ∧
      WInt.fromS 64 t v = wordR (fromS t v) ∧ WInt.tryIntoU t m a.word = tryIntoU t m a ∧
      WInt.tryIntoS t m a.word = tryIntoS t m a ∧ WInt.saturateU t m a.word = saturateU t m a ∧
      WInt.saturateS t m a.word = saturateS t m a ∧ WInt.truncateU t m a.word = truncateU t m a ∧
      WInt.truncateS t m a.word = truncateS t m a ∧ WInt.eqU t a.word v = eqU t a v ∧
      WInt.eqS t m a.word v = eqS t m a v) ∧
    (∀ fuel, WInt.pow m fuel a.word b.word = wordR (pow m fuel a b) ∧
      WInt.display m fuel a.word = display m fuel a ∧
      WInt.lowerHex m fuel a.word = lowerHex m fuel a ∧
      WInt.upperHex m fuel a.word = upperHex m fuel a) ∧
    (∀ s radix, WInt.fromStrRadix s radix = wordE (fromStrRadix s radix)) ∧
    WInt.binary a.word = binary a ∧ WInt.approxFloat a.word = approxFloat a := by
  obtain ⟨r1, r2, r3, r4, r5, r6, r7, r8, r9⟩ := raw_word a b m
  obtain ⟨s1, s2⟩ := shift_word a b m
  refine ⟨⟨word_ival a, eq_word a b, cmp_word a b⟩, ⟨?_, ?_, ?_, ?_, ?_, ?_, ?_, ?_, ?_, ?_, ?_, ?_,
    ?_⟩, fun t v => ⟨fromU_word t v, fromS_word t v, tryIntoU_word t m a, tryIntoS_word t m a, ?_,
    ?_, ?_, ?_, ?_, ?_⟩, fun fuel => ⟨pow_word m fuel a b, ?_, ?_, ?_⟩,
    fun s radix => parseLoop_word radix s zero, ?_, ?_⟩
  · unfold WInt.add add; rw [r1, finish_word]
  · unfold WInt.sub sub; rw [r2, finish_word]
  · unfold WInt.mul mul; rw [r3, finish_word]
  · unfold WInt.div div; rw [r4, finish_word]
  · unfold WInt.rem rem; rw [r5, finish_word]
  · unfold WInt.bitand bitand; rw [r6, finish_word]
  · unfold WInt.bitor bitor; rw [r7, finish_word]
  · unfold WInt.bitxor bitxor; rw [r8, finish_word]
  · unfold WInt.not BInt.not; rw [r9, finish_word]
  · unfold WInt.shl shl; rw [s1, finish_word]
  · unfold WInt.shr shr; rw [s2, finish_word]
  · rfl
  · unfold WInt.abs BInt.abs
    rw [show a.word.isNegative = a.isNegative from rfl]
    split <;> rfl
  · unfold WInt.saturateU saturateU; rw [tryIntoU_word]; rfl
  · unfold WInt.saturateS saturateS; rw [tryIntoS_word]; rfl
  · unfold WInt.truncateU truncateU; rw [word_limbs]
  · unfold WInt.truncateS truncateS; rw [word_limbs]; rfl
  · unfold WInt.eqU eqU; rw [word_limbs]; rfl
  · unfold WInt.eqS eqS; rw [word_limbs]; rfl
  · unfold WInt.display display WInt.writeBase writeBase; rw [digitLoop_word]; rfl
  · unfold WInt.lowerHex lowerHex WInt.writeBase writeBase; rw [digitLoop_word]; rfl
  · unfold WInt.upperHex upperHex WInt.writeBase writeBase; rw [digitLoop_word]; rfl
  · unfold WInt.binary binary; rw [word_limbs]; rfl
  · unfold WInt.approxFloat approxFloat; rw [word_limbs]; exact approx_word 0 a.limbs (.fin 0)

example : (⟨true, .slice [7, 1]⟩ : BInt).word = ⟨true, .slice [7, 1]⟩ ∧
    WInt.sub (⟨true, .slice [7, 1]⟩ : BInt).word (⟨false, .inline 3⟩ : BInt).word
      = .ok ⟨true, .slice [10, 1]⟩ := by decide +kernel

end BInt

end Verif
