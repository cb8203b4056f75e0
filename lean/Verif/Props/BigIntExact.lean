import Verif.Lemmas.BigIntSigned
import Verif.Props.BigIntLaws
import Verif.Props.BigIntMore
import Verif.Props.Order

/-!
# C45, C49-C51, C53, C54, C95, C110, C112: exact descriptions of what `BigInt` does where the
properties fail

The theorems hold for all values that can arise, negative zero (`b.neg` with the number 0) included
where only `Rep` is asked for.
-/

namespace Verif

open BInt

theorem Canon.of_pos {b : BInt} (h : Rep b) (hn : b.neg = false) : Canon b :=
  ⟨h, fun hc => by rw [hn] at hc; cases hc⟩

/-- A value with the negative flag is smaller than one without it. -/
theorem cmp_neg_lt {a b : BInt} (ha : a.neg = true) (hb : b.neg = false) : cmp a b = .lt :=
  (C47_cmp_exact_partial a b).1 ha hb

theorem Canon.neg_false {b : BInt} (h : Canon b) (h0 : 0 ≤ ival b) : b.neg = false :=
  (h.val_of_nonneg h0).1

/-! ## C45 -/

theorem shiftAmount_neg (m : Mode) {k : BInt} (h : k.neg = true) : shiftAmount m k = .panic := by
  obtain ⟨mx, h1, h2, h3, h4⟩ := fromU_spec (t := 64) (by norm_num) (BitVec.allOnes 64)
  obtain ⟨mn, k1, k2, k3, k4⟩ := fromU_spec (t := 64) (by norm_num) (0 : BitVec 64)
  unfold shiftAmount tryIntoU
  rw [h1, k1]
  simp only [Res.bind]
  rw [cmp_neg_lt h (Canon.neg_false h2 (by rw [h4]; omega)),
    cmp_neg_lt h (Canon.neg_false k2 (by rw [k4]; omega))]
  simp

/-- C45, exactly: shifts by amounts with the negative flag (negative zero included) and from `2^64` on
panic; `<<` by any other amount is right; `>>` is right for amounts below 64, and in debug builds
panics from there on, while in release builds it is right for every amount below `2^64` (for numbers
whose limbs fit in the address space). -/
theorem C45_shift_exact_partial (m : Mode) (a k : BInt) (ha : Rep a) (hk : Rep k) :
    (k.neg = true ∨ 2 ^ 64 ≤ ival k → shl m a k = .panic ∧ shr m a k = .panic) ∧
    (k.neg = false → ival k < 2 ^ 64 →
      ∃ c, shl m a k = .ok c ∧ Canon c ∧ ival c = ival a * 2 ^ (ival k).toNat) ∧
    (k.neg = false → ival k < 64 → ∃ c, shr m a k = .ok c ∧ Canon c ∧
      (ival c).natAbs = (ival a).natAbs / 2 ^ (ival k).toNat ∧
      (ival c ≠ 0 → (ival c < 0 ↔ ival a < 0))) ∧
    (64 ≤ ival k → shr .debug a k = .panic) ∧
    (k.neg = false → ival k < 2 ^ 64 → a.limbs.length ≤ 2 ^ 63 →
      ∃ c, shr .release a k = .ok c ∧ Canon c ∧
        (ival c).natAbs = (ival a).natAbs / 2 ^ (ival k).toNat ∧
        (ival c ≠ 0 → (ival c < 0 ↔ ival a < 0))) := by
  have hpos : k.neg = false → 0 ≤ ival k := fun h => by rw [ival_of_pos h]; omega
  refine ⟨fun h => ?_, fun h1 h2 => ?_, fun h1 h2 => ?_, fun h => ?_, fun h1 h2 h3 =>
    C45_shr_partial .release a k ha (Canon.of_pos hk h1) (hpos h1) h3 (.inr ⟨rfl, h2⟩)⟩
  · have e : shiftAmount m k = .panic := by
      by_cases hn : k.neg = true
      · exact shiftAmount_neg m hn
      · rw [shiftAmount_spec m (Canon.of_pos hk (by simpa using hn)), if_neg]
        rcases h with h | h
        · exact absurd h hn
        · omega
    unfold shl shlRaw shr shrRaw
    rw [e]
    exact ⟨rfl, rfl⟩
  · exact (C45_shl_partial m a k ha (Canon.of_pos hk h1)).1 (hpos h1) h2
  · have hc := Canon.of_pos hk h1
    have hp := hpos h1
    unfold shr shrRaw
    rw [shiftAmount_spec m hc, if_pos (by omega)]
    simp only [Res.bind]
    obtain ⟨out, g1, g2, g3⟩ :=
      ElementShr.shr_small m a.limbs (ival k).toNat (by omega) ha.norm.1
    rw [g1]
    obtain ⟨c, c1, c2, c3, c4⟩ := finish_spec (.ok (out, a.isNegative)) out a.isNegative rfl g3.1
    refine ⟨c, c1, c2, ?_, ?_⟩
    · rw [natAbs_ival, natAbs_ival, c3, g2]
    · intro hne
      rw [c4] at hne ⊢
      have hle : val out ≤ val a.limbs := by rw [g2]; exact Nat.div_le_self _ _
      unfold isNegative ival at *
      split at hne <;> rename_i hneg <;>
        simp only [hneg, if_true, if_false, Bool.false_eq_true] <;> omega
  · have hn : k.neg = false := by
      by_contra hc
      rw [ival_of_neg (by simpa using hc)] at h
      omega
    unfold shr shrRaw
    rw [shiftAmount_spec .debug (Canon.of_pos hk hn)]
    by_cases h64 : ival k < 2 ^ 64
    · rw [if_pos (by omega)]
      simp only [Res.bind]
      rw [ElementShr.shr_debug_panic (by norm_num) a.limbs _ ha.norm.1 (by omega)]
      rfl
    · rw [if_neg (by omega)]; rfl

example : shr .debug ⟨false, .slice [0, 1]⟩ ⟨false, .inline 64⟩ = .panic ∧
    shr .debug ⟨false, .slice [0, 1]⟩ ⟨false, .inline 63⟩ = .ok ⟨false, .inline 2⟩ ∧
    shl .debug ⟨false, .inline 5⟩ ⟨true, .inline 0⟩ = .panic := by decide +kernel

/-! ## C49 -/

theorem cmp_pos {a b : BInt} (ha : a.neg = false) (hb : b.neg = false) : BInt.cmp a b =
    (compare a.limbs.length b.limbs.length).then (compare (bigEnd a.limbs) (bigEnd b.limbs)) :=
  (C47_cmp_exact_partial a b).2.2.1 ha hb

theorem cmp_neg {a b : BInt} (ha : a.neg = true) (hb : b.neg = true) : BInt.cmp a b =
    ((compare a.limbs.length b.limbs.length).then
      (compare (bigEnd a.limbs) (bigEnd b.limbs))).swap :=
  (C47_cmp_exact_partial a b).2.2.2 ha hb

theorem bigEnd_two (x y : BitVec 64) : bigEnd [x, y] = x.toNat * 2 ^ 64 + y.toNat := by
  simp [bigEnd]

/-- C49 for `i128`, exactly. A nonnegative value is converted as it should up to `2^127`, and from
there up to `2^128` wraps around, except when the lower 64 bits are all ones. A negative value is
converted to its absolute value (taken modulo `2^128`) if that is below `2^64` or is a multiple of
`2^64` up to `2^127`, and reported as too small otherwise. -/
theorem C49_i128_exact_partial (m : Mode) (b : BInt) (hb : Canon b) :
    tryIntoS 128 m b = .ok (
      if 0 ≤ ival b then
        if 2 ^ 128 ≤ ival b ∨ 2 ^ 127 ≤ ival b ∧ ival b % 2 ^ 64 = 2 ^ 64 - 1
        then .error .above else .ok (BitVec.ofInt 128 (ival b))
      else if -2 ^ 64 < ival b ∨ -2 ^ 127 ≤ ival b ∧ ival b % 2 ^ 64 = 0
        then .ok (BitVec.ofInt 128 (-ival b)) else .error .below) := by
  have e1 : fromS 128 (BitVec.intMax 128)
      = .ok ⟨false, .slice [BitVec.allOnes 64, BitVec.intMax 64]⟩ := by decide +kernel
  have e2 : fromS 128 (BitVec.intMin 128)
      = .ok ⟨true, .slice [0, BitVec.intMin 64]⟩ := by decide +kernel
  have l1 : (BInt.limbs ⟨false, .slice [BitVec.allOnes 64, BitVec.intMax 64]⟩)
      = [BitVec.allOnes 64, BitVec.intMax 64] := rfl
  have l2 : (BInt.limbs ⟨true, .slice [0, BitVec.intMin 64]⟩) = [0, BitVec.intMin 64] := rfl
  have b1 : bigEnd [BitVec.allOnes 64, BitVec.intMax 64] = (2 ^ 64 - 1) * 2 ^ 64 + (2 ^ 63 - 1) := by
    rw [bigEnd_two]; decide +kernel
  have b2 : bigEnd [(0 : BitVec 64), BitVec.intMin 64] = 2 ^ 63 := by
    rw [bigEnd_two]; decide +kernel
  have habs := natAbs_ival b
  have hlt := val_lt b.limbs
  unfold modulus at hlt
  have hlow := hb.norm
  unfold tryIntoS
  rw [e1, e2]
  simp only [Res.bind]
  obtain ⟨n1, n2, n3⟩ : 1 ≤ b.limbs.length ∧ (3 ≤ b.limbs.length → 2 ^ 128 ≤ val b.limbs) ∧
      (b.limbs.length = 2 → 2 ^ 64 ≤ val b.limbs) := by
    refine ⟨List.length_pos_iff.mpr hb.norm.1, fun h => ?_, fun h => ?_⟩
    · by_contra hc
      have := length_le_two hb.norm (by omega)
      omega
    · by_contra hc
      have := length_one_of_lt hb.norm (by omega)
      omega
  by_cases h0 : 0 ≤ ival b
  · rw [if_pos h0]
    obtain ⟨hn, hv⟩ := hb.val_of_nonneg h0
    have hof : BitVec.ofInt 128 (ival b) = BitVec.ofNat 128 (val b.limbs) := by
      rw [hv]; exact BitVec.ofInt_natCast ..
    have hmn : cmp b ⟨true, .slice [0, BitVec.intMin 64]⟩ = .gt :=
      (C47_cmp_exact_partial b _).2.1 hn rfl
    rw [hmn, if_neg (c := Ordering.gt = Ordering.lt) (by decide), cmp_pos hn rfl, l1, b1]
    rcases (by omega : b.limbs.length = 1 ∨ b.limbs.length = 2 ∨ 3 ≤ b.limbs.length) with h | h | h
    · have hl : compare b.limbs.length [BitVec.allOnes 64, BitVec.intMax 64].length = .lt := by
        rw [h]; rfl
      rw [hl]
      rw [Ordering.lt_then]
      rw [if_neg (by decide)]
      rw [h] at hlt
      rw [if_neg (by omega), hof]
      obtain ⟨x, hx⟩ := List.length_eq_one_iff.mp h
      rw [hx, arrToIntS_one m (by norm_num) x, if_pos (by have := x.isLt; omega), val_one]
    · obtain ⟨x, y, hx⟩ := List.length_eq_two.mp h
      have hv2 : val b.limbs = x.toNat + 2 ^ 64 * y.toNat := by rw [hx]; simp [val]
      have hxl := x.isLt
      have hyl := y.isLt
      have hl : compare b.limbs.length [BitVec.allOnes 64, BitVec.intMax 64].length = .eq := by
        rw [h]; rfl
      rw [hl, Ordering.eq_then, hx, bigEnd_two, arrToIntS_two]
      by_cases hc : compare (x.toNat * 2 ^ 64 + y.toNat) ((2 ^ 64 - 1) * 2 ^ 64 + (2 ^ 63 - 1))
          = Ordering.gt
      · rw [if_pos hc]
        rw [compare_gt_iff_gt] at hc
        rw [if_pos (by rw [hv, hv2]; omega)]
      · rw [if_neg hc]
        rw [compare_gt_iff_gt] at hc
        rw [if_neg (by rw [hv, hv2]; omega), hof, hv2]
    · have := n2 h
      rw [if_pos, if_pos (by omega)]
      rw [compare_gt_iff_gt.mpr (show b.limbs.length > [BitVec.allOnes 64, BitVec.intMax 64].length
        from h), Ordering.gt_then]
  · rw [if_neg h0]
    obtain ⟨hn, hv⟩ := hb.val_of_neg (by omega)
    have hof : BitVec.ofInt 128 (-ival b) = BitVec.ofNat 128 (val b.limbs) := by
      rw [hv, neg_neg]; exact BitVec.ofInt_natCast ..
    have hmx : cmp b ⟨false, .slice [BitVec.allOnes 64, BitVec.intMax 64]⟩ = .lt :=
      cmp_neg_lt hn rfl
    rw [hmx, if_neg (c := Ordering.lt = Ordering.gt) (by decide), cmp_neg hn rfl, l2, b2]
    rcases (by omega : b.limbs.length = 1 ∨ b.limbs.length = 2 ∨ 3 ≤ b.limbs.length) with h | h | h
    · have hl : compare b.limbs.length [(0 : BitVec 64), BitVec.intMin 64].length = .lt := by
        rw [h]; rfl
      rw [hl]
      rw [Ordering.lt_then, Ordering.swap_lt]
      rw [if_neg (by decide)]
      rw [h] at hlt
      rw [if_pos (by omega), hof]
      obtain ⟨x, hx⟩ := List.length_eq_one_iff.mp h
      rw [hx, arrToIntS_one m (by norm_num) x, if_pos (by have := x.isLt; omega), val_one]
    · obtain ⟨x, y, hx⟩ := List.length_eq_two.mp h
      have hv2 : val b.limbs = x.toNat + 2 ^ 64 * y.toNat := by rw [hx]; simp [val]
      have hxl := x.isLt
      have hyl := y.isLt
      have h64 := n3 h
      have hl : compare b.limbs.length [(0 : BitVec 64), BitVec.intMin 64].length = .eq := by
        rw [h]; rfl
      rw [hl, Ordering.eq_then, hx, bigEnd_two, arrToIntS_two]
      have hs : ∀ o : Ordering, o.swap = .lt ↔ o = .gt := by intro o; cases o <;> decide
      by_cases hc : compare (x.toNat * 2 ^ 64 + y.toNat) (2 ^ 63) = Ordering.gt
      · rw [if_pos ((hs _).mpr hc)]
        rw [compare_gt_iff_gt] at hc
        rw [if_neg (by rw [hv, hv2]; omega)]
      · rw [if_neg (fun h => hc ((hs _).mp h))]
        rw [compare_gt_iff_gt] at hc
        rw [if_pos (by rw [hv, hv2]; omega), hof, hv2]
    · have := n2 h
      rw [if_pos, if_neg (by omega)]
      rw [compare_gt_iff_gt.mpr (show b.limbs.length > [(0 : BitVec 64), BitVec.intMin 64].length
        from h), Ordering.gt_then, Ordering.swap_gt]

-- `2^127` becomes the minimum, and `-2^64 - 1` is reported as too small
example : tryIntoS 128 .debug ⟨false, .slice [0, 0x8000000000000000]⟩
      = .ok (.ok (BitVec.intMin 128)) ∧
    tryIntoS 128 .debug ⟨true, .slice [1, 1]⟩ = .ok (.error .below) ∧
    tryIntoS 128 .debug ⟨true, .slice [0, 3]⟩ = .ok (.ok (3 * 2 ^ 64)) := by decide +kernel

/-! ## C50 -/

/-- C50, exactly: equality with an unsigned primitive is equality of the absolute value; equality with
a signed one is right, with negative zero counting as negative, except that comparing with the
minimum panics in debug builds when the number has the negative flag. -/
theorem C50_eq_exact_partial (t : Nat) (ht : 0 < t) (m : Mode) (b : BInt) (hb : Rep b) (x : BitVec t) :
    eqU t b x = .ok (decide ((ival b).natAbs = x.toNat)) ∧
    eqS t m b x = (if m = .debug ∧ x = BitVec.intMin t ∧ b.neg = true then .panic
      else .ok (decide (b.neg = decide (x.toInt < 0) ∧ ival b = x.toInt))) := by
  refine ⟨by rw [eqU_spec ht hb, natAbs_ival], ?_⟩
  have hmin : (BitVec.intMin t).toInt < 0 := by
    rw [BitVec.toInt_intMin]
    have : (2 ^ (t - 1) : Nat) % 2 ^ t = 2 ^ (t - 1) :=
      Nat.mod_eq_of_lt (Nat.pow_lt_pow_right (by norm_num) (by omega))
    rw [this]
    have : 0 < 2 ^ (t - 1) := Nat.two_pow_pos _
    omega
  have hfin : (b.neg = decide (x.toInt < 0) ∧ val b.limbs = x.toInt.natAbs) ↔
      (b.neg = decide (x.toInt < 0) ∧ ival b = x.toInt) := by
    refine and_congr_right fun h => ?_
    unfold ival
    by_cases hx : x.toInt < 0
    · rw [h, decide_eq_true hx, if_pos rfl]; omega
    · rw [h, decide_eq_false hx, if_neg (by decide)]; omega
  by_cases hc : m = .debug ∧ x = BitVec.intMin t
  · obtain ⟨rfl, rfl⟩ := hc
    by_cases hn : b.neg = true
    · rw [if_pos ⟨rfl, rfl, hn⟩]
      unfold eqS isNegative
      rw [if_neg (by rw [hn, decide_eq_true hmin]; simp), if_pos ⟨rfl, rfl⟩]
    · rw [if_neg (fun h => hn h.2.2)]
      have hn : b.neg = false := by simpa using hn
      unfold eqS isNegative
      rw [if_pos (by rw [hn, decide_eq_true hmin]; simp), hn, decide_eq_true hmin]
      simp
  · rw [if_neg (fun h => hc ⟨h.1, h.2.1⟩), eqS_spec ht m hb x, decide_eq_decide.mpr hfin]
    by_cases hx : x = BitVec.intMin t
    · right
      cases m
      · exact absurd ⟨rfl, hx⟩ hc
      · rfl
    · exact .inl hx

example : eqU 8 ⟨true, .inline 5⟩ 5 = .ok true ∧ eqS 8 .debug ⟨true, .inline 5⟩ (-128) = .panic ∧
    eqS 8 .debug ⟨true, .inline 5⟩ (-5) = .ok true := by decide +kernel

/-! ## C51 -/

theorem cmpS_neg {t : Nat} (ht : 0 < t) {b : BInt} (hb : b.neg = true) (v : BitVec t)
    (hv : 0 ≤ v.toInt) : cmpS t b v = .ok .lt := by
  obtain ⟨x, h1, h2, h3, h4⟩ := fromS_spec ht v
  unfold cmpS
  rw [h1]
  simp only [Res.bind]
  rw [cmp_neg_lt hb (Canon.neg_false h2 (by rw [h4]; exact hv))]

/-- C51, exactly: every value with the negative flag, whatever the number, prints as `-0`, in decimal
and hexadecimal. -/
theorem C51_print_exact_partial (m : Mode) (b : BInt) (hb : b.neg = true) (fuel : Nat)
    (hf : 0 < fuel) :
    display m fuel b = .ok ['-', '0'] ∧ lowerHex m fuel b = .ok ['-', '0', 'x', '0'] ∧
    upperHex m fuel b = .ok ['-', '0', 'x', '0'] := by
  obtain ⟨fuel, rfl⟩ : ∃ k, fuel = k + 1 := ⟨fuel - 1, by omega⟩
  have key : ∀ base, digitLoop m base (fuel + 1) b [] = .ok [] := by
    intro base
    unfold digitLoop
    rw [cmpS_neg (by norm_num) hb 0 (by decide)]
    rfl
  have hs : signChars b = ['-'] := by unfold signChars isNegative; rw [hb]; rfl
  unfold display lowerHex upperHex writeBase
  rw [key, key, hs]
  refine ⟨?_, ?_, ?_⟩ <;> decide

example : display .debug 9 ⟨true, .inline 5⟩ = .ok ['-', '0'] := by decide +kernel

/-! ## C53 -/

/-- C53, exactly: an exponent with the negative flag (negative zero included) gives the base back. -/
theorem C53_pow_exact_partial (m : Mode) (a e : BInt) (he : e.neg = true) (fuel : Nat)
    (hf : 0 < fuel) : pow m fuel a e = .ok a := by
  obtain ⟨fuel, rfl⟩ : ∃ k, fuel = k + 1 := ⟨fuel - 1, by omega⟩
  unfold pow
  have h1 : eqS 32 m e 0 = .ok false := by
    unfold eqS isNegative
    rw [if_pos (by rw [he]; decide)]
  rw [h1]
  change powLoop a (fuel + 1) e a = _
  unfold powLoop
  rw [cmpS_neg (by norm_num) he 1 (by decide)]
  rfl

example : pow .debug 9 ⟨false, .inline 7⟩ ⟨true, .inline 2⟩ = .ok ⟨false, .inline 7⟩ := by
  decide +kernel

/-! ## C54 -/

/-- C54, exactly, on all values: the operators act on the absolute values, and the result gets the
sign flag of the left operand (unless it is zero). -/
theorem C54_bit_ops_exact_partial (a b : BInt) (ha : Rep a) :
    (∃ c, bitand a b = .ok c ∧ Canon c ∧
      ival c = if a.neg then -(((ival a).natAbs &&& (ival b).natAbs : Nat) : Int)
        else ((ival a).natAbs &&& (ival b).natAbs : Nat)) ∧
    (∃ c, bitor a b = .ok c ∧ Canon c ∧
      ival c = if a.neg then -(((ival a).natAbs ||| (ival b).natAbs : Nat) : Int)
        else ((ival a).natAbs ||| (ival b).natAbs : Nat)) ∧
    (∃ c, bitxor a b = .ok c ∧ Canon c ∧
      ival c = if a.neg then -(((ival a).natAbs ^^^ (ival b).natAbs : Nat) : Int)
        else ((ival a).natAbs ^^^ (ival b).natAbs : Nat)) := by
  have hpos := List.length_pos_iff.mpr ha.norm.1
  have hne : ∀ out : List (BitVec 64), out.length = max a.limbs.length b.limbs.length → out ≠ [] := by
    rintro out h rfl
    simp at h
    omega
  rw [natAbs_ival, natAbs_ival]
  refine ⟨?_, ?_, ?_⟩
  · obtain ⟨out, h1, h2, h3⟩ := bitand_spec (by norm_num : 0 < 64) a.limbs b.limbs
    obtain ⟨c, c1, c2, _, c4⟩ := finish_spec (bitandRaw a b) out a.isNegative
      (by unfold bitandRaw; rw [h1]; rfl) (hne out h2)
    exact ⟨c, c1, c2, by rw [c4, h3]; rfl⟩
  · obtain ⟨out, h1, h2, h3⟩ := bitor_spec (by norm_num : 0 < 64) a.limbs b.limbs
    obtain ⟨c, c1, c2, _, c4⟩ := finish_spec (bitorRaw a b) out a.isNegative
      (by unfold bitorRaw; rw [h1]; rfl) (hne out h2)
    exact ⟨c, c1, c2, by rw [c4, h3]; rfl⟩
  · obtain ⟨out, h1, h2, h3⟩ := bitxor_spec (by norm_num : 0 < 64) a.limbs b.limbs
    obtain ⟨c, c1, c2, _, c4⟩ := finish_spec (bitxorRaw a b) out a.isNegative
      (by unfold bitxorRaw; rw [h1]; rfl) (hne out h2)
    exact ⟨c, c1, c2, by rw [c4, h3]; rfl⟩

example : bitor ⟨true, .inline 6⟩ ⟨false, .inline 1⟩ = .ok ⟨true, .inline 7⟩ ∧
    bitand ⟨true, .inline 6⟩ ⟨false, .inline 1⟩ = .ok ⟨false, .inline 0⟩ := by decide +kernel

/-! ## C110 -/

/-- C110, exactly: an operator with a primitive right operand does the same as the operator between
`BigInt`s on the canonical `BigInt` of the same value, so that C42-C45 describe it completely. -/
theorem C110_mixed_exact_partial (signed : Bool) (t : Nat) (ht : 0 < t) (x : BitVec t) :
    ∃ b, Canon b ∧ ival b = primVal signed x ∧
      ∀ m op a, opPrim m op a signed t x = op.run m a b ∧
        opAssignPrim m op a signed t x = op.run m a b := by
  obtain ⟨b, h1, h2, h3⟩ := fromPrim_spec signed t ht x
  refine ⟨b, h2, h3, fun m op a => ?_⟩
  unfold opPrim opAssignPrim
  rw [h1]
  exact ⟨rfl, rfl⟩

example : opPrim .debug .rem ⟨false, .inline 7⟩ true 8 (-3)
    = BInt.rem .debug ⟨false, .inline 7⟩ ⟨true, .inline 3⟩ := by decide +kernel

/-! ## C112 -/

private theorem add_canon (a b : BInt) (ha : Canon a) (hb : Canon b) : ∃ c, add a b = .ok c ∧ Canon c ∧
      ival c = ival a + ival b + if (ival a < 0 ↔ 0 ≤ ival b) ∧
        (ival a).natAbs < (ival b).natAbs ∧ (ival a + ival b) % 2 = 0 then
      (if ival a < 0 then -2 else 2) else 0 := by
  obtain ⟨c, h1, h2, h3, h4⟩ := C43_add_partial a b ha.1 hb.1
  refine ⟨c, h1, h2, ?_⟩
  have na := ha.neg_iff
  have nb := hb.neg_iff
  have hflag : a.neg ≠ b.neg ↔ (ival a < 0 ↔ 0 ≤ ival b) := by
    rw [ne_eq, Bool.eq_iff_iff, na, nb]
    omega
  have hif : (if a.neg then (-2 : Int) else 2) = if ival a < 0 then -2 else 2 := by
    by_cases h : ival a < 0
    · rw [if_pos (na.mpr h), if_pos h]
    · rw [if_neg (fun hc => h (na.mp hc)), if_neg h]
  by_cases hc : (ival a < 0 ↔ 0 ≤ ival b) ∧ (ival a).natAbs < (ival b).natAbs ∧
      (ival a + ival b) % 2 = 0
  · rw [if_pos hc, h4 (hflag.mpr hc.1) hc.2.1 hc.2.2, hif]
  · rw [if_neg hc, Int.add_zero]
    apply h3
    by_cases e1 : a.neg = b.neg
    · exact .inl e1
    · right
      by_cases e2 : (ival b).natAbs ≤ (ival a).natAbs
      · exact .inl e2
      · exact .inr fun e3 => hc ⟨hflag.mp e1, by omega, e3⟩

private theorem sub_canon (a b : BInt) (ha : Canon a) (hb : Canon b) : ∃ c, sub a b = .ok c ∧ Canon c ∧
      ival c = ival a - ival b + if (ival a < 0 ↔ ival b < 0) ∧
        (ival a).natAbs < (ival b).natAbs ∧ (ival a - ival b) % 2 = 0 then
      (if ival a < 0 then -2 else 2) else 0 := by
  obtain ⟨c, h1, h2, h3, h4⟩ := C43_sub_partial a b ha.1 hb.1
  refine ⟨c, h1, h2, ?_⟩
  have na := ha.neg_iff
  have nb := hb.neg_iff
  have hflag : a.neg = b.neg ↔ (ival a < 0 ↔ ival b < 0) := by
    rw [Bool.eq_iff_iff, na, nb]
  have hif : (if a.neg then (-2 : Int) else 2) = if ival a < 0 then -2 else 2 := by
    by_cases h : ival a < 0
    · rw [if_pos (na.mpr h), if_pos h]
    · rw [if_neg (fun hc => h (na.mp hc)), if_neg h]
  by_cases hc : (ival a < 0 ↔ ival b < 0) ∧ (ival a).natAbs < (ival b).natAbs ∧
      (ival a - ival b) % 2 = 0
  · rw [if_pos hc, h4 (hflag.mpr hc.1) hc.2.1 hc.2.2, hif]
  · rw [if_neg hc, Int.add_zero]
    apply h3
    by_cases e1 : a.neg ≠ b.neg
    · exact .inl e1
    · right
      by_cases e2 : (ival b).natAbs ≤ (ival a).natAbs
      · exact .inl e2
      · exact .inr fun e3 => hc ⟨hflag.mp (not_not.mp e1), by omega, e3⟩

theorem big_eq_false_iff (x y : BInt) (hx : Canon x) (hy : Canon y) :
    BInt.eq x y = false ↔ ival x ≠ ival y := by
  rw [← Bool.not_eq_true, (C46_eq_partial x y hx.1 hy.1).2 hx hy]

/-- C112, exactly, for commutativity and for zero on the left: `a + b == b + a` holds unless the signs
differ, the absolute values differ and the sum is even; `0 + b == b` holds unless `b` is negative and
even. -/
theorem C112_add_laws_exact_partial (a b : BInt) (ha : Canon a) (hb : Canon b) :
    (∃ ab ba, add a b = .ok ab ∧ add b a = .ok ba ∧ (BInt.eq ab ba = false ↔
      (ival a < 0 ↔ 0 ≤ ival b) ∧ (ival a).natAbs ≠ (ival b).natAbs ∧ (ival a + ival b) % 2 = 0)) ∧
    (∃ zb, add BInt.zero b = .ok zb ∧ (BInt.eq zb b = false ↔ ival b < 0 ∧ ival b % 2 = 0)) := by
  have key := add_canon
  have heq := big_eq_false_iff
  constructor
  · obtain ⟨ab, h1, h2, h3⟩ := key a b ha hb
    obtain ⟨ba, k1, k2, k3⟩ := key b a hb ha
    refine ⟨ab, ba, h1, k1, ?_⟩
    rw [heq ab ba h2 k2, h3, k3]
    split <;> split <;> (try split) <;> omega
  · obtain ⟨zb, h1, h2, h3⟩ := key BInt.zero b (by decide) hb
    refine ⟨zb, h1, ?_⟩
    have hz : ival BInt.zero = 0 := by decide
    rw [hz] at h3
    rw [heq zb b h2 hb, h3]
    split
    · rename_i h; rw [if_neg (by omega)]; omega
    · omega

example : add ⟨false, .inline 1⟩ ⟨true, .inline 3⟩ = .ok ⟨false, .inline 0⟩ ∧
    add ⟨true, .inline 3⟩ ⟨false, .inline 1⟩ = .ok ⟨true, .inline 2⟩ := by decide +kernel

/-- C112, exactly, for `(a - b) + b == a`: it fails if `0 ≤ a < b` and, for `b - a` even, `a` is odd or
`b = a + 2`, for `b - a` odd, `a` is even and not zero; and if `b ≤ a < 0` and `a` is odd, `b` is odd
and not `a`, or `a` is even and `b` is odd or `a`. The two errors cancel in the other cases. -/
theorem C112_sub_add_exact_partial (a b : BInt) (ha : Canon a) (hb : Canon b) :
    ∃ d c, sub a b = .ok d ∧ add d b = .ok c ∧ (BInt.eq c a = false ↔
      (0 ≤ ival a ∧ ival a < ival b ∧
        if (ival b - ival a) % 2 = 0 then ival a % 2 = 1 ∨ ival b = ival a + 2
        else ival a % 2 = 0 ∧ ival a ≠ 0) ∨
      (ival b ≤ ival a ∧ ival a < 0 ∧
        if ival a % 2 = 1 then ival b % 2 = 1 ∧ ival b ≠ ival a
        else ival b % 2 = 1 ∨ ival b = ival a)) := by
  obtain ⟨d, h1, h2, h3⟩ := sub_canon a b ha hb
  obtain ⟨c, k1, k2, k3⟩ := add_canon d b h2 hb
  refine ⟨d, c, h1, k1, ?_⟩
  rw [big_eq_false_iff c a k2 ha, k3, h3]
  generalize ival a = x
  generalize ival b = y
  by_cases e1 : (x < 0 ↔ y < 0) ∧ x.natAbs < y.natAbs ∧ (x - y) % 2 = 0
  · rw [if_pos e1]
    by_cases hx : x < 0
    · rw [if_pos hx]
      split <;> (try split) <;> (try split) <;> (try split) <;> omega
    · rw [if_neg hx]
      split <;> (try split) <;> (try split) <;> (try split) <;> omega
  · rw [if_neg e1, Int.add_zero]
    split <;> (try split) <;> (try split) <;> (try split) <;> omega

example : (sub ⟨false, .inline 2⟩ ⟨false, .inline 5⟩).bind (fun d => add d ⟨false, .inline 5⟩) =
      .ok ⟨false, .inline 0⟩ ∧
    (sub ⟨false, .inline 2⟩ ⟨false, .inline 6⟩).bind (fun d => add d ⟨false, .inline 6⟩) =
      .ok ⟨false, .inline 2⟩ ∧
    (sub ⟨true, .inline 4⟩ ⟨true, .inline 4⟩).bind (fun d => add d ⟨true, .inline 4⟩) =
      .ok ⟨true, .inline 2⟩ := by decide +kernel

/-! ## C49, C97 -/

/-- C49 for 8 to 64 bits, exactly: a value in range but the least is converted to its absolute value, the
least is reported as too large, and so saturates to the greatest. -/
theorem C49_signed_exact_partial (t : Nat) (ht : t ∈ [8, 16, 32, 64]) (m : Mode) (b : BInt)
    (hb : Canon b) :
    (ival b < -2 ^ (t - 1) → tryIntoS t m b = .ok (.error .below) ∧
      saturateS t m b = .ok (BitVec.intMin t)) ∧
    (ival b = -2 ^ (t - 1) ∨ 2 ^ (t - 1) ≤ ival b → tryIntoS t m b = .ok (.error .above) ∧
      saturateS t m b = .ok (BitVec.intMax t)) ∧
    (-2 ^ (t - 1) < ival b → ival b < 2 ^ (t - 1) →
      ∃ x : BitVec t, x.toInt = |ival b| ∧ tryIntoS t m b = .ok (.ok x) ∧ saturateS t m b = .ok x) := by
  have ht64 : 0 < t ∧ t ≤ 64 := by
    simp only [List.mem_cons, List.not_mem_nil, or_false] at ht
    omega
  have hp : (0 : Int) < 2 ^ (t - 1) := by positivity
  unfold saturateS
  rw [tryIntoS_small ht64.1 ht64.2 m hb]
  refine ⟨fun h => ?_, fun h => ?_, fun h1 h2 => ?_⟩
  · rw [if_pos h]; exact ⟨rfl, rfl⟩
  · rw [if_neg (by omega)]
    rcases h with h | h
    · rw [if_pos h]; exact ⟨rfl, rfl⟩
    · rw [if_neg (by omega), if_neg (by omega)]; exact ⟨rfl, rfl⟩
  · rw [if_neg (by omega), if_neg (by omega), if_pos h2]
    refine ⟨_, ?_, rfl, rfl⟩
    have hc : ((2 ^ (t - 1) : Nat) : Int) = (2 : Int) ^ (t - 1) := by push_cast; rfl
    have h3 : (ival b).natAbs < 2 ^ (t - 1) := by omega
    have h4 : 2 ^ t = 2 * 2 ^ (t - 1) := by
      obtain ⟨k, rfl⟩ : ∃ k, t = k + 1 := ⟨t - 1, by omega⟩
      rw [pow_succ]; simp; ring
    rw [BitVec.toInt_eq_toNat_cond, BitVec.toNat_ofNat, Nat.mod_eq_of_lt (by omega), if_pos (by omega), Int.natCast_natAbs]

example : tryIntoS 8 .debug ⟨true, .inline 128⟩ = .ok (.error .above) ∧
    saturateS 8 .debug ⟨true, .inline 128⟩ = .ok 127 ∧ tryIntoS 8 .debug ⟨true, .inline 7⟩ = .ok (.ok 7) := by
  decide +kernel

/-- C97, exactly when complementing twice gives the number back: if the topmost limb is not all ones,
and for the one number `2^64 - 1`. -/
theorem C97_not_not_exact_partial (a : BInt) (ha : Canon a) :
    (BInt.not a).bind BInt.not = .ok a ↔
      (ival a).natAbs + 2 ^ (64 * (a.limbs.length - 1)) < 2 ^ (64 * a.limbs.length) ∨
        ival a = 2 ^ 64 - 1 := by
  obtain ⟨c, h1, h2, h3, h4, h5⟩ := C97_not_partial a ha
  obtain ⟨d, k1, k2, k3, k4, -⟩ := C97_not_partial c h2
  have hva := natAbs_ival a
  have hvc := natAbs_ival c
  have hlta := val_lt a.limbs
  have hltc := val_lt c.limbs
  unfold modulus at hlta hltc
  rw [h1]
  simp only [Res.bind]
  constructor
  · intro h
    rw [k1] at h
    cases h
    by_contra hc
    push Not at hc
    have hla := List.length_pos_iff.mpr ha.norm.1
    have hlc := List.length_pos_iff.mpr h2.norm.1
    have hlen : c.limbs.length = a.limbs.length := by
      have : 2 ^ (64 * c.limbs.length) = 2 ^ (64 * a.limbs.length) := by omega
      have := Nat.pow_right_injective (le_refl 2) this
      omega
    rcases h2.norm.lower with hl | hl
    · rw [← hlen, hl] at h3 hc hlta
      norm_num at h3 hc hlta
      have hc0 : ival c = 0 := by omega
      omega
    · rw [hlen] at hl
      omega
  · rintro (h | h)
    · exact h5 h
    · have ea : a = ⟨false, .slice [0xFFFFFFFFFFFFFFFF]⟩ :=
        Canon.ext ha (by decide) (by rw [h]; decide)
      subst ea
      have : BInt.not ⟨false, .slice [0xFFFFFFFFFFFFFFFF]⟩ = .ok ⟨false, .inline 0⟩ := by
        decide +kernel
      rw [this] at h1
      cases h1
      decide +kernel

example : (BInt.not ⟨false, .slice [0xFFFFFFFFFFFFFFFF]⟩).bind BInt.not =
      .ok ⟨false, .slice [0xFFFFFFFFFFFFFFFF]⟩ ∧
    (BInt.not ⟨true, .slice [0xFFFFFFFFFFFFFFFF]⟩).bind BInt.not =
      .ok ⟨false, .slice [0xFFFFFFFFFFFFFFFF]⟩ := by decide +kernel

end Verif
