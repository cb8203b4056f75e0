import Verif.Lemmas.BigIntTrunc
import Verif.Lemmas.BitAccess
import Verif.Props.BigInt

/-!
# C94-C97: truncating casts, order with primitives, binary formatting and complement of `BigInt`
-/

namespace Verif

open BInt

/-! ## C94

The spec of a truncating cast is `BitVec.ofInt t`, the residue modulo `2^t`, as for Rust's `as`. -/

/-- C94 is violated: 256 cut down to `u8` is 255, not 0. -/
theorem C94_truncate_unsigned_violated : ¬ ∀ (m : Mode) (b : BInt), Canon b →
    truncateU 8 m b = .ok (BitVec.ofInt 8 (ival b)) := by
  intro h
  have := h .release ⟨false, .inline 256⟩ (by decide)
  revert this
  decide +kernel

/-- C94 is violated: -1 cut down to `u8` is 1, not 255. -/
theorem C94_truncate_negative_violated : ¬ ∀ (m : Mode) (b : BInt), Canon b → -2 ^ 7 ≤ ival b →
    ival b < 2 ^ 8 → truncateU 8 m b = .ok (BitVec.ofInt 8 (ival b)) := by
  intro h
  have := h .release ⟨true, .inline 1⟩ (by decide) (by decide) (by decide)
  revert this
  decide +kernel

/-- C94 is violated: -128, the least `i8`, becomes -127. -/
theorem C94_truncate_signed_violated : ¬ ∀ (m : Mode) (b : BInt) (x : BitVec 8), Canon b →
    ival b = x.toInt → truncateS 8 m b = .ok x := by
  intro h
  have := h .release ⟨true, .inline 128⟩ (-128) (by decide) (by decide)
  revert this
  decide +kernel

/-- C94 is violated: cutting `-2^127` down to `i128`, where it fits, panics in debug builds. -/
theorem C94_truncate_i128_min_violated : ¬ ∀ (m : Mode) (b : BInt) (x : BitVec 128), Canon b →
    ival b = x.toInt → truncateS 128 m b = .ok x := by
  intro h
  have := h .debug ⟨true, .slice [0, 0x8000000000000000]⟩ (BitVec.intMin 128) (by decide) (by decide)
  revert this
  decide +kernel

/-- C94, what unsigned truncation really does, for every stored value and every width: it clamps the
magnitude and ignores the sign. Hence the property on values in range; missing: all others. -/
theorem C94_truncate_unsigned_partial (t : Nat) (ht : t ∈ [8, 16, 32, 64, 128]) (m : Mode) (b : BInt)
    (hb : Rep b) :
    truncateU t m b = .ok (BitVec.ofNat t (min (ival b).natAbs (2 ^ t - 1))) ∧
    (0 ≤ ival b → ival b < 2 ^ t → truncateU t m b = .ok (BitVec.ofInt t (ival b))) := by
  have hv := natAbs_ival b
  have key : truncateU t m b = .ok (BitVec.ofNat t (min (ival b).natAbs (2 ^ t - 1))) := by
    unfold truncateU
    rw [arrToInt_any ht m b.limbs hb.norm, ← hv]
    simp only [Res.bind, Res.ok.injEq]
    have hpos : 0 < 2 ^ t := Nat.two_pow_pos t
    split
    · rename_i h
      rw [Nat.min_eq_left (by omega)]
      rfl
    · rename_i h
      rw [Nat.min_eq_right (by omega)]
      apply BitVec.eq_of_toNat_eq
      simp only [Option.getD_none, BitVec.toNat_allOnes, BitVec.toNat_ofNat]
      rw [Nat.mod_eq_of_lt (by omega)]
  refine ⟨key, fun h0 h1 => ?_⟩
  rw [key]
  have h1' : (ival b).natAbs < 2 ^ t := by
    have hc : ((2 ^ t : Nat) : Int) = (2 : Int) ^ t := by push_cast; rfl
    omega
  rw [Nat.min_eq_left (by omega)]
  congr 1
  have : ival b = ((ival b).natAbs : Int) := by omega
  conv_rhs => rw [this]
  rw [BitVec.ofInt_natCast]

example : truncateU 16 .debug ⟨false, .inline 0xFFFF⟩ = .ok 0xFFFF ∧
    truncateU 16 .debug ⟨false, .inline 0x10000⟩ = .ok 0xFFFF := by decide +kernel

/-- A stored value that is not canonical is negative zero. -/
private theorem canon_or_neg_zero {b : BInt} (hb : Rep b) : Canon b ∨ b = ⟨true, .inline 0⟩ := by
  by_cases h : b.neg = true → val b.limbs ≠ 0
  · exact .inl ⟨hb, h⟩
  · right
    simp only [Classical.not_imp, not_not] at h
    obtain ⟨h1, h2⟩ := h
    obtain ⟨n, mag⟩ := b
    simp only at h1
    subst h1
    cases mag with
    | inline v =>
      have h3 : v.toNat = 0 := by simpa [limbs, val_one] using h2
      rw [BitVec.eq_of_toNat_eq (x := v) (y := 0) h3]
    | slice s =>
      have : 2 ^ 62 ≤ val s := hb.2
      simp only [limbs] at h2
      omega

private theorem truncate_signed_canon (t : Nat) (ht : t ∈ [8, 16, 32, 64]) (m : Mode) (b : BInt)
    (hb : Canon b) :
    ∃ y, truncateS t m b = .ok y ∧
      y.toInt = (ival b).sign * min (ival b).natAbs (2 ^ (t - 1) - 1) ∧
      (-2 ^ (t - 1) < ival b → ival b < 2 ^ (t - 1) → y.toInt = ival b) := by
  have ht64 : 1 < t ∧ t ≤ 64 := by
    simp only [List.mem_cons, List.not_mem_nil, or_false] at ht
    omega
  have hv := natAbs_ival b
  have hpos : 2 ≤ 2 ^ (t - 1) := Nat.le_self_pow (by omega) 2
  have hpow : 2 ^ t = 2 * 2 ^ (t - 1) := by rw [← Nat.pow_succ']; congr 1; omega
  have hcast : ((2 ^ (t - 1) : Nat) : Int) = (2 : Int) ^ (t - 1) := by push_cast; rfl
  have hcast' : ((2 ^ t : Nat) : Int) = (2 : Int) ^ t := by push_cast; rfl
  have hcl : ∃ x : BitVec t, (arrToIntS 64 t m b.limbs).bind
      (fun r => .ok (r.getD (BitVec.intMax t))) = .ok x ∧
      x.toNat = min (ival b).natAbs (2 ^ (t - 1) - 1) := by
    rw [arrToIntS_any (by omega) ht64.2 m b.limbs hb.norm, ← hv]
    simp only [Res.bind]
    split
    · rename_i h
      refine ⟨_, rfl, ?_⟩
      simp only [Option.getD_some, BitVec.toNat_ofNat]
      rw [Nat.min_eq_left (by omega), Nat.mod_eq_of_lt (by omega)]
    · rename_i h
      refine ⟨_, rfl, ?_⟩
      simp only [Option.getD_none, BitVec.toNat_intMax]
      rw [Nat.min_eq_right (by omega)]
  obtain ⟨x, hx, hxv⟩ := hcl
  have hxi : x.toInt = min (ival b).natAbs (2 ^ (t - 1) - 1) := by
    rw [BitVec.toInt_eq_toNat_cond, if_pos (by omega), hxv]
  have hmin : x ≠ BitVec.intMin t := by
    intro h
    have h2 := congrArg BitVec.toNat h
    rw [BitVec.toNat_intMin, Nat.mod_eq_of_lt (by omega), hxv] at h2
    omega
  have hred : truncateS t m b = if b.neg then .ok (-x) else .ok x := by
    unfold truncateS isNegative
    cases hr : arrToIntS 64 t m b.limbs with
    | ok r =>
      rw [hr] at hx
      simp only [Res.bind, Res.ok.injEq] at hx
      simp only [Res.bind, hx, hmin, if_false]
    | panic => rw [hr] at hx; cases hx
    | hang => rw [hr] at hx; cases hx
  rw [hred]
  have hmm : ((min (ival b).natAbs (2 ^ (t - 1) - 1) : Nat) : Int) ≤ (2 : Int) ^ (t - 1) - 1 := by
    omega
  cases hn : b.neg with
  | true =>
    have h0 := hb.neg_iff.mp hn
    rw [if_pos rfl]
    refine ⟨_, rfl, ?_, ?_⟩
    · rw [BitVec.toInt_neg, hxi, Int.sign_eq_neg_one_of_neg h0, Int.bmod_eq_of_le (by omega) (by omega)]
      push_cast
      omega
    · intro h1 h2
      rw [BitVec.toInt_neg, hxi, Int.bmod_eq_of_le (by omega) (by omega), Nat.min_eq_left (by omega)]
      omega
  | false =>
    have h0 : 0 ≤ ival b := by
      by_contra h
      have := hb.neg_iff.mpr (by omega)
      rw [hn] at this
      cases this
    rw [if_neg (by simp)]
    refine ⟨_, rfl, ?_, ?_⟩
    · rw [hxi]
      rcases eq_or_lt_of_le h0 with h | h
      · rw [← h]; simp
      · rw [Int.sign_eq_one_of_pos h]; push_cast; omega
    · intro h1 h2
      rw [hxi, Nat.min_eq_left (by omega)]
      omega

/-- C94, what signed truncation to 8 to 64 bits really does, for every stored value (negative zero
included): it clamps the magnitude to `MAX` and keeps the sign. Hence the property on all values in range but `MIN`;
missing: `MIN` and the values out of range. -/
theorem C94_truncate_signed_partial (t : Nat) (ht : t ∈ [8, 16, 32, 64]) (m : Mode) (b : BInt)
    (hb : Rep b) :
    ∃ y, truncateS t m b = .ok y ∧
      y.toInt = (ival b).sign * min (ival b).natAbs (2 ^ (t - 1) - 1) ∧
      (-2 ^ (t - 1) < ival b → ival b < 2 ^ (t - 1) → y.toInt = ival b) := by
  rcases canon_or_neg_zero hb with h | h
  · exact truncate_signed_canon t ht m b h
  · subst h
    refine ⟨0, ?_, ?_, ?_⟩
    · simp only [List.mem_cons, List.not_mem_nil, or_false] at ht
      rcases ht with rfl | rfl | rfl | rfl <;> cases m <;> decide +kernel
    · have : ival ⟨true, .inline 0⟩ = 0 := by decide
      rw [this]; simp
    · have : ival ⟨true, .inline 0⟩ = 0 := by decide
      intro _ _
      rw [this]; simp

example : truncateS 8 .debug ⟨true, .inline 127⟩ = .ok (-127) ∧
    truncateS 8 .debug ⟨true, .inline 300⟩ = .ok (-127) := by decide +kernel

private theorem truncate_i128_canon (m : Mode) (b : BInt) (hb : Canon b) :
    ((ival b).natAbs < 2 ^ 128 → (ival b = -2 ^ 127 → m = .release) →
      truncateS 128 m b = .ok (BitVec.ofInt 128 (ival b))) ∧
    (2 ^ 128 ≤ ival b → truncateS 128 m b = .ok (BitVec.intMax 128)) ∧
    (ival b ≤ -2 ^ 128 → truncateS 128 m b = .ok (-BitVec.intMax 128)) := by
  have hv := natAbs_ival b
  have hr := arrToIntS_128 m b.limbs hb.norm
  rw [← hv] at hr
  have hn := hb.neg_iff
  unfold truncateS isNegative
  rw [hr]
  simp only [Res.bind]
  refine ⟨fun h h1 => ?_, fun h => ?_, fun h => ?_⟩
  · rw [if_pos h]
    simp only [Option.getD_some]
    by_cases h0 : ival b < 0
    · rw [if_pos (hn.mpr h0)]
      have hneg : BitVec.ofInt 128 (ival b) = -BitVec.ofNat 128 (ival b).natAbs := by
        have : ival b = -((ival b).natAbs : Int) := by omega
        conv_lhs => rw [this]
        rw [BitVec.ofInt_neg, BitVec.ofInt_natCast]
      by_cases hmin : BitVec.ofNat 128 (ival b).natAbs = BitVec.intMin 128
      · have h2 := congrArg BitVec.toNat hmin
        rw [BitVec.toNat_ofNat, Nat.mod_eq_of_lt h] at h2
        have h3 : (BitVec.intMin 128).toNat = 2 ^ 127 := by decide
        rw [h1 (by omega), if_pos hmin, hneg, hmin]
        decide
      · rw [if_neg hmin, hneg]
    · rw [if_neg (by rw [hn]; exact h0)]
      have : ival b = ((ival b).natAbs : Int) := by omega
      conv_rhs => rw [this]
      rw [BitVec.ofInt_natCast]
  · have h2 : ¬ (ival b).natAbs < 2 ^ 128 := by omega
    rw [if_neg h2, if_neg (by rw [hn]; omega)]
    rfl
  · have h2 : ¬ (ival b).natAbs < 2 ^ 128 := by omega
    rw [if_neg h2, if_pos (hn.mpr (by omega))]
    simp only [Option.getD_none]
    rw [if_neg (by decide)]

/-- C94 for `i128`, exactly, for every stored value (negative zero included): truncation is right for every
magnitude below `2^128`, but for the one value `-2^127`, which panics in debug builds; from `2^128` on it gives
`±MAX`. -/
theorem C94_truncate_i128_partial (m : Mode) (b : BInt) (hb : Rep b) :
    ((ival b).natAbs < 2 ^ 128 → (ival b = -2 ^ 127 → m = .release) →
      truncateS 128 m b = .ok (BitVec.ofInt 128 (ival b))) ∧
    (ival b = -2 ^ 127 → m = .debug → truncateS 128 m b = .panic) ∧
    (2 ^ 128 ≤ ival b → truncateS 128 m b = .ok (BitVec.intMax 128)) ∧
    (ival b ≤ -2 ^ 128 → truncateS 128 m b = .ok (-BitVec.intMax 128)) := by
  rcases canon_or_neg_zero hb with h | h
  · obtain ⟨h1, h2, h3⟩ := truncate_i128_canon m b h
    refine ⟨h1, fun h0 hm => ?_, h2, h3⟩
    have hv := natAbs_ival b
    have hr := arrToIntS_128 m b.limbs h.norm
    rw [← hv] at hr
    have hn := h.neg_iff.mpr (by omega)
    unfold truncateS isNegative
    rw [hr, h0, hn, hm]
    rfl
  · subst h
    have : ival ⟨true, .inline 0⟩ = 0 := by decide
    rw [this]
    refine ⟨fun _ _ => ?_, fun h => by omega, fun h => by omega, fun h => by omega⟩
    cases m <;> decide +kernel

example : truncateS 128 .debug ⟨true, .slice [1, 0xC000000000000000]⟩
    = .ok (BitVec.ofInt 128 (-(0xC0000000000000000000000000000001 : Int))) := by decide +kernel

/-! ## C95 -/

/-- C95 is violated: `2^64 + 1` compares above the `u128` `2^65`. -/
theorem C95_cmp_violated : ¬ ∀ (b : BInt) (x : BitVec 128), Canon b →
    cmpU 128 b x = .ok (compare (ival b) x.toNat) := by
  intro h
  have := h ⟨false, .slice [1, 1]⟩ (2 ^ 65) (by decide)
  revert this
  decide +kernel

/-- C95 is violated for signed operands as well: `-(2^64 + 1)` compares below the `i128` `-2^65`. -/
theorem C95_cmp_signed_violated : ¬ ∀ (b : BInt) (x : BitVec 128), Canon b →
    cmpS 128 b x = .ok (compare (ival b) x.toInt) := by
  intro h
  have := h ⟨true, .slice [1, 1]⟩ (-(2 ^ 65)) (by decide)
  revert this
  decide +kernel

/-- C95 is violated: -5 equals the `u8` 5 by `==`, but compares below it. -/
theorem C95_eq_cmp_violated : ¬ ∀ (b : BInt) (x : BitVec 8), Canon b →
    (eqU 8 b x = .ok true ↔ cmpU 8 b x = .ok .eq) := by
  intro h
  have := h ⟨true, .inline 5⟩ 5 (by decide)
  revert this
  decide +kernel

private theorem length_of_ge {l : List (BitVec 64)} (h : 2 ^ 128 ≤ val l) : 3 ≤ l.length := by
  by_contra hl
  have := val_lt l
  unfold modulus at this
  have h2 : 2 ^ (64 * l.length) ≤ 2 ^ 128 := Nat.pow_le_pow_right (by norm_num) (by omega)
  omega

/-- C95, the part that holds: comparing with an unsigned primitive is right for 8 to 64 bits, and for
128 bits when the number is negative, one of the two is below `2^64`, or the number is at least `2^128`.
Missing: 128 bits, both numbers of two limbs. -/
theorem C95_cmp_unsigned_partial (t : Nat) (ht : t ∈ [8, 16, 32, 64, 128]) (b : BInt) (hb : Canon b)
    (x : BitVec t) (h : t ≤ 64 ∨ ival b < 2 ^ 64 ∨ x.toNat < 2 ^ 64 ∨ 2 ^ 128 ≤ ival b) :
    cmpU t b x = .ok (compare (ival b) x.toNat) := by
  have ht' : 0 < t ∧ t ≤ 128 := by
    simp only [List.mem_cons, List.not_mem_nil, or_false] at ht
    omega
  obtain ⟨y, h1, h2, h3, h4⟩ := fromU_spec ht'.1 x
  unfold cmpU
  rw [h1]
  simp only [Res.bind]
  rw [cmp_spec hb h2, h4]
  have hx := x.isLt
  have hv := natAbs_ival b
  have hy : y.neg = false := (h2.val_of_nonneg (by omega)).1
  by_cases h0 : ival b < 0
  · left
    rw [hb.neg_iff.mpr h0, hy]
    simp
  · right
    rcases h with h | h | h | h
    · have : 2 ^ t ≤ 2 ^ 64 := Nat.pow_le_pow_right (by norm_num) h
      exact (comparable_one (length_one_of_lt h2.norm (by omega))).symm
    · exact comparable_one (length_one_of_lt hb.norm (by omega))
    · exact (comparable_one (length_one_of_lt h2.norm (by omega))).symm
    · left
      have h5 := length_of_ge (l := b.limbs) (by omega)
      have : 2 ^ t ≤ 2 ^ 128 := Nat.pow_le_pow_right (by norm_num) ht'.2
      have h6 := length_le_two h2.norm (by omega)
      omega

/-- C95 for signed primitives; missing: 128 bits, both numbers of the same sign and of two limbs. -/
theorem C95_cmp_signed_partial (t : Nat) (ht : t ∈ [8, 16, 32, 64, 128]) (b : BInt) (hb : Canon b)
    (x : BitVec t) (h : t ≤ 64 ∨ (ival b < 0 ↔ 0 ≤ x.toInt) ∨ (ival b).natAbs < 2 ^ 64 ∨
      x.toInt.natAbs < 2 ^ 64 ∨ 2 ^ 128 ≤ (ival b).natAbs) :
    cmpS t b x = .ok (compare (ival b) x.toInt) := by
  have ht' : 0 < t ∧ t ≤ 128 := by
    simp only [List.mem_cons, List.not_mem_nil, or_false] at ht
    omega
  obtain ⟨y, h1, h2, h3, h4⟩ := fromS_spec ht'.1 x
  unfold cmpS
  rw [h1]
  simp only [Res.bind]
  rw [cmp_spec hb h2, h4]
  have hv := natAbs_ival b
  have hlt := BitVec.toInt_lt (x := x)
  have hle := BitVec.le_toInt x
  have hc : ∀ n, ((2 ^ n : Nat) : Int) = (2 : Int) ^ n := fun n => by push_cast; rfl
  rcases h with h | h | h | h | h
  · have h7 : (2 : Int) ^ (t - 1) ≤ 2 ^ 63 := by
      have : 2 ^ (t - 1) ≤ 2 ^ 63 := Nat.pow_le_pow_right (by norm_num) (by omega)
      exact_mod_cast this
    exact .inr (comparable_one (length_one_of_lt h2.norm (by omega))).symm
  · left
    have k1 := hb.neg_iff
    have k2 := h2.neg_iff
    rw [h4] at k2
    intro he
    rw [he] at k1
    have k3 := k1.symm.trans k2
    omega
  · exact .inr (comparable_one (length_one_of_lt hb.norm (by omega)))
  · exact .inr (comparable_one (length_one_of_lt h2.norm (by omega))).symm
  · right; left
    have h5 := length_of_ge (l := b.limbs) (by omega)
    have h7 : (2 : Int) ^ (t - 1) ≤ 2 ^ 127 := by
      have : 2 ^ (t - 1) ≤ 2 ^ 127 := Nat.pow_le_pow_right (by norm_num) (by omega)
      exact_mod_cast this
    have h6 := length_le_two h2.norm (by omega)
    omega

/-- C95, agreement of `==` and `partial_cmp`, for every width: with a signed primitive (other than
`MIN` in debug builds) always, with an unsigned one for nonnegative numbers. Missing: a negative
number against its absolute value as an unsigned primitive. -/
theorem C95_eq_cmp_partial (t : Nat) (ht : 0 < t) (m : Mode) (b : BInt) (hb : Canon b)
    (x : BitVec t) :
    (0 ≤ ival b → (eqU t b x = .ok true ↔ cmpU t b x = .ok .eq)) ∧
    (x ≠ BitVec.intMin t ∨ m = .release → (eqS t m b x = .ok true ↔ cmpS t b x = .ok .eq)) := by
  constructor
  · intro h0
    obtain ⟨y, h1, h2, h3, h4⟩ := fromU_spec ht x
    have hc := (C47_cmp_consistent_partial b y hb.1 h2.1).1
    have he := (C46_eq_partial b y hb.1 h2.1).2 hb h2
    have hv := natAbs_ival b
    rw [eqU_spec ht hb.1]
    unfold cmpU
    rw [h1]
    simp only [Res.bind, Res.ok.injEq]
    rw [hc, he, decide_eq_true_iff, h4]
    omega
  · intro hm
    obtain ⟨y, h1, h2, h3, h4⟩ := fromS_spec ht x
    have hc := (C47_cmp_consistent_partial b y hb.1 h2.1).1
    have he := (C46_eq_partial b y hb.1 h2.1).2 hb h2
    have hv := natAbs_ival b
    have hn := hb.neg_iff
    rw [eqS_spec ht m hb.1 x hm]
    unfold cmpS
    rw [h1]
    simp only [Res.bind, Res.ok.injEq]
    rw [hc, he, decide_eq_true_iff, h4]
    constructor
    · rintro ⟨g1, g2⟩
      rw [g1, decide_eq_true_iff] at hn
      omega
    · intro g
      refine ⟨?_, by omega⟩
      rw [Bool.eq_iff_iff, hn, decide_eq_true_iff, g]

example : cmpU 128 ⟨false, .slice [0, 0, 1]⟩ (BitVec.allOnes 128) = .ok .gt ∧
    cmpS 64 ⟨true, .slice [0xFFFFFFFFFFFFFFFF]⟩ (BitVec.intMin 64) = .ok .lt ∧
    cmpS 16 ⟨false, .inline 300⟩ 300 = .ok .eq := by decide +kernel

/-! ## C96 -/

private theorem numeral_cons (r : Nat) (c : Char) (cs : List Char) :
    numeral r (c :: cs) = (digitValue c).getD 0 * r ^ cs.length + numeral r cs := by
  have gen : ∀ (cs : List Char) (n : Nat),
      cs.foldl (fun n c => n * r + (digitValue c).getD 0) n = n * r ^ cs.length + numeral r cs := by
    intro cs
    induction cs with
    | nil => intro n; simp [numeral]
    | cons d ds ih =>
      intro n
      have h1 := ih (n * r + (digitValue d).getD 0)
      have h2 := ih ((0 : Nat) * r + (digitValue d).getD 0)
      unfold numeral at *
      rw [List.foldl_cons, List.foldl_cons, h1, h2, List.length_cons]
      ring
  have := gen cs ((0 : Nat) * r + (digitValue c).getD 0)
  unfold numeral at *
  rw [List.foldl_cons, this]
  ring

private def bitChars (v : Nat) : Nat → List Char
  | 0 => []
  | n + 1 => (if v.testBit n then '1' else '0') :: bitChars v n

private theorem bitChars_spec (v n : Nat) :
    (bitChars v n).length = n ∧ (∀ c ∈ bitChars v n, c = '0' ∨ c = '1') ∧
      numeral 2 (bitChars v n) = v % 2 ^ n := by
  induction n with
  | zero => exact ⟨rfl, by simp [bitChars], by simp [bitChars, numeral, Nat.mod_one]⟩
  | succ n ih =>
    obtain ⟨h1, h2, h3⟩ := ih
    refine ⟨by simp [bitChars, h1], ?_, ?_⟩
    · intro c hc
      rcases List.mem_cons.mp hc with h | h
      · rw [h]; split <;> simp
      · exact h2 c h
    · rw [bitChars, numeral_cons, h1, h3, mod_pow_succ]
      cases hb : v.testBit n with
      | true =>
        have : (digitValue '1').getD 0 = 1 := by decide
        simp [this]; ring
      | false =>
        have : (digitValue '0').getD 0 = 0 := by decide
        simp [this]

private theorem binary_loop (s : List (BitVec 64)) (n : Nat) (hn : n ≤ BitSlice.bitLen s)
    (cs : List Char) :
    forDownM n (fun idx (cs : List Char) =>
      (BitSlice.getBit s idx).bind fun x => .ok (cs ++ [if x then '1' else '0'])) cs
      = .ok (cs ++ bitChars (val s) n) := by
  induction n generalizing cs with
  | zero => simp [forDownM, bitChars]
  | succ n ih =>
    rw [forDownM, getBit_eq (by norm_num), if_pos (by omega)]
    refine (ih (by omega) _).trans ?_
    rw [bitChars]
    simp

/-- C96 is violated by the zero that negation produces: it prints with a minus sign. -/
theorem C96_binary_neg_zero_violated : ¬ ∀ (b : BInt), Rep b → ∃ cs, binary b = .ok cs ∧
    (cs.head? = some '-' ↔ ival b < 0) := by
  intro h
  obtain ⟨cs, h1, h2⟩ := h (neg' BInt.zero) (by decide)
  have e : binary (neg' BInt.zero) = .ok ('-' :: '0' :: 'b' :: List.replicate 64 '0') := by
    decide +kernel
  rw [e] at h1
  cases h1
  revert h2
  decide

/-- C96, exactly, on all values: the same, but for the minus sign, which is printed for the negative
flag, so for negative zero too. -/
theorem C96_binary_exact_partial (b : BInt) :
    ∃ ds, binary b = .ok ((if b.neg then ['-'] else []) ++ ['0', 'b'] ++ ds) ∧
      (∀ c ∈ ds, c = '0' ∨ c = '1') ∧ ds.length = 64 * b.limbs.length ∧
      numeral 2 ds = (ival b).natAbs ∧
      ∃ c, fromStrRadix ds 2 = .ok (.ok c) ∧ ival c = |ival b| := by
  obtain ⟨h1, h2, h3⟩ := bitChars_spec (val b.limbs) (BitSlice.bitLen b.limbs)
  have hlt := val_lt b.limbs
  unfold modulus at hlt
  rw [Nat.mod_eq_of_lt (by rw [bitLen_eq]; exact hlt)] at h3
  have hv := natAbs_ival b
  rw [← hv] at hlt
  have hdig : ∀ c ∈ bitChars (val b.limbs) (BitSlice.bitLen b.limbs),
      IsDigit (2 : BitVec 32).toNat c := by
    intro c hc
    rcases h2 c hc with h | h <;> rw [h]
    · exact ⟨0, by decide, by decide⟩
    · exact ⟨1, by decide, by decide⟩
  obtain ⟨c, c1, _, c3⟩ := parseLoop_ok 2 (by decide) _ hdig BInt.zero (by decide) (by decide)
  refine ⟨bitChars (val b.limbs) (BitSlice.bitLen b.limbs), ?_, h2, ?_, by rw [h3, hv], c, c1, ?_⟩
  · unfold binary
    rw [binary_loop b.limbs _ le_rfl]
    simp only [Res.bind, List.nil_append]
    rfl
  · rw [h1, bitLen_eq]
  · rw [c3]
    have hz : (ival BInt.zero).toNat = 0 := by decide
    rw [hz]
    unfold numeral at h3
    have h2' : (2 : BitVec 32).toNat = 2 := by decide
    rw [h2', h3, Int.abs_eq_natAbs, hv]

example : ∃ ds, binary ⟨true, .inline 0⟩ = .ok ('-' :: '0' :: 'b' :: ds) ∧ numeral 2 ds = 0 := by
  obtain ⟨ds, h1, _, _, h2, _⟩ := C96_binary_exact_partial ⟨true, .inline 0⟩
  exact ⟨ds, h1, h2⟩

/-- C96, on all canonical values: binary formatting prints a minus sign exactly for negative
numbers, the prefix, and binary digits (64 for every limb) that denote the magnitude; parsing those
digits gives the magnitude back. Missing: the sign of negative zero. -/
theorem C96_binary_partial (b : BInt) (hb : Canon b) :
    ∃ ds, binary b = .ok ((if ival b < 0 then ['-'] else []) ++ ['0', 'b'] ++ ds) ∧
      (∀ c ∈ ds, c = '0' ∨ c = '1') ∧ ds.length = 64 * b.limbs.length ∧
      numeral 2 ds = (ival b).natAbs ∧
      ∃ c, fromStrRadix ds 2 = .ok (.ok c) ∧ ival c = |ival b| := by
  obtain ⟨ds, h, rest⟩ := C96_binary_exact_partial b
  refine ⟨ds, ?_, rest⟩
  rw [h]
  by_cases h0 : ival b < 0
  · rw [if_pos (hb.neg_iff.mpr h0), if_pos h0]
  · rw [if_neg (by rw [hb.neg_iff]; exact h0), if_neg h0]

example : ∃ ds, binary ⟨true, .inline 6⟩ = .ok ('-' :: '0' :: 'b' :: ds) ∧
    ds = List.replicate 61 '0' ++ ['1', '1', '0'] := by
  refine ⟨_, ?_, rfl⟩
  decide +kernel

/-! ## C97 -/

/-- C97 is violated: `!5` is `2^64 - 6`, not -6. -/
theorem C97_not_violated : ¬ ∀ (a : BInt), Canon a → ∃ c, BInt.not a = .ok c ∧
    ival c = -ival a - 1 := by
  intro h
  obtain ⟨c, h1, h2⟩ := h ⟨false, .inline 5⟩ (by decide)
  have e : BInt.not ⟨false, .inline 5⟩ = .ok ⟨false, .slice [0xFFFFFFFFFFFFFFFA]⟩ := by
    decide +kernel
  rw [e] at h1
  cases h1
  revert h2
  decide

/-- C97 is violated: complementing twice does not give the number back if its top limb is all
ones; here `2^128 - 2^64 + 5` comes back as 5. -/
theorem C97_not_not_violated : ¬ ∀ (a : BInt), Canon a → (BInt.not a).bind BInt.not = .ok a := by
  intro h
  have := h ⟨false, .slice [5, 0xFFFFFFFFFFFFFFFF]⟩ (by decide)
  have e : (BInt.not ⟨false, .slice [5, 0xFFFFFFFFFFFFFFFF]⟩).bind BInt.not
      = .ok ⟨false, .inline 5⟩ := by decide +kernel
  rw [e] at this
  revert this
  decide

/-- C97, what the complement really is, on all canonical values: the magnitude is reflected at the
all-ones number of the same number of limbs and the sign is kept; twice is the identity unless the
top limb is all ones. Missing: the two's complement value `-x - 1`, and those exceptions. -/
theorem C97_not_partial (a : BInt) (ha : Canon a) :
    ∃ c, BInt.not a = .ok c ∧ Canon c ∧
      (ival c).natAbs = 2 ^ (64 * a.limbs.length) - 1 - (ival a).natAbs ∧
      (ival c ≠ 0 → (ival c < 0 ↔ ival a < 0)) ∧
      ((ival a).natAbs + 2 ^ (64 * (a.limbs.length - 1)) < 2 ^ (64 * a.limbs.length) →
        BInt.not c = .ok a) := by
  have key : ∀ x : BInt, Canon x → ∃ c, BInt.not x = .ok c ∧ Canon c ∧
      val c.limbs + val x.limbs + 1 = 2 ^ (64 * x.limbs.length) ∧
      (ival c ≠ 0 → (ival c < 0 ↔ ival x < 0)) := by
    intro x hx
    have h := not_val x.limbs
    have hne : elementNot x.limbs ≠ [] := by
      have := hx.norm.1
      simpa [elementNot] using this
    obtain ⟨c, h1, h2, h3, h4⟩ := finish_spec (notRaw x) _ _ rfl hne
    refine ⟨c, h1, h2, by rw [h3]; exact h, fun h0 => ?_⟩
    have hn := hx.neg_iff
    unfold isNegative at h4
    cases hb : x.neg with
    | true =>
      rw [hb, if_pos rfl] at h4
      rw [hb] at hn
      have := hn.mp rfl
      omega
    | false =>
      rw [hb, if_neg (by simp)] at h4
      rw [hb] at hn
      have : ¬ ival x < 0 := fun h => by have := hn.mpr h; cases this
      omega
  obtain ⟨c, h1, h2, h3, h4⟩ := key a ha
  have va := natAbs_ival a
  have vc := natAbs_ival c
  refine ⟨c, h1, h2, by omega, h4, fun h => ?_⟩
  have hp : 0 < 2 ^ (64 * (a.limbs.length - 1)) := Nat.two_pow_pos _
  have hap := List.length_pos_iff.mpr ha.norm.1
  have hlen : c.limbs.length = a.limbs.length := by
    have hlt := val_lt c.limbs
    unfold modulus at hlt
    have g1 : 64 * (a.limbs.length - 1) < 64 * c.limbs.length := by
      apply (Nat.pow_lt_pow_iff_right (by norm_num : 1 < 2)).mp
      omega
    rcases h2.norm.lower with hl | hl
    · omega
    · have g2 : 64 * (c.limbs.length - 1) < 64 * a.limbs.length := by
        apply (Nat.pow_lt_pow_iff_right (by norm_num : 1 < 2)).mp
        omega
      omega
  obtain ⟨d, d1, d2, d3, d4⟩ := key c h2
  rw [d1]
  congr 1
  apply Canon.ext d2 ha
  have vd := natAbs_ival d
  rw [hlen] at d3
  have hc0 : ival c ≠ 0 := by omega
  have hs := h4 hc0
  by_cases hz : ival d = 0
  · omega
  · have hs' := d4 hz
    omega

example : ∃ c, BInt.not ⟨true, .inline 5⟩ = .ok c ∧ BInt.not c = .ok ⟨true, .inline 5⟩ ∧
    ival c = -(2 ^ 64 - 6) := by
  refine ⟨⟨true, .slice [0xFFFFFFFFFFFFFFFA]⟩, ?_, ?_, ?_⟩ <;> decide +kernel

end Verif
