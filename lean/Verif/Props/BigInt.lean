import Verif.Spec.BigInt
import Verif.Spec.Text
import Verif.Lemmas.BigInt
import Verif.Lemmas.BigIntOps
import Verif.Lemmas.BigIntSigned
import Verif.Lemmas.BigIntText

/-!
# Properties C42–C54: `BigInt` as a number

`ival` is the integer denoted. `Rep` is what every operation accepts (negative zero included, since
`-BigInt::new()` produces it); `Canon` is what every operation except negation produces.
-/

namespace Verif

open BInt

/-! ## C42 -/

/-- C42: multiplication is exact and canonical. -/
theorem C42_mul_exact (a b : BInt) (ha : Rep a) (_hb : Rep b) :
    ∃ c, mul a b = .ok c ∧ ival c = ival a * ival b ∧ Canon c := by
  obtain ⟨c, h1, h2, h3⟩ := mul_spec (b := b) ha
  exact ⟨c, h1, h3, h2⟩

/-- C42, what canonical means: inline exactly below `2^62`, limbs normalised, zero not negative;
and the stored form is determined by the integer. -/
theorem C42_canonical (a : BInt) (ha : Canon a) :
    (a.isInline = true ↔ (ival a).natAbs < 2 ^ 62) ∧ Norm a.limbs ∧
    (ival a = 0 → a.neg = false) ∧
    ∀ b, Canon b → ival b = ival a → b = a := by
  refine ⟨?_, ha.norm, fun h => ?_, fun b hb h => Canon.ext hb ha h⟩
  · rw [natAbs_ival]
    have h := ha.1
    unfold Rep at h
    unfold isInline limbs
    cases hm : a.mag with
    | inline v => rw [hm] at h; simp only [val_one, true_iff]; exact h
    | slice s => rw [hm] at h; simp only [Bool.false_eq_true, false_iff, not_lt]; exact h.2
  · cases hn : a.neg with
    | false => rfl
    | true => have := ha.neg_iff.mp hn; omega

-- a product that leaves the inline range, and one that falls to zero
example : mul ⟨true, .inline 0x3FFFFFFFFFFFFFFF⟩ ⟨false, .inline 4⟩
    = .ok ⟨true, .slice [0xFFFFFFFFFFFFFFFC]⟩ := by decide +kernel
example : mul ⟨true, .slice [0, 1]⟩ BInt.zero = .ok BInt.zero := by decide +kernel
example : Rep ⟨true, .slice [0, 1]⟩ ∧ Rep ⟨true, .inline 0⟩ := by decide

/-! ## C43 -/

/-- C43 is violated: 1 + (-3) is 0. -/
theorem C43_add_violated : ¬ ∀ a b : BInt, Canon a → Canon b →
    ∃ c, add a b = .ok c ∧ ival c = ival a + ival b := by
  intro h
  obtain ⟨c, h1, h2⟩ := h ⟨false, .inline 1⟩ ⟨true, .inline 3⟩ (by decide) (by decide)
  have e : add ⟨false, .inline 1⟩ ⟨true, .inline 3⟩ = .ok BInt.zero := by decide +kernel
  rw [e] at h1
  cases h1
  revert h2
  decide

/-- C43 is violated: 1 - 3 is 0. -/
theorem C43_sub_violated : ¬ ∀ a b : BInt, Canon a → Canon b →
    ∃ c, sub a b = .ok c ∧ ival c = ival a - ival b := by
  intro h
  obtain ⟨c, h1, h2⟩ := h ⟨false, .inline 1⟩ ⟨false, .inline 3⟩ (by decide) (by decide)
  have e : sub ⟨false, .inline 1⟩ ⟨false, .inline 3⟩ = .ok BInt.zero := by decide +kernel
  rw [e] at h1
  cases h1
  revert h2
  decide

/-- C43, the part that holds for `+`: the sum is exact and canonical unless the signs differ, `b` is
larger in magnitude and the sum is even; then it is two too close to zero. Missing: those sums. -/
theorem C43_add_partial (a b : BInt) (ha : Rep a) (_hb : Rep b) :
    ∃ c, add a b = .ok c ∧ Canon c ∧
      (a.neg = b.neg ∨ (ival b).natAbs ≤ (ival a).natAbs ∨ (ival a + ival b) % 2 ≠ 0 →
        ival c = ival a + ival b) ∧
      (a.neg ≠ b.neg → (ival a).natAbs < (ival b).natAbs → (ival a + ival b) % 2 = 0 →
        ival c = ival a + ival b + if a.neg then -2 else 2) := by
  obtain ⟨c, h1, h2, h3⟩ := add_full (b := b) ha
  refine ⟨c, h1, h2, fun h => ?_, fun g1 g2 g3 => ?_⟩
  · rw [h3, if_neg, add_zero]
    rintro ⟨k1, k2, k3⟩
    rw [natAbs_ival, natAbs_ival] at h
    rcases h with h | h | h
    · exact k1 h
    · omega
    · unfold ival at h; split at h <;> split at h <;> omega
  · rw [natAbs_ival, natAbs_ival] at g2
    rw [h3, if_pos]
    refine ⟨g1, g2, ?_⟩
    unfold ival at g3; split at g3 <;> split at g3 <;> omega

/-- C43, the part that holds for `-`. Missing: even differences with equal signs and `b` larger. -/
theorem C43_sub_partial (a b : BInt) (ha : Rep a) (_hb : Rep b) :
    ∃ c, sub a b = .ok c ∧ Canon c ∧
      (a.neg ≠ b.neg ∨ (ival b).natAbs ≤ (ival a).natAbs ∨ (ival a - ival b) % 2 ≠ 0 →
        ival c = ival a - ival b) ∧
      (a.neg = b.neg → (ival a).natAbs < (ival b).natAbs → (ival a - ival b) % 2 = 0 →
        ival c = ival a - ival b + if a.neg then -2 else 2) := by
  obtain ⟨c, h1, h2, h3⟩ := sub_full (b := b) ha
  refine ⟨c, h1, h2, fun h => ?_, fun g1 g2 g3 => ?_⟩
  · rw [h3, if_neg, add_zero]
    rintro ⟨k1, k2, k3⟩
    rw [natAbs_ival, natAbs_ival] at h
    rcases h with h | h | h
    · exact h k1
    · omega
    · unfold ival at h; split at h <;> split at h <;> omega
  · rw [natAbs_ival, natAbs_ival] at g2
    rw [h3, if_pos]
    refine ⟨g1, g2, ?_⟩
    unfold ival at g3; split at g3 <;> split at g3 <;> omega

-- a carry into a second limb, a borrow from one, and a cancellation to zero
example : add ⟨true, .slice [0xFFFFFFFFFFFFFFFF]⟩ ⟨true, .inline 1⟩
    = .ok ⟨true, .slice [0, 1]⟩ := by decide +kernel
example : sub ⟨false, .slice [0, 1]⟩ ⟨false, .inline 1⟩
    = .ok ⟨false, .slice [0xFFFFFFFFFFFFFFFF]⟩ := by decide +kernel
example : add ⟨true, .inline 7⟩ ⟨false, .inline 7⟩ = .ok BInt.zero := by decide +kernel

/-! ## C44 -/

/-- C44 is violated: 7 % -2 is -1, which does not have the sign of 7. -/
theorem C44_rem_sign_violated : ¬ ∀ a b : BInt, Canon a → Canon b → ival b ≠ 0 →
    ∃ c, rem .release a b = .ok c ∧ ival c = (ival a).tmod (ival b) := by
  intro h
  obtain ⟨c, h1, h2⟩ := h ⟨false, .inline 7⟩ ⟨true, .inline 2⟩ (by decide) (by decide) (by decide)
  have e : rem .release ⟨false, .inline 7⟩ ⟨true, .inline 2⟩ = .ok ⟨true, .inline 1⟩ := by
    decide +kernel
  rw [e] at h1
  cases h1
  revert h2
  decide

/-- C44 is violated: dividing by zero gives a number, in both builds. -/
theorem C44_div_zero_violated : ¬ ∀ (m : Mode) (a : BInt), Canon a →
    div m a BInt.zero = .panic := by
  intro h
  have e : div .debug ⟨false, .inline 5⟩ BInt.zero = .ok ⟨false, .slice [0xFFFFFFFFFFFFFFFF]⟩ := by
    decide +kernel
  have := h .debug ⟨false, .inline 5⟩ (by decide)
  rw [e] at this
  cases this

/-- C44 is violated for large divisors: `3·2^64 / (2·2^64 + 1)` comes out as `2^65 - 1`. -/
theorem C44_div_large_violated : ¬ ∀ a b : BInt, Canon a → Canon b → ival b ≠ 0 →
    ∃ c, div .release a b = .ok c ∧ ival c = (ival a).tdiv (ival b) := by
  intro h
  obtain ⟨c, h1, h2⟩ := h ⟨false, .slice [0, 3]⟩ ⟨false, .slice [1, 2]⟩ (by decide) (by decide)
    (by decide)
  have e : div .release ⟨false, .slice [0, 3]⟩ ⟨false, .slice [1, 2]⟩
      = .ok ⟨false, .slice [0xFFFFFFFFFFFFFFFF, 1]⟩ := by decide +kernel
  rw [e] at h1
  cases h1
  revert h2
  decide

/-- C44 is violated: `5 / 2^64` panics. More generally every divisor with more limbs than the
numerator does. -/
theorem C44_div_longer_violated (m : Mode) (a b : BInt) (_ha : Rep a) (_hb : Rep b)
    (h : a.limbs.length < b.limbs.length) : div m a b = .panic ∧ rem m a b = .panic := by
  have h1 := bitwiseDivLong_longer m (by norm_num : 0 < 64) a.limbs b.limbs h
  constructor
  · unfold div divRaw finish
    rw [h1]; rfl
  · unfold rem remRaw finish
    rw [h1]; rfl

/-- C44, the part that holds: for a divisor of magnitude 1 to `2^63` (to `2^64 - 1` if the
numerator has one limb too), the quotient truncates toward zero, the remainder has the right
magnitude, and for positive divisors or exact divisions the sign of `a`, so that
`a = (a / b) * b + a % b`. The numerator must have fewer than `2^64` bits. Missing: the sign of the
remainder for negative divisors, larger divisors, and the panic on zero, which the code gets
wrong. -/
theorem C44_div_rem_partial (m : Mode) (a b : BInt) (ha : Rep a) (hb : Rep b)
    (h0 : ival b ≠ 0) (h64 : (ival b).natAbs < 2 ^ 64)
    (hs : (ival a).natAbs < 2 ^ 64 ∨ (ival b).natAbs ≤ 2 ^ 63)
    (hlen : 64 * a.limbs.length < 2 ^ 64) :
    ∃ q r, div m a b = .ok q ∧ rem m a b = .ok r ∧ Canon q ∧ Canon r ∧
      ival q = (ival a).tdiv (ival b) ∧
      (ival r).natAbs = ((ival a).tmod (ival b)).natAbs ∧
      (0 < ival b ∨ ival b ∣ ival a →
        ival r = (ival a).tmod (ival b) ∧ ival a = ival q * ival b + ival r) ∧
      (ival b < 0 → ival r = -(ival a).tmod (ival b)) := by
  have hbv := natAbs_ival b
  have hav := natAbs_ival a
  have hD : DivOk a b := ⟨by omega, by omega, by omega, hlen⟩
  obtain ⟨q, q1, q2, q3⟩ := div_spec m ha hb hD
  obtain ⟨r, r1, r2, r3⟩ := rem_spec m ha hb hD
  have hbc : Canon b := ⟨hb, fun _ => by omega⟩
  refine ⟨q, r, q1, r1, q2, r2, q3, ?_, ?_, ?_⟩
  · rw [r3]; split <;> simp
  · intro h
    have hr : ival r = (ival a).tmod (ival b) := by
      rcases h with h | h
      · rw [r3, (hbc.val_of_nonneg (by omega)).1]; rfl
      · rw [r3, Int.tmod_eq_zero_of_dvd h]; simp
    refine ⟨hr, ?_⟩
    rw [hr, q3]
    exact (Int.tdiv_mul_add_tmod _ _).symm
  · intro h
    rw [r3, (hbc.val_of_neg h).1]; rfl

example : div .debug ⟨true, .slice [7, 3]⟩ ⟨false, .inline 10⟩
    = .ok ⟨true, .slice [5534023222112865485]⟩ := by decide +kernel
example : rem .debug ⟨true, .slice [7, 3]⟩ ⟨false, .inline 10⟩
    = .ok ⟨true, .inline 5⟩ := by decide +kernel

/-! ## C45 -/

/-- C45 is violated in debug builds: `2^64 >> 64` panics. -/
theorem C45_shr_violated : ¬ ∀ (m : Mode) (a k : BInt), Canon a → Canon k → 0 ≤ ival k →
    ival k < 2 ^ 64 → ∃ c, shr m a k = .ok c ∧ (ival c).natAbs = (ival a).natAbs / 2 ^ (ival k).toNat := by
  intro h
  obtain ⟨c, h1, h2⟩ := h .debug ⟨false, .slice [0, 1]⟩ ⟨false, .inline 64⟩ (by decide) (by decide)
    (by decide) (by decide)
  have e : shr .debug ⟨false, .slice [0, 1]⟩ ⟨false, .inline 64⟩ = .panic := by decide +kernel
  rw [e] at h1
  cases h1

/-- C45 is violated by the zero that negation produces: shifting by it panics. -/
theorem C45_shl_neg_zero_violated : ¬ ∀ (m : Mode) (a k : BInt), Rep a → Rep k → 0 ≤ ival k →
    ival k < 2 ^ 64 → ∃ c, shl m a k = .ok c := by
  intro h
  obtain ⟨c, h1⟩ := h .debug ⟨false, .inline 5⟩ (neg' BInt.zero) (by decide) (by decide)
    (by decide) (by decide)
  have e : shl .debug ⟨false, .inline 5⟩ (neg' BInt.zero) = .panic := by decide +kernel
  rw [e] at h1
  cases h1

/-- C45 for `<<`, by any canonical amount that fits `usize`; other amounts panic. (The memory for
the result is taken to be available.) -/
theorem C45_shl_partial (m : Mode) (a k : BInt) (_ha : Rep a) (hk : Canon k) :
    (0 ≤ ival k → ival k < 2 ^ 64 →
      ∃ c, shl m a k = .ok c ∧ Canon c ∧ ival c = ival a * 2 ^ (ival k).toNat) ∧
    (ival k < 0 ∨ 2 ^ 64 ≤ ival k → shl m a k = .panic) := by
  unfold shl shlRaw
  rw [shiftAmount_spec m hk]
  constructor
  · intro h0 h1
    rw [if_pos ⟨h0, h1⟩]
    obtain ⟨out, g1, g2, g3⟩ := ElementShl.shl_spec (by norm_num : 0 < 64) a.limbs (ival k).toNat
    simp only [Res.bind]
    rw [g1]
    obtain ⟨c, c1, c2, _, c4⟩ := finish_spec (.ok (out, a.isNegative)) out a.isNegative rfl g3.1
    refine ⟨c, c1, c2, ?_⟩
    rw [c4, g2]
    unfold ival isNegative
    split <;> simp
  · intro h
    rw [if_neg (by omega)]
    rfl

/-- C45 for `>>`, the part that holds: release builds shift by every canonical amount below
`2^64` (larger ones panic, `C45_shift_exact_partial`), debug builds by amounts below 64. Missing: debug builds from 64 on, which panic. -/
theorem C45_shr_partial (m : Mode) (a k : BInt) (ha : Rep a) (hk : Canon k) (h0 : 0 ≤ ival k)
    (hlen : a.limbs.length ≤ 2 ^ 63)
    (hm : ival k < 64 ∨ m = .release ∧ ival k < 2 ^ 64) :
    ∃ c, shr m a k = .ok c ∧ Canon c ∧
      (ival c).natAbs = (ival a).natAbs / 2 ^ (ival k).toNat ∧
      (ival c ≠ 0 → (ival c < 0 ↔ ival a < 0)) := by
  unfold shr shrRaw
  rw [shiftAmount_spec m hk, if_pos (by omega)]
  simp only [Res.bind]
  have key : ∃ out, ElementShr.shr m a.limbs (ival k).toNat = .ok out ∧
      val out = val a.limbs / 2 ^ (ival k).toNat ∧ Norm out := by
    by_cases hs : ival k < 64
    · exact ElementShr.shr_small m a.limbs _ (by omega) ha.norm.1
    · rcases hm with hm | ⟨rfl, hm⟩
      · omega
      · apply ElementShr.shr_release (by norm_num) a.limbs _ ha.norm.1
        unfold usizeSize
        omega
  obtain ⟨out, g1, g2, g3⟩ := key
  rw [g1]
  obtain ⟨c, c1, c2, c3, c4⟩ := finish_spec (.ok (out, a.isNegative)) out a.isNegative rfl g3.1
  refine ⟨c, c1, c2, ?_, ?_⟩
  · rw [natAbs_ival, natAbs_ival, c3, g2]
  · intro hne
    rw [c4] at hne ⊢
    have hle : val out ≤ val a.limbs := by rw [g2]; exact Nat.div_le_self _ _
    unfold isNegative ival at *
    split at hne <;> rename_i hneg <;> simp only [hneg, if_true, if_false, Bool.false_eq_true] <;> omega

example : shl .debug ⟨true, .inline 5⟩ ⟨false, .inline 70⟩ = .ok ⟨true, .slice [0, 320]⟩ := by
  decide +kernel
example : shr .release ⟨true, .slice [0, 321]⟩ ⟨false, .inline 70⟩ = .ok ⟨true, .inline 5⟩ := by
  decide +kernel

/-! ## C46, on values (`C46_*` on words is in `Props/BigIntHandle.lean`) -/

/-- C46 is violated: the zero that negation produces is not equal to zero. -/
theorem C46_eq_violated : ¬ ∀ a b : BInt, Rep a → Rep b → (eq a b = true ↔ ival a = ival b) := by
  intro h
  have := h (neg' BInt.zero) BInt.zero (by decide) (by decide)
  revert this
  decide

/-- C46, the part that holds: equality of canonical values is equality of integers; for all values it
is equality of sign bit and magnitude. Missing: negative zero. -/
theorem C46_eq_partial (a b : BInt) (ha : Rep a) (hb : Rep b) :
    (eq a b = true ↔ a.neg = b.neg ∧ (ival a).natAbs = (ival b).natAbs) ∧
    (Canon a → Canon b → (eq a b = true ↔ ival a = ival b)) := by
  have key : eq a b = true ↔ a = b := by
    unfold eq
    by_cases h : a = b
    · simp [h]
    · rw [if_neg h]
      simp only [h, iff_false]
      split
      · rename_i hc
        simp only [decide_eq_true_eq]
        intro hl
        exact h (Rep.ext ha hb hc.1 (by rw [hl]))
      · simp
  constructor
  · rw [key, natAbs_ival, natAbs_ival]
    exact ⟨fun h => by rw [h]; exact ⟨rfl, rfl⟩, fun h => Rep.ext ha hb h.1 h.2⟩
  · intro hca hcb
    rw [key]
    exact ⟨fun h => by rw [h], Canon.ext hca hcb⟩

/-! ## C47 -/

/-- C47 is violated: `[0, 2]` (that is, `2^65`) compares below `[1, 1]` (that is, `2^64 + 1`). -/
theorem C47_cmp_violated : ¬ ∀ a b : BInt, Canon a → Canon b →
    BInt.cmp a b = compare (ival a) (ival b) := by
  intro h
  have := h ⟨false, .slice [0, 2]⟩ ⟨false, .slice [1, 1]⟩ (by decide) (by decide)
  revert this
  decide

/-- C47, the part that holds: comparison is right when the signs differ, when the numbers of limbs
differ (in particular across `2^64`), when both magnitudes are below `2^64`, and when only one limb
differs. Missing: numbers of the same sign and the same number of limbs that differ in several. -/
theorem C47_cmp_partial (a b : BInt) (ha : Canon a) (hb : Canon b)
    (h : (ival a < 0 ↔ 0 ≤ ival b) ∨ a.limbs.length ≠ b.limbs.length ∨
      (ival a).natAbs < 2 ^ 64 ∨ (ival b).natAbs < 2 ^ 64 ∨
      ∃ i, ∀ j, j ≠ i → a.limbs.getD j 0 = b.limbs.getD j 0) :
    BInt.cmp a b = compare (ival a) (ival b) := by
  apply cmp_spec ha hb
  rw [natAbs_ival, natAbs_ival] at h
  rcases h with h | h | h | h | h
  · left
    have h1 := ha.neg_iff
    have h2 := hb.neg_iff
    intro he
    rw [he] at h1
    have h3 := h1.symm.trans h2
    omega
  · exact .inr (.inl h)
  · exact .inr (comparable_one (length_one_of_lt ha.norm h))
  · exact .inr (comparable_one (length_one_of_lt hb.norm h)).symm
  · exact .inr (.inr h)

/-- The consistency that does hold for all pairs: `cmp` is `Equal` exactly for equal values, and
exchanging the operands exchanges the answer. -/
theorem C47_cmp_consistent_partial (a b : BInt) (ha : Rep a) (hb : Rep b) :
    (BInt.cmp a b = .eq ↔ eq a b = true) ∧ BInt.cmp b a = (BInt.cmp a b).swap := by
  have hz : ∀ l r : List (BitVec 64), zipCmp r l = (zipCmp l r).swap := by
    intro l
    induction l with
    | nil => intro r; cases r <;> rfl
    | cons x xs ih =>
      intro r
      cases r with
      | nil => rfl
      | cons y ys =>
        rw [zipCmp, zipCmp, ih ys]
        rcases Nat.lt_trichotomy x.toNat y.toNat with h | h | h
        · rw [compare_lt_iff_lt.mpr h, compare_gt_iff_gt.mpr h]; rfl
        · rw [compare_eq_iff_eq.mpr h, compare_eq_iff_eq.mpr h.symm]
        · rw [compare_lt_iff_lt.mpr h, compare_gt_iff_gt.mpr h]; rfl
  have hm : ∀ l r : List (BitVec 64), magCmp r l = (magCmp l r).swap := by
    intro l r
    unfold magCmp
    by_cases hl : l.length = r.length
    · rw [if_neg (by omega), if_neg (by omega), hz]
    · rw [if_pos (by omega), if_pos hl]
      rcases Nat.lt_or_gt_of_ne hl with h | h
      · rw [compare_lt_iff_lt.mpr h, compare_gt_iff_gt.mpr h]; rfl
      · rw [compare_lt_iff_lt.mpr h, compare_gt_iff_gt.mpr h]; rfl
  have hme : ∀ l r : List (BitVec 64), magCmp l r = .eq ↔ l = r := by
    intro l r
    unfold magCmp
    by_cases hl : l.length = r.length
    · rw [if_neg (by omega), zipCmp_eq l r hl]
    · rw [if_pos hl, compare_eq_iff_eq]
      exact iff_of_false hl (fun h => hl (by rw [h]))
  have hcmp : ∀ x y : BInt, x ≠ y → BInt.cmp x y =
      if x.neg = true ∧ y.neg = false then .lt
      else if x.neg = false ∧ y.neg = true then .gt
      else if x.neg then (magCmp x.limbs y.limbs).swap else magCmp x.limbs y.limbs := by
    intro x y hxy
    unfold BInt.cmp
    rw [if_neg hxy]
    unfold isNegative isPositive magCmp
    cases x.neg <;> cases y.neg <;> simp
  have heq : eq a b = true ↔ a = b := by
    rw [(C46_eq_partial a b ha hb).1, natAbs_ival, natAbs_ival]
    exact ⟨fun h => Rep.ext ha hb h.1 h.2, fun h => by rw [h]; exact ⟨rfl, rfl⟩⟩
  by_cases hab : a = b
  · subst hab
    rw [heq, cmp_eq_self]
    exact ⟨iff_of_true rfl rfl, rfl⟩
  · have hlim : a.neg = b.neg → a.limbs ≠ b.limbs := fun hn hl =>
      hab (Rep.ext ha hb hn (by rw [hl]))
    rw [hcmp a b hab, hcmp b a (Ne.symm hab), heq]
    constructor
    · refine iff_of_false ?_ hab
      cases ea : a.neg <;> cases eb : b.neg <;> simp
      · rw [hme]; exact hlim (by rw [ea, eb])
      · rw [hme]; exact hlim (by rw [ea, eb])
    · cases ea : a.neg <;> cases eb : b.neg <;> simp <;> rw [hm]
      exact Ordering.swap_swap

example : BInt.cmp ⟨false, .slice [5, 7]⟩ ⟨false, .slice [5, 9]⟩ = .lt ∧
    BInt.cmp ⟨true, .slice [0, 1]⟩ ⟨true, .inline 12⟩ = .lt := by decide

/-! ## C48 -/

/-- C48 is violated: negating zero gives a zero that claims to be negative and not to be zero. -/
theorem C48_neg_zero_violated : ¬ ∀ a : BInt, Canon a →
    ((neg' a).isNegative = true ↔ ival (neg' a) < 0) ∧
    ((neg' a).isZero = true ↔ ival (neg' a) = 0) := by
  intro h
  have := (h BInt.zero (by decide)).1
  revert this
  decide

/-- C48, the part that holds: negation and absolute value are exact on all values and negation is
an involution; on canonical values the sign queries are right, and negation of anything but zero
stays canonical. Missing: negating zero. -/
theorem C48_neg_partial (a : BInt) (ha : Rep a) :
    Rep (neg' a) ∧ Rep (BInt.abs a) ∧ ival (neg' a) = -ival a ∧ neg' (neg' a) = a ∧
    ival (BInt.abs a) = |ival a| ∧
    (Canon a → Canon (BInt.abs a) ∧ (ival a ≠ 0 → Canon (neg' a)) ∧
      (a.isNegative = true ↔ ival a < 0) ∧ (a.isPositive = true ↔ 0 ≤ ival a) ∧
      (a.isZero = true ↔ ival a = 0) ∧ (a.isOne = true ↔ ival a = 1)) := by
  have hneg : Rep (neg' a) := ha
  have hiv : ival (neg' a) = -ival a := by
    unfold ival neg'
    change (if (!a.neg) = true then -(val a.limbs : Int) else (val a.limbs : Int)) = _
    cases a.neg <;> simp
  have hinv : neg' (neg' a) = a := by
    cases a; simp [neg']
  have habsrep : Rep (BInt.abs a) := by unfold BInt.abs; split; exacts [hneg, ha]
  have habs : ival (BInt.abs a) = |ival a| := by
    unfold BInt.abs
    split
    · rename_i h
      have h' : a.neg = true := h
      rw [hiv, ival_of_neg h']; simp
    · rename_i h
      have h' : a.neg = false := by simpa [isNegative] using h
      rw [ival_of_pos h']; simp
  refine ⟨hneg, habsrep, hiv, hinv, habs, fun hc => ⟨?_, ?_, hc.neg_iff, ?_, ?_, ?_⟩⟩
  · unfold BInt.abs
    split
    · rename_i h
      have h' : a.neg = true := h
      refine ⟨hneg, fun h2 => ?_⟩
      simp [neg', h'] at h2
    · exact hc
  · intro h0
    refine ⟨hneg, fun _ => ?_⟩
    change val a.limbs ≠ 0
    have := natAbs_ival a
    omega
  · have := hc.neg_iff
    unfold isPositive
    cases e : a.neg
    · rw [e] at this; simp at this; simpa using this
    · rw [e] at this; simp at this; simp; omega
  · unfold isZero
    rw [decide_eq_true_eq]
    constructor
    · rintro rfl; decide
    · intro h; exact Canon.ext hc (by decide) (by rw [h]; decide)
  · unfold isOne
    rw [decide_eq_true_eq]
    constructor
    · rintro rfl; decide
    · intro h; exact Canon.ext hc (by decide) (by rw [h]; decide)

example : ival (neg' ⟨false, .slice [3, 1]⟩) = -(2 ^ 64 + 3) ∧
    Canon (neg' ⟨false, .slice [3, 1]⟩) := by decide

/-! ## C49 -/

/-- C49, first part: conversion from primitives is exact and canonical, for every width. -/
theorem C49_from (t : Nat) (ht : 0 < t) (x : BitVec t) :
    (∃ b, fromU t x = .ok b ∧ Canon b ∧ ival b = x.toNat) ∧
    (∃ b, fromS t x = .ok b ∧ Canon b ∧ ival b = x.toInt) := by
  obtain ⟨b, h1, h2, _, h4⟩ := fromU_spec ht x
  obtain ⟨c, g1, g2, _, g4⟩ := fromS_spec ht x
  exact ⟨⟨b, h1, h2, h4⟩, ⟨c, g1, g2, g4⟩⟩

example : ∃ b, fromS 64 (BitVec.intMin 64) = .ok b ∧ ival b = -2 ^ 63 := by
  obtain ⟨b, h1, _, h3⟩ := (C49_from 64 (by decide) (BitVec.intMin 64)).2
  exact ⟨b, h1, by rw [h3]; decide⟩

/-- C49, second part: conversion to an unsigned primitive (8 to 128 bits) succeeds exactly in
range, otherwise names the violated side; saturation clamps. -/
theorem C49_try_into_unsigned (t : Nat) (ht : t ∈ [8, 16, 32, 64, 128]) (m : Mode) (b : BInt)
    (hb : Canon b) :
    (∀ x : BitVec t, ival b = x.toNat → tryIntoU t m b = .ok (.ok x) ∧ saturateU t m b = .ok x) ∧
    (ival b < 0 → tryIntoU t m b = .ok (.error .below) ∧ saturateU t m b = .ok 0) ∧
    (2 ^ t ≤ ival b → tryIntoU t m b = .ok (.error .above) ∧
      saturateU t m b = .ok (BitVec.allOnes t)) := by
  have h := tryIntoU_spec (t := t) ht m hb
  unfold saturateU
  rw [h]
  refine ⟨fun x hx => ?_, fun h0 => ?_, fun h0 => ?_⟩
  · have : (x.toNat : Int) < 2 ^ t := by exact_mod_cast x.isLt
    rw [if_neg (by omega), if_pos (by omega), hx]
    simp [Res.bind]
  · rw [if_pos h0]
    simp [Res.bind]
  · have : (0 : Int) < 2 ^ t := by positivity
    rw [if_neg (by omega), if_neg (by omega)]
    simp [Res.bind]

example : tryIntoU 8 .debug ⟨false, .inline 300⟩ = .ok (.error .above) ∧
    saturateU 8 .debug ⟨false, .inline 300⟩ = .ok 255 :=
  (C49_try_into_unsigned 8 (by decide) .debug ⟨false, .inline 300⟩ (by decide)).2.2 (by decide)

/-- C49 is violated for signed types: -5 converts to `Ok(5)` in `i8`. -/
theorem C49_try_into_signed_violated : ¬ ∀ (m : Mode) (b : BInt) (x : BitVec 8), Canon b →
    ival b = x.toInt → tryIntoS 8 m b = .ok (.ok x) := by
  intro h
  have := h .release ⟨true, .inline 5⟩ (-5) (by decide) (by decide)
  revert this
  decide +kernel

/-- C49 is violated: `i8::MIN` does not convert back, but is reported as too large. -/
theorem C49_try_into_min_violated : ¬ ∀ (t : Nat) (m : Mode) (x : BitVec t) (b : BInt),
    t ∈ [8, 16, 32, 64, 128] → fromS t x = .ok b → tryIntoS t m b = .ok (.ok x) := by
  intro h
  have := h 8 .release (-128) ⟨true, .inline 128⟩ (by decide) (by decide +kernel)
  revert this
  decide +kernel

/-- C49 is violated for `i128`: `2^127` is out of range but converts to `Ok(i128::MIN)`. -/
theorem C49_try_into_i128_violated : ¬ ∀ (m : Mode) (b : BInt), Canon b → 2 ^ 127 ≤ ival b →
    tryIntoS 128 m b = .ok (.error .above) := by
  intro h
  have := h .release ⟨false, .slice [0, 0x8000000000000000]⟩ (by decide) (by decide)
  revert this
  decide +kernel

/-- C49 is violated: saturating -5 to `i8` gives 5. -/
theorem C49_saturate_signed_violated : ¬ ∀ (m : Mode) (b : BInt) (x : BitVec 8), Canon b →
    ival b = x.toInt → saturateS 8 m b = .ok x := by
  intro h
  have := h .release ⟨true, .inline 5⟩ (-5) (by decide) (by decide)
  revert this
  decide +kernel

/-- C49 for signed types, the part that holds: in 8 to 64 bits, nonnegative values convert exactly when
in range, and values out of range are reported (and clamped) on the right side. In 128 bits the same
except for magnitudes from `2^127` to `2^128`. Missing: negative values in range, whose absolute
value is returned, and those 128-bit magnitudes. -/
theorem C49_try_into_signed_partial (t : Nat) (ht : t ∈ [8, 16, 32, 64, 128]) (m : Mode) (b : BInt)
    (hb : Canon b) :
    (∀ x : BitVec t, 0 ≤ ival b → ival b = x.toInt →
      tryIntoS t m b = .ok (.ok x) ∧ saturateS t m b = .ok x) ∧
    ((if t = 128 then 2 ^ 128 else 2 ^ (t - 1)) ≤ ival b →
      tryIntoS t m b = .ok (.error .above) ∧ saturateS t m b = .ok (BitVec.intMax t)) ∧
    (ival b < (if t = 128 then -2 ^ 128 + 1 else -2 ^ (t - 1)) →
      tryIntoS t m b = .ok (.error .below) ∧ saturateS t m b = .ok (BitVec.intMin t)) := by
  have hx : ∀ x : BitVec t, 0 ≤ ival b → ival b = x.toInt →
      BitVec.ofNat t (ival b).natAbs = x := by
    intro x h0 h1
    rw [h1] at h0 ⊢
    apply BitVec.eq_of_toNat_eq
    rw [BitVec.toInt_eq_toNat_cond] at h0 ⊢
    rw [BitVec.toNat_ofNat]
    have := x.isLt
    split at h0
    · rw [if_pos (by assumption), Int.natAbs_natCast, Nat.mod_eq_of_lt x.isLt]
    · omega
  unfold saturateS
  by_cases h128 : t = 128
  · subst h128
    obtain ⟨h1, h2, h3⟩ := tryIntoS_128 m hb
    refine ⟨fun x g0 g1 => ?_, fun g => ?_, fun g => ?_⟩
    · have := BitVec.toInt_lt (x := x)
      rw [h1 g0 (by rw [g1]; simpa using this), hx x g0 g1]
      exact ⟨rfl, rfl⟩
    · rw [h2 (by simpa using g)]; exact ⟨rfl, rfl⟩
    · rw [h3 (by simp at g; omega)]; exact ⟨rfl, rfl⟩
  · have ht64 : 0 < t ∧ t ≤ 64 := by
      simp only [List.mem_cons, List.not_mem_nil, or_false] at ht
      omega
    rw [if_neg h128, if_neg h128, tryIntoS_small ht64.1 ht64.2 m hb]
    have hp : (0 : Int) < 2 ^ (t - 1) := by positivity
    refine ⟨fun x g0 g1 => ?_, fun g => ?_, fun g => ?_⟩
    · have h5 := BitVec.toInt_lt (x := x)
      rw [if_neg (by omega), if_neg (by omega), if_pos (by omega), hx x g0 g1]
      exact ⟨rfl, rfl⟩
    · rw [if_neg (by omega), if_neg (by omega), if_neg (by omega)]
      exact ⟨rfl, rfl⟩
    · rw [if_pos g]
      exact ⟨rfl, rfl⟩

/-- What the code does instead: a negative value in range is converted to its absolute value. -/
theorem C49_negative_partial (t : Nat) (ht : t ∈ [8, 16, 32, 64]) (m : Mode) (b : BInt)
    (hb : Canon b) (h0 : ival b < 0) (h1 : -2 ^ (t - 1) < ival b) :
    tryIntoS t m b = .ok (.ok (BitVec.ofNat t (ival b).natAbs)) := by
  have ht64 : 0 < t ∧ t ≤ 64 := by
    simp only [List.mem_cons, List.not_mem_nil, or_false] at ht
    omega
  have hp : (0 : Int) < 2 ^ (t - 1) := by positivity
  rw [tryIntoS_small ht64.1 ht64.2 m hb, if_neg (by omega), if_neg (by omega), if_pos (by omega)]

example : fromU 128 (BitVec.allOnes 128)
    = .ok ⟨false, .slice [0xFFFFFFFFFFFFFFFF, 0xFFFFFFFFFFFFFFFF]⟩ := by decide +kernel
example : tryIntoU 128 .debug ⟨false, .slice [1, 2]⟩
    = .ok (.ok 36893488147419103233) := by decide +kernel
example : tryIntoU 64 .debug ⟨false, .slice [1, 2]⟩ = .ok (.error .above) := by decide +kernel
example : saturateS 16 .debug ⟨true, .inline 40000⟩ = .ok (-32768) := by decide +kernel

/-! ## C50 -/

/-- C50 is violated: the `BigInt` -5 equals the `u8` 5. -/
theorem C50_eq_unsigned_violated : ¬ ∀ (b : BInt) (x : BitVec 8), Canon b →
    eqU 8 b x = .ok (decide (ival b = x.toNat)) := by
  intro h
  have := h ⟨true, .inline 5⟩ 5 (by decide)
  revert this
  decide +kernel

/-- C50 is violated: comparing -5 with `i8::MIN` panics in debug builds. -/
theorem C50_eq_min_violated : ¬ ∀ (b : BInt) (x : BitVec 8), Canon b →
    eqS 8 .debug b x = .ok (decide (ival b = x.toInt)) := by
  intro h
  have := h ⟨true, .inline 5⟩ (-128) (by decide)
  revert this
  decide +kernel

/-- C50 is violated: the zero that negation produces does not equal the `i8` 0. -/
theorem C50_eq_neg_zero_violated : ¬ ∀ (b : BInt) (x : BitVec 8), Rep b →
    eqS 8 .release b x = .ok (decide (ival b = x.toInt)) := by
  intro h
  have := h (neg' BInt.zero) 0 (by decide)
  revert this
  decide +kernel

/-- C50, the part that holds, for every width: nonnegative canonical values against unsigned
primitives; all canonical values against signed primitives other than the minimum, and in release
builds against that too. Missing: negative against unsigned, and the minimum in debug builds. -/
theorem C50_eq_partial (t : Nat) (ht : 0 < t) (m : Mode) (b : BInt) (hb : Canon b) (x : BitVec t) :
    (0 ≤ ival b → eqU t b x = .ok (decide (ival b = x.toNat))) ∧
    (x ≠ BitVec.intMin t ∨ m = .release → eqS t m b x = .ok (decide (ival b = x.toInt))) := by
  constructor
  · intro h0
    rw [eqU_spec ht hb.1, (hb.val_of_nonneg h0).2]
    simp
  · intro h
    rw [eqS_spec ht m hb.1 x h]
    have h1 := hb.neg_iff
    have h2 := natAbs_ival b
    simp only [Res.ok.injEq, decide_eq_decide]
    constructor
    · rintro ⟨g1, g2⟩
      by_cases hx : x.toInt < 0
      · have := h1.mp (by rw [g1]; simpa using hx); omega
      · have : ¬ ival b < 0 := fun hh => by
          rw [h1.mpr hh] at g1
          exact hx (by simpa using g1.symm)
        omega
    · intro g
      refine ⟨?_, by omega⟩
      rw [← g]
      cases e : b.neg
      · rw [e] at h1
        simp at h1
        simp; omega
      · simp [h1.mp e]

example : eqS 128 .debug ⟨true, .slice [0, 1]⟩ (-18446744073709551616) = .ok true ∧
    eqU 64 ⟨false, .slice [0, 1]⟩ 0 = .ok false := by decide +kernel

/-! ## C51 -/

/-- C51 is violated: -5 prints as "-0". -/
theorem C51_display_violated : ¬ ∀ b : BInt, Canon b → ∃ fuel, display .release fuel b
    = .ok ((if ival b < 0 then ['-'] else []) ++ Nat.toDigits 10 (ival b).natAbs) := by
  intro h
  obtain ⟨fuel, hf⟩ := h ⟨true, .inline 5⟩ (by decide)
  cases fuel with
  | zero => exact absurd hf (by decide)
  | succ fuel =>
    have e : display .release (fuel + 1) ⟨true, .inline 5⟩ = .ok ['-', '0'] := by
      unfold display writeBase digitLoop
      rw [show cmpS 32 ⟨true, .inline 5⟩ 0 = .ok .lt by decide +kernel]
      rfl
    rw [e] at hf
    revert hf
    decide

/-- C51, printing, the part that holds: a nonnegative value of fewer than `2^64` bits prints as its
digits, in decimal and in hexadecimal (`Nat.toDigits` yields lower case letters). The loop ends
within as many rounds as there are bits. Missing: negative values, which print as "-0". -/
theorem C51_print_partial (m : Mode) (b : BInt) (hb : Canon b) (h0 : 0 ≤ ival b)
    (hlen : 64 * b.limbs.length < 2 ^ 64) (fuel : Nat) (hf : 64 * b.limbs.length < fuel) :
    display m fuel b = .ok (Nat.toDigits 10 (ival b).toNat) ∧
    lowerHex m fuel b = .ok ('0' :: 'x' :: Nat.toDigits 16 (ival b).toNat) ∧
    upperHex m fuel b = .ok ('0' :: 'x' :: (Nat.toDigits 16 (ival b).toNat).map Char.toUpper) := by
  have hs : signChars b = [] := by
    unfold signChars isNegative; rw [(hb.val_of_nonneg h0).1]; rfl
  have hdec : ∀ d < (10 : BitVec 64).toNat, decChars[d]? = some (id d.digitChar) := by decide
  have hlow : ∀ d < (16 : BitVec 64).toNat, lowerHexChars[d]? = some (id d.digitChar) := by decide
  have hupp : ∀ d < (16 : BitVec 64).toNat, upperHexChars[d]? = some (d.digitChar.toUpper) := by
    decide
  refine ⟨?_, ?_, ?_⟩
  · unfold display
    rw [writeBase_spec m 10 (by decide) (by decide) decChars id hdec fuel b hb h0 hlen hf, hs]
    simp [Res.bind]
  · unfold lowerHex
    rw [writeBase_spec m 16 (by decide) (by decide) lowerHexChars id hlow fuel b hb h0 hlen hf, hs]
    simp [Res.bind]
  · unfold upperHex
    rw [writeBase_spec m 16 (by decide) (by decide) upperHexChars Char.toUpper hupp fuel b hb h0
      hlen hf, hs]
    simp [Res.bind]

/-- C51, parsing: a string of digits of the radix, in any case, parses to the number it represents. -/
theorem C51_parse (radix : BitVec 32) (_h2 : 2 ≤ radix.toNat) (h36 : radix.toNat ≤ 36)
    (s : List Char) (hs : ∀ c ∈ s, IsDigit radix.toNat c) :
    ∃ b, fromStrRadix s radix = .ok (.ok b) ∧ Canon b ∧ ival b = numeral radix.toNat s :=
  parseLoop_ok radix h36 s hs BInt.zero (by decide) (by decide)

/-- C51, round trip: parsing what was printed gives the same value, stored the same way. -/
theorem C51_round_trip_partial (m : Mode) (b : BInt) (hb : Canon b) (h0 : 0 ≤ ival b)
    (hlen : 64 * b.limbs.length < 2 ^ 64) (fuel : Nat) (hf : 64 * b.limbs.length < fuel) :
    (∃ s, display m fuel b = .ok s ∧ fromStrRadix s 10 = .ok (.ok b)) ∧
    (∃ s, lowerHex m fuel b = .ok ('0' :: 'x' :: s) ∧ fromStrRadix s 16 = .ok (.ok b)) ∧
    (∃ s, upperHex m fuel b = .ok ('0' :: 'x' :: s) ∧ fromStrRadix s 16 = .ok (.ok b)) := by
  obtain ⟨h1, h2, h3⟩ := C51_print_partial m b hb h0 hlen fuel hf
  have key : ∀ (radix : BitVec 32) (g : Char → Char), 2 ≤ radix.toNat → radix.toNat ≤ 16 →
      (∀ d < radix.toNat, digitValue (g d.digitChar) = some d) →
      fromStrRadix ((Nat.toDigits radix.toNat (ival b).toNat).map g) radix = .ok (.ok b) := by
    intro radix g hr2 hr16 hg
    obtain ⟨k1, k2⟩ := numeral_toDigits radix.toNat (by omega) g hg (ival b).toNat
    obtain ⟨c, c1, c2, c3⟩ := C51_parse radix hr2 (by omega) _ k2
    rw [c1]
    have : c = b := Canon.ext c2 hb (by rw [c3, k1]; omega)
    rw [this]
  refine ⟨⟨_, h1, ?_⟩, ⟨_, h2, ?_⟩, ⟨_, h3, ?_⟩⟩
  · have := key 10 id (by decide) (by decide) (by decide)
    simpa using this
  · have := key 16 id (by decide) (by decide) (fun d hd => digitValue_digitChar d hd)
    simpa using this
  · exact key 16 Char.toUpper (by decide) (by decide) (fun d hd => digitValue_upper d hd)

example : fromStrRadix "zZ1".toList 36 = .ok (.ok ⟨false, .inline 46621⟩) := by decide +kernel
example : display .debug 129 ⟨false, .slice [0, 1]⟩
    = .ok "18446744073709551616".toList := by decide +kernel

/-! ## C52 -/

/-- C52: parsing fails exactly as announced. Every string either consists of digits of the radix
or splits at its first other character, so the cases are exhaustive. -/
theorem C52_parse_errors (radix : BitVec 32) :
    (radix.toNat ≤ 36 → ∀ pre c post, (∀ c ∈ pre, IsDigit radix.toNat c) → ¬ IsDigit radix.toNat c →
      fromStrRadix (pre ++ c :: post) radix = .ok (.error (.invalidChar c))) ∧
    (36 < radix.toNat → ∀ c cs,
      fromStrRadix (c :: cs) radix = .ok (.error (.invalidRadix radix.toNat))) ∧
    (radix.toNat ≤ 36 → ∀ s : List Char, (∀ c ∈ s, IsDigit radix.toNat c) →
      ∃ b, fromStrRadix s radix = .ok (.ok b)) := by
  refine ⟨fun hr pre c post hpre hc => ?_, fun hr c cs => ?_, fun hr s hs => ?_⟩
  · exact parseLoop_bad radix hr pre c post hpre hc BInt.zero (by decide) (by decide)
  · unfold fromStrRadix parseLoop valFromChar
    rw [if_neg (by omega)]
  · obtain ⟨b, h, _⟩ := parseLoop_ok radix hr s hs BInt.zero (by decide) (by decide)
    exact ⟨b, h⟩

/-- The case split used in C52 is complete. -/
theorem C52_split (radix : Nat) (s : List Char) :
    (∀ c ∈ s, IsDigit radix c) ∨
    ∃ pre c post, s = pre ++ c :: post ∧ (∀ c ∈ pre, IsDigit radix c) ∧ ¬ IsDigit radix c := by
  induction s with
  | nil => left; simp
  | cons a s ih =>
    by_cases ha : IsDigit radix a
    · rcases ih with ih | ⟨pre, c, post, h1, h2, h3⟩
      · left
        intro c hc
        rcases List.mem_cons.mp hc with rfl | hc
        exacts [ha, ih c hc]
      · right
        refine ⟨a :: pre, c, post, by rw [h1]; rfl, ?_, h3⟩
        intro c hc
        rcases List.mem_cons.mp hc with rfl | hc
        exacts [ha, h2 c hc]
    · right
      exact ⟨[], a, s, rfl, by simp, ha⟩

example : fromStrRadix "12x9".toList 10 = .ok (.error (.invalidChar 'x')) ∧
    fromStrRadix "1".toList 37 = .ok (.error (.invalidRadix 37)) := by decide +kernel

/-! ## C53 -/

/-- C53 is violated by the zero that negation produces: `2.pow(-0)` is 2. -/
theorem C53_pow_neg_zero_violated : ¬ ∀ (a e : BInt), Rep a → Rep e → 0 ≤ ival e →
    ∃ fuel c, pow .release fuel a e = .ok c ∧ ival c = ival a ^ (ival e).toNat := by
  intro h
  obtain ⟨fuel, c, h1, h2⟩ := h ⟨false, .inline 2⟩ (neg' BInt.zero) (by decide) (by decide)
    (by decide)
  cases fuel with
  | zero =>
    have e : pow .release 0 ⟨false, .inline 2⟩ (neg' BInt.zero) = .hang := by decide +kernel
    rw [e] at h1
    cases h1
  | succ fuel =>
    have e : pow .release (fuel + 1) ⟨false, .inline 2⟩ (neg' BInt.zero)
        = .ok ⟨false, .inline 2⟩ := by
      unfold pow powLoop
      rw [show eqS 32 .release (neg' BInt.zero) 0 = .ok false by decide +kernel,
        show cmpS 32 (neg' BInt.zero) 1 = .ok .lt by decide +kernel]
      rfl
    rw [e] at h1
    cases h1
    revert h2
    decide

/-- C53, the part that holds: `pow` is repeated multiplication for every canonical exponent `≥ 0`, and
the loop takes at most as many rounds as the exponent. Missing: the exponent negative zero. -/
theorem C53_pow_partial (m : Mode) (a e : BInt) (ha : Rep a) (he : Canon e) (h0 : 0 ≤ ival e)
    (fuel : Nat) (hf : (ival e).toNat ≤ fuel) :
    ∃ c, pow m fuel a e = .ok c ∧ ival c = ival a ^ (ival e).toNat ∧ (Canon a → Canon c) := by
  unfold pow
  rw [eqS_spec (by norm_num) m he.1 0 (Or.inl (by decide))]
  have hz : (0 : BitVec 32).toInt = 0 := by decide
  rw [hz, (he.val_of_nonneg h0).1]
  have hv := natAbs_ival e
  simp only [Res.bind]
  by_cases hc : ival e = 0
  · obtain ⟨x, x1, x2, x3, x4⟩ := fromS_spec (by norm_num : 0 < 32) (1 : BitVec 32)
    rw [if_pos (by simp; omega)]
    refine ⟨x, x1, ?_, fun _ => x2⟩
    rw [x4, hc]
    have : (1 : BitVec 32).toInt = 1 := by decide
    rw [this]
    simp
  · rw [if_neg (by simp; omega)]
    obtain ⟨c, c1, c2, c3, _⟩ := powLoop_spec a fuel e a he ha (by omega) hf
    refine ⟨c, c1, ?_, c3⟩
    rw [c2]
    have : (ival e).toNat = ((ival e).toNat - 1) + 1 := by omega
    conv_rhs => rw [this]
    rw [pow_succ]
    ring

example : pow .debug 5 ⟨true, .inline 3⟩ ⟨false, .inline 5⟩ = .ok ⟨true, .inline 243⟩ ∧
    pow .debug 0 ⟨true, .inline 3⟩ ⟨false, .inline 0⟩ = .ok ⟨false, .inline 1⟩ := by decide +kernel

/-! ## C54 -/

/-- C54 is violated by the zero that negation produces: `-0 | 5` is -5. -/
theorem C54_bit_ops_neg_zero_violated : ¬ ∀ (a b : BInt), Rep a → Rep b → 0 ≤ ival a → 0 ≤ ival b →
    ∃ c, bitor a b = .ok c ∧ ival c = ((ival a).toNat ||| (ival b).toNat : Nat) := by
  intro h
  obtain ⟨c, h1, h2⟩ := h (neg' BInt.zero) ⟨false, .inline 5⟩ (by decide) (by decide) (by decide)
    (by decide)
  have e : bitor (neg' BInt.zero) ⟨false, .inline 5⟩ = .ok ⟨true, .inline 5⟩ := by decide +kernel
  rw [e] at h1
  cases h1
  revert h2
  decide

/-- C54, the part that holds: on nonnegative canonical values the operators act on the integers, and
the result is canonical. Missing: negative zero. -/
theorem C54_bit_ops_partial (a b : BInt) (ha : Canon a) (hb : Canon b) (ha0 : 0 ≤ ival a)
    (hb0 : 0 ≤ ival b) :
    (∃ c, bitand a b = .ok c ∧ Canon c ∧ ival c = ((ival a).toNat &&& (ival b).toNat : Nat)) ∧
    (∃ c, bitor a b = .ok c ∧ Canon c ∧ ival c = ((ival a).toNat ||| (ival b).toNat : Nat)) ∧
    (∃ c, bitxor a b = .ok c ∧ Canon c ∧ ival c = ((ival a).toNat ^^^ (ival b).toNat : Nat)) := by
  obtain ⟨na, va⟩ := ha.val_of_nonneg ha0
  obtain ⟨_, vb⟩ := hb.val_of_nonneg hb0
  have hpos := List.length_pos_iff.mpr ha.norm.1
  have hne : ∀ out : List (BitVec 64), out.length = max a.limbs.length b.limbs.length → out ≠ [] := by
    rintro out h rfl
    simp at h
    omega
  rw [va, vb]
  simp only [Int.toNat_natCast]
  refine ⟨?_, ?_, ?_⟩
  · obtain ⟨out, h1, h2, h3⟩ := bitand_spec (by norm_num : 0 < 64) a.limbs b.limbs
    obtain ⟨c, c1, c2, _, c4⟩ := finish_spec (bitandRaw a b) out a.isNegative
      (by unfold bitandRaw; rw [h1]; rfl) (hne out h2)
    refine ⟨c, c1, c2, ?_⟩
    rw [c4, h3, show a.isNegative = false from na]; rfl
  · obtain ⟨out, h1, h2, h3⟩ := bitor_spec (by norm_num : 0 < 64) a.limbs b.limbs
    obtain ⟨c, c1, c2, _, c4⟩ := finish_spec (bitorRaw a b) out a.isNegative
      (by unfold bitorRaw; rw [h1]; rfl) (hne out h2)
    refine ⟨c, c1, c2, ?_⟩
    rw [c4, h3, show a.isNegative = false from na]; rfl
  · obtain ⟨out, h1, h2, h3⟩ := bitxor_spec (by norm_num : 0 < 64) a.limbs b.limbs
    obtain ⟨c, c1, c2, _, c4⟩ := finish_spec (bitxorRaw a b) out a.isNegative
      (by unfold bitxorRaw; rw [h1]; rfl) (hne out h2)
    refine ⟨c, c1, c2, ?_⟩
    rw [c4, h3, show a.isNegative = false from na]; rfl

-- a xor whose high limbs cancel returns to the inline form
example : bitxor ⟨false, .slice [6, 1]⟩ ⟨false, .slice [3, 1]⟩ = .ok ⟨false, .inline 5⟩ ∧
    bitor ⟨false, .slice [6, 1]⟩ ⟨false, .inline 1⟩ = .ok ⟨false, .slice [7, 1]⟩ := by decide +kernel

end Verif
