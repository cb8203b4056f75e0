import Mathlib.Tactic.LinearCombination
import Verif.Lemmas.IInt
import Verif.Props.Bitwise
import Verif.Props.Element

/-!
# C38–C41: `I<N>`

An `I<N>` is a list of `N` bytes; `sval` is its two's complement value.
-/

namespace Verif

/-! ## C38 -/

/-- C38: sum, difference, product and negation of the signed values, wrapped into the range of the
type. -/
theorem C38_twos_complement (a b : Bytes) (h : b.length = a.length) :
    ((IN.add a b).length = a.length ∧
      WrapsTo a.length (sval a + sval b) (sval (IN.add a b))) ∧
    ((IN.sub a b).length = a.length ∧
      WrapsTo a.length (sval a - sval b) (sval (IN.sub a b))) ∧
    ((IN.mul a b).length = a.length ∧
      WrapsTo a.length (sval a * sval b) (sval (IN.mul a b))) ∧
    ((IN.neg a).length = a.length ∧
      WrapsTo a.length (-sval a) (sval (IN.neg a))) := by
  have hm := modulus_bytes a
  obtain ⟨a1, a2⟩ := IN.add_val a b h
  obtain ⟨n1, n2⟩ := IN.neg_val a
  obtain ⟨s1, s2, _, _, s5⟩ := C04_sub_in_place (by norm_num : 0 < 8) a b (by omega)
  obtain ⟨m1, m2, m3⟩ := C13_mul_in_place (by norm_num : 0 < 8) a b
  rw [hm] at s2 m2
  rw [← s5] at s1 s2
  rw [← m3] at m1 m2
  have hb : val b < 256 ^ a.length := by rw [← h]; exact val_le_modulus b
  have hav := val_le_modulus a
  obtain ⟨ka, hka⟩ := sval_dvd a
  obtain ⟨kb, hkb⟩ := sval_dvd b
  rw [h] at hkb
  refine ⟨⟨a1, ?_⟩, ⟨s1, ?_⟩, ⟨m1, ?_⟩, ⟨n1, ?_⟩⟩
  · have := wraps_of_mod (IN.add a b) (sval a + sval b)
    rw [a1] at this
    apply this
    obtain ⟨k, hk⟩ := emod_dvd (256 ^ a.length) (val a + val b)
    rw [a2]
    push_cast at hk ⊢
    exact ⟨k - ka - kb, by linear_combination hk - hka - hkb⟩
  · have := wraps_of_mod (IN.sub a b) (sval a - sval b)
    rw [show (IN.sub a b).length = a.length from s1] at this
    apply this
    obtain ⟨k, hk⟩ := emod_dvd (256 ^ a.length) (val a + 256 ^ a.length - val b)
    rw [show val (IN.sub a b) = _ from s2]
    rw [Nat.cast_sub (by omega)] at hk
    push_cast at hk ⊢
    exact ⟨k - ka + kb + 1, by linear_combination hk - hka + hkb⟩
  · have := wraps_of_mod (IN.mul a b) (sval a * sval b)
    rw [show (IN.mul a b).length = a.length from m1] at this
    apply this
    obtain ⟨k, hk⟩ := emod_dvd (256 ^ a.length) (val a * val b)
    rw [show val (IN.mul a b) = _ from m2]
    push_cast at hk ⊢
    refine ⟨k - ka * sval b - kb * val a, ?_⟩
    linear_combination hk - sval b * hka - val a * hkb
  · have := wraps_of_mod (IN.neg a) (-sval a)
    rw [n1] at this
    apply this
    obtain ⟨k, hk⟩ := emod_dvd (256 ^ a.length) (256 ^ a.length - 1 - val a + 1 % 256 ^ a.length)
    obtain ⟨j, hj⟩ := emod_dvd (256 ^ a.length) 1
    rw [n2]
    rw [Nat.cast_add, Nat.cast_sub (by omega), Nat.cast_sub (by omega)] at hk
    push_cast at hk hj ⊢
    exact ⟨k + ka + 1 + j, by linear_combination hk + hka + hj⟩

/-- C38, the exactness consequence: when the integer result fits, it is the result. -/
theorem C38_exact_when_it_fits (a b : Bytes) (h : b.length = a.length) (x : ℤ)
    (hx : -(256 ^ a.length : ℤ) ≤ 2 * x ∧ 2 * x < 256 ^ a.length) :
    (x = sval a + sval b → sval (IN.add a b) = x) ∧
    (x = sval a - sval b → sval (IN.sub a b) = x) ∧
    (x = sval a * sval b → sval (IN.mul a b) = x) ∧
    (x = -sval a → sval (IN.neg a) = x) := by
  obtain ⟨⟨_, h1⟩, ⟨_, h2⟩, ⟨_, h3⟩, ⟨_, h4⟩⟩ := C38_twos_complement a b h
  have hw : WrapsTo a.length x x := ⟨hx.1, hx.2, by simp⟩
  exact ⟨fun e => wraps_unique (e ▸ h1) hw, fun e => wraps_unique (e ▸ h2) hw,
    fun e => wraps_unique (e ▸ h3) hw, fun e => wraps_unique (e ▸ h4) hw⟩

example : sval [0xFE#8, 0xFF#8] = -2 ∧ sval (IN.mul [0xFE#8, 0xFF#8] [3#8, 0#8]) = -6 ∧
    sval (IN.neg [0xFE#8, 0xFF#8]) = 2 ∧ sval (IN.sub [1#8, 0#8] [3#8, 0#8]) = -2 := by decide
-- wrapping around: 127 + 1 = -128
example : sval (IN.add [0x7F#8] [1#8]) = -128 := by decide

/-! ## C39 -/

/-- C39, violated by the code: for `I<2>`, 256 compares below 1. -/
theorem C39_order_violated :
    ¬ ∀ a b : Bytes, a ≠ [] → b.length = a.length →
      IN.cmp a b = .ok (compare (sval a) (sval b)) := by
  intro h
  have := h [0#8, 1#8] [1#8, 0#8] (by decide) rfl
  revert this
  decide

/-- C39, the part that holds: `cmp` is `Equal` exactly for equal values, is right for operands of
different sign, and is right for operands that differ in one byte position only (in particular for
`I<1>`). Missing: operands of the same sign differing in several bytes. -/
theorem C39_order_partial (a b : Bytes) (ha : a ≠ []) (h : b.length = a.length) :
    (IN.cmp a b = .ok .eq ↔ sval a = sval b) ∧
    (sval a < 0 → 0 ≤ sval b → IN.cmp a b = .ok .lt ∧ IN.cmp b a = .ok .gt) ∧
    (∀ i, (∀ j, j ≠ i → a.getD j 0 = b.getD j 0) →
      IN.cmp a b = .ok (compare (sval a) (sval b))) ∧
    (a.length = 1 → IN.cmp a b = .ok (compare (sval a) (sval b))) := by
  have hb : b ≠ [] := by
    intro e; subst e
    exact ha (List.length_eq_zero_iff.mp (by simpa using h.symm))
  have hna := IN.isNegative_spec a ha
  have hnb := IN.isNegative_spec b hb
  have hsame : ∀ p, decide (sval a < 0) = p → decide (sval b < 0) = p →
      compare (sval a) (sval b) = compare (val a) (val b) := by
    intro p p1 p2
    have na := sval_neg_iff a
    have nb := sval_neg_iff b
    have hav := val_le_modulus a
    have hbv := val_le_modulus b
    rw [h] at nb hbv
    by_cases hp : sval a < 0
    · have hq : sval b < 0 := by
        have : decide (sval b < 0) = true := by rw [p2, ← p1]; simpa using hp
        simpa using this
      have e1 : sval a = val a - 256 ^ a.length := by
        unfold sval; rw [if_neg (by have := na.mp hp; omega)]
      have e2 : sval b = val b - 256 ^ a.length := by
        unfold sval; rw [h, if_neg (by have := nb.mp hq; omega)]
      rw [e1, e2]
      rcases lt_trichotomy (val a) (val b) with c | c | c
      · rw [compare_lt_iff_lt.mpr c, compare_lt_iff_lt.mpr (by omega)]
      · rw [compare_eq_iff_eq.mpr c, compare_eq_iff_eq.mpr (by omega)]
      · rw [compare_gt_iff_gt.mpr c, compare_gt_iff_gt.mpr (by omega)]
    · have hq : ¬ sval b < 0 := by
        have : decide (sval b < 0) = false := by rw [p2, ← p1]; simpa using hp
        simpa using this
      have e1 : sval a = val a := by
        unfold sval; rw [if_pos (by by_contra hc; exact hp (na.mpr (by omega)))]
      have e2 : sval b = val b := by
        unfold sval; rw [h, if_pos (by by_contra hc; exact hq (nb.mpr (by omega)))]
      rw [e1, e2]
      rcases lt_trichotomy (val a) (val b) with c | c | c
      · rw [compare_lt_iff_lt.mpr c, compare_lt_iff_lt.mpr (by omega)]
      · rw [compare_eq_iff_eq.mpr c, compare_eq_iff_eq.mpr (by omega)]
      · rw [compare_gt_iff_gt.mpr c, compare_gt_iff_gt.mpr (by omega)]
  have hone : ∀ i, (∀ j, j ≠ i → a.getD j 0 = b.getD j 0) →
      IN.cmp a b = .ok (compare (sval a) (sval b)) := by
    intro i hi
    unfold IN.cmp
    rw [hna, hnb]
    simp only [Res.bind]
    rcases Bool.eq_false_or_eq_true (decide (sval a < 0)) with p | p <;>
    rcases Bool.eq_false_or_eq_true (decide (sval b < 0)) with q | q
    · rw [hsame true p q, p, q]
      simp only [IN.boolCmp]
      rw [lexCmp_elementCmp a b h.symm, elementCmp_one_limb a b i hi]
    · rw [p, q]
      simp only [IN.boolCmp, Ordering.swap]
      rw [compare_lt_iff_lt.mpr]
      simp only [decide_eq_true_eq, decide_eq_false_iff_not] at p q
      omega
    · rw [p, q]
      simp only [IN.boolCmp, Ordering.swap]
      rw [compare_gt_iff_gt.mpr]
      simp only [decide_eq_true_eq, decide_eq_false_iff_not] at p q
      omega
    · rw [hsame false p q, p, q]
      simp only [IN.boolCmp]
      rw [lexCmp_elementCmp a b h.symm, elementCmp_one_limb a b i hi]
  refine ⟨?_, ?_, hone, fun hl => hone 0 fun j hj => ?_⟩
  · constructor
    · intro he
      unfold IN.cmp at he
      rw [hna, hnb] at he
      simp only [Res.bind] at he
      have : IN.lexCmp a b = .eq := by
        revert he
        cases decide (sval a < 0) <;> cases decide (sval b < 0) <;>
          simp [IN.boolCmp, Ordering.swap]
      rw [(lexCmp_eq a b h.symm).mp this]
    · intro he
      have hv : val a = val b := by
        have := hsame _ rfl (by rw [he])
        rw [compare_eq_iff_eq.mpr he] at this
        exact compare_eq_iff_eq.mp this.symm
      rw [hone 0 (fun j _ => by rw [eq_of_val_eq h.symm hv]), compare_eq_iff_eq.mpr he]
  · intro h1 h2
    unfold IN.cmp
    rw [hna, hnb, decide_eq_true h1, decide_eq_false (by omega)]
    exact ⟨rfl, rfl⟩
  · rw [getD_of_ge _ _ (by omega), getD_of_ge _ _ (by omega)]

example : IN.cmp [0xFF#8, 0xFF#8] [1#8, 0#8] = .ok .lt ∧
    IN.cmp [5#8, 0xFF#8] [5#8, 0xFE#8] = .ok .gt := by decide

/-! ## C40 -/

/-- C40, violated by the code: the `I<1>` value -1 has `abs` 127, because `abs` only clears the
sign bit. -/
theorem C40_abs_violated :
    ¬ ∀ a : Bytes, a ≠ [] → (∃ x : Bytes, x.length = a.length ∧ sval x = |sval a|) →
      ∃ x, IN.abs a = .ok x ∧ sval x = |sval a| := by
  intro h
  obtain ⟨x, h1, h2⟩ := h [0xFF#8] (by decide) ⟨[1#8], rfl, by decide⟩
  have e : IN.abs [0xFF#8] = .ok [0x7F#8] := by decide
  rw [e] at h1
  cases h1
  revert h2
  decide

/-- C40, the part that holds: the sign queries, the bounds and the constants, and `abs` of
nonnegative values. What `abs` gives for a negative value is `x + 2^(8N-1)` (last clause). Missing:
`abs` of negative values. -/
theorem C40_sign_bounds_partial (a : Bytes) (ha : a ≠ []) :
    IN.isNegative a = .ok (decide (sval a < 0)) ∧
    IN.isPositive a = .ok (decide (0 ≤ sval a)) ∧
    ((IN.minValue a.length).length = a.length ∧
      2 * sval (IN.minValue a.length) = -(256 ^ a.length)) ∧
    ((IN.maxValue a.length).length = a.length ∧
      2 * sval (IN.maxValue a.length) = 256 ^ a.length - 2) ∧
    (sval (IN.minValue a.length) ≤ sval a ∧ sval a ≤ sval (IN.maxValue a.length)) ∧
    ((IN.maxNegative a.length).length = a.length ∧ sval (IN.maxNegative a.length) = -1) ∧
    ((IN.minPositive a.length).length = a.length ∧ sval (IN.minPositive a.length) = 1) ∧
    (sval (IN.zero a.length) = 0 ∧ sval (IN.one a.length) = 1) ∧
    (∃ x, IN.abs a = .ok x ∧ x.length = a.length ∧ (0 ≤ sval a → x = a) ∧
      (sval a < 0 → 2 * sval x = 2 * sval a + 256 ^ a.length)) := by
  have hl : 0 < a.length := List.length_pos_iff.mpr ha
  have hone : sval (IN.one a.length) = 1 := by
    have hv : val (IN.one a.length) = 1 := by
      rw [show val (IN.one a.length) = _ from UN.val_one a.length, Nat.mod_eq_of_lt]
      exact Nat.one_lt_pow (by omega) (by norm_num)
    unfold sval
    rw [hv, IN.one_length, if_pos]
    · rfl
    · calc 2 * 1 < 256 ^ 1 := by norm_num
        _ ≤ 256 ^ a.length := Nat.pow_le_pow_right (by norm_num) hl
  have hzero : sval (IN.zero a.length) = 0 := by
    unfold sval
    rw [show val (IN.zero a.length) = 0 from UN.val_zero a.length, if_pos (by positivity)]
    rfl
  have hmaxneg : sval (IN.maxNegative a.length) = -1 := by
    have hv : val (IN.maxNegative a.length) = 256 ^ a.length - 1 := val_maxValue a.length
    have hlen : (IN.maxNegative a.length).length = a.length := by simp [IN.maxNegative]
    have h256 : 256 ^ 1 ≤ 256 ^ a.length := Nat.pow_le_pow_right (by norm_num) hl
    unfold sval
    rw [hv, hlen, if_neg (by omega), Nat.cast_sub (by omega)]
    push_cast
    ring
  obtain ⟨n, hn⟩ : ∃ n, a.length = n + 1 := ⟨a.length - 1, by omega⟩
  have hsplit : ∀ x y : BitVec 8, ((List.range (n + 1)).map fun idx => if idx = n then x else y)
      = List.replicate n y ++ [x] := by
    intro x y
    rw [List.range_succ, List.map_append]
    simp only [List.map_cons, List.map_nil, if_true]
    congr 1
    rw [List.eq_replicate_iff]
    refine ⟨by simp, ?_⟩
    intro b hb
    obtain ⟨i, hi, rfl⟩ := List.mem_map.mp hb
    have := List.mem_range.mp hi
    rw [if_neg (by omega)]
  have hminlen : (IN.minValue a.length).length = a.length := by simp [IN.minValue]
  have hmaxlen : (IN.maxValue a.length).length = a.length := by simp [IN.maxValue]
  have hpow : 256 ^ a.length = 256 * 256 ^ n := by rw [hn, Nat.pow_succ, Nat.mul_comm]
  have hminval : 2 * val (IN.minValue a.length) = 256 ^ a.length := by
    unfold IN.minValue
    rw [hpow, hn, Nat.add_sub_cancel, hsplit, val_append, val_replicate_zero, modulus_bytes]
    simp [val]; ring
  have hmaxval : 2 * val (IN.maxValue a.length) + 2 = 256 ^ a.length := by
    have hr : val (List.replicate n (0xFF : BitVec 8)) = 256 ^ n - 1 := val_maxValue n
    have hp : 0 < 256 ^ n := by positivity
    unfold IN.maxValue
    rw [hpow, hn, Nat.add_sub_cancel, hsplit, val_append, hr, modulus_bytes]
    simp [val]; omega
  have hmin : 2 * sval (IN.minValue a.length) = -(256 ^ a.length) := by
    unfold sval
    rw [hminlen, if_neg (by omega)]
    have : (2 * val (IN.minValue a.length) : ℤ) = 256 ^ a.length := by exact_mod_cast hminval
    linear_combination this
  have hmax : 2 * sval (IN.maxValue a.length) = 256 ^ a.length - 2 := by
    unfold sval
    rw [hmaxlen, if_pos (by omega)]
    have : (2 * val (IN.maxValue a.length) + 2 : ℤ) = 256 ^ a.length := by exact_mod_cast hmaxval
    linear_combination this
  obtain ⟨r1, r2⟩ := sval_range a
  refine ⟨IN.isNegative_spec a ha, IN.isPositive_spec a ha, ⟨hminlen, hmin⟩, ⟨hmaxlen, hmax⟩,
    ⟨?_, ?_⟩, ⟨by simp [IN.maxNegative], hmaxneg⟩, ⟨IN.one_length _, hone⟩, ⟨hzero, hone⟩, ?_⟩
  · omega
  · have he : (256 ^ a.length : ℤ) = 256 * 256 ^ n := by exact_mod_cast hpow
    omega
  · obtain ⟨x, h1, h2, h3⟩ := IN.abs_spec a ha
    have nv := sval_neg_iff a
    have hav := val_le_modulus a
    refine ⟨x, h1, h2, fun h => ?_, fun h => ?_⟩
    · apply eq_of_val_eq h2
      rw [h3, Nat.mod_eq_of_lt]
      by_contra hc
      have := nv.mpr (by omega)
      omega
    · have h4 := nv.mp h
      have h5 : val x = val a - 256 ^ a.length / 2 := by
        rw [h3, Nat.mod_eq_sub_mod (by omega), Nat.mod_eq_of_lt (by omega)]
      have hev : 2 * (256 ^ a.length / 2) = 256 ^ a.length := by omega
      have e1 : sval a = val a - 256 ^ a.length := by unfold sval; rw [if_neg (by omega)]
      have e2 : sval x = val x := by unfold sval; rw [h2, if_pos (by omega)]
      rw [e1, e2]
      have h6 : 2 * val x + 256 ^ a.length = 2 * val a := by omega
      have h7 : (2 * val x + 256 ^ a.length : ℤ) = 2 * val a := by exact_mod_cast h6
      linear_combination h7

example : IN.isNegative [0#8, 0x80#8] = .ok true ∧ IN.abs [5#8, 1#8] = .ok [5, 1] ∧
    sval (IN.minValue 2) = -32768 ∧ sval (IN.maxValue 2) = 32767 := by decide

/-! ## C41 -/

/-- C41, violated by the code: for `I<1>`, `-1 / 1` is -127. -/
theorem C41_div_violated :
    ¬ ∀ (m : Mode) (a b : Bytes), a ≠ [] → b.length = a.length → sval b ≠ 0 →
      ∃ q, IN.div m a b = .ok q ∧ WrapsTo a.length ((sval a).tdiv (sval b)) (sval q) := by
  intro h
  obtain ⟨q, h1, h2⟩ := h .release [0xFF#8] [1#8] (by decide) rfl (by decide)
  have e : IN.div .release [0xFF#8] [1#8] = .ok [0x81#8] := by decide +kernel
  rw [e] at h1
  cases h1
  have h3 : WrapsTo 1 (-1) (-1) := ⟨by norm_num, by norm_num, by norm_num⟩
  have h4 := wraps_unique h2 h3
  revert h4
  decide

/-- C41, violated by the code: for `I<1>`, `7 % -120` is -7 rather than 7 (the sign is taken
from "signs differ"), so the remainder does not take the sign of the dividend. -/
theorem C41_rem_violated :
    ¬ ∀ (m : Mode) (a b : Bytes), a ≠ [] → b.length = a.length → sval b ≠ 0 →
      ∃ r, IN.rem m a b = .ok r ∧ sval r = (sval a).tmod (sval b) := by
  intro h
  obtain ⟨q, h1, h2⟩ := h .release [7#8] [0x88#8] (by decide) rfl (by decide)
  have e : IN.rem .release [7#8] [0x88#8] = .ok [0xF9#8] := by decide +kernel
  rw [e] at h1
  cases h1
  revert h2
  decide

/-- C41, the part that holds: for a nonnegative dividend and a positive divisor below 128, or any
positive divisor for `I<1>`, the quotient and the remainder are those of division truncating
toward zero. Missing: negative operands (wrong because of `abs`) and larger divisors (wrong because
of the underlying long division). -/
theorem C41_div_partial (m : Mode) (a b : Bytes) (ha : a ≠ []) (h : b.length = a.length)
    (hfit : a.length < 2 ^ 60) (hpa : 0 ≤ sval a) (hpb : 0 < sval b) (hb : sval b ≤ 128) :
    ∃ q r, IN.div m a b = .ok q ∧ IN.rem m a b = .ok r ∧ q.length = a.length ∧
      r.length = a.length ∧ sval q = (sval a).tdiv (sval b) ∧ sval r = (sval a).tmod (sval b) ∧
      sval a = sval q * sval b + sval r := by
  have hl : 0 < a.length := List.length_pos_iff.mpr ha
  have hbn : b ≠ [] := List.length_pos_iff.mp (by omega)
  have habs : ∀ x : Bytes, x ≠ [] → 0 ≤ sval x → IN.abs x = .ok x := by
    intro x hx hp
    obtain ⟨_, _, _, _, _, _, _, _, y, h1, _, h3, _⟩ := C40_sign_bounds_partial x hx
    rw [h1, h3 hp]
  have hval : ∀ x : Bytes, 0 ≤ sval x → sval x = val x ∧ 2 * val x < 256 ^ x.length := by
    intro x hp
    have : 2 * val x < 256 ^ x.length := by
      by_contra hc
      have := (sval_neg_iff x).mpr (by omega)
      omega
    exact ⟨by unfold sval; rw [if_pos this], this⟩
  obtain ⟨va, la⟩ := hval a hpa
  obtain ⟨vb, lb⟩ := hval b hpb.le
  have hvb0 : 0 < val b := by omega
  have hvb1 : val b ≤ 128 := by omega
  obtain ⟨_, ⟨q, s, _, _, g2, g3, g4⟩, ⟨r, _, _, k2, k3, k4⟩⟩ :=
    C20_bitwise_div_partial m (by norm_num : 0 < 8) a b (by omega) (by omega) (by omega) (by omega)
      (by omega) (by omega)
  have hq : val q ≤ val a := by rw [g4]; exact Nat.div_le_self _ _
  have hr : val r ≤ val a := by rw [k4]; exact Nat.mod_le _ _
  have sq : sval q = val q := by unfold sval; rw [g3, if_pos (by omega)]
  have sr : sval r = val r := by unfold sval; rw [k3, if_pos (by omega)]
  have dq : sval q = (sval a).tdiv (sval b) := by
    rw [sq, va, vb, g4]; rfl
  have dr : sval r = (sval a).tmod (sval b) := by
    rw [sr, va, vb, k4]; rfl
  refine ⟨q, r, ?_, ?_, g3, k3, dq, dr, ?_⟩
  · unfold IN.div
    rw [IN.isNegative_spec a ha, IN.isNegative_spec b hbn, habs a ha hpa, habs b hbn hpb.le,
      decide_eq_false (by omega), decide_eq_false (by omega)]
    simp only [Res.bind, g2]
    rfl
  · unfold IN.rem
    rw [IN.isNegative_spec a ha, IN.isNegative_spec b hbn, habs a ha hpa, habs b hbn hpb.le,
      decide_eq_false (by omega), decide_eq_false (by omega)]
    simp only [Res.bind, k2]
    rfl
  · rw [dq, dr]
    have := Int.mul_tdiv_add_tmod (sval a) (sval b)
    linear_combination -this

example : IN.div .debug [0x39#8, 0x30#8] [100#8, 0#8] = .ok [123, 0] ∧
    IN.rem .debug [0x39#8, 0x30#8] [100#8, 0#8] = .ok [45, 0] := by decide +kernel

end Verif
