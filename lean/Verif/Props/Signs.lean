import Mathlib.Tactic.Linarith
import Mathlib.Tactic.Positivity
import Mathlib.Algebra.Order.Field.Basic
import Verif.Spec.Real
import Verif.Lemmas.Prim
import Verif.Lemmas.Fixed

/-!
# C98-C101: signs, identities, bounds, overflow flags and zero counts

The trait documentation says: `is_positive` is `>= 0`, `is_negative` is `< 0`, `abs` is the distance
from 0, `min_value` and `max_value` are the extreme representable values.
-/

namespace Verif

open Prim

/-! ## C98 -/

/-- C98 is violated: zero is positive by the documentation, but not for the primitive integers, for
`Fixed` and for `Rat`. -/
theorem C98_zero_violated :
    (¬ ∀ x, i8.InRange x → (Prim.isPositive x = true ↔ 0 ≤ x)) ∧
    (¬ ∀ x, i8.InRange x → (Fixed.isPositive x = true ↔ 0 ≤ fval 1 x)) ∧
    (¬ ∀ x, RatValid i8 x → (RatM.isPositive x = true ↔ 0 ≤ qval x)) := by
  refine ⟨fun h => ?_, fun h => ?_, fun h => ?_⟩
  · have := (h 0 (by decide)).mpr le_rfl
    revert this; decide
  · have := (h 0 (by decide)).mpr (by simp [fval])
    revert this; decide
  · have := (h ⟨0, 1⟩ ⟨by decide, by decide, by decide⟩).mpr (by simp [qval])
    revert this; decide

/-- C98 is violated: the constructor accepts `3 / -2`, which then counts as positive, not as
negative, and is its own absolute value. -/
theorem C98_rat_sign_violated :
    RatM.new i8 3 (-2) = .ok (some ⟨3, -2⟩) ∧ qval ⟨3, -2⟩ < 0 ∧
    RatM.isPositive ⟨3, -2⟩ = true ∧ RatM.isNegative ⟨3, -2⟩ = false ∧
    RatM.abs .debug i8 ⟨3, -2⟩ = .ok ⟨3, -2⟩ := by
  refine ⟨by decide, by norm_num [qval], by decide, by decide, by decide⟩

theorem abs_spec (m : Mode) (p : Prim) (hb : 2 ≤ p.bits) (hs : p.signed = true) (x : Int)
    (hx : p.InRange x) :
    (x ≠ p.minV → Prim.abs m p x = .ok |x|) ∧
    (x = p.minV → Prim.abs .debug p x = .panic ∧ Prim.abs .release p x = .ok x) := by
  have hmin := minV_lt hb hs
  obtain ⟨b1, b2, b3⟩ := bounds (p := p) (by omega)
  have hsym : p.maxV = -p.minV - 1 := by unfold minV maxV; simp [hs]
  constructor
  · intro h
    unfold Prim.abs
    by_cases h0 : x < 0
    · rw [if_pos h0, arith_ok m ⟨by have := hx.1; omega, by have := hx.1; omega⟩, abs_of_neg h0]
    · rw [if_neg h0, abs_of_nonneg (by omega)]
  · intro h
    have hn : ¬ p.InRange (-x) := by unfold InRange; omega
    unfold Prim.abs
    rw [if_pos (by omega), if_pos (by omega)]
    unfold arith
    rw [if_neg hn, if_neg hn]
    refine ⟨rfl, ?_⟩
    show Res.ok (p.wrap (-x)) = Res.ok x
    congr 1
    apply eq_of_dvd (by omega) (wrap_spec (by omega) (-x)).1 hx
    have hd := (wrap_spec (p := p) (by omega) (-x)).2
    have : p.wrap (-x) - x = (p.wrap (-x) - -x) + 2 ^ p.bits * 1 := by
      rw [← b3, h, hsym]
      ring
    rw [this]
    exact Int.dvd_add hd (Int.dvd_mul_right _ _)

/-- C98 for the primitive integers, the part that holds: the signs of all numbers but zero, and the
absolute value of all but `MIN` (where debug builds panic and release builds wrap, as for `core`).
Missing: `is_positive` of zero. -/
theorem C98_prim_partial (m : Mode) (p : Prim) (hb : 2 ≤ p.bits) (hs : p.signed = true) (x : Int)
    (hx : p.InRange x) :
    (Prim.isNegative x = true ↔ x < 0) ∧ (x ≠ 0 → (Prim.isPositive x = true ↔ 0 ≤ x)) ∧
    (x ≠ p.minV → Prim.abs m p x = .ok |x|) ∧
    (x = p.minV → Prim.abs .debug p x = .panic ∧ Prim.abs .release p x = .ok x) := by
  refine ⟨?_, fun h => ?_, abs_spec m p hb hs x hx⟩
  · unfold Prim.isNegative; rw [decide_eq_true_iff]
  · unfold Prim.isPositive; rw [decide_eq_true_iff]; omega

example : Prim.abs .debug i8 (-5) = .ok 5 ∧ Prim.isNegative (-5) = true := by decide

/-- C98 for `Fixed`, the part that holds, for every number of fractional bits. Missing:
`is_positive` of zero. -/
theorem C98_fixed_partial (m : Mode) (p : Prim) (N : Nat) (hb : 2 ≤ p.bits) (hs : p.signed = true)
    (x : Int) (hx : p.InRange x) :
    (Fixed.isNegative x = true ↔ fval N x < 0) ∧
    (fval N x ≠ 0 → (Fixed.isPositive x = true ↔ 0 ≤ fval N x)) ∧
    (x ≠ p.minV → ∃ r, Fixed.abs m p x = .ok r ∧ fval N r = |fval N x|) := by
  have hp : (0 : ℚ) < 2 ^ N := by positivity
  have hneg : fval N x < 0 ↔ x < 0 := by
    unfold fval; rw [div_lt_iff₀ hp, zero_mul]; exact_mod_cast Iff.rfl
  have hnn : 0 ≤ fval N x ↔ 0 ≤ x := by
    rw [← not_lt, hneg, not_lt]
  have hz : fval N x ≠ 0 ↔ x ≠ 0 := by
    unfold fval; rw [div_ne_zero_iff]; simp
  refine ⟨?_, fun h => ?_, fun h => ⟨|x|, (abs_spec m p hb hs x hx).1 h, ?_⟩⟩
  · unfold Fixed.isNegative; rw [decide_eq_true_iff, hneg]
  · unfold Fixed.isPositive; rw [decide_eq_true_iff, hnn]; have := hz.mp h; omega
  · unfold fval; rw [abs_div, abs_of_pos hp]; push_cast; rfl

example : Fixed.abs .debug i8 (-5) = .ok 5 ∧ fval 1 5 = |fval 1 (-5)| := by
  refine ⟨by decide, by norm_num [fval, abs_div]⟩

/-- C98 for `Rat`, the part that holds: fractions with a positive denominator. Missing:
`is_positive` of zero and negative denominators. -/
theorem C98_rat_partial (m : Mode) (p : Prim) (hb : 2 ≤ p.bits) (hs : p.signed = true) (x : RatM)
    (hx : RatValid p x) (hd : 0 < x.denom) :
    (RatM.isNegative x = true ↔ qval x < 0) ∧
    (qval x ≠ 0 → (RatM.isPositive x = true ↔ 0 ≤ qval x)) ∧
    (x.num ≠ p.minV → ∃ r, RatM.abs m p x = .ok r ∧ RatValid p r ∧ qval r = |qval x|) := by
  have hp : (0 : ℚ) < x.denom := by exact_mod_cast hd
  have hneg : qval x < 0 ↔ x.num < 0 := by
    unfold qval; rw [div_lt_iff₀ hp, zero_mul]; exact_mod_cast Iff.rfl
  have hnn : 0 ≤ qval x ↔ 0 ≤ x.num := by
    rw [← not_lt, hneg, not_lt]
  have hz : qval x ≠ 0 → x.num ≠ 0 := by
    intro h h0; apply h; unfold qval; rw [h0]; simp
  refine ⟨?_, fun h => ?_, fun h => ⟨⟨|x.num|, x.denom⟩, ?_, ?_, ?_⟩⟩
  · unfold RatM.isNegative; rw [decide_eq_true_iff, hneg]
  · unfold RatM.isPositive; rw [decide_eq_true_iff, hnn]; have := hz h; omega
  · have := (abs_spec m p hb hs x.num hx.num).1 h
    unfold Prim.abs at this
    unfold RatM.abs
    rw [this]
    rfl
  · refine ⟨?_, hx.denom, hx.nonzero⟩
    have h1 := hx.num
    have hsym : p.maxV = -p.minV - 1 := by unfold minV maxV; simp [hs]
    obtain ⟨b1, b2, b3⟩ := bounds (p := p) (by omega)
    unfold InRange at h1 ⊢
    have : |x.num| = x.num ∨ |x.num| = -x.num := abs_choice x.num
    have := abs_nonneg x.num
    simp only
    omega
  · unfold qval; rw [abs_div, abs_of_pos hp]; push_cast; rfl

example : RatM.abs .debug i8 ⟨-3, 2⟩ = .ok ⟨3, 2⟩ ∧ qval ⟨3, 2⟩ = |qval ⟨-3, 2⟩| := by
  refine ⟨by decide, by norm_num [qval, abs_div]⟩

/-- C98 for the `NonZero` types: zero being excluded, the documentation holds. -/
theorem C98_nonzero (m : Mode) (p : Prim) (hb : 2 ≤ p.bits) (hs : p.signed = true) (x : Int)
    (hx : p.InRange x) (h0 : x ≠ 0) :
    (Prim.isNegative x = true ↔ x < 0) ∧ (Prim.isPositive x = true ↔ 0 ≤ x) ∧
    (x ≠ p.minV → Prim.abs m p x = .ok |x| ∧ |x| ≠ 0) :=
  have h := C98_prim_partial m p hb hs x hx
  ⟨h.1, h.2.1 h0, fun h1 => ⟨h.2.2.1 h1, abs_ne_zero.mpr h0⟩⟩

example := C98_nonzero .debug ⟨true, 8⟩ (by decide) rfl (-127) (by decide) (by decide)

/-! ## C99 -/

/-- C99 is violated: `2/2` is not reduced by the constructor, so it is one but does not say so. -/
theorem C99_rat_one_violated :
    RatM.new i8 2 2 = .ok (some ⟨2, 2⟩) ∧ qval ⟨2, 2⟩ = 1 ∧ RatM.isOne ⟨2, 2⟩ = false := by
  refine ⟨by decide, by norm_num [qval], by decide⟩

/-- C99 is violated: with one integer bit, that is the sign, `one()` of `Fixed` is -1, silently. -/
theorem C99_fixed_one_violated :
    Fixed.one .debug i8 7 = .ok (-128) ∧ fval 7 (-128) = -1 ∧
    Fixed.isOne .debug i8 7 (-128) = .ok true := by
  refine ⟨by decide, by norm_num [fval], by decide⟩

/-- C99 for `Fixed`: `is_zero` is right; `one()` is 1 and `is_one` is right whenever 1 is
representable. Missing: signed types with all bits but the sign fractional. -/
theorem C99_fixed_partial (m : Mode) (p : Prim) (N : Nat) (hN : N < p.bits)
    (hone : (2 : Int) ^ N ≤ p.maxV) (x : Int) :
    (Fixed.isZero x = true ↔ fval N x = 0) ∧ fval N Fixed.zero = 0 ∧
    (∃ o, Fixed.one m p N = .ok o ∧ p.InRange o ∧ fval N o = 1) ∧
    (∃ b, Fixed.isOne m p N x = .ok b ∧ (b = true ↔ fval N x = 1)) := by
  have hp : (2 : ℚ) ^ N ≠ 0 := by positivity
  have h1 : Fixed.one m p N = .ok (2 ^ N) := Fixed.maxV_pow (by omega) hone m
  obtain ⟨b1, b2, _⟩ := bounds (p := p) (by omega)
  have hpos : (0 : Int) < 2 ^ N := by positivity
  refine ⟨?_, by simp [fval, Fixed.zero], ⟨2 ^ N, h1, ⟨by omega, hone⟩, ?_⟩, ?_⟩
  · unfold Fixed.isZero fval
    rw [decide_eq_true_iff, div_eq_zero_iff]
    simp
  · unfold fval; push_cast; exact div_self hp
  · unfold Fixed.isOne
    rw [h1]
    refine ⟨_, rfl, ?_⟩
    unfold Fixed.eq fval
    rw [decide_eq_true_iff, div_eq_one_iff_eq hp]
    exact_mod_cast Iff.rfl

/-- C99 for `Rat`: `is_zero` is right for every fraction; `is_one` accepts only one, and all
fractions equal to one whose denominator is 1. Missing: unreduced fractions. -/
theorem C99_rat_partial (p : Prim) (x : RatM) (hx : RatValid p x) :
    (RatM.isZero x = true ↔ qval x = 0) ∧ qval RatM.zero = 0 ∧ qval RatM.one = 1 ∧
    (RatM.isOne x = true → qval x = 1) ∧ (x.denom = 1 → qval x = 1 → RatM.isOne x = true) := by
  have hd : (x.denom : ℚ) ≠ 0 := by exact_mod_cast hx.nonzero
  refine ⟨?_, by simp [qval, RatM.zero], by simp [qval, RatM.one], fun h => ?_, fun h h1 => ?_⟩
  · unfold RatM.isZero qval
    rw [decide_eq_true_iff, div_eq_zero_iff]
    simp [hd]
  · unfold RatM.isOne at h
    rw [decide_eq_true_iff] at h
    rw [h]; simp [qval, RatM.one]
  · unfold RatM.isOne RatM.one
    rw [decide_eq_true_iff]
    unfold qval at h1
    rw [h] at h1
    simp at h1
    obtain ⟨n, d⟩ := x
    simp only at h h1
    rw [h, h1]

example : RatM.isOne ⟨1, 1⟩ = true ∧ RatM.isZero ⟨0, 7⟩ = true ∧ RatM.isOne ⟨3, 1⟩ = false := by decide

/-! ## C100 -/

/-- C100 for the primitive integers and the `NonZero` types: the bounds are values of the type, and
every value lies between them. -/
theorem C100_prim (m : Mode) (p : Prim) (hb : 2 ≤ p.bits) (x : Int) (hx : p.InRange x) :
    (p.InRange p.minValue ∧ p.InRange p.maxValue ∧ p.minValue ≤ x ∧ x ≤ p.maxValue) ∧
    (p.nzMinValue ≠ 0 ∧ p.nzMaxValue ≠ 0 ∧ p.InRange p.nzMinValue ∧ p.InRange p.nzMaxValue ∧
      (x ≠ 0 → p.nzMinValue ≤ x ∧ x ≤ p.nzMaxValue)) ∧
    (p.InRange nzMinPositive ∧ 0 < nzMinPositive ∧ (0 < x → nzMinPositive ≤ x)) ∧
    (p.signed = true → ∃ y, nzMaxNegative m p = .ok y ∧ p.InRange y ∧ y < 0 ∧ (x < 0 → x ≤ y)) := by
  obtain ⟨b1, b2, b3⟩ := bounds (p := p) (by omega)
  have hmax : 1 ≤ p.maxV := by
    unfold maxV
    have h1 : (2 : Int) ^ 1 ≤ 2 ^ (p.bits - 1) := pow_le_pow_right₀ (by norm_num) (by omega)
    have h2 : (2 : Int) ^ 1 ≤ 2 ^ p.bits := pow_le_pow_right₀ (by norm_num) (by omega)
    split <;> omega
  have hx1 := hx.1
  have hx2 := hx.2
  refine ⟨⟨⟨le_rfl, by show p.minV ≤ _; omega⟩, ⟨by show _ ≤ p.maxV; omega, le_rfl⟩, hx1, hx2⟩,
    ?_, ⟨⟨by show _ ≤ (1 : Int); omega, hmax⟩, by decide, fun h => h⟩, fun hs => ⟨-1, ?_, ?_, by norm_num, fun h => by omega⟩⟩
  · unfold nzMinValue nzMaxValue InRange
    cases hs : p.signed with
    | true =>
      have := minV_lt hb hs
      simp only [if_true]
      omega
    | false =>
      have : p.minV = 0 := by unfold minV; simp [hs]
      simp only [Bool.false_eq_true, if_false]
      omega
  · have := minV_lt hb hs
    unfold nzMaxNegative
    rw [arith_ok m ⟨by omega, by omega⟩]
  · have := minV_lt hb hs
    exact ⟨by omega, by omega⟩

/-- C100 for `Fixed`: all four bounds are the extreme representable numbers. -/
theorem C100_fixed (m : Mode) (p : Prim) (N : Nat) (hb : 2 ≤ p.bits) (x : Int) (hx : p.InRange x) :
    (p.InRange (Fixed.minValue p) ∧ p.InRange (Fixed.maxValue p) ∧
      p.InRange (Fixed.minPositive)) ∧
    (fval N (Fixed.minValue p) ≤ fval N x ∧ fval N x ≤ fval N (Fixed.maxValue p)) ∧
    (0 < fval N Fixed.minPositive ∧ (0 < fval N x → fval N Fixed.minPositive ≤ fval N x)) ∧
    (p.signed = true → ∃ y, Fixed.maxNegative m p = .ok y ∧ p.InRange y ∧ fval N y < 0 ∧
      (fval N x < 0 → fval N x ≤ fval N y)) := by
  have hp : (0 : ℚ) < 2 ^ N := by positivity
  have hle : ∀ a b : Int, fval N a ≤ fval N b ↔ a ≤ b := fun a b => by
    unfold fval; rw [div_le_div_iff_of_pos_right hp]; exact_mod_cast Iff.rfl
  have hlt : ∀ a b : Int, fval N a < fval N b ↔ a < b := fun a b => by
    rw [← not_le, hle, not_le]
  have h0 : (0 : ℚ) = fval N 0 := by simp [fval]
  obtain ⟨h1, _, ⟨h30, h3⟩, h4⟩ := C100_prim m p hb x hx
  refine ⟨?_, ⟨(hle _ _).mpr hx.1, (hle _ _).mpr hx.2⟩, ?_, fun hs => ?_⟩
  · exact ⟨h1.1, h1.2.1, h30⟩
  · rw [h0, hlt, hlt, hle]
    exact h3
  · obtain ⟨y, g1, g2, g3, g4⟩ := h4 hs
    refine ⟨y, g1, g2, ?_, ?_⟩
    · rw [h0, hlt]; exact g3
    · rw [h0, hlt, hle]; exact g4

example : fval 4 (Fixed.minValue i8) = -8 ∧ Fixed.maxNegative .debug i8 = .ok (-1) := by
  refine ⟨?_, by decide⟩
  have : Fixed.minValue i8 = -128 := by decide
  rw [this]
  norm_num [fval]

/-- C100 for `Rat`: every fraction that can be stored, but for `MIN / -1`, lies between the two
bounds, which are stored fractions; and the constructor never makes that fraction. -/
theorem C100_rat (p : Prim) (hb : 2 ≤ p.bits) :
    (RatValid p (RatM.minValue p) ∧ RatValid p (RatM.maxValue p)) ∧
    (∀ x, RatValid p x → x ≠ ⟨p.minV, -1⟩ →
      qval (RatM.minValue p) ≤ qval x ∧ qval x ≤ qval (RatM.maxValue p)) ∧
    (p.signed = true → RatM.new p p.minV (-1) = .panic) := by
  obtain ⟨b1, b2, b3⟩ := bounds (p := p) (by omega)
  have hmax : 1 ≤ p.maxV := by
    unfold maxV
    have h1 : (2 : Int) ^ 1 ≤ 2 ^ (p.bits - 1) := pow_le_pow_right₀ (by norm_num) (by omega)
    have h2 : (2 : Int) ^ 1 ≤ 2 ^ p.bits := pow_le_pow_right₀ (by norm_num) (by omega)
    split <;> omega
  have hone : p.InRange 1 := ⟨by omega, hmax⟩
  refine ⟨⟨⟨⟨le_rfl, by show p.minV ≤ _; omega⟩, hone, one_ne_zero⟩,
    ⟨⟨by show _ ≤ p.maxV; omega, le_rfl⟩, hone, one_ne_zero⟩⟩, fun x hx hne => ?_, fun hs => ?_⟩
  · obtain ⟨n, d⟩ := x
    have hn1 : p.minV ≤ n := hx.num.1
    have hn2 : n ≤ p.maxV := hx.num.2
    have hd1 : p.minV ≤ d := hx.denom.1
    have hd0 : d ≠ 0 := hx.nonzero
    have key : (0 < d ∧ p.minV * d ≤ n ∧ n ≤ p.maxV * d) ∨
        (d < 0 ∧ n ≤ p.minV * d ∧ p.maxV * d ≤ n) := by
      rcases lt_or_gt_of_ne hd0 with h | h
      · right
        cases hs : p.signed with
        | false =>
          have : p.minV = 0 := by unfold minV; simp [hs]
          omega
        | true =>
          have hsym : p.maxV = -p.minV - 1 := by unfold minV maxV; simp [hs]
          refine ⟨h, by nlinarith, ?_⟩
          by_cases hd : d = -1
          · have : n ≠ p.minV := fun he => hne (by rw [he, hd])
            rw [hd]; omega
          · have : d ≤ -2 := by omega
            nlinarith
      · left
        refine ⟨h, ?_, ?_⟩ <;> nlinarith
    unfold qval RatM.minValue RatM.maxValue
    simp only [Int.cast_one, div_one]
    rcases key with ⟨h, k1, k2⟩ | ⟨h, k1, k2⟩
    · have hq : (0 : ℚ) < d := by exact_mod_cast h
      rw [le_div_iff₀ hq, div_le_iff₀ hq]
      exact ⟨by exact_mod_cast k1, by exact_mod_cast k2⟩
    · have hq : (d : ℚ) < 0 := by exact_mod_cast h
      rw [le_div_iff_of_neg hq, div_le_iff_of_neg hq]
      exact ⟨by exact_mod_cast k1, by exact_mod_cast k2⟩
  · have hm := minV_lt hb hs
    unfold RatM.new RatM.reduce Prim.rem
    rw [if_neg (by norm_num), if_neg (by omega), if_neg (by omega), if_neg (by norm_num),
      if_pos ⟨hs, rfl, rfl⟩]
    rfl

example : RatM.maxValue i8 = ⟨127, 1⟩ ∧ RatValid i8 ⟨-127, -1⟩ ∧ (⟨-127, -1⟩ : RatM) ≠ ⟨i8.minV, -1⟩ :=
  ⟨by decide, ⟨by decide, by decide, by decide⟩, by decide⟩

/-! ## C101 -/

/-- C101: the overflowing operations give the wrapped result and raise the flag exactly when the
true result is out of range. -/
theorem C101_overflowing (p : Prim) (hb : 0 < p.bits) (a b : Int) :
    (∃ r f, overflowingAdd p a b = (r, f) ∧ p.InRange r ∧ 2 ^ p.bits ∣ r - (a + b) ∧
      (f = true ↔ r ≠ a + b)) ∧
    (∃ r f, overflowingSub p a b = (r, f) ∧ p.InRange r ∧ 2 ^ p.bits ∣ r - (a - b) ∧
      (f = true ↔ r ≠ a - b)) ∧
    (∃ r f, overflowingMul p a b = (r, f) ∧ p.InRange r ∧ 2 ^ p.bits ∣ r - (a * b) ∧
      (f = true ↔ r ≠ a * b)) := by
  have key : ∀ z : Int, ∃ r f, overflowing p z = (r, f) ∧ p.InRange r ∧ 2 ^ p.bits ∣ r - z ∧
      (f = true ↔ r ≠ z) := by
    intro z
    obtain ⟨h1, h2⟩ := wrap_spec (p := p) hb z
    refine ⟨_, _, rfl, h1, h2, ?_⟩
    rw [Bool.not_eq_true', decide_eq_false_iff_not]
    constructor
    · intro h he; rw [he] at h1; exact h h1
    · intro h hz; exact h (wrap_eq hb hz)
  exact ⟨key _, key _, key _⟩

example : overflowingAdd u8 200 100 = (44, true) ∧ overflowingSub i8 (-100) 100 = (56, true) ∧
    overflowingMul i8 11 11 = (121, false) := by decide

/-- C101: `leading_zeros` and `trailing_zeros` fit the type and count the zero bits of the bit
pattern: for the types of 8 bits and more, the first bit from the top (the bottom) that is one is the
one after that many zeros. -/
theorem C101_zero_counts (p : Prim) (hb : 8 ≤ p.bits) (a : Int) :
    (∃ k : Nat, leadingZeros p a = k ∧ k ≤ p.bits ∧
      (∀ i, p.bits - k ≤ i → i < p.bits → (BitVec.ofInt p.bits a).getLsbD i = false) ∧
      (k < p.bits → (BitVec.ofInt p.bits a).getLsbD (p.bits - 1 - k) = true)) ∧
    (∃ k : Nat, trailingZeros p a = k ∧ k ≤ p.bits ∧
      (∀ i, i < k → (BitVec.ofInt p.bits a).getLsbD i = false) ∧
      (k < p.bits → (BitVec.ofInt p.bits a).getLsbD k = true)) := by
  have hfit : ∀ k : Nat, k ≤ p.bits → p.wrap (k : Int) = k := by
    intro k hk
    apply wrap_eq (by omega)
    obtain ⟨b1, b2, b3⟩ := bounds (p := p) (by omega)
    refine ⟨by omega, ?_⟩
    have h1 : p.bits < 2 ^ (p.bits - 1) := by
      have h2 : ∀ n, 8 ≤ n → n < 2 ^ (n - 1) := by
        intro n hn
        induction n, hn using Nat.le_induction with
        | base => norm_num
        | succ n hn ih =>
          have : 2 ^ (n + 1 - 1) = 2 * 2 ^ (n - 1) := by rw [← Nat.pow_succ']; congr 1; omega
          omega
      exact h2 p.bits hb
    have h3 : ((p.bits : Nat) : Int) < ((2 ^ (p.bits - 1) : Nat) : Int) := by exact_mod_cast h1
    have h4 : ((2 ^ (p.bits - 1) : Nat) : Int) = 2 ^ (p.bits - 1) := by push_cast; rfl
    have h5 := two_pow_pred (p := p) (by omega)
    unfold maxV
    split <;> omega
  have hle : ∀ x : BitVec p.bits, x.clz.toNat ≤ p.bits := by
    intro x
    have h := BitVec.clz_le (x := x)
    rw [BitVec.le_def] at h
    simpa using h
  generalize hv : BitVec.ofInt p.bits a = v
  constructor
  · refine ⟨v.clz.toNat, ?_, hle v, ?_, ?_⟩
    · unfold leadingZeros; rw [hv, hfit _ (hle v)]
    · intro i h1 h2
      rw [BitVec.getLsbD]
      apply Nat.testBit_lt_two_pow
      refine lt_of_lt_of_le (BitVec.toNat_lt_two_pow_sub_clz (x := v)) ?_
      exact Nat.pow_le_pow_right (by norm_num) h1
    · intro h
      apply BitVec.getLsbD_true_clz_of_ne_zero (by omega)
      intro h0
      have h2 : v.clz = BitVec.ofNat p.bits p.bits := BitVec.clz_eq_iff_eq_zero.mpr h0
      rw [h2, BitVec.toNat_ofNat] at h
      rw [Nat.mod_eq_of_lt Nat.lt_two_pow_self] at h
      omega
  · have hct : v.ctz.toNat ≤ p.bits := by
      rw [BitVec.ctz_eq_reverse_clz]; exact hle _
    refine ⟨v.ctz.toNat, ?_, hct, ?_, ?_⟩
    · unfold trailingZeros; rw [hv, hfit _ hct]
    · intro i h
      exact BitVec.getLsbD_false_of_lt_ctz h
    · intro h
      apply BitVec.getLsbD_true_ctz_of_ne_zero
      intro h0
      rw [BitVec.ctz_eq_reverse_clz] at h
      have h2 : v.reverse.clz = BitVec.ofNat p.bits p.bits := by
        refine BitVec.clz_eq_iff_eq_zero.mpr ?_
        rw [h0]
        apply BitVec.eq_of_getLsbD_eq
        intro i hi
        simp [BitVec.getLsbD_reverse]
      rw [h2, BitVec.toNat_ofNat, Nat.mod_eq_of_lt Nat.lt_two_pow_self] at h
      omega

example : leadingZeros i8 0 = 8 ∧ leadingZeros i8 (-1) = 0 ∧ leadingZeros u16 300 = 7 ∧
    trailingZeros u8 40 = 3 := by decide +kernel

end Verif
