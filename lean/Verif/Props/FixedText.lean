import Mathlib.Tactic.IntervalCases
import Verif.Lemmas.Point

/-!
# C105, C106: printing fixed point numbers

`pointVal r s` is the number written by the text `s` in radix `r`, `none` if `s` is not a numeral.
-/

namespace Verif

open Prim

/-! ## C105: `{:?}` -/

/-- C105 is violated: with one fractional bit, zero and `-1.5` print as the empty text; with four
fractional bits, `1/16` prints as `625`; and no `Fixed<i8, 3>` can be printed at all in debug
builds, because `10^3` overflows. -/
theorem C105_debug_violated :
    Fixed.debug .debug i32 1 0 = .ok [] ∧ Fixed.debug .debug i32 1 (-3) = .ok [] ∧
    pointVal 10 [] = none ∧
    Fixed.debug .debug i32 4 1 = .ok ['6', '2', '5'] ∧ fval 4 1 = 1 / 16 ∧
    pointVal 10 ['6', '2', '5'] = some 625 ∧
    ∀ x, Fixed.debug .debug i8 3 x = .panic := by
  refine ⟨by decide, by decide, by decide, by decide, by norm_num [fval], by decide +kernel, ?_⟩
  intro x
  have h : Prim.pow .debug i8 (i8.truncateFrom 10) (i8.truncateFrom (3 : Nat)) = .panic := by decide
  unfold Fixed.debug
  rw [h]
  rfl

/-- C105 (part): as long as `10^N` and `x * 10^N` are representable, the text written for a positive
number that is at least `1/10` (or has no fractional bits) denotes exactly that number. Smaller
positive numbers are written without the point and hence read `10^N` times too large; zero and
negative numbers are not written as a number at all. Missing: those cases, and overflow. -/
theorem C105_debug_partial (m : Mode) (p : Prim) (N : Nat) (hb : 5 ≤ p.bits) (hN : N < 2 ^ 32)
    (ht : p.InRange (10 ^ N)) (x : Int) (hx : p.InRange (x * 10 ^ N)) :
    ∃ s, Fixed.debug m p N x = .ok s ∧
      (0 < x → N = 0 ∨ 1 / 10 ≤ fval N x → pointVal 10 s = some (fval N x)) ∧
      (0 < x → 0 < N → fval N x < 1 / 10 → pointVal 10 s = some (fval N x * 10 ^ N)) ∧
      (x ≤ 0 → pointVal 10 s = none) := by
  refine ⟨_, Fixed.debug_spec m hb hN ht x hx, ?_⟩
  have h5 : (0 : Int) < 5 ^ N := by positivity
  -- `10^N` times the number is an integer
  have hval : ((x * 5 ^ N : Int) : ℚ) = fval N x * 10 ^ N := by
    unfold fval
    rw [show (10 : ℚ) = 2 * 5 by norm_num, mul_pow]
    push_cast
    field_simp
  by_cases hx0 : 0 < x
  · obtain ⟨w, hw⟩ := Int.eq_ofNat_of_zero_le (mul_pos hx0 h5).le
    have hwpos : 0 < w := by have := mul_pos hx0 h5; omega
    rw [hw, Int.toNat_natCast]
    have hwq : (w : ℚ) = fval N x * 10 ^ N := by rw [← hval, hw]; norm_cast
    have hlt : ∀ d ∈ Nat.digits 10 w, d < 10 := fun d hd => Nat.digits_lt_base (by norm_num) hd
    have hne : Nat.digits 10 w ≠ [] := Nat.digits_ne_nil_iff_ne_zero.mpr (by omega)
    -- the point is written exactly for numbers that are at least 1/10
    have hlen : N ≤ (Nat.digits 10 w).length ↔ N = 0 ∨ 1 / 10 ≤ fval N x := by
      rcases Nat.eq_zero_or_pos N with h | h
      · simp [h]
      · obtain ⟨k, rfl⟩ : ∃ k, N = k + 1 := ⟨N - 1, by omega⟩
        rw [Nat.succ_le_iff, Nat.lt_digits_length_iff (by norm_num)]
        have hp : (0 : ℚ) < 10 ^ k := by positivity
        have : (10 ^ k ≤ w) ↔ ((10 : ℚ) ^ k ≤ (w : ℚ)) := by exact_mod_cast Iff.rfl
        rw [this, hwq, pow_succ]
        constructor
        · intro h
          right
          by_contra hc
          have : fval (k + 1) x * (10 ^ k * 10) < 1 / 10 * (10 ^ k * 10) :=
            mul_lt_mul_of_pos_right (not_le.mp hc) (by positivity)
          linarith
        · rintro (h | h)
          · omega
          · have : 1 / 10 * (10 ^ k * 10) ≤ fval (k + 1) x * (10 ^ k * 10) :=
              mul_le_mul_of_nonneg_right h (by positivity)
            linarith
    refine ⟨fun _ h => ?_, fun _ h1 h2 => ?_, fun h => absurd hx0 (by omega)⟩
    · rw [if_pos (hlen.mpr h), pointVal_point (by norm_num) _ _
        (fun d hd => hlt d (List.mem_of_mem_drop hd)) (fun d hd => hlt d (List.mem_of_mem_take hd))]
      · have e := Nat.ofDigits_digits 10 w
        rw [← List.take_append_drop N (Nat.digits 10 w), Nat.ofDigits_append,
          List.length_take_of_le (hlen.mpr h)] at e
        rw [List.length_take_of_le (hlen.mpr h)]
        have e' := congrArg (fun n : Nat => (n : ℚ)) e
        push_cast at e'
        rw [hwq] at e'
        have hp : (0 : ℚ) < 10 ^ N := by positivity
        congr 1
        push_cast
        field_simp
        linarith
      · intro hc
        apply hne
        have := congrArg List.length hc
        rw [← List.length_eq_zero_iff, ← List.take_append_drop N (Nat.digits 10 w)]
        simp only [List.length_append, List.length_nil] at this ⊢
        omega
    · rw [if_neg]
      · rw [pointVal_plain (by norm_num) _ hlt hne, Nat.ofDigits_digits, hwq]
      · rw [hlen]
        rintro (h | h)
        · omega
        · linarith
  · have h0 : (x * 5 ^ N).toNat = 0 := by
      have : x * 5 ^ N ≤ 0 := mul_nonpos_of_nonpos_of_nonneg (by omega) h5.le
      omega
    refine ⟨fun h => absurd h hx0, fun h => absurd h hx0, fun _ => ?_⟩
    rw [h0, Nat.digits_zero]
    by_cases hN0 : N = 0
    · subst hN0; decide
    · rw [if_neg (by simp; omega)]; decide

example : 5 ≤ i32.bits ∧ i32.InRange (10 ^ 4) ∧ i32.InRange (33 * 10 ^ 4) ∧
    Fixed.debug .debug i32 4 33 = .ok ['2', '.', '0', '6', '2', '5'] := by decide

/-! ## C106: `{:b}` -/

/-- C106 is violated: `1.5` with one fractional bit prints as `10.1`, the numeral of `2.5`. -/
theorem C106_binary_violated :
    Fixed.binary .debug i32 1 3 = .ok ['1', '0', '.', '1'] ∧ fval 1 3 = 3 / 2 ∧
    pointVal 2 ['1', '0', '.', '1'] = some (5 / 2) := by
  refine ⟨by decide, by norm_num [fval], by decide +kernel⟩

/-- The digits that `{:b}` writes for a nonnegative number. -/
private theorem binText_eq (p : Prim) (x : Int) (hx : p.InRange x) (h0 : 0 ≤ x) :
    ∃ D : List Nat, Fixed.binText p x = digitText D ∧ (∀ d ∈ D, d < 2) ∧ D ≠ [] ∧
      Nat.ofDigits 2 D = x.toNat ∧
      (0 < x → ∀ k, D.length ≤ k ↔ x < 2 ^ k) := by
  have hlt : x < 2 ^ p.bits := by
    have := hx.2
    unfold maxV at this
    have h1 : (2 : Int) ^ (p.bits - 1) ≤ 2 ^ p.bits := pow_le_pow_right₀ (by norm_num) (by omega)
    split at this <;> omega
  have hn : (BitVec.ofInt p.bits x).toNat = x.toNat := by
    rw [BitVec.toNat_ofInt]
    push_cast
    rw [Int.emod_eq_of_lt h0 hlt]
  unfold Fixed.binText
  rw [hn]
  by_cases hx0 : x = 0
  · subst hx0
    exact ⟨[0], rfl, by simp, by simp, by simp [Nat.ofDigits], fun h => absurd h (by decide)⟩
  · have hpos : 0 < x.toNat := by omega
    refine ⟨Nat.digits 2 x.toNat, ?_, fun d hd => Nat.digits_lt_base (by norm_num) hd,
      Nat.digits_ne_nil_iff_ne_zero.mpr (by omega), Nat.ofDigits_digits _ _, ?_⟩
    · rw [← digits_toDigits 2 (by norm_num) _ hpos, digitText, List.map_reverse]
    · intro _ k
      rw [Nat.digits_length_le_iff (by norm_num)]
      have : ((2 ^ k : Nat) : Int) = 2 ^ k := by push_cast; rfl
      omega

/-- C106 (part): for nonnegative numbers the text is always a numeral, but it denotes the number
only if there are no fractional bits, or the number is zero, or it is at least `1/2` and less than
`1`. -/
theorem C106_binary_partial (m : Mode) (p : Prim) (N : Nat) (hb : 2 ≤ p.bits) (hN : N < p.bits)
    (x : Int) (hx : p.InRange x) (h0 : 0 ≤ x) :
    ∃ s v, Fixed.binary m p N x = .ok s ∧ pointVal 2 s = some v ∧
      (v = fval N x ↔ N = 0 ∨ x = 0 ∨ (1 / 2 ≤ fval N x ∧ fval N x < 1)) := by
  have hp : (0 : Int) < 2 ^ N := by positivity
  obtain ⟨b1, b2, _⟩ := bounds (p := p) (by omega)
  have e1 : x.tdiv (2 ^ N) = x / 2 ^ N := Int.tdiv_eq_ediv_of_nonneg h0
  have e2 : x.tmod (2 ^ N) = x % 2 ^ N := Int.tmod_eq_emod_of_nonneg h0
  have hm0 := Int.emod_nonneg x hp.ne'
  have hm1 := Int.emod_lt_of_pos x hp
  have hq0 : 0 ≤ x / 2 ^ N := Int.ediv_nonneg h0 hp.le
  have hsum := Int.mul_ediv_add_emod x (2 ^ N)
  have ht0 : 0 ≤ x / 2 ^ N * 2 ^ N := mul_nonneg hq0 hp.le
  have hsum' : x / 2 ^ N * 2 ^ N + x % 2 ^ N = x := by linarith
  obtain ⟨A, a1, a2, a3, a4, _⟩ := binText_eq p (x / 2 ^ N * 2 ^ N)
    ⟨by omega, by have := hx.2; omega⟩ ht0
  obtain ⟨B, c1, c2, c3, c4, c5⟩ := binText_eq p (x % 2 ^ N)
    ⟨by omega, by have := hx.2; omega⟩ hm0
  refine ⟨digitText A ++ '.' :: digitText B, _, ?_,
    pointVal_point (by norm_num) A B a2 c2 (by simp [a3]), ?_⟩
  · unfold Fixed.binary
    rw [Fixed.trunc_spec m hb hN hx, Fixed.fract_spec m hb hN x, e1, e2]
    simp only [Res.bind]
    rw [a1, c1, List.append_assoc]
    rfl
  · rw [a4, c4]
    generalize hq : x / 2 ^ N = q at *
    generalize hr : x % 2 ^ N = r at *
    have hA : (((q * 2 ^ N).toNat : Nat) : ℚ) = q * 2 ^ N := by
      have : (((q * 2 ^ N).toNat : Nat) : Int) = q * 2 ^ N := Int.toNat_of_nonneg ht0
      have := congrArg (fun z : Int => (z : ℚ)) this
      push_cast at this
      exact this
    have hB : ((r.toNat : Nat) : ℚ) = r := by
      have : ((r.toNat : Nat) : Int) = r := Int.toNat_of_nonneg hm0
      exact_mod_cast congrArg (fun z : Int => (z : ℚ)) this
    have hv : fval N x = q + r / 2 ^ N := by
      unfold fval
      rw [← hsum']
      push_cast
      field_simp
    have hpq : (0 : ℚ) < 2 ^ N := by positivity
    have hf0 : (0 : ℚ) ≤ r / 2 ^ N := div_nonneg (by exact_mod_cast hm0) hpq.le
    have hf1 : (r : ℚ) / 2 ^ N < 1 := by
      rw [div_lt_one hpq]; exact_mod_cast hm1
    rw [hA, hB, hv]
    have hBl : (0 : ℚ) < 2 ^ B.length := by positivity
    have hg0 : (0 : ℚ) ≤ r / 2 ^ B.length := div_nonneg (by exact_mod_cast hm0) hBl.le
    push_cast
    by_cases hN0 : N = 0
    · subst hN0
      have : r = 0 := by simp at hm1; omega
      subst this
      simp
    · have h2N : (2 : ℚ) ≤ 2 ^ N := by
        calc (2 : ℚ) = 2 ^ 1 := by norm_num
          _ ≤ 2 ^ N := pow_le_pow_right₀ (by norm_num) (by omega)
      by_cases hq1 : q = 0
      · subst hq1
        have hxr : x = r := by omega
        by_cases hr0 : r = 0
        · subst hr0
          simp [hxr]
        · have hrp : 0 < r := by omega
          have hrq : (0 : ℚ) < r := by exact_mod_cast hrp
          have hle : B.length ≤ N := (c5 hrp N).mpr hm1
          have key : (r : ℚ) / 2 ^ B.length = r / 2 ^ N ↔ B.length = N := by
            constructor
            · intro h
              rw [div_eq_div_iff hBl.ne' hpq.ne'] at h
              exact (pow_right_injective₀ (by norm_num : (0 : ℚ) < 2) (by norm_num)
                (mul_left_cancel₀ hrq.ne' h)).symm
            · intro h; rw [h]
          have key2 : B.length = N ↔ 1 / 2 ≤ (r : ℚ) / 2 ^ N := by
            obtain ⟨k, rfl⟩ : ∃ k, N = k + 1 := ⟨N - 1, by omega⟩
            have h1 := c5 hrp k
            have h2 : (B.length = k + 1) ↔ ¬ B.length ≤ k := by omega
            rw [h2, h1, not_lt, le_div_iff₀ hpq, pow_succ]
            have : ((2 : Int) ^ k ≤ r) ↔ ((2 : ℚ) ^ k ≤ r) := by exact_mod_cast Iff.rfl
            rw [this]
            constructor <;> intro <;> linarith
          simp only [Int.cast_zero, zero_mul, zero_add]
          rw [key, key2]
          constructor
          · intro h; exact .inr (.inr ⟨h, hf1⟩)
          · rintro (h | h | h)
            · exact absurd h hN0
            · omega
            · exact h.1
      · have hq2 : (1 : ℚ) ≤ q := by
          have : 1 ≤ q := by omega
          exact_mod_cast this
        constructor
        · intro h
          exfalso
          have h3 : (q : ℚ) * 2 ≤ q * 2 ^ N := mul_le_mul_of_nonneg_left h2N (by linarith)
          linarith
        · rintro (h | h | h)
          · exact absurd h hN0
          · exfalso
            rw [h] at hsum'
            have : 0 < q * 2 ^ N := mul_pos (by omega) hp
            omega
          · linarith [h.2]

example : Fixed.binary .debug i32 2 3 = .ok ['0', '.', '1', '1'] ∧
    Fixed.binary .debug i32 0 5 = .ok ['1', '0', '1', '.', '0'] := by decide

end Verif
