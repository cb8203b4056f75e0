import Mathlib.Tactic.IntervalCases
import Mathlib.Tactic.Linarith
import Verif.Lemmas.Fixed

/-!
# C63–C66: fixed point numbers

`p` is any primitive integer type, `x`, `y` raw values of it, `fval N x` the number denoted.
-/

namespace Verif

open Prim

/-! ## C63: exact operations -/

/-- C63: addition, subtraction, negation and conversion of an integer give the exact number whenever
it is representable; in debug builds the first three panic otherwise. -/
theorem C63_exact (m : Mode) (p : Prim) (N : Nat) (hN : N < p.bits) (x y : Int) :
    (p.InRange (x + y) → ∃ r, Fixed.add m p x y = .ok r ∧ p.InRange r ∧
      fval N r = fval N x + fval N y) ∧
    (p.InRange (x - y) → ∃ r, Fixed.sub m p x y = .ok r ∧ p.InRange r ∧
      fval N r = fval N x - fval N y) ∧
    (p.InRange (-x) → ∃ r, Fixed.neg m p x = .ok r ∧ p.InRange r ∧ fval N r = -fval N x) ∧
    (p.InRange (x * 2 ^ N) → ∃ r, Fixed.fromVal m p N x = .ok r ∧ p.InRange r ∧ fval N r = x) ∧
    fval N (Fixed.fromRaw x) = x / 2 ^ N ∧
    (¬ p.InRange (x + y) → Fixed.add .debug p x y = .panic) ∧
    (¬ p.InRange (x - y) → Fixed.sub .debug p x y = .panic) ∧
    (¬ p.InRange (-x) → Fixed.neg .debug p x = .panic) := by
  refine ⟨fun h => ⟨_, arith_ok m h, h, Fixed.fval_add x y⟩,
    fun h => ⟨_, arith_ok m h, h, Fixed.fval_sub x y⟩,
    fun h => ⟨_, arith_ok m h, h, Fixed.fval_neg x⟩, fun h => ?_, rfl, fun h => ?_, fun h => ?_,
    fun h => ?_⟩
  · refine ⟨_, ?_, h, Fixed.fval_scaled x⟩
    unfold Fixed.fromVal shl
    rw [if_pos hN, wrap_eq (by omega) h]
  · exact if_neg h
  · exact if_neg h
  · exact if_neg h

/-- C63: comparison and equality are those of the numbers denoted. -/
theorem C63_order (N : Nat) (x y : Int) :
    (Fixed.eq x y = true ↔ fval N x = fval N y) ∧
    (Fixed.cmp x y = .lt ↔ fval N x < fval N y) ∧
    (Fixed.cmp x y = .eq ↔ fval N x = fval N y) ∧
    (Fixed.cmp x y = .gt ↔ fval N x > fval N y) := by
  refine ⟨?_, ?_, ?_, ?_⟩
  · unfold Fixed.eq; rw [decide_eq_true_iff, Fixed.fval_inj]
  · unfold Fixed.cmp; rw [compare_lt_iff_lt, Fixed.fval_lt]
  · unfold Fixed.cmp; rw [compare_eq_iff_eq, Fixed.fval_inj]
  · unfold Fixed.cmp; rw [compare_gt_iff_gt, gt_iff_lt, Fixed.fval_lt]

example : i8.InRange (5 + 6) ∧ i8.InRange (5 - 6) ∧ i8.InRange (-5) ∧ i8.InRange (5 * 2 ^ 2) ∧
    Fixed.add .debug i8 5 6 = .ok 11 ∧ Fixed.fromVal .debug i8 2 5 = .ok 20 ∧
    Fixed.cmp 5 6 = .lt := by decide

/-! ## C64: multiplication -/

/-- C64 fails in the code: with one fractional bit, `1.0 * 1.0` is `2.0`, off by more than a unit of
precision although everything is in range. -/
theorem C64_mul_violated : ¬ ∀ x y r, i8.InRange x → i8.InRange y →
    Fixed.mul .debug i8 x y = .ok r → |fval 1 r - fval 1 x * fval 1 y| ≤ 1 / 2 ^ 1 := by
  intro h
  have := h 2 2 4 (by decide) (by decide) (by decide)
  unfold fval at this
  norm_num at this

/-- C64 fails in the code: `one()` is not neutral for any positive number of fractional bits. -/
theorem C64_one_violated (m : Mode) (p : Prim) (N : Nat) (hN : 0 < N) (h : 2 * N < p.bits)
    (hr : (2 : Int) ^ (2 * N) ≤ p.maxV) :
    ∃ o, Fixed.one m p N = .ok o ∧ ∃ r, Fixed.mul m p o o = .ok r ∧ r ≠ o := by
  have h1 : (2 : Int) ^ N < 2 ^ (2 * N) := pow_lt_pow_right₀ (by norm_num) (by omega)
  have h2 : (0 : Int) < 2 ^ N := by positivity
  obtain ⟨b1, b2, _⟩ := bounds (p := p) (by omega)
  refine ⟨_, Fixed.maxV_pow (by omega) (by omega) m, 2 ^ (2 * N), ?_, by omega⟩
  unfold Fixed.mul
  have e : (2 : Int) ^ N * 2 ^ N = 2 ^ (2 * N) := by rw [two_mul, pow_add]
  rw [e, arith_ok m ⟨by omega, hr⟩]

/-- C64, what the code does: products of in-range raw values are too large by the factor `2^N`,
quotients are the integer part of the exact quotient too small by that factor. So without fractional
bits (`N = 0`) multiplication is exact, `one()` is neutral and division truncates. Missing: all
`N > 0`. -/
theorem C64_mul_partial (m : Mode) (p : Prim) (N : Nat) (x y : Int) :
    (p.InRange (x * y) → ∃ r, Fixed.mul m p x y = .ok r ∧
      fval N r = fval N x * fval N y * 2 ^ N) ∧
    (y ≠ 0 → p.InRange (x.tdiv y) → ∃ r, Fixed.div p x y = .ok r ∧
      fval N r = truncQ (fval N x / fval N y) / 2 ^ N) ∧
    (y = 0 → Fixed.div p x y = .panic) ∧
    (0 < p.bits → p.InRange 1 → p.InRange x → ∃ o, Fixed.one m p 0 = .ok o ∧
      Fixed.mul m p o x = .ok x ∧ Fixed.mul m p x o = .ok x) := by
  refine ⟨fun h => ⟨_, arith_ok m h, ?_⟩, fun h hr => ?_, fun h => ?_, fun hb h1 hx => ?_⟩
  · unfold fval; push_cast; field_simp
  · refine ⟨x.tdiv y, ?_, ?_⟩
    · unfold Fixed.div Prim.div
      rw [if_neg h, if_neg]
      rintro ⟨hs, hm, hy⟩
      rw [hm, hy] at hr
      unfold InRange maxV minV at hr
      rw [hs] at hr
      simp at hr
    · rw [Fixed.trunc_div_fval x h]; rfl
  · unfold Fixed.div Prim.div; rw [if_pos h]
  · refine ⟨1, ?_, ?_, ?_⟩
    · unfold Fixed.one shl
      rw [if_pos hb, pow_zero, Int.mul_one, wrap_eq hb h1]
    · unfold Fixed.mul; rw [Int.one_mul, arith_ok m hx]
    · unfold Fixed.mul; rw [Int.mul_one, arith_ok m hx]

example : Fixed.mul .debug u16 3 5 = .ok 15 ∧ Fixed.div u16 15 4 = .ok 3 := by decide

/-! ## C90: remainder -/

/-- C90: `x % y` is the exact remainder of division truncated toward zero, of absolute value below
that of `y` and of the sign of `x`; dividing by zero panics. (`MIN % -1` on raw values panics, too,
as for the primitive types.) -/
theorem C90_rem (p : Prim) (N : Nat) (x y : Int) :
    (y ≠ 0 → ¬ (p.signed = true ∧ x = p.minV ∧ y = -1) → ∃ r, Fixed.rem p x y = .ok r ∧
      fval N r = fval N x - truncQ (fval N x / fval N y) * fval N y ∧
      |fval N r| < |fval N y| ∧ 0 ≤ fval N r * fval N x) ∧
    (y = 0 → Fixed.rem p x y = .panic) ∧
    (p.signed = true → Fixed.rem p p.minV (-1) = .panic) := by
  refine ⟨fun h hm => ⟨x.tmod y, ?_, ?_, ?_, ?_⟩, fun h => ?_, fun hs => by
    unfold Fixed.rem Prim.rem; rw [if_neg (by decide), if_pos ⟨hs, rfl, rfl⟩]⟩
  · unfold Fixed.rem Prim.rem; rw [if_neg h, if_neg hm]
  · rw [Fixed.trunc_div_fval x h]
    have : ((x.tmod y : Int) : ℚ) = x - x.tdiv y * y := by
      have := Int.tmod_add_mul_tdiv x y
      have h2 : x.tmod y = x - x.tdiv y * y := by linarith
      exact_mod_cast h2
    unfold fval
    rw [this]
    ring
  · unfold fval
    rw [abs_div, abs_div, div_lt_div_iff_of_pos_right (abs_pos.mpr (Fixed.two_pow_pos N).ne')]
    have : |x.tmod y| < |y| := by
      rw [Int.abs_eq_natAbs, Int.abs_eq_natAbs, Int.natAbs_tmod]
      have h := Nat.mod_lt x.natAbs (show 0 < y.natAbs by omega)
      omega
    exact_mod_cast this
  · rcases Int.le_total 0 x with h | h
    · exact mul_nonneg ((Fixed.fval_nonneg _).mpr (Int.tmod_nonneg y h))
        ((Fixed.fval_nonneg _).mpr h)
    · have h' := Int.tmod_nonneg y (show 0 ≤ -x by omega)
      rw [Int.neg_tmod] at h'
      have h1 := (Fixed.fval_nonneg (N := N) _).mpr h'
      have h2 := (Fixed.fval_nonneg (N := N) _).mpr (show 0 ≤ -x by omega)
      rw [Fixed.fval_neg] at h1 h2
      nlinarith
  · unfold Fixed.rem Prim.rem; rw [if_pos h]

example : Fixed.rem i8 (-27) 8 = .ok (-3) ∧ (8 : Int) ≠ 0 ∧
    ¬ (i8.signed = true ∧ (-27 : Int) = i8.minV ∧ (8 : Int) = -1) := by decide

/-! ## C65: floor, ceil, trunc, fract -/

/-- C65 fails in the code: for signed types with all but one bit fractional, `ceil` of a negative
number panics in debug builds although its result, zero, is representable. -/
theorem C65_ceil_violated : ¬ ∀ x, i8.InRange x → i8.InRange (⌈fval 7 x⌉ * 2 ^ 7) →
    ∃ r, Fixed.ceil .debug i8 7 x = .ok r ∧ fval 7 r = ⌈fval 7 x⌉ := by
  intro h
  have hc : ⌈fval 7 (-1)⌉ = 0 := by rw [Fixed.ceil_fval]; rfl
  obtain ⟨r, h1, _⟩ := h (-1) (by decide) (by rw [hc]; decide)
  have h2 : Fixed.ceil .debug i8 7 (-1) = .panic := by decide
  rw [h2] at h1
  exact absurd h1 (by simp)

/-- C65: `floor` gives the greatest integer not above the number, whatever the mode; it is always
representable. -/
theorem C65_floor (m : Mode) (p : Prim) (N : Nat) (hN : N < p.bits) (x : Int) (hx : p.InRange x) :
    ∃ r, Fixed.floor m p N x = .ok r ∧ p.InRange r ∧ fval N r = ⌊fval N x⌋ :=
  ⟨_, Fixed.floor_spec m hN hx, Fixed.floor_inRange hN hx, by
    rw [Fixed.fval_scaled, Fixed.floor_fval]⟩

/-- C65 for types with at least as many fractional bits as bits, which nothing forbids: debug builds
panic, release builds round down with the number of fractional bits reduced modulo the number of bits,
so that the result is usually not the floor. -/
theorem C65_wide_exact_partial (p : Prim) (hb : 0 < p.bits) (N : Nat) (hN : p.bits ≤ N) (x : Int)
    (hx : p.InRange x) :
    Fixed.floor .debug p N x = .panic ∧
    Fixed.floor .release p N x = .ok (x / 2 ^ (N % p.bits) * 2 ^ (N % p.bits)) := by
  have h := Fixed.floor_spec .release (Nat.mod_lt N hb) hx
  unfold Fixed.floor Prim.shr Prim.shl at h ⊢
  rw [if_pos (Nat.mod_lt N hb)] at h
  simp only [Res.bind, if_pos (Nat.mod_lt N hb)] at h
  rw [if_neg (by omega)]
  simp only [Res.bind, if_neg (show ¬ N < p.bits by omega)]
  exact ⟨trivial, h⟩

example : Fixed.floor .release i8 9 5 = .ok 4 ∧ ⌊fval 9 5⌋ = 0 := by
  refine ⟨by decide, ?_⟩
  rw [Fixed.floor_fval]; rfl

/-- C65: `trunc` drops the fraction toward zero and `fract` is what it drops: a number of absolute
value below one and of the sign of `x`. -/
theorem C65_trunc_fract (m : Mode) (p : Prim) (N : Nat) (hb : 2 ≤ p.bits) (hN : N < p.bits)
    (x : Int) (hx : p.InRange x) :
    ∃ t f, Fixed.trunc m p N x = .ok t ∧ Fixed.fract m p N x = .ok f ∧
      fval N t = truncQ (fval N x) ∧ fval N x = fval N t + fval N f ∧ |fval N f| < 1 ∧
      0 ≤ fval N f * fval N x := by
  have hp : (0 : Int) < 2 ^ N := by positivity
  refine ⟨_, _, Fixed.trunc_spec m hb hN hx, Fixed.fract_spec m hb hN x, ?_, ?_, ?_, ?_⟩
  · rw [Fixed.fval_scaled, Fixed.trunc_fval]
  · rw [← Fixed.fval_add]
    congr 1
    have := Int.tmod_add_mul_tdiv x (2 ^ N)
    linarith
  · unfold fval
    rw [abs_div, abs_of_pos (Fixed.two_pow_pos N), div_lt_one (Fixed.two_pow_pos N)]
    have : |x.tmod (2 ^ N)| < 2 ^ N := by
      rw [Int.abs_eq_natAbs, Int.natAbs_tmod]
      have h := Nat.mod_lt x.natAbs (show 0 < (2 ^ N : Int).natAbs by omega)
      omega
    exact_mod_cast this
  · rcases Int.le_total 0 x with h | h
    · have h1 := Int.tmod_nonneg (2 ^ N) h
      exact mul_nonneg ((Fixed.fval_nonneg _).mpr h1) ((Fixed.fval_nonneg _).mpr h)
    · have h' := Int.tmod_nonneg (2 ^ N) (show 0 ≤ -x by omega)
      rw [Int.neg_tmod] at h'
      have h1 := (Fixed.fval_nonneg (N := N) _).mpr h'
      have h2 := (Fixed.fval_nonneg (N := N) _).mpr (show 0 ≤ -x by omega)
      rw [Fixed.fval_neg] at h1 h2
      nlinarith

theorem isWhole_spec (m : Mode) (p : Prim) (N : Nat) (hN : N < p.bits)
    (hone : (2 : Int) ^ N ≤ p.maxV) (x : Int) (hx : p.InRange x) :
    Fixed.isWhole m p N x = .ok (decide ((2 ^ N : Int) ∣ x)) := by
  have hp : (0 : Int) < 2 ^ N := by positivity
  obtain ⟨b1, b2, _⟩ := bounds (p := p) (by omega)
  unfold Fixed.isWhole Fixed.mask
  rw [Fixed.maxV_pow hN hone]
  simp only [Res.bind]
  rw [arith_ok m ⟨by omega, by omega⟩]
  simp only
  rw [decide_eq_decide.mpr (Fixed.and_not_mask (by omega) hN hx)]

theorem ceil_spec (m : Mode) (p : Prim) (N : Nat) (hN : N < p.bits)
    (hone : (2 : Int) ^ N ≤ p.maxV) (x : Int) (hx : p.InRange x)
    (hr : p.InRange (⌈fval N x⌉ * 2 ^ N)) :
    Fixed.ceil m p N x = .ok (⌈fval N x⌉ * 2 ^ N) := by
  have hp : (0 : Int) < 2 ^ N := by positivity
  unfold Fixed.ceil
  rw [isWhole_spec m p N hN hone x hx]
  simp only [Res.bind]
  rw [Fixed.floor_spec m hN hx]
  rw [Fixed.ceil_fval] at hr ⊢
  by_cases h : (2 ^ N : Int) ∣ x
  · rw [decide_eq_true h, if_pos rfl]
    obtain ⟨k, rfl⟩ := h
    rw [← Int.mul_neg, Int.mul_ediv_cancel_left _ hp.ne', Int.mul_ediv_cancel_left _ hp.ne',
      Int.neg_neg]
  · rw [decide_eq_false h, if_neg (by simp)]
    simp only
    unfold Fixed.one
    rw [Fixed.maxV_pow hN hone]
    simp only
    have e : -(-x / 2 ^ N) = x / 2 ^ N + 1 := by
      rw [Int.neg_ediv, if_neg h, Int.sign_eq_one_of_pos hp]
      omega
    rw [e] at hr ⊢
    unfold Fixed.add
    rw [Int.add_mul, Int.one_mul] at hr ⊢
    rw [arith_ok m hr]

/-- C65, `ceil`: least integer not below the number whenever that is representable. Missing: signed
types with `N = bits - 1`, where `1` itself is not representable. -/
theorem C65_ceil_partial (m : Mode) (p : Prim) (N : Nat) (hN : N < p.bits)
    (hone : (2 : Int) ^ N ≤ p.maxV) (x : Int) (hx : p.InRange x)
    (hr : p.InRange (⌈fval N x⌉ * 2 ^ N)) :
    ∃ r, Fixed.ceil m p N x = .ok r ∧ p.InRange r ∧ fval N r = ⌈fval N x⌉ :=
  ⟨_, ceil_spec m p N hN hone x hx hr, hr, Fixed.fval_scaled _⟩

/-- C65: `is_whole` holds exactly for integers. -/
theorem C65_is_whole_partial (m : Mode) (p : Prim) (N : Nat) (hN : N < p.bits)
    (hone : (2 : Int) ^ N ≤ p.maxV) (x : Int) (hx : p.InRange x) :
    ∃ b, Fixed.isWhole m p N x = .ok b ∧ (b = true ↔ ∃ n : Int, fval N x = n) := by
  refine ⟨_, isWhole_spec m p N hN hone x hx, ?_⟩
  rw [decide_eq_true_iff]
  constructor
  · rintro ⟨k, rfl⟩
    exact ⟨k, by rw [Int.mul_comm, Fixed.fval_scaled]⟩
  · rintro ⟨n, h⟩
    rw [← Fixed.fval_scaled (N := N) n, Fixed.fval_inj] at h
    exact ⟨n, by rw [h, Int.mul_comm]⟩

example : Fixed.floor .debug i8 2 (-5) = .ok (-8) ∧ Fixed.ceil .debug i8 2 (-5) = .ok (-4) ∧
    Fixed.trunc .debug i8 2 (-5) = .ok (-4) ∧ Fixed.fract .debug i8 2 (-5) = .ok (-1) ∧
    Fixed.isWhole .debug i8 2 (-5) = .ok false ∧ Fixed.isWhole .debug i8 2 (-8) = .ok true := by
  decide
example : 2 < i8.bits ∧ (2 : Int) ^ 2 ≤ i8.maxV ∧ i8.InRange (-5) ∧
    i8.InRange (-1 * 2 ^ 2) := by decide

/-! ## C66: round -/

/-- C66 fails in the code: `1.25` rounds to `2`. -/
theorem C66_round_violated : ¬ ∀ x r, i8.InRange x → Fixed.round .debug i8 2 x = .ok r →
    |fval 2 r - fval 2 x| ≤ 1 / 2 := by
  intro h
  have := h 5 8 (by decide) (by decide)
  unfold fval at this
  norm_num [abs_le] at this

/-- C66, what the code does: `round` rounds up. So the result is an integer, it is a nearest one
exactly when the distance up is at most one half, in particular for `N ≤ 1`. Missing: numbers with a
fraction below one half (their rounding is wrong), and types in which `2` is not representable. -/
theorem C66_round_partial (m : Mode) (p : Prim) (N : Nat) (hN : N < p.bits)
    (hone : 2 * (2 : Int) ^ N ≤ p.maxV) (x : Int) (hx : p.InRange x)
    (hr : p.InRange (⌈fval N x⌉ * 2 ^ N)) :
    ∃ r, Fixed.round m p N x = .ok r ∧ fval N r = ⌈fval N x⌉ ∧
      (|fval N r - fval N x| ≤ 1 / 2 ↔ ⌈fval N x⌉ - fval N x ≤ 1 / 2) ∧
      (N ≤ 1 → |fval N r - fval N x| ≤ 1 / 2) := by
  have hp : (0 : Int) < 2 ^ N := by positivity
  have hb2 : 2 ≤ p.bits := by
    by_contra hc
    have : p.bits = 1 := by omega
    obtain ⟨_, _, h3⟩ := bounds (p := p) (by omega)
    rw [this] at h3
    have := (bounds (p := p) (by omega)).1
    omega
  obtain ⟨b1, b2, _⟩ := bounds (p := p) (by omega)
  have hmod : |x.tmod (2 ^ N)| < 2 ^ N := by
    rw [Int.abs_eq_natAbs, Int.natAbs_tmod]
    have h := Nat.mod_lt x.natAbs (show 0 < (2 ^ N : Int).natAbs by omega)
    omega
  have hround : Fixed.round m p N x = .ok (⌈fval N x⌉ * 2 ^ N) := by
    have hhalf : Fixed.div p (2 ^ N) (2 ^ N + 2 ^ N) = .ok 0 := by
      unfold Fixed.div Prim.div
      rw [if_neg (by omega), if_neg (by omega), Int.tdiv_eq_ediv_of_nonneg (by omega),
        Int.ediv_eq_zero_of_lt (by omega) (by omega)]
    unfold Fixed.round Fixed.one
    rw [Fixed.maxV_pow hN (by omega)]
    simp only [Res.bind]
    unfold Fixed.add
    rw [arith_ok m ⟨by omega, by omega⟩]
    simp only
    rw [hhalf]
    simp only
    rw [Fixed.fract_spec m hb2 hN x]
    simp only
    rw [abs_lt] at hmod
    have hcase : ∃ f, (if x.tmod (2 ^ N) ≥ 0 then Res.ok (x.tmod (2 ^ N))
        else Fixed.sub m p (2 ^ N) (x.tmod (2 ^ N))) = .ok f ∧
        ((2 ^ N : Int) ∣ x → f = 0) ∧ (¬ (2 ^ N : Int) ∣ x → 0 < f) := by
      by_cases h : x.tmod (2 ^ N) ≥ 0
      · refine ⟨_, if_pos h, fun hd => Int.tmod_eq_zero_of_dvd hd, fun hd => ?_⟩
        have : x.tmod (2 ^ N) ≠ 0 := fun hc => hd (Int.dvd_of_tmod_eq_zero hc)
        omega
      · rw [if_neg h]
        unfold Fixed.sub
        refine ⟨_, arith_ok m ⟨by omega, by omega⟩, fun hd => ?_, fun _ => by omega⟩
        have := Int.tmod_eq_zero_of_dvd hd
        omega
    obtain ⟨f, hf, hf0, hf1⟩ := hcase
    rw [hf]
    simp only
    by_cases hd : (2 ^ N : Int) ∣ x
    · rw [hf0 hd, if_neg (by omega), Fixed.floor_spec m hN hx]
      obtain ⟨k, rfl⟩ := hd
      rw [Fixed.ceil_fval, ← Int.mul_neg, Int.mul_ediv_cancel_left _ hp.ne',
        Int.mul_ediv_cancel_left _ hp.ne', Int.neg_neg]
    · rw [if_pos (hf1 hd), ceil_spec m p N hN (by omega) x hx hr]
  have habs : |((⌈fval N x⌉ : Int) : ℚ) - fval N x| = ⌈fval N x⌉ - fval N x :=
    abs_of_nonneg (by have := Int.le_ceil (fval N x); linarith)
  refine ⟨_, hround, Fixed.fval_scaled _, ?_, fun hN1 => ?_⟩
  · rw [Fixed.fval_scaled, habs]
  · rw [Fixed.fval_scaled, habs, Fixed.ceil_fval]
    unfold fval
    interval_cases N
    · simp
    · norm_num
      have : -x / 2 * 2 ≥ -x - 1 := by omega
      have : ((-x / 2 : Int) : ℚ) * 2 ≥ -x - 1 := by exact_mod_cast this
      linarith

example : Fixed.round .debug i8 2 7 = .ok 8 ∧ Fixed.round .debug i8 2 (-3) = .ok 0 ∧
    Fixed.round .debug i8 1 3 = .ok 4 ∧ 2 * (2 : Int) ^ 2 ≤ i8.maxV := by decide

end Verif
