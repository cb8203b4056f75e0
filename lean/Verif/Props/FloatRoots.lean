import Verif.Props.FloatDet
import Verif.Props.FloatTraits
import Mathlib.Analysis.SpecialFunctions.Pow.Real
import Mathlib.Analysis.Complex.ExponentialBounds

/-!
# Roots and reciprocal trigonometric functions of floats (C145, C146)
-/

namespace Verif

open Flt

variable {f : FloatFmt}

/-! ## C145 -/

/-- What is assumed of `powf`: zero for zero, NaN for negative numbers to a fractional exponent, as IEEE 754
has it, and for positive ones a relative error of at most `ε` if the result is in range. -/
structure PowfOk (f : FloatFmt) (ε : ℝ) (powf : Flt f → Flt f → Flt f) : Prop where
  zero : ∀ b : ℚ, 0 < b → powf (.fin 0) (.fin b) = .fin 0
  neg : ∀ a b : ℚ, a < 0 → (∀ n : Int, b ≠ n) → powf (.fin a) (.fin b) = .nan
  pos : ∀ a b : ℚ, 0 < a → (2 : ℝ) ^ f.emin ≤ (a : ℝ) ^ (b : ℝ) → (a : ℝ) ^ (b : ℝ) ≤ 2 ^ f.emax →
    ∃ r : ℚ, powf (.fin a) (.fin b) = .fin r ∧ |(r : ℝ) - (a : ℝ) ^ (b : ℝ)| ≤ ε * (a : ℝ) ^ (b : ℝ)

/-- There are such functions. -/
theorem powfOk_exists (f : FloatFmt) {ε : ℝ} (hε : 0 < ε) : ∃ powf, PowfOk f ε powf := by
  classical
  have h : ∀ a b : ℚ, ∃ r : ℚ, 0 < a →
      |(r : ℝ) - (a : ℝ) ^ (b : ℝ)| ≤ ε * (a : ℝ) ^ (b : ℝ) := by
    intro a b
    by_cases ha : 0 < a
    · have hp : (0 : ℝ) < (a : ℝ) ^ (b : ℝ) := Real.rpow_pos_of_pos (by exact_mod_cast ha) _
      obtain ⟨r, h1, h2⟩ := exists_rat_btwn (show (a : ℝ) ^ (b : ℝ) <
        (a : ℝ) ^ (b : ℝ) + ε * (a : ℝ) ^ (b : ℝ) by
          have := mul_pos hε hp; linarith)
      exact ⟨r, fun _ => by rw [abs_of_pos (by linarith)]; linarith⟩
    · exact ⟨0, fun h => absurd h ha⟩
  choose g hg using h
  refine ⟨fun x y => match x, y with
    | .fin a, .fin b => if a = 0 then .fin 0 else if a < 0 then .nan else .fin (g a b)
    | _, _ => .nan, ?_, ?_, ?_⟩
  · intro b _; simp
  · intro a b ha _
    simp [ha.ne, ha]
  · intro a b ha _ _
    exact ⟨g a b, by simp [ha.ne', ha.le.not_gt], hg a b ha⟩

/-- The formats the library has. -/
def IsPrimFloat (f : FloatFmt) : Prop := f = .f32 ∨ f = .f64

private theorem IsPrimFloat.ok (hf : IsPrimFloat f) : f.Ok := by
  rcases hf with rfl | rfl <;> exact ⟨by decide, by decide, by decide⟩

/-- The number of binary orders of magnitude of the numbers below one: 149 or 1074. -/
def FloatFmt.span (f : FloatFmt) : Int := f.prec - 1 - f.emin

private theorem recip (hf : IsPrimFloat f) {n : Nat} (hn : 2 ≤ n) (hn' : n ≤ 2 ^ f.prec) :
    ∃ b : ℚ, (1 : Flt f) / ofZ n = .fin b ∧ |n * b - 1| ≤ f.u ∧ 0 < b ∧ b ≤ 1 / 2 := by
  have hok := hf.ok
  have hq : (2 : ℚ) ≤ n := by exact_mod_cast hn
  have hn0 : (0 : ℚ) < n := by linarith
  have hhalf : f.Has (1 / 2) := by
    refine ⟨1, -1, ?_, ?_, by norm_num, ?_⟩
    · rcases hf with rfl | rfl <;> decide
    · rcases hf with rfl | rfl <;> decide
    · rcases hf with rfl | rfl <;> decide +kernel
  have hle : (1 : ℚ) / n ≤ 1 / 2 := one_div_le_one_div_of_le (by norm_num) hq
  have hmax : (1 : ℚ) / 2 ≤ f.max := by
    rcases hf with rfl | rfl <;> decide +kernel
  obtain ⟨b, hb⟩ := rnd_total hok (x := 1 / n) (by
    rw [abs_of_pos (by positivity)]; exact hle.trans hmax)
  have e1 : (1 : Flt f) / ofZ n = .fin b := by
    change div (Flt.fin 1) (Flt.fin ((n : Int) : ℚ)) = _
    unfold div
    simp only [Int.cast_natCast, if_neg hn0.ne']
    exact hb
  have hu := u_pos f
  have hu1 : f.u ≤ 1 / 2 := by rcases hf with rfl | rfl <;> decide +kernel
  have he := rnd_error_max hb
  have heta : f.eta ≤ f.u * |1 / (n : ℚ)| := by
    rw [abs_of_pos (by positivity), mul_one_div, le_div_iff₀ hn0]
    have h1 : f.eta * 2 ^ f.prec ≤ f.u := by rcases hf with rfl | rfl <;> decide +kernel
    have h2 : (n : ℚ) ≤ 2 ^ f.prec := by exact_mod_cast hn'
    calc f.eta * n ≤ f.eta * 2 ^ f.prec := mul_le_mul_of_nonneg_left h2 (eta_pos f).le
      _ ≤ f.u := h1
  rw [max_eq_left heta, abs_of_pos (show (0 : ℚ) < 1 / n by positivity)] at he
  have hrel : |n * b - 1| ≤ f.u := by
    have : (n : ℚ) * b - 1 = n * (b - 1 / n) := by field_simp
    rw [this, abs_mul, abs_of_pos hn0]
    calc (n : ℚ) * |b - 1 / n| ≤ n * (f.u * (1 / n)) := mul_le_mul_of_nonneg_left he hn0.le
      _ = f.u := by field_simp
  have hb0 : 0 < b := by
    by_contra hc
    push Not at hc
    have h1 := (abs_le.mp hrel).1
    have h2 : (n : ℚ) * b ≤ 0 := mul_nonpos_of_nonneg_of_nonpos hn0.le hc
    linarith
  refine ⟨b, e1, hrel, hb0, ?_⟩
  by_contra hc
  push Not at hc
  have h1 := rnd_nearest hb hhalf
  rw [abs_of_pos (by linarith), abs_of_nonneg (by linarith)] at h1
  linarith

private theorem three (hf : IsPrimFloat f) : (1 + 1 + 1 : Flt f) = ofZ (3 : Nat) := by
  rcases hf with rfl | rfl <;> decide +kernel

private theorem log_bound (hf : IsPrimFloat f) {x : ℚ} (hx : 0 < x) (h : f.Has x) :
    |Real.log x| ≤ f.span * Real.log 2 := by
  have hlo : (2 : ℚ) ^ (-f.span) ≤ x := by
    have := (C131_min_positive_exact_partial hf.ok).2.2.2.2.2.2 x h hx.ne'
    rw [abs_of_pos hx] at this
    rwa [show -f.span = f.emin - (f.prec - 1) by unfold FloatFmt.span; ring]
  have hhi : x ≤ (2 : ℚ) ^ f.span := by
    obtain ⟨_, _, _, _, _, h4⟩ := h
    rw [abs_of_pos hx] at h4
    refine h4.le.trans ((zpow_le_zpow_iff_right₀ (by norm_num)).2 ?_)
    rcases hf with rfl | rfl <;> decide
  have hlo' : (2 : ℝ) ^ (-f.span) ≤ x := by
    have := (Rat.cast_le (K := ℝ)).2 hlo
    push_cast at this
    exact this
  have hhi' : (x : ℝ) ≤ (2 : ℝ) ^ f.span := by
    have := (Rat.cast_le (K := ℝ)).2 hhi
    push_cast at this
    exact this
  have hx' : (0 : ℝ) < x := by exact_mod_cast hx
  rw [abs_le]
  constructor
  · have := Real.log_le_log (by positivity) hlo'
    rw [Real.log_zpow] at this
    push_cast at this
    linarith
  · have := Real.log_le_log hx' hhi'
    rwa [Real.log_zpow] at this

/-- The exact power of the rounded exponent: it differs from the root by a factor near one. -/
private theorem power_near (hf : IsPrimFloat f) {x b : ℚ} (hx : 0 < x) (h : f.Has x) {n : Nat}
    (hn : 2 ≤ n) (hb : |n * b - 1| ≤ f.u) (hb0 : 0 < b) (hb1 : b ≤ 1 / 2) {y : ℝ} (hy : 0 < y)
    (hyn : y ^ n = x) :
    |(x : ℝ) ^ (b : ℝ) - y| ≤ f.span * f.u * y ∧ (2 : ℝ) ^ f.emin ≤ (x : ℝ) ^ (b : ℝ) ∧
      (x : ℝ) ^ (b : ℝ) ≤ 2 ^ f.emax := by
  have hx' : (0 : ℝ) < x := by exact_mod_cast hx
  have hl := log_bound hf hx h
  have hl2 : Real.log 2 < 0.6931471808 := Real.log_two_lt_d9
  have hl0 : 0 < Real.log 2 := Real.log_pos (by norm_num)
  have hlx : Real.log x = n * Real.log y := by rw [← hyn, Real.log_pow]
  have hb' : |(n : ℝ) * b - 1| ≤ f.u := by exact_mod_cast hb
  have hb1' : (b : ℝ) ≤ 1 / 2 := by
    have : ((b : ℚ) : ℝ) ≤ ((1 / 2 : ℚ) : ℝ) := by exact_mod_cast hb1
    simpa using this
  have hb0' : (0 : ℝ) < b := by exact_mod_cast hb0
  have hspan : (0 : ℝ) ≤ f.span := by
    have : 0 ≤ f.span := by rcases hf with rfl | rfl <;> decide
    exact_mod_cast this
  have hu0 : (0 : ℝ) < f.u := by exact_mod_cast u_pos f
  have hsu : (f.span : ℝ) * f.u ≤ 1 := by
    have : (f.span : ℚ) * f.u ≤ 1 := by rcases hf with rfl | rfl <;> decide +kernel
    exact_mod_cast this
  have hn' : (2 : ℝ) ≤ n := by exact_mod_cast hn
  have hpow : (x : ℝ) ^ (b : ℝ) = y * Real.exp ((n * b - 1) * Real.log y) := by
    rw [Real.rpow_def_of_pos hx', hlx]
    conv_rhs => rw [← Real.exp_log hy]
    rw [Real.log_exp, ← Real.exp_add]
    congr 1
    ring
  have hly : |Real.log y| ≤ f.span * Real.log 2 / 2 := by
    rw [hlx, abs_mul, abs_of_pos (by linarith : (0 : ℝ) < n)] at hl
    have : 2 * |Real.log y| ≤ n * |Real.log y| := mul_le_mul_of_nonneg_right hn' (abs_nonneg _)
    linarith
  have ht : |(n * (b : ℝ) - 1) * Real.log y| ≤ f.span * f.u / 2 := by
    rw [abs_mul]
    calc |(n : ℝ) * b - 1| * |Real.log y| ≤ f.u * (f.span * Real.log 2 / 2) :=
          mul_le_mul hb' hly (abs_nonneg _) hu0.le
      _ ≤ f.u * (f.span * 1 / 2) := by
          refine mul_le_mul_of_nonneg_left ?_ hu0.le
          have := mul_le_mul_of_nonneg_left (show Real.log 2 ≤ 1 by linarith) hspan
          linarith
      _ = _ := by ring
  refine ⟨?_, ?_, ?_⟩
  · have he := Real.abs_exp_sub_one_le (x := (n * (b : ℝ) - 1) * Real.log y) (by linarith)
    have : (x : ℝ) ^ (b : ℝ) - y = y * (Real.exp ((n * (b : ℝ) - 1) * Real.log y) - 1) := by
      rw [hpow]; ring
    rw [this, abs_mul, abs_of_pos hy, mul_comm]
    exact mul_le_mul_of_nonneg_right (by linarith) hy.le
  · have hemin : (f.span : ℝ) / 2 ≤ -f.emin := by
      have : (f.span : ℚ) / 2 ≤ -f.emin := by rcases hf with rfl | rfl <;> decide +kernel
      exact_mod_cast this
    rw [Real.rpow_def_of_pos hx', ← Real.exp_log (show (0 : ℝ) < 2 ^ f.emin by positivity),
      Real.log_zpow]
    refine Real.exp_le_exp.2 ?_
    have h1 : -(f.span * Real.log 2) ≤ Real.log x := (abs_le.mp hl).1
    have h2 : -(f.span * Real.log 2) / 2 ≤ Real.log x * b := by
      rcases le_or_gt 0 (Real.log x) with hp | hp
      · have := mul_nonneg hp hb0'.le
        have := mul_nonneg hspan hl0.le
        linarith
      · have := mul_le_mul_of_nonpos_left hb1' hp.le
        linarith
    have h3 := mul_le_mul_of_nonneg_right hemin hl0.le
    linarith
  · have hemax : (f.span : ℝ) / 2 ≤ f.emax := by
      have : (f.span : ℚ) / 2 ≤ f.emax := by rcases hf with rfl | rfl <;> decide +kernel
      exact_mod_cast this
    rw [Real.rpow_def_of_pos hx', ← Real.exp_log (show (0 : ℝ) < 2 ^ f.emax by positivity),
      Real.log_zpow]
    refine Real.exp_le_exp.2 ?_
    have h1 : Real.log x ≤ f.span * Real.log 2 := (abs_le.mp hl).2
    have h2 : Real.log x * b ≤ f.span * Real.log 2 / 2 := by
      rcases le_or_gt 0 (Real.log x) with hp | hp
      · have := mul_le_mul_of_nonneg_left hb1' hp
        linarith
      · have := mul_nonpos_of_nonpos_of_nonneg hp.le hb0'.le
        have := mul_nonneg hspan hl0.le
        linarith
    have h3 := mul_le_mul_of_nonneg_right hemax hl0.le
    linarith

/-- C145, the part that holds, for positive numbers: the relative error is that of `powf` and what comes of
rounding the exponent, 149 times `2^-24` or 1074 times `2^-53`. Missing: negative numbers, which give NaN,
and an error of a few units in the last place only. -/
theorem C145_root_partial (hf : IsPrimFloat f) {ε : ℝ} (hε : 0 ≤ ε) {powf : Flt f → Flt f → Flt f}
    (hp : PowfOk f ε powf) {x : ℚ} (hx : 0 < x) (h : f.Has x) {n : Nat} (hn : 2 ≤ n)
    (hn' : n ≤ 2 ^ f.prec) {y : ℝ} (hy : 0 < y) (hyn : y ^ n = x) :
    ∃ r : ℚ, root powf (.fin x) (ofZ n) = .fin r ∧
      |(r : ℝ) - y| ≤ ((1 + ε) * (1 + f.span * f.u) - 1) * y := by
  obtain ⟨b, e1, hb, hb0, hb1⟩ := recip hf hn hn'
  obtain ⟨h1, h2, h3⟩ := power_near hf hx h hn hb hb0 hb1 hy hyn
  obtain ⟨r, er, hr⟩ := hp.pos x b hx h2 h3
  refine ⟨r, by unfold root; rw [e1]; exact er, ?_⟩
  have h4 := abs_le.mp h1
  have h5 := mul_le_mul_of_nonneg_left (show (x : ℝ) ^ (b : ℝ) ≤ y + f.span * f.u * y by linarith) hε
  calc |(r : ℝ) - y| = |((r : ℝ) - (x : ℝ) ^ (b : ℝ)) + ((x : ℝ) ^ (b : ℝ) - y)| := by ring_nf
    _ ≤ |(r : ℝ) - (x : ℝ) ^ (b : ℝ)| + |(x : ℝ) ^ (b : ℝ) - y| := abs_add_le _ _
    _ ≤ _ := by linarith

/-- C145 for `cbrt`. -/
theorem C145_cbrt_partial (hf : IsPrimFloat f) {ε : ℝ} (hε : 0 ≤ ε) {powf : Flt f → Flt f → Flt f}
    (hp : PowfOk f ε powf) :
    cbrt powf (.fin 0) = .fin 0 ∧
    ∀ {x : ℚ}, 0 < x → f.Has x → ∀ {y : ℝ}, 0 < y → y ^ 3 = x →
      ∃ r : ℚ, cbrt powf (.fin x) = .fin r ∧
        |(r : ℝ) - y| ≤ ((1 + ε) * (1 + f.span * f.u) - 1) * y := by
  have h3 : 3 ≤ 2 ^ f.prec := by rcases hf with rfl | rfl <;> decide
  have e : ∀ x, cbrt powf x = root powf x (ofZ (3 : Nat)) := fun x => by
    unfold cbrt root; rw [three hf]
  refine ⟨?_, fun hx h y hy hyn => ?_⟩
  · obtain ⟨b, e1, _, hb0, _⟩ := recip hf (n := 3) (by norm_num) h3
    rw [e]
    unfold root
    rw [e1]
    exact hp.zero b hb0
  · rw [e]
    exact C145_root_partial hf hε hp hx h (by norm_num) h3 hy hyn

/-- C145 fails for all negative numbers: `cbrt` and all other roots give NaN, also the odd ones, which
exist. -/
theorem C145_negative_violated (hf : IsPrimFloat f) {ε : ℝ} {powf : Flt f → Flt f → Flt f}
    (hp : PowfOk f ε powf) {x : ℚ} (hx : x < 0) :
    cbrt powf (.fin x) = .nan ∧
      ∀ n : Nat, 2 ≤ n → n ≤ 2 ^ f.prec → root powf (.fin x) (ofZ n) = .nan := by
  have key : ∀ n : Nat, 2 ≤ n → n ≤ 2 ^ f.prec → root powf (.fin x) (ofZ n) = .nan := by
    intro n hn hn'
    obtain ⟨b, e1, _, hb0, hb1⟩ := recip hf hn hn'
    unfold root
    rw [e1]
    refine hp.neg x b hx fun k hk => ?_
    rw [hk] at hb0 hb1
    have h1 : (0 : Int) < k := by exact_mod_cast hb0
    have h2 : (1 : ℚ) ≤ k := by exact_mod_cast h1
    linarith
  refine ⟨?_, key⟩
  have := key 3 (by norm_num) (by rcases hf with rfl | rfl <;> decide)
  unfold root at this
  unfold cbrt
  rw [three hf]
  exact this

/-- C145 fails for positive numbers: however accurate `powf` is, the cube root of `2^1023`, which is
`2^341`, comes out more than 100 floats too low, because a third is rounded. -/
theorem C145_precision_violated {ε : ℝ} (hε : 0 ≤ ε) (hε' : ε ≤ FloatFmt.f64.u)
    {powf : Flt .f64 → Flt .f64 → Flt .f64} (hp : PowfOk .f64 ε powf) :
    FloatFmt.f64.Has (2 ^ 1023) ∧
    ∃ r : ℚ, cbrt powf (.fin (2 ^ 1023)) = .fin r ∧ (r : ℝ) < (1 - 100 * FloatFmt.f64.u) * 2 ^ 341 := by
  have hhas : FloatFmt.f64.Has (2 ^ 1023) :=
    ⟨1, 1023, by decide +kernel, by decide +kernel, by decide +kernel, by decide +kernel⟩
  refine ⟨hhas, ?_⟩
  set b : ℚ := (1 - 1 / 2 ^ 54) / 3 with hbdef
  have e1 : (1 : Flt .f64) / (1 + 1 + 1) = .fin b := by decide +kernel
  have hu : (FloatFmt.f64.u : ℝ) = 1 / 2 ^ 53 := by
    have : FloatFmt.f64.u = 1 / 2 ^ 53 := by decide +kernel
    rw [this]; push_cast; ring
  have hb3 : (1023 : ℝ) * (b : ℝ) = 341 - 341 / 2 ^ 54 := by
    rw [hbdef]; push_cast; ring
  have hpow : (((2 ^ 1023 : ℚ) : ℚ) : ℝ) ^ (b : ℝ) = 2 ^ 341 * Real.exp (-(341 / 2 ^ 54 * Real.log 2)) := by
    push_cast
    rw [Real.rpow_def_of_pos (by positivity), Real.log_pow]
    rw [show ((1023 : ℕ) : ℝ) * Real.log 2 * (b : ℝ) = (341 : ℕ) * Real.log 2 +
      -(341 / 2 ^ 54 * Real.log 2) by
        rw [show ((1023 : ℕ) : ℝ) * Real.log 2 * (b : ℝ) = (1023 * (b : ℝ)) * Real.log 2 by
          push_cast; ring, hb3]
        push_cast; ring]
    rw [Real.exp_add, Real.exp_nat_mul, Real.exp_log (by norm_num)]
  have hl1 : 0.6931471803 < Real.log 2 := Real.log_two_gt_d9
  have hl2 : Real.log 2 < 0.6931471808 := Real.log_two_lt_d9
  obtain ⟨t, ht⟩ : ∃ t, t = 341 / 2 ^ 54 * Real.log 2 := ⟨_, rfl⟩
  rw [← ht] at hpow
  have ht1 : 236 / 2 ^ 54 < t := by rw [ht]; norm_num; linarith
  have ht2 : t < 237 / 2 ^ 54 := by rw [ht]; norm_num; linarith
  have hexp : Real.exp (-t) ≤ 1 - 235 / 2 ^ 54 := by
    rw [Real.exp_neg, inv_le_comm₀ (Real.exp_pos _) (by norm_num)]
    refine le_trans ?_ (Real.add_one_le_exp t)
    rw [inv_le_comm₀ (by norm_num) (by linarith [show (0 : ℝ) < 236 / 2 ^ 54 by norm_num])]
    refine le_trans (inv_anti₀ (by norm_num) (show (236 / 2 ^ 54 + 1 : ℝ) ≤ t + 1 by linarith)) ?_
    norm_num
  obtain ⟨_, h2, h3⟩ := power_near (f := .f64) (.inr rfl) (x := 2 ^ 1023) (b := b) (by positivity) hhas
    (n := 3) (by norm_num) (by rw [hbdef]; decide +kernel) (by rw [hbdef]; norm_num)
    (by rw [hbdef]; norm_num) (y := 2 ^ 341) (by positivity) (by push_cast; ring)
  obtain ⟨r, er, hr⟩ := hp.pos (2 ^ 1023) b (by positivity) h2 h3
  refine ⟨r, by unfold cbrt; rw [e1]; exact er, ?_⟩
  rw [hpow] at hr
  have h5 := (abs_le.mp hr).2
  have hE : (2 : ℝ) ^ 341 * Real.exp (-t) ≤ 2 ^ 341 * (1 - 235 / 2 ^ 54) :=
    mul_le_mul_of_nonneg_left hexp (by positivity)
  have hE0 : 0 < (2 : ℝ) ^ 341 * Real.exp (-t) := by positivity
  rw [hu] at hε' ⊢
  have h6 : ε * (2 ^ 341 * Real.exp (-t)) ≤ 1 / 2 ^ 53 * (2 ^ 341 * (1 - 235 / 2 ^ 54)) :=
    mul_le_mul hε' hE hE0.le (by positivity)
  obtain ⟨Y, hY⟩ : ∃ Y, Y = (2 : ℝ) ^ 341 := ⟨_, rfl⟩
  have hY0 : 0 < Y := by rw [hY]; positivity
  rw [← hY] at h5 hE h6 ⊢
  have : (r : ℝ) ≤ (1 + 1 / 2 ^ 53) * (1 - 235 / 2 ^ 54) * Y := by linarith
  refine this.trans_lt (mul_lt_mul_of_pos_right ?_ hY0)
  norm_num

example : ∃ powf, PowfOk .f64 (1 / 2 ^ 53) powf ∧ cbrt powf (.fin (-8) : Flt .f64) = .nan := by
  obtain ⟨powf, hp⟩ := powfOk_exists .f64 (ε := 1 / 2 ^ 53) (by positivity)
  exact ⟨powf, hp, (C145_negative_violated (.inr rfl) hp (by norm_num)).1⟩

example : ∃ powf, PowfOk .f64 (1 / 2 ^ 53) powf ∧ ∃ r : ℚ, cbrt powf (.fin 27 : Flt .f64) = .fin r ∧
    |(r : ℝ) - 3| ≤ 1 / 2 ^ 40 := by
  obtain ⟨powf, hp⟩ := powfOk_exists .f64 (ε := 1 / 2 ^ 53) (by positivity)
  refine ⟨powf, hp, ?_⟩
  obtain ⟨r, e, hr⟩ := (C145_cbrt_partial (.inr rfl) (by positivity) hp).2 (x := 27) (by norm_num)
    ⟨27, 0, by decide, by decide, by norm_num, by decide +kernel⟩ (y := 3) (by norm_num) (by norm_num)
  refine ⟨r, e, hr.trans ?_⟩
  have hu : (FloatFmt.f64.u : ℝ) = 1 / 2 ^ 53 := by
    have : FloatFmt.f64.u = 1 / 2 ^ 53 := by decide +kernel
    rw [this]; push_cast; ring
  rw [hu, show FloatFmt.f64.span = 1074 by decide]
  norm_num

/-! ## C146 -/

/-- C146: `csc`, `sec` and `cot` are the reciprocals of what `sin`, `cos` and `tan` give, up to one
rounding: if that does not underflow, the relative error is at most `2^-prec`; in any case no float is
closer. The reciprocal is infinite for zero, and zero for infinities. -/
theorem C146_reciprocal (hf : f.Ok) (g : Flt f → Flt f) (x : Flt f) :
    csc g x = cot g x ∧ sec g x = cot g x ∧
    (∀ s : ℚ, g x = .fin s → s ≠ 0 → ∀ r, csc g x = .fin r →
      f.Has r ∧ (∀ z, f.Has z → |r - 1 / s| ≤ |z - 1 / s|) ∧
      (2 ^ f.emin ≤ |1 / s| → |r - 1 / s| ≤ f.u * |1 / s|)) ∧
    (∀ s : ℚ, g x = .fin s → 1 / f.max ≤ |s| → ∃ r, csc g x = .fin r) ∧
    (g x = .fin 0 → ∃ t, csc g x = .inf t) ∧ (∀ t, g x = .inf t → csc g x = .fin 0) ∧
    (g x = .nan → csc g x = .nan) := by
  have hdiv : ∀ s : ℚ, g x = .fin s → s ≠ 0 → csc g x = rnd f (1 / s) := by
    intro s hs h0
    unfold csc
    rw [hs]
    change div (Flt.fin 1) (Flt.fin s) = _
    unfold div
    simp only [if_neg h0]
  refine ⟨rfl, rfl, ?_, ?_, ?_, ?_, ?_⟩
  · intro s hs h0 r hr
    rw [hdiv s hs h0] at hr
    refine ⟨rnd_has hf hr, fun z hz => rnd_nearest hr hz, fun hn => ?_⟩
    have he := rnd_error_max hr
    refine he.trans (max_le (le_refl _) ?_)
    have : f.eta = f.u * 2 ^ f.emin := by
      unfold FloatFmt.eta FloatFmt.u
      rw [zpow_sub₀ (by norm_num), zpow_natCast]
      ring
    rw [this]
    exact mul_le_mul_of_nonneg_left hn (u_pos f).le
  · intro s hs hle
    have hmax : 0 < f.max := by
      unfold FloatFmt.max
      have : (1 : ℚ) < 2 ^ f.prec := one_lt_pow₀ (by norm_num) (by have := hf.prec_pos; omega)
      have : (0 : ℚ) < 2 ^ f.prec - 1 := by linarith
      positivity
    have h0 : s ≠ 0 := by
      rintro rfl
      rw [abs_zero] at hle
      have : 0 < 1 / f.max := by positivity
      linarith
    obtain ⟨r, hr⟩ := rnd_total hf (x := 1 / s) (by
      change |1 / s| ≤ f.max
      rw [abs_div, abs_one, one_div_le (abs_pos.2 h0) hmax]
      exact hle)
    exact ⟨r, by rw [hdiv s hs h0]; exact hr⟩
  · intro h; unfold csc; rw [h]; exact ⟨_, rfl⟩
  · intro t h; unfold csc; rw [h]; rfl
  · intro h; unfold csc; rw [h]; rfl

example : csc (fun _ => .fin (1 / 2)) (.fin (1 / 2) : Flt .f64) = .fin 2 := by decide +kernel

end Verif
