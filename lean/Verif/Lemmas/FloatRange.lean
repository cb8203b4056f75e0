import Mathlib.Tactic.Linarith
import Verif.Lemmas.FloatSum

/-!
# Which numbers round to an infinity and which to zero
-/

namespace Verif

namespace Flt

variable {f : FloatFmt}

theorem roundEven_neg (x : ℚ) : roundEven (-x) = -roundEven x := by
  have h1 := Int.floor_le x
  have h2 := Int.lt_floor_add_one x
  by_cases hx : (⌊x⌋ : ℚ) = x
  · rw [← hx, ← Int.cast_neg, roundEven_int, roundEven_int]
  have h3 : (⌊x⌋ : ℚ) < x := lt_of_le_of_ne h1 hx
  have e : ⌊-x⌋ = -⌊x⌋ - 1 := by
    rw [Int.floor_eq_iff]
    push_cast
    constructor <;> linarith
  unfold roundEven
  dsimp only
  rw [e]
  push_cast
  by_cases a : x - ⌊x⌋ < 1 / 2
  · rw [if_pos a, if_neg (by linarith), if_pos (by linarith)]
    ring
  · rw [if_neg a]
    by_cases b : 1 / 2 < x - ⌊x⌋
    · rw [if_pos b, if_pos (by linarith)]
      ring
    · rw [if_neg b, if_neg (by linarith), if_neg (by linarith)]
      by_cases c : ⌊x⌋ % 2 = 0
      · rw [if_pos c, if_neg (by omega)]
        ring
      · rw [if_neg c, if_pos (by omega)]
        ring

theorem roundEven_small {x : ℚ} (h : |x| ≤ 1 / 2) : roundEven x = 0 := by
  have key : ∀ y : ℚ, 0 ≤ y → y ≤ 1 / 2 → roundEven y = 0 := by
    intro y h0 h1
    have e : ⌊y⌋ = 0 := by rw [Int.floor_eq_iff]; norm_num; constructor <;> linarith
    unfold roundEven
    dsimp only
    rw [e]
    simp only [Int.cast_zero, sub_zero, Int.zero_emod, if_true]
    rw [if_neg (by linarith : ¬ (1 / 2 : ℚ) < y), ite_self]
  rcases le_total 0 x with h0 | h0
  · rw [abs_of_nonneg h0] at h
    exact key x h0 h
  · rw [abs_of_nonpos h0] at h
    have := key (-x) (by linarith) h
    rw [roundEven_neg] at this
    omega

theorem ulp_neg (f : FloatFmt) (x : ℚ) : ulp f (-x) = ulp f x := by unfold ulp; rw [abs_neg]

theorem rnd_ne_nan (x : ℚ) : rnd f x ≠ .nan := by
  unfold rnd
  dsimp only
  split_ifs <;> simp

/-- The numbers that round to zero. -/
theorem rnd_eq_zero_iff (hf : f.Ok) (x : ℚ) : rnd f x = .fin 0 ↔ |x| ≤ f.eta := by
  have h1 := hf.prec_pos
  have he := eta_pos f
  constructor
  · intro h
    by_contra hc
    push Not at hc
    have hp : (1 : Int) < 2 ^ f.prec := one_lt_pow₀ (by norm_num) (by omega)
    have e2 : (2 : ℚ) ^ (f.emin - (f.prec - 1)) = 2 * f.eta := by
      unfold FloatFmt.eta
      rw [show f.emin - ((f.prec : Int) - 1) = 1 + (f.emin - f.prec) by ring, zpow_add₀ (by norm_num), zpow_one]
    have hhas : f.Has (2 * f.eta) := by
      refine ⟨1, f.emin - (f.prec - 1), by simpa using hp, le_rfl, by rw [← e2]; simp, ?_⟩
      rw [← e2, abs_of_pos (by positivity)]
      have := hf.emin_le
      have := hf.prec_le
      exact (zpow_lt_zpow_iff_right₀ (by norm_num)).2 (by omega)
    have n1 := rnd_nearest h hhas
    have n2 := rnd_nearest h (Has.neg hhas)
    rw [zero_sub, abs_neg] at n1 n2
    rcases lt_abs.mp hc with h0 | h0
    · rw [abs_of_pos (by linarith : (0 : ℚ) < x)] at n1
      rcases abs_cases (2 * f.eta - x) with h | h <;> linarith
    · rw [abs_of_neg (by linarith : x < 0)] at n2
      rcases abs_cases (-(2 * f.eta) - x) with h | h <;> linarith
  · intro h
    by_cases hx : x = 0
    · rw [hx, rnd_zero]
    have hl : Int.log 2 |x| ≤ f.emin := by
      have h2 : (2 : ℚ) ^ Int.log 2 |x| ≤ 2 ^ (f.emin - f.prec) := (log_le hx).trans h
      have := (zpow_le_zpow_iff_right₀ (by norm_num : (1 : ℚ) < 2)).1 h2
      omega
    have hu : ulp f x / 2 = f.eta := by
      rw [half_ulp, max_eq_right hl]
      unfold FloatFmt.u FloatFmt.eta
      rw [sub_eq_add_neg, zpow_add₀ (by norm_num), zpow_neg, zpow_natCast, one_div]
    have hup := ulp_pos f x
    have hr : roundEven (x / ulp f x) = 0 := by
      apply roundEven_small
      rw [abs_div, abs_of_pos hup, div_le_div_iff₀ hup (by norm_num)]
      linarith
    unfold rnd
    rw [if_neg hx, hr]
    dsimp only
    rw [if_pos (by simp; positivity)]
    simp

/-- The numbers that round to an infinity: those from half-way between the largest float and the next power
of two on. -/
theorem rnd_eq_inf_iff (hf : f.Ok) (x : ℚ) (s : Bool) :
    rnd f x = .inf s ↔ 2 ^ (f.emax + 1) - 2 ^ (f.emax - f.prec) ≤ |x| ∧ s = decide (x < 0) := by
  have hp1 := hf.prec_pos
  have hemin := hf.emin_le
  have hple := hf.prec_le
  have e1 : (2 : ℚ) ^ (f.emax + 1) = 2 * 2 ^ f.emax := by
    rw [zpow_add₀ (by norm_num), zpow_one]; ring
  have e2 : (2 : ℚ) ^ (f.emax - f.prec) ≤ 2 ^ f.emax :=
    (zpow_le_zpow_iff_right₀ (by norm_num)).2 (by omega)
  have e3 : (0 : ℚ) < 2 ^ (f.emax - f.prec) := by positivity
  have e4 : (0 : ℚ) < 2 ^ f.emax := by positivity
  by_cases hx : x = 0
  · rw [hx, rnd_zero]
    simp only [reduceCtorEq, abs_zero, false_iff, not_and]
    intro h
    linarith
  have hup := ulp_pos f x
  suffices hb : 2 ^ (f.emax + 1) ≤ |(roundEven (x / ulp f x) : ℚ) * ulp f x| ↔
      2 ^ (f.emax + 1) - 2 ^ (f.emax - f.prec) ≤ |x| by
    unfold rnd
    rw [if_neg hx]
    dsimp only
    rw [← hb]
    by_cases h : |(roundEven (x / ulp f x) : ℚ) * ulp f x| < 2 ^ (f.emax + 1)
    · rw [if_pos h]
      simp only [not_le.mpr h, false_and, reduceCtorEq]
    · rw [if_neg h]
      simp only [not_lt] at h
      simp only [h, true_and, Flt.inf.injEq]
      exact eq_comm
  have habs : |(roundEven (x / ulp f x) : ℚ) * ulp f x| = roundEven (|x| / ulp f x) * ulp f x := by
    rw [abs_mul, abs_of_pos hup]
    congr 1
    rcases le_total 0 x with h | h
    · rw [abs_of_nonneg h]
      have : (0 : Int) ≤ roundEven (x / ulp f x) := le_roundEven (by push_cast; positivity)
      exact abs_of_nonneg (by exact_mod_cast this)
    · rw [abs_of_nonpos h, neg_div, roundEven_neg]
      have : roundEven (x / ulp f x) ≤ (0 : Int) := roundEven_le (by
        push_cast; exact div_nonpos_of_nonpos_of_nonneg h hup.le)
      rw [abs_of_nonpos (by exact_mod_cast this)]
      push_cast
      rfl
  rw [habs]
  rcases lt_or_ge f.emax (Int.log 2 |x|) with hl | hl
  · -- far too large
    have hpow : (2 : ℚ) ^ (f.emax + 1) ≤ 2 ^ Int.log 2 |x| :=
      (zpow_le_zpow_iff_right₀ (by norm_num)).2 (by omega)
    have hle := log_le hx
    refine iff_of_true ?_ (by linarith)
    refine hpow.trans ?_
    have hu : ulp f x = 2 ^ (Int.log 2 |x| - (f.prec - 1)) := by
      unfold ulp; rw [max_eq_left (by omega)]
    have h2 : (2 : ℚ) ^ Int.log 2 |x| = ((2 ^ (f.prec - 1) : Int) : ℚ) * ulp f x := by
      rw [hu]
      push_cast
      rw [← zpow_natCast, ← zpow_add₀ (by norm_num)]
      congr 1
      push_cast [hp1]
      ring
    rw [h2]
    refine mul_le_mul_of_nonneg_right ?_ hup.le
    have := le_roundEven (x := |x| / ulp f x) (n := 2 ^ (f.prec - 1)) (by
      rw [le_div_iff₀ hup, ← h2]; exact hle)
    exact_mod_cast this
  · have hux : ulp f x / 2 ≤ 2 ^ (f.emax - f.prec) := by
      rw [half_ulp]
      unfold FloatFmt.u
      rw [sub_eq_add_neg, zpow_add₀ (by norm_num), zpow_neg, zpow_natCast, one_div]
      refine mul_le_mul_of_nonneg_right ?_ (by positivity)
      exact (zpow_le_zpow_iff_right₀ (by norm_num)).2 (max_le hl (by omega))
    constructor
    · intro h
      by_contra hc
      push Not at hc
      have h1 := near_ulp f |x|
      have h2 : ulp f |x| = ulp f x := by unfold ulp; rw [abs_abs]
      rw [h2] at h1
      have := (abs_le.mp h1).2
      linarith
    · intro h
      have hle : f.emax ≤ Int.log 2 |x| := by
        have h5 : (2 : ℚ) ^ f.emax < 2 ^ (Int.log 2 |x| + 1) := by
          refine lt_of_le_of_lt ?_ (lt_log x)
          linarith
        have := (zpow_lt_zpow_iff_right₀ (by norm_num : (1 : ℚ) < 2)).1 h5
        omega
      have hu : ulp f x = 2 ^ (f.emax - (f.prec - 1)) := by
        unfold ulp; rw [max_eq_left (by omega), le_antisymm hl hle]
      have hh : (2 : ℚ) ^ (f.emax - f.prec) = ulp f x / 2 := by
        rw [hu, show f.emax - ((f.prec : Int) - 1) = f.emax - f.prec + 1 by ring, zpow_add₀ (by norm_num), zpow_one]
        ring
      have hm : (2 : ℚ) ^ (f.emax + 1) = ((2 ^ f.prec : Int) : ℚ) * ulp f x := by
        rw [hu]
        push_cast
        rw [← zpow_natCast, ← zpow_add₀ (by norm_num)]
        congr 1
        ring
      rw [hm]
      refine mul_le_mul_of_nonneg_right ?_ hup.le
      rw [hm, hh] at h
      have ht : ((2 ^ f.prec : Int) : ℚ) - 1 / 2 ≤ |x| / ulp f x := by
        rw [le_div_iff₀ hup]
        linarith
      set t := |x| / ulp f x with htd
      have hev : (2 ^ f.prec : Int) % 2 = 0 := by
        obtain ⟨k, hk⟩ : ∃ k, f.prec = k + 1 := ⟨f.prec - 1, by omega⟩
        rw [hk, pow_succ]; omega
      clear_value t
      generalize (2 ^ f.prec : Int) = P at ht hev ⊢
      have : P ≤ roundEven t := by
        have f1 := Int.floor_le t
        have f2 := Int.lt_floor_add_one t
        have f3 : P - 1 ≤ ⌊t⌋ := by
          rw [Int.le_floor]; push_cast; linarith
        rcases f3.eq_or_lt with h3 | h3
        · unfold roundEven
          dsimp only
          rw [← h3]
          push_cast
          rw [if_neg (by linarith)]
          by_cases h4 : 1 / 2 < t - (P - 1)
          · rw [if_pos h4]; omega
          · rw [if_neg h4, if_neg (by omega)]; omega
        · refine le_roundEven ?_
          have h4 : P ≤ ⌊t⌋ := by omega
          have : (P : ℚ) ≤ ⌊t⌋ := by exact_mod_cast h4
          linarith
      exact_mod_cast this

end Flt

end Verif
