import Mathlib.Tactic.Linarith
import Mathlib.Tactic.Ring
import Mathlib.Tactic.Positivity
import Mathlib.Tactic.FieldSimp
import Mathlib.Tactic.NormNum
import Mathlib.Algebra.Order.Field.Power
import Verif.Spec.Float

namespace Verif

namespace Flt

theorem roundEven_floor (x : ℚ) : roundEven x = ⌊x⌋ ∨ roundEven x = ⌊x⌋ + 1 := by
  unfold roundEven; dsimp only; split_ifs <;> simp

theorem roundEven_near (x : ℚ) : |(roundEven x : ℚ) - x| ≤ 1 / 2 := by
  have h0 := Int.floor_le x
  have h1 := Int.lt_floor_add_one x
  unfold roundEven; dsimp only
  rw [abs_le]
  split_ifs <;> (try push_cast) <;> constructor <;> linarith

theorem roundEven_int (n : Int) : roundEven (n : ℚ) = n := by
  unfold roundEven; simp

/-- No integer is nearer. -/
theorem roundEven_nearest (x : ℚ) (n : Int) : |(roundEven x : ℚ) - x| ≤ |(n : ℚ) - x| := by
  by_cases h : n = roundEven x
  · rw [h]
  · have h1 := roundEven_near x
    have h2 : (1 : ℚ) ≤ |(n : ℚ) - roundEven x| := by
      have : (1 : Int) ≤ |n - roundEven x| := Int.one_le_abs (sub_ne_zero.2 h)
      exact_mod_cast this
    have h3 : |(n : ℚ) - roundEven x| ≤ |(n : ℚ) - x| + |(roundEven x : ℚ) - x| := by
      rw [abs_sub_comm (roundEven x : ℚ) x]
      exact abs_sub_le _ _ _
    linarith

theorem ulp_pos (f : FloatFmt) (x : ℚ) : 0 < ulp f x := by unfold ulp; positivity

theorem log_le {x : ℚ} (h : x ≠ 0) : (2 : ℚ) ^ Int.log 2 |x| ≤ |x| := by
  exact_mod_cast Int.zpow_log_le_self (R := ℚ) (b := 2) (by norm_num) (abs_pos.2 h)

theorem lt_log (x : ℚ) : |x| < (2 : ℚ) ^ (Int.log 2 |x| + 1) := by
  exact_mod_cast Int.lt_zpow_succ_log_self (R := ℚ) (b := 2) (by norm_num) |x|

/-- The result of a rounding that does not overflow. -/
theorem rnd_fin {f : FloatFmt} {x y : ℚ} (h : rnd f x = .fin y) (hx : x ≠ 0) :
    y = roundEven (x / ulp f x) * ulp f x ∧ |y| < 2 ^ (f.emax + 1) := by
  unfold rnd at h
  rw [if_neg hx] at h
  dsimp only at h
  split_ifs at h with hb
  injection h with h
  exact ⟨h.symm, h ▸ hb⟩

theorem rnd_zero (f : FloatFmt) : rnd f 0 = .fin 0 := by unfold rnd; simp

theorem rnd_fin_of_zero {f : FloatFmt} {y : ℚ} (h : rnd f 0 = .fin y) : y = 0 := by
  rw [rnd_zero] at h; injection h with h; exact h.symm

/-- The error of a rounding is half the distance of neighbours. -/
theorem near_ulp (f : FloatFmt) (x : ℚ) :
    |roundEven (x / ulp f x) * ulp f x - x| ≤ ulp f x / 2 := by
  have hu := ulp_pos f x
  have h := roundEven_near (x / ulp f x)
  have e : roundEven (x / ulp f x) * ulp f x - x =
      (roundEven (x / ulp f x) - x / ulp f x) * ulp f x := by field_simp
  rw [e, abs_mul, abs_of_pos hu]
  nlinarith

theorem u_pos (f : FloatFmt) : 0 < f.u := by unfold FloatFmt.u; positivity
theorem eta_pos (f : FloatFmt) : 0 < f.eta := by unfold FloatFmt.eta; positivity

theorem half_ulp (f : FloatFmt) (x : ℚ) :
    ulp f x / 2 = 2 ^ (max (Int.log 2 |x|) f.emin) * f.u := by
  unfold ulp FloatFmt.u
  rw [show max (Int.log 2 |x|) f.emin - ((f.prec : Int) - 1) =
    max (Int.log 2 |x|) f.emin + 1 + (-(f.prec : Int)) by ring, zpow_add₀ (by norm_num),
    zpow_add₀ (by norm_num), zpow_neg, zpow_natCast, zpow_one]
  field_simp

/-- The error is relative above the subnormal numbers, absolute below. -/
theorem half_ulp_le {f : FloatFmt} {x : ℚ} (h : x ≠ 0) : ulp f x / 2 ≤ max (f.u * |x|) f.eta := by
  rw [half_ulp]
  rcases le_total f.emin (Int.log 2 |x|) with hl | hl
  · rw [max_eq_left hl]
    refine le_max_of_le_left ?_
    rw [mul_comm]
    exact mul_le_mul_of_nonneg_left (log_le h) (u_pos f).le
  · rw [max_eq_right hl]
    refine le_max_of_le_right (le_of_eq ?_)
    unfold FloatFmt.u FloatFmt.eta
    rw [sub_eq_add_neg, zpow_add₀ (by norm_num), zpow_neg, zpow_natCast, one_div]

theorem rnd_error_max {f : FloatFmt} {x y : ℚ} (h : rnd f x = .fin y) :
    |y - x| ≤ max (f.u * |x|) f.eta := by
  by_cases hx : x = 0
  · subst hx
    rw [rnd_fin_of_zero h]
    simp [(eta_pos f).le]
  · rw [(rnd_fin h hx).1]
    exact (near_ulp f x).trans (half_ulp_le hx)

theorem rnd_error {f : FloatFmt} {x y : ℚ} (h : rnd f x = .fin y) :
    |y - x| ≤ f.u * |x| + f.eta := by
  refine (rnd_error_max h).trans (max_le ?_ ?_)
  · linarith [eta_pos f]
  · have := mul_nonneg (u_pos f).le (abs_nonneg x); linarith

theorem two_zpow_sub {a b : Int} (h : b ≤ a) : (2 : ℚ) ^ a = ((2 ^ (a - b).toNat : Int) : ℚ) * 2 ^ b := by
  have : a = (a - b).toNat + b := by omega
  conv_lhs => rw [this]
  rw [zpow_add₀ (by norm_num), zpow_natCast]; push_cast; rfl

/-- Numbers with few enough bits are not changed by rounding. -/
theorem Has.div_ulp {f : FloatFmt} {q : ℚ} (h : f.Has q) (hq : q ≠ 0) : ∃ n : Int, q / ulp f q = n := by
  obtain ⟨m, k, hm, hk, rfl, -⟩ := h
  have hl : Int.log 2 |(m : ℚ) * 2 ^ k| < k + f.prec := by
    have h1 := log_le hq
    have h2 : |(m : ℚ) * 2 ^ k| < 2 ^ (k + (f.prec : Int)) := by
      rw [abs_mul, abs_of_pos (by positivity : (0 : ℚ) < 2 ^ k), zpow_add₀ (by norm_num), mul_comm,
        zpow_natCast]
      exact mul_lt_mul_of_pos_left (by exact_mod_cast hm) (by positivity)
    exact (zpow_lt_zpow_iff_right₀ (by norm_num : (1 : ℚ) < 2)).1 (h1.trans_lt h2)
  have he : max (Int.log 2 |(m : ℚ) * 2 ^ k|) f.emin - ((f.prec : Int) - 1) ≤ k := by
    rcases max_cases (Int.log 2 |(m : ℚ) * 2 ^ k|) f.emin with ⟨h, _⟩ | ⟨h, _⟩ <;> rw [h] <;> omega
  refine ⟨m * 2 ^ (k - (max (Int.log 2 |(m : ℚ) * 2 ^ k|) f.emin - ((f.prec : Int) - 1))).toNat, ?_⟩
  rw [div_eq_iff (ulp_pos _ _).ne']
  conv_lhs => rw [two_zpow_sub he]
  unfold ulp
  push_cast
  ring

theorem rnd_exact {f : FloatFmt} {q : ℚ} (h : f.Has q) : rnd f q = .fin q := by
  by_cases hq : q = 0
  · rw [hq, rnd_zero]
  · obtain ⟨n, hn⟩ := Has.div_ulp h hq
    have e : (roundEven (q / ulp f q) : ℚ) * ulp f q = q := by
      rw [hn, roundEven_int, ← hn]
      field_simp [(ulp_pos f q).ne']
    unfold rnd
    rw [if_neg hq]
    dsimp only
    obtain ⟨_, _, _, _, _, hb⟩ := h
    rw [e, if_pos hb]

/-- A rounded number is one of the format. -/
theorem rnd_has {f : FloatFmt} (hf : f.Ok) {x y : ℚ} (h : rnd f x = .fin y) : f.Has y := by
  by_cases hx : x = 0
  · subst hx
    rw [rnd_fin_of_zero h]
    refine ⟨0, max 0 (f.emin - (f.prec - 1)), by simp, le_max_right _ _, by simp, by simp; positivity⟩
  · obtain ⟨hy, hb⟩ := rnd_fin h hx
    set e := max (Int.log 2 |x|) f.emin - ((f.prec : Int) - 1) with he
    set n := roundEven (x / ulp f x) with hn
    have hu : ulp f x = 2 ^ e := rfl
    have hxe : |x / ulp f x| < 2 ^ f.prec := by
      rw [abs_div, abs_of_pos (ulp_pos f x), div_lt_iff₀ (ulp_pos f x), hu, ← zpow_natCast,
        ← zpow_add₀ (by norm_num)]
      refine (lt_log x).trans_le ((zpow_le_zpow_iff_right₀ (by norm_num)).2 ?_)
      have := le_max_left (Int.log 2 |x|) f.emin
      omega
    have hnle : |n| ≤ 2 ^ f.prec := by
      have h1 := abs_lt.1 hxe
      rw [abs_le]
      have hz := roundEven_near (x / ulp f x)
      rw [abs_le, ← hn] at hz
      constructor
      · have : (-(2 ^ f.prec : Int) - 1 : ℚ) < n := by push_cast; linarith
        have : -(2 ^ f.prec : Int) - 1 < n := by exact_mod_cast this
        omega
      · have : (n : ℚ) < (2 ^ f.prec : Int) + 1 := by push_cast; linarith
        have : n < (2 ^ f.prec : Int) + 1 := by exact_mod_cast this
        omega
    have hke : f.emin - ((f.prec : Int) - 1) ≤ e := by
      have := le_max_right (Int.log 2 |x|) f.emin
      omega
    rcases hnle.lt_or_eq with hlt | heq
    · exact ⟨n, e, hlt, hke, by rw [hy, hu], hb⟩
    · obtain ⟨p, hp⟩ : ∃ p, f.prec = p + 1 := ⟨f.prec - 1, by have := hf.prec_pos; omega⟩
      obtain ⟨s, hs, hns⟩ : ∃ s : Int, |s| = 1 ∧ n = s * 2 ^ f.prec := by
        rcases abs_choice n with hc | hc
        · exact ⟨1, by simp, by rw [hc] at heq; simpa using heq⟩
        · exact ⟨-1, by simp, by rw [hc] at heq; linarith⟩
      refine ⟨s * 2 ^ p, e + 1, ?_, by omega, ?_, hb⟩
      · rw [abs_mul, hs, one_mul, abs_of_pos (by positivity), hp]
        exact pow_lt_pow_right₀ (by norm_num) (by omega)
      · rw [hy, hu, hns, hp, zpow_add₀ (by norm_num)]; push_cast; ring

/-- No number of the format is nearer than the rounded one. -/
theorem rnd_nearest {f : FloatFmt} {x y z : ℚ} (h : rnd f x = .fin y) (hz : f.Has z) :
    |y - x| ≤ |z - x| := by
  by_cases hx : x = 0
  · subst hx
    rw [rnd_fin_of_zero h]; simp
  · obtain ⟨hy, -⟩ := rnd_fin h hx
    set e := max (Int.log 2 |x|) f.emin - ((f.prec : Int) - 1) with he
    have hu : ulp f x = 2 ^ e := rfl
    have hup := ulp_pos f x
    -- multiples of the distance are not nearer
    have key : ∀ n : Int, |y - x| ≤ |n * ulp f x - x| := by
      intro n
      have h1 := roundEven_nearest (x / ulp f x) n
      have e1 : ∀ k : Int, (k : ℚ) * ulp f x - x = (k - x / ulp f x) * ulp f x := by
        intro k; field_simp
      rw [hy, e1, e1, abs_mul, abs_mul]
      exact mul_le_mul_of_nonneg_right h1 (abs_nonneg _)
    obtain ⟨m, k, hm, hk, hzk, -⟩ := hz
    by_cases hke : e ≤ k
    · have := key (m * 2 ^ (k - e).toNat)
      have e2 : ((m * 2 ^ (k - e).toNat : Int) : ℚ) * ulp f x = z := by
        rw [hzk, two_zpow_sub hke, hu]; push_cast; ring
      rwa [e2] at this
    · push Not at hke
      have hlog : f.emin < Int.log 2 |x| := by
        by_contra hc
        push Not at hc
        rw [max_eq_right hc] at he
        omega
      have hel : e = Int.log 2 |x| - ((f.prec : Int) - 1) := by rw [he, max_eq_left hlog.le]
      have hzl : |z| < 2 ^ Int.log 2 |x| := by
        rw [hzk, abs_mul, abs_of_pos (by positivity : (0 : ℚ) < 2 ^ k)]
        have h1 : (|m| : ℚ) * 2 ^ k < 2 ^ ((f.prec : Int) + k) := by
          rw [zpow_add₀ (by norm_num), zpow_natCast]
          exact mul_lt_mul_of_pos_right (by exact_mod_cast hm) (by positivity)
        refine h1.trans_le ((zpow_le_zpow_iff_right₀ (by norm_num)).2 (by omega))
      by_cases hp : f.prec = 0
      · have hm0 : m = 0 := by
          rw [hp, pow_zero] at hm
          exact Int.abs_lt_one_iff.1 hm
        have := key 0
        rw [hzk, hm0]
        simpa using this
      have hpow : (2 : ℚ) ^ Int.log 2 |x| = ((2 ^ (f.prec - 1) : Int) : ℚ) * ulp f x := by
        rw [hu, two_zpow_sub (a := Int.log 2 |x|) (b := e) (by omega)]
        congr 3
        omega
      have hlx := log_le hx
      rcases lt_or_gt_of_ne hx with hn | hpz
      · have := key (-(2 ^ (f.prec - 1)))
        rw [Int.cast_neg, neg_mul, ← hpow] at this
        refine this.trans ?_
        rw [abs_of_neg hn] at hlx hzl this ⊢
        have h2 := (abs_lt.1 hzl).1
        rw [abs_of_nonneg (by linarith), abs_of_nonneg (by linarith)]
        linarith
      · have := key (2 ^ (f.prec - 1))
        rw [← hpow] at this
        refine this.trans ?_
        rw [abs_of_pos hpz] at hlx hzl this ⊢
        have h2 := (abs_lt.1 hzl).2
        rw [abs_of_nonpos (by linarith), abs_of_nonpos (by linarith)]
        linarith

end Flt

end Verif
