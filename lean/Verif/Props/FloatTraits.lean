import Verif.Props.Float
import Verif.Props.Fixed
import Verif.Props.Rat
import Verif.Props.RatExact

/-!
# The traits of floats (C130, C131, C132)
-/

namespace Verif

open Flt

variable {f : FloatFmt}

/-! ## C130: saturating casts -/

/-- C130, integers to floats: the result is a float, and none is nearer, provided the integer does not
exceed the largest float. Missing: the larger values of `u128` for `f32`, where it is false. -/
theorem C130_to_float_partial (hf : f.Ok) (z : Int) (h : |(z : ℚ)| ≤ f.max) :
    ∃ y, ofInt f z = .fin y ∧ f.Has y ∧ ∀ q, f.Has q → |y - z| ≤ |q - z| := by
  obtain ⟨y, hy⟩ := rnd_total hf h
  exact ⟨y, hy, rnd_has hf hy, fun q hq => rnd_nearest hy hq⟩

/-- … which covers every primitive type but `u128` for `f32`, and all of them for `f64`. -/
theorem C130_range (p : Prim) (z : Int) (hz : p.InRange z) :
    (p.bits ≤ 128 → |(z : ℚ)| ≤ FloatFmt.f64.max) ∧
    (p.bits ≤ 127 ∨ p.bits = 128 ∧ p.signed = true → |(z : ℚ)| ≤ FloatFmt.f32.max) := by
  have hb : ∀ k : Nat, p.bits ≤ k → |z| ≤ 2 ^ k := by
    intro k hk
    have h1 : (2 : Int) ^ (p.bits - 1) ≤ 2 ^ k := pow_le_pow_right₀ (by norm_num) (by omega)
    have h2 : (2 : Int) ^ p.bits ≤ 2 ^ k := pow_le_pow_right₀ (by norm_num) hk
    have h3 : (0 : Int) < 2 ^ k := by positivity
    have := hz.1
    have := hz.2
    unfold Prim.minV Prim.maxV at *
    rw [abs_le]
    constructor <;> split_ifs at * <;> omega
  have hs : p.bits = 128 → p.signed = true → |z| ≤ 2 ^ 127 := by
    intro h1 h2
    have := hz.1
    have := hz.2
    unfold Prim.minV Prim.maxV at *
    rw [if_pos h2, h1] at *
    rw [abs_le]
    constructor <;> omega
  have c1 : ((2 ^ 128 : Int) : ℚ) ≤ FloatFmt.f64.max := by decide +kernel
  have c2 : ((2 ^ 127 : Int) : ℚ) ≤ FloatFmt.f32.max := by decide +kernel
  refine ⟨fun h => ?_, fun h => ?_⟩
  · refine le_trans ?_ c1
    exact_mod_cast hb 128 h
  · refine le_trans ?_ c2
    rcases h with h | ⟨h1, h2⟩
    · exact_mod_cast hb 127 h
    · exact_mod_cast hs h1 h2

/-- C130: integers of few enough bits are not changed. -/
theorem C130_exact (hf : f.Ok) (z : Int) (h : |z| ≤ 2 ^ f.prec) : ofInt f z = .fin z :=
  rnd_exact (has_int hf h)

/-- C130: of two nearest floats, the one with the even last digit. `k` and `k + 1` are the digits of two
neighbouring floats. -/
theorem C130_ties (hf : f.Ok) (k s : Nat) (h1 : 2 ^ (f.prec - 1) ≤ k) (h2 : k + 1 ≤ 2 ^ f.prec)
    (h3 : f.prec + (s + 1) ≤ f.emax) :
    ofInt f ((2 * k + 1 : Nat) * 2 ^ s : Nat) =
      .fin ((if k % 2 = 0 then k else k + 1 : Nat) * 2 ^ (s + 1)) := by
  have hp := hf.prec_pos
  set x : ℚ := ((((2 * k + 1 : Nat) * 2 ^ s : Nat) : Int) : ℚ) with hx
  have ex : x = (k + 1 / 2) * 2 ^ (s + 1) := by rw [hx]; push_cast; ring
  have hpos : 0 < x := by rw [ex]; positivity
  have hp2 : (0 : ℚ) < 2 ^ (s + 1) := by positivity
  have hlog : Int.log 2 |x| = (f.prec - 1 + (s + 1) : Nat) := by
    rw [abs_of_pos hpos]
    have a1 : (2 : ℚ) ^ (f.prec - 1 + (s + 1)) ≤ x := by
      rw [ex, pow_add _ (f.prec - 1)]
      have : (2 : ℚ) ^ (f.prec - 1) ≤ k := by exact_mod_cast h1
      exact mul_le_mul_of_nonneg_right (by linarith) hp2.le
    have a2 : x < (2 : ℚ) ^ (f.prec + (s + 1)) := by
      rw [ex, pow_add _ f.prec]
      have : (k : ℚ) + 1 ≤ 2 ^ f.prec := by exact_mod_cast h2
      have h4 : (k : ℚ) + 1 / 2 < 2 ^ f.prec := by linarith
      exact mul_lt_mul_of_pos_right h4 hp2
    apply le_antisymm
    · have : Int.log 2 x < ((f.prec + (s + 1) : Nat) : Int) := by
        rw [← Int.lt_zpow_iff_log_lt (by norm_num) hpos, zpow_natCast]
        exact_mod_cast a2
      omega
    · rw [← Int.zpow_le_iff_le_log (by norm_num) hpos, zpow_natCast]
      exact_mod_cast a1
  have hulp : ulp f x = 2 ^ (s + 1) := by
    unfold ulp
    have := hf.emin_le
    rw [hlog, max_eq_left (by omega), ← zpow_natCast]
    congr 1
    omega
  have hdiv : x / ulp f x = k + 1 / 2 := by rw [hulp, ex]; field_simp
  have hfl : ⌊(k : ℚ) + 1 / 2⌋ = k := by
    rw [Int.floor_eq_iff]; constructor <;> push_cast <;> linarith
  have hr : roundEven ((k : ℚ) + 1 / 2) = (if k % 2 = 0 then k else k + 1 : Nat) := by
    unfold roundEven
    dsimp only
    rw [hfl]
    push_cast
    rw [if_neg (by norm_num), if_neg (by norm_num)]
    by_cases h : k % 2 = 0
    · rw [if_pos (by omega), if_pos h]
    · rw [if_neg (by omega), if_neg h]
  unfold ofInt rnd
  rw [← hx, if_neg hpos.ne']
  dsimp only
  rw [hdiv, hr, hulp]
  have hk : ((if k % 2 = 0 then k else k + 1 : Nat) : ℚ) ≤ 2 ^ f.prec := by
    have : (if k % 2 = 0 then k else k + 1 : Nat) ≤ 2 ^ f.prec := by split_ifs <;> omega
    exact_mod_cast this
  rw [Int.cast_natCast, if_pos]
  rw [abs_of_nonneg (by positivity)]
  refine (mul_le_mul_of_nonneg_right hk hp2.le).trans_lt ?_
  rw [← pow_add, ← zpow_natCast]
  exact (zpow_lt_zpow_iff_right₀ (by norm_num)).2 (by push_cast; omega)

-- 2^24 + 1 and 2^24 + 3 as `f32`
example : ofInt .f32 16777217 = .fin 16777216 ∧ ofInt .f32 16777219 = .fin 16777220 := by decide +kernel

/-- C130 for `u128` and `f32`, exactly: infinity from half the last distance above the largest float on;
the nearest float below. -/
theorem C130_u128_f32_exact_partial (z : Int) (h0 : 0 ≤ z) (h1 : z < 2 ^ 128) :
    (2 ^ 128 - 2 ^ 103 ≤ z → ofInt .f32 z = .inf false) ∧
    (z < 2 ^ 128 - 2 ^ 103 → ∃ y, ofInt .f32 z = .fin y ∧ FloatFmt.f32.Has y ∧
      ∀ q, FloatFmt.f32.Has q → |y - z| ≤ |q - z|) := by
  have hlog : 2 ^ 127 ≤ z → Int.log 2 |(z : ℚ)| = 127 := by
    intro h
    have hz : (2 : ℚ) ^ 127 ≤ z := by exact_mod_cast h
    have hz' : (z : ℚ) < 2 ^ 128 := by exact_mod_cast h1
    rw [abs_of_nonneg (by linarith [show (0 : ℚ) < 2 ^ 127 by positivity])]
    apply le_antisymm
    · have : Int.log 2 (z : ℚ) < 128 := by
        rw [← Int.lt_zpow_iff_log_lt (by norm_num) (by linarith [show (0 : ℚ) < 2 ^ 127 by positivity])]
        exact_mod_cast hz'
      omega
    · rw [← Int.zpow_le_iff_le_log (by norm_num) (by linarith [show (0 : ℚ) < 2 ^ 127 by positivity])]
      exact_mod_cast hz
  have hulp : 2 ^ 127 ≤ z → ulp .f32 z = 2 ^ 104 := by
    intro h
    unfold ulp
    rw [hlog h]
    norm_num [FloatFmt.f32]
  constructor
  · intro h
    have h127 : (2 : Int) ^ 127 ≤ z := by omega
    have hzq : (2 : ℚ) ^ 128 - 2 ^ 103 ≤ z := by exact_mod_cast h
    have hz0 : (z : ℚ) ≠ 0 := by
      have : z ≠ 0 := by omega
      exact_mod_cast this
    unfold ofInt rnd
    rw [if_neg hz0]
    dsimp only
    rw [hulp h127]
    have hr : (2 ^ 24 : Int) ≤ roundEven ((z : ℚ) / 2 ^ 104) := by
      have hx : (2 ^ 24 - 1 / 2 : ℚ) ≤ (z : ℚ) / 2 ^ 104 := by
        rw [le_div_iff₀ (by positivity)]
        refine le_trans (le_of_eq ?_) hzq
        norm_num
      rcases hx.lt_or_eq with hlt | heq
      · by_contra hc
        push Not at hc
        have h5 := roundEven_near ((z : ℚ) / 2 ^ 104)
        have h6 : (roundEven ((z : ℚ) / 2 ^ 104) : ℚ) ≤ 2 ^ 24 - 1 := by
          have : roundEven ((z : ℚ) / 2 ^ 104) ≤ 2 ^ 24 - 1 := by omega
          exact_mod_cast this
        rw [abs_le] at h5
        linarith [h5.1]
      · rw [← heq]
        decide +kernel
    have hr' : (2 ^ 24 : ℚ) ≤ (roundEven ((z : ℚ) / 2 ^ 104) : ℚ) := by exact_mod_cast hr
    rw [if_neg (by
      rw [abs_of_nonneg (by positivity)]
      push Not
      have : (2 : ℚ) ^ (FloatFmt.f32.emax + 1) = 2 ^ 24 * 2 ^ 104 := by
        norm_num [FloatFmt.f32]
      rw [this]
      exact mul_le_mul_of_nonneg_right hr' (by positivity))]
    congr 1
    rw [decide_eq_false_iff_not]
    push Not
    exact_mod_cast h0
  · intro h
    suffices hfin : ∃ y, rnd .f32 (z : ℚ) = .fin y by
      obtain ⟨y, hy⟩ := hfin
      exact ⟨y, hy, rnd_has f32_ok hy, fun q hq => rnd_nearest hy hq⟩
    by_cases h127 : (2 : Int) ^ 127 ≤ z
    · have hzq : (z : ℚ) < 2 ^ 128 - 2 ^ 103 := by exact_mod_cast h
      have hz0 : (z : ℚ) ≠ 0 := by
        have : z ≠ 0 := by omega
        exact_mod_cast this
      unfold rnd
      rw [if_neg hz0]
      dsimp only
      rw [hulp h127]
      have hx : (z : ℚ) / 2 ^ 104 < 2 ^ 24 - 1 / 2 := by
        rw [div_lt_iff₀ (by positivity)]
        refine lt_of_lt_of_le hzq (le_of_eq ?_)
        norm_num
      have hr : roundEven ((z : ℚ) / 2 ^ 104) ≤ 2 ^ 24 - 1 := by
        by_contra hc
        push Not at hc
        have h5 := roundEven_near ((z : ℚ) / 2 ^ 104)
        have h6 : (2 ^ 24 : ℚ) ≤ roundEven ((z : ℚ) / 2 ^ 104) := by
          have : 2 ^ 24 ≤ roundEven ((z : ℚ) / 2 ^ 104) := by omega
          exact_mod_cast this
        rw [abs_le] at h5
        linarith [h5.2]
      have hr0 : 0 ≤ roundEven ((z : ℚ) / 2 ^ 104) :=
        le_roundEven (by rw [Int.cast_zero]; have : (0 : ℚ) ≤ z := by exact_mod_cast h0
                         positivity)
      refine ⟨_, if_pos ?_⟩
      have hr0' : (0 : ℚ) ≤ roundEven ((z : ℚ) / 2 ^ 104) := by exact_mod_cast hr0
      have hr' : (roundEven ((z : ℚ) / 2 ^ 104) : ℚ) ≤ 2 ^ 24 - 1 := by exact_mod_cast hr
      rw [abs_of_nonneg (by positivity)]
      have : (2 : ℚ) ^ (FloatFmt.f32.emax + 1) = 2 ^ 24 * 2 ^ 104 := by
        norm_num [FloatFmt.f32]
      rw [this]
      exact mul_lt_mul_of_pos_right (by linarith) (by positivity)
    · refine rnd_total f32_ok (le_trans ?_ (show ((2 ^ 127 : Int) : ℚ) ≤ _ by decide +kernel))
      rw [abs_of_nonneg (by exact_mod_cast h0)]
      exact_mod_cast (show z ≤ 2 ^ 127 by omega)

/-- C130, floats to integers, exactly: the fraction is dropped, numbers out of range become the nearer
bound, NaN becomes zero. It is the nearest value for integers and numbers out of range. -/
theorem C130_to_int_exact_partial (p : Prim) (hb : 0 < p.bits) (a : ℚ) :
    p.InRange (toInt p (.fin a : Flt f)) ∧
    ((p.maxV : ℚ) ≤ a → toInt p (.fin a : Flt f) = p.maxV) ∧
    (a ≤ p.minV → toInt p (.fin a : Flt f) = p.minV) ∧
    ((p.minV : ℚ) ≤ a → a ≤ p.maxV → toInt p (.fin a : Flt f) = truncQ a) ∧
    toInt p (.nan : Flt f) = 0 ∧ toInt p (.inf false : Flt f) = p.maxV ∧
    toInt p (.inf true : Flt f) = p.minV := by
  have hmm : p.minV ≤ 0 ∧ 0 ≤ p.maxV := by
    unfold Prim.minV Prim.maxV
    split
    · have : (1 : Int) ≤ 2 ^ (p.bits - 1) := one_le_pow₀ (by norm_num)
      constructor <;> omega
    · have : (1 : Int) ≤ 2 ^ p.bits := one_le_pow₀ (by norm_num)
      constructor <;> omega
  have htr : toInt p (.fin a : Flt f) = max p.minV (min p.maxV (truncQ a)) := rfl
  have hup : ∀ {k : Int}, (k : ℚ) ≤ a → 0 ≤ k → k ≤ truncQ a := by
    intro k hk h0
    unfold truncQ
    rw [if_pos (le_trans (by exact_mod_cast h0) hk)]
    exact Int.le_floor.2 hk
  have hdn : ∀ {k : Int}, a ≤ (k : ℚ) → k ≤ 0 → truncQ a ≤ k := by
    intro k hk h0
    unfold truncQ
    split
    · have : (0 : ℚ) ≤ k := by linarith
      have : (0 : Int) ≤ k := by exact_mod_cast this
      exact Int.floor_le_iff.2 (by push_cast; linarith)
    · exact Int.ceil_le.2 hk
  refine ⟨?_, fun h => ?_, fun h => ?_, fun h1 h2 => ?_, rfl, rfl, rfl⟩
  · rw [htr]
    unfold Prim.InRange
    constructor <;> omega
  · have := hup h hmm.2
    rw [htr]
    omega
  · have := hdn h hmm.1
    rw [htr]
    omega
  · have h3 : p.minV ≤ truncQ a := by
      unfold truncQ
      split
      · rename_i h
        exact hmm.1.trans (Int.floor_nonneg.2 h)
      · have : (p.minV : ℚ) ≤ ⌈a⌉ := h1.trans (Int.le_ceil a)
        exact_mod_cast this
    have h4 : truncQ a ≤ p.maxV := by
      unfold truncQ
      split
      · have : (⌊a⌋ : ℚ) ≤ p.maxV := (Int.floor_le a).trans h2
        exact_mod_cast this
      · rename_i h
        push Not at h
        exact (Int.ceil_le.2 (by push_cast; linarith)).trans hmm.2
    rw [htr]
    omega

/-- C130 fails: `u128::MAX` becomes infinity as an `f32`, although the largest `f32` is the nearest one;
and `2.75` becomes `2` as an `i32`, although `3` is nearer. -/
theorem C130_violated :
    ofInt .f32 (2 ^ 128 - 1) = .inf false ∧
    toInt ⟨true, 32⟩ (.fin (11 / 4) : Flt .f32) = 2 ∧ |(3 : ℚ) - 11 / 4| < |(2 : ℚ) - 11 / 4| := by
  decide +kernel

example : ofInt .f64 (2 ^ 53 + 1) = .fin (2 ^ 53) ∧ ofInt .f64 (2 ^ 53 + 3) = .fin (2 ^ 53 + 4) := by
  decide +kernel
example : toInt ⟨false, 8⟩ (.fin (-1 / 2) : Flt .f32) = 0 ∧
    toInt ⟨false, 8⟩ (.fin 300 : Flt .f32) = 255 ∧ toInt ⟨true, 8⟩ (.fin (-7 / 2) : Flt .f32) = -3 := by
  decide +kernel

/-! ## C131: signs and bounds -/

/-- C131: `is_zero`, `is_one`, `is_negative`, `is_positive` and `abs` of a finite float say what its
value is; NaN is none of these; infinities have their sign. -/
theorem C131_queries (a : ℚ) :
    ((isZero (.fin a : Flt f) = true ↔ a = 0) ∧ (isOne (.fin a : Flt f) = true ↔ a = 1) ∧
      (isNegative (.fin a : Flt f) = true ↔ a < 0) ∧ (isPositive (.fin a : Flt f) = true ↔ 0 ≤ a) ∧
      abs (.fin a : Flt f) = .fin |a|) ∧
    (isZero (.nan : Flt f) = false ∧ isOne (.nan : Flt f) = false ∧ isNegative (.nan : Flt f) = false ∧
      isPositive (.nan : Flt f) = false ∧ abs (.nan : Flt f) = .nan) ∧
    ∀ s, isZero (.inf s : Flt f) = false ∧ isOne (.inf s : Flt f) = false ∧
      isNegative (.inf s : Flt f) = s ∧ isPositive (.inf s : Flt f) = !s ∧
      abs (.inf s : Flt f) = .inf false := by
  have e0 : ((Flt.fin a : Flt f) = 0) ↔ a = 0 :=
    ⟨fun h => by injection h, fun h => by rw [h]; rfl⟩
  have e1 : ((Flt.fin a : Flt f) = 1) ↔ a = 1 :=
    ⟨fun h => by injection h, fun h => by rw [h]; rfl⟩
  refine ⟨⟨?_, ?_, ?_, ?_, rfl⟩, ⟨rfl, rfl, rfl, rfl, rfl⟩, ?_⟩
  · change decide ((Flt.fin a : Flt f) = 0) = true ↔ _
    rw [decide_eq_true_iff, e0]
  · change decide ((Flt.fin a : Flt f) = 1) = true ↔ _
    rw [decide_eq_true_iff, e1]
  · change decide (a < 0) = true ↔ _
    rw [decide_eq_true_iff]
  · change (!decide (a < 0)) = true ↔ _
    simp
  · intro s
    cases s <;> exact ⟨rfl, rfl, rfl, rfl, rfl⟩

theorem Has.le_max {q : ℚ} (h : f.Has q) : |q| ≤ f.max := by
  obtain ⟨m, e, hm, he, rfl, hb⟩ := h
  unfold FloatFmt.max
  set o := f.emax - ((f.prec : Int) - 1) with ho
  rw [abs_mul, abs_of_pos (by positivity : (0 : ℚ) < 2 ^ e)] at hb ⊢
  by_cases hoe : o ≤ e
  · -- a multiple of the distance below the limit
    have hlim : (2 : ℚ) ^ (f.emax + 1) = 2 ^ f.prec * 2 ^ o := by
      rw [← zpow_natCast, ← zpow_add₀ (by norm_num)]
      congr 1
      omega
    rw [two_zpow_sub hoe] at hb ⊢
    rw [hlim, ← mul_assoc] at hb
    have h2 := lt_of_mul_lt_mul_right hb (by positivity)
    rw [← mul_assoc]
    refine mul_le_mul_of_nonneg_right ?_ (by positivity)
    have h3 : |m| * 2 ^ (e - o).toNat < 2 ^ f.prec := by
      exact_mod_cast h2
    have h4 : |m| * 2 ^ (e - o).toNat ≤ 2 ^ f.prec - 1 := by omega
    exact_mod_cast h4
  · have h2 : (|m| : ℚ) ≤ 2 ^ f.prec - 1 := by
      have : |m| ≤ 2 ^ f.prec - 1 := by omega
      exact_mod_cast this
    have h3 : (2 : ℚ) ^ e ≤ 2 ^ o := (zpow_le_zpow_iff_right₀ (by norm_num)).2 (by omega)
    have h4 : (0 : ℚ) ≤ 2 ^ f.prec - 1 := by
      have : (1 : ℚ) ≤ 2 ^ f.prec := one_le_pow₀ (by norm_num)
      linarith
    exact mul_le_mul h2 h3 (by positivity) h4

/-- C131: `max_value` and `min_value` are finite floats, and the largest and smallest ones. -/
theorem C131_bounds (hf : f.Ok) :
    (maxValue : Flt f) = .fin f.max ∧ (minValue : Flt f) = .fin (-f.max) ∧ f.Has f.max ∧
      f.Has (-f.max) ∧ ∀ q, f.Has q → -f.max ≤ q ∧ q ≤ f.max := by
  have h1 := hf.prec_pos
  have hp : (1 : Int) ≤ 2 ^ f.prec := one_le_pow₀ (by norm_num)
  have hmax : f.Has f.max := by
    refine ⟨2 ^ f.prec - 1, f.emax - (f.prec - 1), ?_, ?_, ?_, ?_⟩
    · rw [abs_of_nonneg (by omega)]; omega
    · have := hf.emin_le; have := hf.prec_le; omega
    · unfold FloatFmt.max; push_cast; rfl
    · have := max_lt f
      unfold FloatFmt.max
      rwa [abs_of_nonneg]
      have : (1 : ℚ) ≤ 2 ^ f.prec := one_le_pow₀ (by norm_num)
      have : (0 : ℚ) ≤ 2 ^ f.prec - 1 := by linarith
      positivity
  exact ⟨rfl, rfl, hmax, Has.neg hmax, fun q hq => abs_le.1 (Has.le_max hq)⟩

/-- C131, `min_positive` and `max_negative`, exactly: the smallest positive float is smaller, by the
factor `2^(prec-1)`; what is returned is the smallest one with the full precision. Missing: what their
documentation says, which is false. -/
theorem C131_min_positive_exact_partial (hf : f.Ok) :
    (minPositive : Flt f) = .fin (2 ^ f.emin) ∧ (maxNegative : Flt f) = .fin (-2 ^ f.emin) ∧
      f.Has (2 ^ f.emin) ∧ f.Has (-2 ^ f.emin) ∧
      f.Has (2 ^ (f.emin - (f.prec - 1))) ∧ f.Has (-2 ^ (f.emin - (f.prec - 1))) ∧
      ∀ q, f.Has q → q ≠ 0 → 2 ^ (f.emin - (f.prec - 1)) ≤ |q| := by
  have h1 := hf.prec_pos
  have h2 := hf.emin_le
  have h3 := hf.prec_le
  have hp : (1 : Int) < 2 ^ f.prec := one_lt_pow₀ (by norm_num) (by omega)
  have hs : ∀ e : Int, f.emin - (f.prec - 1) ≤ e → e ≤ f.emax → f.Has (2 ^ e) := by
    intro e he he'
    refine ⟨1, e, by simpa using hp, he, by simp, ?_⟩
    rw [abs_of_pos (by positivity)]
    exact (zpow_lt_zpow_iff_right₀ (by norm_num)).2 (by omega)
  refine ⟨rfl, rfl, hs _ (by omega) (by omega), Has.neg (hs _ (by omega) (by omega)),
    hs _ (le_refl _) (by omega), Has.neg (hs _ (le_refl _) (by omega)), ?_⟩
  rintro q ⟨m, e, hm, he, rfl, -⟩ hq
  have hm0 : m ≠ 0 := by rintro rfl; simp at hq
  have h4 : (1 : ℚ) ≤ |(m : ℚ)| := by exact_mod_cast Int.one_le_abs hm0
  have h5 : (2 : ℚ) ^ (f.emin - ((f.prec : Int) - 1)) ≤ 2 ^ e :=
    (zpow_le_zpow_iff_right₀ (by norm_num)).2 he
  rw [abs_mul, abs_of_pos (by positivity : (0 : ℚ) < 2 ^ e)]
  calc (2 : ℚ) ^ (f.emin - ((f.prec : Int) - 1)) ≤ 1 * 2 ^ e := by rw [one_mul]; exact h5
    _ ≤ |(m : ℚ)| * 2 ^ e := mul_le_mul_of_nonneg_right h4 (by positivity)

/-- C131 fails: there are positive floats below `min_positive()`. -/
theorem C131_violated :
    ∃ q, FloatFmt.f64.Has q ∧ 0 < q ∧ ltB (.fin q) (minPositive : Flt .f64) = true := by
  refine ⟨2 ^ (-1074 : Int), ⟨1, -1074, by decide, by decide, by simp, ?_⟩, by positivity, ?_⟩
  · decide +kernel
  · decide +kernel

example : isPositive (.fin 0 : Flt .f32) = true ∧ isNegative (.fin (-1 / 2) : Flt .f32) = true ∧
    (maxValue : Flt .f32) = .fin 340282346638528859811704183484516925440 := by decide +kernel

/-! ## C132: the rounding functions -/

/-- Integer parts of floats are floats. -/
theorem Has.integral (hf : f.Ok) {a : ℚ} (h : f.Has a) {z : Int} (hz : |(z : ℚ) - a| ≤ 1)
    (hi : ∀ n : Int, a = n → z = n) : f.Has z := by
  have h' := h
  obtain ⟨m, e, hm, he, ha, hb⟩ := h
  by_cases h0 : 0 ≤ e
  · have : a = ((m * 2 ^ e.toNat : Int) : ℚ) := by
      rw [ha]
      conv_lhs => rw [show e = (e.toNat : Int) by omega]
      rw [zpow_natCast]; push_cast; rfl
    rw [hi _ this, ← this]
    exact h'
  · have h1 := hf.prec_pos
    apply has_int hf
    have h2 : |a| ≤ 2 ^ f.prec - 1 := by
      rw [ha, abs_mul, abs_of_pos (by positivity : (0 : ℚ) < 2 ^ e)]
      have h3 : (2 : ℚ) ^ e ≤ 1 := by
        have : (2 : ℚ) ^ e ≤ 2 ^ (0 : Int) := (zpow_le_zpow_iff_right₀ (by norm_num)).2 (by omega)
        simpa using this
      have h4 : (|m| : ℚ) ≤ 2 ^ f.prec - 1 := by
        have : |m| ≤ 2 ^ f.prec - 1 := by omega
        exact_mod_cast this
      calc |(m : ℚ)| * 2 ^ e ≤ |(m : ℚ)| * 1 := mul_le_mul_of_nonneg_left h3 (by positivity)
        _ ≤ _ := by rw [mul_one]; exact h4
    have h5 : |(z : ℚ)| ≤ 2 ^ f.prec := by
      have := abs_sub_abs_le_abs_sub (z : ℚ) a
      linarith
    exact_mod_cast h5

/-- C132 for floats: `floor` and `ceil` are the greatest integer below and the least above, `trunc`
drops the fraction toward zero, `round` gives a nearest integer, and all of these are floats; `fract` is
exactly what `trunc` drops. -/
theorem C132_float (hf : f.Ok) (a : ℚ) (h : f.Has a) :
    (Flt.floor (.fin a : Flt f) = .fin ⌊a⌋ ∧ f.Has ⌊a⌋) ∧
    (Flt.ceil (.fin a : Flt f) = .fin ⌈a⌉ ∧ f.Has ⌈a⌉) ∧
    (Flt.trunc (.fin a : Flt f) = .fin (truncQ a) ∧ f.Has (truncQ a)) ∧
    (∃ z : Int, Flt.round (.fin a : Flt f) = .fin z ∧ f.Has z ∧ |(z : ℚ) - a| ≤ 1 / 2) ∧
    Flt.fract (.fin a : Flt f) = .fin (a - truncQ a) := by
  have f1 := Int.floor_le a
  have f2 := Int.lt_floor_add_one a
  have c1 := Int.le_ceil a
  have c2 := Int.ceil_lt_add_one a
  have hfl : f.Has ⌊a⌋ := Has.integral hf h (by rw [abs_le]; constructor <;> linarith)
    (fun n hn => by rw [hn, Int.floor_intCast])
  have hce : f.Has ⌈a⌉ := Has.integral hf h (by rw [abs_le]; constructor <;> linarith)
    (fun n hn => by rw [hn, Int.ceil_intCast])
  have htr : f.Has (truncQ a) := by unfold truncQ; split <;> assumption
  refine ⟨⟨rfl, hfl⟩, ⟨rfl, hce⟩, ⟨rfl, htr⟩, ?_, ?_⟩
  · let z : Int := if 0 ≤ a then ⌊a + 1 / 2⌋ else ⌈a - 1 / 2⌉
    have hz : |(z : ℚ) - a| ≤ 1 / 2 := by
      have g1 := Int.floor_le (a + 1 / 2)
      have g2 := Int.lt_floor_add_one (a + 1 / 2)
      have g3 := Int.le_ceil (a - 1 / 2)
      have g4 := Int.ceil_lt_add_one (a - 1 / 2)
      change |((if 0 ≤ a then ⌊a + 1 / 2⌋ else ⌈a - 1 / 2⌉ : Int) : ℚ) - a| ≤ 1 / 2
      rw [abs_le]
      split <;> constructor <;> linarith
    refine ⟨z, ?_, Has.integral hf h (by linarith) fun n hn => ?_, hz⟩
    · change Flt.fin _ = Flt.fin _
      congr 1
      change (if 0 ≤ a then (⌊a + 1 / 2⌋ : ℚ) else (⌈a - 1 / 2⌉ : ℚ)) =
        ((if 0 ≤ a then ⌊a + 1 / 2⌋ else ⌈a - 1 / 2⌉ : Int) : ℚ)
      split <;> rfl
    · rw [hn] at hz
      by_contra hne
      have : (1 : ℚ) ≤ |(z : ℚ) - n| := by
        have : (1 : Int) ≤ |z - n| := Int.one_le_abs (sub_ne_zero.2 hne)
        exact_mod_cast this
      linarith
  · change (Flt.fin a : Flt f) - .fin (truncQ a) = _
    rw [fin_sub]
    apply rnd_exact
    -- a multiple of the same power of two, of smaller magnitude
    have hle : |a - truncQ a| ≤ |a| := by
      unfold truncQ
      split
      · rename_i h0
        have : (0 : ℚ) ≤ ⌊a⌋ := by exact_mod_cast Int.floor_nonneg.2 h0
        rw [abs_of_nonneg (by linarith), abs_of_nonneg h0]
        linarith
      · rename_i h0
        push Not at h0
        have : (⌈a⌉ : ℚ) ≤ 0 := by exact_mod_cast Int.ceil_le.2 (by push_cast; linarith)
        rw [abs_of_nonpos (by linarith), abs_of_neg h0]
        linarith
    obtain ⟨m, e, hm, he, ha, hb⟩ := h
    by_cases h0 : 0 ≤ e
    · have hz : a = ((m * 2 ^ e.toNat : Int) : ℚ) := by
        rw [ha]
        conv_lhs => rw [show e = (e.toNat : Int) by omega]
        rw [zpow_natCast]; push_cast; rfl
      have : (truncQ a : ℚ) = a := by
        unfold truncQ
        rw [hz, Int.floor_intCast, Int.ceil_intCast]
        split <;> rfl
      rw [this, sub_self]
      exact Has.zero f
    · have hs : a - truncQ a = ((m - truncQ a * 2 ^ (-e).toNat : Int) : ℚ) * 2 ^ e := by
        have : (1 : ℚ) = ((2 ^ (-e).toNat : Int) : ℚ) * 2 ^ e := by
          have := two_zpow_sub (a := 0) (b := e) (by omega)
          rw [zpow_zero, zero_sub] at this
          exact this
        calc a - truncQ a = m * 2 ^ e - truncQ a * 1 := by rw [mul_one, ← ha]
          _ = m * 2 ^ e - truncQ a * (((2 ^ (-e).toNat : Int) : ℚ) * 2 ^ e) := by rw [← this]
          _ = _ := by push_cast; ring
      refine ⟨_, e, ?_, he, hs, lt_of_le_of_lt hle hb⟩
      have hle : |((m - truncQ a * 2 ^ (-e).toNat : Int) : ℚ) * 2 ^ e| ≤ |(m : ℚ) * 2 ^ e| := by
        rw [← hs, ← ha]
        exact hle
      rw [abs_mul, abs_mul] at hle
      have := le_of_mul_le_mul_right hle (by positivity)
      have h6 : |m - truncQ a * 2 ^ (-e).toNat| ≤ |m| := by exact_mod_cast this
      omega

/-- What the documentation of `Real` says: `floor` rounds toward zero, `ceil` away from zero, `trunc`
toward negative infinity. -/
structure Documented (a fl ce tr : ℚ) : Prop where
  floor : ∃ n : Int, fl = n ∧ |fl| ≤ |a| ∧ |a - fl| < 1 ∧ 0 ≤ a * fl
  ceil : ∃ n : Int, ce = n ∧ |a| ≤ |ce| ∧ |a - ce| < 1 ∧ 0 ≤ a * ce
  trunc : ∃ n : Int, tr = n ∧ tr ≤ a ∧ a - tr < 1

private theorem documented {a : ℚ} (h : 0 ≤ a) : Documented a ⌊a⌋ ⌈a⌉ (truncQ a) := by
  have f1 := Int.floor_le a
  have f2 := Int.lt_floor_add_one a
  have c1 := Int.le_ceil a
  have c2 := Int.ceil_lt_add_one a
  have f0 : (0 : ℚ) ≤ ⌊a⌋ := by exact_mod_cast Int.floor_nonneg.2 h
  have c0 : (0 : ℚ) ≤ ⌈a⌉ := h.trans c1
  have ht : truncQ a = ⌊a⌋ := by unfold truncQ; rw [if_pos h]
  refine ⟨⟨_, rfl, ?_, ?_, by positivity⟩, ⟨_, rfl, ?_, ?_, by positivity⟩, ⟨_, rfl, ?_⟩⟩
  · rw [abs_of_nonneg f0, abs_of_nonneg h]; exact f1
  · rw [abs_of_nonneg (by linarith)]; linarith
  · rw [abs_of_nonneg c0, abs_of_nonneg h]; exact c1
  · rw [abs_of_nonpos (by linarith)]; linarith
  · rw [ht]; exact ⟨f1, by linarith⟩

/-- C132, the numbers that are not finite: NaN and infinities are left alone by `floor`, `ceil`, `trunc`
and `round`; they have no fraction (`fract` gives NaN). -/
theorem C132_special (s : Bool) :
    (∀ g ∈ [Flt.floor, Flt.ceil, Flt.trunc, Flt.round],
      g (.nan : Flt f) = .nan ∧ g (.inf s : Flt f) = .inf s) ∧
    Flt.fract (.nan : Flt f) = .nan ∧ Flt.fract (.inf s : Flt f) = .nan := by
  refine ⟨fun g hg => ?_, rfl, ?_⟩
  · simp only [List.mem_cons, List.not_mem_nil, or_false] at hg
    rcases hg with rfl | rfl | rfl | rfl <;> exact ⟨rfl, rfl⟩
  · cases s <;> rfl

/-- C132: a number half-way between two integers is rounded away from zero. -/
theorem C132_round_ties (n : Nat) :
    Flt.round (.fin (n + 1 / 2) : Flt f) = .fin (n + 1) ∧
    Flt.round (.fin (-(n + 1 / 2)) : Flt f) = .fin (-(n + 1)) := by
  have h0 : (0 : ℚ) ≤ n := Nat.cast_nonneg n
  constructor
  · change Flt.fin _ = Flt.fin _
    congr 1
    change (if 0 ≤ ((n : ℚ) + 1 / 2) then (⌊(n : ℚ) + 1 / 2 + 1 / 2⌋ : ℚ) else
      (⌈(n : ℚ) + 1 / 2 - 1 / 2⌉ : ℚ)) = n + 1
    rw [if_pos (by linarith), show (n : ℚ) + 1 / 2 + 1 / 2 = ((n + 1 : Nat) : ℤ) by push_cast; ring,
      Int.floor_intCast]
    push_cast; ring
  · change Flt.fin _ = Flt.fin _
    congr 1
    change (if 0 ≤ (-((n : ℚ) + 1 / 2)) then (⌊-((n : ℚ) + 1 / 2) + 1 / 2⌋ : ℚ) else
      (⌈-((n : ℚ) + 1 / 2) - 1 / 2⌉ : ℚ)) = -(n + 1)
    rw [if_neg (by linarith), show -((n : ℚ) + 1 / 2) - 1 / 2 = (-(n + 1 : Nat) : ℤ) by push_cast; ring,
      Int.ceil_intCast]
    push_cast; ring

example : Flt.round (.fin (-5 / 2) : Flt .f64) = .fin (-3) := by
  have := (C132_round_ties (f := .f64) 2).2
  norm_num at this ⊢
  exact this

/-- C132, the documentation holds for floats that are not negative. Missing: negative ones. -/
theorem C132_float_partial (a : ℚ) (h : 0 ≤ a) :
    ∃ fl ce tr, Flt.floor (.fin a : Flt f) = .fin fl ∧ Flt.ceil (.fin a : Flt f) = .fin ce ∧
      Flt.trunc (.fin a : Flt f) = .fin tr ∧ Documented a fl ce tr :=
  ⟨_, _, _, rfl, rfl, rfl, documented h⟩

/-- C132, for fixed-point numbers that are not negative, if one and the result of `ceil` can be
represented. -/
theorem C132_fixed_partial (m : Mode) (p : Prim) (N : Nat) (hb : 2 ≤ p.bits)
    (hone : (2 : Int) ^ N ≤ p.maxV) (hN : N < p.bits) (x : Int) (hx : p.InRange x) (h : 0 ≤ x)
    (hr : p.InRange (⌈fval N x⌉ * 2 ^ N)) :
    ∃ fl ce tr, Fixed.floor m p N x = .ok fl ∧ Fixed.ceil m p N x = .ok ce ∧
      Fixed.trunc m p N x = .ok tr ∧ Documented (fval N x) (fval N fl) (fval N ce) (fval N tr) := by
  obtain ⟨fl, h1, -, e1⟩ := C65_floor m p N hN x hx
  obtain ⟨ce, h2, -, e2⟩ := C65_ceil_partial m p N hN hone x hx hr
  obtain ⟨tr, fr, h3, -, e3, -⟩ := C65_trunc_fract m p N hb hN x hx
  refine ⟨fl, ce, tr, h1, h2, h3, ?_⟩
  rw [e1, e2, e3]
  apply documented
  unfold fval
  have : (0 : ℚ) ≤ x := by exact_mod_cast h
  positivity

/-- Of a negative number that is not an integer all three are not as documented. -/
private theorem documented_iff (a : ℚ) :
    (0 ≤ a ∨ (∃ n : Int, a = n) → Documented a ⌊a⌋ ⌈a⌉ (truncQ a)) ∧
    (¬ (0 ≤ a ∨ ∃ n : Int, a = n) →
      ¬ |(⌊a⌋ : ℚ)| ≤ |a| ∧ ¬ |a| ≤ |(⌈a⌉ : ℚ)| ∧ ¬ (truncQ a : ℚ) ≤ a) := by
  constructor
  · rintro (h | ⟨n, rfl⟩)
    · exact documented h
    · have ht : truncQ (n : ℚ) = n := by unfold truncQ; simp
      rw [ht, Int.floor_intCast, Int.ceil_intCast]
      exact ⟨⟨n, rfl, by simp [mul_self_nonneg]⟩, ⟨n, rfl, by simp [mul_self_nonneg]⟩, ⟨n, rfl, by simp⟩⟩
  · intro h
    push Not at h
    obtain ⟨h0, hn⟩ := h
    have f1 : (⌊a⌋ : ℚ) < a := lt_of_le_of_ne (Int.floor_le a) (fun e => hn _ e.symm)
    have c1 : a < (⌈a⌉ : ℚ) := lt_of_le_of_ne (Int.le_ceil a) (hn _)
    have c0 : (⌈a⌉ : ℚ) ≤ 0 := by exact_mod_cast Int.ceil_le.2 (by push_cast; linarith)
    have ht : truncQ a = ⌈a⌉ := by unfold truncQ; rw [if_neg (by push Not; exact h0)]
    rw [ht, abs_of_neg h0, abs_of_nonpos c0, abs_of_neg (by linarith)]
    refine ⟨?_, ?_, ?_⟩ <;> push Not <;> linarith

/-- C132, exactly when the documentation holds for floats: for those that are not negative and for
integers. For others `floor` does not round toward zero, `ceil` not away from zero and `trunc` not toward
negative infinity. -/
theorem C132_float_exact_partial (a : ℚ) :
    ∃ fl ce tr, Flt.floor (.fin a : Flt f) = .fin fl ∧ Flt.ceil (.fin a : Flt f) = .fin ce ∧
      Flt.trunc (.fin a : Flt f) = .fin tr ∧
      (0 ≤ a ∨ (∃ n : Int, a = n) → Documented a fl ce tr) ∧
      (¬ (0 ≤ a ∨ ∃ n : Int, a = n) → ¬ |fl| ≤ |a| ∧ ¬ |a| ≤ |ce| ∧ ¬ tr ≤ a) :=
  ⟨_, _, _, rfl, rfl, rfl, documented_iff a⟩

/-- C132, likewise for fixed-point numbers, if one and the result of `ceil` can be represented. -/
theorem C132_fixed_exact_partial (m : Mode) (p : Prim) (N : Nat) (hb : 2 ≤ p.bits)
    (hone : (2 : Int) ^ N ≤ p.maxV) (hN : N < p.bits) (x : Int) (hx : p.InRange x)
    (hr : p.InRange (⌈fval N x⌉ * 2 ^ N)) :
    ∃ fl ce tr, Fixed.floor m p N x = .ok fl ∧ Fixed.ceil m p N x = .ok ce ∧
      Fixed.trunc m p N x = .ok tr ∧
      (0 ≤ x ∨ 2 ^ N ∣ x → Documented (fval N x) (fval N fl) (fval N ce) (fval N tr)) ∧
      (¬ (0 ≤ x ∨ 2 ^ N ∣ x) → ¬ |fval N fl| ≤ |fval N x| ∧ ¬ |fval N x| ≤ |fval N ce| ∧
        ¬ fval N tr ≤ fval N x) := by
  obtain ⟨fl, h1, -, e1⟩ := C65_floor m p N hN x hx
  obtain ⟨ce, h2, -, e2⟩ := C65_ceil_partial m p N hN hone x hx hr
  obtain ⟨tr, fr, h3, -, e3, -⟩ := C65_trunc_fract m p N hb hN x hx
  have hiff : (0 ≤ fval N x ∨ ∃ n : Int, fval N x = n) ↔ (0 ≤ x ∨ (2 : Int) ^ N ∣ x) := by
    have h2 : (0 : ℚ) < 2 ^ N := by positivity
    unfold fval
    refine or_congr ?_ ⟨?_, ?_⟩
    · rw [le_div_iff₀ h2, zero_mul]
      exact_mod_cast Iff.rfl
    · rintro ⟨n, hn⟩
      rw [div_eq_iff h2.ne'] at hn
      exact ⟨n, by rw [mul_comm]; exact_mod_cast hn⟩
    · rintro ⟨n, rfl⟩
      exact ⟨n, by push_cast; field_simp⟩
  refine ⟨fl, ce, tr, h1, h2, h3, ?_⟩
  rw [e1, e2, e3, ← hiff]
  exact documented_iff _

/-- C132, `floor` of a fraction is as documented for all signs (there is no `trunc`). -/
theorem C132_rat_partial (m : Mode) (p : Prim) (hb : 2 ≤ p.bits) (x : RatM) (hx : RatValid p x)
    (hm : NoMin p x.num) :
    ∃ r, RatM.floor m p x = .ok r ∧
      ∃ n : Int, qval r = n ∧ |qval r| ≤ |qval x| ∧ |qval x - qval r| < 1 ∧ 0 ≤ qval x * qval r := by
  obtain ⟨r, h1, h2, -⟩ := C69_floor_partial m p hb x hx hm
  refine ⟨r, h1, _, h2, ?_⟩
  rw [h2]
  by_cases h : 0 ≤ qval x
  · have ht : truncQ (qval x) = ⌊qval x⌋ := by unfold truncQ; rw [if_pos h]
    obtain ⟨-, -, h3⟩ := (documented h).floor
    rw [ht]
    exact h3
  · have ht : truncQ (qval x) = ⌈qval x⌉ := by unfold truncQ; rw [if_neg h]
    push Not at h
    have c1 := Int.le_ceil (qval x)
    have c2 := Int.ceil_lt_add_one (qval x)
    have c0 : (⌈qval x⌉ : ℚ) ≤ 0 := by exact_mod_cast Int.ceil_le.2 (by push_cast; linarith)
    rw [ht]
    refine ⟨?_, ?_, mul_nonneg_of_nonpos_of_nonpos h.le c0⟩
    · rw [abs_of_nonpos c0, abs_of_neg h]; linarith
    · rw [abs_of_nonpos (by linarith)]; linarith

/-- C132 fails: the floor of `-1.5` is `-2` and its truncation `-1`, for floats and fixed-point numbers;
for fractions the floor is `-1`. -/
theorem C132_violated :
    Flt.floor (.fin (-3 / 2) : Flt .f64) = .fin (-2) ∧ Flt.ceil (.fin (-3 / 2) : Flt .f64) = .fin (-1) ∧
      Flt.trunc (.fin (-3 / 2) : Flt .f64) = .fin (-1) ∧
    Fixed.floor .debug ⟨true, 8⟩ 2 (-6) = .ok (-8) ∧ Fixed.trunc .debug ⟨true, 8⟩ 2 (-6) = .ok (-4) ∧
    RatM.floor .debug ⟨true, 8⟩ ⟨-3, 2⟩ = .ok ⟨-1, 1⟩ ∧
    ∀ ce tr, ¬ Documented (-3 / 2) (-2) ce tr := by
  refine ⟨by decide +kernel, by decide +kernel, by decide +kernel, by decide +kernel,
    by decide +kernel, by decide +kernel, fun ce tr h => ?_⟩
  obtain ⟨-, -, h1, -⟩ := h.floor
  revert h1
  decide +kernel

example : Flt.round (.fin (5 / 2) : Flt .f64) = .fin 3 ∧ Flt.round (.fin (-5 / 2) : Flt .f64) = .fin (-3) ∧
    Flt.fract (.fin (-5 / 4) : Flt .f64) = .fin (-1 / 4) ∧
    Flt.floor (.fin (5 / 2) : Flt .f64) = .fin 2 := by decide +kernel
example : Fixed.ceil .debug ⟨true, 8⟩ 2 (-6) = .ok (-4) ∧ ¬ (0 ≤ (-6 : Int) ∨ (2 : Int) ^ 2 ∣ -6) := by
  decide +kernel
example : Fixed.ceil .debug ⟨true, 8⟩ 2 6 = .ok 8 ∧ Fixed.floor .debug ⟨true, 8⟩ 2 6 = .ok 4 := by
  decide +kernel

end Verif
