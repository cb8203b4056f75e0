import Mathlib.Analysis.Real.Sqrt
import Mathlib.Data.Nat.Sqrt
import Verif.Props.Float

/-!
# Roots of floats and the absolute value of complex floats (C140)
-/

namespace Verif

open Flt

variable {f : FloatFmt}

private theorem castQ {x : ℚ} (h : 0 < x) : (0 : ℝ) < x := by exact_mod_cast h

/-- The exponent of the root. -/
private theorem root_exp {q : ℚ} (hq : 0 < q) :
    ((2 : ℚ) ^ (Int.log 2 q / 2)) ^ 2 ≤ q ∧ q < (2 ^ (Int.log 2 q / 2 + 1)) ^ 2 := by
  have h1 := log_le hq.ne'
  have h2 := lt_log q
  rw [abs_of_pos hq] at h1 h2
  constructor
  · refine le_trans ?_ h1
    rw [← zpow_natCast, ← zpow_mul]
    exact (zpow_le_zpow_iff_right₀ (by norm_num)).2 (by push_cast; omega)
  · refine h2.trans_le ?_
    rw [← zpow_natCast, ← zpow_mul]
    exact (zpow_le_zpow_iff_right₀ (by norm_num)).2 (by push_cast; omega)

/-- The whole part of the root and the test for the half. -/
private theorem root_round {x : ℚ} (hx : 0 ≤ x) :
    let n := Nat.sqrt ⌊x⌋₊
    let k : ℚ := if x < (n + 1 / 2) ^ 2 then n else n + 1
    (n : ℝ) ≤ √(x : ℝ) ∧ √(x : ℝ) < n + 1 ∧ |(k : ℝ) - √(x : ℝ)| ≤ 1 / 2 := by
  intro n k
  have hxR : (0 : ℝ) ≤ x := by exact_mod_cast hx
  have h1 : (n : ℝ) ≤ √(x : ℝ) := by
    apply Real.le_sqrt_of_sq_le
    have : ((n ^ 2 : Nat) : ℚ) ≤ x := by
      refine le_trans ?_ (Nat.floor_le hx)
      exact_mod_cast Nat.sqrt_le' _
    exact_mod_cast this
  have h2 : √(x : ℝ) < n + 1 := by
    rw [Real.sqrt_lt' (by positivity)]
    have h3 : ⌊x⌋₊ < (n + 1) ^ 2 := Nat.lt_succ_sqrt' _
    have h4 : x < ((n + 1 : Nat) : ℚ) ^ 2 := by
      refine (Nat.lt_floor_add_one x).trans_le ?_
      exact_mod_cast h3
    have h5 : (x : ℝ) < (((n + 1 : Nat) : ℚ) ^ 2 : ℚ) := by exact_mod_cast h4
    push_cast at h5
    exact h5
  refine ⟨h1, h2, ?_⟩
  by_cases hc : x < (n + 1 / 2) ^ 2
  · have hk : k = n := if_pos hc
    have h3 : √(x : ℝ) < n + 1 / 2 := by
      rw [Real.sqrt_lt' (by positivity)]
      have : (x : ℝ) < (((n + 1 / 2 : ℚ) ^ 2 : ℚ) : ℝ) := by exact_mod_cast hc
      push_cast at this
      exact this
    rw [hk, Rat.cast_natCast, abs_le]
    constructor <;> linarith
  · have hk : k = n + 1 := if_neg hc
    have h3 : (n : ℝ) + 1 / 2 ≤ √(x : ℝ) := by
      apply Real.le_sqrt_of_sq_le
      have : (((n + 1 / 2 : ℚ) ^ 2 : ℚ) : ℝ) ≤ (x : ℝ) := by exact_mod_cast not_lt.1 hc
      push_cast at this
      exact this
    rw [hk, Rat.cast_add, Rat.cast_natCast, Rat.cast_one, abs_le]
    constructor <;> linarith

/-- The root in units of the last place. -/
private theorem sqrt_units {q : ℚ} (hq : 0 < q) :
    let e := max (Int.log 2 q / 2) f.emin
    let u : ℚ := 2 ^ (e - (f.prec - 1))
    ∃ k : Nat, sqrt (.fin q : Flt f) = .fin (k * u) ∧ √(q : ℝ) < 2 ^ (e + 1) ∧
      |((k * u : ℚ) : ℝ) - √(q : ℝ)| ≤ u / 2 ∧
      ∀ j : Int, |((k * u : ℚ) : ℝ) - √(q : ℝ)| ≤ |((j * u : ℚ) : ℝ) - √(q : ℝ)| := by
  intro e u
  have hu : 0 < u := by positivity
  have huR : (0 : ℝ) < u := castQ hu
  have hx : 0 ≤ q / u ^ 2 := by positivity
  obtain ⟨h1, h2, h3⟩ := root_round hx
  set n := Nat.sqrt ⌊q / u ^ 2⌋₊ with hn
  have es : √((q / u ^ 2 : ℚ) : ℝ) = √(q : ℝ) / u := by
    push_cast
    rw [Real.sqrt_div' _ (by positivity), Real.sqrt_sq huR.le]
  rw [es] at h1 h2 h3
  obtain ⟨k, hk, hk'⟩ : ∃ k : Nat, (if q / u ^ 2 < (n + 1 / 2) ^ 2 then (n : ℚ) else n + 1) = k ∧
      (if q / u ^ 2 < (n + 1 / 2) ^ 2 then n else n + 1) = k := by
    refine ⟨_, ?_, rfl⟩
    split_ifs
    · rfl
    · push_cast; rfl
  rw [hk] at h3
  have key : ∀ j : ℚ, ((j * u : ℚ) : ℝ) - √(q : ℝ) = (j - √(q : ℝ) / u) * u := by
    intro j; push_cast; field_simp
  refine ⟨k, ?_, ?_, ?_, fun j => ?_⟩
  · unfold sqrt
    dsimp only
    rw [if_neg hq.not_gt, if_neg hq.ne', ← hk']
  · rw [Real.sqrt_lt' (by positivity)]
    have h4 : q < ((2 : ℚ) ^ (e + 1)) ^ 2 := by
      refine (root_exp hq).2.trans_le ?_
      refine pow_le_pow_left₀ (by positivity) ((zpow_le_zpow_iff_right₀ (by norm_num)).2 ?_) 2
      have := le_max_left (Int.log 2 q / 2) f.emin
      omega
    have h5 : (q : ℝ) < ((((2 : ℚ) ^ (e + 1)) ^ 2 : ℚ) : ℝ) := by exact_mod_cast h4
    push_cast at h5
    exact h5
  · rw [key, abs_mul, abs_of_pos huR]
    have := mul_le_mul_of_nonneg_right h3 huR.le
    rw [Rat.cast_natCast]
    rw [Rat.cast_natCast] at this
    linarith
  · rw [key, key, abs_mul, abs_mul]
    refine mul_le_mul_of_nonneg_right ?_ (abs_nonneg _)
    by_cases hj : j = (k : Int)
    · rw [hj]; simp
    · have h4 : (1 : ℝ) ≤ |(j : ℝ) - k| := by
        have : (1 : Int) ≤ |j - k| := Int.one_le_abs (sub_ne_zero.2 hj)
        exact_mod_cast this
      have h5 := abs_sub_le (j : ℝ) (√(q : ℝ) / u) k
      rw [abs_sub_comm (√(q : ℝ) / u) (k : ℝ)] at h5
      simp only [Rat.cast_natCast, Rat.cast_intCast] at h3 ⊢
      linarith

/-- Roots are floats again, and no other float is nearer to the exact root: `sqrt` is rounded
correctly. -/
theorem C140_sqrt (hf : f.Ok) {q : ℚ} (h : f.Has q) (hq : 0 ≤ q) :
    ∃ r : ℚ, sqrt (.fin q : Flt f) = .fin r ∧ f.Has r ∧ 0 ≤ r ∧
      ∀ z : ℚ, f.Has z → |(r : ℝ) - √(q : ℝ)| ≤ |(z : ℝ) - √(q : ℝ)| := by
  rcases hq.eq_or_lt with rfl | hq
  · refine ⟨0, by simp [sqrt], ?_, le_refl _, fun z _ => by simp⟩
    exact ⟨0, max 0 (f.emin - (f.prec - 1)), by simp, le_max_right _ _, by simp, by simp; positivity⟩
  obtain ⟨k, e1, e2, e3, e4⟩ := sqrt_units (f := f) hq
  set e := max (Int.log 2 q / 2) f.emin with he
  set u : ℚ := 2 ^ (e - ((f.prec : Int) - 1)) with hu
  have hup : 0 < u := by positivity
  have huR : (0 : ℝ) < u := castQ hup
  have hpp := hf.prec_pos
  have epu : (2 : ℝ) ^ (e + 1) = (2 ^ f.prec : Nat) * u := by
    rw [hu]; push_cast; rw [← zpow_natCast, ← zpow_add₀ (by norm_num)]; congr 1; ring
  have hkle : k ≤ 2 ^ f.prec := by
    have h1 := (abs_le.1 e3).2
    push_cast at h1
    have h2 : (k : ℝ) * u < ((2 ^ f.prec : Nat) + 1) * u := by rw [epu] at e2; linarith
    have h3 := lt_of_mul_lt_mul_right h2 huR.le
    have : k < 2 ^ f.prec + 1 := by exact_mod_cast h3
    omega
  have hlog : Int.log 2 q ≤ f.emax := by
    obtain ⟨_, _, _, _, _, hb⟩ := h
    have := log_le hq.ne'
    rw [abs_of_pos hq] at this hb
    have := (zpow_lt_zpow_iff_right₀ (by norm_num : (1 : ℚ) < 2)).1 (this.trans_lt hb)
    omega
  have hee : e + 1 ≤ f.emax := by
    have h1 := hf.emin_le
    have h2 := hf.prec_le
    rcases max_cases (Int.log 2 q / 2) f.emin with ⟨h, _⟩ | ⟨h, _⟩ <;> rw [he, h] <;> omega
  have hemin : f.emin ≤ e := le_max_right _ _
  have epuQ : (2 : ℚ) ^ (e + 1) = 2 ^ f.prec * u := by
    rw [hu, ← zpow_natCast, ← zpow_add₀ (by norm_num)]; congr 1; ring
  have hb : |(k : ℚ) * u| < 2 ^ (f.emax + 1) := by
    rw [abs_of_nonneg (by positivity)]
    have h1 : (k : ℚ) * u ≤ 2 ^ (e + 1) := by
      rw [epuQ]; exact mul_le_mul_of_nonneg_right (by exact_mod_cast hkle) hup.le
    exact h1.trans_lt ((zpow_lt_zpow_iff_right₀ (by norm_num)).2 (by omega))
  refine ⟨k * u, e1, ?_, by positivity, fun z hz => ?_⟩
  · rcases hkle.lt_or_eq with hlt | heq
    · exact ⟨k, e - (f.prec - 1), by rw [Nat.abs_cast]; exact_mod_cast hlt, by omega, by push_cast; rfl, hb⟩
    · refine ⟨1, e + 1, ?_, by omega, ?_, hb⟩
      · rw [abs_one]; exact one_lt_pow₀ (by norm_num) (by omega)
      · rw [heq, epuQ]; push_cast; ring
  · obtain ⟨m, x, hm, hx, hzx, -⟩ := hz
    by_cases hxe : e - (f.prec - 1) ≤ x
    · have := e4 (m * 2 ^ (x - (e - ((f.prec : Int) - 1))).toNat)
      have e5 : ((m * 2 ^ (x - (e - ((f.prec : Int) - 1))).toNat : Int) : ℚ) * u = z := by
        rw [hzx, two_zpow_sub hxe, hu]; push_cast; ring
      rwa [e5] at this
    · push Not at hxe
      have hl : f.emin < Int.log 2 q / 2 := by
        by_contra hc
        push Not at hc
        rw [max_eq_right hc] at he
        omega
      have hel : e = Int.log 2 q / 2 := by rw [he, max_eq_left hl.le]
      have hzl : z < 2 ^ e := by
        refine (le_abs_self z).trans_lt ?_
        rw [hzx, abs_mul, abs_of_pos (by positivity : (0 : ℚ) < 2 ^ x)]
        have h1 : (|m| : ℚ) * 2 ^ x < 2 ^ ((f.prec : Int) + x) := by
          rw [zpow_add₀ (by norm_num), zpow_natCast]
          exact mul_lt_mul_of_pos_right (by exact_mod_cast hm) (by positivity)
        exact h1.trans_le ((zpow_le_zpow_iff_right₀ (by norm_num)).2 (by omega))
      have hpow : ((2 ^ (f.prec - 1) : Int) : ℚ) * u = 2 ^ e := by
        rw [hu, two_zpow_sub (a := e) (b := e - ((f.prec : Int) - 1)) (by omega)]
        congr 3
        omega
      have h1 := e4 (2 ^ (f.prec - 1))
      rw [hpow] at h1
      refine h1.trans ?_
      have h2 : (((2 : ℚ) ^ e : ℚ) : ℝ) ≤ √(q : ℝ) := by
        apply Real.le_sqrt_of_sq_le
        have := (root_exp hq).1
        rw [← hel] at this
        exact_mod_cast this
      have h3 : (z : ℝ) < (((2 : ℚ) ^ e : ℚ) : ℝ) := by exact_mod_cast hzl
      rw [abs_of_nonpos (by linarith), abs_of_nonpos (by linarith)]
      linarith

/-- Roots of negative numbers are NaN. -/
theorem C140_sqrt_special (q : ℚ) (hq : q < 0) :
    sqrt (.fin q : Flt f) = .nan ∧ sqrt (.inf true : Flt f) = .nan ∧ sqrt (.nan : Flt f) = .nan ∧
      sqrt (.inf false : Flt f) = .inf false := by
  refine ⟨?_, rfl, rfl, rfl⟩
  unfold sqrt
  exact if_pos hq

/-- The error of a root. -/
theorem sqrt_error {q : ℚ} (hq : 0 < q) :
    ∃ r : ℚ, sqrt (.fin q : Flt f) = .fin r ∧
      |(r : ℝ) - √(q : ℝ)| ≤ f.u * max (√(q : ℝ)) (2 ^ f.emin) := by
  obtain ⟨k, e1, -, e3, -⟩ := sqrt_units (f := f) hq
  refine ⟨_, e1, e3.trans ?_⟩
  have hu : ((2 : ℚ) ^ (max (Int.log 2 q / 2) f.emin - ((f.prec : Int) - 1))) / 2 =
      f.u * 2 ^ (max (Int.log 2 q / 2) f.emin) := by
    unfold FloatFmt.u
    rw [show max (Int.log 2 q / 2) f.emin - ((f.prec : Int) - 1) =
      max (Int.log 2 q / 2) f.emin + 1 + (-(f.prec : Int)) by ring, zpow_add₀ (by norm_num),
      zpow_add₀ (by norm_num), zpow_neg, zpow_natCast, zpow_one]
    field_simp
  have hu' := congrArg (fun x : ℚ => (x : ℝ)) hu
  push_cast at hu' ⊢
  rw [hu']
  have h0 : (0 : ℝ) ≤ f.u := by exact_mod_cast (u_pos f).le
  refine mul_le_mul_of_nonneg_left ?_ h0
  rcases max_cases (Int.log 2 q / 2) f.emin with ⟨h, _⟩ | ⟨h, _⟩ <;> rw [h]
  · refine le_max_of_le_left (Real.le_sqrt_of_sq_le ?_)
    have : ((((2 : ℚ) ^ (Int.log 2 q / 2)) ^ 2 : ℚ) : ℝ) ≤ (q : ℝ) := by exact_mod_cast (root_exp hq).1
    push_cast at this
    exact this
  · exact le_max_right _ _

/-- Roots of squares are exact. -/
theorem sqrt_square {r : ℚ} (h : f.Has r) (hr : 0 ≤ r) : sqrt (.fin (r ^ 2) : Flt f) = .fin r := by
  rcases hr.eq_or_lt with rfl | hr
  · simp [sqrt]
  obtain ⟨j, hj⟩ := Has.div_ulp h hr.ne'
  have h1 := log_le hr.ne'
  have h2 := lt_log r
  rw [abs_of_pos hr] at h1 h2
  have hlog : Int.log 2 (r ^ 2) / 2 = Int.log 2 |r| := by
    rw [abs_of_pos hr]
    have h3 := log_le (pow_pos hr 2).ne'
    have h4 := lt_log (r ^ 2)
    rw [abs_of_pos (pow_pos hr 2)] at h3 h4
    have h5 : (2 : ℚ) ^ (Int.log 2 r * 2) ≤ r ^ 2 := by
      rw [zpow_mul]; exact pow_le_pow_left₀ (by positivity) h1 2
    have h6 : r ^ 2 < (2 : ℚ) ^ ((Int.log 2 r + 1) * 2) := by
      rw [zpow_mul]; exact pow_lt_pow_left₀ h2 hr.le (by norm_num)
    have h7 := (zpow_lt_zpow_iff_right₀ (by norm_num : (1 : ℚ) < 2)).1 (h5.trans_lt h4)
    have h8 := (zpow_lt_zpow_iff_right₀ (by norm_num : (1 : ℚ) < 2)).1 (h3.trans_lt h6)
    omega
  obtain ⟨k, e1, -, -, e4⟩ := sqrt_units (f := f) (pow_pos hr 2)
  rw [hlog] at e1 e4
  change _ = Flt.fin ((k : ℚ) * ulp f r) at e1
  have e5 := e4 j
  change |(((k : ℚ) * ulp f r : ℚ) : ℝ) - _| ≤ |((j * ulp f r : ℚ) : ℝ) - _| at e5
  have hs : √((r ^ 2 : ℚ) : ℝ) = (r : ℝ) := by
    push_cast; exact Real.sqrt_sq (by exact_mod_cast hr.le)
  rw [← hj, div_mul_cancel₀ _ (ulp_pos f r).ne', hs, sub_self, abs_zero] at e5
  have e6 := abs_eq_zero.1 (le_antisymm e5 (abs_nonneg _))
  have e7 : (k : ℚ) * ulp f r = r := by
    have := sub_eq_zero.1 e6
    exact_mod_cast this
  rw [e1, e7]

/-- How far the root moves if the square is off by the relative error `d`. -/
private theorem root_move {s t d : ℝ} (ht : 0 < t) (hd0 : 0 ≤ d) (hd : d ≤ 1 / 4) (h : |s - t| ≤ d * t) :
    |√s - √t| ≤ (d / 2 + d ^ 2 / 2) * √t := by
  have hst := Real.sqrt_pos.2 ht
  have htt : √t ^ 2 = t := Real.sq_sqrt ht.le
  obtain ⟨h1, h2⟩ := abs_le.1 h
  rw [abs_le]
  constructor
  · have : (1 - d / 2 - d ^ 2 / 2) * √t ≤ √s := by
      apply Real.le_sqrt_of_sq_le
      have h3 : (1 - d / 2 - d ^ 2 / 2) ^ 2 ≤ 1 - d := by nlinarith [mul_nonneg hd0 hd0, mul_nonneg (mul_nonneg hd0 hd0) hd0]
      rw [mul_pow, htt]
      nlinarith
    linarith
  · have : √s ≤ (1 + d / 2 + d ^ 2 / 2) * √t := by
      apply Real.sqrt_le_iff.2
      refine ⟨by positivity, ?_⟩
      rw [mul_pow, htt]
      have h3 : 1 + d ≤ (1 + d / 2 + d ^ 2 / 2) ^ 2 := by nlinarith [mul_nonneg hd0 hd0, mul_nonneg (mul_nonneg hd0 hd0) hd0]
      nlinarith
    linarith

/-- C140 as far as it holds: if the square of the absolute value does not underflow, the result, if finite,
is within four units (relative to the exact value), and it is finite if the square does not overflow.
Missing: numbers the square of which over- or underflows. -/
theorem C140_abs_partial (hf : f.Ok) (hp : 6 ≤ f.prec) (a b : ℚ) (ht : 2 ^ f.emin ≤ a ^ 2 + b ^ 2) :
    (∀ r, Complex.abs sqrt (⟨.fin a, .fin b⟩ : Complex (Flt f)) = .fin r →
      |(r : ℝ) - √((a : ℝ) ^ 2 + (b : ℝ) ^ 2)| ≤ 4 * f.u * √((a : ℝ) ^ 2 + (b : ℝ) ^ 2)) ∧
    ((1 + f.u) ^ 2 * (a ^ 2 + b ^ 2) + 2 * (1 + f.u) * f.eta ≤ f.max →
      ∃ r, Complex.abs sqrt (⟨.fin a, .fin b⟩ : Complex (Flt f)) = .fin r) := by
  obtain ⟨h1, h2⟩ := C126_abs_squared (f := f) hf a b
  set t := a ^ 2 + b ^ 2 with htd
  have hu0 := u_pos f
  have hu1 : f.u ≤ 1 / 64 := by
    unfold FloatFmt.u
    apply one_div_le_one_div_of_le (by norm_num)
    calc (64 : ℚ) = 2 ^ 6 := by norm_num
      _ ≤ 2 ^ f.prec := pow_le_pow_right₀ (by norm_num) hp
  have hpos : (0 : ℚ) < t := lt_of_lt_of_le (by positivity) ht
  have heta : f.eta ≤ f.u * t := by
    unfold FloatFmt.eta FloatFmt.u
    rw [sub_eq_add_neg, zpow_add₀ (by norm_num), zpow_neg, zpow_natCast, one_div, mul_comm]
    exact mul_le_mul_of_nonneg_left ht (by positivity)
  have hv : ∀ v, Complex.absSquared (⟨.fin a, .fin b⟩ : Complex (Flt f)) = .fin v →
      |v - t| ≤ (4 * f.u + 3 * f.u ^ 2) * t := by
    intro v e
    refine (h1 v e).trans ?_
    rw [show (2 - 1 : Nat) = 1 from rfl, pow_one]
    push_cast
    nlinarith [mul_le_mul_of_nonneg_left heta (by linarith : (0 : ℚ) ≤ 2 * (1 + f.u))]
  have hvp : ∀ v, |v - t| ≤ (4 * f.u + 3 * f.u ^ 2) * t → 0 < v := by
    intro v hv
    have h3 := (abs_le.1 hv).1
    have h4 : 4 * f.u + 3 * f.u ^ 2 ≤ 1 / 2 := by nlinarith
    have h5 := mul_le_mul_of_nonneg_right h4 hpos.le
    linarith
  constructor
  · intro r hr
    unfold Complex.abs at hr
    cases hs : Complex.absSquared (⟨.fin a, .fin b⟩ : Complex (Flt f)) with
    | nan => rw [hs] at hr; cases hr
    | inf s => rw [hs] at hr; cases s <;> cases hr
    | fin v =>
      have hv' := hv v hs
      have hv0 := hvp v hv'
      obtain ⟨r', e1, e2⟩ := sqrt_error (f := f) hv0
      rw [hs, e1] at hr
      obtain rfl : r' = r := Flt.fin.inj hr
      have htR : (a : ℝ) ^ 2 + (b : ℝ) ^ 2 = (t : ℝ) := by rw [htd]; push_cast; rfl
      rw [htR]
      set U : ℝ := (f.u : ℝ) with hU
      have hU0 : 0 < U := castQ hu0
      have hU1 : U ≤ 1 / 64 := by
        have : ((f.u : ℚ) : ℝ) ≤ ((1 / 64 : ℚ) : ℝ) := by exact_mod_cast hu1
        push_cast at this
        exact this
      have hT : (0 : ℝ) < t := castQ hpos
      have hd : |(v : ℝ) - t| ≤ (4 * U + 3 * U ^ 2) * t := by
        have : ((|v - t| : ℚ) : ℝ) ≤ (((4 * f.u + 3 * f.u ^ 2) * t : ℚ) : ℝ) := by exact_mod_cast hv'
        push_cast at this
        exact this
      have hm := root_move hT (by positivity) (by nlinarith) hd
      have hS := Real.sqrt_pos.2 hT
      have hmin : (2 : ℝ) ^ f.emin ≤ √(t : ℝ) := by
        apply Real.le_sqrt_of_sq_le
        have h3 : ((2 : ℚ) ^ f.emin) ^ 2 ≤ t := by
          refine le_trans ?_ ht
          have : (2 : ℚ) ^ f.emin ≤ 1 := zpow_le_one_of_nonpos₀ (by norm_num) hf.emin_le
          have h0 : (0 : ℚ) < 2 ^ f.emin := by positivity
          nlinarith
        have : ((((2 : ℚ) ^ f.emin) ^ 2 : ℚ) : ℝ) ≤ (t : ℝ) := by exact_mod_cast h3
        push_cast at this
        exact this
      set D : ℝ := (4 * U + 3 * U ^ 2) / 2 + (4 * U + 3 * U ^ 2) ^ 2 / 2 with hD
      have hDp : 0 ≤ D := by positivity
      have hmax : max (√(v : ℝ)) (2 ^ f.emin) ≤ (1 + D) * √(t : ℝ) := by
        refine max_le ?_ ?_
        · have := (abs_le.1 hm).2
          linarith
        · nlinarith
      have h5 : |(r' : ℝ) - √(v : ℝ)| ≤ U * ((1 + D) * √(t : ℝ)) :=
        e2.trans (mul_le_mul_of_nonneg_left hmax hU0.le)
      have h6 := abs_sub_le (r' : ℝ) (√(v : ℝ)) (√(t : ℝ))
      have h7 : U * (1 + D) + D ≤ 4 * U := by
        have h8 : 4 * U + 3 * U ^ 2 ≤ (4 + 3 / 64) * U := by nlinarith
        have h9 : (4 * U + 3 * U ^ 2) ^ 2 ≤ ((4 + 3 / 64) * U) ^ 2 :=
          pow_le_pow_left₀ (by positivity) h8 2
        have h10 : D ≤ (2 + 3 / 128 + 9 / 64) * U := by rw [hD]; nlinarith
        nlinarith
      calc |(r' : ℝ) - √(t : ℝ)| ≤ _ := h6
        _ ≤ U * ((1 + D) * √(t : ℝ)) + D * √(t : ℝ) := add_le_add h5 hm
        _ = (U * (1 + D) + D) * √(t : ℝ) := by ring
        _ ≤ 4 * U * √(t : ℝ) := mul_le_mul_of_nonneg_right h7 hS.le
  · intro hb
    obtain ⟨v, hv1⟩ := h2 (by simpa using hb)
    obtain ⟨r, e1, -⟩ := sqrt_error (f := f) (hvp v (hv v hv1))
    exact ⟨r, by unfold Complex.abs; rw [hv1, e1]⟩

/-- C140 for integers with an integer absolute value. -/
theorem C140_exact (hf : f.Ok) (x y z : Int) (h : x ^ 2 + y ^ 2 = z ^ 2) (hz : 0 ≤ z)
    (hb : z ^ 2 ≤ 2 ^ f.prec) :
    Complex.abs sqrt (⟨ofZ x, ofZ y⟩ : Complex (Flt f)) = ofZ z := by
  have hsq := C127_abs_squared (f := f) hf x y (by rw [h]; exact hb)
  unfold Complex.abs
  rw [hsq, h]
  have hz1 : |z| ≤ 2 ^ f.prec := by
    rw [abs_of_nonneg hz]
    nlinarith
  have := sqrt_square (f := f) (has_int hf hz1) (by exact_mod_cast hz)
  unfold ofZ
  rw [← this]
  push_cast
  rfl

/-- C140 is violated: the absolute values `2^600` and `2^-600` are representable, the results are infinity
and 0. -/
theorem C140_violated :
    FloatFmt.f64.Has (2 ^ 600) ∧ FloatFmt.f64.Has (1 / 2 ^ 600) ∧
    Complex.abs sqrt (⟨.fin (2 ^ 600), .fin 0⟩ : Complex (Flt .f64)) = .inf false ∧
    Complex.abs sqrt (⟨.fin (1 / 2 ^ 600), .fin 0⟩ : Complex (Flt .f64)) = .fin 0 := by
  refine ⟨⟨1, 600, by norm_num [FloatFmt.f64], by norm_num [FloatFmt.f64], by norm_num, ?_⟩,
    ⟨1, -600, by norm_num [FloatFmt.f64], by norm_num [FloatFmt.f64], by norm_num, ?_⟩,
    by decide +kernel, by decide +kernel⟩
  · decide +kernel
  · decide +kernel

-- |3 + 4i| is exact, |1 + i| is the float nearest to the root of two
example : Complex.abs sqrt (⟨.fin 3, .fin (-4)⟩ : Complex (Flt .f64)) = .fin 5 := by decide +kernel
example : Complex.abs sqrt (⟨.fin 1, .fin 1⟩ : Complex (Flt .f64)) = .fin (6369051672525773 / 2 ^ 52) := by
  decide +kernel
example : sqrt (.fin (-1) : Flt .f32) = .nan ∧ sqrt (.inf false : Flt .f32) = .inf false := by decide +kernel
example : (2 : ℚ) ^ FloatFmt.f64.emin ≤ 1 ^ 2 + 1 ^ 2 ∧ 6 ≤ FloatFmt.f64.prec := by
  constructor <;> decide +kernel

end Verif
