import Verif.Props.FloatSqrt
import Verif.Props.FloatDiv

/-!
# C140 where the square over- or underflows
-/

namespace Verif

open Flt

variable {f : FloatFmt}

theorem sqrt_of_zero : sqrt (.fin 0 : Flt f) = .fin 0 := by simp [sqrt]

/-- A positive float has a positive root. -/
theorem sqrt_ne_zero (hf : f.Ok) {q : ℚ} (h : f.Has q) (hq : 0 < q) : sqrt (.fin q : Flt f) ≠ .fin 0 := by
  intro he
  obtain ⟨r, e1, -, -, e4⟩ := C140_sqrt hf h hq.le
  rw [he] at e1
  obtain rfl : (0 : ℚ) = r := Flt.fin.inj e1
  have hR : (0 : ℝ) < q := by exact_mod_cast hq
  have hS := Real.sqrt_pos.2 hR
  have hSS : √(q : ℝ) * √(q : ℝ) = q := Real.mul_self_sqrt hR.le
  push_cast at e4
  by_cases h1 : q ≤ 1
  · have h2 := e4 q h
    have hq1 : (q : ℝ) ≤ 1 := by exact_mod_cast h1
    have hS1 : √(q : ℝ) ≤ 1 := Real.sqrt_le_one.2 hq1
    have h3 : (q : ℝ) ≤ √(q : ℝ) := by nlinarith
    rw [zero_sub, abs_neg, abs_of_pos hS, abs_sub_comm, abs_of_nonneg (by linarith)] at h2
    linarith
  · push Not at h1
    have h2 := e4 (1 : Int) (has_int hf (by
      have : 1 ≤ 2 ^ f.prec := Nat.one_le_two_pow
      rw [abs_one]
      exact_mod_cast this))
    have hq1 : (1 : ℝ) ≤ q := by exact_mod_cast h1.le
    have hS1 : 1 ≤ √(q : ℝ) := Real.one_le_sqrt.2 hq1
    push_cast at h2
    rw [zero_sub, abs_neg, abs_of_pos hS, abs_sub_comm, abs_of_nonneg (by linarith)] at h2
    linarith

/-- A square is infinite exactly if it overflows, and otherwise finite and not negative. -/
theorem sq_cases (hf : f.Ok) (c : ℚ) :
    (f.over ≤ c * c ∧ (Flt.fin c : Flt f) * .fin c = .inf false) ∨
    (c * c < f.over ∧ ∃ y, (Flt.fin c : Flt f) * .fin c = .fin y ∧ 0 ≤ y ∧ f.Has y ∧ (y = 0 ↔ c * c ≤ f.eta)) := by
  rcases mul_cases hf c c with ⟨h, e⟩ | ⟨h, y, e⟩
  · rw [abs_mul_self] at h
    exact .inl ⟨h, sq_over hf h⟩
  · rw [abs_mul_self] at h
    refine .inr ⟨h, y, e, ?_, rnd_has hf e, ?_⟩
    · by_contra hy
      push Not at hy
      have h1 := rnd_nearest e (Has.zero f)
      have h2 := mul_self_nonneg c
      rw [abs_of_nonpos (by linarith), zero_sub, abs_neg, abs_of_nonneg h2] at h1
      linarith
    · have hz := rnd_eq_zero_iff hf (c * c)
      rw [abs_mul_self] at hz
      rw [← hz, ← fin_mul, e]
      exact ⟨fun h => by rw [h], fun h => Flt.fin.inj h⟩

/-- C140, exactly when the absolute value is lost: the result is never NaN; it is 0 exactly if both squares
vanish; it is infinite exactly if one of the squares overflows, or the sum of the rounded squares does. -/
theorem C140_range_exact_partial (hf : f.Ok) (a b : ℚ) :
    let r := Complex.abs sqrt (⟨.fin a, .fin b⟩ : Complex (Flt f))
    r ≠ .nan ∧ r ≠ .inf true ∧
    (r = .fin 0 ↔ a * a ≤ f.eta ∧ b * b ≤ f.eta) ∧
    (r = .inf false ↔ f.over ≤ a * a ∨ f.over ≤ b * b ∨
      ∃ x y, rnd f (a * a) = .fin x ∧ rnd f (b * b) = .fin y ∧ f.over ≤ x + y) := by
  intro r
  have hr : r = sqrt (.fin a * .fin a + .fin b * .fin b) := rfl
  have hov : f.eta < f.over := by
    have h1 : (f.eta : ℚ) ≤ 2 ^ (f.emax - f.prec) := by
      unfold FloatFmt.eta
      apply zpow_le_zpow_right₀ (by norm_num)
      have := hf.emin_le
      have := hf.prec_le
      omega
    have h2 : (2 : ℚ) ^ (f.emax - f.prec) ≤ 2 ^ f.emax := by
      apply zpow_le_zpow_right₀ (by norm_num)
      omega
    have h3 : (2 : ℚ) ^ (f.emax + 1) = 2 * 2 ^ f.emax := by
      rw [zpow_add₀ (by norm_num), zpow_one]; ring
    have h4 : (2 : ℚ) ^ (f.emax - f.prec) < 2 ^ f.emax := by
      apply zpow_lt_zpow_right₀ (by norm_num)
      have := hf.prec_pos
      omega
    unfold FloatFmt.over
    linarith
  have hinf : sqrt (.inf false : Flt f) = .inf false := rfl
  rcases sq_cases hf a with ⟨ha, ea⟩ | ⟨ha, x, ea, hx, hxh, hx0⟩
  · have e : r = .inf false := by
      rw [hr, ea]
      rcases sq_cases hf b with ⟨_, eb⟩ | ⟨_, y, eb, _⟩ <;> rw [eb] <;> rfl
    rw [e]
    refine ⟨by simp, by simp, ⟨fun h => (by cases h), fun h => ?_⟩, ⟨fun _ => .inl ha, fun _ => rfl⟩⟩
    exact absurd (h.1.trans_lt hov) (not_lt.mpr ha)
  · rcases sq_cases hf b with ⟨hb, eb⟩ | ⟨hb, y, eb, hy, hyh, hy0⟩
    · have e : r = .inf false := by
        rw [hr, ea, eb]; rfl
      rw [e]
      refine ⟨by simp, by simp, ⟨fun h => (by cases h), fun h => ?_⟩, ⟨fun _ => .inr (.inl hb), fun _ => rfl⟩⟩
      exact absurd (h.2.trans_lt hov) (not_lt.mpr hb)
    · have hs0 : 0 ≤ x + y := add_nonneg hx hy
      rw [ea, eb, fin_add] at hr
      have hsum : ∀ x' y', rnd f (a * a) = .fin x' → rnd f (b * b) = .fin y' → x' = x ∧ y' = y := by
        intro x' y' h1 h2
        rw [fin_mul] at ea eb
        rw [ea] at h1
        rw [eb] at h2
        exact ⟨(Flt.fin.inj h1).symm, (Flt.fin.inj h2).symm⟩
      by_cases hc : f.over ≤ x + y
      · have e : r = .inf false := by
          rw [hr, (rnd_eq_inf_iff hf (x + y) false).mpr ⟨by rw [abs_of_nonneg hs0]; exact hc, by
            rw [eq_comm, decide_eq_false_iff_not]; linarith⟩]
          rfl
        rw [e]
        refine ⟨by simp, by simp, ⟨fun h => (by cases h), fun h => ?_⟩,
          ⟨fun _ => .inr (.inr ⟨x, y, ea, eb, hc⟩), fun _ => rfl⟩⟩
        rw [hx0.mpr h.1, hy0.mpr h.2] at hc
        have := eta_pos f
        linarith
      · have hfin : ∃ s, rnd f (x + y) = .fin s := by
          cases e : rnd f (x + y) with
          | nan => exact absurd e (rnd_ne_nan _)
          | inf s =>
            have := ((rnd_eq_inf_iff hf _ _).mp e).1
            rw [abs_of_nonneg hs0] at this
            exact absurd this hc
          | fin s => exact ⟨s, rfl⟩
        obtain ⟨s, es⟩ := hfin
        have hs : 0 ≤ s := by
          by_contra hn
          push Not at hn
          have h1 := rnd_nearest es (Has.zero f)
          rw [abs_of_nonpos (by linarith), zero_sub, abs_neg, abs_of_nonneg hs0] at h1
          linarith
        have hzero : s = 0 ↔ x = 0 ∧ y = 0 := by
          constructor
          · rintro rfl
            have h1 := rnd_add_error hxh hyh es
            rw [zero_sub, abs_neg, abs_of_nonneg hs0] at h1
            have hu : f.u < 1 := by
              unfold FloatFmt.u
              rw [div_lt_one (by positivity)]
              exact one_lt_pow₀ (by norm_num) (by have := hf.prec_pos; omega)
            have : x + y = 0 := by
              by_contra hne
              have hp : 0 < x + y := lt_of_le_of_ne hs0 (Ne.symm hne)
              nlinarith
            exact ⟨by linarith, by linarith⟩
          · rintro ⟨rfl, rfl⟩
            rw [add_zero, rnd_zero] at es
            exact (Flt.fin.inj es).symm
        rw [es] at hr
        obtain ⟨q, eq, _⟩ := C140_sqrt hf (rnd_has hf es) hs
        have hq : r = .fin q := by rw [hr, eq]
        refine ⟨by rw [hq]; simp, by rw [hq]; simp, ?_, ?_⟩
        · rw [← hx0, ← hy0, ← hzero, hr]
          constructor
          · intro h
            by_contra hne
            exact sqrt_ne_zero hf (rnd_has hf es) (lt_of_le_of_ne hs (Ne.symm hne)) h
          · rintro rfl
            exact sqrt_of_zero
        · rw [hq]
          constructor
          · intro h; cases h
          · rintro (h | h | ⟨x', y', h1, h2, h3⟩)
            · exact absurd h (not_le.mpr ha)
            · exact absurd h (not_le.mpr hb)
            · obtain ⟨rfl, rfl⟩ := hsum x' y' h1 h2
              exact absurd h3 hc

/-- C140 for all finite components: whenever the result is finite, it is off by at most four units and three times
the root of the smallest number that does not vanish. Missing: that the second part is not needed, which is false. -/
theorem C140_abs_error_partial (hf : f.Ok) (hp : 6 ≤ f.prec) (a b r : ℚ)
    (hr : Complex.abs sqrt (⟨.fin a, .fin b⟩ : Complex (Flt f)) = .fin r) :
    |(r : ℝ) - √((a : ℝ) ^ 2 + (b : ℝ) ^ 2)| ≤ 4 * f.u * √((a : ℝ) ^ 2 + (b : ℝ) ^ 2) + 3 * √(f.eta : ℝ) := by
  have heta0 : (0 : ℝ) ≤ √(f.eta : ℝ) := Real.sqrt_nonneg _
  rcases le_or_gt (2 ^ f.emin : ℚ) (a ^ 2 + b ^ 2) with ht | ht
  · have := (C140_abs_partial hf hp a b ht).1 r hr
    linarith
  obtain ⟨h1, -⟩ := C126_abs_squared (f := f) hf a b
  set t := a ^ 2 + b ^ 2 with htd
  have ht0 : 0 ≤ t := by positivity
  have hu0 := u_pos f
  have hu1 : f.u ≤ 1 / 64 := by
    unfold FloatFmt.u
    apply one_div_le_one_div_of_le (by norm_num)
    calc (64 : ℚ) = 2 ^ 6 := by norm_num
      _ ≤ 2 ^ f.prec := pow_le_pow_right₀ (by norm_num) hp
  have heq : f.eta = f.u * 2 ^ f.emin := by
    unfold FloatFmt.eta FloatFmt.u
    rw [sub_eq_add_neg, zpow_add₀ (by norm_num), zpow_neg, zpow_natCast, one_div, mul_comm]
  have hut : f.u * t ≤ f.eta := by
    rw [heq]; exact mul_le_mul_of_nonneg_left ht.le hu0.le
  have hmin1 : (2 : ℚ) ^ f.emin ≤ 1 := zpow_le_one_of_nonpos₀ (by norm_num) hf.emin_le
  have hetap := eta_pos f
  have heta1 : f.eta ≤ 1 / 64 := by rw [heq]; nlinarith
  have htR : (a : ℝ) ^ 2 + (b : ℝ) ^ 2 = (t : ℝ) := by rw [htd]; push_cast; rfl
  rw [htR]
  unfold Complex.abs at hr
  cases hs : Complex.absSquared (⟨.fin a, .fin b⟩ : Complex (Flt f)) with
  | nan => rw [hs] at hr; cases hr
  | inf s => rw [hs] at hr; cases s <;> cases hr
  | fin v =>
    rw [hs] at hr
    have hv := h1 v hs
    rw [show (2 - 1 : Nat) = 1 from rfl, pow_one] at hv
    push_cast at hv
    have hv4 : |v - t| ≤ (4 + 1 / 16) * f.eta := by
      refine hv.trans ?_
      nlinarith
    have hv0 : 0 ≤ v := by
      by_contra hn
      push Not at hn
      rw [(C140_sqrt_special v hn).1] at hr
      cases hr
    have hvR : (0 : ℝ) ≤ v := by exact_mod_cast hv0
    have htR0 : (0 : ℝ) ≤ t := by exact_mod_cast ht0
    have hetaR : (0 : ℝ) < f.eta := by exact_mod_cast hetap
    have hetaR1 : (f.eta : ℝ) ≤ 1 / 64 := by
      have : ((f.eta : ℚ) : ℝ) ≤ ((1 / 64 : ℚ) : ℝ) := by exact_mod_cast heta1
      push_cast at this
      exact this
    set E : ℝ := √(f.eta : ℝ) with hE
    have hEE : E * E = f.eta := Real.mul_self_sqrt hetaR.le
    have hE0 : 0 < E := Real.sqrt_pos.2 hetaR
    have hE1 : E ≤ 1 / 8 := by nlinarith
    set S : ℝ := √(t : ℝ) with hS
    set V : ℝ := √(v : ℝ) with hV
    have hSS : S * S = t := Real.mul_self_sqrt htR0
    have hVV : V * V = v := Real.mul_self_sqrt hvR
    have hS0 : 0 ≤ S := Real.sqrt_nonneg _
    have hV0 : 0 ≤ V := Real.sqrt_nonneg _
    have hd : |V * V - S * S| ≤ (4 + 1 / 16) * (E * E) := by
      rw [hSS, hVV, hEE]
      have : ((|v - t| : ℚ) : ℝ) ≤ (((4 + 1 / 16) * f.eta : ℚ) : ℝ) := by exact_mod_cast hv4
      push_cast at this
      exact this
    have hVS : |V - S| ≤ (2 + 1 / 32) * E := by
      obtain ⟨d1, d2⟩ := abs_le.1 hd
      rw [abs_le]
      constructor
      · by_contra hn
        push Not at hn
        nlinarith
      · by_contra hn
        push Not at hn
        nlinarith
    set U : ℝ := (f.u : ℝ) with hU
    have hU0 : 0 < U := by rw [hU]; exact_mod_cast hu0
    have hU1 : U ≤ 1 / 64 := by
      have : ((f.u : ℚ) : ℝ) ≤ ((1 / 64 : ℚ) : ℝ) := by exact_mod_cast hu1
      push_cast at this
      exact this
    have hUm : U * 2 ^ f.emin = E * E := by
      rw [hEE]
      have := congrArg (fun x : ℚ => (x : ℝ)) heq
      push_cast at this
      exact this.symm
    have hrv : |(r : ℝ) - V| ≤ U * V + E * E := by
      rcases hv0.lt_or_eq with hpos | hz
      · obtain ⟨r', e1, e2⟩ := sqrt_error (f := f) hpos
        rw [e1] at hr
        obtain rfl : r' = r := Flt.fin.inj hr
        refine e2.trans ?_
        rw [← hUm, ← mul_add]
        refine mul_le_mul_of_nonneg_left (max_le ?_ ?_) hU0.le
        · have : (0 : ℝ) ≤ 2 ^ f.emin := by positivity
          linarith
        · linarith
      · subst hz
        rw [sqrt_of_zero] at hr
        obtain rfl : (0 : ℚ) = r := Flt.fin.inj hr
        have : V = 0 := by rw [hV]; simp
        rw [this]
        simp
        nlinarith
    have h6 := abs_sub_le (r : ℝ) V S
    have hVle : V ≤ S + (2 + 1 / 32) * E := by
      have := (abs_le.1 hVS).2
      linarith
    nlinarith

/-- Between, accuracy is lost gradually: the absolute value of `3 * 2^-538`, the square of which is rounded to
`2^-1073`, comes out more than a twentieth too small; that of `2^-538` comes out as zero. -/
example :
    (match Complex.abs sqrt (⟨.fin (3 / 2 ^ 538), .fin 0⟩ : Complex (Flt .f64)) with
      | .fin r => decide (r < 19 / 20 * (3 / 2 ^ 538) ∧ 9 / 10 * (3 / 2 ^ 538) < r)
      | _ => false) = true ∧
    (1 / 2 ^ 538 * (1 / 2 ^ 538) : ℚ) ≤ FloatFmt.f64.eta ∧
    Complex.abs sqrt (⟨.fin (1 / 2 ^ 538), .fin 0⟩ : Complex (Flt .f64)) = .fin 0 := by decide +kernel

/-- Neither square overflows, but their sum does: the absolute value of `3 * 2^510 (1 + i)`. -/
example : ¬ FloatFmt.f64.over ≤ (3 * 2 ^ 510 * (3 * 2 ^ 510) : ℚ) ∧
    Complex.abs sqrt (⟨.fin (3 * 2 ^ 510), .fin (3 * 2 ^ 510)⟩ : Complex (Flt .f64)) = .inf false := by
  decide +kernel

end Verif
