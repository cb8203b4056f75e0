import Verif.Props.Float
import Verif.Lemmas.FloatRange

/-!
# Division of complex floats (C128)
-/

namespace Verif

open Flt

variable {f : FloatFmt}

/-! ## C128 -/

theorem rnd_rel {x y : ℚ} (hs : f.Safe x) (h : rnd f x = .fin y) : |y - x| ≤ f.u * |x| := by
  rcases hs with rfl | hs
  · rw [rnd_fin_of_zero h]; simp
  · refine (rnd_error_max h).trans (max_le (le_refl _) ?_)
    unfold FloatFmt.eta FloatFmt.u
    rw [sub_eq_add_neg, zpow_add₀ (by norm_num), zpow_neg, zpow_natCast, one_div, mul_comm]
    exact mul_le_mul_of_nonneg_left hs (by positivity)

/-- Two products that do not underflow. -/
private theorem two_rel (hf : f.Ok) {a b c d v : ℚ} (h1 : f.Safe (a * b)) (h2 : f.Safe (c * d))
    (sub : Bool)
    (h : (if sub then (Flt.fin a * .fin b - .fin c * .fin d : Flt f)
      else Flt.fin a * .fin b + .fin c * .fin d) = .fin v) :
    |v - (if sub then a * b - c * d else a * b + c * d)| ≤
      ((1 + f.u) ^ 2 - 1) * (|a * b| + |c * d|) := by
  have hu := u_pos f
  cases sub with
  | false =>
    simp only [Bool.false_eq_true, if_false] at h ⊢
    obtain ⟨s, y, hs, hy, hr⟩ := add_fin h
    have := (step_error (f := f) (k := 0) hu.le (le_refl (0 : ℚ)) (s := s) (S := a * b) (T := |a * b|)
      (y := y) (x := c * d) (by simpa using rnd_rel h1 hs) (le_refl _)
      (by simpa using rnd_rel h2 hy)).2 v (rnd_add_error (rnd_has hf hs) (rnd_has hf hy) hr)
    refine this.trans (le_of_eq ?_)
    ring
  | true =>
    simp only [if_true] at h ⊢
    obtain ⟨s, y, hs, hy, hr⟩ := sub_fin h
    rw [sub_eq_add_neg s] at hr
    have hyy := rnd_rel h2 hy
    have := (step_error (f := f) (k := 0) hu.le (le_refl (0 : ℚ)) (s := s) (S := a * b) (T := |a * b|)
      (y := -y) (x := -(c * d)) (by simpa using rnd_rel h1 hs) (le_refl _)
      (by rw [abs_neg, ← abs_neg, show -(-y - -(c * d)) = y - c * d by ring]; simpa using hyy)).2 v
      (rnd_add_error (rnd_has hf hs) (Has.neg (rnd_has hf hy)) hr)
    rw [abs_neg, ← sub_eq_add_neg] at this
    refine this.trans (le_of_eq ?_)
    ring

theorem div_fin {x y : Flt f} {r : ℚ} (h : x / y = .fin r) :
    (∃ a b, x = .fin a ∧ y = .fin b ∧ b ≠ 0 ∧ rnd f (a / b) = .fin r) ∨ ∃ s, y = .inf s := by
  change div x y = _ at h
  unfold div at h
  split at h
  · split_ifs at h with hb ha
    exact .inl ⟨_, _, rfl, rfl, hb, h⟩
  · exact .inr ⟨_, rfl⟩
  · cases h
  · cases h

/-- A quotient of two sums with small relative errors. -/
private theorem quot_error (hp : 5 ≤ f.prec) {N A D n d r : ℚ} (hD : 0 < D) (hA : |N| ≤ A)
    (hn : |n - N| ≤ ((1 + f.u) ^ 2 - 1) * A) (hd : |d - D| ≤ ((1 + f.u) ^ 2 - 1) * D)
    (hr : rnd f (n / d) = .fin r) : |r - N / D| ≤ 6 * f.u * (A / D) + f.eta := by
  have hu := u_pos f
  have hu32 : f.u ≤ 1 / 32 := by
    unfold FloatFmt.u
    apply one_div_le_one_div_of_le (by norm_num)
    calc (32 : ℚ) = 2 ^ 5 := by norm_num
      _ ≤ 2 ^ f.prec := pow_le_pow_right₀ (by norm_num) hp
  set g := (1 + f.u) ^ 2 - 1 with hg
  have hg0 : 0 < g := by nlinarith
  have hg1 : g ≤ 1 / 15 := by nlinarith
  have hA0 : 0 ≤ A := (abs_nonneg _).trans hA
  have hdpos : (1 - g) * D ≤ d := by have := (abs_le.1 hd).1; linarith
  have hd0 : 0 < d := lt_of_lt_of_le (by nlinarith) hdpos
  have hnA : |n| ≤ (1 + g) * A := by
    have := abs_sub_abs_le_abs_sub n N
    linarith
  -- the error before the last rounding
  have e1 : |n / d - N / D| ≤ 2 * g * A / d := by
    rw [div_sub_div _ _ hd0.ne' hD.ne', abs_div, abs_of_pos (mul_pos hd0 hD), div_le_div_iff₀
      (mul_pos hd0 hD) hd0]
    have e2 : |n * D - d * N| ≤ 2 * g * A * D := by
      have t : n * D - d * N = (n - N) * D - (d - D) * N := by ring
      rw [t]
      refine (abs_sub _ _).trans ?_
      rw [abs_mul, abs_mul, abs_of_pos hD]
      have t1 := mul_le_mul_of_nonneg_right hn hD.le
      have t2 := mul_le_mul hd hA (abs_nonneg _) (by positivity)
      nlinarith
    have := mul_le_mul_of_nonneg_right e2 hd0.le
    nlinarith
  have e3 : |n / d| ≤ (1 + g) * A / d := by
    rw [abs_div, abs_of_pos hd0]
    exact div_le_div_of_nonneg_right hnA hd0.le
  have e4 := rnd_error hr
  have e5 : |r - N / D| ≤ |r - n / d| + |n / d - N / D| := abs_sub_le _ _ _
  have e6 : A / d ≤ A / ((1 - g) * D) := div_le_div_of_nonneg_left hA0 (by nlinarith) hdpos
  have e7 : (2 * g + f.u * (1 + g)) ≤ 6 * f.u * (1 - g) := by rw [hg]; nlinarith
  have e8 : |r - N / D| ≤ (2 * g + f.u * (1 + g)) * (A / d) + f.eta := by
    have t1 := mul_le_mul_of_nonneg_left e3 hu.le
    have t2 : 2 * g * A / d = 2 * g * (A / d) := by ring
    have t3 : f.u * ((1 + g) * A / d) = f.u * (1 + g) * (A / d) := by ring
    rw [t2] at e1
    rw [t3] at t1
    linarith
  refine e8.trans (add_le_add_left ?_ _)
  have hAD : 0 ≤ A / ((1 - g) * D) := div_nonneg hA0 (by nlinarith)
  calc (2 * g + f.u * (1 + g)) * (A / d)
      ≤ (2 * g + f.u * (1 + g)) * (A / ((1 - g) * D)) :=
        mul_le_mul_of_nonneg_left e6 (by positivity)
    _ ≤ 6 * f.u * (1 - g) * (A / ((1 - g) * D)) := mul_le_mul_of_nonneg_right e7 hAD
    _ = 6 * f.u * (A / D) := by
      have : 1 - g ≠ 0 := by intro h; linarith
      field_simp

/-- … which does not overflow. -/
private theorem quot_total (hf : f.Ok) (hp : 5 ≤ f.prec) {N A D n d : ℚ} (hD : 0 < D) (hA : |N| ≤ A)
    (hn : |n - N| ≤ ((1 + f.u) ^ 2 - 1) * A) (hd : |d - D| ≤ ((1 + f.u) ^ 2 - 1) * D)
    (hmax : 2 * (A / D) ≤ f.max) : ∃ r, (Flt.fin n : Flt f) / .fin d = .fin r := by
  have hu := u_pos f
  have hu32 : f.u ≤ 1 / 32 := by
    unfold FloatFmt.u
    apply one_div_le_one_div_of_le (by norm_num)
    calc (32 : ℚ) = 2 ^ 5 := by norm_num
      _ ≤ 2 ^ f.prec := pow_le_pow_right₀ (by norm_num) hp
  set g := (1 + f.u) ^ 2 - 1 with hg
  have hg1 : g ≤ 1 / 15 := by nlinarith
  have hA0 : 0 ≤ A := (abs_nonneg _).trans hA
  have hdpos : (1 - g) * D ≤ d := by have := (abs_le.1 hd).1; linarith
  have hd0 : 0 < d := lt_of_lt_of_le (by nlinarith) hdpos
  have hnA : |n| ≤ (1 + g) * A := by
    have := abs_sub_abs_le_abs_sub n N
    linarith
  obtain ⟨r, hr⟩ := rnd_total hf (x := n / d) (by
    refine le_trans ?_ hmax
    rw [abs_div, abs_of_pos hd0, ← mul_div_assoc, div_le_div_iff₀ hd0 hD]
    have t1 := mul_le_mul_of_nonneg_right hnA hD.le
    have t2 := mul_le_mul_of_nonneg_left hdpos (by linarith : 0 ≤ 2 * A)
    have t3 : 0 ≤ A * D := by positivity
    nlinarith)
  refine ⟨r, ?_⟩
  change div _ _ = _
  unfold div
  simp only [if_neg hd0.ne']
  exact hr

/-- C128: a component of a quotient of complex floats, if no product underflows and the square of the
divisor does not overflow. Missing: the general case, which is false. -/
theorem C128_complex_div_partial (hf : f.Ok) (hp : 5 ≤ f.prec) (a b c d : ℚ) (h0 : c ≠ 0 ∨ d ≠ 0)
    (hc : f.Safe (c * c)) (hd : f.Safe (d * d)) (h1 : f.Safe (a * c)) (h2 : f.Safe (b * d))
    (h3 : f.Safe (b * c)) (h4 : f.Safe (a * d))
    (hmax : (1 + f.u) ^ 2 * (c ^ 2 + d ^ 2) + 2 * (1 + f.u) * f.eta ≤ f.max) :
    (∀ r, (Complex.div (⟨.fin a, .fin b⟩ : Complex (Flt f)) ⟨.fin c, .fin d⟩).real = .fin r →
      |r - (a * c + b * d) / (c ^ 2 + d ^ 2)| ≤
        6 * f.u * ((|a * c| + |b * d|) / (c ^ 2 + d ^ 2)) + f.eta) ∧
    ((1 + f.u) ^ 2 * (|a * c| + |b * d|) + 2 * (1 + f.u) * f.eta ≤ f.max →
      2 * ((|a * c| + |b * d|) / (c ^ 2 + d ^ 2)) ≤ f.max →
      ∃ r, (Complex.div (⟨.fin a, .fin b⟩ : Complex (Flt f)) ⟨.fin c, .fin d⟩).real = .fin r) ∧
    (∀ r, (Complex.div (⟨.fin a, .fin b⟩ : Complex (Flt f)) ⟨.fin c, .fin d⟩).imag = .fin r →
      |r - (b * c - a * d) / (c ^ 2 + d ^ 2)| ≤
        6 * f.u * ((|b * c| + |a * d|) / (c ^ 2 + d ^ 2)) + f.eta) ∧
    ((1 + f.u) ^ 2 * (|b * c| + |a * d|) + 2 * (1 + f.u) * f.eta ≤ f.max →
      2 * ((|b * c| + |a * d|) / (c ^ 2 + d ^ 2)) ≤ f.max →
      ∃ r, (Complex.div (⟨.fin a, .fin b⟩ : Complex (Flt f)) ⟨.fin c, .fin d⟩).imag = .fin r) := by
  have hD : 0 < c ^ 2 + d ^ 2 := by
    rcases h0 with h | h
    · have := sq_nonneg d; have := pow_pos (abs_pos.2 h) 2; rw [sq_abs] at this; linarith
    · have := sq_nonneg c; have := pow_pos (abs_pos.2 h) 2; rw [sq_abs] at this; linarith
  obtain ⟨D, hDv⟩ := (C126_abs_squared hf c d).2 (by push_cast; simpa using hmax)
  have hDe := two_rel hf hc hd false (v := D) (by simpa [Complex.absSquared] using hDv)
  simp only [Bool.false_eq_true, if_false] at hDe
  rw [abs_mul_self, abs_mul_self, ← pow_two, ← pow_two] at hDe
  have hdiv : ((Flt.fin c : Flt f) * .fin c + .fin d * .fin d) = .fin D := hDv
  refine ⟨?_, fun hn hq => ?_, ?_, fun hn hq => ?_⟩
  · intro r hr
    have hr' : ((Flt.fin a : Flt f) * .fin c + .fin b * .fin d) /
      (.fin c * .fin c + .fin d * .fin d) = .fin r := hr
    rw [hdiv] at hr'
    rcases div_fin hr' with ⟨n, D', hn, hD', -, hrr⟩ | ⟨s, hs⟩
    · injection hD' with hD'
      subst hD'
      have hne := two_rel hf h1 h2 false (v := n) (by simpa using hn)
      simp only [Bool.false_eq_true, if_false] at hne
      exact quot_error hp hD (abs_add_le _ _) hne hDe hrr
    · cases hs
  · obtain ⟨n, hnv⟩ := (accurate_two hf a c b d).1.2 (by push_cast; simpa using hn)
    have hne := two_rel hf h1 h2 false (v := n) (by simpa using hnv)
    simp only [Bool.false_eq_true, if_false] at hne
    obtain ⟨r, hr⟩ := quot_total hf hp hD (abs_add_le _ _) hne hDe hq
    refine ⟨r, ?_⟩
    change ((Flt.fin a : Flt f) * .fin c + .fin b * .fin d) / (.fin c * .fin c + .fin d * .fin d) = _
    rw [hdiv, hnv, hr]
  · intro r hr
    have hr' : ((Flt.fin b : Flt f) * .fin c - .fin a * .fin d) /
      (.fin c * .fin c + .fin d * .fin d) = .fin r := hr
    rw [hdiv] at hr'
    rcases div_fin hr' with ⟨n, D', hn, hD', -, hrr⟩ | ⟨s, hs⟩
    · injection hD' with hD'
      subst hD'
      have hne := two_rel hf h3 h4 true (v := n) (by simpa using hn)
      simp only [if_true] at hne
      exact quot_error hp hD (abs_sub _ _) hne hDe hrr
    · cases hs
  · obtain ⟨n, hnv⟩ := (accurate_two hf b c a d).2.2 (by push_cast; simpa using hn)
    have hne := two_rel hf h3 h4 true (v := n) (by simpa using hnv)
    simp only [if_true] at hne
    obtain ⟨r, hr⟩ := quot_total hf hp hD (abs_sub _ _) hne hDe hq
    refine ⟨r, ?_⟩
    change ((Flt.fin b : Flt f) * .fin c - .fin a * .fin d) / (.fin c * .fin c + .fin d * .fin d) = _
    rw [hdiv, hnv, hr]

/-- C128 for the division by a real number, likewise. -/
theorem C128_scalar_div_partial (hf : f.Ok) (hp : 5 ≤ f.prec) (a b c : ℚ) (h0 : c ≠ 0)
    (hc : f.Safe (c * c)) (h1 : f.Safe (a * c)) (h2 : f.Safe (b * c)) (hmax : |c * c| ≤ f.max) :
    (∀ r, (Complex.divScalar (⟨.fin a, .fin b⟩ : Complex (Flt f)) (.fin c)).real = .fin r →
      |r - a / c| ≤ 6 * f.u * |a / c| + f.eta) ∧
    (|a * c| ≤ f.max → 2 * |a / c| ≤ f.max →
      ∃ r, (Complex.divScalar (⟨.fin a, .fin b⟩ : Complex (Flt f)) (.fin c)).real = .fin r) ∧
    (∀ r, (Complex.divScalar (⟨.fin a, .fin b⟩ : Complex (Flt f)) (.fin c)).imag = .fin r →
      |r - b / c| ≤ 6 * f.u * |b / c| + f.eta) ∧
    (|b * c| ≤ f.max → 2 * |b / c| ≤ f.max →
      ∃ r, (Complex.divScalar (⟨.fin a, .fin b⟩ : Complex (Flt f)) (.fin c)).imag = .fin r) := by
  have hu := u_pos f
  have hcc : 0 < c * c := mul_self_pos.2 h0
  obtain ⟨D, hDv⟩ := rnd_total hf hmax
  have grow : ∀ {x t : ℚ}, |x - t| ≤ f.u * |t| → |x - t| ≤ ((1 + f.u) ^ 2 - 1) * |t| := by
    intro x t h
    refine h.trans (mul_le_mul_of_nonneg_right ?_ (abs_nonneg _))
    nlinarith
  have hDe := grow (rnd_rel hc hDv)
  rw [abs_of_pos hcc] at hDe
  have equ : ∀ a, a * c / (c * c) = a / c ∧ |a * c| / (c * c) = |a / c| := by
    intro a
    have e1 : a * c / (c * c) = a / c := by field_simp
    exact ⟨e1, by rw [← e1, abs_div, abs_of_pos hcc]⟩
  have key : ∀ a r, f.Safe (a * c) → ((Flt.fin a : Flt f) * .fin c) / (.fin c * .fin c) = .fin r →
      |r - a / c| ≤ 6 * f.u * |a / c| + f.eta := by
    intro a r ha hr
    rw [show (Flt.fin c : Flt f) * .fin c = .fin D from hDv] at hr
    rcases div_fin hr with ⟨n, D', hn, hD', -, hrr⟩ | ⟨s, hs⟩
    · injection hD' with hD'
      subst hD'
      have := quot_error hp hcc (le_refl _) (grow (rnd_rel ha hn)) hDe hrr
      rwa [(equ a).1, (equ a).2] at this
    · cases hs
  have tot : ∀ a, f.Safe (a * c) → |a * c| ≤ f.max → 2 * |a / c| ≤ f.max →
      ∃ r, ((Flt.fin a : Flt f) * .fin c) / (.fin c * .fin c) = .fin r := by
    intro a ha hm hq
    obtain ⟨n, hn⟩ := rnd_total hf hm
    rw [show (Flt.fin c : Flt f) * .fin c = .fin D from hDv,
      show (Flt.fin a : Flt f) * .fin c = .fin n from hn]
    exact quot_total hf hp hcc (le_refl _) (grow (rnd_rel ha hn)) hDe (by rwa [(equ a).2])
  exact ⟨fun r hr => key a r h1 hr, tot a h1, fun r hr => key b r h2 hr, tot b h2⟩

/-- C128 fails: the quotient of two equal large numbers is NaN, that of one and a small number infinite
or, for a large one, zero; likewise for the division by a real number. The exact quotients `1`, `2^600`
and `2^-600` are floats. -/
theorem C128_violated :
    (Complex.div (⟨.fin (2 ^ 600), 0⟩ : Complex (Flt .f64)) ⟨.fin (2 ^ 600), 0⟩).real = .nan ∧
    (Complex.div (⟨1, 0⟩ : Complex (Flt .f64)) ⟨.fin (1 / 2 ^ 600), 0⟩).real = .inf false ∧
    (Complex.div (⟨1, 0⟩ : Complex (Flt .f64)) ⟨.fin (2 ^ 600), 0⟩).real = 0 ∧
    (Complex.divScalar (⟨1, 0⟩ : Complex (Flt .f64)) (.fin (1 / 2 ^ 600))).real = .inf false ∧
    (Complex.divScalar (⟨1, 0⟩ : Complex (Flt .f64)) (.fin (2 ^ 600))).real = 0 ∧
    ((Flt.fin (2 ^ 600) : Flt .f64) / .fin (2 ^ 600) = 1 ∧
      (1 : Flt .f64) / .fin (1 / 2 ^ 600) = .fin (2 ^ 600) ∧
      (1 : Flt .f64) / .fin (2 ^ 600) = .fin (1 / 2 ^ 600)) := by decide +kernel

private theorem fin_div_zero (y : ℚ) :
    (Flt.fin y : Flt f) / .fin 0 = if y = 0 then .nan else .inf (decide (y < 0)) := by
  change Flt.div _ _ = _
  unfold Flt.div
  simp only [if_true]

theorem sq_over (hf : f.Ok) {c : ℚ} (h : f.over ≤ c * c) : (Flt.fin c : Flt f) * .fin c = .inf false := by
  rw [fin_mul, rnd_eq_inf_iff hf]
  refine ⟨by rw [abs_mul_self]; exact h, ?_⟩
  rw [eq_comm, decide_eq_false_iff_not]
  have := mul_self_nonneg c
  linarith

theorem sq_under (hf : f.Ok) {c : ℚ} (h : c * c ≤ f.eta) : (Flt.fin c : Flt f) * .fin c = .fin 0 := by
  rw [fin_mul, rnd_eq_zero_iff hf, abs_mul_self]
  exact h

/-- A product of finite floats is an infinity or finite. -/
theorem mul_cases (hf : f.Ok) (a c : ℚ) :
    (f.over ≤ |a * c| ∧ (Flt.fin a : Flt f) * .fin c = .inf (decide (a * c < 0))) ∨
    (|a * c| < f.over ∧ ∃ y, (Flt.fin a : Flt f) * .fin c = .fin y) := by
  rw [fin_mul]
  rcases le_or_gt f.over |a * c| with h | h
  · exact .inl ⟨h, (rnd_eq_inf_iff hf _ _).mpr ⟨h, rfl⟩⟩
  · refine .inr ⟨h, ?_⟩
    cases e : rnd f (a * c) with
    | nan => exact absurd e (rnd_ne_nan _)
    | inf s => exact absurd ((rnd_eq_inf_iff hf _ _).mp e).1 (not_le.mpr h)
    | fin y => exact ⟨y, rfl⟩

private theorem over_inf (x : Flt f) : x / .inf false = .fin 0 ∨ x / .inf false = .nan := by
  cases x with
  | nan => exact .inr rfl
  | inf s => exact .inr rfl
  | fin y => exact .inl rfl

private theorem over_zero (x : Flt f) : (∃ s, x / .fin 0 = .inf s) ∨ x / .fin 0 = .nan := by
  cases x with
  | nan => exact .inr rfl
  | inf s => exact .inl ⟨_, rfl⟩
  | fin y =>
    rw [fin_div_zero]
    split_ifs
    · exact .inr rfl
    · exact .inl ⟨_, rfl⟩

/-- C128, exactly, for divisions by a real number the square of which overflows or vanishes: in the first case a
component of the quotient is 0, or NaN if its product with the number overflows; in the second an infinity, or
NaN if that product vanishes. -/
theorem C128_scalar_range_exact_partial (hf : f.Ok) (a b c : ℚ) :
    let q := Complex.divScalar (⟨.fin a, .fin b⟩ : Complex (Flt f)) (.fin c)
    (f.over ≤ c * c →
      q.real = (if f.over ≤ |a * c| then .nan else 0) ∧ q.imag = (if f.over ≤ |b * c| then .nan else 0)) ∧
    (c * c ≤ f.eta →
      q.real = (if |a * c| ≤ f.eta then .nan else .inf (decide (a * c < 0))) ∧
      q.imag = (if |b * c| ≤ f.eta then .nan else .inf (decide (b * c < 0)))) := by
  intro q
  have hq : q = ⟨(Flt.fin a * .fin c) / (.fin c * .fin c), (Flt.fin b * .fin c) / (.fin c * .fin c)⟩ := rfl
  have lo : ∀ a : ℚ, (Flt.fin a * .fin c : Flt f) / .inf false = if f.over ≤ |a * c| then .nan else 0 := by
    intro a
    rcases mul_cases hf a c with ⟨h, e⟩ | ⟨h, y, e⟩
    · rw [if_pos h, e]; rfl
    · rw [if_neg (not_le.mpr h), e]; rfl
  have hi : ∀ a : ℚ, (Flt.fin a * .fin c : Flt f) / .fin 0 =
      if |a * c| ≤ f.eta then .nan else .inf (decide (a * c < 0)) := by
    intro a
    rcases mul_cases hf a c with ⟨h, e⟩ | ⟨h, y, e⟩
    · rw [if_neg, e]
      · change Flt.inf (xor _ (decide ((0 : ℚ) < 0))) = _
        simp
      · intro hc
        have := (rnd_eq_zero_iff hf (a * c)).mpr hc
        rw [← fin_mul, e] at this
        cases this
    · rw [e]
      rw [fin_mul] at e
      rw [fin_div_zero]
      by_cases hy : y = 0
      · rw [if_pos hy, if_pos ((rnd_eq_zero_iff hf _).mp (by rw [e, hy]))]
      · rw [if_neg hy, if_neg (fun hc => hy (by
          have := (rnd_eq_zero_iff hf _).mpr hc
          rw [e] at this
          injection this))]
        congr 1
        have hx : a * c ≠ 0 := by
          intro h0
          rw [h0] at e
          exact hy (rnd_fin_of_zero e)
        have hup := ulp_pos f (a * c)
        have h1 := (rnd_fin e hx).1
        rw [decide_eq_decide]
        constructor
        · intro h
          by_contra hc
          push Not at hc
          have h2 : (0 : Int) ≤ roundEven (a * c / ulp f (a * c)) := le_roundEven (by push_cast; positivity)
          have h3 : (0 : ℚ) ≤ roundEven (a * c / ulp f (a * c)) := by exact_mod_cast h2
          have := mul_nonneg h3 hup.le
          linarith
        · intro h
          refine lt_of_le_of_ne ?_ hy
          have h2 : roundEven (a * c / ulp f (a * c)) ≤ (0 : Int) := roundEven_le (by
            push_cast; exact div_nonpos_of_nonpos_of_nonneg h.le hup.le)
          have h3 : (roundEven (a * c / ulp f (a * c)) : ℚ) ≤ 0 := by exact_mod_cast h2
          rw [h1]
          exact mul_nonpos_of_nonpos_of_nonneg h3 hup.le
  constructor
  · intro h
    rw [hq, sq_over hf h]
    exact ⟨lo a, lo b⟩
  · intro h
    rw [hq, sq_under hf h]
    exact ⟨hi a, hi b⟩

/-- C128 for divisions by complex numbers, likewise: if the square of a component of the divisor overflows, both
components of the quotient are 0 or NaN, whatever the dividend; if both squares vanish, both are infinite or
NaN. -/
theorem C128_complex_range_partial (hf : f.Ok) (z : Complex (Flt f)) (c d : ℚ) :
    let q := Complex.div z ⟨.fin c, .fin d⟩
    (f.over ≤ c * c ∨ f.over ≤ d * d → ∀ x ∈ [q.real, q.imag], x = 0 ∨ x = .nan) ∧
    (c * c ≤ f.eta → d * d ≤ f.eta → ∀ x ∈ [q.real, q.imag], (∃ s, x = .inf s) ∨ x = .nan) := by
  intro q
  have hq : q = ⟨(z.real * .fin c + z.imag * .fin d) / (.fin c * .fin c + .fin d * .fin d),
    (z.imag * .fin c - z.real * .fin d) / (.fin c * .fin c + .fin d * .fin d)⟩ := rfl
  have sq : ∀ d : ℚ, (Flt.fin d : Flt f) * .fin d = .inf false ∨ ∃ y, (Flt.fin d : Flt f) * .fin d = .fin y := by
    intro d
    rcases mul_cases hf d d with ⟨h, e⟩ | ⟨-, e⟩
    · rw [abs_mul_self] at h
      exact .inl (sq_over hf h)
    · exact .inr e
  constructor
  · intro h
    have hD : (Flt.fin c * .fin c + .fin d * .fin d : Flt f) = .inf false := by
      rcases h with h | h
      · rw [sq_over hf h]
        rcases sq d with e | ⟨y, e⟩ <;> rw [e] <;> rfl
      · rw [sq_over hf h]
        rcases sq c with e | ⟨y, e⟩ <;> rw [e] <;> rfl
    rw [hq, hD]
    intro x hx
    simp only [List.mem_cons, List.not_mem_nil, or_false] at hx
    rcases hx with rfl | rfl <;> exact over_inf _
  · intro h1 h2
    have hD : (Flt.fin c * .fin c + .fin d * .fin d : Flt f) = .fin 0 := by
      rw [sq_under hf h1, sq_under hf h2, fin_add, add_zero, rnd_zero]
    rw [hq, hD]
    intro x hx
    simp only [List.mem_cons, List.not_mem_nil, or_false] at hx
    rcases hx with rfl | rfl <;> exact over_zero _

-- `(2^1000 + i) / 2^512`: the real part is NaN, the imaginary part 0
example : FloatFmt.f64.over ≤ (2 ^ 512 * 2 ^ 512 : ℚ) ∧ FloatFmt.f64.over ≤ |(2 ^ 1000 * 2 ^ 512 : ℚ)| ∧
    ¬ FloatFmt.f64.over ≤ |(1 * 2 ^ 512 : ℚ)| ∧
    Complex.divScalar (⟨.fin (2 ^ 1000), 1⟩ : Complex (Flt .f64)) (.fin (2 ^ 512)) = ⟨.nan, 0⟩ := by
  decide +kernel
-- `-1 / 2^-538`: infinite; the square of `2^-537` does not vanish, and the quotient is right
example : (1 / 2 ^ 538 * (1 / 2 ^ 538) : ℚ) ≤ FloatFmt.f64.eta ∧
    ¬ (1 / 2 ^ 537 * (1 / 2 ^ 537) : ℚ) ≤ FloatFmt.f64.eta ∧
    Complex.divScalar (⟨.fin (-1), 0⟩ : Complex (Flt .f64)) (.fin (1 / 2 ^ 538)) = ⟨.inf true, .nan⟩ ∧
    Complex.divScalar (⟨.fin (-1), 0⟩ : Complex (Flt .f64)) (.fin (1 / 2 ^ 537)) = ⟨.fin (-2 ^ 537), 0⟩ := by
  decide +kernel

example : FloatFmt.f64.Safe (3 * 5) ∧ (1 + FloatFmt.f64.u) ^ 2 * ((3 : ℚ) ^ 2 + 5 ^ 2) +
      2 * (1 + FloatFmt.f64.u) * FloatFmt.f64.eta ≤ FloatFmt.f64.max := by
  constructor
  · exact .inr (by decide +kernel)
  · decide +kernel
example : Complex.div (⟨.fin 1, .fin 1⟩ : Complex (Flt .f64)) ⟨.fin 3, .fin 5⟩ =
    ⟨.fin (8477364004462110 / 2 ^ 55), .fin (-8477364004462110 / 2 ^ 57)⟩ := by decide +kernel

end Verif
