import Verif.Props.FloatDiv

/-!
# C128 where products underflow
-/

namespace Verif

open Flt

variable {f : FloatFmt}

/-- A quotient of two sums with small relative and absolute errors. -/
private theorem quot_error_under (hp : 5 ≤ f.prec) {N A D n d r : ℚ} (hD : 8 * f.eta ≤ D) (hA : |N| ≤ A)
    (hn : |n - N| ≤ ((1 + f.u) ^ 2 - 1) * A + 2 * (1 + f.u) * f.eta)
    (hd : |d - D| ≤ ((1 + f.u) ^ 2 - 1) * D + 2 * (1 + f.u) * f.eta)
    (hr : rnd f (n / d) = .fin r) :
    |r - N / D| ≤ (8 * f.u + 4 * (f.eta / D)) * (A / D) + 4 * (f.eta / D) + f.eta := by
  have hu := u_pos f
  have he := eta_pos f
  have hu32 : f.u ≤ 1 / 32 := by
    unfold FloatFmt.u
    apply one_div_le_one_div_of_le (by norm_num)
    calc (32 : ℚ) = 2 ^ 5 := by norm_num
      _ ≤ 2 ^ f.prec := pow_le_pow_right₀ (by norm_num) hp
  set u := f.u with hud
  set e := f.eta with hed
  have hD0 : 0 < D := by linarith
  have hA0 : 0 ≤ A := (abs_nonneg _).trans hA
  have hg : (1 + u) ^ 2 - 1 ≤ 33 / 16 * u := by nlinarith
  have hh : 2 * (1 + u) * e ≤ 33 / 16 * e := by nlinarith
  have hn' : |n - N| ≤ 33 / 16 * u * A + 33 / 16 * e :=
    hn.trans (add_le_add (mul_le_mul_of_nonneg_right hg hA0) hh)
  have hd' : |d - D| ≤ 33 / 16 * u * D + 33 / 16 * e :=
    hd.trans (add_le_add (mul_le_mul_of_nonneg_right hg hD0.le) hh)
  have huD : u * D ≤ 1 / 32 * D := mul_le_mul_of_nonneg_right hu32 hD0.le
  have hdpos : 2 / 3 * D ≤ d := by have := (abs_le.1 hd').1; linarith
  have hd0 : 0 < d := by linarith
  have hnA : |n| ≤ (1 + 33 / 16 * u) * A + 33 / 16 * e := by
    have := abs_sub_abs_le_abs_sub n N
    linarith
  have hAD : 0 ≤ A / D := div_nonneg hA0 hD0.le
  have heD : 0 ≤ e / D := div_nonneg he.le hD0.le
  have e1 : |n / d - N / D| ≤ (33 / 8 * u * A + 33 / 16 * e + 33 / 16 * e * (A / D)) / d := by
    have t : n / d - N / D = ((n - N) - (d - D) * (N / D)) / d := by field_simp; ring
    rw [t, abs_div, abs_of_pos hd0]
    refine div_le_div_of_nonneg_right ?_ hd0.le
    refine (abs_sub _ _).trans ?_
    rw [abs_mul, abs_div, abs_of_pos hD0]
    have t2 : |d - D| * (|N| / D) ≤ (33 / 16 * u * D + 33 / 16 * e) * (A / D) :=
      mul_le_mul hd' (div_le_div_of_nonneg_right hA hD0.le) (div_nonneg (abs_nonneg _) hD0.le) (by positivity)
    have t3 : (33 / 16 * u * D + 33 / 16 * e) * (A / D) = 33 / 16 * u * A + 33 / 16 * e * (A / D) := by
      field_simp
    linarith
  have e3 : |n / d| ≤ ((1 + 33 / 16 * u) * A + 33 / 16 * e) / d := by
    rw [abs_div, abs_of_pos hd0]
    exact div_le_div_of_nonneg_right hnA hd0.le
  have e4 := rnd_error hr
  have e5 : |r - N / D| ≤ |r - n / d| + |n / d - N / D| := abs_sub_le _ _ _
  have e6 : u * |n / d| ≤ u * (((1 + 33 / 16 * u) * A + 33 / 16 * e) / d) :=
    mul_le_mul_of_nonneg_left e3 hu.le
  have e7 : |r - N / D| ≤ (16 / 3 * u * A + 8 / 3 * e + 8 / 3 * e * (A / D)) / d + e := by
    have t : u * (((1 + 33 / 16 * u) * A + 33 / 16 * e) / d) +
        (33 / 8 * u * A + 33 / 16 * e + 33 / 16 * e * (A / D)) / d =
        (u * ((1 + 33 / 16 * u) * A + 33 / 16 * e) +
          (33 / 8 * u * A + 33 / 16 * e + 33 / 16 * e * (A / D))) / d := by ring
    have t2 : (u * ((1 + 33 / 16 * u) * A + 33 / 16 * e) +
          (33 / 8 * u * A + 33 / 16 * e + 33 / 16 * e * (A / D))) / d ≤
        (16 / 3 * u * A + 8 / 3 * e + 8 / 3 * e * (A / D)) / d := by
      refine div_le_div_of_nonneg_right ?_ hd0.le
      have t3 : u * (u * A) ≤ 1 / 32 * (u * A) := mul_le_mul_of_nonneg_right hu32 (by positivity)
      have t4 : u * e ≤ 1 / 32 * e := mul_le_mul_of_nonneg_right hu32 he.le
      have t5 : 0 ≤ e * (A / D) := by positivity
      have t6 : 0 ≤ u * A := by positivity
      nlinarith
    linarith
  have e8 : (16 / 3 * u * A + 8 / 3 * e + 8 / 3 * e * (A / D)) / d ≤
      (16 / 3 * u * A + 8 / 3 * e + 8 / 3 * e * (A / D)) / (2 / 3 * D) :=
    div_le_div_of_nonneg_left (by positivity) (by linarith) hdpos
  have e9 : (16 / 3 * u * A + 8 / 3 * e + 8 / 3 * e * (A / D)) / (2 / 3 * D) =
      (8 * u + 4 * (e / D)) * (A / D) + 4 * (e / D) := by
    field_simp
    ring
  linarith

/-- … which does not overflow. -/
private theorem quot_total_under (hf : f.Ok) (hp : 5 ≤ f.prec) {N A D n d : ℚ} (hD : 8 * f.eta ≤ D)
    (hA : |N| ≤ A) (hn : |n - N| ≤ ((1 + f.u) ^ 2 - 1) * A + 2 * (1 + f.u) * f.eta)
    (hd : |d - D| ≤ ((1 + f.u) ^ 2 - 1) * D + 2 * (1 + f.u) * f.eta)
    (hmax : 2 * (A / D) + 4 * (f.eta / D) ≤ f.max) : ∃ r, (Flt.fin n : Flt f) / .fin d = .fin r := by
  have hu := u_pos f
  have he := eta_pos f
  have hu32 : f.u ≤ 1 / 32 := by
    unfold FloatFmt.u
    apply one_div_le_one_div_of_le (by norm_num)
    calc (32 : ℚ) = 2 ^ 5 := by norm_num
      _ ≤ 2 ^ f.prec := pow_le_pow_right₀ (by norm_num) hp
  set u := f.u with hud
  set e := f.eta with hed
  have hD0 : 0 < D := by linarith
  have hA0 : 0 ≤ A := (abs_nonneg _).trans hA
  have hg : (1 + u) ^ 2 - 1 ≤ 1 / 15 := by nlinarith
  have hh : 2 * (1 + u) * e ≤ 33 / 16 * e := by nlinarith
  have hn' := hn.trans (add_le_add (mul_le_mul_of_nonneg_right hg hA0) hh)
  have hd' := hd.trans (add_le_add (mul_le_mul_of_nonneg_right hg hD0.le) hh)
  have hdpos : 2 / 3 * D ≤ d := by have := (abs_le.1 hd').1; linarith
  have hd0 : 0 < d := by linarith
  have hnA : |n| ≤ 4 / 3 * A + 8 / 3 * e := by
    have := abs_sub_abs_le_abs_sub n N
    linarith
  obtain ⟨r, hr⟩ := rnd_total hf (x := n / d) (by
    refine le_trans ?_ hmax
    rw [abs_div, abs_of_pos hd0]
    calc |n| / d ≤ (4 / 3 * A + 8 / 3 * e) / d := div_le_div_of_nonneg_right hnA hd0.le
      _ ≤ (4 / 3 * A + 8 / 3 * e) / (2 / 3 * D) :=
        div_le_div_of_nonneg_left (by positivity) (by linarith) hdpos
      _ = _ := by field_simp; ring)
  refine ⟨r, ?_⟩
  change div _ _ = _
  unfold div
  simp only [if_neg hd0.ne']
  exact hr

/-- C128 with underflows, for all finite components the square of whose divisor does not overflow and is at least
eight times the largest number that vanishes: each finite component of a quotient is off by at most `8u`
times the magnitude of its terms, and what underflows is lost relative to the square of the divisor; a component is
finite if neither its terms nor the quotient overflow. Missing: a bound that does not grow as the square of the
divisor gets small, which is false. -/
theorem C128_complex_under_partial (hf : f.Ok) (hp : 5 ≤ f.prec) (a b c d : ℚ)
    (hD : 8 * f.eta ≤ c ^ 2 + d ^ 2)
    (hmax : (1 + f.u) ^ 2 * (c ^ 2 + d ^ 2) + 2 * (1 + f.u) * f.eta ≤ f.max) :
    let q := Complex.div (⟨.fin a, .fin b⟩ : Complex (Flt f)) ⟨.fin c, .fin d⟩
    let D := c ^ 2 + d ^ 2
    (∀ r, q.real = .fin r → |r - (a * c + b * d) / D| ≤
      (8 * f.u + 4 * (f.eta / D)) * ((|a * c| + |b * d|) / D) + 4 * (f.eta / D) + f.eta) ∧
    ((1 + f.u) ^ 2 * (|a * c| + |b * d|) + 2 * (1 + f.u) * f.eta ≤ f.max →
      2 * ((|a * c| + |b * d|) / D) + 4 * (f.eta / D) ≤ f.max → ∃ r, q.real = .fin r) ∧
    (∀ r, q.imag = .fin r → |r - (b * c - a * d) / D| ≤
      (8 * f.u + 4 * (f.eta / D)) * ((|b * c| + |a * d|) / D) + 4 * (f.eta / D) + f.eta) ∧
    ((1 + f.u) ^ 2 * (|b * c| + |a * d|) + 2 * (1 + f.u) * f.eta ≤ f.max →
      2 * ((|b * c| + |a * d|) / D) + 4 * (f.eta / D) ≤ f.max → ∃ r, q.imag = .fin r) := by
  intro q D
  obtain ⟨s, hs⟩ := (C126_abs_squared hf c d).2 (by push_cast; simpa using hmax)
  have hse := (C126_abs_squared hf c d).1 s hs
  push_cast at hse
  rw [pow_one] at hse
  have hdiv : ((Flt.fin c : Flt f) * .fin c + .fin d * .fin d) = .fin s := hs
  have hreal : q.real = ((Flt.fin a : Flt f) * .fin c + .fin b * .fin d) / .fin s := by rw [← hdiv]; rfl
  have himag : q.imag = ((Flt.fin b : Flt f) * .fin c - .fin a * .fin d) / .fin s := by rw [← hdiv]; rfl
  have key : ∀ (x : Flt f) (N A : ℚ), |N| ≤ A → Accurate x N A 2 →
      (∀ r, x / .fin s = .fin r →
        |r - N / D| ≤ (8 * f.u + 4 * (f.eta / D)) * (A / D) + 4 * (f.eta / D) + f.eta) ∧
      ((1 + f.u) ^ 2 * A + 2 * (1 + f.u) * f.eta ≤ f.max →
        2 * (A / D) + 4 * (f.eta / D) ≤ f.max → ∃ r, x / .fin s = .fin r) := by
    intro x N A hA hx
    obtain ⟨h1, h2⟩ := hx
    push_cast at h1 h2
    rw [pow_one] at h1 h2
    refine ⟨fun r hr => ?_, fun h3 h4 => ?_⟩
    · rcases div_fin hr with ⟨n, s', hn, hs', -, hrr⟩ | ⟨t, ht⟩
      · obtain rfl := Flt.fin.inj hs'
        exact quot_error_under hp hD hA (h1 n hn) hse hrr
      · cases ht
    · obtain ⟨n, rfl⟩ := h2 h3
      exact quot_total_under hf hp hD hA (h1 n rfl) hse h4
  rw [hreal, himag]
  obtain ⟨k1, k2⟩ := key _ _ _ (abs_add_le _ _) (accurate_two hf a c b d).1
  obtain ⟨k3, k4⟩ := key _ _ _ (abs_sub _ _) (accurate_two hf b c a d).2
  exact ⟨k1, k2, k3, k4⟩

/-- C128 for the division by a real number, likewise. -/
theorem C128_scalar_under_partial (hf : f.Ok) (hp : 5 ≤ f.prec) (a b c : ℚ) (hD : 8 * f.eta ≤ c ^ 2)
    (hmax : c ^ 2 ≤ f.max) :
    let q := Complex.divScalar (⟨.fin a, .fin b⟩ : Complex (Flt f)) (.fin c)
    ∀ p ∈ [(q.real, a), (q.imag, b)],
      (∀ r, p.1 = .fin r → |r - p.2 / c| ≤
        (8 * f.u + 4 * (f.eta / c ^ 2)) * |p.2 / c| + 4 * (f.eta / c ^ 2) + f.eta) ∧
      (|p.2 * c| ≤ f.max → 2 * |p.2 / c| + 4 * (f.eta / c ^ 2) ≤ f.max → ∃ r, p.1 = .fin r) := by
  intro q
  have he := eta_pos f
  have hu := u_pos f
  have hc0 : 0 < c ^ 2 := by linarith
  have hc : c ≠ 0 := by rintro rfl; norm_num at hc0
  have grow : ∀ {x t : ℚ}, |x - t| ≤ f.u * |t| + f.eta →
      |x - t| ≤ ((1 + f.u) ^ 2 - 1) * |t| + 2 * (1 + f.u) * f.eta := by
    intro x t h
    refine h.trans (add_le_add (mul_le_mul_of_nonneg_right ?_ (abs_nonneg _)) ?_)
    · nlinarith
    · nlinarith
  obtain ⟨s, hs⟩ := rnd_total hf (x := c * c) (by rw [abs_mul_self, ← pow_two]; exact hmax)
  have hse := grow (rnd_error hs)
  rw [abs_mul_self, ← pow_two] at hse
  have key : ∀ x : ℚ,
      (∀ r, ((Flt.fin x : Flt f) * .fin c) / (.fin c * .fin c) = .fin r → |r - x / c| ≤
        (8 * f.u + 4 * (f.eta / c ^ 2)) * |x / c| + 4 * (f.eta / c ^ 2) + f.eta) ∧
      (|x * c| ≤ f.max → 2 * |x / c| + 4 * (f.eta / c ^ 2) ≤ f.max →
        ∃ r, ((Flt.fin x : Flt f) * .fin c) / (.fin c * .fin c) = .fin r) := by
    intro x
    have e1 : x * c / c ^ 2 = x / c := by field_simp
    have e2 : |x * c| / c ^ 2 = |x / c| := by rw [← e1, abs_div, abs_of_pos hc0]
    rw [show (Flt.fin c : Flt f) * .fin c = .fin s from hs]
    refine ⟨fun r hr => ?_, fun h1 h2 => ?_⟩
    · rcases div_fin hr with ⟨n, s', hn, hs', -, hrr⟩ | ⟨t, ht⟩
      · obtain rfl := Flt.fin.inj hs'
        have := quot_error_under hp hD (le_refl _) (grow (rnd_error hn)) hse hrr
        rwa [e1, e2] at this
      · cases ht
    · obtain ⟨n, hn⟩ := rnd_total hf h1
      rw [show (Flt.fin x : Flt f) * .fin c = .fin n from hn]
      exact quot_total_under hf hp hD (le_refl _) (grow (rnd_error hn)) hse (by rwa [e2])
  intro p hp'
  simp only [List.mem_cons, List.not_mem_nil, or_false] at hp'
  rcases hp' with rfl | rfl
  · exact key a
  · exact key b

/-- Dividing by `2^-535`, the square of which is `16` times the smallest positive f64: the products of small
components underflow. The hypotheses are met; the real part is exact, the imaginary part is lost, within the bound. -/
example : (8 * FloatFmt.f64.eta ≤ (1 / 2 ^ 535) ^ 2 ∧ ((1 / 2 ^ 535) ^ 2 : ℚ) ≤ FloatFmt.f64.max ∧
    (Complex.divScalar (⟨.fin (3 / 2 ^ 535), .fin (1 / 2 ^ 545)⟩ : Complex (Flt .f64)) (.fin (1 / 2 ^ 535))).real = .fin 3) ∧
    (Complex.divScalar (⟨.fin (3 / 2 ^ 535), .fin (1 / 2 ^ 545)⟩ : Complex (Flt .f64)) (.fin (1 / 2 ^ 535))).imag = .fin 0 := by
  decide +kernel

end Verif
