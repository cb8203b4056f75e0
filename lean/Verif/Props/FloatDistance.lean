import Verif.Props.FloatAbs

/-!
# Distances of float vectors (C190)
-/

namespace Verif

open Flt

variable {f : FloatFmt}

/-- What is assumed of `powf(x, 2.0)` of `core`, the precision of which is not specified: the relative error is at
most `e`, up to underflow, and special values are those of squares. -/
structure SquareOk (f : FloatFmt) (e : ℚ) (powf : Flt f → Flt f → Flt f) : Prop where
  value : ∀ d r, powf (.fin d) (.fin 2) = .fin r → f.Has r ∧ 0 ≤ r ∧ |r - d ^ 2| ≤ e * d ^ 2 + f.eta
  finite : ∀ d, (1 + e) * d ^ 2 + f.eta ≤ f.max → ∃ r, powf (.fin d) (.fin 2) = .fin r
  large : ∀ d, powf (.fin d) (.fin 2) ≠ .nan ∧ powf (.fin d) (.fin 2) ≠ .inf true
  inf : ∀ s, powf (.inf s) (.fin 2) = .inf false
  nan : powf .nan (.fin 2) = .nan
  neg : ∀ x, powf (neg x) (.fin 2) = powf x (.fin 2)

/-- A function that multiplies the number by itself is one. -/
theorem squareOk_mul (hf : f.Ok) : SquareOk f f.u fun x _ => x * x where
  value d r h := by
    rcases sq_cases hf d with ⟨_, e⟩ | ⟨_, y, e, h0, hh, _⟩
    · rw [e] at h; cases h
    · rw [e] at h
      obtain rfl := Flt.fin.inj h
      refine ⟨hh, h0, ?_⟩
      have := rnd_error e
      rwa [abs_mul_self, ← pow_two] at this
  finite d h := by
    refine rnd_total hf (le_trans ?_ h)
    have h1 := mul_nonneg (u_pos f).le (sq_nonneg d)
    have h2 := eta_pos f
    rw [abs_mul_self, ← pow_two]
    linarith
  large d := by
    rcases sq_cases hf d with ⟨_, e⟩ | ⟨_, y, e, _⟩ <;> rw [e] <;> exact ⟨nofun, nofun⟩
  inf s := by cases s <;> rfl
  nan := rfl
  neg x := by
    rcases x with _ | s | q
    · rfl
    · cases s <;> rfl
    · change rnd f (-q * -q) = rnd f (q * q)
      rw [neg_mul_neg]

private theorem two_eq (hf : f.Ok) : (1 + 1 : Flt f) = .fin 2 := by
  have h : f.Has (2 : Int) := has_int hf (by
    rw [abs_of_pos (by norm_num)]
    calc (2 : Int) = 2 ^ 1 := rfl
      _ ≤ 2 ^ f.prec := pow_le_pow_right₀ (by norm_num) hf.prec_pos)
  have e := rnd_exact h
  push_cast at e
  change rnd f (1 + 1) = _
  rw [show (1 + 1 : ℚ) = 2 by norm_num, e]

private theorem forall₂_ofFn {α β : Type} {R : α → β → Prop} {n : Nat} {a : Fin n → α} {b : Fin n → β}
    (h : ∀ i, R (a i) (b i)) : List.Forall₂ R (List.ofFn a) (List.ofFn b) := by
  rw [List.forall₂_iff_get]
  refine ⟨by simp, fun i h1 h2 => ?_⟩
  simpa using h ⟨i, by simpa using h1⟩

/-- The squares that are added up. -/
private theorem dist_fold (hf : f.Ok) (powf : Flt f → Flt f → Flt f) {n : Nat} (a b : Fin n → Flt f) :
    Vect.distanceSquared powf (List.ofFn a) (List.ofFn b) =
      (List.ofFn fun i => powf (a i - b i) (.fin 2)).foldl (fun a v => a + v) 0 := by
  unfold Vect.distanceSquared
  simp only [two_eq hf]
  rw [Vect.stdZip_map (fun x y => powf (x - y) (.fin 2)), Vect.zipWith_ofFn]

/-- The difference of two floats. -/
private theorem diff_cases {x y d : ℚ} (hx : f.Has x) (hy : f.Has y) (h : (Flt.fin x - .fin y : Flt f) = .fin d) :
    |d - (x - y)| ≤ f.u * |x - y| := by
  rw [fin_sub, sub_eq_add_neg] at h
  have := rnd_add_error hx (Has.neg hy) h
  rwa [← sub_eq_add_neg] at this

private theorem sq_bounds {u d t : ℚ} (hu : 0 ≤ u) (h : |d - t| ≤ u * |t|) :
    d ^ 2 ≤ (1 + u) ^ 2 * t ^ 2 ∧ |d ^ 2 - t ^ 2| ≤ ((1 + u) ^ 2 - 1) * t ^ 2 := by
  have h1 : |d| ≤ (1 + u) * |t| := by
    have := abs_add_le (d - t) t
    rw [sub_add_cancel] at this
    linarith
  have h2 : |d + t| ≤ (2 + u) * |t| := by
    have := abs_add_le d t
    linarith
  constructor
  · rw [← sq_abs d, ← sq_abs t, ← mul_pow]
    exact pow_le_pow_left₀ (abs_nonneg _) h1 2
  · rw [show d ^ 2 - t ^ 2 = (d - t) * (d + t) by ring, abs_mul, ← sq_abs t]
    calc |d - t| * |d + t| ≤ (u * |t|) * ((2 + u) * |t|) :=
          mul_le_mul h h2 (abs_nonneg _) (by have := abs_nonneg t; positivity)
      _ = _ := by ring

private theorem near_square {e : ℚ} {powf : Flt f → Flt f → Flt f} (he : 0 ≤ e) (hp : SquareOk f e powf) {x y : ℚ}
    (hx : f.Has x) (hy : f.Has y) :
    Near ((1 + f.u) ^ 2 * (1 + e) - 1) f.eta (powf (Flt.fin x - .fin y) (.fin 2)) ((x - y) ^ 2) := by
  intro r hr
  have hu := (u_pos f).le
  rcases hd : (Flt.fin x - .fin y : Flt f) with _ | s | d <;> rw [hd] at hr
  · rw [hp.nan] at hr; cases hr
  · rw [hp.inf] at hr; cases hr
  · obtain ⟨h1, -, h3⟩ := hp.value d r hr
    refine ⟨h1, ?_⟩
    obtain ⟨h4, h5⟩ := sq_bounds hu (diff_cases hx hy hd)
    rw [abs_of_nonneg (sq_nonneg (x - y))]
    have h6 := abs_add_le (r - d ^ 2) (d ^ 2 - (x - y) ^ 2)
    rw [sub_add_sub_cancel] at h6
    nlinarith [mul_le_mul_of_nonneg_left h4 he]

/-- Zero, positive numbers and infinity. -/
private def Nn (v : Flt f) : Prop := v = .inf false ∨ ∃ q, v = .fin q ∧ f.Has q ∧ 0 ≤ q

private theorem rnd_nonneg {x y : ℚ} (hx : 0 ≤ x) (h : rnd f x = .fin y) : 0 ≤ y := by
  by_contra hy
  push Not at hy
  have h1 := rnd_nearest h (Has.zero f)
  rw [abs_of_nonpos (by linarith), zero_sub, abs_neg, abs_of_nonneg hx] at h1
  linarith

private theorem nn_add (hf : f.Ok) {v w : Flt f} (hv : Nn v) (hw : Nn w) : Nn (v + w) := by
  rcases hv with rfl | ⟨a, rfl, ha, ha0⟩ <;> rcases hw with rfl | ⟨b, rfl, hb, hb0⟩
  · exact .inl rfl
  · exact .inl rfl
  · exact .inl rfl
  · rw [fin_add]
    rcases h : rnd f (a + b) with _ | s | q
    · exact absurd h (rnd_ne_nan _)
    · have := ((rnd_eq_inf_iff hf _ _).1 h).2
      rw [this]
      left
      rw [decide_eq_false (by linarith)]
    · exact .inr ⟨q, rfl, rnd_has hf h, rnd_nonneg (add_nonneg ha0 hb0) h⟩

private theorem nn_fold (hf : f.Ok) (l : List (Flt f)) (hl : ∀ v ∈ l, Nn v) : ∀ a, Nn a →
    Nn (l.foldl (fun a v => a + v) a) := by
  induction l with
  | nil => intro a ha; exact ha
  | cons v l ih =>
    intro a ha
    exact ih (fun w hw => hl w (by simp [hw])) _ (nn_add hf ha (hl v (by simp)))

private theorem nn_zero : Nn (0 : Flt f) := .inr ⟨0, rfl, Has.zero f, le_refl _⟩

private theorem nan_fold (l : List (Flt f)) : ∀ a, a = .nan ∨ .nan ∈ l → l.foldl (fun a v => a + v) a = .nan := by
  induction l with
  | nil => intro a h; simpa using h
  | cons v l ih =>
    intro a h
    rw [List.foldl_cons]
    apply ih
    rcases h with rfl | h
    · exact .inl (by cases v <;> rfl)
    · rcases List.mem_cons.1 h with rfl | h
      · exact .inl (by cases a <;> rfl)
      · exact .inr h

private theorem inf_fold (hf : f.Ok) (l : List (Flt f)) : ∀ a, Nn a → (∀ v ∈ l, Nn v) →
    a = .inf false ∨ .inf false ∈ l → l.foldl (fun a v => a + v) a = .inf false := by
  induction l with
  | nil => intro a _ _ h; simpa using h
  | cons v l ih =>
    intro a ha hl h
    rw [List.foldl_cons]
    have hv := hl v (by simp)
    refine ih _ (nn_add hf ha hv) (fun w hw => hl w (by simp [hw])) ?_
    rcases h with rfl | h
    · left
      rcases hv with rfl | ⟨q, rfl, -⟩ <;> rfl
    · rcases List.mem_cons.1 h with rfl | h
      · left
        rcases ha with rfl | ⟨q, rfl, -⟩ <;> rfl
      · exact .inr h

private theorem zero_fold (hf : f.Ok) (hu : f.u < 1) (l : List (Flt f)) : ∀ a, Nn a → (∀ v ∈ l, Nn v) →
    l.foldl (fun a v => a + v) a = .fin 0 → a = .fin 0 ∧ ∀ v ∈ l, v = .fin 0 := by
  induction l with
  | nil => intro a _ _ h; exact ⟨h, by simp⟩
  | cons v l ih =>
    intro a ha hl h
    rw [List.foldl_cons] at h
    have hv := hl v (by simp)
    obtain ⟨h1, h2⟩ := ih _ (nn_add hf ha hv) (fun w hw => hl w (by simp [hw])) h
    obtain ⟨x, y, rfl, rfl, h3⟩ := add_fin h1
    rcases ha with ha | ⟨x', e, hx, hx0⟩
    · cases ha
    obtain rfl := Flt.fin.inj e
    rcases hv with hv | ⟨y', e, hy, hy0⟩
    · cases hv
    obtain rfl := Flt.fin.inj e
    have h4 := rnd_add_error hx hy h3
    rw [zero_sub, abs_neg, abs_of_nonneg (add_nonneg hx0 hy0)] at h4
    have h5 : x + y = 0 := by nlinarith
    have h6 : x = 0 := by linarith
    have h7 : y = 0 := by linarith
    refine ⟨by rw [h6], fun w hw => ?_⟩
    rcases List.mem_cons.1 hw with rfl | hw
    · rw [h7]
    · exact h2 w hw

private theorem nn_square {e : ℚ} {powf : Flt f → Flt f → Flt f} (hp : SquareOk f e powf) {x : Flt f} (hx : x ≠ .nan) :
    Nn (powf x (.fin 2)) := by
  rcases x with _ | s | d
  · exact absurd rfl hx
  · exact .inl (hp.inf s)
  · rcases h : powf (.fin d) (.fin 2) with _ | s | r
    · exact absurd h (hp.large d).1
    · cases s
      · exact .inl rfl
      · exact absurd h (hp.large d).2
    · obtain ⟨h1, h2, -⟩ := hp.value d r h
      exact .inr ⟨r, rfl, h1, h2⟩

private theorem one_le_max (hf : f.Ok) : 1 ≤ f.max := by
  have h1 := hf.prec_pos
  have h2 := hf.prec_le
  unfold FloatFmt.max
  have h3 : (2 : ℚ) ≤ 2 ^ f.prec := by
    calc (2 : ℚ) = 2 ^ 1 := by norm_num
      _ ≤ 2 ^ f.prec := pow_le_pow_right₀ (by norm_num) h1
  have h4 : (1 : ℚ) ≤ 2 ^ (f.emax - (f.prec - 1)) := one_le_zpow₀ (by norm_num) (by omega)
  nlinarith

/-! ## C190 -/

/-- C190 for `distance_squared`. -/
theorem C190_squared (hf : f.Ok) {e : ℚ} (he : 0 ≤ e) {powf : Flt f → Flt f → Flt f} (hp : SquareOk f e powf)
    {n : Nat} (x y : Fin n → ℚ) (hx : ∀ i, f.Has (x i)) (hy : ∀ i, f.Has (y i)) :
    (∀ v, Vect.distanceSquared powf (vec x) (vec y) = .fin v → f.Has v ∧ 0 ≤ v ∧
      |v - ∑ i, (x i - y i) ^ 2| ≤ ((1 + f.u) ^ (n + 1) * (1 + e) - 1) * ∑ i, (x i - y i) ^ 2 +
        n * (1 + f.u) ^ (n - 1) * f.eta) ∧
    ((1 + f.u) ^ (n + 1) * (1 + e) * ∑ i, (x i - y i) ^ 2 + n * (1 + f.u) ^ (n - 1) * f.eta ≤ f.max →
      ∃ v, Vect.distanceSquared powf (vec x) (vec y) = .fin v) := by
  have hu := (u_pos f).le
  have heta := (eta_pos f).le
  set t : Fin n → ℚ := fun i => (x i - y i) ^ 2 with ht
  have ht0 : ∀ i, 0 ≤ t i := fun i => sq_nonneg _
  have hT0 : 0 ≤ ∑ i, t i := Finset.sum_nonneg fun i _ => ht0 i
  have hfold := dist_fold hf powf (fun i => (.fin (x i) : Flt f)) fun i => .fin (y i)
  change Vect.distanceSquared powf (vec x) (vec y) = _ at hfold
  have hnear : List.Forall₂ (Near ((1 + f.u) ^ 2 * (1 + e) - 1) f.eta)
      (List.ofFn fun i => powf (Flt.fin (x i) - .fin (y i)) (.fin 2)) (List.ofFn t) :=
    forall₂_ofFn fun i => near_square he hp (hx i) (hy i)
  have hsum : (List.ofFn t).sum = ∑ i, t i := List.sum_ofFn
  have habs : ((List.ofFn t).map (|·|)).sum = ∑ i, t i := by
    rw [List.map_ofFn, List.sum_ofFn]
    exact Finset.sum_congr rfl fun i _ => abs_of_nonneg (ht0 i)
  have hδ : 0 ≤ (1 + f.u) ^ 2 * (1 + e) - 1 := by
    have h1 : (1 : ℚ) ≤ (1 + f.u) ^ 2 := one_le_pow₀ (by linarith)
    nlinarith
  have hdiff : ∀ i, (Flt.fin (x i) - .fin (y i) : Flt f) ≠ .nan := fun i => by
    rw [fin_sub]; exact rnd_ne_nan _
  rw [hfold]
  rcases Nat.eq_zero_or_pos n with h0 | hpos
  · subst h0
    refine ⟨fun w hw => ?_, fun _ => ⟨0, rfl⟩⟩
    simp only [List.ofFn_zero, List.foldl_nil] at hw
    obtain rfl : (0 : ℚ) = w := Flt.fin.inj hw
    exact ⟨Has.zero f, le_refl _, by simp⟩
  have hpw : (1 + f.u) ^ (n - 1) * (1 + ((1 + f.u) ^ 2 * (1 + e) - 1)) = (1 + f.u) ^ (n + 1) * (1 + e) := by
    rw [show n + 1 = n - 1 + 2 by omega, pow_add]; ring
  constructor
  · intro v hv
    have hnn := nn_fold hf (List.ofFn fun i => powf (Flt.fin (x i) - .fin (y i)) (.fin 2)) (fun w hw => by
      obtain ⟨i, rfl⟩ := (List.mem_ofFn' _ w).1 hw
      exact nn_square hp (hdiff i)) 0 nn_zero
    rw [hv] at hnn
    rcases hnn with h | ⟨q, h, hq, hq0⟩
    · cases h
    obtain rfl := Flt.fin.inj h
    refine ⟨hq, hq0, ?_⟩
    have := fold_error_zero hf hδ heta _ _ hnear hv
    rw [hsum, habs, List.length_ofFn, hpw] at this
    exact this
  · intro hB
    refine fold_total_zero hf hδ heta _ _ hnear ?_ ?_
    · intro w hw
      obtain ⟨i, rfl⟩ := (List.mem_ofFn' _ w).1 hw
      have h1 : t i ≤ ∑ i, t i := Finset.single_le_sum (fun j _ => ht0 j) (Finset.mem_univ i)
      have h2 : (1 : ℚ) ≤ (1 + f.u) ^ (n - 1) := one_le_pow₀ (by linarith)
      have h3 : (1 : ℚ) ≤ n := by exact_mod_cast hpos
      have h4 : (1 + f.u) ^ 2 * (1 + e) * t i + f.eta ≤ f.max := by
        refine le_trans ?_ hB
        rw [← hpw, add_sub_cancel]
        have h5 : (0 : ℚ) ≤ (1 + f.u) ^ 2 * (1 + e) := by positivity
        have h6 : (1 + f.u) ^ 2 * (1 + e) * t i ≤ (1 + f.u) ^ 2 * (1 + e) * ∑ i, t i :=
          mul_le_mul_of_nonneg_left h1 h5
        have h7 := le_mul_of_one_le_left (mul_nonneg h5 hT0) h2
        have h8 : f.eta ≤ n * (1 + f.u) ^ (n - 1) * f.eta :=
          le_mul_of_one_le_left heta (one_le_mul_of_one_le_of_one_le h3 h2)
        calc _ ≤ (1 + f.u) ^ (n - 1) * ((1 + f.u) ^ 2 * (1 + e) * ∑ i, t i) + n * (1 + f.u) ^ (n - 1) * f.eta := by
              linarith
          _ = _ := by ring
      have h9 : |x i - y i| ≤ f.max := by
        have h10 : t i ≤ f.max := by
          have : (1 : ℚ) ≤ (1 + f.u) ^ 2 * (1 + e) :=
            one_le_mul_of_one_le_of_one_le (one_le_pow₀ (by linarith)) (by linarith)
          have := le_mul_of_one_le_left (ht0 i) this
          linarith
        rw [ht] at h10
        simp only at h10
        rw [← sq_abs] at h10
        have h11 := one_le_max hf
        by_contra hc
        push Not at hc
        nlinarith
      obtain ⟨d, hd⟩ := rnd_total hf h9
      change ∃ r, powf (Flt.fin (x i) - .fin (y i)) (.fin 2) = .fin r
      rw [fin_sub, hd]
      refine hp.finite d (le_trans ?_ h4)
      have hd' : (Flt.fin (x i) - .fin (y i) : Flt f) = .fin d := by rw [fin_sub, hd]
      have := (sq_bounds hu (diff_cases (hx i) (hy i) hd')).1
      have := mul_le_mul_of_nonneg_left this (show 0 ≤ 1 + e by linarith)
      change _ ≤ _ * (x i - y i) ^ 2 + _
      linarith
    · rw [habs, List.length_ofFn, hpw]
      exact hB

/-- How far a root moves. -/
private theorem root_shift {v t A B : ℝ} (hv : 0 ≤ v) (ht : 0 ≤ t) (hA : 0 ≤ A) (hB : 0 ≤ B)
    (h : |v - t| ≤ A * t + B) : |√v - √t| ≤ A * √t + √B := by
  have ht' := Real.sqrt_nonneg t
  have hv' := Real.sqrt_nonneg v
  have hB' := Real.sqrt_nonneg B
  have h1 := Real.sq_sqrt ht
  have h2 := Real.sq_sqrt hB
  have h3 := Real.sq_sqrt hv
  obtain ⟨h4, h5⟩ := abs_le.1 h
  rw [abs_le]
  constructor
  · by_contra hc
    push Not at hc
    have h6 : √B < (1 - A) * √t := by linarith
    have h6' : 0 < (1 - A) * √t - √B := by linarith
    have h7 : A < 1 := by
      by_contra h8
      push Not at h8
      nlinarith
    have h8 : √v < (1 - A) * √t - √B := by linarith
    have h9 : √v ^ 2 < ((1 - A) * √t - √B) ^ 2 := pow_lt_pow_left₀ h8 hv' (by norm_num)
    have h10 : √B * √B ≤ (1 - A) * √t * √B := mul_le_mul_of_nonneg_right h6.le hB'
    have h11 : (1 - A) ^ 2 * t ≤ (1 - A) * t := mul_le_mul_of_nonneg_right (by nlinarith) ht
    nlinarith
  · have : √v ≤ (1 + A) * √t + √B := by
      apply Real.sqrt_le_iff.2
      refine ⟨by positivity, ?_⟩
      have h6 : 0 ≤ (1 + A) * √t * √B := by positivity
      have h7 : (1 + A) * t ≤ (1 + A) ^ 2 * t := mul_le_mul_of_nonneg_right (by nlinarith) ht
      nlinarith
    linarith

private theorem sqrt_error' {v : ℚ} (hv : 0 ≤ v) :
    ∃ r : ℚ, sqrt (.fin v : Flt f) = .fin r ∧ |(r : ℝ) - √(v : ℝ)| ≤ f.u * max (√(v : ℝ)) (2 ^ f.emin) := by
  rcases hv.eq_or_lt with rfl | hv
  · refine ⟨0, sqrt_of_zero, ?_⟩
    have := u_pos f
    simp only [Rat.cast_zero, Real.sqrt_zero, sub_zero, abs_zero]
    have : (0 : ℝ) < f.u := by exact_mod_cast this
    positivity
  · exact sqrt_error hv

/-- `distance` is the root of `distance_squared`. -/
private theorem distance_of {powf : Flt f → Flt f → Flt f} {a b : List (Flt f)} {r : ℚ}
    (h : Vect.distance powf sqrt a b = .fin r) : ∃ v, Vect.distanceSquared powf a b = .fin v := by
  unfold Vect.distance at h
  rcases hv : Vect.distanceSquared powf a b with _ | s | v
  · rw [hv] at h; cases h
  · rw [hv] at h; cases s <;> cases h
  · exact ⟨v, rfl⟩

private theorem cast_sum {n : Nat} (x y : Fin n → ℚ) :
    ((∑ i, (x i - y i) ^ 2 : ℚ) : ℝ) = ∑ i, ((x i : ℝ) - y i) ^ 2 := by
  push_cast
  rfl

private theorem u_mul_min (f : FloatFmt) : (f.u : ℝ) * 2 ^ f.emin = f.eta := by
  have : f.u * 2 ^ f.emin = f.eta := by
    unfold FloatFmt.eta FloatFmt.u
    rw [sub_eq_add_neg, zpow_add₀ (by norm_num), zpow_neg, zpow_natCast, one_div, mul_comm]
  have := congrArg (Rat.cast : ℚ → ℝ) this
  push_cast at this
  exact this

/-- C190 for all finite components: a finite distance is not negative, and off by at most a relative error of `n + 2`
roundings and the error of `powf`, and an absolute error of about the root of the smallest number that does not
vanish. Missing: that the second part is not needed, which is false. -/
theorem C190_distance_error_partial (hf : f.Ok) {e : ℚ} (he : 0 ≤ e) {powf : Flt f → Flt f → Flt f}
    (hp : SquareOk f e powf) {n : Nat} (x y : Fin n → ℚ) (hx : ∀ i, f.Has (x i)) (hy : ∀ i, f.Has (y i)) {r : ℚ}
    (h : Vect.distance powf sqrt (vec x) (vec y) = .fin r) :
    f.Has r ∧ 0 ≤ r ∧
    |(r : ℝ) - √(∑ i, ((x i : ℝ) - y i) ^ 2)| ≤
      ((1 + f.u) ^ (n + 2) * (1 + e) - 1) * √(∑ i, ((x i : ℝ) - y i) ^ 2) +
      ((1 + f.u) * √(n * (1 + f.u) ^ (n - 1) * f.eta) + f.eta) := by
  obtain ⟨v, hv⟩ := distance_of h
  obtain ⟨h1, h2, h3⟩ := (C190_squared hf he hp x y hx hy).1 v hv
  unfold Vect.distance at h
  rw [hv] at h
  obtain ⟨r', e1, e2, e3, -⟩ := C140_sqrt hf h1 h2
  rw [h] at e1
  obtain rfl := Flt.fin.inj e1
  refine ⟨e2, e3, ?_⟩
  obtain ⟨r', e4, e5⟩ := sqrt_error' (f := f) h2
  rw [h] at e4
  obtain rfl := Flt.fin.inj e4
  have hu : (0 : ℝ) < f.u := by exact_mod_cast u_pos f
  have heta : (0 : ℝ) < f.eta := by exact_mod_cast eta_pos f
  have heR : (0 : ℝ) ≤ e := by exact_mod_cast he
  rw [← cast_sum]
  set T : ℚ := ∑ i, (x i - y i) ^ 2 with hT
  have hT0 : 0 ≤ T := Finset.sum_nonneg fun i _ => sq_nonneg _
  have hK : (1 : ℝ) ≤ (1 + f.u) ^ (n + 1) * (1 + e) :=
    one_le_mul_of_one_le_of_one_le (one_le_pow₀ (by linarith)) (by linarith)
  have h4 : |(v : ℝ) - T| ≤ ((1 + f.u) ^ (n + 1) * (1 + e) - 1) * T + n * (1 + f.u) ^ (n - 1) * f.eta := by
    exact_mod_cast h3
  have h5 := root_shift (v := v) (t := T) (by exact_mod_cast h2) (by exact_mod_cast hT0) (by linarith) (by positivity) h4
  set K : ℝ := (1 + f.u) ^ (n + 1) * (1 + e) with hKd
  set B : ℝ := n * (1 + f.u) ^ (n - 1) * f.eta with hBd
  have hB := Real.sqrt_nonneg B
  have hS := Real.sqrt_nonneg (T : ℝ)
  have hV := Real.sqrt_nonneg (v : ℝ)
  have e6 := u_mul_min f
  have h6 : (f.u : ℝ) * max (√(v : ℝ)) (2 ^ f.emin) ≤ f.u * √(v : ℝ) + f.eta := by
    rw [← e6, ← mul_add]
    refine mul_le_mul_of_nonneg_left ?_ hu.le
    have : (0 : ℝ) < 2 ^ f.emin := by positivity
    exact max_le (by linarith) (by linarith)
  have h7 := (abs_le.1 h5).2
  have h8 : f.u * √(v : ℝ) ≤ f.u * (K * √(T : ℝ) + √B) := mul_le_mul_of_nonneg_left (by linarith) hu.le
  have h9 := abs_add_le ((r : ℝ) - √(v : ℝ)) (√(v : ℝ) - √(T : ℝ))
  rw [sub_add_sub_cancel] at h9
  have h10 : ((1 + f.u) ^ (n + 2) * (1 + e) : ℝ) = (1 + f.u) * K := by rw [hKd, pow_succ]; ring
  rw [h10]
  nlinarith

/-- C190 as far as it holds: if the square of the distance does not underflow, a finite result has a small relative
error, that of `n + 3` roundings and that of `powf`; and it is finite if the square does not overflow. Missing: vectors
for which the square over- or underflows. -/
theorem C190_distance_partial (hf : f.Ok) {e : ℚ} (he : 0 ≤ e) {powf : Flt f → Flt f → Flt f}
    (hp : SquareOk f e powf) {n : Nat} (x y : Fin n → ℚ) (hx : ∀ i, f.Has (x i)) (hy : ∀ i, f.Has (y i)) :
    (n * 2 ^ f.emin ≤ ∑ i, (x i - y i) ^ 2 → ∀ r, Vect.distance powf sqrt (vec x) (vec y) = .fin r →
      |(r : ℝ) - √(∑ i, ((x i : ℝ) - y i) ^ 2)| ≤
        ((1 + f.u) ^ (n + 3) * (1 + e) - 1) * √(∑ i, ((x i : ℝ) - y i) ^ 2)) ∧
    ((1 + f.u) ^ (n + 1) * (1 + e) * ∑ i, (x i - y i) ^ 2 + n * (1 + f.u) ^ (n - 1) * f.eta ≤ f.max →
      ∃ r, Vect.distance powf sqrt (vec x) (vec y) = .fin r) := by
  obtain ⟨hs, hfin⟩ := C190_squared hf he hp x y hx hy
  refine ⟨fun hT r h => ?_, fun hB => ?_⟩
  swap
  · obtain ⟨v, hv⟩ := hfin hB
    obtain ⟨h1, h2, -⟩ := hs v hv
    obtain ⟨r, e1, -⟩ := C140_sqrt hf h1 h2
    exact ⟨r, by unfold Vect.distance; rw [hv, e1]⟩
  obtain ⟨v, hv⟩ := distance_of h
  obtain ⟨h1, h2, h3⟩ := hs v hv
  unfold Vect.distance at h
  rw [hv] at h
  obtain ⟨r', e4, e5⟩ := sqrt_error' (f := f) h2
  rw [h] at e4
  obtain rfl := Flt.fin.inj e4
  rcases Nat.eq_zero_or_pos n with h0 | hpos
  · subst h0
    simp only [Finset.univ_eq_empty, Finset.sum_empty, mul_zero, sub_zero, CharP.cast_eq_zero, zero_mul, add_zero] at h3
    obtain rfl : v = 0 := abs_eq_zero.1 (le_antisymm h3 (abs_nonneg _))
    rw [sqrt_of_zero] at h
    obtain rfl := Flt.fin.inj h
    simp
  have hu : (0 : ℝ) < f.u := by exact_mod_cast u_pos f
  have heta : (0 : ℝ) < f.eta := by exact_mod_cast eta_pos f
  have heR : (0 : ℝ) ≤ e := by exact_mod_cast he
  rw [← cast_sum]
  set T : ℚ := ∑ i, (x i - y i) ^ 2 with hTd
  have hnR : (1 : ℝ) ≤ n := by exact_mod_cast hpos
  have hTR : (n : ℝ) * 2 ^ f.emin ≤ T := by
    have := (Rat.cast_le (K := ℝ)).2 hT
    push_cast at this
    exact this
  have hmin : (0 : ℝ) < 2 ^ f.emin := by positivity
  have hT0 : (0 : ℝ) ≤ T := le_trans (by positivity) hTR
  have e6 := u_mul_min f
  set K : ℝ := (1 + f.u) ^ (n + 2) * (1 + e) with hKd
  have hK : (1 : ℝ) ≤ K :=
    one_le_mul_of_one_le_of_one_le (one_le_pow₀ (by linarith)) (by linarith)
  have h4 : |(v : ℝ) - T| ≤ (K - 1) * T + 0 := by
    have h5 : |(v : ℝ) - T| ≤ ((1 + f.u) ^ (n + 1) * (1 + e) - 1) * T + n * (1 + f.u) ^ (n - 1) * f.eta := by
      exact_mod_cast h3
    have h6 : (n * (1 + f.u) ^ (n - 1) * f.eta : ℝ) ≤ (1 + f.u) ^ (n - 1) * f.u * T := by
      calc (n * (1 + f.u) ^ (n - 1) * f.eta : ℝ) = (1 + f.u) ^ (n - 1) * f.u * (n * 2 ^ f.emin) := by rw [← e6]; ring
        _ ≤ _ := mul_le_mul_of_nonneg_left hTR (by positivity)
    have h7 : ((1 + f.u) ^ (n - 1) * f.u : ℝ) ≤ (1 + f.u) ^ (n + 1) * (1 + e) * f.u := by
      refine mul_le_mul_of_nonneg_right ?_ hu.le
      calc ((1 + f.u) ^ (n - 1) : ℝ) ≤ (1 + f.u) ^ (n + 1) := pow_le_pow_right₀ (by linarith) (by omega)
        _ ≤ _ := le_mul_of_one_le_right (by positivity) (by linarith)
    have h8 := mul_le_mul_of_nonneg_right h7 hT0
    have h9 : K = (1 + f.u) ^ (n + 1) * (1 + e) + (1 + f.u) ^ (n + 1) * (1 + e) * f.u := by
      rw [hKd, pow_succ _ (n + 1)]; ring
    rw [h9]
    linarith
  have h5 := root_shift (v := v) (t := T) (by exact_mod_cast h2) hT0 (by linarith) (le_refl _) h4
  rw [Real.sqrt_zero, add_zero] at h5
  have hS := Real.sqrt_nonneg (T : ℝ)
  have hlow : (2 : ℝ) ^ f.emin ≤ √(T : ℝ) := by
    apply Real.le_sqrt_of_sq_le
    refine le_trans ?_ hTR
    have : (2 : ℝ) ^ f.emin ≤ 1 := zpow_le_one_of_nonpos₀ (by norm_num) hf.emin_le
    nlinarith
  have h7 := (abs_le.1 h5).2
  have h6 : (f.u : ℝ) * max (√(v : ℝ)) (2 ^ f.emin) ≤ f.u * (K * √(T : ℝ)) := by
    refine mul_le_mul_of_nonneg_left (max_le (by linarith) (hlow.trans ?_)) hu.le
    exact le_mul_of_one_le_left hS hK
  have h9 := abs_add_le ((r : ℝ) - √(v : ℝ)) (√(v : ℝ) - √(T : ℝ))
  rw [sub_add_sub_cancel] at h9
  have h10 : ((1 + f.u) ^ (n + 3) * (1 + e) : ℝ) = K + f.u * K := by rw [hKd, pow_succ _ (n + 2)]; ring
  rw [h10]
  linarith

/-- Differences the other way round. -/
private theorem sub_swap (a b : Flt f) : b - a = neg (a - b) := by
  rcases a with _ | s | p <;> rcases b with _ | t | q
  · rfl
  · rfl
  · rfl
  · rfl
  · cases s <;> cases t <;> rfl
  · rfl
  · rfl
  · cases t <;> rfl
  · rw [fin_sub, fin_sub, ← neg_sub p q]
    unfold rnd
    by_cases h : p - q = 0
    · rw [if_pos (by rw [h, neg_zero]), if_pos h]
      simp [neg]
    · rw [if_neg (neg_ne_zero.2 h), if_neg h]
      dsimp only
      rw [ulp_neg, neg_div, roundEven_neg, Int.cast_neg, neg_mul, abs_neg]
      split_ifs
      · rfl
      · simp only [neg, Flt.inf.injEq]
        rcases lt_or_gt_of_ne h with h | h
        · rw [decide_eq_false (by linarith), decide_eq_true h]; rfl
        · rw [decide_eq_true (by linarith), decide_eq_false (by linarith)]; rfl

/-- C190: distances are the same in both directions, for all floats, and for any root. -/
theorem C190_symmetric {powf : Flt f → Flt f → Flt f} (hf : f.Ok) (hp : ∀ x, powf (neg x) (.fin 2) = powf x (.fin 2))
    (root : Flt f → Flt f) (a b : List (Flt f)) :
    Vect.distanceSquared powf a b = Vect.distanceSquared powf b a ∧
    Vect.distance powf root a b = Vect.distance powf root b a := by
  have key : ∀ a b : List (Flt f), (Vect.stdZip a b).map (fun p => powf (p.1 - p.2) (.fin 2)) =
      (Vect.stdZip b a).map fun p => powf (p.1 - p.2) (.fin 2) := by
    intro a
    induction a with
    | nil => intro b; cases b <;> rfl
    | cons x a ih =>
      intro b
      cases b with
      | nil => rfl
      | cons y b =>
        simp only [Vect.stdZip, List.map_cons]
        rw [ih b, sub_swap x y, hp]
  have h : Vect.distanceSquared powf a b = Vect.distanceSquared powf b a := by
    unfold Vect.distanceSquared
    simp only [two_eq hf]
    rw [key a b]
  exact ⟨h, by unfold Vect.distance; rw [h]⟩

private theorem diff_nan (a b : Flt f) :
    a - b = .nan ↔ a = .nan ∨ b = .nan ∨ ∃ s, a = .inf s ∧ b = .inf s := by
  rcases a with _ | s | p <;> rcases b with _ | t | q
  · exact ⟨fun _ => .inl rfl, fun _ => rfl⟩
  · exact ⟨fun _ => .inl rfl, fun _ => rfl⟩
  · exact ⟨fun _ => .inl rfl, fun _ => rfl⟩
  · exact ⟨fun _ => .inr (.inl rfl), fun _ => rfl⟩
  · cases s <;> cases t
    · exact ⟨fun _ => .inr (.inr ⟨false, rfl, rfl⟩), fun _ => rfl⟩
    · refine ⟨nofun, ?_⟩
      rintro (h | h | ⟨s, h1, h2⟩)
      · cases h
      · cases h
      · rw [← h1] at h2; cases h2
    · refine ⟨nofun, ?_⟩
      rintro (h | h | ⟨s, h1, h2⟩)
      · cases h
      · cases h
      · rw [← h1] at h2; cases h2
    · exact ⟨fun _ => .inr (.inr ⟨true, rfl, rfl⟩), fun _ => rfl⟩
  · refine ⟨nofun, ?_⟩
    rintro (h | h | ⟨s, h1, h2⟩) <;> first | cases h | cases h2
  · exact ⟨fun _ => .inr (.inl rfl), fun _ => rfl⟩
  · refine ⟨nofun, ?_⟩
    rintro (h | h | ⟨s, h1, h2⟩) <;> first | cases h | cases h1
  · rw [fin_sub]
    refine ⟨fun h => absurd h (rnd_ne_nan _), ?_⟩
    rintro (h | h | ⟨s, h1, h2⟩) <;> first | cases h | cases h1

/-- C190 for infinite and NaN components: the distance is NaN exactly if a component is, or if two infinite components
of the same sign meet; otherwise it is infinite if a component is; it is never negative. -/
theorem C190_special (hf : f.Ok) {e : ℚ} {powf : Flt f → Flt f → Flt f} (hp : SquareOk f e powf) {n : Nat}
    (a b : Fin n → Flt f) :
    let d := Vect.distance powf sqrt (List.ofFn a) (List.ofFn b)
    let bad := ∃ i, a i = .nan ∨ b i = .nan ∨ ∃ s, a i = .inf s ∧ b i = .inf s
    (d = .nan ↔ bad) ∧ (¬ bad → (∃ i s, a i = .inf s ∨ b i = .inf s) → d = .inf false) ∧
    (d = .nan ∨ d = .inf false ∨ ∃ q, d = .fin q ∧ f.Has q ∧ 0 ≤ q) := by
  intro d bad
  have hd : d = sqrt ((List.ofFn fun i => powf (a i - b i) (.fin 2)).foldl (fun a v => a + v) 0) := by
    rw [← dist_fold hf]; rfl
  by_cases hb : bad
  · have hn : d = .nan := by
      obtain ⟨i, hi⟩ := hb
      rw [hd, nan_fold _ _ (.inr ((List.mem_ofFn' _ _).2 ⟨i, ?_⟩))]
      · rfl
      · exact (congrArg (powf · (.fin 2)) ((diff_nan _ _).2 hi)).trans hp.nan
    exact ⟨⟨fun _ => hb, fun _ => hn⟩, fun h => absurd hb h, .inl hn⟩
  · have hnn : ∀ v ∈ List.ofFn fun i => powf (a i - b i) (.fin 2), Nn v := by
      intro v hv
      obtain ⟨i, rfl⟩ := (List.mem_ofFn' _ v).1 hv
      exact nn_square hp fun h => hb ⟨i, (diff_nan _ _).1 h⟩
    have hr : d = .inf false ∨ ∃ q, d = .fin q ∧ f.Has q ∧ 0 ≤ q := by
      rcases nn_fold hf _ hnn 0 nn_zero with h | ⟨q, h, hq, hq0⟩
      · rw [h] at hd; exact .inl hd
      · rw [h] at hd
        obtain ⟨r, e1, e2, e3, -⟩ := C140_sqrt hf hq hq0
        exact .inr ⟨r, hd.trans e1, e2, e3⟩
    refine ⟨⟨fun h => ?_, fun h => absurd h hb⟩, fun _ => ?_, .inr hr⟩
    · rcases hr with h' | ⟨q, h', -⟩ <;> rw [h'] at h <;> cases h
    · rintro ⟨i, s, h⟩
      have hinf : ∃ t, a i - b i = .inf t := by
        have hnb : ¬ (a i = .nan ∨ b i = .nan ∨ ∃ s, a i = .inf s ∧ b i = .inf s) := fun h => hb ⟨i, h⟩
        rw [← diff_nan] at hnb
        rcases h with h | h
        · rw [h] at hnb ⊢
          generalize b i = z at hnb ⊢
          rcases z with _ | t | q
          · exact absurd rfl hnb
          · cases s <;> cases t
            · exact absurd rfl hnb
            · exact ⟨_, rfl⟩
            · exact ⟨_, rfl⟩
            · exact absurd rfl hnb
          · exact ⟨_, rfl⟩
        · rw [h] at hnb ⊢
          generalize a i = z at hnb ⊢
          rcases z with _ | t | q
          · exact absurd rfl hnb
          · cases s <;> cases t
            · exact absurd rfl hnb
            · exact ⟨_, rfl⟩
            · exact ⟨_, rfl⟩
            · exact absurd rfl hnb
          · exact ⟨_, rfl⟩
      obtain ⟨t, ht⟩ := hinf
      rw [hd, inf_fold hf _ _ nn_zero hnn (.inr ((List.mem_ofFn' _ _).2 ⟨i, (congrArg (powf · (.fin 2)) ht).trans (hp.inf t)⟩))]
      rfl

/-- C190: a vector has distance 0 from itself; and vectors of distance 0 are equal, up to differences the squares of
which underflow. -/
theorem C190_zero (hf : f.Ok) {e : ℚ} {powf : Flt f → Flt f → Flt f} (hp : SquareOk f e powf)
    {n : Nat} (x y : Fin n → ℚ) (hx : ∀ i, f.Has (x i)) (hy : ∀ i, f.Has (y i)) :
    Vect.distance powf sqrt (vec x) (vec x) = .fin 0 ∧
    (Vect.distance powf sqrt (vec x) (vec y) = .fin 0 →
      ∀ i, (1 - e) * (1 - f.u) ^ 2 * (x i - y i) ^ 2 ≤ f.eta) := by
  have hu0 := u_pos f
  have hu : f.u < 1 := by
    unfold FloatFmt.u
    rw [div_lt_one (by positivity)]
    exact one_lt_pow₀ (by norm_num) (by have := hf.prec_pos; omega)
  have hz : powf (.fin 0) (.fin 2) = .fin 0 := by
    obtain ⟨r, hr⟩ := hp.finite 0 (by
      have h1 := one_le_max hf
      have h2 : f.eta ≤ 1 := zpow_le_one_of_nonpos₀ (by norm_num) (by have := hf.emin_le; omega)
      simpa using h2.trans h1)
    obtain ⟨h1, h2, h3⟩ := hp.value 0 r hr
    rw [hr]
    have h4 : |r| ≤ f.eta := by simpa using h3
    rw [← (rnd_eq_zero_iff hf r), rnd_exact h1] at h4
    exact h4
  constructor
  · have e1 : ∀ i, powf ((.fin (x i) : Flt f) - .fin (x i)) (.fin 2) = .fin 0 := fun i => by
      rw [fin_sub, sub_self, rnd_zero, hz]
    have e2 : ∀ m : Nat, (List.ofFn fun _ : Fin m => (.fin 0 : Flt f)).foldl (fun a v => a + v) 0 = .fin 0 := by
      intro m
      induction m with
      | zero => rfl
      | succ m ih =>
        rw [List.ofFn_succ, List.foldl_cons, show (0 : Flt f) + .fin 0 = .fin 0 from (congrArg (rnd f) (add_zero 0)).trans (rnd_zero f)]
        exact ih
    unfold Vect.distance vec
    rw [dist_fold hf]
    simp only [e1]
    rw [e2, sqrt_of_zero]
  · intro h i
    obtain ⟨v, hv⟩ := distance_of h
    have hnn : ∀ w ∈ List.ofFn fun i => powf ((.fin (x i) : Flt f) - .fin (y i)) (.fin 2), Nn w := by
      intro w hw
      obtain ⟨i, rfl⟩ := (List.mem_ofFn' _ w).1 hw
      exact nn_square hp (by rw [fin_sub]; exact rnd_ne_nan _)
    have hfold : Vect.distanceSquared powf (vec x) (vec y) = _ :=
      dist_fold hf powf (fun i => (.fin (x i) : Flt f)) fun i => .fin (y i)
    have hv0 : v = 0 := by
      have h1 := nn_fold hf _ hnn 0 nn_zero
      rw [← hfold, hv] at h1
      rcases h1 with h1 | ⟨q, h1, hq, hq0⟩
      · cases h1
      obtain rfl := Flt.fin.inj h1
      unfold Vect.distance at h
      rw [hv] at h
      by_contra hne
      exact sqrt_ne_zero hf hq (lt_of_le_of_ne hq0 (Ne.symm hne)) h
    rw [hfold, hv0] at hv
    have h1 := (zero_fold hf hu _ 0 nn_zero hnn hv).2 _ ((List.mem_ofFn' _ _).2 ⟨i, rfl⟩)
    dsimp only at h1
    rcases hd : ((.fin (x i) : Flt f) - .fin (y i)) with _ | s | d <;> rw [hd] at h1
    · rw [hp.nan] at h1; cases h1
    · rw [hp.inf] at h1; cases h1
    · obtain ⟨-, -, h2⟩ := hp.value d 0 h1
      rw [zero_sub, abs_neg, abs_of_nonneg (sq_nonneg d)] at h2
      have h3 := diff_cases (hx i) (hy i) hd
      have h4 : (1 - f.u) * |x i - y i| ≤ |d| := by
        have := abs_sub_abs_le_abs_sub (x i - y i) d
        rw [abs_sub_comm (x i - y i) d] at this
        linarith
      have h5 : (1 - f.u) ^ 2 * (x i - y i) ^ 2 ≤ d ^ 2 := by
        rw [← sq_abs d, ← sq_abs (x i - y i), ← mul_pow]
        exact pow_le_pow_left₀ (mul_nonneg (by linarith) (abs_nonneg _)) h4 2
      rcases le_or_gt e 1 with he | he
      · have h6 := mul_le_mul_of_nonneg_left h5 (show 0 ≤ 1 - e by linarith)
        linarith
      · have h6 : 0 ≤ (e - 1) * ((1 - f.u) ^ 2 * (x i - y i) ^ 2) := by
          have : 0 < e - 1 := by linarith
          positivity
        have := eta_pos f
        linarith

/-- C190 for whole numbers, if `powf` squares them exactly: the square of the distance is exact, and so is the
distance if it is a whole number. -/
theorem C190_exact (hf : f.Ok) {powf : Flt f → Flt f → Flt f}
    (hp : ∀ z : Int, z ^ 2 ≤ 2 ^ f.prec → powf (ofZ z) (.fin 2) = ofZ (z ^ 2)) {n : Nat} (x y : Fin n → Int)
    (h : ∑ i, (x i - y i) ^ 2 ≤ 2 ^ f.prec) :
    Vect.distanceSquared powf (List.ofFn fun i => (ofZ (x i) : Flt f)) (List.ofFn fun i => ofZ (y i)) =
      ofZ (∑ i, (x i - y i) ^ 2) ∧
    ∀ c : Int, 0 ≤ c → c ^ 2 = ∑ i, (x i - y i) ^ 2 →
      Vect.distance powf sqrt (List.ofFn fun i => (ofZ (x i) : Flt f)) (List.ofFn fun i => ofZ (y i)) = ofZ c := by
  have hi : ∀ i, (x i - y i) ^ 2 ≤ 2 ^ f.prec := fun i =>
    (Finset.single_le_sum (f := fun j => (x j - y j) ^ 2) (fun j _ => sq_nonneg _) (Finset.mem_univ i)).trans h
  have hd : ∀ z : Int, z ^ 2 ≤ 2 ^ f.prec → |z| ≤ 2 ^ f.prec := fun z hz => by
    rw [← sq_abs] at hz
    nlinarith [abs_nonneg z, Int.le_self_sq |z|]
  have e1 : ∀ i, powf ((ofZ (x i) : Flt f) - ofZ (y i)) (.fin 2) = ofZ ((x i - y i) ^ 2) := fun i => by
    rw [← hp _ (hi i)]
    congr 1
    unfold ofZ
    rw [fin_sub, ← Int.cast_sub, rnd_exact (has_int hf (hd _ (hi i)))]
  have e2 : Vect.distanceSquared powf (List.ofFn fun i => (ofZ (x i) : Flt f)) (List.ofFn fun i => ofZ (y i)) =
      ofZ (∑ i, (x i - y i) ^ 2) := by
    rw [dist_fold hf]
    simp only [e1]
    have := fold_ofZ hf (List.ofFn fun i => (x i - y i) ^ 2) 0 (by
      rw [List.map_ofFn, List.sum_ofFn, abs_zero, zero_add]
      refine le_trans (le_of_eq (Finset.sum_congr rfl fun i _ => ?_)) h
      exact abs_of_nonneg (sq_nonneg _))
    rw [List.map_ofFn, List.sum_ofFn, zero_add] at this
    exact this
  refine ⟨e2, fun c hc hcs => ?_⟩
  unfold Vect.distance
  rw [e2, ← hcs]
  have := sqrt_square (f := f) (has_int hf (hd c (by rw [hcs]; exact h))) (by exact_mod_cast hc)
  unfold ofZ
  rw [← this]
  push_cast
  rfl

/-- C190 is violated: the distances `2^600` and `2^-600` from 0 are representable, the results are infinity and 0,
though the squares are rounded correctly. -/
theorem C190_violated :
    FloatFmt.f64.Has (2 ^ 600) ∧ FloatFmt.f64.Has (1 / 2 ^ 600) ∧
    Vect.distance (fun x _ => x * x) sqrt (vec ![2 ^ 600, 0] : List (Flt .f64)) (vec ![0, 0]) = .inf false ∧
    Vect.distance (fun x _ => x * x) sqrt (vec ![1 / 2 ^ 600, 0] : List (Flt .f64)) (vec ![0, 0]) = .fin 0 :=
  ⟨C140_violated.1, C140_violated.2.1, by decide +kernel, by decide +kernel⟩

-- 3, 4 and 12 make 13; the distance of (0.1, 0.2) and (0, 0) is rounded
example : Vect.distance (fun x _ => x * x) sqrt (vec ![1, 2, 3] : List (Flt .f64)) (vec ![4, -2, 15]) = .fin 13 := by
  decide +kernel
example : SquareOk .f64 FloatFmt.f64.u (fun x _ => x * x) ∧
    (2 : ℚ) * 2 ^ FloatFmt.f64.emin ≤ ∑ i : Fin 2, ((![1, 1] : Fin 2 → ℚ) i - (![0, 0] : Fin 2 → ℚ) i) ^ 2 ∧
    Vect.distance (fun x _ => x * x) sqrt (vec ![1, 1] : List (Flt .f64)) (vec ![0, 0]) =
      .fin (6369051672525773 / 2 ^ 52) :=
  ⟨squareOk_mul f64_ok, by decide +kernel, by decide +kernel⟩
example : Vect.distance (fun x _ => x * x) sqrt ([.inf true, .fin 1] : List (Flt .f64)) [.inf false, .fin 0] =
    .inf false ∧
    Vect.distance (fun x _ => x * x) sqrt ([.inf true, .fin 1] : List (Flt .f64)) [.inf true, .fin 0] = .nan := by
  decide +kernel

end Verif
