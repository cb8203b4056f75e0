import Verif.Props.FloatDet

/-!
# Elimination on matrices of floats does not always return (C144)
-/

namespace Verif

open Flt

variable {f : FloatFmt}

/-! ## C144 -/

section chain

variable {K : Type} [Zero K] [One K] [Neg K] [Sub K] [Mul K] [Div K] [DecidableEq K] [LT K]
  [DecidableLT K] [PartialCmp K]

/-- Elimination returns if the entries after `k` pivots have a property `P k` that makes them comparable,
as long as at least two rows remain. -/
private theorem gaussElim_chain {N : Nat} (P : Nat → K → Prop)
    (hmono : ∀ k x, P k x → P (k + 1) x)
    (hcmp : ∀ k, k + 2 ≤ N → ∀ x y, P k x → P k y → PartialCmp.comparable x y = true)
    (hstep : ∀ k a b v t, P k a → P k b → P k v → P k t → t ≠ 0 → P (k + 1) (a - b * (v / t)))
    {F : Nat → Nat → K} (hF : ∀ i j, i < N → j < N → P 0 (F i j)) :
    ∃ r g, Mat.gaussElim N N (rowsOf N N F) = .ok (rowsOf N N g, r) := by
  have good := mat_good (α := K) N N
  have key : ∀ n, n ≤ N → ∃ s g, forUpM n (fun col s => (Mat.ops (α := K)).gaussStep N N col s)
      ⟨rowsOf N N F, 0, 1⟩ = .ok s ∧ s.m = rowsOf N N g ∧ s.row ≤ n ∧
        ∀ i j, i < N → j < N → P s.row (g i j) := by
    intro n
    induction n with
    | zero => intro _; exact ⟨_, F, rfl, rfl, Nat.le_refl _, hF⟩
    | succ n ih =>
      intro hn
      obtain ⟨s, g, e, h1, h2, h3⟩ := ih (by omega)
      obtain ⟨s', g', e', h1', h'⟩ := Gauss.gaussStep_any good (col := n) (by omega) (s := s) (f := g) h1
        (by omega) (fun i j hi hij hj => hcmp s.row (by omega) _ _ (h3 _ _ (by omega) (by omega))
          (h3 _ _ hj (by omega)))
      refine ⟨s', g', by rw [forUpM, e]; exact e', h1', ?_⟩
      rcases h' with ⟨hr, rfl⟩ | ⟨hr, hr', f1, hf1, ht, hg⟩
      · exact ⟨by omega, by rw [hr]; exact h3⟩
      · have hP : ∀ i j, i < N → j < N → P s.row (f1 i j) := by
          intro i j hi hj
          obtain ⟨i', hi', e1⟩ := hf1 i hi
          rw [e1]
          exact h3 _ _ hi' hj
        refine ⟨by omega, fun i j hi hj => ?_⟩
        rw [hr', hg i j hj]
        split
        · exact hstep _ _ _ _ _ (hP _ _ hi hj) (hP _ _ hr hj) (hP _ _ hi (by omega))
            (hP _ _ hr (by omega)) ht
        · exact hmono _ _ (hP _ _ hi hj)
  obtain ⟨s, g, e, h1, _⟩ := key N (Nat.le_refl _)
  refine ⟨s.factor, g, ?_⟩
  unfold Mat.gaussElim MatOps.gaussElim
  rw [e]
  simp only [Res.bind, h1]

/-- After elimination, nothing in the determinant can panic. -/
private theorem determinant_of_elim {N : Nat} (hN : 3 ≤ N) {m : List (List K)} {r : K}
    {g : Nat → Nat → K} (h : Mat.gaussElim N N m = .ok (rowsOf N N g, r)) :
    ∃ d, Mat.determinant N m = .ok d := by
  have hbr : Mat.determinant N m = (Mat.gaussElim N N m).bind fun r => (Mat.diag N r.1).bind fun d =>
      (Res.ofOption (Vect.product N d)).bind fun p => .ok (p / r.2) := by
    obtain ⟨n, rfl⟩ : ∃ n, N = n + 3 := ⟨N - 3, by omega⟩
    rfl
  rw [hbr, h]
  simp only [Res.bind]
  have hdg : Mat.diag N (rowsOf N N g) = .ok ((List.range N).map fun i => g i i) := by
    unfold Mat.diag
    rw [fromFnM_eq N _ _ fun i hi => mat_get _ hi hi]
  rw [hdg]
  simp only
  rw [(Vect.C77_others N _ (by simp) 0).2.2.2.1]
  exact ⟨_, rfl⟩

end chain

/-- C144 fails: this matrix of three rows has finite entries and determinant `2^-600`, and
elimination on it computes a NaN, on which the search for the next pivot panics. -/
theorem C144_violated :
    Mat.determinant 3 [[.fin (1 / 2 ^ 600), .fin 0, .fin 1], [.fin (2 ^ 600), .fin 1, .fin 1],
      [.fin (2 ^ 600), .fin 1, .fin 2]] = (.panic : Res (Flt .f64)) ∧
    Mat.rowReduce 3 3 [[.fin (1 / 2 ^ 600), .fin 0, .fin 1], [.fin (2 ^ 600), .fin 1, .fin 1],
      [.fin (2 ^ 600), .fin 1, .fin 2]] = (.panic : Res (List (List (Flt .f64)))) ∧
    Mat.determinant 3 [[(1 / 2 ^ 600 : ℚ), 0, 1], [2 ^ 600, 1, 1], [2 ^ 600, 1, 2]] =
      .ok (1 / 2 ^ 600) ∧
    FloatFmt.f64.Has (1 / 2 ^ 600) ∧ FloatFmt.f64.Has (2 ^ 600) := by
  refine ⟨by decide +kernel, by decide +kernel, by decide +kernel, ?_, ?_⟩
  · exact ⟨1, -600, by decide +kernel, by decide +kernel, by decide +kernel, by decide +kernel⟩
  · exact ⟨1, 600, by decide +kernel, by decide +kernel, by decide +kernel, by decide +kernel⟩

/-- C144 for matrices of one or two rows. Missing: more rows (below). -/
theorem C144_two_partial {N : Nat} (hN : N ≤ 2) {m : List (List (Flt f))}
    (A : Matrix (Fin N) (Fin N) (Flt f)) (hm : MatOf m A) (hA : ∀ i j, A i j ≠ .nan) :
    (∃ r, Mat.rowReduce N N m = .ok r) ∧ (0 < N → ∃ d, Mat.determinant N m = .ok d) := by
  have hm' := matOf_rowsOf hm
  constructor
  · obtain ⟨r, g, e⟩ := gaussElim_chain (K := Flt f) (N := N) (fun k x => k = 0 → x ≠ .nan)
      (fun k x _ h => by omega)
      (fun k hk x y hx hy => by
        have := hx (by omega)
        have := hy (by omega)
        simp_all [PartialCmp.comparable])
      (fun k a b v t _ _ _ _ _ h => by omega)
      (F := extend A) (fun i j hi hj _ => by
        rw [extend_apply A ⟨i, hi⟩ ⟨j, hj⟩]; exact hA _ _)
    unfold Mat.rowReduce
    rw [hm', e]
    exact ⟨_, rfl⟩
  · intro h0
    rw [hm']
    have hg := fun i j hi hj => mat_get (R := N) (C := N) (extend A) (i := i) (j := j) hi hj
    obtain rfl | rfl : N = 1 ∨ N = 2 := by omega
    · exact ⟨_, hg 0 0 (by omega) (by omega)⟩
    · unfold Mat.determinant
      simp only
      rw [hg 0 0 (by omega) (by omega), hg 1 1 (by omega) (by omega), hg 1 0 (by omega) (by omega),
        hg 0 1 (by omega) (by omega)]
      exact ⟨_, rfl⟩

/-- Rounding stays below powers of two. -/
private theorem rnd_le_pow (hf : f.Ok) {x : ℚ} {e : Int} (he : f.emin ≤ e) (he' : e ≤ f.emax)
    (hx : |x| ≤ 2 ^ e) : ∃ y, rnd f x = .fin y ∧ |y| ≤ 2 ^ e := by
  have h1 := hf.prec_pos
  have hp : (1 : Int) < 2 ^ f.prec := one_lt_pow₀ (by norm_num) (by omega)
  have hhas : f.Has (2 ^ e) := by
    refine ⟨1, e, by simpa using hp, by omega, by simp, ?_⟩
    rw [abs_of_pos (by positivity)]
    exact (zpow_lt_zpow_iff_right₀ (by norm_num)).2 (by omega)
  have hmax : (2 : ℚ) ^ e ≤ f.max := by
    unfold FloatFmt.max
    calc (2 : ℚ) ^ e ≤ 2 ^ f.emax := (zpow_le_zpow_iff_right₀ (by norm_num)).2 he'
      _ = 2 ^ (f.prec - 1) * 2 ^ (f.emax - (f.prec - 1)) := by
        rw [← zpow_natCast, ← zpow_add₀ (by norm_num)]
        congr 1
        push_cast [h1]
        ring
      _ ≤ _ := by
        refine mul_le_mul_of_nonneg_right ?_ (by positivity)
        have : (2 : ℚ) ^ f.prec = 2 * 2 ^ (f.prec - 1) := by
          rw [← pow_succ']
          congr 1
          omega
        have : (1 : ℚ) ≤ 2 ^ (f.prec - 1) := one_le_pow₀ (by norm_num)
        linarith
  obtain ⟨y, hy⟩ := rnd_total hf (hx.trans hmax)
  refine ⟨y, hy, ?_⟩
  have n1 := rnd_nearest hy hhas
  have n2 := rnd_nearest hy (Has.neg hhas)
  obtain ⟨x1, x2⟩ := abs_le.mp hx
  rw [abs_le]
  constructor
  · by_contra hc
    push Not at hc
    rw [abs_of_neg (by linarith), abs_of_nonpos (by linarith)] at n2
    linarith
  · by_contra hc
    push Not at hc
    rw [abs_of_pos (by linarith), abs_of_nonneg (by linarith)] at n1
    linarith

/-- C144 for matrices of three rows, if the nonzero entries are of absolute value between `2^q` and `2^p`
with `p - q` at most and `2 p - q` less than the largest exponent: in `f64`, for example, all integers up to `2^511`. Missing:
other matrices of three rows, and matrices of more rows (below). -/
theorem C144_three_partial (hf : f.Ok) {p q : Int} (hp : f.emin ≤ p) (hqp : q ≤ p)
    (hpq : p - q ≤ f.emax ∧ 2 * p - q < f.emax) {m : List (List (Flt f))} (A : Matrix (Fin 3) (Fin 3) ℚ)
    (hm : MatOf m (A.map Flt.fin)) (hA : ∀ i j, |A i j| ≤ 2 ^ p ∧ (A i j ≠ 0 → 2 ^ q ≤ |A i j|)) :
    (∃ r, Mat.rowReduce 3 3 m = .ok r) ∧ ∃ d, Mat.determinant 3 m = .ok d := by
  have h3 := hf.emin_le
  obtain ⟨hpq1, hpq⟩ := hpq
  have hm' := matOf_rowsOf hm
  obtain ⟨r, g, e⟩ := gaussElim_chain (K := Flt f) (N := 3)
    (fun k x => (k = 0 → ∃ a : ℚ, x = .fin a ∧ |a| ≤ 2 ^ p ∧ (a ≠ 0 → 2 ^ q ≤ |a|)) ∧
      (k = 1 → x ≠ .nan))
    (fun k x h => ⟨fun hk => by omega, fun hk => by
      obtain ⟨a, rfl, _⟩ := h.1 (by omega)
      simp⟩)
    (fun k hk x y hx hy => by
      have hx' : x ≠ .nan := by
        rcases Nat.eq_zero_or_pos k with h0 | h0
        · obtain ⟨a, rfl, _⟩ := hx.1 h0; simp
        · exact hx.2 (by omega)
      have hy' : y ≠ .nan := by
        rcases Nat.eq_zero_or_pos k with h0 | h0
        · obtain ⟨a, rfl, _⟩ := hy.1 h0; simp
        · exact hy.2 (by omega)
      simp_all [PartialCmp.comparable])
    (fun k a b v t ha hb hv ht h0 => ⟨fun hk => by omega, fun hk => by
      obtain ⟨a, rfl, ha1, -⟩ := ha.1 (by omega)
      obtain ⟨b, rfl, hb1, -⟩ := hb.1 (by omega)
      obtain ⟨v, rfl, hv1, -⟩ := hv.1 (by omega)
      obtain ⟨t, rfl, -, ht1⟩ := ht.1 (by omega)
      have ht0 : t ≠ 0 := by rintro rfl; exact h0 rfl
      have ht2 := ht1 ht0
      obtain ⟨y, ey, hy⟩ := rnd_le_pow hf (x := v / t) (e := p - q) (by omega) (by omega) (by
        rw [abs_div, div_le_iff₀ (lt_of_lt_of_le (by positivity) ht2)]
        calc |v| ≤ 2 ^ p := hv1
          _ = 2 ^ (p - q) * 2 ^ q := by rw [← zpow_add₀ (by norm_num)]; congr 1; ring
          _ ≤ _ := mul_le_mul_of_nonneg_left ht2 (by positivity))
      obtain ⟨z, ez, hz⟩ := rnd_le_pow hf (x := b * y) (e := 2 * p - q) (by omega) (by omega) (by
        rw [abs_mul]
        calc |b| * |y| ≤ 2 ^ p * 2 ^ (p - q) := mul_le_mul hb1 hy (abs_nonneg _) (by positivity)
          _ = _ := by rw [← zpow_add₀ (by norm_num)]; congr 1; ring)
      obtain ⟨w, ew, -⟩ := rnd_le_pow hf (x := a - z) (e := 2 * p - q + 1) (by omega) (by omega) (by
        have h4 : (2 : ℚ) ^ p ≤ 2 ^ (2 * p - q) := (zpow_le_zpow_iff_right₀ (by norm_num)).2 (by omega)
        calc |a - z| ≤ |a| + |z| := abs_sub _ _
          _ ≤ 2 ^ (2 * p - q) + 2 ^ (2 * p - q) := by linarith
          _ = _ := by rw [zpow_add_one₀ (by norm_num)]; ring)
      have e1 : (Flt.fin v : Flt f) / .fin t = .fin y := by
        change div (Flt.fin _) (Flt.fin _) = _
        unfold div
        simp only [if_neg ht0]
        exact ey
      rw [e1, fin_mul, ez, fin_sub, ew]
      simp⟩)
    (F := extend (A.map Flt.fin)) (fun i j hi hj => ⟨fun _ => by
      rw [extend_apply _ ⟨i, hi⟩ ⟨j, hj⟩]
      exact ⟨_, rfl, hA _ _⟩, fun h => by omega⟩)
  rw [← hm'] at e
  refine ⟨?_, determinant_of_elim (Nat.le_refl _) e⟩
  unfold Mat.rowReduce
  rw [e]
  exact ⟨_, rfl⟩

/-- The matrices of integers of absolute value at most `2^511` are such. -/
example (m : List (List (Flt .f64))) (A : Matrix (Fin 3) (Fin 3) Int)
    (hm : MatOf m ((A.map fun z => (z : ℚ)).map Flt.fin)) (hA : ∀ i j, |A i j| ≤ 2 ^ 511) :
    (∃ r, Mat.rowReduce 3 3 m = .ok r) ∧ ∃ d, Mat.determinant 3 m = .ok d :=
  C144_three_partial (f := .f64) ⟨by decide, by decide, by decide⟩ (p := 511) (q := 0) (by decide)
    (by decide) (by decide) _ hm fun i j => ⟨by
      have := hA i j
      change |((A i j : Int) : ℚ)| ≤ (2 : ℚ) ^ (511 : Int)
      rw [← Int.cast_abs]
      exact_mod_cast this, fun h => by
      change (2 : ℚ) ^ (0 : Int) ≤ |((A i j : Int) : ℚ)|
      have h0 : A i j ≠ 0 := fun h' => h (by change ((A i j : Int) : ℚ) = 0; rw [h']; rfl)
      rw [zpow_zero, ← Int.cast_abs]
      exact_mod_cast Int.one_le_abs h0⟩

/-- Powers of two are floats. -/
private theorem has_pow (hf : f.Ok) {e : Int} (he : f.emin - (f.prec - 1) ≤ e) (he' : e ≤ f.emax) : f.Has (2 ^ e) := by
  have h1 := hf.prec_pos
  have hp : (1 : Int) < 2 ^ f.prec := one_lt_pow₀ (by norm_num) (by omega)
  refine ⟨1, e, by simpa using hp, he, by simp, ?_⟩
  rw [abs_of_pos (by positivity)]
  exact (zpow_lt_zpow_iff_right₀ (by norm_num)).2 (by omega)

/-- Rounding stays above powers of two. -/
private theorem rnd_ge_pow (hf : f.Ok) {x y : ℚ} {e : Int} (he : f.emin - (f.prec - 1) ≤ e) (he' : e ≤ f.emax)
    (hx : 2 ^ e ≤ |x|) (h : rnd f x = .fin y) : 2 ^ e ≤ |y| := by
  have hhas := has_pow hf he he'
  have n1 := rnd_nearest h hhas
  have n2 := rnd_nearest h (Has.neg hhas)
  have hpos : (0 : ℚ) < 2 ^ e := by positivity
  by_contra hc
  push Not at hc
  obtain ⟨c1, c2⟩ := abs_lt.mp hc
  rcases le_abs.mp hx with h0 | h0
  · rw [abs_of_neg (by linarith), abs_of_nonpos (by linarith)] at n1
    linarith
  · rw [abs_of_pos (by linarith), abs_of_nonneg (by linarith)] at n2
    linarith

/-- A float of at least `2^e` is a multiple of the last place of `2^e`. -/
private theorem Has.multiple {a : ℚ} {e : Int} (h : f.Has a) (ha : a ≠ 0 → 2 ^ e ≤ |a|) :
    ∃ n : Int, a = n * 2 ^ max (f.emin - (f.prec - 1)) (e - (f.prec - 1)) := by
  by_cases h0 : a = 0
  · exact ⟨0, by simp [h0]⟩
  obtain ⟨m, k, hm, hk, rfl, -⟩ := h
  have h1 := ha h0
  have h2 : (2 : ℚ) ^ e < 2 ^ ((f.prec : Int) + k) := by
    refine lt_of_le_of_lt h1 ?_
    rw [abs_mul, abs_of_pos (show (0 : ℚ) < 2 ^ k by positivity), zpow_add₀ (by norm_num), zpow_natCast]
    refine mul_lt_mul_of_pos_right ?_ (by positivity)
    rw [← Int.cast_abs]
    exact_mod_cast hm
  have h3 := (zpow_lt_zpow_iff_right₀ (by norm_num : (1 : ℚ) < 2)).1 h2
  have h4 := two_zpow_sub (a := k) (b := max (f.emin - (f.prec - 1)) (e - (f.prec - 1))) (by omega)
  refine ⟨m * 2 ^ (k - max (f.emin - (f.prec - 1)) (e - (f.prec - 1))).toNat, ?_⟩
  rw [h4]
  push_cast
  ring

/-- A float that is 0 or of absolute value between `2^q` and `2^p`. -/
private def Between (f : FloatFmt) (p q : Int) (x : Flt f) : Prop :=
  ∃ a : ℚ, x = .fin a ∧ f.Has a ∧ |a| ≤ 2 ^ p ∧ (a ≠ 0 → 2 ^ q ≤ |a|)

private theorem Between.ne_nan {p q : Int} {x : Flt f} (h : Between f p q x) : x ≠ .nan := by
  obtain ⟨a, rfl, -⟩ := h
  simp

private theorem Between.mono {p q p' q' : Int} {x : Flt f} (h : Between f p q x) (hp : p ≤ p')
    (hq : q' ≤ max (f.emin - (f.prec - 1)) q) : Between f p' q' x := by
  obtain ⟨a, rfl, h1, h2, h3⟩ := h
  refine ⟨a, rfl, h1, h2.trans ((zpow_le_zpow_iff_right₀ (by norm_num)).2 hp), fun h0 => ?_⟩
  refine le_trans ((zpow_le_zpow_iff_right₀ (by norm_num)).2 hq) ?_
  rcases le_total (f.emin - (f.prec - 1)) q with h4 | h4
  · rw [max_eq_right h4]; exact h3 h0
  · rw [max_eq_left h4]
    obtain ⟨m, k, hm, hk, rfl, -⟩ := h1
    rw [abs_mul, abs_of_pos (show (0 : ℚ) < 2 ^ k by positivity)]
    have hm0 : m ≠ 0 := by rintro rfl; simp at h0
    have h5 : (1 : ℚ) ≤ |(m : ℚ)| := by
      rw [← Int.cast_abs]
      exact_mod_cast Int.one_le_abs hm0
    have h6 : (2 : ℚ) ^ (f.emin - (f.prec - 1)) ≤ 2 ^ k := (zpow_le_zpow_iff_right₀ (by norm_num)).2 hk
    nlinarith [show (0 : ℚ) < 2 ^ k by positivity]

/-- One elimination step. -/
private theorem between_step (hf : f.Ok) {p q : Int} (hp : f.emin ≤ p) (hqp : q ≤ p)
    (h1 : p - q ≤ f.emax) (h2 : 2 * p - q < f.emax) {a b v t : Flt f} (ha : Between f p q a)
    (hb : Between f p q b) (hv : Between f p q v) (ht : Between f p q t) (h0 : t ≠ 0) :
    a - b * (v / t) ≠ .nan ∧ (p - q ≤ -f.emin → Between f (2 * p - q + 1)
      (max (f.emin - (f.prec - 1)) (2 * q - p - (f.prec - 1))) (a - b * (v / t))) := by
  have h3 := hf.emin_le
  have hprec := hf.prec_pos
  obtain ⟨a, rfl, haf, ha1, ha2⟩ := ha
  obtain ⟨b, rfl, hbf, hb1, hb2⟩ := hb
  obtain ⟨v, rfl, hvf, hv1, hv2⟩ := hv
  obtain ⟨t, rfl, htf, ht3, ht1⟩ := ht
  have ht0 : t ≠ 0 := by rintro rfl; exact h0 rfl
  have ht2 := ht1 ht0
  have htp : 0 < |t| := abs_pos.mpr ht0
  obtain ⟨y, ey, hy⟩ := rnd_le_pow hf (x := v / t) (e := p - q) (by omega) (by omega) (by
    rw [abs_div, div_le_iff₀ htp]
    calc |v| ≤ 2 ^ p := hv1
      _ = 2 ^ (p - q) * 2 ^ q := by rw [← zpow_add₀ (by norm_num)]; congr 1; ring
      _ ≤ _ := mul_le_mul_of_nonneg_left ht2 (by positivity))
  obtain ⟨z, ez, hz⟩ := rnd_le_pow hf (x := b * y) (e := 2 * p - q) (by omega) (by omega) (by
    rw [abs_mul]
    calc |b| * |y| ≤ 2 ^ p * 2 ^ (p - q) := mul_le_mul hb1 hy (abs_nonneg _) (by positivity)
      _ = _ := by rw [← zpow_add₀ (by norm_num)]; congr 1; ring)
  obtain ⟨w, ew, hw⟩ := rnd_le_pow hf (x := a - z) (e := 2 * p - q + 1) (by omega) (by omega) (by
    have h4 : (2 : ℚ) ^ p ≤ 2 ^ (2 * p - q) := (zpow_le_zpow_iff_right₀ (by norm_num)).2 (by omega)
    calc |a - z| ≤ |a| + |z| := abs_sub _ _
      _ ≤ 2 ^ (2 * p - q) + 2 ^ (2 * p - q) := by linarith
      _ = _ := by rw [zpow_add_one₀ (by norm_num)]; ring)
  have e1 : (Flt.fin v : Flt f) / .fin t = .fin y := by
    change div (Flt.fin _) (Flt.fin _) = _
    unfold div
    simp only [if_neg ht0]
    exact ey
  rw [e1, fin_mul, ez, fin_sub, ew]
  refine ⟨by simp, fun h5 => ⟨w, rfl, rnd_has hf ew, hw, fun hw0 => ?_⟩⟩
  -- the product is 0 or not too small
  have hz2 : ∃ n : Int, z = n * 2 ^ max (f.emin - (f.prec - 1)) (2 * q - p - (f.prec - 1)) := by
    by_cases hs : f.emin ≤ 2 * q - p
    · refine Has.multiple (rnd_has hf ez) fun hz0 => ?_
      have hby : b * y ≠ 0 := by
        intro h
        rw [h] at ez
        exact hz0 (rnd_fin_of_zero ez)
      have hb0 := left_ne_zero_of_mul hby
      have hy0 := right_ne_zero_of_mul hby
      have hv0 : v ≠ 0 := by
        rintro rfl
        rw [zero_div] at ey
        exact hy0 (rnd_fin_of_zero ey)
      have hy2 : (2 : ℚ) ^ (q - p) ≤ |y| := rnd_ge_pow hf (by omega) (by omega) (by
        rw [abs_div, le_div_iff₀ htp]
        calc (2 : ℚ) ^ (q - p) * |t| ≤ 2 ^ (q - p) * 2 ^ p := mul_le_mul_of_nonneg_left ht3 (by positivity)
          _ = 2 ^ q := by rw [← zpow_add₀ (by norm_num)]; congr 1; ring
          _ ≤ |v| := hv2 hv0) ey
      refine rnd_ge_pow hf (by omega) (by omega) ?_ ez
      rw [abs_mul]
      calc (2 : ℚ) ^ (2 * q - p) = 2 ^ q * 2 ^ (q - p) := by rw [← zpow_add₀ (by norm_num)]; congr 1; ring
        _ ≤ _ := mul_le_mul (hb2 hb0) hy2 (by positivity) (abs_nonneg _)
    · have := Has.multiple (e := f.emin) (rnd_has hf ez)
      obtain ⟨m, k, hm, hk, rfl, -⟩ := rnd_has hf ez
      have e2 : max (f.emin - (f.prec - 1)) (2 * q - p - (f.prec - 1)) = f.emin - (f.prec - 1) := by omega
      rw [e2]
      refine ⟨m * 2 ^ (k - (f.emin - (f.prec - 1))).toNat, ?_⟩
      rw [two_zpow_sub hk]
      push_cast
      ring
  have ha3 : ∃ n : Int, a = n * 2 ^ max (f.emin - (f.prec - 1)) (2 * q - p - (f.prec - 1)) := by
    refine Has.multiple haf fun h => le_trans ?_ (ha2 h)
    exact (zpow_le_zpow_iff_right₀ (by norm_num)).2 (by omega)
  obtain ⟨n, hn⟩ := hz2
  obtain ⟨l, hl⟩ := ha3
  have hx0 : a - z ≠ 0 := by
    intro h
    rw [h] at ew
    exact hw0 (rnd_fin_of_zero ew)
  have hx : a - z = ((l - n : Int) : ℚ) * 2 ^ max (f.emin - (f.prec - 1)) (2 * q - p - (f.prec - 1)) := by
    rw [hl, hn]; push_cast; ring
  refine rnd_ge_pow hf (by omega) (by omega) ?_ ew
  rw [hx, abs_mul, abs_of_pos (show (0 : ℚ) < 2 ^ max (f.emin - (f.prec - 1)) (2 * q - p - (f.prec - 1)) by positivity)]
  have hln : l - n ≠ 0 := by
    intro h
    rw [h] at hx
    exact hx0 (by simpa using hx)
  have : (1 : ℚ) ≤ |((l - n : Int) : ℚ)| := by
    rw [← Int.cast_abs]
    exact_mod_cast Int.one_le_abs hln
  nlinarith [show (0 : ℚ) < 2 ^ max (f.emin - (f.prec - 1)) (2 * q - p - (f.prec - 1)) by positivity]

/-- Numbers between `2^q` and `2^p` leave room for `n` elimination steps: each may multiply the largest
number by the ratio of the largest and the smallest and double it, and divide the smallest by that ratio and
leave its last place only. -/
def FloatFmt.Room (f : FloatFmt) : Nat → Int → Int → Prop
  | 0, _, _ => True
  | n + 1, p, q => p - q ≤ f.emax ∧ 2 * p - q < f.emax ∧ (n = 0 ∨ p - q ≤ -f.emin ∧
      Room f n (2 * p - q + 1) (Max.max (f.emin - (f.prec - 1)) (2 * q - p - (f.prec - 1))))

/-- The bounds after `k` steps. -/
private def bounds (f : FloatFmt) (p q : Int) : Nat → Int × Int
  | 0 => (p, q)
  | k + 1 => (2 * (bounds f p q k).1 - (bounds f p q k).2 + 1,
      max (f.emin - (f.prec - 1)) (2 * (bounds f p q k).2 - (bounds f p q k).1 - (f.prec - 1)))

/-- C144 for matrices of any number of rows, if the nonzero entries are of absolute value between `2^q` and
`2^p` and this leaves room for all but the last two pivots. Missing: other matrices. -/
theorem C144_rows_partial (hf : f.Ok) {N : Nat} (hN : 3 ≤ N) {p q : Int} (hp : f.emin ≤ p) (hqp : q ≤ p)
    (hroom : f.Room (N - 2) p q) {m : List (List (Flt f))} (A : Matrix (Fin N) (Fin N) ℚ)
    (hm : MatOf m (A.map Flt.fin))
    (hA : ∀ i j, f.Has (A i j) ∧ |A i j| ≤ 2 ^ p ∧ (A i j ≠ 0 → 2 ^ q ≤ |A i j|)) :
    (∃ r, Mat.rowReduce N N m = .ok r) ∧ ∃ d, Mat.determinant N m = .ok d := by
  have h3 := hf.emin_le
  have hprec := hf.prec_pos
  have hm' := matOf_rowsOf hm
  have hB : ∀ k, k + 3 ≤ N → f.Room (N - 2 - k) (bounds f p q k).1 (bounds f p q k).2 ∧
      f.emin ≤ (bounds f p q k).1 ∧ (bounds f p q k).2 ≤ (bounds f p q k).1 := by
    intro k
    induction k with
    | zero => intro _; exact ⟨hroom, hp, hqp⟩
    | succ k ih =>
      intro hk
      obtain ⟨g1, g2, g3⟩ := ih (by omega)
      obtain ⟨n, hn⟩ : ∃ n, N - 2 - k = n + 1 + 1 := ⟨N - 4 - k, by omega⟩
      rw [hn] at g1
      obtain ⟨r1, r2, r3⟩ := g1
      rcases r3 with r3 | ⟨r3, r4⟩
      · omega
      · rw [show N - 2 - (k + 1) = n + 1 by omega]
        simp only [bounds]
        exact ⟨r4, by omega, by omega⟩
  obtain ⟨r, g, e⟩ := gaussElim_chain (K := Flt f) (N := N)
    (fun k x => (k + 3 ≤ N → Between f (bounds f p q k).1 (bounds f p q k).2 x) ∧ (k + 2 ≤ N → x ≠ .nan))
    (fun k x h => ⟨fun hk => by
      obtain ⟨-, g2, g3⟩ := hB k (by omega)
      refine (h.1 (by omega)).mono ?_ ?_
      · simp only [bounds]; omega
      · simp only [bounds]; omega, fun hk => (h.1 (by omega)).ne_nan⟩)
    (fun k hk x y hx hy => by
      have := hx.2 hk
      have := hy.2 hk
      simp_all [PartialCmp.comparable])
    (fun k a b v t ha hb hv ht h0 => by
      by_cases hk : k + 3 ≤ N
      · obtain ⟨g1, g2, g3⟩ := hB k hk
        obtain ⟨n, hn⟩ : ∃ n, N - 2 - k = n + 1 := ⟨N - 3 - k, by omega⟩
        rw [hn] at g1
        obtain ⟨r1, r2, r3⟩ := g1
        obtain ⟨c1, c2⟩ := between_step hf g2 g3 r1 r2 (ha.1 hk) (hb.1 hk) (hv.1 hk) (ht.1 hk) h0
        refine ⟨fun hk' => ?_, fun _ => c1⟩
        rcases r3 with r3 | ⟨r3, -⟩
        · omega
        · exact c2 r3
      · exact ⟨fun h => by omega, fun h => by omega⟩)
    (F := extend (A.map Flt.fin)) (fun i j hi hj => by
      have h : Between f p q (extend (A.map Flt.fin) i j) := by
        rw [extend_apply _ ⟨i, hi⟩ ⟨j, hj⟩]
        exact ⟨_, rfl, hA _ _⟩
      exact ⟨fun _ => h, fun _ => h.ne_nan⟩)
  rw [← hm'] at e
  refine ⟨?_, determinant_of_elim hN e⟩
  unfold Mat.rowReduce
  rw [e]
  exact ⟨_, rfl⟩

/-- In `f64` the matrices of at most five rows of integers of absolute value below `2^53` are such. -/
example (N : Nat) (hN : 3 ≤ N ∧ N ≤ 5) (m : List (List (Flt .f64))) (A : Matrix (Fin N) (Fin N) Int)
    (hm : MatOf m ((A.map fun z => (z : ℚ)).map Flt.fin)) (hA : ∀ i j, |A i j| < 2 ^ 53) :
    (∃ r, Mat.rowReduce N N m = .ok r) ∧ ∃ d, Mat.determinant N m = .ok d := by
  have hroom : FloatFmt.f64.Room (N - 2) 53 0 := by
    obtain rfl | rfl | rfl : N = 3 ∨ N = 4 ∨ N = 5 := by omega
    all_goals simp [FloatFmt.Room, FloatFmt.f64]
  refine C144_rows_partial (f := .f64) ⟨by decide, by decide, by decide⟩ hN.1 (p := 53) (q := 0) (by decide)
    (by decide) hroom _ hm fun i j => ?_
  have h1 : |((A i j : Int) : ℚ)| < 2 ^ 53 := by
    rw [← Int.cast_abs]
    exact_mod_cast hA i j
  refine ⟨⟨A i j, 0, hA i j, by decide, by simp, h1.trans ?_⟩, ?_, fun h => ?_⟩
  · exact (zpow_lt_zpow_iff_right₀ (m := 53) (n := 1024) (by norm_num : (1 : ℚ) < 2)).2 (by norm_num)
  · exact h1.le
  · change (2 : ℚ) ^ (0 : Int) ≤ |((A i j : Int) : ℚ)|
    have h0 : A i j ≠ 0 := fun h' => h (by change ((A i j : Int) : ℚ) = 0; rw [h']; rfl)
    rw [zpow_zero, ← Int.cast_abs]
    exact_mod_cast Int.one_le_abs h0

end Verif
