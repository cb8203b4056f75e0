import Mathlib.Algebra.BigOperators.Group.List.Basic
import Verif.Lemmas.Float

namespace Verif

namespace Flt

variable {f : FloatFmt}

theorem add_fin {x y : Flt f} {r : ℚ} (h : x + y = .fin r) :
    ∃ a b, x = .fin a ∧ y = .fin b ∧ rnd f (a + b) = .fin r := by
  change add x y = _ at h
  unfold add at h
  split at h
  · exact ⟨_, _, rfl, rfl, h⟩
  · split_ifs at h
  · cases h
  · cases h
  · cases h

theorem sub_fin {x y : Flt f} {r : ℚ} (h : x - y = .fin r) :
    ∃ a b, x = .fin a ∧ y = .fin b ∧ rnd f (a - b) = .fin r := by
  obtain ⟨a, b, rfl, hb, hr⟩ := add_fin (y := neg y) h
  cases y with
  | fin c =>
    injection hb with hb
    exact ⟨a, c, rfl, rfl, by rw [sub_eq_add_neg, hb]; exact hr⟩
  | inf s => cases hb
  | nan => cases hb

theorem mul_fin {x y : Flt f} {r : ℚ} (h : x * y = .fin r) :
    ∃ a b, x = .fin a ∧ y = .fin b ∧ rnd f (a * b) = .fin r := by
  change mul x y = _ at h
  unfold mul at h
  split at h
  · exact ⟨_, _, rfl, rfl, h⟩
  · cases h
  · split_ifs at h
  · split_ifs at h
  · cases h

theorem fin_mul (a b : ℚ) : (Flt.fin a : Flt f) * .fin b = rnd f (a * b) := rfl
theorem fin_add (a b : ℚ) : (Flt.fin a : Flt f) + .fin b = rnd f (a + b) := rfl
theorem fin_sub (a b : ℚ) : (Flt.fin a : Flt f) - .fin b = rnd f (a - b) := by
  rw [sub_eq_add_neg]; rfl

theorem Has.neg {q : ℚ} (h : f.Has q) : f.Has (-q) := by
  obtain ⟨m, e, hm, he, rfl, hb⟩ := h
  exact ⟨-m, e, by rwa [abs_neg], he, by push_cast; ring, by rwa [abs_neg]⟩

theorem Has.zero (f : FloatFmt) : f.Has 0 :=
  ⟨0, f.emin - (f.prec - 1), by simp, le_refl _, by simp, by simp; positivity⟩

/-- A sum of two floats does not lose anything by underflow. -/
theorem rnd_add_error {a b y : ℚ} (ha : f.Has a) (hb : f.Has b) (h : rnd f (a + b) = .fin y) :
    |y - (a + b)| ≤ f.u * |a + b| := by
  by_cases hx : a + b = 0
  · rw [hx] at h ⊢
    rw [rnd_fin_of_zero h]; simp
  by_cases hl : f.emin ≤ Int.log 2 |a + b|
  · rw [(rnd_fin h hx).1]
    refine (near_ulp f _).trans ?_
    rw [half_ulp, max_eq_left hl, mul_comm]
    exact mul_le_mul_of_nonneg_left (log_le hx) (u_pos f).le
  · push Not at hl
    have hsmall : |a + b| < 2 ^ f.emin :=
      (lt_log _).trans_le ((zpow_le_zpow_iff_right₀ (by norm_num)).2 (by omega))
    obtain ⟨m, e, hm, he, ha', -⟩ := ha
    obtain ⟨n, k, hn, hk, hb', -⟩ := hb
    have hy : f.Has (a + b) := by
      set o := f.emin - ((f.prec : Int) - 1) with ho
      have hs : a + b = ((m * 2 ^ (e - o).toNat + n * 2 ^ (k - o).toNat : Int) : ℚ) * 2 ^ o := by
        rw [ha', hb', two_zpow_sub he, two_zpow_sub hk]; push_cast; ring
      refine ⟨_, o, ?_, le_refl _, hs, ?_⟩
      · rw [hs, abs_mul, abs_of_pos (by positivity : (0 : ℚ) < 2 ^ o)] at hsmall
        have h1 : (2 : ℚ) ^ f.emin ≤ 2 ^ f.prec * 2 ^ o := by
          rw [← zpow_natCast, ← zpow_add₀ (by norm_num)]
          exact (zpow_le_zpow_iff_right₀ (by norm_num)).2 (by omega)
        have h2 := lt_of_mul_lt_mul_right (hsmall.trans_le h1) (by positivity)
        exact_mod_cast h2
      · obtain ⟨-, hb⟩ := rnd_fin h hx
        by_contra hc
        push Not at hc
        -- the sum is a number of the format, so it is what rounding gives
        have h3 := (hc.trans_lt hsmall)
        have h4 := (zpow_lt_zpow_iff_right₀ (by norm_num : (1 : ℚ) < 2)).1 h3
        -- then the result is not below the limit
        have hq : ∃ n : Int, (a + b) / ulp f (a + b) = n := by
          refine ⟨m * 2 ^ (e - o).toNat + n * 2 ^ (k - o).toNat, ?_⟩
          rw [div_eq_iff (ulp_pos _ _).ne', hs]
          congr 1
          rw [← hs]
          unfold ulp
          rw [max_eq_right (by omega)]
        obtain ⟨z, hz⟩ := hq
        have hyy := (rnd_fin h hx).1
        rw [hz, roundEven_int, ← hz] at hyy
        rw [div_mul_cancel₀ _ (ulp_pos _ _).ne'] at hyy
        rw [hyy] at hb
        linarith
    rw [rnd_exact hy] at h
    injection h with h
    rw [h]; simp
    exact mul_nonneg (u_pos f).le (abs_nonneg _)

/-- Terms that are floats near given numbers. -/
def Near (δ ε : ℚ) (v : Flt f) (x : ℚ) : Prop :=
  ∀ y, v = .fin y → f.Has y ∧ |y - x| ≤ δ * |x| + ε

theorem near_mul (hf : f.Ok) (a b : ℚ) : Near f.u f.eta (Flt.fin a * .fin b : Flt f) (a * b) := by
  intro y hy
  exact ⟨rnd_has hf hy, rnd_error hy⟩

theorem near_fin {a : ℚ} (h : f.Has a) : Near 0 0 (Flt.fin a : Flt f) a := by
  intro y hy
  injection hy with hy
  subst hy
  exact ⟨h, by simp⟩

/-- The largest finite number. -/
theorem max_lt (f : FloatFmt) :
    ((2 ^ f.prec - 1) * 2 ^ (f.emax - (f.prec - 1)) : ℚ) < 2 ^ (f.emax + 1) := by
  rw [show f.emax + 1 = f.prec + (f.emax - (f.prec - 1)) by ring, zpow_add₀ (by norm_num),
    zpow_natCast]
  exact mul_lt_mul_of_pos_right (by linarith) (by positivity)

theorem roundEven_le {x : ℚ} {n : Int} (h : x ≤ n) : roundEven x ≤ n := by
  by_contra hc
  push Not at hc
  have h1 := roundEven_nearest x n
  have h2 : (n : ℚ) + 1 ≤ roundEven x := by exact_mod_cast hc
  rw [abs_of_nonneg (by linarith), abs_of_nonneg (by linarith)] at h1
  linarith

theorem le_roundEven {x : ℚ} {n : Int} (h : (n : ℚ) ≤ x) : n ≤ roundEven x := by
  by_contra hc
  push Not at hc
  have h1 := roundEven_nearest x n
  have h2 : (roundEven x : ℚ) + 1 ≤ n := by exact_mod_cast hc
  rw [abs_of_nonpos (by linarith), abs_of_nonpos (by linarith)] at h1
  linarith

/-- Rounding of a number that is not larger than the largest float does not overflow. -/
theorem rnd_total (hf : f.Ok) {x : ℚ}
    (h : |x| ≤ (2 ^ f.prec - 1) * 2 ^ (f.emax - (f.prec - 1))) : ∃ y, rnd f x = .fin y := by
  by_cases hx : x = 0
  · exact ⟨0, by rw [hx, rnd_zero]⟩
  unfold rnd
  rw [if_neg hx]
  dsimp only
  suffices hb : |(roundEven (x / ulp f x) : ℚ) * ulp f x| < 2 ^ (f.emax + 1) by
    exact ⟨_, if_pos hb⟩
  have hp1 := hf.prec_pos
  have hup := ulp_pos f x
  have hlt : Int.log 2 |x| < f.emax + 1 := by
    have := (log_le hx).trans_lt (h.trans_lt (max_lt f))
    exact (zpow_lt_zpow_iff_right₀ (by norm_num : (1 : ℚ) < 2)).1 this
  have hemin := hf.emin_le
  have hple := hf.prec_le
  by_cases he : Int.log 2 |x| = f.emax
  · have hu : ulp f x = 2 ^ (f.emax - ((f.prec : Int) - 1)) := by
      unfold ulp
      rw [he, max_eq_left (by omega)]
    rw [← hu] at h
    have hd : |x / ulp f x| ≤ ((2 ^ f.prec - 1 : Int) : ℚ) := by
      rw [abs_div, abs_of_pos hup, div_le_iff₀ hup]
      push_cast
      exact h
    have hr : |roundEven (x / ulp f x)| ≤ 2 ^ f.prec - 1 := by
      rw [abs_le] at hd ⊢
      exact ⟨le_roundEven (by push_cast at hd ⊢; linarith [hd.1]), roundEven_le hd.2⟩
    rw [abs_mul, abs_of_pos hup]
    refine lt_of_le_of_lt ?_ (max_lt f)
    rw [← hu]
    refine mul_le_mul_of_nonneg_right ?_ hup.le
    exact_mod_cast hr
  · have h1 := near_ulp f x
    rw [half_ulp] at h1
    have h2 : (2 : ℚ) ^ (max (Int.log 2 |x|) f.emin) * f.u ≤ 2 ^ (f.emax - 1) := by
      have : (2 : ℚ) ^ (max (Int.log 2 |x|) f.emin) ≤ 2 ^ (f.emax - 1) :=
        (zpow_le_zpow_iff_right₀ (by norm_num)).2 (max_le (by omega) (by omega))
      have hu1 : f.u ≤ 1 := by
        unfold FloatFmt.u
        rw [div_le_one (by positivity)]
        exact one_le_pow₀ (by norm_num)
      have := mul_le_mul this hu1 (u_pos f).le (by positivity)
      rwa [mul_one] at this
    have h3 : |x| < 2 ^ f.emax :=
      (lt_log x).trans_le ((zpow_le_zpow_iff_right₀ (by norm_num)).2 (by omega))
    have h4 : (2 : ℚ) ^ (f.emax + 1) = 2 ^ f.emax + 2 ^ f.emax := by
      rw [zpow_add₀ (by norm_num)]; ring
    have h5 : (2 : ℚ) ^ (f.emax - 1) ≤ 2 ^ f.emax :=
      (zpow_le_zpow_iff_right₀ (by norm_num)).2 (by omega)
    have h6 := abs_sub_abs_le_abs_sub ((roundEven (x / ulp f x) : ℚ) * ulp f x) x
    linarith

/-- One addition: how the bound grows. -/
theorem step_error {δ ε : ℚ} (hδ : 0 ≤ δ) (hε : 0 ≤ ε) {s S T y x : ℚ} {k : Nat}
    (hE : |s - S| ≤ ((1 + f.u) ^ k * (1 + δ) - 1) * T + (k + 1) * (1 + f.u) ^ k * ε) (hS : |S| ≤ T)
    (hye : |y - x| ≤ δ * |x| + ε) :
    |s + y| ≤ (1 + f.u) ^ (k + 1) * (1 + δ) * (T + |x|) + (k + 1 + 1) * (1 + f.u) ^ (k + 1) * ε ∧
    ∀ s', |s' - (s + y)| ≤ f.u * |s + y| →
      |s' - (S + x)| ≤ ((1 + f.u) ^ (k + 1) * (1 + δ) - 1) * (T + |x|) +
        (k + 1 + 1) * (1 + f.u) ^ (k + 1) * ε := by
  have hu := u_pos f
  have hk1 : (1 : ℚ) ≤ (1 + f.u) ^ k := one_le_pow₀ (by linarith)
  have hT : 0 ≤ T := (abs_nonneg _).trans hS
  have hxn := abs_nonneg x
  have e2 : |s + y| ≤ T + |x| + (|s - S| + |y - x|) := by
    have t1 := abs_add_le (S + x) ((s - S) + (y - x))
    have t2 := abs_add_le (s - S) (y - x)
    have t3 := abs_add_le S x
    rw [show s + y = (S + x) + ((s - S) + (y - x)) by ring]
    linarith
  have hED : 0 ≤ |s - S| + |y - x| := by positivity
  have hmain : (1 + f.u) * (|s - S| + |y - x|) + f.u * (T + |x|) ≤
      ((1 + f.u) ^ (k + 1) * (1 + δ) - 1) * (T + |x|) + (k + 1 + 1) * (1 + f.u) ^ (k + 1) * ε := by
    have e4 : (1 + f.u) * (|s - S| + |y - x|) ≤ (1 + f.u) * ((((1 + f.u) ^ k * (1 + δ) - 1) * T +
        (k + 1) * (1 + f.u) ^ k * ε) + (δ * |x| + ε)) :=
      mul_le_mul_of_nonneg_left (by linarith) (by linarith)
    refine (add_le_add_left e4 _).trans ?_
    have e5 : 0 ≤ ((1 + f.u) ^ k - 1) * ((1 + f.u) * ((1 + δ) * |x|)) := by
      have : 0 ≤ (1 + f.u) ^ k - 1 := by linarith
      positivity
    have e6 : 0 ≤ ((1 + f.u) ^ k - 1) * ((1 + f.u) * ε) := by
      have : 0 ≤ (1 + f.u) ^ k - 1 := by linarith
      positivity
    rw [pow_succ]
    nlinarith
  refine ⟨?_, fun s' hadd => ?_⟩
  · have e7 : 0 ≤ f.u * (|s - S| + |y - x|) := by positivity
    have e8 : 0 ≤ f.u * (T + |x|) := by positivity
    nlinarith
  · have e1 : |s' - (S + x)| ≤ |s' - (s + y)| + (|s - S| + |y - x|) := by
      have t1 := abs_add_le (s' - (s + y)) ((s - S) + (y - x))
      have t2 := abs_add_le (s - S) (y - x)
      rw [show s' - (S + x) = (s' - (s + y)) + ((s - S) + (y - x)) by ring]
      linarith
    have := mul_le_mul_of_nonneg_left e2 hu.le
    linarith

theorem fold_start {l : List (Flt f)} : ∀ {z : Flt f} {r : ℚ},
    l.foldl (fun a v => a + v) z = .fin r → ∃ s, z = .fin s := by
  induction l with
  | nil => intro z r h; exact ⟨r, h⟩
  | cons w l ih =>
    intro z r h
    rw [List.foldl_cons] at h
    obtain ⟨s, hs⟩ := ih h
    obtain ⟨a, b, ha, -, -⟩ := add_fin hs
    exact ⟨a, ha⟩

/-- The error of adding up terms. -/
theorem fold_error (hf : f.Ok) {δ ε : ℚ} (hδ : 0 ≤ δ) (hε : 0 ≤ ε) (l : List (Flt f)) (xs : List ℚ)
    (hl : List.Forall₂ (Near δ ε) l xs) :
    ∀ (s S T : ℚ) (k : Nat) (r : ℚ), f.Has s →
      |s - S| ≤ ((1 + f.u) ^ k * (1 + δ) - 1) * T + (k + 1) * (1 + f.u) ^ k * ε → |S| ≤ T →
      l.foldl (fun a v => a + v) (Flt.fin s) = .fin r →
      |r - (S + xs.sum)| ≤ ((1 + f.u) ^ (k + l.length) * (1 + δ) - 1) * (T + (xs.map (|·|)).sum) +
        (k + l.length + 1) * (1 + f.u) ^ (k + l.length) * ε := by
  induction hl with
  | nil =>
    intro s S T k r _ hE _ h
    simp only [List.foldl_nil] at h
    injection h with h
    subst h
    simpa using hE
  | @cons v x l xs hv hl ih =>
    intro s S T k r hs hE hS h
    rw [List.foldl_cons] at h
    obtain ⟨s', hs'⟩ := fold_start h
    rw [hs'] at h
    obtain ⟨a, y, ha, hy, hr⟩ := add_fin hs'
    injection ha with ha
    subst ha
    obtain ⟨hyh, hye⟩ := hv y hy
    have := ih s' (S + x) (T + |x|) (k + 1) r (rnd_has hf hr)
      (by
        have := (step_error hδ hε hE hS hye).2 s' (rnd_add_error hs hyh hr)
        push_cast; exact this)
      ((abs_add_le _ _).trans (by linarith)) h
    rw [List.length_cons, List.sum_cons, List.map_cons, List.sum_cons]
    rw [show k + (l.length + 1) = k + 1 + l.length by ring]
    push_cast at this ⊢
    rw [← add_assoc S, ← add_assoc T]
    convert this using 2
    ring

/-- Adding up does not overflow if the sum of the magnitudes is far enough from the limit. -/
theorem fold_total (hf : f.Ok) {δ ε : ℚ} (hδ : 0 ≤ δ) (hε : 0 ≤ ε) (l : List (Flt f)) (xs : List ℚ)
    (hl : List.Forall₂ (Near δ ε) l xs) (hfin : ∀ v ∈ l, ∃ y, v = .fin y) :
    ∀ (s S T : ℚ) (k : Nat), f.Has s →
      |s - S| ≤ ((1 + f.u) ^ k * (1 + δ) - 1) * T + (k + 1) * (1 + f.u) ^ k * ε → |S| ≤ T →
      (1 + f.u) ^ (k + l.length) * (1 + δ) * (T + (xs.map (|·|)).sum) +
        (k + l.length + 1) * (1 + f.u) ^ (k + l.length) * ε ≤
        (2 ^ f.prec - 1) * 2 ^ (f.emax - (f.prec - 1)) →
      ∃ r, l.foldl (fun a v => a + v) (Flt.fin s) = .fin r := by
  induction hl with
  | nil => intro s S T k _ _ _ _; exact ⟨s, rfl⟩
  | @cons v x l xs hv hl ih =>
    intro s S T k hs hE hS hB
    obtain ⟨y, hy⟩ := hfin v (by simp)
    obtain ⟨hyh, hye⟩ := hv y hy
    have hstep := step_error hδ hε hE hS hye
    rw [List.length_cons, List.map_cons, List.sum_cons] at hB
    rw [show k + (l.length + 1) = k + 1 + l.length by ring] at hB
    push_cast at hB
    have hu := u_pos f
    have hT : 0 ≤ T := (abs_nonneg _).trans hS
    have hle : |s + y| ≤ (2 ^ f.prec - 1) * 2 ^ (f.emax - (f.prec - 1)) := by
      refine (hstep.1.trans ?_).trans hB
      have hsum : 0 ≤ (xs.map (|·|)).sum := by
        apply List.sum_nonneg
        intro t ht
        obtain ⟨z, -, rfl⟩ := List.mem_map.1 ht
        exact abs_nonneg z
      have hp : (1 + f.u) ^ (k + 1) ≤ (1 + f.u) ^ (k + 1 + l.length) :=
        pow_le_pow_right₀ (by linarith) (by omega)
      have hx := abs_nonneg x
      gcongr ?_ + ?_
      · gcongr; linarith
      · gcongr
        have : (0 : ℚ) ≤ l.length := by positivity
        linarith
    obtain ⟨s', hr⟩ := rnd_total hf hle
    rw [List.foldl_cons, hy, fin_add, hr]
    refine ih (fun w hw => hfin w (by simp [hw])) s' (S + x) (T + |x|) (k + 1) (rnd_has hf hr)
      (by
        have := hstep.2 s' (rnd_add_error hs hyh hr)
        push_cast; exact this)
      ((abs_add_le _ _).trans (by linarith)) ?_
    push_cast
    refine le_trans (le_of_eq ?_) hB
    ring

/-- Likewise, from zero. -/
theorem fold_error_zero (hf : f.Ok) {δ ε : ℚ} (hδ : 0 ≤ δ) (hε : 0 ≤ ε) (l : List (Flt f))
    (xs : List ℚ) (hl : List.Forall₂ (Near δ ε) l xs) {r : ℚ}
    (h : l.foldl (fun a v => a + v) (0 : Flt f) = .fin r) :
    |r - xs.sum| ≤ ((1 + f.u) ^ (l.length - 1) * (1 + δ) - 1) * (xs.map (|·|)).sum +
      l.length * (1 + f.u) ^ (l.length - 1) * ε := by
  cases hl with
  | nil =>
    simp only [List.foldl_nil] at h
    injection h with h
    subst h; simp
  | @cons v x l xs hv hl =>
    rw [List.foldl_cons] at h
    obtain ⟨s, hs⟩ := fold_start h
    obtain ⟨a, y, ha, hy, hr⟩ := add_fin hs
    injection ha with ha
    subst ha
    obtain ⟨hyh, hye⟩ := hv y hy
    rw [zero_add, rnd_exact hyh] at hr
    injection hr with hr
    subst hr
    rw [hs] at h
    have := fold_error hf hδ hε l xs hl y x |x| 0 r hyh (by simpa using hye) (le_refl _) h
    simp only [List.length_cons, Nat.add_sub_cancel, List.sum_cons, List.map_cons]
    simp only [Nat.cast_zero, zero_add] at this
    push_cast
    exact this

theorem fold_total_zero (hf : f.Ok) {δ ε : ℚ} (hδ : 0 ≤ δ) (hε : 0 ≤ ε) (l : List (Flt f))
    (xs : List ℚ) (hl : List.Forall₂ (Near δ ε) l xs) (hfin : ∀ v ∈ l, ∃ y, v = .fin y)
    (hB : (1 + f.u) ^ (l.length - 1) * (1 + δ) * (xs.map (|·|)).sum +
      l.length * (1 + f.u) ^ (l.length - 1) * ε ≤ (2 ^ f.prec - 1) * 2 ^ (f.emax - (f.prec - 1))) :
    ∃ r, l.foldl (fun a v => a + v) (0 : Flt f) = .fin r := by
  cases hl with
  | nil => exact ⟨0, rfl⟩
  | @cons v x l xs hv hl =>
    obtain ⟨y, hy⟩ := hfin v (by simp)
    obtain ⟨hyh, hye⟩ := hv y hy
    rw [List.foldl_cons, hy, show (0 : Flt f) + .fin y = rnd f (0 + y) from rfl, zero_add,
      rnd_exact hyh]
    refine fold_total hf hδ hε l xs hl (fun w hw => hfin w (by simp [hw])) y x |x| 0 hyh
      (by simpa using hye) (le_refl _) ?_
    simp only [List.length_cons, Nat.add_sub_cancel, List.map_cons, List.sum_cons] at hB
    push_cast at hB
    simpa using hB

end Flt

end Verif
