import Verif.Props.FloatRem

/-!
# Laws of algebra that survive rounding (C194)
-/

namespace Verif

open Flt

variable {f : FloatFmt}

namespace Laws

theorem srnd_neg (s : Bool) (x : ℚ) : SFlt.rnd f (!s) (-x) = -SFlt.rnd f s x := by
  have e := Mono.rnd_neg (f := f) x
  unfold SFlt.rnd
  rw [e]
  cases h : Flt.rnd f x with
  | nan => rfl
  | inf t => rfl
  | fin y =>
    change SFlt.num (if -x = 0 then !s else decide (-x < 0)) (Rat.toNNRat |-y|) =
      SFlt.num (!(if x = 0 then s else decide (x < 0))) (Rat.toNNRat |y|)
    rw [abs_neg]
    by_cases hx : x = 0
    · rw [if_pos (by rw [hx, neg_zero]), if_pos hx]
    · rw [if_neg (neg_ne_zero.2 hx), if_neg hx]
      rcases lt_or_gt_of_ne hx with h | h
      · rw [decide_eq_false (by linarith), decide_eq_true h]; rfl
      · rw [decide_eq_true (by linarith), decide_eq_false (by linarith)]; rfl

theorem sadd_comm (x y : SFlt f) : x + y = y + x := by
  rcases x with _ | s | ⟨s, a⟩ <;> rcases y with _ | t | ⟨t, b⟩ <;> try rfl
  · cases s <;> cases t <;> rfl
  · change SFlt.rnd f (s && t) (SFlt.val s a + SFlt.val t b) = SFlt.rnd f (t && s) (SFlt.val t b + SFlt.val s a)
    rw [Bool.and_comm, add_comm]

theorem smul_comm' (x y : SFlt f) : x * y = y * x := by
  rcases x with _ | s | ⟨s, a⟩ <;> rcases y with _ | t | ⟨t, b⟩ <;> try rfl
  · cases s <;> cases t <;> rfl
  · change (if b = 0 then .nan else .inf (xor s t) : SFlt f) = if b = 0 then .nan else .inf (xor t s)
    rw [Bool.xor_comm]
  · change (if a = 0 then .nan else .inf (xor s t) : SFlt f) = if a = 0 then .nan else .inf (xor t s)
    rw [Bool.xor_comm]
  · change SFlt.rnd f (xor s t) (SFlt.val s a * SFlt.val t b) = SFlt.rnd f (xor t s) (SFlt.val t b * SFlt.val s a)
    rw [Bool.xor_comm, mul_comm]

theorem sneg_mul (x y : SFlt f) : -x * y = -(x * y) := by
  rcases x with _ | s | ⟨s, a⟩ <;> rcases y with _ | t | ⟨t, b⟩ <;> try rfl
  · cases s <;> cases t <;> rfl
  · change (if b = 0 then .nan else .inf (xor (!s) t) : SFlt f) = -(if b = 0 then .nan else .inf (xor s t))
    split
    · rfl
    · cases s <;> cases t <;> rfl
  · change (if a = 0 then .nan else .inf (xor (!s) t) : SFlt f) = -(if a = 0 then .nan else .inf (xor s t))
    split
    · rfl
    · cases s <;> cases t <;> rfl
  · change SFlt.rnd f (xor (!s) t) (SFlt.val (!s) a * SFlt.val t b) = -SFlt.rnd f (xor s t) (SFlt.val s a * SFlt.val t b)
    rw [SFlt.val_not, neg_mul, ← srnd_neg, Bool.not_xor]

theorem sneg_div (x y : SFlt f) : -x / y = -(x / y) ∧ x / -y = -(x / y) := by
  rcases x with _ | s | ⟨s, a⟩ <;> rcases y with _ | t | ⟨t, b⟩ <;> try exact ⟨rfl, rfl⟩
  · constructor <;> cases s <;> cases t <;> rfl
  · constructor <;> cases s <;> cases t <;> rfl
  · constructor
    · change (if b = 0 then (if a = 0 then .nan else .inf (xor (!s) t)) else
        SFlt.rnd f (xor (!s) t) (SFlt.val (!s) a / SFlt.val t b) : SFlt f) =
        -(if b = 0 then (if a = 0 then .nan else .inf (xor s t)) else SFlt.rnd f (xor s t) (SFlt.val s a / SFlt.val t b))
      by_cases hb : b = 0
      · rw [if_pos hb, if_pos hb]
        split
        · rfl
        · cases s <;> cases t <;> rfl
      · rw [if_neg hb, if_neg hb, SFlt.val_not, neg_div, ← srnd_neg, Bool.not_xor]
    · change (if b = 0 then (if a = 0 then .nan else .inf (xor s (!t))) else
        SFlt.rnd f (xor s (!t)) (SFlt.val s a / SFlt.val (!t) b) : SFlt f) =
        -(if b = 0 then (if a = 0 then .nan else .inf (xor s t)) else SFlt.rnd f (xor s t) (SFlt.val s a / SFlt.val t b))
      by_cases hb : b = 0
      · rw [if_pos hb, if_pos hb]
        split
        · rfl
        · cases s <;> cases t <;> rfl
      · rw [if_neg hb, if_neg hb, SFlt.val_not, div_neg, ← srnd_neg, Bool.xor_not]

theorem sneg_neg (x : SFlt f) : - -x = x := by
  rcases x with _ | s | ⟨s, a⟩
  · rfl
  · cases s <;> rfl
  · cases s <;> rfl

end Laws

open Laws

/-! ## The operators -/

/-- C194: exactly, with the sign of a zero. -/
theorem C194_operators (x y : SFlt f) :
    x + y = y + x ∧ x * y = y * x ∧ - -x = x ∧ x - y = x + -y ∧
    -x * y = -(x * y) ∧ x * -y = -(x * y) ∧ -x / y = -(x / y) ∧ x / -y = -(x / y) :=
  ⟨sadd_comm x y, smul_comm' x y, sneg_neg x, rfl, sneg_mul x y, by rw [smul_comm', sneg_mul, smul_comm'],
    (sneg_div x y).1, (sneg_div x y).2⟩

example : (.num true 0 + .num false (1 / 2) : SFlt .f32) = .num false (1 / 2) ∧
    (-.num true 0 * .num false 3 : SFlt .f32) = .num false 0 := by decide +kernel

/-- C194: exactly, except for the sign of a zero. -/
theorem C194_differences (x y : Flt f) : -(x + y) = -x + -y ∧ x - y = -(y - x) ∧ -(x - y) = -x - -y := by
  have h : ∀ x y : Flt f, -(x + y) = -x + -y := by
    intro x y
    rcases x with _ | s | a <;> rcases y with _ | t | b <;> try rfl
    · cases s <;> cases t <;> rfl
    · change -rnd f (a + b) = rnd f (-a + -b)
      rw [← Mono.rnd_neg, neg_add]
  have hn : ∀ x : Flt f, - -x = x := by
    intro x
    rcases x with _ | s | a
    · rfl
    · cases s <;> rfl
    · exact congrArg Flt.fin (neg_neg a)
  have hs : ∀ x y : Flt f, x - y = x + -y := fun _ _ => rfl
  have hc : ∀ x y : Flt f, x + y = y + x := by
    intro x y
    rcases x with _ | s | a <;> rcases y with _ | t | b <;> try rfl
    · cases s <;> cases t <;> rfl
    · change rnd f (a + b) = rnd f (b + a)
      rw [add_comm]
  refine ⟨h x y, ?_, ?_⟩
  · rw [hs, hs, h, hn, hc]
  · rw [hs, hs, h]

/-- C194: zero and one. -/
theorem C194_identities {x : Flt f} (hx : Valid x) : x + 0 = x ∧ x - 0 = x ∧ x * 1 = x ∧ x / 1 = x := by
  rcases x with _ | s | a
  · exact ⟨rfl, rfl, rfl, rfl⟩
  · cases s <;> exact ⟨rfl, rfl, rfl, rfl⟩
  · have e := rnd_exact hx
    refine ⟨?_, ?_, ?_, ?_⟩
    · change rnd f (a + 0) = _
      rw [add_zero, e]
    · change rnd f (a + -0) = _
      rw [neg_zero, add_zero, e]
    · change rnd f (a * 1) = _
      rw [mul_one, e]
    · change (if (1 : ℚ) = 0 then (if a = 0 then .nan else .inf (decide (a < 0))) else rnd f (a / 1) : Flt f) = _
      rw [if_neg one_ne_zero, div_one, e]

example : (.fin (1 / 2) / 1 : Flt .f64) = .fin (1 / 2) :=
  (C194_identities (x := .fin (1 / 2)) ⟨1, -1, by decide, by decide, by norm_num, by decide +kernel⟩).2.2.2

/-- C194: a number and itself. -/
theorem C194_itself (hf : f.Ok) {a : ℚ} : (.fin a - .fin a : Flt f) = 0 ∧ (.fin a * 0 : Flt f) = 0 ∧
    (a ≠ 0 → (.fin a / .fin a : Flt f) = 1) ∧
    (∀ b, f.Has a → f.Has b →
      ((.fin a - .fin b : Flt f) = 0 ↔ a = b) ∧ ((.fin a - .fin b : Flt f) < 0 ↔ a < b)) := by
  refine ⟨?_, ?_, ?_, ?_⟩
  · rw [fin_sub, sub_self, rnd_zero]; rfl
  · change rnd f (a * 0) = _
    rw [mul_zero, rnd_zero]; rfl
  · intro ha
    change (if a = 0 then _ else rnd f (a / a)) = _
    rw [if_neg ha, div_self ha, show rnd f 1 = _ by simpa using rnd_exact (has_int hf (z := 1) (by simpa using one_le_pow₀ (M₀ := ℤ) (by norm_num : (1 : ℤ) ≤ 2)))]; rfl
  · intro b ha hb
    have hp := hf.prec_pos
    have hu : f.u < 1 := by
      unfold FloatFmt.u
      have : (1 : ℚ) < 2 ^ f.prec := one_lt_pow₀ (by norm_num) (by omega)
      rw [div_lt_one (by positivity)]; exact this
    have hz : rnd f (a - b) = .fin 0 → a = b := by
      intro h
      rw [sub_eq_add_neg] at h
      have := rnd_add_error ha (Has.neg hb) h
      rw [zero_sub, abs_neg, ← sub_eq_add_neg] at this
      have h0 : |a - b| = 0 := by
        have := abs_nonneg (a - b)
        nlinarith
      linarith [abs_eq_zero.1 h0]
    rw [fin_sub]
    refine ⟨⟨hz, fun h => by rw [h, sub_self, rnd_zero]; rfl⟩, ?_⟩
    have hm := fun {x y : ℚ} (h : x ≤ y) => Mono.rnd_mono hf h
    constructor
    · intro h
      by_contra hc
      push Not at hc
      have h1 := hm (sub_nonneg.2 hc)
      rw [rnd_zero] at h1
      rcases Mono.nn_cases h1 with e | ⟨q, e, hq⟩
      · rw [e] at h; cases h
      · rw [e] at h
        exact absurd (of_decide_eq_true h) (not_lt.2 hq)
    · intro h
      have h1 := hm (sub_neg.2 h).le
      rw [rnd_zero] at h1
      rcases Mono.le_cases h1 with ⟨e, _⟩ | ⟨e, _⟩ | ⟨p, q, e, e', hpq⟩
      · rw [e]; rfl
      · cases e
      · cases e'
        rw [e]
        refine decide_eq_true (lt_of_le_of_ne hpq ?_)
        rintro rfl
        exact h.ne (hz e)

/-- C194 (Sterbenz): the difference of floats that differ by a factor of at most two is exact. -/
theorem C194_sterbenz {a b : ℚ} (ha : f.Has a) (hb : f.Has b) (h1 : a ≤ 2 * b) (h2 : b ≤ 2 * a) :
    (.fin a - .fin b : Flt f) = .fin (a - b) := by
  have key : ∀ {a b : ℚ}, f.Has a → f.Has b → 0 ≤ b → b ≤ a → a ≤ 2 * b → f.Has (a - b) := by
    intro a b ha hb h0 h1 h2
    rcases h2.eq_or_lt with h | h
    · rwa [show a - b = b by linarith]
    · refine Rem.has ha hb ⟨⟨1, by push_cast; ring⟩, ?_, mul_nonneg (by linarith) (by linarith)⟩
      rw [abs_of_nonneg (by linarith), abs_of_nonneg h0]
      linarith
  rw [fin_sub]
  refine rnd_exact ?_
  rcases le_total b a with h | h
  · exact key ha hb (by linarith) h h1
  · have := Has.neg (key hb ha (by linarith) h h2)
    rwa [neg_sub] at this

/-! ## Powers of two -/

namespace Laws

theorem log_scale {r : ℚ} (hr : 0 < r) (k : Int) : Int.log 2 (2 ^ k * r) = k + Int.log 2 r := by
  have hp : (0 : ℚ) < 2 ^ k := by positivity
  have key : ∀ z : Int, z ≤ Int.log 2 (2 ^ k * r) ↔ z - k ≤ Int.log 2 r := by
    intro z
    have h1 := Int.zpow_le_iff_le_log (b := 2) (by norm_num) (x := z) (mul_pos hp hr)
    have h2 := Int.zpow_le_iff_le_log (b := 2) (by norm_num) (x := z - k) hr
    push_cast at h1 h2
    rw [← h1, ← h2, zpow_sub₀ (by norm_num), div_le_iff₀ hp, mul_comm r]
  refine le_antisymm ?_ ?_
  · have := (key _).1 (le_refl _)
    linarith
  · rw [key]; linarith

/-- A number that is scaled and does not underflow is rounded in the same place. -/
theorem rnd_scale {x y : ℚ} {k : Int} (hx : f.Safe x) (hc : f.Safe (2 ^ k * x)) (h : rnd f x = .fin y) :
    (|2 ^ k * y| < 2 ^ (f.emax + 1) → rnd f (2 ^ k * x) = .fin (2 ^ k * y)) ∧
    ∀ z, rnd f (2 ^ k * x) = .fin z → z = 2 ^ k * y := by
  have hp : (0 : ℚ) < 2 ^ k := by positivity
  by_cases h0 : x = 0
  · subst h0
    rw [rnd_fin_of_zero h, mul_zero, rnd_zero]
    exact ⟨fun _ => rfl, fun z hz => (Flt.fin.inj hz).symm⟩
  have hc0 : 2 ^ k * x ≠ 0 := mul_ne_zero hp.ne' h0
  have hx := hx.resolve_left h0
  have hc := hc.resolve_left hc0
  have ha : 0 < |x| := abs_pos.2 h0
  have l1 : f.emin ≤ Int.log 2 |x| := (Int.zpow_le_iff_le_log (b := 2) (by norm_num) ha).1 (by exact_mod_cast hx)
  have hl : Int.log 2 |2 ^ k * x| = k + Int.log 2 |x| := by rw [abs_mul, abs_of_pos hp, log_scale ha]
  have l2 : f.emin ≤ k + Int.log 2 |x| := by
    rw [← hl]
    exact (Int.zpow_le_iff_le_log (b := 2) (by norm_num) (abs_pos.2 hc0)).1 (by exact_mod_cast hc)
  have hu : ulp f (2 ^ k * x) = 2 ^ k * ulp f x := by
    unfold ulp
    rw [hl, max_eq_left l1, max_eq_left l2, ← zpow_add₀ (by norm_num)]
    congr 1
    ring
  have hy := (rnd_fin h h0).1
  have e : (roundEven (2 ^ k * x / ulp f (2 ^ k * x)) : ℚ) * ulp f (2 ^ k * x) = 2 ^ k * y := by
    rw [hu, mul_div_mul_left _ _ hp.ne', hy]
    ring
  have key : rnd f (2 ^ k * x) = if |2 ^ k * y| < 2 ^ (f.emax + 1) then .fin (2 ^ k * y) else
      .inf (decide (2 ^ k * x < 0)) := by
    unfold rnd
    rw [if_neg hc0]
    dsimp only
    rw [e]
  rw [key]
  constructor
  · intro h; rw [if_pos h]
  · intro z hz
    split at hz
    · exact (Flt.fin.inj hz).symm
    · cases hz

/-- A small sum of floats is a multiple of the smallest float. -/
theorem sum_small (hf : f.Ok) {a b : ℚ} (ha : f.Has a) (hb : f.Has b) (h : |a + b| < 2 ^ f.emin) :
    ∃ m : Int, |m| < 2 ^ f.prec ∧ a + b = m * 2 ^ (f.emin - (f.prec - 1)) := by
  have unit : ∀ {q : ℚ}, f.Has q → ∃ m : Int, q = m * 2 ^ (f.emin - (f.prec - 1)) := by
    rintro q ⟨m, e, _, he, rfl, _⟩
    refine ⟨m * 2 ^ (e - (f.emin - (f.prec - 1))).toNat, ?_⟩
    have := two_zpow_sub he
    rw [this]
    push_cast
    ring
  obtain ⟨m, hm⟩ := unit ha
  obtain ⟨n, hn⟩ := unit hb
  have e : a + b = ((m + n : Int) : ℚ) * 2 ^ (f.emin - (f.prec - 1)) := by rw [hm, hn]; push_cast; ring
  refine ⟨m + n, ?_, e⟩
  have hp : (0 : ℚ) < 2 ^ (f.emin - ((f.prec : Int) - 1)) := by positivity
  rw [e, abs_mul, abs_of_pos hp] at h
  have h2 : (2 : ℚ) ^ f.emin ≤ 2 ^ f.prec * 2 ^ (f.emin - ((f.prec : Int) - 1)) := by
    rw [← zpow_natCast, ← zpow_add₀ (by norm_num)]
    exact zpow_le_zpow_right₀ (by norm_num) (by omega)
  have := lt_of_mul_lt_mul_right (h.trans_le h2) hp.le
  exact_mod_cast this

/-- Sums of floats are scaled exactly, without any condition on underflow. -/
theorem add_scale (hf : f.Ok) {a b y : ℚ} {k : Int} (ha : f.Has a) (hb : f.Has b) (hca : f.Has (2 ^ k * a))
    (hcb : f.Has (2 ^ k * b)) (h : rnd f (a + b) = .fin y) :
    (|2 ^ k * y| < 2 ^ (f.emax + 1) → rnd f (2 ^ k * a + 2 ^ k * b) = .fin (2 ^ k * y)) ∧
    ∀ z, rnd f (2 ^ k * a + 2 ^ k * b) = .fin z → z = 2 ^ k * y := by
  have hp : (0 : ℚ) < 2 ^ k := by positivity
  have he : 2 ^ k * a + 2 ^ k * b = 2 ^ k * (a + b) := by ring
  have hmax : (2 : ℚ) ^ f.emin < 2 ^ (f.emax + 1) :=
    (zpow_lt_zpow_iff_right₀ (by norm_num)).2 (by have := hf.emin_le; have := hf.prec_le; omega)
  have fin_lt : ∀ {x z : ℚ}, rnd f x = .fin z → |x| < 2 ^ (f.emax + 1) := by
    intro x z hz
    by_contra hc
    push Not at hc
    have hq : (0 : ℚ) < 2 ^ (f.emax - f.prec) := by positivity
    rw [(rnd_eq_inf_iff hf x (decide (x < 0))).2 ⟨by linarith, rfl⟩] at hz
    cases hz
  by_cases h1 : |a + b| < 2 ^ f.emin
  · obtain ⟨m, hm, e⟩ := sum_small hf ha hb h1
    have hx : f.Has (a + b) := ⟨m, _, hm, le_refl _, e, h1.trans hmax⟩
    rw [rnd_exact hx] at h
    obtain rfl := Flt.fin.inj h
    by_cases h2 : |2 ^ k * (a + b)| < 2 ^ f.emin
    · rw [← he] at h2 ⊢
      obtain ⟨n, hn, e'⟩ := sum_small hf hca hcb h2
      rw [rnd_exact ⟨n, _, hn, le_refl _, e', h2.trans hmax⟩]
      exact ⟨fun _ => rfl, fun z hz => (Flt.fin.inj hz).symm⟩
    · push Not at h2
      have hk : 0 ≤ k := by
        by_contra hc
        push Not at hc
        have : (2 : ℚ) ^ k ≤ 1 := zpow_le_one_of_nonpos₀ (by norm_num) hc.le
        rw [abs_mul, abs_of_pos hp] at h2
        have := mul_le_of_le_one_left (abs_nonneg (a + b)) this
        linarith
      rw [he]
      have hh : |2 ^ k * (a + b)| < 2 ^ (f.emax + 1) → f.Has (2 ^ k * (a + b)) := fun hlt =>
        ⟨m, k + (f.emin - (f.prec - 1)), hm, by omega, by rw [e, zpow_add₀ (by norm_num)]; ring, hlt⟩
      refine ⟨fun hlt => rnd_exact (hh hlt), fun z hz => ?_⟩
      rw [rnd_exact (hh (fin_lt hz))] at hz
      exact (Flt.fin.inj hz).symm
  · push Not at h1
    by_cases h2 : |2 ^ k * (a + b)| < 2 ^ f.emin
    · rw [← he] at h2
      obtain ⟨n, hn, e'⟩ := sum_small hf hca hcb h2
      have hk : k ≤ 0 := by
        by_contra hc
        push Not at hc
        have : 1 ≤ (2 : ℚ) ^ k := one_le_zpow₀ (by norm_num) hc.le
        rw [he, abs_mul, abs_of_pos hp] at h2
        have := le_mul_of_one_le_left (abs_nonneg (a + b)) this
        linarith
      rw [rnd_exact ⟨n, _, hn, le_refl _, e', h2.trans hmax⟩]
      have hh : f.Has (a + b) := by
        refine ⟨n, f.emin - (f.prec - 1) - k, hn, by omega, ?_, fin_lt h⟩
        rw [zpow_sub₀ (by norm_num), ← mul_div_assoc, eq_div_iff hp.ne', ← e']
        ring
      rw [rnd_exact hh] at h
      obtain rfl := Flt.fin.inj h
      rw [he]
      exact ⟨fun _ => rfl, fun z hz => (Flt.fin.inj hz).symm⟩
    · push Not at h2
      rw [he]
      exact rnd_scale (.inr h1) (.inr h2) h

end Laws

/-- C194: scaling by a power of two commutes with everything if there is no overflow and, for products and
quotients, no underflow. -/
theorem C194_scale (hf : f.Ok) {a b y : ℚ} (k : Int) :
    (f.Has a → f.Has b → f.Has (2 ^ k * a) → f.Has (2 ^ k * b) → (.fin a + .fin b : Flt f) = .fin y →
      |2 ^ k * y| < 2 ^ (f.emax + 1) → (.fin (2 ^ k * a) + .fin (2 ^ k * b) : Flt f) = .fin (2 ^ k * y)) ∧
    (f.Safe (a * b) → f.Safe (2 ^ k * (a * b)) → (.fin a * .fin b : Flt f) = .fin y →
      |2 ^ k * y| < 2 ^ (f.emax + 1) → (.fin (2 ^ k * a) * .fin b : Flt f) = .fin (2 ^ k * y)) ∧
    (b ≠ 0 → f.Safe (a / b) → f.Safe (2 ^ k * (a / b)) → (.fin a / .fin b : Flt f) = .fin y →
      |2 ^ k * y| < 2 ^ (f.emax + 1) → (.fin (2 ^ k * a) / .fin b : Flt f) = .fin (2 ^ k * y)) := by
  refine ⟨fun ha hb hca hcb h hlt => (add_scale hf ha hb hca hcb h).1 hlt, fun h1 h2 h hlt => ?_, fun hb h1 h2 h hlt => ?_⟩
  · rw [fin_mul] at h ⊢
    rw [mul_assoc]
    exact (rnd_scale h1 h2 h).1 hlt
  · have e : ∀ a : ℚ, (.fin a / .fin b : Flt f) = rnd f (a / b) := fun a => if_neg hb
    rw [e] at h ⊢
    rw [mul_div_assoc]
    exact (rnd_scale h1 h2 h).1 hlt

/-- C194: scaling a vector by a power of two scales the sum of the components exactly, underflow or not. -/
theorem C194_scale_sum (hf : f.Ok) {n : Nat} {x : Fin n → ℚ} (k : Int) (hx : ∀ i, f.Has (x i))
    (hc : ∀ i, f.Has (2 ^ k * x i)) {s t : ℚ} (hs : Vect.sum n (vec x : List (Flt f)) = some (.fin s))
    (ht : Vect.sum n (vec fun i => 2 ^ k * x i : List (Flt f)) = some (.fin t)) : t = 2 ^ k * s := by
  have key : ∀ (l : List ℚ), (∀ q ∈ l, f.Has q ∧ f.Has (2 ^ k * q)) → ∀ {z s t : ℚ}, f.Has z → f.Has (2 ^ k * z) →
      (l.map fun q => (.fin q : Flt f)).foldl (· + ·) (.fin z) = .fin s →
      (l.map fun q => (.fin (2 ^ k * q) : Flt f)).foldl (· + ·) (.fin (2 ^ k * z)) = .fin t → t = 2 ^ k * s := by
    intro l
    induction l with
    | nil =>
      intro _ z s t _ _ h1 h2
      rw [← Flt.fin.inj h1]
      exact (Flt.fin.inj h2).symm
    | cons q l ih =>
      intro hl z s t hz hz' h1 h2
      obtain ⟨q1, q2⟩ := hl q (by simp)
      rw [List.map_cons, List.foldl_cons] at h1 h2
      obtain ⟨z1, e1⟩ := fold_start h1
      obtain ⟨z2, e2⟩ := fold_start h2
      have e3 := (add_scale hf hz q1 hz' q2 e1).2 z2 e2
      rw [e1] at h1
      rw [e2, e3] at h2
      rw [e3] at e2
      exact ih (fun q hq => hl q (by simp [hq])) (rnd_has hf e1) (rnd_has hf e2) h1 h2
  rw [(Vect.C77_others n _ (by simp [vec]) 0).2.2.1] at hs ht
  have e1 : (vec x : List (Flt f)) = (List.ofFn x).map fun q => .fin q := by rw [List.map_ofFn]; rfl
  have e2 : (vec (fun i => 2 ^ k * x i) : List (Flt f)) = (List.ofFn x).map fun q => .fin (2 ^ k * q) := by
    rw [List.map_ofFn]; rfl
  rw [e1] at hs
  rw [e2] at ht
  refine key (List.ofFn x) ?_ (Has.zero f) (by rw [mul_zero]; exact Has.zero f) (Option.some.inj hs) ?_
  · intro q hq
    obtain ⟨i, rfl⟩ := (List.mem_ofFn' _ _).1 hq
    exact ⟨hx i, hc i⟩
  · rw [mul_zero]; exact Option.some.inj ht

/-! ## Compounds -/

/-- C194 for complex numbers, exactly. -/
theorem C194_complex (z w : Complex (SFlt f)) : z.add w = w.add z ∧ z.mul w = w.mul z := by
  constructor
  · unfold Complex.add
    rw [sadd_comm z.real, sadd_comm z.imag]
  · unfold Complex.mul
    rw [smul_comm' z.real w.real, smul_comm' z.imag w.imag, sadd_comm (z.real * w.imag), smul_comm' z.real w.imag,
      smul_comm' w.real z.imag, smul_comm' w.imag z.real, smul_comm' z.imag w.real]

/-- C194 for vectors, exactly: the dot product. -/
theorem C194_dot (a b : List (SFlt f)) : Vect.dotProduct a b = Vect.dotProduct b a := by
  unfold Vect.dotProduct
  congr 1
  induction a generalizing b with
  | nil => cases b <;> rfl
  | cons x a ih =>
    cases b with
    | nil => rfl
    | cons y b =>
      simp only [Vect.stdZip, List.map_cons]
      rw [ih b, smul_comm']

/-- C194 for vectors, up to the sign of zero: the cross product changes its sign. -/
theorem C194_cross (a b : List (Flt f)) : Vect.cross a b = (Vect.cross b a).map (- ·) := by
  have hc : ∀ x y : Flt f, x * y = y * x := by
    intro x y
    rcases x with _ | s | a <;> rcases y with _ | t | b <;> try rfl
    · cases s <;> cases t <;> rfl
    · change (if b = 0 then .nan else .inf (xor s (decide (b < 0))) : Flt f) = if b = 0 then .nan else .inf (xor (decide (b < 0)) s)
      rw [Bool.xor_comm]
    · change (if a = 0 then .nan else .inf (xor (decide (a < 0)) t) : Flt f) = if a = 0 then .nan else .inf (xor t (decide (a < 0)))
      rw [Bool.xor_comm]
    · exact congrArg (rnd f) (mul_comm a b)
  rcases a with _ | ⟨a0, _ | ⟨a1, _ | ⟨a2, _ | ⟨a3, a⟩⟩⟩⟩ <;>
    rcases b with _ | ⟨b0, _ | ⟨b1, _ | ⟨b2, _ | ⟨b3, b⟩⟩⟩⟩ <;> try rfl
  simp only [Vect.cross, List.map_cons, List.map_nil]
  rw [hc b1 a2, hc b2 a1, hc b2 a0, hc b0 a2, hc b0 a1, hc b1 a0, ← (C194_differences _ _).2.1,
    ← (C194_differences _ _).2.1, ← (C194_differences _ _).2.1]

/-- C194 for matrices, exactly: sums commute, and the transposed product is the product of the transposed factors in
the other order. -/
theorem C194_transpose {R C D : Nat} (hC : 0 < C) {a a' b : List (List (SFlt f))}
    {A A' : Matrix (Fin R) (Fin C) (SFlt f)} {B : Matrix (Fin C) (Fin D) (SFlt f)} (ha : MatOf a A) (ha' : MatOf a' A')
    (hb : MatOf b B) :
    (∃ s, Mat.add R C a a' = some s ∧ Mat.add R C a' a = some s) ∧
    ∃ ta tb p q, Mat.transpose C a = some ta ∧ Mat.transpose D b = some tb ∧ Mat.mul R C D a b = .ok p ∧
      Mat.transpose D p = some q ∧ Mat.mul D C R tb ta = .ok q := by
  have tr : ∀ {m n : Nat} {c : List (List (SFlt f))} {M : Matrix (Fin m) (Fin n) (SFlt f)}, MatOf c M →
      ∃ t, Mat.transpose n c = some t ∧ MatOf t M.transpose := by
    intro m n c M hc
    obtain ⟨t, e, ht⟩ := zipAll_spec hc
    exact ⟨t, by unfold Mat.transpose; rw [e]; rfl, ht⟩
  constructor
  · obtain ⟨s, e, hs⟩ := rowsOp_spec (· + ·) ha ha'
    obtain ⟨s', e', hs'⟩ := rowsOp_spec (· + ·) ha' ha
    refine ⟨s, e, e'.trans (congrArg some ?_)⟩
    unfold MatOf at hs hs'
    rw [hs, hs']
    simp only [sadd_comm]
  · obtain ⟨ta, e1, h1⟩ := tr ha
    obtain ⟨tb, e2, h2⟩ := tr hb
    obtain ⟨p, e3, h3⟩ := mul_fold hC ha hb
    obtain ⟨q, e4, h4⟩ := tr h3
    obtain ⟨q', e5, h5⟩ := mul_fold hC h2 h1
    refine ⟨ta, tb, p, q, e1, e2, e3, e4, ?_⟩
    rw [e5]
    unfold MatOf at h4 h5
    rw [h4, h5]
    have ext : ∀ {m n : Nat} (M : Matrix (Fin m) (Fin n) (SFlt f)) (i j : Nat), extend M.transpose i j = extend M j i := by
      intro m n M i j
      unfold extend
      by_cases h : j < m ∧ i < n
      · rw [dif_pos h, dif_pos ⟨h.2, h.1⟩]; rfl
      · rw [dif_neg h, dif_neg fun h' => h ⟨h'.2, h'.1⟩]
    have key : ∀ i j, entry B.transpose A.transpose i j = entry A B j i := by
      intro i j
      unfold entry
      simp only [ext, smul_comm' (extend B _ _)]
    simp only [key]
    rfl

/-! ## What is not claimed -/

/-- Associativity, distributivity and cancelling do not survive. -/
theorem C194_limits :
    (∃ a b c : Flt .f64, a + b + c ≠ a + (b + c)) ∧ (∃ a b c : Flt .f64, a * b * c ≠ a * (b * c)) ∧
    (∃ a b c : Flt .f64, a * (b + c) ≠ a * b + a * c) ∧ (∃ a b : Flt .f64, a / b * b ≠ a) ∧
    ∃ x : SFlt .f64, -(x + -x) ≠ -x + x := by
  refine ⟨⟨.fin (2 ^ 53), .fin 1, .fin 1, ?_⟩, ⟨.fin (2 ^ 1000), .fin (2 ^ 1000), .fin (1 / 2 ^ 1000), ?_⟩,
    ⟨.fin 3, .fin (2 ^ 53), .fin 1, ?_⟩, ⟨1, .fin 49, ?_⟩, ⟨1, ?_⟩⟩
  all_goals decide +kernel

example : FloatFmt.f64.Has (2 ^ 600) ∧ (.fin (3 / 2) - .fin 1 : Flt .f64) = .fin (1 / 2) :=
  ⟨⟨1, 600, by decide +kernel, by decide +kernel, by norm_num, by decide +kernel⟩, by decide +kernel⟩
example : (.num false 1 / .num true 0 : SFlt .f64) = -(.num false 1 / .num false 0) := by decide +kernel
example : Vect.sum 2 (vec ![1, 1 / 2 ^ 60] : List (Flt .f64)) = some (.fin 1) ∧
    Vect.sum 2 (vec (fun i => 2 ^ (-1010 : Int) * ![1, 1 / 2 ^ 60] i) : List (Flt .f64)) = some (.fin (2 ^ (-1010 : Int))) := by
  decide +kernel
example : Vect.cross ([1, .fin 2, .fin 3] : List (Flt .f64)) [.fin 4, .fin 5, .inf false] = [.inf false, .inf true, .fin (-3)] := by
  decide +kernel

end Verif
