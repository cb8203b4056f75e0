import Verif.Model.FloatRem
import Verif.Props.FloatSign
import Verif.Props.FloatMono

/-!
# Remainders of floats (C193)
-/

namespace Verif

open Flt

variable {f : FloatFmt}

/-! ## What a remainder is -/

/-- `r` is the remainder of `a` divided by `b`: they differ by a whole multiple of `b`, it is smaller than `b`, and
it does not have the opposite sign of `a`. -/
structure IsRem (a b r : ℚ) : Prop where
  whole : ∃ k : Int, a = k * b + r
  small : |r| < |b|
  sign : 0 ≤ a * r

/-- There is only one. -/
theorem IsRem.unique {a b r r' : ℚ} (h : IsRem a b r) (h' : IsRem a b r') : r = r' := by
  obtain ⟨k, hk⟩ := h.whole
  obtain ⟨k', hk'⟩ := h'.whole
  have e : r - r' = (k' - k : Int) * b := by push_cast; linarith
  by_cases hkk : k' - k = 0
  · rw [hkk] at e; push_cast at e; linarith
  · exfalso
    have h1 : (1 : ℚ) ≤ |((k' - k : Int) : ℚ)| := by exact_mod_cast Int.one_le_abs hkk
    have h2 : |b| ≤ |r - r'| := by
      rw [e, abs_mul]
      nlinarith [abs_nonneg b]
    have s1 := h.small
    have s2 := h'.small
    rcases lt_trichotomy a 0 with ha | ha | ha
    · have p1 : r ≤ 0 := by by_contra hc; push Not at hc; nlinarith [h.sign]
      have p2 : r' ≤ 0 := by by_contra hc; push Not at hc; nlinarith [h'.sign]
      rw [abs_of_nonpos p1] at s1
      rw [abs_of_nonpos p2] at s2
      rcases abs_cases (r - r') with ⟨e, _⟩ | ⟨e, _⟩ <;> linarith
    · subst ha
      have z : ∀ {k : Int} {r : ℚ}, 0 = k * b + r → |r| < |b| → r = 0 := by
        intro k r hk hr
        have e : r = -(k * b) := by linarith
        rcases eq_or_ne k 0 with rfl | hk0
        · rw [e]; simp
        · have h1 : (1 : ℚ) ≤ |(k : ℚ)| := by exact_mod_cast Int.one_le_abs hk0
          rw [e, abs_neg, abs_mul] at hr
          nlinarith [abs_nonneg b]
      rw [z hk s1, z hk' s2, sub_zero, abs_zero] at h2
      have := abs_nonneg r
      linarith
    · have p1 : 0 ≤ r := by by_contra hc; push Not at hc; nlinarith [h.sign]
      have p2 : 0 ≤ r' := by by_contra hc; push Not at hc; nlinarith [h'.sign]
      rw [abs_of_nonneg p1] at s1
      rw [abs_of_nonneg p2] at s2
      rcases abs_cases (r - r') with ⟨e, _⟩ | ⟨e, _⟩ <;> linarith

namespace Rem

/-- The exact remainder. -/
theorem isRem {a b : ℚ} (hb : b ≠ 0) : IsRem a b (a - b * towardZero (a / b)) := by
  have hb' : 0 < |b| := abs_pos.2 hb
  set t := a / b with ht
  have ha : a = t * b := by rw [ht, div_mul_cancel₀ a hb]
  have e : a - b * towardZero t = (t - towardZero t) * b := by rw [ha]; ring
  have h1 : |t - towardZero t| < 1 ∧ 0 ≤ t * (t - towardZero t) := by
    unfold towardZero
    split_ifs with h0
    · have l := Int.floor_le t
      have u := Int.lt_floor_add_one t
      exact ⟨by rw [abs_of_nonneg (by linarith)]; linarith, mul_nonneg h0 (by linarith)⟩
    · push Not at h0
      have l := Int.le_ceil t
      have u := Int.ceil_lt_add_one t
      exact ⟨by rw [abs_of_nonpos (by linarith)]; linarith, mul_nonneg_of_nonpos_of_nonpos h0.le (by linarith)⟩
  refine ⟨⟨towardZero t, by ring⟩, ?_, ?_⟩
  · rw [e, abs_mul]
    nlinarith
  · rw [e, ha]
    have : t * b * ((t - ↑(towardZero t)) * b) = (t * (t - towardZero t)) * (b * b) := by ring
    rw [this]
    exact mul_nonneg h1.2 (mul_self_nonneg b)

theorem le_dividend {a b r : ℚ} (h : IsRem a b r) : |r| ≤ |a| := by
  obtain ⟨k, hk⟩ := h.whole
  have hs := h.small
  rcases eq_or_ne k 0 with rfl | hk0
  · rw [hk]; simp
  · by_contra hc
    push Not at hc
    have h1 : (1 : ℚ) ≤ |(k : ℚ)| := by exact_mod_cast Int.one_le_abs hk0
    have h2 : |b| ≤ |a - r| := by
      rw [show a - r = k * b by linarith, abs_mul]
      nlinarith [abs_nonneg b]
    have h3 := h.sign
    have h4 : |a - r| ≤ |r| := by
      rcases le_total 0 a with ha | ha
      · rcases le_total 0 r with hr | hr
        · rw [abs_of_nonneg ha, abs_of_nonneg hr] at hc
          rw [abs_of_nonpos (by linarith), abs_of_nonneg hr]; linarith
        · have : a * r = 0 := le_antisymm (mul_nonpos_of_nonneg_of_nonpos ha hr) h3
          rcases mul_eq_zero.1 this with rfl | rfl
          · simp
          · simp at hc; exact absurd hc (not_lt.2 (abs_nonneg a))
      · rcases le_total 0 r with hr | hr
        · have : a * r = 0 := le_antisymm (mul_nonpos_of_nonpos_of_nonneg ha hr) h3
          rcases mul_eq_zero.1 this with rfl | rfl
          · simp
          · simp at hc; exact absurd hc (not_lt.2 (abs_nonneg a))
        · rw [abs_of_nonpos ha, abs_of_nonpos hr] at hc
          rw [abs_of_nonneg (by linarith), abs_of_nonpos hr]; linarith
    linarith

/-- The remainder of two floats is a float. -/
theorem has {a b r : ℚ} (ha : f.Has a) (hb : f.Has b) (h : IsRem a b r) : f.Has r := by
  have hr := le_dividend h
  obtain ⟨m, e, hm, he, rfl, hma⟩ := ha
  obtain ⟨n, d, hn, hd, rfl, hmb⟩ := hb
  obtain ⟨k, hk⟩ := h.whole
  have hs := h.small
  have pe : (0 : ℚ) < 2 ^ e := by positivity
  have pd : (0 : ℚ) < 2 ^ d := by positivity
  rcases le_total e d with hed | hed
  · obtain ⟨j, hj⟩ := Int.le.dest hed
    have e2 : (2 : ℚ) ^ d = 2 ^ j * 2 ^ e := by
      rw [← hj, zpow_add₀ (by norm_num), zpow_natCast, mul_comm]
    have er : r = ((m - k * n * 2 ^ j : Int) : ℚ) * 2 ^ e := by
      push_cast
      rw [e2] at hk
      linear_combination -hk
    refine ⟨m - k * n * 2 ^ j, e, ?_, he, er, lt_of_le_of_lt hr hma⟩
    rw [er, abs_mul, abs_mul, abs_of_pos pe] at hr
    have := le_of_mul_le_mul_right hr pe
    have h3 : |m - k * n * 2 ^ j| ≤ |m| := by exact_mod_cast this
    exact lt_of_le_of_lt h3 hm
  · obtain ⟨j, hj⟩ := Int.le.dest hed
    have e2 : (2 : ℚ) ^ e = 2 ^ j * 2 ^ d := by
      rw [← hj, zpow_add₀ (by norm_num), zpow_natCast, mul_comm]
    have er : r = ((m * 2 ^ j - k * n : Int) : ℚ) * 2 ^ d := by
      push_cast
      rw [e2] at hk
      linear_combination -hk
    refine ⟨m * 2 ^ j - k * n, d, ?_, hd, er, lt_of_le_of_lt hr hma⟩
    rw [er, abs_mul, abs_mul, abs_of_pos pd] at hs
    have := lt_of_mul_lt_mul_right hs pd.le
    have h3 : |m * 2 ^ j - k * n| < |n| := by exact_mod_cast this
    exact lt_trans h3 hn

end Rem

theorem rem_zero (a : ℚ) : (.fin a % .fin 0 : Flt f) = .nan := by
  change (if (0 : ℚ) = 0 then .nan else rnd f (a - 0 * towardZero (a / 0)) : Flt f) = _
  rw [if_pos rfl]

/-! ## C193 -/

/-- C193: the remainder of two finite floats is exact. -/
theorem C193_exact {a b : ℚ} (ha : f.Has a) (hb : f.Has b) (h0 : b ≠ 0) :
    ∃ r, (.fin a % .fin b : Flt f) = .fin r ∧ f.Has r ∧ IsRem a b r ∧ ∀ r', IsRem a b r' → r' = r := by
  have h := Rem.isRem (a := a) h0
  refine ⟨_, ?_, Rem.has ha hb h, h, fun r' h' => h'.unique h⟩
  change (if b = 0 then _ else rnd f _) = _
  rw [if_neg h0]
  exact rnd_exact (Rem.has ha hb h)

/-- C193: it is NaN only for an infinite dividend, the divisor zero, and NaN, and never infinite. -/
theorem C193_special {x y : Flt f} (hx : Valid x) (hy : Valid y) :
    (x % y = .nan ↔ x = .nan ∨ y = .nan ∨ (∃ s, x = .inf s) ∨ y = .fin 0) ∧ (∀ s, x % y ≠ .inf s) ∧
    (∀ a s, x = .fin a → y = .inf s → x % y = x) := by
  rcases x with _ | s | a <;> rcases y with _ | t | b
  · exact ⟨⟨fun _ => .inl rfl, fun _ => rfl⟩, nofun, nofun⟩
  · exact ⟨⟨fun _ => .inl rfl, fun _ => rfl⟩, nofun, nofun⟩
  · exact ⟨⟨fun _ => .inl rfl, fun _ => rfl⟩, nofun, nofun⟩
  · exact ⟨⟨fun _ => .inr (.inl rfl), fun _ => rfl⟩, nofun, nofun⟩
  · exact ⟨⟨fun _ => .inr (.inr (.inl ⟨s, rfl⟩)), fun _ => rfl⟩, nofun, nofun⟩
  · exact ⟨⟨fun _ => .inr (.inr (.inl ⟨s, rfl⟩)), fun _ => rfl⟩, nofun, nofun⟩
  · exact ⟨⟨fun _ => .inr (.inl rfl), fun _ => rfl⟩, nofun, nofun⟩
  · refine ⟨⟨nofun, ?_⟩, nofun, fun _ _ _ _ => rfl⟩
    rintro (h | h | ⟨s, h⟩ | h) <;> cases h
  · rcases eq_or_ne b 0 with rfl | hb
    · have e : (.fin a % .fin 0 : Flt f) = .nan := rem_zero a
      rw [e]
      exact ⟨⟨fun _ => .inr (.inr (.inr rfl)), fun _ => rfl⟩, nofun, nofun⟩
    · obtain ⟨r, e, -⟩ := C193_exact hx hy hb
      rw [e]
      refine ⟨⟨nofun, ?_⟩, nofun, nofun⟩
      rintro (h | h | ⟨s, h⟩ | h)
      · cases h
      · cases h
      · cases h
      · exact absurd (Flt.fin.inj h) hb

/-- C193: signs; the sign of the divisor does not matter, that of the dividend is that of the result. -/
theorem C193_signs (x y : Flt f) : -x % y = -(x % y) ∧ x % -y = x % y := by
  rcases x with _ | s | a <;> rcases y with _ | t | b <;> try exact ⟨rfl, rfl⟩
  rcases eq_or_ne b 0 with rfl | hb
  · have e : ∀ a, (.fin a % .fin 0 : Flt f) = .nan := rem_zero
    have e' : (-(.fin 0) : Flt f) = .fin 0 := congrArg Flt.fin neg_zero
    have e'' : (-(.fin a) : Flt f) = .fin (-a) := rfl
    rw [e', e'', e, e]
    exact ⟨rfl, rfl⟩
  · have e : ∀ a {b : ℚ}, b ≠ 0 → (.fin a % .fin b : Flt f) = rnd f (a - b * towardZero (a / b)) :=
      fun a b hb => if_neg hb
    have e1 : (-(.fin a) : Flt f) = .fin (-a) := rfl
    have e2 : (-(.fin b) : Flt f) = .fin (-b) := rfl
    rw [e1, e2, e _ hb, e _ hb, e _ (neg_ne_zero.2 hb)]
    constructor
    · rw [← Mono.rnd_neg]
      refine congrArg _ ?_
      refine (Rem.isRem hb).unique ?_
      have h := Rem.isRem (a := a) hb
      obtain ⟨k, hk⟩ := h.whole
      refine ⟨⟨-k, by push_cast; linarith⟩, by rw [abs_neg]; exact h.small, ?_⟩
      rw [neg_mul_neg]
      exact h.sign
    · refine congrArg _ ?_
      refine (Rem.isRem (neg_ne_zero.2 hb)).unique ?_
      have h := Rem.isRem (a := a) hb
      obtain ⟨k, hk⟩ := h.whole
      exact ⟨⟨-k, by push_cast; linarith⟩, by rw [abs_neg]; exact h.small, h.sign⟩

/-- C193: a remainder is its own remainder. -/
theorem C193_again {x y : Flt f} (hx : Valid x) (hy : Valid y) : x % y % y = x % y := by
  rcases x with _ | s | a <;> rcases y with _ | t | b <;> try rfl
  rcases eq_or_ne b 0 with rfl | hb
  · have e : (.fin a % .fin 0 : Flt f) = .nan := rem_zero a
    rw [e]; rfl
  · obtain ⟨r, e, hr, h, _⟩ := C193_exact hx hy hb
    obtain ⟨r', e', _, _, h'⟩ := C193_exact hr hy hb
    rw [e, e', h' r ⟨⟨0, by simp⟩, h.small, mul_self_nonneg r⟩]

/-- C193 for `%` of vectors. -/
theorem C193_vectors {n : Nat} {x y : Fin n → ℚ} (hx : ∀ i, f.Has (x i)) (hy : ∀ i, f.Has (y i)) (h0 : ∀ i, y i ≠ 0) :
    ∃ r : Fin n → ℚ, (∀ i, IsRem (x i) (y i) (r i) ∧ f.Has (r i)) ∧
      Vect.rem n (vec x : List (Flt f)) (vec y) = some (vec r) ∧
      Vect.remRef n (vec x : List (Flt f)) (vec y) = some (vec r) ∧
      Vect.remAssign (vec x : List (Flt f)) (vec y) = vec r := by
  choose r h1 h2 h3 _ using fun i => C193_exact (hx i) (hy i) (h0 i)
  have e : List.zipWith (fun a b => a % b) (vec x : List (Flt f)) (vec y) = vec r := by
    unfold vec
    rw [Vect.zipWith_ofFn]
    exact congrArg _ (funext h1)
  have l1 : (vec x : List (Flt f)).length = n := by simp [vec]
  have l2 : (vec y : List (Flt f)).length = n := by simp [vec]
  refine ⟨r, fun i => ⟨h3 i, h2 i⟩, ?_, ?_, ?_⟩
  · exact (Vect.opVec_eq _ l1 l2).trans (congrArg some e)
  · exact (Vect.opVecRef_eq _ l1 l2).trans (congrArg some e)
  · exact (Vect.assignVec_eq _ _ _ (by rw [l1, l2])).trans e

/-- C193 for `%` of a vector by a scalar. -/
theorem C193_scalar {n : Nat} {x : Fin n → ℚ} {y : ℚ} (hx : ∀ i, f.Has (x i)) (hy : f.Has y) (h0 : y ≠ 0) :
    ∃ r : Fin n → ℚ, (∀ i, IsRem (x i) y (r i) ∧ f.Has (r i)) ∧
      Vect.remS (vec x : List (Flt f)) (.fin y) = vec r ∧
      Vect.remAssignS (vec x : List (Flt f)) (.fin y) = vec r := by
  choose r h1 h2 h3 _ using fun i => C193_exact (hx i) hy h0
  have e : (vec x : List (Flt f)).map (fun a => a % .fin y) = vec r := by
    unfold vec
    rw [List.map_ofFn]
    exact congrArg _ (funext h1)
  exact ⟨r, fun i => ⟨h3 i, h2 i⟩, e, (Vect.assignScalar_eq _ _ _).trans e⟩

/-! ## Zeros -/

/-- C193 with two zeros: the values are the same, and the sign of a result is that of the dividend, also if it is
zero. -/
theorem C193_zeros (x y : SFlt f) : SFlt.forget (x % y) = SFlt.forget x % SFlt.forget y ∧
    ∀ s a, x = .num s a → ∀ t b, x % y = .num t b → t = s := by
  rcases x with _ | s | ⟨s, a⟩ <;> rcases y with _ | t | ⟨t, b⟩
  iterate 6 exact ⟨rfl, fun _ _ h => by cases h⟩
  · exact ⟨rfl, fun _ _ _ _ _ h => by cases h⟩
  · exact ⟨rfl, fun s' a' h t' b' h' => by cases h; cases h'; rfl⟩
  · by_cases hb : b = 0
    · have e : (.num s a % .num t b : SFlt f) = .nan := if_pos hb
      have e' : (.fin (SFlt.val s a) % .fin (SFlt.val t b) : Flt f) = .nan := if_pos (SFlt.val_zero.2 hb)
      exact ⟨by rw [e]; exact e'.symm, fun _ _ _ _ _ h => by rw [e] at h; cases h⟩
    · have hb' : SFlt.val t b ≠ 0 := fun h => hb (SFlt.val_zero.1 h)
      have hr := Rem.isRem (a := SFlt.val s a) hb'
      have e : (.num s a % .num t b : SFlt f) =
          SFlt.rnd f s (SFlt.val s a - SFlt.val t b * towardZero (SFlt.val s a / SFlt.val t b)) := if_neg hb
      have e' : (.fin (SFlt.val s a) % .fin (SFlt.val t b) : Flt f) =
          rnd f (SFlt.val s a - SFlt.val t b * towardZero (SFlt.val s a / SFlt.val t b)) := if_neg hb'
      refine ⟨by rw [e, SFlt.forget_rnd]; exact e'.symm, fun s' a' hs t' b' h => ?_⟩
      cases hs
      rw [e] at h
      generalize SFlt.val s a - SFlt.val t b * towardZero (SFlt.val s a / SFlt.val t b) = X at h hr
      have key : (if X = 0 then s else decide (X < 0)) = s := by
        by_cases hX : X = 0
        · rw [if_pos hX]
        · rw [if_neg hX]
          have h3 := hr.sign
          have h4 := Rem.le_dividend hr
          have ha : a ≠ 0 := by
            rintro rfl
            rw [SFlt.val_zero.2 rfl, abs_zero] at h4
            exact hX (abs_eq_zero.1 (le_antisymm h4 (abs_nonneg X)))
          have hv : SFlt.val s a ≠ 0 := fun h => ha (SFlt.val_zero.1 h)
          cases hs' : s with
          | true =>
            have : SFlt.val s a < 0 := (SFlt.val_neg ha).2 hs'
            refine decide_eq_true (lt_of_le_of_ne ?_ hX)
            by_contra hc
            push Not at hc
            nlinarith
          | false =>
            have : ¬ SFlt.val s a < 0 := fun h => by rw [SFlt.val_neg ha, hs'] at h; cases h
            have : 0 < SFlt.val s a := lt_of_le_of_ne (not_lt.1 this) (Ne.symm hv)
            refine decide_eq_false fun hc => ?_
            nlinarith
      unfold SFlt.rnd at h
      rw [key] at h
      cases hq : Flt.rnd f X with
      | nan => rw [hq] at h; cases h
      | inf u => rw [hq] at h; cases h
      | fin q => rw [hq] at h; cases h; rfl

/-- Computing `a - b * trunc(a / b)` with floats is something else: a positive number may even get a negative
"remainder". -/
theorem C193_naive : ∃ a b : Flt .f64, 0 < a ∧ 0 < b ∧ a - b * Flt.trunc (a / b) = .fin (-1 / 2 ^ 51) ∧
    a % b = .fin 1 :=
  ⟨.fin (6755399441055745 / 2 ^ 51), .fin (4503599627370497 / 2 ^ 52), by decide +kernel, by decide +kernel,
    by decide +kernel, by decide +kernel⟩

example : (.fin (-7) % .fin 2 : Flt .f64) = .fin (-1) ∧ (.fin 7 % .fin (-2) : Flt .f64) = .fin 1 ∧
    (.fin (11 / 2) % .fin (3 / 4) : Flt .f64) = .fin (1 / 4) ∧ (.fin 1 % .inf true : Flt .f64) = .fin 1 ∧
    (.fin 1 % .fin 0 : Flt .f64) = .nan := by decide +kernel
example : (.num true 4 % .num false 2 : SFlt .f64) = .num true 0 ∧ (.num false 4 % .num true 2 : SFlt .f64) = 0 := by
  decide +kernel
example : Vect.rem 2 (vec ![-7, 5] : List (Flt .f64)) (vec ![2, 3 / 2]) = some (vec ![-1, 1 / 2]) := by decide +kernel
example : IsRem (-7) 2 (-1) := ⟨⟨-3, by norm_num⟩, by norm_num, by norm_num⟩

end Verif
