import Verif.Lemmas.GaussMap
import Verif.Model.Complex
import Verif.Lemmas.Compound
import Verif.Props.FloatDistance

/-!
# Float computations are monotone (C192)
-/

namespace Verif

open Flt

variable {f : FloatFmt}

namespace Mono

/-- `a <= b` on floats, that is `b >= a`; false if one is NaN. -/
def Le (a b : Flt f) : Prop := geB b a = true

instance (a b : Flt f) : Decidable (Le a b) := inferInstanceAs (Decidable (geB b a = true))

/-- The same unless one of the two is NaN. -/
def LeN (a b : Flt f) : Prop := a = .nan ∨ b = .nan ∨ Le a b

theorem le_fin {a b : ℚ} : Le (.fin a : Flt f) (.fin b) ↔ a ≤ b := by
  unfold Le
  simp [geB, ltB]

theorem le_top {a : Flt f} (h : a ≠ .nan) : Le a (.inf false) := by
  rcases a with _ | s | a
  · exact absurd rfl h
  · cases s <;> rfl
  · rfl

theorem bot_le {a : Flt f} (h : a ≠ .nan) : Le (.inf true) a := by
  rcases a with _ | s | a
  · exact absurd rfl h
  · cases s <;> rfl
  · rfl

theorem le_cases {a b : Flt f} (h : Le a b) : (a = .inf true ∧ b ≠ .nan) ∨ (b = .inf false ∧ a ≠ .nan) ∨
    ∃ p q, a = .fin p ∧ b = .fin q ∧ p ≤ q := by
  rcases a with _ | (_ | _) | a <;> rcases b with _ | (_ | _) | b <;> first
    | exact .inl ⟨rfl, fun e => Flt.noConfusion rfl (heq_of_eq e)⟩
    | exact .inr (.inl ⟨rfl, fun e => Flt.noConfusion rfl (heq_of_eq e)⟩)
    | exact absurd h Bool.false_ne_true
    | skip
  · exact .inr (.inr ⟨a, b, rfl, rfl, le_fin.1 h⟩)

theorem le_refl' {a : Flt f} (h : a ≠ .nan) : Le a a := by
  rcases a with _ | s | a
  · exact absurd rfl h
  · cases s <;> rfl
  · exact le_fin.2 (le_refl _)

theorem le_ne {a b : Flt f} (h : Le a b) : a ≠ .nan ∧ b ≠ .nan := by
  rcases le_cases h with ⟨rfl, hn⟩ | ⟨rfl, hn⟩ | ⟨p, q, rfl, rfl, _⟩
  · exact ⟨nofun, hn⟩
  · exact ⟨hn, nofun⟩
  · exact ⟨nofun, nofun⟩

theorem nn_cases {a : Flt f} (h : Le 0 a) : a = .inf false ∨ ∃ q, a = .fin q ∧ 0 ≤ q := by
  rcases le_cases h with ⟨h', _⟩ | ⟨h', _⟩ | ⟨p, q, h', rfl, hq⟩
  · cases h'
  · exact .inl h'
  · cases h'; exact .inr ⟨q, rfl, hq⟩

theorem le_trans' {a b c : Flt f} (h1 : Le a b) (h2 : Le b c) : Le a c := by
  rcases le_cases h1 with ⟨rfl, _⟩ | ⟨rfl, h⟩ | ⟨p, q, rfl, rfl, hpq⟩
  · exact bot_le (le_ne h2).2
  · rcases le_cases h2 with ⟨h', _⟩ | ⟨rfl, _⟩ | ⟨_, _, h', _⟩
    · cases h'
    · exact le_top h
    · cases h'
  · rcases le_cases h2 with ⟨h', _⟩ | ⟨rfl, _⟩ | ⟨p', q', h', rfl, hpq'⟩
    · cases h'
    · exact le_top nofun
    · cases h'; exact le_fin.2 (hpq.trans hpq')

/-- Rounding is monotone. -/
theorem rnd_mono (hf : f.Ok) {x y : ℚ} (h : x ≤ y) : Le (rnd f x) (rnd f y) := by
  rcases h.eq_or_lt with rfl | h
  · exact le_refl' (rnd_ne_nan x)
  have hp : (0 : ℚ) < 2 ^ (f.emax + 1) - 2 ^ (f.emax - f.prec) := by
    have : (2 : ℚ) ^ (f.emax - f.prec) < 2 ^ (f.emax + 1) :=
      (zpow_lt_zpow_iff_right₀ (by norm_num)).2 (by omega)
    linarith
  cases ex : rnd f x with
  | nan => exact absurd ex (rnd_ne_nan x)
  | inf s =>
    cases s with
    | true => exact bot_le (rnd_ne_nan y)
    | false =>
      obtain ⟨h1, h2⟩ := (rnd_eq_inf_iff hf x false).1 ex
      have h0 : 0 ≤ x := by
        by_contra hx
        push Not at hx
        rw [decide_eq_true hx] at h2
        cases h2
      have : rnd f y = .inf false := (rnd_eq_inf_iff hf y false).2
        ⟨by rw [abs_of_nonneg (by linarith)]; rw [abs_of_nonneg h0] at h1; linarith,
          (decide_eq_false (not_lt.2 (by linarith))).symm⟩
      rw [this]
      rfl
  | fin p =>
    cases ey : rnd f y with
    | nan => exact absurd ey (rnd_ne_nan y)
    | inf s =>
      cases s with
      | false => rfl
      | true =>
        obtain ⟨h1, h2⟩ := (rnd_eq_inf_iff hf y true).1 ey
        have h0 : y < 0 := of_decide_eq_true h2.symm
        have : rnd f x = .inf true := (rnd_eq_inf_iff hf x true).2
          ⟨by rw [abs_of_nonpos (by linarith)]; rw [abs_of_nonpos h0.le] at h1; linarith,
            (decide_eq_true (by linarith)).symm⟩
        rw [this] at ex
        cases ex
    | fin q =>
      rw [le_fin]
      by_contra hpq
      push Not at hpq
      have h1 := rnd_nearest ex (rnd_has hf ey)
      have h2 := rnd_nearest ey (rnd_has hf ex)
      have h3 : (p + q) / 2 ≤ x := by
        by_contra hc
        push Not at hc
        rw [abs_of_pos (by linarith : 0 < p - x)] at h1
        rcases abs_cases (q - x) with ⟨e, _⟩ | ⟨e, _⟩ <;> rw [e] at h1 <;> linarith
      have h4 : y ≤ (p + q) / 2 := by
        by_contra hc
        push Not at hc
        rw [abs_of_neg (by linarith : q - y < 0)] at h2
        rcases abs_cases (p - y) with ⟨e, _⟩ | ⟨e, _⟩ <;> rw [e] at h2 <;> linarith
      linarith

theorem rnd_nn (hf : f.Ok) {x : ℚ} (h : 0 ≤ x) : Le 0 (rnd f x) := by
  have := rnd_mono hf h
  rwa [rnd_zero] at this

theorem add_bot (b : Flt f) : (.inf true + b = .nan ∨ .inf true + b = .inf true) ∧
    (b + .inf true = .nan ∨ b + .inf true = .inf true) := by
  rcases b with _ | s | b
  · exact ⟨.inl rfl, .inl rfl⟩
  · cases s
    · exact ⟨.inl rfl, .inl rfl⟩
    · exact ⟨.inr rfl, .inr rfl⟩
  · exact ⟨.inr rfl, .inr rfl⟩

theorem add_top (b : Flt f) : (.inf false + b = .nan ∨ .inf false + b = .inf false) ∧
    (b + .inf false = .nan ∨ b + .inf false = .inf false) := by
  rcases b with _ | s | b
  · exact ⟨.inl rfl, .inl rfl⟩
  · cases s
    · exact ⟨.inr rfl, .inr rfl⟩
    · exact ⟨.inl rfl, .inl rfl⟩
  · exact ⟨.inr rfl, .inr rfl⟩

theorem leN_bot {a b : Flt f} (h : a = .nan ∨ a = .inf true) : LeN a b := by
  rcases h with h | h
  · exact .inl h
  · by_cases hb : b = .nan
    · exact .inr (.inl hb)
    · rw [h]; exact .inr (.inr (bot_le hb))

theorem leN_top {a b : Flt f} (h : b = .nan ∨ b = .inf false) : LeN a b := by
  rcases h with h | h
  · exact .inr (.inl h)
  · by_cases ha : a = .nan
    · exact .inl ha
    · rw [h]; exact .inr (.inr (le_top ha))

theorem neg_le {a b : Flt f} (h : Le a b) : Le (-b) (-a) := by
  rcases le_cases h with ⟨rfl, hn⟩ | ⟨rfl, hn⟩ | ⟨p, q, rfl, rfl, hpq⟩
  · refine le_top ?_
    rcases b with _ | s | b
    · exact absurd rfl hn
    · exact nofun
    · exact nofun
  · refine bot_le ?_
    rcases a with _ | s | a
    · exact absurd rfl hn
    · exact nofun
    · exact nofun
  · exact le_fin.2 (neg_le_neg hpq)

end Mono

open Mono

/-! ## The operators -/

/-- C192: sums and differences; the result may be NaN if infinities of opposite sign meet. -/
theorem C192_add (hf : f.Ok) {a a' b b' : Flt f} (ha : Le a a') (hb : Le b b') :
    LeN (a + b) (a' + b') ∧ LeN (a - b') (a' - b) ∧ Le (-a') (-a) := by
  have key : ∀ {a a' b b' : Flt f}, Le a a' → Le b b' → LeN (a + b) (a' + b') := by
    intro a a' b b' ha hb
    rcases le_cases ha with ⟨rfl, _⟩ | ⟨rfl, _⟩ | ⟨p, q, rfl, rfl, hpq⟩
    · exact leN_bot (add_bot b).1
    · exact leN_top (add_top b').1
    · rcases le_cases hb with ⟨rfl, _⟩ | ⟨rfl, _⟩ | ⟨p', q', rfl, rfl, hpq'⟩
      · exact leN_bot (add_bot _).2
      · exact leN_top (add_top _).2
      · exact .inr (.inr (rnd_mono hf (add_le_add hpq hpq')))
  exact ⟨key ha hb, key ha (neg_le hb), neg_le ha⟩

example : LeN (.fin (1 / 3) + .fin 1 : Flt .f32) (.fin 2 + .inf false) :=
  (C192_add f32_ok (a := .fin (1 / 3)) (a' := .fin 2) (b := .fin 1) (b' := .inf false) (by decide +kernel)
    (by decide +kernel)).1

/-- C192: products of factors that are not negative; the result may be NaN if zero meets infinity. -/
theorem C192_mul (hf : f.Ok) {a a' b b' : Flt f} (h0 : Le 0 a) (ha : Le a a') (h0' : Le 0 b) (hb : Le b b') :
    LeN (a * b) (a' * b') := by
  have top : ∀ {c : Flt f}, Le 0 c → (.inf false * c = .nan ∨ .inf false * c = .inf false) ∧
      (c * .inf false = .nan ∨ c * .inf false = .inf false) := by
    intro c hc
    rcases nn_cases hc with rfl | ⟨q, rfl, hq⟩
    · exact ⟨.inr rfl, .inr rfl⟩
    · have e1 : (.inf false * .fin q : Flt f) = if q = 0 then .nan else .inf (xor false (decide (q < 0))) := rfl
      have e2 : (.fin q * .inf false : Flt f) = if q = 0 then .nan else .inf (xor (decide (q < 0)) false) := rfl
      rw [e1, e2]
      by_cases hz : q = 0
      · rw [if_pos hz, if_pos hz]; exact ⟨.inl rfl, .inl rfl⟩
      · rw [if_neg hz, if_neg hz, decide_eq_false (not_lt.2 hq)]; exact ⟨.inr rfl, .inr rfl⟩
  rcases le_cases ha with ⟨rfl, _⟩ | ⟨rfl, _⟩ | ⟨p, q, rfl, rfl, hpq⟩
  · cases h0
  · exact leN_top (top (le_trans' h0' hb)).1
  · rcases le_cases hb with ⟨rfl, _⟩ | ⟨rfl, _⟩ | ⟨p', q', rfl, rfl, hpq'⟩
    · cases h0'
    · exact leN_top (top (le_trans' h0 ha)).2
    · have h1 : 0 ≤ p := le_fin.1 h0
      have h2 : 0 ≤ p' := le_fin.1 h0'
      exact .inr (.inr (rnd_mono hf (mul_le_mul hpq hpq' h2 (h1.trans hpq))))

example : LeN (.fin (1 / 3) * .fin 1 : Flt .f32) (.fin 2 * .inf false) :=
  C192_mul f32_ok (by decide +kernel) (by decide +kernel) (by decide +kernel) (by decide +kernel)

/-- C192: quotients of numbers that are not negative by positive ones; NaN if both are infinite. -/
theorem C192_div (hf : f.Ok) {a a' b b' : Flt f} (h0 : Le 0 a) (ha : Le a a') (h0' : 0 < b) (hb : Le b b') :
    LeN (a / b') (a' / b) := by
  rcases le_cases hb with ⟨rfl, _⟩ | ⟨rfl, _⟩ | ⟨p', q', rfl, rfl, hpq'⟩
  · cases h0'
  · rcases nn_cases h0 with rfl | ⟨p, rfl, hp⟩
    · exact .inl rfl
    · rcases le_cases ha with ⟨h, _⟩ | ⟨rfl, _⟩ | ⟨_, q, h, rfl, hpq⟩
      · cases h
      · rcases b with _ | t | b
        · cases h0'
        · exact .inr (.inl rfl)
        · have hb0 : 0 < b := of_decide_eq_true h0'
          refine leN_top (.inr ?_)
          change (Flt.inf (xor false (decide (b < 0))) : Flt f) = _
          rw [decide_eq_false (not_lt.2 hb0.le)]; rfl
      · cases h
        rcases b with _ | t | b
        · cases h0'
        · exact .inr (.inr (le_fin.2 (le_refl _)))
        · have hb0 : 0 < b := of_decide_eq_true h0'
          refine .inr (.inr ?_)
          change Le 0 (if b = 0 then _ else rnd f (q / b))
          rw [if_neg hb0.ne']
          exact rnd_nn hf (div_nonneg (hp.trans hpq) hb0.le)
  · have hb0 : 0 < p' := of_decide_eq_true h0'
    have hb1 : 0 < q' := by linarith
    rcases le_cases ha with ⟨rfl, _⟩ | ⟨rfl, _⟩ | ⟨p, q, rfl, rfl, hpq⟩
    · cases h0
    · refine leN_top (.inr ?_)
      change (Flt.inf (xor false (decide (p' < 0))) : Flt f) = _
      rw [decide_eq_false (not_lt.2 hb0.le)]; rfl
    · refine .inr (.inr ?_)
      change Le (if q' = 0 then _ else rnd f (p / q')) (if p' = 0 then _ else rnd f (q / p'))
      rw [if_neg hb0.ne', if_neg hb1.ne']
      have h1 : 0 ≤ p := le_fin.1 h0
      exact rnd_mono hf (div_le_div₀ (h1.trans hpq) hpq hb0 hpq')

example : LeN (.fin 1 / .inf false : Flt .f32) (.fin 2 / .fin 3) :=
  C192_div f32_ok (by decide +kernel) (by decide +kernel) (by decide +kernel) (by decide +kernel)

/-- C192: roots. -/
theorem C192_sqrt (hf : f.Ok) {a b : Flt f} (ha : Valid a) (hb : Valid b) (h0 : Le 0 a) (h : Le a b) :
    Le (sqrt a) (sqrt b) ∧ Le 0 (sqrt a) ∧ Valid (sqrt a) := by
  rcases nn_cases h0 with rfl | ⟨p, rfl, hp⟩
  · rcases le_cases h with ⟨h', _⟩ | ⟨rfl, _⟩ | ⟨_, _, h', _⟩
    · cases h'
    · exact ⟨rfl, rfl, trivial⟩
    · cases h'
  · obtain ⟨r, e, hr, hr0, hn⟩ := C140_sqrt hf ha hp
    refine ⟨?_, ?_, ?_⟩
    · rcases le_cases h with ⟨h', _⟩ | ⟨rfl, _⟩ | ⟨_, q, h', rfl, hpq⟩
      · cases h'
      · rw [e]; rfl
      · cases h'
        obtain ⟨r', e', hr', _, hn'⟩ := C140_sqrt hf hb (hp.trans hpq)
        rw [e, e', le_fin]
        by_contra hc
        push Not at hc
        rcases hpq.eq_or_lt with rfl | hlt
        · rw [e] at e'
          cases e'
          exact lt_irrefl _ hc
        · have h1 := hn r' hr'
          have h2 := hn' r hr
          have hs : √(p : ℝ) < √(q : ℝ) := Real.sqrt_lt_sqrt (by exact_mod_cast hp) (by exact_mod_cast hlt)
          have hc' : (r' : ℝ) < r := by exact_mod_cast hc
          have h3 : ((r : ℝ) + r') / 2 ≤ √(p : ℝ) := by
            by_contra hd
            push Not at hd
            rw [abs_of_pos (by linarith : (0 : ℝ) < r - √(p : ℝ))] at h1
            rcases abs_cases ((r' : ℝ) - √(p : ℝ)) with ⟨e, _⟩ | ⟨e, _⟩ <;> rw [e] at h1 <;> linarith
          have h4 : √(q : ℝ) ≤ ((r : ℝ) + r') / 2 := by
            by_contra hd
            push Not at hd
            rw [abs_of_neg (by linarith : (r' : ℝ) - √(q : ℝ) < 0)] at h2
            rcases abs_cases ((r : ℝ) - √(q : ℝ)) with ⟨e, _⟩ | ⟨e, _⟩ <;> rw [e] at h2 <;> linarith
          linarith
    · rw [e]; exact le_fin.2 hr0
    · rw [e]; exact hr

/-! ## Sums -/

namespace Mono

theorem add_nn (hf : f.Ok) {a b : Flt f} (ha : Le 0 a) (hb : Le 0 b) : Le 0 (a + b) := by
  rcases nn_cases ha with rfl | ⟨p, rfl, hp⟩ <;> rcases nn_cases hb with rfl | ⟨q, rfl, hq⟩ <;> try rfl
  exact rnd_nn hf (add_nonneg hp hq)

theorem add_leN (hf : f.Ok) {z z' a a' : Flt f} (hz : LeN z z') (ha : Le a a') : LeN (z + a) (z' + a') := by
  rcases hz with rfl | rfl | hz
  · exact .inl (by cases a <;> rfl)
  · exact .inr (.inl (by cases a' <;> rfl))
  · exact (C192_add hf hz ha).1

theorem add_le (hf : f.Ok) {z z' a a' : Flt f} (h0 : Le 0 z) (hz : Le z z') (ha0 : Le 0 a) (ha : Le a a') :
    Le (z + a) (z' + a') := by
  rcases (C192_add hf hz ha).1 with h | h | h
  · exact absurd h (le_ne (add_nn hf h0 ha0)).2
  · exact absurd h (le_ne (add_nn hf (le_trans' h0 hz) (le_trans' ha0 ha))).2
  · exact h

theorem fold_leN (hf : f.Ok) {l l' : List (Flt f)} (h : List.Forall₂ Le l l') : ∀ {z z' : Flt f}, LeN z z' →
    LeN (l.foldl (fun a v => a + v) z) (l'.foldl (fun a v => a + v) z') := by
  induction h with
  | nil => exact fun hz => hz
  | cons h _ ih => exact fun hz => ih (add_leN hf hz h)

theorem fold_le (hf : f.Ok) {l l' : List (Flt f)} (h : List.Forall₂ (fun a b => Le 0 a ∧ Le a b) l l') :
    ∀ {z z' : Flt f}, Le 0 z → Le z z' →
    Le 0 (l.foldl (fun a v => a + v) z) ∧ Le (l.foldl (fun a v => a + v) z) (l'.foldl (fun a v => a + v) z') := by
  induction h with
  | nil => exact fun h0 hz => ⟨h0, hz⟩
  | cons h _ ih => exact fun h0 hz => ih (add_nn hf h0 h.1) (add_le hf h0 hz h.1 h.2)

/-- Not negative and `<=`, unless one of the two is NaN. -/
def Between (a b : Flt f) : Prop := a = .nan ∨ b = .nan ∨ (Le 0 a ∧ Le a b)

theorem between_leN {a b : Flt f} (h : Between a b) : LeN a b := by
  rcases h with h | h | h
  · exact .inl h
  · exact .inr (.inl h)
  · exact .inr (.inr h.2)

theorem mul_nn (hf : f.Ok) {a b : Flt f} (ha : Le 0 a) (hb : Le 0 b) : a * b = .nan ∨ Le 0 (a * b) := by
  have h0 : Le (0 : Flt f) 0 := le_fin.2 (le_refl _)
  rcases C192_mul hf h0 ha h0 hb with h | h | h
  · exact absurd h (by change rnd f (0 * 0) ≠ _; exact rnd_ne_nan _)
  · exact .inl h
  · refine .inr ?_
    have e : (0 * 0 : Flt f) = 0 := by
      change rnd f (0 * 0) = .fin 0
      rw [mul_zero, rnd_zero]
    rwa [e] at h

theorem between_semi (hf : f.Ok) : SemiRel (Between (f := f)) where
  zero := .inr (.inr ⟨le_fin.2 (le_refl _), le_fin.2 (le_refl _)⟩)
  add {a b x y} h1 h2 := by
    rcases h1 with rfl | rfl | h1
    · exact .inl (by cases b <;> rfl)
    · exact .inr (.inl (by cases y <;> rfl))
    · rcases h2 with rfl | rfl | h2
      · exact .inl (by cases a <;> rfl)
      · exact .inr (.inl (by cases x <;> rfl))
      · exact .inr (.inr ⟨add_nn hf h1.1 h2.1, add_le hf h1.1 h1.2 h2.1 h2.2⟩)
  mul {a b x y} h1 h2 := by
    rcases h1 with rfl | rfl | h1
    · exact .inl (by cases b <;> rfl)
    · exact .inr (.inl (by cases y <;> rfl))
    · rcases h2 with rfl | rfl | h2
      · exact .inl (by cases a <;> rfl)
      · exact .inr (.inl (by cases x <;> rfl))
      · rcases mul_nn hf h1.1 h2.1 with h | h
        · exact .inl h
        · rcases C192_mul hf h1.1 h1.2 h2.1 h2.2 with h' | h' | h'
          · exact .inl h'
          · exact .inr (.inl h')
          · exact .inr (.inr ⟨h, h'⟩)

theorem one_between : Between (1 : Flt f) 1 :=
  .inr (.inr ⟨le_fin.2 zero_le_one, le_fin.2 (le_refl _)⟩)

theorem forall₂_ofFn {α β : Type} {R : α → β → Prop} {n : Nat} {a : Fin n → α} {b : Fin n → β}
    (h : ∀ i, R (a i) (b i)) : List.Forall₂ R (List.ofFn a) (List.ofFn b) := by
  rw [List.forall₂_iff_get]
  refine ⟨by simp, fun i h1 h2 => ?_⟩
  simpa using h ⟨i, by simpa using h1⟩

end Mono

/-! ## Vectors and matrices -/

/-- C192 for sums of the components of a vector; they are not NaN if no component is negative. -/
theorem C192_vectors (hf : f.Ok) {n : Nat} {a b : Fin n → Flt f} (h : ∀ i, Le (a i) (b i)) :
    ∃ x y, Vect.sum n (List.ofFn a) = some x ∧ Vect.sum n (List.ofFn b) = some y ∧ LeN x y ∧
      ((∀ i, Le 0 (a i)) → Le x y) := by
  refine ⟨_, _, (Vect.C77_others n (List.ofFn a) (by simp) 0).2.2.1, (Vect.C77_others n (List.ofFn b) (by simp) 0).2.2.1,
    fold_leN hf (forall₂_ofFn h) (.inr (.inr (le_fin.2 (le_refl _)))), fun h0 => ?_⟩
  exact (fold_le hf (forall₂_ofFn fun i => ⟨h0 i, h i⟩) (le_fin.2 (le_refl _)) (le_fin.2 (le_refl _))).2

example := C192_vectors f32_ok (a := ![.fin (1 / 3), .inf true]) (b := ![.fin 1, .fin 7]) (by decide +kernel)

/-- C192 for products and dot products: with finite components dot products are never NaN. -/
theorem C192_products (hf : f.Ok) {n : Nat} {a a' b b' : Fin n → Flt f} (h0 : ∀ i, Le 0 (a i)) (ha : ∀ i, Le (a i) (a' i))
    (h0' : ∀ i, Le 0 (b i)) (hb : ∀ i, Le (b i) (b' i)) :
    (∃ x y, Vect.product n (List.ofFn a) = some x ∧ Vect.product n (List.ofFn a') = some y ∧ LeN x y) ∧
    LeN (Vect.dotProduct (List.ofFn a) (List.ofFn b)) (Vect.dotProduct (List.ofFn a') (List.ofFn b')) ∧
    ((∀ i, (∃ q, a' i = .fin q) ∧ ∃ q, b' i = .fin q) →
      Le (Vect.dotProduct (List.ofFn a) (List.ofFn b)) (Vect.dotProduct (List.ofFn a') (List.ofFn b'))) := by
  have s := between_semi hf
  refine ⟨⟨_, _, (Vect.C77_others n (List.ofFn a) (by simp) 0).2.2.2.1,
    (Vect.C77_others n (List.ofFn a') (by simp) 0).2.2.2.1, ?_⟩, ?_, fun hq => ?_⟩
  · exact between_leN (foldl_mul_rel s.mul (forall₂_ofFn fun i => .inr (.inr ⟨h0 i, ha i⟩)) one_between)
  · exact between_leN (s.dot (forall₂_ofFn fun i => .inr (.inr ⟨h0 i, ha i⟩))
      (forall₂_ofFn fun i => .inr (.inr ⟨h0' i, hb i⟩)))
  · unfold Vect.dotProduct
    rw [Vect.stdZip_map (fun x y => x * y), Vect.zipWith_ofFn, Vect.stdZip_map (fun x y => x * y), Vect.zipWith_ofFn]
    refine (fold_le hf (forall₂_ofFn fun i => ?_) (le_fin.2 (le_refl _)) (le_fin.2 (le_refl _))).2
    have key : ∀ {x y : Flt f}, (∃ q, x = .fin q) → (∃ q, y = .fin q) → x * y ≠ .nan := by
      rintro _ _ ⟨p, rfl⟩ ⟨q, rfl⟩
      exact rnd_ne_nan _
    have dn : ∀ {x y : Flt f}, Le 0 x → Le x y → (∃ q, y = .fin q) → ∃ q, x = .fin q := by
      rintro x _ h1 h2 ⟨q, rfl⟩
      rcases nn_cases h1 with rfl | ⟨p, rfl, _⟩
      · cases h2
      · exact ⟨p, rfl⟩
    have n1 := key (dn (h0 i) (ha i) (hq i).1) (dn (h0' i) (hb i) (hq i).2)
    have n2 := key (hq i).1 (hq i).2
    constructor
    · exact (mul_nn hf (h0 i) (h0' i)).resolve_left n1
    · rcases C192_mul hf (h0 i) (ha i) (h0' i) (hb i) with h | h | h
      · exact absurd h n1
      · exact absurd h n2
      · exact h

example := C192_products f32_ok (a := ![.fin (1 / 3), 0]) (a' := ![.fin 1, .fin 7]) (b := ![.fin 2, .fin 2])
  (b' := ![.fin 2, .inf false]) (by decide +kernel) (by decide +kernel) (by decide +kernel) (by decide +kernel)

/-- C192 for products of matrices. -/
theorem C192_matrices (hf : f.Ok) {R C D : Nat} (hC : 0 < C) {a a' b b' : List (List (Flt f))}
    {A A' : Matrix (Fin R) (Fin C) (Flt f)} {B B' : Matrix (Fin C) (Fin D) (Flt f)}
    (ha : MatOf a A) (ha' : MatOf a' A') (hb : MatOf b B) (hb' : MatOf b' B')
    (h0 : ∀ i j, Le 0 (A i j)) (hA : ∀ i j, Le (A i j) (A' i j)) (h0' : ∀ i j, Le 0 (B i j))
    (hB : ∀ i j, Le (B i j) (B' i j)) :
    ∃ c c' P P', Mat.mul R C D a b = .ok c ∧ Mat.mul R C D a' b' = .ok c' ∧ MatOf c P ∧ MatOf c' P' ∧
      ∀ (i : Fin R) (j : Fin D), LeN (P i j) (P' i j) := by
  obtain ⟨c, e, hc⟩ := mul_fold hC ha hb
  obtain ⟨c', e', hc'⟩ := mul_fold hC ha' hb'
  exact ⟨c, c', _, _, e, e', hc, hc', fun i j => between_leN ((between_semi hf).entry
    (fun i j => .inr (.inr ⟨h0 i j, hA i j⟩)) (fun i j => .inr (.inr ⟨h0' i j, hB i j⟩)) i j)⟩

example := C192_matrices f32_ok (by decide) (a := [[.fin 1, 0]]) (a' := [[.fin 2, .fin 3]]) (b := [[.fin 1], [.fin 1]])
  (b' := [[.fin 1], [.inf false]]) (A := !![.fin 1, 0]) (A' := !![.fin 2, .fin 3]) (B := !![.fin 1; .fin 1])
  (B' := !![.fin 1; .inf false]) rfl rfl rfl rfl
  (fun i j => by fin_cases i <;> fin_cases j <;> decide +kernel)
  (fun i j => by fin_cases i <;> fin_cases j <;> decide +kernel)
  (fun i j => by fin_cases i <;> fin_cases j <;> decide +kernel)
  (fun i j => by fin_cases i <;> fin_cases j <;> decide +kernel)

/-! ## Distances and absolute values -/

/-- What is assumed of `powf(x, 2.0)` here: the square of a number of larger absolute value is not smaller. -/
structure SquareMono (f : FloatFmt) (powf : Flt f → Flt f → Flt f) : Prop where
  valid : ∀ x, Valid (powf x (.fin 2))
  nonneg : ∀ x, x ≠ .nan → Le 0 (powf x (.fin 2))
  mono : ∀ x y, Le (Flt.abs x) (Flt.abs y) → Le (powf x (.fin 2)) (powf y (.fin 2))

namespace Mono

theorem rnd_valid (hf : f.Ok) (x : ℚ) : Valid (rnd f x) := by
  cases e : rnd f x with
  | nan => trivial
  | inf s => trivial
  | fin q => exact rnd_has hf e

theorem add_valid (hf : f.Ok) (a b : Flt f) : Valid (a + b) := by
  rcases a with _ | s | a <;> rcases b with _ | t | b <;> try trivial
  · cases s <;> cases t <;> trivial
  · exact rnd_valid hf _

theorem fold_valid (hf : f.Ok) (l : List (Flt f)) : ∀ {z : Flt f}, Valid z → Valid (l.foldl (fun a v => a + v) z) := by
  induction l with
  | nil => exact fun hz => hz
  | cons a l ih => exact fun _ => ih (add_valid hf _ _)

theorem two_eq (hf : f.Ok) : (1 + 1 : Flt f) = .fin 2 := by
  have h : f.Has (2 : Int) := has_int hf (by
    rw [abs_of_pos (by norm_num)]
    calc (2 : Int) = 2 ^ 1 := rfl
      _ ≤ 2 ^ f.prec := pow_le_pow_right₀ (by norm_num) hf.prec_pos)
  have e := rnd_exact h
  push_cast at e
  change rnd f (1 + 1) = _
  rw [show (1 + 1 : ℚ) = 2 by norm_num, e]

theorem dist_fold (hf : f.Ok) (powf : Flt f → Flt f → Flt f) {n : Nat} (a b : Fin n → Flt f) :
    Vect.distanceSquared powf (List.ofFn a) (List.ofFn b) =
      (List.ofFn fun i => powf (a i - b i) (.fin 2)).foldl (fun a v => a + v) 0 := by
  unfold Vect.distanceSquared
  simp only [two_eq hf]
  rw [Vect.stdZip_map (fun x y => powf (x - y) (.fin 2)), Vect.zipWith_ofFn]

theorem rnd_neg (x : ℚ) : rnd f (-x) = -rnd f x := by
  change _ = neg _
  unfold rnd
  by_cases h : x = 0
  · rw [if_pos (by rw [h, neg_zero]), if_pos h]
    simp [neg]
  · rw [if_neg (neg_ne_zero.2 h), if_neg h]
    dsimp only
    rw [ulp_neg, neg_div, roundEven_neg, Int.cast_neg, neg_mul, abs_neg]
    split_ifs
    · rfl
    · simp only [neg, Flt.inf.injEq]
      rcases lt_or_gt_of_ne h with h | h
      · rw [decide_eq_false (by linarith), decide_eq_true h]; rfl
      · rw [decide_eq_true (by linarith), decide_eq_false (by linarith)]; rfl

/-- Differences that are not larger are not larger when rounded. -/
theorem sub_mag (hf : f.Ok) {x y z w : ℚ} (h : |x - y| ≤ |z - w|) :
    Le (Flt.abs (.fin x - .fin y : Flt f)) (Flt.abs (.fin z - .fin w)) := by
  have key : ∀ t : ℚ, Flt.abs (rnd f t) = rnd f |t| := by
    intro t
    rcases le_total 0 t with h | h
    · rw [abs_of_nonneg h]
      rcases nn_cases (rnd_nn hf h) with e | ⟨q, e, hq⟩
      · rw [e]; rfl
      · rw [e]; exact congrArg _ (abs_of_nonneg hq)
    · rw [abs_of_nonpos h, rnd_neg]
      rcases nn_cases (rnd_nn hf (neg_nonneg.2 h)) with e | ⟨q, e, hq⟩
      all_goals rw [rnd_neg] at e
      · rw [e]
        rcases ht : rnd f t with _ | s | q
        · exact absurd ht (rnd_ne_nan t)
        · rfl
        · rw [ht] at e; cases e
      · rcases ht : rnd f t with _ | s | q'
        · exact absurd ht (rnd_ne_nan t)
        · rw [ht] at e; cases e
        · rw [ht] at e
          have e' : -q' = q := Flt.fin.inj e
          change Flt.fin |q'| = Flt.fin (-q')
          rw [abs_of_nonpos (by linarith)]
  rw [fin_sub, fin_sub, key, key]
  exact rnd_mono hf h

theorem mag_mul (hf : f.Ok) {x y : Flt f} (h : Le (Flt.abs x) (Flt.abs y)) :
    Le 0 (x * x) ∧ Le (x * x) (y * y) := by
  have sq : ∀ s : Bool, (.inf s * .inf s : Flt f) = .inf false := by intro s; cases s <;> rfl
  have nn : ∀ q : ℚ, Le 0 (.fin q * .fin q : Flt f) := fun q => rnd_nn hf (mul_self_nonneg q)
  rcases x with _ | s | p
  · exact absurd rfl (le_ne h).1
  · rcases y with _ | t | q
    · cases h
    · rw [sq, sq]; exact ⟨rfl, rfl⟩
    · cases h
  · refine ⟨nn p, ?_⟩
    rcases y with _ | t | q
    · cases h
    · rw [sq]; exact le_top (rnd_ne_nan _)
    · exact rnd_mono hf (abs_le_iff_mul_self_le.1 (le_fin.1 h))

end Mono

/-- Multiplying a number by itself is such a function. -/
theorem squareMono_mul (hf : f.Ok) : SquareMono f fun x _ => x * x where
  valid x := by
    rcases x with _ | s | q
    · trivial
    · cases s <;> trivial
    · exact rnd_valid hf _
  nonneg x hx := by
    refine (mag_mul hf (le_refl' ?_)).1
    rcases x with _ | s | q
    · exact absurd rfl hx
    · exact nofun
    · exact nofun
  mono x y h := (mag_mul hf h).2

/-- C192 for distances: points that are not further apart in any component do not have a larger distance. -/
theorem C192_distances (hf : f.Ok) {powf : Flt f → Flt f → Flt f} (hp : SquareMono f powf) {n : Nat}
    {a b c d : Fin n → Flt f} (h : ∀ i, Le (Flt.abs (a i - b i)) (Flt.abs (c i - d i))) :
    Le (Vect.distanceSquared powf (List.ofFn a) (List.ofFn b)) (Vect.distanceSquared powf (List.ofFn c) (List.ofFn d)) ∧
    Le (Vect.distance powf sqrt (List.ofFn a) (List.ofFn b)) (Vect.distance powf sqrt (List.ofFn c) (List.ofFn d)) := by
  have z : Le (0 : Flt f) 0 := le_fin.2 (le_refl _)
  have nn : ∀ i, Le 0 (powf (a i - b i) (.fin 2)) := fun i => hp.nonneg _ fun e => by
    have := (le_ne (h i)).1
    rw [e] at this
    exact this rfl
  have key := fold_le hf (forall₂_ofFn fun i => ⟨nn i, hp.mono _ _ (h i)⟩) z z
  unfold Vect.distance
  rw [dist_fold hf, dist_fold hf]
  have hz : Valid (0 : Flt f) := Has.zero f
  exact ⟨key.2, (C192_sqrt hf (fold_valid hf _ hz) (fold_valid hf _ hz) key.1 key.2).1⟩

/-- C192 for distances of vectors of finite floats: it is the real differences that are compared. -/
theorem C192_distances_finite (hf : f.Ok) {powf : Flt f → Flt f → Flt f} (hp : SquareMono f powf) {n : Nat}
    {x y z w : Fin n → ℚ} (h : ∀ i, |x i - y i| ≤ |z i - w i|) :
    Le (Vect.distanceSquared powf (vec x : List (Flt f)) (vec y)) (Vect.distanceSquared powf (vec z) (vec w)) ∧
    Le (Vect.distance powf sqrt (vec x : List (Flt f)) (vec y)) (Vect.distance powf sqrt (vec z) (vec w)) :=
  C192_distances hf hp fun i => sub_mag hf (h i)

/-- C192 for `abs` and `abs_squared` of complex numbers. -/
theorem C192_complex (hf : f.Ok) {z w : Complex (Flt f)} (h1 : Le (Flt.abs z.real) (Flt.abs w.real))
    (h2 : Le (Flt.abs z.imag) (Flt.abs w.imag)) :
    Le z.absSquared w.absSquared ∧ Le (z.abs sqrt) (w.abs sqrt) := by
  have k1 := mag_mul hf h1
  have k2 := mag_mul hf h2
  have k := add_le hf k1.1 k1.2 k2.1 k2.2
  exact ⟨k, (C192_sqrt hf (add_valid hf _ _) (add_valid hf _ _) (add_nn hf k1.1 k2.1) k).1⟩

/-! ## Rounding to integers and conversions -/

namespace Mono

theorem onFin_mono {g : ℚ → ℚ} (hg : Monotone g) {a b : Flt f} (h : Le a b) : Le (onFin g a) (onFin g b) := by
  rcases le_cases h with ⟨rfl, hn⟩ | ⟨rfl, hn⟩ | ⟨p, q, rfl, rfl, hpq⟩
  · refine bot_le ?_
    rcases b with _ | s | b
    · exact absurd rfl hn
    · exact nofun
    · exact nofun
  · refine le_top ?_
    rcases a with _ | s | a
    · exact absurd rfl hn
    · exact nofun
    · exact nofun
  · exact le_fin.2 (hg hpq)

theorem towardZero_mono : Monotone towardZero := by
  intro x y h
  unfold towardZero
  split_ifs with h1 h2 h2
  · exact Int.floor_le_floor h
  · exact absurd (h1.trans h) h2
  · exact (Int.ceil_le.2 (by push_cast; linarith)).trans (Int.floor_nonneg.2 h2)
  · exact Int.ceil_le_ceil h

theorem round_mono : Monotone fun a : ℚ => ((if 0 ≤ a then ⌊a + 1 / 2⌋ else ⌈a - 1 / 2⌉ : Int) : ℚ) := by
  intro x y h
  refine Int.cast_le.2 ?_
  split_ifs with h1 h2 h2
  · exact Int.floor_le_floor (by linarith)
  · exact absurd (h1.trans h) h2
  · exact (Int.ceil_le.2 (by push_cast; linarith)).trans (Int.floor_nonneg.2 (by linarith))
  · exact Int.ceil_le_ceil (by linarith)

end Mono

/-- C192 for the functions that round to integers, and for conversions from integers and to integers. -/
theorem C192_integers (hf : f.Ok) {a b : Flt f} (h : Le a b) :
    (Le (Flt.floor a) (Flt.floor b) ∧ Le (Flt.ceil a) (Flt.ceil b) ∧ Le (Flt.trunc a) (Flt.trunc b) ∧
      Le (Flt.round a) (Flt.round b)) ∧
    (∀ p : Prim, toInt p a ≤ toInt p b) ∧
    ∀ m n : Int, m ≤ n → Le (ofInt f m) (ofInt f n) := by
  refine ⟨⟨onFin_mono (fun x y h => Int.cast_le.2 (Int.floor_le_floor h)) h,
    onFin_mono (fun x y h => Int.cast_le.2 (Int.ceil_le_ceil h)) h,
    onFin_mono (fun x y h => Int.cast_le.2 (towardZero_mono h)) h, ?_⟩, fun p => ?_,
    fun m n h => rnd_mono hf (Int.cast_le.2 h)⟩
  · have := onFin_mono (f := f) round_mono h
    simpa [Flt.round] using this
  · have hle : p.minV ≤ p.maxV := by
      have h1 := Int.pow_pos (n := 2) (m := p.bits - 1) (by norm_num)
      have h2 := Int.pow_pos (n := 2) (m := p.bits) (by norm_num)
      unfold Prim.minV Prim.maxV
      split <;> omega
    rcases le_cases h with ⟨rfl, hn⟩ | ⟨rfl, hn⟩ | ⟨x, y, rfl, rfl, hpq⟩
    · rcases b with _ | s | b
      · exact absurd rfl hn
      · cases s
        · exact hle
        · exact le_refl _
      · exact le_max_left _ _
    · rcases a with _ | s | a
      · exact absurd rfl hn
      · cases s
        · exact le_refl _
        · exact hle
      · exact max_le hle (min_le_left _ _)
    · exact max_le_max (le_refl _) (min_le_min (le_refl _) (towardZero_mono hpq))

/-! ## What is not claimed -/

/-- Strictly larger numbers may have the same sum, and a NaN may come up in between. -/
theorem C192_limits :
    (∃ a b c : Flt .f64, a < b ∧ a + c = b + c) ∧
    ∃ a a' b b' : Flt .f64, Le a a' ∧ Le b b' ∧ a + b = .inf true ∧ a' + b = .nan ∧ a' + b' = .inf false :=
  ⟨⟨.fin 1, .fin 2, .fin (2 ^ 60), rfl, by decide +kernel⟩,
    ⟨.inf true, .inf false, .inf true, .inf false, rfl, rfl, rfl, rfl, rfl⟩⟩

example : Le (.fin (1 / 3) : Flt .f64) (.fin 2) ∧ Le (.fin 2 : Flt .f64) (.inf false) ∧ ¬ Le (.nan : Flt .f64) .nan := by
  unfold Le; decide +kernel
example : Le (0 : Flt .f64) (.fin 3) ∧ (0 : Flt .f64) < .fin 3 ∧ (.fin 3 / .fin 4 : Flt .f64) = .fin (3 / 4) ∧
    (.fin 1 / .inf false : Flt .f64) = 0 := by
  unfold Le; decide +kernel
example : SquareMono .f64 (fun x _ => x * x) ∧
    Vect.distance (fun x _ => x * x) sqrt (vec ![0, 0] : List (Flt .f64)) (vec ![3, -4]) = .fin 5 ∧
    Vect.distance (fun x _ => x * x) sqrt (vec ![0, 0] : List (Flt .f64)) (vec ![-5, 12]) = .fin 13 :=
  ⟨squareMono_mul f64_ok, by decide +kernel, by decide +kernel⟩
example : Vect.dotProduct (vec ![1, 2] : List (Flt .f64)) (vec ![3, 4]) = .fin 11 ∧
    Vect.dotProduct (vec ![1, 5 / 2] : List (Flt .f64)) (vec ![3, 4]) = .fin 13 := by decide +kernel
example : toInt ⟨true, 32⟩ (.fin (-7 / 2) : Flt .f64) = -3 ∧ toInt ⟨true, 32⟩ (.inf false : Flt .f64) = 2147483647 := by
  decide +kernel

end Verif
