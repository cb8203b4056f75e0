import Verif.Model.FloatSign
import Verif.Model.Complex
import Verif.Lemmas.GaussMap
import Verif.Props.FloatDistance

/-!
# The two zeros of floats (C191)

`0.0 == -0.0`. The theorems say which computations keep that, that is, give results that compare equal from
operands that compare equal.
-/

namespace Verif

open GaussMap

variable {f : FloatFmt}

/-- Two floats that compare equal, or are both NaN. -/
def Like (a b : SFlt f) : Prop := SFlt.eqB a b = true ∨ (a = .nan ∧ b = .nan)

instance (a b : SFlt f) : Decidable (Like a b) :=
  inferInstanceAs (Decidable (SFlt.eqB a b = true ∨ (a = .nan ∧ b = .nan)))

namespace SFlt

/-- A float without the sign of zero: an element of the model used for all other properties of floats. -/
def forget : SFlt f → Flt f
  | .nan => .nan
  | .inf s => .inf s
  | .num s a => .fin (val s a)

/-! ### What happens to signs -/

theorem val_zero {s : Bool} {a : ℚ≥0} : val s a = 0 ↔ a = 0 := by
  cases s <;> simp [val]

theorem val_neg {s : Bool} {a : ℚ≥0} (h : a ≠ 0) : val s a < 0 ↔ s = true := by
  have : (0 : ℚ) < a := by exact_mod_cast pos_iff_ne_zero.2 h
  cases s
  · simp only [val, Bool.false_eq_true, if_false, iff_false, not_lt]; exact this.le
  · simp only [val, if_true, iff_true]; linarith

theorem val_not (s : Bool) (a : ℚ≥0) : val (!s) a = -val s a := by
  cases s <;> simp [val]

theorem rnd_sign {x y : ℚ} (h : Flt.rnd f x = .fin y) : (0 ≤ x → 0 ≤ y) ∧ (x ≤ 0 → y ≤ 0) := by
  have h1 := Flt.rnd_nearest h (Flt.Has.zero f)
  constructor
  · intro hx
    by_contra hy
    push Not at hy
    rw [abs_of_nonpos (by linarith), zero_sub, abs_neg, abs_of_nonneg hx] at h1
    linarith
  · intro hx
    by_contra hy
    push Not at hy
    rw [abs_of_nonneg (by linarith), zero_sub, abs_of_nonneg (by linarith)] at h1
    linarith

theorem val_of {s : Bool} {x y : ℚ} (h : (0 ≤ x → 0 ≤ y) ∧ (x ≤ 0 → y ≤ 0)) :
    val (if x = 0 then s else decide (x < 0)) (Rat.toNNRat |y|) = y := by
  unfold val
  rw [Rat.coe_toNNRat _ (abs_nonneg y)]
  by_cases hx : x = 0
  · have : y = 0 := le_antisymm (h.2 hx.le) (h.1 hx.ge)
    subst this
    simp
  · rw [if_neg hx]
    rcases lt_or_gt_of_ne hx with hx | hx
    · simp only [hx, decide_true, if_true, abs_of_nonpos (h.2 hx.le), neg_neg]
    · simp only [not_lt.2 hx.le, decide_false, Bool.false_eq_true, if_false, abs_of_nonneg (h.1 hx.le)]

theorem forget_rnd (s : Bool) (x : ℚ) : forget (rnd f s x) = Flt.rnd f x := by
  unfold rnd
  cases h : Flt.rnd f x with
  | nan => rfl
  | inf t => rfl
  | fin y => exact congrArg Flt.fin (val_of (rnd_sign h))

theorem forget_ofRat (s : Bool) (x : ℚ) : forget (ofRat s x : SFlt f) = .fin x :=
  congrArg Flt.fin (val_of ⟨id, id⟩)

/-! ### Forgetting the sign commutes with the operations -/

theorem forget_add (a b : SFlt f) : forget (a + b) = forget a + forget b := by
  rcases a with _ | s | ⟨s, a⟩ <;> rcases b with _ | t | ⟨t, b⟩ <;> try rfl
  · change forget (if s = t then .inf s else .nan) = if s = t then .inf s else .nan
    split <;> rfl
  · exact forget_rnd _ _

theorem forget_neg (a : SFlt f) : forget (-a) = -forget a := by
  rcases a with _ | s | ⟨s, a⟩ <;> try rfl
  exact congrArg Flt.fin (val_not s a)

theorem forget_sub (a b : SFlt f) : forget (a - b) = forget a - forget b := by
  have h := forget_add a (-b)
  rw [forget_neg] at h
  exact h

theorem forget_mul (a b : SFlt f) : forget (a * b) = forget a * forget b := by
  rcases a with _ | s | ⟨s, a⟩ <;> rcases b with _ | t | ⟨t, b⟩ <;> try rfl
  · change forget (if b = 0 then .nan else .inf (xor s t)) =
      if val t b = 0 then .nan else .inf (xor s (decide (val t b < 0)))
    by_cases h : b = 0
    · rw [if_pos h, if_pos (val_zero.2 h)]; rfl
    · rw [if_neg h, if_neg (fun e => h (val_zero.1 e))]
      simp only [val_neg h, Bool.decide_eq_true]; rfl
  · change forget (if a = 0 then .nan else .inf (xor s t)) =
      if val s a = 0 then .nan else .inf (xor (decide (val s a < 0)) t)
    by_cases h : a = 0
    · rw [if_pos h, if_pos (val_zero.2 h)]; rfl
    · rw [if_neg h, if_neg (fun e => h (val_zero.1 e))]
      simp only [val_neg h, Bool.decide_eq_true]; rfl
  · exact forget_rnd _ _

/-- The operand is not `-0.0`. -/
def NotNegZero (b : SFlt f) : Prop := b ≠ .num true 0

theorem forget_div (a b : SFlt f) (hb : NotNegZero b) : forget (a / b) = forget a / forget b := by
  rcases a with _ | s | ⟨s, a⟩ <;> rcases b with _ | t | ⟨t, b⟩ <;> try rfl
  · change (Flt.inf (xor s t) : Flt f) = .inf (xor s (decide (val t b < 0)))
    by_cases h : b = 0
    · subst h
      cases t with
      | true => exact absurd rfl hb
      | false => simp [val]
    · simp only [val_neg h, Bool.decide_eq_true]
  · change (Flt.fin (val (xor s t) 0) : Flt f) = .fin 0
    rw [val_zero.2 rfl]
  · change forget (if b = 0 then (if a = 0 then .nan else .inf (xor s t)) else rnd f (xor s t) (val s a / val t b)) =
      if val t b = 0 then (if val s a = 0 then .nan else .inf (decide (val s a < 0)))
      else Flt.rnd f (val s a / val t b)
    by_cases h : b = 0
    · subst h
      rw [if_pos rfl, if_pos (val_zero.2 rfl)]
      by_cases h' : a = 0
      · rw [if_pos h', if_pos (val_zero.2 h')]; rfl
      · rw [if_neg h', if_neg (fun e => h' (val_zero.1 e))]
        cases t with
        | true => exact absurd rfl hb
        | false => simp only [val_neg h', Bool.decide_eq_true, Bool.xor_false]; rfl
    · rw [if_neg h, if_neg (fun e => h (val_zero.1 e))]
      exact forget_rnd _ _

theorem ltB_forget (a b : SFlt f) : ltB a b = Flt.ltB (forget a) (forget b) := by
  rcases a with _ | s | ⟨s, a⟩ <;> rcases b with _ | t | ⟨t, b⟩ <;> rfl

theorem geB_forget (a b : SFlt f) : geB a b = Flt.geB (forget a) (forget b) := by
  rcases a with _ | s | ⟨s, a⟩ <;> rcases b with _ | t | ⟨t, b⟩ <;> rfl

theorem eqB_forget (a b : SFlt f) : eqB a b = Flt.eqB (forget a) (forget b) := by
  rcases a with _ | s | ⟨s, a⟩ <;> rcases b with _ | t | ⟨t, b⟩ <;> try rfl
  · change (s == t) = decide ((Flt.inf s : Flt f) = .inf t)
    cases s <;> cases t <;> simp
  · change decide (val s a = val t b) = decide ((Flt.fin (val s a) : Flt f) = .fin (val t b))
    simp

theorem isZero_forget (a : SFlt f) : ZeroTest.IsZero a ↔ ZeroTest.IsZero (forget a) := by
  change eqB a 0 = true ↔ forget a = 0
  rcases a with _ | s | ⟨s, a⟩
  · exact ⟨nofun, nofun⟩
  · exact ⟨nofun, nofun⟩
  · change decide (val s a = val false 0) = true ↔ Flt.fin (val s a) = .fin 0
    simp [val]

theorem isZero_num {s : Bool} {a : ℚ≥0} : isZero (.num s a : SFlt f) = true ↔ a = 0 := by
  change decide (val s a = val false 0) = true ↔ _
  rw [decide_eq_true_iff, show val false 0 = 0 from val_zero.2 rfl, val_zero]

theorem forget_abs (a : SFlt f) : forget (abs a) = Flt.abs (forget a) := by
  rcases a with _ | s | ⟨s, a⟩ <;> try rfl
  refine congrArg Flt.fin ?_
  cases s <;> simp [val]

theorem forget_onNum (g : ℚ → ℚ) (a : SFlt f) : forget (onNum g a) = Flt.onFin g (forget a) := by
  rcases a with _ | s | ⟨s, a⟩ <;> try rfl
  exact forget_ofRat s _

theorem forget_fract (a : SFlt f) : forget (fract a) = Flt.fract (forget a) := by
  have h := forget_sub a (trunc a)
  rw [trunc, forget_onNum] at h
  exact h

theorem forget_sqrt (a : SFlt f) : forget (sqrt a) = Flt.sqrt (forget a) := by
  rcases a with _ | s | ⟨s, a⟩
  · rfl
  · change forget (if s then .nan else .inf false) = if s then .nan else .inf false
    split <;> rfl
  · by_cases h : a = 0
    · subst h
      have h0 : val s 0 = 0 := val_zero.2 rfl
      simp only [sqrt, if_true, forget, Flt.sqrt, h0, lt_irrefl, if_false]
    · cases s with
      | true =>
        have h1 := (val_neg (s := true) h).2 rfl
        simp only [sqrt, h, if_false, if_true, forget, Flt.sqrt, h1]
      | false =>
        have h1 : ¬ ((a : ℚ) < 0) := not_lt.2 a.2
        have h2 : (a : ℚ) ≠ 0 := by exact_mod_cast h
        simp only [sqrt, h, if_false, Bool.false_eq_true, forget, Flt.sqrt, val, h1, h2]
        rw [Rat.coe_toNNRat _ (by positivity)]

theorem forget_toInt (p : Prim) (a : SFlt f) : toInt p a = Flt.toInt p (forget a) := by
  rcases a with _ | s | ⟨s, a⟩ <;> rfl

theorem like_iff {a b : SFlt f} : Like a b ↔ forget a = forget b := by
  unfold Like
  rcases a with _ | s | ⟨s, a⟩ <;> rcases b with _ | t | ⟨t, b⟩ <;> simp [eqB, forget]

theorem comparable_forget (a b : SFlt f) :
    PartialCmp.comparable (forget a) (forget b) = PartialCmp.comparable a b := by
  rcases a with _ | s | ⟨s, a⟩ <;> rcases b with _ | t | ⟨t, b⟩ <;> simp [PartialCmp.comparable, forget]

theorem hom : Hom (forget : SFlt f → Flt f) where
  one := rfl
  neg := forget_neg
  sub := forget_sub
  mul := forget_mul
  div a b h := forget_div a b fun e => h (by subst e; exact isZero_num.2 rfl)
  zero a := (isZero_forget a).symm
  lt a b := by
    change Flt.ltB _ _ = true ↔ ltB a b = true
    rw [ltB_forget]
  cmp := comparable_forget

end SFlt

open SFlt

/-! ## C191: the operators -/

/-- C191: sums, differences, products, negatives and comparisons of operands that compare equal. -/
theorem C191_operators {a a' b b' : SFlt f} (ha : Like a a') (hb : Like b b') :
    Like (a + b) (a' + b') ∧ Like (a - b) (a' - b') ∧ Like (a * b) (a' * b') ∧ Like (-a) (-a') ∧
    (a < b ↔ a' < b') ∧ SFlt.geB a b = SFlt.geB a' b' ∧ SFlt.eqB a b = SFlt.eqB a' b' ∧
    PartialCmp.comparable a b = PartialCmp.comparable a' b' := by
  rw [like_iff] at ha hb
  simp only [like_iff]
  refine ⟨?_, ?_, ?_, ?_, ?_, ?_, ?_, ?_⟩
  · rw [forget_add, forget_add, ha, hb]
  · rw [forget_sub, forget_sub, ha, hb]
  · rw [forget_mul, forget_mul, ha, hb]
  · rw [forget_neg, forget_neg, ha]
  · change ltB a b = true ↔ ltB a' b' = true
    rw [ltB_forget, ltB_forget, ha, hb]
  · rw [geB_forget, geB_forget, ha, hb]
  · rw [eqB_forget, eqB_forget, ha, hb]
  · rw [← comparable_forget, ← comparable_forget, ha, hb]

example : Like (0 + -0 : SFlt .f32) (-0 + -0) ∧ (0 + -0 : SFlt .f32) ≠ -0 + -0 := by decide +kernel

/-- C191: the functions of the traits. -/
theorem C191_functions {a a' : SFlt f} (ha : Like a a') :
    (SFlt.isZero a = SFlt.isZero a' ∧ SFlt.isOne a = SFlt.isOne a' ∧ SFlt.isNegative a = SFlt.isNegative a' ∧
      SFlt.isPositive a = SFlt.isPositive a' ∧ ∀ p, SFlt.toInt p a = SFlt.toInt p a') ∧
    Like (SFlt.abs a) (SFlt.abs a') ∧ Like (SFlt.floor a) (SFlt.floor a') ∧ Like (SFlt.ceil a) (SFlt.ceil a') ∧
    Like (SFlt.trunc a) (SFlt.trunc a') ∧ Like (SFlt.round a) (SFlt.round a') ∧
    Like (SFlt.fract a) (SFlt.fract a') ∧ Like (SFlt.sqrt a) (SFlt.sqrt a') := by
  rw [like_iff] at ha
  simp only [like_iff]
  refine ⟨⟨?_, ?_, ?_, ?_, fun p => ?_⟩, ?_, ?_, ?_, ?_, ?_, ?_, ?_⟩
  · unfold SFlt.isZero; rw [eqB_forget, eqB_forget a', ha]
  · unfold SFlt.isOne; rw [eqB_forget, eqB_forget a', ha]
  · unfold SFlt.isNegative; rw [ltB_forget, ltB_forget a', ha]
  · unfold SFlt.isPositive; rw [geB_forget, geB_forget a', ha]
  · rw [forget_toInt, forget_toInt, ha]
  · rw [forget_abs, forget_abs, ha]
  · unfold SFlt.floor; rw [forget_onNum, forget_onNum, ha]
  · unfold SFlt.ceil; rw [forget_onNum, forget_onNum, ha]
  · unfold SFlt.trunc; rw [forget_onNum, forget_onNum, ha]
  · unfold SFlt.round; rw [forget_onNum, forget_onNum, ha]
  · rw [forget_fract, forget_fract, ha]
  · rw [forget_sqrt, forget_sqrt, ha]

/-- C191, exactly: quotients of operands that compare equal compare equal unless a number that is not zero, or
an infinity, is divided by zeros of different signs. -/
theorem C191_divide_exact_partial {a a' b b' : SFlt f} (ha : Like a a') (hb : Like b b') :
    Like (a / b) (a' / b') ↔ (SFlt.isZero b = true → b = b' ∨ a = .nan ∨ SFlt.isZero a = true) := by
  by_cases hz : SFlt.isZero b = true
  · simp only [hz, forall_const]
    obtain ⟨t, rfl⟩ : ∃ t, b = .num t 0 := by
      rcases b with _ | t | ⟨t, b⟩
      · cases hz
      · cases hz
      · refine ⟨t, ?_⟩
        have : val t b = val false 0 := of_decide_eq_true hz
        rw [show val false 0 = 0 from val_zero.2 rfl, val_zero] at this
        rw [this]
    obtain ⟨t', rfl⟩ : ∃ t', b' = .num t' 0 := by
      rw [like_iff] at hb
      rcases b' with _ | t' | ⟨t', b'⟩
      · cases hb
      · cases hb
      · refine ⟨t', ?_⟩
        have : val t 0 = val t' b' := Flt.fin.inj hb
        rw [show val t 0 = 0 from val_zero.2 rfl, eq_comm, val_zero] at this
        rw [this]
    rw [like_iff] at ha
    rcases a with _ | s | ⟨s, a⟩ <;> rcases a' with _ | s' | ⟨s', a'⟩ <;> try cases ha
    · simp only [true_or, or_true, iff_true]
      exact .inr ⟨rfl, rfl⟩
    · have h1 : (SFlt.inf s : SFlt f) / .num t 0 = .inf (xor s t) := rfl
      have h2 : (SFlt.inf s : SFlt f) / .num t' 0 = .inf (xor s t') := rfl
      have h3 : SFlt.isZero (.inf s : SFlt f) = false := rfl
      rw [h1, h2, like_iff, h3]
      cases s <;> cases t <;> cases t' <;> simp [forget]
    · have hv : val s a = val s' a' := Flt.fin.inj ha
      have h1 : ∀ s a t, (SFlt.num s a : SFlt f) / .num t 0 = if a = 0 then .nan else .inf (xor s t) := fun s a t => by
        change (if (0 : ℚ≥0) = 0 then (if a = 0 then .nan else .inf (xor s t))
          else rnd f (xor s t) (val s a / val t 0)) = _
        rw [if_pos rfl]
      rw [h1, h1]
      by_cases h : a = 0
      · have h' : a' = 0 := by
          rw [val_zero.2 h, eq_comm, val_zero] at hv
          exact hv
        subst h h'
        rw [if_pos rfl]
        simp only [if_true]
        exact ⟨fun _ => .inr (.inr (isZero_num.2 rfl)), fun _ => .inr ⟨rfl, rfl⟩⟩
      · have h' : a' ≠ 0 := by
          intro h'
          rw [val_zero.2 h', val_zero] at hv
          exact h hv
        have hs : s = s' := by
          have e : (s = true) ↔ (s' = true) := by rw [← val_neg h, hv, val_neg h']
          cases s <;> cases s' <;> simp_all
        subst hs
        have h3 : SFlt.isZero (.num s a : SFlt f) = false := by
          rw [Bool.eq_false_iff, ne_eq, isZero_num]
          exact h
        rw [if_neg h, if_neg h', like_iff, h3]
        cases s <;> cases t <;> cases t' <;> simp [forget]
  · refine iff_of_true ?_ fun h => absurd h hz
    rw [like_iff] at ha hb ⊢
    have h1 : ∀ c : SFlt f, forget c = forget b → NotNegZero c := by
      intro c hc e
      subst e
      refine hz ?_
      unfold SFlt.isZero
      rw [eqB_forget, ← hc]
      change decide ((Flt.fin (val true 0) : Flt f) = .fin (val false 0)) = true
      simp [val]
    rw [forget_div a b (h1 b rfl), forget_div a' b' (h1 b' hb.symm), ha, hb]

example : ¬ Like (1 / 0 : SFlt .f32) (1 / -0) ∧ Like (0 / 0 : SFlt .f32) (0 / -0) := by decide +kernel

/-- C191 fails for division: `1 / 0` and `1 / -0` are opposite infinities, though the zeros compare equal; so
are `csc` and `cot` of the zeros, `sin` and `tan` of which are the zeros themselves. -/
theorem C191_violated :
    Like (0 : SFlt f) (-0) ∧ ¬ Like ((1 : SFlt f) / 0) (1 / -0) ∧
    (∀ g : SFlt f → SFlt f, g 0 = 0 → g (-0) = -0 →
      ¬ Like (SFlt.csc g 0) (SFlt.csc g (-0)) ∧ ¬ Like (SFlt.cot g 0) (SFlt.cot g (-0))) := by
  have h0 : Like (0 : SFlt f) (-0) := by
    rw [like_iff]
    change (Flt.fin (val false 0) : Flt f) = .fin (val true 0)
    simp [val]
  have h1 : ¬ Like ((1 : SFlt f) / 0) (1 / -0) := by
    rw [C191_divide_exact_partial (like_iff.2 rfl) h0]
    intro h
    rcases h (isZero_num.2 rfl) with h | h | h
    · cases h
    · cases h
    · exact one_ne_zero (isZero_num.1 h)
  refine ⟨h0, h1, fun g e1 e2 => ?_⟩
  unfold SFlt.csc SFlt.cot
  rw [e1, e2]
  exact ⟨h1, h1⟩

/-- The model of floats without the sign of zero, in which the other properties are stated, is exact up to that
sign: forgetting the signs commutes with every operation, with divisions if the divisor is not `-0`. -/
theorem C191_model (a b : SFlt f) :
    forget (a + b) = forget a + forget b ∧ forget (a - b) = forget a - forget b ∧
    forget (a * b) = forget a * forget b ∧ (b ≠ -0 → forget (a / b) = forget a / forget b) ∧
    forget (-a) = -forget a ∧ SFlt.ltB a b = Flt.ltB (forget a) (forget b) ∧
    SFlt.geB a b = Flt.geB (forget a) (forget b) ∧ SFlt.eqB a b = Flt.eqB (forget a) (forget b) ∧
    forget (SFlt.abs a) = Flt.abs (forget a) ∧ forget (SFlt.floor a) = Flt.floor (forget a) ∧
    forget (SFlt.ceil a) = Flt.ceil (forget a) ∧ forget (SFlt.trunc a) = Flt.trunc (forget a) ∧
    forget (SFlt.round a) = Flt.round (forget a) ∧ forget (SFlt.fract a) = Flt.fract (forget a) ∧
    forget (SFlt.sqrt a) = Flt.sqrt (forget a) ∧ (∀ p, SFlt.toInt p a = Flt.toInt p (forget a)) ∧
    ((a = b ↔ forget a = forget b) ∨ (∃ s, a = .num s 0 ∧ b = .num (!s) 0)) := by
  refine ⟨forget_add a b, forget_sub a b, forget_mul a b, forget_div a b, forget_neg a, ltB_forget a b, geB_forget a b,
    eqB_forget a b, forget_abs a, forget_onNum _ a, forget_onNum _ a, forget_onNum _ a, forget_onNum _ a,
    forget_fract a, forget_sqrt a, fun p => forget_toInt p a, ?_⟩
  by_cases h : forget a = forget b
  · by_cases e : a = b
    · exact .inl ⟨fun _ => h, fun _ => e⟩
    · right
      rcases a with _ | s | ⟨s, a⟩ <;> rcases b with _ | t | ⟨t, b⟩ <;> try cases h
      · exact absurd rfl e
      · exact absurd rfl e
      · have hv : val s a = val t b := Flt.fin.inj h
        have hab : |val s a| = |val t b| := by rw [hv]
        have hm : ∀ s (a : ℚ≥0), |val s a| = a := by intro s a; cases s <;> simp [val]
        rw [hm, hm] at hab
        have hab : a = b := by exact_mod_cast hab
        subst hab
        by_cases h0 : a = 0
        · subst h0
          refine ⟨s, rfl, ?_⟩
          cases s <;> cases t <;> simp_all
        · refine absurd ?_ e
          have hs : (s = true) ↔ (t = true) := by rw [← val_neg h0, hv, val_neg h0]
          cases s <;> cases t <;> simp_all
  · exact .inl ⟨fun e => absurd (congrArg forget e) h, fun e => absurd e h⟩

/-! ## C191: complex numbers -/

/-- Both components compare equal or are both NaN. -/
def LikeC (a b : Complex (SFlt f)) : Prop := Like a.real b.real ∧ Like a.imag b.imag

/-- The sum of two squares is not `-0`. -/
theorem squares_notNegZero (x y : SFlt f) : NotNegZero (x * x + y * y) := by
  have sq : ∀ x : SFlt f, x * x = .nan ∨ x * x = .inf false ∨ ∃ a, x * x = .num false a := by
    intro x
    rcases x with _ | s | ⟨s, a⟩
    · exact .inl rfl
    · exact .inr (.inl (by cases s <;> rfl))
    · change rnd f (xor s s) (val s a * val s a) = _ ∨ rnd f (xor s s) (val s a * val s a) = _ ∨
        ∃ c, rnd f (xor s s) (val s a * val s a) = _
      have h := mul_self_nonneg (val s a)
      unfold rnd
      cases e : Flt.rnd f (val s a * val s a) with
      | nan => exact .inl rfl
      | inf t =>
        refine .inr (.inl ?_)
        unfold Flt.rnd at e
        split at e
        · cases e
        · simp only at e
          split at e
          · cases e
          · have := Flt.inf.inj e
            rw [← this, decide_eq_false (not_lt.2 h)]
      | fin y =>
        refine .inr (.inr ⟨Rat.toNNRat |y|, ?_⟩)
        simp only [Bool.xor_self]
        split
        · rfl
        · rw [decide_eq_false (not_lt.2 h)]
  rcases sq x with e | e | ⟨a, e⟩ <;> rcases sq y with e' | e' | ⟨b, e'⟩ <;> rw [e, e'] <;> intro h <;> try cases h
  change rnd f (false && false) (val false a + val false b) = .num true 0 at h
  unfold rnd at h
  have hn : (0 : ℚ) ≤ val false a + val false b := by
    simp only [val, Bool.false_eq_true, if_false]
    positivity
  cases e : Flt.rnd f (val false a + val false b) with
  | nan => rw [e] at h; cases h
  | inf t => rw [e] at h; cases h
  | fin y =>
    rw [e] at h
    have := (SFlt.num.inj h).1
    simp only [Bool.and_self] at this
    split at this
    · cases this
    · rw [decide_eq_false (not_lt.2 hn)] at this; cases this

theorem square_notNegZero (x : SFlt f) : NotNegZero (x * x) := by
  intro h
  have := squares_notNegZero x x
  rw [h] at this
  refine this ?_
  change rnd f true (val true 0 + val true 0) = _
  have : val true 0 + val true 0 = 0 := by simp [val]
  rw [this]
  simp [rnd, Flt.rnd_zero]

/-- C191: complex arithmetic, divisions included; `abs` takes the root of the given function. -/
theorem C191_complex {a a' b b' : Complex (SFlt f)} (ha : LikeC a a') (hb : LikeC b b') {r r' : SFlt f}
    (hr : Like r r') :
    LikeC (a.add b) (a'.add b') ∧ LikeC (a.sub b) (a'.sub b') ∧ LikeC (a.mul b) (a'.mul b') ∧
    LikeC (a.div b) (a'.div b') ∧ LikeC (a.addScalar r) (a'.addScalar r') ∧ LikeC (a.subScalar r) (a'.subScalar r') ∧
    LikeC (a.mulScalar r) (a'.mulScalar r') ∧ LikeC (a.divScalar r) (a'.divScalar r') ∧
    Like a.absSquared a'.absSquared ∧ Like (a.abs SFlt.sqrt) (a'.abs SFlt.sqrt) := by
  obtain ⟨h1, h2⟩ := ha
  obtain ⟨h3, h4⟩ := hb
  have e1 := squares_notNegZero b.real b.imag
  have e2 := squares_notNegZero b'.real b'.imag
  have e3 := square_notNegZero r
  have e4 := square_notNegZero r'
  simp only [LikeC, like_iff] at *
  refine ⟨⟨?_, ?_⟩, ⟨?_, ?_⟩, ⟨?_, ?_⟩, ⟨?_, ?_⟩, ⟨?_, ?_⟩, ⟨?_, ?_⟩, ⟨?_, ?_⟩, ⟨?_, ?_⟩, ?_, ?_⟩ <;>
    simp only [Complex.add, Complex.sub, Complex.mul, Complex.div, Complex.addScalar, Complex.subScalar,
      Complex.mulScalar, Complex.divScalar, Complex.absSquared, Complex.abs, forget_add, forget_sub, forget_mul,
      forget_div _ _ e1, forget_div _ _ e2, forget_div _ _ e3, forget_div _ _ e4, forget_sqrt, h1, h2, h3, h4, hr]

/-! ## C191: vectors -/

/-- Two vectors whose components compare equal or are both NaN. -/
def LikeV (a b : List (SFlt f)) : Prop := List.Forall₂ Like a b

theorem likeV_iff {a b : List (SFlt f)} : LikeV a b ↔ a.map forget = b.map forget := by
  unfold LikeV
  induction a generalizing b with
  | nil => cases b <;> simp
  | cons x a ih => cases b <;> simp [like_iff, ih]

theorem likeV_fold {op : SFlt f → SFlt f → SFlt f} (ho : ∀ a a' b b', Like a a' → Like b b' → Like (op a b) (op a' b'))
    {a a' : List (SFlt f)} (h : LikeV a a') : ∀ {z z' : SFlt f}, Like z z' → Like (a.foldl op z) (a'.foldl op z') := by
  unfold LikeV at h
  induction h with
  | nil => exact fun hz => hz
  | cons h _ ih => exact fun hz => ih (ho _ _ _ _ hz h)

theorem likeV_zip {op : SFlt f → SFlt f → SFlt f} (ho : ∀ a a' b b', Like a a' → Like b b' → Like (op a b) (op a' b'))
    {a a' b b' : List (SFlt f)} (h : LikeV a a') (h' : LikeV b b') :
    LikeV (List.zipWith op a b) (List.zipWith op a' b') ∧
    LikeV ((Vect.stdZip a b).map fun p => op p.1 p.2) ((Vect.stdZip a' b').map fun p => op p.1 p.2) := by
  unfold LikeV at *
  induction h generalizing b b' with
  | nil => exact ⟨.nil, .nil⟩
  | cons h _ ih =>
    cases h' with
    | nil => exact ⟨.nil, .nil⟩
    | cons h1 h2 =>
      exact ⟨.cons (ho _ _ _ _ h h1) (ih h2).1, .cons (ho _ _ _ _ h h1) (ih h2).2⟩

theorem like_refl (a : SFlt f) : Like a a := like_iff.2 rfl

/-- C191: componentwise sums, differences and products, `sum`, `product`, `dot_product`. -/
theorem C191_vectors {N : Nat} {a a' b b' : List (SFlt f)} (ha : a.length = N) (hb : b.length = N)
    (h : LikeV a a') (h' : LikeV b b') :
    (∃ o o', Vect.add N a b = some o ∧ Vect.add N a' b' = some o' ∧ LikeV o o') ∧
    (∃ o o', Vect.sub N a b = some o ∧ Vect.sub N a' b' = some o' ∧ LikeV o o') ∧
    (∃ o o', Vect.mul N a b = some o ∧ Vect.mul N a' b' = some o' ∧ LikeV o o') ∧
    (∃ s s', Vect.sum N a = some s ∧ Vect.sum N a' = some s' ∧ Like s s') ∧
    (∃ s s', Vect.product N a = some s ∧ Vect.product N a' = some s' ∧ Like s s') ∧
    Like (Vect.dotProduct a b) (Vect.dotProduct a' b') ∧ LikeV (Vect.cross a b) (Vect.cross a' b') := by
  have ha' : a'.length = N := by rw [← ha]; exact h.length_eq.symm
  have hb' : b'.length = N := by rw [← hb]; exact h'.length_eq.symm
  have hadd : ∀ a a' b b' : SFlt f, Like a a' → Like b b' → Like (a + b) (a' + b') :=
    fun _ _ _ _ h1 h2 => (C191_operators h1 h2).1
  have hsub : ∀ a a' b b' : SFlt f, Like a a' → Like b b' → Like (a - b) (a' - b') :=
    fun _ _ _ _ h1 h2 => (C191_operators h1 h2).2.1
  have hmul : ∀ a a' b b' : SFlt f, Like a a' → Like b b' → Like (a * b) (a' * b') :=
    fun _ _ _ _ h1 h2 => (C191_operators h1 h2).2.2.1
  refine ⟨⟨_, _, Vect.opVec_eq _ ha hb, Vect.opVec_eq _ ha' hb', (likeV_zip hadd h h').1⟩,
    ⟨_, _, Vect.opVec_eq _ ha hb, Vect.opVec_eq _ ha' hb', (likeV_zip hsub h h').1⟩,
    ⟨_, _, Vect.opVec_eq _ ha hb, Vect.opVec_eq _ ha' hb', (likeV_zip hmul h h').1⟩,
    ⟨_, _, (Vect.C77_others N a ha 0).2.2.1, (Vect.C77_others N a' ha' 0).2.2.1, likeV_fold hadd h (like_refl _)⟩,
    ⟨_, _, (Vect.C77_others N a ha 0).2.2.2.1, (Vect.C77_others N a' ha' 0).2.2.2.1,
      likeV_fold hmul h (like_refl _)⟩,
    likeV_fold hadd (likeV_zip hmul h h').2 (like_refl _), ?_⟩
  unfold LikeV at h h'
  unfold Vect.cross
  rcases h with _ | ⟨p1, _ | ⟨p2, _ | ⟨p3, _ | ⟨_, _⟩⟩⟩⟩ <;> rcases h' with _ | ⟨q1, _ | ⟨q2, _ | ⟨q3, _ | ⟨_, _⟩⟩⟩⟩ <;>
    first
    | exact .nil
    | exact .cons (hsub _ _ _ _ (hmul _ _ _ _ p2 q3) (hmul _ _ _ _ p3 q2))
        (.cons (hsub _ _ _ _ (hmul _ _ _ _ p3 q1) (hmul _ _ _ _ p1 q3))
          (.cons (hsub _ _ _ _ (hmul _ _ _ _ p1 q2) (hmul _ _ _ _ p2 q1)) .nil))

/-- C191: distances, if `powf(x, 2.0)` does not distinguish the zeros. -/
theorem C191_distances {a a' b b' : List (SFlt f)} (h : LikeV a a') (h' : LikeV b b')
    (pow : SFlt f → SFlt f → SFlt f) (hpow : ∀ x x', Like x x' → Like (pow x (1 + 1)) (pow x' (1 + 1))) :
    Like (Vect.distanceSquared pow a b) (Vect.distanceSquared pow a' b') ∧
    Like (Vect.distance pow SFlt.sqrt a b) (Vect.distance pow SFlt.sqrt a' b') := by
  have key : Like (Vect.distanceSquared pow a b) (Vect.distanceSquared pow a' b') :=
    likeV_fold (fun _ _ _ _ h1 h2 => (C191_operators h1 h2).1)
      (likeV_zip (op := fun x y => pow (x - y) (1 + 1))
        (fun _ _ _ _ h1 h2 => hpow _ _ (C191_operators h1 h2).2.1) h h').2 (like_refl _)
  exact ⟨key, (C191_functions key).2.2.2.2.2.2.2⟩

/-! ## C191: matrices -/

/-- Two matrices whose entries compare equal or are both NaN. -/
def LikeM (m m' : List (List (SFlt f))) : Prop := List.Forall₂ LikeV m m'

/-- Two calls that both return, with related values, or both panic (or both hang, which they do not). -/
inductive LikeR {α : Type} (rel : α → α → Prop) : Res α → Res α → Prop
  | ok {a b : α} : rel a b → LikeR rel (.ok a) (.ok b)
  | panic : LikeR rel .panic .panic
  | hang : LikeR rel .hang .hang

theorem likeM_iff {a b : List (List (SFlt f))} : LikeM a b ↔ a.map (List.map forget) = b.map (List.map forget) := by
  unfold LikeM
  induction a generalizing b with
  | nil => cases b <;> simp
  | cons x a ih => cases b <;> simp [likeV_iff, ih]

section maps

variable {α β : Type}

theorem mat_get_map (φ : α → β) (m : List (List α)) (i j : Nat) :
    Mat.get (m.map (List.map φ)) i j = mapR φ (Mat.get m i j) := by
  unfold Mat.get
  rw [List.getElem?_map]
  cases m[i]? with
  | none => rfl
  | some r =>
    simp only [Option.map_some, Option.bind_some, List.getElem?_map]
    cases r[j]? <;> rfl

theorem mat_set_map (φ : α → β) (m : List (List α)) (i j : Nat) (v : α) :
    Mat.set (m.map (List.map φ)) i j (φ v) = mapR (List.map (List.map φ)) (Mat.set m i j v) := by
  unfold Mat.set
  rw [List.getElem?_map]
  cases m[i]? with
  | none => rfl
  | some r =>
    simp only [Option.map_some, List.length_map]
    split
    · simp only [mapR_ok, List.map_set]
    · rfl

theorem mat_swap_map (φ : α → β) (m : List (List α)) (a b : Nat) :
    Mat.swapRows (m.map (List.map φ)) a b = mapR (List.map (List.map φ)) (Mat.swapRows m a b) := by
  unfold Mat.swapRows
  rw [List.getElem?_map, List.getElem?_map]
  cases m[a]? with
  | none => rfl
  | some x =>
    cases m[b]? with
    | none => rfl
    | some y => simp only [Option.map_some, mapR_ok, List.map_set]

theorem mat_opsMap (φ : α → β) : OpsMap Mat.ops Mat.ops φ (List.map (List.map φ)) :=
  ⟨mat_get_map φ, mat_set_map φ, mat_swap_map φ⟩

theorem mat_swaps (cols rows : Nat) : Swaps (Mat.ops : MatOps (List (List α)) α) cols rows fun _ => True where
  set := fun _ _ _ _ _ _ _ => trivial
  swap := fun _ _ _ _ _ _ _ _ => trivial
  row := by
    intro m a b m' j _ _ _ _ e
    change Mat.swapRows m a b = .ok m' at e
    unfold Mat.swapRows at e
    change Mat.get m' b j = Mat.get m a j
    unfold Mat.get
    cases ha : m[a]? with
    | none => rw [ha] at e; cases e
    | some x =>
      cases hb : m[b]? with
      | none => rw [ha, hb] at e; cases e
      | some y =>
        rw [ha, hb] at e
        cases e
        have : b < m.length := (List.getElem?_eq_some_iff.1 hb).1
        rw [List.getElem?_set_self (by simpa using this)]

theorem fromFnM_map {φ : α → β} {F : Nat → Res α} {G : Nat → Res β} (n : Nat) (h : ∀ i, G i = mapR φ (F i)) :
    fromFnM n G = mapR (List.map φ) (fromFnM n F) := by
  unfold fromFnM
  refine forUpM_map' (ψ := List.map φ) n [] fun i acc => ?_
  rw [h]
  exact bind_map fun v _ => by rw [mapR_ok, List.map_append, List.map_cons, List.map_nil]

theorem fromFnM_length {F : Nat → Res α} {n : Nat} {l : List α} (e : fromFnM n F = .ok l) : l.length = n := by
  unfold fromFnM at e
  induction n generalizing l with
  | zero => cases e; rfl
  | succ n ih =>
    rw [forUpM] at e
    obtain ⟨a, e1, e⟩ := bind_ok e
    obtain ⟨v, _, e⟩ := bind_ok e
    cases e
    rw [List.length_append, ih e1]
    rfl

theorem mat_mul_map [Add α] [Mul α] [Add β] [Mul β] {φ : α → β} (ha : ∀ a b, φ (a + b) = φ a + φ b)
    (hm : ∀ a b, φ (a * b) = φ a * φ b) (R C C2 : Nat) (a b : List (List α)) :
    Mat.mul R C C2 (a.map (List.map φ)) (b.map (List.map φ)) = mapR (List.map (List.map φ)) (Mat.mul R C C2 a b) := by
  unfold Mat.mul
  refine fromFnM_map R fun i => fromFnM_map C2 fun j => ?_
  unfold Mat.mulEntry
  simp only [mat_get_map]
  refine bind_map fun x _ => bind_map fun y _ => ?_
  rw [← hm]
  refine forUpM_map' _ _ fun k out => ?_
  refine bind_map fun x _ => bind_map fun y _ => ?_
  rw [← hm, ← ha]
  rfl

theorem exchange_map (φ : α → β) (a b : List α) (lo hi n : Nat) :
    DynMat.exchange (a.map φ) (b.map φ) lo hi n = mapR (List.map φ) (DynMat.exchange a b lo hi n) := by
  unfold DynMat.exchange
  simp only [List.length_map]
  split
  · simp only [mapR_ok, List.map_append, List.map_take, List.map_drop]
  · rfl

theorem dyn_opsMap (φ : α → β) (md : Mode) (P : Nat) :
    OpsMap (DynMat.ops md P) (DynMat.ops md P) φ (fun d => ⟨d.data.map φ, d.rows, d.cols⟩) where
  get d i j := by
    change DynMat.get md P _ i j = mapR φ (DynMat.get md P d i j)
    unfold DynMat.get
    simp only
    cases DynMat.offset md P d.cols i j with
    | panic => rfl
    | hang => rfl
    | ok k =>
      simp only [Res.bind, List.getElem?_map]
      cases d.data[k]? <;> rfl
  set d i j v := by
    change DynMat.set md P _ i j _ = mapR _ (DynMat.set md P d i j v)
    unfold DynMat.set
    simp only
    cases DynMat.offset md P d.cols i j with
    | panic => rfl
    | hang => rfl
    | ok k =>
      simp only [Res.bind, List.length_map]
      split
      · simp only [mapR_ok, List.map_set]
      · rfl
  swap d a b := by
    change DynMat.swapRows md P _ a b = mapR _ (DynMat.swapRows md P d a b)
    unfold DynMat.swapRows
    simp only [List.length_map]
    split
    · rfl
    · cases usz md P (max a b * d.cols) with
      | panic => rfl
      | hang => rfl
      | ok mid =>
        simp only [Res.bind]
        split
        · cases usz md P (min a b * d.cols) with
          | panic => rfl
          | hang => rfl
          | ok lo =>
            cases usz md P (min a b + 1) with
            | panic => rfl
            | hang => rfl
            | ok l1 =>
              simp only []
              cases usz md P (l1 * d.cols) with
              | panic => rfl
              | hang => rfl
              | ok hi =>
                simp only [← List.map_take, ← List.map_drop, exchange_map]
                cases DynMat.exchange (d.data.take mid) (d.data.drop mid) lo hi d.cols <;> rfl
        · rfl

theorem dyn_swaps (md : Mode) (P n : Nat) :
    Swaps (DynMat.ops md P : MatOps (DynMat α) α) n n fun d => d.WF P ∧ d.rows = n ∧ d.cols = n where
  set := by
    intro d i j v d' h e
    change DynMat.set md P d i j v = .ok d' at e
    unfold DynMat.set at e
    obtain ⟨k, _, e⟩ := bind_ok e
    split at e
    · cases e
      exact ⟨⟨h.1.rows, h.1.cols, by simpa using h.1.len, h.1.fits⟩, h.2⟩
    · cases e
  swap := by
    intro d a b d' h ha hb e
    obtain ⟨d2, e2, h1, h2, h3, _⟩ := dyn_swap md h.1 (a := a) (b := b) (by omega) (by omega)
    change DynMat.swapRows md P d a b = .ok d' at e
    rw [e2] at e
    cases e
    refine ⟨⟨h1 ▸ h.1.rows, h2 ▸ h.1.cols, ?_, ?_⟩, h1.trans h.2.1, h2.trans h.2.2⟩
    · rw [h3, h1, h2]; exact h.1.len
    · rw [h1, h2]; exact h.1.fits
  row := by
    intro d a b d' j h ha hb hj e
    obtain ⟨d2, e2, h1, h2, _, h4⟩ := dyn_swap md h.1 (a := a) (b := b) (by omega) (by omega)
    change DynMat.swapRows md P d a b = .ok d' at e
    rw [e2] at e
    cases e
    change DynMat.get md P d' b j = DynMat.get md P d a j
    unfold DynMat.get
    have hf := h.1.fits
    rw [h.2.1, h.2.2] at hf
    rw [h2, h.2.2, offset_ok md hb hj hf, offset_ok md ha hj hf]
    have h5 := h4 b j (by omega)
    rw [h.2.2] at h5
    simp only [Res.bind]
    rw [h5]
    by_cases hab : b = a
    · rw [if_pos hab, hab]
    · rw [if_neg hab, if_pos rfl]

end maps

/-- C191: the model without signs of zero is exact for matrices and determinants: forgetting the signs before or
after makes no difference. -/
theorem forget_gauss (R C : Nat) (m : List (List (SFlt f))) :
    Mat.gaussElim R C (m.map (List.map forget)) =
      mapR (fun r => (r.1.map (List.map forget), forget r.2)) (Mat.gaussElim R C m) :=
  gaussElim_map hom (mat_opsMap forget) (mat_swaps R C) (m := m) trivial

/-- The sign of the determinant is one or minus one. -/
theorem factor_not_zero {R C : Nat} {m : List (List (SFlt f))} {r : List (List (SFlt f)) × SFlt f}
    (e : Mat.gaussElim R C m = .ok r) : ¬ ZeroTest.IsZero r.2 := by
  unfold Mat.gaussElim MatOps.gaussElim at e
  obtain ⟨s, e1, e⟩ := bind_ok e
  cases e
  have h : s.factor = 1 ∨ s.factor = -1 := by
    refine keeps (J := fun s : MatOps.GState (List (List (SFlt f))) (SFlt f) => s.factor = 1 ∨ s.factor = -1)
      (.inl rfl) (fun i s s' hs e => ?_) e1
    unfold MatOps.gaussStep at e
    obtain ⟨z, _, e⟩ := bind_ok e
    split at e
    · cases e; exact hs
    · obtain ⟨k, _, e⟩ := bind_ok e
      obtain ⟨s1, ep, e⟩ := bind_ok e
      obtain ⟨t, _, e⟩ := bind_ok e
      obtain ⟨m', _, e⟩ := bind_ok e
      cases e
      unfold MatOps.pivot at ep
      split at ep
      · obtain ⟨m1, _, ep⟩ := bind_ok ep
        cases ep
        rcases hs with hs | hs <;> rw [hs]
        · exact .inr rfl
        · exact .inl rfl
      · cases ep; exact hs
  have h1 : ¬ SFlt.isZero (1 : SFlt f) = true := fun h => one_ne_zero (isZero_num.1 h)
  have h2 : ¬ SFlt.isZero (-1 : SFlt f) = true := fun h => one_ne_zero (isZero_num.1 h)
  rcases h with h | h <;> simp only [h]
  · exact h1
  · exact h2

theorem forget_det (N : Nat) (m : List (List (SFlt f))) :
    Mat.determinant N (m.map (List.map forget)) = mapR forget (Mat.determinant N m) := by
  unfold Mat.determinant
  split
  · exact mat_get_map _ _ _ _
  · simp only [mat_get_map]
    refine bind_map fun a _ => bind_map fun d _ => bind_map fun c _ => bind_map fun b _ => ?_
    rw [mapR_ok, forget_sub, forget_mul, forget_mul]
  · rw [forget_gauss]
    refine bind_map fun r hr => ?_
    have hd : Mat.diag N (r.1.map (List.map forget)) = mapR (List.map forget) (Mat.diag N r.1) :=
      fromFnM_map N fun i => mat_get_map _ _ _ _
    rw [hd]
    refine bind_map fun d e => ?_
    have hl : d.length = N := fromFnM_length e
    rw [(Vect.C77_others N d hl 0).2.2.2.1, (Vect.C77_others N (d.map forget) (by simpa using hl) 0).2.2.2.1]
    have hp : ∀ (d : List (SFlt f)) z, (d.map forget).foldl (· * ·) (forget z) = forget (d.foldl (· * ·) z) := by
      intro d
      induction d with
      | nil => exact fun z => rfl
      | cons x d ih =>
        intro z
        rw [List.map_cons, List.foldl_cons, List.foldl_cons, ← forget_mul, ih]
    have h1 := hp d 1
    change Res.ok ((d.map forget).foldl (· * ·) (forget (1 : SFlt f)) / forget r.2) = _
    rw [h1]
    exact congrArg Res.ok (hom.div _ _ (factor_not_zero hr)).symm

theorem likeR_of {α β : Type} {φ : α → β} {rel : α → α → Prop} (hr : ∀ a b, φ a = φ b → rel a b) {x y : Res α}
    (h : mapR φ x = mapR φ y) : LikeR rel x y := by
  cases x with
  | ok a =>
    cases y with
    | ok b => exact .ok (hr _ _ (Res.ok.inj h))
    | panic => cases h
    | hang => cases h
  | panic =>
    cases y with
    | ok b => cases h
    | panic => exact .panic
    | hang => cases h
  | hang =>
    cases y with
    | ok b => cases h
    | panic => cases h
    | hang => exact .hang

theorem likeM_of {R C : Nat} {m m' : List (List (SFlt f))} {A A' : Matrix (Fin R) (Fin C) (SFlt f)} (h : MatOf m A)
    (h' : MatOf m' A') (hl : ∀ i j, Like (A i j) (A' i j)) : LikeM m m' := by
  unfold MatOf at h h'
  rw [likeM_iff, h, h', List.map_ofFn, List.map_ofFn]
  congr 1
  funext i
  simp only [Function.comp, List.map_ofFn]
  congr 1
  funext j
  exact like_iff.1 (hl i j)

/-- C191: sums and differences of matrices of one shape; products, row reductions and determinants of any. -/
theorem C191_matrices {R C : Nat} {a a' b b' : List (List (SFlt f))} {A A' B B' : Matrix (Fin R) (Fin C) (SFlt f)}
    (ha : MatOf a A) (ha' : MatOf a' A') (hb : MatOf b B) (hb' : MatOf b' B')
    (h1 : ∀ i j, Like (A i j) (A' i j)) (h2 : ∀ i j, Like (B i j) (B' i j)) :
    (∃ o o', Mat.add R C a b = some o ∧ Mat.add R C a' b' = some o' ∧ LikeM o o') ∧
    (∃ o o', Mat.sub R C a b = some o ∧ Mat.sub R C a' b' = some o' ∧ LikeM o o') := by
  obtain ⟨o, e1, o1⟩ := rowsOp_spec (· + ·) ha hb
  obtain ⟨o', e1', o1'⟩ := rowsOp_spec (· + ·) ha' hb'
  obtain ⟨p, e2, o2⟩ := rowsOp_spec (· - ·) ha hb
  obtain ⟨p', e2', o2'⟩ := rowsOp_spec (· - ·) ha' hb'
  exact ⟨⟨o, o', e1, e1', likeM_of o1 o1' fun i j => (C191_operators (h1 i j) (h2 i j)).1⟩,
    ⟨p, p', e2, e2', likeM_of o2 o2' fun i j => (C191_operators (h1 i j) (h2 i j)).2.1⟩⟩

/-- C191: products, row reductions and determinants; the latter two divide, but only by pivots and signs, which
are not zero. -/
theorem C191_elimination {a a' b b' : List (List (SFlt f))} (ha : LikeM a a') (hb : LikeM b b') (R C D N : Nat) :
    LikeR LikeM (Mat.mul R C D a b) (Mat.mul R C D a' b') ∧
    LikeR LikeM (Mat.rowReduce R C a) (Mat.rowReduce R C a') ∧
    LikeR Like (Mat.determinant N a) (Mat.determinant N a') := by
  rw [likeM_iff] at ha hb
  refine ⟨likeR_of (φ := List.map (List.map forget)) (fun _ _ => likeM_iff.2) ?_,
    likeR_of (φ := List.map (List.map forget)) (fun _ _ => likeM_iff.2) ?_,
    likeR_of (φ := forget) (fun _ _ => like_iff.2) ?_⟩
  · rw [← mat_mul_map forget_add forget_mul, ← mat_mul_map forget_add forget_mul, ha, hb]
  · have key : ∀ m : List (List (SFlt f)), Mat.rowReduce R C (m.map (List.map forget)) =
        mapR (List.map (List.map forget)) (Mat.rowReduce R C m) := by
      intro m
      unfold Mat.rowReduce
      rw [forget_gauss]
      exact bind_map fun r _ => rfl
    rw [← key, ← key, ha]
  · rw [← forget_det, ← forget_det, ha]

/-- Two dynamic matrices of the same dimensions whose entries compare equal or are both NaN. -/
def LikeD (d d' : DynMat (SFlt f)) : Prop := d.rows = d'.rows ∧ d.cols = d'.cols ∧ LikeV d.data d'.data

/-- C191: row reductions of square dynamic matrices. -/
theorem C191_dynamic (md : Mode) (P n : Nat) {d d' : DynMat (SFlt f)} (hw : d.WF P) (hr : d.rows = n) (hc : d.cols = n)
    (h : LikeD d d') : LikeR LikeD (DynMat.rowReduce md P d) (DynMat.rowReduce md P d') := by
  obtain ⟨h1, h2, h3⟩ := h
  have hl : d'.data.length = d.data.length := h3.length_eq.symm
  have hw' : d'.WF P := ⟨h1 ▸ hw.rows, h2 ▸ hw.cols, by rw [hl, ← h1, ← h2]; exact hw.len, by
    rw [← h1, ← h2]; exact hw.fits⟩
  let ψ : DynMat (SFlt f) → DynMat (Flt f) := fun d => ⟨d.data.map forget, d.rows, d.cols⟩
  have key : ∀ d : DynMat (SFlt f), d.WF P → d.rows = n → d.cols = n →
      DynMat.rowReduce md P (ψ d) = mapR ψ (DynMat.rowReduce md P d) := by
    intro d hw hr hc
    unfold DynMat.rowReduce DynMat.gaussElim
    have := gaussElim_map hom (dyn_opsMap forget md P) (dyn_swaps md P n) (m := d) ⟨hw, hr, hc⟩
    change ((DynMat.ops md P).gaussElim d.rows d.cols (ψ d)).bind _ = _
    rw [hr, hc, this]
    exact bind_map fun r _ => rfl
  have hψ : ψ d = ψ d' := by
    simp only [ψ, h1, h2, likeV_iff.1 h3]
  refine likeR_of (φ := ψ) (fun a b e => ?_) ?_
  · obtain ⟨e1, e2, e3⟩ := DynMat.mk.inj e
    exact ⟨e2, e3, likeV_iff.2 e1⟩
  · rw [← key d hw hr hc, ← key d' hw' (h1 ▸ hr) (h2 ▸ hc), hψ]

/-! ## Concrete cases -/

/-- Signs of zeros: `0 - 0 = 0`, `-0 - 0 = -0`, `0 * -1 = -0`, `1 / -∞ = -0`, `√-0 = -0`, `ceil(-1/2) = -0`. -/
example : (0 : SFlt .f32) - 0 = 0 ∧ (-0 : SFlt .f32) - 0 = -0 ∧ (0 : SFlt .f32) * -1 = -0 ∧
    (1 : SFlt .f32) / .inf true = -0 ∧ SFlt.sqrt (-0 : SFlt .f32) = -0 ∧
    SFlt.ceil (.num true (1 / 2) : SFlt .f32) = -0 ∧ (0 : SFlt .f32) ≠ -0 := by decide +kernel

/-- A product that underflows keeps its sign. -/
example : (.num true (1 / 2 ^ 100) * .num false (1 / 2 ^ 100) : SFlt .f32) = -0 := by decide +kernel

/-- `1 / 0` and `1 / -0`. -/
example : (1 : SFlt .f32) / 0 = .inf false ∧ (1 : SFlt .f32) / -0 = .inf true := by decide +kernel

/-- A quotient of complex numbers with a zero of either sign. -/
example : Complex.div (⟨1, 0⟩ : Complex (SFlt .f32)) ⟨-0, 1⟩ = ⟨0, -1⟩ ∧
    Complex.div (⟨1, -0⟩ : Complex (SFlt .f32)) ⟨0, 1⟩ = ⟨0, -1⟩ := by decide +kernel

/-- A determinant with zeros of either sign. -/
example : Mat.determinant 3 ([[0, 1, 1], [1, 0, 1], [1, 1, 0]] : List (List (SFlt .f32))) = .ok (1 + 1) ∧
    Mat.determinant 3 ([[-0, 1, 1], [1, 0, 1], [1, 1, -0]] : List (List (SFlt .f32))) = .ok (1 + 1) := by
  decide +kernel

end Verif
