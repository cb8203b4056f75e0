import Verif.Lemmas.Rat

/-!
# C67–C69: rational numbers

`p` is any primitive integer type; `qval x` is the number a fraction denotes.
-/

namespace Verif

open Prim RatM

/-! ## C67: exactness -/

/-- C67 fails in the code: `Rat::new(-128_i8, 5)` panics although `-128/5` is in lowest terms. -/
theorem C67_new_violated : ¬ ∀ n d, i8.InRange n → i8.InRange d → d ≠ 0 →
    ∃ r, RatM.new i8 n d = .ok (some r) := by
  intro h
  obtain ⟨r, h1⟩ := h (-128) 5 (by decide) (by decide) (by decide)
  have h2 : RatM.new i8 (-128) 5 = .panic := by decide
  rw [h2] at h1
  exact absurd h1 (by simp)

/-- C67: `Rat::new` is `None` exactly for a zero denominator, and the value it returns is that of the
fraction; unless one part is the minimum of a signed type it returns one. Missing: fractions with
`MIN`. -/
theorem C67_new_partial (p : Prim) (hb : 2 ≤ p.bits) (n d : Int) (hn : p.InRange n)
    (hd : p.InRange d) :
    (RatM.new p n d = .ok none ↔ d = 0) ∧
    (∀ r, RatM.new p n d = .ok (some r) → RatValid p r ∧ qval r = n / d) ∧
    (d ≠ 0 → NoMin p n → NoMin p d → ∃ r, RatM.new p n d = .ok (some r)) := by
  by_cases h0 : d = 0
  · have e : RatM.new p n d = .ok none := by unfold RatM.new; rw [if_pos h0]
    rw [e]
    exact ⟨⟨fun _ => h0, fun _ => rfl⟩, fun r h => by simp at h, fun h => absurd h0 h⟩
  · have e : RatM.new p n d = (reduce p n d).bind fun r => .ok (some r) := by
      unfold RatM.new; rw [if_neg h0]
    refine ⟨⟨fun h => ?_, fun h => absurd h h0⟩, fun r h => ?_, fun _ m1 m2 => ?_⟩
    · rw [e] at h
      obtain ⟨r, _, h2⟩ := bind_ok h
      simp at h2
    · rw [e] at h
      obtain ⟨r', h1, h2⟩ := bind_ok h
      simp only [Res.ok.injEq, Option.some.injEq] at h2
      subst h2
      rw [← newUnwrap_eq h0] at h1
      obtain ⟨a, _, c⟩ := newUnwrap_val hb hn hd h1
      exact ⟨a, c⟩
    · obtain ⟨r, h⟩ := reduce_ok hb hn hd h0 m1 m2
      exact ⟨r, by rw [e, h]; rfl⟩

/-- C67: in debug builds, every sum, difference, product, quotient and negation that is returned is
exact. -/
theorem C67_debug_exact (p : Prim) (hb : 2 ≤ p.bits) (x y r : RatM) (hx : RatValid p x)
    (hy : RatValid p y) :
    (RatM.add .debug p x y = .ok r → RatValid p r ∧ qval r = qval x + qval y) ∧
    (RatM.sub .debug p x y = .ok r → RatValid p r ∧ qval r = qval x - qval y) ∧
    (RatM.mul .debug p x y = .ok r → RatValid p r ∧ qval r = qval x * qval y) ∧
    (RatM.div .debug p x y = .ok r → RatValid p r ∧ qval y ≠ 0 ∧ qval r = qval x / qval y) ∧
    (RatM.neg .debug p x = .ok r → RatValid p r ∧ qval r = -qval x) := by
  have hx0 : (x.denom : ℚ) ≠ 0 := by exact_mod_cast hx.nonzero
  have hy0 : (y.denom : ℚ) ≠ 0 := by exact_mod_cast hy.nonzero
  refine ⟨fun h => ?_, fun h => ?_, fun h => ?_, fun h => ?_, fun h => ?_⟩
  · obtain ⟨a, ha, h⟩ := bind_ok h
    obtain ⟨b, hb1, h⟩ := bind_ok h
    obtain ⟨n, hn, h⟩ := bind_ok h
    obtain ⟨d, hd, h⟩ := bind_ok h
    obtain ⟨_, rfl⟩ := arith_debug ha
    obtain ⟨_, rfl⟩ := arith_debug hb1
    obtain ⟨rn, rfl⟩ := arith_debug hn
    obtain ⟨rd, rfl⟩ := arith_debug hd
    obtain ⟨v, _, e⟩ := newUnwrap_val hb rn rd h
    refine ⟨v, ?_⟩
    rw [e]
    unfold qval
    push_cast
    field_simp
  · obtain ⟨a, ha, h⟩ := bind_ok h
    obtain ⟨b, hb1, h⟩ := bind_ok h
    obtain ⟨n, hn, h⟩ := bind_ok h
    obtain ⟨d, hd, h⟩ := bind_ok h
    obtain ⟨_, rfl⟩ := arith_debug ha
    obtain ⟨_, rfl⟩ := arith_debug hb1
    obtain ⟨rn, rfl⟩ := arith_debug hn
    obtain ⟨rd, rfl⟩ := arith_debug hd
    obtain ⟨v, _, e⟩ := newUnwrap_val hb rn rd h
    refine ⟨v, ?_⟩
    rw [e]
    unfold qval
    push_cast
    field_simp
  · obtain ⟨n, hn, h⟩ := bind_ok h
    obtain ⟨d, hd, h⟩ := bind_ok h
    obtain ⟨rn, rfl⟩ := arith_debug hn
    obtain ⟨rd, rfl⟩ := arith_debug hd
    obtain ⟨v, _, e⟩ := newUnwrap_val hb rn rd h
    refine ⟨v, ?_⟩
    rw [e]
    unfold qval
    push_cast
    field_simp
  · obtain ⟨n, hn, h⟩ := bind_ok h
    obtain ⟨d, hd, h⟩ := bind_ok h
    obtain ⟨rn, rfl⟩ := arith_debug hn
    obtain ⟨rd, rfl⟩ := arith_debug hd
    obtain ⟨v, h0, e⟩ := newUnwrap_val hb rn rd h
    have hy1 : (y.num : ℚ) ≠ 0 := by
      intro hc
      have : y.num = 0 := by exact_mod_cast hc
      exact h0 (by rw [this, Int.mul_zero])
    refine ⟨v, ?_, ?_⟩
    · unfold qval; exact div_ne_zero hy1 hy0
    · rw [e]
      unfold qval
      push_cast
      field_simp
  · obtain ⟨n, hn, h⟩ := bind_ok h
    obtain ⟨rn, rfl⟩ := arith_debug hn
    simp only [Res.ok.injEq] at h
    subst h
    refine ⟨⟨rn, hx.denom, hx.nonzero⟩, ?_⟩
    unfold qval
    push_cast
    ring

/-- C67: in both builds, the operations succeed and are exact as soon as the products and sums they
form fit the type and are not the minimum of a signed type; division panics for a zero divisor. -/
theorem C67_no_overflow_partial (m : Mode) (p : Prim) (hb : 2 ≤ p.bits) (x y : RatM)
    (hx : RatValid p x) (hy : RatValid p y) :
    (p.InRange (x.num * y.denom) → p.InRange (y.num * x.denom) → p.InRange (x.denom * y.denom) →
      NoMin p (x.denom * y.denom) →
      (p.InRange (x.num * y.denom + y.num * x.denom) →
        NoMin p (x.num * y.denom + y.num * x.denom) →
        ∃ r, RatM.add m p x y = .ok r ∧ RatValid p r ∧ qval r = qval x + qval y) ∧
      (p.InRange (x.num * y.denom - y.num * x.denom) →
        NoMin p (x.num * y.denom - y.num * x.denom) →
        ∃ r, RatM.sub m p x y = .ok r ∧ RatValid p r ∧ qval r = qval x - qval y)) ∧
    (p.InRange (x.num * y.num) → p.InRange (x.denom * y.denom) → NoMin p (x.num * y.num) →
      NoMin p (x.denom * y.denom) →
      ∃ r, RatM.mul m p x y = .ok r ∧ RatValid p r ∧ qval r = qval x * qval y) ∧
    (p.InRange (x.num * y.denom) → p.InRange (x.denom * y.num) → NoMin p (x.num * y.denom) →
      NoMin p (x.denom * y.num) → qval y ≠ 0 →
      ∃ r, RatM.div m p x y = .ok r ∧ RatValid p r ∧ qval r = qval x / qval y) ∧
    (qval y = 0 → RatM.div m p x y = .panic) ∧
    (p.InRange (-x.num) → ∃ r, RatM.neg m p x = .ok r ∧ RatValid p r ∧ qval r = -qval x) := by
  have hx0 : (x.denom : ℚ) ≠ 0 := by exact_mod_cast hx.nonzero
  have hy0 : (y.denom : ℚ) ≠ 0 := by exact_mod_cast hy.nonzero
  have hxy : x.denom * y.denom ≠ 0 := mul_ne_zero hx.nonzero hy.nonzero
  refine ⟨fun h1 h2 h3 h4 => ⟨fun h5 h6 => ?_, fun h5 h6 => ?_⟩, fun h1 h2 h3 h4 => ?_,
    fun h1 h2 h3 h4 h5 => ?_, fun h => ?_, fun h => ?_⟩
  · obtain ⟨r, e1, e2, e3⟩ := newUnwrap_ok hb h5 h3 hxy h6 h4
    refine ⟨r, ?_, e2, ?_⟩
    · unfold RatM.add
      rw [arith_ok m h1, arith_ok m h2, arith_ok m h3]
      simp only [Res.bind]
      rw [arith_ok m h5]
      exact e1
    · rw [e3]; unfold qval; push_cast; field_simp
  · obtain ⟨r, e1, e2, e3⟩ := newUnwrap_ok hb h5 h3 hxy h6 h4
    refine ⟨r, ?_, e2, ?_⟩
    · unfold RatM.sub
      rw [arith_ok m h1, arith_ok m h2, arith_ok m h3]
      simp only [Res.bind]
      rw [arith_ok m h5]
      exact e1
    · rw [e3]; unfold qval; push_cast; field_simp
  · obtain ⟨r, e1, e2, e3⟩ := newUnwrap_ok hb h1 h2 hxy h3 h4
    refine ⟨r, ?_, e2, ?_⟩
    · unfold RatM.mul
      rw [arith_ok m h1, arith_ok m h2]
      exact e1
    · rw [e3]; unfold qval; push_cast; field_simp
  · have hy1 : (y.num : ℚ) ≠ 0 := fun hc => h5 (by unfold qval; rw [hc, zero_div])
    have hy2 : y.num ≠ 0 := fun hc => hy1 (by rw [hc]; rfl)
    obtain ⟨r, e1, e2, e3⟩ := newUnwrap_ok hb h1 h2 (mul_ne_zero hx.nonzero hy2) h3 h4
    refine ⟨r, ?_, e2, ?_⟩
    · unfold RatM.div
      rw [arith_ok m h1, arith_ok m h2]
      exact e1
    · rw [e3]; unfold qval; push_cast; field_simp
  · have hy1 : y.num = 0 := by
      unfold qval at h
      rcases div_eq_zero_iff.mp h with h | h
      · exact_mod_cast h
      · exact absurd h hy0
    have hz : p.InRange 0 := by
      obtain ⟨b1, b2, _⟩ := bounds (p := p) (by omega)
      exact ⟨b1, b2⟩
    unfold RatM.div
    rw [hy1, Int.mul_zero, arith_ok m hz]
    simp only [Res.bind]
    unfold arith
    by_cases hxr : p.InRange (x.num * y.denom)
    · rw [if_pos hxr]; exact newUnwrap_zero _
    · rw [if_neg hxr]
      cases m
      · rfl
      · exact newUnwrap_zero _
  · refine ⟨⟨-x.num, x.denom⟩, ?_, ⟨h, hx.denom, hx.nonzero⟩, ?_⟩
    · unfold RatM.neg; rw [arith_ok m h]; rfl
    · unfold qval; push_cast; ring

example : RatM.new i8 6 4 = .ok (some ⟨3, 2⟩) ∧ RatM.add .debug i8 ⟨1, 6⟩ ⟨1, 4⟩ = .ok ⟨5, 12⟩ ∧
    RatM.div .debug i8 ⟨1, 6⟩ ⟨3, 4⟩ = .ok ⟨2, 9⟩ := by decide
example : RatValid i8 ⟨1, 6⟩ ∧ RatValid i8 ⟨3, 4⟩ :=
  ⟨⟨by decide, by decide, by decide⟩, ⟨by decide, by decide, by decide⟩⟩
example : i8.InRange (1 * 4) ∧ i8.InRange (6 * 3) ∧ NoMin i8 (1 * 4) ∧ NoMin i8 (6 * 3) :=
  ⟨by decide, by decide, fun h => by have := h.2; revert this; decide,
    fun h => by have := h.2; revert this; decide⟩

/-! ## C68: equality -/

/-- C68 fails in the code: `2/4` is not reduced, so `Rat::new(2, 4) != Rat::new(1, 2)`; and the sign
is not canonical, `Rat::new(-3, 2) != Rat::new(3, 2).neg()`. -/
theorem C68_eq_violated :
    (∃ x y, RatM.new i8 2 4 = .ok (some x) ∧ RatM.new i8 1 2 = .ok (some y) ∧ qval x = qval y ∧
      RatM.eq x y = false) ∧
    (∃ x y z, RatM.new i8 (-3) 2 = .ok (some x) ∧ RatM.new i8 3 2 = .ok (some y) ∧
      RatM.neg .debug i8 y = .ok z ∧ qval x = qval z ∧ RatM.eq x z = false) := by
  refine ⟨⟨⟨2, 4⟩, ⟨1, 2⟩, by decide, by decide, ?_, by decide⟩,
    ⟨⟨3, -2⟩, ⟨3, 2⟩, ⟨-3, 2⟩, by decide, by decide, by decide, ?_, by decide⟩⟩ <;>
  · unfold qval; norm_num

/-- C68, the part that holds: `==` fractions have the same value. Fractions of nonnegative integers
whose numerator and denominator do not divide one another are stored in lowest terms, so that `==`
holds exactly when the values are equal. Missing: fractions in which one part divides the other, and
negative ones. -/
theorem C68_eq_partial (p : Prim) (hb : 2 ≤ p.bits) :
    (∀ x y, RatM.eq x y = true → qval x = qval y) ∧
    ∀ n d n' d' x y, p.InRange n → p.InRange d → p.InRange n' → p.InRange d' → 0 ≤ n → 0 < d →
      0 ≤ n' → 0 < d' → ¬ d ∣ n → ¬ n ∣ d → ¬ d' ∣ n' → ¬ n' ∣ d' →
      RatM.new p n d = .ok (some x) → RatM.new p n' d' = .ok (some y) →
      Int.gcd x.num x.denom = 1 ∧ 0 < x.denom ∧
      (RatM.eq x y = true ↔ (n : ℚ) / d = n' / d') := by
  have heq : ∀ x y : RatM, RatM.eq x y = true ↔ x = y := fun x y => by
    unfold RatM.eq; rw [decide_eq_true_iff]
  refine ⟨fun x y h => by rw [(heq x y).mp h], ?_⟩
  have key : ∀ n d x, p.InRange n → p.InRange d → 0 ≤ n → 0 < d → ¬ d ∣ n → ¬ n ∣ d →
      RatM.new p n d = .ok (some x) →
      Int.gcd x.num x.denom = 1 ∧ 0 ≤ x.num ∧ 0 < x.denom ∧ qval x = n / d := by
    intro n d x hn hd p1 p2 d1 d2 h
    have h0 : d ≠ 0 := by omega
    unfold RatM.new at h
    rw [if_neg h0] at h
    obtain ⟨r, h1, h2⟩ := bind_ok h
    simp only [Res.ok.injEq, Option.some.injEq] at h2
    subst h2
    rcases reduce_cases hb hn hd h0 with h3 | ⟨r', h3, h4, h5, h6⟩
    · rw [h3] at h1; exact absurd h1 (by simp)
    · rw [h3, Res.ok.injEq] at h1
      subst h1
      obtain ⟨s1, s2⟩ := h6 p1 p2.le
      exact ⟨h5 d1 d2, s1, lt_of_le_of_ne s2 (Ne.symm h4.valid.nonzero), h4.val h0⟩
  intro n d n' d' x y r1 r2 r3 r4 p1 p2 p3 p4 d1 d2 d3 d4 hx hy
  obtain ⟨g1, s1, t1, v1⟩ := key n d x r1 r2 p1 p2 d1 d2 hx
  obtain ⟨g2, s2, t2, v2⟩ := key n' d' y r3 r4 p3 p4 d3 d4 hy
  refine ⟨g1, t1, ?_⟩
  rw [heq, ← v1, ← v2]
  constructor
  · intro h; rw [h]
  · intro h
    unfold qval at h
    have q1 : (x.denom : ℚ) ≠ 0 := by exact_mod_cast t1.ne'
    have q2 : (y.denom : ℚ) ≠ 0 := by exact_mod_cast t2.ne'
    rw [div_eq_div_iff q1 q2] at h
    have h : x.num * y.denom = y.num * x.denom := by exact_mod_cast h
    have e1 : x.denom ∣ y.denom := by
      have : x.denom ∣ x.num * y.denom := ⟨y.num, by rw [h, Int.mul_comm]⟩
      exact Int.dvd_of_dvd_mul_right_of_gcd_one this (by rw [Int.gcd_comm]; exact g1)
    have e2 : y.denom ∣ x.denom := by
      have : y.denom ∣ y.num * x.denom := ⟨x.num, by rw [← h, Int.mul_comm]⟩
      exact Int.dvd_of_dvd_mul_right_of_gcd_one this (by rw [Int.gcd_comm]; exact g2)
    have e3 : x.denom = y.denom := Int.dvd_antisymm t1.le t2.le e1 e2
    rw [e3] at h
    have e4 : x.num = y.num := Int.eq_of_mul_eq_mul_right t2.ne' h
    cases x; cases y
    simp only at e3 e4
    rw [e3, e4]

example : RatM.new u8 12 8 = .ok (some ⟨3, 2⟩) ∧ RatM.new u8 60 40 = .ok (some ⟨3, 2⟩) ∧
    ¬ (8 : Int) ∣ 12 ∧ ¬ (12 : Int) ∣ 8 := by decide

/-! ## C69: floor, ceil, round -/

/-- C69 fails in the code: `floor(-3/2) = -1`, `ceil(4/2) = 3`, and `round(-7/4) = -1`. -/
theorem C69_real_violated :
    (¬ ∀ x r, RatValid i8 x → 0 < x.denom → RatM.floor .debug i8 x = .ok r →
      qval r = ⌊qval x⌋) ∧
    (¬ ∀ x r, RatValid i8 x → 0 < x.denom → RatM.ceil .debug i8 x = .ok r →
      qval r = ⌈qval x⌉) ∧
    (¬ ∀ x r, RatValid i8 x → 0 < x.denom → RatM.round .debug i8 x = .ok r →
      |qval r - qval x| ≤ 1 / 2) := by
  refine ⟨fun h => ?_, fun h => ?_, fun h => ?_⟩
  · have := h ⟨-3, 2⟩ ⟨-1, 1⟩ ⟨by decide, by decide, by decide⟩ (by decide) (by decide)
    unfold qval at this
    norm_num at this
  · have := h ⟨4, 2⟩ ⟨3, 1⟩ ⟨by decide, by decide, by decide⟩ (by decide) (by decide)
    unfold qval at this
    norm_num at this
  · have := h ⟨-7, 4⟩ ⟨-1, 1⟩ ⟨by decide, by decide, by decide⟩ (by decide) (by decide)
    unfold qval at this
    norm_num [abs_le] at this

theorem newUnwrap_int (p : Prim) (q : Int) : RatM.newUnwrap p q 1 = .ok ⟨q, 1⟩ := by
  rw [newUnwrap_eq (by decide)]
  unfold reduce
  by_cases h : q = 0
  · rw [if_pos h, h]; rfl
  · rw [if_neg h]
    split
    · rfl
    · rw [rem_ok (by decide) (fun h => by omega)]
      simp only [Res.bind]
      rw [if_pos (Int.tmod_one q)]

theorem qval_int (q : Int) : qval ⟨q, 1⟩ = q := by unfold qval; simp

theorem tmod_bounds (a b : Int) (hb : b ≠ 0) :
    (a.tmod b).natAbs < b.natAbs ∧ (a.tmod b).natAbs ≤ a.natAbs ∧
    (0 ≤ a → 0 ≤ a.tmod b) ∧ (a ≤ 0 → a.tmod b ≤ 0) := by
  rw [Int.natAbs_tmod]
  refine ⟨Nat.mod_lt _ (by omega), Nat.mod_le _ _, fun h => Int.tmod_nonneg b h, fun h => ?_⟩
  have := Int.tmod_nonneg b (show 0 ≤ -a by omega)
  rw [Int.neg_tmod] at this
  omega

/-- C69, `floor`: the code drops the fraction toward zero, which is the floor of integers and of
nonnegative numbers. Missing: negative numbers that are not integers (where it is wrong). -/
theorem C69_floor_partial (m : Mode) (p : Prim) (hb : 2 ≤ p.bits) (x : RatM) (hx : RatValid p x)
    (hm : NoMin p x.num) :
    ∃ r, RatM.floor m p x = .ok r ∧ qval r = truncQ (qval x) ∧
      (0 ≤ qval x ∨ (∃ n : Int, qval x = n) → qval r = ⌊qval x⌋) := by
  have h0 := hx.nonzero
  have hxn := hx.num
  obtain ⟨t1, t2, t3, t4⟩ := tmod_bounds x.num x.denom h0
  have e : x.num - x.num.tmod x.denom = x.num.tdiv x.denom * x.denom := by
    have := Int.tmod_add_mul_tdiv x.num x.denom
    linarith
  obtain ⟨b1, b2, _⟩ := bounds (p := p) (by omega)
  refine ⟨⟨x.num.tdiv x.denom, 1⟩, ?_, ?_, fun h => ?_⟩
  · unfold RatM.floor
    rw [rem_ok h0 (fun h => hm ⟨h.1, h.2.1⟩)]
    simp only [Res.bind]
    rw [arith_ok m (by
      unfold InRange at *
      rcases Int.le_total 0 x.num with h | h
      · have := t3 h; omega
      · have := t4 h; omega)]
    simp only
    rw [div_ok h0, e, Int.mul_tdiv_cancel _ h0]
    · simp only
      exact newUnwrap_int p _
    · rintro ⟨hs, h1, _⟩
      have hne : x.num ≠ p.minV := fun hc => hm ⟨hs, hc⟩
      unfold InRange at hxn
      rcases Int.le_total 0 x.num with h | h
      · have := t3 h; have := minV_lt hb hs; omega
      · have := t4 h; omega
  · rw [qval_int]
    congr 1
    exact (Fixed.trunc_div x.num h0).symm
  · rw [qval_int]
    congr 1
    rw [← Fixed.trunc_div x.num h0]
    change truncQ (qval x) = _
    unfold truncQ
    rcases h with h | ⟨n, h⟩
    · rw [if_pos h]
    · rw [h]; simp

/-- C69, `ceil`: right for nonnegative numbers that are not integers when the rounded-up numerator
fits the type. Missing: integers and negative numbers (where it is wrong). -/
theorem C69_ceil_partial (m : Mode) (p : Prim) (hb : 2 ≤ p.bits) (x : RatM) (hx : RatValid p x)
    (h1 : 0 ≤ x.num) (h2 : 0 < x.denom) (h3 : ¬ x.denom ∣ x.num)
    (hr : p.InRange (⌈qval x⌉ * x.denom)) :
    ∃ r, RatM.ceil m p x = .ok r ∧ qval r = ⌈qval x⌉ := by
  have h0 := hx.nonzero
  have hxd := hx.denom
  obtain ⟨t1, t2, t3, t4⟩ := tmod_bounds x.num x.denom h0
  obtain ⟨b1, b2, _⟩ := bounds (p := p) (by omega)
  have hc : ⌈qval x⌉ = x.num.tdiv x.denom + 1 := by
    obtain ⟨k, hk⟩ := Int.eq_ofNat_of_zero_le h2.le
    have e1 : qval x = -(((-x.num : Int) : ℚ) / (k : ℚ)) := by
      unfold qval; rw [hk]; push_cast; ring
    rw [e1, Int.ceil_neg, Rat.floor_intCast_div_natCast, Int.tdiv_eq_ediv_of_nonneg h1, ← hk,
      Int.neg_ediv, if_neg h3, Int.sign_eq_one_of_pos h2]
    omega
  have e : x.num + (x.denom - x.num.tmod x.denom) = ⌈qval x⌉ * x.denom := by
    have := Int.tmod_add_mul_tdiv x.num x.denom
    rw [hc]
    linarith
  have t3' := t3 h1
  refine ⟨⟨⌈qval x⌉, 1⟩, ?_, qval_int _⟩
  unfold RatM.ceil
  rw [rem_ok h0 (fun h => by omega)]
  simp only [Res.bind]
  rw [arith_ok m (by unfold InRange at *; omega)]
  simp only
  rw [e, arith_ok m hr]
  simp only
  rw [div_ok h0 (fun h => by omega), Int.mul_tdiv_cancel _ h0]
  simp only
  exact newUnwrap_int p _

/-- C69, `round`: a nearest integer for nonnegative numbers. Missing: negative numbers (where it is
wrong). -/
theorem C69_round_partial (m : Mode) (p : Prim) (hb : 2 ≤ p.bits) (x : RatM) (hx : RatValid p x)
    (h1 : 0 ≤ x.num) (h2 : 0 < x.denom) :
    ∃ r n, RatM.round m p x = .ok r ∧ qval r = (n : Int) ∧ |qval r - qval x| ≤ 1 / 2 := by
  have h0 := hx.nonzero
  have hxd := hx.denom
  have hxn := hx.num
  obtain ⟨t1, t2, t3, t4⟩ := tmod_bounds x.num x.denom h0
  have t3' := t3 h1
  obtain ⟨b1, b2, _⟩ := bounds (p := p) (by omega)
  have ed := Int.tmod_add_mul_tdiv x.num x.denom
  have hq0 : 0 ≤ x.num.tdiv x.denom := Int.tdiv_nonneg h1 h2.le
  have hhalf : x.denom.tdiv 2 = x.denom / 2 := Int.tdiv_eq_ediv_of_nonneg h2.le
  have hin : p.InRange (x.num.tdiv x.denom +
      if x.num.tmod x.denom > x.denom / 2 then 1 else 0) := by
    unfold InRange at *
    split
    · rename_i h
      have h3 : 3 ≤ x.denom := by omega
      have : 3 * x.num.tdiv x.denom ≤ x.denom * x.num.tdiv x.denom :=
        Int.mul_le_mul_of_nonneg_right h3 hq0
      omega
    · have : 1 * x.num.tdiv x.denom ≤ x.denom * x.num.tdiv x.denom :=
        Int.mul_le_mul_of_nonneg_right (by omega) hq0
      omega
  refine ⟨⟨x.num.tdiv x.denom + if x.num.tmod x.denom > x.denom / 2 then 1 else 0, 1⟩, _, ?_,
    qval_int _, ?_⟩
  · unfold RatM.round
    rw [rem_ok h0 (fun h => by omega)]
    simp only [Res.bind]
    rw [div_ok (by decide) (fun h => by omega)]
    simp only
    rw [div_ok h0 (fun h => by omega)]
    simp only
    rw [hhalf, arith_ok m hin]
    simp only
    exact newUnwrap_int p _
  · rw [qval_int]
    unfold qval
    have hq : (0 : ℚ) < x.denom := by exact_mod_cast h2
    have key : |2 * ((x.num.tdiv x.denom + if x.num.tmod x.denom > x.denom / 2 then 1 else 0) *
        x.denom - x.num)| ≤ x.denom := by
      rw [abs_le, Int.add_mul]
      have ed' : x.num.tdiv x.denom * x.denom = x.num - x.num.tmod x.denom := by linarith
      rw [ed']
      split <;> omega
    generalize (x.num.tdiv x.denom + if x.num.tmod x.denom > x.denom / 2 then 1 else 0) = n at key
    have e : (n : ℚ) - x.num / x.denom = (2 * (n * x.denom - x.num) : Int) / (2 * x.denom) := by
      push_cast; field_simp
    have key' : |((2 * (n * x.denom - x.num) : Int) : ℚ)| ≤ x.denom := by exact_mod_cast key
    rw [e, abs_div, abs_of_pos (show (0 : ℚ) < 2 * x.denom by linarith),
      div_le_div_iff₀ (by linarith) (by norm_num)]
    linarith

example : RatM.floor .debug i8 ⟨7, 2⟩ = .ok ⟨3, 1⟩ ∧ RatM.ceil .debug i8 ⟨7, 2⟩ = .ok ⟨4, 1⟩ ∧
    RatM.round .debug i8 ⟨7, 4⟩ = .ok ⟨2, 1⟩ ∧ RatM.round .debug i8 ⟨5, 4⟩ = .ok ⟨1, 1⟩ ∧
    i8.InRange (4 * 2) ∧ ¬ (2 : Int) ∣ 7 := by decide

end Verif
