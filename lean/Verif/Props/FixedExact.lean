import Verif.Lemmas.Rat
import Verif.Props.Fixed
import Verif.Props.Signs

/-!
# C65, C66, C98, C99, exactly: rounding, signs and one of `Fixed` and `Rat` for all parameters

The theorems cover the types in which 1 or 2 is not representable as well.
-/

namespace Verif

open Prim

/-- `o` is what becomes of the integer `z` in a variable of the type: itself if it fits; otherwise a
panic in debug builds, and the value congruent to it modulo `2^bits` in release builds. -/
def Stores (m : Mode) (p : Prim) (z : Int) (o : Res Int) : Prop :=
  (p.InRange z ∧ o = .ok z) ∨
  (¬ p.InRange z ∧ m = .debug ∧ o = .panic) ∨
  (¬ p.InRange z ∧ m = .release ∧ ∃ r, o = .ok r ∧ p.InRange r ∧ (2 ^ p.bits : Int) ∣ r - z)

theorem stores_arith (m : Mode) {p : Prim} (hb : 0 < p.bits) (z : Int) :
    Stores m p z (arith m p z) := by
  by_cases h : p.InRange z
  · exact .inl ⟨h, arith_ok m h⟩
  · unfold arith
    rw [if_neg h]
    cases m
    · exact .inr (.inl ⟨h, rfl, rfl⟩)
    · exact .inr (.inr ⟨h, rfl, _, rfl, wrap_spec hb z⟩)

theorem arith_release {p : Prim} (hb : 0 < p.bits) (z : Int) :
    arith .release p z = .ok (p.wrap z) := by
  unfold arith
  split
  · rename_i h; rw [wrap_eq hb h]
  · rfl

theorem wrap_congr {p : Prim} (hb : 0 < p.bits) {a b : Int} (h : (2 ^ p.bits : Int) ∣ a - b) :
    p.wrap a = p.wrap b := by
  refine eq_of_dvd hb (wrap_spec hb a).1 (wrap_spec hb b).1 ?_
  have h1 := dvd_add (dvd_add (wrap_spec hb a).2 h) (dvd_neg.mpr (wrap_spec hb b).2)
  have e : p.wrap a - a + (a - b) + -(p.wrap b - b) = p.wrap a - p.wrap b := by ring
  rwa [e] at h1

/-- All bits but the sign are fractional: 1 is not representable. -/
def NoOne (p : Prim) (N : Nat) : Prop := p.signed = true ∧ N + 1 = p.bits

instance (p : Prim) (N : Nat) : Decidable (NoOne p N) := inferInstanceAs (Decidable (_ ∧ _))

theorem one_le_maxV {p : Prim} {N : Nat} (hN : N < p.bits) (h : ¬ NoOne p N) :
    (2 : Int) ^ N ≤ p.maxV := by
  rcases Fixed.one_cases hN with h1 | ⟨h1, h2⟩
  · exact h1
  · exact absurd ⟨h1, by omega⟩ h

theorem noOne_bounds {p : Prim} {N : Nat} (h : NoOne p N) :
    p.minV = -2 ^ N ∧ p.maxV = 2 ^ N - 1 ∧ (2 ^ p.bits : Int) = 2 ^ N + 2 ^ N := by
  have hb : 0 < p.bits := by have := h.2; omega
  have hn : N = p.bits - 1 := by have := h.2; omega
  unfold minV maxV
  rw [if_pos h.1, if_pos h.1, ← hn, two_pow_pred hb, ← hn]
  refine ⟨rfl, rfl, by ring⟩

theorem one_noOne (m : Mode) {p : Prim} {N : Nat} (h : NoOne p N) :
    shl m p 1 N = .ok (-2 ^ N) := by
  have hN : N < p.bits := by have := h.2; omega
  have hb : 0 < p.bits := by omega
  obtain ⟨b1, b2, b3⟩ := noOne_bounds h
  have hp : (0 : Int) < 2 ^ N := by positivity
  unfold shl
  rw [if_pos hN, Int.one_mul]
  congr 1
  refine eq_of_dvd hb (wrap_spec hb _).1 ⟨by omega, by omega⟩ ?_
  have h1 := dvd_add (wrap_spec hb (2 ^ N)).2 (show (2 ^ p.bits : Int) ∣ 2 ^ N + 2 ^ N by rw [b3])
  have e : p.wrap (2 ^ N) - 2 ^ N + (2 ^ N + 2 ^ N) = p.wrap (2 ^ N) - -2 ^ N := by ring
  rwa [e] at h1

theorem isWhole_exact (m : Mode) (p : Prim) (N : Nat) (hN : N < p.bits) (x : Int)
    (hx : p.InRange x) : Fixed.isWhole m p N x =
      if m = .debug ∧ NoOne p N then .panic else .ok (decide ((2 ^ N : Int) ∣ x)) := by
  by_cases h : NoOne p N
  · obtain ⟨b1, b2, b3⟩ := noOne_bounds h
    have hb : 0 < p.bits := by omega
    have hp : (0 : Int) < 2 ^ N := by positivity
    unfold Fixed.isWhole Fixed.mask
    rw [one_noOne m h]
    simp only [Res.bind]
    cases m
    · rw [if_pos ⟨rfl, h⟩]
      unfold arith
      rw [if_neg (by unfold InRange; omega)]
    · rw [if_neg (by simp), arith_release hb]
      simp only
      have e : p.wrap (-2 ^ N - 1) = 2 ^ N - 1 := by
        rw [wrap_congr hb (b := 2 ^ N - 1) ?_, wrap_eq hb ⟨by omega, by omega⟩]
        rw [b3]
        exact ⟨-1, by ring⟩
      rw [e, decide_eq_decide.mpr (Fixed.and_not_mask hb hN hx)]
  · rw [if_neg (fun hc => h hc.2), isWhole_spec m p N hN (one_le_maxV hN h) x hx]

theorem ceil_not_dvd {N : Nat} {x : Int} (h : ¬ (2 ^ N : Int) ∣ x) :
    ⌈fval N x⌉ = x / 2 ^ N + 1 := by
  have hp : (0 : Int) < 2 ^ N := by positivity
  rw [Fixed.ceil_fval, Int.neg_ediv, if_neg h, Int.sign_eq_one_of_pos hp]
  omega

theorem ceil_dvd {N : Nat} {x : Int} (h : (2 ^ N : Int) ∣ x) : ⌈fval N x⌉ * 2 ^ N = x := by
  have hp : (0 : Int) < 2 ^ N := by positivity
  obtain ⟨k, rfl⟩ := h
  rw [Fixed.ceil_fval, ← Int.mul_neg, Int.mul_ediv_cancel_left _ hp.ne', Int.neg_neg, Int.mul_comm]

theorem ceil_exact (m : Mode) (p : Prim) (N : Nat) (hN : N < p.bits) (x : Int)
    (hx : p.InRange x) : Fixed.ceil m p N x =
      if m = .debug ∧ NoOne p N then .panic else arith m p (⌈fval N x⌉ * 2 ^ N) := by
  have hb : 0 < p.bits := by omega
  unfold Fixed.ceil
  rw [isWhole_exact m p N hN x hx]
  by_cases hd : m = .debug ∧ NoOne p N
  · rw [if_pos hd, if_pos hd]; rfl
  · rw [if_neg hd, if_neg hd]
    simp only [Res.bind]
    rw [Fixed.floor_spec m hN hx]
    by_cases h : (2 ^ N : Int) ∣ x
    · rw [decide_eq_true h, if_pos rfl, ceil_dvd h, arith_ok m hx, Int.ediv_mul_cancel h]
    · rw [decide_eq_false h, if_neg (by simp)]
      simp only
      unfold Fixed.one Fixed.add
      rw [ceil_not_dvd h, Int.add_mul, Int.one_mul]
      by_cases h1 : NoOne p N
      · rw [one_noOne m h1]
        simp only
        cases m
        · exact absurd ⟨rfl, h1⟩ hd
        · rw [arith_release hb, arith_release hb]
          congr 1
          apply wrap_congr hb
          rw [(noOne_bounds h1).2.2]
          exact ⟨-1, by ring⟩
      · rw [Fixed.maxV_pow hN (one_le_maxV hN h1)]

/-- C65, `ceil` and `is_whole` exactly. Where 1 is not representable, debug builds panic; otherwise
`is_whole` is right, and `ceil` gives the least integer not below the number, put into the type. -/
theorem C65_ceil_exact_partial (m : Mode) (p : Prim) (N : Nat) (hN : N < p.bits) (x : Int)
    (hx : p.InRange x) :
    (m = .debug ∧ NoOne p N →
      Fixed.ceil m p N x = .panic ∧ Fixed.isWhole m p N x = .panic) ∧
    (¬ (m = .debug ∧ NoOne p N) →
      Stores m p (⌈fval N x⌉ * 2 ^ N) (Fixed.ceil m p N x) ∧
      ∃ b, Fixed.isWhole m p N x = .ok b ∧ (b = true ↔ ∃ n : Int, fval N x = n)) := by
  rw [ceil_exact m p N hN x hx, isWhole_exact m p N hN x hx]
  refine ⟨fun h => by rw [if_pos h, if_pos h]; exact ⟨rfl, rfl⟩, fun h => ?_⟩
  rw [if_neg h, if_neg h]
  refine ⟨stores_arith m (by omega) _, _, rfl, ?_⟩
  rw [decide_eq_true_iff]
  constructor
  · rintro ⟨k, rfl⟩
    exact ⟨k, by rw [Int.mul_comm, Fixed.fval_scaled]⟩
  · rintro ⟨n, h⟩
    rw [← Fixed.fval_scaled (N := N) n, Fixed.fval_inj] at h
    exact ⟨n, by rw [h, Int.mul_comm]⟩

-- with 7 fractional bits in an `i8`: `ceil(-1/128)` is 0, `ceil(1/128) = 1` wraps to -1
example : NoOne i8 7 ∧ Fixed.ceil .release i8 7 (-1) = .ok 0 ∧
    Fixed.ceil .release i8 7 1 = .ok (-128) ∧ Fixed.ceil .debug i8 7 (-1) = .panic ∧
    Fixed.ceil .debug i8 2 127 = .panic ∧ ¬ NoOne i8 2 := by decide

/-! ## C66 -/

theorem round_tail (m : Mode) (p : Prim) (N : Nat) (hb : 2 ≤ p.bits) (hN : N + 1 < p.bits)
    (x : Int) (hx : p.InRange x) :
    ((Fixed.fract m p N x).bind fun f =>
      (if f ≥ 0 then .ok f else Fixed.sub m p (2 ^ N) f).bind fun f =>
      if f > 0 then Fixed.ceil m p N x else Fixed.floor m p N x)
    = arith m p (⌈fval N x⌉ * 2 ^ N) := by
  have hp : (0 : Int) < 2 ^ N := by positivity
  have hmod : |x.tmod (2 ^ N)| < 2 ^ N := by
    rw [Int.abs_eq_natAbs, Int.natAbs_tmod]
    have h := Nat.mod_lt x.natAbs (show 0 < (2 ^ N : Int).natAbs by omega)
    omega
  rw [abs_lt] at hmod
  obtain ⟨b1, b2, b3⟩ := bounds (p := p) (by omega)
  have hmax : (2 : Int) ^ N + 2 ^ N ≤ p.maxV + 1 := by
    have h1 : (2 : Int) ^ N + 2 ^ N = 2 ^ (N + 1) := by rw [pow_succ]; ring
    have h2 : (2 : Int) ^ (N + 1) ≤ 2 ^ (p.bits - 1) :=
      pow_le_pow_right₀ (by norm_num) (by omega)
    have h3 := two_pow_pred (p := p) (by omega)
    have h4 : (0 : Int) < 2 ^ (p.bits - 1) := by positivity
    unfold maxV
    split <;> omega
  rw [Fixed.fract_spec m hb (by omega) x]
  simp only [Res.bind]
  have hcase : ∃ f, (if x.tmod (2 ^ N) ≥ 0 then Res.ok (x.tmod (2 ^ N))
      else Fixed.sub m p (2 ^ N) (x.tmod (2 ^ N))) = .ok f ∧
      ((2 ^ N : Int) ∣ x → f = 0) ∧ (¬ (2 ^ N : Int) ∣ x → 0 < f) := by
    by_cases h : x.tmod (2 ^ N) ≥ 0
    · refine ⟨_, if_pos h, fun hd => Int.tmod_eq_zero_of_dvd hd, fun hd => ?_⟩
      have : x.tmod (2 ^ N) ≠ 0 := fun hc => hd (Int.dvd_of_tmod_eq_zero hc)
      omega
    · rw [if_neg h]
      unfold Fixed.sub
      refine ⟨_, arith_ok m ⟨by omega, by omega⟩, fun hd => ?_, fun _ => by omega⟩
      have := Int.tmod_eq_zero_of_dvd hd
      omega
  obtain ⟨f, hf, hf0, hf1⟩ := hcase
  rw [hf]
  simp only
  by_cases hd : (2 ^ N : Int) ∣ x
  · rw [hf0 hd, if_neg (by omega), Fixed.floor_spec m (by omega) hx, ceil_dvd hd, arith_ok m hx,
      Int.ediv_mul_cancel hd]
  · rw [if_pos (hf1 hd), ceil_exact m p N (by omega) x hx,
      if_neg (fun hc => by have := hc.2.2; omega)]

/-- C66, exactly, for all parameters: `round` panics if there is at most one bit that is not
fractional, and in debug builds of signed types if there are two (then 2 is not representable);
otherwise it gives the least integer not below the number, put into the type. -/
theorem C66_round_exact_partial (m : Mode) (p : Prim) (N : Nat) (hb : 2 ≤ p.bits)
    (hN : N < p.bits) (x : Int) (hx : p.InRange x) :
    (N + 1 = p.bits ∨ m = .debug ∧ p.signed = true ∧ N + 2 = p.bits →
      Fixed.round m p N x = .panic) ∧
    (¬ (N + 1 = p.bits ∨ m = .debug ∧ p.signed = true ∧ N + 2 = p.bits) →
      Stores m p (⌈fval N x⌉ * 2 ^ N) (Fixed.round m p N x)) := by
  have hb0 : 0 < p.bits := by omega
  have hp : (0 : Int) < 2 ^ N := by positivity
  obtain ⟨b1, b2, b3⟩ := bounds hb0
  have hpred := two_pow_pred hb0
  constructor
  · rintro (h | ⟨rfl, hs, h⟩)
    · have hn : p.bits - 1 = N := by omega
      rw [hn] at hpred
      by_cases hs : p.signed = true
      · have h1 : NoOne p N := ⟨hs, h⟩
        obtain ⟨c1, c2, c3⟩ := noOne_bounds h1
        unfold Fixed.round Fixed.one
        rw [one_noOne m h1]
        simp only [Res.bind]
        unfold Fixed.add
        cases m
        · unfold arith
          rw [if_neg (by unfold InRange; omega)]
        · rw [arith_release hb0]
          simp only
          have : p.wrap (-2 ^ N + -2 ^ N) = 0 := by
            rw [wrap_congr hb0 (b := 0) ⟨-1, by rw [c3]; ring⟩, wrap_eq hb0 ⟨by omega, by omega⟩]
          rw [this]
          rfl
      · have h1 : ¬ NoOne p N := fun hc => hs hc.1
        have c1 : p.maxV = 2 ^ p.bits - 1 := by unfold maxV; rw [if_neg hs]
        unfold Fixed.round Fixed.one
        rw [Fixed.maxV_pow hN (one_le_maxV hN h1)]
        simp only [Res.bind]
        unfold Fixed.add
        cases m
        · unfold arith
          rw [if_neg (by unfold InRange; omega)]
        · rw [arith_release hb0]
          simp only
          have : p.wrap (2 ^ N + 2 ^ N) = 0 := by
            rw [wrap_congr hb0 (b := 0) ⟨1, by rw [hpred]; ring⟩, wrap_eq hb0 ⟨by omega, by omega⟩]
          rw [this]
          rfl
    · have h1 : ¬ NoOne p N := fun hc => by have := hc.2; omega
      have c1 : p.maxV = 2 ^ (p.bits - 1) - 1 := by unfold maxV; rw [if_pos hs]
      have c2 : (2 : Int) ^ (p.bits - 1) = 2 ^ N + 2 ^ N := by
        rw [show p.bits - 1 = N + 1 by omega, pow_succ]; ring
      unfold Fixed.round Fixed.one
      rw [Fixed.maxV_pow hN (one_le_maxV hN h1)]
      simp only [Res.bind]
      unfold Fixed.add arith
      rw [if_neg (by unfold InRange; omega)]
  · intro h
    have hN1 : N + 1 < p.bits := by omega
    have h1 : ¬ NoOne p N := fun hc => by have := hc.2; omega
    have hone := one_le_maxV hN h1
    have key : Fixed.round m p N x = arith m p (⌈fval N x⌉ * 2 ^ N) := by
      rw [← round_tail m p N hb hN1 x hx]
      unfold Fixed.round Fixed.one
      rw [Fixed.maxV_pow hN hone]
      simp only [Res.bind]
      unfold Fixed.add
      by_cases hr : (2 : Int) ^ N + 2 ^ N ≤ p.maxV
      · rw [arith_ok m ⟨by omega, hr⟩]
        simp only
        have hhalf : Fixed.div p (2 ^ N) (2 ^ N + 2 ^ N) = .ok 0 := by
          unfold Fixed.div Prim.div
          rw [if_neg (by omega), if_neg (by omega), Int.tdiv_eq_ediv_of_nonneg (by omega),
            Int.ediv_eq_zero_of_lt (by omega) (by omega)]
        rw [hhalf]
      · have hs : p.signed = true ∧ N + 2 = p.bits := by
          by_contra hc
          apply hr
          have e : (2 : Int) ^ N + 2 ^ N = 2 ^ (N + 1) := by rw [pow_succ]; ring
          unfold maxV
          by_cases hs : p.signed = true
          · have hn : N + 2 ≠ p.bits := fun h => hc ⟨hs, h⟩
            rw [if_pos hs, e]
            have : (2 : Int) ^ (N + 1) < 2 ^ (p.bits - 1) :=
              pow_lt_pow_right₀ (by norm_num) (by omega)
            omega
          · rw [if_neg hs, e]
            have : (2 : Int) ^ (N + 1) < 2 ^ p.bits := pow_lt_pow_right₀ (by norm_num) hN1
            omega
        have c0 : p.minV = -2 ^ (p.bits - 1) := by unfold minV; rw [if_pos hs.1]
        have c1 : p.maxV = 2 ^ (p.bits - 1) - 1 := by unfold maxV; rw [if_pos hs.1]
        have c2 : (2 : Int) ^ (p.bits - 1) = 2 ^ N + 2 ^ N := by
          rw [show p.bits - 1 = N + 1 by omega, pow_succ]; ring
        cases m
        · exact absurd (.inr ⟨rfl, hs⟩) h
        · rw [arith_release hb0]
          simp only
          have hw : p.wrap (2 ^ N + 2 ^ N) = -(2 ^ N + 2 ^ N) := by
            rw [wrap_congr hb0 (b := -(2 ^ N + 2 ^ N)) ⟨1, by rw [hpred, c2]; ring⟩,
              wrap_eq hb0 ⟨by omega, by omega⟩]
          have hhalf : Fixed.div p (2 ^ N) (-(2 ^ N + 2 ^ N)) = .ok 0 := by
            unfold Fixed.div Prim.div
            rw [if_neg (by omega), if_neg (by omega), Int.tdiv_neg,
              Int.tdiv_eq_ediv_of_nonneg (by omega),
              Int.ediv_eq_zero_of_lt (by omega) (by omega)]
            rfl
          rw [hw, hhalf]
    rw [key]
    exact stores_arith m hb0 _

example : Fixed.round .release i8 6 1 = .ok 64 ∧ Fixed.round .debug i8 6 1 = .panic ∧
    Fixed.round .release i8 7 1 = .panic ∧ Fixed.round .release u8 7 1 = .panic ∧
    Fixed.round .release i8 2 127 = .ok (-128) ∧ Fixed.round .debug i8 2 127 = .panic ∧
    Fixed.round .debug i8 2 (-7) = .ok (-4) := by decide

/-! ## C63 and C64 -/

/-- C63, results that do not fit: `+`, `-` and unary `-` panic in debug builds and wrap around in
release builds; `from_val` wraps around in both. -/
theorem C63_out_of_range (m : Mode) (p : Prim) (N : Nat) (hN : N < p.bits) (x y : Int) :
    Stores m p (x + y) (Fixed.add m p x y) ∧ Stores m p (x - y) (Fixed.sub m p x y) ∧
    Stores m p (-x) (Fixed.neg m p x) ∧
    ∃ r, Fixed.fromVal m p N x = .ok r ∧ p.InRange r ∧ (2 ^ p.bits : Int) ∣ r - x * 2 ^ N := by
  have hb : 0 < p.bits := by omega
  refine ⟨stores_arith m hb _, stores_arith m hb _, stores_arith m hb _, _, ?_, wrap_spec hb _⟩
  unfold Fixed.fromVal shl
  rw [if_pos hN]

example : Fixed.add .debug i8 100 100 = .panic ∧ Fixed.add .release i8 100 100 = .ok (-56) ∧
    Fixed.fromVal .debug i8 4 8 = .ok (-128) := by decide

/-- C64, exactly: `*` multiplies the raw integers, with overflow as usual, so the product is too
large by the factor `2^N`; `/` is the truncated quotient of the raw integers, too small by that factor,
and panics exactly for a zero divisor and for `MIN / (-1)`, where the raw quotient does not fit.
Missing, because false: the right scale. -/
theorem C64_mul_exact_partial (m : Mode) (p : Prim) (hb : 2 ≤ p.bits) (N : Nat) (x y : Int)
    (hx : p.InRange x) (hyr : p.InRange y) :
    (∃ z : Int, Stores m p z (Fixed.mul m p x y) ∧ fval N z = fval N x * fval N y * 2 ^ N) ∧
    (Fixed.div p x y = .panic ↔ y = 0 ∨ p.signed = true ∧ x = p.minV ∧ y = -1) ∧
    (∀ r, Fixed.div p x y = .ok r → p.InRange r ∧
      fval N r = truncQ (fval N x / fval N y) / 2 ^ N) := by
  refine ⟨⟨x * y, stores_arith m (by omega) _, ?_⟩, ?_, ?_⟩
  · unfold fval
    push_cast
    field_simp
  · unfold Fixed.div Prim.div
    split
    · simp_all
    · split <;> simp_all
  · intro r hr
    have hy : y ≠ 0 := by
      rintro rfl
      simp [Fixed.div, Prim.div] at hr
    have hbad : ¬ (p.signed = true ∧ x = p.minV ∧ y = -1) := by
      intro h
      unfold Fixed.div Prim.div at hr
      rw [if_neg hy, if_pos h] at hr
      cases hr
    have e : r = x.tdiv y := by
      unfold Fixed.div Prim.div at hr
      rw [if_neg hy, if_neg hbad] at hr
      cases hr
      rfl
    have hrange : p.InRange (x.tdiv y) := RatM.tdiv_inRange hb hx hyr hbad
    obtain ⟨r', h1, h2⟩ := (C64_mul_partial m p N x y).2.1 hy hrange
    rw [hr] at h1
    cases h1
    exact ⟨e ▸ hrange, h2⟩

example : Fixed.mul .debug i8 64 64 = .panic ∧ Fixed.mul .release i8 64 65 = .ok 64 ∧
    Fixed.div i8 (-128) (-1) = .panic ∧ Fixed.div i8 (-128) 3 = .ok (-42) := by decide

/-! ## C98 and C99 -/

/-- C98, exactly: `is_positive` is strict, so it is wrong for zero only; for fractions, both signs
are those of the numerator, so they are wrong when the denominator is negative; the absolute value
keeps the sign of the denominator, and overflows for the minimum. -/
theorem C98_signs_exact_partial (m : Mode) (p : Prim) (hb : 2 ≤ p.bits) (hs : p.signed = true) :
    (∀ x : Int, (Prim.isPositive x = true ↔ 0 < x) ∧ (Prim.isNegative x = true ↔ x < 0)) ∧
    (∀ (N : Nat) (x : Int), (Fixed.isPositive x = true ↔ 0 < fval N x) ∧
      (Fixed.isNegative x = true ↔ fval N x < 0)) ∧
    (∀ (N : Nat) (x : Int), p.InRange x →
      ∃ z, Stores m p z (Fixed.abs m p x) ∧ fval N z = |fval N x|) ∧
    (∀ x : RatM, RatValid p x →
      (RatM.isPositive x = true ↔ 0 < qval x * x.denom) ∧
      (RatM.isNegative x = true ↔ qval x * x.denom < 0) ∧
      (x.num ≠ p.minV → ∃ r, RatM.abs m p x = .ok r ∧ RatValid p r ∧
        qval r = if 0 < x.denom then |qval x| else -|qval x|) ∧
      (x.num = p.minV → m = .debug → RatM.abs m p x = .panic) ∧
      (x.num = p.minV → m = .release → RatM.abs m p x = .ok x)) := by
  have hb0 : 0 < p.bits := by omega
  refine ⟨fun x => ⟨by unfold Prim.isPositive; rw [decide_eq_true_iff],
    by unfold Prim.isNegative; rw [decide_eq_true_iff]⟩, fun N x => ⟨?_, ?_⟩, fun N x hx => ?_,
    fun x hx => ?_⟩
  · unfold Fixed.isPositive fval
    rw [decide_eq_true_iff, div_pos_iff_of_pos_right (by positivity)]
    exact_mod_cast Iff.rfl
  · unfold Fixed.isNegative fval
    rw [decide_eq_true_iff, div_lt_iff₀ (by positivity), zero_mul]
    exact_mod_cast Iff.rfl
  · refine ⟨|x|, ?_, ?_⟩
    · unfold Fixed.abs
      split
      · rw [abs_of_neg (by omega)]
        exact stores_arith m hb0 _
      · rw [abs_of_nonneg (by omega)]
        exact .inl ⟨hx, rfl⟩
    · unfold fval
      rw [abs_div, abs_of_pos (show (0 : ℚ) < 2 ^ N by positivity)]
      push_cast
      rfl
  · have hd : (x.denom : ℚ) ≠ 0 := by exact_mod_cast hx.nonzero
    have hmul : qval x * x.denom = x.num := by unfold qval; rw [div_mul_cancel₀ _ hd]
    have habs := abs_spec m p hb hs x.num hx.num
    obtain ⟨b1, b2, b3⟩ := bounds hb0
    rw [hmul]
    refine ⟨?_, ?_, fun h => ⟨⟨|x.num|, x.denom⟩, ?_, ?_, ?_⟩, fun h hm => ?_, fun h hm => ?_⟩
    · unfold RatM.isPositive; rw [decide_eq_true_iff]; exact_mod_cast Iff.rfl
    · unfold RatM.isNegative; rw [decide_eq_true_iff]; exact_mod_cast Iff.rfl
    · have h1 := habs.1 h
      unfold Prim.abs at h1
      unfold RatM.abs
      rw [h1]; rfl
    · have h1 := hx.num
      refine ⟨?_, hx.denom, hx.nonzero⟩
      have c0 : p.minV = -2 ^ (p.bits - 1) := by unfold minV; rw [if_pos hs]
      have c1 : p.maxV = 2 ^ (p.bits - 1) - 1 := by unfold maxV; rw [if_pos hs]
      unfold InRange at h1 ⊢
      dsimp only
      rcases abs_cases x.num with ⟨e, _⟩ | ⟨e, _⟩ <;> rw [e] <;> omega
    · unfold qval
      dsimp only
      rw [abs_div]
      push_cast
      split
      · rename_i hpos
        rw [abs_of_pos (show (0 : ℚ) < x.denom by exact_mod_cast hpos)]
      · rename_i hpos
        have : x.denom < 0 := by have := hx.nonzero; omega
        rw [abs_of_neg (show (x.denom : ℚ) < 0 by exact_mod_cast this), div_neg, neg_neg]
    · have h1 := (habs.2 h).1
      subst hm
      unfold Prim.abs at h1
      unfold RatM.abs
      rw [h1]; rfl
    · have h1 := (habs.2 h).2
      subst hm
      unfold Prim.abs at h1
      unfold RatM.abs
      rw [h1]; rfl

example : RatValid i8 ⟨3, -2⟩ ∧ RatM.isPositive ⟨3, -2⟩ = true ∧
    RatM.abs .debug i8 ⟨-3, -2⟩ = .ok ⟨3, -2⟩ ∧ RatM.abs .debug i8 ⟨-128, 3⟩ = .panic := by
  refine ⟨⟨by decide, by decide, by decide⟩, by decide, by decide, by decide⟩

/-- C99, exactly: `one()` of `Fixed` is 1, or -1 where 1 is not representable, and `is_one`
recognises just that number; `is_one` of `Rat` recognises just the fraction 1/1. -/
theorem C99_one_exact_partial (m : Mode) (p : Prim) :
    (∀ N x, N < p.bits → ∃ o b, Fixed.one m p N = .ok o ∧ Fixed.isOne m p N x = .ok b ∧
      fval N o = (if NoOne p N then -1 else 1) ∧
      (b = true ↔ fval N x = if NoOne p N then -1 else 1)) ∧
    (∀ x : RatM, RatValid p x →
      (RatM.isOne x = true ↔ qval x = 1 ∧ x.denom = 1)) := by
  constructor
  · intro N x hN
    have hp : (2 : ℚ) ^ N ≠ 0 := by positivity
    unfold Fixed.isOne
    by_cases h : NoOne p N
    · have e : Fixed.one m p N = .ok (-2 ^ N) := one_noOne m h
      have hv : fval N (-2 ^ N) = -1 := by
        unfold fval; push_cast; rw [neg_div, div_self hp]
      refine ⟨_, _, e, by rw [e]; rfl, by rw [hv, if_pos h], ?_⟩
      rw [if_pos h, ← hv, Fixed.fval_inj]
      unfold Fixed.eq
      rw [decide_eq_true_iff]
    · have e : Fixed.one m p N = .ok (2 ^ N) := Fixed.maxV_pow hN (one_le_maxV hN h) m
      have hv : fval N (2 ^ N) = 1 := by
        unfold fval; push_cast; rw [div_self hp]
      refine ⟨_, _, e, by rw [e]; rfl, by rw [hv, if_neg h], ?_⟩
      rw [if_neg h, ← hv, Fixed.fval_inj]
      unfold Fixed.eq
      rw [decide_eq_true_iff]
  · intro x hx
    have hd : (x.denom : ℚ) ≠ 0 := by exact_mod_cast hx.nonzero
    unfold RatM.isOne RatM.one
    rw [decide_eq_true_iff]
    constructor
    · intro h; rw [h]; exact ⟨by simp [qval], rfl⟩
    · rintro ⟨h1, h2⟩
      unfold qval at h1
      rw [h2] at h1
      obtain ⟨a, d⟩ := x
      simp only at h1 h2
      subst h2
      have : (a : ℚ) = 1 := by simpa using h1
      rw [show a = 1 by exact_mod_cast this]

example : Fixed.isOne .debug i8 7 (-128) = .ok true ∧ RatM.isOne ⟨2, 2⟩ = false ∧
    RatM.isOne ⟨1, 1⟩ = true := by decide

end Verif
