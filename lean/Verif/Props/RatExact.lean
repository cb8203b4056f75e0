import Verif.Props.Rat
import Verif.Props.Prim
import Verif.Spec.Euclid

/-!
# C67–C70: exact descriptions of what the code does where the properties fail
-/

namespace Verif

open Prim RatM

/-! ## C70 -/

theorem lastRem_zero (a : Int) : lastRem a 0 = a := by rw [lastRem]; simp

theorem lastRem_step (a : Int) {b : Int} (h : b ≠ 0) : lastRem a b = lastRem b (a.tmod b) := by
  rw [lastRem, dif_neg h]

theorem gcdLoop_val (p : Prim) (fuel : Nat) (mn mx g : Int)
    (h : gcdLoop p fuel mn mx = .ok g) : g = lastRem mx mn := by
  induction fuel generalizing mn mx with
  | zero =>
    unfold gcdLoop at h
    split at h
    · exact absurd h (by simp)
    · rename_i h0
      rw [Res.ok.injEq] at h
      rw [not_not.mp h0, lastRem_zero, h]
  | succ fuel ih =>
    unfold gcdLoop at h
    split at h
    · rename_i h0
      obtain ⟨r, h1, h2⟩ := bind_ok h
      unfold rem at h1
      rw [if_neg h0] at h1
      split at h1
      · exact absurd h1 (by simp)
      · rw [Res.ok.injEq] at h1
        rw [lastRem_step _ h0, h1]
        exact ih _ _ h2
    · rename_i h0
      rw [Res.ok.injEq] at h
      rw [not_not.mp h0, lastRem_zero, h]

theorem gcd_val (p : Prim) {a b g : Int} (h : gcd p a b = .ok g) : g = signedGcd a b := by
  unfold gcd at h
  unfold signedGcd
  by_cases h0 : a = 0 ∧ b = 0
  · rw [if_pos h0, Res.ok.injEq] at h
    rw [h0.1, h0.2, max_self, min_self, lastRem_zero, h]
  · rw [if_neg h0] at h
    have := gcdLoop_val _ _ _ _ _ h
    unfold minmax at this
    by_cases hle : a ≤ b
    · rw [if_pos hle] at this
      rw [max_eq_right hle, min_eq_left hle]; exact this
    · rw [if_neg hle] at this
      rw [max_eq_left (by omega), min_eq_right (by omega)]; exact this

/-- C70, exactly: `gcd` panics on `(MIN, -1)` and `(-1, MIN)` of signed types and returns the last
nonzero remainder of Euclid's algorithm, with the sign that comes out, for all other operands. -/
theorem C70_gcd_exact_partial (p : Prim) (hb : 2 ≤ p.bits) (a b : Int) (ha : p.InRange a)
    (hr : p.InRange b) :
    gcd p a b = if p.signed = true ∧ ((a = p.minV ∧ b = -1) ∨ (a = -1 ∧ b = p.minV)) then .panic
      else .ok (signedGcd a b) := by
  by_cases hbad : p.signed = true ∧ ((a = p.minV ∧ b = -1) ∨ (a = -1 ∧ b = p.minV))
  · rw [if_pos hbad]; exact gcd_bad hb hbad
  · obtain ⟨g, h, _⟩ := gcd_spec hb ha hr hbad
    rw [h, if_neg hbad, gcd_val p h]

example : gcd i8 (-4) (-6) = .ok (-2) ∧ gcd i8 (-4) 6 = .ok 2 ∧ gcd i8 (-6) 4 = .ok (-2) := by
  decide
example : signedGcd (-6) 4 = -2 := by
  simp [signedGcd, lastRem]

/-! ## C67 -/

theorem signedGcd_natAbs (a b : Int) : (signedGcd a b).natAbs = Int.gcd a b := by
  have key : ∀ n : Nat, ∀ x y : Int, y.natAbs ≤ n → (lastRem x y).natAbs = Int.gcd x y := by
    intro n
    induction n with
    | zero =>
      intro x y h
      have : y = 0 := by omega
      rw [this, lastRem_zero]; simp
    | succ n ih =>
      intro x y h
      by_cases h0 : y = 0
      · rw [h0, lastRem_zero]; simp
      · rw [lastRem_step _ h0, ih _ _ (by
          have := Nat.mod_lt x.natAbs (show y.natAbs > 0 by omega)
          rw [Int.natAbs_tmod]; omega)]
        rw [Int.gcd_def, Int.gcd_def, Int.natAbs_tmod, Nat.gcd_comm, ← Nat.gcd_rec, Nat.gcd_comm]
  unfold signedGcd
  rw [key _ _ _ (Nat.le_refl _)]
  rcases Int.le_total a b with h | h
  · rw [max_eq_right h, min_eq_left h, Int.gcd_comm]
  · rw [max_eq_left h, min_eq_right h]

theorem signedGcd_comm (a b : Int) : signedGcd a b = signedGcd b a := by
  unfold signedGcd; rw [max_comm, min_comm]

/-- Euclid's algorithm on a number and a unit. -/
theorem signedGcd_neg_one {a : Int} (h : a < -1) : signedGcd a (-1) = -1 := by
  unfold signedGcd
  rw [max_eq_right (by omega), min_eq_left (by omega), lastRem_step _ (by omega)]
  have e : (-1 : Int).tmod a = -1 := by
    have h1 := Int.natAbs_tmod (-1) a
    rw [Nat.mod_eq_of_lt (by omega)] at h1
    have h2 := Int.tmod_nonneg a (show 0 ≤ -(-1 : Int) by omega)
    rw [Int.neg_tmod] at h2
    omega
  rw [e, lastRem_step _ (by decide)]
  have : a.tmod (-1) = 0 := by rw [Int.tmod_neg, Int.tmod_one]
  rw [this, lastRem_zero]

/-- Everything `reduce` does. -/
theorem reduce_exact {p : Prim} (hb : 2 ≤ p.bits) {n d : Int} (hn : p.InRange n)
    (hd : p.InRange d) (h0 : d ≠ 0) :
    reduce p n d = if p.signed = true ∧ (n = p.minV ∨ d = p.minV) ∧ signedGcd n d = -1 then .panic
      else if n = 0 then .ok ⟨0, 1⟩
      else if d ∣ n ∨ n ∣ d then .ok ⟨n, d⟩
      else .ok ⟨n.tdiv (signedGcd n d), d.tdiv (signedGcd n d)⟩ := by
  have hgabs := signedGcd_natAbs n d
  by_cases e0 : n = 0
  · have : ¬ (p.signed = true ∧ (n = p.minV ∨ d = p.minV) ∧ signedGcd n d = -1) := by
      rintro ⟨hs, h1, h2⟩
      have h3 := minV_lt hb hs
      rw [h2, e0] at hgabs
      simp at hgabs
      omega
    rw [if_neg this, if_pos e0]
    unfold reduce; rw [if_pos e0]; rfl
  rw [if_neg e0]
  have hbadiff : ¬ (d ∣ n ∨ n ∣ d) → ¬ (p.signed = true ∧ ((n = p.minV ∧ d = -1) ∨ (n = -1 ∧ d = p.minV))) := by
    rintro h ⟨hs, ⟨x, y⟩ | ⟨x, y⟩⟩
    · exact h (.inl (by rw [y]; exact ⟨-n, by ring⟩))
    · exact h (.inr (by rw [x]; exact ⟨-d, by ring⟩))
  unfold reduce
  rw [if_neg e0]
  by_cases c1 : p.signed = true ∧ n = p.minV ∧ d = -1
  · have hm := minV_lt hb c1.1
    have h1 : ¬ (n = 1 ∧ d = 1) := by omega
    have h2 : p.signed = true ∧ (n = p.minV ∨ d = p.minV) ∧ signedGcd n d = -1 :=
      ⟨c1.1, .inl c1.2.1, by rw [c1.2.2]; exact signedGcd_neg_one (by omega)⟩
    rw [if_neg h1, if_pos h2]
    unfold rem; rw [if_neg h0, if_pos c1]; rfl
  by_cases c2 : p.signed = true ∧ d = p.minV ∧ n = -1
  · have hm := minV_lt hb c2.1
    have h1 : ¬ (n = 1 ∧ d = 1) := by omega
    have h2 : p.signed = true ∧ (n = p.minV ∨ d = p.minV) ∧ signedGcd n d = -1 :=
      ⟨c2.1, .inr c2.2.1, by
        rw [c2.2.2, signedGcd_comm]; exact signedGcd_neg_one (by omega)⟩
    rw [if_neg h1, if_pos h2, rem_ok h0 c1]
    simp only [Res.bind]
    rw [if_neg]
    · unfold rem; rw [if_neg e0, if_pos c2]
    · intro h
      have h1 := Int.natAbs_dvd_natAbs.mpr (Int.dvd_of_tmod_eq_zero h)
      have := Nat.le_of_dvd (by omega) h1
      omega
  have hdiv : d ∣ n ∨ n ∣ d →
      ¬ (p.signed = true ∧ (n = p.minV ∨ d = p.minV) ∧ signedGcd n d = -1) := by
    rintro h ⟨hs, h1, h2⟩
    have hm := minV_lt hb hs
    have hr : ∀ a b : Int, a = p.minV → b ∣ a ∨ a ∣ b → Int.gcd a b = 1 → b = 1 ∨ b = -1 := by
      intro a b ea hab hg
      rcases hab with h | h
      · rw [Int.gcd_eq_natAbs_right h] at hg; omega
      · rw [Int.gcd_eq_natAbs_left h] at hg; omega
    have hg : Int.gcd n d = 1 := by rw [← hgabs, h2]; rfl
    have hone : ∀ a : Int, a < -1 → signedGcd a 1 = 1 := by
      intro a ha
      unfold signedGcd
      have e : (1 : Int).tmod a = 1 := by
        have h1 := Int.natAbs_tmod 1 a
        rw [Nat.mod_eq_of_lt (by omega)] at h1
        have h2 := Int.tmod_nonneg a (show 0 ≤ (1 : Int) by omega)
        omega
      rw [max_eq_right (by omega), min_eq_left (by omega), lastRem_step _ (by omega), e,
        lastRem_step _ (by decide), Int.tmod_one, lastRem_zero]
    rcases h1 with h1 | h1
    · rcases hr n d h1 h hg with e | e
      · rw [e, hone n (by omega)] at h2; exact absurd h2 (by decide)
      · exact c1 ⟨hs, h1, e⟩
    · rcases hr d n h1 h.symm (by rw [Int.gcd_comm]; exact hg) with e | e
      · rw [e, signedGcd_comm, hone d (by omega)] at h2; exact absurd h2 (by decide)
      · exact c2 ⟨hs, h1, e⟩
  by_cases e1 : n = 1 ∧ d = 1
  · have hd1 : d ∣ n ∨ n ∣ d := .inl (by rw [e1.1, e1.2])
    rw [if_pos e1, if_neg (hdiv hd1), if_pos hd1]
  rw [if_neg e1, rem_ok h0 c1]
  simp only [Res.bind]
  by_cases d1 : n.tmod d = 0
  · have hd1 : d ∣ n ∨ n ∣ d := .inl (Int.dvd_of_tmod_eq_zero d1)
    rw [if_pos d1, if_neg (hdiv hd1), if_pos hd1]
  rw [if_neg d1, rem_ok e0 c2]
  simp only
  by_cases d2 : d.tmod n = 0
  · have hd1 : d ∣ n ∨ n ∣ d := .inr (Int.dvd_of_tmod_eq_zero d2)
    rw [if_pos d2, if_neg (hdiv hd1), if_pos hd1]
  rw [if_neg d2]
  have hnd : ¬ (d ∣ n ∨ n ∣ d) := by
    rintro (h | h)
    · exact d1 (Int.tmod_eq_zero_of_dvd h)
    · exact d2 (Int.tmod_eq_zero_of_dvd h)
  rw [C70_gcd_exact_partial p hb n d hn hd, if_neg (hbadiff hnd), if_neg hnd]
  simp only
  have hg0 : signedGcd n d ≠ 0 := by
    intro h
    rw [h] at hgabs
    exact e0 (Int.gcd_eq_zero_iff.mp hgabs.symm).1
  by_cases c3 : p.signed = true ∧ n = p.minV ∧ signedGcd n d = -1
  · rw [div_bad c3, if_pos ⟨c3.1, .inl c3.2.1, c3.2.2⟩]
  rw [div_ok hg0 c3]
  simp only
  by_cases c4 : p.signed = true ∧ d = p.minV ∧ signedGcd n d = -1
  · rw [div_bad c4, if_pos ⟨c4.1, .inr c4.2.1, c4.2.2⟩]
  rw [div_ok hg0 c4, if_neg]
  rintro ⟨hs, h1 | h1, h2⟩
  · exact c3 ⟨hs, h1, h2⟩
  · exact c4 ⟨hs, h1, h2⟩

/-- C67, exactly: `Rat::new` never hangs, and panics exactly if one part is the minimum of a signed
type and Euclid's algorithm on the two parts ends in `-1`. -/
theorem C67_new_exact_partial (p : Prim) (hb : 2 ≤ p.bits) (n d : Int) (hn : p.InRange n)
    (hd : p.InRange d) :
    RatM.new p n d ≠ .hang ∧
    (RatM.new p n d = .panic ↔
      p.signed = true ∧ (n = p.minV ∨ d = p.minV) ∧ signedGcd n d = -1) := by
  unfold RatM.new
  by_cases h0 : d = 0
  · rw [if_pos h0]
    refine ⟨by simp, ⟨fun h => by simp at h, fun ⟨hs, h1, h2⟩ => ?_⟩⟩
    have h3 := signedGcd_natAbs n d
    have hm := minV_lt hb hs
    rw [h2, h0] at h3
    simp at h3
    omega
  · rw [if_neg h0, reduce_exact hb hn hd h0]
    by_cases h : p.signed = true ∧ (n = p.minV ∨ d = p.minV) ∧ signedGcd n d = -1
    · rw [if_pos h]
      exact ⟨by simp [Res.bind], ⟨fun _ => h, fun _ => rfl⟩⟩
    · rw [if_neg h]
      refine ⟨?_, ⟨fun hc => ?_, fun hc => absurd hc h⟩⟩
      · split
        · simp [Res.bind]
        · split <;> simp [Res.bind]
      · split at hc
        · simp [Res.bind] at hc
        · split at hc <;> simp [Res.bind] at hc

example : RatM.new i8 (-128) 5 = .panic ∧ RatM.new i8 (-128) 3 = .ok (some ⟨-128, 3⟩) ∧
    RatM.new i8 (-128) 7 = .ok (some ⟨-128, 7⟩) ∧ RatM.new i8 (-128) 6 = .ok (some ⟨64, -3⟩) := by
  decide
example : signedGcd (-128) 5 = -1 ∧ signedGcd (-128) 7 = 1 := by
  simp [signedGcd, lastRem]

/-! ## C68 -/

/-- C68, exactly: how `Rat::new` stores a fraction. Zero becomes `0/1`, a fraction in which one part
divides the other is left as it is, and any other one is reduced, with the signs that the sign of
Euclid's last remainder leads to. -/
theorem C68_stored_exact_partial (p : Prim) (hb : 2 ≤ p.bits) (n d : Int) (x : RatM)
    (hn : p.InRange n) (hd : p.InRange d) (h : RatM.new p n d = .ok (some x)) :
    (n = 0 → x = ⟨0, 1⟩) ∧
    (n ≠ 0 → d ∣ n ∨ n ∣ d → x = ⟨n, d⟩) ∧
    (n ≠ 0 → ¬ (d ∣ n ∨ n ∣ d) → n = x.num * signedGcd n d ∧ d = x.denom * signedGcd n d ∧
      Int.gcd x.num x.denom = 1) := by
  unfold RatM.new at h
  by_cases h0 : d = 0
  · rw [if_pos h0] at h; simp at h
  rw [if_neg h0] at h
  obtain ⟨r, h1, h2⟩ := bind_ok h
  simp only [Res.ok.injEq, Option.some.injEq] at h2
  subst h2
  have h1' := h1
  rw [reduce_exact hb hn hd h0] at h1
  split at h1
  · exact absurd h1 (by simp)
  refine ⟨fun e => ?_, fun e c => ?_, fun e c => ?_⟩
  · rw [if_pos e, Res.ok.injEq] at h1; exact h1.symm
  · rw [if_neg e, if_pos c, Res.ok.injEq] at h1; exact h1.symm
  · rw [if_neg e, if_neg c, Res.ok.injEq] at h1
    have hg := signedGcd_natAbs n d
    have hd1 : signedGcd n d ∣ n := by
      rw [← Int.natAbs_dvd, hg]; exact Int.gcd_dvd_left ..
    have hd2 : signedGcd n d ∣ d := by
      rw [← Int.natAbs_dvd, hg]; exact Int.gcd_dvd_right ..
    refine ⟨?_, ?_, ?_⟩
    · rw [← h1]; exact (Int.tdiv_mul_cancel hd1).symm
    · rw [← h1]; exact (Int.tdiv_mul_cancel hd2).symm
    · rcases reduce_cases hb hn hd h0 with h3 | ⟨r', h3, _, h5, _⟩
      · rw [h3] at h1'; exact absurd h1' (by simp)
      · rw [h3, Res.ok.injEq] at h1'
        subst h1'
        exact h5 (fun h => c (.inl h)) (fun h => c (.inr h))

theorem dvd_of_cross {n d n' d' : Int} (h0 : d ≠ 0) (h : n * d' = n' * d)
    (hd : d ∣ n) : d' ∣ n' := by
  obtain ⟨k, rfl⟩ := hd
  refine ⟨k, ?_⟩
  have : d * (k * d') = d * n' := by rw [← Int.mul_assoc, h, Int.mul_comm]
  rw [← Int.eq_of_mul_eq_mul_left h0 this, Int.mul_comm]

theorem mul_tmod_mul {k : Int} (hk : k ≠ 0) (a b : Int) :
    (k * a).tmod (k * b) = k * a.tmod b := by
  have key : (k * a).tdiv (k * b) = a.tdiv b := by
    rcases Int.lt_or_gt_of_ne hk with h | h
    · rw [← Int.mul_tdiv_mul_of_pos a b (show 0 < -k by omega), Int.neg_mul, Int.neg_mul,
        Int.neg_tdiv, Int.tdiv_neg, neg_neg]
    · exact Int.mul_tdiv_mul_of_pos a b h
  rw [Int.tmod_def, Int.tmod_def, key]
  ring

theorem lastRem_mul (k a b : Int) : lastRem (k * a) (k * b) = k * lastRem a b := by
  by_cases hk : k = 0
  · rw [hk, Int.zero_mul, Int.zero_mul, Int.zero_mul, lastRem_zero]
  have key : ∀ n : Nat, ∀ x y : Int, y.natAbs ≤ n → lastRem (k * x) (k * y) = k * lastRem x y := by
    intro n
    induction n with
    | zero =>
      intro x y h
      have : y = 0 := by omega
      rw [this, Int.mul_zero, lastRem_zero, lastRem_zero]
    | succ n ih =>
      intro x y h
      by_cases h0 : y = 0
      · rw [h0, Int.mul_zero, lastRem_zero, lastRem_zero]
      · rw [lastRem_step _ h0, lastRem_step _ (mul_ne_zero hk h0), mul_tmod_mul hk]
        refine ih _ _ ?_
        have := Nat.mod_lt x.natAbs (show y.natAbs > 0 by omega)
        rw [Int.natAbs_tmod]; omega
  exact key _ a b (Nat.le_refl _)

theorem tmod_of_lt {a b : Int} (h : a.natAbs < b.natAbs) : a.tmod b = a := by
  have h1 := Int.natAbs_tmod a b
  rw [Nat.mod_eq_of_lt h] at h1
  rcases Int.le_total 0 a with h2 | h2
  · have := Int.tmod_nonneg b h2; omega
  · have h3 := Int.tmod_nonneg b (show 0 ≤ -a by omega)
    rw [Int.neg_tmod] at h3
    omega

theorem lastRem_symm {a b : Int} (h : a.natAbs ≠ b.natAbs) : lastRem a b = lastRem b a := by
  rcases Nat.lt_or_gt_of_ne h with h | h
  · rw [lastRem_step a (show b ≠ 0 by omega), tmod_of_lt h]
  · rw [lastRem_step b (show a ≠ 0 by omega), tmod_of_lt h]

theorem signedGcd_eq {a b : Int} (h : a.natAbs ≠ b.natAbs) : signedGcd a b = lastRem a b := by
  unfold signedGcd
  rcases Int.le_total a b with h1 | h1
  · rw [max_eq_right h1, min_eq_left h1, lastRem_symm h]
  · rw [max_eq_left h1, min_eq_right h1]

/-- The sign with which a fraction comes out depends on its value only. -/
theorem sign_stored {n d n' d' : Int} (h0 : d ≠ 0) (h0' : d' ≠ 0) (hc : n * d' = n' * d)
    (h : n.natAbs ≠ d.natAbs) :
    (d * signedGcd n d).sign = (d' * signedGcd n' d').sign := by
  have h' : n'.natAbs ≠ d'.natAbs := by
    intro e
    have h1 : n.natAbs * d'.natAbs = d.natAbs * d'.natAbs := by
      rw [← Int.natAbs_mul, hc, Int.natAbs_mul, e, Nat.mul_comm]
    exact h (Nat.eq_of_mul_eq_mul_right (by omega) h1)
  rw [signedGcd_eq h, signedGcd_eq h']
  have e1 : d' * lastRem n d = d * lastRem n' d' := by
    rw [← lastRem_mul, ← lastRem_mul, Int.mul_comm d' n, hc, Int.mul_comm n' d, Int.mul_comm d' d]
  have e2 : d * lastRem n d * (d' * d') = d' * lastRem n' d' * (d * d) := by
    calc d * lastRem n d * (d' * d') = d * d' * (d' * lastRem n d) := by ring
      _ = d * d' * (d * lastRem n' d') := by rw [e1]
      _ = _ := by ring
  have e3 := congrArg Int.sign e2
  rw [Int.sign_mul, Int.sign_mul (d' * lastRem n' d'), Int.sign_eq_one_of_pos (mul_self_pos.mpr h0'),
    Int.sign_eq_one_of_pos (mul_self_pos.mpr h0), Int.mul_one, Int.mul_one] at e3
  exact e3

/-- C68, exactly: two fractions made by `Rat::new` are `==` exactly if they have the same value and,
when that is not zero and one part divides the other, the same numerator. So the property fails
exactly for the values `k` and `1/k` with an integer `k`. -/
theorem C68_eq_exact_partial (p : Prim) (hb : 2 ≤ p.bits) (n d n' d' : Int) (x y : RatM)
    (hn : p.InRange n) (hd : p.InRange d) (hn' : p.InRange n') (hd' : p.InRange d')
    (hx : RatM.new p n d = .ok (some x)) (hy : RatM.new p n' d' = .ok (some y)) :
    RatM.eq x y = true ↔ (n : ℚ) / d = n' / d' ∧ (n ≠ 0 → d ∣ n ∨ n ∣ d → n = n') := by
  have heq : RatM.eq x y = true ↔ x = y := by unfold RatM.eq; rw [decide_eq_true_iff]
  obtain ⟨a1, a2, a3⟩ := C68_stored_exact_partial p hb n d x hn hd hx
  obtain ⟨b1, b2, b3⟩ := C68_stored_exact_partial p hb n' d' y hn' hd' hy
  obtain ⟨z1, v1, _⟩ := C67_new_partial p hb n d hn hd
  obtain ⟨z2, v2, _⟩ := C67_new_partial p hb n' d' hn' hd'
  obtain ⟨vx, qx⟩ := v1 x hx
  obtain ⟨vy, qy⟩ := v2 y hy
  have h0 : d ≠ 0 := fun h => by rw [z1.mpr h] at hx; simp at hx
  have h0' : d' ≠ 0 := fun h => by rw [z2.mpr h] at hy; simp at hy
  have hq : (n : ℚ) / d = n' / d' ↔ n * d' = n' * d := by
    rw [div_eq_div_iff (by exact_mod_cast h0) (by exact_mod_cast h0')]
    exact_mod_cast Iff.rfl
  have hval : x = y → (n : ℚ) / d = n' / d' := fun h => by rw [← qx, ← qy, h]
  rw [heq]
  by_cases e : n = 0
  · refine ⟨fun h => ⟨hval h, fun c => absurd e c⟩, fun ⟨h, _⟩ => ?_⟩
    rw [hq, e, Int.zero_mul] at h
    have e' : n' = 0 := by
      rcases Int.mul_eq_zero.mp h.symm with h | h
      · exact h
      · exact absurd h h0
    rw [a1 e, b1 e']
  have hn0 : n * d' = n' * d → n' ≠ 0 := by
    intro h c
    rw [c, Int.zero_mul] at h
    rcases Int.mul_eq_zero.mp h with h | h
    · exact e h
    · exact h0' h
  have hiff : n * d' = n' * d → ((d ∣ n ∨ n ∣ d) ↔ (d' ∣ n' ∨ n' ∣ d')) := by
    intro h
    have e' := hn0 h
    have h' : d * n' = d' * n := by linarith
    constructor
    · rintro (c | c)
      · exact .inl (dvd_of_cross h0 h c)
      · exact .inr (dvd_of_cross e h' c)
    · rintro (c | c)
      · exact .inl (dvd_of_cross h0' h.symm c)
      · exact .inr (dvd_of_cross e' h'.symm c)
  by_cases c : d ∣ n ∨ n ∣ d
  · constructor
    · intro h
      have hv := hval h
      have hc := hq.mp hv
      refine ⟨hv, fun _ _ => ?_⟩
      rw [a2 e c, b2 (hn0 hc) ((hiff hc).mp c)] at h
      exact congrArg RatM.num h
    · rintro ⟨hv, h⟩
      have hc := hq.mp hv
      rw [a2 e c, b2 (hn0 hc) ((hiff hc).mp c)]
      have hnn := h e c
      rw [← hnn] at hc ⊢
      rw [Int.eq_of_mul_eq_mul_left e hc]
  · refine ⟨fun h => ⟨hval h, fun _ hc => absurd hc c⟩, fun ⟨hv, _⟩ => ?_⟩
    · obtain ⟨a4, a5, a6⟩ := a3 e c
      have hsq : ∀ u g : Int, g ≠ 0 → (u * g * g).sign = u.sign := by
        intro u g hg
        rw [Int.mul_assoc, Int.sign_mul, Int.sign_eq_one_of_pos (mul_self_pos.mpr hg), Int.mul_one]
      have hg0 : signedGcd n d ≠ 0 := fun h => h0 (by rw [a5, h, Int.mul_zero])
      have hc := hq.mp hv
      obtain ⟨b4, b5, b6⟩ := b3 (hn0 hc) (fun k => c ((hiff hc).mpr k))
      have hg0' : signedGcd n' d' ≠ 0 := fun h => h0' (by rw [b5, h, Int.mul_zero])
      have hs := hsq x.denom (signedGcd n d) hg0
      rw [← a5] at hs
      have hs' := hsq y.denom (signedGcd n' d') hg0'
      rw [← b5] at hs'
      have hsgn : x.denom.sign = y.denom.sign := by
        rw [← hs, ← hs']
        exact sign_stored h0 h0' hc (fun h => c (.inl (Int.natAbs_dvd_natAbs.mp (by rw [h]))))
      rw [← qx, ← qy] at hv
      unfold qval at hv
      rw [div_eq_div_iff (by exact_mod_cast vx.nonzero) (by exact_mod_cast vy.nonzero)] at hv
      have hv : x.num * y.denom = y.num * x.denom := by exact_mod_cast hv
      have e1 : x.denom ∣ y.denom := by
        have : x.denom ∣ x.num * y.denom := ⟨y.num, by rw [hv, Int.mul_comm]⟩
        exact Int.dvd_of_dvd_mul_right_of_gcd_one this (by rw [Int.gcd_comm]; exact a6)
      have e2 : y.denom ∣ x.denom := by
        have : y.denom ∣ y.num * x.denom := ⟨x.num, by rw [← hv, Int.mul_comm]⟩
        exact Int.dvd_of_dvd_mul_right_of_gcd_one this (by rw [Int.gcd_comm]; exact b6)
      have e3 : x.denom = y.denom := by
        have h1 := Nat.dvd_antisymm (Int.natAbs_dvd_natAbs.mpr e1) (Int.natAbs_dvd_natAbs.mpr e2)
        rw [← Int.sign_mul_natAbs x.denom, ← Int.sign_mul_natAbs y.denom, h1, hsgn]
      rw [e3] at hv
      have e4 : x.num = y.num := Int.eq_of_mul_eq_mul_right vy.nonzero hv
      cases x; cases y
      simp only at e3 e4
      rw [e3, e4]

-- equal values with different signs of the parts, stored alike; and `4/2`, not equal to `2/1`
example : RatM.new i8 (-6) 4 = .ok (some ⟨3, -2⟩) ∧ RatM.new i8 9 (-6) = .ok (some ⟨3, -2⟩) ∧
    RatM.new i8 4 2 = .ok (some ⟨4, 2⟩) ∧ RatM.new i8 2 1 = .ok (some ⟨2, 1⟩) := by decide

/-! ## C69 -/

/-- `truncQ` of a fraction and what is left of the numerator. -/
theorem truncQ_qval (x : RatM) (h0 : x.denom ≠ 0) : truncQ (qval x) = x.num.tdiv x.denom :=
  Fixed.trunc_div x.num h0

/-- C69, `floor` exactly: it drops the fraction toward zero; only `MIN / (-1)` panics. -/
theorem C69_floor_exact_partial (m : Mode) (p : Prim) (hb : 2 ≤ p.bits) (x : RatM)
    (hx : RatValid p x) :
    RatM.floor m p x = if p.signed = true ∧ x.num = p.minV ∧ x.denom = -1 then .panic
      else .ok ⟨truncQ (qval x), 1⟩ := by
  have h0 := hx.nonzero
  have hxn := hx.num
  rw [truncQ_qval x h0]
  unfold RatM.floor
  by_cases c : p.signed = true ∧ x.num = p.minV ∧ x.denom = -1
  · rw [if_pos c]
    unfold rem; rw [if_neg h0, if_pos c]; rfl
  rw [if_neg c, rem_ok h0 c]
  simp only [Res.bind]
  obtain ⟨t1, t2, t3, t4⟩ := tmod_bounds x.num x.denom h0
  obtain ⟨b1, b2, _⟩ := bounds (p := p) (by omega)
  have e : x.num - x.num.tmod x.denom = x.num.tdiv x.denom * x.denom := by
    have := Int.tmod_add_mul_tdiv x.num x.denom
    linarith
  rw [arith_ok m (by
      unfold InRange at *
      rcases Int.le_total 0 x.num with h | h
      · have := t3 h; omega
      · have := t4 h; omega)]
  simp only
  rw [div_ok h0, e, Int.mul_tdiv_cancel _ h0]
  · simp only
    exact newUnwrap_int p _
  · rintro ⟨hs, h1, h2⟩
    rw [h2, Int.tmod_neg, Int.tmod_one] at h1
    exact c ⟨hs, by omega, h2⟩

/-- C69, `ceil` exactly, in debug builds: it returns one more than the number with its fraction
dropped toward zero, or panics if that, or its product with the denominator, or the amount by which
this exceeds the numerator, does not fit the type. In release builds it returns the same as long as
everything fits. -/
theorem C69_ceil_exact_partial (p : Prim) (hb : 2 ≤ p.bits) (x : RatM) (hx : RatValid p x) :
    let c := truncQ (qval x) + 1
    (p.InRange c ∧ p.InRange (c * x.denom) ∧ p.InRange (c * x.denom - x.num) →
      ∀ m, RatM.ceil m p x = .ok ⟨c, 1⟩) ∧
    (¬ (p.InRange c ∧ p.InRange (c * x.denom) ∧ p.InRange (c * x.denom - x.num)) →
      RatM.ceil .debug p x = .panic) := by
  have h0 := hx.nonzero
  have hxn := hx.num
  have hxd := hx.denom
  intro c
  have hc : c = x.num.tdiv x.denom + 1 := by
    change truncQ (qval x) + 1 = _; rw [truncQ_qval x h0]
  have e := Int.tmod_add_mul_tdiv x.num x.denom
  have e1 : x.denom - x.num.tmod x.denom = c * x.denom - x.num := by
    rw [hc]; linarith
  have e2 : x.num + (x.denom - x.num.tmod x.denom) = c * x.denom := by rw [e1]; ring
  obtain ⟨b1, b2, _⟩ := bounds (p := p) (by omega)
  by_cases bad : p.signed = true ∧ x.num = p.minV ∧ x.denom = -1
  · have hout : ¬ p.InRange c := by
      obtain ⟨hs, h1, h2⟩ := bad
      have hm := minV_lt hb hs
      have hmax : p.maxV = -p.minV - 1 := by unfold maxV minV; rw [hs]; simp
      rw [hc, h1, h2]
      unfold InRange
      rw [Int.tdiv_neg, Int.tdiv_one]
      omega
    refine ⟨fun h => absurd h.1 hout, fun _ => ?_⟩
    unfold RatM.ceil rem
    rw [if_neg h0, if_pos bad]; rfl
  constructor
  · rintro ⟨r1, r2, r3⟩ m
    unfold RatM.ceil
    rw [rem_ok h0 bad]
    simp only [Res.bind]
    rw [e1, arith_ok m r3]
    simp only
    rw [← e1, e2, arith_ok m r2]
    simp only
    rw [div_ok h0, Int.mul_tdiv_cancel _ h0]
    · exact newUnwrap_int p _
    · rintro ⟨hs, h1, h2⟩
      have hmax : p.maxV = -p.minV - 1 := by unfold maxV minV; rw [hs]; simp
      unfold InRange at r1
      rw [h2] at h1
      omega
  · intro h
    unfold RatM.ceil
    rw [rem_ok h0 bad]
    simp only [Res.bind]
    rw [e1]
    by_cases r3 : p.InRange (c * x.denom - x.num)
    · rw [arith_ok .debug r3]
      simp only
      rw [← e1, e2]
      by_cases r2 : p.InRange (c * x.denom)
      · rw [arith_ok .debug r2]
        simp only
        have r1 : ¬ p.InRange c := fun r1 => h ⟨r1, r2, r3⟩
        rw [div_bad]
        by_cases hs : p.signed = true
        · have hmin : p.minV = -2 ^ (p.bits - 1) := by unfold minV; rw [hs]; rfl
          have hmax : p.maxV = -p.minV - 1 := by unfold maxV minV; rw [hs]; simp
          have hm := minV_lt hb hs
          have habs : c.natAbs ≤ (c * x.denom).natAbs := by
            rw [Int.natAbs_mul]
            exact Nat.le_mul_of_pos_right _ (by omega)
          have hle := natAbs_le hs r2
          unfold InRange at r1 r2
          have hcc : c = -p.minV := by omega
          have hone : x.denom.natAbs = 1 := by
            by_contra hne
            have : c.natAbs * 2 ≤ (c * x.denom).natAbs := by
              rw [Int.natAbs_mul]
              exact Nat.mul_le_mul_left _ (by omega)
            omega
          have hd1 : x.denom = -1 := by
            rcases Int.natAbs_eq x.denom with h | h
            · rw [hone] at h
              rw [h, hcc] at r2
              simp at r2
              omega
            · rw [hone] at h; exact h
          exact ⟨hs, by rw [hd1, hcc]; ring, hd1⟩
        · exfalso
          have hu : p.minV = 0 := by unfold minV; rw [if_neg hs]
          unfold InRange at r1 r2 hxn hxd
          have hd1 : 1 ≤ x.denom := by omega
          have hc0 : 0 ≤ c := by
            rw [hc]
            have := Int.tdiv_nonneg (show 0 ≤ x.num by omega) (show 0 ≤ x.denom by omega)
            omega
          have := Int.mul_le_mul_of_nonneg_left hd1 hc0
          omega
      · unfold arith; rw [if_neg r2]
    · unfold arith; rw [if_neg r3]

/-- C69, `round` exactly: the number with its fraction dropped toward zero, and one more in these
cases: for a positive denominator if the dropped fraction is above one half; for a negative
denominator if it is below one half, by at least half a unit of the denominator. Only `MIN / (-1)` panics. -/
theorem C69_round_exact_partial (m : Mode) (p : Prim) (hb : 3 ≤ p.bits) (x : RatM)
    (hx : RatValid p x) :
    RatM.round m p x = if p.signed = true ∧ x.num = p.minV ∧ x.denom = -1 then .panic
      else .ok ⟨truncQ (qval x) + if 0 < x.denom
          then (if 1 / 2 < qval x - truncQ (qval x) then 1 else 0)
          else (if (qval x - truncQ (qval x)) * |x.denom| < (|x.denom| / 2 : Int) then 1 else 0),
        1⟩ := by
  have h0 := hx.nonzero
  have hxn := hx.num
  have hxd := hx.denom
  have hq0 : (x.denom : ℚ) ≠ 0 := by exact_mod_cast h0
  unfold RatM.round
  by_cases bad : p.signed = true ∧ x.num = p.minV ∧ x.denom = -1
  · rw [if_pos bad]
    unfold rem; rw [if_neg h0, if_pos bad]; rfl
  rw [if_neg bad, rem_ok h0 bad]
  simp only [Res.bind]
  rw [div_ok (by decide) (fun h => by omega)]
  simp only
  rw [div_ok h0 bad]
  simp only
  have e := Int.tmod_add_mul_tdiv x.num x.denom
  obtain ⟨t1, t2, t3, t4⟩ := tmod_bounds x.num x.denom h0
  have hfr : qval x - truncQ (qval x) = (x.num.tmod x.denom : ℚ) / x.denom := by
    rw [truncQ_qval x h0]
    have e' : ((x.num.tmod x.denom : Int) : ℚ) = x.num - x.denom * x.num.tdiv x.denom := by
      have : x.num.tmod x.denom = x.num - x.denom * x.num.tdiv x.denom := by linarith
      exact_mod_cast this
    rw [e']
    unfold qval
    field_simp
  have hcond : (if x.num.tmod x.denom > x.denom.tdiv 2 then 1 else 0 : Int) =
      if 0 < x.denom then (if 1 / 2 < qval x - truncQ (qval x) then 1 else 0)
        else (if (qval x - truncQ (qval x)) * |x.denom| < (|x.denom| / 2 : Int) then 1 else 0) := by
    rw [hfr]
    by_cases hp : 0 < x.denom
    · rw [if_pos hp]
      congr 1
      have hp' : (0 : ℚ) < x.denom := by exact_mod_cast hp
      rw [lt_div_iff₀ hp', Int.tdiv_eq_ediv_of_nonneg hp.le]
      have : (1 / 2 * (x.denom : ℚ) < x.num.tmod x.denom) ↔ x.denom < 2 * x.num.tmod x.denom := by
        constructor
        · intro h
          have : (x.denom : ℚ) < 2 * x.num.tmod x.denom := by linarith
          exact_mod_cast this
        · intro h
          have : (x.denom : ℚ) < 2 * x.num.tmod x.denom := by exact_mod_cast h
          linarith
      rw [this, eq_iff_iff]
      omega
    · rw [if_neg hp]
      congr 1
      have hn : x.denom < 0 := by omega
      have habs : |x.denom| = -x.denom := abs_of_neg hn
      have : (x.num.tmod x.denom : ℚ) / x.denom * |(x.denom : ℚ)| = (-x.num.tmod x.denom : Int) := by
        have hn' : (x.denom : ℚ) < 0 := by exact_mod_cast hn
        rw [abs_of_neg hn']
        push_cast
        field_simp
      have hcast : ((|x.denom| : Int) : ℚ) = |(x.denom : ℚ)| := by push_cast; rfl
      rw [hcast, this, habs, eq_iff_iff]
      have e3 : x.denom.tdiv 2 = -((-x.denom) / 2) := by
        have := Int.neg_tdiv (-x.denom) 2
        rw [neg_neg] at this
        rw [this, Int.tdiv_eq_ediv_of_nonneg (by omega)]
      rw [e3]
      constructor
      · intro h
        have : -x.num.tmod x.denom < -x.denom / 2 := by omega
        exact_mod_cast this
      · intro h
        have : -x.num.tmod x.denom < -x.denom / 2 := by exact_mod_cast h
        omega
  rw [← hcond, truncQ_qval x h0, arith_ok m]
  · exact newUnwrap_int p _
  · obtain ⟨b1, b2, _⟩ := bounds (p := p) (by omega)
    have hmul : (x.num.tdiv x.denom).natAbs * x.denom.natAbs ≤ x.num.natAbs := by
      rw [Int.natAbs_tdiv]; exact Nat.div_mul_le_self _ _
    by_cases hs : p.signed = true
    · have hmax : p.maxV = -p.minV - 1 := by unfold maxV minV; rw [hs]; simp
      have hmin : p.minV = -2 ^ (p.bits - 1) := by unfold minV; rw [hs]; rfl
      have h4 : (2 : Int) ^ 2 ≤ 2 ^ (p.bits - 1) := pow_le_pow_right₀ (by norm_num) (by omega)
      have hle := natAbs_le hs hxn
      by_cases h1 : x.denom.natAbs = 1
      · have hz : x.num.tmod x.denom = 0 := by omega
        have hh : x.denom.tdiv 2 = 0 := by
          rcases Int.natAbs_eq x.denom with h | h <;> rw [h1] at h <;> rw [h] <;> decide
        rw [hz, hh, if_neg (by decide), Int.add_zero]
        rcases Int.natAbs_eq x.denom with h | h <;> rw [h1] at h
        · rw [h, Nat.cast_one, Int.tdiv_one]; exact hxn
        · have hne : x.num ≠ p.minV := fun hc => bad ⟨hs, hc, h⟩
          rw [h, Nat.cast_one, Int.tdiv_neg, Int.tdiv_one]
          unfold InRange at *
          omega
      · have : (x.num.tdiv x.denom).natAbs * 2 ≤ x.num.natAbs :=
          Nat.le_trans (Nat.mul_le_mul_left _ (by omega)) hmul
        unfold InRange at *
        split <;> omega
    · have hu : p.minV = 0 := by unfold minV; rw [if_neg hs]
      have hxn' := hxn
      unfold InRange at hxn' hxd ⊢
      have hp : 0 < x.denom := by omega
      have hq := Int.tdiv_nonneg (show 0 ≤ x.num by omega) hp.le
      rw [Int.tdiv_eq_ediv_of_nonneg hp.le]
      have t3' := t3 (by omega)
      split
      · rename_i h
        have : (x.num.tdiv x.denom).natAbs * 2 ≤ x.num.natAbs :=
          Nat.le_trans (Nat.mul_le_mul_left _ (by omega)) hmul
        omega
      · have : (x.num.tdiv x.denom).natAbs * 1 ≤ x.num.natAbs :=
          Nat.le_trans (Nat.mul_le_mul_left _ (by omega)) hmul
        omega

example : RatM.round .debug i8 ⟨7, -4⟩ = .ok ⟨0, 1⟩ ∧ RatM.round .debug i8 ⟨5, 3⟩ = .ok ⟨2, 1⟩ ∧
    RatM.ceil .debug i8 ⟨-3, 2⟩ = .ok ⟨0, 1⟩ ∧ RatM.floor .debug i8 ⟨-128, -1⟩ = .panic := by decide

end Verif
