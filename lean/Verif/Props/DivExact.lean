import Verif.Props.Bitwise
import Verif.Props.UInt
import Verif.Props.BigInt
import Verif.Lemmas.ElementDivExact

/-!
# C20, C21, C30, C44: exactly what the divisions compute

The code divides by shift and subtract, but compares partial remainder and divisor from the least
significant limb up, and keeps the partial remainder in a register of the numerator's width.
`ComparesRight` (in `Spec/Div.lean`, plain arithmetic) says that every one of these comparisons
happens to come out right. The theorems here say that the quotient is right exactly then.
-/

namespace Verif

open BitSlice

variable {w : Nat}

/-! ## C20 -/

/-- C20, exact: with a divisor of at most the numerator's length all entry points give the same
quotient `q` and remainder `r`, and `q * div + r` is the numerator modulo the register size; for a
nonzero divisor the quotient is the Euclidean one if and only if
every comparison comes out right, and then the remainder is right too. Missing, because false:
right results for all divisors. -/
theorem C20_bitwise_div_exact_partial (m : Mode) (hw : 0 < w) (num div : List (BitVec w))
    (hlen : div.length ≤ num.length) (h1 : 2 ≤ w * num.length) (h2 : w * num.length < 2 ^ 64) :
    ∃ q r, BitwiseDiv.divLong m num div = .ok (q, r) ∧
      BitwiseDiv.divLongOverflowing m num div (List.replicate num.length 0) = .ok (q, r) ∧
      BitwiseDiv.remLongOverflowing m num div (List.replicate num.length 0) = .ok r ∧
      q.length = num.length ∧ r.length = num.length ∧
      (val q * val div + val r) % 2 ^ (w * num.length) = val num ∧
      (0 < val div →
        (val q = val num / val div ↔
          ComparesRight w (w * num.length) (val num) (val div)) ∧
        (ComparesRight w (w * num.length) (val num) (val div) → val r = val num % val div)) ∧
      (val div = 0 → val q + 1 = 2 ^ (w * num.length) ∧ val r = val num) := by
  obtain ⟨q, r, a0, a1, a2⟩ := bitwiseDiv_agree m hw num div hlen h1 h2
  have hdW : val div < 2 ^ (w * num.length) :=
    Nat.lt_of_lt_of_le (val_lt div)
      (Nat.pow_le_pow_right (by norm_num) (Nat.mul_le_mul_left _ hlen))
  refine ⟨q, r, a0, a1, a2, ?_⟩
  have hlens : q.length = num.length ∧ r.length = num.length := by
    obtain ⟨q', r', b0, b1, b2, -⟩ := bitwiseDivLong_exact m hw num div hlen h1 h2
      (fun _ _ _ => True) trivial (fun _ _ _ _ _ _ _ _ _ => trivial)
    rw [a0] at b0
    cases b0
    exact ⟨b1, b2⟩
  refine ⟨hlens.1, hlens.2, ?_, ?_, ?_⟩
  · obtain ⟨q', r', b0, -, -, b1⟩ := bitwiseDivLong_exact m hw num div hlen h1 h2 _
      (by simp [Nat.div_eq_of_lt (show val num < 2 ^ (w * num.length) from val_lt num)])
      (divStep_cong (w := w) (w * num.length) (val num) (val div) hdW)
    rw [a0] at b0
    cases b0
    rw [b1, Nat.pow_zero, Nat.div_one]
    exact Nat.mod_eq_of_lt (val_lt num)
  · intro hd
    obtain ⟨q', r', b0, -, -, b1, b2⟩ := bitwiseDivLong_exact m hw num div hlen h1 h2 _
      (DivInv.start (w := w) (d := val div) (val_lt num))
      (fun i q r g x hi h hx hg => DivInv.step hd hdW hi h g x hx hg)
    rw [a0] at b0
    cases b0
    have e : RightFrom w (w * num.length) (val num) (val div) 0
        ↔ ComparesRight w (w * num.length) (val num) (val div) :=
      ⟨fun h i hi => h i (Nat.zero_le _) hi, fun h i _ hi => h i hi⟩
    rw [e, Nat.pow_zero, Nat.div_one] at b1 b2
    exact ⟨⟨b2, fun h => (b1 h).1⟩, fun h => (b1 h).2⟩
  · intro hd
    obtain ⟨q', r', b0, -, -, b1⟩ := bitwiseDivLong_exact m hw num div hlen h1 h2
      (fun i q r => i ≤ w * num.length ∧ q + 1 = 2 ^ (w * num.length - i) ∧ r = val num / 2 ^ i)
      ⟨le_rfl, by simp, (Nat.div_eq_of_lt (val_lt num)).symm⟩
      (by rw [hd]; exact divStep_zero hw _ _ (val_lt num))
    rw [a0] at b0
    cases b0
    simpa using b1.2

-- a two-limb divisor and a numerator for which all comparisons come out right: 65535 / 511
example : BitwiseDiv.divLong .debug [0xFF#8, 0xFF#8] [0xFF#8, 0x01#8] = .ok ([128, 0], [127, 0]) ∧
    ComparesRight 8 16 65535 511 := by
  have e : BitwiseDiv.divLong .debug [0xFF#8, 0xFF#8] [0xFF#8, 0x01#8]
      = .ok ([128, 0], [127, 0]) := by decide +kernel
  obtain ⟨q, r, h1, -, -, -, -, -, h2, -⟩ := C20_bitwise_div_exact_partial .debug (by norm_num : 0 < 8)
    [0xFF#8, 0xFF#8] [0xFF#8, 0x01#8] (by decide) (by decide) (by decide)
  rw [e] at h1
  cases h1
  exact ⟨e, (h2 (by decide)).1.mp (by decide)⟩
-- and one for which they do not: 768 / 513
example : ¬ ComparesRight 8 16 768 513 := by
  have e : BitwiseDiv.divLong .debug [0x00#8, 0x03#8] [0x01#8, 0x02#8]
      = .ok ([0xFF#8, 1#8], [1#8, 3#8]) := by decide +kernel
  obtain ⟨q, r, h1, -, -, -, -, -, h2, -⟩ := C20_bitwise_div_exact_partial .debug (by norm_num : 0 < 8)
    [0x00#8, 0x03#8] [0x01#8, 0x02#8] (by decide) (by decide) (by decide)
  rw [e] at h1
  cases h1
  exact fun h => absurd ((h2 (by decide)).1.mpr h) (by decide)

/-! ## C21 -/

/-- C21, termination: with a divisor of at most the numerator's length the element-wise division
ends if and only if the lowest limb of the divisor is not zero, or the divisor is not zero and the
numerator is; otherwise it runs for ever. Missing, because false: termination for every nonzero
divisor. -/
theorem C21_element_div_terminates_partial (m : Mode) (hw : 0 < w) (num div : List (BitVec w))
    (hlen : div.length ≤ num.length) (h1 : 2 ≤ w * num.length) (h2 : w * num.length < 2 ^ 64) :
    ((∃ fuel x, ElementDiv.divLong m fuel num div = .ok x) ↔
      val div % 2 ^ w ≠ 0 ∨ (val div ≠ 0 ∧ val num = 0)) ∧
    ((∀ fuel, ElementDiv.divLong m fuel num div = .hang) ↔
      ¬ (val div % 2 ^ w ≠ 0 ∨ (val div ≠ 0 ∧ val num = 0))) := by
  have hyes : (val div % 2 ^ w ≠ 0 ∨ (val div ≠ 0 ∧ val num = 0)) →
      ∃ fuel x, ElementDiv.divLong m fuel num div = .ok x := by
    rintro (h | ⟨h, h'⟩)
    · obtain ⟨q, r, g⟩ := elementDivLong_ends m hw (2 ^ w) num div hlen h1 h2 le_rfl
        (by rw [← low_mod]; omega)
      exact ⟨_, _, g⟩
    · obtain ⟨q, r, g, _⟩ := elementDivLong_zero m hw 0 num div hlen h1 h2 h h'
      exact ⟨_, _, g⟩
  have hno : ¬ (val div % 2 ^ w ≠ 0 ∨ (val div ≠ 0 ∧ val num = 0)) →
      ∀ fuel, ElementDiv.divLong m fuel num div = .hang := by
    intro h fuel
    rw [not_or, not_not, not_and] at h
    refine elementDivLong_hangs m hw fuel num div hlen h1 h2 (by rw [← low_mod]; exact h.1) ?_
    by_cases hd : val div = 0
    · exact Or.inl hd
    · exact Or.inr (h.2 hd)
  refine ⟨⟨?_, hyes⟩, ⟨?_, hno⟩⟩
  · rintro ⟨fuel, x, hx⟩
    by_contra hcon
    rw [hno hcon fuel] at hx
    cases hx
  · intro h hcon
    obtain ⟨fuel, x, hx⟩ := hyes hcon
    rw [h fuel] at hx
    cases hx

-- a divisor whose lowest limb is not zero, and one whose lowest limb is
example : (∃ fuel x, ElementDiv.divLong .debug fuel [1#8, 2#8] [3#8, 1#8] = .ok x) ∧
    ¬ ∃ fuel x, ElementDiv.divLong .debug fuel [1#8, 2#8] [0#8, 1#8] = .ok x := by
  constructor
  · rw [(C21_element_div_terminates_partial .debug (by norm_num) [1#8, 2#8] [3#8, 1#8] (by decide)
      (by decide) (by decide)).1]
    decide
  · rw [(C21_element_div_terminates_partial .debug (by norm_num) [1#8, 2#8] [0#8, 1#8] (by decide)
      (by decide) (by decide)).1]
    decide

/-- C21, exact for divisors below one limb: the element-wise division divides every limb of the
numerator on its own. Limb `i` of the quotient is limb `i` of the numerator divided by the divisor,
limb `i` of the remainder is what is left over from limb `i`, so the division is right if and only
if nothing is left over above the lowest limb. Missing, because false: right results in general. -/
theorem C21_element_div_limbwise_partial (m : Mode) (hw : 0 < w) (num div : List (BitVec w))
    (hlen : div.length ≤ num.length) (h1 : 2 ≤ w * num.length) (h2 : w * num.length < 2 ^ 64)
    (hd0 : 0 < val div) (hd : val div < 2 ^ w) :
    ∃ fuel₀, ∀ fuel, fuel₀ ≤ fuel → ∃ q r, ElementDiv.divLong m fuel num div = .ok (q, r) ∧
      Norm q ∧ Norm r ∧
      (∀ i, (q.getD i 0).toNat = (num.getD i 0).toNat / val div) ∧
      (∀ i, (r.getD i 0).toNat = (num.getD i 0).toNat % val div) ∧
      val num = val q * val div + val r ∧
      (val r < val div ↔ ∀ i, 0 < i → val div ∣ (num.getD i 0).toNat) := by
  refine ⟨2 ^ w, fun fuel hf => ?_⟩
  have hD : (div.getD 0 0).toNat = val div := by rw [← low_mod, Nat.mod_eq_of_lt hd]
  obtain ⟨q, r, g0, g1, g2, g3, g4⟩ :=
    elementDivLong_limb m hw fuel num div hlen h1 h2 hf hd0 hd
  have hget : ∀ (f : BitVec w → BitVec w), f 0 = 0 → ∀ i,
      (num.map f).getD i 0 = f (num.getD i 0) := by
    intro f hf i
    rw [List.getD_eq_getElem?_getD, List.getElem?_map, List.getD_eq_getElem?_getD]
    cases num[i]? with
    | none => simpa using hf.symm
    | some v => rfl
  have hr : ∀ i, (r.getD i 0).toNat = (num.getD i 0).toNat % val div := by
    intro i
    rw [← val_div_mod, g4, val_div_mod, hget _ (by simp), BitVec.toNat_umod, hD]
  have hsum : val num = val q * val div + val r := by
    rw [g3, g4]
    clear g0 g1 g2 g3 g4 hr hget hlen h1 h2
    induction num with
    | nil => simp
    | cons v vs ih =>
      rw [List.map_cons, List.map_cons, val_cons, val_cons, val_cons, BitVec.toNat_udiv,
        BitVec.toNat_umod, hD]
      have := Nat.div_add_mod v.toNat (val div)
      have e : (v.toNat / val div
          + 2 ^ w * val (vs.map fun v => v / div.getD 0 0)) * val div
          + (v.toNat % val div + 2 ^ w * val (vs.map fun v => v % div.getD 0 0))
          = (val div * (v.toNat / val div) + v.toNat % val div)
            + 2 ^ w * (val (vs.map fun v => v / div.getD 0 0) * val div
              + val (vs.map fun v => v % div.getD 0 0)) := by ring
      rw [e, this, ← ih]
  refine ⟨q, r, g0, g1, g2, ?_, hr, hsum, ?_⟩
  · intro i
    rw [← val_div_mod, g3, val_div_mod, hget _ (by simp), BitVec.toNat_udiv, hD]
  · constructor
    · intro hlt i hi
      apply Nat.dvd_of_mod_eq_zero
      rw [← hr i, ← val_div_mod, Nat.div_eq_of_lt]
      · simp
      · refine Nat.lt_of_lt_of_le (Nat.lt_trans hlt hd)
          (Nat.pow_le_pow_right (by norm_num) ?_)
        exact Nat.le_mul_of_pos_right _ hi
    · intro h
      have hz : val r = val ([r.getD 0 0] : List (BitVec w)) := by
        rw [val_eq_iff]
        intro j _
        cases j with
        | zero => rfl
        | succ j =>
          apply BitVec.eq_of_toNat_eq
          rw [hr (j + 1), Nat.mod_eq_zero_of_dvd (h (j + 1) (by omega))]
          simp
      rw [hz]
      simp only [val_cons, val_nil, Nat.mul_zero, Nat.add_zero]
      rw [hr 0]
      exact Nat.mod_lt _ hd0

-- 868 / 7: limbs 100 and 3
example : ElementDiv.divLong .debug 256 [100#8, 3#8] [7#8] = .ok ([14], [2, 3]) := by
  decide +kernel

/-! ## C30 -/

/-- C30, exact: `U<N>` division never panics, `checked_div` is always `Some` of the quotient;
`q * b + r` is the dividend modulo `2^(8N)`; the quotient by a nonzero divisor is right if and only if every comparison comes out right, and then
the remainder is right too; dividing by zero gives the largest value and leaves the dividend as
remainder. Missing, because false: right results for all divisors and a panic for zero. -/
theorem C30_div_exact_partial (m : Mode) (a b : Bytes) (h : b.length = a.length) (ha : a ≠ [])
    (hfit : a.length < 2 ^ 60) :
    ∃ q r, UN.div m a b = .ok q ∧ UN.rem m a b = .ok r ∧ UN.checkedDiv m a b = .ok (some q) ∧
      q.length = a.length ∧ r.length = a.length ∧
      (val q * val b + val r) % 2 ^ (8 * a.length) = val a ∧
      (val b ≠ 0 →
        (val q = val a / val b ↔ ComparesRight 8 (8 * a.length) (val a) (val b)) ∧
        (ComparesRight 8 (8 * a.length) (val a) (val b) → val r = val a % val b)) ∧
      (val b = 0 → val q = 2 ^ (8 * a.length) - 1 ∧ val r = val a) := by
  have hl : 0 < a.length := List.length_pos_iff.mpr ha
  obtain ⟨q, r, -, g1, g2, g3, g4, g4', g5, g6⟩ :=
    C20_bitwise_div_exact_partial m (by norm_num : 0 < 8) a b (by omega) (by omega) (by omega)
  refine ⟨q, r, ?_, ?_, ?_, g3, g4, g4', fun _ => g5 (by omega), fun hb => ⟨?_, (g6 hb).2⟩⟩
  · unfold UN.div
    cases m with
    | debug => simp only [BitwiseDiv.divLongChecked, g1, Res.bind, Res.ofOption]
    | release => simp only [BitwiseDiv.divLongWrapping, g1, Res.bind]
  · unfold UN.rem BitwiseDiv.remLongChecked; rw [g2]; rfl
  · unfold UN.checkedDiv BitwiseDiv.divLongChecked; rw [g1]; rfl
  · have := (g6 hb).1
    omega

example : UN.div .debug [0xFF#8, 0xFF#8] [0xFF#8, 0x01#8] = .ok [128, 0] ∧
    UN.div .debug [7#8, 3#8] [0#8, 0#8] = .ok [0xFF, 0xFF] ∧
    UN.rem .debug [7#8, 3#8] [0#8, 0#8] = .ok [7, 3] := by decide +kernel

/-! ## C44 -/

open BInt

/-- C44, exact: for a divisor with at most as many 64-bit limbs as the numerator (with more there
is always a panic, `C44_div_longer_violated`), division always gives canonical results with
`|q| * |b| + |r|` congruent to `|a|`; the quotient by a nonzero divisor is right if and only if every comparison on the magnitudes comes out
right, and then the remainder has the right magnitude; both have the sign of the product of the signs;
dividing by zero gives the largest magnitude
of that many limbs, and the numerator's magnitude as remainder. Missing, because false: right
results for all divisors, the remainder's sign and a panic for zero. -/
theorem C44_div_exact_partial (m : Mode) (a b : BInt) (ha : Rep a)
    (hlen : b.limbs.length ≤ a.limbs.length) (hfit : 64 * a.limbs.length < 2 ^ 64) :
    ∃ q r, div m a b = .ok q ∧ rem m a b = .ok r ∧ Canon q ∧ Canon r ∧
      ((ival q).natAbs * (ival b).natAbs + (ival r).natAbs) % 2 ^ (64 * a.limbs.length)
        = (ival a).natAbs ∧
      (ival b ≠ 0 →
        (ival q = (ival a).tdiv (ival b) ↔
          ComparesRight 64 (64 * a.limbs.length) (ival a).natAbs (ival b).natAbs) ∧
        (ComparesRight 64 (64 * a.limbs.length) (ival a).natAbs (ival b).natAbs →
          (ival r).natAbs = ((ival a).tmod (ival b)).natAbs)) ∧
      (ival b = 0 → (ival q).natAbs = 2 ^ (64 * a.limbs.length) - 1 ∧
        (ival r).natAbs = (ival a).natAbs) ∧
      (a.neg = b.neg → 0 ≤ ival q ∧ 0 ≤ ival r) ∧ (a.neg ≠ b.neg → ival q ≤ 0 ∧ ival r ≤ 0) := by
  have hal := List.length_pos_iff.mpr ha.norm.1
  obtain ⟨q, r, g0, -, -, g3, g4, g4', g5, g6⟩ :=
    C20_bitwise_div_exact_partial m (by norm_num : 0 < 64) a.limbs b.limbs hlen (by omega) hfit
  have hq : q ≠ [] := by rintro rfl; simp at g3; omega
  have hr : r ≠ [] := by rintro rfl; simp at g4; omega
  obtain ⟨c, c1, c2, c3, c4⟩ := finish_spec (divRaw m a b) q (a.isNegative != b.isNegative)
    (by unfold divRaw; rw [g0]; rfl) hq
  obtain ⟨e, e1, e2, e3, e4⟩ := finish_spec (remRaw m a b) r (a.isNegative != b.isNegative)
    (by unfold remRaw; rw [g0]; rfl) hr
  refine ⟨c, e, c1, e1, c2, e2, ?_, ?_, ?_, ?_, ?_⟩
  · rw [natAbs_ival, natAbs_ival, natAbs_ival, natAbs_ival, c3, e3]
    exact g4'
  · intro h0
    rw [natAbs_ival, natAbs_ival]
    have hb0 : 0 < val b.limbs := by rw [← natAbs_ival b]; omega
    obtain ⟨k1, k2⟩ := g5 hb0
    refine ⟨?_, fun hc => ?_⟩
    · rw [← k1, c4]
      unfold ival isNegative
      have hcast : (val q : Int) = (val a.limbs : Int) / (val b.limbs : Int)
          ↔ val q = val a.limbs / val b.limbs := by norm_cast
      cases a.neg <;> cases b.neg <;>
        simp [Int.tdiv_neg, Int.neg_tdiv, Int.tdiv_eq_ediv_of_nonneg, hcast]
    · rw [natAbs_ival, e3, k2 hc]
      rw [Int.natAbs_tmod, natAbs_ival, natAbs_ival]
  · intro h0
    have hb0 : val b.limbs = 0 := by rw [← natAbs_ival b]; omega
    obtain ⟨k1, k2⟩ := g6 hb0
    rw [natAbs_ival, natAbs_ival, natAbs_ival, c3, e3]
    exact ⟨by omega, k2⟩
  · intro hs
    rw [c4, e4]
    unfold isNegative
    rw [hs]
    simp
  · intro hs
    rw [c4, e4]
    unfold isNegative
    have : (a.neg != b.neg) = true := by simpa using hs
    rw [this]
    simp

example : div .debug ⟨true, .slice [0xFFFFFFFFFFFFFFFF, 0xFFFFFFFFFFFFFFFF]⟩
      ⟨false, .slice [0xFFFFFFFFFFFFFFFF, 1]⟩ = .ok ⟨true, .slice [0x8000000000000000]⟩ ∧
    div .debug ⟨true, .slice [5, 6]⟩ BInt.zero
      = .ok ⟨true, .slice [0xFFFFFFFFFFFFFFFF, 0xFFFFFFFFFFFFFFFF]⟩ ∧
    rem .debug ⟨true, .slice [5, 6]⟩ BInt.zero = .ok ⟨true, .slice [5, 6]⟩ := by decide +kernel

end Verif
