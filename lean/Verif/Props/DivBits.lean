import Verif.Props.DivExact
import Mathlib.Data.Int.ModEq

/-!
# C20, C30, C44: every bit of the quotients

`Props/DivExact` says for which operands the quotients are right. Here are the quotients and remainders
of all operands, by a condition on their bits (`LowQuot` in `Spec/Div.lean`, plain arithmetic) that
only one pair of numbers meets.
-/

namespace Verif

open BitSlice

variable {w : Nat}

/-- The condition on the bits determines quotient and remainder. -/
theorem lowQuot_unique {w W n d q r q' r' : Nat} (h : LowQuot w W n d q r)
    (h' : LowQuot w W n d q' r') : q = q' ∧ r = r' := by
  obtain ⟨a1, a2, a3, a4⟩ := h
  obtain ⟨b1, b2, b3, b4⟩ := h'
  have key : ∀ k, q / 2 ^ (W - k) = q' / 2 ^ (W - k) := by
    intro k
    induction k with
    | zero => rw [Nat.sub_zero, Nat.div_eq_of_lt a1, Nat.div_eq_of_lt b1]
    | succ k ih =>
      by_cases hk : W ≤ k
      · rw [show W - (k + 1) = W - k by omega, ih]
      · obtain ⟨i, hi⟩ : ∃ i, W - k = i + 1 := ⟨W - k - 1, by omega⟩
        rw [hi] at ih
        rw [show W - (k + 1) = i by omega, div_pow_step q, div_pow_step q', ih]
        have e : leftOver 1 W n d q i 0 = leftOver 1 W n d q' i 0 := by
          unfold leftOver
          rw [Nat.one_mul, Nat.one_mul, ih]
        have hb : q.testBit i = q'.testBit i := by
          have h1 := a4 i (by omega)
          rw [e, ← b4 i (by omega)] at h1
          exact Bool.eq_iff_iff.mpr h1
        rw [hb]
  have hq : q = q' := by simpa using key W
  subst hq
  refine ⟨rfl, ?_⟩
  have h1 : q * d + r ≡ q * d + r' [MOD 2 ^ W] := by
    unfold Nat.ModEq; rw [a3, b3]
  exact (Nat.ModEq.add_left_cancel' _ h1).eq_of_lt_of_lt a2 b2

/-- What the loop keeps: the bits decided so far are those of the condition. -/
private def BitsInv (w W n d i q r : Nat) : Prop :=
  i ≤ W ∧ r < 2 ^ W ∧ q < 2 ^ (W - i) ∧ (q * d + r) % 2 ^ W = n / 2 ^ i % 2 ^ W ∧
  ∀ k, i ≤ k → k < W →
    ((q * 2 ^ i).testBit k = true ↔ LowGe w (leftOver 1 W n d (q * 2 ^ i) k 0) d)

private theorem bits_step (W n d : Nat) (hdW : d < 2 ^ W) : DivStep w W n d (BitsInv w W n d) := by
  intro i q r g x hi h hx hg
  have hc := divStep_cong (w := w) W n d hdW i q r g x hi h.2.2.2.1 hx hg
  obtain ⟨h1, h2, h3, h4, h5⟩ := h
  have hW : 0 < 2 ^ W := Nat.two_pow_pos W
  have hpi : 2 ^ (i + 1) = 2 * 2 ^ i := by rw [Nat.pow_succ, Nat.mul_comm]
  have hval : (2 * q + g.toNat) * 2 ^ i = q * 2 ^ (i + 1) + g.toNat * 2 ^ i := by rw [hpi]; ring
  have hgl : g.toNat * 2 ^ i < 2 ^ (i + 1) := by
    have : 0 < 2 ^ i := Nat.two_pow_pos i
    cases g <;> simp [hpi]
  have hdiv : ∀ k, i ≤ k → (2 * q + g.toNat) * 2 ^ i / 2 ^ (k + 1) = q * 2 ^ (i + 1) / 2 ^ (k + 1) := by
    intro k hk
    obtain ⟨j, rfl⟩ : ∃ j, k = i + j := ⟨k - i, by omega⟩
    have e : 2 ^ (i + j + 1) = 2 ^ (i + 1) * 2 ^ j := by rw [← Nat.pow_add]; congr 1; omega
    rw [e, ← Nat.div_div_eq_div_mul, ← Nat.div_div_eq_div_mul, hval,
      Nat.add_comm, Nat.add_mul_div_right _ _ (Nat.two_pow_pos _), Nat.div_eq_of_lt hgl,
      Nat.mul_div_cancel _ (Nat.two_pow_pos _), Nat.zero_add]
  have hdiv' : q * 2 ^ (i + 1) / 2 ^ (i + 1) = q := Nat.mul_div_cancel _ (Nat.two_pow_pos _)
  have hxW : x < 2 ^ W := by rw [hx]; exact Nat.mod_lt _ hW
  refine ⟨by omega, ?_, ?_, hc, ?_⟩
  · split
    · exact Nat.mod_lt _ hW
    · exact hxW
  · have e : 2 ^ (W - i) = 2 * 2 ^ (W - (i + 1)) := by rw [← Nat.pow_succ']; congr 1; omega
    have := Bool.toNat_lt g
    omega
  · intro k hk hkW
    rcases Nat.eq_or_lt_of_le hk with rfl | hlt
    · have hb : ((2 * q + g.toNat) * 2 ^ i).testBit i = g := by
        rw [Nat.testBit_mul_two_pow]
        simp only [le_refl, decide_true, Nat.sub_self, Bool.true_and]
        rw [Nat.testBit_zero]
        cases g <;> simp <;> omega
      have hl : leftOver 1 W n d ((2 * q + g.toNat) * 2 ^ i) i 0 = x := by
        unfold leftOver
        rw [Nat.one_mul, Nat.one_mul, hdiv i le_rfl, hdiv', Nat.add_zero]
        have hz : ((n / 2 ^ i : Nat) : Int) - (q * 2 ^ 1 : Nat) * d ≡ x [ZMOD 2 ^ W] := by
          have e1 : ((q * d + r : Nat) : Int) ≡ (n / 2 ^ (i + 1) : Nat) [ZMOD 2 ^ W] := by
            have := (Int.natCast_modEq_iff (n := 2 ^ W)).mpr (show q * d + r ≡ n / 2 ^ (i + 1) [MOD 2 ^ W] from h4)
            exact_mod_cast this
          have e2 : (x : Int) ≡ (2 * r + (n.testBit i).toNat : Nat) [ZMOD 2 ^ W] := by
            have := (Int.natCast_modEq_iff (n := 2 ^ W)).mpr
              (show x ≡ 2 * r + (n.testBit i).toNat [MOD 2 ^ W] by rw [hx]; exact Nat.mod_modEq _ _)
            exact_mod_cast this
          rw [div_pow_step n i]
          push_cast at e1 e2 ⊢
          have e3 := ((e1.symm.mul_left 2).add_right ((n.testBit i).toNat : Int)).sub_right (q * 2 * d : Int)
          refine e3.trans (Int.ModEq.trans ?_ e2.symm)
          rw [show (2 * ((q : Int) * d + r) + (n.testBit i).toNat - q * 2 * d)
            = 2 * r + (n.testBit i).toNat by ring]
        have hz' : (((n / 2 ^ i : Nat) : Int) - (q * 2 ^ 1 : Nat) * d) % 2 ^ W = x := by
          rw [hz.eq]
          exact Int.emod_eq_of_lt (by omega) (by exact_mod_cast hxW)
        rw [hz']
        rfl
      rw [hb, hl]
      exact hg
    · have hb : ((2 * q + g.toNat) * 2 ^ i).testBit k = (q * 2 ^ (i + 1)).testBit k := by
        have := hdiv (k - 1) (by omega)
        rw [show k - 1 + 1 = k by omega] at this
        rw [Nat.testBit_eq_decide_div_mod_eq, Nat.testBit_eq_decide_div_mod_eq, this]
      have hl : leftOver 1 W n d ((2 * q + g.toNat) * 2 ^ i) k 0
          = leftOver 1 W n d (q * 2 ^ (i + 1)) k 0 := by
        unfold leftOver
        rw [Nat.one_mul, Nat.one_mul, hdiv k hk]
      rw [hb, hl]
      exact h5 k (by omega) hkW

/-- C20, quotient and remainder bit by bit, for every divisor of at most the numerator's length: a bit of
the quotient is set exactly if what is left, compared lowest limb first, seems at least the divisor.
Missing, because false: right results for all divisors. -/
theorem C20_bitwise_div_bits_partial (m : Mode) (hw : 0 < w) (num div : List (BitVec w))
    (hlen : div.length ≤ num.length) (h1 : 2 ≤ w * num.length) (h2 : w * num.length < 2 ^ 64) :
    ∃ q r, BitwiseDiv.divLong m num div = .ok (q, r) ∧
      BitwiseDiv.divLongOverflowing m num div (List.replicate num.length 0) = .ok (q, r) ∧
      BitwiseDiv.remLongOverflowing m num div (List.replicate num.length 0) = .ok r ∧
      LowQuot w (w * num.length) (val num) (val div) (val q) (val r) := by
  obtain ⟨q, r, a0, a1, a2⟩ := bitwiseDiv_agree m hw num div hlen h1 h2
  have hdW : val div < 2 ^ (w * num.length) :=
    Nat.lt_of_lt_of_le (val_lt div)
      (Nat.pow_le_pow_right (by norm_num) (Nat.mul_le_mul_left _ hlen))
  obtain ⟨q', r', b0, -, -, b1⟩ := bitwiseDivLong_exact m hw num div hlen h1 h2
    (BitsInv w (w * num.length) (val num) (val div))
    ⟨le_rfl, Nat.two_pow_pos _, by simp, by simp [Nat.div_eq_of_lt (show val num < 2 ^ (w * num.length) from val_lt num)],
      fun k hk hk' => by omega⟩
    (bits_step _ _ _ hdW)
  rw [a0] at b0
  cases b0
  refine ⟨q, r, a0, a1, a2, ?_⟩
  obtain ⟨-, c2, c3, c4, c5⟩ := b1
  simp only [Nat.pow_zero, Nat.mul_one, Nat.div_one, Nat.sub_zero] at c3 c4 c5
  exact ⟨c3, c2, c4, fun i hi => c5 i (Nat.zero_le _) hi⟩

/-- C30, quotient and remainder of all operands of `U<N>`, zero divisors included, bit by bit. Missing,
because false: right results for all divisors. -/
theorem C30_div_bits_partial (m : Mode) (a b : Bytes) (h : b.length = a.length) (ha : a ≠ [])
    (hfit : a.length < 2 ^ 60) :
    ∃ q r, UN.div m a b = .ok q ∧ UN.rem m a b = .ok r ∧
      LowQuot 8 (8 * a.length) (val a) (val b) (val q) (val r) := by
  have hl : 0 < a.length := List.length_pos_iff.mpr ha
  obtain ⟨q, r, -, g1, g2, g3⟩ :=
    C20_bitwise_div_bits_partial m (by norm_num : 0 < 8) a b (by omega) (by omega) (by omega)
  refine ⟨q, r, ?_, ?_, g3⟩
  · unfold UN.div
    cases m with
    | debug => simp only [BitwiseDiv.divLongChecked, g1, Res.bind, Res.ofOption]
    | release => simp only [BitwiseDiv.divLongWrapping, g1, Res.bind]
  · unfold UN.rem BitwiseDiv.remLongChecked; rw [g2]; rfl

open BInt in
/-- C44, the magnitudes of quotient and remainder of all operands, the divisor having at most as many
limbs as the numerator, bit by bit. Missing, because false: right results for all divisors. -/
theorem C44_div_bits_partial (m : Mode) (a b : BInt) (ha : Rep a)
    (hlen : b.limbs.length ≤ a.limbs.length) (hfit : 64 * a.limbs.length < 2 ^ 64) :
    ∃ q r, div m a b = .ok q ∧ rem m a b = .ok r ∧
      LowQuot 64 (64 * a.limbs.length) (ival a).natAbs (ival b).natAbs (ival q).natAbs (ival r).natAbs := by
  have hal := List.length_pos_iff.mpr ha.norm.1
  obtain ⟨q, r, g0, -, -, g3⟩ :=
    C20_bitwise_div_bits_partial m (by norm_num : 0 < 64) a.limbs b.limbs hlen (by omega) hfit
  obtain ⟨q', r', g0', -, -, g4, g5, -⟩ :=
    C20_bitwise_div_exact_partial m (by norm_num : 0 < 64) a.limbs b.limbs hlen (by omega) hfit
  rw [g0] at g0'
  cases g0'
  have hq : q ≠ [] := by rintro rfl; simp at g4; omega
  have hr : r ≠ [] := by rintro rfl; simp at g5; omega
  obtain ⟨c, c1, c2, c3, c4⟩ := finish_spec (divRaw m a b) q (a.isNegative != b.isNegative)
    (by unfold divRaw; rw [g0]; rfl) hq
  obtain ⟨e, e1, e2, e3, e4⟩ := finish_spec (remRaw m a b) r (a.isNegative != b.isNegative)
    (by unfold remRaw; rw [g0]; rfl) hr
  refine ⟨c, e, c1, e1, ?_⟩
  rw [natAbs_ival, natAbs_ival, natAbs_ival, natAbs_ival, c3, e3]
  exact g3

-- 768 / 513 comes out as 511, remainder 769: these are the numbers that meet the condition
example : LowQuot 8 16 768 513 511 769 ∧ ∀ q r, LowQuot 8 16 768 513 q r → q = 511 ∧ r = 769 := by
  have e : BitwiseDiv.divLong .debug [0x00#8, 0x03#8] [0x01#8, 0x02#8]
      = .ok ([0xFF#8, 1#8], [1#8, 3#8]) := by decide +kernel
  obtain ⟨q, r, h1, -, -, h2⟩ := C20_bitwise_div_bits_partial .debug (by norm_num : 0 < 8)
    [0x00#8, 0x03#8] [0x01#8, 0x02#8] (by decide) (by decide) (by decide)
  rw [e] at h1
  cases h1
  exact ⟨h2, fun q r h => lowQuot_unique h h2⟩

end Verif
