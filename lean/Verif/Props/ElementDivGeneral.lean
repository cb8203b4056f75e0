import Verif.Lemmas.ElementDivDigits
import Verif.Spec.Div
import Mathlib.Data.Int.ModEq

/-!
# C21: element-wise long division by divisors of several limbs, and by longer ones
-/

namespace Verif

variable {w : Nat}

/-- C21 for every divisor on which the division ends with a nonzero numerator (its lowest limb is
not zero): the higher limbs of the divisor hardly matter. Limb `i` of the quotient is limb `i` of the
numerator divided by the lowest limb of the divisor alone, or one less if that leaves nothing over;
the remainder makes up for it modulo `2^(w * length)`, so it is right whenever the quotient is.
Missing, because false: a right quotient. -/
theorem C21_element_div_digits_partial (m : Mode) (hw : 0 < w) (num div : List (BitVec w))
    (hlen : div.length ≤ num.length) (h1 : 2 ≤ w * num.length) (h2 : w * num.length < 2 ^ 64)
    (hd0 : val div % 2 ^ w ≠ 0) :
    ∃ fuel₀, ∀ fuel, fuel₀ ≤ fuel → ∃ q r, ElementDiv.divLong m fuel num div = .ok (q, r) ∧
      Norm q ∧ Norm r ∧
      (∀ i, (q.getD i 0).toNat = (num.getD i 0).toNat / (val div % 2 ^ w) ∨
        ((q.getD i 0).toNat + 1) * (val div % 2 ^ w) = (num.getD i 0).toNat) ∧
      (val q * val div + val r) % 2 ^ (w * num.length) = val num ∧
      (val q = val num / val div → val r = val num % val div) := by
  refine ⟨2 ^ w, fun fuel hf => ?_⟩
  rw [low_mod] at hd0
  obtain ⟨q, r, g0, g1, g2, g3, g4, g5⟩ :=
    elementDivLong_general m hw fuel num div hlen h1 h2 hf (by omega)
  have hn := val_lt num
  have g6 : (val q * val div + val r) % modulus num = val num := by
    rw [g5, Nat.mod_eq_of_lt hn]
  refine ⟨q, r, g0, g1, g2, ?_, g6, ?_⟩
  · rw [low_mod]; exact g4
  · intro hq
    have hle : val q * val div ≤ val num := by rw [hq]; exact Nat.div_mul_le_self _ _
    have hdm := Nat.div_add_mod (val num) (val div)
    rw [Nat.mul_comm, ← hq] at hdm
    by_cases hc : val q * val div + val r < modulus num
    · rw [Nat.mod_eq_of_lt hc] at g6
      omega
    · rw [Nat.mod_eq_sub_mod (by omega), Nat.mod_eq_of_lt (by omega)] at g6
      omega

-- 0x0906 / 0x0203: 6 / 3 and 9 / 3 limb by limb, where 4 is right
example : ElementDiv.divLong .debug 256 [6#8, 9#8] [3#8, 2#8] = .ok ([2, 3], [0, 252]) ∧
    val [6#8, 9#8] / val [3#8, 2#8] = 4 ∧
    (val [2#8, 3#8] * val [3#8, 2#8] + val [0#8, 252#8]) % 2 ^ 16 = val [6#8, 9#8] := by
  decide +kernel

-- one less: 6 / 6 leaves nothing over, and the upper limb 2 is below the divisor's 9
example : ∃ r, ElementDiv.divLong .debug 256 [6#8, 2#8] [6#8, 9#8] = .ok ([0], r) := by
  exact ⟨[6#8, 2#8], by decide +kernel⟩

theorem leftOver_spec (w W n d q i k : Nat) :
    leftOver w W n d q i k < 2 ^ W ∧
    leftOver w W n d q i k + (q / 2 ^ (w * (i + 1)) * 2 ^ w + k) * d ≡ n / 2 ^ (w * i) [MOD 2 ^ W] := by
  have hp : (0 : Int) < 2 ^ W := by positivity
  have h1 := Int.emod_nonneg ((n / 2 ^ (w * i) : Nat) - (q / 2 ^ (w * (i + 1)) * 2 ^ w + k : Nat) * d : Int)
    hp.ne'
  have h2 := Int.emod_lt_of_pos ((n / 2 ^ (w * i) : Nat) - (q / 2 ^ (w * (i + 1)) * 2 ^ w + k : Nat) * d : Int)
    hp
  constructor
  · unfold leftOver
    have : ((2 ^ W : Nat) : Int) = 2 ^ W := by push_cast; rfl
    omega
  · rw [← Int.natCast_modEq_iff]
    unfold leftOver
    rw [Nat.cast_add, Int.toNat_of_nonneg h1]
    have := (Int.mod_modEq ((n / 2 ^ (w * i) : Nat) - (q / 2 ^ (w * (i + 1)) * 2 ^ w + k : Nat) * d : Int)
      (2 ^ W)).add_right (((q / 2 ^ (w * (i + 1)) * 2 ^ w + k) * d : Nat) : Int)
    rw [Nat.cast_pow]
    refine this.trans ?_
    rw [Nat.cast_mul, sub_add_cancel]

/-- C21, the quotient exactly, for every divisor on which the division of a nonzero numerator ends: limb `i` is limb `i` of the
numerator divided by the lowest limb of the divisor, one less exactly if that leaves nothing over and at the
last subtraction the divisor, compared lowest limb first, seems larger than what is left. Missing, because
false: a right quotient. -/
theorem C21_element_div_exact_partial (m : Mode) (hw : 0 < w) (num div : List (BitVec w))
    (hlen : div.length ≤ num.length) (h1 : 2 ≤ w * num.length) (h2 : w * num.length < 2 ^ 64)
    (hd0 : val div % 2 ^ w ≠ 0) :
    ∃ fuel₀, ∀ fuel, fuel₀ ≤ fuel → ∃ q r, ElementDiv.divLong m fuel num div = .ok (q, r) ∧
      Norm q ∧ Norm r ∧ (val q * val div + val r) % 2 ^ (w * num.length) = val num ∧
      val r < 2 ^ (w * num.length) ∧
      ∀ i, let a := (num.getD i 0).toNat
        let d := val div % 2 ^ w
        let l := leftOver w (w * num.length) (val num) (val div) (val q) i (a / d - 1)
        (a ≠ 0 ∧ d ∣ a ∧ ¬ LowGe w l (val div) → (q.getD i 0).toNat = a / d - 1) ∧
        (¬ (a ≠ 0 ∧ d ∣ a ∧ ¬ LowGe w l (val div)) → (q.getD i 0).toNat = a / d) := by
  refine ⟨2 ^ w, fun fuel hf => ?_⟩
  have hlow := low_mod div
  rw [hlow] at hd0
  obtain ⟨q, r, g0, g1, g2, g3, g4, g5, g6⟩ :=
    elementDivLong_exact m hw fuel num div hlen h1 h2 hf (by omega)
  refine ⟨q, r, g0, g1, g2, ?_, g3, fun i => ?_⟩
  · change _ % modulus num = _
    rw [g5, Nat.mod_eq_of_lt (val_lt num)]
  · simp only
    rw [hlow]
    generalize hd : (div.getD 0 0).toNat = d at *
    have g4 := g4 i
    by_cases hi : i < num.length
    · have hl := leftOver_spec w (w * num.length) (val num) (val div) (val q) i 0
      have hs := g6 i hi (leftOver w (w * num.length) (val num) (val div) (val q) i 0) hl.2
      have at_ : ∀ k, leftOver w (w * num.length) (val num) (val div) (val q) i k + k * val div ≡
          leftOver w (w * num.length) (val num) (val div) (val q) i 0 [MOD modulus num] := by
        intro k
        have hk := leftOver_spec w (w * num.length) (val num) (val div) (val q) i k
        refine Nat.ModEq.add_right_cancel' (val q / 2 ^ (w * (i + 1)) * 2 ^ w * val div) ?_
        refine Nat.ModEq.trans ?_ hl.2.symm
        refine Nat.ModEq.trans ?_ hk.2
        rw [show leftOver w (w * num.length) (val num) (val div) (val q) i k + k * val div
          + val q / 2 ^ (w * (i + 1)) * 2 ^ w * val div
          = leftOver w (w * num.length) (val num) (val div) (val q) i k
            + (val q / 2 ^ (w * (i + 1)) * 2 ^ w + k) * val div by ring]
      generalize (num.getD i 0).toNat = a at *
      generalize (q.getD i 0).toNat = k at *
      rcases g4 with g4 | g4
      · refine ⟨fun ⟨c1, c2, c3⟩ => absurd ?_ c3, fun _ => g4⟩
        have : 0 < a / d := Nat.div_pos (Nat.le_of_dvd (by omega) c2) (by omega)
        exact hs.2 (a / d - 1) (by omega) _ (leftOver_spec ..).1 (at_ _)
      · have e : a / d = k + 1 := by rw [← g4]; exact Nat.mul_div_cancel _ (by omega)
        rw [e, Nat.add_sub_cancel]
        refine ⟨fun _ => rfl, fun hc => absurd ⟨?_, ?_, ?_⟩ hc⟩
        · have : 0 < (k + 1) * d := Nat.mul_pos (by omega) (by omega)
          omega
        · exact ⟨k + 1, by rw [← g4]; ring⟩
        · exact hs.1 _ (leftOver_spec ..).1 (at_ _)
    · have hz : (num.getD i 0).toNat = 0 := by
        rw [List.getD_eq_getElem?_getD, List.getElem?_eq_none (by omega)]; rfl
      rw [hz] at g4 ⊢
      rcases g4 with g4 | g4
      · exact ⟨fun h => absurd rfl h.1, fun _ => g4⟩
      · have : 0 < ((q.getD i 0).toNat + 1) * d := Nat.mul_pos (by omega) (by omega)
        omega

-- 0x0206 / 0x0906: the lowest limbs are equal, the next one of what is left is smaller, so nothing is
-- subtracted; with
-- the divisor 0x0106 it is not, and 6 / 6 counts
example : ∃ r, ElementDiv.divLong .debug 256 [6#8, 2#8] [6#8, 9#8] = .ok ([0], r) ∧
    ¬ LowGe 8 (leftOver 8 16 (val [6#8, 2#8]) (val [6#8, 9#8]) 0 0 0) (val [6#8, 9#8]) := by
  refine ⟨[6#8, 2#8], by decide +kernel, ?_⟩
  rw [show leftOver 8 16 (val [6#8, 2#8]) (val [6#8, 9#8]) 0 0 0 = val [6#8, 2#8] by decide +kernel,
    ← isGe_iff]
  decide
example : ElementDiv.divLong .debug 256 [6#8, 2#8] [6#8, 1#8] = .ok ([1], [0, 1]) := by
  decide +kernel

/-- C21: a divisor written with more limbs than the numerator always panics, whatever its value. -/
theorem C21_element_div_longer_violated (m : Mode) (fuel : Nat) (num div : List (BitVec w))
    (h : num.length < div.length) : ElementDiv.divLong m fuel num div = .panic :=
  elementDivLong_longer m fuel num div h

example : ElementDiv.divLong .release 256 [7#8] [2#8, 0#8] = .panic := by decide

end Verif
