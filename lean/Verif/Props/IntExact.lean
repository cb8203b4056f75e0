import Verif.Props.DivExact
import Verif.Props.DivBits
import Verif.Props.IInt
import Verif.Props.Order

/-!
# C37, C41: exactly what printing of `U<N>` and division of `I<N>` do
-/

namespace Verif

/-! ## C37 -/

/-- C37, exact: `U<1>` prints its decimal digits (see `C37_display_partial`); for `N` from 2 to 8
zero prints as `0` and every other value panics; from `N = 9` on every value panics. -/
theorem C37_display_exact_partial (m : Mode) (fuel : Nat) (a : Bytes) :
    (2 ≤ a.length → a.length ≤ 8 → val a = 0 → UN.display m fuel a = .ok ['0']) ∧
    (2 ≤ a.length → a.length ≤ 8 → val a ≠ 0 → 0 < fuel → UN.display m fuel a = .panic) ∧
    (9 ≤ a.length → UN.display m fuel a = .panic) := by
  have hcmp : val a ≠ 0 ↔ UN.cmp a (UN.zero a.length) = .gt := by
    have h0 : (UN.zero a.length).length = a.length := UN.length_zero _
    rw [C31_order_exact_partial a _ h0, compare_gt_iff_gt]
    have hz : beVal (UN.zero a.length) = 0 := by
      have e : beVal (UN.zero a.length) = bigEnd (UN.zero a.length) := rfl
      rw [e, bigEnd_eq]
      simp [UN.zero]
    rw [hz, Nat.pos_iff_ne_zero, not_iff_not]
    have hb : beVal a = 0 ↔ a = UN.zero a.length := by
      conv_lhs => rw [← hz]
      exact bigEnd_inj h0.symm
    rw [hb]
    constructor
    · intro h
      exact eq_of_val_eq h0.symm (by rw [h, UN.val_zero])
    · intro h
      rw [h, UN.val_zero]
  refine ⟨fun h1 h2 hz => ?_, fun h1 h2 hz hf => ?_, fun h => ?_⟩
  · obtain ⟨b, g1, _⟩ := fromPrimChecked_trunc a.length 8 (BitVec.ofNat 64 10) h2
    unfold UN.display UN.writeBase
    rw [show UN.fromPrimChecked a.length 8 (BitVec.ofNat 64 10) = _ from g1]
    simp only [Res.bind, Res.ofOption]
    have hn : ¬ UN.cmp a (UN.zero a.length) = .gt := fun h => hcmp.mpr h hz
    rw [UN.writeLoop.eq_def]
    simp only [hn, if_false]
    rfl
  · obtain ⟨b, g1, g2, g3⟩ := fromPrimChecked_trunc a.length 8 (BitVec.ofNat 64 10) h2
    unfold UN.display UN.writeBase
    rw [show UN.fromPrimChecked a.length 8 (BitVec.ofNat 64 10) = _ from g1]
    simp only [Res.bind, Res.ofOption]
    have hg := hcmp.mp hz
    obtain ⟨q, r, _, k2, _, _, k5, _⟩ := C30_div_exact_partial m a b g2
      (List.length_pos_iff.mp (by omega)) (by omega)
    obtain ⟨f, rfl⟩ : ∃ f, fuel = f + 1 := ⟨fuel - 1, by omega⟩
    rw [UN.writeLoop]
    simp only [hg, if_true, k2, Res.bind, toPrimChecked_panic 1 r (by omega)]
  · unfold UN.display UN.writeBase
    rw [show UN.fromPrimChecked a.length 8 (BitVec.ofNat 64 10) = .panic from
      fromPrimChecked_panic a.length 8 _ (by omega)]
    rfl

example : UN.display .debug 5 [0#8, 0#8] = .ok ['0'] ∧ UN.display .release 5 [7#8, 0#8] = .panic ∧
    UN.display .release 5 (List.replicate 9 0#8) = .panic := by decide +kernel

/-! ## C41 -/

/-- The magnitude that the code divides: the number with its sign bit cleared, that is reduced
modulo `256^N / 2`. For nonnegative numbers this is the number itself. -/
def signCleared (N : Nat) (x : ℤ) : ℕ := (x % (256 ^ N / 2)).toNat

theorem signCleared_spec (a : Bytes) (ha : a ≠ []) :
    signCleared a.length (sval a) = val a % (256 ^ a.length / 2) := by
  have hl : 0 < a.length := List.length_pos_iff.mpr ha
  obtain ⟨H, hH⟩ : ∃ H : Nat, 256 ^ a.length = 2 * H := by
    obtain ⟨k, hk⟩ : ∃ k, a.length = k + 1 := ⟨a.length - 1, by omega⟩
    exact ⟨128 * 256 ^ k, by rw [hk, Nat.pow_succ]; ring⟩
  have hHi : (256 : ℤ) ^ a.length = 2 * H := by exact_mod_cast hH
  unfold signCleared sval
  rw [hH, hHi, Nat.mul_div_cancel_left _ (by norm_num), Int.mul_ediv_cancel_left _ (by norm_num)]
  split
  · rw [← Int.natCast_mod, Int.toNat_natCast]
  · rw [show (val a : ℤ) - 2 * H = val a + H * (-2) by ring, Int.add_mul_emod_self_left,
      ← Int.natCast_mod, Int.toNat_natCast]

private theorem div_all (m : Mode) (a b : Bytes) (ha : a ≠ []) (h : b.length = a.length)
    (hfit : a.length < 2 ^ 60) :
    ∃ (q r : Bytes) (q₀ r₀ : ℕ), IN.div m a b = .ok q ∧ IN.rem m a b = .ok r ∧
      q.length = a.length ∧ r.length = a.length ∧
      WrapsTo a.length (if (sval a < 0 ↔ sval b < 0) then q₀ else -q₀) (sval q) ∧
      WrapsTo a.length (if (sval a < 0 ↔ sval b < 0) then r₀ else -r₀) (sval r) ∧
      q₀ < 256 ^ a.length ∧ r₀ < 256 ^ a.length ∧
      (q₀ * signCleared a.length (sval b) + r₀) % 256 ^ a.length = signCleared a.length (sval a) ∧
      (signCleared a.length (sval b) ≠ 0 →
        (q₀ = signCleared a.length (sval a) / signCleared a.length (sval b) ↔
          ComparesRight 8 (8 * a.length) (signCleared a.length (sval a))
            (signCleared a.length (sval b))) ∧
        (ComparesRight 8 (8 * a.length) (signCleared a.length (sval a))
            (signCleared a.length (sval b)) →
          r₀ = signCleared a.length (sval a) % signCleared a.length (sval b))) ∧
      (signCleared a.length (sval b) = 0 →
        q₀ + 1 = 256 ^ a.length ∧ r₀ = signCleared a.length (sval a)) ∧
      LowQuot 8 (8 * a.length) (signCleared a.length (sval a)) (signCleared a.length (sval b)) q₀ r₀ := by
  have hl : 0 < a.length := List.length_pos_iff.mpr ha
  have hbn : b ≠ [] := List.length_pos_iff.mp (by omega)
  obtain ⟨x, x1, x2, x3⟩ := IN.abs_spec a ha
  obtain ⟨y, y1, y2, y3⟩ := IN.abs_spec b hbn
  have hP : ∀ n, 2 ^ (8 * n) = 256 ^ n := fun n => by rw [Nat.pow_mul]
  obtain ⟨q, r, -, g1, g2, g3, g4, g5, g6, g7⟩ :=
    C20_bitwise_div_exact_partial m (by norm_num : 0 < 8) x y (by omega) (by omega) (by omega)
  obtain ⟨q', r', -, b1, b2, g8⟩ :=
    C20_bitwise_div_bits_partial m (by norm_num : 0 < 8) x y (by omega) (by omega) (by omega)
  rw [g1] at b1
  cases b1
  rw [x2] at g1 g2 g5 g6 g7 g8
  rw [hP] at g5 g7
  rw [y3, ← signCleared_spec b hbn, h, x3, ← signCleared_spec a ha] at g5 g6 g7 g8
  have hneg : ∀ z : Bytes, z.length = a.length →
      (IN.neg z).length = a.length ∧ WrapsTo a.length (-(val z : ℤ)) (sval (IN.neg z)) := by
    intro z hz
    obtain ⟨_, _, _, n1, n2⟩ := C38_twos_complement z z rfl
    rw [hz] at n1 n2
    refine ⟨n1, n2.1, n2.2.1, ?_⟩
    have h1 := n2.2.2
    have h2 := sval_dvd z
    rw [hz] at h2
    have : sval (IN.neg z) - -(val z : ℤ) = (sval (IN.neg z) - -sval z) - (sval z - val z) := by ring
    rw [this]
    exact dvd_sub h1 h2
  have hpos : ∀ z : Bytes, z.length = a.length → WrapsTo a.length (val z : ℤ) (sval z) := by
    intro z hz
    have := wraps_of_mod z (val z) (by simp)
    rwa [hz] at this
  have hlt : ∀ z : Bytes, z.length = a.length → val z < 256 ^ a.length := by
    intro z hz
    rw [← hz, ← modulus_bytes]; exact val_lt z
  have eD : IN.div m a b = .ok (if (decide (sval a < 0) != decide (sval b < 0)) then IN.neg q
      else q) := by
    unfold IN.div
    rw [IN.isNegative_spec a ha, IN.isNegative_spec b hbn, x1, y1]
    simp only [Res.bind, BitwiseDiv.divLongWrapping, g1]
  have eR : IN.rem m a b = .ok (if (decide (sval a < 0) != decide (sval b < 0)) then IN.neg r
      else r) := by
    unfold IN.rem
    rw [IN.isNegative_spec a ha, IN.isNegative_spec b hbn, x1, y1]
    simp only [Res.bind, BitwiseDiv.remLongWrapping, g2]
  refine ⟨_, _, val q, val r, eD, eR, ?_, ?_, ?_, ?_, hlt q (by omega), hlt r (by omega), g5,
    fun h0 => g6 (by omega), g7, g8⟩
  all_goals
    by_cases p : sval a < 0 <;> by_cases s : sval b < 0 <;> simp [p, s]
  · omega
  · exact (hneg q (by omega)).1
  · exact (hneg q (by omega)).1
  · omega
  · omega
  · exact (hneg r (by omega)).1
  · exact (hneg r (by omega)).1
  · omega
  · exact hpos q (by omega)
  · exact (hneg q (by omega)).2
  · exact (hneg q (by omega)).2
  · exact hpos q (by omega)
  · exact hpos r (by omega)
  · exact (hneg r (by omega)).2
  · exact (hneg r (by omega)).2
  · exact hpos r (by omega)

/-- C41, exact: division and remainder never panic. The code divides the sign-cleared operands
with the (wrongly comparing) long division, and negates quotient and remainder when exactly one
operand is negative. So the numbers `q₀`, `r₀` below are the Euclidean quotient and remainder of the
sign-cleared operands exactly when all comparisons of the long division come out right. -/
theorem C41_div_exact_partial (m : Mode) (a b : Bytes) (ha : a ≠ []) (h : b.length = a.length)
    (hfit : a.length < 2 ^ 60) :
    ∃ (q r : Bytes) (q₀ r₀ : ℕ), IN.div m a b = .ok q ∧ IN.rem m a b = .ok r ∧
      q.length = a.length ∧ r.length = a.length ∧
      WrapsTo a.length (if (sval a < 0 ↔ sval b < 0) then q₀ else -q₀) (sval q) ∧
      WrapsTo a.length (if (sval a < 0 ↔ sval b < 0) then r₀ else -r₀) (sval r) ∧
      q₀ < 256 ^ a.length ∧ r₀ < 256 ^ a.length ∧
      (q₀ * signCleared a.length (sval b) + r₀) % 256 ^ a.length = signCleared a.length (sval a) ∧
      (signCleared a.length (sval b) ≠ 0 →
        (q₀ = signCleared a.length (sval a) / signCleared a.length (sval b) ↔
          ComparesRight 8 (8 * a.length) (signCleared a.length (sval a))
            (signCleared a.length (sval b))) ∧
        (ComparesRight 8 (8 * a.length) (signCleared a.length (sval a))
            (signCleared a.length (sval b)) →
          r₀ = signCleared a.length (sval a) % signCleared a.length (sval b))) ∧
      (signCleared a.length (sval b) = 0 →
        q₀ + 1 = 256 ^ a.length ∧ r₀ = signCleared a.length (sval a)) := by
  obtain ⟨q, r, q₀, r₀, h1, h2, h3, h4, h5, h6, h7, h8, h9, h10, h11, -⟩ := div_all m a b ha h hfit
  exact ⟨q, r, q₀, r₀, h1, h2, h3, h4, h5, h6, h7, h8, h9, h10, h11⟩

/-- C41, the results for all operands: those of the long division of the sign-cleared operands, bit by bit
(`lowQuot_unique`: there is only one pair), negated when exactly one operand is negative. Missing, because
false: right results for all operands. -/
theorem C41_div_bits_partial (m : Mode) (a b : Bytes) (ha : a ≠ []) (h : b.length = a.length)
    (hfit : a.length < 2 ^ 60) :
    ∃ (q r : Bytes) (q₀ r₀ : ℕ), IN.div m a b = .ok q ∧ IN.rem m a b = .ok r ∧
      WrapsTo a.length (if (sval a < 0 ↔ sval b < 0) then q₀ else -q₀) (sval q) ∧
      WrapsTo a.length (if (sval a < 0 ↔ sval b < 0) then r₀ else -r₀) (sval r) ∧
      LowQuot 8 (8 * a.length) (signCleared a.length (sval a)) (signCleared a.length (sval b)) q₀ r₀ := by
  obtain ⟨q, r, q₀, r₀, h1, h2, -, -, h5, h6, -, -, -, -, -, h12⟩ := div_all m a b ha h hfit
  exact ⟨q, r, q₀, r₀, h1, h2, h5, h6, h12⟩

-- -32256 / 513: the sign-cleared dividend is 512 (the sign bit alone is cleared)
example : sval [0#8, 0x82#8] = -32256 ∧ signCleared 2 (-32256) = 512 ∧
    IN.div .debug [0#8, 0x82#8] [1#8, 2#8] = .ok [0x01#8, 0xFE#8] ∧
    sval [0x01#8, 0xFE#8] = -511 := by decide +kernel

-- -1 / 1 is computed from the sign-cleared numbers 127 and 1, giving -127
example : IN.div .debug [0xFF#8] [1#8] = .ok [0x81] ∧ signCleared 1 (-1) = 127 ∧ sval [0x81#8] = -127 := by
  decide +kernel
-- MIN has the sign-cleared magnitude 0: the quotient by it is all ones
example : IN.div .debug [5#8] [0x80#8] = .ok [1] ∧ signCleared 1 (-128) = 0 := by decide +kernel

end Verif
