import Mathlib.Data.Int.Bitwise
import Verif.Props.UInt
import Verif.Props.IInt

/-!
# C92, C93: the bit operators of `I<N>`; zero, one and bounds of `U<N>` and `I<N>`

The spec of the bit operators is `Int.testBit`, the bit of a number in its infinite two's
complement expansion.
-/

namespace Verif

/-! ## C92 -/

/-- Bit `k` of the signed value: bit `k` of the bytes, or the sign beyond them. -/
private theorem testBit_sval (a : Bytes) (k : Nat) :
    (sval a).testBit k = if k < 8 * a.length then (val a).testBit k else decide (sval a < 0) := by
  have hlt := val_le_modulus a
  have hpow : 256 ^ a.length = 2 ^ (8 * a.length) := by
    rw [show (256 : Nat) = 2 ^ 8 by norm_num, ← Nat.pow_mul]
  by_cases hn : 2 * val a < 256 ^ a.length
  · have e : sval a = Int.ofNat (val a) := by unfold sval; rw [if_pos hn]; rfl
    rw [e]
    show (val a).testBit k = _
    split
    · rfl
    · rename_i hk
      rw [Nat.testBit_lt_two_pow (lt_of_lt_of_le (hpow ▸ hlt)
        (Nat.pow_le_pow_right (by norm_num) (by omega)))]
      simp
  · have e : sval a = Int.negSucc (2 ^ (8 * a.length) - (val a + 1)) := by
      unfold sval
      rw [if_neg hn, Int.negSucc_eq]
      have h2 : (256 ^ a.length : Int) = 2 ^ (8 * a.length) := by exact_mod_cast hpow
      rw [h2, Nat.cast_sub (by omega)]
      push_cast
      ring
    rw [e]
    show (!(2 ^ (8 * a.length) - (val a + 1)).testBit k) = _
    rw [Nat.testBit_two_pow_sub_succ (by omega)]
    split
    · rename_i hk; simp [hk]
    · rename_i hk; simp [hk, Int.negSucc_lt_zero]

private theorem neg_testBit (a : Bytes) (ha : a ≠ []) :
    decide (sval a < 0) = (val a).testBit (8 * a.length - 1) := by
  have hpos := List.length_pos_iff.mpr ha
  have hlt := val_le_modulus a
  have hpow : 256 ^ a.length = 2 ^ (8 * a.length - 1) * 2 := by
    rw [show (256 : Nat) = 2 ^ 8 by norm_num, ← Nat.pow_mul, ← Nat.pow_succ]
    congr 1; omega
  rw [Nat.testBit_eq_decide_div_mod_eq, decide_eq_decide, sval_neg_iff]
  have hd : val a / 2 ^ (8 * a.length - 1) < 2 := by
    rw [Nat.div_lt_iff_lt_mul (by positivity)]; omega
  rw [Nat.mod_eq_of_lt hd]
  constructor
  · intro h
    have : 1 ≤ val a / 2 ^ (8 * a.length - 1) := by
      rw [Nat.le_div_iff_mul_le (by positivity)]; omega
    omega
  · intro h
    have := Nat.div_mul_le_self (val a) (2 ^ (8 * a.length - 1))
    rw [h] at this
    omega

/-- C92: `&`, `|`, `^` act on every bit of the infinite two's complement expansions, the sign
included, and `!x` is `-x - 1`. -/
theorem C92_bit_ops (a b : Bytes) (ha : a ≠ []) (h : b.length = a.length) :
    ((IN.bitand a b).length = a.length ∧
      ∀ k, (sval (IN.bitand a b)).testBit k = ((sval a).testBit k && (sval b).testBit k)) ∧
    ((IN.bitor a b).length = a.length ∧
      ∀ k, (sval (IN.bitor a b)).testBit k = ((sval a).testBit k || (sval b).testBit k)) ∧
    ((IN.bitxor a b).length = a.length ∧
      ∀ k, (sval (IN.bitxor a b)).testBit k = ((sval a).testBit k != (sval b).testBit k)) ∧
    ((IN.not a).length = a.length ∧ sval (IN.not a) = -sval a - 1) := by
  obtain ⟨⟨l1, v1⟩, ⟨l2, v2⟩, ⟨l3, v3⟩, ⟨l4, v4⟩⟩ := C33_bit_ops a b h
  have hb : b ≠ [] := by rintro rfl; exact ha (List.length_eq_zero_iff.mp h.symm)
  have aux : ∀ (o : Bytes) (f : Bool → Bool → Bool), o.length = a.length →
      (∀ k, (val o).testBit k = f ((val a).testBit k) ((val b).testBit k)) →
      ∀ k, (sval o).testBit k = f ((sval a).testBit k) ((sval b).testBit k) := by
    intro o f hl hv k
    have ho : o ≠ [] := by rintro rfl; exact ha (List.length_eq_zero_iff.mp hl.symm)
    rw [testBit_sval, testBit_sval, testBit_sval, hl, h]
    split
    · exact hv k
    · rw [neg_testBit o ho, neg_testBit a ha, neg_testBit b hb, hl, h]
      exact hv _
  refine ⟨⟨l1, aux (UN.bitand a b) (· && ·) l1 fun k => ?_⟩,
    ⟨l2, aux (UN.bitor a b) (· || ·) l2 fun k => ?_⟩,
    ⟨l3, aux (UN.bitxor a b) (· != ·) l3 fun k => ?_⟩, l4, ?_⟩
  · rw [v1, Nat.testBit_and]
  · rw [v2, Nat.testBit_or]
  · rw [v3, Nat.testBit_xor]
  · show sval (UN.not a) = _
    have hlt := val_le_modulus a
    obtain ⟨n, hn⟩ := pow_even_of_pos (List.length_pos_iff.mpr ha)
    unfold sval
    rw [l4, v4]
    have hc : (256 ^ a.length : Int) = ((256 ^ a.length : Nat) : Int) := by push_cast; rfl
    rw [hc]
    by_cases hs : 2 * val a < 256 ^ a.length
    · rw [if_neg (by omega), if_pos hs]; omega
    · rw [if_pos (by omega), if_neg hs]; omega

example : sval [0xFE#8, 0xFF#8] = -2 ∧ sval (IN.bitand [0xFE#8, 0xFF#8] [7#8, 0#8]) = 6 ∧
    sval (IN.bitor [0xFE#8, 0xFF#8] [7#8, 0#8]) = -1 ∧
    sval (IN.bitxor [0xFE#8, 0xFF#8] [7#8, 0#8]) = -7 ∧
    sval (IN.not [0xFE#8, 0xFF#8]) = 1 := by decide

/-- C92: the usual identities hold on the nose. -/
theorem C92_boolean_algebra (a b : Bytes) (h : b.length = a.length) :
    IN.not (IN.not a) = a ∧
    IN.not (IN.bitand a b) = IN.bitor (IN.not a) (IN.not b) ∧
    IN.not (IN.bitor a b) = IN.bitand (IN.not a) (IN.not b) ∧
    IN.bitand a (IN.bitor a b) = a ∧ IN.bitor a (IN.bitand a b) = a ∧
    IN.bitxor (IN.bitxor a b) b = a := C33_boolean_algebra a b h

/-- C92: `!x` is the only value that denotes `-x - 1`. -/
theorem C92_not_unique (a d : Bytes) (ha : a ≠ []) (hd : d.length = a.length)
    (hv : sval d = -sval a - 1) : d = IN.not a := by
  obtain ⟨_, _, _, hl, hs⟩ := C92_bit_ops a a ha rfl
  apply eq_of_val_eq (by rw [hd, hl])
  rw [← hs] at hv
  have h1 := val_le_modulus d
  have h2 := val_le_modulus (IN.not a)
  unfold sval at hv
  rw [hl] at h2 hv
  rw [hd] at h1 hv
  have hc : (256 ^ a.length : Int) = ((256 ^ a.length : Nat) : Int) := by push_cast; rfl
  rw [hc] at hv
  split at hv <;> split at hv <;> omega

/-! ## C93 -/

/-- C93: for `U<N>`, `is_zero` and `is_one` decide the value, `min_value` and `max_value` are the
least and the greatest value, and every `N`-byte value lies between them. -/
theorem C93_unsigned (n : Nat) (hn : 0 < n) :
    (∀ a : Bytes, UN.isZero a = decide (val a = 0)) ∧
    (∀ a : Bytes, a.length = n → UN.isOne a = .ok (decide (val a = 1))) ∧
    (UN.isZero (UN.zero n) = true ∧ UN.isOne (UN.one n) = .ok true) ∧
    ((UN.minValue n).length = n ∧ val (UN.minValue n) = 0) ∧
    ((UN.maxValue n).length = n ∧ val (UN.maxValue n) = 256 ^ n - 1) ∧
    (∀ a : Bytes, a.length = n → val (UN.minValue n) ≤ val a ∧ val a ≤ val (UN.maxValue n)) := by
  have hne : ∀ a : Bytes, a.length = n → a ≠ [] := by rintro a h rfl; simp at h; omega
  have z : ∀ a : Bytes, UN.isZero a = decide (val a = 0) := fun a => by
    rw [Bool.eq_iff_iff, UN.isZero_iff, decide_eq_true_iff]
  have hmin : val (UN.minValue n) = 0 := val_replicate_zero n
  refine ⟨z, fun a h => UN.isOne_spec a (hne a h), ⟨?_, ?_⟩,
    ⟨by simp [UN.minValue], hmin⟩, ⟨by simp [UN.maxValue], val_maxValue n⟩, ?_⟩
  · rw [z, UN.val_zero]; rfl
  · rw [UN.isOne_spec _ (hne _ (UN.length_one n)), UN.val_one,
      Nat.mod_eq_of_lt (Nat.one_lt_pow (by omega) (by norm_num))]
    rfl
  · intro a h
    have := val_le_modulus a
    rw [hmin, val_maxValue, ← h]
    omega

example : UN.isOne [1#8, 1#8] = .ok false ∧ UN.isZero [0#8, 1#8] = false ∧
    val (UN.maxValue 2) = 65535 := by decide

/-- C93: for `I<N>`, `is_zero` and `is_one` decide the value. -/
theorem C93_signed (a : Bytes) (ha : a ≠ []) :
    IN.isZero a = decide (sval a = 0) ∧ IN.isOne a = .ok (decide (sval a = 1)) ∧
    IN.isZero (IN.zero a.length) = true ∧ IN.isOne (IN.one a.length) = .ok true := by
  obtain ⟨hz, ho, ⟨h0, h1⟩, _⟩ := C93_unsigned a.length (List.length_pos_iff.mpr ha)
  have hlt := val_le_modulus a
  have hp : 256 ≤ 256 ^ a.length :=
    Nat.le_self_pow (Nat.pos_iff_ne_zero.mp (List.length_pos_iff.mpr ha)) 256
  have hc : (256 ^ a.length : Int) = ((256 ^ a.length : Nat) : Int) := by push_cast; rfl
  refine ⟨?_, ?_, h0, h1⟩
  · show UN.isZero a = _
    rw [hz, decide_eq_decide]
    unfold sval
    rw [hc]
    split <;> omega
  · show UN.isOne a = _
    rw [ho a rfl]
    congr 1
    rw [decide_eq_decide]
    unfold sval
    rw [hc]
    split <;> omega

example : IN.isOne [1#8, 0#8] = .ok true ∧ IN.isOne [0xFF#8, 0xFF#8] = .ok false ∧
    IN.isZero [0#8, 0x80#8] = false := by decide

end Verif
