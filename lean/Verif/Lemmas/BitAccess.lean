import Verif.Model.Bitwise
import Verif.Lemmas.AddSub
import Verif.Lemmas.Shift

/-!
# Helper lemmas: bit access, bit iteration
-/

namespace Verif

open BitSlice

variable {w : Nat}

theorem bitLen_eq (s : List (BitVec w)) : bitLen s = w * s.length := Nat.mul_comm _ _

theorem idx_lt_iff (hw : 0 < w) (s : List (BitVec w)) (i : Nat) :
    i / w < s.length ↔ i < bitLen s := by
  rw [bitLen, Nat.div_lt_iff_lt_mul hw]

theorem getBit_eq (hw : 0 < w) (s : List (BitVec w)) (i : Nat) :
    getBit s i = if i < bitLen s then .ok ((val s).testBit i) else .panic := by
  unfold getBit
  rw [getBitOpt_eq hw]
  split <;> rfl

theorem getBitOpt_getD (hw : 0 < w) (s : List (BitVec w)) (i : Nat) :
    (getBitOpt s i).getD false = (val s).testBit i := by
  rw [getBitOpt_eq hw]
  split
  · rfl
  · rename_i h
    simp only [Option.getD_none]
    symm
    apply Nat.testBit_lt_two_pow
    refine Nat.lt_of_lt_of_le (val_lt s) (Nat.pow_le_pow_right (by norm_num) ?_)
    rw [bitLen_eq] at h
    omega

theorem setBitOpt_none (hw : 0 < w) (s : List (BitVec w)) (i : Nat) (b : Bool)
    (h : bitLen s ≤ i) : setBitOpt s i b = none := by
  rw [setBitOpt_eq, if_neg]
  rw [idx_lt_iff hw]; omega

theorem setBitOpt_some (hw : 0 < w) (s : List (BitVec w)) (i : Nat) (b : Bool)
    (h : i < bitLen s) : ∃ t, setBitOpt s i b = some t ∧ t.length = s.length ∧
      ∀ k, (val t).testBit k = if k = i then b else (val s).testBit k := by
  have h2 := (idx_lt_iff hw s i).mpr h
  rw [setBitOpt_eq, if_pos h2]
  exact ⟨_, rfl, by simp, fun k => testBit_val_setBit hw s i b h2 k⟩

theorem setBit_spec (hw : 0 < w) (s : List (BitVec w)) (i : Nat) (b : Bool)
    (h : i < bitLen s) : ∃ t, setBit s i b = .ok t ∧ t.length = s.length ∧
      ∀ k, (val t).testBit k = if k = i then b else (val s).testBit k := by
  obtain ⟨t, h1, h2⟩ := setBitOpt_some hw s i b h
  exact ⟨t, by rw [setBit, h1]; rfl, h2⟩

theorem setBit_panic (hw : 0 < w) (s : List (BitVec w)) (i : Nat) (b : Bool)
    (h : bitLen s ≤ i) : setBit s i b = .panic := by
  rw [setBit, setBitOpt_none hw s i b h]; rfl

theorem setBitIgnore_spec (hw : 0 < w) (s : List (BitVec w)) (i : Nat) (b : Bool) :
    (setBitIgnore s i b).length = s.length ∧
      ∀ k, (val (setBitIgnore s i b)).testBit k
        = if k = i ∧ i < bitLen s then b else (val s).testBit k := by
  unfold setBitIgnore
  by_cases h : i < bitLen s
  · obtain ⟨t, h1, h2, h3⟩ := setBitOpt_some hw s i b h
    rw [h1]
    refine ⟨h2, fun k => ?_⟩
    simp only [Option.getD_some]
    rw [h3 k]
    simp [h]
  · rw [setBitOpt_none hw s i b (by omega)]
    refine ⟨rfl, fun k => ?_⟩
    rw [if_neg (by tauto)]
    rfl

theorem extend_spec (s : List (BitVec w)) (n : Nat) :
    (extend s n 0).length = max s.length n ∧ val (extend s n 0) = val s ∧
      (∀ j, (extend s n 0).getD j 0 = s.getD j 0) := by
  unfold extend
  split
  · rename_i h
    refine ⟨by simp; omega, by rw [val_append, val_replicate_zero]; simp, fun j => ?_⟩
    by_cases hj : j < s.length
    · simp [List.getD_eq_getElem?_getD, List.getElem?_append, hj]
    · rw [getD_of_ge s j (by omega)]
      have : (s ++ List.replicate (n - s.length) (0 : BitVec w)).getD j 0
          = (List.replicate (n - s.length) (0 : BitVec w)).getD (j - s.length) 0 := by
        simp [List.getD_eq_getElem?_getD, List.getElem?_append, hj]
      rw [this, getD_replicate]
  · exact ⟨by omega, rfl, fun _ => rfl⟩

theorem setBitPush_spec (hw : 0 < w) (s : List (BitVec w)) (i : Nat) (b : Bool) :
    (setBitPush s i b).length = max s.length (i / w + 1) ∧
      ∀ k, (val (setBitPush s i b)).testBit k = if k = i then b else (val s).testBit k := by
  unfold setBitPush idxBit
  simp only
  obtain ⟨e1, e2, _⟩ := extend_spec s (i / w + 1)
  obtain ⟨h1, h2⟩ := setBitIgnore_spec hw (extend s (i / w + 1) 0) i b
  refine ⟨by rw [h1, e1], fun k => ?_⟩
  rw [h2 k, e2]
  have : i < bitLen (extend s (i / w + 1) 0) := by
    rw [← idx_lt_iff hw, e1]; omega
  simp only [this, and_true]

/-- Setting a bit above all set bits adds its weight. -/
theorem add_bit {x y i : Nat} {b : Bool} (hx : x < 2 ^ i)
    (h : ∀ k, y.testBit k = if k = i then b else x.testBit k) : y = x + b.toNat * 2 ^ i := by
  apply Nat.eq_of_testBit_eq
  intro k
  rw [h k]
  cases b with
  | false =>
    simp only [Bool.toNat_false, Nat.zero_mul, Nat.add_zero]
    split
    · rename_i hk
      rw [hk]
      exact (Nat.testBit_lt_two_pow hx).symm
    · rfl
  | true =>
    simp only [Bool.toNat_true, Nat.one_mul]
    have h2 := Nat.two_pow_add_eq_or_of_lt hx 1
    rw [Nat.mul_one] at h2
    rw [Nat.add_comm, h2, Nat.testBit_or, Nat.testBit_two_pow]
    by_cases hk : k = i
    · simp [hk]
    · have : ¬ (i = k) := fun h => hk h.symm
      simp [hk, this]

theorem mod_pow_succ (x i : Nat) :
    x % 2 ^ (i + 1) = x % 2 ^ i + (x.testBit i).toNat * 2 ^ i := by
  rw [Nat.pow_succ, Nat.mod_mul, Nat.toNat_testBit, Nat.mul_comm (2 ^ i)]

theorem div_pow_step (x i : Nat) :
    x / 2 ^ i = 2 * (x / 2 ^ (i + 1)) + (x.testBit i).toNat := by
  have h1 : x / 2 ^ (i + 1) = x / 2 ^ i / 2 := by rw [Nat.pow_succ, Nat.div_div_eq_div_mul]
  have h2 : (x.testBit i).toNat = x / 2 ^ i % 2 := Nat.toNat_testBit x i
  rw [h1, h2]
  omega

/-! ## The bit iterator -/

namespace BitIter

/-- The state after `n` calls to `next`. -/
def after (s : List (BitVec w)) : Nat → BitIter w
  | 0 => new s
  | n + 1 => (next (after s n)).2

theorem bit_test (v : BitVec w) (b : Nat) (hb : b < w) :
    (v &&& ((1 : BitVec w) <<< b) != 0) = v.getLsbD b := by
  have hw : 0 < w := by omega
  have h := getBitOpt_eq hw [v] b
  unfold getBitOpt idxBit at h
  simp only [Nat.div_eq_of_lt hb, Nat.mod_eq_of_lt hb] at h
  rw [if_pos (by simp [bitLen]; exact hb)] at h
  have h2 := testBit_val' hw [v] 0 b hb
  simp only [Nat.mul_zero, Nat.zero_add] at h2
  rw [h2] at h
  simpa using h

theorem after_eq (hw : 0 < w) (s : List (BitVec w)) (n : Nat) (hn : n ≤ bitLen s) :
    after s n = ⟨s.drop (n / w + 1), s[n / w]?, n⟩ := by
  induction n with
  | zero => simp [after, new, List.head?_eq_getElem?]
  | succ n ih =>
    have hlt : n / w < s.length := (idx_lt_iff hw s n).mpr (by omega)
    rw [after, ih (by omega)]
    unfold next
    simp only [List.getElem?_eq_getElem hlt]
    by_cases h : n % w = w - 1
    · have e : (n + 1) / w = n / w + 1 := by
        rw [Nat.succ_div_of_dvd]
        exact Nat.dvd_of_mod_eq_zero (by rw [Nat.add_mod, h]; rcases w with _ | _ | w
                                         · omega
                                         · simp
                                         · simp)
      simp only [h, if_true, e, List.head?_drop, List.tail_drop]
    · have e : (n + 1) / w = n / w := by
        rw [Nat.succ_div_of_not_dvd]
        intro hd
        apply h
        have h1 := Nat.mod_lt n hw
        obtain ⟨c, hc⟩ := hd
        have h2 := Nat.div_add_mod n w
        generalize n % w = r at *
        generalize n / w = q at *
        have h3 : w * q + (r + 1) = w * c := by omega
        have h4 : w ∣ r + 1 := (Nat.dvd_add_right (Dvd.intro q rfl)).mp ⟨c, h3⟩
        have := Nat.le_of_dvd (by omega) h4
        omega
      simp only [h, if_false, e, List.getElem?_eq_getElem hlt]

theorem next_in (hw : 0 < w) (s : List (BitVec w)) (n : Nat) (hn : n < bitLen s) :
    (next (after s n)).1 = some ((val s).testBit n) := by
  have hlt : n / w < s.length := (idx_lt_iff hw s n).mpr hn
  rw [after_eq hw s n (by omega)]
  unfold next
  simp only [List.getElem?_eq_getElem hlt]
  rw [bit_test _ _ (Nat.mod_lt _ hw), testBit_val hw, List.getD_eq_getElem?_getD,
    List.getElem?_eq_getElem hlt]
  rfl

theorem after_end (hw : 0 < w) (s : List (BitVec w)) (n : Nat) (hn : bitLen s ≤ n) :
    after s n = ⟨[], none, bitLen s⟩ := by
  induction n with
  | zero =>
    have h0 : bitLen s = 0 := by omega
    have : s = [] := by
      rw [bitLen] at h0
      rcases Nat.mul_eq_zero.mp h0 with h | h
      · exact List.length_eq_zero_iff.mp h
      · omega
    subst this
    simp [after, new, bitLen]
  | succ n ih =>
    rcases Nat.lt_or_ge n (bitLen s) with h | h
    · have hb : n + 1 = bitLen s := by omega
      rw [after_eq hw s (n + 1) (by omega), hb, bitLen, Nat.mul_div_cancel _ hw]
      simp
    · rw [after, ih h]
      rfl

theorem drain_eq (hw : 0 < w) (s : List (BitVec w)) (fuel n : Nat) (hn : n ≤ bitLen s)
    (hf : bitLen s < fuel + n) :
    drain fuel (after s n) = (List.range' n (bitLen s - n)).map (val s).testBit := by
  induction fuel generalizing n with
  | zero => omega
  | succ fuel ih =>
    unfold drain
    rcases Nat.lt_or_ge n (bitLen s) with h | h
    · have h1 := next_in hw s n h
      have h2 : (next (after s n)).2 = after s (n + 1) := rfl
      have hd : bitLen s - n = (bitLen s - (n + 1)) + 1 := by omega
      rw [hd, List.range'_succ, List.map_cons, ← ih (n + 1) (by omega) (by omega), ← h2]
      generalize next (after s n) = X at *
      obtain ⟨a, b⟩ := X
      simp only at h1
      subst h1
      rfl
    · have : bitLen s - n = 0 := by omega
      rw [this, after_end hw s n h]
      rfl

end BitIter

theorem iterBits_eq (hw : 0 < w) (s : List (BitVec w)) :
    iterBits s = (List.range (bitLen s)).map (val s).testBit := by
  unfold iterBits
  have := BitIter.drain_eq hw s (bitLen s + 1) 0 (by omega) (by omega)
  rw [List.range_eq_range']
  exact this

end Verif
