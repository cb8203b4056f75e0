import Verif.Lemmas.BigIntOps

/-!
# Helper lemmas: `BigInt` into signed primitives
-/

namespace Verif

namespace BInt

theorem arrToIntS_one (m : Mode) {u : Nat} (hu : 0 < u) (x : BitVec 64) :
    arrToIntS 64 u m [x]
      = .ok (if x.toNat < 2 ^ (u - 1) then some (BitVec.ofNat u x.toNat) else none) := by
  unfold arrToIntS
  simp only [List.length_cons, List.length_nil, Nat.zero_add, forUpM, Res.bind,
    List.getD_cons_zero]
  unfold arrToIntSStep
  simp only
  split
  · unfold checkedShl
    simp only [Nat.zero_mul, Nat.zero_mod, hu, if_true]
    have h : (0 : BitVec u).saddOverflow (BitVec.ofNat u x.toNat <<< 0) = false := by
      unfold BitVec.saddOverflow
      have h1 := BitVec.toInt_lt (x := BitVec.ofNat u x.toNat)
      have h2 := BitVec.le_toInt (BitVec.ofNat u x.toNat)
      simp only [BitVec.ofNat_eq_ofNat, BitVec.toInt_zero, BitVec.shiftLeft_zero, zero_add,
        Bool.or_eq_false_iff, decide_eq_false_iff_not, not_le, not_lt]
      exact ⟨h1, h2⟩
    rw [h]
    simp
  · rfl

theorem arrToIntS_two (m : Mode) (x y : BitVec 64) :
    arrToIntS 64 128 m [x, y] = .ok (some (BitVec.ofNat 128 (x.toNat + 2 ^ 64 * y.toNat))) := by
  have hx := x.isLt
  have hy := y.isLt
  unfold arrToIntS
  simp only [List.length_cons, List.length_nil, Nat.zero_add, forUpM, Res.bind,
    List.getD_cons_zero, List.getD_cons_succ]
  have h0 : arrToIntSStep 64 128 m 0 x (some 0) = .ok (some (BitVec.ofNat 128 x.toNat)) := by
    have h := arrToIntS_one m (u := 128) (by norm_num) x
    rw [if_pos (by omega)] at h
    exact h
  rw [h0]
  simp only
  unfold arrToIntSStep
  simp only
  rw [if_pos (by omega)]
  unfold checkedShl
  simp only [Nat.one_mul, show 64 % 2 ^ 32 = 64 by norm_num, show 64 < 128 by norm_num, if_true]
  have e : BitVec.ofNat 128 y.toNat <<< 64 = BitVec.ofNat 128 (2 ^ 64 * y.toNat) := by
    apply BitVec.eq_of_toNat_eq
    simp only [BitVec.toNat_shiftLeft, BitVec.toNat_ofNat, Nat.shiftLeft_eq]
    rw [Nat.mod_eq_of_lt (show y.toNat < 2 ^ 128 by omega), Nat.mul_comm]
  rw [e]
  have i1 : (BitVec.ofNat 128 x.toNat).toInt = x.toNat := by
    rw [BitVec.toInt_eq_toNat_cond, BitVec.toNat_ofNat]
    rw [Nat.mod_eq_of_lt (by omega), if_pos (by omega)]
  have i2 : (BitVec.ofNat 128 (2 ^ 64 * y.toNat)).toInt = 2 ^ 64 * y.toNat ∨
      (BitVec.ofNat 128 (2 ^ 64 * y.toNat)).toInt = 2 ^ 64 * y.toNat - 2 ^ 128 := by
    rw [BitVec.toInt_eq_toNat_cond, BitVec.toNat_ofNat]
    rw [Nat.mod_eq_of_lt (by omega)]
    split
    · left; simp
    · right; simp
  have i3 := BitVec.toInt_lt (x := BitVec.ofNat 128 (2 ^ 64 * y.toNat))
  have i4 := BitVec.le_toInt (BitVec.ofNat 128 (2 ^ 64 * y.toNat))
  have h : (BitVec.ofNat 128 x.toNat).saddOverflow (BitVec.ofNat 128 (2 ^ 64 * y.toNat)) = false := by
    unfold BitVec.saddOverflow
    rw [i1]
    simp only [Bool.or_eq_false_iff, decide_eq_false_iff_not]
    omega
  rw [h]
  simp only [Bool.false_eq_true, if_false, Res.ok.injEq, Option.some.injEq]
  rw [← BitVec.ofNat_add]

theorem fromS_max {t : Nat} (ht : 0 < t) :
    ∃ mx, fromS t (BitVec.intMax t) = .ok mx ∧ Canon mx ∧ ival mx = 2 ^ (t - 1) - 1 ∧
      val mx.limbs = 2 ^ (t - 1) - 1 := by
  obtain ⟨mx, h1, h2, h3, h4⟩ := fromS_spec ht (BitVec.intMax t)
  have h : (BitVec.intMax t).toInt = 2 ^ (t - 1) - 1 := by
    rw [BitVec.toInt_intMax]
  have hp : (0 : Int) < 2 ^ (t - 1) := by positivity
  refine ⟨mx, h1, h2, by rw [h4, h], ?_⟩
  rw [h3, h]
  have : ((2 ^ (t - 1) : Nat) : Int) = (2 : Int) ^ (t - 1) := by push_cast; rfl
  have : 0 < 2 ^ (t - 1) := Nat.two_pow_pos _
  omega

theorem fromS_min {t : Nat} (ht : 0 < t) :
    ∃ mn, fromS t (BitVec.intMin t) = .ok mn ∧ Canon mn ∧ ival mn = -2 ^ (t - 1) ∧
      val mn.limbs = 2 ^ (t - 1) := by
  obtain ⟨mn, h1, h2, h3, h4⟩ := fromS_spec ht (BitVec.intMin t)
  have h : (BitVec.intMin t).toInt = -2 ^ (t - 1) := by
    rw [BitVec.toInt_intMin]
    rcases Nat.exists_eq_succ_of_ne_zero (by omega : t ≠ 0) with ⟨k, rfl⟩
    have : (2 : Nat) ^ k < 2 ^ (k + 1) := Nat.pow_lt_pow_right (by norm_num) (by omega)
    simp [Nat.mod_eq_of_lt this]
  refine ⟨mn, h1, h2, by rw [h4, h], ?_⟩
  rw [h3, h]
  simp [Int.natAbs_neg, Int.natAbs_pow]

/-- `TryFrom` into a signed type of at most 64 bits: right except for negative values in range,
which come out as their absolute value, or as an error for the minimum. -/
theorem tryIntoS_small {t : Nat} (ht0 : 0 < t) (ht : t ≤ 64) (m : Mode) {b : BInt} (hb : Canon b) :
    tryIntoS t m b = .ok (if ival b < -2 ^ (t - 1) then .error .below
      else if ival b = -2 ^ (t - 1) then .error .above
      else if ival b < 2 ^ (t - 1) then .ok (BitVec.ofNat t (ival b).natAbs) else .error .above) := by
  obtain ⟨mx, h1, h2, h3, h4⟩ := fromS_max ht0
  obtain ⟨mn, k1, k2, k3, k4⟩ := fromS_min ht0
  have hpow : 2 ^ (t - 1) ≤ 2 ^ 63 := Nat.pow_le_pow_right (by norm_num) (by omega)
  have hpos : 0 < 2 ^ (t - 1) := Nat.two_pow_pos _
  have hc1 := cmp_small hb h2 (by rw [h4]; omega)
  have hc2 := cmp_small hb k2 (by rw [k4]; omega)
  have hZ : ((2 ^ (t - 1) : Nat) : Int) = (2 : Int) ^ (t - 1) := by push_cast; rfl
  unfold tryIntoS
  rw [h1, k1]
  simp only [Res.bind]
  rw [hc1, hc2]
  simp only [compare_gt_iff, compare_lt_iff, h3, k3]
  have habs := natAbs_ival b
  generalize hP : (2 : Int) ^ (t - 1) = P at *
  generalize hQ : (2 : Nat) ^ (t - 1) = Q at *
  by_cases g1 : P - 1 < ival b
  · rw [if_pos g1, if_neg (by omega), if_neg (by omega), if_neg (by omega)]
  · rw [if_neg g1]
    by_cases g2 : ival b < -P
    · rw [if_pos g2, if_pos g2]
    · rw [if_neg g2, if_neg g2]
      have hl := length_one_of_lt hb.norm (by omega)
      obtain ⟨x, hx⟩ := List.length_eq_one_iff.mp hl
      rw [hx, val_one] at habs
      rw [hx, arrToIntS_one m ht0 x, hQ]
      by_cases g3 : ival b = -P
      · rw [if_pos g3, if_neg (by omega)]
      · rw [if_neg g3, if_pos (by omega), if_pos (by omega), habs]

/-- `TryFrom` into `i128`. -/
theorem tryIntoS_128 (m : Mode) {b : BInt} (hb : Canon b) :
    (0 ≤ ival b → ival b < 2 ^ 127 →
      tryIntoS 128 m b = .ok (.ok (BitVec.ofNat 128 (ival b).natAbs))) ∧
    (2 ^ 128 ≤ ival b → tryIntoS 128 m b = .ok (.error .above)) ∧
    (ival b ≤ -2 ^ 128 → tryIntoS 128 m b = .ok (.error .below)) := by
  have e1 : fromS 128 (BitVec.intMax 128)
      = .ok ⟨false, .slice [BitVec.allOnes 64, BitVec.intMax 64]⟩ := by decide +kernel
  have e2 : fromS 128 (BitVec.intMin 128)
      = .ok ⟨true, .slice [0, BitVec.intMin 64]⟩ := by decide +kernel
  obtain ⟨mx, h1, h2, h3, h4⟩ := fromS_max (t := 128) (by norm_num)
  obtain ⟨mn, k1, k2, k3, k4⟩ := fromS_min (t := 128) (by norm_num)
  rw [e1] at h1
  rw [e2] at k1
  obtain rfl := Res.ok.inj h1
  obtain rfl := Res.ok.inj k1
  have habs := natAbs_ival b
  unfold tryIntoS
  rw [e1, e2]
  simp only [Res.bind]
  refine ⟨fun g1 g2 => ?_, fun g => ?_, fun g => ?_⟩
  · obtain ⟨n1, n2⟩ := hb.val_of_nonneg g1
    rw [cmp_spec hb k2 (Or.inl (by rw [n1]; simp)), if_neg (c := compare _ _ = Ordering.lt)
      (by rw [compare_lt_iff, k3]; omega)]
    have hlen := length_le_two hb.norm (by omega)
    have hpos := List.length_pos_iff.mpr hb.norm.1
    rcases (by omega : b.limbs.length = 1 ∨ b.limbs.length = 2) with hl | hl
    · rw [cmp_spec hb h2 (Or.inr (comparable_one hl)), if_neg (by rw [compare_gt_iff, h3]; omega)]
      obtain ⟨x, hx⟩ := List.length_eq_one_iff.mp hl
      rw [hx, arrToIntS_one m (by norm_num) x, if_pos (by have := x.isLt; omega), habs, hx, val_one]
    · obtain ⟨x, y, hx⟩ := List.length_eq_two.mp hl
      have hv : val b.limbs = x.toNat + 2 ^ 64 * y.toNat := by rw [hx]; simp [val]
      have hy : y.toNat < 2 ^ 63 := by omega
      rw [if_neg]
      · rw [hx, arrToIntS_two m x y, habs, hv]
      · unfold cmp
        split
        · simp
        · have hll : ¬ b.limbs.length ≠ (BInt.limbs ⟨false, .slice
              [BitVec.allOnes 64, BitVec.intMax 64]⟩).length := by
            rw [hl]; exact fun h => h rfl
          rw [if_neg (by simp [isNegative, n1]), if_neg (by simp [isNegative])]
          simp only [if_neg hll]
          rw [if_neg (by simp [isNegative, n1]), hx]
          change zipCmp [x, y] [BitVec.allOnes 64, BitVec.intMax 64] ≠ _
          rw [zipCmp]
          have hxl := x.isLt
          cases hc : compare x.toNat (BitVec.allOnes 64).toNat
          · simp
          · rw [zipCmp]
            cases hc' : compare y.toNat (BitVec.intMax 64).toNat
            · simp
            · simp [zipCmp]
            · rw [compare_gt_iff_gt, BitVec.toNat_intMax] at hc'
              omega
          · rw [compare_gt_iff_gt, BitVec.toNat_allOnes] at hc
            omega
  · have hlen : b.limbs.length ≠ 2 := by
      intro hl
      have := val_lt b.limbs
      unfold modulus at this
      rw [hl] at this
      omega
    rw [cmp_spec hb h2 (Or.inr (Or.inl hlen)), if_pos (by rw [compare_gt_iff, h3]; omega)]
  · have hlen : b.limbs.length ≠ 2 := by
      intro hl
      have := val_lt b.limbs
      unfold modulus at this
      rw [hl] at this
      omega
    rw [cmp_spec hb h2 (Or.inr (Or.inl hlen)), if_neg (by rw [compare_gt_iff, h3]; omega),
      cmp_spec hb k2 (Or.inr (Or.inl hlen)), if_pos (by rw [compare_lt_iff, k3]; omega)]

end BInt

end Verif
