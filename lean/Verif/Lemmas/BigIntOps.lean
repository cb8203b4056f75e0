import Verif.Lemmas.BigInt

/-!
# Helper lemmas: `BigInt` operators and conversions
-/

namespace Verif

namespace BInt

theorem natAbs_ival (b : BInt) : (ival b).natAbs = val b.limbs := by
  unfold ival; split <;> omega

theorem Canon.neg_iff {b : BInt} (h : Canon b) : b.neg = true ↔ ival b < 0 := by
  have h2 := h.2
  unfold ival
  cases e : b.neg
  · simp
  · have := h2 e
    simp only [if_true, true_iff]
    omega

theorem ival_of_pos {b : BInt} (h : b.neg = false) : ival b = val b.limbs := by
  unfold ival; rw [h]; rfl

theorem ival_of_neg {b : BInt} (h : b.neg = true) : ival b = -(val b.limbs : Int) := by
  unfold ival; rw [h]; rfl

theorem Canon.val_of_nonneg {b : BInt} (h : Canon b) (h0 : 0 ≤ ival b) :
    b.neg = false ∧ ival b = val b.limbs := by
  have : b.neg = false := by
    cases e : b.neg
    · rfl
    · have := h.neg_iff.mp e; omega
  exact ⟨this, ival_of_pos this⟩

theorem Canon.val_of_neg {b : BInt} (h : Canon b) (h0 : ival b < 0) :
    b.neg = true ∧ ival b = -(val b.limbs : Int) :=
  ⟨h.neg_iff.mpr h0, ival_of_neg (h.neg_iff.mpr h0)⟩

/-! ## Multiplication, addition, subtraction -/

theorem mul_spec {a b : BInt} (ha : Rep a) :
    ∃ c, mul a b = .ok c ∧ Canon c ∧ ival c = ival a * ival b := by
  obtain ⟨out, h1, h2, h3⟩ := ElementMul.mul_exact (by norm_num : 0 < 64) a.limbs b.limbs
    (Or.inl ha.norm.1)
  have hr : mulRaw a b = .ok (out, a.isNegative != b.isNegative) := by
    unfold mulRaw; rw [h1]; rfl
  obtain ⟨c, g1, g2, _, g4⟩ := finish_spec _ out _ hr h3.1
  refine ⟨c, g1, g2, ?_⟩
  rw [g4, h2]
  unfold ival isNegative
  cases a.neg <;> cases b.neg <;> simp

/-- What `ElementSub.sub` gives, as a signed number: exact, except that a negative even difference
comes out two too large. -/
theorem subMag_spec (l r : List (BitVec 64)) (hl : l ≠ []) :
    ∃ out neg, ElementSub.sub l r = .ok (out, neg) ∧ out ≠ [] ∧
      (if neg then -(val out : Int) else (val out : Int))
        = (val l : Int) - val r + (if val l < val r ∧ (val r - val l) % 2 = 0 then 2 else 0) := by
  obtain ⟨out, neg, h1, h2, h3, h4, h5⟩ := sub_exact (by norm_num : 0 < 64) l r (Or.inl hl)
  refine ⟨out, neg, h1, h2.1, ?_⟩
  cases neg
  · have h : ¬ val l < val r := fun h => by have := h3.mpr h; simp at this
    have := h4 rfl
    simp only [Bool.false_eq_true, if_false]
    rw [if_neg (by omega)]
    omega
  · have h : val l < val r := h3.mp rfl
    have h6 := h5 rfl
    simp only [if_true]
    split at h6
    · rw [if_neg (by omega)]; omega
    · rw [if_pos (by omega)]; omega

theorem val_eq_zero_iff_neg (n : Nat) : -(n : Int) = 0 ↔ n = 0 := by omega

/-- Exactly what the operator `+` computes. -/
theorem add_full {a b : BInt} (ha : Rep a) :
    ∃ c, add a b = .ok c ∧ Canon c ∧
      ival c = ival a + ival b +
        (if a.neg ≠ b.neg ∧ val a.limbs < val b.limbs ∧ (val b.limbs - val a.limbs) % 2 = 0 then
          (if a.neg then -2 else 2) else 0) := by
  have hne := ha.norm.1
  unfold add addRaw isPositive isNegative
  cases ea : a.neg <;> cases eb : b.neg <;>
    simp only [Bool.not_true, Bool.not_false]
  · obtain ⟨out, h1, h2, h3⟩ := add_exact (by norm_num : 0 < 64) a.limbs b.limbs
    rw [h1]
    obtain ⟨c, g1, g2, _, g4⟩ := finish_spec (.ok (out, false)) out false rfl h3.1
    refine ⟨c, g1, g2, ?_⟩
    rw [g4, h2, ival_of_pos ea, ival_of_pos eb]
    simp
  · obtain ⟨out, neg, h1, h2, h3⟩ := subMag_spec a.limbs b.limbs hne
    rw [h1]
    obtain ⟨c, g1, g2, _, g4⟩ := finish_spec (.ok (out, neg)) out neg rfl h2
    refine ⟨c, g1, g2, ?_⟩
    rw [g4, h3, ival_of_pos ea, ival_of_neg eb]
    simp only [ne_eq, Bool.false_eq_true, not_false_eq_true, true_and, if_false]
    omega
  · obtain ⟨out, neg, h1, h2, h3⟩ := subMag_spec a.limbs b.limbs hne
    rw [h1]
    obtain ⟨c, g1, g2, _, g4⟩ := finish_spec (.ok (out, !neg)) out (!neg) rfl h2
    refine ⟨c, g1, g2, ?_⟩
    rw [g4, ival_of_neg ea, ival_of_pos eb]
    simp only [ne_eq, Bool.true_eq_false, not_false_eq_true, true_and, if_true]
    cases neg <;>
      simp only [Bool.not_true, Bool.not_false, Bool.false_eq_true, if_true, if_false] at h3 ⊢ <;>
      split at h3 <;> split <;> omega
  · obtain ⟨out, h1, h2, h3⟩ := add_exact (by norm_num : 0 < 64) a.limbs b.limbs
    rw [h1]
    obtain ⟨c, g1, g2, _, g4⟩ := finish_spec (.ok (out, true)) out true rfl h3.1
    refine ⟨c, g1, g2, ?_⟩
    rw [g4, h2, ival_of_neg ea, ival_of_neg eb]
    simp only [if_true, ne_eq, not_true_eq_false, false_and, if_false]
    omega

/-- Exactly what the operator `-` computes. -/
theorem sub_full {a b : BInt} (ha : Rep a) :
    ∃ c, sub a b = .ok c ∧ Canon c ∧
      ival c = ival a - ival b +
        (if a.neg = b.neg ∧ val a.limbs < val b.limbs ∧ (val b.limbs - val a.limbs) % 2 = 0 then
          (if a.neg then -2 else 2) else 0) := by
  have hne := ha.norm.1
  unfold sub subRaw isPositive isNegative
  cases ea : a.neg <;> cases eb : b.neg <;>
    simp only [Bool.not_true, Bool.not_false]
  · obtain ⟨out, neg, h1, h2, h3⟩ := subMag_spec a.limbs b.limbs hne
    rw [h1]
    obtain ⟨c, g1, g2, _, g4⟩ := finish_spec (.ok (out, neg)) out neg rfl h2
    refine ⟨c, g1, g2, ?_⟩
    rw [g4, h3, ival_of_pos ea, ival_of_pos eb]
    simp only [true_and, Bool.false_eq_true, if_false]
  · obtain ⟨out, h1, h2, h3⟩ := add_exact (by norm_num : 0 < 64) a.limbs b.limbs
    rw [h1]
    obtain ⟨c, g1, g2, _, g4⟩ := finish_spec (.ok (out, false)) out false rfl h3.1
    refine ⟨c, g1, g2, ?_⟩
    rw [g4, h2, ival_of_pos ea, ival_of_neg eb]
    simp
  · obtain ⟨out, h1, h2, h3⟩ := add_exact (by norm_num : 0 < 64) a.limbs b.limbs
    rw [h1]
    obtain ⟨c, g1, g2, _, g4⟩ := finish_spec (.ok (out, true)) out true rfl h3.1
    refine ⟨c, g1, g2, ?_⟩
    rw [g4, h2, ival_of_neg ea, ival_of_pos eb]
    simp only [if_true, Bool.true_eq_false, false_and, if_false]
    omega
  · obtain ⟨out, neg, h1, h2, h3⟩ := subMag_spec a.limbs b.limbs hne
    rw [h1]
    obtain ⟨c, g1, g2, _, g4⟩ := finish_spec (.ok (out, !neg)) out (!neg) rfl h2
    refine ⟨c, g1, g2, ?_⟩
    rw [g4, ival_of_neg ea, ival_of_neg eb]
    simp only [true_and, if_true]
    cases neg <;>
      simp only [Bool.not_true, Bool.not_false, Bool.false_eq_true, if_true, if_false] at h3 ⊢ <;>
      split at h3 <;> split <;> omega

/-! ## Division -/

/-- When the bit-wise division is right. -/
def DivOk (a b : BInt) : Prop :=
  0 < val b.limbs ∧ val b.limbs < 2 ^ 64 ∧
    (val a.limbs < 2 ^ 64 ∨ 2 * val b.limbs ≤ 2 ^ 64) ∧ 64 * a.limbs.length < 2 ^ 64

theorem divLong_spec (m : Mode) {a b : BInt} (ha : Rep a) (hb : Rep b) (h : DivOk a b) :
    ∃ q r, BitwiseDiv.divLong m a.limbs b.limbs = .ok (q, r) ∧ q ≠ [] ∧ r ≠ [] ∧
      val q = val a.limbs / val b.limbs ∧ val r = val a.limbs % val b.limbs := by
  obtain ⟨h1, h2, h3, h4⟩ := h
  have hbl := length_one_of_lt hb.norm h2
  have hal := List.length_pos_iff.mpr ha.norm.1
  obtain ⟨q, r, g0, g1, g2, g3, g4⟩ := bitwiseDivLong_small m (by norm_num) a.limbs b.limbs
    (by omega) (by omega) h4 ⟨h1, h2, h3⟩
  refine ⟨q, r, g0, ?_, ?_, g3, g4⟩ <;> rintro rfl <;> simp at g1 g2 <;> omega

theorem div_spec (m : Mode) {a b : BInt} (ha : Rep a) (hb : Rep b) (h : DivOk a b) :
    ∃ c, div m a b = .ok c ∧ Canon c ∧ ival c = (ival a).tdiv (ival b) := by
  obtain ⟨q, r, h1, h2, h3, h4, h5⟩ := divLong_spec m ha hb h
  have hr : divRaw m a b = .ok (q, a.isNegative != b.isNegative) := by
    unfold divRaw; rw [h1]; rfl
  obtain ⟨c, g1, g2, _, g4⟩ := finish_spec _ q _ hr h2
  refine ⟨c, g1, g2, ?_⟩
  rw [g4, h4]
  unfold ival isNegative
  cases a.neg <;> cases b.neg <;> simp [Int.tdiv_neg, Int.neg_tdiv]

/-- The remainder has the right magnitude, and the sign of the quotient. -/
theorem rem_spec (m : Mode) {a b : BInt} (ha : Rep a) (hb : Rep b) (h : DivOk a b) :
    ∃ c, rem m a b = .ok c ∧ Canon c ∧
      ival c = if b.neg then -((ival a).tmod (ival b)) else (ival a).tmod (ival b) := by
  obtain ⟨q, r, h1, h2, h3, h4, h5⟩ := divLong_spec m ha hb h
  have hr : remRaw m a b = .ok (r, a.isNegative != b.isNegative) := by
    unfold remRaw; rw [h1]; rfl
  obtain ⟨c, g1, g2, _, g4⟩ := finish_spec _ r _ hr h3
  refine ⟨c, g1, g2, ?_⟩
  rw [g4, h5]
  unfold ival isNegative
  cases a.neg <;> cases b.neg <;> simp [Int.tmod_neg, Int.neg_tmod, Int.tmod_eq_emod_of_nonneg]

/-! ## Conversion to primitives -/

/-- The widths of the primitive integer types. -/
def primWidths : List Nat := [8, 16, 32, 64, 128]

theorem primWidths_dvd {t : Nat} (ht : t ∈ primWidths) : 0 < t ∧ (64 ∣ t ∨ t ∣ 64) := by
  simp only [primWidths, List.mem_cons, List.not_mem_nil, or_false] at ht
  rcases ht with rfl | rfl | rfl | rfl | rfl <;> decide

theorem zipCmp_ones (l : List (BitVec 64)) (n : Nat) :
    zipCmp l (List.replicate n (BitVec.allOnes 64)) ≠ .gt := by
  induction n generalizing l with
  | zero => cases l <;> simp [zipCmp]
  | succ n ih =>
    rw [List.replicate_succ]
    cases l with
    | nil => simp [zipCmp]
    | cons x xs =>
      rw [zipCmp]
      cases hc : compare x.toNat (BitVec.allOnes 64).toNat
      · simp
      · exact ih xs
      · rw [compare_gt_iff_gt] at hc
        have := x.isLt
        rw [BitVec.toNat_allOnes] at hc
        omega

theorem cmp_maxU {t : Nat} (ht : t ∈ primWidths) {b : BInt} (hb : Canon b) :
    ∃ mx, fromU t (BitVec.allOnes t) = .ok mx ∧ (cmp b mx = .gt ↔ (2 : Int) ^ t ≤ ival b) := by
  obtain ⟨ht0, _⟩ := primWidths_dvd ht
  obtain ⟨mx, h1, h2, h3, h4⟩ := fromU_spec ht0 (BitVec.allOnes t)
  refine ⟨mx, h1, ?_⟩
  rw [BitVec.toNat_allOnes] at h3 h4
  have hp : 0 < 2 ^ t := Nat.two_pow_pos t
  have hgt : ∀ x : Int, (((2 ^ t - 1 : Nat) : Int) < x ↔ (2 : Int) ^ t ≤ x) := by
    intro x
    have : ((2 ^ t - 1 : Nat) : Int) = (2 : Int) ^ t - 1 := by
      rw [Nat.cast_sub hp]; simp
    omega
  by_cases h128 : t = 128
  · subst h128
    have e : fromU 128 (BitVec.allOnes 128)
        = .ok ⟨false, .slice (List.replicate 2 (BitVec.allOnes 64))⟩ := by decide +kernel
    rw [e] at h1
    obtain rfl := Res.ok.inj h1
    by_cases hneg : b.neg = true
    · rw [cmp_spec hb h2 (Or.inl (by rw [hneg]; simp)), compare_gt_iff, h4, hgt]
    · by_cases hlen : b.limbs.length = 2
      · have hlt : ival b < 2 ^ 128 := by
          rw [ival_of_pos (by simpa using hneg)]
          have := val_lt b.limbs
          unfold modulus at this
          rw [hlen] at this
          exact_mod_cast this
        refine iff_of_false ?_ (by omega)
        unfold cmp
        split
        · simp
        · have hl : ¬ b.limbs.length ≠ (BInt.limbs ⟨false, .slice
              (List.replicate 2 (BitVec.allOnes 64))⟩).length := by
            rw [hlen]; exact fun h => h rfl
          rw [if_neg (by simp [isNegative, hneg]), if_neg (by simp [isNegative])]
          simp only [if_neg hl]
          rw [if_neg (by simpa [isNegative] using hneg)]
          exact zipCmp_ones _ 2
      · rw [cmp_spec hb h2 (Or.inr (Or.inl (by simpa [limbs] using hlen))), compare_gt_iff, h4, hgt]
  · have hlen : mx.limbs.length = 1 := by
      apply length_one_of_lt h2.norm
      rw [h3]
      have : t ≤ 64 := by
        simp only [primWidths, List.mem_cons, List.not_mem_nil, or_false] at ht
        omega
      have := Nat.pow_le_pow_right (n := 2) (by norm_num) this
      omega
    rw [cmp_spec hb h2 (Or.inr (comparable_one hlen).symm), compare_gt_iff, h4, hgt]

theorem cmp_small {b x : BInt} (hb : Canon b) (hx : Canon x) (h : val x.limbs < 2 ^ 64) :
    cmp b x = compare (ival b) (ival x) :=
  cmp_spec hb hx (Or.inr (comparable_one (length_one_of_lt hx.norm h)).symm)

theorem length_le_two {l : List (BitVec 64)} (h : Norm l) (hv : val l < 2 ^ 128) :
    l.length ≤ 2 := by
  rcases h.lower with h1 | h1
  · omega
  · by_contra hne
    have h2 : 2 ^ 128 ≤ 2 ^ (64 * (l.length - 1)) :=
      Nat.pow_le_pow_right (by norm_num) (by omega)
    omega

/-- `TryFrom` into an unsigned type. -/
theorem tryIntoU_spec {t : Nat} (ht : t ∈ primWidths) (m : Mode) {b : BInt} (hb : Canon b) :
    tryIntoU t m b = .ok (if ival b < 0 then .error .below
      else if ival b < 2 ^ t then .ok (BitVec.ofNat t (ival b).toNat) else .error .above) := by
  obtain ⟨ht0, hdiv⟩ := primWidths_dvd ht
  obtain ⟨mx, h1, h2⟩ := cmp_maxU ht hb
  obtain ⟨mn, k1, k2, k3, k4⟩ := fromU_spec ht0 (0 : BitVec t)
  have hmn : cmp b mn = compare (ival b) (ival mn) := cmp_small hb k2 (by rw [k3]; simp)
  have hz : ival mn = 0 := by rw [k4]; simp
  unfold tryIntoU
  rw [h1, k1]
  simp only [Res.bind]
  by_cases hgt : (2 : Int) ^ t ≤ ival b
  · have : (0 : Int) < 2 ^ t := by positivity
    rw [if_pos (h2.mpr hgt), if_neg (by omega), if_neg (by omega)]
  · rw [if_neg (fun h => hgt (h2.mp h)), hmn, hz]
    by_cases hlt : ival b < 0
    · rw [if_pos ((compare_lt_iff _ _).mpr hlt), if_pos hlt]
    · rw [if_neg (fun h => hlt ((compare_lt_iff _ _).mp h)), if_neg hlt, if_pos (by omega)]
      obtain ⟨n1, n2⟩ := hb.val_of_nonneg (by omega)
      rw [n2] at hgt ⊢
      have hv : val b.limbs < 2 ^ t := by
        have : (val b.limbs : Int) < (2 : Int) ^ t := by omega
        exact_mod_cast this
      have ht128 : t ≤ 128 := by
        simp only [primWidths, List.mem_cons, List.not_mem_nil, or_false] at ht
        omega
      have hlen := length_le_two hb.norm
        (lt_of_lt_of_le hv (Nat.pow_le_pow_right (by norm_num) ht128))
      rw [arrToInt_spec m (by norm_num) ht0 hdiv b.limbs hb.norm (by omega), if_pos hv]
      simp

theorem shiftAmount_spec (m : Mode) {b : BInt} (hb : Canon b) :
    shiftAmount m b = if 0 ≤ ival b ∧ ival b < 2 ^ 64 then .ok (ival b).toNat else .panic := by
  unfold shiftAmount
  rw [tryIntoU_spec (by decide) m hb]
  simp only [Res.bind]
  by_cases h1 : ival b < 0
  · rw [if_pos h1, if_neg (by omega)]
  · rw [if_neg h1]
    by_cases h2 : ival b < 2 ^ 64
    · rw [if_pos h2, if_pos (by omega)]
      simp only [Res.ok.injEq, BitVec.toNat_ofNat]
      omega
    · rw [if_neg h2, if_neg (by omega)]

/-! ## Equality with primitives -/

theorem eqU_spec {t : Nat} (ht : 0 < t) {b : BInt} (hb : Rep b) (v : BitVec t) :
    eqU t b v = .ok (decide (val b.limbs = v.toNat)) := by
  obtain ⟨a, h1, h2, h3⟩ := intToArr_spec (u := 64) ht (arrSize t) (by unfold arrSize; omega) v
  rw [Nat.mod_eq_of_lt (lt_of_lt_of_le v.isLt
    (Nat.pow_le_pow_right (by norm_num) (arrSize_fits t)))] at h3
  have hne : a ≠ [] := by rintro rfl; unfold arrSize at h2; simp at h2
  obtain ⟨a', g1, g2, g3, _⟩ := shrink_ok a hne
  unfold eqU
  rw [h1]
  simp only [Res.bind]
  rw [g1]
  simp only [Res.ok.injEq, decide_eq_decide]
  constructor
  · intro h; rw [h, g2, h3]
  · intro h; exact Norm.unique hb.norm g3 (by rw [h, g2, h3])

theorem eqS_spec {t : Nat} (ht : 0 < t) (m : Mode) {b : BInt} (hb : Rep b) (v : BitVec t)
    (hm : v ≠ BitVec.intMin t ∨ m = .release) :
    eqS t m b v = .ok (decide (b.neg = decide (v.toInt < 0) ∧ val b.limbs = v.toInt.natAbs)) := by
  unfold eqS isNegative
  by_cases hs : b.neg = decide (v.toInt < 0)
  · rw [if_neg (by simpa using hs), if_neg (by rcases hm with h | h <;> simp [h])]
    obtain ⟨a, h1, h2, h3⟩ := intToArr_spec (u := 64) ht (arrSize t) (by unfold arrSize; omega)
      (unsignedAbs v)
    rw [Nat.mod_eq_of_lt (lt_of_lt_of_le (unsignedAbs v).isLt
      (Nat.pow_le_pow_right (by norm_num) (arrSize_fits t))), unsignedAbs_spec] at h3
    have hne : a ≠ [] := by rintro rfl; unfold arrSize at h2; simp at h2
    obtain ⟨a', g1, g2, g3, _⟩ := shrink_ok a hne
    unfold unsignedAbs at h1
    rw [h1]
    simp only [Res.bind]
    rw [g1]
    simp only [Res.ok.injEq, decide_eq_decide]
    constructor
    · intro h; exact ⟨hs, by rw [h, g2, h3]⟩
    · intro h; exact Norm.unique hb.norm g3 (by rw [h.2, g2, h3])
  · rw [if_pos (by simpa using hs)]
    simp [hs]

end BInt

end Verif
