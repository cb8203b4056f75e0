import Verif.Lemmas.Approx
import Verif.Spec.BigInt

/-!
# C107: `BigInt::approx_float`
-/

namespace Verif

open BInt

/-- The number that a finite float is. -/
def Fl.num : Fl → Option Int
  | .fin n => some n
  | _ => none

/-- C107 is violated: the approximation of -5 is 5. -/
theorem C107_sign_violated : ¬ ∀ b : BInt, Canon b → (ival b).natAbs ≤ 2 ^ 53 →
    (approxFloat b).num = some (ival b) := by
  intro h
  have := h ⟨true, .inline 5⟩ (by decide) (by decide)
  revert this
  decide +kernel

/-- C107 is violated: the approximation of `2^1088` is NaN, not infinity. -/
theorem C107_nan_violated : ¬ ∀ b : BInt, Canon b → approxFloat b ≠ .nan := by
  intro h
  have := h ⟨false, .slice (List.replicate 17 0 ++ [1])⟩ (by decide +kernel)
  revert this
  decide +kernel

private theorem approxLoop_huge (vs : List (BitVec 64)) (idx : Nat) (acc : Fl)
    (h1 : idx ≤ 2 ^ 31) (h : 2 ^ 31 < idx + vs.length) : approxLoop idx vs acc = .inf := by
  induction vs generalizing idx acc with
  | nil => simp at h; omega
  | cons v vs ih =>
    unfold approxLoop
    split
    · exact ih _ _ (by omega) (by rw [List.length_cons] at h; omega)
    · rfl

/-- C107 for numbers of more than `2^31` digits of 64 bits: infinity. -/
theorem C107_huge_partial (b : BInt) (h : 2 ^ 31 < b.limbs.length) : approxFloat b = .inf :=
  approxLoop_huge _ _ _ (by norm_num) (by omega)

private theorem natAbs_sub_le {x y : Nat} (h1 : x * 2 ^ 48 ≤ y * 2 ^ 48 + x)
    (h2 : y * 2 ^ 48 ≤ x * 2 ^ 48 + x) : ((y : Int) - x).natAbs * 2 ^ 48 ≤ x := by
  have hd : ((y : Int) - x).natAbs = y - x ∨ ((y : Int) - x).natAbs = x - y := by omega
  generalize ((y : Int) - x).natAbs = d at hd ⊢
  rcases hd with rfl | rfl <;> rw [Nat.sub_mul] <;> omega

/-- C107, for the absolute value: numbers up to `2^53` are exact; a number below `2^1024`, or more
precisely up to `2^1024 - 2^976`, has a finite approximation; a finite approximation is within one
part in `2^48`; a number from `2^1024` on has none, and its approximation is NaN just if one of the
64-bit digits from the sixteenth up is zero. Missing: the sign. -/
theorem C107_approx_partial (b : BInt) (hb : Rep b) :
    ((ival b).natAbs ≤ 2 ^ 53 → (approxFloat b).num = some |ival b|) ∧
    ((ival b).natAbs ≤ (2 ^ 48 - 1) * 2 ^ 976 → ∃ z, (approxFloat b).num = some z) ∧
    (∀ z, (approxFloat b).num = some z → 0 ≤ z ∧ (z - |ival b|).natAbs * 2 ^ 48 ≤ (ival b).natAbs) ∧
    (2 ^ 1024 ≤ (ival b).natAbs → b.limbs.length ≤ 2 ^ 31 →
      (approxFloat b = .inf ∨ approxFloat b = .nan) ∧
      (approxFloat b = .nan ↔ ∃ k, 16 ≤ k ∧ 2 ^ (64 * k) ≤ (ival b).natAbs ∧
        (ival b).natAbs / 2 ^ (64 * k) % 2 ^ 64 = 0)) := by
  have habs : (ival b).natAbs = val b.limbs := by
    unfold ival; split <;> simp
  have habs' : |ival b| = (val b.limbs : Int) := by
    rw [Int.abs_eq_natAbs, habs]
  rw [habs, habs']
  have hn := hb.norm
  have hne : 0 < b.limbs.length := List.length_pos_iff.mpr hn.1
  have hlow : ∀ k, 0 < k → (2 ^ (64 * k) ≤ val b.limbs ↔ k < b.limbs.length) := by
    intro k hk
    constructor
    · intro h
      have := lt_of_le_of_lt h (val_lt b.limbs)
      unfold modulus at this
      rw [Nat.pow_lt_pow_iff_right (by norm_num)] at this
      omega
    · intro h
      rcases hn.lower with h1 | h1
      · omega
      · exact (Nat.pow_le_pow_right (by norm_num) (by omega)).trans h1
  have h0 : Near (0 + 1) 0 0 := by constructor <;> simp
  refine ⟨fun h => ?_, fun h => ?_, fun z hz => ?_, fun h hl => ?_⟩
  · have h1 : b.limbs.length = 1 := by
      by_contra hc
      have := (hlow 1 (by omega)).mpr (by omega)
      omega
    obtain ⟨v, hv⟩ := List.length_eq_one_iff.mp h1
    unfold approxFloat
    rw [hv] at h ⊢
    have hval : val [v] = v.toNat := by simp [val]
    rw [hval] at h ⊢
    obtain ⟨d, h2, h3, _⟩ := ofUsize_eq v
    have h3 := h3 h
    subst h3
    obtain ⟨z, h4, h5, _⟩ := Fl.round_eq v.toNat
    have h5 := h5 h
    subst h5
    have h6 : v.toNat < Fl.limit := lt_of_le_of_lt h (Nat.pow_lt_pow_right (by norm_num) (by norm_num))
    rw [if_pos h6] at h4
    rw [approxLoop, if_pos (by norm_num), h2, Fl.powi_eq, if_pos (by norm_num), approxLoop]
    simp only [Nat.mul_zero, Nat.pow_zero, Fl.mulAdd, Nat.mul_one, Nat.add_zero, h4, Fl.num]
  · have h1 : b.limbs.length ≤ 16 := by
      by_contra hc
      have h2 := ((hlow 16 (by omega)).mpr (by omega)).trans h
      rw [show 64 * 16 = 48 + 976 by norm_num, pow_add] at h2
      exact absurd (Nat.le_of_mul_le_mul_right h2 (by positivity)) (by norm_num)
    obtain ⟨z, hz⟩ := approxLoop_fin b.limbs 0 0 0 (by omega) h0 (by simpa using h)
    refine ⟨z, ?_⟩
    unfold approxFloat
    rw [hz]
    rfl
  · unfold approxFloat at hz
    cases hc : approxLoop 0 b.limbs (.fin 0) with
    | inf => rw [hc] at hz; cases hz
    | nan => rw [hc] at hz; cases hz
    | fin y =>
      rw [hc] at hz
      cases hz
      have hnear := approxLoop_near b.limbs 0 0 0 y (by omega) h0 hc
      simp only [Nat.mul_zero, Nat.pow_zero, Nat.mul_one, Nat.zero_add] at hnear
      generalize val b.limbs = x at hnear ⊢
      refine ⟨by positivity, ?_⟩
      have hx : (0 : ℚ) ≤ x := by positivity
      have e1 : (1 : ℚ) - 1 / 2 ^ 48 ≤ (1 - 1 / 2 ^ 53) ^ 17 := by norm_num
      have e2 : ((1 : ℚ) + 1 / 2 ^ 53) ^ 17 ≤ 1 + 1 / 2 ^ 48 := by norm_num
      have g1 := (mul_le_mul_of_nonneg_left e1 hx).trans hnear.1
      have g2 := hnear.2.trans (mul_le_mul_of_nonneg_left e2 hx)
      have g3 : (x : ℚ) * 2 ^ 48 ≤ y * 2 ^ 48 + x := by
        norm_num at g1 ⊢; linarith
      have g4 : (y : ℚ) * 2 ^ 48 ≤ x * 2 ^ 48 + x := by
        norm_num at g2 ⊢; linarith
      have g3' : x * 2 ^ 48 ≤ y * 2 ^ 48 + x := by exact_mod_cast g3
      have g4' : y * 2 ^ 48 ≤ x * 2 ^ 48 + x := by exact_mod_cast g4
      exact natAbs_sub_le g3' g4'
  · have h16 : 16 < b.limbs.length := (hlow 16 (by omega)).mp h
    have hl16 : (b.limbs.take 16).length = 16 := by simp; omega
    have hd : b.limbs.drop 16 ≠ [] := by
      intro hc
      have := congrArg List.length hc
      rw [List.length_drop, List.length_nil] at this
      omega
    have hnn : approxLoop 0 (b.limbs.take 16) (.fin 0) ≠ .nan :=
      approxLoop_notNan _ _ _ (by omega) (by simp)
    have hmem : (∃ k, 16 ≤ k ∧ 2 ^ (64 * k) ≤ val b.limbs ∧
        val b.limbs / 2 ^ (64 * k) % 2 ^ 64 = 0) ↔ (0 : BitVec 64) ∈ b.limbs.drop 16 := by
      constructor
      · rintro ⟨k, hk, h1, h2⟩
        rw [hlow k (by omega)] at h1
        rw [val_div_mod, List.getD_eq_getElem?_getD, List.getElem?_eq_getElem h1, Option.getD_some] at h2
        have h3 : b.limbs[k] = 0 := BitVec.eq_of_toNat_eq (by simpa using h2)
        rw [List.mem_iff_getElem]
        refine ⟨k - 16, by rw [List.length_drop]; omega, ?_⟩
        rw [List.getElem_drop, ← h3]
        congr 1
        omega
      · intro hm
        obtain ⟨j, hj, h1⟩ := List.mem_iff_getElem.mp hm
        rw [List.length_drop] at hj
        rw [List.getElem_drop] at h1
        refine ⟨16 + j, by omega, (hlow _ (by omega)).mpr (by omega), ?_⟩
        rw [val_div_mod, List.getD_eq_getElem?_getD, List.getElem?_eq_getElem (by omega), h1]
        rfl
    have hres : approxFloat b = if approxLoop 0 (b.limbs.take 16) (.fin 0) = .nan ∨
        (0 : BitVec 64) ∈ b.limbs.drop 16 then .nan else
        if b.limbs.drop 16 = [] then approxLoop 0 (b.limbs.take 16) (.fin 0) else .inf := by
      rw [← approxLoop_high _ (0 + 16) _ (by norm_num) (by rw [List.length_drop]; omega)]
      have := approxLoop_append (b.limbs.take 16) (b.limbs.drop 16) 0 (.fin 0)
        (by rw [hl16]; norm_num)
      rw [List.take_append_drop, hl16] at this
      exact this
    rw [hmem, hres]
    by_cases hm : (0 : BitVec 64) ∈ b.limbs.drop 16
    · rw [if_pos (.inr hm)]
      exact ⟨.inr rfl, iff_of_true rfl hm⟩
    · rw [if_neg (not_or.mpr ⟨hnn, hm⟩), if_neg hd]
      exact ⟨.inl rfl, iff_of_false (by simp) hm⟩

/-- The hypotheses hold for a number of three limbs, whose approximation is not exact. -/
example : Rep ⟨true, .slice [3, 0, 1]⟩ ∧
    (approxFloat ⟨true, .slice [3, 0, 1]⟩).num = some (2 ^ 128) := by decide +kernel

/-- And for `2^1024`, with an infinite one. -/
example : Rep ⟨false, .slice (List.replicate 16 0 ++ [1])⟩ ∧
    approxFloat ⟨false, .slice (List.replicate 16 0 ++ [1])⟩ = .inf := by decide +kernel

end Verif
