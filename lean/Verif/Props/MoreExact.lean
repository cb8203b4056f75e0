import Verif.Props.BigIntMore
import Verif.Props.BigIntExact

/-!
# C95, exactly: comparing a `BigInt` with a 128-bit primitive
-/

namespace Verif

open BInt

/-- A 128-bit number with its halves exchanged. -/
def swapHalves (v : Nat) : Nat := v % 2 ^ 64 * 2 ^ 64 + v / 2 ^ 64

/-- Two-limb numbers are compared with their halves exchanged. -/
theorem bigEnd_swapHalves {l : List (BitVec 64)} (h : l.length = 2) :
    bigEnd l = swapHalves (val l) := by
  obtain ⟨x, y, rfl⟩ := List.length_eq_two.mp h
  have hx := x.isLt
  have hv : val [x, y] = x.toNat + 2 ^ 64 * y.toNat := by simp [val]
  rw [bigEnd_two, hv]
  unfold swapHalves
  omega

theorem length_eq_two_iff {l : List (BitVec 64)} (h : Norm l) :
    l.length = 2 ↔ 2 ^ 64 ≤ val l ∧ val l < 2 ^ 128 := by
  have hlt := val_lt l
  unfold modulus at hlt
  constructor
  · intro hl
    rw [hl] at hlt
    refine ⟨?_, by simpa using hlt⟩
    by_contra hc
    have := length_one_of_lt h (by omega)
    omega
  · rintro ⟨h1, h2⟩
    have h3 := length_le_two h h2
    have h4 : l.length ≠ 0 := fun e => by rw [e] at hlt; simp at hlt; omega
    have h5 : l.length ≠ 1 := fun e => by rw [e] at hlt; simp at hlt; omega
    omega

/-- C95 for 128 bits, exactly: the comparison is right unless both numbers have the same sign and
need two limbs; those are compared with the halves of their absolute values exchanged. -/
theorem C95_cmp_exact_partial (b : BInt) (hb : Canon b) (x : BitVec 128) :
    (cmpU 128 b x = .ok (
      if 2 ^ 64 ≤ ival b ∧ ival b < 2 ^ 128 ∧ 2 ^ 64 ≤ x.toNat
      then compare (swapHalves (ival b).natAbs) (swapHalves x.toNat)
      else compare (ival b) x.toNat)) ∧
    (cmpS 128 b x = .ok (
      if 2 ^ 64 ≤ ival b ∧ ival b < 2 ^ 128 ∧ 2 ^ 64 ≤ x.toInt
      then compare (swapHalves (ival b).natAbs) (swapHalves x.toInt.natAbs)
      else if ival b ≤ -2 ^ 64 ∧ -2 ^ 128 < ival b ∧ x.toInt ≤ -2 ^ 64
      then compare (swapHalves x.toInt.natAbs) (swapHalves (ival b).natAbs)
      else compare (ival b) x.toInt)) := by
  have hv := natAbs_ival b
  constructor
  · split
    · rename_i h
      obtain ⟨y, h1, h2, h3, h4⟩ := fromU_spec (t := 128) (by norm_num) x
      have hy := natAbs_ival y
      have hx := x.isLt
      unfold cmpU
      rw [h1]
      simp only [Res.bind, Res.ok.injEq]
      have l1 := (length_eq_two_iff hb.norm).mpr (by omega)
      have l2 := (length_eq_two_iff h2.norm).mpr (by omega)
      have hl : compare b.limbs.length y.limbs.length = .eq := by rw [l1, l2]; rfl
      rw [cmp_pos (Canon.neg_false hb (by omega)) (Canon.neg_false h2 (by omega)), hl, Ordering.eq_then,
        bigEnd_swapHalves l1, bigEnd_swapHalves l2, ← hv, ← hy, h4, Int.natAbs_natCast]
    · rename_i h
      exact C95_cmp_unsigned_partial 128 (by simp) b hb x (by omega)
  · have hlt := BitVec.toInt_lt (x := x)
    have hle := BitVec.le_toInt x
    split
    · rename_i h
      obtain ⟨y, h1, h2, h3, h4⟩ := fromS_spec (t := 128) (by norm_num) x
      have hy := natAbs_ival y
      unfold cmpS
      rw [h1]
      simp only [Res.bind, Res.ok.injEq]
      have l1 := (length_eq_two_iff hb.norm).mpr (by omega)
      have l2 := (length_eq_two_iff h2.norm).mpr (by omega)
      have hl : compare b.limbs.length y.limbs.length = .eq := by rw [l1, l2]; rfl
      rw [cmp_pos (Canon.neg_false hb (by omega)) (Canon.neg_false h2 (by omega)), hl, Ordering.eq_then,
        bigEnd_swapHalves l1, bigEnd_swapHalves l2, ← hv, ← hy, h4]
    · rename_i hn
      split
      · rename_i h
        obtain ⟨y, h1, h2, h3, h4⟩ := fromS_spec (t := 128) (by norm_num) x
        have hy := natAbs_ival y
        unfold cmpS
        rw [h1]
        simp only [Res.bind, Res.ok.injEq]
        have l1 := (length_eq_two_iff hb.norm).mpr (by omega)
        have l2 := (length_eq_two_iff h2.norm).mpr (by omega)
        have hl : compare b.limbs.length y.limbs.length = .eq := by rw [l1, l2]; rfl
        rw [cmp_neg (hb.neg_iff.mpr (by omega)) (h2.neg_iff.mpr (by omega)), hl, Ordering.eq_then,
          bigEnd_swapHalves l1, bigEnd_swapHalves l2, ← hv, ← hy, h4, Nat.compare_swap]
      · rename_i h
        exact C95_cmp_signed_partial 128 (by simp) b hb x (by omega)

-- both numbers of two limbs, and one of each kind that is compared rightly
example : cmpU 128 ⟨false, .slice [1, 1]⟩ (BitVec.ofNat 128 (2 ^ 65)) = .ok .gt ∧
    compare (swapHalves (2 ^ 64 + 1)) (swapHalves (2 ^ 65)) = .gt ∧
    cmpS 128 ⟨true, .slice [1, 1]⟩ (BitVec.ofInt 128 (-2 ^ 65)) = .ok .lt ∧
    cmpS 128 ⟨true, .slice [1, 1]⟩ (BitVec.ofInt 128 (2 ^ 65)) = .ok .lt := by
  refine ⟨by decide +kernel, by decide +kernel, by decide +kernel, by decide +kernel⟩

end Verif
