import Verif.Lemmas.BigIntOps
import Verif.Lemmas.BigIntSigned
import Verif.Lemmas.BigIntText

/-!
# Helper lemmas for truncating casts of `BigInt`
-/

namespace Verif

namespace BInt

theorem forUpM_none {α : Type} (f : Nat → Option α → Res (Option α)) (s : Option α)
    (hf : ∀ i, f i none = .ok none) {k n : Nat} (hkn : k ≤ n) (hk : forUpM k f s = .ok none) :
    forUpM n f s = .ok none := by
  induction n, hkn using Nat.le_induction with
  | base => exact hk
  | succ n _ ih => rw [forUpM, ih]; exact hf n

theorem arrToIntStep_zero (u : Nat) (hu : 0 < u) (m : Mode) (x : BitVec 64) :
    arrToIntStep 64 u m 0 x (some 0)
      = .ok (if x.toNat < 2 ^ u then some (BitVec.ofNat u x.toNat) else none) := by
  unfold arrToIntStep
  simp only
  split
  · rename_i hx
    unfold checkedShl
    simp only [Nat.zero_mul, Nat.zero_mod, hu, if_true]
    have h2 : (ovfAdd (0 : BitVec u) (BitVec.ofNat u x.toNat <<< 0)).2 = false := by
      unfold ovfAdd
      simp
      omega
    rw [h2]
    simp [ovfAdd]
  · rfl

theorem arrToInt_two (m : Mode) (x y : BitVec 64) :
    arrToIntStep 64 128 m 1 y (some (BitVec.ofNat 128 x.toNat))
      = .ok (some (BitVec.ofNat 128 (x.toNat + 2 ^ 64 * y.toNat))) := by
  have hx := x.isLt
  have hy := y.isLt
  unfold arrToIntStep
  simp only
  rw [if_pos (by omega)]
  unfold checkedShl
  simp only [Nat.one_mul, show 64 % 2 ^ 32 = 64 by norm_num, show 64 < 128 by norm_num, if_true]
  have e : BitVec.ofNat 128 y.toNat <<< 64 = BitVec.ofNat 128 (2 ^ 64 * y.toNat) := by
    apply BitVec.eq_of_toNat_eq
    simp only [BitVec.toNat_shiftLeft, BitVec.toNat_ofNat, Nat.shiftLeft_eq]
    rw [Nat.mod_eq_of_lt (show y.toNat < 2 ^ 128 by omega), Nat.mul_comm]
  rw [e]
  have h : (ovfAdd (BitVec.ofNat 128 x.toNat) (BitVec.ofNat 128 (2 ^ 64 * y.toNat))).2 = false := by
    unfold ovfAdd
    simp only [BitVec.toNat_ofNat, decide_eq_false_iff_not]
    omega
  rw [h]
  simp only [Bool.false_eq_true, if_false, Res.ok.injEq, Option.some.injEq]
  unfold ovfAdd
  rw [← BitVec.ofNat_add]

theorem arrToIntStep_far (u : Nat) (m : Mode) (idx : Nat) (i : BitVec 64) (out : Option (BitVec u))
    (h1 : idx * 64 < 2 ^ 32) (h2 : u ≤ idx * 64) : arrToIntStep 64 u m idx i out = .ok none := by
  unfold arrToIntStep
  cases out with
  | none => rfl
  | some x =>
    simp only
    split
    · unfold checkedShl
      simp only [Nat.mod_eq_of_lt h1]
      rw [if_neg (by omega)]
    · rfl

theorem arrToInt_any {t : Nat} (ht : t ∈ primWidths) (m : Mode) (arr : List (BitVec 64))
    (hn : Norm arr) :
    arrToInt 64 t m arr
      = .ok (if val arr < 2 ^ t then some (BitVec.ofNat t (val arr)) else none) := by
  obtain ⟨ht0, hdiv⟩ := primWidths_dvd ht
  by_cases hlen : arr.length * 64 ≤ 2 ^ 32
  · exact arrToInt_spec m (by norm_num) ht0 hdiv arr hn hlen
  · have ht' : t ≤ 64 ∨ t = 128 := by
      simp only [primWidths, List.mem_cons, List.not_mem_nil, or_false] at ht
      omega
    have hv : ¬ val arr < 2 ^ t := by
      rcases hn.lower with h | h
      · omega
      · have : 2 ^ t ≤ 2 ^ (64 * (arr.length - 1)) := Nat.pow_le_pow_right (by norm_num) (by omega)
        omega
    rw [if_neg hv]
    unfold arrToInt
    refine forUpM_none _ _ ?_ (show 3 ≤ arr.length by omega) ?_
    · exact fun i => rfl
    simp only [forUpM, Res.bind]
    rw [arrToIntStep_zero t ht0]
    simp only
    rcases ht' with h | h
    · rw [arrToIntStep_far t m 1 _ _ (by norm_num) (by omega)]
      rfl
    · subst h
      rw [if_pos (by have := (arr.getD 0 0).isLt; omega), arrToInt_two]
      simp only
      rw [arrToIntStep_far 128 m 2 _ _ (by norm_num) (by norm_num)]

theorem arrToIntSStep_far (u : Nat) (m : Mode) (idx : Nat) (i : BitVec 64) (out : Option (BitVec u))
    (h1 : idx * 64 < 2 ^ 32) (h2 : u ≤ idx * 64) : arrToIntSStep 64 u m idx i out = .ok none := by
  unfold arrToIntSStep
  cases out with
  | none => rfl
  | some x =>
    simp only
    split
    · unfold checkedShl
      simp only [Nat.mod_eq_of_lt h1]
      rw [if_neg (by omega)]
    · rfl

theorem arrToIntSStep_zero (u : Nat) (hu : 0 < u) (m : Mode) (x : BitVec 64) :
    arrToIntSStep 64 u m 0 x (some 0)
      = .ok (if x.toNat < 2 ^ (u - 1) then some (BitVec.ofNat u x.toNat) else none) :=
  arrToIntS_one m hu x

/-- `arr_to_int` into a signed type of at most 64 bits. -/
theorem arrToIntS_any {t : Nat} (ht0 : 0 < t) (ht : t ≤ 64) (m : Mode) (arr : List (BitVec 64))
    (hn : Norm arr) :
    arrToIntS 64 t m arr
      = .ok (if val arr < 2 ^ (t - 1) then some (BitVec.ofNat t (val arr)) else none) := by
  by_cases hl : arr.length = 1
  · obtain ⟨x, hx⟩ := List.length_eq_one_iff.mp hl
    rw [hx, arrToIntS_one m ht0 x, val_one]
  · have hpos := List.length_pos_iff.mpr hn.1
    have hv : ¬ val arr < 2 ^ (t - 1) := by
      rcases hn.lower with h | h
      · omega
      · have : 2 ^ (t - 1) ≤ 2 ^ (64 * (arr.length - 1)) :=
          Nat.pow_le_pow_right (by norm_num) (by omega)
        omega
    rw [if_neg hv]
    unfold arrToIntS
    refine forUpM_none _ _ ?_ (show 2 ≤ arr.length by omega) ?_
    · exact fun i => rfl
    simp only [forUpM, Res.bind]
    rw [arrToIntSStep_zero t ht0]
    simp only
    rw [arrToIntSStep_far t m 1 _ _ (by norm_num) (by omega)]

/-- `arr_to_int` into `i128`: only a third limb makes it fail. -/
theorem arrToIntS_128 (m : Mode) (arr : List (BitVec 64)) (hn : Norm arr) :
    arrToIntS 64 128 m arr
      = .ok (if val arr < 2 ^ 128 then some (BitVec.ofNat 128 (val arr)) else none) := by
  have hpos := List.length_pos_iff.mpr hn.1
  rcases (by omega : arr.length = 1 ∨ arr.length = 2 ∨ 3 ≤ arr.length) with hl | hl | hl
  · obtain ⟨x, hx⟩ := List.length_eq_one_iff.mp hl
    have := x.isLt
    rw [hx, arrToIntS_one m (by norm_num) x, val_one, if_pos (by omega), if_pos (by omega)]
  · obtain ⟨x, y, hx⟩ := List.length_eq_two.mp hl
    have h1 := x.isLt
    have h2 := y.isLt
    have hv : val arr = x.toNat + 2 ^ 64 * y.toNat := by rw [hx]; simp [val]
    rw [hv, hx, arrToIntS_two, if_pos (by omega)]
  · have hv : ¬ val arr < 2 ^ 128 := by
      rcases hn.lower with h | h
      · omega
      · have : 2 ^ 128 ≤ 2 ^ (64 * (arr.length - 1)) :=
          Nat.pow_le_pow_right (by norm_num) (by omega)
        omega
    rw [if_neg hv]
    unfold arrToIntS
    refine forUpM_none _ _ ?_ hl ?_
    · exact fun i => rfl
    have h2 : forUpM 2 (fun idx out => arrToIntSStep 64 128 m idx (arr.getD idx 0) out) (some 0)
        = .ok (some (BitVec.ofNat 128 ((arr.getD 0 0).toNat + 2 ^ 64 * (arr.getD 1 0).toNat))) :=
      arrToIntS_two m (arr.getD 0 0) (arr.getD 1 0)
    rw [forUpM, h2]
    simp only [Res.bind]
    rw [arrToIntSStep_far 128 m 2 _ _ (by norm_num) (by norm_num)]

end BInt

end Verif
