import Verif.Lemmas.BigIntWordText
import Verif.Lemmas.BigIntTrunc

/-!
# Converting `BigInt` to primitive integers on targets of any pointer width
-/

namespace Verif

namespace WInt

variable {w : Nat} [hw : PtrWidth w]

omit hw in
theorem arrToIntStep_far (u : Nat) (m : Mode) (idx : Nat) (i : BitVec w) (out : Option (BitVec u))
    (h1 : idx * w < 2 ^ 32) (h2 : u ≤ idx * w) : arrToIntStep w u m idx i out = .ok none := by
  unfold arrToIntStep
  cases out with
  | none => rfl
  | some x =>
    simp only
    split
    · unfold checkedShl
      simp only [Nat.mod_eq_of_lt h1]
      rw [if_neg (by omega)]
    · rfl

omit hw in
theorem forUpM_congr' {α : Type} (f g : Nat → α → Res α) (n : Nat) (s : α)
    (h : ∀ i < n, ∀ x, f i x = g i x) : forUpM n f s = forUpM n g s := by
  induction n with
  | zero => rfl
  | succ n ih =>
    rw [forUpM, forUpM, ih fun i hi => h i (by omega)]
    congr 1
    funext x
    exact h n (by omega) x

/-- `arr_to_int` into an unsigned type, for numbers of any length. -/
theorem arrToInt_any {t : Nat} (ht : t ∈ BInt.primWidths) (m : Mode) (arr : List (BitVec w))
    (hn : Norm arr) :
    arrToInt w t m arr
      = .ok (if val arr < 2 ^ t then some (BitVec.ofNat t (val arr)) else none) := by
  obtain ⟨ht0, hdiv⟩ := primWidths_dvd (w := w) ht
  have h16 := hw.ge
  have hw64 : w ≤ 64 := by rcases hw.cases with h | h | h <;> omega
  have ht' : t ≤ 128 := by
    simp only [BInt.primWidths, List.mem_cons, List.not_mem_nil, or_false] at ht
    omega
  by_cases hlen : arr.length ≤ 9
  · exact arrToInt_spec m hw.pos ht0 hdiv arr hn
      (le_trans (Nat.mul_le_mul hlen hw64) (by norm_num))
  · have big : ∀ l : List (BitVec w), Norm l → 9 ≤ l.length → ¬ val l < 2 ^ t := by
      intro l hl h9
      rcases hl.lower with h | h
      · omega
      · have : 2 ^ t ≤ 2 ^ (w * (l.length - 1)) := Nat.pow_le_pow_right (by norm_num)
          (le_trans ht' (le_trans (by norm_num : 128 ≤ 16 * 8) (Nat.mul_le_mul h16 (by omega))))
        omega
    rw [if_neg (big arr hn (by omega))]
    -- the first eight limbs with a ninth one put on top
    have hl : (arr.take 8 ++ [(1 : BitVec w)]).length = 9 := by simp; omega
    have h1 : (1 : BitVec w) ≠ 0 := by
      intro h
      have := congrArg BitVec.toNat h
      have e : (BitVec.ofNat w 1).toNat = 1 := by
        rw [BitVec.toNat_ofNat]
        exact Nat.mod_eq_of_lt (Nat.one_lt_two_pow (by omega))
      rw [show (1 : BitVec w).toNat = 1 from e] at this
      simp at this
    have hN : Norm (arr.take 8 ++ [(1 : BitVec w)]) := ⟨by simp, Or.inr (by simp only [List.getLast?_append, List.getLast?_singleton, Option.some_or, ne_eq, Option.some.injEq]; exact h1)⟩
    have hs := arrToInt_spec m hw.pos ht0 hdiv _ hN
      (by rw [hl]; exact le_trans (Nat.mul_le_mul_left 9 hw64) (by norm_num))
    rw [if_neg (big _ hN (by omega))] at hs
    unfold arrToInt at hs ⊢
    rw [hl, forUpM] at hs
    refine BInt.forUpM_none _ _ ?_ (show 9 ≤ arr.length by omega) ?_
    · exact fun i => rfl
    rw [forUpM]
    have e : forUpM 8 (fun idx out => arrToIntStep w t m idx (arr.getD idx 0) out) (some 0)
        = forUpM 8 (fun idx out => arrToIntStep w t m idx
          ((arr.take 8 ++ [(1 : BitVec w)]).getD idx 0) out) (some 0) := by
      apply forUpM_congr'
      intro i hi x
      congr 1
      simp only [List.getD_eq_getElem?_getD]
      rw [List.getElem?_append_left (by simp; omega), List.getElem?_take_of_lt hi]
    rw [e]
    cases hx : forUpM 8 (fun idx out => arrToIntStep w t m idx
        ((arr.take 8 ++ [(1 : BitVec w)]).getD idx 0) out) (some 0) with
    | panic => rw [hx] at hs; cases hs
    | hang => rw [hx] at hs; cases hs
    | ok x =>
      exact arrToIntStep_far t m 8 _ _
        (lt_of_le_of_lt (Nat.mul_le_mul_left 8 hw64) (by norm_num)) (by omega)

theorem truncateU_rep {t : Nat} (ht : t ∈ BInt.primWidths) (m : Mode) {b : WInt w} (hb : Rep b) :
    truncateU t m b = .ok (BitVec.ofNat t (min (val b.limbs) (2 ^ t - 1))) := by
  unfold truncateU
  rw [arrToInt_any ht m b.limbs hb.norm]
  simp only [Res.bind, Res.ok.injEq]
  have hpos : 0 < 2 ^ t := Nat.two_pow_pos t
  split
  · rename_i h
    rw [Nat.min_eq_left (by omega)]
    rfl
  · rename_i h
    rw [Nat.min_eq_right (by omega)]
    apply BitVec.eq_of_toNat_eq
    simp only [Option.getD_none, BitVec.toNat_allOnes, BitVec.toNat_ofNat]
    rw [Nat.mod_eq_of_lt (by omega)]

omit hw in
theorem arrToIntSStep_far (u : Nat) (m : Mode) (idx : Nat) (i : BitVec w) (out : Option (BitVec u))
    (h1 : idx * w < 2 ^ 32) (h2 : u ≤ idx * w) : BInt.arrToIntSStep w u m idx i out = .ok none := by
  unfold BInt.arrToIntSStep
  cases out with
  | none => rfl
  | some x =>
    simp only
    split
    · unfold checkedShl
      simp only [Nat.mod_eq_of_lt h1]
      rw [if_neg (by omega)]
    · rfl

omit hw in
theorem arrToIntSStep_zero (u : Nat) (hu : 0 < u) (m : Mode) (x : BitVec w) :
    BInt.arrToIntSStep w u m 0 x (some 0)
      = .ok (if x.toNat < 2 ^ (u - 1) then some (BitVec.ofNat u x.toNat) else none) := by
  unfold BInt.arrToIntSStep
  simp only
  by_cases h : x.toNat < 2 ^ (u - 1)
  · rw [if_pos h, if_pos h]
    unfold checkedShl
    simp only [Nat.zero_mul, Nat.zero_mod, hu, if_true, BitVec.shiftLeft_zero]
    have : (0 : BitVec u).saddOverflow (BitVec.ofNat u x.toNat) = false := by
      unfold BitVec.saddOverflow
      have h1 := BitVec.toInt_lt (x := BitVec.ofNat u x.toNat)
      have h2 := BitVec.le_toInt (BitVec.ofNat u x.toNat)
      have h3 : (0 : BitVec u).toInt = 0 := BitVec.toInt_zero
      simp only [h3, zero_add, Bool.or_eq_false_iff, decide_eq_false_iff_not]
      omega
    rw [this]
    simp
  · rw [if_neg h, if_neg h]

/-- `arr_to_int` into a signed type no wider than a word. -/
theorem arrToIntS_any {t : Nat} (ht0 : 0 < t) (ht : t ≤ w) (m : Mode) (arr : List (BitVec w))
    (hn : Norm arr) :
    BInt.arrToIntS w t m arr
      = .ok (if val arr < 2 ^ (t - 1) then some (BitVec.ofNat t (val arr)) else none) := by
  have hpos := List.length_pos_iff.mpr hn.1
  have hw64 : w ≤ 64 := by rcases hw.cases with h | h | h <;> omega
  unfold BInt.arrToIntS
  by_cases hl : arr.length = 1
  · obtain ⟨x, hx⟩ := List.length_eq_one_iff.mp hl
    rw [hx, val_one]
    exact arrToIntSStep_zero t ht0 m x
  · have hv : ¬ val arr < 2 ^ (t - 1) := by
      rcases hn.lower with h | h
      · omega
      · have : 2 ^ (t - 1) ≤ 2 ^ (w * (arr.length - 1)) := Nat.pow_le_pow_right (by norm_num)
          (le_trans (by omega) (Nat.le_mul_of_pos_right w (by omega)))
        omega
    rw [if_neg hv]
    refine BInt.forUpM_none _ _ ?_ (show 2 ≤ arr.length by omega) ?_
    · exact fun i => rfl
    simp only [forUpM, Res.bind]
    rw [arrToIntSStep_zero t ht0]
    simp only
    rw [arrToIntSStep_far t m 1 _ _ (by omega) (by omega)]

/-- A stored value that is not canonical is negative zero. -/
theorem canon_or_neg_zero {b : WInt w} (hb : Rep b) : Canon b ∨ b = ⟨true, .inline 0⟩ := by
  by_cases h : b.neg = true → val b.limbs ≠ 0
  · exact .inl ⟨hb, h⟩
  · right
    simp only [Classical.not_imp, not_not] at h
    refine Rep.ext hb ?_ h.1 ?_
    · show (0 : BitVec w).toNat < _
      simp
    · rw [h.2]
      show 0 = val [(0 : BitVec w)]
      simp [val]

theorem tryIntoS_canon {t : Nat} (ht : t ∈ BInt.primWidths) (htw : t ≤ w) (m : Mode) {b : WInt w}
    (hb : Canon b) :
    tryIntoS t m b = .ok (if ival b < -2 ^ (t - 1) then .error .below
      else if ival b = -2 ^ (t - 1) then .error .above
      else if ival b < 2 ^ (t - 1) then .ok (BitVec.ofNat t (ival b).natAbs) else .error .above) := by
  obtain ⟨ht0, _⟩ := primWidths_dvd (w := w) ht
  obtain ⟨mx, h1, h2, h4, h3⟩ := fromS_spec (w := w) ht (BitVec.intMax t)
  obtain ⟨mn, k1, k2, k4, k3⟩ := fromS_spec (w := w) ht (BitVec.intMin t)
  have emin : (BitVec.intMin t).toInt = -2 ^ (t - 1) := by
    rw [BitVec.toInt_intMin]
    rcases Nat.exists_eq_succ_of_ne_zero (by omega : t ≠ 0) with ⟨k, rfl⟩
    have : (2 : Nat) ^ k < 2 ^ (k + 1) := Nat.pow_lt_pow_right (by norm_num) (by omega)
    simp [Nat.mod_eq_of_lt this]
  rw [BitVec.toInt_intMax] at h3 h4
  rw [emin] at k3 k4
  have hpow : 2 ^ (t - 1) < 2 ^ w := Nat.pow_lt_pow_right (by norm_num) (by omega)
  have hpos : 0 < 2 ^ (t - 1) := Nat.two_pow_pos _
  have hZ : ((2 ^ (t - 1) : Nat) : Int) = (2 : Int) ^ (t - 1) := by push_cast; rfl
  have hc1 := cmp_small hb h2 (by rw [h4]; omega)
  have hc2 := cmp_small hb k2 (by rw [k4]; omega)
  unfold tryIntoS
  rw [h1, k1]
  simp only [Res.bind]
  rw [hc1, hc2]
  simp only [BInt.compare_gt_iff, BInt.compare_lt_iff, h3, k3]
  have habs := natAbs_ival b
  rw [arrToIntS_any ht0 htw m b.limbs hb.norm, ← habs]
  generalize hP : (2 : Int) ^ (t - 1) = P at *
  generalize hQ : (2 : Nat) ^ (t - 1) = Q at *
  by_cases g1 : P - 1 < ival b
  · rw [if_pos g1, if_neg (by omega), if_neg (by omega), if_neg (by omega)]
  · rw [if_neg g1]
    by_cases g2 : ival b < -P
    · rw [if_pos g2, if_pos g2]
    · rw [if_neg g2, if_neg g2]
      by_cases g3 : ival b = -P
      · rw [if_pos g3, if_neg (by omega)]
      · rw [if_neg g3, if_pos (by omega), if_pos (by omega)]

theorem tryIntoS_rep {t : Nat} (ht : t ∈ BInt.primWidths) (htw : t ≤ w) (m : Mode) {b : WInt w}
    (hb : Rep b) :
    tryIntoS t m b = .ok (if ival b < -2 ^ (t - 1) then .error .below
      else if ival b = -2 ^ (t - 1) then .error .above
      else if ival b < 2 ^ (t - 1) then .ok (BitVec.ofNat t (ival b).natAbs) else .error .above) := by
  rcases canon_or_neg_zero hb with h | h
  · exact tryIntoS_canon ht htw m h
  · subst h
    have e : ival (⟨true, .inline 0⟩ : WInt w) = 0 := by
      show -((val [(0 : BitVec w)] : Nat) : Int) = 0
      simp [val]
    rw [e]
    have hp : (0 : Int) < 2 ^ (t - 1) := by positivity
    rw [if_neg (by omega), if_neg (by omega), if_pos hp]
    simp only [BInt.primWidths, List.mem_cons, List.not_mem_nil, or_false] at ht
    rcases hw.cases with h | h | h <;> subst h <;> cases m <;>
      rcases ht with rfl | rfl | rfl | rfl | rfl <;>
      first | omega | decide +kernel

theorem truncateS_rep {t : Nat} (ht : t ∈ BInt.primWidths) (htw : t ≤ w) (m : Mode) {b : WInt w}
    (hb : Rep b) :
    truncateS t m b = .ok (if b.neg then -BitVec.ofNat t (min (val b.limbs) (2 ^ (t - 1) - 1))
      else BitVec.ofNat t (min (val b.limbs) (2 ^ (t - 1) - 1))) := by
  obtain ⟨ht0, _⟩ := primWidths_dvd (w := w) ht
  have hpos : 0 < 2 ^ (t - 1) := Nat.two_pow_pos _
  have h2 : 2 ^ t = 2 * 2 ^ (t - 1) := by rw [← Nat.pow_succ']; congr 1; omega
  unfold truncateS isNegative
  rw [arrToIntS_any ht0 htw m b.limbs hb.norm]
  have hx : (if val b.limbs < 2 ^ (t - 1) then some (BitVec.ofNat t (val b.limbs)) else none).getD
      (BitVec.intMax t) = BitVec.ofNat t (min (val b.limbs) (2 ^ (t - 1) - 1)) := by
    split
    · rw [Nat.min_eq_left (by omega)]; rfl
    · rw [Nat.min_eq_right (by omega)]
      apply BitVec.eq_of_toNat_eq
      simp only [Option.getD_none, BitVec.toNat_intMax, BitVec.toNat_ofNat]
      rw [Nat.mod_eq_of_lt (by omega)]
  simp only [Res.bind]
  rw [hx]
  have hne : BitVec.ofNat t (min (val b.limbs) (2 ^ (t - 1) - 1)) ≠ BitVec.intMin t := by
    intro h
    have := congrArg BitVec.toNat h
    rw [BitVec.toNat_ofNat, BitVec.toNat_intMin, Nat.mod_eq_of_lt (by omega),
      Nat.mod_eq_of_lt (by omega)] at this
    omega
  rw [if_neg hne]
  split <;> rfl

end WInt

end Verif
