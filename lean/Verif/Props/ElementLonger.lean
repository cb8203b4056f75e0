import Verif.Props.Element
import Mathlib.Tactic.LinearCombination

/-!
# In-place addition and subtraction with a longer right operand (C162)
-/

namespace Verif

open BitSlice

variable {w : Nat}

private theorem pow_succ_mul (w i : Nat) : 2 ^ (w * (i + 1)) = 2 ^ (w * i) * 2 ^ w := by
  rw [Nat.mul_succ, Nat.pow_add]

private theorem low_lt {a h b W x : Nat} (h1 : a + h < b) (hx : x < W) : a + h + x * b < b * W := by
  have : (x + 1) * b ≤ W * b := Nat.mul_le_mul_right _ hx
  rw [Nat.add_mul, Nat.one_mul] at this
  rw [Nat.mul_comm b W]
  omega

/-- The in-place loops write only the limbs of the left operand; what would be written above is `H`. -/
private theorem pv_step (len i : Nat) (out : List (BitVec w)) (v : BitVec w) (hl : out.length = len)
    (H : Nat) (hd : 2 ^ (w * len) ∣ H) :
    ∃ H', 2 ^ (w * len) ∣ H' ∧
      pv (out.set i v) (i + 1) + H' = pv out i + H + v.toNat * 2 ^ (w * i) := by
  by_cases hi : i < len
  · refine ⟨H, hd, ?_⟩
    rw [pv_set_succ _ _ _ (by omega)]
    ring
  · refine ⟨H + v.toNat * 2 ^ (w * i), ?_, ?_⟩
    · exact Nat.dvd_add hd (Dvd.dvd.mul_left (Nat.pow_dvd_pow 2 (Nat.mul_le_mul_left w (by omega))) _)
    · rw [List.set_eq_of_length_le (by omega), pv_succ, getD_of_ge _ _ (by omega)]
      simp
      ring

private theorem add_loop_all (hw : 0 < w) (l r : List (BitVec w)) (n : Nat) :
    let st := forUp n (fun idx (st : List (BitVec w) × Bool) =>
      let lv := getZ st.1 idx
      let rv := getZ r idx
      let (res, carry) := ElementAdd.limb lv rv st.2
      (setIgnore st.1 idx res, carry)) (l, false)
    st.1.length = l.length ∧ ∃ H, 2 ^ (w * l.length) ∣ H ∧ pv st.1 n + H < 2 ^ (w * n) ∧
      pv st.1 n + H + st.2.toNat * 2 ^ (w * n) = pv l n + pv r n := by
  intro st
  suffices h : st.1.length = l.length ∧ (∀ j, n ≤ j → st.1.getD j 0 = l.getD j 0) ∧
      ∃ H, 2 ^ (w * l.length) ∣ H ∧ pv st.1 n + H < 2 ^ (w * n) ∧
        pv st.1 n + H + st.2.toNat * 2 ^ (w * n) = pv l n + pv r n from ⟨h.1, h.2.2⟩
  apply forUp_inv (fun n (st : List (BitVec w) × Bool) => st.1.length = l.length ∧
    (∀ j, n ≤ j → st.1.getD j 0 = l.getD j 0) ∧ ∃ H, 2 ^ (w * l.length) ∣ H ∧
      pv st.1 n + H < 2 ^ (w * n) ∧ pv st.1 n + H + st.2.toNat * 2 ^ (w * n) = pv l n + pv r n)
  · exact ⟨rfl, fun _ _ => rfl, 0, Dvd.intro_left 0 (Nat.zero_mul _), by simp, by simp⟩
  · rintro i ⟨out, c⟩ hi ⟨h1, h3, H, h4, h5, h2⟩
    simp only [getZ_eq, setIgnore_eq] at *
    have hs := ElementAdd.limb_spec hw (out.getD i 0) (r.getD i 0) c
    refine ⟨by simpa using h1, ?_, ?_⟩
    · intro j hj
      rw [getD_set, if_neg (by omega), h3 j (by omega)]
    · obtain ⟨H', k1, k2⟩ := pv_step l.length i out (ElementAdd.limb (out.getD i 0) (r.getD i 0) c).1 h1 H h4
      refine ⟨H', k1, ?_, ?_⟩
      · rw [k2, pow_succ_mul]
        exact low_lt h5 (BitVec.isLt _)
      · rw [k2, pv_succ, pv_succ, pow_succ_mul]
        rw [h3 i le_rfl] at hs ⊢
        calc _ = pv out i + H + ((ElementAdd.limb (l.getD i 0) (r.getD i 0) c).1.toNat
              + (ElementAdd.limb (l.getD i 0) (r.getD i 0) c).2.toNat * 2 ^ w) * 2 ^ (w * i) := by ring
          _ = (pv out i + H + c.toNat * 2 ^ (w * i)) + ((l.getD i 0).toNat + (r.getD i 0).toNat)
              * 2 ^ (w * i) := by rw [hs]; ring
          _ = _ := by rw [h2]; ring

private theorem sub_loop_all (hw : 0 < w) (l r : List (BitVec w)) (n : Nat) :
    let st := forUp n (fun idx (st : List (BitVec w) × Bool) =>
      let lv := getZ st.1 idx
      let rv := getZ r idx
      let (res, carry) := ElementSub.limb lv rv st.2
      (setIgnore st.1 idx res, carry)) (l, false)
    st.1.length = l.length ∧ ∃ H, 2 ^ (w * l.length) ∣ H ∧ pv st.1 n + H < 2 ^ (w * n) ∧
      pv st.1 n + H + pv r n = pv l n + st.2.toNat * 2 ^ (w * n) := by
  intro st
  suffices h : st.1.length = l.length ∧ (∀ j, n ≤ j → st.1.getD j 0 = l.getD j 0) ∧
      ∃ H, 2 ^ (w * l.length) ∣ H ∧ pv st.1 n + H < 2 ^ (w * n) ∧
        pv st.1 n + H + pv r n = pv l n + st.2.toNat * 2 ^ (w * n) from ⟨h.1, h.2.2⟩
  apply forUp_inv (fun n (st : List (BitVec w) × Bool) => st.1.length = l.length ∧
    (∀ j, n ≤ j → st.1.getD j 0 = l.getD j 0) ∧ ∃ H, 2 ^ (w * l.length) ∣ H ∧
      pv st.1 n + H < 2 ^ (w * n) ∧ pv st.1 n + H + pv r n = pv l n + st.2.toNat * 2 ^ (w * n))
  · exact ⟨rfl, fun _ _ => rfl, 0, Dvd.intro_left 0 (Nat.zero_mul _), by simp, by simp⟩
  · rintro i ⟨out, c⟩ hi ⟨h1, h3, H, h4, h5, h2⟩
    simp only [getZ_eq, setIgnore_eq] at *
    have hs := ElementSub.limb_spec hw (out.getD i 0) (r.getD i 0) c
    refine ⟨by simpa using h1, ?_, ?_⟩
    · intro j hj
      rw [getD_set, if_neg (by omega), h3 j (by omega)]
    · obtain ⟨H', k1, k2⟩ := pv_step l.length i out (ElementSub.limb (out.getD i 0) (r.getD i 0) c).1 h1 H h4
      refine ⟨H', k1, ?_, ?_⟩
      · rw [k2, pow_succ_mul]
        exact low_lt h5 (BitVec.isLt _)
      · rw [k2, pv_succ, pv_succ, pow_succ_mul]
        rw [h3 i le_rfl] at hs ⊢
        generalize hL : ElementSub.limb (l.getD i 0) (r.getD i 0) c = L at *
        have e1 := congrArg (· * 2 ^ (w * i)) hs
        simp only [Nat.add_mul] at e1
        have e2 : L.2.toNat * 2 ^ w * 2 ^ (w * i) = L.2.toNat * (2 ^ (w * i) * 2 ^ w) := by ring
        omega

private theorem mod_of_parts {x H t M S : Nat} (hx : x < M) (h1 : M ∣ H) (h2 : M ∣ t)
    (h : x + H + t = S) : x = S % M := by
  obtain ⟨a, rfl⟩ := h1
  obtain ⟨b, rfl⟩ := h2
  rw [← h, Nat.add_mul_mod_self_left, Nat.add_mul_mod_self_left, Nat.mod_eq_of_lt hx]

/-! ## C162 -/

/-- C162, exactly, for addition: the left operand holds the sum modulo its own size, but the flag tells
whether the sum overflows the longer of the two operands. Missing, because false: it tells whether the sum
fits the left one. -/
theorem C162_add_exact_partial (hw : 0 < w) (l r : List (BitVec w)) :
    (ElementAdd.addOverflowing l r).1.length = l.length ∧
    val (ElementAdd.addOverflowing l r).1 = (val l + val r) % 2 ^ (w * l.length) ∧
    ((ElementAdd.addOverflowing l r).2 = true ↔
      2 ^ (w * max l.length r.length) ≤ val l + val r) ∧
    (ElementAdd.addChecked l r = none ↔ 2 ^ (w * max l.length r.length) ≤ val l + val r) ∧
    (∀ out, ElementAdd.addChecked l r = some out →
      out.length = l.length ∧ val out = (val l + val r) % 2 ^ (w * l.length)) ∧
    ElementAdd.addWrapping l r = (ElementAdd.addOverflowing l r).1 := by
  have hmain : (ElementAdd.addOverflowing l r).1.length = l.length ∧
      val (ElementAdd.addOverflowing l r).1 = (val l + val r) % 2 ^ (w * l.length) ∧
      ((ElementAdd.addOverflowing l r).2 = true ↔
        2 ^ (w * max l.length r.length) ≤ val l + val r) := by
    unfold ElementAdd.addOverflowing
    have h := add_loop_all hw l r (max l.length r.length)
    simp only at h ⊢
    generalize forUp (max l.length r.length) _ (l, false) = st at *
    obtain ⟨h1, H, h2, h3, h4⟩ := h
    rw [pv_eq_val l _ (by omega), pv_eq_val r _ (by omega), pv_eq_val _ _ (by omega)] at h4
    rw [pv_eq_val _ _ (by omega)] at h3
    have hlt : val st.1 < 2 ^ (w * l.length) := by
      have := val_lt st.1
      rwa [modulus, h1] at this
    refine ⟨h1, mod_of_parts hlt h2 (Dvd.dvd.mul_left (Nat.pow_dvd_pow 2
      (Nat.mul_le_mul_left w (by omega))) _) h4, ?_⟩
    cases hc : st.2 with
    | false => rw [hc] at h4; simp at h4 ⊢; omega
    | true => rw [hc] at h4; simp at h4 ⊢; omega
  obtain ⟨h1, h2, h3⟩ := hmain
  refine ⟨h1, h2, h3, ?_, ?_, rfl⟩
  · rw [← h3]
    unfold ElementAdd.addChecked
    cases hc : (ElementAdd.addOverflowing l r).2 <;> simp [hc]
  · intro out ho
    unfold ElementAdd.addChecked at ho
    cases hc : (ElementAdd.addOverflowing l r).2 with
    | true => simp [hc] at ho
    | false =>
      simp [hc] at ho
      rw [← ho]
      exact ⟨h1, h2⟩

/-- C162 for subtraction holds: the left operand holds the difference modulo its own size, and the flag is
exact, whatever the lengths. -/
theorem C162_sub_exact (hw : 0 < w) (l r : List (BitVec w)) :
    (ElementSub.subOverflowing l r).1.length = l.length ∧
    (val (ElementSub.subOverflowing l r).1 : Int) = ((val l : Int) - val r) % 2 ^ (w * l.length) ∧
    ((ElementSub.subOverflowing l r).2 = true ↔ val l < val r) ∧
    (ElementSub.subChecked l r = none ↔ val l < val r) ∧
    (∀ out, ElementSub.subChecked l r = some out →
      out.length = l.length ∧ val out = val l - val r) ∧
    ElementSub.subWrapping l r = (ElementSub.subOverflowing l r).1 := by
  have hmain : (ElementSub.subOverflowing l r).1.length = l.length ∧
      (val (ElementSub.subOverflowing l r).1 : Int) = ((val l : Int) - val r) % 2 ^ (w * l.length) ∧
      ((ElementSub.subOverflowing l r).2 = true ↔ val l < val r) := by
    unfold ElementSub.subOverflowing
    have h := sub_loop_all hw l r (max l.length r.length)
    simp only at h ⊢
    generalize forUp (max l.length r.length) _ (l, false) = st at *
    obtain ⟨h1, H, h2, h3, h4⟩ := h
    rw [pv_eq_val l _ (by omega), pv_eq_val r _ (by omega), pv_eq_val _ _ (by omega)] at h4
    rw [pv_eq_val _ _ (by omega)] at h3
    have hlt : val st.1 < 2 ^ (w * l.length) := by
      have := val_lt st.1
      rwa [modulus, h1] at this
    have hr : val r < 2 ^ (w * max l.length r.length) := lt_of_lt_of_le (val_lt r)
      (Nat.pow_le_pow_right (by norm_num) (Nat.mul_le_mul_left _ (by omega)))
    have hd : (2 : Nat) ^ (w * l.length) ∣ 2 ^ (w * max l.length r.length) :=
      Nat.pow_dvd_pow 2 (Nat.mul_le_mul_left w (by omega))
    refine ⟨h1, ?_, ?_⟩
    · obtain ⟨a, ha⟩ := h2
      obtain ⟨b, hb⟩ := hd
      have e : ((val l : Int) - val r) = (val st.1 : Int) + 2 ^ (w * l.length) *
          ((a : Int) - st.2.toNat * b) := by
        have h4' : (val st.1 : Int) + H + val r = val l + st.2.toNat * (2 : Int) ^ (w * max l.length r.length) := by
          exact_mod_cast h4
        have hb' : (2 : Int) ^ (w * max l.length r.length) = 2 ^ (w * l.length) * b := by exact_mod_cast hb
        have ha' : (H : Int) = 2 ^ (w * l.length) * a := by exact_mod_cast ha
        rw [hb', ha'] at h4'
        linear_combination -h4'
      rw [e, Int.add_mul_emod_self_left, Int.emod_eq_of_lt (Int.natCast_nonneg _) (by exact_mod_cast hlt)]
    · cases hc : st.2 with
      | false => rw [hc] at h4; simp at h4 ⊢; omega
      | true => rw [hc] at h4; simp at h4 ⊢; omega
  obtain ⟨h1, h2, h3⟩ := hmain
  refine ⟨h1, h2, h3, ?_, ?_, rfl⟩
  · rw [← h3]
    unfold ElementSub.subChecked
    cases hc : (ElementSub.subOverflowing l r).2 <;> simp [hc]
  · intro out ho
    unfold ElementSub.subChecked at ho
    cases hc : (ElementSub.subOverflowing l r).2 with
    | true => simp [hc] at ho
    | false =>
      simp [hc] at ho
      rw [← ho]
      refine ⟨h1, ?_⟩
      have hge : val r ≤ val l := by
        by_contra hcon
        rw [h3.mpr (by omega)] at hc
        cases hc
      have hl : val l < 2 ^ (w * l.length) := val_lt l
      rw [Int.emod_eq_of_lt (by omega) (by
        have : ((val l : Nat) : Int) < (2 : Int) ^ (w * l.length) := by exact_mod_cast hl
        omega)] at h2
      omega

/-- C162 fails for addition: `255 + 256` over one limb of 8 bits does not fit, and is not reported. -/
theorem C162_add_violated : ¬ ∀ l r : List (BitVec 8),
    ((ElementAdd.addOverflowing l r).2 = true ↔ 2 ^ (8 * l.length) ≤ val l + val r) := by
  intro h
  have := (h [255] [0, 1]).mpr (by decide)
  exact absurd this (by decide)

-- a longer right operand: the carry out of the left operand is absorbed above it
example : ElementAdd.addOverflowing [255#8] [1, 1] = ([0], false) ∧
    ElementAdd.addChecked [255#8] [1, 1] = some [0] ∧
    ElementAdd.addOverflowing [255#8] [1, 255] = ([0], true) := by decide
-- 5 - 256 borrows; 5 - 3 does not, although the right operand is longer
example : ElementSub.subOverflowing [5#8] [0, 1] = ([5], true) ∧
    ElementSub.subChecked [5#8] [3, 0] = some [2] := by decide

end Verif
