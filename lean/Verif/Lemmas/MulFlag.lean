import Verif.Lemmas.Mul

/-!
# Helper lemmas: the overflow flag of the in-place multiplication, and `u128` widening
-/

namespace Verif

open BitSlice

variable {w : Nat}

theorem pv_le_val (s : List (BitVec w)) (n : Nat) : pv s n ≤ val s := by
  rw [← pv_mod]; exact Nat.mod_le _ _

namespace ElementMul

theorem addItem_fits (hw : 0 < w) (s : List (BitVec w)) (idx : Nat) (v : BitVec w)
    (h : val s + v.toNat * 2 ^ (w * idx) < modulus s) :
    (addItem s idx v).2 = false ∧ val (addItem s idx v).1 = val s + v.toNat * 2 ^ (w * idx) := by
  by_cases hi : idx < s.length
  · have h1 := addItem_in hw s idx v hi
    cases hc : (addItem s idx v).2 with
    | false => rw [hc] at h1; exact ⟨rfl, by simpa using h1⟩
    | true =>
      rw [hc] at h1
      simp at h1
      omega
  · rw [addItem_out hw s idx v (by omega)]
    have hle : modulus s ≤ 2 ^ (w * idx) :=
      Nat.pow_le_pow_right (by norm_num) (Nat.mul_le_mul_left _ (by omega))
    have hv : v.toNat = 0 := by
      by_contra h0
      have : 1 * 2 ^ (w * idx) ≤ v.toNat * 2 ^ (w * idx) :=
        Nat.mul_le_mul_right _ (by omega)
      omega
    simp [hv]

/-- The body of the inner loop of `mul_overflowing`. -/
def innerBody (right : List (BitVec w)) (idx : Nat) (l : BitVec w) (offset : Nat)
    (s : MulState w) : MulState w :=
  let (low, high) := wideningMul l (right.getD offset 0) s.carry
  let (left, c) := addItem s.left (idx + offset) low
  { left := left, carry := high, newOverflow := if c then true else s.newOverflow }

theorem inner_fits (hw : 0 < w) (right : List (BitVec w)) (idx : Nat) (l : BitVec w)
    (s : List (BitVec w)) (h : val s + l.toNat * val right * 2 ^ (w * idx) < modulus s) (n : Nat) :
    let st := forUp n (innerBody right idx l) ⟨s, 0, false⟩
    st.left.length = s.length ∧ st.newOverflow = false ∧
      val st.left + st.carry.toNat * 2 ^ (w * (idx + n))
        = val s + l.toNat * pv right n * 2 ^ (w * idx) := by
  intro st
  apply forUp_inv (fun n (st : MulState w) => st.left.length = s.length ∧ st.newOverflow = false ∧
      val st.left + st.carry.toNat * 2 ^ (w * (idx + n))
        = val s + l.toNat * pv right n * 2 ^ (w * idx))
  · simp
  · rintro i ⟨acc, c, f⟩ _ ⟨h1, h2, h3⟩
    simp only at h1 h2 h3
    have hm : modulus acc = modulus s := by simp [modulus, h1]
    have hx := wideningMul_spec l (right.getD i 0) c
    simp only [innerBody]
    generalize wideningMul l (right.getD i 0) c = W at *
    have hpw : 2 ^ (w * (idx + (i + 1))) = 2 ^ w * 2 ^ (w * (idx + i)) := by
      rw [← Nat.pow_add]; congr 1; ring
    have hpw2 : 2 ^ (w * (idx + i)) = 2 ^ (w * i) * 2 ^ (w * idx) := by
      rw [← Nat.pow_add]; congr 1; ring
    have hsum : val acc + W.1.toNat * 2 ^ (w * (idx + i))
        + W.2.toNat * 2 ^ (w * (idx + (i + 1)))
        = val s + l.toNat * pv right (i + 1) * 2 ^ (w * idx) := by
      rw [hpw]
      calc _ = val acc + (W.1.toNat + W.2.toNat * 2 ^ w) * 2 ^ (w * (idx + i)) := by ring
        _ = (val acc + c.toNat * 2 ^ (w * (idx + i)))
            + l.toNat * (right.getD i 0).toNat * 2 ^ (w * (idx + i)) := by rw [hx]; ring
        _ = _ := by rw [h3, pv_succ, hpw2]; ring
    have hbound : l.toNat * pv right (i + 1) * 2 ^ (w * idx)
        ≤ l.toNat * val right * 2 ^ (w * idx) :=
      Nat.mul_le_mul_right _ (Nat.mul_le_mul_left _ (pv_le_val _ _))
    obtain ⟨k1, k2⟩ := addItem_fits hw acc (idx + i) W.1 (by omega)
    refine ⟨by rw [addItem_length hw, h1], by simp [k1, h2], ?_⟩
    rw [k2]; exact hsum

theorem mulStep_fits (hw : 0 < w) (right : List (BitVec w)) (idx : Nat)
    (st : List (BitVec w) × Bool) (hi : idx < st.1.length)
    (h : val (st.1.set idx 0) + (st.1.getD idx 0).toNat * val right * 2 ^ (w * idx)
      < modulus st.1) :
    (mulStep right idx st).2 = st.2 ∧
    val (mulStep right idx st).1
      = val (st.1.set idx 0) + (st.1.getD idx 0).toNat * val right * 2 ^ (w * idx) := by
  obtain ⟨s, f⟩ := st
  simp only at h ⊢ hi
  have hm1 : modulus (s.set idx 0) = modulus s := by simp [modulus]
  have hin := inner_fits hw right idx (s.getD idx 0) (s.set idx 0) (by omega) right.length
  have hdef : mulStep right idx (s, f) =
      let inner := forUp right.length (innerBody right idx (s.getD idx 0)) ⟨s.set idx 0, 0, false⟩
      let r := if inner.carry ≠ 0 then addItem inner.left (idx + right.length) inner.carry
        else (inner.left, false)
      (r.1, f || (if r.2 then true else inner.newOverflow)) := rfl
  rw [hdef]
  simp only at hin ⊢
  generalize forUp right.length (innerBody right idx (s.getD idx 0)) ⟨s.set idx 0, 0, false⟩ = I at *
  obtain ⟨g1, g2, g3⟩ := hin
  rw [pv_length] at g3
  have hmI : modulus I.left = modulus s := by
    simp only [modulus, g1, List.length_set]
  by_cases hc : I.carry ≠ 0
  · rw [if_pos hc]
    obtain ⟨k1, k2⟩ := addItem_fits hw I.left (idx + right.length) I.carry (by omega)
    rw [k2, g3, k1, g2]
    simp
  · rw [if_neg hc]
    have hc : I.carry = 0 := by simpa using hc
    rw [hc] at g3
    simp only [g2]
    refine ⟨by simp, ?_⟩
    simpa using g3

/-- No overflow is ever reported for a product which fits. -/
theorem mulOverflowing_fits (hw : 0 < w) (left right : List (BitVec w))
    (h : val left * val right < modulus left) : (mulOverflowing left right).2 = false := by
  unfold mulOverflowing
  have key := forDown_inv (fun i (st : List (BitVec w) × Bool) => st.1.length = left.length ∧
      (∀ j < i, st.1.getD j 0 = left.getD j 0) ∧ st.2 = false ∧
      val st.1 + pv left i * val right = val left * val right + pv left i)
    (mulStep right) left.length (left, false) ?_ ?_
  · exact key.2.2.1
  · refine ⟨rfl, fun _ _ => rfl, rfl, ?_⟩
    rw [pv_length, Nat.add_comm]
  · rintro i st hi ⟨h1, h2, h3, h4⟩
    obtain ⟨g1, g2, _⟩ := mulStep_mod hw right i st (by omega)
    have hm : modulus st.1 = modulus left := by simp [modulus, h1]
    have hset := val_set st.1 i 0 (by omega)
    have hset : val (st.1.set i 0) + (left.getD i 0).toNat * 2 ^ (w * i) = val st.1 := by
      rw [← h2 i (by omega)]
      simpa using hset
    rw [pv_succ] at h4
    have hlt := val_lt st.1
    rw [hm] at hlt
    have e1 : (left.getD i 0).toNat * val right * 2 ^ (w * i)
        = (left.getD i 0).toNat * 2 ^ (w * i) * val right := by ring
    have hT : val (st.1.set i 0) + (left.getD i 0).toNat * 2 ^ (w * i) * val right
        + pv left i * val right = val left * val right + pv left i := by
      rw [Nat.add_mul] at h4
      omega
    have hpvle : pv left i ≤ pv left i * val right ∨ val right = 0 := by
      rcases Nat.eq_zero_or_pos (val right) with h0 | h0
      · exact .inr h0
      · exact .inl (Nat.le_mul_of_pos_right _ h0)
    obtain ⟨k1, k2⟩ := mulStep_fits hw right i st (by omega) (by
      rw [h2 i (by omega), hm, e1]
      rcases hpvle with h5 | h5
      · omega
      · rw [h5] at hT ⊢
        simp only [Nat.mul_zero, Nat.add_zero] at hT ⊢
        omega)
    refine ⟨by omega, fun j hj => by rw [g2 j hj, h2 j (by omega)], by rw [k1, h3], ?_⟩
    rw [k2, h2 i (by omega), e1]
    exact hT

/-- With a one-limb left operand the flag is never raised, whatever the product. -/
theorem mulOverflowing_one_limb (hw : 0 < w) (a : BitVec w) (right : List (BitVec w)) :
    (mulOverflowing [a] right).2 = false := by
  have hdef : mulOverflowing [a] right =
      let inner := forUp right.length (innerBody right 0 a) ⟨[0], 0, false⟩
      let r := if inner.carry ≠ 0 then addItem inner.left (0 + right.length) inner.carry
        else (inner.left, false)
      (r.1, false || (if r.2 then true else inner.newOverflow)) := rfl
  rw [hdef]
  have hin : ∀ n, (forUp n (innerBody right 0 a) ⟨[0], 0, false⟩).left.length = 1 ∧
      (forUp n (innerBody right 0 a) ⟨[0], 0, false⟩).newOverflow = false ∧
      (n = 0 → forUp n (innerBody right 0 a) ⟨[0], 0, false⟩ = ⟨[0], 0, false⟩) := by
    intro n
    induction n with
    | zero => exact ⟨rfl, rfl, fun _ => rfl⟩
    | succ n ih =>
      obtain ⟨i1, i2, i3⟩ := ih
      simp only [forUp]
      generalize forUp n (innerBody right 0 a) ⟨[0], 0, false⟩ = I at *
      simp only [innerBody]
      generalize wideningMul a (right.getD n 0) I.carry = W
      refine ⟨by rw [addItem_length hw, i1], ?_, by omega⟩
      rcases Nat.eq_zero_or_pos n with h0 | h0
      · rw [i3 h0, h0]
        have := addItem_fits hw [0] 0 W.1 (by
          have := W.1.isLt
          simpa [val, modulus] using this)
        rw [if_neg (by rw [this.1]; simp)]
      · rw [addItem_out hw _ _ _ (by omega)]
        simp [i2]
  obtain ⟨h1, h2, h3⟩ := hin right.length
  simp only
  generalize forUp right.length (innerBody right 0 a) ⟨[0], 0, false⟩ = I at *
  by_cases hc : I.carry ≠ 0
  · have : right.length ≠ 0 := by
      intro h0
      rw [h3 h0] at hc
      exact hc rfl
    rw [if_pos hc, addItem_out hw _ _ _ (by omega)]
    simp [h2]
  · rw [if_neg hc]; simp [h2]

end ElementMul

end Verif
