import Verif.Lemmas.MulFlag
import Verif.Spec.Mul

/-!
# Helper lemmas: exact behaviour of the overflow flag of the in-place multiplication
-/

namespace Verif

open BitSlice

variable {w : Nat}

namespace ElementMul

/-- Adding an item to a register which already wrapped or not. -/
theorem addItem_flag (hw : 0 < w) (s : List (BitVec w)) (idx : Nat) (v : BitVec w)
    (hi : idx < s.length) (T : Nat) (hs : val s = T % modulus s) (hT : T < 2 * modulus s) (f : Bool)
    (hf : f = decide (modulus s ≤ T)) (hT2 : T + v.toNat * 2 ^ (w * idx) < 2 * modulus s) :
    val (addItem s idx v).1 = (T + v.toNat * 2 ^ (w * idx)) % modulus s ∧
    (if (addItem s idx v).2 then true else f)
      = decide (modulus s ≤ T + v.toNat * 2 ^ (w * idx)) := by
  have h := addItem_in hw s idx v hi
  have hl := val_lt (addItem s idx v).1
  have hm : modulus (addItem s idx v).1 = modulus s := by simp [modulus, addItem_length hw]
  rw [hm] at hl
  by_cases hc : modulus s ≤ T
  · rw [Nat.mod_eq_sub_mod hc, Nat.mod_eq_of_lt (by omega)] at hs
    have hc2 : modulus s ≤ T + v.toNat * 2 ^ (w * idx) := by omega
    rw [Nat.mod_eq_sub_mod hc2, Nat.mod_eq_of_lt (by omega)]
    cases hcar : (addItem s idx v).2 with
    | false =>
      rw [hcar] at h
      simp only [Bool.toNat_false, Nat.zero_mul, Nat.add_zero] at h
      refine ⟨by omega, ?_⟩
      rw [hf]; simp [hc, hc2]
    | true =>
      rw [hcar] at h
      simp only [Bool.toNat_true, Nat.one_mul] at h
      omega
  · rw [Nat.mod_eq_of_lt (by omega)] at hs
    cases hcar : (addItem s idx v).2 with
    | false =>
      rw [hcar] at h
      simp only [Bool.toNat_false, Nat.zero_mul, Nat.add_zero] at h
      have : ¬ modulus s ≤ T + v.toNat * 2 ^ (w * idx) := by omega
      refine ⟨by rw [Nat.mod_eq_of_lt (by omega)]; omega, ?_⟩
      rw [hf]; simp [hc, this]
    | true =>
      rw [hcar] at h
      simp only [Bool.toNat_true, Nat.one_mul] at h
      have : modulus s ≤ T + v.toNat * 2 ^ (w * idx) := by omega
      refine ⟨by rw [Nat.mod_eq_sub_mod this, Nat.mod_eq_of_lt (by omega)]; omega, ?_⟩
      simp [this]

theorem mod_pow_add (x w k r c : Nat) (hc : c = x / 2 ^ (w * k)) :
    (x + r * 2 ^ (w * k)) / 2 ^ (w * (k + 1)) = (c + r) / 2 ^ w ∧
    (x + r * 2 ^ (w * k)) % 2 ^ (w * (k + 1))
      = x % 2 ^ (w * k) + (c + r) % 2 ^ w * 2 ^ (w * k) := by
  have e : (x + r * 2 ^ (w * k)) / 2 ^ (w * k) = c + r := by
    rw [Nat.add_mul_div_right _ _ (Nat.two_pow_pos _), hc]
  have e2 : (x + r * 2 ^ (w * k)) % 2 ^ (w * k) = x % 2 ^ (w * k) := Nat.add_mul_mod_self_right _ _ _
  rw [Nat.mul_succ, Nat.pow_add]
  constructor
  · rw [← Nat.div_div_eq_div_mul, e]
  · rw [Nat.mod_mul, e, e2, Nat.mul_comm (2 ^ (w * k))]

theorem inner_flag (hw : 0 < w) (right : List (BitVec w)) (idx : Nat) (l : BitVec w)
    (s : List (BitVec w)) (hi : idx < s.length) (n : Nat) :
    let st := forUp n (innerBody right idx l) ⟨s, 0, false⟩
    let a := l.toNat * pv right n % 2 ^ (w * min n (s.length - idx))
    st.left.length = s.length ∧ st.carry.toNat = l.toNat * pv right n / 2 ^ (w * n) ∧
      val st.left = (val s + a * 2 ^ (w * idx)) % modulus s ∧
      st.newOverflow = decide (modulus s ≤ val s + a * 2 ^ (w * idx)) := by
  intro st a
  have hpow : modulus s = 2 ^ (w * (s.length - idx)) * 2 ^ (w * idx) := by
    unfold modulus
    rw [← Nat.pow_add, ← Nat.mul_add, show s.length - idx + idx = s.length by omega]
  have hbound : ∀ x k, k ≤ s.length - idx → x < 2 ^ (w * k) → x * 2 ^ (w * idx) < modulus s := by
    intro x k hk hx
    rw [hpow]
    apply Nat.mul_lt_mul_of_pos_right _ (Nat.two_pow_pos _)
    exact Nat.lt_of_lt_of_le hx (Nat.pow_le_pow_right (by norm_num) (Nat.mul_le_mul_left _ hk))
  have hsl := val_lt s
  apply forUp_inv (fun n (st : MulState w) => st.left.length = s.length ∧
      st.carry.toNat = l.toNat * pv right n / 2 ^ (w * n) ∧
      val st.left = (val s + l.toNat * pv right n % 2 ^ (w * min n (s.length - idx))
        * 2 ^ (w * idx)) % modulus s ∧
      st.newOverflow = decide (modulus s ≤ val s + l.toNat * pv right n
        % 2 ^ (w * min n (s.length - idx)) * 2 ^ (w * idx)))
  · simp only [pv_zero, Nat.mul_zero, Nat.zero_mod, Nat.zero_mul, Nat.add_zero]
    refine ⟨by simp, by simp, (Nat.mod_eq_of_lt hsl).symm, ?_⟩
    have : ¬ modulus s ≤ val s := by omega
    simp [this]
  · rintro i ⟨acc, c, f⟩ _ ⟨h1, h2, h3, h4⟩
    simp only at h1 h2 h3 h4
    have hm : modulus acc = modulus s := by simp [modulus, h1]
    have hx := wideningMul_spec l (right.getD i 0) c
    simp only [innerBody]
    generalize wideningMul l (right.getD i 0) c = W at *
    obtain ⟨d1, d2⟩ := mod_pow_add (l.toNat * pv right i) w i (l.toNat * (right.getD i 0).toNat)
      c.toNat h2
    have e : l.toNat * pv right (i + 1)
        = l.toNat * pv right i + l.toNat * (right.getD i 0).toNat * 2 ^ (w * i) := by
      rw [pv_succ]; ring
    rw [← e, Nat.add_comm c.toNat, ← hx] at d1 d2
    have hW := W.1.isLt
    rw [Nat.add_mul_div_right _ _ (Nat.two_pow_pos _), Nat.div_eq_of_lt hW, Nat.zero_add] at d1
    rw [Nat.add_mul_mod_self_right, Nat.mod_eq_of_lt hW] at d2
    refine ⟨by rw [addItem_length hw, h1], d1.symm, ?_⟩
    by_cases hin : i < s.length - idx
    · rw [Nat.min_eq_left (by omega)] at h3 h4
      rw [Nat.min_eq_left (by omega), d2]
      have hb1 := hbound _ i (by omega) (Nat.mod_lt (l.toNat * pv right i) (Nat.two_pow_pos _))
      have hb2 := hbound _ (i + 1) (by omega)
        (Nat.mod_lt (l.toNat * pv right (i + 1)) (Nat.two_pow_pos _))
      rw [d2] at hb2
      have e3 : val s + (l.toNat * pv right i % 2 ^ (w * i) + W.1.toNat * 2 ^ (w * i))
            * 2 ^ (w * idx)
          = val s + l.toNat * pv right i % 2 ^ (w * i) * 2 ^ (w * idx)
            + W.1.toNat * 2 ^ (w * (idx + i)) := by
        rw [Nat.mul_add w idx i, Nat.pow_add]; ring
      rw [e3]
      have hb3 : l.toNat * pv right i % 2 ^ (w * i) * 2 ^ (w * idx)
            + W.1.toNat * 2 ^ (w * (idx + i)) < modulus s := by
        have e4 : (l.toNat * pv right i % 2 ^ (w * i) + W.1.toNat * 2 ^ (w * i)) * 2 ^ (w * idx)
            = l.toNat * pv right i % 2 ^ (w * i) * 2 ^ (w * idx)
              + W.1.toNat * 2 ^ (w * (idx + i)) := by
          rw [Nat.mul_add w idx i, Nat.pow_add]; ring
        omega
      have := addItem_flag hw acc (idx + i) W.1 (by omega)
        (val s + l.toNat * pv right i % 2 ^ (w * i) * 2 ^ (w * idx)) (by rw [hm]; exact h3)
        (by rw [hm]; omega) f (by rw [hm]; exact h4) (by rw [hm]; omega)
      rw [hm] at this
      exact this
    · rw [Nat.min_eq_right (by omega)] at h3 h4 ⊢
      rw [addItem_out hw _ _ _ (by omega)]
      have e5 : l.toNat * pv right (i + 1) % 2 ^ (w * (s.length - idx))
          = l.toNat * pv right i % 2 ^ (w * (s.length - idx)) := by
        rw [e]
        obtain ⟨k, hk⟩ : ∃ k, i = (s.length - idx) + k := ⟨i - (s.length - idx), by omega⟩
        have e6 : l.toNat * (right.getD i 0).toNat * 2 ^ (w * i)
            = 2 ^ (w * (s.length - idx)) * (l.toNat * (right.getD i 0).toNat * 2 ^ (w * k)) := by
          conv_lhs => rw [hk, Nat.mul_add w (s.length - idx) k, Nat.pow_add, ← hk]
          ring
        rw [e6, Nat.add_mul_mod_self_left]
      rw [e5]
      exact ⟨h3, by simpa using h4⟩

/-- One row. -/
theorem mulStep_flag (hw : 0 < w) (right : List (BitVec w)) (idx : Nat)
    (st : List (BitVec w) × Bool) (hi : idx < st.1.length) :
    let T := val (st.1.set idx 0) + (st.1.getD idx 0).toNat * val right
      % 2 ^ (w * (st.1.length - idx)) * 2 ^ (w * idx)
    (mulStep right idx st).2 = (st.2 || decide (modulus st.1 ≤ T)) ∧
    val (mulStep right idx st).1 = T % modulus st.1 := by
  obtain ⟨s, f⟩ := st
  intro T
  simp only at hi ⊢
  have hm1 : modulus (s.set idx 0) = modulus s := by simp [modulus]
  have hin := inner_flag hw right idx (s.getD idx 0) (s.set idx 0) (by simpa using hi) right.length
  have hdef : mulStep right idx (s, f) =
      let inner := forUp right.length (innerBody right idx (s.getD idx 0)) ⟨s.set idx 0, 0, false⟩
      let r := if inner.carry ≠ 0 then addItem inner.left (idx + right.length) inner.carry
        else (inner.left, false)
      (r.1, f || (if r.2 then true else inner.newOverflow)) := rfl
  rw [hdef]
  simp only [List.length_set] at hin ⊢
  generalize forUp right.length (innerBody right idx (s.getD idx 0)) ⟨s.set idx 0, 0, false⟩ = I at *
  obtain ⟨g1, g2, g3, g4⟩ := hin
  rw [pv_length] at g2 g3 g4
  have hmI : modulus I.left = modulus s := by simp only [modulus, g1]
  rw [hm1] at g3 g4
  have hpow : modulus s = 2 ^ (w * (s.length - idx)) * 2 ^ (w * idx) := by
    unfold modulus
    rw [← Nat.pow_add, ← Nat.mul_add, show s.length - idx + idx = s.length by omega]
  have hsl := val_lt (s.set idx 0)
  rw [hm1] at hsl
  have hTb : (s.getD idx 0).toNat * val right % 2 ^ (w * (s.length - idx)) * 2 ^ (w * idx)
      < modulus s := by
    rw [hpow]
    exact Nat.mul_lt_mul_of_pos_right (Nat.mod_lt _ (Nat.two_pow_pos _)) (Nat.two_pow_pos _)
  set x := (s.getD idx 0).toNat * val right with hxdef
  have hdm := Nat.div_add_mod x (2 ^ (w * right.length))
  have key : val (if I.carry ≠ 0 then addItem I.left (idx + right.length) I.carry
        else (I.left, false)).1 = T % modulus s ∧
      (if (if I.carry ≠ 0 then addItem I.left (idx + right.length) I.carry
        else (I.left, false)).2 then true else I.newOverflow) = decide (modulus s ≤ T) := by
    by_cases hr : right.length < s.length - idx
    · rw [Nat.min_eq_left (by omega)] at g3 g4
      -- the row fits the rest of the register
      have hxb : x < 2 ^ (w * (right.length + 1)) := by
        rw [Nat.mul_succ, Nat.pow_add, Nat.mul_comm]
        exact Nat.mul_lt_mul'' (s.getD idx 0).isLt (val_lt right)
      have hxm : x % 2 ^ (w * (s.length - idx)) = x := by
        apply Nat.mod_eq_of_lt
        exact Nat.lt_of_lt_of_le hxb
          (Nat.pow_le_pow_right (by norm_num) (Nat.mul_le_mul_left _ (by omega)))
      have hTx : T = val (s.set idx 0) + x * 2 ^ (w * idx) := by
        change _ + x % _ * _ = _
        rw [hxm]
      rw [hxm] at hTb
      have hsplit : x * 2 ^ (w * idx) = x % 2 ^ (w * right.length) * 2 ^ (w * idx)
          + I.carry.toNat * 2 ^ (w * (idx + right.length)) := by
        rw [g2, Nat.mul_add w idx, Nat.pow_add]
        conv_lhs => rw [← hdm]
        ring
      by_cases hc : I.carry ≠ 0
      · rw [if_pos hc]
        have := addItem_flag hw I.left (idx + right.length) I.carry (by omega)
          (val (s.set idx 0) + x % 2 ^ (w * right.length) * 2 ^ (w * idx)) (by rw [hmI]; exact g3)
          (by rw [hmI]; omega) I.newOverflow (by rw [hmI]; exact g4) (by rw [hmI]; omega)
        rw [hmI] at this
        have hT2 : T = val (s.set idx 0) + x % 2 ^ (w * right.length) * 2 ^ (w * idx)
            + I.carry.toNat * 2 ^ (w * (idx + right.length)) := by omega
        rw [hT2]
        exact this
      · rw [if_neg hc]
        have hc : I.carry = 0 := by simpa using hc
        rw [hc] at hsplit
        have hz : (0 : BitVec w).toNat = 0 := by simp
        rw [hz, Nat.zero_mul, Nat.add_zero] at hsplit
        rw [hTx, hsplit]
        exact ⟨g3, by simpa using g4⟩
    · rw [Nat.min_eq_right (by omega)] at g3 g4
      by_cases hc : I.carry ≠ 0
      · rw [if_pos hc, addItem_out hw _ _ _ (by omega)]
        exact ⟨g3, by rw [if_neg (by simp)]; exact g4⟩
      · rw [if_neg hc]
        exact ⟨g3, by rw [if_neg (by simp)]; exact g4⟩
  refine ⟨?_, key.1⟩
  rw [key.2]

/-- The flag is raised exactly when some row carries. -/
theorem mulOverflowing_flag (hw : 0 < w) (left right : List (BitVec w)) :
    (mulOverflowing left right).2 = true ↔ RowCarries w left.length (val left) (val right) := by
  unfold mulOverflowing
  have key := forDown_inv (fun i (st : List (BitVec w) × Bool) => i ≤ left.length ∧
      st.1.length = left.length ∧
      (∀ j < i, st.1.getD j 0 = left.getD j 0) ∧
      val st.1 = pv left i
        + val left / 2 ^ (w * i) * val right % 2 ^ (w * (left.length - i)) * 2 ^ (w * i) ∧
      (st.2 = true ↔ ∃ j, i ≤ j ∧ j < left.length ∧ 2 ^ (w * (left.length - j)) ≤
        2 ^ w * (val left / 2 ^ (w * (j + 1))) * val right % 2 ^ (w * (left.length - j))
          + val left / 2 ^ (w * j) % 2 ^ w * val right % 2 ^ (w * (left.length - j))))
    (mulStep right) left.length (left, false) ?_ ?_
  · rw [key.2.2.2.2]
    unfold RowCarries
    constructor
    · rintro ⟨j, _, h1, h2⟩
      exact ⟨j, h1, h2⟩
    · rintro ⟨j, h1, h2⟩
      exact ⟨j, Nat.zero_le _, h1, h2⟩
  · refine ⟨le_rfl, rfl, fun _ _ => rfl, ?_, ?_⟩
    · rw [pv_length]
      simp [Nat.mod_one]
    · simp only [Bool.false_eq_true, false_iff, not_exists]
      omega
  · rintro i st hi ⟨_, h1, h2, h3, h4⟩
    obtain ⟨g1, g2, _⟩ := mulStep_mod hw right i st (by omega)
    obtain ⟨f1, f2⟩ := mulStep_flag hw right i st (by omega)
    have hm : modulus st.1 = modulus left := by simp [modulus, h1]
    rw [h2 i (by omega), h1, hm] at f1 f2
    have hset := val_set st.1 i 0 (by omega)
    have hset : val (st.1.set i 0) + (left.getD i 0).toNat * 2 ^ (w * i) = val st.1 := by
      rw [← h2 i (by omega)]
      simpa using hset
    have hpow : modulus left = 2 ^ (w * (left.length - i)) * 2 ^ (w * i) := by
      unfold modulus
      rw [← Nat.pow_add, ← Nat.mul_add, show left.length - i + i = left.length by omega]
    have hP : 2 ^ (w * (left.length - i)) = 2 ^ w * 2 ^ (w * (left.length - (i + 1))) := by
      rw [← Nat.pow_add, Nat.add_comm, ← Nat.mul_succ]
      congr 2
      omega
    set P := 2 ^ (w * (left.length - i)) with hPdef
    set X := 2 ^ w * (val left / 2 ^ (w * (i + 1))) * val right % P with hX
    set Y := (left.getD i 0).toNat * val right % P with hY
    -- the register without limb `i`
    have hS : val (st.1.set i 0) = pv left i + X * 2 ^ (w * i) := by
      have hXe : X = 2 ^ w * (val left / 2 ^ (w * (i + 1)) * val right
          % 2 ^ (w * (left.length - (i + 1)))) := by
        rw [hX, hP, Nat.mul_assoc, Nat.mul_mod_mul_left]
      rw [pv_succ] at h3
      rw [hXe]
      have : val left / 2 ^ (w * (i + 1)) * val right % 2 ^ (w * (left.length - (i + 1)))
          * 2 ^ (w * (i + 1))
          = 2 ^ w * (val left / 2 ^ (w * (i + 1)) * val right
              % 2 ^ (w * (left.length - (i + 1)))) * 2 ^ (w * i) := by
        rw [Nat.mul_succ w i, Nat.pow_add]; ring
      omega
    have hT : val (st.1.set i 0) + Y * 2 ^ (w * i) = pv left i + (X + Y) * 2 ^ (w * i) := by
      rw [hS]; ring
    rw [hT] at f1 f2
    have hpl := pv_lt left i
    have hle : modulus left ≤ pv left i + (X + Y) * 2 ^ (w * i) ↔ P ≤ X + Y := by
      rw [hpow]
      constructor
      · intro h
        by_contra hcon
        have : (X + Y + 1) * 2 ^ (w * i) ≤ P * 2 ^ (w * i) := Nat.mul_le_mul_right _ (by omega)
        rw [Nat.add_mul, Nat.one_mul] at this
        omega
      · intro h
        have : P * 2 ^ (w * i) ≤ (X + Y) * 2 ^ (w * i) := Nat.mul_le_mul_right _ h
        omega
    refine ⟨by omega, by omega, fun j hj => by rw [g2 j hj, h2 j (by omega)], ?_, ?_⟩
    · rw [f2, hpow, Nat.mul_comm P, Nat.mod_mul, Nat.mul_comm (X + Y), Nat.add_mul_mod_self_left,
        Nat.add_mul_div_left _ _ (Nat.two_pow_pos _), Nat.mod_eq_of_lt hpl,
        Nat.div_eq_of_lt hpl, Nat.zero_add, Nat.mul_comm (2 ^ (w * i))]
      congr 2
      rw [hX, hY, ← Nat.add_mod, ← Nat.add_mul]
      congr 2
      have := val_div_mod left i
      rw [← this]
      have e : val left / 2 ^ (w * (i + 1)) = val left / 2 ^ (w * i) / 2 ^ w := by
        rw [Nat.div_div_eq_div_mul, ← Nat.pow_add, ← Nat.mul_succ]
      rw [e]
      exact Nat.div_add_mod _ _
    · rw [f1, Bool.or_eq_true, h4, decide_eq_true_iff, hle]
      constructor
      · rintro (⟨j, k1, k2, k3⟩ | k)
        · exact ⟨j, by omega, k2, k3⟩
        · refine ⟨i, le_rfl, hi, ?_⟩
          rw [val_div_mod]
          exact k
      · rintro ⟨j, k1, k2, k3⟩
        rcases Nat.eq_or_lt_of_le k1 with rfl | k4
        · right
          rw [val_div_mod] at k3
          exact k3
        · left
          exact ⟨j, k4, k2, k3⟩

end ElementMul

end Verif
