import Verif.Lemmas.BitAccess
import Verif.Lemmas.CmpBits
import Verif.Lemmas.AddSub

/-!
# Helper lemmas: the bit-wise algorithms
-/

namespace Verif

open BitSlice

variable {w : Nat}

theorem BitwiseAdd.bit_spec (l r c : Bool) :
    (BitwiseAdd.bit l r c).1.toNat + 2 * (BitwiseAdd.bit l r c).2.toNat
      = l.toNat + r.toNat + c.toNat := by
  cases l <;> cases r <;> cases c <;> rfl

theorem BitwiseSub.bit_spec (l r c : Bool) :
    (BitwiseSub.bit l r c).1.toNat + r.toNat + c.toNat
      = l.toNat + 2 * (BitwiseSub.bit l r c).2.toNat := by
  cases l <;> cases r <;> cases c <;> rfl

theorem max_bitLen (l r : List (BitVec w)) :
    max (bitLen l) (bitLen r) = w * max l.length r.length := by
  rw [bitLen_eq, bitLen_eq, Nat.mul_max_mul_left]

theorem val_lt_max_left (l r : List (BitVec w)) : val l < 2 ^ (w * max l.length r.length) :=
  Nat.lt_of_lt_of_le (val_lt l)
    (Nat.pow_le_pow_right (by norm_num) (Nat.mul_le_mul_left _ (le_max_left _ _)))

theorem val_lt_max_right (l r : List (BitVec w)) : val r < 2 ^ (w * max l.length r.length) :=
  Nat.lt_of_lt_of_le (val_lt r)
    (Nat.pow_le_pow_right (by norm_num) (Nat.mul_le_mul_left _ (le_max_right _ _)))

theorem bitwiseAdd_spec (hw : 0 < w) (l r : List (BitVec w)) :
    val (BitwiseAdd.add l r) = val l + val r ∧
    (BitwiseAdd.add l r).length = max l.length r.length
      + (if 2 ^ (w * max l.length r.length) ≤ val l + val r then 1 else 0) := by
  unfold BitwiseAdd.add
  simp only [max_bitLen]
  set L := max l.length r.length with hL
  have h := forUp_inv (fun n (st : List (BitVec w) × Bool) =>
      val st.1 + st.2.toNat * 2 ^ n = val l % 2 ^ n + val r % 2 ^ n ∧ val st.1 < 2 ^ n ∧
      (n ≤ w * L → st.1.length = L) ∧
      (n = w * L + 1 → st.1.length = L + (if 2 ^ (w * L) ≤ val l + val r then 1 else 0)))
    (fun idx (st : List (BitVec w) × Bool) =>
      let lb := (getBitOpt l idx).getD false
      let rb := (getBitOpt r idx).getD false
      let (new, carry) := BitwiseAdd.bit lb rb st.2
      (if new then setBitPush st.1 idx new else st.1, carry))
    (w * L + 1) (List.replicate L 0, false) ?_ ?_
  · simp only at h
    obtain ⟨h1, h2, _, h4⟩ := h
    refine ⟨?_, h4 trivial⟩
    have b1 := val_lt_max_left l r
    have b2 := val_lt_max_right l r
    rw [← hL] at b1 b2
    have b3 : 2 ^ (w * L + 1) = 2 * 2 ^ (w * L) := by rw [Nat.pow_succ, Nat.mul_comm]
    rw [Nat.mod_eq_of_lt (a := val l) (by omega), Nat.mod_eq_of_lt (a := val r) (by omega)] at h1
    generalize forUp (w * L + 1) _ _ = st at *
    cases hc : st.2 with
    | false => rw [hc] at h1; simpa using h1
    | true =>
      rw [hc] at h1
      simp only [Bool.toNat_true, Nat.one_mul] at h1
      omega
  · refine ⟨by simp [Nat.mod_one], by simp,
      fun _ => by simp, fun h => by omega⟩
  · rintro i ⟨s, c⟩ hi ⟨h1, h2, h3, _⟩
    simp only [getBitOpt_getD hw] at *
    have hb := BitwiseAdd.bit_spec ((val l).testBit i) ((val r).testBit i) c
    generalize BitwiseAdd.bit ((val l).testBit i) ((val r).testBit i) c = X at *
    obtain ⟨new, carry⟩ := X
    simp only at hb ⊢
    obtain ⟨g1, g2⟩ := setBitPush_spec hw s i new
    have hval : val (if new = true then setBitPush s i new else s)
        = val s + new.toNat * 2 ^ i := by
      cases new with
      | true => exact add_bit h2 g2
      | false => simp
    have hp : 2 ^ (i + 1) = 2 * 2 ^ i := by rw [Nat.pow_succ, Nat.mul_comm]
    have hsum := congrArg (· * 2 ^ i) hb
    simp only [Nat.add_mul] at hsum
    have hnew : new.toNat * 2 ^ i ≤ 2 ^ i := by cases new <;> simp
    have hval' : val s + new.toNat * 2 ^ i + carry.toNat * 2 ^ (i + 1)
        = val l % 2 ^ (i + 1) + val r % 2 ^ (i + 1) := by
      rw [mod_pow_succ, mod_pow_succ, hp]
      have : carry.toNat * (2 * 2 ^ i) = 2 * carry.toNat * 2 ^ i := by ring
      omega
    have hlen : s.length = L := h3 (by omega)
    have hLi : i < w * L → i / w < L := fun h => Nat.div_lt_of_lt_mul h
    refine ⟨by rw [hval]; exact hval', by rw [hval, hp]; omega, fun hle => ?_, fun he => ?_⟩
    · split
      · rw [g1, hlen]
        have := hLi (by omega)
        omega
      · exact hlen
    · have hi' : i = w * L := by omega
      subst hi'
      have b1 := val_lt_max_left l r
      have b2 := val_lt_max_right l r
      rw [Nat.testBit_lt_two_pow b1, Nat.testBit_lt_two_pow b2] at hb
      rw [Nat.mod_eq_of_lt b1, Nat.mod_eq_of_lt b2] at h1
      simp only [Bool.toNat_false, Nat.zero_add] at hb
      rw [Nat.mul_div_cancel_left _ hw] at g1
      cases c with
      | true =>
        simp only [Bool.toNat_true, Nat.one_mul] at h1 hb
        have : new = true := by
          cases new with
          | true => rfl
          | false => simp at hb
        rw [if_pos this, g1, hlen, if_pos (by omega)]
        simp
      | false =>
        simp only [Bool.toNat_false, Nat.zero_mul, Nat.add_zero] at h1 hb
        have : new = false := by
          cases new with
          | false => rfl
          | true => simp at hb
        rw [if_neg (by simp [this]), hlen, if_neg (by omega)]
        rfl

/-- `add_in_place` always panics: its last iteration reads bit `bit_len` of the left slice. -/
theorem bitwiseAddInPlace_panic (hw : 0 < w) (l r : List (BitVec w)) :
    BitwiseAdd.addInPlace l r = .panic := by
  unfold BitwiseAdd.addInPlace
  simp only
  set f := (fun idx (st : List (BitVec w) × Bool) =>
    (getBit st.1 idx).bind fun lb =>
    (getBit r idx).bind fun rb =>
    (setBit st.1 idx (BitwiseAdd.bit lb rb st.2).1).bind fun left =>
      Res.ok (left, (BitwiseAdd.bit lb rb st.2).2)) with hf
  have key : ∀ n, forUpM n f (l, false) = .panic ∨
      ∃ st, forUpM n f (l, false) = .ok st ∧ st.1.length = l.length := by
    intro n
    induction n with
    | zero => exact .inr ⟨_, rfl, rfl⟩
    | succ n ih =>
      rcases ih with h | ⟨st, h, hl⟩
      · left; simp only [forUpM, h, Res.bind]
      · simp only [forUpM, h, Res.bind]
        simp only [hf, getBit_eq hw]
        by_cases h1 : n < bitLen st.1
        · rw [if_pos h1]
          by_cases h2 : n < bitLen r
          · rw [if_pos h2]
            simp only [Res.bind]
            obtain ⟨t, ht, hlt, _⟩ := setBit_spec hw st.1 n
              (BitwiseAdd.bit ((val st.1).testBit n) ((val r).testBit n) st.2).1 h1
            rw [ht]
            exact .inr ⟨_, rfl, by simp [hlt, hl]⟩
          · rw [if_neg h2]; exact .inl rfl
        · rw [if_neg h1]; exact .inl rfl
  rw [forUpM]
  rcases key (max (bitLen l) (bitLen r)) with h | ⟨st, h, hl⟩
  · simp only [h, Res.bind]
  · simp only [h, Res.bind]
    simp only [hf, getBit_eq hw]
    rw [if_neg]
    · rfl
    · have : bitLen st.1 = bitLen l := by rw [bitLen, bitLen, hl]
      omega

theorem bitwiseSub_spec (hw : 0 < w) (l r : List (BitVec w)) (hne : l ≠ [] ∨ r ≠ []) :
    ∃ out neg, BitwiseSub.sub l r = .ok (out, neg) ∧ out.length = max l.length r.length ∧
      (neg = true ↔ val l < val r) ∧
      (neg = false → val out = val l - val r) ∧
      (neg = true → val out + (if (val r - val l) % 2 = 1 then 0 else 2) = val r - val l) := by
  unfold BitwiseSub.sub
  simp only [max_bitLen]
  have hL0 : 0 < max l.length r.length := by
    rcases hne with h | h <;> have := List.length_pos_iff.mpr h <;> omega
  have b1 := val_lt_max_left l r
  have b2 := val_lt_max_right l r
  set L := max l.length r.length with hL
  obtain ⟨st, h0, h1, h2, h3⟩ := forUpM_inv (fun n (st : List (BitVec w) × Bool) =>
      st.1.length = L ∧ val st.1 < 2 ^ n ∧
      val st.1 + val r % 2 ^ n = val l % 2 ^ n + st.2.toNat * 2 ^ n)
    (fun idx (st : List (BitVec w) × Bool) =>
      (setBit st.1 idx (BitwiseSub.bit ((getBitOpt l idx).getD false)
        ((getBitOpt r idx).getD false) st.2).1).bind fun out =>
      Res.ok (out, (BitwiseSub.bit ((getBitOpt l idx).getD false)
        ((getBitOpt r idx).getD false) st.2).2))
    (w * L) (List.replicate L 0, false)
    ⟨by simp, by simp, by simp [Nat.mod_one]⟩ (by
      rintro i ⟨s, c⟩ hi ⟨h1, h2, h3⟩
      simp only [getBitOpt_getD hw] at *
      have hb := BitwiseSub.bit_spec ((val l).testBit i) ((val r).testBit i) c
      generalize BitwiseSub.bit ((val l).testBit i) ((val r).testBit i) c = X at *
      obtain ⟨new, carry⟩ := X
      simp only at hb ⊢
      obtain ⟨t, g0, g1, g2⟩ := setBit_spec hw s i new (by rw [bitLen_eq, h1]; exact hi)
      refine ⟨_, by rw [g0]; rfl, by simp only; omega, ?_⟩
      have hval := add_bit h2 g2
      simp only
      have hp : 2 ^ (i + 1) = 2 * 2 ^ i := by rw [Nat.pow_succ, Nat.mul_comm]
      have hsum := congrArg (· * 2 ^ i) hb
      simp only [Nat.add_mul] at hsum
      have hnew : new.toNat * 2 ^ i ≤ 2 ^ i := by cases new <;> simp
      refine ⟨by rw [hval, hp]; omega, ?_⟩
      rw [hval, mod_pow_succ, mod_pow_succ, hp]
      have : carry.toNat * (2 * 2 ^ i) = 2 * carry.toNat * 2 ^ i := by ring
      omega)
  rw [h0]
  simp only [Res.bind]
  rw [Nat.mod_eq_of_lt b1, Nat.mod_eq_of_lt b2] at h3
  obtain ⟨s, c⟩ := st
  simp only at h1 h2 h3 ⊢
  cases c with
  | false =>
    simp only [Bool.toNat_false, Nat.zero_mul, Nat.add_zero] at h3
    refine ⟨s, false, rfl, h1, by simp; omega, fun _ => by omega, by simp⟩
  | true =>
    simp only [Bool.toNat_true, Nat.one_mul] at h3
    have hs : s ≠ [] := by intro h; rw [h] at h1; simp at h1; omega
    obtain ⟨t, g1, g2, g3⟩ := negate_spec hw s hs
    simp only [if_true, g1]
    refine ⟨t, true, rfl, by omega, by simp; omega, by simp, fun _ => ?_⟩
    rw [modulus, h1] at g3
    have heven : 2 ^ (w * L) % 2 = 0 := by
      obtain ⟨k, hk⟩ : ∃ k, w * L = k + 1 := ⟨w * L - 1, by have := Nat.mul_pos hw hL0; omega⟩
      rw [hk, Nat.pow_succ]; omega
    have hpar : (val r - val l) % 2 = val s % 2 := by omega
    rw [hpar]
    split at g3 <;> simp_all <;> omega

theorem bitwiseShl_spec (hw : 0 < w) (s : List (BitVec w)) (k : Nat) :
    val (bitwiseShl s k) = val s * 2 ^ k := by
  unfold bitwiseShl
  simp only [iterBits_eq hw, List.length_map, List.length_range]
  have hbit : ∀ n < bitLen s, ((List.range (bitLen s)).map (val s).testBit).getD n false
      = (val s).testBit n := by
    intro n hn
    simp [List.getD_eq_getElem?_getD, hn]
  have h := forUp_inv (fun n (out : List (BitVec w)) => val out = val s % 2 ^ n * 2 ^ k)
    (fun idx out =>
      let new := ((List.range (bitLen s)).map (val s).testBit).getD idx false
      if new || decide (idx + k < bitLen s) then setBitPush out (idx + k) new else out)
    (bitLen s) (List.replicate s.length 0) (by simp [Nat.mod_one]) (by
      intro i out hi h
      simp only [hbit i hi]
      have hlt : val out < 2 ^ (i + k) := by
        rw [h, Nat.pow_add]
        exact Nat.mul_lt_mul_of_pos_right (Nat.mod_lt _ (Nat.two_pow_pos _)) (Nat.two_pow_pos _)
      have hset := add_bit hlt (setBitPush_spec hw out (i + k) ((val s).testBit i)).2
      have hgoal : val out + ((val s).testBit i).toNat * 2 ^ (i + k)
          = val s % 2 ^ (i + 1) * 2 ^ k := by
        rw [h, mod_pow_succ, Nat.add_mul, Nat.pow_add, Nat.mul_assoc]
      split
      · rw [hset, hgoal]
      · rename_i hc
        have : (val s).testBit i = false := by
          simp only [Bool.or_eq_true, not_or] at hc
          simpa using hc.1
        rw [← hgoal, this]
        simp)
  rw [h]
  congr 1
  exact Nat.mod_eq_of_lt (by rw [bitLen_eq]; exact val_lt s)

theorem bitwiseShr_spec (hw : 0 < w) (s : List (BitVec w)) (k : Nat) (hne : s ≠ []) :
    ∃ out, bitwiseShr s k = .ok out ∧ val out = val s / 2 ^ k ∧ Norm out := by
  unfold bitwiseShr
  have h := forDown_inv (fun n (out : List (BitVec w)) => out.length = s.length ∧
      ∀ j, (val out).testBit j = (decide (n ≤ j + k) && (val s).testBit (j + k)))
    (fun idx out =>
      let new := (getBitOpt s idx).getD false
      if k ≤ idx then setBitIgnore out (idx - k) new else out)
    (bitLen s + 1) (List.replicate s.length 0) ?_ ?_
  · simp only at h ⊢
    generalize forDown (bitLen s + 1) _ _ = out at *
    obtain ⟨h1, h2⟩ := h
    have : out ≠ [] := by
      intro h0; rw [h0] at h1; simp at h1
      exact hne (List.length_eq_zero_iff.mp h1.symm)
    obtain ⟨t, g1, g2, g3, _⟩ := shrink_ok out this
    refine ⟨t, g1, ?_, g3⟩
    rw [g2]
    apply Nat.eq_of_testBit_eq
    intro j
    rw [h2 j, Nat.testBit_div_two_pow]
    simp
  · refine ⟨by simp, fun j => ?_⟩
    rw [val_replicate_zero, Nat.zero_testBit]
    by_cases hj : bitLen s + 1 ≤ j + k
    · symm
      rw [Bool.and_eq_false_iff]
      right
      apply Nat.testBit_lt_two_pow
      refine Nat.lt_of_lt_of_le (val_lt s) (Nat.pow_le_pow_right (by norm_num) ?_)
      rw [← bitLen_eq]; omega
    · simp [hj]
  · rintro i out hi ⟨h1, h2⟩
    simp only [getBitOpt_getD hw]
    by_cases hk : k ≤ i
    · rw [if_pos hk]
      obtain ⟨g1, g2⟩ := setBitIgnore_spec hw out (i - k) ((val s).testBit i)
      refine ⟨by omega, fun j => ?_⟩
      rw [g2 j, h2 j]
      have hbl : bitLen out = bitLen s := by rw [bitLen, bitLen, h1]
      by_cases hj : j = i - k
      · have e : j + k = i := by omega
        rw [e]
        by_cases hb : i - k < bitLen out
        · rw [if_pos ⟨hj, hb⟩]; simp
        · rw [if_neg (by tauto)]
          have : (val s).testBit i = false := by
            apply Nat.testBit_lt_two_pow
            refine Nat.lt_of_lt_of_le (val_lt s) (Nat.pow_le_pow_right (by norm_num) ?_)
            rw [← bitLen_eq]; omega
          simp [this]
      · rw [if_neg (by tauto)]
        have : (i + 1 ≤ j + k) ↔ (i ≤ j + k) := by omega
        simp only [this]
    · rw [if_neg hk]
      refine ⟨h1, fun j => ?_⟩
      rw [h2 j]
      have : (i + 1 ≤ j + k) ↔ (i ≤ j + k) := by omega
      simp only [this]

theorem bitwiseMul_spec (hw : 0 < w) (l r : List (BitVec w)) :
    ∃ out, bitwiseMul l r = .ok out ∧ val out = val l * val r := by
  unfold bitwiseMul
  simp only
  obtain ⟨ns, h1, h2, _⟩ := ElementShl.shl_spec hw l 0
  rw [h1]
  simp only [Res.bind]
  obtain ⟨st, g1, g2, g3⟩ := forUpM_inv
    (fun n (st : List (BitVec w) × List (BitVec w)) =>
      val st.1 = val l * (val r % 2 ^ n) ∧ val st.2 = val l * 2 ^ n)
    (fun idx (st : List (BitVec w) × List (BitVec w)) =>
      (getBit r idx).bind fun b =>
      (if b then ElementAdd.add st.1 st.2 else .ok st.1).bind fun out =>
      (ElementShl.shl st.2 1).bind fun newSelf => Res.ok (out, newSelf))
    (bitLen r) (List.replicate (max l.length r.length * 2) 0, ns)
    ⟨by simp [Nat.mod_one], by simpa using h2⟩ (by
      rintro i ⟨out, self⟩ hi ⟨k1, k2⟩
      simp only at k1 k2 ⊢
      rw [getBit_eq hw, if_pos hi]
      simp only [Res.bind]
      obtain ⟨self', s1, s2, _⟩ := ElementShl.shl_spec hw self 1
      have hself' : val self' = val l * 2 ^ (i + 1) := by
        rw [s2, k2, Nat.pow_succ]; ring
      cases hb : (val r).testBit i with
      | true =>
        obtain ⟨o, o1, o2, _⟩ := add_exact hw out self
        simp only [if_true, o1, s1]
        refine ⟨_, rfl, ?_, hself'⟩
        simp only
        rw [o2, k1, k2, mod_pow_succ, hb]
        simp only [Bool.toNat_true, Nat.one_mul]
        ring
      | false =>
        simp only [Bool.false_eq_true, if_false, s1]
        refine ⟨_, rfl, ?_, hself'⟩
        simp only
        rw [k1, mod_pow_succ, hb]
        simp)
  simp only [Res.bind] at g1 ⊢
  rw [g1]
  refine ⟨st.1, rfl, ?_⟩
  rw [g2, Nat.mod_eq_of_lt]
  rw [bitLen_eq]
  exact val_lt r

end Verif
