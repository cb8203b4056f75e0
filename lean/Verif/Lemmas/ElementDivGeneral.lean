import Verif.Lemmas.ElementDivExact
import Mathlib.Data.Nat.ModEq

/-!
# Helper lemmas: element-wise long division by a divisor of several limbs
-/

namespace Verif

open BitSlice

variable {w : Nat}

theorem sub_modEq (hw : 0 < w) (l r : List (BitVec w)) (h : r.length ≤ l.length) :
    val (ElementSub.subWrapping l r) + val r ≡ val l [MOD modulus l] := by
  obtain ⟨_, s2⟩ := subOverflowing_spec hw l r h
  change val (ElementSub.subWrapping l r) + val r = _ at s2
  rw [s2]
  unfold Nat.ModEq
  rw [Nat.add_mul_mod_self_right]

/-- The inner loop, whatever the higher limbs of the divisor and the remainder. -/
theorem divWhile_general (hw : 0 < w) (right one : List (BitVec w)) (fuel : Nat)
    (q rem : List (BitVec w)) (ho : one.length ≤ q.length) (hr : right.length ≤ rem.length)
    (hl : 0 < rem.length) (hd : 0 < (right.getD 0 0).toNat) (x : Nat)
    (hrem : (rem.getD 0 0).toNat = x) (hf : x ≤ fuel)
    (hq : val q + x / (right.getD 0 0).toNat * val one < modulus q) :
    ∃ q' r' k, ElementDiv.divWhile right one fuel (q, rem) = .ok (q', r') ∧
      q'.length = q.length ∧ r'.length = rem.length ∧
      (k = x / (right.getD 0 0).toNat ∨ (k + 1) * (right.getD 0 0).toNat = x) ∧
      val q' = val q + k * val one ∧ val r' + k * val right ≡ val rem [MOD modulus rem] := by
  induction fuel generalizing q rem x with
  | zero =>
    unfold ElementDiv.divWhile
    rw [if_neg]
    · exact ⟨_, _, 0, rfl, rfl, rfl, Or.inl (by rw [show x = 0 by omega]; simp), by simp,
        by rw [Nat.zero_mul]; exact Nat.ModEq.refl _⟩
    · intro h
      have := isGe_low_le h
      omega
  | succ fuel ih =>
    unfold ElementDiv.divWhile
    by_cases h : isGe (elementCmp rem right) = true
    · rw [if_pos h]
      have hle := isGe_low_le h
      have hs := sub_low hw rem right hr hl hle
      have s1 : (ElementSub.subWrapping rem right).length = rem.length :=
        (subOverflowing_spec hw rem right hr).1
      have hdiv : x / (right.getD 0 0).toNat
          = (x - (right.getD 0 0).toNat) / (right.getD 0 0).toNat + 1 := by
        conv_lhs => rw [show x = (x - (right.getD 0 0).toNat) + (right.getD 0 0).toNat by omega]
        rw [Nat.add_div_right _ hd]
      rw [hdiv, Nat.add_mul, Nat.one_mul] at hq
      obtain ⟨a1, a2⟩ := addWrapping_fits hw q one ho (by omega)
      have hm : modulus (ElementAdd.addWrapping q one) = modulus q := by simp [modulus, a1]
      have hm' : modulus (ElementSub.subWrapping rem right) = modulus rem := by simp [modulus, s1]
      obtain ⟨q', r', k, g0, g1, g2, g3, g4, g5⟩ := ih (ElementAdd.addWrapping q one)
        (ElementSub.subWrapping rem right) (by omega) (by omega) (by omega)
        (x - (right.getD 0 0).toNat) (by omega) (by omega) (by rw [hm, a2]; omega)
      refine ⟨q', r', k + 1, g0, by omega, by omega, ?_, by rw [g4, a2]; ring, ?_⟩
      · rcases g3 with g3 | g3
        · left; omega
        · right
          rw [show (k + 1 + 1) * (right.getD 0 0).toNat
            = (k + 1) * (right.getD 0 0).toNat + (right.getD 0 0).toNat by ring, g3]
          omega
      · rw [hm'] at g5
        rw [Nat.add_mul, Nat.one_mul, ← Nat.add_assoc]
        exact (Nat.ModEq.add_right (val right) g5).trans (sub_modEq hw rem right hr)
    · rw [if_neg h]
      refine ⟨_, _, 0, rfl, rfl, rfl, ?_, by simp, by rw [Nat.zero_mul]; exact Nat.ModEq.refl _⟩
      have hle : x ≤ (right.getD 0 0).toNat := by
        by_contra hc
        exact h (isGe_of_low_lt (by omega))
      rcases Nat.eq_or_lt_of_le hle with h | h
      · right; omega
      · left; rw [Nat.div_eq_of_lt h]

theorem val_take_succ (s : List (BitVec w)) (i : Nat) (h : i < s.length) :
    val (s.take (i + 1)) = val (s.take i) + 2 ^ (w * i) * (s.getD i 0).toNat := by
  rw [List.take_add_one, List.getElem?_eq_getElem h, val_append]
  simp only [Option.toList_some, val_cons, val_nil, Nat.mul_zero, Nat.add_zero, modulus,
    List.length_take]
  rw [show min i s.length = i by omega]
  simp [List.getD_eq_getElem?_getD, h]

/-- `div_long` by a divisor whose low limb is not zero: each limb of the quotient is the limb of
the numerator divided by the low limb of the divisor, or one less. -/
theorem elementDivLong_general (m : Mode) (hw : 0 < w) (fuel : Nat) (left right : List (BitVec w))
    (hlen : right.length ≤ left.length) (h1 : 2 ≤ w * left.length) (h2 : w * left.length < 2 ^ 64)
    (hf : 2 ^ w ≤ fuel) (hd : 0 < (right.getD 0 0).toNat) :
    ∃ q r, ElementDiv.divLong m fuel left right = .ok (q, r) ∧ Norm q ∧ Norm r ∧
      val r < modulus left ∧
      (∀ i, (q.getD i 0).toNat = (left.getD i 0).toNat / (right.getD 0 0).toNat ∨
        ((q.getD i 0).toNat + 1) * (right.getD 0 0).toNat = (left.getD i 0).toNat) ∧
      val q * val right + val r ≡ val left [MOD modulus left] := by
  unfold ElementDiv.divLong
  have hmax : max left.length right.length = left.length := by omega
  have hl0 : 0 < left.length := by
    rcases Nat.eq_zero_or_pos left.length with h | h
    · rw [h] at h1; simp at h1
    · exact h
  simp only [hmax]
  rw [if_neg (by omega)]
  obtain ⟨st, g0, g1, g2, g3, ⟨ks, g4, g5, g6⟩, g7, _⟩ := forDownM_inv
    (fun i (st : ElementDiv.DivState w) =>
      st.quotient.length = left.length ∧ st.remainder.length = left.length ∧
      st.one.length = left.length ∧
      (∃ ks : List (BitVec w), ks.length = left.length - i ∧
        val st.quotient = 2 ^ (w * i) * val ks ∧
        ∀ j, (ks.getD j 0).toNat = (left.getD (i + j) 0).toNat / (right.getD 0 0).toNat ∨
          ((ks.getD j 0).toNat + 1) * (right.getD 0 0).toNat = (left.getD (i + j) 0).toNat) ∧
      (val st.quotient * val right + 2 ^ (w * i) * val st.remainder + val (left.take i)
        ≡ val left [MOD modulus left]) ∧
      (i = left.length → val st.remainder = 0) ∧
      (0 < i → val st.one = 2 ^ (w * (i - 1))))
    (fun idx (st : ElementDiv.DivState w) =>
      (ElementShl.shlWrapping m st.remainder w).bind fun remainder =>
      (BitSlice.get left idx).bind fun v =>
      (BitSlice.set remainder 0 v).bind fun remainder =>
      (ElementDiv.divWhile right st.one fuel (st.quotient, remainder)).bind fun qr =>
      (ElementShr.shrWrapping m st.one w).bind fun one =>
      Res.ok ⟨qr.1, qr.2, one⟩)
    left.length
    ⟨List.replicate left.length 0, List.replicate left.length 0,
      (List.replicate left.length 0).set (left.length - 1) 1⟩ (by
      refine ⟨by simp, by simp, by simp, ⟨[], by simp, by simp, ?_⟩, ?_, ?_, fun _ => ?_⟩
      · intro j
        left
        have : left.getD (left.length + j) 0 = 0 := by
          rw [List.getD_eq_getElem?_getD, List.getElem?_eq_none (by omega)]; rfl
        rw [this]
        simp
      · simp only [val_replicate_zero, List.take_length, Nat.zero_mul, Nat.mul_zero, Nat.zero_add]
        exact Nat.ModEq.refl _
      · intro _
        simp
      · have := val_set (List.replicate left.length (0 : BitVec w)) (left.length - 1) 1
          (by simp; omega)
        rw [getD_replicate, val_replicate_zero, one_toNat hw] at this
        simpa using this) (by
      rintro i ⟨q, rem, one⟩ hi ⟨k1, k2, k3, ⟨ks, k4, k5, k6⟩, k8, k9, k7⟩
      simp only at k1 k2 k3 k5 k8 k9 k7 ⊢
      have k7 := k7 (by omega)
      simp only [Nat.add_sub_cancel] at k7
      obtain ⟨r1, a1, a2, a3⟩ := shlWrapping_limb m hw rem (by rw [k2]; exact h1)
        (by rw [k2]; exact h2)
      -- what the shift does
      have hmr : modulus rem = modulus left := by simp [modulus, k2]
      have a4 : val r1 = val rem * 2 ^ w % modulus left := by
        by_cases hl2 : 2 ≤ rem.length
        · rw [a3 hl2, hmr]
        · have hz : val rem = 0 := k9 (by omega)
          obtain ⟨r1', z1, _, z3⟩ := shlWrapping_zero m hw rem (by rw [k2]; exact h1)
            (by rw [k2]; exact h2) w hz
          rw [a1] at z1
          cases z1
          rw [z3, hz]; simp
      rw [a1, get_eq left i hi]
      simp only [Res.bind]
      rw [set_eq _ _ _ (by omega)]
      simp only
      have hv := val_set r1 0 (left.getD i 0) (by omega)
      have hr10 : (r1.getD 0 0).toNat = 0 := by
        rw [← low_mod, a4, Nat.mod_mod_of_dvd]
        · simp
        · unfold modulus
          exact Nat.pow_dvd_pow 2 (Nat.le_mul_of_pos_right _ hl0)
      rw [hr10] at hv
      simp only [Nat.mul_zero, Nat.pow_zero, Nat.mul_one, Nat.add_zero, Nat.zero_mul] at hv
      have hlt := (left.getD i 0).isLt
      have hlow : ((r1.set 0 (left.getD i 0)).getD 0 0).toNat = (left.getD i 0).toNat := by
        rw [List.getD_eq_getElem?_getD, List.getElem?_set_self (by omega)]; rfl
      have hkle : (left.getD i 0).toNat / (right.getD 0 0).toNat < 2 ^ w :=
        Nat.lt_of_le_of_lt (Nat.div_le_self _ _) hlt
      have hone : ∀ k, k < 2 ^ w →
          val q + k * val one = 2 ^ (w * i) * val (BitVec.ofNat w k :: ks) := by
        intro k hk
        rw [k5, k7, val_cons, BitVec.toNat_ofNat, Nat.mod_eq_of_lt hk, Nat.mul_succ, Nat.pow_add]
        ring
      have hqfit : val q + (left.getD i 0).toNat / (right.getD 0 0).toNat * val one
          < modulus q := by
        rw [hone _ hkle]
        have hb := val_lt (BitVec.ofNat w ((left.getD i 0).toNat / (right.getD 0 0).toNat) :: ks)
        simp only [modulus, List.length_cons, k4] at hb ⊢
        refine Nat.lt_of_lt_of_le (Nat.mul_lt_mul_of_pos_left hb (Nat.two_pow_pos _)) ?_
        rw [← Nat.pow_add, ← Nat.mul_add, k1,
          show i + (left.length - (i + 1) + 1) = left.length by omega]
      obtain ⟨q', r', k, b0, b1, b2, b3, b4, b5⟩ := divWhile_general hw right one fuel q
        (r1.set 0 (left.getD i 0)) (by omega) (by simp; omega) (by simp; omega) hd
        (left.getD i 0).toNat hlow (by omega) hqfit
      rw [b0]
      simp only
      obtain ⟨o', c1, c2, c3⟩ := shrWrapping_limb m hw one (by rw [k3]; exact h1)
        (by rw [k3]; exact h2)
      rw [c1]
      have hb2 : r'.length = r1.length := by simpa using b2
      have hk : k < 2 ^ w := by
        rcases b3 with b3 | b3
        · omega
        · have : (k + 1) * 1 ≤ (k + 1) * (right.getD 0 0).toNat := Nat.mul_le_mul_left _ hd
          omega
      have hms : modulus (r1.set 0 (left.getD i 0)) = modulus left := by
        simp only [modulus, List.length_set]
        rw [a2, k2]
      rw [hms, hv, a4] at b5
      refine ⟨_, rfl, by simp only; omega, by simp only; omega, by simp only; omega,
        ⟨BitVec.ofNat w k :: ks, by simp only [List.length_cons]; omega, ?_, ?_⟩, ?_,
        fun h => absurd h (by omega), ?_⟩
      · simp only
        rw [b4, hone k hk]
      · intro j
        cases j with
        | zero =>
          simp only [List.getD_cons_zero, BitVec.toNat_ofNat, Nat.add_zero]
          rw [Nat.mod_eq_of_lt hk]
          exact b3
        | succ j =>
          simp only [List.getD_cons_succ]
          rw [show i + (j + 1) = i + 1 + j by omega]
          exact k6 j
      · simp only
        rw [b4, k7]
        have e1 : (val q + k * 2 ^ (w * i)) * val right + 2 ^ (w * i) * val r' + val (left.take i)
            = val q * val right + 2 ^ (w * i) * (val r' + k * val right) + val (left.take i) := by
          ring
        rw [e1]
        have e2 : val r' + k * val right ≡ val rem * 2 ^ w + (left.getD i 0).toNat
            [MOD modulus left] :=
          b5.trans (Nat.ModEq.add_right _ (Nat.mod_modEq _ _))
        have e3 := ((e2.mul_left (2 ^ (w * i))).add_left (val q * val right)).add_right
          (val (left.take i))
        refine e3.trans ?_
        rw [val_take_succ left i hi, Nat.mul_succ, Nat.pow_add] at k8
        have e4 : val q * val right + 2 ^ (w * i) * (val rem * 2 ^ w + (left.getD i 0).toNat)
              + val (left.take i)
            = val q * val right + 2 ^ (w * i) * 2 ^ w * val rem
              + (val (left.take i) + 2 ^ (w * i) * (left.getD i 0).toNat) := by ring
        rw [e4]
        exact k8
      · intro hi0
        simp only
        rw [c3 (by omega), k7]
        have : w * i = w * (i - 1) + w := by
          conv_lhs => rw [show i = (i - 1) + 1 by omega]
          rw [Nat.mul_succ]
        rw [this, Nat.pow_add, Nat.mul_div_cancel _ (Nat.two_pow_pos w)])
  simp only [Res.bind] at g0 ⊢
  rw [g0]
  simp only
  obtain ⟨q, q1, q2, q3, _⟩ := shrink_ok st.quotient
    (by intro h; rw [h] at g1; simp at g1; omega)
  obtain ⟨r, r1, r2, r3, _⟩ := shrink_ok st.remainder
    (by intro h; rw [h] at g2; simp at g2; omega)
  rw [q1, r1]
  refine ⟨q, r, rfl, q3, r3, ?_, ?_, ?_⟩
  · rw [r2]
    have := val_lt st.remainder
    simpa [modulus, g2] using this
  · intro i
    have : (q.getD i 0).toNat = (ks.getD i 0).toNat := by
      rw [← val_div_mod, q2, g5, ← val_div_mod]; simp
    rw [this]
    simpa using g6 i
  · rw [q2, r2]
    simpa using g7

/-- A divisor with more limbs than the numerator. -/
theorem elementDivLong_longer (m : Mode) (fuel : Nat) (num div : List (BitVec w))
    (hlen : num.length < div.length) : ElementDiv.divLong m fuel num div = .panic := by
  unfold ElementDiv.divLong
  have hmax : max num.length div.length = div.length := by omega
  simp only [hmax]
  rw [if_neg (by omega)]
  obtain ⟨n, hn⟩ : ∃ n, div.length = n + 1 := ⟨div.length - 1, by omega⟩
  rw [hn, forDownM]
  cases hsh : ElementShl.shlWrapping m (List.replicate (n + 1) (0 : BitVec w)) w with
  | panic => rfl
  | hang => exact absurd hsh (shlWrapping_ends _ _ _)
  | ok r1 =>
    simp only [Res.bind]
    have : BitSlice.get num n = .panic := by
      unfold BitSlice.get BitSlice.getOpt
      rw [List.getElem?_eq_none (by omega)]
      rfl
    rw [this]

end Verif
