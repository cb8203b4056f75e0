import Verif.Lemmas.ElementDivGeneral
import Verif.Lemmas.DivExact

/-!
# Helper lemmas: element-wise long division, exactly
-/

namespace Verif

open BitSlice

variable {w : Nat}

/-- `k` is the number of times `d` is subtracted from `x`, modulo `M`, before the comparison (lowest limb
first) says that it is too large. -/
def Stops (w d M x k : Nat) : Prop :=
  (∀ R < M, R + k * d ≡ x [MOD M] → ¬ LowGe w R d) ∧
  ∀ j < k, ∀ R < M, R + j * d ≡ x [MOD M] → LowGe w R d

theorem modEq_unique {M a b : Nat} (ha : a < M) (hb : b < M) (h : a ≡ b [MOD M]) : a = b := by
  unfold Nat.ModEq at h
  rwa [Nat.mod_eq_of_lt ha, Nat.mod_eq_of_lt hb] at h

theorem stops_zero (rem right : List (BitVec w))
    (h : ¬ isGe (elementCmp rem right) = true) :
    Stops w (val right) (modulus rem) (val rem) 0 := by
  refine ⟨fun R hR hm => ?_, fun j hj => absurd hj (by omega)⟩
  rw [Nat.zero_mul, Nat.add_zero] at hm
  rw [modEq_unique hR (val_lt rem) hm]
  exact fun hc => h ((isGe_iff rem right).mpr hc)

theorem stops_succ (rem right : List (BitVec w))
    (h : isGe (elementCmp rem right) = true) {x k : Nat}
    (hx : x + val right ≡ val rem [MOD modulus rem]) (_hxM : x < modulus rem)
    (hs : Stops w (val right) (modulus rem) x k) :
    Stops w (val right) (modulus rem) (val rem) (k + 1) := by
  have cancel : ∀ R j, R + (j + 1) * val right ≡ val rem [MOD modulus rem] →
      R + j * val right ≡ x [MOD modulus rem] := by
    intro R j hm
    rw [Nat.add_mul, Nat.one_mul, ← Nat.add_assoc] at hm
    exact Nat.ModEq.add_right_cancel' (val right) (hm.trans hx.symm)
  refine ⟨fun R hR hm => hs.1 R hR (cancel R k hm), fun j hj R hR hm => ?_⟩
  cases j with
  | zero =>
    rw [Nat.zero_mul, Nat.add_zero] at hm
    rw [modEq_unique hR (val_lt rem) hm]
    exact (isGe_iff rem right).mp h
  | succ j => exact hs.2 j (by omega) R hR (cancel R j hm)

theorem Stops.congr {d M x y k : Nat} (h : Stops w d M x k) (e : x ≡ y [MOD M]) :
    Stops w d M y k :=
  ⟨fun R hR hm => h.1 R hR (hm.trans e.symm), fun j hj R hR hm => h.2 j hj R hR (hm.trans e.symm)⟩

theorem val_div_step (s : List (BitVec w)) (i : Nat) :
    val s / 2 ^ (w * i) = val s / 2 ^ (w * (i + 1)) * 2 ^ w + (s.getD i 0).toNat := by
  rw [← val_div_mod, Nat.mul_succ, Nat.pow_add, ← Nat.div_div_eq_div_mul]
  have := Nat.div_add_mod (val s / 2 ^ (w * i)) (2 ^ w)
  rw [Nat.mul_comm] at this
  exact this.symm

/-- The inner loop, exactly: it subtracts until the comparison stops it. -/
theorem divWhile_exact (hw : 0 < w) (right one : List (BitVec w)) (fuel : Nat)
    (q rem : List (BitVec w)) (ho : one.length ≤ q.length) (hr : right.length ≤ rem.length)
    (hl : 0 < rem.length) (hd : 0 < (right.getD 0 0).toNat) (x : Nat)
    (hrem : (rem.getD 0 0).toNat = x) (hf : x ≤ fuel)
    (hq : val q + x / (right.getD 0 0).toNat * val one < modulus q) :
    ∃ q' r' k, ElementDiv.divWhile right one fuel (q, rem) = .ok (q', r') ∧
      q'.length = q.length ∧ r'.length = rem.length ∧
      (k = x / (right.getD 0 0).toNat ∨ (k + 1) * (right.getD 0 0).toNat = x) ∧
      val q' = val q + k * val one ∧ val r' + k * val right ≡ val rem [MOD modulus rem] ∧
      Stops w (val right) (modulus rem) (val rem) k := by
  induction fuel generalizing q rem x with
  | zero =>
    unfold ElementDiv.divWhile
    rw [if_neg]
    · exact ⟨_, _, 0, rfl, rfl, rfl, Or.inl (by rw [show x = 0 by omega]; simp), by simp,
        by rw [Nat.zero_mul]; exact Nat.ModEq.refl _, stops_zero rem right (by
          intro h
          have := isGe_low_le h
          omega)⟩
    · intro h
      have := isGe_low_le h
      omega
  | succ fuel ih =>
    unfold ElementDiv.divWhile
    by_cases h : isGe (elementCmp rem right) = true
    · rw [if_pos h]
      have hle := isGe_low_le h
      have hs := sub_low hw rem right hr hl hle
      have s1 : (ElementSub.subWrapping rem right).length = rem.length :=
        (subOverflowing_spec hw rem right hr).1
      have hdiv : x / (right.getD 0 0).toNat
          = (x - (right.getD 0 0).toNat) / (right.getD 0 0).toNat + 1 := by
        conv_lhs => rw [show x = (x - (right.getD 0 0).toNat) + (right.getD 0 0).toNat by omega]
        rw [Nat.add_div_right _ hd]
      rw [hdiv, Nat.add_mul, Nat.one_mul] at hq
      obtain ⟨a1, a2⟩ := addWrapping_fits hw q one ho (by omega)
      have hm : modulus (ElementAdd.addWrapping q one) = modulus q := by simp [modulus, a1]
      have hm' : modulus (ElementSub.subWrapping rem right) = modulus rem := by simp [modulus, s1]
      obtain ⟨q', r', k, g0, g1, g2, g3, g4, g5, g6⟩ := ih (ElementAdd.addWrapping q one)
        (ElementSub.subWrapping rem right) (by omega) (by omega) (by omega)
        (x - (right.getD 0 0).toNat) (by omega) (by omega) (by rw [hm, a2]; omega)
      refine ⟨q', r', k + 1, g0, by omega, by omega, ?_, by rw [g4, a2]; ring, ?_, ?_⟩
      · rcases g3 with g3 | g3
        · left; omega
        · right
          rw [show (k + 1 + 1) * (right.getD 0 0).toNat
            = (k + 1) * (right.getD 0 0).toNat + (right.getD 0 0).toNat by ring, g3]
          omega
      · rw [hm'] at g5
        rw [Nat.add_mul, Nat.one_mul, ← Nat.add_assoc]
        exact (Nat.ModEq.add_right (val right) g5).trans (sub_modEq hw rem right hr)
      · rw [hm'] at g6
        refine stops_succ rem right h (sub_modEq hw rem right hr) ?_ g6
        rw [← hm']; exact val_lt _
    · rw [if_neg h]
      refine ⟨_, _, 0, rfl, rfl, rfl, ?_, by simp, by rw [Nat.zero_mul]; exact Nat.ModEq.refl _,
        stops_zero rem right h⟩
      have hle : x ≤ (right.getD 0 0).toNat := by
        by_contra hc
        exact h (isGe_of_low_lt (by omega))
      rcases Nat.eq_or_lt_of_le hle with h | h
      · right; omega
      · left; rw [Nat.div_eq_of_lt h]

/-- `div_long` by a divisor whose low limb is not zero: each limb of the quotient is the limb of
the numerator divided by the low limb of the divisor, or one less. -/
theorem elementDivLong_exact (m : Mode) (hw : 0 < w) (fuel : Nat) (left right : List (BitVec w))
    (hlen : right.length ≤ left.length) (h1 : 2 ≤ w * left.length) (h2 : w * left.length < 2 ^ 64)
    (hf : 2 ^ w ≤ fuel) (hd : 0 < (right.getD 0 0).toNat) :
    ∃ q r, ElementDiv.divLong m fuel left right = .ok (q, r) ∧ Norm q ∧ Norm r ∧
      val r < modulus left ∧
      (∀ i, (q.getD i 0).toNat = (left.getD i 0).toNat / (right.getD 0 0).toNat ∨
        ((q.getD i 0).toNat + 1) * (right.getD 0 0).toNat = (left.getD i 0).toNat) ∧
      val q * val right + val r ≡ val left [MOD modulus left] ∧
      ∀ i < left.length, ∀ x,
        x + val q / 2 ^ (w * (i + 1)) * 2 ^ w * val right ≡ val left / 2 ^ (w * i)
          [MOD modulus left] →
        Stops w (val right) (modulus left) x (q.getD i 0).toNat := by
  unfold ElementDiv.divLong
  have hmax : max left.length right.length = left.length := by omega
  have hl0 : 0 < left.length := by
    rcases Nat.eq_zero_or_pos left.length with h | h
    · rw [h] at h1; simp at h1
    · exact h
  simp only [hmax]
  rw [if_neg (by omega)]
  obtain ⟨st, g0, g1, g2, g3, ⟨ks, g4, g5, g6, g8, _⟩, g7, _⟩ := forDownM_inv
    (fun i (st : ElementDiv.DivState w) =>
      st.quotient.length = left.length ∧ st.remainder.length = left.length ∧
      st.one.length = left.length ∧
      (∃ ks : List (BitVec w), ks.length = left.length - i ∧
        val st.quotient = 2 ^ (w * i) * val ks ∧
        (∀ j, (ks.getD j 0).toNat = (left.getD (i + j) 0).toNat / (right.getD 0 0).toNat ∨
          ((ks.getD j 0).toNat + 1) * (right.getD 0 0).toNat = (left.getD (i + j) 0).toNat) ∧
        (∀ j < ks.length, ∀ x,
          x + val ks / 2 ^ (w * (j + 1)) * 2 ^ w * val right ≡ val left / 2 ^ (w * (i + j))
            [MOD modulus left] →
          Stops w (val right) (modulus left) x (ks.getD j 0).toNat) ∧
        val st.remainder + val ks * val right ≡ val left / 2 ^ (w * i) [MOD modulus left]) ∧
      (val st.quotient * val right + 2 ^ (w * i) * val st.remainder + val (left.take i)
        ≡ val left [MOD modulus left]) ∧
      (i = left.length → val st.remainder = 0) ∧
      (0 < i → val st.one = 2 ^ (w * (i - 1))))
    (fun idx (st : ElementDiv.DivState w) =>
      (ElementShl.shlWrapping m st.remainder w).bind fun remainder =>
      (BitSlice.get left idx).bind fun v =>
      (BitSlice.set remainder 0 v).bind fun remainder =>
      (ElementDiv.divWhile right st.one fuel (st.quotient, remainder)).bind fun qr =>
      (ElementShr.shrWrapping m st.one w).bind fun one =>
      Res.ok ⟨qr.1, qr.2, one⟩)
    left.length
    ⟨List.replicate left.length 0, List.replicate left.length 0,
      (List.replicate left.length 0).set (left.length - 1) 1⟩ (by
      refine ⟨by simp, by simp, by simp, ⟨[], by simp, by simp, ?_,
        fun j hj => absurd hj (by simp), ?_⟩, ?_, ?_, fun _ => ?_⟩
      · intro j
        left
        have : left.getD (left.length + j) 0 = 0 := by
          rw [List.getD_eq_getElem?_getD, List.getElem?_eq_none (by omega)]; rfl
        rw [this]
        simp
      · simp only [val_replicate_zero, val_nil, Nat.zero_mul, Nat.add_zero]
        rw [show 2 ^ (w * left.length) = modulus left from rfl, Nat.div_eq_of_lt (val_lt left)]
      · simp only [val_replicate_zero, List.take_length, Nat.zero_mul, Nat.mul_zero, Nat.zero_add]
        exact Nat.ModEq.refl _
      · intro _
        simp
      · have := val_set (List.replicate left.length (0 : BitVec w)) (left.length - 1) 1
          (by simp; omega)
        rw [getD_replicate, val_replicate_zero, one_toNat hw] at this
        simpa using this) (by
      rintro i ⟨q, rem, one⟩ hi ⟨k1, k2, k3, ⟨ks, k4, k5, k6, k10, k11⟩, k8, k9, k7⟩
      simp only at k1 k2 k3 k5 k8 k9 k7 k11 ⊢
      have k7 := k7 (by omega)
      simp only [Nat.add_sub_cancel] at k7
      obtain ⟨r1, a1, a2, a3⟩ := shlWrapping_limb m hw rem (by rw [k2]; exact h1)
        (by rw [k2]; exact h2)
      -- what the shift does
      have hmr : modulus rem = modulus left := by simp [modulus, k2]
      have a4 : val r1 = val rem * 2 ^ w % modulus left := by
        by_cases hl2 : 2 ≤ rem.length
        · rw [a3 hl2, hmr]
        · have hz : val rem = 0 := k9 (by omega)
          obtain ⟨r1', z1, _, z3⟩ := shlWrapping_zero m hw rem (by rw [k2]; exact h1)
            (by rw [k2]; exact h2) w hz
          rw [a1] at z1
          cases z1
          rw [z3, hz]; simp
      rw [a1, get_eq left i hi]
      simp only [Res.bind]
      rw [set_eq _ _ _ (by omega)]
      simp only
      have hv := val_set r1 0 (left.getD i 0) (by omega)
      have hr10 : (r1.getD 0 0).toNat = 0 := by
        rw [← low_mod, a4, Nat.mod_mod_of_dvd]
        · simp
        · unfold modulus
          exact Nat.pow_dvd_pow 2 (Nat.le_mul_of_pos_right _ hl0)
      rw [hr10] at hv
      simp only [Nat.mul_zero, Nat.pow_zero, Nat.mul_one, Nat.add_zero, Nat.zero_mul] at hv
      have hlt := (left.getD i 0).isLt
      have hlow : ((r1.set 0 (left.getD i 0)).getD 0 0).toNat = (left.getD i 0).toNat := by
        rw [List.getD_eq_getElem?_getD, List.getElem?_set_self (by omega)]; rfl
      have hkle : (left.getD i 0).toNat / (right.getD 0 0).toNat < 2 ^ w :=
        Nat.lt_of_le_of_lt (Nat.div_le_self _ _) hlt
      have hone : ∀ k, k < 2 ^ w →
          val q + k * val one = 2 ^ (w * i) * val (BitVec.ofNat w k :: ks) := by
        intro k hk
        rw [k5, k7, val_cons, BitVec.toNat_ofNat, Nat.mod_eq_of_lt hk, Nat.mul_succ, Nat.pow_add]
        ring
      have hqfit : val q + (left.getD i 0).toNat / (right.getD 0 0).toNat * val one
          < modulus q := by
        rw [hone _ hkle]
        have hb := val_lt (BitVec.ofNat w ((left.getD i 0).toNat / (right.getD 0 0).toNat) :: ks)
        simp only [modulus, List.length_cons, k4] at hb ⊢
        refine Nat.lt_of_lt_of_le (Nat.mul_lt_mul_of_pos_left hb (Nat.two_pow_pos _)) ?_
        rw [← Nat.pow_add, ← Nat.mul_add, k1,
          show i + (left.length - (i + 1) + 1) = left.length by omega]
      obtain ⟨q', r', k, b0, b1, b2, b3, b4, b5, b6⟩ := divWhile_exact hw right one fuel q
        (r1.set 0 (left.getD i 0)) (by omega) (by simp; omega) (by simp; omega) hd
        (left.getD i 0).toNat hlow (by omega) hqfit
      rw [b0]
      simp only
      obtain ⟨o', c1, c2, c3⟩ := shrWrapping_limb m hw one (by rw [k3]; exact h1)
        (by rw [k3]; exact h2)
      rw [c1]
      have hb2 : r'.length = r1.length := by simpa using b2
      have hk : k < 2 ^ w := by
        rcases b3 with b3 | b3
        · omega
        · have : (k + 1) * 1 ≤ (k + 1) * (right.getD 0 0).toNat := Nat.mul_le_mul_left _ hd
          omega
      have hms : modulus (r1.set 0 (left.getD i 0)) = modulus left := by
        simp only [modulus, List.length_set]
        rw [a2, k2]
      rw [hms, hv, a4] at b5
      rw [hms, hv, a4] at b6
      have hstep := val_div_step left i
      -- what there is to subtract from
      have hx0 : val rem * 2 ^ w % modulus left + (left.getD i 0).toNat + val ks * 2 ^ w * val right
          ≡ val left / 2 ^ (w * i) [MOD modulus left] := by
        rw [hstep]
        have e1 := (((Nat.mod_modEq (val rem * 2 ^ w) (modulus left)).add_right
          (left.getD i 0).toNat).add_right (val ks * 2 ^ w * val right))
        refine e1.trans ?_
        have e2 := (k11.mul_right (2 ^ w)).add_right (left.getD i 0).toNat
        refine Nat.ModEq.trans ?_ e2
        rw [show val rem * 2 ^ w + (left.getD i 0).toNat + val ks * 2 ^ w * val right
          = (val rem + val ks * val right) * 2 ^ w + (left.getD i 0).toNat by ring]
      refine ⟨_, rfl, by simp only; omega, by simp only; omega, by simp only; omega,
        ⟨BitVec.ofNat w k :: ks, by simp only [List.length_cons]; omega, ?_, ?_, ?_, ?_⟩, ?_,
        fun h => absurd h (by omega), ?_⟩
      · simp only
        rw [b4, hone k hk]
      · intro j
        cases j with
        | zero =>
          simp only [List.getD_cons_zero, BitVec.toNat_ofNat, Nat.add_zero]
          rw [Nat.mod_eq_of_lt hk]
          exact b3
        | succ j =>
          simp only [List.getD_cons_succ]
          rw [show i + (j + 1) = i + 1 + j by omega]
          exact k6 j
      · intro j hj x hx
        have hdiv : ∀ n, val (BitVec.ofNat w k :: ks) / 2 ^ (w * (n + 1)) = val ks / 2 ^ (w * n) := by
          intro n
          rw [val_cons, Nat.mul_succ, Nat.add_comm (w * n) w, Nat.pow_add, ← Nat.div_div_eq_div_mul,
            Nat.add_mul_div_left _ _ (Nat.two_pow_pos w), Nat.div_eq_of_lt (BitVec.isLt _),
            Nat.zero_add]
        rw [hdiv] at hx
        cases j with
        | zero =>
          simp only [List.getD_cons_zero, BitVec.toNat_ofNat]
          rw [Nat.mod_eq_of_lt hk]
          simp only [Nat.mul_zero, Nat.pow_zero, Nat.div_one, Nat.add_zero] at hx
          exact b6.congr (Nat.ModEq.add_right_cancel' _ (hx0.trans hx.symm))
        | succ j =>
          simp only [List.getD_cons_succ]
          simp only [List.length_cons] at hj
          apply k10 j (by omega) x
          rw [show i + 1 + j = i + (j + 1) by omega]
          exact hx
      · rw [val_cons, BitVec.toNat_ofNat, Nat.mod_eq_of_lt hk]
        refine Nat.ModEq.trans ?_ hx0
        have := b5.add_right (val ks * 2 ^ w * val right)
        refine Nat.ModEq.trans ?_ this
        rw [show val r' + (k + 2 ^ w * val ks) * val right
          = val r' + k * val right + val ks * 2 ^ w * val right by ring]
      · simp only
        rw [b4, k7]
        have e1 : (val q + k * 2 ^ (w * i)) * val right + 2 ^ (w * i) * val r' + val (left.take i)
            = val q * val right + 2 ^ (w * i) * (val r' + k * val right) + val (left.take i) := by
          ring
        rw [e1]
        have e2 : val r' + k * val right ≡ val rem * 2 ^ w + (left.getD i 0).toNat
            [MOD modulus left] :=
          b5.trans (Nat.ModEq.add_right _ (Nat.mod_modEq _ _))
        have e3 := ((e2.mul_left (2 ^ (w * i))).add_left (val q * val right)).add_right
          (val (left.take i))
        refine e3.trans ?_
        rw [val_take_succ left i hi, Nat.mul_succ, Nat.pow_add] at k8
        have e4 : val q * val right + 2 ^ (w * i) * (val rem * 2 ^ w + (left.getD i 0).toNat)
              + val (left.take i)
            = val q * val right + 2 ^ (w * i) * 2 ^ w * val rem
              + (val (left.take i) + 2 ^ (w * i) * (left.getD i 0).toNat) := by ring
        rw [e4]
        exact k8
      · intro hi0
        simp only
        rw [c3 (by omega), k7]
        have : w * i = w * (i - 1) + w := by
          conv_lhs => rw [show i = (i - 1) + 1 by omega]
          rw [Nat.mul_succ]
        rw [this, Nat.pow_add, Nat.mul_div_cancel _ (Nat.two_pow_pos w)])
  simp only [Res.bind] at g0 ⊢
  rw [g0]
  simp only
  obtain ⟨q, q1, q2, q3, _⟩ := shrink_ok st.quotient
    (by intro h; rw [h] at g1; simp at g1; omega)
  obtain ⟨r, r1, r2, r3, _⟩ := shrink_ok st.remainder
    (by intro h; rw [h] at g2; simp at g2; omega)
  rw [q1, r1]
  have hqk : val q = val ks := by rw [q2, g5]; simp
  have hqd : ∀ i, (q.getD i 0).toNat = (ks.getD i 0).toNat := by
    intro i
    rw [← val_div_mod, hqk, ← val_div_mod]
  refine ⟨q, r, rfl, q3, r3, ?_, ?_, ?_, ?_⟩
  · rw [r2]
    have := val_lt st.remainder
    simpa [modulus, g2] using this
  · intro i
    rw [hqd]
    simpa using g6 i
  · rw [q2, r2]
    simpa using g7
  · intro i hi x hx
    rw [hqd]
    apply g8 i (by omega) x
    rw [← hqk, Nat.zero_add]
    exact hx

end Verif
