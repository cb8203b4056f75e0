import Verif.Lemmas.Div
import Verif.Spec.Div
import Mathlib.Data.Nat.ModEq

/-!
# Helper lemmas: exact behaviour of the bit-wise long division
-/

namespace Verif

open BitSlice

variable {w : Nat}

/-- `isGe ∘ cmp` is the low-digit-first order. -/
theorem isGe_iff (a d : List (BitVec w)) :
    isGe (elementCmp a d) = true ↔ LowGe w (val a) (val d) := by
  unfold LowGe
  simp only [val_div_mod]
  by_cases he : val a = val d
  · rw [(elementCmp_eq a d).mpr he]
    simp [isGe, he]
  · have hne : ∃ j, a.getD j 0 ≠ d.getD j 0 := by
      by_contra hcon
      apply he
      rw [val_eq_iff]
      intro j _
      by_contra hj
      exact hcon ⟨j, hj⟩
    classical
    have hm := Nat.find_spec hne
    have hl : ∀ k < Nat.find hne, a.getD k 0 = d.getD k 0 := by
      intro k hk
      have := Nat.find_min hne hk
      simpa using this
    rw [elementCmp_low a d _ hl hm]
    constructor
    · intro h
      refine Or.inr ⟨Nat.find hne, fun k hk => by rw [hl k hk], ?_⟩
      by_contra hcon
      have hlt : (a.getD (Nat.find hne) 0).toNat < (d.getD (Nat.find hne) 0).toNat := by
        rcases Nat.lt_or_ge (a.getD (Nat.find hne) 0).toNat (d.getD (Nat.find hne) 0).toNat with g | g
        · exact g
        · exact absurd (BitVec.eq_of_toNat_eq (by omega)) hm
      rw [limbCmp, Nat.compare_eq_lt.mpr hlt] at h
      simp [isGe] at h
    · rintro (h | ⟨j, h1, h2⟩)
      · exact absurd h he
      · have hj : j = Nat.find hne := by
          rcases Nat.lt_trichotomy j (Nat.find hne) with g | g | g
          · rw [hl j g] at h2; omega
          · exact g
          · exact absurd (BitVec.eq_of_toNat_eq (h1 _ g)) hm
        subst hj
        rw [limbCmp, Nat.compare_eq_gt.mpr h2]
        rfl

/-- `shl_wrapping(_, 1)` doubles modulo the register. -/
theorem shlWrapping_one_mod (m : Mode) (hw : 0 < w) (s : List (BitVec w)) (h1 : 2 ≤ w * s.length)
    (h2 : w * s.length < 2 ^ 64) :
    ∃ out, ElementShl.shlWrapping m s 1 = .ok out ∧ out.length = s.length ∧
      val out = 2 * val s % modulus s := by
  unfold ElementShl.shlWrapping
  rw [bitLen_eq, maskShift_eq m _ 1 h1 h2]
  have hl : 1 ≤ Nat.log2 (w * s.length) := (Nat.le_log2 (by omega)).mpr (by omega)
  have hp : 1 % 2 ^ Nat.log2 (w * s.length) = 1 :=
    Nat.mod_eq_of_lt (Nat.one_lt_two_pow (by omega))
  rw [hp]
  obtain ⟨out, g1, g2, g3⟩ := ElementShl.inner_spec hw s 1 (by omega)
  refine ⟨out, g1, g2, ?_⟩
  rw [g3, Nat.pow_one, Nat.mul_comm]

/-- Subtraction modulo the register. -/
theorem subWrapping_mod (hw : 0 < w) (l r : List (BitVec w)) (h : r.length ≤ l.length) :
    (ElementSub.subWrapping l r).length = l.length ∧
    val (ElementSub.subWrapping l r) = (val l + modulus l - val r) % modulus l := by
  obtain ⟨s1, s2⟩ := subOverflowing_spec hw l r h
  unfold ElementSub.subWrapping
  refine ⟨s1, ?_⟩
  have hb := val_lt (ElementSub.subOverflowing l r).1
  have hm : modulus (ElementSub.subOverflowing l r).1 = modulus l := by simp [modulus, s1]
  rw [hm] at hb
  cases hcar : (ElementSub.subOverflowing l r).2 with
  | false =>
    rw [hcar] at s2
    simp at s2
    have e : val l + modulus l - val r = val (ElementSub.subOverflowing l r).1 + modulus l := by
      omega
    rw [e, Nat.add_mod_right, Nat.mod_eq_of_lt hb]
  | true =>
    rw [hcar] at s2
    simp at s2
    have e : val l + modulus l - val r = val (ElementSub.subOverflowing l r).1 := by omega
    rw [e, Nat.mod_eq_of_lt hb]

/-- The part of a step shared by all long-division loops, whatever the remainder so far. -/
theorem rem_step_mod (m : Mode) (hw : 0 < w) (div rem : List (BitVec w)) (b : Bool)
    (hlen : div.length ≤ rem.length) (h1 : 2 ≤ w * rem.length) (h2 : w * rem.length < 2 ^ 64) :
    ∃ r1 r2, ElementShl.shlWrapping m rem 1 = .ok r1 ∧ setBit r1 0 b = .ok r2 ∧
      r2.length = rem.length ∧ val r2 = (2 * val rem + b.toNat) % modulus rem ∧
      (ElementSub.subWrapping r2 div).length = rem.length ∧
      val (ElementSub.subWrapping r2 div) = (val r2 + modulus rem - val div) % modulus rem := by
  have hl : 0 < rem.length := by
    rcases Nat.eq_zero_or_pos rem.length with h | h
    · rw [h] at h1; omega
    · exact h
  obtain ⟨r1, a1, a2, a3⟩ := shlWrapping_one_mod m hw rem h1 h2
  obtain ⟨M, hM⟩ : ∃ M, modulus rem = 2 * M := by
    refine ⟨2 ^ (w * rem.length - 1), ?_⟩
    unfold modulus
    rw [← Nat.pow_succ']
    congr 1
    omega
  have a4 : val r1 = 2 * (val rem % M) := by rw [a3, hM, Nat.mul_mod_mul_left]
  obtain ⟨r2, b1, b2, b3⟩ := setBit_zero hw r1 (val rem % M) b
    (by intro h0; rw [h0] at a2; simp at a2; omega) a4
  have hM0 : 0 < M := by have := modulus_pos rem; omega
  have b4 : val r2 = (2 * val rem + b.toNat) % modulus rem := by
    rw [b3, hM]
    have hx := Nat.div_add_mod (val rem) M
    have hlt := Nat.mod_lt (val rem) hM0
    have hb : b.toNat ≤ 1 := Bool.toNat_le _
    have e : 2 * val rem + b.toNat
        = (2 * (val rem % M) + b.toNat) + 2 * M * (val rem / M) := by
      have : 2 * val rem = 2 * (M * (val rem / M)) + 2 * (val rem % M) := by omega
      rw [this]; ring
    rw [e, Nat.add_mul_mod_self_left]
    exact (Nat.mod_eq_of_lt (by omega)).symm
  have hm : modulus r2 = modulus rem := by simp [modulus, b2, a2]
  obtain ⟨c1, c2⟩ := subWrapping_mod hw r2 div (by omega)
  exact ⟨r1, r2, a1, b1, by omega, b4, by omega, by rw [c2, hm]⟩

/-- Comparisons for bits `i` and above are right. -/
def RightFrom (w W n d i : Nat) : Prop :=
  ∀ j, i ≤ j → j < W → (LowGe w (partialRem n d j % 2 ^ W) d ↔ d ≤ partialRem n d j)

theorem RightFrom.succ_iff {W n d i : Nat} (hi : i < W) :
    RightFrom w W n d i ↔ RightFrom w W n d (i + 1) ∧
      (LowGe w (partialRem n d i % 2 ^ W) d ↔ d ≤ partialRem n d i) := by
  constructor
  · intro h
    exact ⟨fun j h1 h2 => h j (by omega) h2, h i le_rfl hi⟩
  · rintro ⟨h1, h2⟩ j h3 h4
    rcases Nat.eq_or_lt_of_le h3 with rfl | h5
    · exact h2
    · exact h1 j h5 h4

/-- What holds of quotient `q` (from bit `i` up) and remainder `r` when bits `i` and above are
done. -/
def DivInv (w W n d i q r : Nat) : Prop :=
  (RightFrom w W n d i → q = n / 2 ^ i / d ∧ r = n / 2 ^ i % d) ∧
  (q = n / 2 ^ i / d → RightFrom w W n d i)

/-- One step keeps `DivInv`. `g` is the outcome of the comparison. -/
theorem DivInv.step {W n d i q r : Nat} (hd : 0 < d) (hdW : d < 2 ^ W) (hi : i < W)
    (h : DivInv w W n d (i + 1) q r) (g : Bool) (x : Nat)
    (hx : x = (2 * r + (n.testBit i).toNat) % 2 ^ W) (hg : g = true ↔ LowGe w x d) :
    DivInv w W n d i (2 * q + g.toNat) (if g then (x + 2 ^ W - d) % 2 ^ W else x) := by
  obtain ⟨k1, k2⟩ := h
  have hq := quot_step (n := n) hd i
  rw [← partialRem] at hq
  have hx2 : partialRem n d i < 2 * d := by
    have h4 : n / 2 ^ (i + 1) % d < d := Nat.mod_lt _ hd
    have hb : (n.testBit i).toNat ≤ 1 := Bool.toNat_le _
    unfold partialRem
    omega
  unfold DivInv
  rw [RightFrom.succ_iff hi]
  constructor
  · rintro ⟨h1, h2⟩
    obtain ⟨rfl, rfl⟩ := k1 h1
    rw [← partialRem] at hx
    rw [hx, h2] at hg
    have hgd : g = decide (d ≤ partialRem n d i) := by
      rw [Bool.eq_iff_iff, hg]; simp
    refine ⟨by rw [hq, hgd], ?_⟩
    have hstep := (div_step (n / 2 ^ (i + 1)) d (n.testBit i).toNat hd).2
    rw [← div_pow_step, ← partialRem, (quot_bit _ d hx2).2] at hstep
    rw [hstep, hgd, hx]
    by_cases hge : d ≤ partialRem n d i
    · simp only [hge, decide_true, if_true]
      by_cases hov : partialRem n d i < 2 ^ W
      · rw [Nat.mod_eq_of_lt hov]
        have e : partialRem n d i + 2 ^ W - d = (partialRem n d i - d) + 2 ^ W := by omega
        rw [e, Nat.add_mod_right, Nat.mod_eq_of_lt (by omega)]
      · have e0 : partialRem n d i % 2 ^ W = partialRem n d i - 2 ^ W := by
          rw [Nat.mod_eq_sub_mod (by omega), Nat.mod_eq_of_lt (by omega)]
        rw [e0]
        have e : partialRem n d i - 2 ^ W + 2 ^ W - d = partialRem n d i - d := by omega
        rw [e, Nat.mod_eq_of_lt (by omega)]
    · simp only [hge, decide_false, Bool.false_eq_true, if_false]
      exact Nat.mod_eq_of_lt (by omega)
  · intro h1
    rw [hq] at h1
    have hb1 : g.toNat ≤ 1 := Bool.toNat_le _
    have hb2 : (decide (d ≤ partialRem n d i)).toNat ≤ 1 := Bool.toNat_le _
    have h2 : q = n / 2 ^ (i + 1) / d := by omega
    have h3 : g.toNat = (decide (d ≤ partialRem n d i)).toNat := by omega
    have h4 := k2 h2
    obtain ⟨-, hr⟩ := k1 h4
    refine ⟨h4, ?_⟩
    rw [hr, ← partialRem] at hx
    rw [hx] at hg
    rw [← hg]
    have h5 : g = decide (d ≤ partialRem n d i) := by
      cases g <;> cases hdd : decide (d ≤ partialRem n d i) <;> rw [hdd] at h3 <;> simp_all
    rw [h5]; simp

theorem DivInv.start {W n d : Nat} (hn : n < 2 ^ W) : DivInv w W n d W 0 0 := by
  have h0 : n / 2 ^ W = 0 := Nat.div_eq_of_lt hn
  unfold DivInv
  rw [h0]
  simp
  intro j h1 h2
  omega

/-- The number-level step keeps `P`, where `P i q r` speaks of the quotient from bit `i` up and of
the remainder, with bits `i` and above done; `g` is the outcome of the comparison. -/
def DivStep (w W n d : Nat) (P : Nat → Nat → Nat → Prop) : Prop :=
  ∀ i q r (g : Bool) x, i < W → P (i + 1) q r → x = (2 * r + (n.testBit i).toNat) % 2 ^ W →
    (g = true ↔ LowGe w x d) →
    P i (2 * q + g.toNat) (if g then (x + 2 ^ W - d) % 2 ^ W else x)

/-- `div_long`: its loop keeps every invariant of the number-level step. -/
theorem bitwiseDivLong_exact (m : Mode) (hw : 0 < w) (num div : List (BitVec w))
    (hlen : div.length ≤ num.length) (h1 : 2 ≤ w * num.length) (h2 : w * num.length < 2 ^ 64)
    (P : Nat → Nat → Nat → Prop) (hP : P (w * num.length) 0 0)
    (hstep : DivStep w (w * num.length) (val num) (val div) P) :
    ∃ q r, BitwiseDiv.divLong m num div = .ok (q, r) ∧
      q.length = num.length ∧ r.length = num.length ∧
      P 0 (val q) (val r) := by
  unfold BitwiseDiv.divLong
  have hmax : max num.length div.length = num.length := by omega
  simp only [max_bitLen, hmax]
  obtain ⟨st, g0, g1, g2, q, g3, g4⟩ := forDownM_inv
    (fun i (st : List (BitVec w) × List (BitVec w)) =>
      st.1.length = num.length ∧ st.2.length = num.length ∧
      ∃ q, val st.1 = q * 2 ^ i ∧ P i q (val st.2))
    (fun idx (st : List (BitVec w) × List (BitVec w)) =>
      (ElementShl.shlWrapping m st.2 1).bind fun remainder =>
      (getBit num idx).bind fun b =>
      (setBit remainder 0 b).bind fun remainder =>
      if isGe (elementCmp remainder div) then
        let remainder := ElementSub.subWrapping remainder div
        (setBit st.1 idx true).bind fun quotient => Res.ok (quotient, remainder)
      else .ok (st.1, remainder))
    (w * num.length) (List.replicate num.length 0, List.replicate num.length 0) (by
      refine ⟨by simp, by simp, 0, by simp, ?_⟩
      have : val (List.replicate num.length (0 : BitVec w)) = 0 := by simp
      simp only [this]
      exact hP) (by
      rintro i ⟨q, r⟩ hi ⟨k1, k2, qn, k3, k4⟩
      simp only at k1 k2 k3 k4 ⊢
      obtain ⟨r1, r2, a1, a2, a3, a4, a5, a6⟩ := rem_step_mod m hw div r ((val num).testBit i)
        (by omega) (by rw [k2]; exact h1) (by rw [k2]; exact h2)
      have hM : modulus r = 2 ^ (w * num.length) := by simp [modulus, k2]
      rw [hM] at a4 a6
      have hs := hstep i qn (val r) (isGe (elementCmp r2 div)) (val r2) hi k4 a4 (isGe_iff r2 div)
      rw [a1, getBit_eq hw, if_pos (by rw [bitLen_eq]; exact hi)]
      simp only [Res.bind, a2]
      have hp : 2 ^ (i + 1) = 2 * 2 ^ i := by rw [Nat.pow_succ, Nat.mul_comm]
      cases hge : isGe (elementCmp r2 div) with
      | true =>
        rw [hge] at hs
        simp only [if_true]
        obtain ⟨q', b1, b2, b3⟩ := setBit_spec hw q i true (by rw [bitLen_eq, k1]; exact hi)
        rw [b1]
        refine ⟨_, rfl, by simp only; omega, by simp only; omega, 2 * qn + 1, ?_, ?_⟩
        · have := set_mid_bit (lo := 0) (hi := qn) (Nat.two_pow_pos i) false
            (by rw [k3]; simp) b3
          simp only
          rw [this]
          simp
        · simpa [a6] using hs
      | false =>
        rw [hge] at hs
        simp only [Bool.false_eq_true, if_false]
        refine ⟨_, rfl, k1, a3.trans k2, 2 * qn, ?_, ?_⟩
        · simp only
          rw [k3, hp]; ring
        · simpa using hs)
  refine ⟨st.1, st.2, ?_, g1, g2, ?_⟩
  · simp only at g0
    rw [g0]
  · rw [Nat.pow_zero, Nat.mul_one] at g3
    rw [g3]
    exact g4

/-- `div_long_overflowing` with a zeroed scratch slice: its loop keeps every invariant of the number-level step. -/
theorem bitwiseDivLongOverflowing_exact (m : Mode) (hw : 0 < w) (num div : List (BitVec w))
    (hlen : div.length ≤ num.length) (h1 : 2 ≤ w * num.length) (h2 : w * num.length < 2 ^ 64)
    (P : Nat → Nat → Nat → Prop) (hP : P (w * num.length) 0 0)
    (hstep : DivStep w (w * num.length) (val num) (val div) P) :
    ∃ q r, BitwiseDiv.divLongOverflowing m num div (List.replicate num.length 0) = .ok (q, r) ∧
      q.length = num.length ∧ r.length = num.length ∧
      P 0 (val q) (val r) := by
  unfold BitwiseDiv.divLongOverflowing
  have hmax : max num.length div.length = num.length := by omega
  simp only [max_bitLen, hmax]
  obtain ⟨st, g0, g1, g2, q, g3, g4⟩ := forDownM_inv
    (fun i (st : List (BitVec w) × List (BitVec w)) =>
      st.1.length = num.length ∧ st.2.length = num.length ∧
      ∃ q, val st.1 = val num % 2 ^ i + q * 2 ^ i ∧
        P i q (val st.2))
    (fun idx (st : List (BitVec w) × List (BitVec w)) =>
      (ElementShl.shlWrapping m st.2 1).bind fun remainder =>
      (getBit st.1 idx).bind fun b =>
      (setBit remainder 0 b).bind fun remainder =>
      if isGe (elementCmp remainder div) then
        let remainder := ElementSub.subWrapping remainder div
        (setBit st.1 idx true).bind fun num => Res.ok (num, remainder)
      else (setBit st.1 idx false).bind fun num => Res.ok (num, remainder))
    (w * num.length) (num, List.replicate num.length 0) (by
      refine ⟨rfl, by simp, 0, ?_, ?_⟩
      · rw [Nat.mod_eq_of_lt (by exact val_lt num)]; simp
      · have : val (List.replicate num.length (0 : BitVec w)) = 0 := by simp
        simp only [this]
        exact hP) (by
      rintro i ⟨q, r⟩ hi ⟨k1, k2, qn, k3, k4⟩
      simp only at k1 k2 k3 k4 ⊢
      obtain ⟨r1, r2, a1, a2, a3, a4, a5, a6⟩ := rem_step_mod m hw div r ((val num).testBit i)
        (by omega) (by rw [k2]; exact h1) (by rw [k2]; exact h2)
      have hM : modulus r = 2 ^ (w * num.length) := by simp [modulus, k2]
      rw [hM] at a4 a6
      have hs := hstep i qn (val r) (isGe (elementCmp r2 div)) (val r2) hi k4 a4 (isGe_iff r2 div)
      have hlo : val num % 2 ^ i < 2 ^ i := Nat.mod_lt _ (Nat.two_pow_pos i)
      have hbit : (val q).testBit i = (val num).testBit i := by
        rw [k3, mod_pow_succ, Nat.pow_succ]
        have e : val num % 2 ^ i + ((val num).testBit i).toNat * 2 ^ i + qn * (2 ^ i * 2)
            = 2 ^ i * (2 * qn + ((val num).testBit i).toNat) + val num % 2 ^ i := by ring
        rw [e, Nat.testBit_two_pow_mul_add _ hlo, if_neg (by omega), Nat.sub_self,
          Nat.testBit_zero]
        cases (val num).testBit i <;> simp
      rw [a1, getBit_eq hw, if_pos (by rw [bitLen_eq, k1]; exact hi)]
      simp only [Res.bind, hbit, a2]
      have hset : ∀ b : Bool, ∃ q', setBit q i b = .ok q' ∧ q'.length = num.length ∧
          val q' = val num % 2 ^ i + (2 * qn + b.toNat) * 2 ^ i := by
        intro b
        obtain ⟨q', b1, b2, b3⟩ := setBit_spec hw q i b (by rw [bitLen_eq, k1]; exact hi)
        refine ⟨q', b1, by omega, ?_⟩
        exact set_mid_bit (lo := val num % 2 ^ i) (hi := qn) hlo
          ((val num).testBit i) (by rw [k3, mod_pow_succ]) b3
      cases hge : isGe (elementCmp r2 div) with
      | true =>
        rw [hge] at hs
        simp only [if_true]
        obtain ⟨q', b1, b2, b3⟩ := hset true
        rw [b1]
        exact ⟨_, rfl, b2, a5.trans k2, _, b3, by simpa [a6] using hs⟩
      | false =>
        rw [hge] at hs
        simp only [Bool.false_eq_true, if_false]
        obtain ⟨q', b1, b2, b3⟩ := hset false
        rw [b1]
        exact ⟨_, rfl, b2, a3.trans k2, _, b3, by simpa using hs⟩)
  refine ⟨st.1, st.2, ?_, g1, g2, ?_⟩
  · simp only at g0
    rw [g0]
  · rw [Nat.pow_zero, Nat.mul_one, Nat.mod_one, Nat.zero_add] at g3
    rw [g3]
    exact g4

/-- `rem_long_overflowing` with a zeroed scratch slice makes the same steps. -/
theorem bitwiseRemLongOverflowing_exact (m : Mode) (hw : 0 < w) (num div : List (BitVec w))
    (hlen : div.length ≤ num.length) (h1 : 2 ≤ w * num.length) (h2 : w * num.length < 2 ^ 64)
    (P : Nat → Nat → Nat → Prop) (hP : P (w * num.length) 0 0)
    (hstep : DivStep w (w * num.length) (val num) (val div) P) :
    ∃ r, BitwiseDiv.remLongOverflowing m num div (List.replicate num.length 0) = .ok r ∧
      r.length = num.length ∧
      ∃ q, P 0 q (val r) := by
  unfold BitwiseDiv.remLongOverflowing
  have hmax : max num.length div.length = num.length := by omega
  simp only [max_bitLen, hmax]
  obtain ⟨st, g0, g1, g2⟩ := forDownM_inv
    (fun i (st : List (BitVec w)) =>
      st.length = num.length ∧ ∃ q, P i q (val st))
    (fun idx (rem : List (BitVec w)) =>
      (ElementShl.shlWrapping m rem 1).bind fun remainder =>
      (getBit num idx).bind fun b =>
      (setBit remainder 0 b).bind fun remainder =>
      Res.ok (if isGe (elementCmp remainder div) then ElementSub.subWrapping remainder div
        else remainder))
    (w * num.length) (List.replicate num.length 0) (by
      refine ⟨by simp, 0, ?_⟩
      have : val (List.replicate num.length (0 : BitVec w)) = 0 := by simp
      rw [this]
      exact hP) (by
      rintro i r hi ⟨k2, qn, k4⟩
      obtain ⟨r1, r2, a1, a2, a3, a4, a5, a6⟩ := rem_step_mod m hw div r ((val num).testBit i)
        (by omega) (by rw [k2]; exact h1) (by rw [k2]; exact h2)
      have hM : modulus r = 2 ^ (w * num.length) := by simp [modulus, k2]
      rw [hM] at a4 a6
      have hs := hstep i qn (val r) (isGe (elementCmp r2 div)) (val r2) hi k4 a4 (isGe_iff r2 div)
      rw [a1, getBit_eq hw, if_pos (by rw [bitLen_eq]; exact hi)]
      simp only [Res.bind, a2]
      refine ⟨_, rfl, ?_, 2 * qn + (isGe (elementCmp r2 div)).toNat, ?_⟩
      · split <;> omega
      · rw [← a6] at hs
        cases hge : isGe (elementCmp r2 div) <;> rw [hge] at hs <;> simpa using hs)
  refine ⟨st, ?_, g1, g2⟩
  rw [g0]
  simp only [Res.bind]
  rw [if_pos g1]

/-! ## The three loops agree -/

open Classical in
/-- The number-level trajectory after `k` steps. -/
noncomputable def divTraj (w W n d : Nat) : Nat → Nat × Nat
  | 0 => (0, 0)
  | k + 1 =>
    let st := divTraj w W n d k
    let x := (2 * st.2 + (n.testBit (W - 1 - k)).toNat) % 2 ^ W
    if LowGe w x d then (2 * st.1 + 1, (x + 2 ^ W - d) % 2 ^ W) else (2 * st.1, x)

theorem divStep_traj (W n d : Nat) :
    DivStep w W n d (fun i q r => i ≤ W ∧ (q, r) = divTraj w W n d (W - i)) := by
  intro i q r g x hi ⟨_, h⟩ hx hg
  refine ⟨by omega, ?_⟩
  have e : W - i = (W - (i + 1)) + 1 := by omega
  have e2 : W - 1 - (W - (i + 1)) = i := by omega
  rw [e, divTraj, ← h]
  dsimp only
  rw [e2, ← hx]
  cases g with
  | true => rw [if_pos (hg.mp rfl)]; rfl
  | false =>
    have hn : ¬ LowGe w x d := fun hc => Bool.noConfusion (hg.mpr hc)
    rw [if_neg hn]
    simp

/-- All entry points compute the same quotient and remainder. -/
theorem bitwiseDiv_agree (m : Mode) (hw : 0 < w) (num div : List (BitVec w))
    (hlen : div.length ≤ num.length) (h1 : 2 ≤ w * num.length) (h2 : w * num.length < 2 ^ 64) :
    ∃ q r, BitwiseDiv.divLong m num div = .ok (q, r) ∧
      BitwiseDiv.divLongOverflowing m num div (List.replicate num.length 0) = .ok (q, r) ∧
      BitwiseDiv.remLongOverflowing m num div (List.replicate num.length 0) = .ok r := by
  have hT := divStep_traj (w := w) (w * num.length) (val num) (val div)
  have h0 : (w * num.length ≤ w * num.length ∧
      ((0 : Nat), (0 : Nat)) = divTraj w (w * num.length) (val num) (val div)
        (w * num.length - w * num.length)) := ⟨le_rfl, by rw [Nat.sub_self]; rfl⟩
  obtain ⟨q, r, a0, a1, a2, -, a3⟩ := bitwiseDivLong_exact m hw num div hlen h1 h2 _ h0 hT
  obtain ⟨q', r', b0, b1, b2, -, b3⟩ :=
    bitwiseDivLongOverflowing_exact m hw num div hlen h1 h2 _ h0 hT
  obtain ⟨r'', c0, c1, q'', -, c3⟩ :=
    bitwiseRemLongOverflowing_exact m hw num div hlen h1 h2 _ h0 hT
  rw [← b3] at a3
  rw [← b3] at c3
  simp only [Prod.mk.injEq] at a3 c3
  obtain rfl := eq_of_val_eq (by omega) a3.1
  obtain rfl := eq_of_val_eq (by omega) a3.2
  obtain rfl := eq_of_val_eq (by omega) c3.2
  exact ⟨_, _, a0, b0, c0⟩

/-- Right or wrong, quotient and remainder recombine to the numerator modulo the register. -/
theorem divStep_cong (W n d : Nat) (hdW : d < 2 ^ W) :
    DivStep w W n d (fun i q r => (q * d + r) % 2 ^ W = n / 2 ^ i % 2 ^ W) := by
  intro i q r g x _ h hx _
  have hr : (if g then (x + 2 ^ W - d) % 2 ^ W else x) + g.toNat * d ≡ x [MOD 2 ^ W] := by
    cases g with
    | true =>
      simp only [if_true, Bool.toNat_true, Nat.one_mul]
      have e : x + 2 ^ W - d + d = x + 2 ^ W := by omega
      calc (x + 2 ^ W - d) % 2 ^ W + d ≡ x + 2 ^ W - d + d [MOD 2 ^ W] :=
            (Nat.mod_modEq _ _).add_right _
        _ = x + 2 ^ W := e
        _ ≡ x [MOD 2 ^ W] := by simp [Nat.ModEq]
    | false => simp [Nat.ModEq]
  have hx' : x ≡ 2 * r + (n.testBit i).toNat [MOD 2 ^ W] := by rw [hx]; exact Nat.mod_modEq _ _
  have h' : q * d + r ≡ n / 2 ^ (i + 1) [MOD 2 ^ W] := h
  change (2 * q + g.toNat) * d + _ ≡ n / 2 ^ i [MOD 2 ^ W]
  rw [div_pow_step n i]
  have e : ∀ y, (2 * q + g.toNat) * d + y = 2 * (q * d) + (y + g.toNat * d) := by intro y; ring
  rw [e]
  refine (hr.add_left _).trans ((hx'.add_left _).trans ?_)
  have e2 : 2 * (q * d) + (2 * r + (n.testBit i).toNat)
      = 2 * (q * d + r) + (n.testBit i).toNat := by ring
  rw [e2]
  exact (h'.mul_left 2).add_right _

/-! ## Zero divisors -/

theorem lowGe_zero (hw : 0 < w) (x : Nat) : LowGe w x 0 := by
  induction x using Nat.strongRecOn with
  | ind x ih =>
    by_cases h0 : x = 0
    · exact Or.inl h0
    · refine Or.inr ?_
      by_cases h : x % 2 ^ w = 0
      · have hlt : x / 2 ^ w < x :=
          Nat.div_lt_self (by omega) (Nat.one_lt_two_pow (by omega))
        have hd : x / 2 ^ w ≠ 0 := by
          intro hz
          have := Nat.div_add_mod x (2 ^ w)
          rw [hz, h] at this
          omega
        rcases ih _ hlt with g | ⟨j, g1, g2⟩
        · exact absurd g hd
        · have e : ∀ k, x / 2 ^ (w * (k + 1)) = x / 2 ^ w / 2 ^ (w * k) := by
            intro k
            rw [Nat.div_div_eq_div_mul, ← Nat.pow_add, Nat.mul_succ, Nat.add_comm]
          refine ⟨j + 1, ?_, ?_⟩
          · intro k hk
            cases k with
            | zero => simpa using h
            | succ k => rw [e, g1 k (by omega)]; simp
          · rw [e]
            simpa using g2
      · exact ⟨0, fun k hk => absurd hk (Nat.not_lt_zero _), by simpa using Nat.pos_of_ne_zero h⟩

/-- With a zero divisor every comparison succeeds and nothing is subtracted. -/
theorem divStep_zero (hw : 0 < w) (W n : Nat) (hn : n < 2 ^ W) :
    DivStep w W n 0 (fun i q r => i ≤ W ∧ q + 1 = 2 ^ (W - i) ∧ r = n / 2 ^ i) := by
  intro i q r g x hi ⟨_, h1, h2⟩ hx hg
  obtain rfl : g = true := hg.mpr (lowGe_zero hw x)
  have e : W - i = (W - (i + 1)) + 1 := by omega
  refine ⟨by omega, ?_, ?_⟩
  · rw [e, Nat.pow_succ, ← h1]
    simp only [Bool.toNat_true]
    omega
  · rw [h2, ← div_pow_step, Nat.mod_eq_of_lt (Nat.lt_of_le_of_lt (Nat.div_le_self _ _) hn)] at hx
    have : n / 2 ^ i < 2 ^ W := Nat.lt_of_le_of_lt (Nat.div_le_self _ _) hn
    simp only [if_true, Nat.sub_zero]
    rw [Nat.add_mod_right, hx, Nat.mod_eq_of_lt this]

end Verif
