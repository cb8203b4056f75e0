import Verif.Lemmas.Bitwise

/-!
# Helper lemmas: long division
-/

namespace Verif

open BitSlice

variable {w : Nat}

/-- `isGe ∘ cmp` is right when both values fit one limb. -/
theorem cmp_small (a d : List (BitVec w)) (ha : val a < 2 ^ w) (hd : val d < 2 ^ w) :
    isGe (elementCmp a d) = decide (val d ≤ val a) := by
  have hz : ∀ s : List (BitVec w), val s < 2 ^ w → ∀ j, j ≠ 0 → s.getD j 0 = 0 := by
    intro s hs j hj
    apply BitVec.eq_of_toNat_eq
    rw [← val_div_mod s j, Nat.div_eq_of_lt]
    · simp
    · refine Nat.lt_of_lt_of_le hs (Nat.pow_le_pow_right (by norm_num) ?_)
      exact Nat.le_mul_of_pos_right _ (by omega)
  rw [elementCmp_one_limb a d 0 fun j hj => by rw [hz a ha j hj, hz d hd j hj]]
  rcases Nat.lt_trichotomy (val a) (val d) with h | h | h
  · rw [Nat.compare_eq_lt.mpr h]; simp [isGe]; omega
  · rw [Nat.compare_eq_eq.mpr h]; simp [isGe, h]
  · rw [Nat.compare_eq_gt.mpr h]; simp [isGe]; omega

/-- `shl_wrapping(_, 1)` doubles. -/
theorem shlWrapping_one (m : Mode) (hw : 0 < w) (s : List (BitVec w)) (h1 : 2 ≤ w * s.length)
    (h2 : w * s.length < 2 ^ 64) (hv : 2 * val s < modulus s) :
    ∃ out, ElementShl.shlWrapping m s 1 = .ok out ∧ out.length = s.length ∧
      val out = 2 * val s := by
  unfold ElementShl.shlWrapping
  rw [bitLen_eq, maskShift_eq m _ 1 h1 h2]
  have hl : 1 ≤ Nat.log2 (w * s.length) := (Nat.le_log2 (by omega)).mpr (by omega)
  have hp : 1 % 2 ^ Nat.log2 (w * s.length) = 1 := by
    apply Nat.mod_eq_of_lt
    exact Nat.one_lt_two_pow (by omega)
  rw [hp]
  obtain ⟨out, g1, g2, g3⟩ := ElementShl.inner_spec hw s 1 (by omega)
  refine ⟨out, g1, g2, ?_⟩
  rw [g3, Nat.mod_eq_of_lt (by omega)]
  omega

/-- Setting bit 0 of an even number adds the bit. -/
theorem setBit_zero (hw : 0 < w) (s : List (BitVec w)) (x : Nat) (b : Bool) (hs : s ≠ [])
    (hx : val s = 2 * x) :
    ∃ t, setBit s 0 b = .ok t ∧ t.length = s.length ∧ val t = 2 * x + b.toNat := by
  have hl : 0 < s.length := List.length_pos_iff.mpr hs
  obtain ⟨t, g0, g1, g2⟩ := setBit_spec hw s 0 b (by rw [bitLen_eq]; exact Nat.mul_pos hw hl)
  refine ⟨t, g0, g1, ?_⟩
  apply Nat.eq_of_testBit_eq
  intro k
  rw [g2 k, hx]
  cases k with
  | zero =>
    simp only [if_true, Nat.testBit_zero]
    cases b <;> simp
  | succ k =>
    simp only [Nat.add_eq_zero_iff, one_ne_zero, and_false, if_false]
    rw [Nat.testBit_succ, Nat.testBit_succ]
    congr 1
    cases b <;> simp
    omega

/-- One step of schoolbook binary division, on numbers. -/
theorem div_step (N d b : Nat) (hd : 0 < d) :
    (2 * N + b) / d = 2 * (N / d) + (2 * (N % d) + b) / d ∧
    (2 * N + b) % d = (2 * (N % d) + b) % d := by
  have h := Nat.div_add_mod N d
  have e : 2 * N + b = (2 * (N % d) + b) + d * (2 * (N / d)) := by
    have : 2 * N = 2 * (d * (N / d)) + 2 * (N % d) := by omega
    rw [this]; ring
  constructor
  · conv_lhs => rw [e]
    rw [Nat.add_mul_div_left _ _ hd]
    omega
  · conv_lhs => rw [e]
    rw [Nat.add_mul_mod_self_left]

theorem quot_bit (x d : Nat) (hx : x < 2 * d) :
    x / d = (if d ≤ x then 1 else 0) ∧ x % d = (if d ≤ x then x - d else x) := by
  split
  · rename_i h
    constructor
    · apply Nat.div_eq_of_lt_le <;> omega
    · rw [Nat.mod_eq_sub_mod h, Nat.mod_eq_of_lt (by omega)]
  · rename_i h
    exact ⟨Nat.div_eq_of_lt (by omega), Nat.mod_eq_of_lt (by omega)⟩

/-- Where the long-division algorithms are right: the partial remainders and the divisor fit one
limb. -/
def DivSmall (w n d : Nat) : Prop := 0 < d ∧ d < 2 ^ w ∧ (n < 2 ^ w ∨ 2 * d ≤ 2 ^ w)

theorem DivSmall.rem_lt {n d : Nat} (h : DivSmall w n d) (i : Nat) :
    2 * (n / 2 ^ (i + 1) % d) + (n.testBit i).toNat < 2 ^ w := by
  obtain ⟨h0, h1, h2⟩ := h
  have hb : (n.testBit i).toNat ≤ 1 := Bool.toNat_le _
  rcases h2 with h2 | h2
  · have h3 := div_pow_step n i
    have h4 : n / 2 ^ (i + 1) % d ≤ n / 2 ^ (i + 1) := Nat.mod_le _ _
    have h5 : n / 2 ^ i ≤ n := Nat.div_le_self _ _
    omega
  · have h4 : n / 2 ^ (i + 1) % d < d := Nat.mod_lt _ h0
    omega

/-- The part of a step shared by all long-division loops: from the remainder of the higher bits
to the remainder including bit `i`. -/
theorem rem_step (m : Mode) (hw : 0 < w) (num div rem : List (BitVec w)) (i : Nat)
    (hlen : div.length ≤ rem.length) (h1 : 2 ≤ w * rem.length) (h2 : w * rem.length < 2 ^ 64)
    (hs : DivSmall w (val num) (val div))
    (hr : val rem = val num / 2 ^ (i + 1) % val div) :
    ∃ r1 r2, ElementShl.shlWrapping m rem 1 = .ok r1 ∧
      setBit r1 0 ((val num).testBit i) = .ok r2 ∧
      isGe (elementCmp r2 div)
        = decide (val div ≤ 2 * (val num / 2 ^ (i + 1) % val div) + ((val num).testBit i).toNat) ∧
      r2.length = rem.length ∧
      (if isGe (elementCmp r2 div) then ElementSub.subWrapping r2 div else r2).length
        = rem.length ∧
      val (if isGe (elementCmp r2 div) then ElementSub.subWrapping r2 div else r2)
        = val num / 2 ^ i % val div := by
  have hne : rem ≠ [] := by rintro rfl; simp at h1
  have hl : 0 < rem.length := List.length_pos_iff.mpr hne
  have hM : 2 ^ w ≤ modulus rem :=
    Nat.pow_le_pow_right (by norm_num) (Nat.le_mul_of_pos_right _ hl)
  have hbound := hs.rem_lt i
  obtain ⟨r1, a1, a2, a3⟩ := shlWrapping_one m hw rem h1 h2 (by rw [hr]; omega)
  obtain ⟨r2, b1, b2, b3⟩ := setBit_zero hw r1 (val rem) ((val num).testBit i)
    (by intro h0; rw [h0] at a2; simp at a2; omega) a3
  rw [hr] at b3
  have hc := cmp_small r2 div (by rw [b3]; exact hbound) hs.2.1
  rw [b3] at hc
  refine ⟨r1, r2, a1, b1, hc, by omega, ?_⟩
  rw [hc]
  set x := 2 * (val num / 2 ^ (i + 1) % val div) + ((val num).testBit i).toNat with hx
  have hx2 : x < 2 * val div := by
    have h4 : val num / 2 ^ (i + 1) % val div < val div := Nat.mod_lt _ hs.1
    have hb : ((val num).testBit i).toNat ≤ 1 := Bool.toNat_le _
    omega
  have hq := quot_bit x (val div) hx2
  have hstep := (div_step (val num / 2 ^ (i + 1)) (val div) ((val num).testBit i).toNat hs.1).2
  rw [← div_pow_step, ← hx, hq.2] at hstep
  rw [hstep]
  by_cases hge : val div ≤ x
  · simp only [hge, decide_true, if_true]
    obtain ⟨s1, s2⟩ := subOverflowing_spec hw r2 div (by omega)
    unfold ElementSub.subWrapping
    refine ⟨by omega, ?_⟩
    cases hcar : (ElementSub.subOverflowing r2 div).2 with
    | false =>
      rw [hcar] at s2
      simp at s2
      omega
    | true =>
      rw [hcar] at s2
      simp at s2
      have := val_lt (ElementSub.subOverflowing r2 div).1
      have hm : modulus (ElementSub.subOverflowing r2 div).1 = modulus r2 := by
        simp [modulus, s1]
      omega
  · simp only [hge, decide_false, Bool.false_eq_true, if_false]
    exact ⟨by omega, b3⟩

/-- Effect of one step on the quotient. -/
theorem quot_step {n d : Nat} (hd : 0 < d) (i : Nat) :
    n / 2 ^ i / d = 2 * (n / 2 ^ (i + 1) / d)
      + (decide (d ≤ 2 * (n / 2 ^ (i + 1) % d) + (n.testBit i).toNat)).toNat := by
  have hx2 : 2 * (n / 2 ^ (i + 1) % d) + (n.testBit i).toNat < 2 * d := by
    have h4 : n / 2 ^ (i + 1) % d < d := Nat.mod_lt _ hd
    have hb : (n.testBit i).toNat ≤ 1 := Bool.toNat_le _
    omega
  have h1 := (div_step (n / 2 ^ (i + 1)) d (n.testBit i).toNat hd).1
  rw [← div_pow_step, (quot_bit _ d hx2).1] at h1
  rw [h1]
  by_cases h : d ≤ 2 * (n / 2 ^ (i + 1) % d) + (n.testBit i).toNat <;> simp [h]

/-- Setting (or clearing) bit `i` of a number whose higher bits are `hi` and whose lower bits are
`lo`. -/
theorem set_mid_bit {x y hi lo i : Nat} {b : Bool} (hlo : lo < 2 ^ i)
    (c : Bool) (hx : x = lo + c.toNat * 2 ^ i + hi * 2 ^ (i + 1))
    (h : ∀ k, y.testBit k = if k = i then b else x.testBit k) :
    y = lo + (2 * hi + b.toNat) * 2 ^ i := by
  have hp : 2 ^ (i + 1) = 2 * 2 ^ i := by rw [Nat.pow_succ, Nat.mul_comm]
  have form : ∀ c : Bool, lo + (2 * hi + c.toNat) * 2 ^ i
      = lo + c.toNat * 2 ^ i + hi * 2 ^ (i + 1) := by
    intro c; rw [hp]; ring
  have bits : ∀ c : Bool, ∀ k, (lo + (2 * hi + c.toNat) * 2 ^ i).testBit k
      = if k < i then lo.testBit k else (2 * hi + c.toNat).testBit (k - i) := by
    intro c k
    rw [Nat.add_comm, Nat.mul_comm, Nat.testBit_two_pow_mul_add _ hlo]
  rw [← form c] at hx
  apply Nat.eq_of_testBit_eq
  intro k
  rw [h k, hx, bits, bits]
  by_cases hk : k < i
  · have : k ≠ i := by omega
    simp [hk, this]
  · by_cases hk2 : k = i
    · subst hk2
      simp only [if_true, lt_irrefl, if_false, Nat.sub_self, Nat.testBit_zero]
      cases b <;> simp
    · simp only [hk2, hk, if_false]
      obtain ⟨j, hj⟩ : ∃ j, k - i = j + 1 := ⟨k - i - 1, by omega⟩
      rw [hj, Nat.testBit_succ, Nat.testBit_succ]
      have e : ∀ c : Bool, (2 * hi + c.toNat) / 2 = hi := by
        intro c; cases c <;> simp; omega
      rw [e, e]

/-- `div_long` on operands satisfying `DivSmall`. -/
theorem bitwiseDivLong_small (m : Mode) (hw : 0 < w) (num div : List (BitVec w))
    (hlen : div.length ≤ num.length) (h1 : 2 ≤ w * num.length) (h2 : w * num.length < 2 ^ 64)
    (hs : DivSmall w (val num) (val div)) :
    ∃ q r, BitwiseDiv.divLong m num div = .ok (q, r) ∧
      q.length = num.length ∧ r.length = num.length ∧
      val q = val num / val div ∧ val r = val num % val div := by
  unfold BitwiseDiv.divLong
  have hmax : max num.length div.length = num.length := by omega
  simp only [max_bitLen, hmax]
  obtain ⟨st, g0, g1, g2, g3, g4⟩ := forDownM_inv
    (fun i (st : List (BitVec w) × List (BitVec w)) =>
      st.1.length = num.length ∧ st.2.length = num.length ∧
      val st.1 = val num / 2 ^ i / val div * 2 ^ i ∧ val st.2 = val num / 2 ^ i % val div)
    (fun idx (st : List (BitVec w) × List (BitVec w)) =>
      (ElementShl.shlWrapping m st.2 1).bind fun remainder =>
      (getBit num idx).bind fun b =>
      (setBit remainder 0 b).bind fun remainder =>
      if isGe (elementCmp remainder div) then
        let remainder := ElementSub.subWrapping remainder div
        (setBit st.1 idx true).bind fun quotient => Res.ok (quotient, remainder)
      else .ok (st.1, remainder))
    (w * num.length) (List.replicate num.length 0, List.replicate num.length 0) (by
      have h0 : val num / 2 ^ (w * num.length) = 0 := Nat.div_eq_of_lt (val_lt num)
      rw [h0]
      simp) (by
      rintro i ⟨q, r⟩ hi ⟨k1, k2, k3, k4⟩
      simp only at k1 k2 k3 k4 ⊢
      obtain ⟨r1, r2, a1, a2, a3, a4, a5, a6⟩ := rem_step m hw num div r i (by omega)
        (by rw [k2]; exact h1) (by rw [k2]; exact h2) hs k4
      rw [a1, getBit_eq hw, if_pos (by rw [bitLen_eq]; exact hi)]
      simp only [Res.bind, a2]
      have hq := quot_step (n := val num) hs.1 i
      have hp : 2 ^ (i + 1) = 2 * 2 ^ i := by rw [Nat.pow_succ, Nat.mul_comm]
      by_cases hge : isGe (elementCmp r2 div) = true
      · rw [if_pos hge]
        rw [if_pos hge] at a5 a6
        rw [a3] at hge
        rw [hge] at hq
        obtain ⟨q', b1, b2, b3⟩ := setBit_spec hw q i true (by rw [bitLen_eq, k1]; exact hi)
        rw [b1]
        refine ⟨_, rfl, by simp only; omega, by simp only; omega, ?_, by simpa using a6⟩
        simp only
        have := set_mid_bit (lo := 0) (hi := val num / 2 ^ (i + 1) / val div) (Nat.two_pow_pos i)
          false (by rw [k3]; simp) b3
        rw [this, hq]
        simp
      · rw [if_neg hge]
        rw [if_neg hge] at a5 a6
        rw [a3] at hge
        rw [Bool.not_eq_true] at hge
        rw [hge] at hq
        refine ⟨_, rfl, k1, a5.trans k2, ?_, a6⟩
        simp only
        rw [k3, hq, hp]
        simp only [Bool.toNat_false, Nat.add_zero]
        ring)
  refine ⟨st.1, st.2, ?_, g1, g2, by simpa using g3, by simpa using g4⟩
  simp only at g0
  rw [g0]

/-- `div_long_overflowing` on operands satisfying `DivSmall`, with a zeroed scratch slice of the
same length. -/
theorem bitwiseDivLongOverflowing_small (m : Mode) (hw : 0 < w) (num div : List (BitVec w))
    (hlen : div.length ≤ num.length) (h1 : 2 ≤ w * num.length) (h2 : w * num.length < 2 ^ 64)
    (hs : DivSmall w (val num) (val div)) :
    ∃ q r, BitwiseDiv.divLongOverflowing m num div (List.replicate num.length 0) = .ok (q, r) ∧
      q.length = num.length ∧ r.length = num.length ∧
      val q = val num / val div ∧ val r = val num % val div := by
  unfold BitwiseDiv.divLongOverflowing
  have hmax : max num.length div.length = num.length := by omega
  simp only [max_bitLen, hmax]
  obtain ⟨st, g0, g1, g2, g3, g4⟩ := forDownM_inv
    (fun i (st : List (BitVec w) × List (BitVec w)) =>
      st.1.length = num.length ∧ st.2.length = num.length ∧
      val st.1 = val num % 2 ^ i + val num / 2 ^ i / val div * 2 ^ i ∧
      val st.2 = val num / 2 ^ i % val div)
    (fun idx (st : List (BitVec w) × List (BitVec w)) =>
      (ElementShl.shlWrapping m st.2 1).bind fun remainder =>
      (getBit st.1 idx).bind fun b =>
      (setBit remainder 0 b).bind fun remainder =>
      if isGe (elementCmp remainder div) then
        let remainder := ElementSub.subWrapping remainder div
        (setBit st.1 idx true).bind fun num => Res.ok (num, remainder)
      else (setBit st.1 idx false).bind fun num => Res.ok (num, remainder))
    (w * num.length) (num, List.replicate num.length 0) (by
      have h0 : val num / 2 ^ (w * num.length) = 0 := Nat.div_eq_of_lt (val_lt num)
      rw [h0, Nat.mod_eq_of_lt (by exact val_lt num)]
      simp) (by
      rintro i ⟨q, r⟩ hi ⟨k1, k2, k3, k4⟩
      simp only at k1 k2 k3 k4 ⊢
      obtain ⟨r1, r2, a1, a2, a3, a4, a5, a6⟩ := rem_step m hw num div r i (by omega)
        (by rw [k2]; exact h1) (by rw [k2]; exact h2) hs k4
      have hlo : val num % 2 ^ i < 2 ^ i := Nat.mod_lt _ (Nat.two_pow_pos i)
      have hbit : (val q).testBit i = (val num).testBit i := by
        rw [k3, mod_pow_succ, Nat.pow_succ]
        have e : val num % 2 ^ i + ((val num).testBit i).toNat * 2 ^ i
            + val num / (2 ^ i * 2) / val div * (2 ^ i * 2)
            = 2 ^ i * (2 * (val num / (2 ^ i * 2) / val div) + ((val num).testBit i).toNat)
              + val num % 2 ^ i := by ring
        rw [e, Nat.testBit_two_pow_mul_add _ hlo, if_neg (by omega), Nat.sub_self,
          Nat.testBit_zero]
        cases (val num).testBit i <;> simp
      rw [a1, getBit_eq hw, if_pos (by rw [bitLen_eq, k1]; exact hi)]
      simp only [Res.bind, hbit, a2]
      have hq := quot_step (n := val num) hs.1 i
      have hset : ∀ b : Bool, (isGe (elementCmp r2 div) = b) → ∃ q', setBit q i b = .ok q' ∧
          q'.length = num.length ∧
          val q' = val num % 2 ^ i + val num / 2 ^ i / val div * 2 ^ i := by
        intro b hb
        obtain ⟨q', b1, b2, b3⟩ := setBit_spec hw q i b (by rw [bitLen_eq, k1]; exact hi)
        refine ⟨q', b1, by omega, ?_⟩
        rw [a3] at hb
        rw [hb] at hq
        have := set_mid_bit (lo := val num % 2 ^ i) (hi := val num / 2 ^ (i + 1) / val div) hlo
          ((val num).testBit i) (by rw [k3, mod_pow_succ]) b3
        rw [this, hq]
      by_cases hge : isGe (elementCmp r2 div) = true
      · rw [if_pos hge]
        rw [if_pos hge] at a5 a6
        obtain ⟨q', b1, b2, b3⟩ := hset true hge
        rw [b1]
        exact ⟨_, rfl, b2, a5.trans k2, b3, by simpa using a6⟩
      · rw [if_neg hge]
        rw [if_neg hge] at a5 a6
        rw [Bool.not_eq_true] at hge
        obtain ⟨q', b1, b2, b3⟩ := hset false hge
        rw [b1]
        exact ⟨_, rfl, b2, a5.trans k2, b3, by simpa using a6⟩)
  refine ⟨st.1, st.2, ?_, g1, g2, ?_, by simpa using g4⟩
  · simp only at g0
    rw [g0]
  · simpa [Nat.mod_one] using g3

/-- `rem_long_overflowing` on operands satisfying `DivSmall`, with a zeroed scratch slice. -/
theorem bitwiseRemLongOverflowing_small (m : Mode) (hw : 0 < w) (num div : List (BitVec w))
    (hlen : div.length ≤ num.length) (h1 : 2 ≤ w * num.length) (h2 : w * num.length < 2 ^ 64)
    (hs : DivSmall w (val num) (val div)) :
    ∃ r, BitwiseDiv.remLongOverflowing m num div (List.replicate num.length 0) = .ok r ∧
      r.length = num.length ∧ val r = val num % val div := by
  unfold BitwiseDiv.remLongOverflowing
  have hmax : max num.length div.length = num.length := by omega
  simp only [max_bitLen, hmax]
  obtain ⟨st, g0, g1, g2⟩ := forDownM_inv
    (fun i (st : List (BitVec w)) =>
      st.length = num.length ∧ val st = val num / 2 ^ i % val div)
    (fun idx (rem : List (BitVec w)) =>
      (ElementShl.shlWrapping m rem 1).bind fun remainder =>
      (getBit num idx).bind fun b =>
      (setBit remainder 0 b).bind fun remainder =>
      Res.ok (if isGe (elementCmp remainder div) then ElementSub.subWrapping remainder div
        else remainder))
    (w * num.length) (List.replicate num.length 0) (by
      have h0 : val num / 2 ^ (w * num.length) = 0 := Nat.div_eq_of_lt (val_lt num)
      rw [h0]
      simp) (by
      rintro i r hi ⟨k2, k4⟩
      obtain ⟨r1, r2, a1, a2, a3, a4, a5, a6⟩ := rem_step m hw num div r i (by omega)
        (by rw [k2]; exact h1) (by rw [k2]; exact h2) hs k4
      rw [a1, getBit_eq hw, if_pos (by rw [bitLen_eq]; exact hi)]
      simp only [Res.bind, a2]
      exact ⟨_, rfl, by omega, a6⟩)
  refine ⟨st, ?_, g1, by simpa using g2⟩
  rw [g0]
  simp only [Res.bind]
  rw [if_pos g1]

theorem shlWrapping_ends (m : Mode) (s : List (BitVec w)) (k : Nat) :
    ElementShl.shlWrapping m s k ≠ .hang := by
  have h1 : ∀ k, ElementShl.inner s k ≠ .hang := fun k => by
    unfold ElementShl.inner
    dsimp only
    split <;> simp
  unfold ElementShl.shlWrapping maskShift
  dsimp only
  split
  · exact h1 _
  · cases m with
    | debug => simp [Res.bind]
    | release => exact h1 _

/-- A divisor with more limbs than the numerator always panics. -/
theorem bitwiseDivLong_longer (m : Mode) (hw : 0 < w) (num div : List (BitVec w))
    (hlen : num.length < div.length) : BitwiseDiv.divLong m num div = .panic := by
  unfold BitwiseDiv.divLong
  have hmax : max num.length div.length = div.length := by omega
  simp only [max_bitLen, hmax]
  obtain ⟨n, hn⟩ : ∃ n, w * div.length = n + 1 :=
    ⟨w * div.length - 1, by have := Nat.mul_pos hw (show 0 < div.length by omega); omega⟩
  rw [hn, forDownM]
  cases hsh : ElementShl.shlWrapping m (List.replicate div.length (0 : BitVec w)) 1 with
  | panic => rfl
  | hang => exact absurd hsh (shlWrapping_ends _ _ _)
  | ok r1 =>
    simp only [Res.bind]
    rw [getBit_eq hw, if_neg]
    rw [bitLen_eq]
    have : w * num.length + w ≤ w * div.length := by
      rw [← Nat.mul_succ]; exact Nat.mul_le_mul_left _ hlen
    omega

end Verif
