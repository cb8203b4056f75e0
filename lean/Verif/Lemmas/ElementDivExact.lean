import Verif.Lemmas.ElementDiv
import Verif.Lemmas.DivExact

/-!
# Helper lemmas: element-wise long division, termination and exact results
-/

namespace Verif

open BitSlice

variable {w : Nat}

theorem low_mod (s : List (BitVec w)) : val s % 2 ^ w = (s.getD 0 0).toNat := by
  have := val_div_mod s 0
  simpa using this

theorem isGe_low_le {a d : List (BitVec w)} (h : isGe (elementCmp a d) = true) :
    (d.getD 0 0).toNat ≤ (a.getD 0 0).toNat := by
  rw [isGe_iff] at h
  rw [← low_mod, ← low_mod]
  rcases h with h | ⟨j, h1, h2⟩
  · rw [h]
  · cases j with
    | zero => simp at h2; omega
    | succ j =>
      have := h1 0 (by omega)
      simp at this
      omega

theorem isGe_of_low_lt {a d : List (BitVec w)}
    (h : (d.getD 0 0).toNat < (a.getD 0 0).toNat) : isGe (elementCmp a d) = true := by
  rw [isGe_iff]
  refine Or.inr ⟨0, fun k hk => absurd hk (Nat.not_lt_zero _), ?_⟩
  rw [← low_mod, ← low_mod] at h
  simpa using h

/-- Low limb of a wrapping difference. -/
theorem sub_low (hw : 0 < w) (l r : List (BitVec w)) (h : r.length ≤ l.length) (hl : 0 < l.length)
    (hle : (r.getD 0 0).toNat ≤ (l.getD 0 0).toNat) :
    ((ElementSub.subWrapping l r).getD 0 0).toNat
      = (l.getD 0 0).toNat - (r.getD 0 0).toNat := by
  obtain ⟨s1, s2⟩ := subOverflowing_spec hw l r h
  change val (ElementSub.subWrapping l r) + val r = _ at s2
  rw [← low_mod r, ← low_mod l] at hle
  rw [← low_mod, ← low_mod, ← low_mod]
  obtain ⟨M, hM⟩ : ∃ M, modulus l = 2 ^ w * M := by
    refine ⟨2 ^ (w * (l.length - 1)), ?_⟩
    unfold modulus
    rw [← Nat.pow_add]
    congr 1
    conv_lhs => rw [show l.length = (l.length - 1) + 1 by omega]
    rw [Nat.mul_succ, Nat.add_comm]
  have h3 : (val (ElementSub.subWrapping l r) + val r) % 2 ^ w = val l % 2 ^ w := by
    rw [s2, hM, Nat.mul_comm _ (2 ^ w * M), Nat.mul_assoc, Nat.add_mul_mod_self_left]
  have hp : 0 < 2 ^ w := Nat.two_pow_pos w
  have a1 := Nat.mod_lt (val (ElementSub.subWrapping l r)) hp
  have a2 := Nat.mod_lt (val l) hp
  rw [Nat.add_mod] at h3
  by_cases hc : val (ElementSub.subWrapping l r) % 2 ^ w + val r % 2 ^ w < 2 ^ w
  · rw [Nat.mod_eq_of_lt hc] at h3
    omega
  · rw [Nat.mod_eq_sub_mod (by omega), Nat.mod_eq_of_lt (by omega)] at h3
    omega

/-- The inner loop ends when the low limb of the divisor is not zero. -/
theorem divWhile_ends (hw : 0 < w) (right one : List (BitVec w)) (fuel : Nat)
    (q rem : List (BitVec w)) (ho : one.length ≤ q.length) (hr : right.length ≤ rem.length)
    (hl : 0 < rem.length) (hd : 0 < (right.getD 0 0).toNat)
    (hf : (rem.getD 0 0).toNat ≤ fuel) :
    ∃ q' r', ElementDiv.divWhile right one fuel (q, rem) = .ok (q', r') ∧
      q'.length = q.length ∧ r'.length = rem.length := by
  induction fuel generalizing q rem with
  | zero =>
    unfold ElementDiv.divWhile
    rw [if_neg]
    · exact ⟨_, _, rfl, rfl, rfl⟩
    · intro h
      have := isGe_low_le h
      omega
  | succ fuel ih =>
    unfold ElementDiv.divWhile
    by_cases h : isGe (elementCmp rem right) = true
    · rw [if_pos h]
      have hle := isGe_low_le h
      have hs := sub_low hw rem right hr hl hle
      have s1 : (ElementSub.subWrapping rem right).length = rem.length :=
        (subOverflowing_spec hw rem right hr).1
      have a1 : (ElementAdd.addWrapping q one).length = q.length :=
        (addOverflowing_spec hw q one ho).1
      obtain ⟨q', r', g0, g1, g2⟩ := ih (ElementAdd.addWrapping q one)
        (ElementSub.subWrapping rem right) (by omega) (by omega) (by omega) (by omega)
      exact ⟨q', r', g0, by omega, by omega⟩
    · rw [if_neg h]
      exact ⟨_, _, rfl, rfl, rfl⟩

/-- The inner loop for a divisor of one limb, whatever the higher limbs of the remainder. -/
theorem divWhile_limb (hw : 0 < w) (right one : List (BitVec w)) (fuel : Nat)
    (q rem : List (BitVec w)) (ho : one.length ≤ q.length) (hr : right.length ≤ rem.length)
    (hl : 0 < rem.length) (hd : 0 < val right) (hdw : val right < 2 ^ w) (H x : Nat)
    (hx : x < 2 ^ w) (hrem : val rem = x + 2 ^ w * H) (hf : x ≤ fuel)
    (hq : val q + x / val right * val one < modulus q) :
    ∃ q' r', ElementDiv.divWhile right one fuel (q, rem) = .ok (q', r') ∧
      q'.length = q.length ∧ r'.length = rem.length ∧
      val q' = val q + x / val right * val one ∧ val r' = x % val right + 2 ^ w * H := by
  have hlowr : (right.getD 0 0).toNat = val right := by
    rw [← low_mod, Nat.mod_eq_of_lt hdw]
  have hlow : ∀ (rem : List (BitVec w)) x, x < 2 ^ w → val rem = x + 2 ^ w * H →
      (rem.getD 0 0).toNat = x := by
    intro rem x hx hrem
    rw [← low_mod, hrem, Nat.add_mul_mod_self_left, Nat.mod_eq_of_lt hx]
  have hcmp : ∀ (rem : List (BitVec w)) x, x < 2 ^ w → val rem = x + 2 ^ w * H →
      (isGe (elementCmp rem right) = true ↔ val right ≤ x) := by
    intro rem x hx hrem
    constructor
    · intro h
      have := isGe_low_le h
      rw [hlowr, hlow rem x hx hrem] at this
      exact this
    · intro h
      rcases Nat.eq_or_lt_of_le h with h | h
      · rw [isGe_iff]
        by_cases hH : H = 0
        · left; rw [hrem, hH, h]; simp
        · have hz := lowGe_zero hw H
          rcases hz with hz | ⟨j, z1, z2⟩
          · exact absurd hz hH
          · right
            have e1 : ∀ k, val rem / 2 ^ (w * (k + 1)) = H / 2 ^ (w * k) := by
              intro k
              rw [Nat.mul_succ, Nat.add_comm, Nat.pow_add, ← Nat.div_div_eq_div_mul, hrem,
                Nat.add_mul_div_left _ _ (Nat.two_pow_pos w), Nat.div_eq_of_lt hx, Nat.zero_add]
            have e2 : ∀ k, val right / 2 ^ (w * (k + 1)) = 0 := by
              intro k
              rw [Nat.mul_succ, Nat.add_comm, Nat.pow_add, ← Nat.div_div_eq_div_mul,
                Nat.div_eq_of_lt hdw]
              simp
            refine ⟨j + 1, ?_, ?_⟩
            · intro k hk
              cases k with
              | zero =>
                simp only [Nat.mul_zero, Nat.pow_zero, Nat.div_one]
                rw [low_mod, low_mod, hlowr, hlow rem x hx hrem, h]
              | succ k => rw [e1, e2, z1 k (by omega)]; simp
            · rw [e1, e2]
              simpa using z2
      · apply isGe_of_low_lt
        rw [hlowr, hlow rem x hx hrem]
        exact h
  induction fuel generalizing q rem x with
  | zero =>
    have h0 : x = 0 := by omega
    unfold ElementDiv.divWhile
    rw [if_neg (by rw [hcmp rem x hx hrem]; omega)]
    refine ⟨q, rem, rfl, rfl, rfl, ?_, ?_⟩
    · rw [h0]; simp
    · rw [hrem, h0]; simp
  | succ fuel ih =>
    unfold ElementDiv.divWhile
    by_cases h : val right ≤ x
    · rw [if_pos ((hcmp rem x hx hrem).mpr h)]
      have hdiv : x / val right = (x - val right) / val right + 1 := by
        conv_lhs => rw [show x = (x - val right) + val right by omega]
        rw [Nat.add_div_right _ hd]
      have hmod : x % val right = (x - val right) % val right := Nat.mod_eq_sub_mod h
      rw [hdiv, Nat.add_mul, Nat.one_mul] at hq ⊢
      obtain ⟨s1, s2⟩ := subWrapping_fits hw rem right hr (by omega)
      obtain ⟨a1, a2⟩ := addWrapping_fits hw q one ho (by omega)
      have hm : modulus (ElementAdd.addWrapping q one) = modulus q := by simp [modulus, a1]
      obtain ⟨q', r', g0, g1, g2, g3, g4⟩ := ih (ElementAdd.addWrapping q one)
        (ElementSub.subWrapping rem right) (by omega) (by omega) (by omega) (x - val right)
        (by omega) (by omega) (by omega) (by rw [hm, a2]; omega)
      refine ⟨q', r', g0, by omega, by omega, by rw [g3, a2]; omega, by rw [g4, hmod]⟩
    · rw [if_neg (by rw [hcmp rem x hx hrem]; exact h)]
      refine ⟨q, rem, rfl, rfl, rfl, ?_, ?_⟩
      · rw [Nat.div_eq_of_lt (by omega)]; simp
      · rw [hrem, Nat.mod_eq_of_lt (by omega)]

/-- `shl_wrapping(_, w)` on at least two limbs moves every limb up; it never panics. -/
theorem shlWrapping_limb (m : Mode) (hw : 0 < w) (s : List (BitVec w)) (h1 : 2 ≤ w * s.length)
    (h2 : w * s.length < 2 ^ 64) :
    ∃ out, ElementShl.shlWrapping m s w = .ok out ∧ out.length = s.length ∧
      (2 ≤ s.length → val out = val s * 2 ^ w % modulus s) := by
  unfold ElementShl.shlWrapping
  rw [bitLen_eq, maskShift_eq m _ w h1 h2]
  have hlt : w % 2 ^ Nat.log2 (w * s.length) < 2 ^ Nat.log2 (w * s.length) :=
    Nat.mod_lt _ (Nat.two_pow_pos _)
  have hle : 2 ^ Nat.log2 (w * s.length) ≤ w * s.length := Nat.log2_self_le (by omega)
  obtain ⟨out, g1, g2, g3⟩ := ElementShl.inner_spec hw s
    (w % 2 ^ Nat.log2 (w * s.length)) (by omega)
  refine ⟨out, g1, g2, fun hl => ?_⟩
  have hgt : w < 2 ^ Nat.log2 (w * s.length) := by
    have h3 : w * s.length < 2 ^ (Nat.log2 (w * s.length) + 1) := Nat.lt_log2_self
    rw [Nat.pow_succ] at h3
    have h4 : w * 2 ≤ w * s.length := Nat.mul_le_mul_left _ hl
    omega
  rw [Nat.mod_eq_of_lt hgt] at g3
  exact g3

/-- `div_long` ends when the low limb of the divisor is not zero. -/
theorem elementDivLong_ends (m : Mode) (hw : 0 < w) (fuel : Nat) (left right : List (BitVec w))
    (hlen : right.length ≤ left.length) (h1 : 2 ≤ w * left.length) (h2 : w * left.length < 2 ^ 64)
    (hf : 2 ^ w ≤ fuel) (hd : 0 < (right.getD 0 0).toNat) :
    ∃ q r, ElementDiv.divLong m fuel left right = .ok (q, r) := by
  unfold ElementDiv.divLong
  have hmax : max left.length right.length = left.length := by omega
  have hl0 : 0 < left.length := by
    rcases Nat.eq_zero_or_pos left.length with h | h
    · rw [h] at h1; simp at h1
    · exact h
  simp only [hmax]
  rw [if_neg (by omega)]
  obtain ⟨st, g0, g1, g2, _⟩ := forDownM_inv
    (fun _ (st : ElementDiv.DivState w) =>
      st.quotient.length = left.length ∧ st.remainder.length = left.length ∧
      st.one.length = left.length)
    (fun idx (st : ElementDiv.DivState w) =>
      (ElementShl.shlWrapping m st.remainder w).bind fun remainder =>
      (BitSlice.get left idx).bind fun v =>
      (BitSlice.set remainder 0 v).bind fun remainder =>
      (ElementDiv.divWhile right st.one fuel (st.quotient, remainder)).bind fun qr =>
      (ElementShr.shrWrapping m st.one w).bind fun one =>
      Res.ok ⟨qr.1, qr.2, one⟩)
    left.length
    ⟨List.replicate left.length 0, List.replicate left.length 0,
      (List.replicate left.length 0).set (left.length - 1) 1⟩ (by simp) (by
      rintro i ⟨q, rem, one⟩ hi ⟨k1, k2, k3⟩
      simp only at k1 k2 k3 ⊢
      obtain ⟨r1, a1, a2, _⟩ := shlWrapping_limb m hw rem (by rw [k2]; exact h1)
        (by rw [k2]; exact h2)
      rw [a1, get_eq left i hi]
      simp only [Res.bind]
      rw [set_eq _ _ _ (by omega)]
      simp only
      obtain ⟨q', r', b0, b1, b2⟩ := divWhile_ends hw right one fuel q
        (r1.set 0 (left.getD i 0)) (by omega) (by simp; omega) (by simp; omega) hd
        (by
          have := ((r1.set 0 (left.getD i 0)).getD 0 0).isLt
          omega)
      rw [b0]
      simp only
      obtain ⟨o', c1, c2, _⟩ := shrWrapping_limb m hw one (by rw [k3]; exact h1)
        (by rw [k3]; exact h2)
      rw [c1]
      have hb2 : r'.length = r1.length := by simpa using b2
      exact ⟨_, rfl, by simp only; omega, by simp only; omega, by simp only; omega⟩)
  simp only [Res.bind] at g0 ⊢
  rw [g0]
  simp only
  obtain ⟨q, q1, _⟩ := shrink_ok st.quotient (by intro h; rw [h] at g1; simp at g1; omega)
  obtain ⟨r, r1, _⟩ := shrink_ok st.remainder (by intro h; rw [h] at g2; simp at g2; omega)
  rw [q1, r1]
  exact ⟨q, r, rfl⟩

/-- `div_long` by a divisor of one limb divides each limb of the numerator on its own. -/
theorem elementDivLong_limb (m : Mode) (hw : 0 < w) (fuel : Nat) (left right : List (BitVec w))
    (hlen : right.length ≤ left.length) (h1 : 2 ≤ w * left.length) (h2 : w * left.length < 2 ^ 64)
    (hf : 2 ^ w ≤ fuel) (hd0 : 0 < val right) (hd : val right < 2 ^ w) :
    ∃ q r, ElementDiv.divLong m fuel left right = .ok (q, r) ∧ Norm q ∧ Norm r ∧
      val q = val (left.map fun v => v / right.getD 0 0) ∧
      val r = val (left.map fun v => v % right.getD 0 0) := by
  have hD : (right.getD 0 0).toNat = val right := by rw [← low_mod, Nat.mod_eq_of_lt hd]
  unfold ElementDiv.divLong
  have hmax : max left.length right.length = left.length := by omega
  have hl0 : 0 < left.length := by
    rcases Nat.eq_zero_or_pos left.length with h | h
    · rw [h] at h1; simp at h1
    · exact h
  simp only [hmax]
  rw [if_neg (by omega)]
  obtain ⟨st, g0, g1, g2, g3, g4, g5, _⟩ := forDownM_inv
    (fun i (st : ElementDiv.DivState w) =>
      st.quotient.length = left.length ∧ st.remainder.length = left.length ∧
      st.one.length = left.length ∧
      val st.quotient = 2 ^ (w * i) * val ((left.drop i).map fun v => v / right.getD 0 0) ∧
      val st.remainder = val ((left.drop i).map fun v => v % right.getD 0 0) ∧
      (0 < i → val st.one = 2 ^ (w * (i - 1))))
    (fun idx (st : ElementDiv.DivState w) =>
      (ElementShl.shlWrapping m st.remainder w).bind fun remainder =>
      (BitSlice.get left idx).bind fun v =>
      (BitSlice.set remainder 0 v).bind fun remainder =>
      (ElementDiv.divWhile right st.one fuel (st.quotient, remainder)).bind fun qr =>
      (ElementShr.shrWrapping m st.one w).bind fun one =>
      Res.ok ⟨qr.1, qr.2, one⟩)
    left.length
    ⟨List.replicate left.length 0, List.replicate left.length 0,
      (List.replicate left.length 0).set (left.length - 1) 1⟩ (by
      refine ⟨by simp, by simp, by simp, by simp, by simp, fun _ => ?_⟩
      have := val_set (List.replicate left.length (0 : BitVec w)) (left.length - 1) 1
        (by simp; omega)
      rw [getD_replicate, val_replicate_zero, one_toNat hw] at this
      simpa using this) (by
      rintro i ⟨q, rem, one⟩ hi ⟨k1, k2, k3, k4, k5, k7⟩
      simp only at k1 k2 k3 k4 k5 k7 ⊢
      have k7 := k7 (by omega)
      simp only [Nat.add_sub_cancel] at k7
      have hdrop : left.drop i = left.getD i 0 :: left.drop (i + 1) := by
        rw [List.drop_eq_getElem_cons hi]
        simp [List.getD_eq_getElem?_getD, hi]
      obtain ⟨r1, a1, a2, a3⟩ := shlWrapping_limb m hw rem (by rw [k2]; exact h1)
        (by rw [k2]; exact h2)
      -- the shift loses nothing
      have a4 : val r1 = 2 ^ w * val ((left.drop (i + 1)).map fun v => v % right.getD 0 0) := by
        have hb := val_lt ((left.drop (i + 1)).map fun v => v % right.getD 0 0)
        simp only [modulus, List.length_map, List.length_drop] at hb
        by_cases hl2 : 2 ≤ rem.length
        · rw [a3 hl2, k5, Nat.mul_comm, Nat.mod_eq_of_lt]
          have : 2 ^ w * val ((left.drop (i + 1)).map fun v => v % right.getD 0 0)
              < 2 ^ w * 2 ^ (w * (left.length - (i + 1))) :=
            Nat.mul_lt_mul_of_pos_left hb (Nat.two_pow_pos w)
          refine Nat.lt_of_lt_of_le this ?_
          rw [← Nat.pow_add]
          apply Nat.pow_le_pow_right (by norm_num)
          rw [k2, Nat.add_comm, ← Nat.mul_succ]
          exact Nat.mul_le_mul_left _ (by omega)
        · have hl1 : left.length = 1 := by omega
          have hi0 : i = 0 := by omega
          subst hi0
          have hz : val rem = 0 := by
            rw [k5]
            have : left.drop (0 + 1) = [] := by
              apply List.drop_eq_nil_of_le
              omega
            rw [this]; simp
          obtain ⟨r1', z1, _, z3⟩ := shlWrapping_zero m hw rem (by rw [k2]; exact h1)
            (by rw [k2]; exact h2) w hz
          rw [a1] at z1
          cases z1
          rw [z3, ← k5, hz]; simp
      rw [a1, get_eq left i hi]
      simp only [Res.bind]
      rw [set_eq _ _ _ (by omega)]
      simp only
      have hv := val_set r1 0 (left.getD i 0) (by omega)
      have hr10 : (r1.getD 0 0).toNat = 0 := by rw [← low_mod, a4]; simp
      rw [hr10, a4] at hv
      simp only [Nat.mul_zero, Nat.pow_zero, Nat.mul_one, Nat.add_zero] at hv
      have hlt := (left.getD i 0).isLt
      -- the quotient so far
      have hqv : val q + (left.getD i 0).toNat / val right * val one
          = 2 ^ (w * i) * val ((left.drop i).map fun v => v / right.getD 0 0) := by
        rw [k4, k7, hdrop, List.map_cons, val_cons, BitVec.toNat_udiv, hD, Nat.mul_succ,
          Nat.pow_add]
        ring
      have hqfit : val q + (left.getD i 0).toNat / val right * val one < modulus q := by
        rw [hqv]
        have hb := val_lt ((left.drop i).map fun v => v / right.getD 0 0)
        simp only [modulus, List.length_map, List.length_drop] at hb ⊢
        refine Nat.lt_of_lt_of_le (Nat.mul_lt_mul_of_pos_left hb (Nat.two_pow_pos _)) ?_
        rw [← Nat.pow_add, ← Nat.mul_add, k1, show i + (left.length - i) = left.length by omega]
      obtain ⟨q', r', b0, b1, b2, b3, b4⟩ := divWhile_limb hw right one fuel q
        (r1.set 0 (left.getD i 0)) (by omega) (by simp; omega) (by simp; omega) hd0 hd
        (val ((left.drop (i + 1)).map fun v => v % right.getD 0 0)) (left.getD i 0).toNat hlt
        (by omega) (by omega) hqfit
      rw [b0]
      simp only
      obtain ⟨o', c1, c2, c3⟩ := shrWrapping_limb m hw one (by rw [k3]; exact h1)
        (by rw [k3]; exact h2)
      rw [c1]
      have hb2 : r'.length = r1.length := by simpa using b2
      refine ⟨_, rfl, by simp only; omega, by simp only; omega, by simp only; omega, ?_, ?_, ?_⟩
      · simp only
        rw [b3, hqv]
      · simp only
        rw [b4, hdrop, List.map_cons, val_cons, BitVec.toNat_umod, hD]
      · intro hi0
        simp only
        rw [c3 (by omega), k7]
        have : w * i = w * (i - 1) + w := by
          conv_lhs => rw [show i = (i - 1) + 1 by omega]
          rw [Nat.mul_succ]
        rw [this, Nat.pow_add, Nat.mul_div_cancel _ (Nat.two_pow_pos w)])
  simp only [Res.bind] at g0 ⊢
  rw [g0]
  simp only
  obtain ⟨q, q1, q2, q3, _⟩ := shrink_ok st.quotient
    (by intro h; rw [h] at g1; simp at g1; omega)
  obtain ⟨r, r1, r2, r3, _⟩ := shrink_ok st.remainder
    (by intro h; rw [h] at g2; simp at g2; omega)
  rw [q1, r1]
  refine ⟨q, r, rfl, q3, r3, ?_, ?_⟩
  · rw [q2, g4]; simp
  · rw [r2, g5]; simp

/-! ## Non-termination -/

/-- The inner loop never ends when the low limb of the divisor is zero and that of the remainder is
not. -/
theorem divWhile_low_hang (hw : 0 < w) (right one : List (BitVec w)) (fuel : Nat)
    (q rem : List (BitVec w)) (hr : right.length ≤ rem.length) (hl : 0 < rem.length)
    (hd : (right.getD 0 0).toNat = 0) (hx : 0 < (rem.getD 0 0).toNat) :
    ElementDiv.divWhile right one fuel (q, rem) = .hang := by
  induction fuel generalizing q rem with
  | zero =>
    unfold ElementDiv.divWhile
    rw [if_pos (isGe_of_low_lt (by omega))]
  | succ fuel ih =>
    unfold ElementDiv.divWhile
    rw [if_pos (isGe_of_low_lt (by omega))]
    have s1 : (ElementSub.subWrapping rem right).length = rem.length :=
      (subOverflowing_spec hw rem right hr).1
    have s2 := sub_low hw rem right hr hl (by omega)
    exact ih _ _ (by omega) (by omega) (by omega)

theorem divWhile_ok_or_hang (hw : 0 < w) (right one : List (BitVec w)) (fuel : Nat)
    (q rem : List (BitVec w)) (ho : one.length ≤ q.length) (hr : right.length ≤ rem.length) :
    ElementDiv.divWhile right one fuel (q, rem) = .hang ∨
    ∃ q' r', ElementDiv.divWhile right one fuel (q, rem) = .ok (q', r') ∧
      q'.length = q.length ∧ r'.length = rem.length := by
  induction fuel generalizing q rem with
  | zero =>
    unfold ElementDiv.divWhile
    by_cases h : isGe (elementCmp rem right) = true
    · left; rw [if_pos h]
    · right; rw [if_neg h]; exact ⟨_, _, rfl, rfl, rfl⟩
  | succ fuel ih =>
    unfold ElementDiv.divWhile
    by_cases h : isGe (elementCmp rem right) = true
    · rw [if_pos h]
      have s1 : (ElementSub.subWrapping rem right).length = rem.length :=
        (subOverflowing_spec hw rem right hr).1
      have a1 : (ElementAdd.addWrapping q one).length = q.length :=
        (addOverflowing_spec hw q one ho).1
      rw [← s1, ← a1]
      exact ih _ _ (by omega) (by omega)
    · right; rw [if_neg h]; exact ⟨_, _, rfl, rfl, rfl⟩

theorem forDownM_hang {σ : Type _} (P : σ → Prop) (f : Nat → σ → Res σ) (n k : Nat) (hk : k < n)
    (s : σ) (h0 : P s) (hs : ∀ i s, i < n → P s → f i s = .hang ∨ ∃ s', f i s = .ok s' ∧ P s')
    (hh : ∀ s, P s → f k s = .hang) : forDownM n f s = .hang := by
  induction n generalizing s with
  | zero => omega
  | succ n ih =>
    rw [forDownM]
    by_cases hkn : k = n
    · subst hkn
      rw [hh s h0]; rfl
    · rcases hs n s (by omega) h0 with g | ⟨s', g1, g2⟩
      · rw [g]; rfl
      · rw [g1]
        exact ih (by omega) s' g2 (fun i s hi h => hs i s (by omega) h)

/-- `div_long` never ends when the divisor is zero, or its low limb is zero and the numerator is
not zero. -/
theorem elementDivLong_hangs (m : Mode) (hw : 0 < w) (fuel : Nat) (left right : List (BitVec w))
    (hlen : right.length ≤ left.length) (h1 : 2 ≤ w * left.length) (h2 : w * left.length < 2 ^ 64)
    (hd : (right.getD 0 0).toNat = 0) (hn : val right = 0 ∨ val left ≠ 0) :
    ElementDiv.divLong m fuel left right = .hang := by
  unfold ElementDiv.divLong
  have hmax : max left.length right.length = left.length := by omega
  have hl0 : 0 < left.length := by
    rcases Nat.eq_zero_or_pos left.length with h | h
    · rw [h] at h1; simp at h1
    · exact h
  simp only [hmax]
  rw [if_neg (by omega)]
  obtain ⟨k, hk, hkd⟩ : ∃ k < left.length, val right = 0 ∨ 0 < (left.getD k 0).toNat := by
    rcases hn with h | h
    · exact ⟨0, hl0, Or.inl h⟩
    · by_contra hcon
      apply h
      have : val left = val ([] : List (BitVec w)) := by
        rw [val_eq_iff]
        intro j hj
        simp only [List.length_nil, Nat.max_zero] at hj
        apply BitVec.eq_of_toNat_eq
        by_contra hne
        exact hcon ⟨j, hj, Or.inr (by
          rcases Nat.eq_zero_or_pos (left.getD j 0).toNat with h0 | h0
          · rw [h0] at hne; simp at hne
          · exact h0)⟩
      simpa using this
  have key := forDownM_hang
    (fun (st : ElementDiv.DivState w) =>
      st.quotient.length = left.length ∧ st.remainder.length = left.length ∧
      st.one.length = left.length)
    (fun idx (st : ElementDiv.DivState w) =>
      (ElementShl.shlWrapping m st.remainder w).bind fun remainder =>
      (BitSlice.get left idx).bind fun v =>
      (BitSlice.set remainder 0 v).bind fun remainder =>
      (ElementDiv.divWhile right st.one fuel (st.quotient, remainder)).bind fun qr =>
      (ElementShr.shrWrapping m st.one w).bind fun one =>
      Res.ok ⟨qr.1, qr.2, one⟩)
    left.length k hk
    ⟨List.replicate left.length 0, List.replicate left.length 0,
      (List.replicate left.length 0).set (left.length - 1) 1⟩ (by simp)
    (by
      rintro i ⟨q, rem, one⟩ hi ⟨k1, k2, k3⟩
      simp only at k1 k2 k3 ⊢
      obtain ⟨r1, a1, a2, _⟩ := shlWrapping_limb m hw rem (by rw [k2]; exact h1)
        (by rw [k2]; exact h2)
      rw [a1, get_eq left i hi]
      simp only [Res.bind]
      rw [set_eq _ _ _ (by omega)]
      simp only
      rcases divWhile_ok_or_hang hw right one fuel q (r1.set 0 (left.getD i 0)) (by omega)
        (by simp; omega) with b0 | ⟨q', r', b0, b1, b2⟩
      · left; rw [b0]
      · right
        rw [b0]
        simp only
        obtain ⟨o', c1, c2, _⟩ := shrWrapping_limb m hw one (by rw [k3]; exact h1)
          (by rw [k3]; exact h2)
        rw [c1]
        have hb2 : r'.length = r1.length := by simpa using b2
        exact ⟨_, rfl, by simp only; omega, by simp only; omega, by simp only; omega⟩)
    (by
      rintro ⟨q, rem, one⟩ ⟨k1, k2, k3⟩
      simp only at k1 k2 k3 ⊢
      obtain ⟨r1, a1, a2, _⟩ := shlWrapping_limb m hw rem (by rw [k2]; exact h1)
        (by rw [k2]; exact h2)
      rw [a1, get_eq left k hk]
      simp only [Res.bind]
      rw [set_eq _ _ _ (by omega)]
      simp only
      rcases hkd with h | h
      · rw [divWhile_zero hw right one h fuel q _ (by simp; omega)]
      · rw [divWhile_low_hang hw right one fuel q _ (by simp; omega) (by simp; omega) hd]
        have : (r1.set 0 (left.getD k 0)).getD 0 0 = left.getD k 0 := by
          rw [List.getD_eq_getElem?_getD, List.getElem?_set_self (by omega)]
          rfl
        rw [this]
        exact h)
  simp only [Res.bind] at key ⊢
  rw [key]

/-- Zero divided by a nonzero number: zero, zero. -/
theorem elementDivLong_zero (m : Mode) (hw : 0 < w) (fuel : Nat) (left right : List (BitVec w))
    (hlen : right.length ≤ left.length) (h1 : 2 ≤ w * left.length) (h2 : w * left.length < 2 ^ 64)
    (hd : val right ≠ 0) (hn : val left = 0) :
    ∃ q r, ElementDiv.divLong m fuel left right = .ok (q, r) ∧ val q = 0 ∧ val r = 0 := by
  unfold ElementDiv.divLong
  have hmax : max left.length right.length = left.length := by omega
  have hl0 : 0 < left.length := by
    rcases Nat.eq_zero_or_pos left.length with h | h
    · rw [h] at h1; simp at h1
    · exact h
  simp only [hmax]
  rw [if_neg (by omega)]
  obtain ⟨st, g0, g1, g2, _, g4, g5⟩ := forDownM_inv
    (fun _ (st : ElementDiv.DivState w) =>
      st.quotient.length = left.length ∧ st.remainder.length = left.length ∧
      st.one.length = left.length ∧ val st.quotient = 0 ∧ val st.remainder = 0)
    (fun idx (st : ElementDiv.DivState w) =>
      (ElementShl.shlWrapping m st.remainder w).bind fun remainder =>
      (BitSlice.get left idx).bind fun v =>
      (BitSlice.set remainder 0 v).bind fun remainder =>
      (ElementDiv.divWhile right st.one fuel (st.quotient, remainder)).bind fun qr =>
      (ElementShr.shrWrapping m st.one w).bind fun one =>
      Res.ok ⟨qr.1, qr.2, one⟩)
    left.length
    ⟨List.replicate left.length 0, List.replicate left.length 0,
      (List.replicate left.length 0).set (left.length - 1) 1⟩ (by simp) (by
      rintro i ⟨q, rem, one⟩ hi ⟨k1, k2, k3, k4, k5⟩
      simp only at k1 k2 k3 k4 k5 ⊢
      obtain ⟨r1, a1, a2, a3⟩ := shlWrapping_zero m hw rem (by rw [k2]; exact h1)
        (by rw [k2]; exact h2) w k5
      rw [a1, get_eq left i hi]
      simp only [Res.bind]
      rw [set_eq _ _ _ (by omega)]
      simp only
      have hli : (left.getD i 0).toNat = 0 := by rw [← val_div_mod, hn]; simp
      have hr10 : (r1.getD 0 0).toNat = 0 := by rw [← low_mod, a3]; simp
      have hv := val_set r1 0 (left.getD i 0) (by omega)
      rw [hr10, a3, hli] at hv
      simp only [Nat.zero_mul, Nat.add_zero] at hv
      have hlt : ElementDiv.divWhile right one fuel (q, r1.set 0 (left.getD i 0))
          = .ok (q, r1.set 0 (left.getD i 0)) := by
        unfold ElementDiv.divWhile
        rw [if_neg]
        rw [isGe_iff, hv]
        rintro (h | ⟨j, -, h⟩)
        · exact hd h.symm
        · simp at h
      rw [hlt]
      simp only
      obtain ⟨o', c1, c2, _⟩ := shrWrapping_limb m hw one (by rw [k3]; exact h1)
        (by rw [k3]; exact h2)
      rw [c1]
      exact ⟨_, rfl, k1, by simp; omega, by simp only; omega, k4, hv⟩)
  simp only [Res.bind] at g0 ⊢
  rw [g0]
  simp only
  obtain ⟨q, q1, q2, _⟩ := shrink_ok st.quotient (by intro h; rw [h] at g1; simp at g1; omega)
  obtain ⟨r, r1, r2, _⟩ := shrink_ok st.remainder (by intro h; rw [h] at g2; simp at g2; omega)
  rw [q1, r1]
  exact ⟨q, r, rfl, by rw [q2, g4], by rw [r2, g5]⟩

end Verif
