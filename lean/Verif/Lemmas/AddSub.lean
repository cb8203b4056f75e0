import Verif.Model.Element
import Verif.Lemmas.Val

/-!
# Helper lemmas: addition and subtraction loops
-/

namespace Verif

open BitSlice

variable {w : Nat}

theorem one_toNat (hw : 0 < w) : (1 : BitVec w).toNat = 1 := by
  have : 1 < 2 ^ w := Nat.one_lt_two_pow (by omega)
  simp [Nat.mod_eq_of_lt this]

theorem ElementAdd.limb_spec (hw : 0 < w) (l r : BitVec w) (c : Bool) :
    (ElementAdd.limb l r c).1.toNat + (ElementAdd.limb l r c).2.toNat * 2 ^ w
      = l.toNat + r.toNat + c.toNat := by
  have hl := l.isLt
  have hr := r.isLt
  have h1 := one_toNat hw
  have hB : 1 < 2 ^ w := Nat.one_lt_two_pow (by omega)
  have hc : (if c then (1 : BitVec w) else 0).toNat = c.toNat := by
    cases c <;> simp [hw]
  simp only [ElementAdd.limb, ovfAdd, BitVec.toNat_add, hc]
  generalize (2 : Nat) ^ w = B at *
  have hcl : c.toNat ≤ 1 := Bool.toNat_le c
  generalize c.toNat = k at *
  rcases Nat.lt_or_ge (l.toNat + k) B with h | h
  · have e1 : (l.toNat + k) % B = l.toNat + k := Nat.mod_eq_of_lt h
    simp only [e1, Nat.not_le.mpr h, decide_false]
    rcases Nat.lt_or_ge (l.toNat + k + r.toNat) B with h2 | h2
    · simp [Nat.mod_eq_of_lt h2, Nat.not_le.mpr h2]; omega
    · have e2 : (l.toNat + k + r.toNat) % B = l.toNat + k + r.toNat - B := by
        rw [Nat.mod_eq_sub_mod h2, Nat.mod_eq_of_lt (by omega)]
      simp [e2, h2]; omega
  · have e1 : (l.toNat + k) % B = 0 := by
      have : l.toNat + k = B := by omega
      simp [this]
    have hn : ¬ B ≤ r.toNat := by omega
    simp [e1, h, Nat.mod_eq_of_lt hr]; omega

theorem ElementSub.limb_spec (hw : 0 < w) (l r : BitVec w) (c : Bool) :
    (ElementSub.limb l r c).1.toNat + r.toNat + c.toNat
      = l.toNat + (ElementSub.limb l r c).2.toNat * 2 ^ w := by
  have hl := l.isLt
  have hr := r.isLt
  have h1 := one_toNat hw
  have hB : 1 < 2 ^ w := Nat.one_lt_two_pow (by omega)
  cases c
  · simp only [ElementSub.limb, ovfSub, BitVec.toNat_sub]
    simp
    generalize (2 : Nat) ^ w = B at *
    by_cases h : l.toNat < r.toNat
    · have : (B - r.toNat + l.toNat) % B = B - r.toNat + l.toNat := Nat.mod_eq_of_lt (by omega)
      simp [this, h]; omega
    · have : (B - r.toNat + l.toNat) % B = l.toNat - r.toNat := by
        rw [Nat.mod_eq_sub_mod (by omega), Nat.mod_eq_of_lt (by omega)]; omega
      simp [this, h]; omega
  · simp only [ElementSub.limb, ovfSub, BitVec.toNat_sub, if_true, h1]
    generalize (2 : Nat) ^ w = B at *
    by_cases h : l.toNat < r.toNat
    · have e : (B - r.toNat + l.toNat) % B = B - r.toNat + l.toNat := Nat.mod_eq_of_lt (by omega)
      simp only [e, h]
      have hge : ¬ (B - r.toNat + l.toNat < 1) := by omega
      have e2 : (B - 1 + (B - r.toNat + l.toNat)) % B = B - r.toNat + l.toNat - 1 := by
        rw [Nat.mod_eq_sub_mod (by omega), Nat.mod_eq_of_lt (by omega)]; omega
      simp [e2]; omega
    · have e : (B - r.toNat + l.toNat) % B = l.toNat - r.toNat := by
        rw [Nat.mod_eq_sub_mod (by omega), Nat.mod_eq_of_lt (by omega)]; omega
      simp only [e, h]
      by_cases h2 : l.toNat - r.toNat < 1
      · have e2 : (B - 1 + (l.toNat - r.toNat)) % B = B - 1 + (l.toNat - r.toNat) :=
          Nat.mod_eq_of_lt (by omega)
        simp [e2]
        have : l.toNat - r.toNat = 0 := by omega
        simp [this]; omega
      · have e2 : (B - 1 + (l.toNat - r.toNat)) % B = l.toNat - r.toNat - 1 := by
          rw [Nat.mod_eq_sub_mod (by omega), Nat.mod_eq_of_lt (by omega)]; omega
        have h3 : l.toNat - r.toNat ≠ 0 := by omega
        simp [e2, h3]; omega

/-- State after `n` iterations of the growing addition loop. -/
theorem add_loop (hw : 0 < w) (l r : List (BitVec w)) (m n : Nat) (hn : n ≤ m) :
    let st := forUp n (fun idx (st : List (BitVec w) × Bool) =>
      let lv := getZ l idx
      let rv := getZ r idx
      let (res, carry) := ElementAdd.limb lv rv st.2
      (setIgnore st.1 idx res, carry)) (List.replicate m 0, false)
    st.1.length = m ∧ pv st.1 n + st.2.toNat * 2 ^ (w * n) = pv l n + pv r n := by
  intro st
  apply forUp_inv (fun n (st : List (BitVec w) × Bool) => st.1.length = m ∧
    pv st.1 n + st.2.toNat * 2 ^ (w * n) = pv l n + pv r n)
  · simp
  · rintro i ⟨out, c⟩ hi ⟨h1, h2⟩
    simp only [getZ_eq, setIgnore_eq] at *
    refine ⟨by simpa using h1, ?_⟩
    have hs := ElementAdd.limb_spec hw (l.getD i 0) (r.getD i 0) c
    rw [pv_set_succ _ _ _ (by omega), pv_succ, pv_succ, Nat.mul_succ, Nat.pow_add]
    calc _ = pv out i + ((ElementAdd.limb (l.getD i 0) (r.getD i 0) c).1.toNat
          + (ElementAdd.limb (l.getD i 0) (r.getD i 0) c).2.toNat * 2 ^ w) * 2 ^ (w * i) := by ring
      _ = (pv out i + c.toNat * 2 ^ (w * i)) + ((l.getD i 0).toNat + (r.getD i 0).toNat)
          * 2 ^ (w * i) := by rw [hs]; ring
      _ = _ := by rw [h2]; ring

/-- State after `n` iterations of the in-place addition loop. -/
theorem add_loop_in_place (hw : 0 < w) (l r : List (BitVec w)) (n : Nat) (hn : n ≤ l.length) :
    let st := forUp n (fun idx (st : List (BitVec w) × Bool) =>
      let lv := getZ st.1 idx
      let rv := getZ r idx
      let (res, carry) := ElementAdd.limb lv rv st.2
      (setIgnore st.1 idx res, carry)) (l, false)
    st.1.length = l.length ∧ (∀ j, n ≤ j → st.1.getD j 0 = l.getD j 0) ∧
      pv st.1 n + st.2.toNat * 2 ^ (w * n) = pv l n + pv r n := by
  intro st
  apply forUp_inv (fun n (st : List (BitVec w) × Bool) => st.1.length = l.length ∧
    (∀ j, n ≤ j → st.1.getD j 0 = l.getD j 0) ∧
    pv st.1 n + st.2.toNat * 2 ^ (w * n) = pv l n + pv r n)
  · simp
  · rintro i ⟨out, c⟩ hi ⟨h1, h3, h2⟩
    simp only [getZ_eq, setIgnore_eq] at *
    have hs := ElementAdd.limb_spec hw (out.getD i 0) (r.getD i 0) c
    refine ⟨by simpa using h1, ?_, ?_⟩
    · intro j hj
      rw [getD_set, if_neg (by omega), h3 j (by omega)]
    · rw [pv_set_succ _ _ _ (by omega), pv_succ, pv_succ, Nat.mul_succ, Nat.pow_add]
      calc _ = pv out i + ((ElementAdd.limb (out.getD i 0) (r.getD i 0) c).1.toNat
            + (ElementAdd.limb (out.getD i 0) (r.getD i 0) c).2.toNat * 2 ^ w) * 2 ^ (w * i) := by
              ring
        _ = (pv out i + c.toNat * 2 ^ (w * i)) + ((l.getD i 0).toNat + (r.getD i 0).toNat)
            * 2 ^ (w * i) := by rw [hs, h3 i le_rfl]; ring
        _ = _ := by rw [h2]; ring

/-- State after `n` iterations of the growing subtraction loop. -/
theorem sub_loop (hw : 0 < w) (l r : List (BitVec w)) (m n : Nat) (hn : n ≤ m) :
    let st := forUp n (fun idx (st : List (BitVec w) × Bool) =>
      let lv := getZ l idx
      let rv := getZ r idx
      let (res, carry) := ElementSub.limb lv rv st.2
      (setIgnore st.1 idx res, carry)) (List.replicate m 0, false)
    st.1.length = m ∧ pv st.1 n + pv r n = pv l n + st.2.toNat * 2 ^ (w * n) := by
  intro st
  apply forUp_inv (fun n (st : List (BitVec w) × Bool) => st.1.length = m ∧
    pv st.1 n + pv r n = pv l n + st.2.toNat * 2 ^ (w * n))
  · simp
  · rintro i ⟨out, c⟩ hi ⟨h1, h2⟩
    simp only [getZ_eq, setIgnore_eq] at *
    refine ⟨by simpa using h1, ?_⟩
    have hs := ElementSub.limb_spec hw (l.getD i 0) (r.getD i 0) c
    generalize hL : ElementSub.limb (l.getD i 0) (r.getD i 0) c = L at *
    rw [pv_set_succ _ _ _ (by omega), pv_succ, pv_succ, Nat.mul_succ, Nat.pow_add]
    have e1 := congrArg (· * 2 ^ (w * i)) hs
    simp only [Nat.add_mul] at e1
    have e2 : L.2.toNat * 2 ^ w * 2 ^ (w * i) = L.2.toNat * (2 ^ (w * i) * 2 ^ w) := by ring
    omega

/-- State after `n` iterations of the in-place subtraction loop. -/
theorem sub_loop_in_place (hw : 0 < w) (l r : List (BitVec w)) (n : Nat) (hn : n ≤ l.length) :
    let st := forUp n (fun idx (st : List (BitVec w) × Bool) =>
      let lv := getZ st.1 idx
      let rv := getZ r idx
      let (res, carry) := ElementSub.limb lv rv st.2
      (setIgnore st.1 idx res, carry)) (l, false)
    st.1.length = l.length ∧ (∀ j, n ≤ j → st.1.getD j 0 = l.getD j 0) ∧
      pv st.1 n + pv r n = pv l n + st.2.toNat * 2 ^ (w * n) := by
  intro st
  apply forUp_inv (fun n (st : List (BitVec w) × Bool) => st.1.length = l.length ∧
    (∀ j, n ≤ j → st.1.getD j 0 = l.getD j 0) ∧
    pv st.1 n + pv r n = pv l n + st.2.toNat * 2 ^ (w * n))
  · simp
  · rintro i ⟨out, c⟩ hi ⟨h1, h3, h2⟩
    simp only [getZ_eq, setIgnore_eq] at *
    have hs := ElementSub.limb_spec hw (out.getD i 0) (r.getD i 0) c
    refine ⟨by simpa using h1, ?_, ?_⟩
    · intro j hj
      rw [getD_set, if_neg (by omega), h3 j (by omega)]
    · rw [h3 i le_rfl] at hs ⊢
      generalize hL : ElementSub.limb (l.getD i 0) (r.getD i 0) c = L at *
      rw [pv_set_succ _ _ _ (by omega), pv_succ, pv_succ, Nat.mul_succ, Nat.pow_add]
      have e1 := congrArg (· * 2 ^ (w * i)) hs
      simp only [Nat.add_mul] at e1
      have e2 : L.2.toNat * 2 ^ w * 2 ^ (w * i) = L.2.toNat * (2 ^ (w * i) * 2 ^ w) := by ring
      omega

/-! ## The four operations -/

theorem add_exact (hw : 0 < w) (l r : List (BitVec w)) :
    ∃ out, ElementAdd.add l r = .ok out ∧ val out = val l + val r ∧ Norm out := by
  unfold ElementAdd.add
  set len := max l.length r.length with hlen
  have h := add_loop hw l r (len + 1) (len + 1) le_rfl
  simp only at h ⊢
  set st := forUp (len + 1) _ _
  obtain ⟨h1, h2⟩ := h
  rw [pv_eq_val l _ (by omega), pv_eq_val r _ (by omega), pv_eq_val _ _ (by omega)] at h2
  have hc : st.2 = false := by
    by_contra hc
    have hc : st.2 = true := by simpa using hc
    have hl : val l < 2 ^ (w * len) := lt_of_lt_of_le (val_lt l)
      (Nat.pow_le_pow_right (by norm_num) (Nat.mul_le_mul_left _ (by omega)))
    have hr : val r < 2 ^ (w * len) := lt_of_lt_of_le (val_lt r)
      (Nat.pow_le_pow_right (by norm_num) (Nat.mul_le_mul_left _ (by omega)))
    have hB : 2 * 2 ^ (w * len) ≤ 2 ^ (w * (len + 1)) := by
      rw [Nat.mul_succ, Nat.pow_add, Nat.mul_comm]
      exact Nat.mul_le_mul_left _ (by
        calc 2 = 2 ^ 1 := rfl
          _ ≤ 2 ^ w := Nat.pow_le_pow_right (by norm_num) hw)
    rw [hc] at h2
    simp at h2
    omega
  have hne : st.1 ≠ [] := by
    intro h0; rw [h0] at h1; simp at h1
  obtain ⟨t, ht, hv, hn, _⟩ := shrink_ok st.1 hne
  refine ⟨t, ht, ?_, hn⟩
  rw [hc] at h2
  simp at h2
  omega

theorem addOverflowing_spec (hw : 0 < w) (l r : List (BitVec w)) (hlr : r.length ≤ l.length) :
    (ElementAdd.addOverflowing l r).1.length = l.length ∧
    val (ElementAdd.addOverflowing l r).1 + (ElementAdd.addOverflowing l r).2.toNat * modulus l
      = val l + val r := by
  unfold ElementAdd.addOverflowing
  have e : max l.length r.length = l.length := by omega
  simp only [e]
  have h := add_loop_in_place hw l r l.length le_rfl
  simp only at h
  obtain ⟨h1, _, h2⟩ := h
  refine ⟨h1, ?_⟩
  rw [pv_eq_val l _ le_rfl, pv_eq_val r _ hlr, pv_eq_val _ _ (by omega)] at h2
  exact h2

theorem subOverflowing_spec (hw : 0 < w) (l r : List (BitVec w)) (hlr : r.length ≤ l.length) :
    (ElementSub.subOverflowing l r).1.length = l.length ∧
    val (ElementSub.subOverflowing l r).1 + val r
      = val l + (ElementSub.subOverflowing l r).2.toNat * modulus l := by
  unfold ElementSub.subOverflowing
  have e : max l.length r.length = l.length := by omega
  simp only [e]
  have h := sub_loop_in_place hw l r l.length le_rfl
  simp only at h
  obtain ⟨h1, _, h2⟩ := h
  refine ⟨h1, ?_⟩
  rw [pv_eq_val l _ le_rfl, pv_eq_val r _ hlr, pv_eq_val _ _ (by omega)] at h2
  exact h2

/-! ## Complement and the negate step -/

theorem not_val (s : List (BitVec w)) : val (elementNot s) + val s + 1 = modulus s := by
  induction s with
  | nil => simp [elementNot, modulus]
  | cons x xs ih =>
    have hx := x.isLt
    rw [modulus_cons]
    simp only [elementNot, List.map_cons, val_cons, BitVec.toNat_not] at ih ⊢
    rw [← ih]
    have : 2 ^ w * (val (xs.map fun v => ~~~v) + val xs + 1)
      = 2 ^ w * val (xs.map fun v => ~~~v) + 2 ^ w * val xs + 2 ^ w := by ring
    omega

theorem getBitOpt_eq (hw : 0 < w) (s : List (BitVec w)) (i : Nat) :
    getBitOpt s i = if i < bitLen s then some ((val s).testBit i) else none := by
  unfold getBitOpt idxBit bitLen
  simp only
  by_cases h : i < s.length * w
  · have h2 : i / w < s.length := Nat.div_lt_of_lt_mul (by rwa [Nat.mul_comm])
    rw [if_pos h, testBit_val hw, List.getElem?_eq_getElem h2, List.getD_eq_getElem?_getD,
      List.getElem?_eq_getElem h2]
    simp only [Option.map_some, Option.getD_some, Option.some.injEq]
    have hlt := Nat.mod_lt i hw
    generalize i % w = b at *
    generalize s[i / w] = v
    have hiff : (v &&& (1 : BitVec w) <<< b = 0) ↔ v.getLsbD b = false := by
      constructor
      · intro h0
        have := congrArg (fun x : BitVec w => x.getLsbD b) h0
        simpa [hlt] using this
      · intro h0
        apply BitVec.eq_of_getLsbD_eq
        intro k hk
        simp only [BitVec.getLsbD_and, BitVec.getLsbD_shiftLeft, BitVec.ofNat_eq_ofNat,
          BitVec.getLsbD_one, BitVec.getLsbD_zero]
        by_cases hkb : k = b
        · subst hkb; simp [h0]
        · have : ¬ (k < b) → k - b ≠ 0 := by omega
          by_cases h1 : k < b
          · simp [h1]
          · simp [this h1]
    cases hv : v.getLsbD b
    · simpa using hiff.mpr hv
    · have : ¬ (v &&& (1 : BitVec w) <<< b = 0) := fun h0 => by simp [hiff.mp h0] at hv
      simpa using this
  · rw [if_neg h, List.getElem?_eq_none]
    · rfl
    · exact (Nat.le_div_iff_mul_le hw).mpr (by omega)

theorem limbSetBit_getLsbD (x : BitVec w) (b : Nat) (v : Bool) (hb : b < w) (k : Nat) :
    (limbSetBit x b v).getLsbD k = if k = b then v else x.getLsbD k := by
  have hone : ∀ k, ((1 : BitVec w) <<< b).getLsbD k = decide (k = b) := by
    intro k
    simp only [BitVec.getLsbD_shiftLeft, BitVec.ofNat_eq_ofNat, BitVec.getLsbD_one]
    by_cases hkb : k = b
    · subst hkb; simp; omega
    · by_cases h1 : k < b
      · simp [h1, hkb]
      · have : k - b ≠ 0 := by omega
        simp [this, hkb]
  by_cases hkw : k < w
  · unfold limbSetBit
    cases v
    · simp only [Bool.false_eq_true, if_false, BitVec.getLsbD_and, BitVec.getLsbD_not, hone, hkw]
      by_cases h : k = b <;> simp [h]
    · simp only [if_true, BitVec.getLsbD_or, BitVec.getLsbD_and, BitVec.getLsbD_not, hone, hkw]
      by_cases h : k = b <;> simp [h]
  · have : k ≠ b := by omega
    simp [this, BitVec.getLsbD_of_ge _ _ (Nat.le_of_not_lt hkw)]

theorem setBitOpt_eq (s : List (BitVec w)) (i : Nat) (b : Bool) :
    setBitOpt s i b = if i / w < s.length then
      some (s.set (i / w) (limbSetBit (s.getD (i / w) 0) (i % w) b)) else none := by
  unfold setBitOpt idxBit
  simp only
  by_cases h : i / w < s.length
  · simp [h, List.getD_eq_getElem?_getD]
  · simp [h]

theorem testBit_val_setBit (hw : 0 < w) (s : List (BitVec w)) (i : Nat) (b : Bool)
    (h : i / w < s.length) (k : Nat) :
    (val (s.set (i / w) (limbSetBit (s.getD (i / w) 0) (i % w) b))).testBit k
      = if k = i then b else (val s).testBit k := by
  rw [testBit_val hw, testBit_val hw, getD_set]
  by_cases hk : i / w = k / w
  · rw [if_pos ⟨hk, h⟩, limbSetBit_getLsbD _ _ _ (Nat.mod_lt _ hw), hk]
    by_cases hm : k % w = i % w
    · have : k = i := by
        rw [← Nat.div_add_mod k w, ← Nat.div_add_mod i w, hm, hk]
      simp [this]
    · have : k ≠ i := by rintro rfl; exact hm rfl
      simp [hm, this]
  · rw [if_neg (by tauto)]
    have : k ≠ i := by rintro rfl; exact hk rfl
    simp [this]

/-- The negate step: flipping bit 0 and complementing. On a two's complement value `v ≠ 0` of
modulus `M` (representing `M - v`) it yields `M - v` when `v` is odd and `M - v - 2` when `v` is
even. -/
theorem negate_spec (hw : 0 < w) (s : List (BitVec w)) (h : s ≠ []) :
    ∃ t, ElementSub.negate s = .ok t ∧ t.length = s.length ∧
      val t + val s + (if (val s) % 2 = 1 then 0 else 2) = modulus s := by
  have hl : 0 < s.length := List.length_pos_iff.mpr h
  have hb : 0 < bitLen s := Nat.mul_pos hl hw
  unfold ElementSub.negate getBit setBit
  rw [getBitOpt_eq hw, if_pos hb]
  simp only [setBitOpt_eq]
  have h0 : 0 / w = 0 := Nat.zero_div w
  have h0' : 0 % w = 0 := Nat.zero_mod w
  simp only [h0, h0', hl, if_true, Res.ofOption, Res.bind]
  set u := s.set 0 (limbSetBit (s.getD 0 0) 0 !(val s).testBit 0) with hu
  have hul : u.length = s.length := by simp [hu]
  refine ⟨_, rfl, by simp [elementNot, hul], ?_⟩
  have hbits : ∀ k, (val u).testBit k = if k = 0 then !(val s).testBit 0 else (val s).testBit k := by
    intro k
    have := testBit_val_setBit hw s 0 (!(val s).testBit 0) (by omega) k
    simp only [h0, h0'] at this
    exact this
  have hdiv : val u / 2 = val s / 2 := by
    apply Nat.eq_of_testBit_eq
    intro k
    rw [Nat.testBit_div_two, Nat.testBit_div_two, hbits]; simp
  have hmod : val u % 2 = 1 - val s % 2 := by
    have := hbits 0
    simp only [if_true, Nat.testBit_zero] at this
    rcases Nat.mod_two_eq_zero_or_one (val s) with e | e <;>
      rcases Nat.mod_two_eq_zero_or_one (val u) with e' | e' <;> simp [e, e'] at this ⊢
  have hnot := not_val u
  have hm : modulus u = modulus s := by simp [modulus, hul]
  rw [hm] at hnot
  rcases Nat.mod_two_eq_zero_or_one (val s) with e | e
  · simp only [e]; simp; omega
  · simp only [e, if_true]; omega

theorem sub_exact (hw : 0 < w) (l r : List (BitVec w)) (hne : l ≠ [] ∨ r ≠ []) :
    ∃ out neg, ElementSub.sub l r = .ok (out, neg) ∧ Norm out ∧ (neg = true ↔ val l < val r) ∧
      (neg = false → val out = val l - val r) ∧
      (neg = true → val out + (if (val r - val l) % 2 = 1 then 0 else 2) = val r - val l) := by
  unfold ElementSub.sub
  set len := max l.length r.length with hlen
  have hlen0 : 0 < len := by
    rcases hne with h | h
    · have := List.length_pos_iff.mpr h; omega
    · have := List.length_pos_iff.mpr h; omega
  have h := sub_loop hw l r len len le_rfl
  simp only at h ⊢
  set st := forUp len _ _
  obtain ⟨h1, h2⟩ := h
  rw [pv_eq_val l _ (by omega), pv_eq_val r _ (by omega), pv_eq_val _ _ (by omega)] at h2
  have hne1 : st.1 ≠ [] := by
    intro h0; rw [h0] at h1; simp at h1; omega
  have hM : modulus st.1 = 2 ^ (w * len) := by simp [modulus, h1]
  have hlt := val_lt st.1
  have hl' : val l < 2 ^ (w * len) := lt_of_lt_of_le (val_lt l)
    (Nat.pow_le_pow_right (by norm_num) (Nat.mul_le_mul_left _ (by omega)))
  have hr' : val r < 2 ^ (w * len) := lt_of_lt_of_le (val_lt r)
    (Nat.pow_le_pow_right (by norm_num) (Nat.mul_le_mul_left _ (by omega)))
  rw [hM] at hlt
  cases hc : st.2 with
  | false =>
    obtain ⟨t, ht, hv, hn, _⟩ := shrink_ok st.1 hne1
    rw [hc] at h2
    simp at h2
    refine ⟨t, false, ?_, hn, by simp; omega, fun _ => by omega, by simp⟩
    simp [Res.bind, ht]
  | true =>
    obtain ⟨u, hu, hul, huv⟩ := negate_spec hw st.1 hne1
    have hu0 : u ≠ [] := by
      intro h0; rw [h0] at hul; simp at hul; omega
    obtain ⟨t, ht, hv, hn, _⟩ := shrink_ok u hu0
    rw [hc] at h2
    simp at h2
    refine ⟨t, true, ?_, hn, by simp; omega, by simp, fun _ => ?_⟩
    · simp [Res.bind, hu, ht]
    · rw [hM] at huv
      have hd : val r - val l = 2 ^ (w * len) - val st.1 := by omega
      have hpar : 2 ^ (w * len) % 2 = 0 := by
        have : w * len ≠ 0 := Nat.ne_of_gt (Nat.mul_pos hw hlen0)
        obtain ⟨k, hk⟩ := Nat.exists_eq_succ_of_ne_zero this
        rw [hk, Nat.pow_succ, Nat.mul_mod_left]
      rw [hv, hd]
      split at huv <;> split <;> omega

end Verif
