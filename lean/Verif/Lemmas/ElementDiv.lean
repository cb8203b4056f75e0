import Verif.Lemmas.Div

/-!
# Helper lemmas: element-wise long division
-/

namespace Verif

open BitSlice

variable {w : Nat}

theorem addWrapping_fits (hw : 0 < w) (l r : List (BitVec w)) (hlr : r.length ≤ l.length)
    (h : val l + val r < modulus l) :
    (ElementAdd.addWrapping l r).length = l.length ∧
    val (ElementAdd.addWrapping l r) = val l + val r := by
  obtain ⟨h1, h2⟩ := addOverflowing_spec hw l r hlr
  refine ⟨h1, ?_⟩
  unfold ElementAdd.addWrapping
  cases hc : (ElementAdd.addOverflowing l r).2 with
  | false => rw [hc] at h2; simpa using h2
  | true =>
    rw [hc] at h2
    simp only [Bool.toNat_true, Nat.one_mul] at h2
    omega

theorem subWrapping_fits (hw : 0 < w) (l r : List (BitVec w)) (hlr : r.length ≤ l.length)
    (h : val r ≤ val l) :
    (ElementSub.subWrapping l r).length = l.length ∧
    val (ElementSub.subWrapping l r) = val l - val r := by
  obtain ⟨h1, h2⟩ := subOverflowing_spec hw l r hlr
  refine ⟨h1, ?_⟩
  unfold ElementSub.subWrapping
  cases hc : (ElementSub.subOverflowing l r).2 with
  | false =>
    rw [hc] at h2
    simp only [Bool.toNat_false, Nat.zero_mul, Nat.add_zero] at h2
    omega
  | true =>
    rw [hc] at h2
    simp only [Bool.toNat_true, Nat.one_mul] at h2
    have := val_lt (ElementSub.subOverflowing l r).1
    have hm : modulus (ElementSub.subOverflowing l r).1 = modulus l := by simp [modulus, h1]
    omega

theorem divWhile_small (hw : 0 < w) (right one : List (BitVec w)) (fuel : Nat)
    (q rem : List (BitVec w)) (ho : one.length ≤ q.length) (hr : right.length ≤ rem.length)
    (hd0 : 0 < val right) (hd : val right < 2 ^ w) (hx : val rem < 2 ^ w)
    (hf : val rem / val right ≤ fuel)
    (hq : val q + val rem / val right * val one < modulus q) :
    ∃ q' r', ElementDiv.divWhile right one fuel (q, rem) = .ok (q', r') ∧
      q'.length = q.length ∧ r'.length = rem.length ∧
      val q' = val q + val rem / val right * val one ∧ val r' = val rem % val right := by
  induction fuel generalizing q rem with
  | zero =>
    have h0 : val rem < val right := by
      by_contra h
      have : 1 ≤ val rem / val right := (Nat.one_le_div_iff hd0).mpr (by omega)
      omega
    unfold ElementDiv.divWhile
    rw [cmp_small rem right hx hd]
    have : ¬ val right ≤ val rem := by omega
    simp only [this, decide_false, Bool.false_eq_true, if_false]
    refine ⟨q, rem, rfl, rfl, rfl, ?_, (Nat.mod_eq_of_lt h0).symm⟩
    rw [Nat.div_eq_of_lt h0]; simp
  | succ fuel ih =>
    unfold ElementDiv.divWhile
    rw [cmp_small rem right hx hd]
    by_cases h : val right ≤ val rem
    · simp only [h, decide_true, if_true]
      have hdiv : val rem / val right = (val rem - val right) / val right + 1 := by
        conv_lhs => rw [show val rem = (val rem - val right) + val right by omega]
        rw [Nat.add_div_right _ hd0]
      have hmod : val rem % val right = (val rem - val right) % val right :=
        Nat.mod_eq_sub_mod h
      rw [hdiv, Nat.add_mul, Nat.one_mul] at hq ⊢
      obtain ⟨s1, s2⟩ := subWrapping_fits hw rem right hr h
      obtain ⟨a1, a2⟩ := addWrapping_fits hw q one ho (by omega)
      have hm : modulus (ElementAdd.addWrapping q one) = modulus q := by simp [modulus, a1]
      obtain ⟨q', r', g0, g1, g2, g3, g4⟩ := ih (ElementAdd.addWrapping q one)
        (ElementSub.subWrapping rem right) (by omega) (by omega) (by omega)
        (by rw [s2]; omega) (by rw [hm, a2, s2]; omega)
      refine ⟨q', r', g0, by omega, by omega, by rw [g3, a2, s2]; omega, by rw [g4, s2, hmod]⟩
    · simp only [h, decide_false, Bool.false_eq_true, if_false]
      have h0 : val rem < val right := by omega
      refine ⟨q, rem, rfl, rfl, rfl, ?_, (Nat.mod_eq_of_lt h0).symm⟩
      rw [Nat.div_eq_of_lt h0]; simp

/-- `shr_wrapping(_, w)` on at least two limbs drops the lowest limb; on one limb it merely does
not panic. -/
theorem shrWrapping_limb (m : Mode) (hw : 0 < w) (s : List (BitVec w)) (h1 : 2 ≤ w * s.length)
    (h2 : w * s.length < 2 ^ 64) :
    ∃ out, ElementShr.shrWrapping m s w = .ok out ∧ out.length = s.length ∧
      (2 ≤ s.length → val out = val s / 2 ^ w) := by
  unfold ElementShr.shrWrapping
  rw [bitLen_eq, maskShift_eq m _ w h1 h2]
  have hlt : w % 2 ^ Nat.log2 (w * s.length) < 2 ^ Nat.log2 (w * s.length) :=
    Nat.mod_lt _ (Nat.two_pow_pos _)
  have hle : 2 ^ Nat.log2 (w * s.length) ≤ w * s.length := Nat.log2_self_le (by omega)
  have hlen : s.length < usizeSize :=
    Nat.lt_of_le_of_lt (Nat.le_mul_of_pos_left _ hw) h2
  obtain ⟨out, g1, g2, g3⟩ := ElementShr.inner_spec m hw s
    (w % 2 ^ Nat.log2 (w * s.length)) (by omega) hlen
  refine ⟨out, g1, g2, fun hl => ?_⟩
  have hgt : w < 2 ^ Nat.log2 (w * s.length) := by
    have h3 : w * s.length < 2 ^ (Nat.log2 (w * s.length) + 1) := Nat.lt_log2_self
    rw [Nat.pow_succ] at h3
    have h4 : w * 2 ≤ w * s.length := Nat.mul_le_mul_left _ hl
    omega
  rw [Nat.mod_eq_of_lt hgt] at g3
  rw [g3]
  simp [ElementShr.elemMask]

theorem shlWrapping_zero (m : Mode) (hw : 0 < w) (s : List (BitVec w)) (h1 : 2 ≤ w * s.length)
    (h2 : w * s.length < 2 ^ 64) (k : Nat) (h0 : val s = 0) :
    ∃ out, ElementShl.shlWrapping m s k = .ok out ∧ out.length = s.length ∧ val out = 0 := by
  unfold ElementShl.shlWrapping
  rw [bitLen_eq, maskShift_eq m _ k h1 h2]
  have hlt : k % 2 ^ Nat.log2 (w * s.length) < 2 ^ Nat.log2 (w * s.length) :=
    Nat.mod_lt _ (Nat.two_pow_pos _)
  have hle : 2 ^ Nat.log2 (w * s.length) ≤ w * s.length := Nat.log2_self_le (by omega)
  obtain ⟨out, g1, g2, g3⟩ := ElementShl.inner_spec hw s
    (k % 2 ^ Nat.log2 (w * s.length)) (by omega)
  refine ⟨out, g1, g2, ?_⟩
  rw [g3, h0]
  simp

theorem get_eq (s : List (BitVec w)) (i : Nat) (h : i < s.length) :
    BitSlice.get s i = .ok (s.getD i 0) := by
  simp [BitSlice.get, getOpt, h, Res.ofOption, List.getD_eq_getElem?_getD]

/-- `div_long` when the divisor fits one limb and divides every limb of the numerator but the
lowest (in particular when the numerator fits one limb). -/
theorem elementDivLong_small (m : Mode) (hw : 0 < w) (fuel : Nat) (left right : List (BitVec w))
    (hlen : right.length ≤ left.length) (h1 : 2 ≤ w * left.length) (h2 : w * left.length < 2 ^ 64)
    (hf : 2 ^ w ≤ fuel) (hd0 : 0 < val right) (hd : val right < 2 ^ w)
    (hdvd : ∀ j, 0 < j → val right ∣ (left.getD j 0).toNat) :
    ∃ q r, ElementDiv.divLong m fuel left right = .ok (q, r) ∧ Norm q ∧ Norm r ∧
      val q = val left / val right ∧ val r = val left % val right := by
  unfold ElementDiv.divLong
  have hmax : max left.length right.length = left.length := by omega
  have hl0 : 0 < left.length := by
    rcases Nat.eq_zero_or_pos left.length with h | h
    · rw [h] at h1; simp at h1
    · exact h
  simp only [hmax]
  rw [if_neg (by omega)]
  obtain ⟨st, g0, g1, g2, g3, _, g5, g6, _⟩ := forDownM_inv
    (fun i (st : ElementDiv.DivState w) =>
      st.quotient.length = left.length ∧ st.remainder.length = left.length ∧
      st.one.length = left.length ∧
      (0 < i → val st.remainder = 0) ∧ val st.remainder < val right ∧
      val right * val st.quotient + pv left i + val st.remainder = val left ∧
      (0 < i → val st.one = 2 ^ (w * (i - 1))))
    (fun idx (st : ElementDiv.DivState w) =>
      (ElementShl.shlWrapping m st.remainder w).bind fun remainder =>
      (BitSlice.get left idx).bind fun v =>
      (BitSlice.set remainder 0 v).bind fun remainder =>
      (ElementDiv.divWhile right st.one fuel (st.quotient, remainder)).bind fun qr =>
      (ElementShr.shrWrapping m st.one w).bind fun one =>
      Res.ok ⟨qr.1, qr.2, one⟩)
    left.length
    ⟨List.replicate left.length 0, List.replicate left.length 0,
      (List.replicate left.length 0).set (left.length - 1) 1⟩ (by
      refine ⟨by simp, by simp, by simp, fun _ => val_replicate_zero _, ?_, ?_, fun _ => ?_⟩
      · simp only [val_replicate_zero]; exact hd0
      · simp only [val_replicate_zero, pv_length]; omega
      · have := val_set (List.replicate left.length (0 : BitVec w)) (left.length - 1) 1
          (by simp; omega)
        rw [getD_replicate, val_replicate_zero, one_toNat hw] at this
        simpa using this) (by
      rintro i ⟨q, rem, one⟩ hi ⟨k1, k2, k3, k4, k5, k6, k7⟩
      simp only at k1 k2 k3 k4 k5 k6 k7 ⊢
      have k4 := k4 (by omega)
      have k7 := k7 (by omega)
      simp only [Nat.add_sub_cancel] at k7
      obtain ⟨r1, a1, a2, a3⟩ := shlWrapping_zero m hw rem (by rw [k2]; exact h1)
        (by rw [k2]; exact h2) w k4
      rw [a1, get_eq left i hi]
      simp only [Res.bind]
      rw [set_eq _ _ _ (by omega)]
      simp only
      have hv := val_set r1 0 (left.getD i 0) (by omega)
      have hr10 : (r1.getD 0 0).toNat = 0 := by rw [← val_div_mod, a3]; simp
      rw [hr10, a3] at hv
      simp only [Nat.add_zero, Nat.mul_zero, Nat.pow_zero, Nat.mul_one,
        Nat.zero_add] at hv
      have hlt := (left.getD i 0).isLt
      have hvl := val_lt left
      -- the new quotient does not overflow
      have hmulq : val right * (val q + (left.getD i 0).toNat / val right * val one)
          + pv left i + (left.getD i 0).toNat % val right * 2 ^ (w * i) = val left := by
        rw [pv_succ, k4] at k6
        have hdm := Nat.div_add_mod (left.getD i 0).toNat (val right)
        have e : (left.getD i 0).toNat * 2 ^ (w * i)
            = val right * ((left.getD i 0).toNat / val right * val one)
              + (left.getD i 0).toNat % val right * 2 ^ (w * i) := by
          conv_lhs => rw [← hdm]
          rw [k7]; ring
        rw [Nat.mul_add]
        omega
      have hqfit : val q + (left.getD i 0).toNat / val right * val one < modulus q := by
        have hm : modulus q = modulus left := by simp [modulus, k1]
        have : val q + (left.getD i 0).toNat / val right * val one
            ≤ val right * (val q + (left.getD i 0).toNat / val right * val one) :=
          Nat.le_mul_of_pos_left _ hd0
        omega
      obtain ⟨q', r', b0, b1, b2, b3, b4⟩ := divWhile_small hw right one fuel q
        (r1.set 0 (left.getD i 0)) (by omega) (by simp; omega) hd0 hd (by omega)
        (by rw [hv]; have := Nat.div_le_self (left.getD i 0).toNat (val right); omega)
        (by rw [hv]; exact hqfit)
      rw [b0]
      simp only
      obtain ⟨o', c1, c2, c3⟩ := shrWrapping_limb m hw one (by rw [k3]; exact h1)
        (by rw [k3]; exact h2)
      rw [c1]
      rw [hv] at b3 b4
      have hb2 : r'.length = r1.length := by simpa using b2
      refine ⟨_, rfl, by simp only; omega, by simp only; omega, by simp only; omega, ?_, ?_, ?_, ?_⟩
      · intro hi0
        simp only
        rw [b4]
        exact Nat.mod_eq_zero_of_dvd (hdvd i hi0)
      · simp only
        rw [b4]; exact Nat.mod_lt _ hd0
      · simp only
        rw [b3, b4]
        rcases Nat.eq_zero_or_pos i with h0 | h0
        · subst h0
          simpa using hmulq
        · have hz : (left.getD i 0).toNat % val right = 0 := Nat.mod_eq_zero_of_dvd (hdvd i h0)
          rw [hz] at hmulq ⊢
          omega
      · intro hi0
        simp only
        rw [c3 (by omega), k7]
        have : w * i = w * (i - 1) + w := by
          conv_lhs => rw [show i = (i - 1) + 1 by omega]
          rw [Nat.mul_succ]
        rw [this, Nat.pow_add, Nat.mul_div_cancel _ (Nat.two_pow_pos w)])
  simp only [Res.bind] at g0 ⊢
  rw [g0]
  simp only
  obtain ⟨q, q1, q2, q3, _⟩ := shrink_ok st.quotient
    (by intro h; rw [h] at g1; simp at g1; omega)
  obtain ⟨r, r1, r2, r3, _⟩ := shrink_ok st.remainder
    (by intro h; rw [h] at g2; simp at g2; omega)
  rw [q1, r1]
  simp only [pv_zero, Nat.add_zero] at g6
  have huniq := (Nat.div_mod_unique (a := val left) (c := val st.remainder)
    (d := val st.quotient) hd0).mpr ⟨by omega, g5⟩
  exact ⟨q, r, rfl, q3, r3, by rw [q2, huniq.1], by rw [r2, huniq.2]⟩

/-- A zero divisor never terminates. -/
theorem divWhile_zero (hw : 0 < w) (right one : List (BitVec w)) (h0 : val right = 0)
    (fuel : Nat) (q rem : List (BitVec w)) (hl : right.length ≤ rem.length) :
    ElementDiv.divWhile right one fuel (q, rem) = .hang := by
  have hge : ∀ rem : List (BitVec w), isGe (elementCmp rem right) = true := by
    intro rem
    have hz : ∀ j, right.getD j 0 = 0 := by
      intro j
      apply BitVec.eq_of_toNat_eq
      rw [← val_div_mod, h0]; simp
    by_cases hr : val rem = 0
    · rw [(elementCmp_eq rem right).mpr (by omega)]; rfl
    · -- the least nonzero limb decides
      have hex : ∃ j, rem.getD j 0 ≠ 0 := by
        by_contra hc
        apply hr
        rw [← h0]
        apply (val_eq_iff _ _).mpr
        intro j _
        rw [hz j]
        by_contra h
        exact hc ⟨j, h⟩
      classical
      have h1 := Nat.find_spec hex
      have h2 : ∀ k < Nat.find hex, rem.getD k 0 = right.getD k 0 := by
        intro k hk
        rw [hz k]
        have := Nat.find_min hex hk
        simpa using this
      rw [elementCmp_low rem right _ h2 (by rw [hz]; exact h1)]
      unfold limbCmp
      rw [hz]
      have : 0 < (rem.getD (Nat.find hex) 0).toNat := by
        rcases Nat.eq_zero_or_pos (rem.getD (Nat.find hex) 0).toNat with h | h
        · exact absurd (BitVec.eq_of_toNat_eq (by simpa using h)) h1
        · exact h
      rw [Nat.compare_eq_gt.mpr (by simpa using this)]
      rfl
  induction fuel generalizing q rem with
  | zero => unfold ElementDiv.divWhile; simp [hge]
  | succ fuel ih =>
    unfold ElementDiv.divWhile
    simp only [hge, if_true]
    exact ih _ _ (by rw [show (ElementSub.subWrapping rem right).length = rem.length from
      (subOverflowing_spec hw rem right hl).1]; exact hl)

/-- The loop never ends when the lowest limb of the divisor is zero and that of the remainder is
not: subtracting never changes the deciding lowest limb. -/
theorem divWhile_low_zero (d : BitVec 8) (one : List (BitVec 8)) (fuel : Nat)
    (q : List (BitVec 8)) (y : BitVec 8) :
    ElementDiv.divWhile [0#8, d] one fuel (q, [1#8, y]) = .hang := by
  have hge : ∀ y, isGe (elementCmp [1#8, y] [0#8, d]) = true := by
    intro y
    rw [elementCmp_low [1#8, y] [0#8, d] 0 (by omega) (by simp)]
    simp only [List.getD_cons_zero]
    decide
  have hsub : ∀ y, ∃ y', ElementSub.subWrapping [1#8, y] [0#8, d] = [1#8, y'] := by
    intro y
    obtain ⟨h1, h2⟩ := subOverflowing_spec (by norm_num) [1#8, y] [0#8, d] le_rfl
    unfold ElementSub.subWrapping
    generalize ElementSub.subOverflowing [1#8, y] [0#8, d] = O at *
    obtain ⟨o, c⟩ := O
    match o, h1 with
    | [a, b], _ =>
      refine ⟨b, ?_⟩
      have : a = 1#8 := by
        apply BitVec.eq_of_toNat_eq
        simp only [val_cons, val_nil, modulus] at h2
        have ha := a.isLt
        cases c
        · simp at h2 ⊢; omega
        · simp at h2 ⊢; omega
      rw [this]
  induction fuel generalizing q y with
  | zero => unfold ElementDiv.divWhile; simp [hge]
  | succ fuel ih =>
    unfold ElementDiv.divWhile
    simp only [hge, if_true]
    obtain ⟨y', hy⟩ := hsub y
    rw [hy]
    exact ih _ _

/-! ## More fuel never changes a finished run -/

theorem divWhile_mono (right one : List (BitVec w)) (f k : Nat) :
    ∀ (st x : List (BitVec w) × List (BitVec w)),
      ElementDiv.divWhile right one f st = .ok x →
      ElementDiv.divWhile right one (f + k) st = .ok x := by
  induction f with
  | zero =>
    rintro ⟨a, b⟩ x hx
    unfold ElementDiv.divWhile at hx ⊢
    by_cases hc : isGe (elementCmp b right) = true
    · simp [hc] at hx
    · simp only [hc, if_false, Bool.false_eq_true] at hx ⊢
      exact hx
  | succ f ih =>
    rintro ⟨a, b⟩ x hx
    rw [show f + 1 + k = (f + k) + 1 by omega]
    unfold ElementDiv.divWhile at hx ⊢
    by_cases hc : isGe (elementCmp b right) = true
    · simp only [hc, if_true] at hx ⊢
      exact ih _ _ hx
    · simp only [hc, if_false, Bool.false_eq_true] at hx ⊢
      exact hx

/-- `x` finishing with a value implies that `y` finishes with the same value. -/
def Res.Le {α : Type _} (x y : Res α) : Prop := ∀ a, x = .ok a → y = .ok a

theorem Res.Le.refl {α : Type _} (x : Res α) : Res.Le x x := fun _ h => h

theorem Res.Le.bind {α β : Type _} {x y : Res α} {f g : α → Res β} (h : Res.Le x y)
    (hf : ∀ a, Res.Le (f a) (g a)) : Res.Le (x.bind f) (y.bind g) := by
  intro b hb
  cases x with
  | ok a => rw [h a rfl]; exact hf a b hb
  | panic => simp [Res.bind] at hb
  | hang => simp [Res.bind] at hb

theorem forDownM_le {σ : Type _} (n : Nat) (f g : Nat → σ → Res σ)
    (h : ∀ i s, Res.Le (f i s) (g i s)) (s : σ) : Res.Le (forDownM n f s) (forDownM n g s) := by
  induction n generalizing s with
  | zero => exact Res.Le.refl _
  | succ n ih => exact Res.Le.bind (h n s) ih

theorem elementDivLong_mono (m : Mode) (f k : Nat) (left right : List (BitVec w)) :
    Res.Le (ElementDiv.divLong m f left right) (ElementDiv.divLong m (f + k) left right) := by
  unfold ElementDiv.divLong
  simp only
  split
  · exact Res.Le.refl _
  · refine Res.Le.bind (forDownM_le _ _ _ (fun i st => ?_) _) (fun _ => Res.Le.refl _)
    refine Res.Le.bind (Res.Le.refl _) fun _ => Res.Le.bind (Res.Le.refl _) fun _ =>
      Res.Le.bind (Res.Le.refl _) fun _ => Res.Le.bind ?_ fun _ => Res.Le.refl _
    exact fun x h => divWhile_mono right st.one f k _ x h

/-- Whatever value some amount of fuel gives is the only one any amount gives. -/
theorem elementDivLong_unique (m : Mode) (f g : Nat) (left right : List (BitVec w))
    {x y : List (BitVec w) × List (BitVec w)} (hx : ElementDiv.divLong m f left right = .ok x)
    (hy : ElementDiv.divLong m g left right = .ok y) : x = y := by
  have h1 := elementDivLong_mono m f g left right x hx
  have h2 := elementDivLong_mono m g f left right y hy
  rw [Nat.add_comm g f, h1] at h2
  simpa using h2

/-- 1 / 256 with 8-bit limbs: the loop never ends. -/
theorem elementDivLong_hang (m : Mode) (fuel : Nat) :
    ElementDiv.divLong m fuel [1#8, 0#8] [0#8, 1#8] = .hang := by
  have h0 : ∀ q one, ElementDiv.divWhile [0#8, 1#8] one fuel (q, [0#8, 0#8])
      = .ok (q, [0#8, 0#8]) := by
    intro q one
    unfold ElementDiv.divWhile
    rw [if_neg (by decide)]
  have s1 : ElementShl.shlWrapping m [0#8, 0#8] 8 = .ok [0#8, 0#8] := by
    cases m <;> decide +kernel
  have s2 : ElementShr.shrWrapping m [0#8, 1#8] 8 = .ok [1#8, 0#8] := by
    cases m <;> decide +kernel
  unfold ElementDiv.divLong
  simp only [List.length_cons, List.length_nil, Nat.zero_add, Nat.reduceAdd, max_self,
    show ¬ (2 = 0) by decide, if_false, forDownM]
  rw [show (List.replicate 2 (0 : BitVec 8)) = [0#8, 0#8] from rfl,
    show [0#8, 0#8].set (2 - 1) (1 : BitVec 8) = [0#8, 1#8] from rfl]
  simp only [s1, Res.bind, show BitSlice.get [1#8, 0#8] 1 = .ok 0#8 from rfl,
    show BitSlice.set [0#8, 0#8] 0 0#8 = .ok [0#8, 0#8] from rfl, h0, s2,
    show BitSlice.get [1#8, 0#8] 0 = .ok 1#8 from rfl,
    show BitSlice.set [0#8, 0#8] 0 1#8 = .ok [1#8, 0#8] from rfl,
    divWhile_low_zero]

end Verif
