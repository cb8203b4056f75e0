import Verif.Model.Element
import Verif.Lemmas.AddSub
import Mathlib.Data.Nat.ModEq

/-!
# Helper lemmas: multiplication
-/

namespace Verif

open BitSlice

variable {w : Nat}

theorem wideningMul_spec (a b c : BitVec w) :
    (wideningMul a b c).1.toNat + (wideningMul a b c).2.toNat * 2 ^ w
      = a.toNat * b.toNat + c.toNat := by
  have ha := a.isLt
  have hb := b.isLt
  have hc := c.isLt
  have hle : 2 ^ w ≤ 2 ^ (w + w) := Nat.pow_le_pow_right (by norm_num) (by omega)
  have hfit : a.toNat * b.toNat + c.toNat < 2 ^ (w + w) := by
    rw [Nat.pow_add]
    have h1 : a.toNat * b.toNat ≤ (2 ^ w - 1) * (2 ^ w - 1) :=
      Nat.mul_le_mul (by omega) (by omega)
    generalize 2 ^ w = B at *
    obtain ⟨k, rfl⟩ : ∃ k, B = k + 1 := ⟨B - 1, by omega⟩
    simp only [Nat.add_sub_cancel] at h1
    have : (k + 1) * (k + 1) = k * k + k + k + 1 := by ring
    omega
  simp only [wideningMul, BitVec.toNat_setWidth, BitVec.toNat_ushiftRight, BitVec.toNat_add,
    BitVec.toNat_mul]
  rw [Nat.mod_eq_of_lt (a := a.toNat) (by omega), Nat.mod_eq_of_lt (a := b.toNat) (by omega),
    Nat.mod_eq_of_lt (a := c.toNat) (by omega)]
  rw [Nat.mod_add_mod, Nat.mod_eq_of_lt hfit, Nat.shiftRight_eq_div_pow]
  have h2 : (a.toNat * b.toNat + c.toNat) / 2 ^ w < 2 ^ w := by
    rw [Nat.pow_add] at hfit
    exact Nat.div_lt_of_lt_mul hfit
  rw [Nat.mod_eq_of_lt h2, Nat.mul_comm (_ / _)]
  exact Nat.mod_add_div _ _

namespace ElementMul

theorem ovfAdd_spec (a b : BitVec w) :
    (ovfAdd a b).1.toNat + (ovfAdd a b).2.toNat * 2 ^ w = a.toNat + b.toNat := by
  have ha := a.isLt
  have hb := b.isLt
  simp only [ovfAdd, BitVec.toNat_add]
  generalize (2 : Nat) ^ w = B at *
  by_cases h : B ≤ a.toNat + b.toNat
  · rw [Nat.mod_eq_sub_mod h, Nat.mod_eq_of_lt (by omega)]
    simp [h]
  · rw [Nat.mod_eq_of_lt (by omega)]
    simp [h]

/-- `add_item` started inside the slice adds `v * B^idx` modulo the slice, and reports the
carry out of the slice. -/
theorem addItemLoop_spec (hw : 0 < w) (fuel : Nat) (s : List (BitVec w)) (idx : Nat) (v : BitVec w)
    (c : Bool) (hf : s.length < fuel + idx) :
    (addItemLoop fuel s idx v c).1.length = s.length ∧
    (∀ j < idx, (addItemLoop fuel s idx v c).1.getD j 0 = s.getD j 0) ∧
    (idx < s.length →
      val (addItemLoop fuel s idx v c).1 + (addItemLoop fuel s idx v c).2.toNat * modulus s
        = val s + v.toNat * 2 ^ (w * idx)) ∧
    (s.length ≤ idx → addItemLoop fuel s idx v c = (s, c)) := by
  induction fuel generalizing s idx v c with
  | zero =>
    refine ⟨rfl, fun _ _ => rfl, fun h => by omega, fun _ => rfl⟩
  | succ fuel ih =>
    by_cases h : idx < s.length
    · have hget : s[idx]? = some (s.getD idx 0) := by
        simp [List.getD_eq_getElem?_getD, h]
      unfold addItemLoop
      simp only [hget]
      have ho := ovfAdd_spec (s.getD idx 0) v
      generalize hO : ovfAdd (s.getD idx 0) v = O at *
      have hset := val_set s idx O.1 h
      have h1 := congrArg (· * 2 ^ (w * idx)) ho
      simp only [Nat.add_mul] at h1
      have hpw : 2 ^ w * 2 ^ (w * idx) = 2 ^ (w * (idx + 1)) := by
        rw [← Nat.pow_add]; congr 1; ring
      cases hc : O.2 with
      | false =>
        simp only [Bool.not_false, if_true]
        refine ⟨by simp, fun j hj => by rw [getD_set, if_neg (by omega)], fun _ => ?_, by omega⟩
        rw [hc] at h1
        simp at h1 ⊢
        simp at hset
        omega
      | true =>
        simp only [Bool.not_true, Bool.false_eq_true, if_false]
        obtain ⟨i1, i2, i3, i4⟩ := ih (s.set idx O.1) (idx + 1) 1 true (by simp; omega)
        have hm : modulus (s.set idx O.1) = modulus s := by simp [modulus]
        refine ⟨by simpa using i1, fun j hj => ?_, fun _ => ?_, by omega⟩
        · rw [i2 j (by omega), getD_set, if_neg (by omega)]
        · rw [hc] at h1
          simp only [Bool.toNat_true, Nat.one_mul, hpw] at h1
          by_cases h2 : idx + 1 < s.length
          · have i3 := i3 (by simpa using h2)
            rw [hm, one_toNat hw] at i3
            simp only [Nat.one_mul] at i3
            omega
          · have i4 := i4 (by simp; omega)
            rw [i4]
            have e : idx + 1 = s.length := by omega
            have hmod : modulus s = 2 ^ (w * (idx + 1)) := by rw [modulus, e]
            simp only [Bool.toNat_true, Nat.one_mul, hmod]
            omega
    · have hget : s[idx]? = none := by simp; omega
      have he : addItemLoop (fuel + 1) s idx v c = (s, c) := by
        unfold addItemLoop
        simp only [hget]
      rw [he]
      exact ⟨rfl, fun _ _ => rfl, fun h' => absurd h' h, fun _ => rfl⟩

theorem addItem_length (hw : 0 < w) (s : List (BitVec w)) (idx : Nat) (v : BitVec w) :
    (addItem s idx v).1.length = s.length :=
  (addItemLoop_spec hw _ s idx v false (by omega)).1

theorem addItem_low (hw : 0 < w) (s : List (BitVec w)) (idx : Nat) (v : BitVec w) (j : Nat)
    (h : j < idx) : (addItem s idx v).1.getD j 0 = s.getD j 0 :=
  (addItemLoop_spec hw _ s idx v false (by omega)).2.1 j h

theorem addItem_in (hw : 0 < w) (s : List (BitVec w)) (idx : Nat) (v : BitVec w)
    (h : idx < s.length) :
    val (addItem s idx v).1 + (addItem s idx v).2.toNat * modulus s
      = val s + v.toNat * 2 ^ (w * idx) :=
  (addItemLoop_spec hw _ s idx v false (by omega)).2.2.1 h

theorem addItem_out (hw : 0 < w) (s : List (BitVec w)) (idx : Nat) (v : BitVec w)
    (h : s.length ≤ idx) : addItem s idx v = (s, false) :=
  (addItemLoop_spec hw _ s idx v false (by omega)).2.2.2 h

/-- In or out of range, `add_item` adds modulo the slice. -/
theorem addItem_mod (hw : 0 < w) (s : List (BitVec w)) (idx : Nat) (v : BitVec w) :
    val (addItem s idx v).1 ≡ val s + v.toNat * 2 ^ (w * idx) [MOD modulus s] := by
  by_cases h : idx < s.length
  · have := addItem_in hw s idx v h
    rw [← this]
    exact (Nat.ModEq.refl _).trans (by simp [Nat.ModEq])
  · rw [addItem_out hw s idx v (by omega)]
    have : modulus s ∣ v.toNat * 2 ^ (w * idx) := by
      apply Dvd.dvd.mul_left
      exact Nat.pow_dvd_pow 2 (Nat.mul_le_mul_left _ (by omega))
    obtain ⟨k, hk⟩ := this
    rw [hk]
    simp [Nat.ModEq]

/-- Value invariant of the inner loop: after `n` limbs of `right`, the accumulator plus the
pending carry is the start value plus `l * (first n limbs of right) * B^idx`, modulo the slice. -/
theorem inner_mod (hw : 0 < w) (right : List (BitVec w)) (idx : Nat) (l : BitVec w)
    (out : List (BitVec w)) (n : Nat) :
    let st := forUp n (fun offset (st : List (BitVec w) × BitVec w) =>
      let (low, high) := wideningMul l (right.getD offset 0) st.2
      ((addItem st.1 (idx + offset) low).1, high)) (out, 0)
    st.1.length = out.length ∧
      val st.1 + st.2.toNat * 2 ^ (w * (idx + n))
        ≡ val out + l.toNat * pv right n * 2 ^ (w * idx) [MOD modulus out] := by
  intro st
  apply forUp_inv (fun n (st : List (BitVec w) × BitVec w) => st.1.length = out.length ∧
      val st.1 + st.2.toNat * 2 ^ (w * (idx + n))
        ≡ val out + l.toNat * pv right n * 2 ^ (w * idx) [MOD modulus out])
  · simp [Nat.ModEq]
  · rintro i ⟨acc, c⟩ _ ⟨h1, h2⟩
    simp only at *
    refine ⟨by rw [addItem_length hw, h1], ?_⟩
    have hm : modulus acc = modulus out := by simp [modulus, h1]
    have hx := wideningMul_spec l (right.getD i 0) c
    generalize wideningMul l (right.getD i 0) c = W at *
    have ha := addItem_mod hw acc (idx + i) W.1
    rw [hm] at ha
    have hpw : 2 ^ (w * (idx + (i + 1))) = 2 ^ w * 2 ^ (w * (idx + i)) := by
      rw [← Nat.pow_add]; congr 1; ring
    have hpw2 : 2 ^ (w * (idx + i)) = 2 ^ (w * i) * 2 ^ (w * idx) := by
      rw [← Nat.pow_add]; congr 1; ring
    calc _ ≡ (val acc + W.1.toNat * 2 ^ (w * (idx + i))) + W.2.toNat * 2 ^ (w * (idx + (i + 1)))
          [MOD modulus out] := Nat.ModEq.add_right _ ha
      _ = (val acc + c.toNat * 2 ^ (w * (idx + i)))
          + l.toNat * (right.getD i 0).toNat * 2 ^ (w * (idx + i)) := by
        rw [hpw]
        calc _ = val acc + (W.1.toNat + W.2.toNat * 2 ^ w) * 2 ^ (w * (idx + i)) := by ring
          _ = _ := by rw [hx]; ring
      _ ≡ (val out + l.toNat * pv right i * 2 ^ (w * idx))
          + l.toNat * (right.getD i 0).toNat * 2 ^ (w * (idx + i)) [MOD modulus out] :=
        Nat.ModEq.add_right _ h2
      _ = _ := by rw [pv_succ, hpw2]; ring

theorem mul_exact (hw : 0 < w) (l r : List (BitVec w)) (hne : l ≠ [] ∨ r ≠ []) :
    ∃ out, mul l r = .ok out ∧ val out = val l * val r ∧ Norm out := by
  unfold mul
  simp only
  set L := l.length + r.length with hL
  have hL0 : 0 < L := by
    rcases hne with h | h <;> have := List.length_pos_iff.mpr h <;> omega
  have h := forUp_inv (fun i (out : List (BitVec w)) => out.length = L ∧
      val out ≡ pv l i * val r [MOD 2 ^ (w * L)])
    (fun idx out =>
      let lv := l.getD idx 0
      let st := forUp r.length (fun offset (st : List (BitVec w) × BitVec w) =>
        let (low, high) := wideningMul lv (r.getD offset 0) st.2
        ((addItem st.1 (idx + offset) low).1, high)) (out, 0)
      if st.2 ≠ 0 then (addItem st.1 (idx + r.length) st.2).1 else st.1)
    l.length (List.replicate L 0) ?_ ?_
  · simp only at h
    set out := forUp l.length _ _
    obtain ⟨h1, h2⟩ := h
    have hne' : out ≠ [] := by intro h0; rw [h0] at h1; simp at h1; omega
    obtain ⟨t, ht, hv, hn, _⟩ := shrink_ok out hne'
    refine ⟨t, ht, ?_, hn⟩
    have hlt := val_lt out
    rw [modulus, h1] at hlt
    rw [pv_length] at h2
    have hlt2 : val l * val r < 2 ^ (w * L) := by
      have a1 := val_lt l
      have a2 := val_lt r
      rw [hL, Nat.mul_add, Nat.pow_add]
      exact Nat.mul_lt_mul'' a1 a2
    rw [hv]
    exact Nat.ModEq.eq_of_lt_of_lt h2 hlt hlt2
  · refine ⟨by simp, ?_⟩
    rw [val_replicate_zero]; simp [Nat.ModEq]
  · rintro i out hi ⟨h1, h2⟩
    simp only
    have hin := inner_mod hw r i (l.getD i 0) out r.length
    simp only at hin
    set st := forUp r.length _ _
    obtain ⟨g1, g2⟩ := hin
    have hmo : modulus out = 2 ^ (w * L) := by rw [modulus, h1]
    have hms : modulus st.1 = 2 ^ (w * L) := by rw [modulus, g1, h1]
    rw [hmo, pv_length] at g2
    have hfin : val (if st.2 ≠ 0 then (addItem st.1 (i + r.length) st.2).1 else st.1)
        ≡ val st.1 + st.2.toNat * 2 ^ (w * (i + r.length)) [MOD 2 ^ (w * L)] := by
      split
      · have := addItem_mod hw st.1 (i + r.length) st.2
        rwa [hms] at this
      · rename_i h0
        have h0 : st.2 = 0 := by simpa using h0
        simp [h0, Nat.ModEq]
    refine ⟨?_, ?_⟩
    · split
      · rw [addItem_length hw, g1, h1]
      · rw [g1, h1]
    · calc _ ≡ _ [MOD 2 ^ (w * L)] := hfin
        _ ≡ _ [MOD 2 ^ (w * L)] := g2
        _ ≡ pv l i * val r + (l.getD i 0).toNat * val r * 2 ^ (w * i) [MOD 2 ^ (w * L)] :=
          Nat.ModEq.add_right _ h2
        _ = _ := by rw [pv_succ]; ring

/-! ### In-place multiplication -/

/-- The inner loop of `mul_overflowing` without the flag is the inner loop of `mul`. -/
theorem inner_forget (right : List (BitVec w)) (idx : Nat) (l : BitVec w) (left : List (BitVec w))
    (n : Nat) :
    let a := forUp n (fun offset (s : MulState w) =>
      let (low, high) := wideningMul l (right.getD offset 0) s.carry
      let (left, c) := addItem s.left (idx + offset) low
      { left := left, carry := high, newOverflow := if c then true else s.newOverflow })
      ⟨left, 0, false⟩
    let b := forUp n (fun offset (st : List (BitVec w) × BitVec w) =>
      let (low, high) := wideningMul l (right.getD offset 0) st.2
      ((addItem st.1 (idx + offset) low).1, high)) (left, 0)
    a.left = b.1 ∧ a.carry = b.2 := by
  induction n with
  | zero => exact ⟨rfl, rfl⟩
  | succ n ih =>
    simp only [forUp] at ih ⊢
    rw [ih.1, ih.2]
    exact ⟨rfl, rfl⟩

theorem mulStep_mod (hw : 0 < w) (right : List (BitVec w)) (idx : Nat)
    (st : List (BitVec w) × Bool) (h : idx < st.1.length) :
    (mulStep right idx st).1.length = st.1.length ∧
    (∀ j < idx, (mulStep right idx st).1.getD j 0 = st.1.getD j 0) ∧
    val (mulStep right idx st).1 + (st.1.getD idx 0).toNat * 2 ^ (w * idx)
      ≡ val st.1 + (st.1.getD idx 0).toNat * val right * 2 ^ (w * idx) [MOD modulus st.1] := by
  obtain ⟨s, f⟩ := st
  simp only at h ⊢
  have hf := inner_forget right idx (s.getD idx 0) (s.set idx 0) right.length
  have hin := inner_mod hw right idx (s.getD idx 0) (s.set idx 0) right.length
  have hlow : ∀ n, ∀ j < idx, (forUp n (fun offset (st : List (BitVec w) × BitVec w) =>
      let (low, high) := wideningMul (s.getD idx 0) (right.getD offset 0) st.2
      ((addItem st.1 (idx + offset) low).1, high)) (s.set idx 0, 0)).1.getD j 0 = s.getD j 0 := by
    intro n j hj
    apply forUp_inv (fun _ (st : List (BitVec w) × BitVec w) => st.1.getD j 0 = s.getD j 0)
    · simp only
      rw [getD_set, if_neg (by omega)]
    · rintro i ⟨a, c⟩ _ h0
      simp only at h0 ⊢
      rw [addItem_low hw _ _ _ _ (by omega), h0]
  have hlow := hlow right.length
  unfold mulStep
  simp only at hf hin hlow ⊢
  set a := forUp right.length (fun offset (s : MulState w) => _) _
  set b := forUp right.length _ (s.set idx 0, (0 : BitVec w))
  rw [hf.1, hf.2]
  obtain ⟨g1, g2⟩ := hin
  have hlen : b.1.length = s.length := by simpa using g1
  have hm1 : modulus (s.set idx 0) = modulus s := by simp [modulus]
  have hmb : modulus b.1 = modulus s := by simp [modulus, hlen]
  rw [hm1, pv_length] at g2
  have hset := val_set s idx 0 h
  simp at hset
  have hfin : val (if b.2 ≠ 0 then addItem b.1 (idx + right.length) b.2 else (b.1, false)).1
      ≡ val b.1 + b.2.toNat * 2 ^ (w * (idx + right.length)) [MOD modulus s] := by
    split
    · have := addItem_mod hw b.1 (idx + right.length) b.2
      rwa [hmb] at this
    · rename_i h0
      have h0 : b.2 = 0 := by simpa using h0
      simp [h0, Nat.ModEq]
  refine ⟨?_, ?_, ?_⟩
  · split
    · rw [addItem_length hw, hlen]
    · exact hlen
  · intro j hj
    split
    · rw [addItem_low hw _ _ _ _ (by omega)]; exact hlow j hj
    · exact hlow j hj
  · have h3 := (hfin.trans g2).add_right ((s.getD idx 0).toNat * 2 ^ (w * idx))
    refine h3.trans ?_
    have : val (s.set idx 0) + (s.getD idx 0).toNat * val right * 2 ^ (w * idx)
        + (s.getD idx 0).toNat * 2 ^ (w * idx)
      = val s + (s.getD idx 0).toNat * val right * 2 ^ (w * idx) := by
      have : val (s.set idx 0) + (s.getD idx 0).toNat * 2 ^ (w * idx) = val s := by
        simpa using hset
      omega
    rw [this]

/-- The invariant of the in-place loop, before processing limbs below `i`. -/
theorem mulOverflowing_mod (hw : 0 < w) (left right : List (BitVec w)) :
    (mulOverflowing left right).1.length = left.length ∧
    val (mulOverflowing left right).1 = val left * val right % modulus left := by
  unfold mulOverflowing
  have h := forDown_inv (fun i (st : List (BitVec w) × Bool) => st.1.length = left.length ∧
      (∀ j < i, st.1.getD j 0 = left.getD j 0) ∧
      val st.1 + pv left i * val right ≡ val left * val right + pv left i [MOD modulus left])
    (mulStep right) left.length (left, false) ?_ ?_
  · obtain ⟨h1, _, h2⟩ := h
    refine ⟨h1, ?_⟩
    simp only [pv_zero, Nat.zero_mul, Nat.add_zero] at h2
    have hlt := val_lt (forDown left.length (mulStep right) (left, false)).1
    have hm : modulus (forDown left.length (mulStep right) (left, false)).1 = modulus left := by
      simp [modulus, h1]
    rw [hm] at hlt
    rw [← Nat.mod_eq_of_lt hlt]
    exact h2
  · refine ⟨rfl, fun _ _ => rfl, ?_⟩
    rw [pv_length, Nat.add_comm]
  · rintro i st hi ⟨h1, h2, h3⟩
    obtain ⟨g1, g2, g3⟩ := mulStep_mod hw right i st (by omega)
    refine ⟨by omega, fun j hj => by rw [g2 j hj, h2 j (by omega)], ?_⟩
    have hm : modulus st.1 = modulus left := by simp [modulus, h1]
    rw [hm, h2 i (by omega)] at g3
    generalize (mulStep right i st).1 = new at *
    rw [pv_succ] at h3
    set d := (left.getD i 0).toNat * 2 ^ (w * i) with hd
    have h4 : val new + d + pv left i * val right ≡ val left * val right + pv left i + d
        [MOD modulus left] := by
      calc val new + d + pv left i * val right
          ≡ val st.1 + (left.getD i 0).toNat * val right * 2 ^ (w * i) + pv left i * val right
            [MOD modulus left] := Nat.ModEq.add_right _ g3
        _ = val st.1 + (pv left i + d) * val right := by rw [hd]; ring
        _ ≡ val left * val right + (pv left i + d) [MOD modulus left] := h3
        _ = _ := by ring
    have h5 : val new + pv left i * val right + d ≡ val left * val right + pv left i + d
        [MOD modulus left] := by
      have : val new + pv left i * val right + d = val new + d + pv left i * val right := by ring
      rw [this]; exact h4
    exact Nat.ModEq.add_right_cancel' d h5

end ElementMul

end Verif
