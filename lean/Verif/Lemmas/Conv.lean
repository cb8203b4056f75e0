import Verif.Lemmas.ElementDiv
import Verif.Lemmas.MulFlag

/-!
# Helper lemmas: integer/array conversion and byte reversal
-/

namespace Verif

variable {t u : Nat}

theorem intToArr_spec (ht : 0 < t) (n : Nat) (hn : 0 < n) (v : BitVec t)
    (m : Mode := .debug) : ∃ a, intToArr t u n v m = .ok a ∧ a.length = n ∧ val a = v.toNat % 2 ^ (u * n) := by
  unfold intToArr
  rw [if_neg (by omega)]
  split
  · rename_i h
    refine ⟨_, rfl, by simp, ?_⟩
    have hv := val_set (List.replicate n (0 : BitVec u)) 0 (BitVec.ofNat u v.toNat) (by simpa)
    rw [getD_replicate, val_replicate_zero] at hv
    simp only [BitVec.toNat_ofNat, Nat.mod_eq_of_lt h] at hv
    have hlt : v.toNat < 2 ^ (u * n) :=
      Nat.lt_of_lt_of_le h (Nat.pow_le_pow_right (by norm_num) (Nat.le_mul_of_pos_right _ hn))
    rw [Nat.mod_eq_of_lt hlt]
    simpa using hv
  · rename_i h
    have hut : u < t := by
      have := v.isLt
      exact (Nat.pow_lt_pow_iff_right (by norm_num : 1 < 2)).mp (by omega)
    have hpow : 2 ^ u < 2 ^ t := Nat.pow_lt_pow_right (by norm_num) hut
    have hmax : (BitVec.ofNat t (2 ^ u - 1) + 1).toNat = 2 ^ u := by
      have := Nat.two_pow_pos u
      rw [BitVec.toNat_add, BitVec.toNat_ofNat, one_toNat ht,
        Nat.mod_eq_of_lt (show 2 ^ u - 1 < 2 ^ t by omega), Nat.mod_eq_of_lt (by omega)]
      omega
    generalize hM : BitVec.ofNat t (2 ^ u - 1) + 1 = max at hmax
    simp only
    have inv := forUp_inv
      (fun i (st : IntToArrState t u) => st.out.length = n ∧
        (∀ j, i ≤ j → st.out.getD j 0 = 0) ∧
        (st.done = true → val st.out = v.toNat) ∧
        (st.done = false → val st.out + st.left.toNat * 2 ^ (u * i) = v.toNat))
      (fun i (st : IntToArrState t u) =>
        if st.done then st
        else if st.left.toNat < 2 ^ u then
          { st with out := st.out.set i (BitVec.ofNat u st.left.toNat), done := true }
        else
          let rem := st.left % max
          { st with left := st.left / max, out := st.out.set i (BitVec.ofNat u rem.toNat) })
      n ⟨List.replicate n 0, v, false⟩ (by
        refine ⟨by simp, fun j _ => getD_replicate _ _, by simp, fun _ => ?_⟩
        simp only [val_replicate_zero]; simp) (by
        rintro i ⟨out, left, done⟩ hi ⟨k1, k2, k3, k4⟩
        simp only at k1 k2 k3 k4 ⊢
        cases hd : done with
        | true =>
          simp only [if_true]
          exact ⟨k1, fun j hj => k2 j (by omega), fun _ => k3 hd, by simp⟩
        | false =>
          have k4 := k4 hd
          simp only [Bool.false_eq_true, if_false]
          have hset : ∀ x : BitVec u, val (out.set i x) = val out + x.toNat * 2 ^ (u * i) := by
            intro x
            have := val_set out i x (by omega)
            rw [k2 i le_rfl] at this
            simpa using this
          have hz : ∀ x : BitVec u, ∀ j, i + 1 ≤ j → (out.set i x).getD j 0 = 0 := by
            intro x j hj
            rw [getD_set, if_neg (by omega)]
            exact k2 j (by omega)
          split
          · rename_i hl
            refine ⟨by simp [k1], hz _, fun _ => ?_, by simp⟩
            simp only
            rw [hset, BitVec.toNat_ofNat, Nat.mod_eq_of_lt hl, k4]
          · rename_i hl
            refine ⟨by simp [k1], hz _, by simp, fun _ => ?_⟩
            simp only
            rw [hset, BitVec.toNat_ofNat, BitVec.toNat_umod, BitVec.toNat_udiv, hmax, Nat.mod_mod,
              Nat.mul_succ, Nat.pow_add, ← k4]
            have hdm := Nat.mod_add_div left.toNat (2 ^ u)
            conv_rhs => rw [← hdm]
            ring)
    generalize hS : forUp n _ _ = S at inv
    obtain ⟨k1, _, k3, k4⟩ := inv
    refine ⟨_, rfl, k1, ?_⟩
    have hlt : val S.out < 2 ^ (u * n) := by
      have := val_lt S.out
      rwa [modulus, k1] at this
    cases hd : S.done with
    | true => rw [← k3 hd, Nat.mod_eq_of_lt hlt]
    | false => rw [← k4 hd, Nat.add_mul_mod_self_right, Nat.mod_eq_of_lt hlt]

theorem arrToInt_spec (m : Mode) (ht : 0 < t) (hu : 0 < u) (hdiv : t ∣ u ∨ u ∣ t)
    (arr : List (BitVec t)) (hn : Norm arr) (hlen : arr.length * t ≤ 2 ^ 32) :
    arrToInt t u m arr
      = .ok (if val arr < 2 ^ u then some (BitVec.ofNat u (val arr)) else none) := by
  unfold arrToInt
  obtain ⟨st, g0, g1⟩ := forUpM_inv
    (fun i (st : Option (BitVec u)) =>
      match st with
      | some x => x.toNat = pv arr i
      | none => 2 ^ u ≤ val arr)
    (fun idx out => arrToIntStep t u m idx (arr.getD idx 0) out)
    arr.length (some 0) (by simp) (by
      rintro i st hi hst
      unfold arrToIntStep
      match st, hst with
      | none, hst => exact ⟨none, rfl, hst⟩
      | some x, hst =>
        simp only at hst ⊢
        have hlimb : (arr.getD i 0).toNat * 2 ^ (t * i) ≤ val arr := by
          have h1 := pv_le_val arr (i + 1)
          rw [pv_succ] at h1
          omega
        by_cases hfit : (arr.getD i 0).toNat < 2 ^ u
        · rw [if_pos hfit]
          unfold checkedShl
          have hsh : i * t % 2 ^ 32 = i * t := by
            apply Nat.mod_eq_of_lt
            have : (i + 1) * t ≤ arr.length * t := Nat.mul_le_mul_right _ hi
            rw [Nat.succ_mul] at this
            omega
          simp only [hsh]
          by_cases hs : i * t < u
          · rw [if_pos hs]
            simp only
            have hnext : (arr.getD i 0).toNat * 2 ^ (i * t) < 2 ^ u ∧
                pv arr (i + 1) < 2 ^ u := by
              rcases hdiv with hdv | hdv
              · have hle : t * (i + 1) ≤ u := by
                  obtain ⟨c, rfl⟩ := hdv
                  rw [Nat.mul_comm i t] at hs
                  have := Nat.lt_of_mul_lt_mul_left hs
                  exact Nat.mul_le_mul_left _ this
                have h1 := pv_lt arr (i + 1)
                have h2 : 2 ^ (t * (i + 1)) ≤ 2 ^ u := Nat.pow_le_pow_right (by norm_num) hle
                rw [Nat.mul_comm i t]
                have h3 := pv_succ arr i
                omega
              · have hle : u ≤ t := Nat.le_of_dvd ht hdv
                have hi0 : i = 0 := by
                  by_contra h
                  have : t ≤ i * t := Nat.le_mul_of_pos_left _ (by omega)
                  omega
                subst hi0
                rw [pv_succ]
                simpa using hfit
            have hx : (BitVec.ofNat u (arr.getD i 0).toNat <<< (i * t)).toNat
                = (arr.getD i 0).toNat * 2 ^ (i * t) := by
              rw [BitVec.toNat_shiftLeft, BitVec.toNat_ofNat, Nat.mod_eq_of_lt hfit,
                Nat.shiftLeft_eq, Nat.mod_eq_of_lt hnext.1]
            have hp := pv_succ arr i
            rw [Nat.mul_comm t i] at hp
            unfold ovfAdd
            simp only [hx, hst]
            rw [if_neg (by simp only [decide_eq_true_eq]; omega)]
            refine ⟨_, rfl, ?_⟩
            simp only
            rw [BitVec.toNat_add, hx, hst, ← hp, Nat.mod_eq_of_lt hnext.2]
          · rw [if_neg hs]
            refine ⟨none, rfl, ?_⟩
            simp only
            have hi0 : 0 < i := by
              rcases Nat.eq_zero_or_pos i with h | h
              · subst h; simp at hs; omega
              · exact h
            have h1 := hn.lower.resolve_left (by omega)
            refine Nat.le_trans (Nat.pow_le_pow_right (by norm_num) ?_) h1
            have h2 : i * t ≤ (arr.length - 1) * t := Nat.mul_le_mul_right _ (by omega)
            rw [Nat.mul_comm t]
            omega
        · rw [if_neg hfit]
          refine ⟨none, rfl, ?_⟩
          simp only
          have := Nat.two_pow_pos (t * i)
          have h2 : (arr.getD i 0).toNat * 1 ≤ (arr.getD i 0).toNat * 2 ^ (t * i) :=
            Nat.mul_le_mul_left _ this
          omega)
  rw [g0]
  congr 1
  match st, g1 with
  | none, g1 => simp only at g1; rw [if_neg (by omega)]
  | some x, g1 =>
    simp only [pv_length] at g1
    have := x.isLt
    rw [if_pos (by omega), ← g1]
    simp

theorem constReverse_eq (s : List (BitVec 8)) : constReverse s = s.reverse := by
  unfold constReverse
  simp only
  obtain ⟨h1, h2⟩ := forUp_inv
    (fun i (b : List (BitVec 8)) => b.length = s.length ∧
      ∀ j < s.length, b.getD j 0
        = if j < i ∨ s.length - i ≤ j then s.getD (s.length - 1 - j) 0 else s.getD j 0)
    (fun idx b => (b.set idx (b.getD (s.length - idx - 1) 0)).set (s.length - idx - 1)
      (b.getD idx 0))
    (s.length / 2) s (by
      refine ⟨rfl, fun j hj => ?_⟩
      rw [if_neg (by omega)]) (by
      rintro i b hi ⟨k1, k2⟩
      refine ⟨by simp [k1], fun j hj => ?_⟩
      rw [getD_set, List.length_set, k1, getD_set, k1, k2 i (by omega), k2 (s.length - i - 1)
        (by omega), k2 j hj]
      by_cases e1 : s.length - i - 1 = j
      · subst e1
        rw [if_pos ⟨rfl, by omega⟩, if_neg (by omega), if_pos (by omega)]
        congr 1; omega
      · rw [if_neg (by omega)]
        by_cases e2 : i = j
        · subst e2
          rw [if_pos ⟨rfl, by omega⟩, if_neg (by omega), if_pos (by omega)]
          congr 1; omega
        · rw [if_neg (by omega)]
          by_cases e3 : j < i ∨ s.length - i ≤ j
          · rw [if_pos e3, if_pos (by omega)]
          · rw [if_neg e3, if_neg (by omega)])
  apply List.ext_getElem
  · rw [h1, List.length_reverse]
  · intro j hj hj'
    have hlt : j < s.length := by simpa using hj'
    have := h2 j hlt
    have hcase : j < s.length / 2 ∨ s.length - s.length / 2 ≤ j ∨ j = s.length - 1 - j := by omega
    rw [List.getElem_reverse]
    have e : ∀ (l : List (BitVec 8)) (k : Nat) (h : k < l.length), l.getD k 0 = l[k] := by
      intro l k h; simp [List.getD_eq_getElem?_getD, h]
    rw [e _ _ hj] at this
    rw [this]
    split
    · rw [e _ _ (by omega)]
    · rw [e _ _ hlt]
      congr 1
      omega

end Verif
