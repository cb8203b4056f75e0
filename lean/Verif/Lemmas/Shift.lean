import Verif.Model.Element
import Verif.Lemmas.Val

/-!
# Helper lemmas: shifts
-/

namespace Verif

open BitSlice

variable {w : Nat}

theorem list_ext_getD {s t : List (BitVec w)} (hl : s.length = t.length)
    (h : ∀ j < s.length, s.getD j 0 = t.getD j 0) : s = t := by
  apply List.ext_getElem hl
  intro i h1 h2
  have := h i h1
  simpa [List.getD_eq_getElem?_getD, h1, h2] using this

/-- Equality of numbers from equality of bits, split by limbs. -/
theorem eq_of_bits (hw : 0 < w) {x y : Nat}
    (h : ∀ j b, b < w → x.testBit (w * j + b) = y.testBit (w * j + b)) : x = y := by
  apply Nat.eq_of_testBit_eq
  intro k
  have := h (k / w) (k % w) (Nat.mod_lt _ hw)
  rwa [Nat.div_add_mod] at this

theorem bv_or_zero (x : BitVec w) : x ||| (0 : BitVec w) = x := BitVec.or_zero

namespace ElementShl

theorem elemMask_getLsbD (e b : Nat) (he : e < w) :
    (elemMask w e).getLsbD b = decide (b < e) := by
  unfold elemMask
  simp only [BitVec.getLsbD_not, BitVec.getLsbD_shiftLeft, BitVec.getLsbD_allOnes]
  by_cases h : b < e
  · have : b < w := by omega
    simp [h, this]
  · by_cases h2 : b < w
    · have h3 : b - e < w := by omega
      simp [h, h2, h3]
    · simp [h, h2]

/-- Limb `j` of the shifted number after limbs `≥ i` have been processed. -/
def D (s : List (BitVec w)) (a e i j : Nat) : BitVec w :=
  (if i + a ≤ j then s.getD (j - a) 0 <<< e else 0) |||
  (if i + a + 1 ≤ j then (s.getD (j - a - 1) 0 >>> ((w - e) % w)) &&& elemMask w e else 0)

theorem shl_and_not_mask (x : BitVec w) (e : Nat) (he : e < w) :
    (x <<< e) &&& ~~~(elemMask w e) = x <<< e := by
  apply BitVec.eq_of_getLsbD_eq
  intro b hb
  simp only [BitVec.getLsbD_and, BitVec.getLsbD_not, elemMask_getLsbD _ _ he,
    BitVec.getLsbD_shiftLeft, hb]
  by_cases h : b < e <;> simp [h]

theorem body_length (A e i : Nat) (v : BitVec w) (s : List (BitVec w)) :
    (body A e i v s).length = s.length := by
  simp [body, setIgnore_eq]

theorem body_getD (a e i j : Nat) (v : BitVec w) (s : List (BitVec w)) (he : e < w)
    (hj : j < s.length) :
    (body (a + 1) e i v s).getD j 0 =
      if j = i + a then v <<< e
      else if j = i + a + 1 then
        (s.getD j 0 &&& ~~~(elemMask w e)) ||| ((v >>> ((w - e) % w)) &&& elemMask w e)
      else s.getD j 0 := by
  unfold body
  simp only [setIgnore_eq, getZ_eq, getD_set, List.length_set, shl_and_not_mask _ _ he]
  have e1 : i + (a + 1) - 1 = i + a := by omega
  rw [e1]
  by_cases h1 : j = i + a
  · subst h1; simp [hj]
  · rw [if_neg (by omega), if_neg h1]
    by_cases h2 : j = i + a + 1
    · subst h2
      have : i + (a + 1) = i + a + 1 := by omega
      simp [this, hj]
    · rw [if_neg (by omega), if_neg h2]

theorem D_step (s : List (BitVec w)) (a e i j : Nat) (he : e < w) :
    (if j = i + a then s.getD i 0 <<< e
      else if j = i + a + 1 then
        (D s a e (i + 1) j &&& ~~~(elemMask w e)) |||
          ((s.getD i 0 >>> ((w - e) % w)) &&& elemMask w e)
      else D s a e (i + 1) j) = D s a e i j := by
  by_cases h1 : j = i + a
  · subst h1
    have h2 : ¬ (i + a + 1 ≤ i + a) := by omega
    have h3 : i + a - a = i := by omega
    simp [D, h3]
  · rw [if_neg h1]
    by_cases h2 : j = i + a + 1
    · subst h2
      rw [if_pos rfl]
      have h3 : i + 1 + a ≤ i + a + 1 := by omega
      have h4 : ¬ (i + 1 + a + 1 ≤ i + a + 1) := by omega
      have h5 : i + a + 1 - a - 1 = i := by omega
      have h6 : i + a ≤ i + a + 1 := by omega
      have h7 : i + a + 1 - a = i + 1 := by omega
      unfold D
      rw [if_pos h3, if_neg h4, if_pos h6, if_pos le_rfl, h5, h7, bv_or_zero,
        shl_and_not_mask _ _ he]
    · rw [if_neg h2]
      have h3 : (i + 1 + a ≤ j) ↔ (i + a ≤ j) := by omega
      have h4 : (i + 1 + a + 1 ≤ j) ↔ (i + a + 1 ≤ j) := by omega
      simp only [D, h3, h4]

theorem D_top (s : List (BitVec w)) (a e j : Nat) : D s a e s.length j = 0 := by
  unfold D
  have h1 : (if s.length + a ≤ j then s.getD (j - a) 0 <<< e else 0) = (0 : BitVec w) := by
    split
    · rw [getD_of_ge _ _ (by omega)]; simp
    · rfl
  have h2 : (if s.length + a + 1 ≤ j then (s.getD (j - a - 1) 0 >>> ((w - e) % w)) &&& elemMask w e
      else 0) = (0 : BitVec w) := by
    split
    · rw [getD_of_ge _ _ (by omega)]; simp
    · rfl
  rw [h1, h2]; simp

/-- Loop of the growing shift. -/
theorem loop_grow (s : List (BitVec w)) (a e : Nat) (he : e < w) (L : Nat) :
    let out := forDown s.length (fun idx out => body (a + 1) e idx (s.getD idx 0) out)
      (List.replicate L 0)
    out.length = L ∧ ∀ j < L, out.getD j 0 = D s a e 0 j := by
  intro out
  apply forDown_inv (fun i (out : List (BitVec w)) =>
    out.length = L ∧ ∀ j < L, out.getD j 0 = D s a e i j)
  · refine ⟨by simp, fun j _ => ?_⟩
    rw [getD_replicate, D_top]
  · rintro i out hi ⟨h1, h2⟩
    refine ⟨by rw [body_length, h1], fun j hj => ?_⟩
    rw [body_getD _ _ _ _ _ _ he (by omega), h2 j hj]
    exact D_step s a e i j he

/-- Loop of the in-place shift. -/
theorem loop_in_place (s : List (BitVec w)) (a e : Nat) (he : e < w) :
    let out := forDown s.length (fun idx t => body (a + 1) e idx (t.getD idx 0) t) s
    out.length = s.length ∧
      ∀ j < s.length, out.getD j 0 = if j < a then s.getD j 0 else D s a e 0 j := by
  intro out
  have := forDown_inv (fun i (out : List (BitVec w)) => out.length = s.length ∧
    ∀ j < s.length, out.getD j 0 = if j < i + a then s.getD j 0 else D s a e i j)
    (fun idx t => body (a + 1) e idx (t.getD idx 0) t) s.length s ?_ ?_
  · rw [Nat.zero_add] at this
    exact this
  · refine ⟨rfl, fun j hj => ?_⟩
    rw [if_pos (by omega)]
  · rintro i out hi ⟨h1, h2⟩
    refine ⟨by rw [body_length, h1], fun j hj => ?_⟩
    have hval : out.getD i 0 = s.getD i 0 := by rw [h2 i hi, if_pos (by omega)]
    rw [body_getD _ _ _ _ _ _ he (by omega), hval, h2 j hj]
    by_cases hja : j < i + a
    · rw [if_neg (by omega), if_neg (by omega), if_pos (by omega), if_pos hja]
    · rw [if_neg hja, ← D_step s a e i j he]
      by_cases h3 : j = i + a
      · simp [h3]
      · have h4 : ¬ (j < i + 1 + a) := by omega
        rw [if_neg h3, if_neg h3, if_neg h4]

theorem D_getLsbD (s : List (BitVec w)) (a e j b : Nat) (he : e < w) (hb : b < w) :
    (D s a e 0 j).getLsbD b =
      if e ≤ b then decide (a ≤ j) && (s.getD (j - a) 0).getLsbD (b - e)
      else decide (a + 1 ≤ j) && (s.getD (j - a - 1) 0).getLsbD (b + w - e) := by
  unfold D
  simp only [Nat.zero_add, BitVec.getLsbD_or]
  by_cases h : e ≤ b
  · rw [if_pos h]
    have hm : (elemMask w e).getLsbD b = false := by
      rw [elemMask_getLsbD _ _ he]; simp; omega
    have hne : ¬ b < e := by omega
    have hm2 : ∀ x : BitVec w, (x &&& elemMask w e).getLsbD b = false := fun x => by
      rw [BitVec.getLsbD_and, hm, Bool.and_false]
    have hs : ∀ x : BitVec w, (x <<< e).getLsbD b = x.getLsbD (b - e) := fun x => by
      rw [BitVec.getLsbD_shiftLeft]; simp only [hb, hne, decide_true, decide_false]; simp
    by_cases ha : a ≤ j <;> by_cases ha' : a + 1 ≤ j <;>
      simp only [ha, ha', if_true, if_false, hm2, hs] <;> simp
  · rw [if_neg h]
    have hm : (elemMask w e).getLsbD b = true := by
      rw [elemMask_getLsbD _ _ he]; simp; omega
    have hinv : (w - e) % w = w - e := Nat.mod_eq_of_lt (by omega)
    have hlt : b < e := by omega
    have hidx : w - e + b = b + w - e := by omega
    have hm2 : ∀ x : BitVec w, ((x >>> ((w - e) % w)) &&& elemMask w e).getLsbD b
        = x.getLsbD (b + w - e) := fun x => by
      rw [BitVec.getLsbD_and, hm, Bool.and_true, BitVec.getLsbD_ushiftRight, hinv, hidx]
    have hs : ∀ x : BitVec w, (x <<< e).getLsbD b = false := fun x => by
      rw [BitVec.getLsbD_shiftLeft]; simp [hlt]
    by_cases ha : a ≤ j <;> by_cases ha' : a + 1 ≤ j <;>
      simp only [ha, ha', if_true, if_false, hm2, hs] <;> simp

/-- Value of a list with the limbs of the shifted number. -/
theorem val_of_D (s out : List (BitVec w)) (a e L : Nat) (he : e < w) (hl : out.length = L)
    (h : ∀ j < L, out.getD j 0 = D s a e 0 j) :
    val out = val s * 2 ^ (w * a + e) % 2 ^ (w * L) := by
  have hw : 0 < w := by omega
  apply eq_of_bits hw
  intro j b hb
  rw [testBit_val' hw _ _ _ hb, Nat.testBit_mod_two_pow, Nat.testBit_mul_two_pow]
  by_cases hj : j < L
  · have hlt : w * j + b < w * L := by
      calc w * j + b < w * j + w := by omega
        _ = w * (j + 1) := by ring
        _ ≤ w * L := Nat.mul_le_mul_left _ hj
    rw [h j hj, D_getLsbD _ _ _ _ _ he hb]
    simp only [hlt, decide_true, Bool.true_and]
    by_cases heb : e ≤ b
    · rw [if_pos heb]
      by_cases ha : a ≤ j
      · obtain ⟨d, rfl⟩ := Nat.exists_eq_add_of_le ha
        have h1 : w * a + e ≤ w * (a + d) + b := by rw [Nat.mul_add]; omega
        have h2 : w * (a + d) + b - (w * a + e) = w * d + (b - e) := by rw [Nat.mul_add]; omega
        rw [h2, testBit_val' hw _ _ _ (by omega)]
        simp [h1]
      · have h1 : ¬ (w * a + e ≤ w * j + b) := by
          have : w * (j + 1) ≤ w * a := Nat.mul_le_mul_left _ (by omega)
          rw [Nat.mul_succ] at this
          omega
        simp [ha, h1]
    · rw [if_neg heb]
      by_cases ha : a + 1 ≤ j
      · obtain ⟨d, rfl⟩ := Nat.exists_eq_add_of_le ha
        have h1 : w * a + e ≤ w * (a + 1 + d) + b := by
          rw [Nat.mul_add, Nat.mul_add]; omega
        have h2 : w * (a + 1 + d) + b - (w * a + e) = w * d + (b + w - e) := by
          rw [Nat.mul_add, Nat.mul_add]; omega
        rw [h2, testBit_val' hw _ _ _ (by omega)]
        have h3 : a + 1 + d - a - 1 = d := by omega
        simp [h1, h3]
      · have h1 : ¬ (w * a + e ≤ w * j + b) := by
          have : w * j ≤ w * a := Nat.mul_le_mul_left _ (by omega)
          omega
        simp [ha, h1]
  · have hge : ¬ (w * j + b < w * L) := by
      have : w * L ≤ w * j := Nat.mul_le_mul_left _ (by omega)
      omega
    rw [getD_of_ge _ _ (by omega)]
    simp [hge]

theorem shl_spec (hw : 0 < w) (s : List (BitVec w)) (k : Nat) :
    ∃ out, shl s k = .ok out ∧ val out = val s * 2 ^ k ∧ Norm out := by
  unfold shl
  have he : k % w < w := Nat.mod_lt _ hw
  have h := loop_grow s (k / w) (k % w) he (s.length + (k / w + 1))
  simp only at h ⊢
  set out := forDown s.length _ _
  obtain ⟨h1, h2⟩ := h
  have hne : out ≠ [] := by intro h0; rw [h0] at h1; simp at h1
  obtain ⟨t, ht, hv, hn, _⟩ := shrink_ok out hne
  refine ⟨t, ht, ?_, hn⟩
  rw [hv, val_of_D s out _ _ _ he h1 h2, Nat.div_add_mod]
  apply Nat.mod_eq_of_lt
  have h3 := val_lt s
  calc val s * 2 ^ k < modulus s * 2 ^ k := Nat.mul_lt_mul_of_pos_right h3 (Nat.two_pow_pos _)
    _ ≤ 2 ^ (w * (s.length + (k / w + 1))) := by
      rw [modulus, ← Nat.pow_add]
      apply Nat.pow_le_pow_right (by norm_num)
      have := Nat.div_add_mod k w
      rw [Nat.mul_add, Nat.mul_add]; omega

theorem inner_spec (hw : 0 < w) (s : List (BitVec w)) (k : Nat) (hk : k ≤ w * s.length) :
    ∃ out, inner s k = .ok out ∧ out.length = s.length ∧
      val out = val s * 2 ^ k % modulus s := by
  unfold inner
  have he : k % w < w := Nat.mod_lt _ hw
  have h := loop_in_place s (k / w) (k % w) he
  simp only at h ⊢
  set out := forDown s.length _ _
  obtain ⟨h1, h2⟩ := h
  have hle : k / w ≤ s.length := Nat.div_le_of_le_mul hk
  have e1 : k / w + 1 - 1 = k / w := Nat.add_sub_cancel ..
  rw [e1, if_pos (by omega)]
  have hlen : (List.replicate (k / w) (0 : BitVec w) ++ List.drop (k / w) out).length
      = s.length := by
    rw [List.length_append, List.length_replicate, List.length_drop, h1]
    exact Nat.add_sub_cancel' hle
  refine ⟨_, rfl, hlen, ?_⟩
  rw [modulus, val_of_D s _ (k / w) (k % w) s.length he hlen, Nat.div_add_mod]
  intro j hj
  have h3 := h2 j hj
  by_cases hja : j < k / w
  · rw [List.getD_eq_getElem?_getD, List.getElem?_append_left (by simpa using hja)]
    simp only [List.getElem?_replicate, hja, if_true, Option.getD_some]
    have c1 : ¬ (0 + k / w ≤ j) := by omega
    have c2 : ¬ (0 + k / w + 1 ≤ j) := by omega
    simp only [D, c1, c2, if_false]
    simp
  · rw [if_neg hja] at h3
    rw [← h3, List.getD_eq_getElem?_getD, List.getD_eq_getElem?_getD,
      List.getElem?_append_right (by simpa using hja)]
    simp only [List.length_replicate, List.getElem?_drop]
    congr 2
    omega

end ElementShl

/-! ## Right shift -/

namespace ElementShr

theorem elemMask_getLsbD (e b : Nat) (he : e < w) :
    (elemMask w e).getLsbD b = (decide (w - e ≤ b) && decide (b < w)) := by
  unfold elemMask
  simp only [BitVec.getLsbD_not, BitVec.getLsbD_ushiftRight, BitVec.getLsbD_allOnes]
  by_cases h2 : b < w
  · by_cases h : w - e ≤ b
    · have : ¬ (e + b < w) := by omega
      simp [h, h2, this]
    · have : e + b < w := by omega
      simp [h, h2, this]
  · simp [h2]

theorem shr_and_not_mask (x : BitVec w) (e : Nat) (he : e < w) :
    (x >>> e) &&& ~~~(elemMask w e) = x >>> e := by
  apply BitVec.eq_of_getLsbD_eq
  intro b hb
  simp only [BitVec.getLsbD_and, BitVec.getLsbD_not, elemMask_getLsbD _ _ he,
    BitVec.getLsbD_ushiftRight, hb]
  by_cases h : w - e ≤ b
  · have : w ≤ e + b := by omega
    simp [BitVec.getLsbD_of_ge x (e + b) this]
  · simp [h]

/-- Limb `j` of the shifted number (over a zero initialised output) after `i` iterations. -/
def E (s : List (BitVec w)) (a e i j : Nat) : BitVec w :=
  (if j + a < i then s.getD (j + a) 0 >>> e else 0) |||
  (if j + a + 1 < i then (s.getD (j + a + 1) 0 <<< ((w - e) % w)) &&& elemMask w e else 0)

theorem E_getLsbD (s : List (BitVec w)) (a e j b : Nat) (he : e < w) (hb : b < w) :
    (E s a e s.length j).getLsbD b =
      if b < w - e then (s.getD (j + a) 0).getLsbD (b + e)
      else (s.getD (j + a + 1) 0).getLsbD (b + e - w) := by
  have c1 : (if j + a < s.length then s.getD (j + a) 0 >>> e else 0) = s.getD (j + a) 0 >>> e := by
    split
    · rfl
    · rw [getD_of_ge _ _ (by omega)]; simp
  have c2 : (if j + a + 1 < s.length then
      (s.getD (j + a + 1) 0 <<< ((w - e) % w)) &&& elemMask w e else 0)
      = (s.getD (j + a + 1) 0 <<< ((w - e) % w)) &&& elemMask w e := by
    split
    · rfl
    · rw [getD_of_ge _ _ (by omega)]; simp
  unfold E
  rw [c1, c2]
  simp only [BitVec.getLsbD_or, BitVec.getLsbD_and, elemMask_getLsbD _ _ he,
    BitVec.getLsbD_ushiftRight, BitVec.getLsbD_shiftLeft, hb]
  by_cases h : b < w - e
  · have h2 : ¬ (w - e ≤ b) := by omega
    simp [h, h2, Nat.add_comm]
  · have h2 : w - e ≤ b := by omega
    have he0 : 0 < e := by omega
    have hinv : (w - e) % w = w - e := Nat.mod_eq_of_lt (by omega)
    have hge : w ≤ e + b := by omega
    have h3 : b - (w - e) = b + e - w := by omega
    simp [h, h2, hinv, BitVec.getLsbD_of_ge _ _ hge, h3]

/-- Value of a list with the limbs of the right-shifted number. -/
theorem val_of_E (s out : List (BitVec w)) (a e : Nat) (he : e < w) (hl : out.length = s.length)
    (h : ∀ j < s.length, out.getD j 0 = E s a e s.length j) :
    val out = val s / 2 ^ (w * a + e) := by
  have hw : 0 < w := by omega
  apply eq_of_bits hw
  intro j b hb
  rw [testBit_val' hw _ _ _ hb, Nat.testBit_div_two_pow]
  have hE : out.getD j 0 = E s a e s.length j := by
    by_cases hj : j < s.length
    · exact h j hj
    · rw [getD_of_ge _ _ (by omega)]
      have c1 : ¬ (j + a < s.length) := by omega
      have c2 : ¬ (j + a + 1 < s.length) := by omega
      simp [E, c1, c2]
  rw [hE, E_getLsbD _ _ _ _ _ he hb]
  split
  · have : w * j + b + (w * a + e) = w * (j + a) + (b + e) := by ring
    rw [this, testBit_val' hw _ _ _ (by omega)]
  · have : w * j + b + (w * a + e) = w * (j + a + 1) + (b + e - w) := by
      have : w * (j + a + 1) = w * j + w * a + w := by ring
      omega
    rw [this, testBit_val' hw _ _ _ (by omega)]

/-- Pure effect of one iteration of `shr` on a zero-initialised output. -/
def pureBody (a e i : Nat) (v : BitVec w) (s : List (BitVec w)) : List (BitVec w) :=
  let inv := (w - e) % w
  let mask := elemMask w e
  let s := if a + 1 ≤ i then
      s.set (i - (a + 1)) ((s.getD (i - (a + 1)) 0 &&& ~~~mask) ||| ((v <<< inv) &&& mask)) else s
  if a ≤ i then
      s.set (i - a) ((s.getD (i - a) 0 &&& mask) ||| (v >>> e)) else s

theorem pureBody_length (a e i : Nat) (v : BitVec w) (s : List (BitVec w)) :
    (pureBody a e i v s).length = s.length := by
  unfold pureBody
  simp only
  split <;> split <;> simp

theorem pureBody_getD (a e i j : Nat) (v : BitVec w) (s : List (BitVec w)) (hj : j < s.length) :
    (pureBody a e i v s).getD j 0 =
      if j + a = i then (s.getD j 0 &&& elemMask w e) ||| (v >>> e)
      else if j + a + 1 = i then
        (s.getD j 0 &&& ~~~(elemMask w e)) ||| ((v <<< ((w - e) % w)) &&& elemMask w e)
      else s.getD j 0 := by
  unfold pureBody
  simp only
  by_cases h1 : a + 1 ≤ i
  · have h2 : a ≤ i := by omega
    simp only [h1, h2, if_true, getD_set, List.length_set]
    by_cases c1 : j + a = i
    · have d1 : i - a = j := by omega
      have d2 : ¬ (i - (a + 1) = j) := by omega
      rw [if_pos ⟨d1, by omega⟩, if_pos c1, d1]
      rw [if_neg (by omega)]
    · rw [if_neg (by omega), if_neg c1]
      by_cases c2 : j + a + 1 = i
      · have d1 : i - (a + 1) = j := by omega
        rw [if_pos ⟨d1, by omega⟩, if_pos c2, d1]
      · rw [if_neg (by omega), if_neg c2]
  · by_cases h2 : a ≤ i
    · simp only [h1, h2, if_true, if_false, getD_set]
      by_cases c1 : j + a = i
      · have d1 : i - a = j := by omega
        rw [if_pos ⟨d1, by omega⟩, if_pos c1, d1]
      · rw [if_neg (by omega), if_neg c1, if_neg (by omega)]
    · simp only [h1, h2, if_false]
      rw [if_neg (by omega), if_neg (by omega)]

theorem E_step (s : List (BitVec w)) (a e i j : Nat) (he : e < w) :
    (if j + a = i then (E s a e i j &&& elemMask w e) ||| (s.getD i 0 >>> e)
      else if j + a + 1 = i then
        (E s a e i j &&& ~~~(elemMask w e)) |||
          ((s.getD i 0 <<< ((w - e) % w)) &&& elemMask w e)
      else E s a e i j) = E s a e (i + 1) j := by
  by_cases h1 : j + a = i
  · subst h1
    have c2 : ¬ (j + a + 1 < j + a) := by omega
    have c3 : ¬ (j + a + 1 < j + a + 1) := by omega
    simp [E]
  · rw [if_neg h1]
    by_cases h2 : j + a + 1 = i
    · subst h2
      rw [if_pos rfl]
      have c1 : j + a < j + a + 1 := by omega
      have c2 : ¬ (j + a + 1 < j + a + 1) := by omega
      have c3 : j + a < j + a + 1 + 1 := by omega
      have c4 : j + a + 1 < j + a + 1 + 1 := by omega
      unfold E
      rw [if_pos c1, if_neg c2, if_pos c3, if_pos c4, bv_or_zero, shr_and_not_mask _ _ he]
    · rw [if_neg h2]
      have h3 : (j + a < i + 1) ↔ (j + a < i) := by omega
      have h4 : (j + a + 1 < i + 1) ↔ (j + a + 1 < i) := by omega
      simp only [E, h3, h4]

/-- One iteration of `shr` equals the pure effect when nothing underflows (right < w). -/
theorem body_small (m : Mode) (e i : Nat) (v : BitVec w) (s : List (BitVec w)) (he : e < w) :
    body m 1 e i v s = .ok (pureBody 0 e i v s) := by
  unfold body pureBody
  simp only [getZ_eq, setIgnore_eq, shr_and_not_mask _ _ he]
  by_cases h : i = 0
  · subst h
    simp [usub, Res.bind]
  · have h1 : 1 ≤ i := by omega
    have h2 : 1 ≤ i + 1 := by omega
    simp [h, usub, h1, Res.bind]

/-- In release builds the wrapped indices fall outside the slice. -/
theorem body_release (a e i : Nat) (v : BitVec w) (s : List (BitVec w)) (he : e < w)
    (hs : s.length + a + 1 ≤ usizeSize) :
    body .release (a + 1) e i v s = .ok (pureBody a e i v s) := by
  unfold body pureBody
  simp only [getZ_eq, setIgnore_eq, shr_and_not_mask _ _ he]
  have oob : ∀ (t : List (BitVec w)) (k : Nat) (x : BitVec w), t.length = s.length →
      s.length ≤ k → t.set k x = t := fun t k x ht hk => List.set_eq_of_length_le (by omega)
  by_cases h1 : a + 1 ≤ i
  · have h0 : i ≠ 0 := by omega
    have h2 : a + 1 ≤ i + 1 := by omega
    have h3 : a ≤ i := by omega
    have h4 : i + 1 - (a + 1) = i - a := by omega
    simp [h0, usub, h1, h3, h4, Res.bind]
  · by_cases h3 : a ≤ i
    · have h2 : a + 1 ≤ i + 1 := by omega
      have h4 : i + 1 - (a + 1) = i - a := by omega
      by_cases h0 : i = 0
      · simp [h0, usub, Res.bind]
        have : a = 0 := by omega
        subst this
        simp
      · simp only [ne_eq, h0, not_false_eq_true, if_true, usub, h1, if_false, Res.bind, h2, h3, h4]
        rw [oob s _ _ rfl (by omega)]
    · have h2 : ¬ (a + 1 ≤ i + 1) := by omega
      by_cases h0 : i = 0
      · simp only [h0, ne_eq, not_true_eq_false, if_false, Res.bind, usub]
        have h5 : ¬ (a + 1 ≤ 0 + 1) := by omega
        simp only [h5, if_false]
        have h6 : ¬ (a + 1 ≤ 0) := by omega
        have h7 : ¬ (a ≤ 0) := by omega
        simp only [h6, h7, if_false]
        rw [oob s _ _ rfl (by omega)]
      · simp only [ne_eq, h0, not_false_eq_true, if_true, usub, h1, if_false, Res.bind, h2, h3]
        rw [oob s _ _ rfl (by omega), oob s _ _ rfl (by omega)]

theorem shr_of_body (m : Mode) (hw : 0 < w) (s : List (BitVec w)) (k : Nat) (hne : s ≠ [])
    (hb : ∀ i (t : List (BitVec w)), t.length = s.length →
      body m (k / w + 1) (k % w) i (s.getD i 0) t
        = .ok (pureBody (k / w) (k % w) i (s.getD i 0) t)) :
    ∃ out, shr m s k = .ok out ∧ val out = val s / 2 ^ k ∧ Norm out := by
  have he : k % w < w := Nat.mod_lt _ hw
  unfold shr
  simp only
  obtain ⟨out, h1, h2, h3⟩ := forUpM_inv (fun i (out : List (BitVec w)) =>
    out.length = s.length ∧ ∀ j < s.length, out.getD j 0 = E s (k / w) (k % w) i j)
    (fun idx out => body m (k / w + 1) (k % w) idx (s.getD idx 0) out) s.length
    (List.replicate s.length 0)
    ⟨by simp, fun j _ => by rw [getD_replicate]; simp [E]⟩
    (by
      rintro i out hi ⟨g1, g2⟩
      refine ⟨_, hb i out g1, by rw [pureBody_length, g1], fun j hj => ?_⟩
      rw [pureBody_getD _ _ _ _ _ _ (by omega), g2 j hj]
      exact E_step s _ _ i j he)
  have hne' : out ≠ [] := by
    intro h0; rw [h0] at h2; exact hne (List.length_eq_zero_iff.mp (by simpa using h2.symm))
  obtain ⟨t, ht, hv, hn, _⟩ := shrink_ok out hne'
  refine ⟨t, by rw [h1]; exact ht, ?_, hn⟩
  rw [hv, val_of_E s out _ _ he h2 h3, Nat.div_add_mod]

theorem shr_small (m : Mode) (s : List (BitVec w)) (k : Nat) (hk : k < w) (hne : s ≠ []) :
    ∃ out, shr m s k = .ok out ∧ val out = val s / 2 ^ k ∧ Norm out := by
  apply shr_of_body m (by omega) s k hne
  intro i t _
  rw [Nat.div_eq_of_lt hk, Nat.mod_eq_of_lt hk]
  exact body_small m k i _ t hk

theorem shr_release (hw : 0 < w) (s : List (BitVec w)) (k : Nat) (hne : s ≠ [])
    (hs : s.length + k / w + 1 ≤ usizeSize) :
    ∃ out, shr .release s k = .ok out ∧ val out = val s / 2 ^ k ∧ Norm out := by
  apply shr_of_body .release hw s k hne
  intro i t ht
  exact body_release (k / w) (k % w) i _ t (Nat.mod_lt _ hw) (by omega)

theorem shr_debug_panic (hw : 0 < w) (s : List (BitVec w)) (k : Nat) (hne : s ≠ []) (hk : w ≤ k) :
    shr .debug s k = .panic := by
  have hA : 1 ≤ k / w := (Nat.one_le_div_iff hw).mpr hk
  have h0 : ∀ (v : BitVec w) (t : List (BitVec w)),
      body .debug (k / w + 1) (k % w) 0 v t = .panic := by
    intro v t
    have : ¬ (k / w + 1 ≤ 0 + 1) := by omega
    simp only [body, usub, this, if_false, ne_eq, not_true_eq_false, Res.bind]
  have h1 : ∀ n, 0 < n → forUpM n (fun idx out =>
      body .debug (k / w + 1) (k % w) idx (s.getD idx 0) out)
      (List.replicate s.length 0) = .panic := by
    intro n
    induction n with
    | zero => omega
    | succ n ih =>
      intro _
      rcases Nat.eq_zero_or_pos n with h | h
      · subst h
        simp only [forUpM, Res.bind]
        exact h0 _ _
      · simp only [forUpM, ih h, Res.bind]
  unfold shr
  simp only
  rw [h1 _ (List.length_pos_iff.mpr hne)]
  rfl

/-! ### The in-place right shift -/

/-- Limb `j` after `i` iterations of the in-place loop. -/
def F (s : List (BitVec w)) (a e i j : Nat) : BitVec w :=
  if j + a < i then
    (s.getD (j + a) 0 >>> e) |||
    ((if j + a + 1 < i then s.getD (j + a + 1) 0 <<< ((w - e) % w) else s.getD j 0) &&&
      elemMask w e)
  else s.getD j 0

theorem innerBody_eq (a e i : Nat) (s : List (BitVec w)) (he : e < w) :
    innerBody (a + 1) e i s = pureBody a e i (s.getD i 0) s := by
  unfold innerBody pureBody
  simp only [getZ_eq, setIgnore_eq, shr_and_not_mask _ _ he]
  have h4 : i + 1 - (a + 1) = i - a := by omega
  have h5 : (a + 1 ≤ i + 1) ↔ (a ≤ i) := by omega
  simp only [h4, h5]

theorem F_step (s : List (BitVec w)) (a e i j : Nat) (he : e < w) :
    (if j + a = i then (F s a e i j &&& elemMask w e) ||| (s.getD i 0 >>> e)
      else if j + a + 1 = i then
        (F s a e i j &&& ~~~(elemMask w e)) |||
          ((s.getD i 0 <<< ((w - e) % w)) &&& elemMask w e)
      else F s a e i j) = F s a e (i + 1) j := by
  by_cases h1 : j + a = i
  · subst h1
    simp only [F, lt_irrefl, if_false, if_true, Nat.lt_succ_self]
    rw [BitVec.or_comm]
  · rw [if_neg h1]
    by_cases h2 : j + a + 1 = i
    · subst h2
      rw [if_pos rfl]
      have c1 : j + a < j + a + 1 := by omega
      have c2 : ¬ (j + a + 1 < j + a + 1) := by omega
      have c3 : j + a < j + a + 1 + 1 := by omega
      have c4 : j + a + 1 < j + a + 1 + 1 := by omega
      simp only [F, c1, c2, c3, c4, if_true, if_false]
      congr 1
      apply BitVec.eq_of_getLsbD_eq
      intro b hb
      have := congrArg (fun x : BitVec w => x.getLsbD b)
        (shr_and_not_mask (s.getD (j + a) 0) e he)
      simp only [BitVec.getLsbD_and, BitVec.getLsbD_or, BitVec.getLsbD_not, hb,
        decide_true, Bool.true_and] at this ⊢
      generalize (elemMask w e).getLsbD b = m at *
      generalize (s.getD (j + a) 0 >>> e).getLsbD b = x at *
      generalize (s.getD j 0).getLsbD b = y at *
      cases m <;> cases x <;> cases y <;> simp_all
    · rw [if_neg h2]
      have h3 : (j + a < i + 1) ↔ (j + a < i) := by omega
      have h4 : (j + a + 1 < i + 1) ↔ (j + a + 1 < i) := by omega
      simp only [F, h3, h4]

theorem loop_in_place (s : List (BitVec w)) (a e : Nat) (he : e < w) :
    let out := forUp s.length (innerBody (a + 1) e) s
    out.length = s.length ∧ ∀ j < s.length, out.getD j 0 = F s a e s.length j := by
  intro out
  apply forUp_inv (fun i (out : List (BitVec w)) =>
    out.length = s.length ∧ ∀ j < s.length, out.getD j 0 = F s a e i j)
  · refine ⟨rfl, fun j hj => ?_⟩
    simp [F]
  · rintro i out hi ⟨h1, h2⟩
    rw [innerBody_eq _ _ _ _ he]
    refine ⟨by rw [pureBody_length, h1], fun j hj => ?_⟩
    have hv : out.getD i 0 = s.getD i 0 := by
      rw [h2 i hi]
      unfold F
      rw [if_neg (by omega)]
    rw [pureBody_getD _ _ _ _ _ _ (by omega), h2 j hj, hv]
    exact F_step s a e i j he

/-- What the in-place right shift really computes: the shifted number, plus the stale top bits
of limb `len - 1 - k / w`. -/
theorem inner_spec (m : Mode) (hw : 0 < w) (s : List (BitVec w)) (k : Nat)
    (hk : k < w * s.length) (hs : s.length < usizeSize) :
    ∃ out, inner m s k = .ok out ∧ out.length = s.length ∧
      val out = val s / 2 ^ k +
        (s.getD (s.length - 1 - k / w) 0 &&& elemMask w (k % w)).toNat
          * 2 ^ (w * (s.length - 1 - k / w)) := by
  have he : k % w < w := Nat.mod_lt _ hw
  have ha : k / w < s.length := Nat.div_lt_of_lt_mul hk
  have h := loop_in_place s (k / w) (k % w) he
  unfold inner
  simp only at h ⊢
  set out := forUp s.length (innerBody (k / w + 1) (k % w)) s
  obtain ⟨h1, h2⟩ := h
  have hdm := Nat.div_add_mod k w
  generalize k / w = a at *
  generalize k % w = e at *
  have hu : usub m out.length (a + 1) = .ok (s.length - (a + 1)) := by
    unfold usub
    rw [if_pos (by omega), h1]
  rw [hu]
  simp only [Res.bind]
  have hmod : (s.length - (a + 1) + 1) % usizeSize = s.length - a := by
    rw [Nat.mod_eq_of_lt (by omega)]; omega
  rw [hmod, if_pos (by omega)]
  refine ⟨_, rfl, by simp; omega, ?_⟩
  set p := s.length - 1 - a with hp
  -- the list with the stale bits cleared
  set fin := out.take (s.length - a) ++ List.replicate (out.length - (s.length - a)) 0 with hfin
  have hfl : fin.length = s.length := by simp [hfin]; omega
  have hfd : ∀ j < s.length, fin.getD j 0 = if j < s.length - a then F s a e s.length j else 0 := by
    intro j hj
    by_cases hja : j < s.length - a
    · rw [if_pos hja, ← h2 j hj, hfin, List.getD_eq_getElem?_getD, List.getD_eq_getElem?_getD,
        List.getElem?_append_left (by simp; omega), List.getElem?_take, if_pos hja]
    · rw [if_neg hja, hfin, List.getD_eq_getElem?_getD,
        List.getElem?_append_right (by simp; omega), List.getElem?_replicate]
      split <;> rfl
  set X := s.getD (s.length - 1) 0 >>> e with hX
  set Y := s.getD p 0 &&& elemMask w e with hY
  have hpl : p < s.length := by omega
  have hfp : fin.getD p 0 = X ||| Y := by
    rw [hfd p hpl, if_pos (by omega)]
    unfold F
    have c1 : p + a < s.length := by omega
    have c2 : ¬ (p + a + 1 < s.length) := by omega
    have c3 : p + a = s.length - 1 := by omega
    rw [if_pos c1, if_neg c2, c3]
  have hclean : val (fin.set p X) = val s / 2 ^ k := by
    rw [val_of_E s (fin.set p X) a e he (by simp [hfl]), hdm]
    intro j hj
    rw [getD_set, hfl]
    by_cases hjp : p = j
    · subst hjp
      rw [if_pos ⟨rfl, hpl⟩]
      have c1 : p + a < s.length := by omega
      have c2 : ¬ (p + a + 1 < s.length) := by omega
      have c3 : p + a = s.length - 1 := by omega
      unfold E
      rw [if_pos c1, if_neg c2, c3, bv_or_zero]
    · rw [if_neg (by omega), hfd j hj]
      by_cases hja : j < s.length - a
      · rw [if_pos hja]
        have c1 : j + a < s.length := by omega
        have c2 : j + a + 1 < s.length := by omega
        simp only [E, F, c1, c2, if_true]
      · rw [if_neg hja]
        have c1 : ¬ (j + a < s.length) := by omega
        have c2 : ¬ (j + a + 1 < s.length) := by omega
        simp [E, c1, c2]
  have hset := val_set fin p X (by omega)
  rw [hfp, hclean] at hset
  have hor : (X ||| Y).toNat = X.toNat + Y.toNat := by
    have hdis : X &&& Y = 0 := by
      apply BitVec.eq_of_getLsbD_eq
      intro b hb
      have := congrArg (fun x : BitVec w => x.getLsbD b)
        (shr_and_not_mask (s.getD (s.length - 1) 0) e he)
      rw [← hX] at this
      simp only [BitVec.getLsbD_and, BitVec.getLsbD_not, hb, decide_true, Bool.true_and, hY] at this ⊢
      generalize (elemMask w e).getLsbD b = mm at *
      generalize X.getLsbD b = x at *
      cases mm <;> cases x <;> simp_all
    have h3 := BitVec.add_eq_or_of_and_eq_zero X Y hdis
    rw [← h3, BitVec.toNat_add]
    apply Nat.mod_eq_of_lt
    have h4 := BitVec.toNat_add_of_and_eq_zero hdis
    have h5 := (X + Y).isLt
    omega
  rw [hor, Nat.add_mul] at hset
  omega

end ElementShr

theorem maskShift_eq (m : Mode) (n k : Nat) (h1 : 2 ≤ n) (h2 : n < usizeSize) :
    maskShift m n k = .ok (k % 2 ^ Nat.log2 n) := by
  have hl : Nat.log2 n < 64 := (Nat.log2_lt (by omega)).mpr h2
  have hl1 : 1 ≤ Nat.log2 n := (Nat.le_log2 (by omega)).mpr (by omega)
  unfold maskShift leadingZeros
  have h0 : n ≠ 0 := by omega
  simp only [h0, if_false]
  rw [if_pos (by omega)]
  congr 1
  have : (usizeSize - 1) >>> (63 - Nat.log2 n + 1) = 2 ^ Nat.log2 n - 1 := by
    unfold usizeSize
    rw [Nat.shiftRight_eq_div_pow]
    have hs : (2 : Nat) ^ 64 = 2 ^ Nat.log2 n * 2 ^ (63 - Nat.log2 n + 1) := by
      rw [← Nat.pow_add]; congr 1; omega
    rw [hs]
    have hp : 0 < 2 ^ (63 - Nat.log2 n + 1) := Nat.two_pow_pos _
    have hq : 0 < 2 ^ Nat.log2 n := Nat.two_pow_pos _
    generalize 2 ^ (63 - Nat.log2 n + 1) = b at *
    generalize 2 ^ Nat.log2 n = c at *
    rw [Nat.div_eq_iff hp]
    obtain ⟨c, rfl⟩ := Nat.exists_eq_add_of_lt hq
    simp only [Nat.zero_add, Nat.add_sub_cancel]
    constructor
    · rw [Nat.add_mul, Nat.one_mul]; omega
    · rw [Nat.add_mul, Nat.one_mul]
  rw [this, Nat.and_two_pow_sub_one_eq_mod]

end Verif
