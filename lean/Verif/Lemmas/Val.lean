import Verif.Model.Slice
import Verif.Spec.Val
import Mathlib.Tactic.Ring
import Mathlib.Tactic.Linarith
import Mathlib.Tactic.Positivity

/-!
# Basic facts about `val`
-/

namespace Verif

variable {w : Nat}

@[simp] theorem val_nil : val ([] : List (BitVec w)) = 0 := rfl

@[simp] theorem val_cons (x : BitVec w) (xs : List (BitVec w)) :
    val (x :: xs) = x.toNat + 2 ^ w * val xs := rfl

theorem modulus_nil : modulus ([] : List (BitVec w)) = 1 := by simp [modulus]

theorem modulus_cons (x : BitVec w) (xs : List (BitVec w)) :
    modulus (x :: xs) = 2 ^ w * modulus xs := by
  simp only [modulus, List.length_cons, Nat.mul_succ, Nat.pow_add, Nat.mul_comm]

theorem modulus_pos (s : List (BitVec w)) : 0 < modulus s := Nat.two_pow_pos _

theorem val_lt (s : List (BitVec w)) : val s < modulus s := by
  induction s with
  | nil => simp [modulus]
  | cons x xs ih =>
    rw [modulus_cons, val_cons]
    have := x.isLt
    calc x.toNat + 2 ^ w * val xs < 2 ^ w + 2 ^ w * val xs := by omega
      _ = 2 ^ w * (val xs + 1) := by ring
      _ ≤ 2 ^ w * modulus xs := Nat.mul_le_mul_left _ ih

theorem val_replicate_zero (n : Nat) : val (List.replicate n (0 : BitVec w)) = 0 := by
  induction n with
  | zero => rfl
  | succ n ih => rw [List.replicate_succ, val_cons, ih]; simp

@[simp] theorem val_replicate_zero' (n : Nat) : val (List.replicate n (0#w)) = 0 :=
  val_replicate_zero n

theorem val_append (s t : List (BitVec w)) : val (s ++ t) = val s + modulus s * val t := by
  induction s with
  | nil => simp [modulus]
  | cons x xs ih => simp only [List.cons_append, val_cons, ih, modulus_cons]; ring

theorem getD_eq_getElem? (s : List (BitVec w)) (i : Nat) : s.getD i 0 = s[i]?.getD 0 :=
  List.getD_eq_getElem?_getD

theorem getZ_eq (s : List (BitVec w)) (i : Nat) : BitSlice.getZ s i = s.getD i 0 := by
  simp [BitSlice.getZ, BitSlice.getOpt]

theorem getD_of_ge (s : List (BitVec w)) (i : Nat) (h : s.length ≤ i) : s.getD i 0 = 0 := by
  simp [List.getD_eq_getElem?_getD, h]

theorem setIgnore_eq (s : List (BitVec w)) (i : Nat) (v : BitVec w) :
    BitSlice.setIgnore s i v = s.set i v := by
  unfold BitSlice.setIgnore BitSlice.setOpt
  split
  · simp
  · rw [Option.getD_none, List.set_eq_of_length_le]; omega

theorem getD_set (s : List (BitVec w)) (i j : Nat) (v : BitVec w) :
    (s.set i v).getD j 0 = if i = j ∧ i < s.length then v else s.getD j 0 := by
  simp only [List.getD_eq_getElem?_getD, List.getElem?_set]
  by_cases h : i = j
  · subst h
    by_cases h2 : i < s.length
    · simp [h2]
    · simp [h2]
  · simp [h]

theorem getD_replicate (n i : Nat) : (List.replicate n (0 : BitVec w)).getD i 0 = 0 := by
  simp only [List.getD_eq_getElem?_getD, List.getElem?_replicate]
  split <;> rfl

/-- Value of the first `n` limbs (reading past the end gives zeros). -/
def pv (s : List (BitVec w)) : Nat → Nat
  | 0 => 0
  | n + 1 => pv s n + (s.getD n 0).toNat * 2 ^ (w * n)

@[simp] theorem pv_zero (s : List (BitVec w)) : pv s 0 = 0 := rfl

theorem pv_succ (s : List (BitVec w)) (n : Nat) :
    pv s (n + 1) = pv s n + (s.getD n 0).toNat * 2 ^ (w * n) := rfl

theorem pv_cons (x : BitVec w) (xs : List (BitVec w)) (n : Nat) :
    pv (x :: xs) (n + 1) = x.toNat + 2 ^ w * pv xs n := by
  induction n with
  | zero => simp [pv]
  | succ n ih =>
    rw [pv_succ, ih, pv_succ]
    simp only [List.getD_cons_succ, Nat.mul_succ, Nat.pow_add]
    ring

theorem pv_nil (n : Nat) : pv ([] : List (BitVec w)) n = 0 := by
  induction n with
  | zero => rfl
  | succ n ih => simp [pv_succ, ih]

theorem pv_eq_val (s : List (BitVec w)) (n : Nat) (h : s.length ≤ n) : pv s n = val s := by
  induction s generalizing n with
  | nil => exact pv_nil n
  | cons x xs ih =>
    obtain ⟨m, rfl⟩ : ∃ m, n = m + 1 := ⟨n - 1, by simp at h; omega⟩
    rw [pv_cons, ih m (by simpa using h), val_cons]

theorem pv_length (s : List (BitVec w)) : pv s s.length = val s := pv_eq_val s _ le_rfl

theorem pv_congr {s t : List (BitVec w)} {n : Nat} (h : ∀ j < n, s.getD j 0 = t.getD j 0) :
    pv s n = pv t n := by
  induction n with
  | zero => rfl
  | succ n ih => rw [pv_succ, pv_succ, ih (fun j hj => h j (by omega)), h n (by omega)]

theorem pv_set_of_le (s : List (BitVec w)) (i n : Nat) (v : BitVec w) (h : n ≤ i) :
    pv (s.set i v) n = pv s n :=
  pv_congr fun j hj => by rw [getD_set, if_neg (by omega)]

theorem pv_set_succ (s : List (BitVec w)) (i : Nat) (v : BitVec w) (h : i < s.length) :
    pv (s.set i v) (i + 1) = pv s i + v.toNat * 2 ^ (w * i) := by
  rw [pv_succ, pv_set_of_le _ _ _ _ le_rfl, getD_set, if_pos ⟨rfl, h⟩]

theorem pv_lt (s : List (BitVec w)) (n : Nat) : pv s n < 2 ^ (w * n) := by
  induction n with
  | zero => simp
  | succ n ih =>
    rw [pv_succ, Nat.mul_succ, Nat.pow_add]
    have h1 := (s.getD n 0).isLt
    calc pv s n + (s.getD n 0).toNat * 2 ^ (w * n)
        < 2 ^ (w * n) + (s.getD n 0).toNat * 2 ^ (w * n) := by omega
      _ = ((s.getD n 0).toNat + 1) * 2 ^ (w * n) := by ring
      _ ≤ 2 ^ w * 2 ^ (w * n) := Nat.mul_le_mul_right _ h1
      _ = 2 ^ (w * n) * 2 ^ w := Nat.mul_comm _ _

theorem pv_mod (s : List (BitVec w)) (n : Nat) : val s % 2 ^ (w * n) = pv s n := by
  induction n generalizing s with
  | zero => simp [Nat.mod_one]
  | succ n ih =>
    cases s with
    | nil => simp [pv_nil]
    | cons x xs =>
      rw [pv_cons, val_cons, Nat.mul_succ, Nat.pow_add, Nat.mul_comm (2 ^ (w * n)),
        ← ih xs]
      have hx := x.isLt
      rw [Nat.mod_mul, Nat.add_mul_mod_self_left, Nat.mod_eq_of_lt hx,
        Nat.add_mul_div_left _ _ (Nat.two_pow_pos w), Nat.div_eq_of_lt hx, Nat.zero_add]

theorem val_set (s : List (BitVec w)) (i : Nat) (v : BitVec w) (h : i < s.length) :
    val (s.set i v) + (s.getD i 0).toNat * 2 ^ (w * i) = val s + v.toNat * 2 ^ (w * i) := by
  induction s generalizing i with
  | nil => simp at h
  | cons x xs ih =>
    cases i with
    | zero => simp; omega
    | succ i =>
      have := ih i (by simpa using h)
      simp only [List.set_cons_succ, val_cons, List.getD_cons_succ, Nat.mul_succ, Nat.pow_add]
      calc _ = x.toNat + 2 ^ w * (val (xs.set i v) + (xs.getD i 0).toNat * 2 ^ (w * i)) := by ring
        _ = _ := by rw [this]; ring

/-- The digits of the value are the limbs. -/
theorem val_div_mod (s : List (BitVec w)) (i : Nat) :
    val s / 2 ^ (w * i) % 2 ^ w = (s.getD i 0).toNat := by
  induction s generalizing i with
  | nil => simp
  | cons x xs ih =>
    have hx := x.isLt
    cases i with
    | zero => simp [Nat.mod_eq_of_lt hx]
    | succ i =>
      rw [val_cons, Nat.mul_succ, Nat.add_comm (w * i), Nat.pow_add, ← Nat.div_div_eq_div_mul,
        Nat.add_mul_div_left _ _ (Nat.two_pow_pos w), Nat.div_eq_of_lt hx, Nat.zero_add, ih]
      simp

/-- Two limb lists of the same length with the same value are equal. -/
theorem eq_of_val_eq {s t : List (BitVec w)} (hl : s.length = t.length) (hv : val s = val t) :
    s = t := by
  apply List.ext_getElem hl
  intro i h1 h2
  have := val_div_mod s i
  rw [hv, val_div_mod t i] at this
  apply BitVec.eq_of_toNat_eq
  simpa [List.getD_eq_getElem?_getD, h1, h2] using this.symm

/-- Bits of the value are the bits of the limbs. -/
theorem testBit_val (hw : 0 < w) (s : List (BitVec w)) (k : Nat) :
    (val s).testBit k = (s.getD (k / w) 0).getLsbD (k % w) := by
  have h := val_div_mod s (k / w)
  have hk : k = w * (k / w) + k % w := (Nat.div_add_mod k w).symm
  have hlt : k % w < w := Nat.mod_lt _ hw
  calc (val s).testBit k = (val s).testBit (w * (k / w) + k % w) := by rw [← hk]
    _ = (val s / 2 ^ (w * (k / w))).testBit (k % w) := by
      rw [Nat.testBit_div_two_pow, Nat.add_comm]
    _ = (val s / 2 ^ (w * (k / w)) % 2 ^ w).testBit (k % w) := by
      rw [Nat.testBit_mod_two_pow]; simp [hlt]
    _ = _ := by rw [h]; rfl

theorem testBit_val' (hw : 0 < w) (s : List (BitVec w)) (j b : Nat) (hb : b < w) :
    (val s).testBit (w * j + b) = (s.getD j 0).getLsbD b := by
  rw [testBit_val hw]
  congr 2
  · rw [Nat.mul_add_div hw, Nat.div_eq_of_lt hb, Nat.add_zero]
  · rw [Nat.mul_add_mod, Nat.mod_eq_of_lt hb]

/-! ## Loops -/

theorem forUp_inv {σ : Type _} (P : Nat → σ → Prop) (f : Nat → σ → σ) (n : Nat) (s : σ)
    (h0 : P 0 s) (hs : ∀ i s, i < n → P i s → P (i + 1) (f i s)) : P n (forUp n f s) := by
  induction n with
  | zero => exact h0
  | succ n ih =>
    exact hs n _ (Nat.lt_succ_self n) (ih fun i s hi h => hs i s (Nat.lt_succ_of_lt hi) h)

theorem forDown_inv {σ : Type _} (P : Nat → σ → Prop) (f : Nat → σ → σ) (n : Nat) (s : σ)
    (h0 : P n s) (hs : ∀ i s, i < n → P (i + 1) s → P i (f i s)) : P 0 (forDown n f s) := by
  induction n generalizing s with
  | zero => exact h0
  | succ n ih =>
    exact ih _ (hs n s (Nat.lt_succ_self n) h0) fun i s hi h => hs i s (Nat.lt_succ_of_lt hi) h

theorem forUpM_inv {σ : Type _} (P : Nat → σ → Prop) (f : Nat → σ → Res σ) (n : Nat) (s : σ)
    (h0 : P 0 s) (hs : ∀ i s, i < n → P i s → ∃ s', f i s = .ok s' ∧ P (i + 1) s') :
    ∃ s', forUpM n f s = .ok s' ∧ P n s' := by
  induction n with
  | zero => exact ⟨s, rfl, h0⟩
  | succ n ih =>
    obtain ⟨s1, h1, hp1⟩ := ih fun i s hi h => hs i s (Nat.lt_succ_of_lt hi) h
    obtain ⟨s2, h2, hp2⟩ := hs n s1 (Nat.lt_succ_self n) hp1
    exact ⟨s2, by simp [forUpM, h1, Res.bind, h2], hp2⟩

theorem forDownM_inv {σ : Type _} (P : Nat → σ → Prop) (f : Nat → σ → Res σ) (n : Nat) (s : σ)
    (h0 : P n s) (hs : ∀ i s, i < n → P (i + 1) s → ∃ s', f i s = .ok s' ∧ P i s') :
    ∃ s', forDownM n f s = .ok s' ∧ P 0 s' := by
  induction n generalizing s with
  | zero => exact ⟨s, rfl, h0⟩
  | succ n ih =>
    obtain ⟨s1, h1, hp1⟩ := hs n s (Nat.lt_succ_self n) h0
    obtain ⟨s2, h2, hp2⟩ := ih s1 hp1 fun i s hi h => hs i s (Nat.lt_succ_of_lt hi) h
    exact ⟨s2, by simp [forDownM, h1, Res.bind, h2], hp2⟩

/-! ## `shrink` -/

theorem rposNZ_lt {s : List (BitVec w)} {i : Nat} (h : rposNZ s = some i) : i < s.length := by
  induction s generalizing i with
  | nil => simp [rposNZ] at h
  | cons x xs ih =>
    unfold rposNZ at h
    split at h
    · rename_i j hj
      have := ih hj
      simp at h; simp; omega
    · split at h <;> simp at h
      simp; omega

theorem rposNZ_none {s : List (BitVec w)} (h : rposNZ s = none) : val s = 0 := by
  induction s with
  | nil => rfl
  | cons x xs ih =>
    unfold rposNZ at h
    split at h
    · simp at h
    · rename_i hx
      split at h
      · simp at h
      · rename_i h0
        have : x = 0 := by simpa using h0
        simp [ih hx, this]

theorem rposNZ_spec {s : List (BitVec w)} {i : Nat} (h : rposNZ s = some i) :
    s.getD i 0 ≠ 0 ∧ val (s.drop (i + 1)) = 0 := by
  induction s generalizing i with
  | nil => simp [rposNZ] at h
  | cons x xs ih =>
    unfold rposNZ at h
    split at h
    · rename_i j hj
      simp at h; subst h
      simpa using ih hj
    · rename_i hn
      split at h <;> simp at h
      subst h
      rename_i hx
      exact ⟨by simpa using hx, by simpa using rposNZ_none hn⟩

theorem val_take_of_drop {s : List (BitVec w)} {n : Nat} (h : val (s.drop n) = 0) :
    val (s.take n) = val s := by
  conv_rhs => rw [← List.take_append_drop n s, val_append, h]
  simp

theorem shrink_ok (s : List (BitVec w)) (h : s ≠ []) :
    ∃ t, shrink s = .ok t ∧ val t = val s ∧ Norm t ∧ t.length ≤ s.length := by
  have hl : 0 < s.length := List.length_pos_iff.mpr h
  unfold shrink
  cases hr : rposNZ s with
  | none =>
    refine ⟨s.take 1, ?_, ?_, ?_, ?_⟩
    · simp; omega
    · have hv := rposNZ_none hr
      cases s with
      | nil => simp at h
      | cons x xs => simp at hv ⊢; simp [hv.2]
    · exact ⟨by simp [h], Or.inl (by simp; omega)⟩
    · simp
  | some i =>
    have hi := rposNZ_lt hr
    obtain ⟨h1, h2⟩ := rposNZ_spec hr
    refine ⟨s.take (i + 1), ?_, val_take_of_drop h2, ?_, ?_⟩
    · simp; omega
    · refine ⟨by simp [h], Or.inr ?_⟩
      rw [List.getLast?_eq_getElem?]
      have : (s.take (i + 1)).length - 1 = i := by simp; omega
      rw [this]
      simp only [List.getElem?_take, Nat.lt_succ_self, if_true]
      intro hc
      apply h1
      simp [List.getD_eq_getElem?_getD, hc]
    · simp

theorem shrink_nil : shrink ([] : List (BitVec w)) = .panic := rfl

theorem Norm.lower {s : List (BitVec w)} (h : Norm s) :
    s.length = 1 ∨ 2 ^ (w * (s.length - 1)) ≤ val s := by
  rcases h with ⟨hne, h | h⟩
  · exact Or.inl h
  · right
    have hl : 0 < s.length := List.length_pos_iff.mpr hne
    have hd : s.getD (s.length - 1) 0 ≠ 0 := by
      intro hc
      apply h
      rw [List.getLast?_eq_getElem?]
      rw [List.getD_eq_getElem?_getD] at hc
      rw [List.getElem?_eq_getElem (by omega)] at hc ⊢
      simpa using hc
    have hv : val s = pv s (s.length - 1) + (s.getD (s.length - 1) 0).toNat
        * 2 ^ (w * (s.length - 1)) := by
      rw [← pv_succ, pv_eq_val]; omega
    have h1 : 1 ≤ (s.getD (s.length - 1) 0).toNat := by
      rcases Nat.eq_zero_or_pos (s.getD (s.length - 1) 0).toNat with h0 | h0
      · exact absurd (BitVec.eq_of_toNat_eq (by simpa using h0)) hd
      · exact h0
    rw [hv]
    calc 2 ^ (w * (s.length - 1)) = 1 * 2 ^ (w * (s.length - 1)) := (Nat.one_mul _).symm
      _ ≤ (s.getD (s.length - 1) 0).toNat * 2 ^ (w * (s.length - 1)) := Nat.mul_le_mul_right _ h1
      _ ≤ _ := Nat.le_add_left _ _

/-- Normalised lists are determined by their value. -/
theorem Norm.unique {s t : List (BitVec w)} (hs : Norm s) (ht : Norm t)
    (hv : val s = val t) : s = t := by
  apply eq_of_val_eq _ hv
  have key : ∀ {a b : List (BitVec w)}, Norm a → Norm b → val a = val b → a.length ≤ b.length := by
    intro a b ha hb hab
    by_contra hlt
    have hb0 : 0 < b.length := List.length_pos_iff.mpr hb.1
    rcases ha.lower with h1 | h1
    · omega
    · have h2 := val_lt b
      have h3 : modulus b ≤ 2 ^ (w * (a.length - 1)) :=
        Nat.pow_le_pow_right (by norm_num) (Nat.mul_le_mul_left _ (by omega))
      omega
  exact le_antisymm (key hs ht hv) (key ht hs hv.symm)

end Verif
