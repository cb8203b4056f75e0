import Mathlib.Tactic.Ring
import Mathlib.Tactic.Linarith
import Verif.Model.IInt
import Verif.Spec.Signed
import Verif.Lemmas.UInt

/-!
# Lemmas about `I<N>`
-/

namespace Verif

theorem pow_even_of_pos {N : Nat} (h : 0 < N) : ∃ k, 256 ^ N = 2 * k := by
  obtain ⟨n, rfl⟩ : ∃ n, N = n + 1 := ⟨N - 1, by omega⟩
  exact ⟨256 ^ n * 128, by rw [Nat.pow_succ]; ring⟩

/-- The signed value is in range. -/
theorem sval_range (l : Bytes) : -(256 ^ l.length : ℤ) ≤ 2 * sval l ∧
    2 * sval l < 256 ^ l.length := by
  have h : val l < 256 ^ l.length := by rw [← modulus_bytes]; exact val_lt l
  unfold sval
  split
  · rename_i h1; constructor <;> [(have : (0:ℤ) ≤ 256 ^ l.length := by positivity); skip] <;>
    zify at h1 h <;> omega
  · rename_i h1; zify at h1 h; constructor <;> omega

theorem sval_dvd (l : Bytes) : (256 ^ l.length : ℤ) ∣ sval l - val l := by
  unfold sval
  split
  · simp
  · exact ⟨-1, by ring⟩

theorem val_le_modulus (l : Bytes) : val l < 256 ^ l.length := by
  rw [← modulus_bytes]; exact val_lt l

/-- An in-range integer congruent to the value is the signed value. -/
theorem wraps_unique {N : Nat} {x y z : ℤ} (hy : WrapsTo N x y) (hz : WrapsTo N x z) : y = z := by
  obtain ⟨y1, y2, k, hk⟩ := hy
  obtain ⟨z1, z2, j, hj⟩ := hz
  have hpos : (0:ℤ) < 256 ^ N := by positivity
  have e : y - z = 256 ^ N * (k - j) := by rw [mul_sub, ← hk, ← hj]; ring
  have hlt : k - j < 1 := by
    by_contra hc
    have : (256 ^ N : ℤ) * 1 ≤ 256 ^ N * (k - j) := by
      apply mul_le_mul_of_nonneg_left _ hpos.le; omega
    omega
  have hgt : -1 < k - j := by
    by_contra hc
    have : (256 ^ N : ℤ) * (k - j) ≤ 256 ^ N * (-1) := by
      apply mul_le_mul_of_nonneg_left _ hpos.le; omega
    omega
  have : k - j = 0 := by omega
  rw [this] at e
  omega

theorem wraps_of_mod (l : Bytes) (x : ℤ) (h : (256 ^ l.length : ℤ) ∣ (val l : ℤ) - x) :
    WrapsTo l.length x (sval l) := by
  obtain ⟨h1, h2⟩ := sval_range l
  refine ⟨h1, h2, ?_⟩
  have := dvd_add (sval_dvd l) h
  simpa using this

theorem emod_dvd (M : Nat) (x : Nat) : (M : ℤ) ∣ ((x % M : Nat) : ℤ) - x := by
  rw [Int.natCast_mod]
  exact Int.dvd_sub_self_of_emod_eq (by simp)

theorem IN.add_val (a b : Bytes) (h : b.length = a.length) :
    (IN.add a b).length = a.length ∧ val (IN.add a b) = (val a + val b) % 256 ^ a.length := by
  obtain ⟨h1, h2⟩ := addOverflowing_spec (by norm_num : 0 < 8) a b (by omega)
  have hlt := val_lt (ElementAdd.addOverflowing a b).1
  have hm : modulus (ElementAdd.addOverflowing a b).1 = modulus a := by simp [modulus, h1]
  rw [hm] at hlt
  show (ElementAdd.addWrapping a b).length = _ ∧ val (ElementAdd.addWrapping a b) = _
  unfold ElementAdd.addWrapping
  refine ⟨h1, ?_⟩
  rw [← modulus_bytes]
  generalize ElementAdd.addOverflowing a b = O at *
  rw [← h2]
  cases O.2 <;> simp [Nat.mod_eq_of_lt hlt]

theorem IN.one_length (n : Nat) : (IN.one n).length = n := by simp [IN.one]

theorem IN.neg_val (a : Bytes) :
    (IN.neg a).length = a.length ∧
      val (IN.neg a) = (256 ^ a.length - 1 - val a + 1 % 256 ^ a.length) % 256 ^ a.length := by
  have hn : (a.map fun v => ~~~v) = elementNot a := rfl
  have hnl : (elementNot a).length = a.length := by simp [elementNot]
  have hv := not_val a
  rw [modulus_bytes] at hv
  unfold IN.neg
  rw [hn]
  obtain ⟨h1, h2⟩ := IN.add_val (elementNot a) (IN.one a.length) (by rw [IN.one_length, hnl])
  refine ⟨by rw [h1, hnl], ?_⟩
  rw [h2, hnl, show val (IN.one a.length) = _ from UN.val_one a.length]
  congr 2
  omega

/-- Splitting off the top byte. -/
theorem top_byte (a : Bytes) (ha : a ≠ []) : ∃ init last, a = init ++ [last] ∧
    a.getLast? = some last ∧ val a = val init + 256 ^ init.length * last.toNat ∧
    a.length = init.length + 1 ∧ val init < 256 ^ init.length := by
  refine ⟨a.dropLast, a.getLast ha, (List.dropLast_concat_getLast ha).symm,
    List.getLast?_eq_getLast_of_ne_nil ha, ?_, ?_, ?_⟩
  · conv_lhs => rw [← List.dropLast_concat_getLast ha]
    rw [val_append, modulus_bytes]
    simp [val]
  · conv_lhs => rw [← List.dropLast_concat_getLast ha]
    simp
  · exact val_le_modulus _

theorem top_bit (x : BitVec 8) : (x &&& 0x80 == 0) = decide (x.toNat < 128) := by
  revert x
  decide +kernel

theorem clear_top_bit (x : BitVec 8) : (x &&& 0x7F).toNat = x.toNat % 128 := by
  revert x
  decide +kernel

theorem sval_neg_iff (a : Bytes) : (sval a < 0 ↔ 256 ^ a.length ≤ 2 * val a) := by
  have h := val_le_modulus a
  unfold sval
  split
  · rename_i h1; constructor
    · intro h2; omega
    · intro h2; omega
  · rename_i h1; constructor
    · intro; omega
    · intro; zify at h; omega

theorem top_half (init : Bytes) (last : BitVec 8) (hi : val init < 256 ^ init.length) :
    256 ^ (init.length + 1) ≤ 2 * (val init + 256 ^ init.length * last.toNat)
      ↔ 128 ≤ last.toNat := by
  rw [Nat.pow_succ]
  generalize 256 ^ init.length = M at *
  constructor
  · intro h
    by_contra hc
    have : M * last.toNat ≤ M * 127 := Nat.mul_le_mul_left _ (by omega)
    omega
  · intro h
    have : M * 128 ≤ M * last.toNat := Nat.mul_le_mul_left _ h
    omega

theorem IN.isPositive_spec (a : Bytes) (ha : a ≠ []) :
    IN.isPositive a = .ok (decide (0 ≤ sval a)) := by
  obtain ⟨init, last, rfl, h1, h2, h3, h4⟩ := top_byte a ha
  unfold IN.isPositive
  rw [h1]
  simp only
  rw [top_bit]
  congr 1
  rw [decide_eq_decide]
  have := sval_neg_iff (init ++ [last])
  rw [h3, h2, top_half init last h4] at this
  constructor
  · intro h; by_contra hc; have := this.mp (by omega); omega
  · intro h; by_contra hc; have := this.mpr (by omega); omega

theorem IN.isNegative_spec (a : Bytes) (ha : a ≠ []) :
    IN.isNegative a = .ok (decide (sval a < 0)) := by
  have h := IN.isPositive_spec a ha
  unfold IN.isPositive at h
  unfold IN.isNegative
  cases hl : a.getLast? with
  | none => rw [hl] at h; cases h
  | some last =>
    rw [hl] at h
    simp only [Res.ok.injEq] at h ⊢
    rw [bne, h]
    rw [← decide_not]
    congr 1
    rw [Int.not_le]

theorem IN.abs_spec (a : Bytes) (ha : a ≠ []) :
    ∃ x, IN.abs a = .ok x ∧ x.length = a.length ∧ val x = val a % (256 ^ a.length / 2) := by
  obtain ⟨init, last, rfl, h1, h2, h3, h4⟩ := top_byte a ha
  unfold IN.abs
  rw [h1]
  refine ⟨_, rfl, by simp, ?_⟩
  rw [h2, h3]
  simp only [List.dropLast_concat]
  rw [val_append, modulus_bytes]
  simp only [val, Nat.mul_zero, Nat.add_zero]
  rw [clear_top_bit]
  have e : 256 ^ (init.length + 1) / 2 = 256 ^ init.length * 128 := by
    rw [Nat.pow_succ]; omega
  rw [e, Nat.mod_mul, Nat.add_mul_mod_self_left, Nat.mod_eq_of_lt h4,
    Nat.add_mul_div_left _ _ (by positivity), Nat.div_eq_of_lt h4, Nat.zero_add]

theorem lexCmp_eq (a b : Bytes) (h : a.length = b.length) : IN.lexCmp a b = .eq ↔ a = b := by
  induction a generalizing b with
  | nil =>
    have : b = [] := List.length_eq_zero_iff.mp (by simpa using h.symm)
    subst this
    simp [IN.lexCmp]
  | cons x xs ih =>
    match b, h with
    | y :: ys, h =>
      rw [IN.lexCmp, List.cons.injEq, ← ih ys (by simpa using h), ← limbCmp_eq_eq x y]
      cases limbCmp x y <;> simp [Ordering.then]

theorem lexCmp_low (a b : Bytes) (h : a.length = b.length) (i : Nat)
    (hl : ∀ j < i, a.getD j 0 = b.getD j 0) (hi : a.getD i 0 ≠ b.getD i 0) :
    IN.lexCmp a b = compare (a.getD i 0).toNat (b.getD i 0).toNat := by
  induction a generalizing b i with
  | nil =>
    have : b = [] := List.length_eq_zero_iff.mp (by simpa using h.symm)
    subst this
    exact absurd rfl hi
  | cons x xs ih =>
    match b, h with
    | y :: ys, h =>
      rw [IN.lexCmp]
      cases i with
      | zero =>
        simp only [List.getD_cons_zero] at hi ⊢
        have hne : limbCmp x y ≠ .eq := fun e => hi ((limbCmp_eq_eq x y).mp e)
        change (limbCmp x y).then _ = limbCmp x y
        cases hc : limbCmp x y
        · rfl
        · exact absurd hc hne
        · rfl
      | succ i =>
        have h0 := hl 0 (by omega)
        simp only [List.getD_cons_zero] at h0
        subst h0
        rw [(limbCmp_eq_eq x x).mpr rfl]
        simp only [Ordering.then, List.getD_cons_succ] at hi ⊢
        exact ih ys (by simpa using h) i (fun j hj => by simpa using hl (j + 1) (by omega)) hi

theorem lexCmp_elementCmp (a b : Bytes) (h : a.length = b.length) :
    IN.lexCmp a b = elementCmp a b := by
  by_cases e : a = b
  · rw [(lexCmp_eq a b h).mpr e, (elementCmp_eq a b).mpr (by rw [e])]
  · have hex : ∃ i, a.getD i 0 ≠ b.getD i 0 := by
      by_contra hc
      push Not at hc
      exact e (eq_of_val_eq h ((val_eq_iff a b).mpr fun j _ => hc j))
    classical
    have h1 := Nat.find_spec hex
    have h2 : ∀ j < Nat.find hex, a.getD j 0 = b.getD j 0 := fun j hj => by
      have := Nat.find_min hex hj
      simpa using this
    rw [lexCmp_low a b h _ h2 h1, elementCmp_low a b _ h2 h1]
    rfl

end Verif
