import Verif.Model.Bitwise
import Verif.Lemmas.Shift

/-!
# Helper lemmas: comparison and bit operations
-/

namespace Verif

open BitSlice

variable {w : Nat}

/-- The loop of `elementCmp` after `n` iterations. -/
def cmpLoop (l r : List (BitVec w)) (n : Nat) : Option Ordering :=
  forUp n (fun idx (ret : Option Ordering) =>
    match ret with
    | some ord => some ord
    | none =>
      match limbCmp (getZ l idx) (getZ r idx) with
      | .eq => none
      | ord => some ord) none

theorem cmpLoop_succ (l r : List (BitVec w)) (n : Nat) :
    cmpLoop l r (n + 1) = match cmpLoop l r n with
      | some ord => some ord
      | none =>
        match limbCmp (l.getD n 0) (r.getD n 0) with
        | .eq => none
        | ord => some ord := by
  simp only [cmpLoop, forUp, getZ_eq]

theorem limbCmp_eq_eq (a b : BitVec w) : limbCmp a b = .eq ↔ a = b := by
  unfold limbCmp
  rw [Nat.compare_eq_eq]
  exact ⟨BitVec.eq_of_toNat_eq, fun h => by rw [h]⟩

theorem cmpLoop_none (l r : List (BitVec w)) (n : Nat) :
    cmpLoop l r n = none ↔ ∀ j < n, l.getD j 0 = r.getD j 0 := by
  induction n with
  | zero => simp [cmpLoop, forUp]
  | succ n ih =>
    rw [cmpLoop_succ]
    constructor
    · intro h
      cases hc : cmpLoop l r n with
      | some o => simp [hc] at h
      | none =>
        rw [hc] at h
        have h1 := ih.mp hc
        intro j hj
        rcases Nat.lt_succ_iff_lt_or_eq.mp hj with h2 | h2
        · exact h1 j h2
        · subst h2
          rw [← limbCmp_eq_eq]
          revert h
          cases limbCmp (l.getD j 0) (r.getD j 0) <;> simp
    · intro h
      rw [ih.mpr fun j hj => h j (by omega)]
      have := (limbCmp_eq_eq _ _).mpr (h n (by omega))
      rw [this]

theorem cmpLoop_some (l r : List (BitVec w)) (n i : Nat) (hi : i < n)
    (hlow : ∀ j < i, l.getD j 0 = r.getD j 0) (hne : l.getD i 0 ≠ r.getD i 0) :
    cmpLoop l r n = some (limbCmp (l.getD i 0) (r.getD i 0)) := by
  induction n with
  | zero => omega
  | succ n ih =>
    rw [cmpLoop_succ]
    rcases Nat.lt_succ_iff_lt_or_eq.mp hi with h | h
    · rw [ih h]
    · subst h
      rw [(cmpLoop_none l r i).mpr hlow]
      have : limbCmp (l.getD i 0) (r.getD i 0) ≠ .eq := fun h => hne ((limbCmp_eq_eq _ _).mp h)
      revert this
      cases limbCmp (l.getD i 0) (r.getD i 0) <;> simp

theorem elementCmp_eq_loop (l r : List (BitVec w)) :
    elementCmp l r = (cmpLoop l r (max l.length r.length)).getD .eq := rfl

/-- Equal values have equal limbs (padding with zeros). -/
theorem val_eq_iff (l r : List (BitVec w)) :
    val l = val r ↔ ∀ j < max l.length r.length, l.getD j 0 = r.getD j 0 := by
  constructor
  · intro h j _
    apply BitVec.eq_of_toNat_eq
    rw [← val_div_mod l j, h, val_div_mod]
  · intro h
    rw [← pv_eq_val l _ (le_max_left l.length r.length),
      ← pv_eq_val r _ (le_max_right l.length r.length)]
    exact pv_congr h

theorem elementCmp_eq (l r : List (BitVec w)) : elementCmp l r = .eq ↔ val l = val r := by
  rw [elementCmp_eq_loop, val_eq_iff]
  constructor
  · intro h
    by_contra hne
    rw [not_forall] at hne
    obtain ⟨j, hne⟩ := hne
    -- least differing limb
    have hex : ∃ j, j < max l.length r.length ∧ l.getD j 0 ≠ r.getD j 0 := by
      refine ⟨j, ?_⟩
      rw [Classical.not_imp] at hne
      exact hne
    classical
    have h1 := Nat.find_spec hex
    have h2 : ∀ k < Nat.find hex, l.getD k 0 = r.getD k 0 := by
      intro k hk
      have := Nat.find_min hex hk
      by_contra h3
      exact this ⟨by omega, h3⟩
    rw [cmpLoop_some l r _ _ h1.1 h2 h1.2] at h
    exact h1.2 ((limbCmp_eq_eq _ _).mp (by simpa using h))
  · intro h
    rw [(cmpLoop_none _ _ _).mpr h]
    rfl

/-- The comparison is decided by the *least* significant differing limb. -/
theorem elementCmp_low (l r : List (BitVec w)) (i : Nat)
    (hlow : ∀ j < i, l.getD j 0 = r.getD j 0) (hne : l.getD i 0 ≠ r.getD i 0) :
    elementCmp l r = limbCmp (l.getD i 0) (r.getD i 0) := by
  have hi : i < max l.length r.length := by
    by_contra h
    rw [getD_of_ge _ _ (by omega), getD_of_ge _ _ (by omega)] at hne
    exact hne rfl
  rw [elementCmp_eq_loop, cmpLoop_some l r _ i hi hlow hne]
  rfl

theorem elementCmp_one_limb (l r : List (BitVec w)) (i : Nat)
    (h : ∀ j, j ≠ i → l.getD j 0 = r.getD j 0) :
    elementCmp l r = compare (val l) (val r) := by
  by_cases hne : l.getD i 0 = r.getD i 0
  · have hv : val l = val r := (val_eq_iff l r).mpr fun j _ => by
      by_cases hj : j = i
      · rw [hj, hne]
      · exact h j hj
    rw [(elementCmp_eq l r).mpr hv, hv]
    exact (Nat.compare_eq_eq.mpr rfl).symm
  · rw [elementCmp_low l r i (fun j hj => h j (by omega)) hne]
    -- values differ by the difference at limb i
    have key : val l + (r.getD i 0).toNat * 2 ^ (w * i) = val r + (l.getD i 0).toNat * 2 ^ (w * i) := by
      have aux : ∀ n, pv l n + (if i < n then (r.getD i 0).toNat * 2 ^ (w * i) else 0)
          = pv r n + (if i < n then (l.getD i 0).toNat * 2 ^ (w * i) else 0) := by
        intro n
        induction n with
        | zero => simp
        | succ n ih =>
          rw [pv_succ, pv_succ]
          by_cases hn : n = i
          · subst hn
            simp only [lt_irrefl, if_false, Nat.lt_succ_self, if_true] at ih ⊢
            omega
          · rw [h n hn]
            have e : (i < n + 1) ↔ (i < n) := by omega
            simp only [e]
            omega
      have hi : i < max l.length r.length := by
        by_contra hc
        rw [getD_of_ge _ _ (by omega), getD_of_ge _ _ (by omega)] at hne
        exact hne rfl
      have := aux (max l.length r.length)
      rw [pv_eq_val _ _ (le_max_left _ _), pv_eq_val _ _ (le_max_right _ _), if_pos hi,
        if_pos hi] at this
      exact this
    have hB : 0 < 2 ^ (w * i) := Nat.two_pow_pos _
    unfold limbCmp
    rcases Nat.lt_trichotomy (l.getD i 0).toNat (r.getD i 0).toNat with c | c | c
    · rw [Nat.compare_eq_lt.mpr c]
      have := Nat.mul_lt_mul_of_pos_right c hB
      exact (Nat.compare_eq_lt.mpr (by omega)).symm
    · exact absurd (BitVec.eq_of_toNat_eq c) hne
    · rw [Nat.compare_eq_gt.mpr c]
      have := Nat.mul_lt_mul_of_pos_right c hB
      exact (Nat.compare_eq_gt.mpr (by omega)).symm

/-! ## Bit operations -/

theorem set_eq (s : List (BitVec w)) (i : Nat) (v : BitVec w) (h : i < s.length) :
    BitSlice.set s i v = .ok (s.set i v) := by
  simp [BitSlice.set, setOpt, h, Res.ofOption]

theorem limbwise (f : BitVec w → BitVec w → BitVec w) (l r : List (BitVec w)) (len : Nat) :
    ∃ out, forUpM len (fun idx out => BitSlice.set out idx (f (getZ l idx) (getZ r idx)))
        (List.replicate len 0) = .ok out ∧ out.length = len ∧
      ∀ j < len, out.getD j 0 = f (l.getD j 0) (r.getD j 0) := by
  obtain ⟨out, h1, h2, h3⟩ := forUpM_inv (fun i (out : List (BitVec w)) => out.length = len ∧
    ∀ j < i, out.getD j 0 = f (l.getD j 0) (r.getD j 0))
    (fun idx out => BitSlice.set out idx (f (getZ l idx) (getZ r idx))) len
    (List.replicate len 0) ⟨by simp, by simp⟩
    (by
      rintro i out hi ⟨g1, g2⟩
      refine ⟨_, set_eq _ _ _ (by omega), by simpa using g1, fun j hj => ?_⟩
      rw [getD_set, getZ_eq, getZ_eq]
      by_cases h : i = j
      · subst h; rw [if_pos ⟨rfl, by omega⟩]
      · rw [if_neg (by tauto), g2 j (by omega)])
  exact ⟨out, h1, h2, h3⟩

theorem bitand_spec (hw : 0 < w) (l r : List (BitVec w)) :
    ∃ out, elementBitand l r = .ok out ∧ out.length = max l.length r.length ∧
      val out = val l &&& val r := by
  obtain ⟨out, h1, h2, h3⟩ := limbwise (· &&& ·) l r (max l.length r.length)
  refine ⟨out, h1, h2, eq_of_bits hw fun j b hb => ?_⟩
  rw [Nat.testBit_and, testBit_val' hw _ _ _ hb, testBit_val' hw _ _ _ hb,
    testBit_val' hw _ _ _ hb]
  by_cases hj : j < max l.length r.length
  · rw [h3 j hj, BitVec.getLsbD_and]
  · rw [getD_of_ge _ _ (by omega), getD_of_ge l _ (by omega), getD_of_ge r _ (by omega)]
    simp

theorem bitor_spec (hw : 0 < w) (l r : List (BitVec w)) :
    ∃ out, elementBitor l r = .ok out ∧ out.length = max l.length r.length ∧
      val out = val l ||| val r := by
  obtain ⟨out, h1, h2, h3⟩ := limbwise (· ||| ·) l r (max l.length r.length)
  refine ⟨out, h1, h2, eq_of_bits hw fun j b hb => ?_⟩
  rw [Nat.testBit_or, testBit_val' hw _ _ _ hb, testBit_val' hw _ _ _ hb,
    testBit_val' hw _ _ _ hb]
  by_cases hj : j < max l.length r.length
  · rw [h3 j hj, BitVec.getLsbD_or]
  · rw [getD_of_ge _ _ (by omega), getD_of_ge l _ (by omega), getD_of_ge r _ (by omega)]
    simp

theorem bitxor_spec (hw : 0 < w) (l r : List (BitVec w)) :
    ∃ out, elementBitxor l r = .ok out ∧ out.length = max l.length r.length ∧
      val out = val l ^^^ val r := by
  obtain ⟨out, h1, h2, h3⟩ := limbwise (· ^^^ ·) l r (max l.length r.length)
  refine ⟨out, h1, h2, eq_of_bits hw fun j b hb => ?_⟩
  rw [Nat.testBit_xor, testBit_val' hw _ _ _ hb, testBit_val' hw _ _ _ hb,
    testBit_val' hw _ _ _ hb]
  by_cases hj : j < max l.length r.length
  · rw [h3 j hj, BitVec.getLsbD_xor]
  · rw [getD_of_ge _ _ (by omega), getD_of_ge l _ (by omega), getD_of_ge r _ (by omega)]
    simp

end Verif
