import Mathlib.Order.Compare
import Mathlib.Algebra.Order.Ring.Int
import Mathlib.Tactic.Linarith
import Verif.Spec.BigInt
import Verif.Lemmas.Val
import Verif.Lemmas.AddSub
import Verif.Lemmas.Mul
import Verif.Lemmas.CmpBits
import Verif.Lemmas.Shift
import Verif.Lemmas.Div
import Verif.Lemmas.Conv

/-!
# Helper lemmas: `BigInt`
-/

namespace Verif

namespace BInt

theorem Rep.norm {b : BInt} (h : Rep b) : Norm b.limbs := by
  unfold Rep at h
  unfold limbs
  cases hm : b.mag with
  | inline v => exact ⟨by simp, Or.inl rfl⟩
  | slice s => rw [hm] at h; exact h.1

theorem Canon.norm {b : BInt} (h : Canon b) : Norm b.limbs := h.1.norm

theorem inlineMax_eq : inlineMax = 2 ^ 62 - 1 := by decide

theorem val_one (v : BitVec 64) : val [v] = v.toNat := by simp [val]

theorem newSlice_spec (s : List (BitVec 64)) (hs : s ≠ []) (neg : Bool) :
    ∃ b, newSlice s neg = .ok b ∧ Canon b ∧ val b.limbs = val s ∧
      ival b = if neg then -(val s : Int) else (val s : Int) := by
  obtain ⟨t, h1, h2, h3, h4⟩ := shrink_ok s hs
  unfold newSlice
  rw [h1]
  simp only [Res.bind]
  by_cases hc : t.length = 1 ∧ (t.getD 0 0).toNat ≤ inlineMax
  · rw [if_pos hc]
    obtain ⟨v, rfl⟩ := List.length_eq_one_iff.mp hc.1
    have hv := hc.2
    simp only [List.getD_cons_zero] at hv ⊢
    unfold newInline
    rw [if_pos hv]
    have hval : val [v] = v.toNat := val_one v
    refine ⟨_, rfl, ⟨?_, ?_⟩, ?_, ?_⟩
    · have : v.toNat < 2 ^ 62 := by rw [inlineMax_eq] at hv; omega
      exact this
    · intro hn
      simp only [Bool.and_eq_true, decide_eq_true_eq] at hn
      change val [v] ≠ 0
      rw [hval]
      intro h0
      exact hn.1 (BitVec.eq_of_toNat_eq (by simpa using h0))
    · rw [← h2]; rfl
    · unfold ival
      change (if _ then -(val [v] : Int) else (val [v] : Int)) = _
      rw [h2]
      cases neg
      · simp
      · by_cases h0 : v = 0
        · subst h0
          have : val s = 0 := by rw [← h2, hval]; rfl
          simp [this]
        · have : (decide (v ≠ 0) && true) = true := by simpa using h0
          rw [this]
  · rw [if_neg hc]
    have hbig : 2 ^ 62 ≤ val t := by
      rcases h3.lower with hl | hl
      · obtain ⟨v, rfl⟩ := List.length_eq_one_iff.mp hl
        have : ¬ v.toNat ≤ inlineMax := fun h => hc ⟨rfl, by simpa using h⟩
        rw [val_one, inlineMax_eq] at *
        omega
      · rcases Nat.lt_or_ge t.length 2 with hlt | hge
        · have h1 : t.length = 1 := by
            have := List.length_pos_iff.mpr h3.1; omega
          obtain ⟨v, rfl⟩ := List.length_eq_one_iff.mp h1
          have : ¬ v.toNat ≤ inlineMax := fun h => hc ⟨rfl, by simpa using h⟩
          rw [val_one, inlineMax_eq] at *
          omega
        · refine le_trans ?_ hl
          exact Nat.pow_le_pow_right (by norm_num) (by omega)
    refine ⟨_, rfl, ⟨⟨h3, hbig⟩, ?_⟩, h2, ?_⟩
    · intro _
      change val t ≠ 0
      have : 0 < 2 ^ 62 := by norm_num
      omega
    · unfold ival newIntern
      change (if neg then -(val t : Int) else (val t : Int)) = _
      rw [h2]

theorem finish_spec (x : Res (List (BitVec 64) × Bool)) (out : List (BitVec 64)) (neg : Bool)
    (hx : x = .ok (out, neg)) (hout : out ≠ []) :
    ∃ b, finish x = .ok b ∧ Canon b ∧ val b.limbs = val out ∧
      ival b = if neg then -(val out : Int) else (val out : Int) := by
  subst hx
  exact newSlice_spec out hout neg

/-- Equal magnitudes and signs: equal representations. -/
theorem Rep.ext {a b : BInt} (ha : Rep a) (hb : Rep b) (hn : a.neg = b.neg)
    (hv : val a.limbs = val b.limbs) : a = b := by
  obtain ⟨na, ma⟩ := a
  obtain ⟨nb, mb⟩ := b
  simp only at hn
  subst hn
  congr 1
  cases ma with
  | inline v =>
    cases mb with
    | inline v' =>
      change val [v] = val [v'] at hv
      rw [val_one, val_one] at hv
      rw [BitVec.eq_of_toNat_eq hv]
    | slice s =>
      change val [v] = val s at hv
      rw [val_one] at hv
      have h1 : v.toNat < 2 ^ 62 := ha
      have h2 : 2 ^ 62 ≤ val s := hb.2
      omega
  | slice s =>
    cases mb with
    | inline v =>
      change val s = val [v] at hv
      rw [val_one] at hv
      have h1 : v.toNat < 2 ^ 62 := hb
      have h2 : 2 ^ 62 ≤ val s := ha.2
      omega
    | slice s' =>
      congr 1
      exact Norm.unique ha.1 hb.1 hv

theorem Canon.ext {a b : BInt} (ha : Canon a) (hb : Canon b) (h : ival a = ival b) : a = b := by
  unfold ival at h
  have h1 := ha.2
  have h2 := hb.2
  apply Rep.ext ha.1 hb.1
  · cases ea : a.neg <;> cases eb : b.neg <;> rw [ea] at h h1 <;> rw [eb] at h h2 <;> simp at * <;>
      omega
  · cases ea : a.neg <;> cases eb : b.neg <;> rw [ea] at h h1 <;> rw [eb] at h h2 <;> simp at * <;>
      omega

/-! ## Comparison -/

theorem zipCmp_eq (a b : List (BitVec 64)) (h : a.length = b.length) :
    zipCmp a b = .eq ↔ a = b := by
  induction a generalizing b with
  | nil =>
    have : b = [] := List.length_eq_zero_iff.mp (by simpa using h.symm)
    subst this
    simp [zipCmp]
  | cons x xs ih =>
    match b, h with
    | y :: ys, h =>
      rw [zipCmp, List.cons.injEq, ← ih ys (by simpa using h)]
      have hx : compare x.toNat y.toNat = .eq ↔ x = y := by
        rw [compare_eq_iff_eq]
        exact ⟨BitVec.eq_of_toNat_eq, fun e => by rw [e]⟩
      rw [← hx]
      cases compare x.toNat y.toNat <;> simp

theorem zipCmp_low (a b : List (BitVec 64)) (h : a.length = b.length) (i : Nat)
    (hl : ∀ j < i, a.getD j 0 = b.getD j 0) (hi : a.getD i 0 ≠ b.getD i 0) :
    zipCmp a b = compare (a.getD i 0).toNat (b.getD i 0).toNat := by
  induction a generalizing b i with
  | nil =>
    have : b = [] := List.length_eq_zero_iff.mp (by simpa using h.symm)
    subst this
    exact absurd rfl hi
  | cons x xs ih =>
    match b, h with
    | y :: ys, h =>
      rw [zipCmp]
      cases i with
      | zero =>
        simp only [List.getD_cons_zero] at hi ⊢
        have hne : compare x.toNat y.toNat ≠ .eq := by
          rw [Ne, compare_eq_iff_eq]
          exact fun e => hi (BitVec.eq_of_toNat_eq e)
        cases hc : compare x.toNat y.toNat
        · rfl
        · exact absurd hc hne
        · rfl
      | succ i =>
        have h0 := hl 0 (by omega)
        simp only [List.getD_cons_zero] at h0
        subst h0
        rw [compare_eq_iff_eq.mpr rfl]
        simp only [List.getD_cons_succ] at hi ⊢
        exact ih ys (by simpa using h) i (fun j hj => by simpa using hl (j + 1) (by omega)) hi

theorem zipCmp_elementCmp (a b : List (BitVec 64)) (h : a.length = b.length) :
    zipCmp a b = elementCmp a b := by
  by_cases e : a = b
  · rw [(zipCmp_eq a b h).mpr e, (elementCmp_eq a b).mpr (by rw [e])]
  · have hex : ∃ i, a.getD i 0 ≠ b.getD i 0 := by
      by_contra hc
      push Not at hc
      exact e (eq_of_val_eq h ((val_eq_iff a b).mpr fun j _ => hc j))
    classical
    have h1 := Nat.find_spec hex
    have h2 : ∀ j < Nat.find hex, a.getD j 0 = b.getD j 0 := fun j hj => by
      have := Nat.find_min hex hj
      simpa using this
    rw [zipCmp_low a b h _ h2 h1, elementCmp_low a b _ h2 h1]
    rfl

/-- The magnitude comparison inside `cmp`. -/
def magCmp (l r : List (BitVec 64)) : Ordering :=
  if l.length ≠ r.length then compare l.length r.length else zipCmp l r

/-- When the code's comparison of magnitudes is right. -/
def Comparable (l r : List (BitVec 64)) : Prop :=
  l.length ≠ r.length ∨ ∃ i, ∀ j, j ≠ i → l.getD j 0 = r.getD j 0

theorem Comparable.symm {l r : List (BitVec 64)} (h : Comparable l r) : Comparable r l := by
  rcases h with h | ⟨i, h⟩
  · exact .inl (Ne.symm h)
  · exact .inr ⟨i, fun j hj => (h j hj).symm⟩

/-- One limb against anything. -/
theorem comparable_one {l r : List (BitVec 64)} (hl : l.length = 1) :
    Comparable l r := by
  by_cases h : l.length = r.length
  · right
    refine ⟨0, fun j hj => ?_⟩
    rw [getD_of_ge _ _ (by omega), getD_of_ge _ _ (by omega)]
  · exact .inl h

theorem length_lt_of_val' {l r : List (BitVec 64)} (hl : Norm l) (hr : Norm r)
    (h : l.length < r.length) : val l < val r := by
  rcases hr.lower with h2 | h2
  · have := List.length_pos_iff.mpr hl.1; omega
  · have h1 := val_lt l
    unfold modulus at h1
    refine lt_of_lt_of_le h1 (le_trans ?_ h2)
    exact Nat.pow_le_pow_right (by norm_num) (by omega)

theorem magCmp_spec {l r : List (BitVec 64)} (hl : Norm l) (hr : Norm r) (h : Comparable l r) :
    magCmp l r = compare (val l) (val r) := by
  unfold magCmp
  by_cases hlen : l.length = r.length
  · rw [if_neg (by simpa using hlen), zipCmp_elementCmp l r hlen]
    rcases h with h | ⟨i, h⟩
    · exact absurd hlen h
    · exact elementCmp_one_limb l r i h
  · rw [if_pos hlen]
    rcases Nat.lt_or_gt_of_ne hlen with hlt | hlt
    · rw [compare_lt_iff_lt.mpr hlt, compare_lt_iff_lt.mpr (length_lt_of_val' hl hr hlt)]
    · rw [compare_gt_iff_gt.mpr hlt, compare_gt_iff_gt.mpr (length_lt_of_val' hr hl hlt)]

theorem cmp_eq_self (a : BInt) : cmp a a = .eq := by unfold cmp; rw [if_pos rfl]

/-- `cmp` is right when the signs differ or the magnitudes are comparable. -/
theorem cmp_spec {a b : BInt} (ha : Canon a) (hb : Canon b)
    (h : a.neg ≠ b.neg ∨ Comparable a.limbs b.limbs) :
    cmp a b = compare (ival a) (ival b) := by
  by_cases e : a = b
  · subst e
    rw [cmp_eq_self, compare_eq_iff_eq.mpr rfl]
  unfold cmp
  rw [if_neg e]
  have h1 := ha.2
  have h2 := hb.2
  unfold isNegative isPositive ival
  cases ea : a.neg <;> cases eb : b.neg <;> rw [ea] at h1 <;> rw [eb] at h2 <;>
    simp only [Bool.false_eq_true, Bool.not_false, Bool.not_true, and_true,
      and_false, if_true, if_false, and_self]
  · rcases h with h | h
    · rw [ea, eb] at h; exact absurd rfl h
    · have := magCmp_spec ha.norm hb.norm h
      unfold magCmp at this
      rw [this]
      rcases Nat.lt_trichotomy (val a.limbs) (val b.limbs) with hlt | heq | hgt
      · rw [compare_lt_iff_lt.mpr hlt, eq_comm, compare_lt_iff_lt]; exact_mod_cast hlt
      · rw [compare_eq_iff_eq.mpr heq, eq_comm, compare_eq_iff_eq]; exact_mod_cast heq
      · rw [compare_gt_iff_gt.mpr hgt, eq_comm, compare_gt_iff_gt]; exact_mod_cast hgt
  · rw [eq_comm, compare_gt_iff_gt]
    have := h2 rfl
    omega
  · rw [eq_comm, compare_lt_iff_lt]
    have := h1 rfl
    omega
  · rcases h with h | h
    · rw [ea, eb] at h; exact absurd rfl h
    · have := magCmp_spec ha.norm hb.norm h
      unfold magCmp at this
      rw [this]
      rcases Nat.lt_trichotomy (val a.limbs) (val b.limbs) with hlt | heq | hgt
      · rw [compare_lt_iff_lt.mpr hlt, eq_comm]
        change _ = Ordering.gt
        rw [compare_gt_iff_gt]; omega
      · rw [compare_eq_iff_eq.mpr heq, eq_comm]
        change _ = Ordering.eq
        rw [compare_eq_iff_eq]; omega
      · rw [compare_gt_iff_gt.mpr hgt, eq_comm]
        change _ = Ordering.lt
        rw [compare_lt_iff_lt]; omega

theorem compare_gt_iff (x y : Int) : compare x y = .gt ↔ y < x := compare_gt_iff_gt
theorem compare_lt_iff (x y : Int) : compare x y = .lt ↔ x < y := compare_lt_iff_lt

/-! ## Conversions from primitives -/

theorem arrSize_fits (t : Nat) : t ≤ 64 * arrSize t := by unfold arrSize; omega

theorem fromU_spec {t : Nat} (ht : 0 < t) (v : BitVec t) :
    ∃ b, fromU t v = .ok b ∧ Canon b ∧ val b.limbs = v.toNat ∧ ival b = v.toNat := by
  obtain ⟨a, h1, h2, h3⟩ := intToArr_spec (u := 64) ht (arrSize t) (by unfold arrSize; omega) v
  rw [Nat.mod_eq_of_lt (lt_of_lt_of_le v.isLt
    (Nat.pow_le_pow_right (by norm_num) (arrSize_fits t)))] at h3
  have hne : a ≠ [] := by rintro rfl; unfold arrSize at h2; simp at h2
  obtain ⟨b, g1, g2, g3, g4⟩ := newSlice_spec a hne false
  unfold fromU
  rw [h1]
  exact ⟨b, g1, g2, by rw [g3, h3], by rw [g4, h3]; rfl⟩

theorem unsignedAbs_spec {t : Nat} (v : BitVec t) :
    (unsignedAbs v).toNat = v.toInt.natAbs := by
  unfold unsignedAbs
  split
  · rename_i h
    rw [BitVec.toInt_eq_toNat_cond] at h ⊢
    rw [BitVec.toNat_neg]
    have := v.isLt
    split at h
    · omega
    · rw [if_neg (by assumption)]
      rw [Nat.mod_eq_of_lt (by omega)]
      omega
  · rename_i h
    rw [BitVec.toInt_eq_toNat_cond] at h ⊢
    have := v.isLt
    split at h
    · rw [if_pos (by assumption)]; omega
    · omega

theorem fromS_spec {t : Nat} (ht : 0 < t) (v : BitVec t) :
    ∃ b, fromS t v = .ok b ∧ Canon b ∧ val b.limbs = v.toInt.natAbs ∧ ival b = v.toInt := by
  obtain ⟨a, h1, h2, h3⟩ := intToArr_spec (u := 64) ht (arrSize t) (by unfold arrSize; omega)
    (unsignedAbs v)
  rw [Nat.mod_eq_of_lt (lt_of_lt_of_le (unsignedAbs v).isLt
    (Nat.pow_le_pow_right (by norm_num) (arrSize_fits t)))] at h3
  have hne : a ≠ [] := by rintro rfl; unfold arrSize at h2; simp at h2
  obtain ⟨b, g1, g2, g3, g4⟩ := newSlice_spec a hne (decide (v.toInt < 0))
  unfold fromS
  rw [h1]
  rw [unsignedAbs_spec] at h3
  refine ⟨b, g1, g2, by rw [g3, h3], ?_⟩
  rw [g4, h3]
  by_cases h : v.toInt < 0
  · rw [if_pos (by simpa using h)]; omega
  · rw [if_neg (by simpa using h)]; omega

theorem length_one_of_lt {l : List (BitVec 64)} (h : Norm l) (hv : val l < 2 ^ 64) :
    l.length = 1 := by
  rcases h.lower with h1 | h1
  · exact h1
  · by_contra hne
    have := List.length_pos_iff.mpr h.1
    have h2 : 2 ^ 64 ≤ 2 ^ (64 * (l.length - 1)) :=
      Nat.pow_le_pow_right (by norm_num) (by omega)
    omega

end BInt

end Verif
