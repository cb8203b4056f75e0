import Verif.Spec.Order
import Verif.Lemmas.CmpBits
import Verif.Lemmas.BigInt
import Verif.Lemmas.IInt

/-!
# Helper lemmas: the comparisons as comparisons of integer keys
-/

namespace Verif

variable {w : Nat}

theorem TotalOrder.of_key {α : Type} {P : α → Prop} {same : α → α → Prop}
    {cmp : α → α → Ordering} (key : α → Int)
    (hc : ∀ a b, P a → P b → cmp a b = compare (key a) (key b))
    (hs : ∀ a b, P a → P b → (key a = key b ↔ same a b)) : TotalOrder P same cmp where
  eq_iff a b ha hb := by rw [hc a b ha hb, compare_eq_iff_eq, hs a b ha hb]
  swap a b ha hb := by
    rw [hc a b ha hb, hc b a hb ha]
    rcases lt_trichotomy (key a) (key b) with h | h | h
    · rw [compare_lt_iff_lt.mpr h, compare_gt_iff_gt.mpr h]; rfl
    · rw [compare_eq_iff_eq.mpr h, compare_eq_iff_eq.mpr h.symm]; rfl
    · rw [compare_lt_iff_lt.mpr h, compare_gt_iff_gt.mpr h]; rfl
  trans a b c ha hb hcc h1 h2 := by
    rw [hc a b ha hb, ne_eq, compare_gt_iff_gt] at h1
    rw [hc b c hb hcc, ne_eq, compare_gt_iff_gt] at h2
    rw [hc a c ha hcc, ne_eq, compare_gt_iff_gt]
    omega

theorem bigEnd_append_one (s : List (BitVec w)) (x : BitVec w) :
    bigEnd (s ++ [x]) = bigEnd s * 2 ^ w + x.toNat := by simp [bigEnd]

theorem bigEnd_reverse (s : List (BitVec w)) : bigEnd s.reverse = val s := by
  induction s with
  | nil => rfl
  | cons x xs ih => rw [List.reverse_cons, bigEnd_append_one, ih, val_cons]; ring

theorem bigEnd_eq (s : List (BitVec w)) : bigEnd s = val s.reverse := by
  rw [← bigEnd_reverse, List.reverse_reverse]

theorem bigEnd_cons (x : BitVec w) (s : List (BitVec w)) :
    bigEnd (x :: s) = x.toNat * 2 ^ (w * s.length) + bigEnd s := by
  rw [bigEnd_eq, List.reverse_cons, val_append, bigEnd_eq]
  simp [modulus]; ring

theorem bigEnd_lt (s : List (BitVec w)) : bigEnd s < 2 ^ (w * s.length) := by
  rw [bigEnd_eq]
  have := val_lt s.reverse
  simpa [modulus] using this

theorem bigEnd_inj {s t : List (BitVec w)} (h : s.length = t.length) :
    bigEnd s = bigEnd t ↔ s = t := by
  constructor
  · intro e
    rw [bigEnd_eq, bigEnd_eq] at e
    have := eq_of_val_eq (by simpa using h) e
    exact List.reverse_injective this
  · rintro rfl; rfl

theorem compare_digits {x y B p q : Nat} (hp : p < B) (hq : q < B) :
    compare (x * B + p) (y * B + q) = (compare x y).then (compare p q) := by
  rcases lt_trichotomy x y with h | h | h
  · rw [compare_lt_iff_lt.mpr h]
    change _ = Ordering.lt
    rw [compare_lt_iff_lt]
    have : (x + 1) * B ≤ y * B := Nat.mul_le_mul_right _ h
    rw [Nat.add_mul] at this
    omega
  · subst h
    rw [compare_eq_iff_eq.mpr rfl, Ordering.then]
    rcases lt_trichotomy p q with h | h | h
    · rw [compare_lt_iff_lt.mpr h, compare_lt_iff_lt]; omega
    · rw [compare_eq_iff_eq.mpr h, compare_eq_iff_eq]; omega
    · rw [compare_gt_iff_gt.mpr h, compare_gt_iff_gt]; omega
  · rw [compare_gt_iff_gt.mpr h]
    change _ = Ordering.gt
    rw [compare_gt_iff_gt]
    have : (y + 1) * B ≤ x * B := Nat.mul_le_mul_right _ h
    rw [Nat.add_mul] at this
    omega

/-- The lowest differing limb, if the values differ. -/
theorem exists_low_diff {l r : List (BitVec w)} (h : val l ≠ val r) :
    ∃ i, (∀ j < i, l.getD j 0 = r.getD j 0) ∧ l.getD i 0 ≠ r.getD i 0 := by
  have hex : ∃ i, l.getD i 0 ≠ r.getD i 0 := by
    by_contra hc
    push Not at hc
    exact h ((val_eq_iff l r).mpr fun j _ => hc j)
  classical
  refine ⟨Nat.find hex, fun j hj => ?_, Nat.find_spec hex⟩
  have := Nat.find_min hex hj
  simpa using this

/-- The comparison of slices of equal length is the order of their big-endian readings. -/
theorem elementCmp_bigEnd (l : List (BitVec w)) : ∀ (r : List (BitVec w)), l.length = r.length →
    elementCmp l r = compare (bigEnd l) (bigEnd r) := by
  induction l with
  | nil =>
    intro r h
    have : r = [] := List.length_eq_zero_iff.mp (by simpa using h.symm)
    subst this
    rw [compare_eq_iff_eq.mpr rfl]; rfl
  | cons x xs ih =>
    intro r h
    cases r with
    | nil => simp at h
    | cons y ys =>
      have hl : xs.length = ys.length := by simpa using h
      rw [bigEnd_cons, bigEnd_cons, ← hl, compare_digits (bigEnd_lt xs) (by rw [hl]; exact bigEnd_lt ys),
        ← ih ys hl]
      by_cases hxy : x = y
      · subst hxy
        rw [compare_eq_iff_eq.mpr rfl, Ordering.then]
        by_cases hv : val xs = val ys
        · rw [(elementCmp_eq _ _).mpr hv, (elementCmp_eq _ _).mpr (by simp [hv])]
        · obtain ⟨i, h1, h2⟩ := exists_low_diff hv
          rw [elementCmp_low xs ys i h1 h2, elementCmp_low (x :: xs) (x :: ys) (i + 1) ?_ (by simpa using h2)]
          · simp
          · intro j hj
            cases j with
            | zero => simp
            | succ j => simpa using h1 j (by omega)
      · rw [elementCmp_low (x :: xs) (y :: ys) 0 (by omega) (by simpa using hxy)]
        have hne : x.toNat ≠ y.toNat := fun e => hxy (BitVec.eq_of_toNat_eq e)
        simp only [List.getD_cons_zero, limbCmp]
        rcases Nat.lt_or_gt_of_ne hne with c | c
        · rw [compare_lt_iff_lt.mpr c]; rfl
        · rw [compare_gt_iff_gt.mpr c]; rfl

/-- Zero limbs added at the top do not change the comparison. -/
theorem elementCmp_pad (l r : List (BitVec w)) (m n : Nat) :
    elementCmp (l ++ List.replicate m 0) (r ++ List.replicate n 0) = elementCmp l r := by
  have hg : ∀ (s : List (BitVec w)) (k j : Nat), (s ++ List.replicate k 0).getD j 0 = s.getD j 0 := by
    intro s k j
    simp only [List.getD_eq_getElem?_getD]
    by_cases hj : j < s.length
    · rw [List.getElem?_append_left hj]
    · rw [List.getElem?_append_right (by omega), List.getElem?_eq_none (by omega : s.length ≤ j)]
      by_cases hk : j - s.length < k
      · simp [hk]
      · simp [hk]
  by_cases hv : val l = val r
  · rw [(elementCmp_eq _ _).mpr hv, (elementCmp_eq _ _).mpr]
    simp [val_append, hv]
  · obtain ⟨i, h1, h2⟩ := exists_low_diff hv
    rw [elementCmp_low l r i h1 h2, elementCmp_low _ _ i (fun j hj => by rw [hg, hg, h1 j hj])
      (by rw [hg, hg]; exact h2), hg, hg]

/-- The comparison of slices of any lengths. -/
theorem elementCmp_key (l r : List (BitVec w)) (n : Nat) (hl : l.length ≤ n) (hr : r.length ≤ n) :
    elementCmp l r = compare (bigEnd (l ++ List.replicate (n - l.length) 0))
      (bigEnd (r ++ List.replicate (n - r.length) 0)) := by
  rw [← elementCmp_pad l r (n - l.length) (n - r.length), elementCmp_bigEnd]
  simp; omega

/-! ## `I<N>` -/

/-- Sort key of an `I<N>`. -/
def iKey (a : Bytes) : Int :=
  if sval a < 0 then (bigEnd a : Int) - 2 ^ (8 * a.length) else bigEnd a

theorem icmp_key (a b : Bytes) (ha : a ≠ []) (h : b.length = a.length) :
    IN.cmp a b = .ok (compare (iKey a) (iKey b)) := by
  have hb : b ≠ [] := by
    intro e; subst e
    exact ha (List.length_eq_zero_iff.mp (by simpa using h.symm))
  unfold IN.cmp
  rw [IN.isNegative_spec a ha, IN.isNegative_spec b hb]
  simp only [Res.bind]
  have h1 : (bigEnd a : Int) < 2 ^ (8 * a.length) := by exact_mod_cast bigEnd_lt a
  have h2 : (bigEnd b : Int) < 2 ^ (8 * a.length) := by rw [← h]; exact_mod_cast bigEnd_lt b
  unfold iKey
  rw [h]
  have hlex := lexCmp_elementCmp a b h.symm
  rw [elementCmp_bigEnd a b h.symm] at hlex
  by_cases p : sval a < 0 <;> by_cases q : sval b < 0 <;>
    simp only [p, q, decide_true, decide_false, if_true, if_false, IN.boolCmp, Ordering.swap, hlex,
      Res.ok.injEq]
  · rcases lt_trichotomy (bigEnd a) (bigEnd b) with c | c | c
    · rw [compare_lt_iff_lt.mpr c, eq_comm, compare_lt_iff_lt]; omega
    · rw [compare_eq_iff_eq.mpr c, eq_comm, compare_eq_iff_eq]; omega
    · rw [compare_gt_iff_gt.mpr c, eq_comm, compare_gt_iff_gt]; omega
  · rw [eq_comm, compare_lt_iff_lt]; omega
  · rw [eq_comm, compare_gt_iff_gt]; omega
  · rcases lt_trichotomy (bigEnd a) (bigEnd b) with c | c | c
    · rw [compare_lt_iff_lt.mpr c, eq_comm, compare_lt_iff_lt]; omega
    · rw [compare_eq_iff_eq.mpr c, eq_comm, compare_eq_iff_eq]; omega
    · rw [compare_gt_iff_gt.mpr c, eq_comm, compare_gt_iff_gt]; omega

/-! ## `BigInt` -/

open BInt

/-- Sort key of a magnitude. -/
def magKey (s : List (BitVec 64)) : Nat := 2 ^ (64 * s.length) + bigEnd s

theorem magKey_lt_of_length {s t : List (BitVec 64)} (h : s.length < t.length) :
    magKey s < magKey t := by
  unfold magKey
  have h1 := bigEnd_lt s
  have : 2 * 2 ^ (64 * s.length) ≤ 2 ^ (64 * t.length) := by
    rw [← Nat.pow_succ']
    exact Nat.pow_le_pow_right (by norm_num) (by omega)
  omega

theorem magCmp_key (s t : List (BitVec 64)) : magCmp s t = compare (magKey s) (magKey t) := by
  unfold magCmp
  by_cases h : s.length = t.length
  · rw [if_neg (by simpa using h), zipCmp_elementCmp s t h, elementCmp_bigEnd s t h]
    unfold magKey
    rw [h]
    rcases lt_trichotomy (bigEnd s) (bigEnd t) with c | c | c
    · rw [compare_lt_iff_lt.mpr c, eq_comm, compare_lt_iff_lt]; omega
    · rw [compare_eq_iff_eq.mpr c, eq_comm, compare_eq_iff_eq]; omega
    · rw [compare_gt_iff_gt.mpr c, eq_comm, compare_gt_iff_gt]; omega
  · rw [if_pos h]
    rcases Nat.lt_or_gt_of_ne h with c | c
    · rw [compare_lt_iff_lt.mpr c, compare_lt_iff_lt.mpr (magKey_lt_of_length c)]
    · rw [compare_gt_iff_gt.mpr c, compare_gt_iff_gt.mpr (magKey_lt_of_length c)]

theorem magKey_inj {s t : List (BitVec 64)} : magKey s = magKey t ↔ s = t := by
  constructor
  · intro h
    rcases lt_trichotomy s.length t.length with c | c | c
    · have := magKey_lt_of_length c; omega
    · unfold magKey at h
      rw [c] at h
      exact (bigEnd_inj c).mp (by omega)
    · have := magKey_lt_of_length c; omega
  · rintro rfl; rfl

/-- Sort key of a `BigInt`. -/
def bKey (a : BInt) : Int := if a.neg then -(magKey a.limbs : Int) else magKey a.limbs

theorem bcmp_key (a b : BInt) : BInt.cmp a b = compare (bKey a) (bKey b) := by
  by_cases e : a = b
  · subst e
    rw [cmp_eq_self, compare_eq_iff_eq.mpr rfl]
  have hpos : ∀ s : List (BitVec 64), 0 < magKey s := fun s => by
    unfold magKey; have := Nat.two_pow_pos (64 * s.length); omega
  have p1 := hpos a.limbs
  have p2 := hpos b.limbs
  have hk := magCmp_key a.limbs b.limbs
  unfold magCmp at hk
  unfold BInt.cmp
  rw [if_neg e]
  unfold isNegative isPositive bKey
  cases ea : a.neg <;> cases eb : b.neg <;>
    simp only [Bool.false_eq_true, Bool.not_false, Bool.not_true, and_true,
      and_false, if_true, if_false, and_self]
  · rw [hk]
    rcases Nat.lt_trichotomy (magKey a.limbs) (magKey b.limbs) with c | c | c
    · rw [compare_lt_iff_lt.mpr c, eq_comm, compare_lt_iff_lt]; exact_mod_cast c
    · rw [compare_eq_iff_eq.mpr c, eq_comm, compare_eq_iff_eq]; exact_mod_cast c
    · rw [compare_gt_iff_gt.mpr c, eq_comm, compare_gt_iff_gt]; exact_mod_cast c
  · rw [eq_comm, compare_gt_iff_gt]; omega
  · rw [eq_comm, compare_lt_iff_lt]; omega
  · rw [hk]
    rcases Nat.lt_trichotomy (magKey a.limbs) (magKey b.limbs) with c | c | c
    · rw [compare_lt_iff_lt.mpr c, eq_comm]
      change _ = Ordering.gt
      rw [compare_gt_iff_gt]; omega
    · rw [compare_eq_iff_eq.mpr c, eq_comm]
      change _ = Ordering.eq
      rw [compare_eq_iff_eq]; omega
    · rw [compare_gt_iff_gt.mpr c, eq_comm]
      change _ = Ordering.lt
      rw [compare_lt_iff_lt]; omega

end Verif
