import Verif.Lemmas.Order
import Verif.Props.BigInt
import Verif.Props.UInt
import Verif.Props.IInt
import Verif.Props.Fixed

/-!
# C05, C31, C39, C47, C113: what order the comparisons implement

The comparisons of slices, `U<N>`, `I<N>` and `BigInt` look at the least significant limb first, so
they are not the numeric order. They are, exactly, the order of the limbs read big-endian
(`bigEnd`, in `Spec/Order.lean`), and as such total orders, so that sorting and ordered maps work.
-/

namespace Verif

open BInt

variable {w : Nat}

/-! ## C05 -/

/-- C05, exact: slices of any lengths, extended with zero limbs to a common length `n`, are compared
by their big-endian readings. So the answer is numerically right if and only if the numbers and
their limb reversals are in the same order. Missing, because false: this is always so. -/
theorem C05_cmp_exact_partial (l r : List (BitVec w)) (n : Nat) (hl : l.length ≤ n)
    (hr : r.length ≤ n) :
    elementCmp l r = compare (bigEnd (l ++ List.replicate (n - l.length) 0))
      (bigEnd (r ++ List.replicate (n - r.length) 0)) :=
  elementCmp_key l r n hl hr

example : elementCmp [1#8, 2#8] [3#8] = .lt ∧ bigEnd [1#8, 2#8] = 0x102 ∧ bigEnd [3#8, 0#8] = 0x300 := by
  decide

/-! ## C31 -/

/-- C31, exact: `U<N>` values are ordered by their bytes read big-endian. -/
theorem C31_order_exact_partial (a b : Bytes) (h : b.length = a.length) :
    UN.cmp a b = compare (beVal a) (beVal b) := by
  have e : ∀ s : Bytes, beVal s = bigEnd s := fun s => rfl
  rw [e, e]
  exact elementCmp_bigEnd a b h.symm

example : UN.cmp [0#8, 1#8] [1#8, 0#8] = .lt ∧ beVal [0#8, 1#8] = 1 ∧ beVal [1#8, 0#8] = 256 := by
  decide

/-! ## C39 -/

/-- C39, exact: negative values come before the others, and values of the same sign are ordered by
their bytes read big-endian. -/
theorem C39_order_exact_partial (a b : Bytes) (ha : a ≠ []) (h : b.length = a.length) :
    (sval a < 0 → 0 ≤ sval b → IN.cmp a b = .ok .lt) ∧
    (0 ≤ sval a → sval b < 0 → IN.cmp a b = .ok .gt) ∧
    ((sval a < 0 ↔ sval b < 0) → IN.cmp a b = .ok (compare (beVal a) (beVal b))) := by
  have e : ∀ s : Bytes, beVal s = bigEnd s := fun s => rfl
  rw [e, e, icmp_key a b ha h]
  have h1 : (bigEnd a : Int) < 2 ^ (8 * a.length) := by exact_mod_cast bigEnd_lt a
  have h2 : (bigEnd b : Int) < 2 ^ (8 * a.length) := by rw [← h]; exact_mod_cast bigEnd_lt b
  unfold iKey
  rw [h]
  refine ⟨fun p q => ?_, fun p q => ?_, fun p => ?_⟩
  · rw [if_pos p, if_neg (by omega), Res.ok.injEq, compare_lt_iff_lt]; omega
  · rw [if_neg (by omega), if_pos q, Res.ok.injEq, compare_gt_iff_gt]; omega
  · rw [Res.ok.injEq]
    by_cases q : sval a < 0
    · rw [if_pos q, if_pos (p.mp q)]
      rcases lt_trichotomy (bigEnd a) (bigEnd b) with c | c | c
      · rw [compare_lt_iff_lt.mpr c, compare_lt_iff_lt]; omega
      · rw [compare_eq_iff_eq.mpr c, compare_eq_iff_eq]; omega
      · rw [compare_gt_iff_gt.mpr c, compare_gt_iff_gt]; omega
    · rw [if_neg q, if_neg (fun hb => q (p.mpr hb))]
      rcases lt_trichotomy (bigEnd a) (bigEnd b) with c | c | c
      · rw [compare_lt_iff_lt.mpr c, compare_lt_iff_lt]; omega
      · rw [compare_eq_iff_eq.mpr c, compare_eq_iff_eq]; omega
      · rw [compare_gt_iff_gt.mpr c, compare_gt_iff_gt]; omega

-- -2 is above -257, but the code puts it below
example : sval [0xFE#8, 0xFF#8] = -2 ∧ sval [0xFF#8, 0xFE#8] = -257 ∧
    IN.cmp [0xFE#8, 0xFF#8] [0xFF#8, 0xFE#8] = .ok .lt := by decide

/-! ## C47 -/

/-- C47, exact: values with the negative flag come first; of two values without it the one with
fewer 64-bit digits is the smaller one, and of two with the same number of digits the one whose
digits read big-endian give the smaller number; for two values with the flag it is the other way
round. -/
theorem C47_cmp_exact_partial (a b : BInt) :
    (a.neg = true → b.neg = false → BInt.cmp a b = .lt) ∧
    (a.neg = false → b.neg = true → BInt.cmp a b = .gt) ∧
    (a.neg = false → b.neg = false → BInt.cmp a b =
      (compare a.limbs.length b.limbs.length).then (compare (bigEnd a.limbs) (bigEnd b.limbs))) ∧
    (a.neg = true → b.neg = true → BInt.cmp a b =
      ((compare a.limbs.length b.limbs.length).then
        (compare (bigEnd a.limbs) (bigEnd b.limbs))).swap) := by
  have hpos : ∀ s : List (BitVec 64), 0 < magKey s := fun s => by
    unfold magKey; have := Nat.two_pow_pos (64 * s.length); omega
  have p1 := hpos a.limbs
  have p2 := hpos b.limbs
  have hm : (compare a.limbs.length b.limbs.length).then (compare (bigEnd a.limbs) (bigEnd b.limbs))
      = compare (magKey a.limbs) (magKey b.limbs) := by
    rw [← magCmp_key]
    unfold magCmp
    by_cases h : a.limbs.length = b.limbs.length
    · rw [if_neg (by simpa using h), compare_eq_iff_eq.mpr h, zipCmp_elementCmp _ _ h,
        elementCmp_bigEnd _ _ h]
      rfl
    · rw [if_pos h]
      rcases Nat.lt_or_gt_of_ne h with c | c
      · rw [compare_lt_iff_lt.mpr c]; rfl
      · rw [compare_gt_iff_gt.mpr c]; rfl
  rw [hm, bcmp_key]
  unfold bKey
  refine ⟨fun h1 h2 => ?_, fun h1 h2 => ?_, fun h1 h2 => ?_, fun h1 h2 => ?_⟩ <;> rw [h1, h2] <;>
    simp only [Bool.false_eq_true, if_true, if_false]
  · rw [compare_lt_iff_lt]; omega
  · rw [compare_gt_iff_gt]; omega
  · rcases Nat.lt_trichotomy (magKey a.limbs) (magKey b.limbs) with c | c | c
    · rw [compare_lt_iff_lt.mpr c, compare_lt_iff_lt]; exact_mod_cast c
    · rw [compare_eq_iff_eq.mpr c, compare_eq_iff_eq]; exact_mod_cast c
    · rw [compare_gt_iff_gt.mpr c, compare_gt_iff_gt]; exact_mod_cast c
  · rcases Nat.lt_trichotomy (magKey a.limbs) (magKey b.limbs) with c | c | c
    · rw [compare_lt_iff_lt.mpr c]
      change _ = Ordering.gt
      rw [compare_gt_iff_gt]; omega
    · rw [compare_eq_iff_eq.mpr c]
      change _ = Ordering.eq
      rw [compare_eq_iff_eq]; omega
    · rw [compare_gt_iff_gt.mpr c]
      change _ = Ordering.lt
      rw [compare_lt_iff_lt]; omega

example : BInt.cmp ⟨false, .slice [0, 2]⟩ ⟨false, .slice [1, 1]⟩ = .lt ∧
    BInt.cmp ⟨true, .slice [0, 2]⟩ ⟨true, .slice [1, 1]⟩ = .gt := by decide

/-! ## C113 -/

/-- C113 for slices: a total preorder, with numeric equality, on slices of all lengths. -/
theorem C113_slice_order :
    TotalOrder (fun _ => True) (fun a b => val a = val b) (elementCmp (w := w)) where
  eq_iff a b _ _ := elementCmp_eq a b
  swap a b _ _ := by
    rw [elementCmp_key a b (max a.length b.length) (by omega) (by omega),
      elementCmp_key b a (max a.length b.length) (by omega) (by omega)]
    exact (Std.OrientedCmp.eq_swap (cmp := compare))
  trans a b c _ _ _ h1 h2 := by
    rw [elementCmp_key a b (max a.length (max b.length c.length)) (by omega) (by omega), ne_eq,
      compare_gt_iff_gt] at h1
    rw [elementCmp_key b c (max a.length (max b.length c.length)) (by omega) (by omega), ne_eq,
      compare_gt_iff_gt] at h2
    rw [elementCmp_key a c (max a.length (max b.length c.length)) (by omega) (by omega), ne_eq,
      compare_gt_iff_gt]
    omega

/-- C113 for `U<N>`: a total order with `==` as equality, which is numeric equality. -/
theorem C113_u_order (N : Nat) :
    TotalOrder (fun a : Bytes => a.length = N) (fun a b => UN.eq a b = true) UN.cmp ∧
    (∀ a b : Bytes, a.length = N → b.length = N → (UN.eq a b = true ↔ val a = val b)) := by
  have hs : ∀ a b : Bytes, a.length = N → b.length = N → (UN.eq a b = true ↔ val a = val b) :=
    fun a b ha hb => (C31_order_partial a b (by omega)).1
  refine ⟨⟨fun a b ha hb => ?_, fun a b _ _ => ?_, fun a b c _ _ _ => ?_⟩, hs⟩
  · rw [hs a b ha hb]; exact elementCmp_eq a b
  · exact C113_slice_order.swap a b trivial trivial
  · exact C113_slice_order.trans a b c trivial trivial trivial

/-- C113 for `I<N>`: the comparison never panics and is a total order whose equality is numeric
equality; negative values come first. -/
theorem C113_i_order (N : Nat) (hN : 0 < N) : ∃ c : Bytes → Bytes → Ordering,
    (∀ a b : Bytes, a.length = N → b.length = N → IN.cmp a b = .ok (c a b)) ∧
    TotalOrder (fun a : Bytes => a.length = N) (fun a b => sval a = sval b) c ∧
    (∀ a b : Bytes, a.length = N → b.length = N → sval a < 0 → 0 ≤ sval b → c a b = .lt) := by
  have hne : ∀ a : Bytes, a.length = N → a ≠ [] := by
    intro a ha e; subst e; simp at ha; omega
  have hc : ∀ a b : Bytes, a.length = N → b.length = N →
      IN.cmp a b = .ok (compare (iKey a) (iKey b)) :=
    fun a b ha hb => icmp_key a b (hne a ha) (by omega)
  refine ⟨fun a b => compare (iKey a) (iKey b), hc, ?_, fun a b ha hb p q => ?_⟩
  · apply TotalOrder.of_key iKey (fun _ _ _ _ => rfl)
    intro a b ha hb
    have h1 := (C39_order_partial a b (hne a ha) (by omega)).1
    rw [hc a b ha hb, Res.ok.injEq, compare_eq_iff_eq] at h1
    exact h1
  · have := (C39_order_partial a b (hne a ha) (by omega)).2.1 p q
    rw [hc a b ha hb, Res.ok.injEq] at this
    exact this.1

/-- C113 for `BigInt`: a total order with `==` as equality, on all well-stored values (negative
zero included); on canonical values `==` is numeric equality. -/
theorem C113_big_int_order :
    TotalOrder Rep (fun a b => BInt.eq a b = true) BInt.cmp ∧
    (∀ a b, Canon a → Canon b → (BInt.eq a b = true ↔ ival a = ival b)) := by
  refine ⟨TotalOrder.of_key bKey (fun a b _ _ => bcmp_key a b) fun a b ha hb => ?_, fun a b ha hb =>
    (C46_eq_partial a b ha.1 hb.1).2 ha hb⟩
  rw [← (C47_cmp_consistent_partial a b ha hb).1, bcmp_key, compare_eq_iff_eq]

/-- C113 for fixed-point numbers: the order of the numbers denoted. -/
theorem C113_fixed_order (N : Nat) :
    TotalOrder (fun _ : Int => True) (fun x y => fval N x = fval N y) Fixed.cmp := by
  apply TotalOrder.of_key id (fun _ _ _ _ => rfl)
  intro a b _ _
  rw [← (C63_order N a b).2.2.1]
  exact compare_eq_iff_eq.symm

-- a chain on which transitivity has something to say, with different lengths
example : elementCmp [1#8, 9#8] [2#8] = .lt ∧ elementCmp [2#8] [3#8, 1#8, 4#8] = .lt ∧
    elementCmp [1#8, 9#8] [3#8, 1#8, 4#8] = .lt := by decide
example : Rep ⟨true, .slice [0, 2]⟩ ∧ Rep ⟨true, .inline 0⟩ ∧
    BInt.cmp ⟨true, .slice [0, 2]⟩ ⟨true, .inline 0⟩ = .lt ∧
    BInt.cmp ⟨true, .inline 0⟩ ⟨false, .inline 0⟩ = .lt := by decide
example : IN.cmp [0xFF#8, 0xFF#8] [0#8, 0#8] = .ok .lt ∧ Fixed.cmp (-3) 4 = .lt := by decide

end Verif
