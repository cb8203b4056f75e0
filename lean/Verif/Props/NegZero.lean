import Verif.Props.BigIntExact
import Verif.Props.MoreExact
import Verif.Props.BigIntMore

/-!
# Negative zero

`-BigInt::zero()` is a `BigInt` with the sign bit and magnitude zero (C48). It is the only stored value that
is not canonical, so these theorems say what the functions do that the theorems for canonical values leave
open.
-/

namespace Verif

open BInt

namespace BInt

/-- `-BigInt::zero()`. -/
def negZero : BInt := neg' BInt.zero

theorem negZero_eq : negZero = ⟨true, .inline 0⟩ := by decide

theorem ival_negZero : ival negZero = 0 := by decide

/-- A stored value is canonical or negative zero. -/
theorem rep_iff (b : BInt) : Rep b ↔ Canon b ∨ b = negZero := by
  constructor
  · intro hb
    by_cases h : b.neg = true → val b.limbs ≠ 0
    · exact .inl ⟨hb, h⟩
    · right
      simp only [Classical.not_imp, not_not] at h
      obtain ⟨h1, h2⟩ := h
      obtain ⟨n, mag⟩ := b
      simp only at h1
      subst h1
      cases mag with
      | inline v =>
        have h3 : v.toNat = 0 := by simpa [limbs, val_one] using h2
        rw [BitVec.eq_of_toNat_eq (x := v) (y := 0) h3, negZero_eq]
      | slice s =>
        have : 2 ^ 62 ≤ val s := hb.2
        simp only [limbs] at h2
        omega
  · rintro (h | h)
    · exact h.1
    · rw [h]; decide

end BInt

/-! ## C49 -/

/-- C49 is violated: negative zero, whose value is 0, is refused as below the least `u8`. -/
theorem C49_try_into_neg_zero_violated : ¬ ∀ (m : Mode) (b : BInt) (x : BitVec 8), Rep b →
    ival b = x.toNat → tryIntoU 8 m b = .ok (.ok x) := by
  intro h
  have := h .debug negZero 0 (by decide) (by decide)
  revert this
  decide +kernel

/-- C49, exactly, for negative zero: every unsigned type refuses it as too small (and saturates to the right
value), every signed type accepts it. -/
theorem C49_neg_zero_exact_partial (t : Nat) (ht : t ∈ [8, 16, 32, 64, 128]) (m : Mode) :
    tryIntoU t m negZero = .ok (.error .below) ∧ saturateU t m negZero = .ok 0 ∧
    tryIntoS t m negZero = .ok (.ok 0) ∧ saturateS t m negZero = .ok 0 := by
  simp only [List.mem_cons, List.not_mem_nil, or_false] at ht
  rcases ht with rfl | rfl | rfl | rfl | rfl <;> cases m <;> decide +kernel

/-! ## C95 -/

/-- C95 is violated: negative zero compares below the `u8` 0. -/
theorem C95_neg_zero_violated : ¬ ∀ (b : BInt) (x : BitVec 8), Rep b →
    (cmpU 8 b x = .ok (compare (ival b) x.toNat)) := by
  intro h
  have := h negZero 0 (by decide)
  revert this
  decide +kernel

/-- C95, exactly, for negative zero: it compares below every primitive that is not negative, zero included,
and above every negative one. -/
theorem C95_neg_zero_exact_partial (t : Nat) (ht : 0 < t) (x : BitVec t) :
    cmpU t negZero x = .ok .lt ∧
    cmpS t negZero x = .ok (if x.toInt < 0 then .gt else .lt) := by
  obtain ⟨b, h1, h2, h3, h4⟩ := fromU_spec ht x
  obtain ⟨c, k1, k2, k3, k4⟩ := fromS_spec ht x
  unfold cmpU cmpS
  rw [h1, k1]
  simp only [Res.bind]
  rw [cmp_neg_lt (a := negZero) rfl (Canon.neg_false h2 (by omega))]
  refine ⟨rfl, ?_⟩
  split
  · rename_i hx
    have hn : c.neg = true := k2.neg_iff.mpr (by omega)
    rw [(C47_cmp_exact_partial negZero c).2.2.2 rfl hn]
    have hnorm := k2.norm
    have e : negZero.limbs = [0] := rfl
    rw [e]
    congr 1
    by_cases hl : c.limbs.length = 1
    · match hc : c.limbs, hl with
      | [v], _ =>
        rw [hc] at k3
        have hv : v.toNat ≠ 0 := by rw [val_one] at k3; omega
        have h0 : bigEnd [(0 : BitVec 64)] = 0 := by decide
        have hv' : bigEnd [v] = v.toNat := by simp [bigEnd, val]
        rw [h0, hv']
        have : compare 0 v.toNat = .lt := compare_lt_iff_lt.mpr (by omega)
        rw [this]
        rfl
    · have h0 : c.limbs.length ≠ 0 := by
        intro h
        rw [List.length_eq_zero_iff] at h
        exact hnorm.1 h
      have : compare ([(0 : BitVec 64)].length) c.limbs.length = .lt :=
        compare_lt_iff_lt.mpr (by simp; omega)
      rw [this]
      rfl
  · rw [cmp_neg_lt (a := negZero) rfl (Canon.neg_false k2 (by omega))]

example : cmpU 8 negZero 0 = .ok .lt ∧ cmpS 8 negZero 0 = .ok .lt ∧ cmpS 8 negZero (-1) = .ok .gt ∧
    eqU 8 negZero 0 = .ok true := by decide +kernel

/-! ## C97 -/

/-- C97 for negative zero: its complement is `-(2^64 - 1)`, and the complement of that is zero. -/
theorem C97_neg_zero_exact_partial :
    (∃ c, BInt.not negZero = .ok c ∧ ival c = -(2 ^ 64 - 1)) ∧
    (BInt.not negZero).bind BInt.not = .ok BInt.zero := by
  refine ⟨⟨⟨true, .slice [BitVec.allOnes 64]⟩, ?_, ?_⟩, ?_⟩ <;> decide +kernel

/-! ## C112 -/

/-- C112, exactly, for all values, negative zero included: `a + b == b + a` holds unless the sign bits differ,
the absolute values differ and the sum is even; `0 + b == b` holds unless `b` has the sign bit and is even;
`b + 0 == b` holds unless `b` is negative zero. -/
theorem C112_add_flags_exact_partial (a b : BInt) (ha : Rep a) (hb : Rep b) :
    (∃ ab ba, add a b = .ok ab ∧ add b a = .ok ba ∧ (BInt.eq ab ba = false ↔
      a.neg ≠ b.neg ∧ (ival a).natAbs ≠ (ival b).natAbs ∧ (ival a + ival b) % 2 = 0)) ∧
    (∃ zb, add BInt.zero b = .ok zb ∧ (BInt.eq zb b = false ↔ b.neg = true ∧ ival b % 2 = 0)) ∧
    (∃ bz, add b BInt.zero = .ok bz ∧ (BInt.eq bz b = false ↔ b = negZero)) := by
  have hz : Rep BInt.zero := by decide
  have iz : ival BInt.zero = 0 := by decide
  have nz : BInt.zero.neg = false := rfl
  have hnz : ∀ c, Canon c → BInt.eq c negZero = false := by
    intro c hc
    by_contra hne
    have := ((C46_eq_partial c negZero hc.1 (by decide)).1.mp (by simpa using hne))
    have hneg : c.neg = true := this.1
    have : ival c < 0 := hc.neg_iff.mp hneg
    have h2 := (‹c.neg = negZero.neg ∧ _›).2
    rw [ival_negZero] at h2
    omega
  refine ⟨?_, ?_, ?_⟩
  · obtain ⟨ab, h1, h2, h3, h4⟩ := C43_add_partial a b ha hb
    obtain ⟨ba, k1, k2, k3, k4⟩ := C43_add_partial b a hb ha
    refine ⟨ab, ba, h1, k1, ?_⟩
    rw [big_eq_false_iff ab ba h2 k2]
    by_cases hs : a.neg = b.neg
    · rw [h3 (.inl hs), k3 (.inl hs.symm)]
      simp [hs]; omega
    · by_cases he : (ival a + ival b) % 2 = 0
      · rcases Nat.lt_trichotomy (ival a).natAbs (ival b).natAbs with h | h | h
        · rw [h4 hs h he, k3 (.inr (.inl (by omega)))]
          constructor
          · intro _; exact ⟨hs, by omega, he⟩
          · intro _; split <;> omega
        · rw [h3 (.inr (.inl (by omega))), k3 (.inr (.inl (by omega)))]
          constructor
          · intro hh; omega
          · rintro ⟨_, hh, _⟩; omega
        · rw [h3 (.inr (.inl (by omega))), k4 (fun e => hs e.symm) h (by omega)]
          constructor
          · intro _; exact ⟨hs, by omega, he⟩
          · intro _; split <;> omega
      · rw [h3 (.inr (.inr he)), k3 (.inr (.inr (by omega)))]
        constructor
        · intro hh; omega
        · rintro ⟨_, _, hh⟩; omega
  · rcases (rep_iff b).mp hb with hc | hc
    · obtain ⟨zb, h1, h2⟩ := (C112_add_laws_exact_partial b b hc hc).2
      exact ⟨zb, h1, by rw [h2, hc.neg_iff]⟩
    · subst hc
      obtain ⟨zb, h1, h2, _⟩ := C43_add_partial BInt.zero negZero hz hb
      exact ⟨zb, h1, by simp [hnz zb h2, ival_negZero]; rfl⟩
  · obtain ⟨bz, h1, h2, h3, _⟩ := C43_add_partial b BInt.zero hb hz
    refine ⟨bz, h1, ?_⟩
    rcases (rep_iff b).mp hb with hc | hc
    · rw [big_eq_false_iff bz b h2 hc, h3 (.inr (.inl (by rw [iz]; omega))), iz]
      constructor
      · intro h; omega
      · rintro rfl; exact absurd hc (by decide)
    · subst hc
      simp [hnz bz h2]

example : add negZero ⟨false, .inline 4⟩ = .ok ⟨false, .inline 2⟩ ∧
    add ⟨false, .inline 4⟩ negZero = .ok ⟨false, .inline 4⟩ := by decide +kernel

end Verif
