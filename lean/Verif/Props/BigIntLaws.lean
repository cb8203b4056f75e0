import Verif.Model.BigIntMixed
import Verif.Props.BigInt

/-!
# C110-C112: `BigInt` with primitives on the right; laws of multiplication and addition
-/

namespace Verif

open BInt

/-! ## C110 -/

/-- The number that a primitive denotes. -/
def primVal (signed : Bool) {t : Nat} (x : BitVec t) : Int :=
  if signed then x.toInt else (x.toNat : Int)

theorem fromPrim_spec (signed : Bool) (t : Nat) (ht : 0 < t) (x : BitVec t) :
    ∃ b, fromPrim signed t x = .ok b ∧ Canon b ∧ ival b = primVal signed x := by
  unfold fromPrim primVal
  cases signed
  · exact (C49_from t ht x).1
  · exact (C49_from t ht x).2

/-- C110 is violated: `1 + (-3i8)` is 0. -/
theorem C110_add_violated : ¬ ∀ (m : Mode) (a : BInt) (x : BitVec 8), Canon a →
    ∃ c, opPrim m .add a true 8 x = .ok c ∧ ival c = ival a + x.toInt := by
  intro h
  obtain ⟨c, h1, h2⟩ := h .release ⟨false, .inline 1⟩ (-3) (by decide)
  have e : opPrim .release .add ⟨false, .inline 1⟩ true 8 (-3) = .ok BInt.zero := by decide +kernel
  rw [e] at h1
  cases h1
  revert h2
  decide

/-- C110 is violated: `7 % (-2i8)` is -1. -/
theorem C110_rem_violated : ¬ ∀ (m : Mode) (a : BInt) (x : BitVec 8), Canon a → x ≠ 0 →
    ∃ c, opPrim m .rem a true 8 x = .ok c ∧ ival c = (ival a).tmod x.toInt := by
  intro h
  obtain ⟨c, h1, h2⟩ := h .release ⟨false, .inline 7⟩ (-2) (by decide) (by decide)
  have e : opPrim .release .rem ⟨false, .inline 7⟩ true 8 (-2) = .ok ⟨true, .inline 1⟩ := by
    decide +kernel
  rw [e] at h1
  cases h1
  revert h2
  decide

/-- C110, the part that holds, for every primitive type: products are exact; sums and differences are,
unless the absolute value of the primitive is the larger one and would be reduced to an even number;
quotients by anything but zero up to `2^63` are exact, and remainders by positive ones; `<<` multiplies
by the power of two, and panics for negative amounts. The assigning forms store the same results.
Missing: the other cases, described by C43-C45. -/
theorem C110_mixed_partial (m : Mode) (a : BInt) (ha : Rep a) (signed : Bool) (t : Nat) (ht : 0 < t)
    (x : BitVec t) :
    (∃ c, opPrim m .mul a signed t x = .ok c ∧ Canon c ∧ ival c = ival a * primVal signed x) ∧
    (a.neg = decide (primVal signed x < 0) ∨ (primVal signed x).natAbs ≤ (ival a).natAbs ∨
        (ival a + primVal signed x) % 2 ≠ 0 →
      ∃ c, opPrim m .add a signed t x = .ok c ∧ Canon c ∧ ival c = ival a + primVal signed x) ∧
    (a.neg ≠ decide (primVal signed x < 0) ∨ (primVal signed x).natAbs ≤ (ival a).natAbs ∨
        (ival a - primVal signed x) % 2 ≠ 0 →
      ∃ c, opPrim m .sub a signed t x = .ok c ∧ Canon c ∧ ival c = ival a - primVal signed x) ∧
    (primVal signed x ≠ 0 → (primVal signed x).natAbs ≤ 2 ^ 63 → 64 * a.limbs.length < 2 ^ 64 →
      (∃ c, opPrim m .div a signed t x = .ok c ∧ Canon c ∧
        ival c = (ival a).tdiv (primVal signed x)) ∧
      (0 < primVal signed x → ∃ c, opPrim m .rem a signed t x = .ok c ∧ Canon c ∧
        ival c = (ival a).tmod (primVal signed x))) ∧
    (0 ≤ primVal signed x → primVal signed x < 2 ^ 64 →
      ∃ c, opPrim m .shl a signed t x = .ok c ∧ Canon c ∧
        ival c = ival a * 2 ^ (primVal signed x).toNat) ∧
    (primVal signed x < 0 → opPrim m .shl a signed t x = .panic) ∧
    (∀ op, opAssignPrim m op a signed t x = opPrim m op a signed t x) ∧
    (∀ op b, opAssign m op a b = op.run m a b) := by
  obtain ⟨b, hb, hc, hv⟩ := fromPrim_spec signed t ht x
  have hop : ∀ op, opPrim m op a signed t x = op.run m a b := by
    intro op; unfold opPrim; rw [hb]; rfl
  simp only [hop, Op.run]
  rw [← hv]
  have hneg : b.neg = decide (ival b < 0) := by
    rw [Bool.eq_iff_iff, hc.neg_iff, decide_eq_true_iff]
  refine ⟨?_, ?_, ?_, ?_, ?_, ?_, ?_, fun _ _ => rfl⟩
  · obtain ⟨c, h1, h2, h3⟩ := C42_mul_exact a b ha hc.1
    exact ⟨c, h1, h3, h2⟩
  · intro h
    obtain ⟨c, h1, h2, h3, _⟩ := C43_add_partial a b ha hc.1
    exact ⟨c, h1, h2, h3 (by rw [hneg]; exact h)⟩
  · intro h
    obtain ⟨c, h1, h2, h3, _⟩ := C43_sub_partial a b ha hc.1
    exact ⟨c, h1, h2, h3 (by rw [hneg]; exact h)⟩
  · intro h0 h63 hl
    obtain ⟨q, r, h1, h2, h3, h4, h5, _, h6, _⟩ := C44_div_rem_partial m a b ha hc.1 h0
      (by omega) (.inr h63) hl
    exact ⟨⟨q, h1, h3, h5⟩, fun hp => ⟨r, h2, h4, (h6 (.inl hp)).1⟩⟩
  · exact (C45_shl_partial m a b ha hc).1
  · intro h
    exact (C45_shl_partial m a b ha hc).2 (.inl h)
  · intro op
    unfold opAssignPrim
    rw [hb]
    rfl

/-- A concrete case: `2^64` divided by the `i8` -10, with three limbs to spare. -/
example : Rep ⟨false, .slice [0, 1]⟩ ∧ primVal true (-10 : BitVec 8) = -10 ∧
    opPrim .debug .div ⟨false, .slice [0, 1]⟩ true 8 (-10)
      = .ok ⟨true, .inline 1844674407370955161⟩ := by decide +kernel

/-! ## C111 -/

/-- C111: multiplication as seen by `==`, on all values however obtained: it always succeeds, is
commutative and associative, one is neutral except for a negative zero, and zero absorbs; and a
product is zero only if a factor is. -/
theorem C111_mul_laws (a b c : BInt) (ha : Rep a) (hb : Rep b) (hc : Rep c) :
    ∃ ab ba bc l r a1 a0, mul a b = .ok ab ∧ mul b a = .ok ba ∧ BInt.eq ab ba = true ∧
      mul b c = .ok bc ∧ mul ab c = .ok l ∧ mul a bc = .ok r ∧ BInt.eq l r = true ∧
      mul a BInt.one = .ok a1 ∧ (BInt.eq a1 a = true ↔ Canon a) ∧
      mul a BInt.zero = .ok a0 ∧ BInt.eq a0 BInt.zero = true ∧
      (BInt.isZero ab = true ↔ ival a = 0 ∨ ival b = 0) := by
  obtain ⟨ab, h1, v1, k1⟩ := C42_mul_exact a b ha hb
  obtain ⟨ba, h2, v2, k2⟩ := C42_mul_exact b a hb ha
  obtain ⟨bc, h3, v3, k3⟩ := C42_mul_exact b c hb hc
  obtain ⟨l, h4, v4, k4⟩ := C42_mul_exact ab c k1.1 hc
  obtain ⟨r, h5, v5, k5⟩ := C42_mul_exact a bc ha k3.1
  have o1 : Canon BInt.one := by decide
  have o0 : Canon BInt.zero := by decide
  obtain ⟨a1, h6, v6, k6⟩ := C42_mul_exact a BInt.one ha o1.1
  obtain ⟨a0, h7, v7, k7⟩ := C42_mul_exact a BInt.zero ha o0.1
  have e1 : ival BInt.one = 1 := by decide
  have e0 : ival BInt.zero = 0 := by decide
  have heq : ∀ x y, Canon x → Canon y → ival x = ival y → BInt.eq x y = true :=
    fun x y hx hy h => ((C46_eq_partial x y hx.1 hy.1).2 hx hy).mpr h
  refine ⟨ab, ba, bc, l, r, a1, a0, h1, h2, heq _ _ k1 k2 (by rw [v1, v2, mul_comm]), h3, h4, h5,
    heq _ _ k4 k5 (by rw [v4, v5, v1, v3, mul_assoc]), h6,
    ⟨fun he => ?_, fun ka => heq _ _ k6 ka (by rw [v6, e1, mul_one])⟩, h7,
    heq _ _ k7 o0 (by rw [v7, e0, mul_zero]), ?_⟩
  · obtain ⟨g1, g2⟩ := (C46_eq_partial a1 a k6.1 ha).1.mp he
    have hn : ∀ x : BInt, (ival x).natAbs = val x.limbs := fun x => by unfold ival; split <;> omega
    rw [hn, hn] at g2
    exact ⟨ha, fun h => by rw [← g2]; exact k6.2 (by rw [g1]; exact h)⟩
  have hz := ((C48_neg_partial ab k1.1).2.2.2.2.2 k1).2.2.2.2.1
  rw [hz, v1]
  exact mul_eq_zero

example : Rep ⟨true, .slice [1, 2]⟩ ∧ Rep ⟨true, .inline 3⟩ ∧ Rep ⟨true, .inline 0⟩ := by decide

/-! ## C112 -/

/-- C112 is violated: `1 + (-3)` is 0, but `(-3) + 1` is -2. -/
theorem C112_add_comm_violated : ¬ ∀ a b : BInt, Canon a → Canon b → add a b = add b a := by
  intro h
  have := h ⟨false, .inline 1⟩ ⟨true, .inline 3⟩ (by decide) (by decide)
  revert this
  decide +kernel

/-- C112 is violated: `(1 - 3) + 3` is 3. -/
theorem C112_sub_add_violated : ¬ ∀ a b : BInt, Canon a → Canon b →
    (sub a b).bind (fun d => add d b) = .ok a := by
  intro h
  have := h ⟨false, .inline 1⟩ ⟨false, .inline 3⟩ (by decide) (by decide)
  revert this
  decide +kernel

/-- C112 is violated: `0 + (-4)` is -2. -/
theorem C112_zero_add_violated : ¬ ∀ a : BInt, Canon a → add BInt.zero a = .ok a := by
  intro h
  have := h ⟨true, .inline 4⟩ (by decide)
  revert this
  decide +kernel

/-- C112, the part that holds: for numbers of one sign, addition is commutative and associative as
seen by `==` and subtraction of the second summand gives back the first; zero on the right is neutral;
multiplication distributes if the two products are both negative or both not. Missing: numbers of different signs, where the difference of the magnitudes may come
out wrong (C43). -/
theorem C112_add_laws_partial (a b c : BInt) (ha : Canon a) (hb : Canon b) (hc : Canon c)
    (hs : (0 ≤ ival a ∧ 0 ≤ ival b ∧ 0 ≤ ival c) ∨ (ival a < 0 ∧ ival b < 0 ∧ ival c < 0)) :
    ∃ ab ba bc l r d a0, add a b = .ok ab ∧ add b a = .ok ba ∧ BInt.eq ab ba = true ∧
      add b c = .ok bc ∧ add ab c = .ok l ∧ add a bc = .ok r ∧ BInt.eq l r = true ∧
      sub ab b = .ok d ∧ BInt.eq d a = true ∧
      add a BInt.zero = .ok a0 ∧ BInt.eq a0 a = true ∧
      (∀ e, Rep e → (ival e * ival a < 0 ↔ ival e * ival b < 0) →
        ∃ x y z w, mul e ab = .ok x ∧ mul e a = .ok y ∧ mul e b = .ok z ∧
          add y z = .ok w ∧ BInt.eq x w = true) := by
  have hneg : ∀ x, Canon x → (x.neg = true ↔ ival x < 0) := fun x hx => hx.neg_iff
  have same : ∀ x y, Canon x → Canon y → (ival x < 0 ↔ ival y < 0) → x.neg = y.neg := by
    intro x y hx hy h
    rw [Bool.eq_iff_iff, hneg x hx, hneg y hy, h]
  have plus : ∀ x y, Canon x → Canon y → (ival x < 0 ↔ ival y < 0) →
      ∃ z, add x y = .ok z ∧ Canon z ∧ ival z = ival x + ival y := by
    intro x y hx hy h
    obtain ⟨z, h1, h2, h3, _⟩ := C43_add_partial x y hx.1 hy.1
    exact ⟨z, h1, h2, h3 (.inl (same x y hx hy h))⟩
  have heq : ∀ x y, Canon x → Canon y → ival x = ival y → BInt.eq x y = true :=
    fun x y hx hy h => ((C46_eq_partial x y hx.1 hy.1).2 hx hy).mpr h
  obtain ⟨ab, h1, k1, v1⟩ := plus a b ha hb (by omega)
  obtain ⟨ba, h2, k2, v2⟩ := plus b a hb ha (by omega)
  obtain ⟨bc, h3, k3, v3⟩ := plus b c hb hc (by omega)
  obtain ⟨l, h4, k4, v4⟩ := plus ab c k1 hc (by omega)
  obtain ⟨r, h5, k5, v5⟩ := plus a bc ha k3 (by omega)
  obtain ⟨d, h6, k6, v6, _⟩ := C43_sub_partial ab b k1.1 hb.1
  have v6 := v6 (.inr (.inl (by omega)))
  have o0 : Canon BInt.zero := by decide
  have e0 : ival BInt.zero = 0 := by decide
  obtain ⟨a0, h7, k7, v7, _⟩ := C43_add_partial a BInt.zero ha.1 o0.1
  have v7 := v7 (.inr (.inl (by rw [e0]; simp)))
  refine ⟨ab, ba, bc, l, r, d, a0, h1, h2, heq _ _ k1 k2 (by omega), h3, h4, h5,
    heq _ _ k4 k5 (by omega), h6, heq _ _ k6 ha (by omega), h7,
    heq _ _ k7 ha (by rw [v7, e0, add_zero]), ?_⟩
  intro e he hes
  obtain ⟨x, g1, w1, l1⟩ := C42_mul_exact e ab he k1.1
  obtain ⟨y, g2, w2, l2⟩ := C42_mul_exact e a he ha.1
  obtain ⟨z, g3, w3, l3⟩ := C42_mul_exact e b he hb.1
  obtain ⟨w, g4, l4, w4⟩ := plus y z l2 l3 (by rw [w2, w3]; exact hes)
  exact ⟨x, y, z, w, g1, g2, g3, g4, heq _ _ l1 l4 (by rw [w1, w4, w2, w3, v1, mul_add])⟩

example : Canon ⟨true, .slice [1, 2]⟩ ∧ Canon ⟨true, .inline 3⟩ ∧ ival ⟨true, .inline 3⟩ < 0 ∧
    ival ⟨true, .slice [1, 2]⟩ < 0 := by decide

end Verif
