import Verif.Props.UInt
import Verif.Lemmas.MulFlagExact

/-!
# C14, C28, C29, C35: exactly which multiplication overflows are noticed

The in-place product is built row by row from the highest limb down. A row's part above the
register is dropped silently; only a carry out of adding a row to what is already in the register
raises the flag. `RowCarries` (in `Spec/Mul.lean`, plain arithmetic) says that some row carries in
this sense. The theorems here say that the flag, `checked_mul`, debug `*`, `saturating_mul` and
`pow` follow this condition exactly.
-/

namespace Verif

open BitSlice

variable {w : Nat}

/-! ## C14 -/

/-- C14, exact: the flag is raised exactly when some row carries; `mul_checked` is `None` exactly
then, and otherwise is the product modulo the register size. A row that carries always means a
product that does not fit. Missing, because false: every product that does not fit has such a row. -/
theorem C14_mul_flag_exact_partial (hw : 0 < w) (l r : List (BitVec w)) :
    ((ElementMul.mulOverflowing l r).2 = true ↔ RowCarries w l.length (val l) (val r)) ∧
    (ElementMul.mulChecked l r = none ↔ RowCarries w l.length (val l) (val r)) ∧
    (∀ out, ElementMul.mulChecked l r = some out →
      out.length = l.length ∧ val out = val l * val r % 2 ^ (w * l.length)) ∧
    (RowCarries w l.length (val l) (val r) → 2 ^ (w * l.length) ≤ val l * val r) := by
  have hf := ElementMul.mulOverflowing_flag hw l r
  obtain ⟨h2, h3⟩ := ElementMul.mulOverflowing_mod hw l r
  refine ⟨hf, ?_, fun out ho => ?_, fun hr => ?_⟩
  · rw [← hf]
    unfold ElementMul.mulChecked
    cases hO : ElementMul.mulOverflowing l r with
    | mk o c => cases c <;> simp
  · unfold ElementMul.mulChecked at ho
    cases hO : ElementMul.mulOverflowing l r with
    | mk o c =>
      rw [hO] at ho h2 h3
      cases c
      · simp at ho
        subst ho
        exact ⟨h2, h3⟩
      · simp at ho
  · exact (C14_mul_flag_partial hw l r).1 (hf.mpr hr)

-- 0x55FF * 3: row 0 is 0x2FD, the register holds 0xFF00, the sum does not fit
example : RowCarries 8 2 0x55FF 3 := ⟨0, by norm_num, by norm_num⟩
-- 0x0100 * 0x0100 does not fit, but no row carries
example : ¬ RowCarries 8 2 0x100 0x100 ∧ 2 ^ 16 ≤ 0x100 * 0x100 := by
  refine ⟨?_, by norm_num⟩
  rintro ⟨i, hi, h⟩
  have : i = 0 ∨ i = 1 := by omega
  rcases this with rfl | rfl <;> norm_num at h

/-! ## C28 -/

/-- C28, exact: `checked_mul` is `None`, and debug `*` panics, exactly when some row carries; in all
other cases both give the product modulo `256 ^ N`, as release `*` always does. -/
theorem C28_checked_mul_exact_partial (a b : Bytes) :
    ∃ p : Bytes, p.length = a.length ∧ val p = val a * val b % 256 ^ a.length ∧
      UN.mul .release a b = .ok p ∧
      (RowCarries 8 a.length (val a) (val b) →
        UN.checkedMul a b = none ∧ UN.mul .debug a b = .panic) ∧
      (¬ RowCarries 8 a.length (val a) (val b) →
        UN.checkedMul a b = some p ∧ UN.mul .debug a b = .ok p) := by
  have hf := ElementMul.mulOverflowing_flag (by norm_num : 0 < 8) a b
  obtain ⟨h2, h3⟩ := ElementMul.mulOverflowing_mod (by norm_num : 0 < 8) a b
  rw [modulus_bytes] at h3
  refine ⟨(ElementMul.mulOverflowing a b).1, h2, h3, rfl, fun h => ?_, fun h => ?_⟩
  · have h := hf.mpr h
    have : UN.checkedMul a b = none := by
      simp only [UN.checkedMul, ElementMul.mulChecked, h, if_true]
    exact ⟨this, by simp only [UN.mul]; rw [show ElementMul.mulChecked a b = none from this]; rfl⟩
  · have h := Bool.eq_false_iff.mpr (fun hc => h (hf.mp hc))
    have : UN.checkedMul a b = some (ElementMul.mulOverflowing a b).1 := by
      simp [UN.checkedMul, ElementMul.mulChecked, h]
    exact ⟨this, by simp only [UN.mul]; rw [show ElementMul.mulChecked a b = some _ from this]; rfl⟩

example : UN.checkedMul [0xFF#8, 0x55#8] [3#8, 0#8] = none ∧
    UN.mul .debug [0xFF#8, 0x55#8] [3#8, 0#8] = .panic ∧
    UN.mul .debug [0#8, 1#8] [0#8, 1#8] = .ok [0, 0] := by decide

/-! ## C29 -/

/-- C29, exact for multiplication: `saturating_mul` is the maximum exactly when some row carries,
and the product modulo `256 ^ N` otherwise. -/
theorem C29_saturating_mul_exact_partial (a b : Bytes) :
    (UN.saturatingMul a b).length = a.length ∧
    (RowCarries 8 a.length (val a) (val b) → val (UN.saturatingMul a b) = 256 ^ a.length - 1) ∧
    (¬ RowCarries 8 a.length (val a) (val b) →
      val (UN.saturatingMul a b) = val a * val b % 256 ^ a.length) := by
  obtain ⟨p, h1, h2, _, h4, h5⟩ := C28_checked_mul_exact_partial a b
  unfold UN.checkedMul at h4 h5
  unfold UN.saturatingMul
  by_cases hr : RowCarries 8 a.length (val a) (val b)
  · rw [(h4 hr).1]
    exact ⟨by simp [UN.maxValue], fun _ => val_maxValue _, fun h => absurd hr h⟩
  · rw [(h5 hr).1]
    exact ⟨h1, fun h => absurd h hr, fun _ => h2⟩

example : UN.saturatingMul [0xFF#8, 0x55#8] [3#8, 0#8] = [0xFF, 0xFF] ∧
    UN.saturatingMul [0#8, 1#8] [1#8, 1#8] = [0, 1] := by decide

/-! ## C35 -/

theorem product_debug_exact (a : Bytes) (k : Nat) :
    ((∃ j < k, RowCarries 8 a.length (val a ^ j % 256 ^ a.length) (val a)) →
      UN.product .debug a k = .panic) ∧
    ((¬ ∃ j < k, RowCarries 8 a.length (val a ^ j % 256 ^ a.length) (val a)) →
      ∃ out, UN.product .debug a k = .ok out ∧ out.length = a.length ∧
        val out = val a ^ k % 256 ^ a.length) := by
  induction k with
  | zero =>
    refine ⟨?_, fun _ => ⟨_, rfl, UN.length_one _, by rw [UN.val_one]; simp⟩⟩
    rintro ⟨j, hj, _⟩
    omega
  | succ k ih =>
    obtain ⟨ih1, ih2⟩ := ih
    have hstep : UN.product .debug a (k + 1)
        = (UN.product .debug a k).bind fun acc => UN.mul .debug acc a := rfl
    rw [hstep]
    by_cases hp : ∃ j < k, RowCarries 8 a.length (val a ^ j % 256 ^ a.length) (val a)
    · rw [ih1 hp]
      refine ⟨fun _ => rfl, fun h => absurd ?_ h⟩
      obtain ⟨j, hj, h⟩ := hp
      exact ⟨j, by omega, h⟩
    · obtain ⟨out, g1, g2, g3⟩ := ih2 hp
      rw [g1]
      simp only [Res.bind]
      obtain ⟨p, p1, p2, _, p4, p5⟩ := C28_checked_mul_exact_partial out a
      rw [g2, g3] at p2 p4 p5
      by_cases hk : RowCarries 8 a.length (val a ^ k % 256 ^ a.length) (val a)
      · exact ⟨fun _ => (p4 hk).2, fun h => absurd ⟨k, by omega, hk⟩ h⟩
      · refine ⟨?_, fun _ => ⟨p, (p5 hk).2, by omega, ?_⟩⟩
        · rintro ⟨j, hj, h⟩
          rcases Nat.lt_or_eq_of_le (Nat.le_of_lt_succ hj) with h1 | rfl
          · exact absurd ⟨j, h1, h⟩ hp
          · exact absurd h hk
        · rw [p2, Nat.mod_mul_mod, ← Nat.pow_succ]

/-- C35, exact: what `pow` does for every base and exponent. Base 0 gives 0 (for exponent 0 too)
and base 1 gives 1, in every width. A base above 1 gives 1 for the exponent 0. For a nonzero
exponent it panics in every profile if `N > 8`, and otherwise release gives the power modulo
`256 ^ N`, while debug panics exactly if a row carries in one of the successive products. -/
theorem C35_pow_exact_partial (a b : Bytes) (ha : a ≠ []) (h : b.length = a.length) :
    (∀ m, val a = 0 → ∃ out, UN.pow m a b = .ok out ∧ val out = 0) ∧
    (∀ m, val a = 1 → ∃ out, UN.pow m a b = .ok out ∧ val out = 1) ∧
    (2 ≤ val a →
      (∀ m, val b = 0 → ∃ out, UN.pow m a b = .ok out ∧ val out = 1) ∧
      (∀ m, val b ≠ 0 → 8 < a.length → UN.pow m a b = .panic) ∧
      (val b ≠ 0 → a.length ≤ 8 →
        (∃ out, UN.pow .release a b = .ok out ∧ out.length = a.length ∧
          val out = val a ^ val b % 256 ^ a.length) ∧
        ((∃ j < val b, RowCarries 8 a.length (val a ^ j % 256 ^ a.length) (val a)) →
          UN.pow .debug a b = .panic) ∧
        ((¬ ∃ j < val b, RowCarries 8 a.length (val a ^ j % 256 ^ a.length) (val a)) →
          UN.pow .debug a b = UN.pow .release a b))) := by
  have hl : 0 < a.length := List.length_pos_iff.mpr ha
  have h1N : 1 < 256 ^ a.length := Nat.one_lt_pow (by omega) (by norm_num)
  refine ⟨fun m hz => ?_, fun m ho => ?_, fun h2 => ?_⟩
  · refine ⟨a, ?_, hz⟩
    unfold UN.pow
    rw [if_pos ((UN.isZero_iff a).mpr hz)]
  · refine ⟨a, ?_, ho⟩
    unfold UN.pow
    rw [if_neg (by rw [UN.isZero_iff]; omega), UN.isOne_spec a ha]
    simp [Res.bind, ho]
  · have e : ∀ m, UN.pow m a b = if UN.isZero b then .ok (UN.one a.length)
        else (UN.toUsize b).bind fun k => UN.product m a k := by
      intro m
      unfold UN.pow
      rw [if_neg (by rw [UN.isZero_iff]; omega), UN.isOne_spec a ha]
      have : ¬ val a = 1 := by omega
      simp [Res.bind, this]
    refine ⟨fun m hb => ⟨UN.one a.length, ?_, ?_⟩, fun m hb h8 => ?_, fun hb h8 => ?_⟩
    · rw [e, if_pos ((UN.isZero_iff b).mpr hb)]
    · rw [UN.val_one, Nat.mod_eq_of_lt h1N]
    · rw [e, if_neg (by rw [UN.isZero_iff]; exact hb), toUsize_spec, if_neg (by omega)]
      rfl
    · have e2 : ∀ m, UN.pow m a b = UN.product m a (val b) := by
        intro m
        rw [e, if_neg (by rw [UN.isZero_iff]; exact hb), toUsize_spec, if_pos (by omega)]
        rfl
      simp only [e2]
      obtain ⟨d1, d2⟩ := product_debug_exact a (val b)
      obtain ⟨out, r1, r2, r3⟩ := product_release a (val b)
      refine ⟨⟨out, r1, r2, r3⟩, d1, fun hn => ?_⟩
      obtain ⟨o, o1, o2, o3⟩ := d2 hn
      rw [o1, r1, eq_of_val_eq (by omega) (o3.trans r3.symm)]

-- 2^8 in one byte goes unnoticed in debug builds; 25^5 in two bytes is noticed
example : UN.pow .debug [2#8] [8#8] = .ok [0] ∧
    UN.pow .debug [25#8, 0#8] [5#8, 0#8] = .panic := by decide +kernel

end Verif
