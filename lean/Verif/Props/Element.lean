import Verif.Lemmas.CmpBits
import Verif.Lemmas.MulFlag
import Verif.Lemmas.Widening

/-!
# C01–C15: the element-wise slice algorithms

Vocabulary: `val` (numeric value of a limb list), `Norm` (normalised) and `modulus`
(`2 ^ bits of the slice`) from `Verif.Spec.Val`.
-/

namespace Verif

open BitSlice

variable {w : Nat}

/-! ## C01 -/

/-- C01: growing addition never panics, is exact, and returns a normalised vector. -/
theorem C01_add_exact (hw : 0 < w) (l r : List (BitVec w)) :
    ∃ out, ElementAdd.add l r = .ok out ∧ val out = val l + val r ∧ Norm out :=
  add_exact hw l r

-- a carry that ripples through two limbs of a longer operand and appends a third
example : ElementAdd.add [0xFF#8, 0xFF#8] [1#8] = .ok [0, 0, 1] := by decide
example : ElementAdd.add ([] : List (BitVec 8)) [] = .ok [0] := by decide

/-! ## C02 -/

/-- C02: in-place addition wraps, keeps the length, and the flag is exact; `add_checked` and
`add_wrapping` are the two views of the same result. -/
theorem C02_add_in_place (hw : 0 < w) (l r : List (BitVec w)) (hlr : r.length ≤ l.length) :
    (ElementAdd.addOverflowing l r).1.length = l.length ∧
    val (ElementAdd.addOverflowing l r).1 = (val l + val r) % modulus l ∧
    ((ElementAdd.addOverflowing l r).2 = true ↔ modulus l ≤ val l + val r) ∧
    ElementAdd.addChecked l r = (if modulus l ≤ val l + val r then none
      else some (ElementAdd.addOverflowing l r).1) ∧
    ElementAdd.addWrapping l r = (ElementAdd.addOverflowing l r).1 := by
  obtain ⟨h1, h2⟩ := addOverflowing_spec hw l r hlr
  have hlt := val_lt (ElementAdd.addOverflowing l r).1
  have hm : modulus (ElementAdd.addOverflowing l r).1 = modulus l := by simp [modulus, h1]
  rw [hm] at hlt
  unfold ElementAdd.addChecked ElementAdd.addWrapping
  generalize ElementAdd.addOverflowing l r = O at *
  obtain ⟨o, c⟩ := O
  simp only at *
  cases c with
  | true =>
    simp only [Bool.toNat_true, Nat.one_mul] at h2
    have : modulus l ≤ val l + val r := by omega
    refine ⟨h1, ?_, by simp [this], by simp [this], trivial⟩
    rw [← h2, Nat.add_mod_right, Nat.mod_eq_of_lt hlt]
  | false =>
    simp only [Bool.toNat_false, Nat.zero_mul, Nat.add_zero] at h2
    have : ¬ modulus l ≤ val l + val r := by omega
    refine ⟨h1, ?_, by simp [this], by simp [this], trivial⟩
    rw [← h2, Nat.mod_eq_of_lt hlt]

example : ElementAdd.addOverflowing [0xFF#8, 0xFF#8] [2#8] = ([1, 0], true) := by decide
example : ElementAdd.addChecked [0xFF#8, 0x0F#8] [2#8] = some [1, 0x10] := by decide

/-! ## C03 -/

/-- C03 fails: `1 - 3` over one limb yields magnitude 0. -/
theorem C03_sub_violated : ¬ ∀ (l r : List (BitVec 8)), l ≠ [] → r ≠ [] →
    ∃ out neg, ElementSub.sub l r = .ok (out, neg) ∧ (neg = true ↔ val l < val r) ∧
      val out = (if val l < val r then val r - val l else val l - val r) := by
  intro h
  obtain ⟨out, neg, h1, _, h2⟩ := h [1#8] [3#8] (by decide) (by decide)
  have e : ElementSub.sub [1#8] [3#8] = .ok ([0], true) := by decide
  rw [e] at h1
  cases h1
  revert h2
  decide

/-- C03, the part that holds: no panic, the sign flag is exact, the vector is normalised, and
the magnitude is exact whenever no borrow occurs or the absolute difference is odd. Missing
(because false): the magnitude for a borrow with an even difference, which is 2 too small. -/
theorem C03_sub_partial (hw : 0 < w) (l r : List (BitVec w)) (hne : l ≠ [] ∨ r ≠ []) :
    ∃ out neg, ElementSub.sub l r = .ok (out, neg) ∧ Norm out ∧ (neg = true ↔ val l < val r) ∧
      (val r ≤ val l → val out = val l - val r) ∧
      (val l < val r → (val r - val l) % 2 = 1 → val out = val r - val l) ∧
      (val l < val r → (val r - val l) % 2 = 0 → val out + 2 = val r - val l) := by
  obtain ⟨out, neg, h1, h2, h3, h4, h5⟩ := sub_exact hw l r hne
  refine ⟨out, neg, h1, h2, h3, fun h => h4 ?_, fun h ho => ?_, fun h ho => ?_⟩
  · cases neg with
    | false => rfl
    | true => have := h3.mp rfl; omega
  · have := h5 (h3.mpr h)
    rw [if_pos ho] at this
    exact this
  · have := h5 (h3.mpr h)
    rw [if_neg (by omega)] at this
    exact this

example : ElementSub.sub [2#8] [5#8, 1#8] = .ok ([3, 1], true) := by decide
example : ElementSub.sub [0#8, 1#8] [1#8] = .ok ([0xFF], false) := by decide

/-! ## C04 -/

/-- C04: in-place subtraction wraps, keeps the length and the borrow flag is exact. -/
theorem C04_sub_in_place (hw : 0 < w) (l r : List (BitVec w)) (hlr : r.length ≤ l.length) :
    (ElementSub.subOverflowing l r).1.length = l.length ∧
    val (ElementSub.subOverflowing l r).1 = (val l + modulus l - val r) % modulus l ∧
    ((ElementSub.subOverflowing l r).2 = true ↔ val l < val r) ∧
    ElementSub.subChecked l r = (if val l < val r then none
      else some (ElementSub.subOverflowing l r).1) ∧
    ElementSub.subWrapping l r = (ElementSub.subOverflowing l r).1 := by
  obtain ⟨h1, h2⟩ := subOverflowing_spec hw l r hlr
  have hlt := val_lt (ElementSub.subOverflowing l r).1
  have hm : modulus (ElementSub.subOverflowing l r).1 = modulus l := by simp [modulus, h1]
  rw [hm] at hlt
  have hl := val_lt l
  have hr : val r < modulus l := Nat.lt_of_lt_of_le (val_lt r)
    (Nat.pow_le_pow_right (by norm_num) (Nat.mul_le_mul_left _ hlr))
  unfold ElementSub.subChecked ElementSub.subWrapping
  generalize ElementSub.subOverflowing l r = O at *
  obtain ⟨o, c⟩ := O
  simp only at *
  cases c with
  | true =>
    simp only [Bool.toNat_true, Nat.one_mul] at h2
    have : val l < val r := by omega
    refine ⟨h1, ?_, by simp [this], by simp [this], trivial⟩
    rw [← Nat.mod_eq_of_lt hlt]
    congr 1
    omega
  | false =>
    simp only [Bool.toNat_false, Nat.zero_mul, Nat.add_zero] at h2
    have : ¬ val l < val r := by omega
    refine ⟨h1, ?_, by simp [this], by simp [this], trivial⟩
    have e : val l + modulus l - val r = val o + modulus l := by omega
    rw [e, Nat.add_mod_right, Nat.mod_eq_of_lt hlt]

example : ElementSub.subOverflowing [0#8, 0#8] [1#8] = ([0xFF, 0xFF], true) := by decide
example : ElementSub.subChecked [0#8, 2#8] [1#8] = some [0xFF, 1] := by decide

/-! ## C05 -/

/-- C05 fails: 256 compares below 1, because the first differing limb counted from the *least*
significant end decides. -/
theorem C05_cmp_violated : ¬ ∀ (l r : List (BitVec 8)),
    elementCmp l r = compare (val l) (val r) := by
  intro h
  have := h [0, 1] [1, 0]
  revert this
  decide

/-- C05, the part that holds: equality is exact for operands of any lengths; the order is right
when the operands differ in at most one limb position (in particular when both fit one limb). In
general the least significant differing limb decides (third clause); missing, because false, is
the right order when several limbs differ. -/
theorem C05_cmp_partial (l r : List (BitVec w)) :
    (elementCmp l r = .eq ↔ val l = val r) ∧
    (∀ i, (∀ j, j ≠ i → l.getD j 0 = r.getD j 0) →
      elementCmp l r = compare (val l) (val r)) ∧
    (∀ i, (∀ j < i, l.getD j 0 = r.getD j 0) → l.getD i 0 ≠ r.getD i 0 →
      elementCmp l r = compare (l.getD i 0).toNat (r.getD i 0).toNat) :=
  ⟨elementCmp_eq l r, fun i h => elementCmp_one_limb l r i h,
    fun i h1 h2 => elementCmp_low l r i h1 h2⟩

example : elementCmp [5#8, 0#8] [5#8] = .eq := by decide
-- hypotheses of the second clause at `i = 1`
example : (∀ j, j ≠ 1 → [7#8, 3#8].getD j 0 = [7#8, 9#8].getD j 0) ∧
    elementCmp [7#8, 3#8] [7#8, 9#8] = .lt := by
  refine ⟨fun j hj => ?_, by decide⟩
  match j with
  | 0 => rfl
  | 1 => exact absurd rfl hj
  | n + 2 => rfl

/-! ## C06 -/

/-- C06: `and`, `or`, `xor` act on the values, the shorter operand being zero-extended. -/
theorem C06_bit_ops (hw : 0 < w) (l r : List (BitVec w)) :
    (∃ out, elementBitand l r = .ok out ∧ out.length = max l.length r.length ∧
      val out = val l &&& val r) ∧
    (∃ out, elementBitor l r = .ok out ∧ out.length = max l.length r.length ∧
      val out = val l ||| val r) ∧
    (∃ out, elementBitxor l r = .ok out ∧ out.length = max l.length r.length ∧
      val out = val l ^^^ val r) :=
  ⟨bitand_spec hw l r, bitor_spec hw l r, bitxor_spec hw l r⟩

example : elementBitxor [0xF0#8, 0x0F#8] [0xFF#8] = .ok [0x0F, 0x0F] := by decide

/-! ## C07 -/

/-- C07: complement reflects at all ones, keeps the length and is an involution. -/
theorem C07_not (s : List (BitVec w)) :
    (elementNot s).length = s.length ∧ val (elementNot s) = modulus s - 1 - val s ∧
      elementNot (elementNot s) = s := by
  have := not_val s
  refine ⟨by simp [elementNot], by omega, ?_⟩
  simp [elementNot, Function.comp_def]

example : elementNot [0x0F#8, 0#8] = [0xF0, 0xFF] := by decide

/-! ## C08 -/

/-- C08: the growing left shift multiplies by `2 ^ k` and normalises. -/
theorem C08_shl_exact (hw : 0 < w) (s : List (BitVec w)) (k : Nat) :
    ∃ out, ElementShl.shl s k = .ok out ∧ val out = val s * 2 ^ k ∧ Norm out :=
  ElementShl.shl_spec hw s k

example : ElementShl.shl [0x81#8] 9 = .ok [0, 0x02, 0x01] := by decide

/-! ## C09 -/

/-- C09, first half: `shl_checked` is `None` exactly beyond the bit length and otherwise shifts
modulo the slice. -/
theorem C09_shl_checked (hw : 0 < w) (s : List (BitVec w)) (k : Nat) :
    (w * s.length < k → ElementShl.shlChecked s k = .ok none) ∧
    (k ≤ w * s.length → ∃ out, ElementShl.shlChecked s k = .ok (some out) ∧
      out.length = s.length ∧ val out = val s * 2 ^ k % modulus s) := by
  unfold ElementShl.shlChecked bitLen
  rw [Nat.mul_comm s.length w]
  constructor
  · intro h
    rw [if_pos h]
  · intro h
    rw [if_neg (by omega)]
    obtain ⟨out, h1, h2, h3⟩ := ElementShl.inner_spec hw s k h
    exact ⟨out, by rw [h1]; rfl, h2, h3⟩

example : ElementShl.shlChecked [0x81#8, 1#8] 9 = .ok (some [0, 0x02]) := by decide
example : ElementShl.shlChecked [0x81#8, 1#8] 17 = .ok none := by decide

/-- C09, second half, fails for a bit length that is no power of two: 24-bit slices shift by
`17 mod 16 = 1` instead of 17. -/
theorem C09_shl_wrapping_violated : ¬ ∀ (s : List (BitVec 8)) (k : Nat), s ≠ [] →
    ∃ out, ElementShl.shlWrapping .release s k = .ok out ∧
      val out = val s * 2 ^ (k % (8 * s.length)) % modulus s := by
  intro h
  obtain ⟨out, h1, h2⟩ := h [1#8, 0#8, 0#8] 17 (by decide)
  have e : ElementShl.shlWrapping .release [1#8, 0#8, 0#8] 17 = .ok [2, 0, 0] := by decide
  rw [e] at h1
  cases h1
  revert h2
  decide

/-- C09, second half, the part that holds: the amount is reduced modulo the largest power of two
not above the bit length, hence modulo the bit length when that is a power of two. Missing
(because false): reduction modulo other bit lengths. -/
theorem C09_shl_wrapping_partial (m : Mode) (s : List (BitVec w)) (k : Nat)
    (h1 : 2 ≤ w * s.length) (h2 : w * s.length < 2 ^ 64) :
    (∃ out, ElementShl.shlWrapping m s k = .ok out ∧ out.length = s.length ∧
      val out = val s * 2 ^ (k % 2 ^ Nat.log2 (w * s.length)) % modulus s) ∧
    (∀ e, w * s.length = 2 ^ e → ∃ out, ElementShl.shlWrapping m s k = .ok out ∧
      out.length = s.length ∧ val out = val s * 2 ^ (k % (w * s.length)) % modulus s) := by
  have hw : 0 < w := by
    rcases Nat.eq_zero_or_pos w with h | h
    · subst h; omega
    · exact h
  have main : ∃ out, ElementShl.shlWrapping m s k = .ok out ∧ out.length = s.length ∧
      val out = val s * 2 ^ (k % 2 ^ Nat.log2 (w * s.length)) % modulus s := by
    unfold ElementShl.shlWrapping bitLen
    rw [Nat.mul_comm s.length w, maskShift_eq m _ k h1 h2]
    have hlt : k % 2 ^ Nat.log2 (w * s.length) < 2 ^ Nat.log2 (w * s.length) :=
      Nat.mod_lt _ (Nat.two_pow_pos _)
    have hle : 2 ^ Nat.log2 (w * s.length) ≤ w * s.length := Nat.log2_self_le (by omega)
    exact ElementShl.inner_spec hw s _ (by omega)
  refine ⟨main, fun e he => ?_⟩
  have : 2 ^ Nat.log2 (w * s.length) = w * s.length := by rw [he, Nat.log2_two_pow]
  rw [this] at main
  exact main

example : ElementShl.shlWrapping .debug [0x81#8, 1#8] 25 = .ok [0, 0x02] := by decide

/-! ## C10 -/

/-- C10 holds in release builds, for every amount a `usize` holds. (Limbs have at least 8 bits, and
Rust slices are never longer than `isize::MAX` bytes, which is less than `2 ^ 63`.) -/
theorem C10_shr_release (hw : 8 ≤ w) (s : List (BitVec w)) (k : Nat) (hne : s ≠ [])
    (hk : k < 2 ^ 64) (hs : s.length ≤ 2 ^ 63) :
    ∃ out, ElementShr.shr .release s k = .ok out ∧ val out = val s / 2 ^ k ∧ Norm out := by
  apply ElementShr.shr_release (by omega) s k hne
  have h1 : k / w ≤ k / 8 := Nat.div_le_div_left hw (by norm_num)
  have h2 : k / 8 < 2 ^ 61 := by omega
  generalize k / w = q at *
  unfold usizeSize
  omega

example : ElementShr.shr .release [0xFF#8, 0x81#8] 9 = .ok [0x40] := by decide
example : ElementShr.shr .release [0xFF#8, 0x81#8] (2 ^ 64 - 1) = .ok [0] := by decide +kernel

/-- C10 fails in debug builds: shifting `[1, 2]` right by 8 panics with a subtraction overflow. -/
theorem C10_shr_violated : ¬ ∀ (s : List (BitVec 8)) (k : Nat), s ≠ [] →
    ∃ out, ElementShr.shr .debug s k = .ok out ∧ val out = val s / 2 ^ k := by
  intro h
  obtain ⟨out, h1, _⟩ := h [1#8, 2#8] 8 (by decide)
  have e : ElementShr.shr .debug [1#8, 2#8] 8 = .panic := by decide
  rw [e] at h1
  cases h1

/-- C10 in debug builds, the part that holds: the shift is exact for `k` below the limb width,
and *every* larger amount panics. Missing (because false): larger amounts in debug builds. -/
theorem C10_shr_debug_partial (hw : 0 < w) (s : List (BitVec w)) (k : Nat) (hne : s ≠ []) :
    (k < w → ∃ out, ElementShr.shr .debug s k = .ok out ∧ val out = val s / 2 ^ k ∧ Norm out) ∧
    (w ≤ k → ElementShr.shr .debug s k = .panic) :=
  ⟨fun hk => ElementShr.shr_small .debug s k hk hne,
    fun hk => ElementShr.shr_debug_panic hw s k hne hk⟩

example : ElementShr.shr .debug [0xFF#8, 0x81#8] 7 = .ok [0x03, 0x01] := by decide

/-! ## C11 -/

/-- C11 fails in value: shifting `[0x80]` right by 1 leaves `0xC0` (the top bit is kept). -/
theorem C11_shr_in_place_violated : ¬ ∀ (s : List (BitVec 8)) (k : Nat), k ≤ 8 * s.length →
    ∃ out, ElementShr.shrChecked .release s k = .ok (some out) ∧ val out = val s / 2 ^ k := by
  intro h
  obtain ⟨out, h1, h2⟩ := h [0x80#8] 1 (by decide)
  have e : ElementShr.shrChecked .release [0x80#8] 1 = .ok (some [0xC0]) := by decide
  rw [e] at h1
  cases h1
  revert h2
  decide

/-- C11 also fails by panicking: in debug builds a shift by exactly the bit length panics. -/
theorem C11_shr_in_place_panics (hw : 0 < w) (s : List (BitVec w)) :
    ElementShr.shrChecked .debug s (w * s.length) = .panic := by
  unfold ElementShr.shrChecked bitLen
  rw [Nat.mul_comm s.length w, if_neg (by omega)]
  unfold ElementShr.inner
  have hl := (ElementShr.loop_in_place s (w * s.length / w) (w * s.length % w)
    (Nat.mod_lt _ hw)).1
  simp only at hl ⊢
  rw [hl, Nat.mul_div_cancel_left _ hw]
  simp [usub, Res.bind]

/-- C11, the part that holds: `None` exactly beyond the bit length; below it no panic, and the
result is floor division plus the error term described exactly here. So the shift is exact when
the amount is a multiple of the limb width, or when the top `k mod w` bits of the limb that
becomes the highest are zero. `shr_wrapping` does the same for the masked amount. Missing (because
false): exactness in the other cases, and the amount equal to the bit length in debug builds. -/
theorem C11_shr_in_place_partial (m : Mode) (hw : 0 < w) (s : List (BitVec w)) (k : Nat)
    (hs : w * s.length < 2 ^ 64) :
    (w * s.length < k → ElementShr.shrChecked m s k = .ok none) ∧
    (k < w * s.length → ∃ out, ElementShr.shrChecked m s k = .ok (some out) ∧
      out.length = s.length ∧
      ((s.getD (s.length - 1 - k / w) 0).toNat < 2 ^ (w - k % w) → val out = val s / 2 ^ k) ∧
      (k % w = 0 → val out = val s / 2 ^ k)) ∧
    (2 ≤ w * s.length → ∃ out,
      ElementShr.shrWrapping m s k = .ok out ∧ out.length = s.length ∧
      ElementShr.shrChecked m s (k % 2 ^ Nat.log2 (w * s.length)) = .ok (some out)) := by
  have hlen : s.length < usizeSize := by
    unfold usizeSize
    exact Nat.lt_of_le_of_lt (Nat.le_mul_of_pos_left _ hw) hs
  have low : ∀ k, k < w * s.length → ∃ out, ElementShr.inner m s k = .ok out ∧
      out.length = s.length ∧
      ((s.getD (s.length - 1 - k / w) 0).toNat < 2 ^ (w - k % w) → val out = val s / 2 ^ k) ∧
      (k % w = 0 → val out = val s / 2 ^ k) := by
    intro k hk
    obtain ⟨out, h1, h2, h3⟩ := ElementShr.inner_spec m hw s k hk hlen
    refine ⟨out, h1, h2, fun h => ?_, fun h => ?_⟩
    · rw [h3]
      have : s.getD (s.length - 1 - k / w) 0 &&& ElementShr.elemMask w (k % w) = 0 := by
        apply BitVec.eq_of_getLsbD_eq
        intro b hb
        rw [BitVec.getLsbD_and, ElementShr.elemMask_getLsbD _ _ (Nat.mod_lt _ hw)]
        by_cases hb2 : w - k % w ≤ b
        · have : (s.getD (s.length - 1 - k / w) 0).getLsbD b = false := by
            rw [BitVec.getLsbD]
            exact Nat.testBit_lt_two_pow
              (Nat.lt_of_lt_of_le h (Nat.pow_le_pow_right (by norm_num) hb2))
          rw [this]; simp
        · have e : decide (w - k % w ≤ b) = false := by simpa using hb2
          rw [e]
          simp
      rw [this]
      simp
    · rw [h3, h]
      simp [ElementShr.elemMask]
  refine ⟨fun h => ?_, fun h => ?_, fun h => ?_⟩
  · unfold ElementShr.shrChecked bitLen
    rw [Nat.mul_comm s.length w, if_pos h]
  · obtain ⟨out, h1, h2, h3⟩ := low k h
    refine ⟨out, ?_, h2, h3⟩
    unfold ElementShr.shrChecked bitLen
    rw [Nat.mul_comm s.length w, if_neg (by omega), h1]
    rfl
  · have hlt : k % 2 ^ Nat.log2 (w * s.length) < 2 ^ Nat.log2 (w * s.length) :=
      Nat.mod_lt _ (Nat.two_pow_pos _)
    have hle : 2 ^ Nat.log2 (w * s.length) ≤ w * s.length := Nat.log2_self_le (by omega)
    obtain ⟨out, h1, h2, h3⟩ := low (k % 2 ^ Nat.log2 (w * s.length)) (by omega)
    refine ⟨out, ?_, h2, ?_⟩
    · unfold ElementShr.shrWrapping bitLen
      rw [Nat.mul_comm s.length w, maskShift_eq m _ k h hs]
      exact h1
    · unfold ElementShr.shrChecked bitLen
      rw [Nat.mul_comm s.length w, if_neg (by omega), h1]
      rfl

example : ElementShr.shrChecked .debug [0xFF#8, 0x7F#8] 1 = .ok (some [0xFF, 0x3F]) := by decide
example : ElementShr.shrWrapping .debug [0xFF#8, 0x7F#8] 17 = .ok [0xFF, 0x3F] := by decide

/-! ## C12 -/

/-- C12: growing multiplication is exact and normalised. -/
theorem C12_mul_exact (hw : 0 < w) (l r : List (BitVec w)) (hne : l ≠ [] ∨ r ≠ []) :
    ∃ out, ElementMul.mul l r = .ok out ∧ val out = val l * val r ∧ Norm out :=
  ElementMul.mul_exact hw l r hne

example : ElementMul.mul [0xFF#8, 0xFF#8] [0xFF#8] = .ok [0x01, 0xFF, 0xFE] := by decide

/-! ## C13 -/

/-- C13: in-place multiplication wraps modulo the left width and keeps the length. -/
theorem C13_mul_in_place (hw : 0 < w) (l r : List (BitVec w)) :
    (ElementMul.mulOverflowing l r).1.length = l.length ∧
    val (ElementMul.mulOverflowing l r).1 = val l * val r % modulus l ∧
    ElementMul.mulWrapping l r = (ElementMul.mulOverflowing l r).1 :=
  ⟨(ElementMul.mulOverflowing_mod hw l r).1, (ElementMul.mulOverflowing_mod hw l r).2, rfl⟩

example : ElementMul.mulWrapping [0x34#8, 0x12#8] [0x78#8, 0x56#8] = [0x60, 0x00] := by decide

/-! ## C14 -/

/-- C14 fails: `16 * 16` over one `u8` limb gives 0 and no overflow. -/
theorem C14_mul_flag_violated : ¬ ∀ (l r : List (BitVec 8)), l.length = r.length →
    ((ElementMul.mulOverflowing l r).2 = true ↔ modulus l ≤ val l * val r) := by
  intro h
  have := (h [16] [16] rfl).mpr (by decide)
  revert this
  decide

/-- C14, the part that holds: the flag is never raised for a product that fits, so `mul_checked`
returns the exact product for every product that fits, and a `None` always means overflow. And
the failure is total for one limb: there the flag is never raised at all. Missing (because false):
overflow always raises the flag. -/
theorem C14_mul_flag_partial (hw : 0 < w) (l r : List (BitVec w)) :
    ((ElementMul.mulOverflowing l r).2 = true → modulus l ≤ val l * val r) ∧
    (val l * val r < modulus l → ∃ out, ElementMul.mulChecked l r = some out ∧
      out.length = l.length ∧ val out = val l * val r) ∧
    (l.length = 1 → (ElementMul.mulOverflowing l r).2 = false) := by
  refine ⟨fun h => ?_, fun h => ?_, fun h => ?_⟩
  · by_contra hc
    rw [ElementMul.mulOverflowing_fits hw l r (by omega)] at h
    cases h
  · have h1 := ElementMul.mulOverflowing_fits hw l r h
    obtain ⟨h2, h3⟩ := ElementMul.mulOverflowing_mod hw l r
    rw [Nat.mod_eq_of_lt h] at h3
    refine ⟨_, ?_, h2, h3⟩
    unfold ElementMul.mulChecked
    simp [h1]
  · match l, h with
    | [a], _ => exact ElementMul.mulOverflowing_one_limb hw a r

-- the flag is raised for some overflows, and both hypotheses are met by concrete operands
example : (ElementMul.mulOverflowing [0xFF#8, 0x55#8] [3#8, 0#8]).2 = true := by decide
example : ElementMul.mulChecked [0x34#8, 0x02#8] [0x10#8, 0#8] = some [0x40, 0x23] := by decide

/-! ## C15 -/

/-- C15: widening multiply-add is exact, for the double-width implementation and for the
half-splitting one (`u128` is `h = 64`); hence the two agree. -/
theorem C15_widening_mul :
    (∀ (w : Nat) (a b c : BitVec w),
      (wideningMul a b c).1.toNat + (wideningMul a b c).2.toNat * 2 ^ w
        = a.toNat * b.toNat + c.toNat) ∧
    (∀ (h : Nat) (a b c : BitVec (2 * h)),
      (wideningMulHalves h a b c).1.toNat + (wideningMulHalves h a b c).2.toNat * 2 ^ (2 * h)
        = a.toNat * b.toNat + c.toNat) :=
  ⟨fun _ a b c => wideningMul_spec a b c, fun h a b c => wideningMulHalves_spec h a b c⟩

example : wideningMul 0xFF#8 0xFF#8 0xFF#8 = (0x00, 0xFF) := by decide
example : wideningMulHalves 64 (BitVec.allOnes 128) (BitVec.allOnes 128) (BitVec.allOnes 128)
    = (0, BitVec.allOnes 128) := by decide

end Verif
