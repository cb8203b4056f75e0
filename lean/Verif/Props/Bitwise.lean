import Verif.Lemmas.Conv

/-!
# C16–C25: bit-wise slice algorithms, division, shrinking, bit access, conversions

Vocabulary: `val`, `Norm` from `Verif.Spec.Val`; bit `i` of a slice is `(val s).testBit i`.
-/

namespace Verif

open BitSlice

variable {w : Nat}

/-! ## C16 -/

/-- C16, violated by the code: the in-place bit-wise addition does not store the sum. -/
theorem C16_add_in_place_violated :
    ¬ ∀ l r : List (BitVec 8), l.length = r.length → val l + val r < modulus l →
      ∃ out, BitwiseAdd.addInPlace l r = .ok out ∧ val out = val l + val r := by
  intro h
  obtain ⟨out, h1, _⟩ := h [1#8] [2#8] rfl (by decide)
  rw [bitwiseAddInPlace_panic (by norm_num)] at h1
  exact absurd h1 (by simp)

/-- Every call of the in-place bit-wise addition panics, whatever the operands. -/
theorem C16_add_in_place_panics (hw : 0 < w) (l r : List (BitVec w)) :
    BitwiseAdd.addInPlace l r = .panic :=
  bitwiseAddInPlace_panic hw l r

/-- C16, the part that holds: the growing bit-wise addition is exact and appends one limb only
when the sum needs it. Missing: the in-place form, which always panics. -/
theorem C16_bitwise_add_partial (hw : 0 < w) (l r : List (BitVec w)) :
    val (BitwiseAdd.add l r) = val l + val r ∧
    (BitwiseAdd.add l r).length = max l.length r.length
      + (if 2 ^ (w * max l.length r.length) ≤ val l + val r then 1 else 0) :=
  bitwiseAdd_spec hw l r

example : BitwiseAdd.add [0xFF#8, 0xFF#8] [1#8] = [0, 0, 1] := by decide +kernel
example : BitwiseAdd.add [0xFE#8] [1#8, 0#8] = [0xFF, 0] := by decide +kernel

/-! ## C17 -/

/-- C17: bit-wise and element-wise subtraction agree on the flag and on the value, and without a
borrow both are exact. -/
theorem C17_sub_agree (hw : 0 < w) (l r : List (BitVec w)) (hne : l ≠ [] ∨ r ≠ []) :
    ∃ a b neg, BitwiseSub.sub l r = .ok (a, neg) ∧ ElementSub.sub l r = .ok (b, neg) ∧
      val a = val b ∧ (neg = true ↔ val l < val r) ∧ (val r ≤ val l → val a = val l - val r) := by
  obtain ⟨a, n, h1, _, h2, h3, h4⟩ := bitwiseSub_spec hw l r hne
  obtain ⟨b, n', g1, _, g2, g3, g4⟩ := sub_exact hw l r hne
  have hnn : n = n' := by
    rw [Bool.eq_iff_iff, h2, g2]
  subst hnn
  refine ⟨a, b, n, h1, g1, ?_, h2, ?_⟩
  · cases n with
    | false => rw [h3 rfl, g3 rfl]
    | true => have := h4 rfl; have := g4 rfl; omega
  · intro hle
    cases n with
    | false => exact h3 rfl
    | true => have := h2.mp rfl; omega

example : BitwiseSub.sub [0#8, 1#8] [1#8] = .ok ([0xFF, 0], false) ∧
    ElementSub.sub [0#8, 1#8] [1#8] = .ok ([0xFF], false) := by decide +kernel
example : BitwiseSub.sub [2#8] [5#8] = .ok ([3], true) := by decide +kernel

/-! ## C18 -/

/-- C18: bit-wise shifts. -/
theorem C18_bitwise_shifts (hw : 0 < w) (s : List (BitVec w)) (k : Nat) :
    val (bitwiseShl s k) = val s * 2 ^ k ∧
    (s ≠ [] → ∃ out, bitwiseShr s k = .ok out ∧ val out = val s / 2 ^ k ∧ Norm out) :=
  ⟨bitwiseShl_spec hw s k, fun h => bitwiseShr_spec hw s k h⟩

example : bitwiseShl [0x80#8, 1#8] 9 = [0, 0, 3] := by decide +kernel
example : bitwiseShr [0x80#8, 1#8] 7 = .ok [3] := by decide +kernel
example : bitwiseShr [0x80#8, 1#8] 1000 = .ok [0] := by decide +kernel

/-! ## C19 -/

/-- C19: bit-wise multiplication is exact. -/
theorem C19_bitwise_mul (hw : 0 < w) (l r : List (BitVec w)) :
    ∃ out, bitwiseMul l r = .ok out ∧ val out = val l * val r :=
  bitwiseMul_spec hw l r

example : ∃ out, bitwiseMul [0xFF#8, 0xFF#8] [0xFF#8] = .ok out ∧ val out = 65535 * 255 :=
  ⟨_, rfl, by decide +kernel⟩

/-! ## C20 -/

/-- C20, violated by the code: 768 / 513 comes out as 511 remainder 769. -/
theorem C20_bitwise_div_violated :
    ¬ ∀ (num div : List (BitVec 8)), num.length = div.length → val div ≠ 0 →
      ∃ q r, BitwiseDiv.divLong .release num div = .ok (q, r) ∧
        val num = val q * val div + val r ∧ val r < val div := by
  intro h
  obtain ⟨q, r, h1, h2, h3⟩ := h [0x00#8, 0x03#8] [0x01#8, 0x02#8] rfl (by decide)
  have e : BitwiseDiv.divLong .release [0x00#8, 0x03#8] [0x01#8, 0x02#8]
      = .ok ([0xFF#8, 1#8], [1#8, 3#8]) := by decide +kernel
  rw [e] at h1
  obtain ⟨rfl, rfl⟩ : [0xFF#8, 1#8] = q ∧ [1#8, 3#8] = r := by simpa using h1
  exact absurd h3 (by decide)

/-- C20, violated again: a one-limb divisor above half the limb range; 256 / 255 comes out as
0 remainder 256. -/
theorem C20_bitwise_div_limb_violated :
    ¬ ∀ (num : List (BitVec 8)) (d : BitVec 8), 2 ≤ num.length → d ≠ 0 →
      ∃ q r, BitwiseDiv.divLong .release num [d] = .ok (q, r) ∧
        val num = val q * d.toNat + val r ∧ val r < d.toNat := by
  intro h
  obtain ⟨q, r, h1, h2, h3⟩ := h [0#8, 1#8] 0xFF#8 (by decide) (by decide)
  have e : BitwiseDiv.divLong .release [0#8, 1#8] [0xFF#8] = .ok ([0#8, 0#8], [0#8, 1#8]) := by
    decide +kernel
  rw [e] at h1
  obtain ⟨rfl, rfl⟩ : [0#8, 0#8] = q ∧ [0#8, 1#8] = r := by simpa using h1
  exact absurd h3 (by decide)

/-- A divisor written with more limbs than the numerator always panics, even if its value is small. -/
theorem C20_bitwise_div_longer_violated (m : Mode) (hw : 0 < w) (num div : List (BitVec w))
    (h : num.length < div.length) : BitwiseDiv.divLong m num div = .panic :=
  bitwiseDivLong_longer m hw num div h

example : BitwiseDiv.divLong .release [7#8] [2#8, 0#8] = .panic := by decide

/-- C20, the part that holds: Euclidean division (and the in-place quotient and remainder with a
zeroed scratch of the numerator's length) for a nonzero divisor below one limb, when the
numerator is below one limb too or the divisor is at most half the limb range. Missing: larger
divisors, which the code gets wrong. -/
theorem C20_bitwise_div_partial (m : Mode) (hw : 0 < w) (num div : List (BitVec w))
    (hlen : div.length ≤ num.length) (h1 : 2 ≤ w * num.length) (h2 : w * num.length < 2 ^ 64)
    (hd0 : 0 < val div) (hd : val div < 2 ^ w) (hs : val num < 2 ^ w ∨ 2 * val div ≤ 2 ^ w) :
    (∃ q r, BitwiseDiv.divLong m num div = .ok (q, r) ∧
      val num = val q * val div + val r ∧ val r < val div) ∧
    (∃ q s, BitwiseDiv.divLongOverflowing m num div (List.replicate num.length 0) = .ok (q, s) ∧
      BitwiseDiv.divLongChecked m num div (List.replicate num.length 0) = .ok (some q) ∧
      BitwiseDiv.divLongWrapping m num div (List.replicate num.length 0) = .ok q ∧
      q.length = num.length ∧ val q = val num / val div) ∧
    (∃ r, BitwiseDiv.remLongOverflowing m num div (List.replicate num.length 0) = .ok r ∧
      BitwiseDiv.remLongChecked m num div (List.replicate num.length 0) = .ok (some r) ∧
      BitwiseDiv.remLongWrapping m num div (List.replicate num.length 0) = .ok r ∧
      r.length = num.length ∧ val r = val num % val div) := by
  have hS : DivSmall w (val num) (val div) := ⟨hd0, hd, hs⟩
  refine ⟨?_, ?_, ?_⟩
  · obtain ⟨q, r, g0, _, _, g3, g4⟩ := bitwiseDivLong_small m hw num div hlen h1 h2 hS
    refine ⟨q, r, g0, ?_, by rw [g4]; exact Nat.mod_lt _ hd0⟩
    rw [g3, g4, Nat.mul_comm]
    exact (Nat.div_add_mod _ _).symm
  · obtain ⟨q, r, g0, g1, _, g3, _⟩ := bitwiseDivLongOverflowing_small m hw num div hlen h1 h2 hS
    refine ⟨q, r, g0, ?_, ?_, g1, g3⟩
    · rw [BitwiseDiv.divLongChecked, g0]; rfl
    · rw [BitwiseDiv.divLongWrapping, g0]; rfl
  · obtain ⟨r, g0, g1, g2⟩ := bitwiseRemLongOverflowing_small m hw num div hlen h1 h2 hS
    refine ⟨r, g0, ?_, g0, g1, g2⟩
    rw [BitwiseDiv.remLongChecked, g0]; rfl

example : BitwiseDiv.divLong .debug [0x39#8, 0x30#8] [100#8] = .ok ([123, 0], [45, 0]) := by
  decide +kernel
example : BitwiseDiv.remLongOverflowing .debug [0x39#8, 0x30#8] [100#8] [0, 0] = .ok [45, 0] := by
  decide +kernel

/-! ## C21 -/

/-- C21, violated by the code: 868 / 7 comes out as 14 remainder 770, whatever the number of
loop iterations allowed. -/
theorem C21_element_div_violated :
    ¬ ∀ (num div : List (BitVec 8)), num ≠ [] → div.length ≤ num.length → val div ≠ 0 →
      ∃ fuel q r, ElementDiv.divLong .release fuel num div = .ok (q, r) ∧
        val num = val q * val div + val r ∧ val r < val div := by
  intro h
  obtain ⟨fuel, q, r, h1, h2, h3⟩ := h [100#8, 3#8] [7#8] (by decide) (by decide) (by decide)
  have e : ElementDiv.divLong .release 300 [100#8, 3#8] [7#8] = .ok ([14#8], [2#8, 3#8]) := by
    decide +kernel
  have := elementDivLong_unique .release fuel 300 _ _ h1 e
  obtain ⟨rfl, rfl⟩ : q = [14#8] ∧ r = [2#8, 3#8] := by simpa using this
  exact absurd h3 (by decide)

/-- C21, violated again: with a nonzero divisor the division need not terminate. 1 / 256 is still
running after any number of iterations. -/
theorem C21_element_div_hangs_violated :
    ¬ ∀ (m : Mode) (num div : List (BitVec 8)), num ≠ [] → div.length ≤ num.length →
      val div ≠ 0 → ∃ fuel, ElementDiv.divLong m fuel num div ≠ .hang := by
  intro h
  obtain ⟨fuel, h1⟩ := h .release [1#8, 0#8] [0#8, 1#8] (by decide) (by decide) (by decide)
  exact h1 (elementDivLong_hang .release fuel)

/-- C21, violated by the forms dividing in place: they panic on all operands. -/
theorem C21_in_place_violated (num div : List (BitVec w)) :
    ElementDiv.divLongOverflowing num div = .panic ∧ ElementDiv.divLongChecked num div = .panic ∧
    ElementDiv.divLongWrapping num div = .panic :=
  ⟨rfl, rfl, rfl⟩

/-- C21, the part that holds: if the divisor is nonzero, below one limb, and divides every limb of
the numerator except the lowest (always true for a numerator below one limb), `div_long`
terminates with the normalised Euclidean quotient and remainder. Missing: every other numerator
and divisor, which the code gets wrong or loops on. -/
theorem C21_element_div_partial (m : Mode) (hw : 0 < w) (num div : List (BitVec w))
    (hlen : div.length ≤ num.length) (h1 : 2 ≤ w * num.length) (h2 : w * num.length < 2 ^ 64)
    (hd0 : 0 < val div) (hd : val div < 2 ^ w)
    (hdvd : ∀ j, 0 < j → val div ∣ (num.getD j 0).toNat) :
    ∃ fuel₀, ∀ fuel, fuel₀ ≤ fuel → ∃ q r, ElementDiv.divLong m fuel num div = .ok (q, r) ∧
      Norm q ∧ Norm r ∧ val num = val q * val div + val r ∧ val r < val div := by
  refine ⟨2 ^ w, fun fuel hf => ?_⟩
  obtain ⟨q, r, g0, g1, g2, g3, g4⟩ :=
    elementDivLong_small m hw fuel num div hlen h1 h2 hf hd0 hd hdvd
  refine ⟨q, r, g0, g1, g2, ?_, by rw [g4]; exact Nat.mod_lt _ hd0⟩
  rw [g3, g4, Nat.mul_comm]
  exact (Nat.div_add_mod _ _).symm

example : ElementDiv.divLong .debug 256 [100#8, 21#8, 14#8] [7#8] = .ok ([14, 3, 2], [2]) := by
  decide +kernel
example : ∀ j, 0 < j → 7 ∣ (([100#8, 21#8, 14#8] : List (BitVec 8)).getD j 0).toNat := by
  intro j hj
  match j with
  | 1 => decide
  | 2 => decide
  | j + 3 => simp

/-! ## C22 -/

/-- C22: shrinking keeps the value, is never empty, is idempotent and is a canonical form. -/
theorem C22_shrink_canonical (s : List (BitVec w)) (hs : s ≠ []) :
    (∃ t, shrink s = .ok t ∧ t ≠ [] ∧ val t = val s ∧ Norm t ∧ t.length ≤ s.length ∧
      shrink t = .ok t) ∧
    (∀ s' : List (BitVec w), s' ≠ [] → (shrink s = shrink s' ↔ val s = val s')) := by
  obtain ⟨t, h1, h2, h3, h4⟩ := shrink_ok s hs
  refine ⟨⟨t, h1, h3.1, h2, h3, h4, ?_⟩, fun s' hs' => ?_⟩
  · obtain ⟨t', g1, g2, g3, _⟩ := shrink_ok t h3.1
    rw [g1, Norm.unique g3 h3 g2]
  · obtain ⟨t', g1, g2, g3, _⟩ := shrink_ok s' hs'
    rw [h1, g1, Res.ok.injEq]
    constructor
    · rintro rfl; rw [← h2, g2]
    · intro hv; exact Norm.unique h3 g3 (by rw [h2, g2, hv])

/-- Normalised forms are the shortest: any nonempty list of the same value is at least as long. -/
theorem C22_shrink_shortest (s s' : List (BitVec w)) (hs : s ≠ []) (hs' : s' ≠ [])
    (hv : val s = val s') : ∃ t, shrink s = .ok t ∧ t.length ≤ s'.length := by
  obtain ⟨⟨t, h1, _⟩, h2⟩ := C22_shrink_canonical s hs
  obtain ⟨⟨t', g1, _, _, _, g5, _⟩, _⟩ := C22_shrink_canonical s' hs'
  refine ⟨t, h1, ?_⟩
  have := (h2 s' hs').mpr hv
  rw [h1, g1, Res.ok.injEq] at this
  rw [this]; exact g5

example : shrink [5#8, 0#8, 7#8, 0#8, 0#8] = .ok [5, 0, 7] := by decide
example : shrink [0#8, 0#8] = .ok [0] := by decide

/-! ## C23 -/

/-- C23, violated by the code: `set_push` one past the end loses the value. -/
theorem C23_set_push_violated :
    ¬ ∀ (s : List (BitVec 8)) (i : Nat) (v : BitVec 8),
      (setPush s i v).getD i 0 = v := by
  intro h
  exact absurd (h [1#8] 1 9#8) (by decide)

/-- C23, the part that holds: reading, writing, ignoring and pushing single bits, and `set_push`
inside the slice. Missing: `set_push` at or past the end (see `C23_set_push_lost`). -/
theorem C23_bit_access_partial (hw : 0 < w) (s : List (BitVec w)) (i : Nat) (b : Bool)
    (v : BitVec w) :
    getBitOpt s i = (if i < w * s.length then some ((val s).testBit i) else none) ∧
    getBit s i = (if i < w * s.length then .ok ((val s).testBit i) else .panic) ∧
    (i < w * s.length → ∃ t, setBitOpt s i b = some t ∧ setBit s i b = .ok t ∧
      t.length = s.length ∧ ∀ k, (val t).testBit k = if k = i then b else (val s).testBit k) ∧
    (w * s.length ≤ i → setBitOpt s i b = none ∧ setBit s i b = .panic ∧
      setBitIgnore s i b = s) ∧
    (i < w * s.length → some (setBitIgnore s i b) = setBitOpt s i b) ∧
    ((setBitPush s i b).length = max s.length (i / w + 1) ∧
      ∀ k, (val (setBitPush s i b)).testBit k = if k = i then b else (val s).testBit k) ∧
    (i < s.length → (setPush s i v).length = s.length ∧
      ∀ j, (setPush s i v).getD j 0 = if j = i then v else s.getD j 0) := by
  have hb := bitLen_eq s
  refine ⟨?_, ?_, ?_, ?_, ?_, setBitPush_spec hw s i b, ?_⟩
  · rw [getBitOpt_eq hw, hb]
  · rw [getBit_eq hw, hb]
  · intro h
    obtain ⟨t, g1, g2, g3⟩ := setBitOpt_some hw s i b (by omega)
    exact ⟨t, g1, by rw [setBit, g1]; rfl, g2, g3⟩
  · intro h
    have := setBitOpt_none hw s i b (by omega)
    exact ⟨this, setBit_panic hw s i b (by omega), by rw [setBitIgnore, this]; rfl⟩
  · intro h
    obtain ⟨t, g1, _⟩ := setBitOpt_some hw s i b (by omega)
    rw [setBitIgnore, g1]; rfl
  · intro h
    obtain ⟨e1, _, e3⟩ := extend_spec s i
    unfold setPush
    rw [setIgnore_eq]
    refine ⟨by rw [List.length_set, e1]; omega, fun j => ?_⟩
    rw [getD_set, e3]
    by_cases hj : j = i
    · subst hj; rw [if_pos ⟨rfl, by omega⟩, if_pos rfl]
    · rw [if_neg (by omega), if_neg hj]

/-- What `set_push` does at or past the end: it pads with zeros up to, not including, the index
and drops the value. -/
theorem C23_set_push_lost (s : List (BitVec w)) (i : Nat) (v : BitVec w) (h : s.length ≤ i) :
    (setPush s i v).length = i ∧ val (setPush s i v) = val s := by
  obtain ⟨e1, e2, _⟩ := extend_spec s i
  unfold setPush
  rw [setIgnore_eq]
  rw [List.set_eq_of_length_le (by omega)]
  exact ⟨by omega, e2⟩

example : setBitPush [1#8] 17 true = [1, 0, 2] := by decide
example : setBit [1#8, 0#8] 9 true = .ok [1, 2] ∧ getBit [1#8, 2#8] 9 = .ok true := by decide
example : setPush [1#8] 2 9#8 = [1, 0] := by decide

/-! ## C24 -/

/-- C24, violated by the code: after nine `next` calls on two 8-bit limbs, `len` underflows
(panic in debug builds) instead of returning 7. -/
theorem C24_len_violated :
    ¬ ∀ (m : Mode) (s : List (BitVec 8)) (n : Nat), n ≤ 8 * s.length →
      BitIter.len m (BitIter.after s n) = .ok (8 * s.length - n) := by
  intro h
  exact absurd (h .debug [1#8, 2#8] 9 (by decide)) (by decide)

/-- C24, violated in release builds too: after eight calls 0 items are announced, 8 remain. -/
theorem C24_len_release_violated :
    ¬ ∀ (s : List (BitVec 8)) (n : Nat), n ≤ 8 * s.length →
      BitIter.len .release (BitIter.after s n) = .ok (8 * s.length - n) := by
  intro h
  exact absurd (h [1#8, 2#8] 8 (by decide)) (by decide)

/-- C24, the part that holds: the items are the bits in order, then `None` for ever, and `len` is
exact while inside the first limb and after the end. `BitIter.after s n` is the iterator after
`n` calls of `next`. Missing: `len` after the first limb. -/
theorem C24_bit_iter_partial (hw : 0 < w) (m : Mode) (s : List (BitVec w))
    (hfit : w * s.length < 2 ^ 64) (n : Nat) :
    (BitIter.next (BitIter.after s n)).1
      = (if n < w * s.length then some ((val s).testBit n) else none) ∧
    (n < w ∨ w * s.length ≤ n →
      BitIter.len m (BitIter.after s n) = .ok (w * s.length - n)) := by
  have hb := bitLen_eq s
  constructor
  · split
    · exact BitIter.next_in hw s n (by omega)
    · rw [BitIter.after_end hw s n (by omega)]; rfl
  · intro h
    by_cases hend : w * s.length ≤ n
    · rw [BitIter.after_end hw s n (by omega)]
      simp only [BitIter.len, List.length_nil, Nat.mul_zero, Res.ok.injEq]
      omega
    · have hnw : n < w := by omega
      have hs0 : 0 < s.length := by
        rcases Nat.eq_zero_or_pos s.length with h0 | h0
        · rw [h0] at hend; omega
        · exact h0
      rw [BitIter.after_eq hw s n (by omega), Nat.div_eq_of_lt hnw]
      simp only [BitIter.len, List.getElem?_eq_getElem hs0, Nat.zero_add, List.length_drop]
      unfold usub
      rw [if_pos (by omega)]
      simp only [Res.bind, Res.ok.injEq]
      have : w * s.length = w * (s.length - 1) + w := by
        conv_lhs => rw [show s.length = (s.length - 1) + 1 by omega]
        rw [Nat.mul_succ]
      rw [Nat.mod_eq_of_lt (by unfold usizeSize; omega)]
      omega

example : (List.range 10).map (fun n => (BitIter.next (BitIter.after [0x81#8] n)).1)
    = [some true, some false, some false, some false, some false, some false, some false,
       some true, none, none] := by decide
example : BitIter.len .debug (BitIter.after [0x81#8, 1#8] 3) = .ok 13 := by decide

/-! ## C25 -/

/-- C25, violated by the code: an array with a spare high limb cannot be read back. -/
theorem C25_round_trip_violated :
    ¬ ∀ (n : Nat) (v : BitVec 8) (a : List (BitVec 8)), 0 < n → v.toNat < 2 ^ (8 * n) →
      intToArr 8 8 n v .release = .ok a → arrToInt 8 8 .release a = .ok (some v) := by
  intro h
  exact absurd (h 2 5#8 [5#8, 0#8] (by decide) (by decide) (by decide)) (by decide)

/-- C25, the part that holds. `int_to_arr` keeps the value whenever `N ≥ 1` limbs suffice (and
truncates it otherwise); `arr_to_int` of a normalised slice is exact and is `None` exactly when
the value does not fit; hence the round trip is the identity when the array has no spare high
limb. The widths of the primitive unsigned types all divide one another. Missing: arrays with
spare high limbs. -/
theorem C25_conversions_partial {t u : Nat} (m : Mode) (ht : 0 < t) (hu : 0 < u)
    (hdiv : t ∣ u ∨ u ∣ t) (n : Nat) (hn : 0 < n) (hlen : n * u ≤ 2 ^ 32) (v : BitVec t) :
    (∃ a, intToArr t u n v m = .ok a ∧ a.length = n ∧ val a = v.toNat % 2 ^ (u * n)) ∧
    (∀ arr : List (BitVec u), Norm arr → arr.length * u ≤ 2 ^ 32 →
      arrToInt u t m arr = .ok (if val arr < 2 ^ t then some (BitVec.ofNat t (val arr)) else none)) ∧
    (v.toNat < 2 ^ (u * n) → n = 1 ∨ 2 ^ (u * (n - 1)) ≤ v.toNat →
      ∃ a, intToArr t u n v m = .ok a ∧ arrToInt u t m a = .ok (some v)) := by
  have hA : ∀ arr : List (BitVec u), Norm arr → arr.length * u ≤ 2 ^ 32 →
      arrToInt u t m arr = .ok (if val arr < 2 ^ t then some (BitVec.ofNat t (val arr)) else none) :=
    fun arr h1 h2 => arrToInt_spec m hu ht hdiv.symm arr h1 h2
  refine ⟨intToArr_spec ht n hn v m, hA, fun hv hfull => ?_⟩
  obtain ⟨a, g1, g2, g3⟩ := intToArr_spec (u := u) ht n hn v m
  rw [Nat.mod_eq_of_lt hv] at g3
  refine ⟨a, g1, ?_⟩
  have hne : a ≠ [] := by rintro rfl; simp at g2; omega
  have hnorm : Norm a := by
    refine ⟨hne, ?_⟩
    rcases hfull with h | h
    · left; omega
    · right
      intro hc
      obtain ⟨b, rfl⟩ : ∃ b, a = b ++ [0] := by
        refine ⟨a.dropLast, ?_⟩
        have := List.dropLast_append_getLast hne
        rw [List.getLast?_eq_getLast_of_ne_nil hne, Option.some.injEq] at hc
        rw [hc] at this
        exact this.symm
      rw [val_append] at g3
      simp only [val_cons, val_nil, Nat.mul_zero, Nat.add_zero] at g3
      have hlt := val_lt b
      have hbl : b.length = n - 1 := by simp at g2; omega
      rw [modulus, hbl] at hlt
      simp at g3
      omega
  rw [hA a hnorm (by rw [g2]; exact hlen), g3, if_pos v.isLt]
  simp

example : intToArr 32 8 4 0x12345678#32 = .ok [0x78, 0x56, 0x34, 0x12] := by decide +kernel
example : arrToInt 8 32 .debug [0x78#8, 0x56#8, 0x34#8, 0x12#8] = .ok (some 0x12345678) := by
  decide +kernel
example : arrToInt 8 16 .debug [0x78#8, 0x56#8, 0x34#8] = .ok none := by decide +kernel

end Verif
