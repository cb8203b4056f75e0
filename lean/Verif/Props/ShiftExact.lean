import Verif.Props.UInt

/-!
# C11 and C34, exactly: what the in-place right shifts and the shifts of `U<N>` compute

A right shift of a register of `B` bits by `k < B` leaves, above the shifted number, those bits of
the original number that lie between bit `B - k` and the next limb boundary. Everything is stated
with the numeric values alone.
-/

namespace Verif

open BitSlice

variable {w : Nat}

/-- What the in-place right shift of a register of `B` bits, with limbs of `w` bits, leaves of a
number `v`: the quotient, and the bits of `v` from bit `B - k` up to the limb boundary. -/
def staleShr (w B v k : Nat) : Nat := v / 2 ^ k + v / 2 ^ (B - k) % 2 ^ (k % w) * 2 ^ (B - k)

theorem toNat_and_elemMask (x : BitVec w) (e : Nat) (he : e < w) :
    (x &&& ElementShr.elemMask w e).toNat = x.toNat / 2 ^ (w - e) * 2 ^ (w - e) := by
  apply Nat.eq_of_testBit_eq
  intro i
  have h := congrArg (fun y : BitVec w => y.getLsbD i)
    (rfl : x &&& ElementShr.elemMask w e = x &&& ElementShr.elemMask w e)
  rw [Nat.testBit_mul_two_pow, Nat.testBit_div_two_pow]
  change (x &&& ElementShr.elemMask w e).getLsbD i = _
  rw [BitVec.getLsbD_and, ElementShr.elemMask_getLsbD _ _ he]
  by_cases h1 : w - e ≤ i
  · rw [Nat.sub_add_cancel h1]
    by_cases h2 : i < w
    · simp [h1, h2, BitVec.getLsbD]
    · have : x.getLsbD i = false := BitVec.getLsbD_of_ge _ _ (by omega)
      rw [this]
      have h3 : x.toNat.testBit i = false := this
      simp [h3]
  · simp [h1]

theorem ElementShr.inner_stale (m : Mode) (hw : 0 < w) (s : List (BitVec w)) (k : Nat)
    (hk : k < w * s.length) (hs : s.length < usizeSize) :
    ∃ out, ElementShr.inner m s k = .ok out ∧ out.length = s.length ∧
      val out = staleShr w (w * s.length) (val s) k := by
  obtain ⟨out, h1, h2, h3⟩ := ElementShr.inner_spec m hw s k hk hs
  refine ⟨out, h1, h2, ?_⟩
  have he : k % w < w := Nat.mod_lt _ hw
  have ha : k / w < s.length := Nat.div_lt_of_lt_mul hk
  have hdm := Nat.div_add_mod k w
  rw [h3, toNat_and_elemMask _ _ he, staleShr]
  congr 1
  have hx := val_div_mod s (s.length - 1 - k / w)
  rw [← hx]
  generalize hp : s.length - 1 - k / w = p
  have hB : w * p + (w - k % w) = w * s.length - k := by
    have h4 : s.length = p + k / w + 1 := by omega
    rw [h4, Nat.mul_add, Nat.mul_add]
    omega
  have hsplit : 2 ^ w = 2 ^ (w - k % w) * 2 ^ (k % w) := by
    rw [← Nat.pow_add]; congr 1; omega
  rw [hsplit, Nat.mod_mul_right_div_self, Nat.div_div_eq_div_mul]
  rw [← Nat.pow_add, Nat.mul_assoc, ← Nat.pow_add, Nat.add_comm (w - k % w), hB]

/-- C11, the complete outcome for all amounts and both profiles: `None` above the bit length, below
it the quotient with the stale bits (`staleShr`), and for an amount equal to the bit length zero in
release builds and a panic in debug builds. So the shift is right exactly when the bits that are not
cleared are zero. `shr_wrapping` does the same for the masked amount. -/
theorem C11_shr_exact_partial (m : Mode) (hw : 0 < w) (s : List (BitVec w)) (k : Nat)
    (hs : w * s.length < 2 ^ 64) :
    (w * s.length < k → ElementShr.shrChecked m s k = .ok none) ∧
    (k < w * s.length → ∃ out, ElementShr.shrChecked m s k = .ok (some out) ∧
      out.length = s.length ∧ val out = staleShr w (w * s.length) (val s) k ∧
      (val out = val s / 2 ^ k ↔ 2 ^ (k % w) ∣ val s / 2 ^ (w * s.length - k))) ∧
    (k = w * s.length → ElementShr.shrChecked .debug s k = .panic ∧
      ElementShr.shrChecked .release s k = .ok (some (List.replicate s.length 0))) ∧
    (2 ≤ w * s.length → ∃ out, ElementShr.shrWrapping m s k = .ok out ∧ out.length = s.length ∧
      val out = staleShr w (w * s.length) (val s) (k % 2 ^ Nat.log2 (w * s.length))) := by
  have hlen : s.length < usizeSize := by
    unfold usizeSize
    exact Nat.lt_of_le_of_lt (Nat.le_mul_of_pos_left _ hw) hs
  refine ⟨(C11_shr_in_place_partial m hw s k hs).1, fun h => ?_, fun h => ?_, fun h => ?_⟩
  · obtain ⟨out, h1, h2, h3⟩ := ElementShr.inner_stale m hw s k h hlen
    refine ⟨out, ?_, h2, h3, ?_⟩
    · unfold ElementShr.shrChecked bitLen
      rw [Nat.mul_comm s.length w, if_neg (by omega), h1]
      rfl
    · rw [h3, staleShr, Nat.dvd_iff_mod_eq_zero]
      have := Nat.two_pow_pos (w * s.length - k)
      constructor
      · intro h4
        have h5 : val s / 2 ^ (w * s.length - k) % 2 ^ (k % w) * 2 ^ (w * s.length - k) = 0 := by
          omega
        rcases Nat.mul_eq_zero.mp h5 with h6 | h6
        · exact h6
        · omega
      · intro h4
        rw [h4]; simp
  · subst h
    refine ⟨C11_shr_in_place_panics hw s, ?_⟩
    unfold ElementShr.shrChecked bitLen
    rw [Nat.mul_comm s.length w, if_neg (lt_irrefl _)]
    unfold ElementShr.inner
    have hl := (ElementShr.loop_in_place s (w * s.length / w) (w * s.length % w)
      (Nat.mod_lt _ hw)).1
    simp only at hl ⊢
    rw [hl, Nat.mul_div_cancel_left _ hw]
    have hu : usub .release s.length (s.length + 1) = .ok (usizeSize - 1) := by
      unfold usub
      rw [if_neg (by omega)]
      simp only [usizeSize] at *
      congr 1
      omega
    rw [hu]
    simp only [Res.bind]
    have : (usizeSize - 1 + 1) % usizeSize = 0 := by decide
    rw [this, if_pos (Nat.zero_le _)]
    simp
  · have hlt : k % 2 ^ Nat.log2 (w * s.length) < 2 ^ Nat.log2 (w * s.length) :=
      Nat.mod_lt _ (Nat.two_pow_pos _)
    have hle : 2 ^ Nat.log2 (w * s.length) ≤ w * s.length := Nat.log2_self_le (by omega)
    obtain ⟨out, h1, h2, h3⟩ := ElementShr.inner_stale m hw s
      (k % 2 ^ Nat.log2 (w * s.length)) (by omega) hlen
    refine ⟨out, ?_, h2, h3⟩
    unfold ElementShr.shrWrapping bitLen
    rw [Nat.mul_comm s.length w, maskShift_eq m _ k h hs]
    exact h1

-- a shift by three of a 16-bit register: bits 13 to 15 stay set
example : ElementShr.shrChecked .debug [0#8, 0xE4#8] 3 = .ok (some [0x80, 0xFC]) ∧
    staleShr 8 16 0xE400 3 = 0xFC80 ∧ 0xE400 / 2 ^ 3 = 0x1C80 := by decide +kernel

/-- C34, the complete outcome for all amounts, widths and both profiles. Debug: `<<` by at most `8N`
is multiplication modulo `2^(8N)`, `>>` by less than `8N` is `staleShr`, and larger amounts panic.
Release: the amount is first reduced modulo the largest power of two that is at most `8N`. -/
theorem C34_shifts_exact_partial (a : Bytes) (k : Nat) (ha : a ≠ []) (hfit : a.length < 2 ^ 60) :
    (k ≤ 8 * a.length → ∃ out, UN.shl .debug a k = .ok out ∧ out.length = a.length ∧
      val out = val a * 2 ^ k % 256 ^ a.length) ∧
    (8 * a.length < k → UN.shl .debug a k = .panic) ∧
    (k < 8 * a.length → ∃ out, UN.shr .debug a k = .ok out ∧ out.length = a.length ∧
      val out = staleShr 8 (8 * a.length) (val a) k) ∧
    (8 * a.length ≤ k → UN.shr .debug a k = .panic) ∧
    (∃ out, UN.shl .release a k = .ok out ∧ out.length = a.length ∧
      val out = val a * 2 ^ (k % 2 ^ Nat.log2 (8 * a.length)) % 256 ^ a.length) ∧
    (∃ out, UN.shr .release a k = .ok out ∧ out.length = a.length ∧
      val out = staleShr 8 (8 * a.length) (val a) (k % 2 ^ Nat.log2 (8 * a.length))) := by
  have hl : 0 < a.length := List.length_pos_iff.mpr ha
  have hm := modulus_bytes a
  obtain ⟨c1, c2⟩ := C09_shl_checked (by norm_num : 0 < 8) a k
  obtain ⟨w1, _⟩ := C09_shl_wrapping_partial .release a k (by omega) (by omega)
  obtain ⟨r1, r2, r3, _⟩ := C11_shr_exact_partial .debug (by norm_num : 0 < 8) a k (by omega)
  refine ⟨fun h => ?_, fun h => ?_, fun h => ?_, fun h => ?_, ?_, ?_⟩
  · obtain ⟨out, g1, g2, g3⟩ := c2 h
    refine ⟨out, ?_, g2, by rw [g3, hm]⟩
    simp only [UN.shl, g1, Res.bind, Res.ofOption]
  · simp only [UN.shl, c1 h, Res.bind, Res.ofOption]
  · obtain ⟨out, g1, g2, g3, _⟩ := r2 h
    refine ⟨out, ?_, g2, g3⟩
    simp only [UN.shr, g1, Res.bind, Res.ofOption]
  · rcases Nat.eq_or_lt_of_le h with h | h
    · simp only [UN.shr, (r3 h.symm).1, Res.bind]
    · simp only [UN.shr, r1 h, Res.bind, Res.ofOption]
  · obtain ⟨out, g1, g2, g3⟩ := w1
    exact ⟨out, g1, g2, by rw [g3, hm]⟩
  · obtain ⟨_, _, _, r4⟩ := C11_shr_exact_partial .release (by norm_num : 0 < 8) a k (by omega)
    exact r4 (by omega)

-- `U<3>`: the amount 17 is reduced modulo 16, and the shift by one keeps the top bit
example : UN.shr .release [0#8, 0#8, 0x80#8] 17 = .ok [0, 0, 0xC0] ∧
    staleShr 8 24 0x800000 1 = 0xC00000 ∧ UN.shl .release [1#8, 0#8, 0#8] 17 = .ok [2, 0, 0] := by
  decide +kernel

/-! ## Empty slices -/

/-- C09 and C11 on the empty slice, exactly: in debug builds the wrapping shifts panic, whatever the
amount; in release builds they return for amounts that are less than one limb when bit 63 is ignored, and
panic otherwise. The checked shifts are `None` for all positive amounts; by 0, `<<` succeeds, and `>>`
succeeds in release builds only. -/
theorem C09_C11_empty_exact_partial (hw : 0 < w) (k : Nat) :
    (ElementShl.shlWrapping .debug ([] : List (BitVec w)) k = .panic ∧
      ElementShr.shrWrapping .debug ([] : List (BitVec w)) k = .panic) ∧
    (k % 2 ^ 63 < w → ElementShl.shlWrapping .release ([] : List (BitVec w)) k = .ok [] ∧
      ElementShr.shrWrapping .release ([] : List (BitVec w)) k = .ok []) ∧
    (w ≤ k % 2 ^ 63 → ElementShl.shlWrapping .release ([] : List (BitVec w)) k = .panic ∧
      ElementShr.shrWrapping .release ([] : List (BitVec w)) k = .panic) ∧
    (0 < k → ElementShl.shlChecked ([] : List (BitVec w)) k = .ok none ∧
      ∀ m, ElementShr.shrChecked m ([] : List (BitVec w)) k = .ok none) ∧
    ElementShl.shlChecked ([] : List (BitVec w)) 0 = .ok (some []) ∧
    ElementShr.shrChecked .debug ([] : List (BitVec w)) 0 = .panic ∧
    ElementShr.shrChecked .release ([] : List (BitVec w)) 0 = .ok (some []) := by
  have hmask : maskShift .release 0 k = .ok (k % 2 ^ 63) := by
    unfold maskShift leadingZeros
    rw [if_pos rfl]
    simp only [show ¬ (64 + 1 < 64) by decide, if_false]
    congr 1
    have : (usizeSize - 1) >>> ((64 + 1) % 64) = 2 ^ 63 - 1 := by decide
    rw [this, Nat.and_two_pow_sub_one_eq_mod]
  have hb : bitLen ([] : List (BitVec w)) = 0 := by simp [bitLen]
  have hl : ∀ n, ElementShl.inner ([] : List (BitVec w)) n = if n < w then .ok [] else .panic := by
    intro n
    unfold ElementShl.inner
    by_cases h : n < w
    · simp [forDown, h, Nat.div_eq_of_lt h]
    · have h1 : 0 < n / w := Nat.div_pos (by omega) hw
      simp only [forDown, List.length_nil, Nat.add_sub_cancel]
      rw [if_neg (by omega), if_neg h]
  have hr : ∀ n, n < 2 ^ 64 →
      ElementShr.inner .release ([] : List (BitVec w)) n = if n < w then .ok [] else .panic := by
    intro n hn
    unfold ElementShr.inner
    by_cases h : n < w
    · simp [forUp, h, Nat.div_eq_of_lt h, usub, Res.bind, usizeSize]
    · have h1 : 0 < n / w := Nat.div_pos (by omega) hw
      have h2 : n / w ≤ n := Nat.div_le_self _ _
      simp only [forUp, List.length_nil]
      unfold usub
      rw [if_neg (by omega), if_neg h]
      simp only [Res.bind]
      rw [if_neg]
      unfold usizeSize
      omega
  refine ⟨?_, fun h => ?_, fun h => ?_, fun h => ?_, ?_, ?_, ?_⟩
  · unfold ElementShl.shlWrapping ElementShr.shrWrapping
    rw [hb]
    exact ⟨rfl, rfl⟩
  · unfold ElementShl.shlWrapping ElementShr.shrWrapping
    rw [hb, hmask]
    simp only [Res.bind]
    rw [hl, hr _ (by omega), if_pos h]
    exact ⟨rfl, rfl⟩
  · unfold ElementShl.shlWrapping ElementShr.shrWrapping
    rw [hb, hmask]
    simp only [Res.bind]
    rw [hl, hr _ (by omega), if_neg (by omega)]
    exact ⟨rfl, rfl⟩
  · unfold ElementShl.shlChecked ElementShr.shrChecked
    rw [hb, if_pos h]
    exact ⟨rfl, fun m => if_pos h⟩
  · unfold ElementShl.shlChecked
    rw [hb, if_neg (by omega), hl, if_pos hw]
    rfl
  · unfold ElementShr.shrChecked
    rw [hb, if_neg (by omega)]
    unfold ElementShr.inner
    simp only [forUp, List.length_nil]
    unfold usub
    rw [if_neg (Nat.not_succ_le_zero _)]
    rfl
  · unfold ElementShr.shrChecked
    rw [hb, if_neg (by omega), hr _ (by omega), if_pos hw]
    rfl

example : ElementShl.shlWrapping .release ([] : List (BitVec 8)) (2 ^ 63 + 7) = .ok [] ∧
    ElementShl.shlWrapping .release ([] : List (BitVec 8)) 8 = .panic ∧
    ElementShl.shlWrapping .debug ([] : List (BitVec 8)) 0 = .panic := by decide +kernel

end Verif
