import Verif.Props.FixedInts
import Verif.Props.DivBits
import Verif.Lemmas.DivHalf

/-!
# C141: exactly what `Fixed` backed by `U<M>` does with any number of fractional bits
-/

namespace Verif

open Fixed BitSlice

section

variable {m : Mode} {M N : Nat}

private theorem bytes_pow (M : Nat) : 256 ^ M = 2 ^ (8 * M) := by
  rw [Nat.pow_mul]

private theorem bytes_pow_int (M : Nat) : (256 : Int) ^ M = 2 ^ (8 * M) := by
  exact_mod_cast bytes_pow M

private theorem ne_nil {a : Bytes} (ha : a.length = M) (hM : 0 < M) : a ≠ [] := by
  rintro rfl; simp at ha; omega

/-- The "half" that `round` computes, with seven or more fractional bits. -/
private theorem u_half (hM : 0 < M) (hfit : M < 2 ^ 60) (hN : 7 ≤ N) (hN' : N + 1 < 8 * M)
    {i two : Bytes} (hi : i.length = M) (ht : two.length = M) (hiv : val i = 2 ^ N)
    (htv : val two = 2 ^ (N + 1)) :
    ∃ h, UN.div m i two = .ok h ∧ h.length = M ∧ val h = halfQuot 8 N := by
  obtain ⟨q, r, a0, a1, -⟩ := bitwiseDiv_agree m (by norm_num : 0 < 8) i two (by omega) (by omega)
    (by omega)
  obtain ⟨q', r', b0, b1, -, b3, b4⟩ := bitwiseDivLong_exact m (by norm_num : 0 < 8) i two (by omega)
    (by omega) (by omega) (fun i q r =>
      (q * 2 ^ (N + 1) + r) % 2 ^ (8 * M) = 2 ^ N / 2 ^ i % 2 ^ (8 * M) ∧ q = halfQuot 8 N / 2 ^ i) (by
      rw [hi]
      have h1 : 2 ^ N / 2 ^ (8 * M) = 0 :=
        Nat.div_eq_of_lt (Nat.pow_lt_pow_right (by norm_num) (by omega))
      have h2 : halfQuot 8 N / 2 ^ (8 * M) = 0 := by
        apply Nat.div_eq_of_lt
        unfold halfQuot
        exact lt_of_le_of_lt (Nat.sub_le _ _) (Nat.pow_lt_pow_right (by norm_num) hN')
      simp [h1, h2]) (by
      rw [hi, hiv, htv]
      exact divStep_half (by norm_num) (by omega) hN' ⟨M, rfl⟩)
  rw [a0] at b0
  cases b0
  refine ⟨q, ?_, by rw [b1, hi], by rw [b4, Nat.pow_zero, Nat.div_one]⟩
  unfold UN.div
  cases m with
  | debug => simp only [BitwiseDiv.divLongChecked, a1, Res.bind, Res.ofOption]
  | release => simp only [BitwiseDiv.divLongWrapping, a1, Res.bind]

private theorem beVal_zero (M : Nat) : beVal (UN.zero M) = 0 := by
  have e : beVal (UN.zero M) = bigEnd (UN.zero M) := rfl
  rw [e, bigEnd_eq]
  simp [UN.zero]

/-- `round` once one, two and one half are known. -/
private theorem u_round {i two half f x : Bytes}
    (i1 : FixedOf.one (UN.intOps m M) N = .ok i) (ht : UN.add m i i = .ok two)
    (hd : UN.div m i two = .ok half) (f1 : FixedOf.fract (UN.intOps m M) N x = .ok f)
    (f2 : f.length = M) :
    FixedOf.round (UN.intOps m M) N x =
      if UN.cmp f half = .gt then FixedOf.ceil (UN.intOps m M) N x
      else FixedOf.floor (UN.intOps m M) N x := by
  have hge : UN.cmp f (UN.zero M) ≠ .lt := by
    rw [C31_order_exact_partial f (UN.zero M) (by rw [UN.length_zero, f2]), beVal_zero, Ne,
      compare_lt_iff_lt]
    omega
  unfold FixedOf.round
  rw [i1]
  simp only [Res.bind]
  rw [show FixedOf.add (UN.intOps m M) i i = .ok two from ht]
  simp only []
  rw [show FixedOf.div (UN.intOps m M) i two = .ok half from hd]
  simp only []
  rw [f1]
  simp only []
  change ((if UN.cmp f (UN.zero M) ≠ .lt then Res.ok f else _ : Res Bytes).bind
    fun f => if UN.cmp f half = .gt then FixedOf.ceil (UN.intOps m M) N x
      else FixedOf.floor (UN.intOps m M) N x) = _
  rw [if_pos hge]
  rfl

/-- The lowest byte decides a comparison. -/
private theorem cmp_low {a b : Bytes} (ha : a ≠ []) (hb : b ≠ []) (h : val a % 256 ≠ val b % 256) :
    UN.cmp a b = compare (val a % 256) (val b % 256) := by
  have e : ∀ s : Bytes, val s % 256 = (s.getD 0 0).toNat := fun s => low_mod s
  unfold UN.cmp
  rw [elementCmp_low a b 0 (by omega) (fun hc => h (by rw [e, e, hc])), e, e]
  rw [e, e] at h
  unfold limbCmp
  rcases Nat.lt_or_gt_of_ne h with c | c
  · rw [compare_lt_iff_lt.mpr c]
  · rw [compare_gt_iff_gt.mpr c]

private theorem u_fract (hM : 0 < M) (hfit : M < 2 ^ 60) (hN : N < 8 * M)
    (hr : m = .release → N < 2 ^ Nat.log2 (8 * M)) {x : Bytes} (hx : x.length = M) :
    ∃ f, FixedOf.fract (UN.intOps m M) N x = .ok f ∧ f.length = M ∧
      val f % 2 ^ N = val x % 2 ^ N ∧ (N ≤ 7 → val f = val x % 2 ^ N) := by
  obtain ⟨i, i1, i2, i3⟩ := FixedOf.u_one hM hfit hN hr
  obtain ⟨q, f, -, h2, -, -, h5, h6, -⟩ := C30_div_exact_partial m x i (by rw [i2, hx]) (ne_nil hx hM)
    (by omega)
  rw [hx] at h5 h6
  rw [i3] at h6
  have hmod : val f % 2 ^ N = val x % 2 ^ N := by
    have hdvd : 2 ^ N ∣ 2 ^ (8 * M) := pow_dvd_pow 2 hN.le
    rw [← h6, Nat.mod_mod_of_dvd _ hdvd, Nat.mul_add_mod_self_right]
  have hf : FixedOf.fract (UN.intOps m M) N x = .ok f := by
    unfold FixedOf.fract
    rw [i1]; exact h2
  refine ⟨f, hf, h5, hmod, fun h7 => ?_⟩
  obtain ⟨f', t, f1, -, -, -, -, f6⟩ := C141_fract_partial m M N hM hfit h7 x hx
  rw [hf] at f1
  cases f1
  have h1 : fval N (val f) < 1 := by rw [f6]; exact Int.fract_lt_one _
  have h2 : val f < 2 ^ N := by
    unfold fval at h1
    rw [div_lt_one (by positivity)] at h1
    exact_mod_cast h1
  rw [← hmod, Nat.mod_eq_of_lt h2]

private theorem u_two (hN : N + 1 < 8 * M) {i : Bytes} (i2 : i.length = M) (i3 : val i = 2 ^ N) :
    ∃ two, UN.add m i i = .ok two ∧ two.length = M ∧ val two = 2 ^ (N + 1) := by
  have hlt : 2 ^ (N + 1) < 2 ^ (8 * M) := Nat.pow_lt_pow_right (by norm_num) hN
  obtain ⟨a1, -⟩ := C27_checked_add_sub i i rfl
  rw [i2, bytes_pow] at a1
  have e : val i + val i = 2 ^ (N + 1) := by rw [i3, Nat.pow_succ]; ring
  obtain ⟨two, -, t1, t2, td, tr⟩ := a1 (by rw [e]; exact hlt)
  exact ⟨two, by cases m; exacts [td, tr], t1, by rw [t2, e]⟩

end

/-- C141, `round` exactly with at most six fractional bits: it is `ceil`. Missing, because false: that
it rounds down if the fraction is below one half. -/
theorem C141_round_small_exact_partial (m : Mode) (M N : Nat) (hM : 0 < M) (hfit : M < 2 ^ 60)
    (hN : N ≤ 6) (x : Bytes) (hx : x.length = M) :
    FixedOf.round (UN.intOps m M) N x = FixedOf.ceil (UN.intOps m M) N x := by
  have hlog : 3 ≤ Nat.log2 (8 * M) := (Nat.le_log2 (by omega)).mpr (by omega)
  have hr : m = .release → N < 2 ^ Nat.log2 (8 * M) := fun _ =>
    lt_of_lt_of_le (by omega : N < 2 ^ 3) (Nat.pow_le_pow_right (by norm_num) hlog)
  obtain ⟨i, i1, i2, i3⟩ := FixedOf.u_one hM hfit (by omega) hr
  obtain ⟨two, t0, t1, t2⟩ := u_two (m := m) (by omega) i2 i3
  have hle : 2 ^ (N + 1) ≤ 2 ^ 7 := Nat.pow_le_pow_right (by norm_num) (by omega)
  have hp : 0 < 2 ^ N := Nat.two_pow_pos N
  obtain ⟨half, rm, d1, -, -, d4, -, d6, d7⟩ := C30_div_partial m i two (by rw [t1, i2]) (ne_nil i2 hM)
    (by omega) (by rw [t2]; exact (Nat.two_pow_pos _).ne') (by omega) (Or.inr (by omega))
  have hhalf : val half = 0 := by
    by_contra hc
    have h1 : val two ≤ val half * val two := Nat.le_mul_of_pos_left _ (by omega)
    rw [i3] at d6
    rw [t2, Nat.pow_succ] at h1
    rw [t2, Nat.pow_succ] at d6
    omega
  have hz : half = UN.zero M := eq_of_val_eq (by rw [d4, i2, UN.length_zero]) (by rw [hhalf, UN.val_zero])
  obtain ⟨f, f1, f2, -, f4⟩ := u_fract hM hfit (by omega) hr hx
  rw [u_round i1 t0 d1 f1 f2]
  split
  · rfl
  · rename_i hgt
    rw [hz, C31_order_exact_partial f (UN.zero M) (by rw [UN.length_zero, f2]), beVal_zero,
      compare_gt_iff_gt] at hgt
    have hb : beVal f = beVal (UN.zero M) := by rw [beVal_zero]; omega
    have hfz : f = UN.zero M := (bigEnd_inj (by rw [f2, UN.length_zero])).mp hb
    have hw : 2 ^ N ∣ val x := by
      apply Nat.dvd_of_mod_eq_zero
      rw [← f4 (by omega), hfz, UN.val_zero]
    unfold FixedOf.ceil
    rw [FixedOf.u_whole hM hfit (by omega) hr hx]
    simp [Res.bind, hw]

/-- C141, `round` with seven fractional bits or more: what it takes for one half is the number with all
bits set up to the one worth 1, or, if the bit worth 2 is the top bit of its byte, with those from the
eighth on set. It compares the lowest bytes first. So with seven fractional bits it is `floor`; with more,
it is `floor` if the lowest byte is below that of this number (255 or 128), and `ceil` if it is above; if it
is the same it is one of the two. Missing, because false: that it rounds to the nearest. -/
theorem C141_round_wide_exact_partial (m : Mode) (M N : Nat) (hfit : M < 2 ^ 60)
    (hN : 7 ≤ N) (hN' : N + 1 < 8 * M) (hr : m = .release → N < 2 ^ Nat.log2 (8 * M)) (x : Bytes)
    (hx : x.length = M) :
    let low := if N % 8 = 6 then 128 else 255
    (N = 7 ∨ val x % 256 < low →
      FixedOf.round (UN.intOps m M) N x = FixedOf.floor (UN.intOps m M) N x) ∧
    (N ≠ 7 → low < val x % 256 →
      FixedOf.round (UN.intOps m M) N x = FixedOf.ceil (UN.intOps m M) N x) ∧
    (FixedOf.round (UN.intOps m M) N x = FixedOf.floor (UN.intOps m M) N x ∨
      FixedOf.round (UN.intOps m M) N x = FixedOf.ceil (UN.intOps m M) N x) := by
  have hM : 0 < M := by omega
  obtain ⟨i, i1, i2, i3⟩ := FixedOf.u_one hM hfit (by omega) hr
  obtain ⟨two, t0, t1, t2⟩ := u_two (m := m) hN' i2 i3
  obtain ⟨half, h0, h1, h2⟩ := u_half (m := m) hM hfit hN hN' i2 t1 i3 t2
  obtain ⟨f, f1, f2, f3, f4⟩ := u_fract hM hfit (by omega) hr hx
  have hrd := u_round i1 t0 h0 f1 f2
  have h256 : 256 ∣ 2 ^ (N + 1) := by
    rw [show (256 : Nat) = 2 ^ 8 by norm_num]
    exact Nat.pow_dvd_pow 2 (by omega)
  have hlow : val half % 256 = if N % 8 = 6 then 128 else 255 := by
    rw [h2]
    unfold halfQuot
    obtain ⟨c, hc⟩ := h256
    have hpos : 0 < 2 ^ (N + 1) := Nat.two_pow_pos _
    by_cases h6 : N % 8 = 6
    · rw [if_pos (by omega), if_pos h6, hc]
      norm_num
      omega
    · rw [if_neg (by omega), if_neg h6, hc]
      norm_num
      omega
  intro low
  change val half % 256 = low at hlow
  have hhn : half ≠ [] := ne_nil h1 hM
  have hfn : f ≠ [] := ne_nil f2 hM
  have hlow7 : N = 7 → low = 255 := by rintro rfl; rfl
  have hf8 : N ≠ 7 → val f % 256 = val x % 256 := by
    intro h7
    have hd : 256 ∣ 2 ^ N := by
      rw [show (256 : Nat) = 2 ^ 8 by norm_num]
      exact Nat.pow_dvd_pow 2 (by omega)
    rw [← Nat.mod_mod_of_dvd (val f) hd, f3, Nat.mod_mod_of_dvd _ hd]
  have hf7 : N = 7 → val f % 256 < low := by
    intro h7
    have h8 := f4 (by omega)
    have h9 : val x % 2 ^ N < 2 ^ N := Nat.mod_lt _ (Nat.two_pow_pos _)
    rw [hlow7 h7]
    subst h7
    omega
  refine ⟨fun h => ?_, fun h7 h => ?_, ?_⟩
  · have hlt : val f % 256 < val half % 256 := by
      rw [hlow]
      by_cases h7 : N = 7
      · exact hf7 h7
      · rw [hf8 h7]
        exact h.resolve_left h7
    rw [hrd, cmp_low hfn hhn hlt.ne, compare_lt_iff_lt.mpr hlt]
    simp
  · have hlt : val half % 256 < val f % 256 := by
      rw [hlow, hf8 h7]; exact h
    rw [hrd, cmp_low hfn hhn hlt.ne', compare_gt_iff_gt.mpr hlt]
    simp
  · rw [hrd]
    split
    · exact Or.inr rfl
    · exact Or.inl rfl

-- 1.75 with eight fractional bits is rounded to 1, `1 + 129/2^14` with fourteen is rounded to 2
example : FixedOf.round (UN.intOps .debug 2) 8 [0xC0#8, 1#8] = .ok [0, 1] ∧
    FixedOf.round (UN.intOps .debug 2) 14 [129#8, 0x40#8] = .ok [0, 0x80] := by decide +kernel

/-- C141, `fract` exactly, for every number of fractional bits: it is the remainder that shift-and-subtract
division by the number one leaves, every comparison being made lowest byte first (`lowQuot_unique`: there
is only one). Missing, because false: that it is the fractional part. -/
theorem C141_fract_bits_partial (m : Mode) (M N : Nat) (hM : 0 < M) (hfit : M < 2 ^ 60) (hN : N < 8 * M)
    (hr : m = .release → N < 2 ^ Nat.log2 (8 * M)) (x : Bytes) (hx : x.length = M) :
    ∃ f q, FixedOf.fract (UN.intOps m M) N x = .ok f ∧ f.length = M ∧
      LowQuot 8 (8 * M) (val x) (2 ^ N) q (val f) := by
  obtain ⟨i, i1, i2, i3⟩ := FixedOf.u_one hM hfit hN hr
  obtain ⟨q, f, -, h2, h3⟩ := C30_div_bits_partial m x i (by rw [i2, hx]) (ne_nil hx hM) (by omega)
  obtain ⟨q', f', -, h2', -, -, h5, -⟩ := C30_div_exact_partial m x i (by rw [i2, hx]) (ne_nil hx hM)
    (by omega)
  rw [h2] at h2'
  cases h2'
  rw [hx] at h5
  rw [hx, i3] at h3
  refine ⟨f, val q, ?_, h5, h3⟩
  unfold FixedOf.fract
  rw [i1]; exact h2

/-- C141, `round` exactly, with seven fractional bits or more: it is `ceil` if what `fract` gives is, lowest
byte first, greater than the number with all bits set up to the one worth 1 (if the bit worth 2 is the top bit
of its byte: with all those from the eighth on set); otherwise it is `floor`. Missing, because false: that it
rounds to the nearest. -/
theorem C141_round_bits_partial (m : Mode) (M N : Nat) (hfit : M < 2 ^ 60)
    (hN : 7 ≤ N) (hN' : N + 1 < 8 * M) (hr : m = .release → N < 2 ^ Nat.log2 (8 * M)) (x : Bytes)
    (hx : x.length = M) :
    let half := 2 ^ (N + 1) - if N % 8 = 6 then 128 else 1
    ∃ f, FixedOf.fract (UN.intOps m M) N x = .ok f ∧
      (¬ LowGe 8 half (val f) →
        FixedOf.round (UN.intOps m M) N x = FixedOf.ceil (UN.intOps m M) N x) ∧
      (LowGe 8 half (val f) →
        FixedOf.round (UN.intOps m M) N x = FixedOf.floor (UN.intOps m M) N x) := by
  have hM : 0 < M := by omega
  obtain ⟨i, i1, i2, i3⟩ := FixedOf.u_one hM hfit (by omega) hr
  obtain ⟨two, t0, t1, t2⟩ := u_two (m := m) hN' i2 i3
  obtain ⟨half, h0, h1, h2⟩ := u_half (m := m) hM hfit hN hN' i2 t1 i3 t2
  obtain ⟨f, f1, f2, -⟩ := u_fract hM hfit (by omega) hr hx
  have hh : val half = 2 ^ (N + 1) - if N % 8 = 6 then 128 else 1 := by
    rw [h2]
    unfold halfQuot
    by_cases h6 : N % 8 = 6
    · rw [if_pos (by omega), if_pos h6]
      norm_num
    · rw [if_neg (by omega), if_neg h6]
      norm_num
  intro H
  change val half = H at hh
  have key : LowGe 8 H (val f) ↔ UN.cmp f half ≠ .gt := by
    rw [← hh, ← isGe_iff half f]
    have hs : elementCmp half f = (UN.cmp f half).swap := by
      change UN.cmp half f = _
      rw [C31_order_exact_partial half f (by rw [h1, f2]), C31_order_exact_partial f half (by rw [h1, f2]),
        Nat.compare_swap]
    rw [hs]
    cases UN.cmp f half <;> simp [isGe]
  have hrd := u_round i1 t0 h0 f1 f2
  refine ⟨f, f1, fun h => ?_, fun h => ?_⟩
  · rw [hrd, if_pos (by rw [key] at h; simpa using h)]
  · rw [hrd, if_neg (key.mp h)]

-- with eight fractional bits the half is 511: 255/256, of which `fract` makes 511, is rounded down, and
-- `3 + 255/256`, of which it makes 1279, is rounded up
example : FixedOf.fract (UN.intOps .debug 2) 8 [255#8, 0#8] = .ok [255, 1] ∧
    FixedOf.round (UN.intOps .debug 2) 8 [255#8, 0#8] = .ok [0, 0] ∧
    FixedOf.fract (UN.intOps .debug 2) 8 [255#8, 3#8] = .ok [255, 4] ∧
    FixedOf.round (UN.intOps .debug 2) 8 [255#8, 3#8] = .ok [0, 4] ∧
    val [255#8, 1#8] = 2 ^ (8 + 1) - 1 := by decide +kernel

/-- C141, `round` if the bit worth 1 is the top bit: debug builds panic, release builds round down. -/
theorem C141_round_top_violated (M : Nat) (hM : 0 < M) (hfit : M < 2 ^ 60) (x : Bytes)
    (hx : x.length = M) :
    FixedOf.round (UN.intOps .debug M) (8 * M - 1) x = .panic ∧
    (8 * M - 1 < 2 ^ Nat.log2 (8 * M) →
      FixedOf.round (UN.intOps .release M) (8 * M - 1) x =
        FixedOf.floor (UN.intOps .release M) (8 * M - 1) x) := by
  have hpow : 2 ^ (8 * M) = 2 * 2 ^ (8 * M - 1) := by
    rw [← Nat.pow_succ']; congr 1; omega
  constructor
  · obtain ⟨i, i1, i2, i3⟩ := FixedOf.u_one (m := .debug) hM hfit (by omega : 8 * M - 1 < 8 * M) (by simp)
    obtain ⟨-, a2, -⟩ := C27_checked_add_sub i i rfl
    rw [i2, bytes_pow, i3] at a2
    obtain ⟨-, a3, -⟩ := a2 (by omega)
    unfold FixedOf.round
    rw [i1]
    simp only [Res.bind]
    rw [show FixedOf.add (UN.intOps .debug M) i i = .panic from a3]
  · intro hr
    obtain ⟨i, i1, i2, i3⟩ := FixedOf.u_one (m := .release) hM hfit (by omega : 8 * M - 1 < 8 * M)
      (fun _ => hr)
    obtain ⟨-, a2, -⟩ := C27_checked_add_sub i i rfl
    rw [i2, bytes_pow, i3] at a2
    obtain ⟨-, -, two, t0, t1, t2⟩ := a2 (by omega)
    have t2' : val two = 0 := by rw [t2]; omega
    obtain ⟨half, rm, d1, -, -, d4, -, -, -, d8⟩ := C30_div_exact_partial .release i two
      (by rw [t1, i2]) (ne_nil i2 hM) (by omega)
    have hh := (d8 t2').1
    have hB : 8 * M - 1 < 8 * M := Nat.sub_lt (Nat.mul_pos (by norm_num) hM) (by norm_num)
    obtain ⟨f, f1, f2, -, -⟩ := u_fract (m := .release) hM hfit hB (fun _ => hr) hx
    rw [u_round i1 t0 d1 f1 f2, if_neg]
    have e : half = UN.maxValue M := by
      apply eq_of_val_eq (by rw [d4, i2]; simp [UN.maxValue])
      rw [hh, i2, val_maxValue, bytes_pow]
    have hb : beVal half = 2 ^ (8 * M) - 1 := by
      have e1 : beVal half = bigEnd half := rfl
      rw [e1, bigEnd_eq, e, UN.maxValue, List.reverse_replicate]
      have := val_maxValue M
      rwa [UN.maxValue, bytes_pow] at this
    have hfl : beVal f < 2 ^ (8 * M) := by
      have := bigEnd_lt f
      rwa [f2] at this
    rw [C31_order_exact_partial f half (by rw [f2, d4, i2]), hb, compare_gt_iff_gt]
    omega

example : FixedOf.round (UN.intOps .debug 2) 15 [0#8, 0xC0#8] = .panic ∧
    FixedOf.round (UN.intOps .release 2) 15 [0#8, 0xC0#8] = .ok [0, 0x80] := by decide +kernel

/-- C141 for `ceil` in release builds, if the result is not representable: it is 0. -/
theorem C141_ceil_release_partial (M N : Nat) (hM : 0 < M) (hfit : M < 2 ^ 60) (hN : N < 8 * M)
    (hr : N < 2 ^ Nat.log2 (8 * M)) (x : Bytes) (hx : x.length = M)
    (hb : 256 ^ M ≤ ⌈fval N (val x)⌉ * 2 ^ N) :
    ∃ r, FixedOf.ceil (UN.intOps .release M) N x = .ok r ∧ r.length = M ∧ val r = 0 := by
  have hr' : Mode.release = .release → N < 2 ^ Nat.log2 (8 * M) := fun _ => hr
  have hw := FixedOf.u_whole hM hfit hN hr' hx
  obtain ⟨f, f1, f2, f3⟩ := FixedOf.u_floor hM hfit hN hr' hx
  obtain ⟨i, i1, i2, i3⟩ := FixedOf.u_one hM hfit hN hr'
  have hp : 0 < 2 ^ N := Nat.two_pow_pos N
  have hlt := val_lt x
  rw [modulus, hx] at hlt
  have hW : 2 ^ (8 * M) = 2 ^ (8 * M - N) * 2 ^ N := by
    rw [← Nat.pow_add, Nat.sub_add_cancel hN.le]
  have hb' : 2 ^ (8 * M) ≤ (if 2 ^ N ∣ val x then val x / 2 ^ N else val x / 2 ^ N + 1) * 2 ^ N := by
    rw [ceil_fval_nat, bytes_pow_int] at hb
    exact_mod_cast hb
  by_cases hd : 2 ^ N ∣ val x
  · rw [if_pos hd, Nat.div_mul_cancel hd] at hb'
    omega
  · rw [if_neg hd] at hb'
    have hq : val x / 2 ^ N < 2 ^ (8 * M - N) := by
      apply Nat.div_lt_of_lt_mul
      rw [mul_comm, ← hW]; exact hlt
    have heq : (val x / 2 ^ N + 1) * 2 ^ N = 2 ^ (8 * M) := by
      apply le_antisymm _ hb'
      rw [hW]
      exact Nat.mul_le_mul_right _ hq
    obtain ⟨-, a2, -⟩ := C27_checked_add_sub f i (by rw [i2, f2])
    have hsum : val f + val i = 256 ^ M := by rw [f3, i3, bytes_pow, ← heq]; ring
    rw [f2, hsum] at a2
    obtain ⟨-, -, r, r1, r2, r3⟩ := a2 le_rfl
    refine ⟨r, ?_, r2, by rw [r3, Nat.sub_self]⟩
    unfold FixedOf.ceil
    rw [hw]
    simp only [Res.bind, hd, decide_false, Bool.false_eq_true, if_false]
    rw [f1]
    simp only [i1]
    exact r1

example : FixedOf.ceil (UN.intOps .release 1) 2 [0xFF#8] = .ok [0] := by decide +kernel

/-- C141, sums and differences that are not representable wrap around in release builds. -/
theorem C141_add_sub_release (M N : Nat) (x y : Bytes) (hx : x.length = M) (hy : y.length = M) :
    (256 ^ M ≤ val x + val y → ∃ r, FixedOf.add (UN.intOps .release M) x y = .ok r ∧ r.length = M ∧
      fval N (val r) = fval N (val x) + fval N (val y) - 256 ^ M / 2 ^ N) ∧
    (val x < val y → ∃ r, FixedOf.sub (UN.intOps .release M) x y = .ok r ∧ r.length = M ∧
      fval N (val r) = fval N (val x) - fval N (val y) + 256 ^ M / 2 ^ N) := by
  obtain ⟨-, h2, -, h4⟩ := C27_checked_add_sub x y (by rw [hx, hy])
  have hl : val y ≤ 256 ^ M := by
    have := val_lt y
    rw [modulus, hy] at this
    rw [bytes_pow]; exact this.le
  subst hx
  constructor
  · intro h
    obtain ⟨-, -, r, r1, r2, r3⟩ := h2 h
    refine ⟨r, r1, r2, ?_⟩
    rw [r3]
    unfold fval
    push_cast [h]
    ring
  · intro h
    obtain ⟨-, -, r, r1, r2, r3⟩ := h4 h
    refine ⟨r, r1, r2, ?_⟩
    rw [r3]
    unfold fval
    have : val y ≤ val x + 256 ^ x.length := by omega
    push_cast [this]
    ring

example : FixedOf.add (UN.intOps .release 1) [0xFF#8] [3#8] = .ok [2] ∧
    FixedOf.sub (UN.intOps .release 1) [1#8] [3#8] = .ok [0xFE] := by decide +kernel

/-- C141, `trunc` exactly: the number less what `fract` gives for its fraction, which is a whole number
(not always the right one); if that is negative, debug builds panic and release builds wrap around. -/
theorem C141_trunc_exact_partial (m : Mode) (M N : Nat) (hM : 0 < M) (hfit : M < 2 ^ 60) (hN : N < 8 * M)
    (hr : m = .release → N < 2 ^ Nat.log2 (8 * M)) (x : Bytes) (hx : x.length = M) :
    ∃ f, FixedOf.fract (UN.intOps m M) N x = .ok f ∧ f.length = M ∧
      (val f ≤ val x → ∃ t, FixedOf.trunc (UN.intOps m M) N x = .ok t ∧ t.length = M ∧
        fval N (val t) = fval N (val x) - fval N (val f) ∧ ∃ n : Nat, fval N (val t) = n) ∧
      (val x < val f → m = .debug → FixedOf.trunc (UN.intOps m M) N x = .panic) ∧
      (val x < val f → m = .release → ∃ t, FixedOf.trunc (UN.intOps m M) N x = .ok t ∧ t.length = M ∧
        fval N (val t) = fval N (val x) - fval N (val f) + 256 ^ M / 2 ^ N ∧
        ∃ n : Nat, fval N (val t) = n) := by
  obtain ⟨f, f1, f2, f3, -⟩ := u_fract hM hfit hN hr hx
  have htr : FixedOf.trunc (UN.intOps m M) N x = UN.sub m x f := by
    unfold FixedOf.trunc
    rw [f1]
    rfl
  have whole : ∀ t : Nat, 2 ^ N ∣ t → ∃ n : Nat, fval N t = n := by
    rintro t ⟨n, rfl⟩
    refine ⟨n, ?_⟩
    unfold fval
    push_cast
    field_simp
  obtain ⟨-, -, h3, h4⟩ := C27_checked_add_sub x f (by rw [hx, f2])
  have hdvd : 2 ^ N ∣ 256 ^ M := by rw [bytes_pow]; exact pow_dvd_pow 2 hN.le
  have hfl : val f ≤ 256 ^ M := by
    have := val_lt f
    rw [modulus, f2] at this
    rw [bytes_pow]; exact this.le
  refine ⟨f, f1, f2, fun h => ?_, fun h e => ?_, fun h e => ?_⟩
  · obtain ⟨t, -, t1, t2, td, tr⟩ := h3 h
    refine ⟨t, by rw [htr]; cases m; exacts [td, tr], by rw [t1, hx], ?_, ?_⟩
    · rw [t2, ← fval_sub]; push_cast [h]; rfl
    · apply whole
      rw [t2]
      exact (Nat.modEq_iff_dvd' h).mp f3
  · subst e
    rw [htr]
    exact (h4 h).2.1
  · subst e
    obtain ⟨-, -, t, t0, t1, t2⟩ := h4 h
    have hle : val f ≤ val x + 256 ^ x.length := by rw [hx]; omega
    refine ⟨t, by rw [htr]; exact t0, by rw [t1, hx], ?_, ?_⟩
    · rw [t2, hx] at *
      unfold fval
      push_cast [hle]
      ring
    · apply whole
      rw [t2]
      apply (Nat.modEq_iff_dvd' hle).mp
      rw [hx]
      exact f3.trans (by
        obtain ⟨c, hc⟩ := hdvd
        rw [hc]
        simp [Nat.ModEq])

-- 1/256 with eight fractional bits: `fract` gives 255 + 1/256
example : FixedOf.fract (UN.intOps .debug 2) 8 [1#8, 0#8] = .ok [1, 255] ∧
    FixedOf.trunc (UN.intOps .debug 2) 8 [1#8, 0#8] = .panic ∧
    FixedOf.trunc (UN.intOps .release 2) 8 [1#8, 0#8] = .ok [0, 1] ∧
    FixedOf.trunc (UN.intOps .debug 2) 3 [13#8, 2#8] = .ok [8, 2] := by decide +kernel

/-- C141 in release builds, for all numbers of fractional bits: everything that shifts behaves as with the
number of fractional bits reduced modulo the largest power of two that is at most the number of bits. -/
theorem C141_release_reduced_partial (M N : Nat) (hM : 0 < M) (hfit : M < 2 ^ 60) (x : Bytes)
    (hx : x.length = M) :
    let o := UN.intOps .release M
    let N' := N % 2 ^ Nat.log2 (8 * M)
    FixedOf.one o N = FixedOf.one o N' ∧ FixedOf.fromVal o N x = FixedOf.fromVal o N' x ∧
    FixedOf.isWhole o N x = FixedOf.isWhole o N' x ∧ FixedOf.isOne o N x = FixedOf.isOne o N' x ∧
    FixedOf.floor o N x = FixedOf.floor o N' x ∧ FixedOf.ceil o N x = FixedOf.ceil o N' x ∧
    FixedOf.fract o N x = FixedOf.fract o N' x ∧ FixedOf.trunc o N x = FixedOf.trunc o N' x ∧
    FixedOf.round o N x = FixedOf.round o N' x := by
  intro o N'
  have hshl : ∀ a : Bytes, a.length = M → UN.shl .release a N = UN.shl .release a N' := by
    intro a ha
    obtain ⟨-, -, -, -, ⟨r, r1, r2, r3⟩, -⟩ := C34_shifts_exact_partial a N (ne_nil ha hM) (by omega)
    obtain ⟨-, -, -, -, ⟨s, s1, s2, s3⟩, -⟩ := C34_shifts_exact_partial a N' (ne_nil ha hM) (by omega)
    rw [r1, s1]
    congr 1
    apply eq_of_val_eq (by rw [r2, s2])
    rw [r3, s3, ha, Nat.mod_mod]
  have hshr : ∀ a : Bytes, a.length = M → UN.shr .release a N = UN.shr .release a N' ∧
      ∃ r, UN.shr .release a N' = .ok r ∧ r.length = M := by
    intro a ha
    obtain ⟨-, -, -, -, -, ⟨r, r1, r2, r3⟩⟩ := C34_shifts_exact_partial a N (ne_nil ha hM) (by omega)
    obtain ⟨-, -, -, -, -, ⟨s, s1, s2, s3⟩⟩ := C34_shifts_exact_partial a N' (ne_nil ha hM) (by omega)
    refine ⟨?_, s, s1, by rw [s2, ha]⟩
    rw [r1, s1]
    congr 1
    apply eq_of_val_eq (by rw [r2, s2])
    rw [r3, s3, ha, Nat.mod_mod]
  have h1 : FixedOf.one o N = FixedOf.one o N' := hshl _ (UN.length_one M)
  have h2 : FixedOf.fromVal o N x = FixedOf.fromVal o N' x := hshl x hx
  have hm : FixedOf.mask o N = FixedOf.mask o N' := by
    unfold FixedOf.mask
    rw [show o.shl o.one N = o.shl o.one N' from h1]
  have h3 : FixedOf.isWhole o N x = FixedOf.isWhole o N' x := by
    unfold FixedOf.isWhole; rw [hm]
  have h4 : FixedOf.floor o N x = FixedOf.floor o N' x := by
    obtain ⟨e, r, r1, r2⟩ := hshr x hx
    unfold FixedOf.floor
    rw [show o.shr x N = .ok r from e.trans r1, show o.shr x N' = .ok r from r1]
    exact hshl r r2
  have h5 : FixedOf.ceil o N x = FixedOf.ceil o N' x := by
    unfold FixedOf.ceil; rw [h3, h4, h1]
  have h6 : FixedOf.fract o N x = FixedOf.fract o N' x := by
    unfold FixedOf.fract; rw [h1]
  refine ⟨h1, h2, h3, ?_, h4, h5, h6, ?_, ?_⟩
  · unfold FixedOf.isOne; rw [h1]
  · unfold FixedOf.trunc; rw [h6]
  · unfold FixedOf.round; rw [h1, h6, h4, h5]

-- with 17 fractional bits in three bytes it is as with one
example : FixedOf.floor (UN.intOps .release 3) 17 [3#8, 1#8, 0#8] = .ok [2, 1, 0] ∧
    FixedOf.floor (UN.intOps .release 3) 1 [3#8, 1#8, 0#8] = .ok [2, 1, 0] := by decide +kernel

end Verif
