import Verif.Props.Prim

/-!
# C71, C87, C88, exactly: where casts, powers and checked shifts of primitive integers are right
-/

namespace Verif

open Prim

/-! ## C71 -/

theorem closest_iff {t : Prim} (ht : 0 < t.bits) (z r : Int) :
    IsClosest t z r ↔ t.InRange r ∧
      ((t.InRange z ∧ r = z) ∨ (t.maxV < z ∧ r = t.maxV) ∨ (z < t.minV ∧ r = t.minV)) := by
  obtain ⟨b1, b2, _⟩ := bounds ht
  constructor
  · rintro ⟨h1, h2⟩
    refine ⟨h1, ?_⟩
    unfold InRange at h1
    rcases Int.lt_or_le t.maxV z with hz | hz
    · have := h2 t.maxV ⟨by omega, Int.le_refl _⟩
      rw [abs_of_nonneg (by omega), abs_of_nonneg (by omega)] at this
      exact .inr (.inl ⟨hz, by omega⟩)
    · rcases Int.lt_or_le z t.minV with hz' | hz'
      · have := h2 t.minV ⟨Int.le_refl _, by omega⟩
        rw [abs_of_nonpos (by omega), abs_of_nonpos (by omega)] at this
        exact .inr (.inr ⟨hz', by omega⟩)
      · have := h2 z ⟨hz', hz⟩
        rw [Int.sub_self, abs_zero] at this
        have := abs_nonpos_iff.mp this
        exact .inl ⟨⟨hz', hz⟩, by omega⟩
  · rintro ⟨h1, ⟨h2, rfl⟩ | ⟨h2, rfl⟩ | ⟨h2, rfl⟩⟩
    · exact ⟨h1, fun r' _ => by rw [Int.sub_self, abs_zero]; exact abs_nonneg _⟩
    · exact closest_high ht (by omega)
    · exact closest_low ht (by omega)

/-- C71, exactly: every implemented cast gives the closest value of every number, or it is one from
`isize` to a narrower signed type which truncates. The latter gives the closest value exactly when the
number has the target type, or when truncating it happens to give the right bound. -/
theorem C71_saturating_exact_partial (ptr : Nat) (hptr : ptr = 16 ∨ ptr = 32 ∨ ptr = 64)
    (t s : Prim) (f : Int → Int) (h : (t, s, f) ∈ saturateImpls ptr) :
    (∀ z, s.InRange z → IsClosest t z (f z)) ∨
    ((t.signed = true ∧ 16 ≤ t.bits ∧ t.bits < ptr ∧ s = isize ptr) ∧
      ∀ z, (t.InRange (f z) ∧ f z ≡ z [ZMOD 2 ^ t.bits]) ∧
      (IsClosest t z (f z) ↔ t.InRange z ∨ (t.maxV < z ∧ z ≡ t.maxV [ZMOD 2 ^ t.bits]) ∨
        (z < t.minV ∧ z ≡ t.minV [ZMOD 2 ^ t.bits]))) := by
  have hu : ∀ r ∈ uintRows ptr, 0 < r.ty.bits ∧
      (∀ s ∈ r.uLess, r.ty.minV ≤ s.minV ∧ s.maxV ≤ r.ty.maxV) ∧
      (∀ s ∈ r.uGreater, 0 < s.bits ∧ r.ty.minV ≤ s.minV ∧ r.ty.maxV ≤ s.maxV) ∧
      (∀ s ∈ r.sLess, r.ty.minV = 0 ∧ s.maxV ≤ r.ty.maxV) ∧
      (∀ s ∈ r.sGreater, 0 < s.bits ∧ r.ty.minV = 0 ∧ r.ty.maxV ≤ s.maxV) := by
    rcases hptr with rfl | rfl | rfl <;> decide +kernel
  have hsi : ∀ r ∈ sintRows ptr, 0 < r.ty.bits ∧
      (∀ s ∈ r.uLess, r.ty.minV ≤ s.minV ∧ s.maxV ≤ r.ty.maxV) ∧
      (∀ s ∈ r.uGreater, 0 < s.bits ∧ r.ty.minV ≤ s.minV ∧ r.ty.maxV ≤ s.maxV) ∧
      (∀ s ∈ r.sLess, (r.ty.signed = true ∧ 16 ≤ r.ty.bits ∧ r.ty.bits < ptr ∧ s = isize ptr) ∨
        (r.ty.minV ≤ s.minV ∧ s.maxV ≤ r.ty.maxV)) ∧
      (∀ s ∈ r.sGreater, 0 < s.bits ∧ s.minV ≤ r.ty.minV ∧ r.ty.maxV ≤ s.maxV) := by
    rcases hptr with rfl | rfl | rfl <;> decide +kernel
  unfold saturateImpls at h
  rw [List.mem_append, List.mem_flatMap, List.mem_flatMap] at h
  rcases h with ⟨r, hr, h⟩ | ⟨r, hr, h⟩
  · obtain ⟨h0, h1, h2, h3, h4⟩ := hu r hr
    simp only [List.mem_append, List.mem_map, Prod.mk.injEq] at h
    left
    intro z hz
    rcases h with ((⟨s', hs', rfl, rfl, rfl⟩ | ⟨s', hs', rfl, rfl, rfl⟩) |
      ⟨s', hs', rfl, rfl, rfl⟩) | ⟨s', hs', rfl, rfl, rfl⟩
    · exact satAs_closest h0 (h1 s' hs').1 (h1 s' hs').2 hz
    · exact satHigh_closest h0 (h2 s' hs').1 (h2 s' hs').2.1 (h2 s' hs').2.2 hz
    · exact satLow_closest h0 (h3 s' hs').1 (h3 s' hs').2 hz.2
    · exact satLowHigh_closest h0 (h4 s' hs').1 (h4 s' hs').2.1 (h4 s' hs').2.2 z
  · obtain ⟨h0, h1, h2, h3, h4⟩ := hsi r hr
    simp only [List.mem_append, List.mem_map, Prod.mk.injEq] at h
    rcases h with ((⟨s', hs', rfl, rfl, rfl⟩ | ⟨s', hs', rfl, rfl, rfl⟩) |
      ⟨s', hs', rfl, rfl, rfl⟩) | ⟨s', hs', rfl, rfl, rfl⟩
    · exact .inl fun z hz => satAs_closest h0 (h1 s' hs').1 (h1 s' hs').2 hz
    · exact .inl fun z hz => satHigh_closest h0 (h2 s' hs').1 (h2 s' hs').2.1 (h2 s' hs').2.2 hz
    · rcases h3 s' hs' with hb | hg
      · refine .inr ⟨hb, fun z => ?_⟩
        obtain ⟨w1, w2⟩ := wrap_spec h0 z
        have hmod : r.ty.wrap z ≡ z [ZMOD 2 ^ r.ty.bits] :=
          (Int.modEq_iff_dvd.mpr w2).symm
        refine ⟨⟨w1, hmod⟩, ?_⟩
        obtain ⟨b1, b2, _⟩ := bounds h0
        show IsClosest r.ty z (r.ty.wrap z) ↔ _
        rw [closest_iff h0]
        constructor
        · rintro ⟨_, ⟨c1, _⟩ | ⟨c1, c2⟩ | ⟨c1, c2⟩⟩
          · exact .inl c1
          · exact .inr (.inl ⟨c1, by rw [← c2]; exact hmod.symm⟩)
          · exact .inr (.inr ⟨c1, by rw [← c2]; exact hmod.symm⟩)
        · rintro (c | ⟨c1, c2⟩ | ⟨c1, c2⟩)
          · exact ⟨w1, .inl ⟨c, wrap_eq h0 c⟩⟩
          · exact ⟨w1, .inr (.inl ⟨c1, eq_of_dvd h0 w1 ⟨by omega, Int.le_refl _⟩
              (Int.modEq_iff_dvd.mp (hmod.trans c2).symm)⟩)⟩
          · exact ⟨w1, .inr (.inr ⟨c1, eq_of_dvd h0 w1 ⟨Int.le_refl _, by omega⟩
              (Int.modEq_iff_dvd.mp (hmod.trans c2).symm)⟩)⟩
      · exact .inl fun z hz => satAs_closest h0 hg.1 hg.2 hz
    · exact .inl fun z _ => satBoth_closest h0 (h4 s' hs').1 (h4 s' hs').2.1 (h4 s' hs').2.2 z

/-- The number of names a type has: `usize` and `isize` are further names of types of pointer width. -/
def namesOf (ptr : Nat) (t : Prim) : Nat := if t.bits = ptr then 2 else 1

/-- C71: which casts there are. Each of the 144 pairs of names of integer types has exactly one cast,
except that there is none from `isize` to `i8`, which is what is missing. -/
theorem C71_every_pair_partial (ptr : Nat) (hptr : ptr = 16 ∨ ptr = 32 ∨ ptr = 64) :
    ∀ t ∈ [u8, u16, u32, u64, u128, i8, i16, i32, i64, i128],
    ∀ s ∈ [u8, u16, u32, u64, u128, i8, i16, i32, i64, i128],
      (saturateImpls ptr).countP (fun c => decide (c.1 = t) && decide (c.2.1 = s)) +
        (if t = i8 ∧ s = isize ptr then 1 else 0) = namesOf ptr t * namesOf ptr s := by
  rcases hptr with rfl | rfl | rfl <;> decide +kernel

/-- C71: on 16-bit targets all casts are right. Those between types of fixed size are among them, and
the same on all targets. -/
theorem C71_saturating_16_partial (t s : Prim) (f : Int → Int) (h : (t, s, f) ∈ saturateImpls 16)
    (z : Int) (hz : s.InRange z) : IsClosest t z (f z) := by
  rcases C71_saturating_exact_partial 16 (.inl rfl) t s f h with h1 | ⟨⟨_, h1, h2, _⟩, _⟩
  · exact h1 z hz
  · omega

/-- `i32` from `i128`, and `i16` from `isize`, on 64-bit targets. -/
example : (i32, i128, satBoth i32 i128) ∈ saturateImpls 64 ∧
    (i16, isize 64, satAs i16 (isize 64)) ∈ saturateImpls 64 ∧
    satAs i16 (isize 64) 40000 = -25536 ∧ satAs i16 (isize 64) (32767 + 65536) = 32767 := by
  refine ⟨?_, ?_, by decide, by decide⟩
  · simp [saturateImpls, sintRows]
  · simp [saturateImpls, sintRows]

/-! ## C87 -/

/-- C87, exactly: raising to a power of at least `2^32` is right (the power, or a panic if the type does
not have it, in debug builds) for bases 1 and -1, for base 0 if `2^32` does not divide the exponent, and
for other bases if the power with the exponent cut to 32 bits overflows, too. -/
theorem C87_pow_exact_partial (p : Prim) (hb0 : 2 ≤ p.bits) (hb : p.bits ≤ 128) (a b : Int) (h0 : 0 ≤ b) :
    pow .debug p a b = (if p.InRange (a ^ b.toNat) then .ok (a ^ b.toNat) else .panic) ↔
      b < 2 ^ 32 ∨ |a| = 1 ∨ (a = 0 ∧ ¬ (2 ^ 32 : Int) ∣ b) ∨
        (2 ≤ |a| ∧ ¬ p.InRange (a ^ (b % 2 ^ 32).toNat)) := by
  obtain ⟨b1, b2, _⟩ := bounds (p := p) (by omega)
  rcases Int.lt_or_le b (2 ^ 32) with hlt | hge
  · refine iff_of_true ?_ (.inl hlt)
    obtain ⟨c1, c2⟩ := C87_pow_partial .debug p hb a b h0 (.inl hlt)
    by_cases hr : p.InRange (a ^ b.toNat)
    · rw [if_pos hr]; exact c1 hr
    · rw [if_neg hr]; exact c2 hlt hr
  · have hbpos : b.toNat ≠ 0 := by omega
    by_cases ha0 : a = 0
    · subst ha0
      rw [zero_pow hbpos]
      have hin : p.InRange 0 := ⟨b1, b2⟩
      rw [if_pos hin]
      unfold pow
      rw [u32_wrap]
      have hin1 : p.InRange 1 := by
        have h1 := two_pow_pred (p := p) (by omega)
        have h2 : (2 : Int) ^ 1 ≤ 2 ^ (p.bits - 1) := pow_le_pow_right₀ (by norm_num) (by omega)
        unfold InRange minV maxV
        split <;> constructor <;> omega
      by_cases hd : (2 ^ 32 : Int) ∣ b
      · rw [Int.emod_eq_zero_of_dvd hd]
        refine iff_of_false ?_ ?_
        · rw [show ((0 : Int) ^ (0 : Int).toNat) = 1 from rfl, arith_ok _ hin1]
          simp
        · rintro (h | h | ⟨_, h⟩ | ⟨h, _⟩)
          · omega
          · simp at h
          · exact h hd
          · simp at h
      · have hne : (b % 2 ^ 32).toNat ≠ 0 := by omega
        rw [zero_pow hne]
        exact iff_of_true (arith_ok _ hin) (.inr (.inr (.inl ⟨rfl, hd⟩)))
    · by_cases ha1 : |a| = 1
      · refine iff_of_true ?_ (.inr (.inl ha1))
        have hsame : a ^ (b % 2 ^ 32).toNat = a ^ b.toNat := by
          rcases (abs_eq (by norm_num)).mp ha1 with rfl | rfl
          · simp
          · have hpar : (b % 2 ^ 32).toNat % 2 = b.toNat % 2 := by omega
            rcases Nat.even_or_odd b.toNat with he | ho
            · have he' : Even (b % 2 ^ 32).toNat := by
                rw [Nat.even_iff] at he ⊢; omega
              rw [he.neg_one_pow, he'.neg_one_pow]
            · have ho' : Odd (b % 2 ^ 32).toNat := by
                rw [Nat.odd_iff] at ho ⊢; omega
              rw [ho.neg_one_pow, ho'.neg_one_pow]
        unfold pow
        rw [u32_wrap, hsame]
        rfl
      · have ha2 : 2 ≤ |a| := by
          have := abs_pos.mpr ha0
          omega
        have hout : ¬ p.InRange (a ^ b.toNat) := by
          intro hr
          have h1 : (2 : Int) ^ 128 < 2 ^ b.toNat :=
            pow_lt_pow_right₀ (by norm_num) (by omega)
          have h2 : (2 : Int) ^ b.toNat ≤ |a| ^ b.toNat := pow_le_pow_left₀ (by norm_num) ha2 _
          rw [← abs_pow] at h2
          have h3 : |a ^ b.toNat| ≤ 2 ^ 128 := by
            unfold InRange minV maxV at hr
            have h4 : (2 : Int) ^ p.bits ≤ 2 ^ 128 := pow_le_pow_right₀ (by norm_num) hb
            have h5 : (2 : Int) ^ (p.bits - 1) ≤ 2 ^ 128 :=
              pow_le_pow_right₀ (by norm_num) (by omega)
            rw [abs_le]
            split at hr <;> constructor <;> omega
          omega
        rw [if_neg hout]
        unfold pow arith
        rw [u32_wrap]
        by_cases hin : p.InRange (a ^ (b % 2 ^ 32).toNat)
        · rw [if_pos hin]
          refine iff_of_false (by simp) ?_
          rintro (h | h | ⟨h, _⟩ | ⟨_, h⟩)
          · omega
          · exact ha1 h
          · exact ha0 h
          · exact h hin
        · rw [if_neg hin]
          exact iff_of_true rfl (.inr (.inr (.inr ⟨ha2, hin⟩)))

example : pow .debug u64 2 (2 ^ 32 + 3) = .ok 8 ∧ pow .debug u64 2 (2 ^ 32 + 64) = .panic ∧
    pow .debug u64 0 (2 ^ 32 + 3) = .ok 0 := by decide +kernel

/-- C87 in release builds, exactly: the power with the exponent cut to 32 bits, reduced into the type. -/
theorem C87_pow_release_exact_partial (p : Prim) (hb0 : 0 < p.bits) (a b : Int) :
    ∃ r, pow .release p a b = .ok r ∧ p.InRange r ∧
      (2 ^ p.bits : Int) ∣ r - a ^ (b % 2 ^ 32).toNat := by
  obtain ⟨h1, h2⟩ := wrap_spec hb0 (a ^ (b % 2 ^ 32).toNat)
  refine ⟨_, ?_, h1, h2⟩
  unfold pow arith
  rw [u32_wrap]
  split
  · rename_i h; rw [wrap_eq hb0 h]
  · rfl

example : pow .release ⟨true, 8⟩ 2 7 = .ok (-128) ∧ pow .release ⟨false, 8⟩ 3 (2 ^ 32 + 5) = .ok 243 := by
  decide +kernel

/-! ## C88 -/

/-- C88, exactly: checked shifts by any amount are right exactly when the amount is in range, or is not
when cut to 32 bits. -/
theorem C88_checked_shift_exact_partial (p : Prim) (hb : p.bits ≤ 128) (hb0 : 0 < p.bits) (a b : Int) :
    ((checkedShl p a b = none ↔ ¬ (0 ≤ b ∧ b < p.bits)) ↔
      (0 ≤ b ∧ b < p.bits) ∨ (p.bits : Int) ≤ b % 2 ^ 32) ∧
    ((checkedShr p a b = none ↔ ¬ (0 ≤ b ∧ b < p.bits)) ↔
      (0 ≤ b ∧ b < p.bits) ∨ (p.bits : Int) ≤ b % 2 ^ 32) ∧
    (b % 2 ^ 32 < p.bits →
      ∃ r, checkedShl p a b = some r ∧ p.InRange r ∧
      r ≡ a * 2 ^ (b % 2 ^ 32).toNat [ZMOD 2 ^ p.bits] ∧
      checkedShr p a b = some (a / 2 ^ (b % 2 ^ 32).toNat)) := by
  have hm : 0 ≤ b % 2 ^ 32 := Int.emod_nonneg _ (by norm_num)
  unfold checkedShl checkedShr
  rw [u32_wrap]
  refine ⟨?_, ?_, ?_⟩
  · by_cases h : (b % 2 ^ 32).toNat < p.bits
    · rw [if_pos h]
      simp only [reduceCtorEq, false_iff, not_not]
      constructor
      · exact .inl
      · rintro (h | h)
        · exact h
        · omega
    · rw [if_neg h]
      simp only [true_iff]
      constructor
      · intro _; right; omega
      · rintro (h' | _)
        · omega
        · rintro ⟨h1, h2⟩
          rw [Int.emod_eq_of_lt h1 (by omega)] at h
          omega
  · by_cases h : (b % 2 ^ 32).toNat < p.bits
    · rw [if_pos h]
      simp only [reduceCtorEq, false_iff, not_not]
      constructor
      · exact .inl
      · rintro (h | h)
        · exact h
        · omega
    · rw [if_neg h]
      simp only [true_iff]
      constructor
      · intro _; right; omega
      · rintro (h' | _)
        · omega
        · rintro ⟨h1, h2⟩
          rw [Int.emod_eq_of_lt h1 (by omega)] at h
          omega
  · intro h
    rw [if_pos (by omega), if_pos (by omega)]
    obtain ⟨c1, c2, _⟩ := C72_truncating p hb0 (a * 2 ^ (b % 2 ^ 32).toNat)
    exact ⟨_, rfl, c1, c2, rfl⟩

example : checkedShl u64 3 (2 ^ 32 + 1) = some 6 ∧ checkedShl u64 3 (2 ^ 32 + 64) = none ∧
    checkedShr i64 (-3) (1 - 2 ^ 32) = some (-2) := by decide

end Verif
