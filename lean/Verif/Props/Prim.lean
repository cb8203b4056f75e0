import Verif.Lemmas.Rat

/-!
# C70–C75, C87–C89: trait implementations for primitive integers

Values of a primitive type are integers in its range (`Prim.InRange`). `p` ranges over all types of
at least the number of bits stated, in particular over all of Rust's.
-/

namespace Verif

open Prim

/-! ## C70: gcd -/

/-- `g` is the greatest common divisor of `a` and `b`. -/
structure IsGcd (g a b : Int) : Prop where
  left : g ∣ a
  right : g ∣ b
  greatest : ∀ d, d ∣ a → d ∣ b → d ∣ g
  nonneg : 0 ≤ g

/-- C70 fails in the code: the result can be negative, `gcd(-4_i8, -6) = -2`. -/
theorem C70_gcd_sign_violated : ¬ ∀ a b, i8.InRange a → i8.InRange b →
    ∀ g, gcd i8 a b = .ok g → IsGcd g a b := by
  intro h
  have := (h (-4) (-6) (by decide) (by decide) (-2) (by decide)).nonneg
  revert this
  decide

/-- C70 fails in the code: `gcd(i8::MIN, -1)` panics, and so for all signed types. -/
theorem C70_gcd_panic_violated (p : Prim) (hb : 2 ≤ p.bits) (hs : p.signed = true) :
    gcd p p.minV (-1) = .panic ∧ gcd p (-1) p.minV = .panic :=
  ⟨gcd_bad hb ⟨hs, .inl ⟨rfl, rfl⟩⟩, gcd_bad hb ⟨hs, .inr ⟨rfl, rfl⟩⟩⟩

/-- C70, the part that holds: except on `(MIN, -1)` and `(-1, MIN)` of signed types, `gcd` returns a
greatest common divisor up to sign, zero only for `(0, 0)`; it is the nonnegative one when both
operands are nonnegative, so always for unsigned types. Missing: the sign for negative operands. -/
theorem C70_gcd_partial (p : Prim) (hb : 2 ≤ p.bits) (a b : Int) (ha : p.InRange a)
    (hr : p.InRange b)
    (hbad : ¬ (p.signed = true ∧ ((a = p.minV ∧ b = -1) ∨ (a = -1 ∧ b = p.minV)))) :
    ∃ g, gcd p a b = .ok g ∧ p.InRange g ∧ IsGcd |g| a b ∧ (g = 0 → a = 0 ∧ b = 0) ∧
      (0 ≤ a → 0 ≤ b → IsGcd g a b) ∧ (p.signed = false → IsGcd g a b) := by
  obtain ⟨g, h1, h2, h3, h4⟩ := gcd_spec hb ha hr hbad
  have habs : |g| = (Int.gcd a b : Int) := by rw [Int.abs_eq_natAbs, h2]
  have hg : IsGcd |g| a b := by
    rw [habs]
    exact ⟨Int.gcd_dvd_left a b, Int.gcd_dvd_right a b, fun d h1 h2 => Int.dvd_coe_gcd h1 h2,
      Int.natCast_nonneg _⟩
  have hpos : 0 ≤ a → 0 ≤ b → IsGcd g a b := fun x y => by
    have := h4 x y
    rwa [abs_of_nonneg this] at hg
  refine ⟨g, h1, h3, hg, ?_, hpos, ?_⟩
  · rintro rfl
    simp only [Int.natAbs_zero] at h2
    exact Int.gcd_eq_zero_iff.mp h2.symm
  · intro hu
    unfold InRange minV at ha hr
    simp only [hu, Bool.false_eq_true, if_false] at ha hr
    exact hpos ha.1 hr.1

example : gcd u8 48 18 = .ok 6 := by decide
example : gcd i8 (-48) 18 = .ok 6 := by decide
example : i8.InRange (-48) ∧ i8.InRange 18 ∧ 2 ≤ i8.bits ∧ ¬ GcdBad i8 (-48) 18 := by decide

/-! ## C71: saturating casts -/

/-- `r` is the value of type `t` closest to `z`. -/
def IsClosest (t : Prim) (z r : Int) : Prop :=
  t.InRange r ∧ ∀ r', t.InRange r' → |z - r| ≤ |z - r'|

theorem closest_high {t : Prim} {z : Int} (hb : 0 < t.bits) (h : t.maxV ≤ z) :
    IsClosest t z t.maxV := by
  obtain ⟨h1, h2, _⟩ := bounds hb
  refine ⟨⟨by omega, Int.le_refl _⟩, fun r' hr => ?_⟩
  unfold InRange at hr
  rw [abs_of_nonneg (by omega), abs_of_nonneg (by omega)]
  omega

theorem closest_low {t : Prim} {z : Int} (hb : 0 < t.bits) (h : z ≤ t.minV) :
    IsClosest t z t.minV := by
  obtain ⟨h1, h2, _⟩ := bounds hb
  refine ⟨⟨Int.le_refl _, by omega⟩, fun r' hr => ?_⟩
  unfold InRange at hr
  rw [abs_of_nonpos (by omega), abs_of_nonpos (by omega)]
  omega

theorem closest_self {t : Prim} {z : Int} (hb : 0 < t.bits) (h : t.InRange z) :
    IsClosest t z (t.wrap z) := by
  rw [wrap_eq hb h]
  exact ⟨h, fun r' _ => by rw [Int.sub_self, abs_zero]; exact abs_nonneg _⟩

theorem satAs_closest {t s : Prim} (ht : 0 < t.bits) (h1 : t.minV ≤ s.minV)
    (h2 : s.maxV ≤ t.maxV) {z : Int} (hz : s.InRange z) : IsClosest t z (satAs t s z) := by
  unfold InRange at hz
  exact closest_self ht ⟨by omega, by omega⟩

theorem satHigh_closest {t s : Prim} (ht : 0 < t.bits) (hs : 0 < s.bits) (h1 : t.minV ≤ s.minV)
    (h2 : t.maxV ≤ s.maxV) {z : Int} (hz : s.InRange z) : IsClosest t z (satHigh t s z) := by
  obtain ⟨b1, b2, _⟩ := bounds ht
  obtain ⟨c1, c2, _⟩ := bounds hs
  unfold satHigh
  rw [wrap_eq hs ⟨by omega, h2⟩]
  unfold InRange at hz
  split
  · exact closest_high ht (by omega)
  · exact closest_self ht ⟨by omega, by omega⟩

theorem satLow_closest {t s : Prim} (ht : 0 < t.bits) (h1 : t.minV = 0)
    (h2 : s.maxV ≤ t.maxV) {z : Int} (hz : z ≤ s.maxV) : IsClosest t z (satLow t s z) := by
  unfold satLow
  split
  · exact closest_low ht (by omega)
  · exact closest_self ht ⟨by omega, by omega⟩

theorem satLowHigh_closest {t s : Prim} (ht : 0 < t.bits) (hs : 0 < s.bits) (h1 : t.minV = 0)
    (h2 : t.maxV ≤ s.maxV) (z : Int) : IsClosest t z (satLowHigh t s z) := by
  obtain ⟨b1, b2, _⟩ := bounds ht
  obtain ⟨c1, c2, _⟩ := bounds hs
  unfold satLowHigh
  rw [wrap_eq hs ⟨by omega, h2⟩]
  split
  · exact closest_low ht (by omega)
  · split
    · exact closest_high ht (by omega)
    · exact closest_self ht ⟨by omega, by omega⟩

theorem satBoth_closest {t s : Prim} (ht : 0 < t.bits) (hs : 0 < s.bits) (h1 : s.minV ≤ t.minV)
    (h2 : t.maxV ≤ s.maxV) (z : Int) : IsClosest t z (satBoth t s z) := by
  obtain ⟨b1, b2, _⟩ := bounds ht
  obtain ⟨c1, c2, _⟩ := bounds hs
  unfold satBoth
  rw [wrap_eq hs ⟨by omega, h2⟩, wrap_eq hs ⟨h1, by omega⟩]
  split
  · exact closest_high ht (by omega)
  · split
    · exact closest_low ht (by omega)
    · exact closest_self ht ⟨by omega, by omega⟩

/-- C71 fails in the code: on 64-bit targets `isize` is listed as not wider than `i16` and `i32`, so
`i16::saturate_from(40000_isize)` is `-25536`. -/
theorem C71_saturating_violated : ¬ ∀ t s f, (t, s, f) ∈ saturateImpls 64 →
    ∀ z, s.InRange z → IsClosest t z (f z) := by
  intro h
  have hm : (i16, isize 64, satAs i16 (isize 64)) ∈ saturateImpls 64 := by
    unfold saturateImpls
    refine List.mem_append_right _ (List.mem_flatMap.mpr
      ⟨⟨i16, [], [usize 64], [isize 64], []⟩, ?_, ?_⟩)
    · simp [sintRows]
    · simp
  have := (h _ _ _ hm 40000 (by decide)).2 32767 (by decide)
  revert this
  decide

/-- C71, the part that holds: for every pointer width, every implemented cast gives the closest
value, except those from `isize` to a narrower signed type. -/
theorem C71_saturating_partial (ptr : Nat) (hptr : ptr = 16 ∨ ptr = 32 ∨ ptr = 64)
    (t s : Prim) (f : Int → Int) (h : (t, s, f) ∈ saturateImpls ptr)
    (hex : ¬ (t.signed = true ∧ t.bits < ptr ∧ s = isize ptr)) (z : Int) (hz : s.InRange z) :
    IsClosest t z (f z) := by
  have hu : ∀ r ∈ uintRows ptr, 0 < r.ty.bits ∧
      (∀ s ∈ r.uLess, r.ty.minV ≤ s.minV ∧ s.maxV ≤ r.ty.maxV) ∧
      (∀ s ∈ r.uGreater, 0 < s.bits ∧ r.ty.minV ≤ s.minV ∧ r.ty.maxV ≤ s.maxV) ∧
      (∀ s ∈ r.sLess, r.ty.minV = 0 ∧ s.maxV ≤ r.ty.maxV) ∧
      (∀ s ∈ r.sGreater, 0 < s.bits ∧ r.ty.minV = 0 ∧ r.ty.maxV ≤ s.maxV) := by
    rcases hptr with rfl | rfl | rfl <;> decide +kernel
  have hsi : ∀ r ∈ sintRows ptr, 0 < r.ty.bits ∧
      (∀ s ∈ r.uLess, r.ty.minV ≤ s.minV ∧ s.maxV ≤ r.ty.maxV) ∧
      (∀ s ∈ r.uGreater, 0 < s.bits ∧ r.ty.minV ≤ s.minV ∧ r.ty.maxV ≤ s.maxV) ∧
      (∀ s ∈ r.sLess, ¬ (r.ty.signed = true ∧ r.ty.bits < ptr ∧ s = isize ptr) →
        r.ty.minV ≤ s.minV ∧ s.maxV ≤ r.ty.maxV) ∧
      (∀ s ∈ r.sGreater, 0 < s.bits ∧ s.minV ≤ r.ty.minV ∧ r.ty.maxV ≤ s.maxV) := by
    rcases hptr with rfl | rfl | rfl <;> decide +kernel
  unfold saturateImpls at h
  rw [List.mem_append, List.mem_flatMap, List.mem_flatMap] at h
  rcases h with ⟨r, hr, h⟩ | ⟨r, hr, h⟩
  · obtain ⟨h0, h1, h2, h3, h4⟩ := hu r hr
    simp only [List.mem_append, List.mem_map, Prod.mk.injEq] at h
    rcases h with ((⟨s', hs', rfl, rfl, rfl⟩ | ⟨s', hs', rfl, rfl, rfl⟩) |
      ⟨s', hs', rfl, rfl, rfl⟩) | ⟨s', hs', rfl, rfl, rfl⟩
    · exact satAs_closest h0 (h1 s' hs').1 (h1 s' hs').2 hz
    · exact satHigh_closest h0 (h2 s' hs').1 (h2 s' hs').2.1 (h2 s' hs').2.2 hz
    · exact satLow_closest h0 (h3 s' hs').1 (h3 s' hs').2 hz.2
    · exact satLowHigh_closest h0 (h4 s' hs').1 (h4 s' hs').2.1 (h4 s' hs').2.2 z
  · obtain ⟨h0, h1, h2, h3, h4⟩ := hsi r hr
    simp only [List.mem_append, List.mem_map, Prod.mk.injEq] at h
    rcases h with ((⟨s', hs', rfl, rfl, rfl⟩ | ⟨s', hs', rfl, rfl, rfl⟩) |
      ⟨s', hs', rfl, rfl, rfl⟩) | ⟨s', hs', rfl, rfl, rfl⟩
    · exact satAs_closest h0 (h1 s' hs').1 (h1 s' hs').2 hz
    · exact satHigh_closest h0 (h2 s' hs').1 (h2 s' hs').2.1 (h2 s' hs').2.2 hz
    · exact satAs_closest h0 (h3 s' hs' hex).1 (h3 s' hs' hex).2 hz
    · exact satBoth_closest h0 (h4 s' hs').1 (h4 s' hs').2.1 (h4 s' hs').2.2 z

example : (saturateImpls 64).length = 143 := by decide +kernel
example : satBoth i8 i32 (-300) = -128 ∧ satHigh u8 u32 300 = 255 ∧ satLow u8 i8 (-3) = 0 ∧
    satLowHigh u8 i16 200 = 200 := by decide

/-! ## C72: checked and truncating casts -/

/-- C72: `from_checked` returns the value exactly when the target type has it. -/
theorem C72_checked (t s : Prim) (ht : 0 < t.bits) (hs : 0 < s.bits) (z : Int) (hz : s.InRange z) :
    fromChecked t s z = if t.InRange z then some z else none := by
  obtain ⟨b1, b2, _⟩ := bounds ht
  obtain ⟨c1, c2, _⟩ := bounds hs
  unfold InRange at hz
  unfold fromChecked
  by_cases h1 : s.minV < t.minV ∧ z < s.wrap t.minV
  · rw [if_pos h1, if_neg]
    have h2 := h1.2
    rw [wrap_eq hs ⟨by omega, by omega⟩] at h2
    unfold InRange; omega
  · rw [if_neg h1]
    have hlow : t.minV ≤ z := by
      by_contra hc
      apply h1
      refine ⟨by omega, ?_⟩
      rw [wrap_eq hs ⟨by omega, by omega⟩]; omega
    by_cases h2 : t.maxV < s.maxV ∧ z > s.wrap t.maxV
    · rw [if_pos h2, if_neg]
      have h3 := h2.2
      rw [wrap_eq hs ⟨by omega, by omega⟩] at h3
      unfold InRange; omega
    · rw [if_neg h2]
      have hhigh : z ≤ t.maxV := by
        by_contra hc
        apply h2
        refine ⟨by omega, ?_⟩
        rw [wrap_eq hs ⟨by omega, by omega⟩]; omega
      have : t.InRange z := ⟨hlow, hhigh⟩
      rw [if_pos this, wrap_eq ht this]

/-- C72: `truncate_from` is the only value of the target type congruent modulo `2^bits`. -/
theorem C72_truncating (t : Prim) (ht : 0 < t.bits) (z : Int) :
    t.InRange (truncateFrom t z) ∧ truncateFrom t z ≡ z [ZMOD 2 ^ t.bits] ∧
    ∀ r, t.InRange r → r ≡ z [ZMOD 2 ^ t.bits] → r = truncateFrom t z := by
  obtain ⟨h1, h2⟩ := wrap_spec ht z
  have h3 : truncateFrom t z ≡ z [ZMOD 2 ^ t.bits] :=
    (Int.modEq_iff_dvd.mpr (by
      have := dvd_neg.mpr h2
      rwa [neg_sub] at this))
  refine ⟨h1, h3, fun r hr hz => eq_of_dvd ht hr h1 ?_⟩
  exact Int.modEq_iff_dvd.mp (h3.trans hz.symm)

example : fromChecked i8 u16 200 = none ∧ fromChecked i8 u16 100 = some 100 ∧
    fromChecked u64 i8 (-1) = none ∧ fromChecked i128 u64 5 = some 5 := by decide
example : truncateFrom i8 200 = -56 ∧ truncateFrom u8 (-1) = 255 := by decide

/-! ## C73: wrapping addition -/

/-- C73 fails in the code: `WrappingAdd` subtracts, `wrapping_add(1_u8, 1) = 0`; for every type. -/
theorem C73_wrapping_add_violated (p : Prim) (hb : 2 ≤ p.bits) :
    ¬ ∀ a b, p.InRange a → p.InRange b → wrappingAdd p a b ≡ a + b [ZMOD 2 ^ p.bits] := by
  intro h
  obtain ⟨b1, b2, b3⟩ := bounds (p := p) (by omega)
  have h4 : (4 : Int) ≤ 2 ^ p.bits := by
    have : (2 : Int) ^ 2 ≤ 2 ^ p.bits := pow_le_pow_right₀ (by norm_num) hb
    omega
  have h1 : p.InRange 1 := by
    unfold InRange maxV minV at *
    have h5 : (2 : Int) ^ 1 ≤ 2 ^ (p.bits - 1) := pow_le_pow_right₀ (by norm_num) (by omega)
    split <;> omega
  have h2 := h 1 1 h1 h1
  unfold wrappingAdd at h2
  rw [Int.sub_self, wrap_eq (by omega) ⟨b1, b2⟩] at h2
  have h3 := Int.modEq_iff_dvd.mp h2
  have := Int.le_of_dvd (by norm_num) h3
  omega

/-- C73, the part that holds: the result is a value of the type, and is the sum modulo `2^bits`
exactly when `2 b` is a multiple of `2^bits`. -/
theorem C73_wrapping_add_partial (p : Prim) (hb : 0 < p.bits) (a b : Int) :
    p.InRange (wrappingAdd p a b) ∧
    (wrappingAdd p a b ≡ a + b [ZMOD 2 ^ p.bits] ↔ (2 ^ p.bits : Int) ∣ 2 * b) := by
  obtain ⟨h1, h2⟩ := wrap_spec hb (a - b)
  refine ⟨h1, ?_⟩
  rw [Int.modEq_iff_dvd]
  unfold wrappingAdd
  have e : a + b - p.wrap (a - b) = 2 * b - (p.wrap (a - b) - (a - b)) := by ring
  rw [e]
  exact dvd_sub_left h2

example : wrappingAdd u8 5 128 = 133 ∧ wrappingAdd u8 5 1 = 4 := by decide

/-! ## C74: factorial -/

theorem factorial_succ (m : Mode) (p : Prim) (n : Nat) :
    factorial m p ((n + 1 : Nat) : Int) =
      (factorial m p (n : Int)).bind fun acc => arith m p (acc * ((n + 1 : Nat) : Int)) := by
  unfold factorial
  rw [Int.toNat_natCast, Int.toNat_natCast, List.range'_1_concat, List.foldl_append]
  simp only [List.foldl_cons, List.foldl_nil]
  rw [Nat.add_comm 1 n]

/-- C74: in debug builds `factorial` returns `n!` if it fits and panics otherwise; in release builds
it returns `n!` wrapped. -/
theorem C74_factorial (p : Prim) (hb : 0 < p.bits) (hu : p.signed = false) (n : Nat) :
    factorial .debug p n = (if (n.factorial : Int) ≤ p.maxV then .ok (n.factorial : Int)
      else .panic) ∧
    factorial .release p n = .ok ((n.factorial : Int) % 2 ^ p.bits) := by
  have hmin : p.minV = 0 := by unfold minV; rw [hu]; rfl
  have hmax : p.maxV = 2 ^ p.bits - 1 := by unfold maxV; rw [hu]; rfl
  have hwrap : ∀ z, p.wrap z = z % 2 ^ p.bits := fun z => by unfold wrap; rw [hu]; rfl
  have h2 : (2 : Int) ^ 1 ≤ 2 ^ p.bits := pow_le_pow_right₀ (by norm_num) (by omega)
  induction n with
  | zero =>
    constructor
    · rw [if_pos (by rw [hmax]; simp; omega)]; rfl
    · rw [Nat.factorial_zero]
      rw [Int.emod_eq_of_lt (by norm_num) (by push_cast; omega)]
      rfl
  | succ n ih =>
    have hf : ((n + 1).factorial : Int) = n.factorial * ((n + 1 : Nat) : Int) := by
      rw [Nat.factorial_succ]; push_cast; ring
    have hle : (n.factorial : Int) ≤ (n + 1).factorial := by
      exact_mod_cast Nat.factorial_le (Nat.le_succ n)
    constructor
    · rw [factorial_succ, ih.1]
      by_cases h1 : (n.factorial : Int) ≤ p.maxV
      · rw [if_pos h1]
        simp only [Res.bind]
        rw [← hf]
        unfold arith
        by_cases h3 : ((n + 1).factorial : Int) ≤ p.maxV
        · rw [if_pos h3, if_pos ⟨by rw [hmin]; exact Int.natCast_nonneg _, h3⟩]
        · rw [if_neg h3, if_neg (fun h => h3 h.2)]
      · rw [if_neg h1, if_neg (by omega)]
        rfl
    · rw [factorial_succ, ih.2]
      simp only [Res.bind]
      have hmod : ((n.factorial : Int) % 2 ^ p.bits * ((n + 1 : Nat) : Int)) % 2 ^ p.bits
          = ((n + 1).factorial : Int) % 2 ^ p.bits := by
        rw [hf, Int.mul_emod, Int.emod_emod, ← Int.mul_emod]
      unfold arith
      split
      · rename_i hr
        have h3 := hr.1
        have h4 := hr.2
        rw [hmin] at h3
        rw [hmax] at h4
        rw [← hmod, Int.emod_eq_of_lt h3 (by omega)]
      · rw [hwrap, hmod]

example : factorial .debug u8 5 = .ok 120 ∧ factorial .debug u8 6 = .panic ∧
    factorial .release u8 6 = .ok 208 := by decide

/-! ## C75: one of the nonzero types -/

/-- C75 fails in the code: `is_one` holds for every value of a nonzero type. -/
theorem C75_is_one_violated : (¬ ∀ x, u8.InRange x → x ≠ 0 → (nzIsOne x = true ↔ x = 1)) ∧
    ∀ x : Int, x ≠ 0 → nzIsOne x = true := by
  refine ⟨fun h => ?_, fun x hx => by simp [nzIsOne, hx]⟩
  have := (h 2 (by decide) (by decide)).mp (by decide)
  revert this
  decide

/-- C75, the part that holds: `is_one(one())`. Missing: every other value must be rejected. -/
theorem C75_is_one_partial : nzIsOne nzOne = true ∧ nzOne = 1 := by decide

/-! ## C87: pow -/

/-- C87 fails in the code: the exponent is cut to 32 bits, so `0_u64.pow(1 << 32) = 1`. -/
theorem C87_pow_violated : ¬ ∀ a b, u64.InRange a → u64.InRange b → 0 ≤ b →
    u64.InRange (a ^ b.toNat) → pow .debug u64 a b = .ok (a ^ b.toNat) := by
  intro h
  have h1 := h 0 (2 ^ 32) (by decide) (by decide) (by norm_num) (by
    rw [zero_pow (by decide)]; decide)
  rw [zero_pow (by decide)] at h1
  revert h1
  decide

theorem u32_wrap (b : Int) : u32.wrap b = b % 2 ^ 32 := rfl

/-- C87, the part that holds: exponents below `2^32`, and bases other than zero whatever the
exponent. In debug builds, overflow panics. -/
theorem C87_pow_partial (m : Mode) (p : Prim) (hb : p.bits ≤ 128) (a b : Int)
    (h0 : 0 ≤ b) (h : b < 2 ^ 32 ∨ a ≠ 0) :
    (p.InRange (a ^ b.toNat) → pow m p a b = .ok (a ^ b.toNat)) ∧
    (b < 2 ^ 32 → ¬ p.InRange (a ^ b.toNat) → pow .debug p a b = .panic) := by
  unfold pow
  rw [u32_wrap]
  constructor
  · intro hr
    suffices hs : a ^ (b % 2 ^ 32).toNat = a ^ b.toNat by
      rw [hs]; exact arith_ok m hr
    by_cases hlt : b < 2 ^ 32
    · rw [Int.emod_eq_of_lt h0 hlt]
    · have ha : a ≠ 0 := by rcases h with h | h; exact absurd h hlt; exact h
      have habs : |a| < 2 := by
        by_contra hc
        push Not at hc
        have h1 : (2 : Int) ^ 128 < 2 ^ b.toNat :=
          pow_lt_pow_right₀ (by norm_num) (by omega)
        have h2 : (2 : Int) ^ b.toNat ≤ |a| ^ b.toNat := pow_le_pow_left₀ (by norm_num) hc _
        rw [← abs_pow] at h2
        have h3 : |a ^ b.toNat| ≤ 2 ^ 128 := by
          unfold InRange minV maxV at hr
          have h4 : (2 : Int) ^ p.bits ≤ 2 ^ 128 := pow_le_pow_right₀ (by norm_num) hb
          have h5 : (2 : Int) ^ (p.bits - 1) ≤ 2 ^ 128 :=
            pow_le_pow_right₀ (by norm_num) (by omega)
          rw [abs_le]
          split at hr <;> constructor <;> omega
        omega
      have hcase : a = 1 ∨ a = -1 := by
        rw [abs_lt] at habs; omega
      rcases hcase with rfl | rfl
      · simp
      · have hpar : (b % 2 ^ 32).toNat % 2 = b.toNat % 2 := by omega
        rcases Nat.even_or_odd b.toNat with he | ho
        · have he' : Even (b % 2 ^ 32).toNat := by
            rw [Nat.even_iff] at he ⊢; omega
          rw [he.neg_one_pow, he'.neg_one_pow]
        · have ho' : Odd (b % 2 ^ 32).toNat := by
            rw [Nat.odd_iff] at ho ⊢; omega
          rw [ho.neg_one_pow, ho'.neg_one_pow]
  · intro hlt hr
    rw [Int.emod_eq_of_lt h0 hlt]
    unfold arith
    rw [if_neg hr]

example : pow .debug i8 (-2) 7 = .ok (-128) ∧ pow .debug u8 2 8 = .panic ∧
    pow .debug i64 (-1) (2 ^ 40 + 1) = .ok (-1) := by decide

/-! ## C88: checked shifts -/

/-- C88 fails in the code: the amount is cut to 32 bits, so `checked_shl(1_u64, 1 << 32)` is
`Some(1)`. -/
theorem C88_checked_shift_violated : ¬ ∀ a b, u64.InRange a → u64.InRange b →
    (checkedShl u64 a b = none ↔ 64 ≤ b) := by
  intro h
  have := (h 1 (2 ^ 32) (by decide) (by decide)).mpr (by norm_num)
  revert this
  decide

/-- C88, the part that holds: for amounts below `2^32` in magnitude, negative ones included, checked
shifts return `None` exactly when the amount is not below the number of bits, and otherwise the
shifted value, wrapped for `<<` and rounded down for `>>`. -/
theorem C88_checked_shift_partial (p : Prim) (hb : p.bits ≤ 128) (hb0 : 0 < p.bits) (a b : Int)
    (h : -(2 ^ 32) + 128 ≤ b ∧ b < 2 ^ 32) :
    (0 ≤ b ∧ b < p.bits →
      ∃ r, checkedShl p a b = some r ∧ p.InRange r ∧ r ≡ a * 2 ^ b.toNat [ZMOD 2 ^ p.bits] ∧
      checkedShr p a b = some (a / 2 ^ b.toNat)) ∧
    (¬ (0 ≤ b ∧ b < p.bits) → checkedShl p a b = none ∧ checkedShr p a b = none) := by
  unfold checkedShl checkedShr
  rw [u32_wrap]
  constructor
  · rintro ⟨h0, h1⟩
    rw [Int.emod_eq_of_lt h0 (by omega), if_pos (by omega), if_pos (by omega)]
    obtain ⟨c1, c2, _⟩ := C72_truncating p hb0 (a * 2 ^ b.toNat)
    exact ⟨_, rfl, c1, c2, rfl⟩
  · intro hn
    have : ¬ (b % 2 ^ 32).toNat < p.bits := by
      rcases Int.lt_or_le b 0 with hneg | hpos
      · have : b % 2 ^ 32 = b + 2 ^ 32 := by omega
        omega
      · rw [Int.emod_eq_of_lt hpos h.2]; omega
    rw [if_neg this, if_neg this]
    exact ⟨rfl, rfl⟩

example : checkedShl u8 3 7 = some 128 ∧ checkedShl u8 3 8 = none ∧ checkedShr i8 (-3) 1 = some (-2) ∧
    checkedShl i8 3 (-1) = none := by decide

/-! ## C89: the other wrapping and checked operations -/

/-- C89: wrapping subtraction, multiplication and shifts give a value of the type congruent to the
exact result, where shift amounts count modulo the number of bits. -/
theorem C89_wrapping (p : Prim) (k : Nat) (hk : k ≤ 7) (hp : p.bits = 2 ^ k) (a b : Int) :
    (p.InRange (wrappingSub p a b) ∧ wrappingSub p a b ≡ a - b [ZMOD 2 ^ p.bits]) ∧
    (p.InRange (wrappingMul p a b) ∧ wrappingMul p a b ≡ a * b [ZMOD 2 ^ p.bits]) ∧
    (p.InRange (wrappingShl p a b) ∧
      wrappingShl p a b ≡ a * 2 ^ (b % p.bits).toNat [ZMOD 2 ^ p.bits]) ∧
    wrappingShr p a b = a / 2 ^ (b % p.bits).toNat := by
  have hb : 0 < p.bits := by rw [hp]; positivity
  have hmod : (u32.wrap b).toNat % p.bits = (b % p.bits).toNat := by
    rw [u32_wrap]
    have hd : (p.bits : Int) ∣ 2 ^ 32 := by
      rw [hp]
      exact Int.natCast_dvd_natCast.mpr (show 2 ^ k ∣ 2 ^ 32 from pow_dvd_pow 2 (by omega))
    have h1 : (b % 2 ^ 32) % p.bits = b % p.bits := Int.emod_emod_of_dvd b hd
    have h2 : 0 ≤ b % 2 ^ 32 := Int.emod_nonneg _ (by norm_num)
    rw [← h1]
    generalize b % 2 ^ 32 = c at *
    obtain ⟨n, rfl⟩ := Int.eq_ofNat_of_zero_le h2
    rw [Int.toNat_natCast, ← Int.natCast_mod, Int.toNat_natCast]
  obtain ⟨c1, c2, _⟩ := C72_truncating p hb (a - b)
  obtain ⟨d1, d2, _⟩ := C72_truncating p hb (a * b)
  obtain ⟨e1, e2, _⟩ := C72_truncating p hb (a * 2 ^ (b % p.bits).toNat)
  refine ⟨⟨c1, c2⟩, ⟨d1, d2⟩, ?_, ?_⟩
  · unfold wrappingShl
    rw [hmod]
    exact ⟨e1, e2⟩
  · unfold wrappingShr
    rw [hmod]

/-- C89: checked addition, subtraction, multiplication and division return the exact result when it
is a value of the type (division truncates), and `None` otherwise or on division by zero. -/
theorem C89_checked (p : Prim) (a b : Int) :
    (∀ r, checkedAdd p a b = some r ↔ p.InRange (a + b) ∧ r = a + b) ∧
    (∀ r, checkedSub p a b = some r ↔ p.InRange (a - b) ∧ r = a - b) ∧
    (∀ r, checkedMul p a b = some r ↔ p.InRange (a * b) ∧ r = a * b) ∧
    (∀ r, checkedDiv p a b = some r ↔ b ≠ 0 ∧ p.InRange (a.tdiv b) ∧ r = a.tdiv b) ∧
    (2 ≤ p.bits → p.InRange a → p.InRange b → (checkedDiv p a b = none ↔
      b = 0 ∨ (p.signed = true ∧ a = p.minV ∧ b = -1))) := by
  have key : ∀ z r : Int, checked p z = some r ↔ p.InRange z ∧ r = z := by
    intro z r
    unfold checked
    split
    · rename_i h; simp [h, eq_comm]
    · rename_i h; simp [h]
  refine ⟨fun r => key _ r, fun r => key _ r, fun r => key _ r, fun r => ?_, fun h2 ha hb => ?_⟩
  · unfold checkedDiv
    split
    · rename_i h; simp [h]
    · rename_i h; rw [key]; simp [h]
  · unfold checkedDiv
    split
    · rename_i h; simp [h]
    · rename_i h
      have hn : checked p (a.tdiv b) = none ↔ ¬ p.InRange (a.tdiv b) := by
        unfold checked; split <;> simp [*]
      rw [hn]
      constructor
      · intro hr
        by_contra hc
        exact hr (RatM.tdiv_inRange h2 ha hb fun hx => hc (Or.inr hx))
      · rintro (hx | ⟨hs, rfl, rfl⟩) hr
        · exact h hx
        · have e : p.minV = -p.maxV - 1 := by unfold minV maxV; rw [hs]; simp
          have := hr.2
          rw [Int.tdiv_neg, Int.tdiv_one] at this
          omega

example : wrappingSub u8 3 5 = 254 ∧ wrappingMul i8 100 3 = 44 ∧ wrappingShl u8 1 9 = 2 ∧
    wrappingShr i8 (-128) 9 = -64 ∧ wrappingShl i8 1 (-1) = -128 := by decide
example : checkedAdd u8 200 100 = none ∧ checkedDiv i8 (-128) (-1) = none ∧
    checkedDiv i8 7 (-2) = some (-3) := by decide

end Verif
