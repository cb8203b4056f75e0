import Mathlib.Data.ZMod.Basic
import Mathlib.Tactic.Ring
import Verif.Lemmas.Digits
import Verif.Props.Bitwise
import Verif.Props.Element

/-!
# C26–C37: `U<N>`

A `U<N>` is a list of `N` bytes; `val` is its numeric value, which is below `256 ^ N`.
-/

namespace Verif

/-! ## C26 -/

/-- C26: wrapping arithmetic is arithmetic modulo `256 ^ N`, and distinct arrays have distinct
residues, so every commutative-ring identity holds. -/
theorem C26_ring_ops (N : Nat) (a b : Bytes) (ha : a.length = N) (hb : b.length = N) :
    ((UN.wrappingAdd a b).length = N ∧
      (val (UN.wrappingAdd a b) : ZMod (256 ^ N)) = val a + val b) ∧
    ((UN.wrappingSub a b).length = N ∧
      (val (UN.wrappingSub a b) : ZMod (256 ^ N)) = val a - val b) ∧
    (∃ p, UN.mul .release a b = .ok p ∧ p.length = N ∧
      (val p : ZMod (256 ^ N)) = val a * val b) ∧
    ((UN.zero N).length = N ∧ val (UN.zero N) = 0) ∧
    ((UN.one N).length = N ∧ (val (UN.one N) : ZMod (256 ^ N)) = 1) ∧
    ((val a : ZMod (256 ^ N)) = val b → a = b) := by
  subst ha
  have hm := modulus_bytes a
  obtain ⟨a1, a2, _, _, a5⟩ := C02_add_in_place (by norm_num : 0 < 8) a b (by omega)
  obtain ⟨s1, s2, _, _, s5⟩ := C04_sub_in_place (by norm_num : 0 < 8) a b (by omega)
  obtain ⟨m1, m2, _⟩ := C13_mul_in_place (by norm_num : 0 < 8) a b
  have hbm : val b < 256 ^ a.length := by rw [← hb, ← modulus_bytes]; exact val_lt b
  rw [hm] at a2 s2 m2
  refine ⟨⟨?_, ?_⟩, ⟨?_, ?_⟩, ⟨_, rfl, m1, ?_⟩, ⟨UN.length_zero _, UN.val_zero _⟩,
    ⟨UN.length_one _, ?_⟩, ?_⟩
  · unfold UN.wrappingAdd; rw [a5]; exact a1
  · unfold UN.wrappingAdd; rw [a5, a2, ZMod.natCast_mod]; push_cast; ring
  · unfold UN.wrappingSub; rw [s5]; exact s1
  · unfold UN.wrappingSub
    rw [s5, s2, ZMod.natCast_mod, Nat.cast_sub (by omega), Nat.cast_add, ZMod.natCast_self]
    ring
  · show ((val (ElementMul.mulOverflowing a b).1 : ℕ) : ZMod _) = _
    rw [m2, ZMod.natCast_mod]; push_cast; ring
  · rw [UN.val_one, ZMod.natCast_mod, Nat.cast_one]
  · intro h
    rw [ZMod.natCast_eq_natCast_iff'] at h
    rw [Nat.mod_eq_of_lt (by rw [← hm]; exact val_lt a), Nat.mod_eq_of_lt hbm] at h
    exact eq_of_val_eq hb.symm h

/-- The ring laws themselves, as equalities of values of the type. -/
theorem C26_ring_laws (N : Nat) (a b c : Bytes) (ha : a.length = N) (hb : b.length = N)
    (hc : c.length = N) :
    UN.wrappingAdd a b = UN.wrappingAdd b a ∧
    UN.wrappingAdd (UN.wrappingAdd a b) c = UN.wrappingAdd a (UN.wrappingAdd b c) ∧
    UN.wrappingAdd a (UN.zero N) = a ∧
    UN.wrappingSub (UN.wrappingAdd a b) b = a ∧
    UN.wrappingAdd (UN.wrappingSub a b) b = a ∧
    UN.mul .release a b = UN.mul .release b a ∧
    UN.mul .release a (UN.one N) = .ok a ∧
    (UN.mul .release a b).bind (fun p => UN.mul .release p c)
      = (UN.mul .release b c).bind (fun p => UN.mul .release a p) ∧
    UN.mul .release a (UN.wrappingAdd b c)
      = (UN.mul .release a b).bind (fun p => (UN.mul .release a c).bind fun q =>
          .ok (UN.wrappingAdd p q)) := by
  have inj : ∀ x y : Bytes, x.length = N → y.length = N →
      (val x : ZMod (256 ^ N)) = val y → x = y := fun x y hx hy =>
    (C26_ring_ops N x y hx hy).2.2.2.2.2
  have hA : ∀ x y : Bytes, x.length = N → y.length = N → (UN.wrappingAdd x y).length = N ∧
      (val (UN.wrappingAdd x y) : ZMod (256 ^ N)) = val x + val y := fun x y hx hy =>
    (C26_ring_ops N x y hx hy).1
  have hS : ∀ x y : Bytes, x.length = N → y.length = N → (UN.wrappingSub x y).length = N ∧
      (val (UN.wrappingSub x y) : ZMod (256 ^ N)) = val x - val y := fun x y hx hy =>
    (C26_ring_ops N x y hx hy).2.1
  have hM : ∀ x y : Bytes, x.length = N → y.length = N →
      (ElementMul.mulWrapping x y).length = N ∧
      (val (ElementMul.mulWrapping x y) : ZMod (256 ^ N)) = val x * val y := by
    intro x y hx hy
    obtain ⟨p, h1, h2, h3⟩ := (C26_ring_ops N x y hx hy).2.2.1
    have : ElementMul.mulWrapping x y = p := by simpa [UN.mul] using h1
    rw [this]; exact ⟨h2, h3⟩
  have hz : (UN.zero N).length = N := UN.length_zero N
  have ho : (UN.one N).length = N := UN.length_one N
  have hzv : (val (UN.zero N) : ZMod (256 ^ N)) = 0 := by rw [UN.val_zero]; simp
  have hov := (C26_ring_ops N a b ha hb).2.2.2.2.1.2
  have hmul : ∀ x y, UN.mul .release x y = .ok (ElementMul.mulWrapping x y) := fun _ _ => rfl
  simp only [hmul, Res.bind, Res.ok.injEq]
  refine ⟨?_, ?_, ?_, ?_, ?_, ?_, ?_, ?_, ?_⟩ <;> apply inj <;>
    simp only [hA, hS, hM, ha, hb, hc, hz, ho, hzv, hov] <;> ring

example : UN.wrappingAdd [0xFF#8, 0xFF#8] [2#8, 0#8] = [1, 0] ∧
    UN.wrappingSub [0#8, 0#8] [1#8, 0#8] = [0xFF, 0xFF] ∧
    UN.mul .release [0xFF#8, 0xFF#8] [0xFF#8, 0xFF#8] = .ok [1, 0] := by decide

/-! ## C27 -/

/-- C27: checked addition and subtraction succeed exactly in range, `+`/`-` panic exactly out of
range in debug builds and wrap in release builds. -/
theorem C27_checked_add_sub (a b : Bytes) (h : b.length = a.length) :
    (val a + val b < 256 ^ a.length → ∃ x, UN.checkedAdd a b = some x ∧ x.length = a.length ∧
      val x = val a + val b ∧ UN.add .debug a b = .ok x ∧ UN.add .release a b = .ok x) ∧
    (256 ^ a.length ≤ val a + val b → UN.checkedAdd a b = none ∧ UN.add .debug a b = .panic ∧
      ∃ x, UN.add .release a b = .ok x ∧ x.length = a.length ∧
        val x = val a + val b - 256 ^ a.length) ∧
    (val b ≤ val a → ∃ x, UN.checkedSub a b = some x ∧ x.length = a.length ∧
      val x = val a - val b ∧ UN.sub .debug a b = .ok x ∧ UN.sub .release a b = .ok x) ∧
    (val a < val b → UN.checkedSub a b = none ∧ UN.sub .debug a b = .panic ∧
      ∃ x, UN.sub .release a b = .ok x ∧ x.length = a.length ∧
        val x = val a + 256 ^ a.length - val b) := by
  have hm := modulus_bytes a
  obtain ⟨a1, a2, a3, a4, a5⟩ := C02_add_in_place (by norm_num : 0 < 8) a b (by omega)
  obtain ⟨s1, s2, s3, s4, s5⟩ := C04_sub_in_place (by norm_num : 0 < 8) a b (by omega)
  have ha : val a < 256 ^ a.length := by rw [← hm]; exact val_lt a
  have hbm : val b < 256 ^ a.length := by rw [← h, ← modulus_bytes]; exact val_lt b
  rw [hm] at a2 a3 a4 s2
  unfold UN.add UN.sub UN.checkedAdd UN.checkedSub UN.wrappingAdd UN.wrappingSub
  rw [a4, s4, a5, s5]
  refine ⟨fun hc => ?_, fun hc => ?_, fun hc => ?_, fun hc => ?_⟩
  · rw [if_neg (by omega)]
    exact ⟨_, rfl, a1, by rw [a2, Nat.mod_eq_of_lt hc], rfl, rfl⟩
  · rw [if_pos hc]
    refine ⟨rfl, rfl, _, rfl, a1, ?_⟩
    rw [a2, Nat.mod_eq_sub_mod hc, Nat.mod_eq_of_lt (by omega)]
  · rw [if_neg (by omega)]
    refine ⟨_, rfl, s1, ?_, rfl, rfl⟩
    rw [s2, show val a + 256 ^ a.length - val b = (val a - val b) + 256 ^ a.length by omega,
      Nat.add_mod_right, Nat.mod_eq_of_lt (by omega)]
  · rw [if_pos hc]
    refine ⟨rfl, rfl, _, rfl, s1, ?_⟩
    rw [s2, Nat.mod_eq_of_lt (by omega)]

example : UN.checkedAdd [0xFF#8, 0#8] [1#8, 0#8] = some [0, 1] ∧
    UN.add .debug [0xFF#8, 0xFF#8] [1#8, 0#8] = .panic ∧
    UN.sub .release [0#8, 0#8] [1#8, 0#8] = .ok [0xFF, 0xFF] := by decide

/-! ## C28 -/

/-- C28, violated by the code: for `U<1>`, 16 * 16 = 256 does not fit, yet `checked_mul` returns
`Some(0)` and debug `*` does not panic. -/
theorem C28_checked_mul_violated :
    ¬ ∀ a b : Bytes, b.length = a.length → 256 ^ a.length ≤ val a * val b →
      UN.checkedMul a b = none ∧ UN.mul .debug a b = .panic := by
  intro h
  have := h [16#8] [16#8] rfl (by decide)
  revert this
  decide

/-- C28, violated for two bytes as well: for `U<2>`, 256 * 256 is not detected. -/
theorem C28_checked_mul_two_violated :
    ¬ ∀ a b : Bytes, b.length = 2 → a.length = 2 → 256 ^ 2 ≤ val a * val b →
      UN.checkedMul a b = none := by
  intro h
  have := h [0#8, 1#8] [0#8, 1#8] rfl rfl (by decide)
  revert this
  decide

/-- C28, the part that holds: a product that fits is always returned exactly (debug `*`
included), and `None` always means that the product does not fit. Missing: detection of every
overflow. -/
theorem C28_checked_mul_partial (a b : Bytes) :
    (val a * val b < 256 ^ a.length → ∃ x, UN.checkedMul a b = some x ∧ x.length = a.length ∧
      val x = val a * val b ∧ UN.mul .debug a b = .ok x ∧ UN.mul .release a b = .ok x) ∧
    (UN.checkedMul a b = none → 256 ^ a.length ≤ val a * val b) ∧
    (UN.mul .debug a b = .panic → 256 ^ a.length ≤ val a * val b) := by
  have hm := modulus_bytes a
  obtain ⟨h1, h2, _⟩ := C14_mul_flag_partial (by norm_num : 0 < 8) a b
  rw [hm] at h1 h2
  have first : val a * val b < 256 ^ a.length → ∃ x, UN.checkedMul a b = some x ∧
      x.length = a.length ∧ val x = val a * val b ∧ UN.mul .debug a b = .ok x ∧
      UN.mul .release a b = .ok x := by
    intro hc
    obtain ⟨x, g1, g2, g3⟩ := h2 hc
    refine ⟨x, g1, g2, g3, ?_, ?_⟩
    · simp only [UN.mul, g1, Res.ofOption]
    · simp only [UN.mul, ElementMul.mulWrapping, Res.ok.injEq]
      unfold ElementMul.mulChecked at g1
      cases hO : ElementMul.mulOverflowing a b with
      | mk o c =>
        rw [hO] at g1
        cases c
        · simpa using g1
        · simp at g1
  refine ⟨first, fun hn => ?_, fun hn => ?_⟩
  · by_contra hc
    obtain ⟨x, g1, _⟩ := first (by omega)
    rw [g1] at hn; cases hn
  · by_contra hc
    obtain ⟨x, _, _, _, g4, _⟩ := first (by omega)
    rw [g4] at hn; cases hn

example : UN.checkedMul [0x34#8, 0x02#8] [0x10#8, 0#8] = some [0x40, 0x23] := by decide
example : UN.checkedMul [0xFF#8, 0xFF#8] [0xFF#8, 0xFF#8] = none := by decide

/-! ## C29 -/

/-- C29, violated by the code for multiplication: `U<1>` 16 saturating_mul 16 is 0, not 255. -/
theorem C29_saturating_mul_violated :
    ¬ ∀ a b : Bytes, b.length = a.length →
      val (UN.saturatingMul a b) = min (val a * val b) (256 ^ a.length - 1) := by
  intro h
  have := h [16#8] [16#8] rfl
  revert this
  decide

/-- C29, the part that holds: saturating addition and subtraction clamp, and saturating
multiplication is exact when the product fits. Missing: clamping of products whose overflow goes
undetected. -/
theorem C29_saturating_partial (a b : Bytes) (h : b.length = a.length) :
    ((UN.saturatingAdd a b).length = a.length ∧
      val (UN.saturatingAdd a b) = min (val a + val b) (256 ^ a.length - 1)) ∧
    ((UN.saturatingSub a b).length = a.length ∧
      val (UN.saturatingSub a b) = val a - val b) ∧
    (val a * val b < 256 ^ a.length →
      val (UN.saturatingMul a b) = min (val a * val b) (256 ^ a.length - 1)) ∧
    (UN.checkedMul a b = none →
      val (UN.saturatingMul a b) = min (val a * val b) (256 ^ a.length - 1)) := by
  obtain ⟨c1, c2, c3, c4⟩ := C27_checked_add_sub a b h
  obtain ⟨m1, m2, _⟩ := C28_checked_mul_partial a b
  have hpos : 0 < 256 ^ a.length := by positivity
  refine ⟨?_, ?_, ?_, ?_⟩
  · unfold UN.saturatingAdd
    by_cases hc : val a + val b < 256 ^ a.length
    · obtain ⟨x, g1, g2, g3, _⟩ := c1 hc
      unfold UN.checkedAdd at g1
      rw [g1]
      exact ⟨g2, by simp only; omega⟩
    · obtain ⟨g1, _⟩ := c2 (by omega)
      unfold UN.checkedAdd at g1
      rw [g1]
      exact ⟨by simp [UN.maxValue], by simp only [val_maxValue]; omega⟩
  · unfold UN.saturatingSub
    by_cases hc : val b ≤ val a
    · obtain ⟨x, g1, g2, g3, _⟩ := c3 hc
      unfold UN.checkedSub at g1
      rw [g1]
      exact ⟨g2, g3⟩
    · obtain ⟨g1, _⟩ := c4 (by omega)
      unfold UN.checkedSub at g1
      rw [g1]
      exact ⟨UN.length_zero _, by simp only [UN.val_zero]; omega⟩
  · intro hc
    obtain ⟨x, g1, _, g3, _⟩ := m1 hc
    unfold UN.checkedMul at g1
    unfold UN.saturatingMul
    rw [g1]
    simp only; omega
  · intro hn
    have := m2 hn
    unfold UN.checkedMul at hn
    unfold UN.saturatingMul
    rw [hn]
    simp only [val_maxValue]; omega

example : UN.saturatingAdd [0xFF#8, 0xF0#8] [0#8, 0x20#8] = [0xFF, 0xFF] ∧
    UN.saturatingSub [1#8, 0#8] [2#8, 0#8] = [0, 0] ∧
    UN.saturatingMul [0xFF#8, 0xFF#8] [0xFF#8, 0xFF#8] = [0xFF, 0xFF] := by decide

/-! ## C30 -/

/-- C30, violated by the code for `U<2>`: 256 / 255 is computed as 0. -/
theorem C30_div_violated :
    ¬ ∀ a b : Bytes, b.length = a.length → val b ≠ 0 →
      ∃ q, UN.div .release a b = .ok q ∧ val q = val a / val b := by
  intro h
  obtain ⟨q, h1, h2⟩ := h [0#8, 1#8] [0xFF#8, 0#8] rfl (by decide)
  have e : UN.div .release [0#8, 1#8] [0xFF#8, 0#8] = .ok [0#8, 0#8] := by decide +kernel
  rw [e] at h1
  cases h1
  revert h2
  decide

/-- C30, violated by the code for a zero divisor: no panic, and `checked_div` is `Some`. -/
theorem C30_div_zero_violated :
    ¬ ∀ (m : Mode) (a b : Bytes), b.length = a.length → val b = 0 →
      UN.div m a b = .panic ∧ UN.rem m a b = .panic ∧ UN.checkedDiv m a b = .ok none := by
  intro h
  obtain ⟨h1, _, _⟩ := h .debug [7#8] [0#8] rfl (by decide)
  have e : UN.div .debug [7#8] [0#8] = .ok [0xFF#8] := by decide +kernel
  rw [e] at h1
  cases h1

/-- C30, the part that holds: Euclidean division for a nonzero divisor below 256 when the dividend
is below 256 too, or the divisor is at most 128; in particular `U<1>` is right for all nonzero
divisors. Missing: other divisors, and the zero divisor. -/
theorem C30_div_partial (m : Mode) (a b : Bytes) (h : b.length = a.length) (ha : a ≠ [])
    (hfit : a.length < 2 ^ 60) (hb0 : val b ≠ 0) (hb : val b < 256)
    (hs : val a < 256 ∨ val b ≤ 128) :
    ∃ q r, UN.div m a b = .ok q ∧ UN.rem m a b = .ok r ∧ UN.checkedDiv m a b = .ok (some q) ∧
      q.length = a.length ∧ r.length = a.length ∧
      val a = val q * val b + val r ∧ val r < val b := by
  have hl : 0 < a.length := List.length_pos_iff.mpr ha
  obtain ⟨_, ⟨q, s, g0, g1, g2, g3, g4⟩, ⟨r, k0, k1, _, k3, k4⟩⟩ :=
    C20_bitwise_div_partial m (by norm_num : 0 < 8) a b (by omega) (by omega) (by omega) (by omega)
      (by omega) (by omega)
  refine ⟨q, r, ?_, ?_, ?_, g3, k3, ?_, ?_⟩
  · unfold UN.div
    cases m with
    | debug => simp only [g1, Res.bind, Res.ofOption]
    | release => simp only [g2]
  · unfold UN.rem; rw [k1]; rfl
  · unfold UN.checkedDiv; rw [g1]
  · rw [g4, k4, Nat.mul_comm]; exact (Nat.div_add_mod _ _).symm
  · rw [k4]; exact Nat.mod_lt _ (by omega)

/-- C30 for `U<1>`: right for every dividend and every nonzero divisor. -/
theorem C30_div_one_byte_partial (m : Mode) (x y : BitVec 8) (hy : y ≠ 0) :
    UN.div m [x] [y] = .ok [x / y] ∧ UN.rem m [x] [y] = .ok [x % y] := by
  apply one_byte_div
  rcases Nat.eq_zero_or_pos y.toNat with h | h
  · exact absurd (BitVec.eq_of_toNat_eq (by simpa using h)) hy
  · exact h

example : UN.div .debug [0x39#8, 0x30#8] [100#8, 0#8] = .ok [123, 0] ∧
    UN.rem .debug [0x39#8, 0x30#8] [100#8, 0#8] = .ok [45, 0] := by decide +kernel

/-! ## C31 -/

/-- C31, violated by the code: for `U<2>`, 256 compares below 1. -/
theorem C31_order_violated :
    ¬ ∀ a b : Bytes, b.length = a.length → UN.cmp a b = compare (val a) (val b) := by
  intro h
  have := h [0#8, 1#8] [1#8, 0#8] rfl
  revert this
  decide

/-- C31, the part that holds: `Eq` is numeric equality and agrees with `cmp`; the order is numeric
for `U<1>` and more generally when only one byte differs. Missing: values differing in several
bytes, where the least significant differing byte decides. -/
theorem C31_order_partial (a b : Bytes) (h : b.length = a.length) :
    (UN.eq a b = true ↔ val a = val b) ∧ (UN.cmp a b = .eq ↔ val a = val b) ∧
    (a.length = 1 → UN.cmp a b = compare (val a) (val b)) ∧
    (∀ i, (∀ j, j ≠ i → a.getD j 0 = b.getD j 0) → UN.cmp a b = compare (val a) (val b)) := by
  obtain ⟨h1, h2, _⟩ := C05_cmp_partial a b
  refine ⟨?_, h1, fun hl => ?_, h2⟩
  · unfold UN.eq
    rw [decide_eq_true_iff]
    exact ⟨fun e => by rw [e], fun e => eq_of_val_eq h.symm e⟩
  · apply h2 0
    intro j hj
    rw [getD_of_ge _ _ (by omega), getD_of_ge _ _ (by omega)]

example : UN.cmp [7#8, 3#8] [7#8, 9#8] = .lt ∧ UN.cmp [9#8] [7#8] = .gt := by decide

/-! ## C32 -/

/-- Big-endian reading of a byte list, for the statement of C32. -/
def beVal (b : Bytes) : Nat := b.foldl (fun acc x => acc * 256 + x.toNat) 0

theorem beVal_append (b : Bytes) (x : BitVec 8) : beVal (b ++ [x]) = beVal b * 256 + x.toNat := by
  simp [beVal]

theorem beVal_reverse (b : Bytes) : beVal b.reverse = val b := by
  induction b with
  | nil => rfl
  | cons x xs ih => rw [List.reverse_cons, beVal_append, ih, val_cons]; ring

/-- C32: byte conversions are mutually inverse for each endianness, big endian is the reverse of
little endian, and each `from_*` reads the number in its endianness. -/
theorem C32_bytes_round_trip (a : Bytes) (little : Bool) :
    UN.fromLeBytes (UN.toLeBytes a) = a ∧ UN.toLeBytes (UN.fromLeBytes a) = a ∧
    UN.fromBeBytes (UN.toBeBytes a) = a ∧ UN.toBeBytes (UN.fromBeBytes a) = a ∧
    UN.fromNeBytes little (UN.toNeBytes little a) = a ∧
    UN.toNeBytes little (UN.fromNeBytes little a) = a ∧
    UN.toBeBytes a = (UN.toLeBytes a).reverse ∧
    val (UN.fromBeBytes a) = beVal a ∧ beVal (UN.toBeBytes a) = val a := by
  have hrr : constReverse (constReverse a) = a := by rw [constReverse_eq, constReverse_eq]; simp
  refine ⟨rfl, rfl, hrr, hrr, ?_, ?_, constReverse_eq a, ?_, ?_⟩
  · cases little
    · exact hrr
    · rfl
  · cases little
    · exact hrr
    · rfl
  · unfold UN.fromBeBytes
    rw [constReverse_eq, ← beVal_reverse, List.reverse_reverse]
  · unfold UN.toBeBytes
    rw [constReverse_eq, beVal_reverse]

example : UN.fromBeBytes [1#8, 2#8, 3#8] = [3, 2, 1] ∧ beVal [1#8, 2#8, 3#8] = 66051 := by decide

/-! ## C33 -/

/-- C33: the bit operators act bitwise on the values. -/
theorem C33_bit_ops (a b : Bytes) (h : b.length = a.length) :
    ((UN.bitand a b).length = a.length ∧ val (UN.bitand a b) = val a &&& val b) ∧
    ((UN.bitor a b).length = a.length ∧ val (UN.bitor a b) = val a ||| val b) ∧
    ((UN.bitxor a b).length = a.length ∧ val (UN.bitxor a b) = val a ^^^ val b) ∧
    ((UN.not a).length = a.length ∧ val (UN.not a) = 256 ^ a.length - 1 - val a) := by
  have hbit : ∀ (s : Bytes) (k : Nat), s.length = a.length → ¬ k < 8 * a.length →
      (val s).testBit k = false := by
    intro s k hs hk
    apply Nat.testBit_lt_two_pow
    refine Nat.lt_of_lt_of_le (val_lt s) (Nat.pow_le_pow_right (by norm_num) ?_)
    rw [hs]; omega
  refine ⟨⟨by simp [UN.bitand, h], ?_⟩, ⟨by simp [UN.bitor, h], ?_⟩,
    ⟨by simp [UN.bitxor, h], ?_⟩, ?_⟩
  · apply Nat.eq_of_testBit_eq
    intro k
    unfold UN.bitand
    rw [testBit_zipWith (by norm_num : 0 < 8) _ (· && ·) (by simp) a b h.symm, Nat.testBit_and]
    by_cases hk : k < 8 * a.length
    · simp [hk]
    · simp [hk, hbit a k rfl hk]
  · apply Nat.eq_of_testBit_eq
    intro k
    unfold UN.bitor
    rw [testBit_zipWith (by norm_num : 0 < 8) _ (· || ·) (by simp) a b h.symm, Nat.testBit_or]
    by_cases hk : k < 8 * a.length
    · simp [hk]
    · simp [hk, hbit a k rfl hk, hbit b k h hk]
  · apply Nat.eq_of_testBit_eq
    intro k
    unfold UN.bitxor
    rw [testBit_zipWith (by norm_num : 0 < 8) _ (fun x y => x ^^ y) (by simp) a b h.symm, Nat.testBit_xor]
    by_cases hk : k < 8 * a.length
    · simp [hk]
    · simp [hk, hbit a k rfl hk, hbit b k h hk]
  · obtain ⟨g1, g2, _⟩ := C07_not a
    rw [modulus_bytes] at g2
    exact ⟨g1, g2⟩

/-- Boolean algebra laws, as equalities of values of the type. -/
theorem C33_boolean_algebra (a b : Bytes) (h : b.length = a.length) :
    UN.not (UN.not a) = a ∧
    UN.not (UN.bitand a b) = UN.bitor (UN.not a) (UN.not b) ∧
    UN.not (UN.bitor a b) = UN.bitand (UN.not a) (UN.not b) ∧
    UN.bitand a (UN.bitor a b) = a ∧ UN.bitor a (UN.bitand a b) = a ∧
    UN.bitxor (UN.bitxor a b) b = a := by
  induction a generalizing b with
  | nil =>
    have : b = [] := List.length_eq_zero_iff.mp (by simpa using h)
    subst this
    exact ⟨rfl, rfl, rfl, rfl, rfl, rfl⟩
  | cons x xs ih =>
    match b, h with
    | y :: ys, h =>
      obtain ⟨i1, i2, i3, i4, i5, i6⟩ := ih ys (by simpa using h)
      unfold UN.not UN.bitand UN.bitor UN.bitxor at *
      simp only [List.map_cons, List.zipWith_cons_cons, List.cons.injEq]
      refine ⟨⟨by simp, i1⟩, ⟨?_, i2⟩, ⟨?_, i3⟩, ⟨?_, i4⟩, ⟨?_, i5⟩, ⟨?_, i6⟩⟩
      all_goals
        apply BitVec.eq_of_getLsbD_eq
        intro i hi
        simp only [BitVec.getLsbD_not, BitVec.getLsbD_and, BitVec.getLsbD_or, BitVec.getLsbD_xor,
          hi, decide_true, Bool.true_and]
        cases x.getLsbD i <;> cases y.getLsbD i <;> rfl

example : UN.bitxor [0xF0#8, 1#8] [0xFF#8, 3#8] = [0x0F, 2] ∧ UN.not [0x0F#8, 0#8] = [0xF0, 0xFF] := by
  decide

/-! ## C34 -/

/-- C34, violated by the code: for `U<3>` in release builds, `1 << 17` is 2, not 2^17. -/
theorem C34_shl_release_violated :
    ¬ ∀ (a : Bytes) (k : Nat), a ≠ [] → k < 8 * a.length →
      ∃ out, UN.shl .release a k = .ok out ∧ val out = val a * 2 ^ k % 256 ^ a.length := by
  intro h
  obtain ⟨out, h1, h2⟩ := h [1#8, 0#8, 0#8] 17 (by decide) (by decide)
  have e : UN.shl .release [1#8, 0#8, 0#8] 17 = .ok [2, 0, 0] := by decide
  rw [e] at h1
  cases h1
  revert h2
  decide

/-- C34, violated by the code: for `U<1>`, `0x80 >> 1` is 0xC0 in both build profiles. -/
theorem C34_shr_violated :
    ¬ ∀ (m : Mode) (a : Bytes) (k : Nat), a ≠ [] → k < 8 * a.length →
      ∃ out, UN.shr m a k = .ok out ∧ val out = val a / 2 ^ k := by
  intro h
  obtain ⟨out, h1, h2⟩ := h .debug [0x80#8] 1 (by decide) (by decide)
  have e : UN.shr .debug [0x80#8] 1 = .ok [0xC0] := by decide
  rw [e] at h1
  cases h1
  revert h2
  decide

/-- C34, violated by the code: a debug `<<` by exactly `8 * N` does not panic. -/
theorem C34_shl_debug_violated :
    ¬ ∀ (a : Bytes) (k : Nat), a ≠ [] → 8 * a.length ≤ k → UN.shl .debug a k = .panic := by
  intro h
  have := h [1#8] 8 (by decide) (by decide)
  revert this
  decide

/-- C34, the part that holds. Left shifts by `k < 8N` are exact in debug builds, and in release
builds when `8N` is a power of two (with the amount reduced modulo `8N`); debug shifts by more
than `8N` panic; right shifts never panic below `8N` and are exact when the top `k mod 8` bits of
the byte that becomes the highest are zero. The `U<N>` amount forms agree with the `usize` forms
for `N ≤ 8`. Missing: the violations above. -/
theorem C34_shifts_partial (a : Bytes) (k : Nat) (ha : a ≠ []) (hfit : a.length < 2 ^ 60) :
    (k < 8 * a.length → ∃ out, UN.shl .debug a k = .ok out ∧ out.length = a.length ∧
      val out = val a * 2 ^ k % 256 ^ a.length) ∧
    (∀ e, 8 * a.length = 2 ^ e → ∃ out, UN.shl .release a k = .ok out ∧
      out.length = a.length ∧ val out = val a * 2 ^ (k % (8 * a.length)) % 256 ^ a.length) ∧
    (8 * a.length < k → UN.shl .debug a k = .panic ∧ UN.shr .debug a k = .panic) ∧
    (k < 8 * a.length → ∃ out, UN.shr .debug a k = .ok out ∧ out.length = a.length ∧
      ((a.getD (a.length - 1 - k / 8) 0).toNat < 2 ^ (8 - k % 8) → val out = val a / 2 ^ k)) ∧
    (∀ e, 8 * a.length = 2 ^ e → ∃ out, UN.shr .release a k = .ok out ∧ out.length = a.length ∧
      ((a.getD (a.length - 1 - k % (8 * a.length) / 8) 0).toNat < 2 ^ (8 - k % 8) →
        val out = val a / 2 ^ (k % (8 * a.length)))) ∧
    (∀ (m : Mode) (b : Bytes), b.length ≤ 8 → val b = k →
      UN.shlU m a b = UN.shl m a k ∧ UN.shrU m a b = UN.shr m a k) := by
  have hl : 0 < a.length := List.length_pos_iff.mpr ha
  have hm := modulus_bytes a
  obtain ⟨c1, c2⟩ := C09_shl_checked (by norm_num : 0 < 8) a k
  obtain ⟨_, w2⟩ := C09_shl_wrapping_partial .release a k (by omega) (by omega)
  obtain ⟨r1, r2, _⟩ := C11_shr_in_place_partial .debug (by norm_num : 0 < 8) a k (by omega)
  refine ⟨fun h => ?_, fun e he => ?_, fun h => ?_, fun h => ?_, fun e he => ?_, ?_⟩
  · obtain ⟨out, g1, g2, g3⟩ := c2 (by omega)
    refine ⟨out, ?_, g2, by rw [g3, hm]⟩
    simp only [UN.shl, g1, Res.bind, Res.ofOption]
  · obtain ⟨out, g1, g2, g3⟩ := w2 e he
    exact ⟨out, g1, g2, by rw [g3, hm]⟩
  · constructor
    · simp only [UN.shl, c1 h, Res.bind, Res.ofOption]
    · simp only [UN.shr, r1 h, Res.bind, Res.ofOption]
  · obtain ⟨out, g1, g2, g3, _⟩ := r2 h
    refine ⟨out, ?_, g2, g3⟩
    simp only [UN.shr, g1, Res.bind, Res.ofOption]
  · obtain ⟨_, _, r3⟩ := C11_shr_in_place_partial .release (by norm_num : 0 < 8) a k (by omega)
    obtain ⟨out, g1, g2, g3⟩ := r3 (by omega)
    have hlog : 2 ^ Nat.log2 (8 * a.length) = 8 * a.length := by rw [he, Nat.log2_two_pow]
    rw [hlog] at g3
    obtain ⟨_, q2, _⟩ := C11_shr_in_place_partial .release (by norm_num : 0 < 8) a
      (k % (8 * a.length)) (by omega)
    obtain ⟨out', p1, p2, p3, _⟩ := q2 (Nat.mod_lt _ (by omega))
    have : out' = out := by
      rw [g3] at p1
      simpa using p1.symm
    subst this
    refine ⟨out', g1, g2, ?_⟩
    rwa [Nat.mod_mul_right_mod] at p3
  · intro m b hb hv
    subst hv
    unfold UN.shlU UN.shrU
    rw [toUsize_spec, if_pos hb]
    exact ⟨rfl, rfl⟩

example : UN.shl .debug [0x81#8, 1#8] 9 = .ok [0, 0x02] ∧
    UN.shl .release [0x81#8, 1#8] 25 = .ok [0, 0x02] ∧
    UN.shr .release [0xFF#8, 0x7F#8] 17 = .ok [0xFF, 0x3F] ∧
    UN.shlU .debug [1#8] [3#8] = .ok [8] := by decide +kernel

/-! ## C35 -/

/-- C35, violated by the code: `0.pow(0)` is 0. -/
theorem C35_pow_violated :
    ¬ ∀ (m : Mode) (a b : Bytes), a ≠ [] → b.length = a.length → val b = 0 →
      UN.pow m a b = .ok (UN.one a.length) := by
  intro h
  have := h .release [0#8] [0#8] (by decide) rfl (by decide)
  revert this
  decide

/-- C35, violated by the code: every power of a base above 1 panics for `N ≥ 9` if the exponent
is nonzero, because the exponent is converted to `usize`. -/
theorem C35_pow_wide_violated :
    ¬ ∀ (a b : Bytes), a ≠ [] → b.length = a.length → ∃ x, UN.pow .release a b = .ok x := by
  intro h
  obtain ⟨x, hx⟩ := h [2#8, 0#8, 0#8, 0#8, 0#8, 0#8, 0#8, 0#8, 0#8]
    [1#8, 0#8, 0#8, 0#8, 0#8, 0#8, 0#8, 0#8, 0#8] (by decide) rfl
  have e : UN.pow .release [2#8, 0#8, 0#8, 0#8, 0#8, 0#8, 0#8, 0#8, 0#8]
    [1#8, 0#8, 0#8, 0#8, 0#8, 0#8, 0#8, 0#8, 0#8] = .panic := by decide +kernel
  rw [e] at hx
  cases hx

theorem product_release (a : Bytes) (k : Nat) :
    ∃ out, UN.product .release a k = .ok out ∧ out.length = a.length ∧
      val out = val a ^ k % 256 ^ a.length := by
  induction k with
  | zero => exact ⟨_, rfl, UN.length_one _, by rw [UN.val_one]; simp⟩
  | succ k ih =>
    obtain ⟨out, h1, h2, h3⟩ := ih
    obtain ⟨m1, m2, _⟩ := C13_mul_in_place (by norm_num : 0 < 8) out a
    refine ⟨(ElementMul.mulOverflowing out a).1, ?_, by omega, ?_⟩
    · unfold UN.product at h1 ⊢
      rw [forUpM, h1]; rfl
    · rw [m2, modulus_bytes, h2, h3, Nat.pow_succ, Nat.mod_mul_mod]

theorem product_debug (a : Bytes) (k : Nat) (h1 : 1 ≤ val a) (hfit : val a ^ k < 256 ^ a.length) :
    ∃ out, UN.product .debug a k = .ok out ∧ out.length = a.length ∧ val out = val a ^ k := by
  induction k with
  | zero =>
    refine ⟨_, rfl, UN.length_one _, ?_⟩
    rw [UN.val_one, Nat.mod_eq_of_lt]
    · simp
    · simpa using hfit
  | succ k ih =>
    have hle : val a ^ k ≤ val a ^ (k + 1) := Nat.pow_le_pow_right h1 (by omega)
    obtain ⟨out, g1, g2, g3⟩ := ih (by omega)
    obtain ⟨c1, _⟩ := C28_checked_mul_partial out a
    rw [g2, g3, ← Nat.pow_succ] at c1
    obtain ⟨x, _, x2, x3, x4, _⟩ := c1 hfit
    refine ⟨x, ?_, x2, x3⟩
    unfold UN.product at g1 ⊢
    rw [forUpM, g1]; exact x4

/-- C35, the part that holds: for `N` from 1 to 8, and except for 0 to the power 0, release `pow`
is the power modulo `256 ^ N`, and debug `pow` is exact whenever the power fits. Missing: 0^0,
and `N ≥ 9` (where the exponent conversion panics). -/
theorem C35_pow_partial (a b : Bytes) (ha : a ≠ []) (hN : a.length ≤ 8) (h : b.length = a.length)
    (h0 : val a ≠ 0 ∨ val b ≠ 0) :
    (∃ out, UN.pow .release a b = .ok out ∧ out.length = a.length ∧
      val out = val a ^ val b % 256 ^ a.length) ∧
    (val a ^ val b < 256 ^ a.length → ∃ out, UN.pow .debug a b = .ok out ∧
      out.length = a.length ∧ val out = val a ^ val b) := by
  have hl : 0 < a.length := List.length_pos_iff.mpr ha
  have h1N : 1 < 256 ^ a.length := Nat.one_lt_pow (by omega) (by norm_num)
  have halt : val a < 256 ^ a.length := by rw [← modulus_bytes]; exact val_lt a
  unfold UN.pow
  by_cases hz : val a = 0
  · rw [(UN.isZero_iff a).mpr hz]
    simp only [if_true]
    have : val a ^ val b = 0 := by rw [hz]; exact Nat.zero_pow (by omega)
    rw [this]
    exact ⟨⟨a, rfl, rfl, by simpa using hz⟩, fun _ => ⟨a, rfl, rfl, hz⟩⟩
  · rw [show UN.isZero a = false by
      rw [← Bool.not_eq_true, UN.isZero_iff]; exact hz]
    simp only [Bool.false_eq_true, if_false]
    rw [UN.isOne_spec a ha]
    simp only [Res.bind]
    by_cases ho : val a = 1
    · simp only [ho, decide_true, if_true]
      exact ⟨⟨a, rfl, rfl, by simp [ho, Nat.mod_eq_of_lt h1N]⟩, fun _ => ⟨a, rfl, rfl, by simp [ho]⟩⟩
    · simp only [ho, decide_false, Bool.false_eq_true, if_false]
      by_cases hb : val b = 0
      · rw [(UN.isZero_iff b).mpr hb]
        simp only [if_true, hb, Nat.pow_zero]
        refine ⟨⟨_, rfl, UN.length_one _, UN.val_one _⟩, fun _ => ⟨_, rfl, UN.length_one _, ?_⟩⟩
        rw [UN.val_one, Nat.mod_eq_of_lt h1N]
      · rw [show UN.isZero b = false by
          rw [← Bool.not_eq_true, UN.isZero_iff]; exact hb]
        simp only [Bool.false_eq_true, if_false]
        rw [toUsize_spec, if_pos (by omega)]
        exact ⟨product_release a _, fun hfit => product_debug a _ (by omega) hfit⟩

example : UN.pow .debug [3#8, 0#8] [5#8, 0#8] = .ok [243, 0] ∧
    UN.pow .release [3#8, 0#8] [11#8, 0#8] = .ok [0xFB, 0xB3] := by decide +kernel

/-! ## C36 -/

/-- C36, violated by the code: casting a `U<2>` holding 5 to `u8` panics. -/
theorem C36_to_prim_violated :
    ¬ ∀ (size : Nat) (a : Bytes), UN.toPrimChecked size a
      = .ok (if val a < 2 ^ (8 * size) then some (BitVec.ofNat _ (val a)) else none) := by
  intro h
  have := h 1 [5#8, 0#8]
  rw [toPrimChecked_panic 1 _ (by decide)] at this
  cases this

/-- C36, violated by the code: `U::<1>::from_checked(300u16)` is `Some(44)`. -/
theorem C36_from_prim_violated :
    ¬ ∀ (n size : Nat) (v : BitVec (8 * size)), 256 ^ n ≤ v.toNat →
      UN.fromPrimChecked n size v = .ok none := by
  intro h
  have := h 1 2 300#16 (by decide)
  revert this
  decide +kernel

/-- C36, violated by the code: casting a `u8` up to a `U<2>` panics. -/
theorem C36_from_prim_wide_violated :
    ¬ ∀ (n size : Nat) (v : BitVec (8 * size)), v.toNat < 256 ^ n →
      ∃ a, UN.fromPrimChecked n size v = .ok (some a) ∧ val a = v.toNat := by
  intro h
  obtain ⟨a, h1, _⟩ := h 2 1 5#8 (by decide)
  rw [fromPrimChecked_panic 2 1 _ (by decide)] at h1
  cases h1

/-- C36, the part that holds: casts from `U<N>` to a primitive of at least `N` bytes (checked,
saturating and truncating) keep the number; casts from a primitive of at least `N` bytes keep the
number when it fits; the infallible same-size conversions are inverse to each other. In all other
size combinations the casts panic (second and fourth clause), and a value that does not fit is
silently truncated (see the violations). -/
theorem C36_casts_partial (size : Nat) (a : Bytes) (n : Nat) (v : BitVec (8 * size)) :
    (a.length ≤ size → val a < 2 ^ (8 * size) ∧
      UN.toPrimChecked size a = .ok (some (BitVec.ofNat _ (val a))) ∧
      UN.toPrimSaturating size a = .ok (BitVec.ofNat _ (val a)) ∧
      UN.toPrimTruncating size a = .ok (BitVec.ofNat _ (val a))) ∧
    (size < a.length → UN.toPrimChecked size a = .panic ∧ UN.toPrimSaturating size a = .panic ∧
      UN.toPrimTruncating size a = .panic) ∧
    (n ≤ size → ∃ x, UN.fromPrimChecked n size v = .ok (some x) ∧ x.length = n ∧
      val x = v.toNat % 256 ^ n) ∧
    (size < n → UN.fromPrimChecked n size v = .panic) ∧
    (UN.asPrim size (UN.fromPrim size v) = v ∧ (UN.fromPrim size v).length = size ∧
      val (UN.fromPrim size v) = v.toNat) ∧
    (a.length = size → UN.fromPrim size (UN.asPrim size a) = a ∧
      (UN.asPrim size a).toNat = val a) := by
  refine ⟨fun h => ?_, fun h => ?_, fun h => fromPrimChecked_trunc n size v h,
    fun h => fromPrimChecked_panic n size v h,
    ⟨ofLeBytes_leBytes size v, leBytes_length size v, val_leBytes size v⟩, fun h => ?_⟩
  · have h1 := toPrimChecked_small size a h
    refine ⟨?_, h1, ?_, toPrimTruncating_small size a h⟩
    · exact Nat.lt_of_lt_of_le (val_lt a)
        (Nat.pow_le_pow_right (by norm_num) (Nat.mul_le_mul_left _ h))
    · unfold UN.toPrimSaturating; rw [h1]; rfl
  · have h1 := toPrimChecked_panic size a h
    exact ⟨h1, by unfold UN.toPrimSaturating; rw [h1]; rfl, toPrimTruncating_panic size a h⟩
  · subst h
    refine ⟨leBytes_ofLeBytes a, ?_⟩
    unfold UN.asPrim
    rw [ofLeBytes_toNat]
    exact Nat.mod_eq_of_lt (val_lt a)

example : UN.toPrimChecked 4 [0x34#8, 0x12#8] = .ok (some 0x1234#32) ∧
    UN.fromPrimChecked 2 4 0x1234#32 = .ok (some [0x34, 0x12]) ∧
    UN.asPrim 2 [0x34#8, 0x12#8] = 0x1234#16 := by decide +kernel

/-! ## C37 -/

/-- C37, violated by the code: printing the `U<2>` value 5 panics. -/
theorem C37_display_violated :
    ¬ ∀ (m : Mode) (a : Bytes), a ≠ [] →
      ∃ fuel, UN.display m fuel a = .ok (Nat.toDigits 10 (val a)) := by
  intro h
  obtain ⟨fuel, h1⟩ := h .release [5#8, 0#8] (by decide)
  cases fuel with
  | zero => exact absurd h1 (by decide +kernel)
  | succ fuel =>
    have hb : UN.fromPrimChecked 2 8 (BitVec.ofNat 64 10) = .ok (some [10#8, 0#8]) := by
      decide +kernel
    have hr : UN.rem .release [5#8, 0#8] [10#8, 0#8] = .ok [5#8, 0#8] := by decide +kernel
    have hp : UN.toPrimChecked 1 [5#8, 0#8] = .panic := toPrimChecked_panic 1 _ (by decide)
    have hg : UN.cmp [5#8, 0#8] (UN.zero 2) = .gt := by decide
    unfold UN.display UN.writeBase at h1
    simp only [List.length_cons, List.length_nil, Nat.zero_add, Nat.reduceAdd] at h1
    rw [hb] at h1
    simp only [Res.bind, Res.ofOption] at h1
    rw [UN.writeLoop] at h1
    simp only [List.length_cons, List.length_nil, Nat.zero_add, Nat.reduceAdd, hg, if_true, hr,
      Res.bind, hp] at h1
    cases h1

/-- C37, the part that holds: `U<1>` prints its canonical decimal representation. Missing: larger
`N` (every nonzero value panics there, because the digit is cast to `u8`). -/
theorem C37_display_partial (m : Mode) (x : BitVec 8) :
    ∃ fuel₀, ∀ fuel, fuel₀ ≤ fuel → UN.display m fuel [x] = .ok (Nat.toDigits 10 (val [x])) := by
  refine ⟨x.toNat, fun fuel hf => ?_⟩
  rw [display_one m fuel x hf]
  simp [val]

example : UN.display .debug 9 [207#8] = .ok ['2', '0', '7'] := by decide +kernel
example : UN.display .debug 9 [0#8] = .ok ['0'] := by decide +kernel

end Verif
