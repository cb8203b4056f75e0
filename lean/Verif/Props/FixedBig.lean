import Verif.Model.FixedInts
import Verif.Spec.Real
import Verif.Lemmas.Fixed
import Verif.Props.BigInt
import Verif.Props.BigIntExact
import Verif.Props.DivExact
import Verif.Props.DivBits
import Verif.Lemmas.DivHalf
import Verif.Lemmas.Order

/-!
# Properties of `Fixed` backed by `BigInt`
-/

namespace Verif

namespace BInt

open Fixed

/-! ## C143 -/

private theorem and_mid {B N a : Nat} (hN : N ≤ B) :
    a &&& (2 ^ B - 2 ^ N) = a % 2 ^ B / 2 ^ N * 2 ^ N := by
  have e : 2 ^ B - 2 ^ N = (2 ^ (B - N) - 1) * 2 ^ N := by
    rw [Nat.sub_mul, ← pow_add, Nat.sub_add_cancel hN, one_mul]
  apply Nat.eq_of_testBit_eq
  intro i
  rw [e, Nat.testBit_and, Nat.testBit_mul_two_pow, Nat.testBit_mul_two_pow, Nat.testBit_two_pow_sub_one,
    Nat.testBit_div_two_pow, Nat.testBit_mod_two_pow]
  by_cases h : N ≤ i
  · rw [Nat.sub_add_cancel h]
    by_cases hi : i < B
    · have : i - N < B - N := by omega
      simp [h, this, hi]
    · have : ¬ i - N < B - N := by omega
      simp [this, hi]
  · simp [h]

private theorem shl_usize (m : Mode) (a : BInt) (ha : Rep a) (N : Nat) (hN : N < 2 ^ 64) :
    ∃ c, (BInt.intOps m).shl a N = .ok c ∧ Canon c ∧ ival c = ival a * 2 ^ N := by
  obtain ⟨k, k1, k2, k3⟩ := C110_mixed_exact_partial false 64 (by norm_num) (BitVec.ofNat 64 N)
  have hk : ival k = N := by
    rw [k2]
    unfold primVal
    simp only [Bool.false_eq_true, if_false, BitVec.toNat_ofNat]
    rw [Nat.mod_eq_of_lt hN]
  have hn : k.neg = false := by
    have := k1.neg_iff
    cases h : k.neg with
    | false => rfl
    | true => have := this.mp h; omega
  obtain ⟨-, h2, -, -⟩ := C45_shift_exact_partial m a k ha k1.1
  obtain ⟨c, c1, c2, c3⟩ := h2 hn (by rw [hk]; exact_mod_cast hN)
  refine ⟨c, ?_, c2, ?_⟩
  · change opPrim m .shl a false 64 (BitVec.ofNat 64 N) = _
    rw [(k3 m .shl a).1]; exact c1
  · rw [c3, hk, Int.toNat_natCast]

/-- The numbers of fractional bits for which `floor` and `ceil` do not panic: below 64 in debug
builds; in release builds every `usize`, for numbers whose limbs fit in the address space. -/
def ShrOk (m : Mode) (N : Nat) (x : BInt) : Prop :=
  N < 64 ∨ m = .release ∧ N < 2 ^ 64 ∧ x.limbs.length ≤ 2 ^ 63

private theorem ShrOk.lt {m : Mode} {N : Nat} {x : BInt} (h : ShrOk m N x) : N < 2 ^ 64 := by
  rcases h with h | ⟨-, h, -⟩
  · omega
  · exact h

private theorem shr_usize (m : Mode) (a : BInt) (ha : Rep a) (N : Nat) (hN : ShrOk m N a) :
    ∃ c, (BInt.intOps m).shr a N = .ok c ∧ Canon c ∧ ival c = (ival a).tdiv (2 ^ N) := by
  obtain ⟨k, k1, k2, k3⟩ := C110_mixed_exact_partial false 64 (by norm_num) (BitVec.ofNat 64 N)
  have hk : ival k = N := by
    rw [k2]
    unfold primVal
    simp only [Bool.false_eq_true, if_false, BitVec.toNat_ofNat]
    rw [Nat.mod_eq_of_lt hN.lt]
  have hn : k.neg = false := by
    have := k1.neg_iff
    cases h : k.neg with
    | false => rfl
    | true => have := this.mp h; omega
  obtain ⟨-, -, h3, -, h5⟩ := C45_shift_exact_partial m a k ha k1.1
  have key : ∃ c, BInt.shr m a k = .ok c ∧ Canon c ∧
      (ival c).natAbs = (ival a).natAbs / 2 ^ (ival k).toNat ∧
      (ival c ≠ 0 → (ival c < 0 ↔ ival a < 0)) := by
    rcases hN with h | ⟨rfl, h, hl⟩
    · exact h3 hn (by rw [hk]; exact_mod_cast h)
    · exact h5 hn (by rw [hk]; exact_mod_cast h) hl
  obtain ⟨c, c1, c2, c3, c4⟩ := key
  refine ⟨c, ?_, c2, ?_⟩
  · change opPrim m .shr a false 64 (BitVec.ofNat 64 N) = _
    rw [(k3 m .shr a).1]; exact c1
  · rw [hk, Int.toNat_natCast] at c3
    have hd : ((ival a).tdiv (2 ^ N)).natAbs = (ival a).natAbs / 2 ^ N := by
      rw [Int.natAbs_tdiv, Int.natAbs_pow]; rfl
    rw [← hd] at c3
    rcases Int.natAbs_eq_natAbs_iff.mp c3 with h | h
    · exact h
    · by_cases h0 : ival c = 0
      · omega
      · have := c4 h0
        have hp : (0 : Int) < 2 ^ N := by positivity
        by_cases ha0 : ival a < 0
        · have h1 := this.mpr ha0
          have h2 : 0 ≤ (-ival a).tdiv (2 ^ N) := Int.tdiv_nonneg (by omega) hp.le
          rw [Int.neg_tdiv] at h2
          omega
        · have h1 : ¬ ival c < 0 := fun h => ha0 (this.mp h)
          have h2 : 0 ≤ (ival a).tdiv (2 ^ N) := Int.tdiv_nonneg (by omega) hp.le
          omega

private theorem canon_one : Canon BInt.one := by decide
private theorem ival_one : ival BInt.one = 1 := by decide

private theorem b_one (m : Mode) (N : Nat) (hN : N < 2 ^ 64) :
    ∃ c, FixedOf.one (BInt.intOps m) N = .ok c ∧ Canon c ∧ ival c = 2 ^ N := by
  obtain ⟨c, c1, c2, c3⟩ := shl_usize m BInt.one canon_one.1 N hN
  exact ⟨c, c1, c2, by rw [c3, ival_one, one_mul]⟩

private theorem b_floor (m : Mode) (N : Nat) (x : BInt) (hx : Rep x) (hN : ShrOk m N x) :
    ∃ c, FixedOf.floor (BInt.intOps m) N x = .ok c ∧ Canon c ∧ ival c = (ival x).tdiv (2 ^ N) * 2 ^ N := by
  obtain ⟨y, y1, y2, y3⟩ := shr_usize m x hx N hN
  obtain ⟨c, c1, c2, c3⟩ := shl_usize m y y2.1 N hN.lt
  refine ⟨c, ?_, c2, by rw [c3, y3]⟩
  unfold FixedOf.floor
  rw [y1]; exact c1

private theorem limbs_one {a : BInt} (ha : Rep a) (h : (ival a).natAbs < 2 ^ 64) : a.limbs.length = 1 :=
  length_one_of_lt ha.norm (by rwa [natAbs_ival] at h)

/-- How many bits the limbs have that `N` bits need: `N` rounded up to a multiple of 64, at least 64. -/
def wholeBits (N : Nat) : Nat := 64 * max 1 ((N + 63) / 64)

private theorem limbs_pow {a : BInt} (ha : Rep a) {N : Nat} (h : (ival a).natAbs = 2 ^ N - 1) :
    64 * a.limbs.length = wholeBits N := by
  have hn := ha.norm
  rw [natAbs_ival] at h
  have hpos := List.length_pos_iff.mpr hn.1
  have hlt := val_lt a.limbs
  have hup : N ≤ 64 * a.limbs.length := by
    by_contra hc
    have : 2 ^ (64 * a.limbs.length + 1) ≤ 2 ^ N := Nat.pow_le_pow_right (by norm_num) (by omega)
    rw [pow_succ] at this
    have := Nat.two_pow_pos (64 * a.limbs.length)
    rw [h, modulus] at hlt
    omega
  unfold wholeBits
  rcases hn.lower with h1 | h1
  · rw [h1] at hup ⊢
    omega
  · have hlo : 64 * (a.limbs.length - 1) < N := by
      by_contra hc
      have h2 : 2 ^ N ≤ 2 ^ (64 * (a.limbs.length - 1)) := Nat.pow_le_pow_right (by norm_num) (by omega)
      have := Nat.two_pow_pos N
      omega
    omega

private theorem b_whole (m : Mode) (N : Nat) (hN : N < 2 ^ 64) (x : BInt) (hx : Rep x) :
    FixedOf.isWhole (BInt.intOps m) N x =
      .ok (decide (Canon x ∧ (2 : Int) ^ N ∣ ival x ∧ (ival x).natAbs < 2 ^ wholeBits N)) := by
  obtain ⟨i, i1, i2, i3⟩ := b_one m N hN
  have hp : 1 ≤ 2 ^ N := Nat.one_le_two_pow
  have hpI : (1 : Int) ≤ 2 ^ N := by exact_mod_cast hp
  have hNW : N ≤ wholeBits N := by unfold wholeBits; omega
  have hp64 : 2 ^ N ≤ 2 ^ wholeBits N := Nat.pow_le_pow_right (by norm_num) hNW
  obtain ⟨k, k1, k2, k3, -⟩ := C43_sub_partial i BInt.one i2.1 canon_one.1
  have hkv : ival k = 2 ^ N - 1 := by
    rw [k3 (Or.inr (Or.inl ?_)), i3, ival_one]
    rw [i3, ival_one]
    simp only [Int.natAbs_one, Int.natAbs_pow]
    exact hp
  have hmask : FixedOf.mask (BInt.intOps m) N = .ok k := by
    unfold FixedOf.mask
    change (FixedOf.one (BInt.intOps m) N).bind (fun x => BInt.sub x BInt.one) = _
    rw [i1]; exact k1
  have hkn : (ival k).natAbs = 2 ^ N - 1 := by
    rw [hkv]
    have : ((2 ^ N - 1 : Nat) : Int) = 2 ^ N - 1 := by push_cast [hp]; ring
    rw [← this, Int.natAbs_natCast]
  obtain ⟨c, c1, c2, c3, c4, -⟩ := C97_not_partial k k2
  rw [limbs_pow k2.1 hkn, hkn] at c3
  have hcv : (ival c).natAbs = 2 ^ wholeBits N - 2 ^ N := by rw [c3]; omega
  obtain ⟨⟨y, y1, y2, y3⟩, -⟩ := C54_bit_ops_exact_partial x c hx
  rw [hcv, and_mid hNW] at y3
  have e1 : (BInt.intOps m).not k = .ok c := c1
  have e2 : (BInt.intOps m).and x c = .ok y := y1
  unfold FixedOf.isWhole
  rw [hmask]
  simp only [Res.bind, e1, e2]
  change Res.ok (BInt.eq y x) = _
  congr 1
  rw [Bool.eq_iff_iff, decide_eq_true_iff]
  by_cases hxc : Canon x
  case neg =>
    simp only [hxc, false_and, iff_false]
    intro h
    obtain ⟨h1, h2⟩ := (C46_eq_partial y x y2.1 hx).1.mp h
    refine hxc ⟨hx, fun h3 => ?_⟩
    rw [natAbs_ival, natAbs_ival] at h2
    rw [← h2]
    exact y2.2 (h1.trans h3)
  rw [(C46_eq_partial y x y2.1 hx).2 y2 hxc]
  simp only [hxc, true_and]
  have hneg := hxc.neg_iff
  have key : ival y = ival x ↔ (ival x).natAbs % 2 ^ wholeBits N / 2 ^ N * 2 ^ N = (ival x).natAbs := by
    rw [y3]
    by_cases hxn : ival x < 0
    · rw [if_pos (hneg.mpr hxn)]; omega
    · rw [if_neg (fun h => hxn (hneg.mp h))]; omega
  rw [key]
  have hdv : (2 : Int) ^ N ∣ ival x ↔ 2 ^ N ∣ (ival x).natAbs := by
    rw [← Int.natAbs_dvd_natAbs, Int.natAbs_pow]; rfl
  rw [hdv]
  constructor
  · intro h
    have h1 : (ival x).natAbs % 2 ^ wholeBits N < 2 ^ wholeBits N := Nat.mod_lt _ (Nat.two_pow_pos _)
    have h2 := Nat.div_mul_le_self ((ival x).natAbs % 2 ^ wholeBits N) (2 ^ N)
    exact ⟨⟨(ival x).natAbs % 2 ^ wholeBits N / 2 ^ N, by rw [mul_comm]; exact h.symm⟩, by omega⟩
  · rintro ⟨h1, h2⟩
    rw [Nat.mod_eq_of_lt h2, Nat.div_mul_cancel h1]

private theorem b_fract (m : Mode) (N : Nat) (hN : N < 64) (x : BInt) (hx : Rep x)
    (hl : 64 * x.limbs.length < 2 ^ 64) :
    ∃ f, FixedOf.fract (BInt.intOps m) N x = .ok f ∧ Canon f ∧ ival f = (ival x).tmod (2 ^ N) := by
  obtain ⟨i, i1, i2, i3⟩ := b_one m N (by omega)
  have hp : (0 : Int) < 2 ^ N := by positivity
  have hp64 : 2 ^ N ≤ 2 ^ 63 := Nat.pow_le_pow_right (by norm_num) (by omega)
  have hn : (ival i).natAbs = 2 ^ N := by rw [i3, Int.natAbs_pow]; rfl
  obtain ⟨q, f, -, h2, -, h4, -, -, h7, -⟩ := C44_div_rem_partial m x i hx i2.1 (by rw [i3]; exact hp.ne')
    (by omega) (Or.inr (by omega)) hl
  refine ⟨f, ?_, h4, by rw [(h7 (Or.inl (by rw [i3]; exact hp))).1, i3]⟩
  unfold FixedOf.fract
  rw [i1]; exact h2

private theorem add_right {a b : BInt} (ha : Canon a) (hb : Canon b)
    (h : (ival b).natAbs ≤ (ival a).natAbs ∨ (0 ≤ ival a ∧ 0 ≤ ival b)) :
    ∃ c, BInt.add a b = .ok c ∧ Canon c ∧ ival c = ival a + ival b := by
  obtain ⟨c, c1, c2, c3, c4⟩ := C43_add_partial a b ha.1 hb.1
  refine ⟨c, c1, c2, ?_⟩
  have na := ha.neg_iff
  have nb := hb.neg_iff
  by_cases he : a.neg = b.neg
  · exact c3 (Or.inl he)
  · rcases h with h | h
    · exact c3 (Or.inr (Or.inl h))
    · exfalso
      apply he
      rw [Bool.eq_iff_iff, na, nb]
      omega

/-- C143 for the constant one and whole numbers, for every number of fractional bits. -/
theorem C143_one (m : Mode) (N : Nat) (hN : N < 2 ^ 64) (v : BInt) (hv : Rep v) :
    (∃ r, FixedOf.one (BInt.intOps m) N = .ok r ∧ Canon r ∧ fval N (ival r) = 1) ∧
    (∃ r, FixedOf.fromVal (BInt.intOps m) N v = .ok r ∧ Canon r ∧ fval N (ival r) = ival v) := by
  constructor
  · obtain ⟨r, r1, r2, r3⟩ := b_one m N hN
    refine ⟨r, r1, r2, ?_⟩
    have := fval_scaled (N := N) 1
    rw [one_mul] at this
    rw [r3, this]; norm_num
  · obtain ⟨r, r1, r2, r3⟩ := shl_usize m v hv N hN
    exact ⟨r, r1, r2, by rw [r3, fval_scaled]⟩

example := C143_one .debug 100 (by decide) ⟨true, .inline 5⟩ (by decide)

/-- C143 for `floor`, with fewer than 64 fractional bits, and in release builds with any number of them:
rounds toward zero, so it is the floor for numbers that are not negative. Missing, because false:
negative numbers that are not whole, and debug builds with more fractional bits
(`C143_wide_violated`). -/
theorem C143_floor_partial (m : Mode) (N : Nat) (x : BInt) (hx : Rep x) (hN : ShrOk m N x) :
    ∃ r, FixedOf.floor (BInt.intOps m) N x = .ok r ∧ Canon r ∧
      fval N (ival r) = truncQ (fval N (ival x)) ∧
      (0 ≤ ival x → fval N (ival r) = ⌊fval N (ival x)⌋) := by
  obtain ⟨r, r1, r2, r3⟩ := b_floor m N x hx hN
  have h : fval N (ival r) = truncQ (fval N (ival x)) := by rw [r3, fval_scaled, trunc_fval]
  refine ⟨r, r1, r2, h, fun h0 => ?_⟩
  rw [h, truncQ, if_pos ((fval_nonneg _).mpr h0)]

/-- C143 is violated by `floor`: -1.5 becomes -1. -/
theorem C143_floor_violated :
    FixedOf.floor (BInt.intOps .debug) 1 ⟨true, .inline 3⟩ = .ok ⟨true, .inline 2⟩ ∧
    ⌊fval 1 (ival ⟨true, .inline 3⟩)⌋ = -2 ∧ fval 1 (ival ⟨true, .inline 2⟩) = -1 := by
  refine ⟨by decide +kernel, ?_, ?_⟩
  · rw [floor_fval]; decide
  · have : ival ⟨true, .inline 2⟩ = -2 := by decide
    rw [this]; unfold fval; norm_num

/-- C143 is violated with 64 or more fractional bits: in debug builds `floor` panics for every number. -/
theorem C143_wide_violated (N : Nat) (hN : 64 ≤ N) (hN' : N < 2 ^ 64) (x : BInt) (hx : Rep x) :
    FixedOf.floor (BInt.intOps .debug) N x = .panic := by
  obtain ⟨k, k1, k2, k3⟩ := C110_mixed_exact_partial false 64 (by norm_num) (BitVec.ofNat 64 N)
  have hk : ival k = N := by
    rw [k2]
    unfold primVal
    simp only [Bool.false_eq_true, if_false, BitVec.toNat_ofNat]
    rw [Nat.mod_eq_of_lt hN']
  obtain ⟨-, -, -, h4, -⟩ := C45_shift_exact_partial .debug x k hx k1.1
  have : (BInt.intOps .debug).shr x N = .panic := by
    change opPrim .debug .shr x false 64 (BitVec.ofNat 64 N) = _
    rw [(k3 .debug .shr x).1]
    exact h4 (by rw [hk]; exact_mod_cast hN)
  unfold FixedOf.floor
  rw [this]; rfl

/-- C143 for `trunc` and `fract`, with fewer than 64 fractional bits and for numbers of fewer than `2^64`
bits: `trunc` drops the fraction and `fract` is what it drops. Missing, because false: more fractional bits
(`C143_fract_violated`). -/
theorem C143_trunc_fract_partial (m : Mode) (N : Nat) (hN : N < 64) (x : BInt) (hx : Rep x)
    (hl : 64 * x.limbs.length < 2 ^ 64) :
    ∃ t f, FixedOf.trunc (BInt.intOps m) N x = .ok t ∧ FixedOf.fract (BInt.intOps m) N x = .ok f ∧
      Canon t ∧ Canon f ∧ fval N (ival t) = truncQ (fval N (ival x)) ∧
      fval N (ival x) = fval N (ival t) + fval N (ival f) ∧ |fval N (ival f)| < 1 ∧
      0 ≤ fval N (ival f) * fval N (ival x) := by
  obtain ⟨f, f1, f2, f3⟩ := b_fract m N hN x hx hl
  have hp : (0 : Int) < 2 ^ N := by positivity
  obtain ⟨t, t1, t2, t3, -⟩ := C43_sub_partial x f hx f2.1
  have htv : ival t = ival x - ival f := by
    apply t3
    right; left
    rw [f3, Int.natAbs_tmod]
    exact Nat.mod_le _ _
  have hdm := Int.mul_tdiv_add_tmod (ival x) (2 ^ N)
  refine ⟨t, f, ?_, f1, t2, f2, ?_, ?_, ?_, ?_⟩
  · unfold FixedOf.trunc
    rw [f1]; exact t1
  · have : ival t = (ival x).tdiv (2 ^ N) * 2 ^ N := by rw [htv, f3]; linarith
    rw [this, fval_scaled, trunc_fval]
  · rw [← fval_add, htv]; congr 1; ring
  · rw [f3]
    unfold fval
    rw [abs_div, abs_of_pos (Fixed.two_pow_pos N), div_lt_one (Fixed.two_pow_pos N)]
    have : |(ival x).tmod (2 ^ N)| < 2 ^ N := by
      rw [Int.abs_eq_natAbs, Int.natAbs_tmod]
      have h := Nat.mod_lt (ival x).natAbs (show 0 < (2 ^ N : Int).natAbs by omega)
      omega
    exact_mod_cast this
  · rw [f3]
    rcases Int.le_total 0 (ival x) with h | h
    · have h1 := Int.tmod_nonneg (2 ^ N) h
      exact mul_nonneg ((Fixed.fval_nonneg _).mpr h1) ((Fixed.fval_nonneg _).mpr h)
    · have h' := Int.tmod_nonneg (2 ^ N) (show 0 ≤ -ival x by omega)
      rw [Int.neg_tmod] at h'
      have h1 := (Fixed.fval_nonneg (N := N) _).mpr h'
      have h2 := (Fixed.fval_nonneg (N := N) _).mpr (show 0 ≤ -ival x by omega)
      rw [Fixed.fval_neg] at h1 h2
      nlinarith

/-- C143 is violated by `fract` and `trunc` with 64 fractional bits, in both build modes: the fraction of
1.5 comes out as 2.5, and 1.5 without its fraction as a negative number. -/
theorem C143_fract_violated (m : Mode) :
    FixedOf.fract (BInt.intOps m) 64 ⟨false, .slice [2 ^ 63, 1]⟩ = .ok ⟨false, .slice [2 ^ 63, 2]⟩ ∧
    (∃ r, FixedOf.trunc (BInt.intOps m) 64 ⟨false, .slice [2 ^ 63, 1]⟩ = .ok r ∧ ival r < 0) := by
  cases m <;> exact ⟨by decide +kernel, ⟨true, .slice [-2]⟩, by decide +kernel, by decide +kernel⟩

private theorem b_ceil (m : Mode) (N : Nat) (x : BInt) (hx : Rep x) (hN : ShrOk m N x) :
    ∃ r, FixedOf.ceil (BInt.intOps m) N x = .ok r ∧ Canon r ∧
      ival r = if Canon x ∧ (2 : Int) ^ N ∣ ival x ∧ (ival x).natAbs < 2 ^ wholeBits N then ival x
        else ((ival x).tdiv (2 ^ N) + 1) * 2 ^ N := by
  obtain ⟨f, f1, f2, f3⟩ := b_floor m N x hx hN
  obtain ⟨i, i1, i2, i3⟩ := b_one m N hN.lt
  have hp : (0 : Int) < 2 ^ N := by positivity
  unfold FixedOf.ceil
  rw [b_whole m N hN.lt x hx]
  simp only [Res.bind]
  by_cases h : Canon x ∧ (2 : Int) ^ N ∣ ival x ∧ (ival x).natAbs < 2 ^ wholeBits N
  · rw [if_pos h]
    simp only [h, and_self, decide_true, if_true]
    exact ⟨f, f1, f2, by rw [f3, Int.tdiv_mul_cancel h.2.1]⟩
  · rw [if_neg h]
    simp only [h, decide_false, Bool.false_eq_true, if_false, f1, i1]
    obtain ⟨c, c1, c2, c3⟩ := add_right f2 i2 (by
      rw [f3, i3]
      by_cases h0 : 0 ≤ (ival x).tdiv (2 ^ N)
      · right
        exact ⟨mul_nonneg h0 hp.le, hp.le⟩
      · left
        rw [Int.natAbs_mul]
        exact Nat.le_mul_of_pos_left _ (by omega))
    exact ⟨c, c1, c2, by rw [c3, f3, i3]; ring⟩

/-- C143 for `ceil`, exactly, with fewer than 64 fractional bits, and in release builds with any number of
them: whole numbers with raw values of no more limbs than the `N` fractional bits need stay, everything
else is truncated and one is added. So it is right for whole numbers below that limit and for positive
numbers that are not whole. Missing, because false: larger whole numbers, negative numbers that are not
whole, negative zero (which becomes one), and debug builds with more fractional bits
(`C143_wide_violated`). -/
theorem C143_ceil_exact_partial (m : Mode) (N : Nat) (x : BInt) (hx : Rep x) (hN : ShrOk m N x) :
    ∃ r, FixedOf.ceil (BInt.intOps m) N x = .ok r ∧ Canon r ∧
      (¬ Canon x → fval N (ival r) = 1) ∧ (Canon x →
      ((∃ n : Int, fval N (ival x) = n) → (ival x).natAbs < 2 ^ wholeBits N → fval N (ival r) = fval N (ival x)) ∧
      ((¬ ∃ n : Int, fval N (ival x) = n) ∨ 2 ^ wholeBits N ≤ (ival x).natAbs →
        fval N (ival r) = truncQ (fval N (ival x)) + 1) ∧
      (fval N (ival r) = ⌈fval N (ival x)⌉ ↔ (∃ n : Int, fval N (ival x) = n) ∧ (ival x).natAbs < 2 ^ wholeBits N ∨
        (¬ ∃ n : Int, fval N (ival x) = n) ∧ 0 < ival x)) := by
  obtain ⟨r, r1, r2, r3⟩ := b_ceil m N x hx hN
  refine ⟨r, r1, r2, fun hc => ?_, fun hc => ?_⟩
  · have h0 : ival x = 0 := by
      by_contra h
      refine hc ⟨hx, fun _ => ?_⟩
      rw [← natAbs_ival]
      omega
    rw [r3, if_neg (fun h => hc h.1), h0, Fixed.fval_scaled]
    simp
  simp only [hc, true_and] at r3
  have hp : (0 : Int) < 2 ^ N := by positivity
  have hw : (∃ n : Int, fval N (ival x) = n) ↔ (2 : Int) ^ N ∣ ival x := by
    constructor
    · rintro ⟨n, h⟩
      rw [← Fixed.fval_scaled (N := N) n, Fixed.fval_inj] at h
      exact ⟨n, by rw [h, mul_comm]⟩
    · rintro ⟨k, h⟩
      exact ⟨k, by rw [h, mul_comm, Fixed.fval_scaled]⟩
  have hr1 : (∃ n : Int, fval N (ival x) = n) → (ival x).natAbs < 2 ^ wholeBits N →
      fval N (ival r) = fval N (ival x) := fun h1 h2 => by rw [r3, if_pos ⟨hw.mp h1, h2⟩]
  have hr2 : (¬ ∃ n : Int, fval N (ival x) = n) ∨ 2 ^ wholeBits N ≤ (ival x).natAbs →
      fval N (ival r) = truncQ (fval N (ival x)) + 1 := by
    intro h
    rw [r3, if_neg, Fixed.fval_scaled, trunc_fval]
    · push_cast; rfl
    · rintro ⟨h1, h2⟩
      rcases h with h | h
      · exact h (hw.mpr h1)
      · omega
  refine ⟨hr1, hr2, ?_⟩
  by_cases h : ∃ n : Int, fval N (ival x) = n
  · by_cases h2 : (ival x).natAbs < 2 ^ wholeBits N
    · rw [hr1 h h2]
      simp only [h, h2, and_self, true_or, iff_true]
      obtain ⟨n, hn⟩ := h
      simp [hn]
    · rw [hr2 (Or.inr (by omega))]
      simp only [h, h2, and_false, not_true, false_and, or_false, iff_false]
      obtain ⟨n, hn⟩ := h
      have ht : truncQ (n : ℚ) = n := by unfold truncQ; simp
      rw [hn, ht, Int.ceil_intCast]
      linarith
  · rw [hr2 (Or.inl h)]
    simp only [h, false_and, not_false_iff, true_and, false_or]
    unfold truncQ
    by_cases h0 : 0 ≤ ival x
    · have hx0 : 0 < ival x := by
        rcases h0.eq_or_lt with h1 | h1
        · exact absurd ⟨0, by rw [← h1]; unfold fval; simp⟩ h
        · exact h1
      rw [if_pos ((fval_nonneg _).mpr h0)]
      simp only [hx0, iff_true]
      have hne : (⌊fval N (ival x)⌋ : ℚ) ≠ fval N (ival x) := fun hc => h ⟨_, hc.symm⟩
      have h1 : ⌈fval N (ival x)⌉ = ⌊fval N (ival x)⌋ + 1 := by
        rw [Int.ceil_eq_iff]
        have h2 := Int.floor_le (fval N (ival x))
        have h3 := Int.lt_floor_add_one (fval N (ival x))
        push_cast
        refine ⟨?_, h3.le⟩
        have := lt_of_le_of_ne h2 hne
        linarith
      rw [h1]; push_cast; rfl
    · rw [if_neg (fun hc => h0 ((fval_nonneg _).mp hc))]
      have : ¬ 0 < ival x := by omega
      simp only [this, iff_false]
      linarith

example : ShrOk .release 70 ⟨false, .slice [0, 65]⟩ ∧ wholeBits 70 = 128 ∧
    FixedOf.floor (BInt.intOps .release) 70 ⟨false, .slice [0, 65]⟩ = .ok ⟨false, .slice [0, 64]⟩ ∧
    FixedOf.ceil (BInt.intOps .release) 70 ⟨false, .slice [0, 65]⟩ = .ok ⟨false, .slice [0, 128]⟩ ∧
    FixedOf.ceil (BInt.intOps .release) 70 ⟨false, .slice [0, 64]⟩ = .ok ⟨false, .slice [0, 64]⟩ ∧
    FixedOf.ceil (BInt.intOps .release) 70 ⟨false, .slice [0, 0, 1]⟩ = .ok ⟨false, .slice [0, 64, 1]⟩ := by
  refine ⟨Or.inr ⟨rfl, by norm_num, by decide⟩, by decide, ?_⟩
  decide +kernel

/-- C143 is violated by `ceil`: with two fractional bits, the whole number `2^62` (raw value `2^64`)
becomes `2^62 + 1`, -1.5 becomes 0, and negative zero becomes 1. -/
theorem C143_ceil_violated :
    FixedOf.ceil (BInt.intOps .debug) 2 ⟨false, .slice [0, 1]⟩ = .ok ⟨false, .slice [4, 1]⟩ ∧
    FixedOf.ceil (BInt.intOps .debug) 1 ⟨true, .inline 3⟩ = .ok BInt.zero ∧
    FixedOf.ceil (BInt.intOps .debug) 1 ⟨true, .inline 0⟩ = .ok ⟨false, .inline 2⟩ := by decide +kernel

private theorem canon_zero : Canon BInt.zero := by decide
private theorem ival_zero : ival BInt.zero = 0 := by decide

/-- C143 for `round`, exactly, with at most 62 fractional bits: whole numbers stay, everything else is
rounded like `ceil`. Missing, because false: numbers with a fraction below one half and
negative ones. -/
theorem C143_round_exact_partial (m : Mode) (N : Nat) (hN : N ≤ 62) (x : BInt) (hx : Rep x)
    (hl : 64 * x.limbs.length < 2 ^ 64) :
    ∃ r, FixedOf.round (BInt.intOps m) N x = .ok r ∧ Canon r ∧
      ((∃ n : Int, fval N (ival x) = n) → fval N (ival r) = fval N (ival x)) ∧
      ((¬ ∃ n : Int, fval N (ival x) = n) → FixedOf.ceil (BInt.intOps m) N x = .ok r ∧
        fval N (ival r) = truncQ (fval N (ival x)) + 1) := by
  have hp : (0 : Int) < 2 ^ N := by positivity
  have hw : (∃ n : Int, fval N (ival x) = n) ↔ (2 : Int) ^ N ∣ ival x := by
    constructor
    · rintro ⟨n, h⟩
      rw [← Fixed.fval_scaled (N := N) n, Fixed.fval_inj] at h
      exact ⟨n, by rw [h, mul_comm]⟩
    · rintro ⟨k, h⟩
      exact ⟨k, by rw [h, mul_comm, Fixed.fval_scaled]⟩
  obtain ⟨i, i1, i2, i3⟩ := b_one m N (by omega)
  obtain ⟨two, t1, t2, t3⟩ := add_right i2 i2 (Or.inl le_rfl)
  have ht : FixedOf.add (BInt.intOps m) i i = .ok two := t1
  have hp62 : 2 ^ N ≤ 2 ^ 62 := Nat.pow_le_pow_right (by norm_num) hN
  have hin : (ival i).natAbs = 2 ^ N := by rw [i3, Int.natAbs_pow]; rfl
  have hpn : 0 < 2 ^ N := Nat.two_pow_pos N
  have h2v : (ival two).natAbs = 2 * 2 ^ N := by rw [t3, i3]; omega
  have hil : i.limbs.length = 1 := limbs_one i2.1 (by omega)
  obtain ⟨half, rm, d1, -, d3, -, d5, -⟩ := C44_div_rem_partial m i two i2.1 t2.1 (by omega) (by omega)
    (Or.inr (by omega)) (by rw [hil]; norm_num)
  have hd : FixedOf.div (BInt.intOps m) i two = .ok half := d1
  have hh : ival half = 0 := by
    rw [d5, t3, i3]
    exact Int.tdiv_eq_zero_of_lt hp.le (by omega)
  obtain ⟨f, f1, f2, f3⟩ := b_fract m N (by omega) x hx hl
  have hc0 : ∀ y : BInt, Canon y → BInt.cmp y BInt.zero = compare (ival y) 0 := by
    intro y hy
    rw [C47_cmp_partial y BInt.zero hy canon_zero (by rw [ival_zero]; norm_num), ival_zero]
  have hc1 : ∀ y : BInt, Canon y → BInt.cmp y half = compare (ival y) 0 := by
    intro y hy
    rw [C47_cmp_partial y half hy d3 (by rw [hh]; norm_num), hh]
  -- the number compared with one half
  obtain ⟨g, g1, g2, g3⟩ : ∃ g, (if BInt.cmp f BInt.zero ≠ .lt then Res.ok f else BInt.sub i f) = .ok g ∧
      Canon g ∧ (0 < ival g ↔ ival f ≠ 0) := by
    rw [hc0 f f2]
    by_cases h : ival f < 0
    · rw [if_neg (by rw [Ne, compare_lt_iff_lt]; exact fun hc => hc h)]
      obtain ⟨g, g1, g2, g3, -⟩ := C43_sub_partial i f i2.1 f2.1
      refine ⟨g, g1, g2, ?_⟩
      rw [g3 (Or.inl ?_), i3]
      · constructor <;> intro <;> omega
      · have na := i2.neg_iff
        have nb := f2.neg_iff
        rw [Ne, Bool.eq_iff_iff, na, nb, i3]
        omega
    · rw [if_pos (by rw [Ne, compare_lt_iff_lt]; exact h)]
      exact ⟨f, rfl, f2, by constructor <;> intro <;> omega⟩
  have hz : ival f ≠ 0 ↔ ¬ (2 : Int) ^ N ∣ ival x := by
    rw [f3, Ne, Int.dvd_iff_tmod_eq_zero]
  have hround : FixedOf.round (BInt.intOps m) N x = if BInt.cmp g half = .gt then
      FixedOf.ceil (BInt.intOps m) N x else FixedOf.floor (BInt.intOps m) N x := by
    unfold FixedOf.round
    rw [i1]
    simp only [Res.bind, ht, hd, f1]
    have e0 : ∀ y z, FixedOf.cmp (BInt.intOps m) y z = .ok (BInt.cmp y z) := fun _ _ => rfl
    have e1 : FixedOf.zero (BInt.intOps m) = BInt.zero := rfl
    have e2 : FixedOf.sub (BInt.intOps m) i f = BInt.sub i f := rfl
    simp only [e0, e1, e2, g1]
  rw [hround, hc1 g g2]
  by_cases hdv : (2 : Int) ^ N ∣ ival x
  · rw [if_neg (by rw [compare_gt_iff_gt]; exact fun h => hz.mp (g3.mp h) hdv)]
    obtain ⟨r, r1, r2, r3⟩ := b_floor m N x hx (Or.inl (by omega))
    refine ⟨r, r1, r2, fun _ => ?_, fun h => absurd (hw.mpr hdv) h⟩
    rw [r3, Int.tdiv_mul_cancel hdv]
  · rw [if_pos (by rw [compare_gt_iff_gt]; exact g3.mpr (hz.mpr hdv))]
    obtain ⟨r, r1, r2, r3⟩ := b_ceil m N x hx (Or.inl (by omega))
    refine ⟨r, r1, r2, fun h => absurd (hw.mp h) hdv, fun _ => ⟨r1, ?_⟩⟩
    rw [r3, if_neg (fun h => hdv h.2.1), Fixed.fval_scaled, trunc_fval]
    push_cast; rfl

/-- C143 is violated by `round`: 1.25 becomes 2, -1.25 becomes 0, and with 63 fractional bits even 0
panics. -/
theorem C143_round_violated :
    FixedOf.round (BInt.intOps .debug) 2 ⟨false, .inline 5⟩ = .ok ⟨false, .inline 8⟩ ∧
    FixedOf.round (BInt.intOps .debug) 2 ⟨true, .inline 5⟩ = .ok BInt.zero ∧
    FixedOf.round (BInt.intOps .release) 63 BInt.zero = .panic := by decide +kernel

/-- C143 for sums and differences: exact if and only if the operand on the right is not larger in
magnitude, or the signs do not make it a subtraction, or the raw result is odd (C43); otherwise it is off by
two units of the last place. Missing, because false: those. -/
theorem C143_add_sub_partial (m : Mode) (N : Nat) (x y : BInt) (hx : Rep x) (hy : Rep y) :
    (∃ r, FixedOf.add (BInt.intOps m) x y = .ok r ∧ Canon r ∧
      (fval N (ival r) = fval N (ival x) + fval N (ival y) ↔
        x.neg = y.neg ∨ (ival y).natAbs ≤ (ival x).natAbs ∨ (ival x + ival y) % 2 ≠ 0) ∧
      |fval N (ival r) - (fval N (ival x) + fval N (ival y))| ≤ 2 / 2 ^ N) ∧
    (∃ r, FixedOf.sub (BInt.intOps m) x y = .ok r ∧ Canon r ∧
      (fval N (ival r) = fval N (ival x) - fval N (ival y) ↔
        x.neg ≠ y.neg ∨ (ival y).natAbs ≤ (ival x).natAbs ∨ (ival x - ival y) % 2 ≠ 0) ∧
      |fval N (ival r) - (fval N (ival x) - fval N (ival y))| ≤ 2 / 2 ^ N) := by
  have hbound : ∀ d : Int, |d| ≤ 2 → |fval N d| ≤ 2 / 2 ^ N := by
    intro d hd
    unfold fval
    rw [abs_div, abs_of_pos (Fixed.two_pow_pos N)]
    apply div_le_div_of_nonneg_right _ (Fixed.two_pow_pos N).le
    exact_mod_cast hd
  obtain ⟨c, c1, c2, c3, c4⟩ := C43_add_partial x y hx hy
  obtain ⟨d, d1, d2, d3, d4⟩ := C43_sub_partial x y hx hy
  refine ⟨⟨c, c1, c2, ⟨fun h => ?_, fun h => by rw [c3 h, fval_add]⟩, ?_⟩,
    ⟨d, d1, d2, ⟨fun h => ?_, fun h => by rw [d3 h, fval_sub]⟩, ?_⟩⟩
  · by_contra hn
    push Not at hn
    rw [c4 hn.1 hn.2.1 hn.2.2, ← fval_add, fval_inj] at h
    split at h <;> omega
  · rw [← fval_add, ← fval_sub]
    apply hbound
    by_cases h : x.neg = y.neg ∨ (ival y).natAbs ≤ (ival x).natAbs ∨ (ival x + ival y) % 2 ≠ 0
    · rw [c3 h]; simp
    · push Not at h
      rw [c4 h.1 h.2.1 h.2.2, add_sub_cancel_left]
      split <;> simp
  · by_contra hn
    push Not at hn
    rw [d4 hn.1 hn.2.1 hn.2.2, ← fval_sub, fval_inj] at h
    split at h <;> omega
  · rw [← fval_sub, ← fval_sub]
    apply hbound
    by_cases h : x.neg ≠ y.neg ∨ (ival y).natAbs ≤ (ival x).natAbs ∨ (ival x - ival y) % 2 ≠ 0
    · rw [d3 h]; simp
    · push Not at h
      rw [d4 h.1 h.2.1 h.2.2, add_sub_cancel_left]
      split <;> simp

/-- C143 is violated by sums: with two fractional bits, `0.25 - 0.75` is 0. -/
theorem C143_sub_violated :
    FixedOf.sub (BInt.intOps .debug) ⟨false, .inline 1⟩ ⟨false, .inline 3⟩ = .ok BInt.zero := by
  decide +kernel

-- 2^70 + 5 with three fractional bits
example : FixedOf.floor (BInt.intOps .debug) 3 ⟨false, .slice [5, 64]⟩ = .ok ⟨false, .slice [0, 64]⟩ ∧
    FixedOf.fract (BInt.intOps .debug) 3 ⟨false, .slice [5, 64]⟩ = .ok ⟨false, .inline 5⟩ ∧
    FixedOf.trunc (BInt.intOps .debug) 3 ⟨false, .slice [5, 64]⟩ = .ok ⟨false, .slice [0, 64]⟩ ∧
    FixedOf.ceil (BInt.intOps .debug) 3 ⟨false, .slice [5, 64]⟩ = .ok ⟨false, .slice [8, 64]⟩ ∧
    FixedOf.round (BInt.intOps .debug) 3 ⟨false, .slice [5, 64]⟩ = .ok ⟨false, .slice [8, 64]⟩ ∧
    FixedOf.fromVal (BInt.intOps .debug) 70 ⟨true, .inline 5⟩ = .ok ⟨true, .slice [0, 320]⟩ := by
  decide +kernel

/-! ### 63 fractional bits or more -/

private theorem limbs_two_pow {a : BInt} (ha : Rep a) {N : Nat} (h : ival a = 2 ^ N) :
    a.limbs.length = N / 64 + 1 := by
  have hv : val a.limbs = 2 ^ N := by
    rw [← natAbs_ival, h, Int.natAbs_pow]; rfl
  have hn := ha.norm
  have hpos := List.length_pos_iff.mpr hn.1
  have hlt := val_lt a.limbs
  rw [hv, modulus] at hlt
  have hup : N < 64 * a.limbs.length := (Nat.pow_lt_pow_iff_right (by norm_num)).mp hlt
  rcases hn.lower with h1 | h1
  · rw [h1] at hup ⊢
    omega
  · rw [hv] at h1
    have hlo : 64 * (a.limbs.length - 1) ≤ N := (Nat.pow_le_pow_iff_right (by norm_num)).mp h1
    omega

private theorem limbs_le_iff {a : BInt} (ha : Rep a) {k : Nat} (hk : 0 < k) :
    a.limbs.length ≤ k ↔ (ival a).natAbs < 2 ^ (64 * k) := by
  rw [natAbs_ival]
  constructor
  · intro h
    have hlt := val_lt a.limbs
    rw [modulus] at hlt
    exact lt_of_lt_of_le hlt (Nat.pow_le_pow_right (by norm_num) (Nat.mul_le_mul_left _ h))
  · intro h
    by_contra hc
    rcases ha.norm.lower with h1 | h1
    · omega
    · have := lt_of_le_of_lt h1 h
      have := (Nat.pow_lt_pow_iff_right (by norm_num : 1 < 2)).mp this
      omega

private theorem b_two (m : Mode) (N : Nat) {i : BInt} (hi : Canon i) (hiv : ival i = 2 ^ N) :
    ∃ c, FixedOf.add (BInt.intOps m) i i = .ok c ∧ Canon c ∧ ival c = 2 ^ (N + 1) := by
  obtain ⟨c, c1, c2, c3⟩ := add_right hi hi (Or.inl le_rfl)
  exact ⟨c, c1, c2, by rw [c3, hiv]; ring⟩

/-- C143, `fract` with 64 fractional bits or more: it panics for numbers with fewer limbs than the number
one has; for the others the magnitude of the result is right modulo the number one. -/
theorem C143_fract_wide_exact_partial (m : Mode) (N : Nat) (hN : 64 ≤ N) (hN' : N < 2 ^ 63) (x : BInt)
    (hx : Rep x) (hl : 64 * x.limbs.length < 2 ^ 64) :
    ((ival x).natAbs < 2 ^ (64 * (N / 64)) →
      FixedOf.fract (BInt.intOps m) N x = .panic ∧ FixedOf.trunc (BInt.intOps m) N x = .panic) ∧
    (2 ^ (64 * (N / 64)) ≤ (ival x).natAbs →
      ∃ f, FixedOf.fract (BInt.intOps m) N x = .ok f ∧ Canon f ∧
        (ival f).natAbs % 2 ^ N = (ival x).natAbs % 2 ^ N) := by
  obtain ⟨i, i1, i2, i3⟩ := b_one m N (by omega)
  have hil := limbs_two_pow i2.1 i3
  have hk : 0 < N / 64 := Nat.div_pos hN (by norm_num)
  have hfr : FixedOf.fract (BInt.intOps m) N x = BInt.rem m x i := by
    unfold FixedOf.fract
    rw [i1]; rfl
  constructor
  · intro h
    have h' : FixedOf.fract (BInt.intOps m) N x = .panic := by
      rw [hfr]
      have := (limbs_le_iff hx hk).mpr h
      exact (C44_div_longer_violated m x i hx i2.1 (by omega)).2
    refine ⟨h', ?_⟩
    unfold FixedOf.trunc
    rw [h']; rfl
  · intro h
    have hle : i.limbs.length ≤ x.limbs.length := by
      have := mt (limbs_le_iff hx hk).mp (by omega)
      omega
    obtain ⟨q, f, -, h2, -, h4, h5, -⟩ := C44_div_exact_partial m x i hx hle hl
    refine ⟨f, by rw [hfr]; exact h2, h4, ?_⟩
    have hNl : N ≤ 64 * x.limbs.length := by omega
    have hn : (ival i).natAbs = 2 ^ N := by rw [i3, Int.natAbs_pow]; rfl
    rw [hn] at h5
    rw [← h5, Nat.mod_mod_of_dvd _ (pow_dvd_pow 2 hNl), Nat.mul_add_mod_self_right]

/-- C143, `ceil` and `round` in debug builds with 64 fractional bits or more: they panic for every
number. -/
theorem C143_wide_debug_violated (N : Nat) (hN : 64 ≤ N) (hN' : N < 2 ^ 63) (x : BInt) (hx : Rep x)
    (hl : 64 * x.limbs.length < 2 ^ 64) :
    FixedOf.ceil (BInt.intOps .debug) N x = .panic ∧ FixedOf.round (BInt.intOps .debug) N x = .panic := by
  have hfl := C143_wide_violated N hN (by omega) x hx
  have hc : FixedOf.ceil (BInt.intOps .debug) N x = .panic := by
    unfold FixedOf.ceil
    rw [b_whole .debug N (by omega) x hx, hfl]
    simp only [Res.bind, ite_self]
  refine ⟨hc, ?_⟩
  obtain ⟨i, i1, i2, i3⟩ := b_one .debug N (by omega)
  obtain ⟨two, t1, t2, t3⟩ := b_two .debug N i2 i3
  have hil := limbs_two_pow i2.1 i3
  have htl := limbs_two_pow t2.1 t3
  unfold FixedOf.round
  rw [i1]
  simp only [Res.bind, t1]
  have hd : FixedOf.div (BInt.intOps .debug) i two = .panic ∨
      ∃ h, FixedOf.div (BInt.intOps .debug) i two = .ok h := by
    by_cases hlen : two.limbs.length ≤ i.limbs.length
    · obtain ⟨q, r, q1, -⟩ := C44_div_exact_partial .debug i two i2.1 hlen (by omega)
      exact Or.inr ⟨q, q1⟩
    · exact Or.inl (C44_div_longer_violated .debug i two i2.1 t2.1 (by omega)).1
  rcases hd with hd | ⟨half, hd⟩
  · rw [hd]
  · rw [hd]
    simp only []
    obtain ⟨f1, f2⟩ := C143_fract_wide_exact_partial .debug N hN hN' x hx hl
    by_cases hs : (ival x).natAbs < 2 ^ (64 * (N / 64))
    · rw [(f1 hs).1]
    · obtain ⟨f, f3, f4, -⟩ := f2 (by omega)
      rw [f3]
      simp only []
      obtain ⟨g, g1, -⟩ := C43_sub_partial i f i2.1 f4.1
      have hsub : FixedOf.sub (BInt.intOps .debug) i f = .ok g := g1
      have hcmp : ∀ a b, FixedOf.cmp (BInt.intOps .debug) a b = .ok (BInt.cmp a b) := fun _ _ => rfl
      by_cases hc0 : BInt.cmp f (FixedOf.zero (BInt.intOps .debug)) ≠ .lt
      · simp only [hcmp, hsub, hc, hfl, ite_self]
        rw [if_pos hc0]
      · simp only [hcmp, hsub, hc, hfl, ite_self]
        rw [if_neg hc0]

/-- C143, `round` with 63 fractional bits or more, in release builds (for debug builds see
`C143_wide_debug_violated`, except with 63): it panics for every number if the bit worth 2 is the lowest of
a limb, and for numbers with fewer limbs than the number one has; otherwise it is `floor` or `ceil`. -/
theorem C143_round_wide_exact_partial (N : Nat) (hN : 63 ≤ N) (hN' : N < 2 ^ 63) (x : BInt)
    (hx : Rep x) (hl : 64 * x.limbs.length < 2 ^ 64) :
    (N % 64 = 63 → ∀ m, FixedOf.round (BInt.intOps m) N x = .panic) ∧
    ((ival x).natAbs < 2 ^ (64 * (N / 64)) → FixedOf.round (BInt.intOps .release) N x = .panic) ∧
    (N % 64 ≠ 63 → 2 ^ (64 * (N / 64)) ≤ (ival x).natAbs →
      FixedOf.round (BInt.intOps .release) N x = FixedOf.floor (BInt.intOps .release) N x ∨
      FixedOf.round (BInt.intOps .release) N x = FixedOf.ceil (BInt.intOps .release) N x) := by
  have hfst : N % 64 = 63 → ∀ m, FixedOf.round (BInt.intOps m) N x = .panic := by
    intro h m
    obtain ⟨i, i1, i2, i3⟩ := b_one m N (by omega)
    obtain ⟨two, t1, t2, t3⟩ := b_two m N i2 i3
    have hil := limbs_two_pow i2.1 i3
    have htl := limbs_two_pow t2.1 t3
    have hd : FixedOf.div (BInt.intOps m) i two = .panic :=
      (C44_div_longer_violated m i two i2.1 t2.1 (by omega)).1
    unfold FixedOf.round
    rw [i1]
    simp only [Res.bind, t1, hd]
  refine ⟨hfst, ?_, ?_⟩
  all_goals
    by_cases h63 : N % 64 = 63
    · first
      | exact fun _ => hfst h63 _
      | exact fun h => absurd h63 h
    obtain ⟨i, i1, i2, i3⟩ := b_one .release N (by omega)
    obtain ⟨two, t1, t2, t3⟩ := b_two .release N i2 i3
    have hil := limbs_two_pow i2.1 i3
    have htl := limbs_two_pow t2.1 t3
    obtain ⟨half, -, d1, -⟩ := C44_div_exact_partial .release i two i2.1 (by omega) (by omega)
    have hd : FixedOf.div (BInt.intOps .release) i two = .ok half := d1
    obtain ⟨f1, f2⟩ := C143_fract_wide_exact_partial .release N (by omega) hN' x hx hl
    unfold FixedOf.round
    rw [i1]
    simp only [Res.bind, t1, hd]
  · intro hs
    rw [(f1 hs).1]
  · intro _ hs
    obtain ⟨f, f3, f4, -⟩ := f2 hs
    rw [f3]
    simp only []
    obtain ⟨g, g1, -⟩ := C43_sub_partial i f i2.1 f4.1
    have hsub : FixedOf.sub (BInt.intOps .release) i f = .ok g := g1
    have hcmp : ∀ a b, FixedOf.cmp (BInt.intOps .release) a b = .ok (BInt.cmp a b) := fun _ _ => rfl
    simp only [hcmp, hsub]
    by_cases hc : BInt.cmp f (FixedOf.zero (BInt.intOps .release)) ≠ .lt
    · rw [if_pos hc]
      simp only []
      split
      · exact Or.inr rfl
      · exact Or.inl rfl
    · rw [if_neg hc]
      simp only []
      split
      · exact Or.inr rfl
      · exact Or.inl rfl

-- with 64 fractional bits in release builds: 1/2 panics, 1.75 becomes 1
example : FixedOf.round (BInt.intOps .release) 64 ⟨false, .slice [2 ^ 63]⟩ = .panic ∧
    FixedOf.round (BInt.intOps .release) 64 ⟨false, .slice [3 * 2 ^ 62, 1]⟩ = .ok ⟨false, .slice [0, 1]⟩ ∧
    FixedOf.round (BInt.intOps .debug) 63 ⟨false, .inline 5⟩ = .panic := by decide +kernel

/-- C143, `fract` exactly with 64 fractional bits or more, if it does not panic: its magnitude is the
remainder that shift-and-subtract division by the number one leaves, every comparison being made lowest
limb first, in as many limbs as the number has; it has the sign of the number. Missing, because false: that it
is the fractional part. -/
theorem C143_fract_bits_partial (m : Mode) (N : Nat) (hN' : N < 2 ^ 63) (x : BInt)
    (hx : Rep x) (hl : 64 * x.limbs.length < 2 ^ 64) (hs : 2 ^ (64 * (N / 64)) ≤ (ival x).natAbs) :
    ∃ f q, FixedOf.fract (BInt.intOps m) N x = .ok f ∧ Canon f ∧ 0 ≤ ival f * ival x ∧
      LowQuot 64 (64 * x.limbs.length) (ival x).natAbs (2 ^ N) q (ival f).natAbs := by
  obtain ⟨i, i1, i2, i3⟩ := b_one m N (by omega)
  have hil := limbs_two_pow i2.1 i3
  have hfr : FixedOf.fract (BInt.intOps m) N x = BInt.rem m x i := by
    unfold FixedOf.fract
    rw [i1]; rfl
  have hle : i.limbs.length ≤ x.limbs.length := by
    have hpos := List.length_pos_iff.mpr hx.norm.1
    by_cases hk : 0 < N / 64
    · have := mt (limbs_le_iff hx hk).mp (by omega)
      omega
    · omega
  obtain ⟨q, f, -, h2, -, h4, -, -, -, h8, h9⟩ := C44_div_exact_partial m x i hx hle hl
  obtain ⟨q', f', -, h2', h3⟩ := C44_div_bits_partial m x i hx hle hl
  rw [h2] at h2'
  cases h2'
  have hn : (ival i).natAbs = 2 ^ N := by rw [i3, Int.natAbs_pow]; rfl
  rw [hn] at h3
  refine ⟨f, _, by rw [hfr]; exact h2, h4, ?_, h3⟩
  have hi0 : i.neg = false := by
    rw [← Bool.not_eq_true, i2.neg_iff, i3]
    have : (0 : Int) < 2 ^ N := by positivity
    omega
  rw [hi0] at h8 h9
  cases hxn : x.neg with
  | false =>
    have h0 : 0 ≤ ival x := by unfold ival; rw [hxn]; simp
    exact mul_nonneg (h8 hxn).2 h0
  | true =>
    have h0 : ival x ≤ 0 := by unfold ival; rw [hxn]; simp
    exact mul_nonneg_of_nonpos_of_nonpos (h9 (by rw [hxn]; simp)).2 h0

/-- Comparison of numbers that are not negative: by the number of limbs, then lowest limb first. -/
private theorem cmp_gt_iff {a b : BInt} (ha : Canon a) (hb : Canon b) (h0 : 0 ≤ ival a) (h1 : 0 ≤ ival b) :
    BInt.cmp a b = .gt ↔ b.limbs.length < a.limbs.length ∨
      (a.limbs.length = b.limbs.length ∧ ¬ LowGe 64 (ival b).natAbs (ival a).natAbs) := by
  have na : a.neg = false := by rw [← Bool.not_eq_true, ha.neg_iff]; omega
  have nb : b.neg = false := by rw [← Bool.not_eq_true, hb.neg_iff]; omega
  rw [natAbs_ival, natAbs_ival]
  by_cases hab : a = b
  · subst hab
    have : LowGe 64 (val a.limbs) (val a.limbs) := .inl rfl
    simp [cmp_eq_self, this]
  · unfold BInt.cmp
    rw [if_neg hab]
    simp only [isNegative, isPositive, na, nb]
    by_cases hl : a.limbs.length = b.limbs.length
    · rw [if_neg (by simp), if_neg (by simp), if_neg (by simp), if_neg (by simpa using hl),
        zipCmp_elementCmp _ _ hl, ← isGe_iff b.limbs a.limbs, elementCmp_bigEnd _ _ hl,
        elementCmp_bigEnd _ _ hl.symm, ← Nat.compare_swap (bigEnd a.limbs)]
      cases compare (bigEnd a.limbs) (bigEnd b.limbs) <;> simp [isGe, hl]
    · rw [if_neg (by simp), if_neg (by simp), if_neg (by simp), if_pos (by simpa using hl),
        Nat.compare_eq_gt]
      simp [hl]

/-- The "half" that `round` computes, with 64 or more fractional bits. -/
private theorem b_half (m : Mode) (N : Nat) (hN : 64 ≤ N) (hN' : N < 2 ^ 63) (h63 : N % 64 ≠ 63) {i two : BInt}
    (hi : Canon i) (ht : Canon two) (hiv : ival i = 2 ^ N) (htv : ival two = 2 ^ (N + 1)) :
    ∃ h, FixedOf.div (BInt.intOps m) i two = .ok h ∧ Canon h ∧ ival h = halfQuot 64 N := by
  have hil := limbs_two_pow hi.1 hiv
  have htl := limbs_two_pow ht.1 htv
  have hiw : val i.limbs = 2 ^ N := by rw [← natAbs_ival, hiv, Int.natAbs_pow]; rfl
  have htw : val two.limbs = 2 ^ (N + 1) := by rw [← natAbs_ival, htv, Int.natAbs_pow]; rfl
  have ni : i.neg = false := by
    rw [← Bool.not_eq_true, hi.neg_iff, hiv]
    have : (0 : Int) < 2 ^ N := by positivity
    omega
  have nt : two.neg = false := by
    rw [← Bool.not_eq_true, ht.neg_iff, htv]
    have : (0 : Int) < 2 ^ (N + 1) := by positivity
    omega
  have hW : N + 1 < 64 * i.limbs.length := by omega
  obtain ⟨q, r, b0, b1, -, b3, b4⟩ := bitwiseDivLong_exact m (by norm_num : 0 < 64) i.limbs two.limbs
    (by omega) (by omega) (by omega) (fun k q r =>
      (q * 2 ^ (N + 1) + r) % 2 ^ (64 * i.limbs.length) = 2 ^ N / 2 ^ k % 2 ^ (64 * i.limbs.length) ∧
        q = halfQuot 64 N / 2 ^ k) (by
      have h1 : 2 ^ N / 2 ^ (64 * i.limbs.length) = 0 :=
        Nat.div_eq_of_lt (Nat.pow_lt_pow_right (by norm_num) (by omega))
      have h2 : halfQuot 64 N / 2 ^ (64 * i.limbs.length) = 0 := by
        apply Nat.div_eq_of_lt
        unfold halfQuot
        exact lt_of_le_of_lt (Nat.sub_le _ _) (Nat.pow_lt_pow_right (by norm_num) hW)
      simp [h1, h2]) (by
      rw [hiw, htw]
      exact divStep_half (by norm_num) (by omega) hW ⟨_, rfl⟩)
  rw [Nat.pow_zero, Nat.div_one] at b4
  have hq : q ≠ [] := by rintro rfl; simp at b1; omega
  obtain ⟨c, c1, c2, c3, c4⟩ := finish_spec (divRaw m i two) q (i.isNegative != two.isNegative)
    (by unfold divRaw; rw [b0]; rfl) hq
  refine ⟨c, c1, c2, ?_⟩
  rw [c4]
  unfold isNegative
  rw [ni, nt, b4]
  rfl

/-- C143, `round` exactly with 64 fractional bits or more, in release builds, if it does not panic: what
`fract` gives, subtracted from the number one if it is negative, is compared with the number with all bits
set up to the one worth 1 (if the bit worth 2 is the top bit of its limb: with all those from the 64th on set),
first by the number of limbs and then lowest limb first; if it is greater, `round` is `ceil`, otherwise `floor`.
Missing, because false: that it rounds to the nearest. -/
theorem C143_round_bits_partial (N : Nat) (hN : 64 ≤ N) (hN' : N < 2 ^ 63) (h63 : N % 64 ≠ 63) (x : BInt)
    (hx : Rep x) (hl : 64 * x.limbs.length < 2 ^ 64) (hs : 2 ^ (64 * (N / 64)) ≤ (ival x).natAbs) :
    ∃ f, FixedOf.fract (BInt.intOps .release) N x = .ok f ∧
      let g := if 0 ≤ ival f then (ival f).natAbs else 2 ^ N + (ival f).natAbs
      let half := 2 ^ (N + 1) - if N % 64 = 62 then 2 ^ 63 else 1
      let greater := 2 ^ (64 * (N / 64 + 1)) ≤ g ∨ 2 ^ (64 * (N / 64)) ≤ g ∧ ¬ LowGe 64 half g
      (greater → FixedOf.round (BInt.intOps .release) N x = FixedOf.ceil (BInt.intOps .release) N x) ∧
      (¬ greater → FixedOf.round (BInt.intOps .release) N x = FixedOf.floor (BInt.intOps .release) N x) := by
  obtain ⟨i, i1, i2, i3⟩ := b_one .release N (by omega)
  obtain ⟨two, t1, t2, t3⟩ := b_two .release N i2 i3
  obtain ⟨half, d1, d2, d3⟩ := b_half .release N hN hN' h63 i2 t2 i3 t3
  obtain ⟨f, f3, f4, -⟩ := (C143_fract_wide_exact_partial .release N hN hN' x hx hl).2 hs
  refine ⟨f, f3, ?_⟩
  intro g H greater
  have hk : 0 < N / 64 := Nat.div_pos hN (by norm_num)
  have hH : (ival half).natAbs = H := by
    rw [d3, Int.natAbs_natCast]
    unfold halfQuot
    by_cases h6 : N % 64 = 62
    · rw [if_pos (by omega)]; simp only [H, if_pos h6]
    · rw [if_neg (by omega)]; simp only [H, if_neg h6, Nat.pow_zero]
  have hh0 : 0 ≤ ival half := by rw [d3]; exact Int.natCast_nonneg _
  clear d3
  have hp2 : 2 ^ (N + 1) = 2 * 2 ^ N := by rw [Nat.pow_succ, Nat.mul_comm]
  have hNN : 2 ^ (64 * (N / 64)) ≤ 2 ^ N := Nat.pow_le_pow_right (by norm_num) (by omega)
  have h64 : 2 ^ 63 ≤ 2 ^ N := Nat.pow_le_pow_right (by norm_num) (by omega)
  have hN2 : 2 ^ (N + 1) ≤ 2 ^ (64 * (N / 64 + 1)) := Nat.pow_le_pow_right (by norm_num) (by omega)
  have hpN : 0 < 2 ^ N := Nat.two_pow_pos N
  have hHd : H = 2 ^ (N + 1) - (if N % 64 = 62 then 2 ^ 63 else 1) := rfl
  have hgd : (0 ≤ ival f → g = (ival f).natAbs) ∧ (¬ 0 ≤ ival f → g = 2 ^ N + (ival f).natAbs) :=
    ⟨fun h => if_pos h, fun h => if_neg h⟩
  have hgr : greater ↔ 2 ^ (64 * (N / 64 + 1)) ≤ g ∨ 2 ^ (64 * (N / 64)) ≤ g ∧ ¬ LowGe 64 H g := Iff.rfl
  clear_value greater H g
  have hcut : 0 < (if N % 64 = 62 then 2 ^ 63 else 1) ∧ (if N % 64 = 62 then 2 ^ 63 else 1) ≤ 2 ^ N := by
    split
    · exact ⟨Nat.two_pow_pos _, h64⟩
    · exact ⟨Nat.one_pos, hpN⟩
  have hHlo : 2 ^ N ≤ H := by
    rw [hHd, hp2]
    exact Nat.le_sub_of_add_le (by linarith [hcut.2])
  have hHhi : H < 2 ^ (64 * (N / 64 + 1)) := by
    rw [hHd]
    exact lt_of_lt_of_le (Nat.sub_lt (Nat.two_pow_pos _) hcut.1) hN2
  clear hHd hcut
  have hhl : half.limbs.length = N / 64 + 1 := by
    have h1 := (limbs_le_iff d2.1 (k := N / 64 + 1) (by omega)).mpr (by rw [hH]; exact hHhi)
    have h2 := mt (limbs_le_iff d2.1 hk).mp (by rw [hH]; omega)
    omega
  have key : ∀ c : BInt, Canon c → 0 ≤ ival c → (ival c).natAbs = g → (BInt.cmp c half = .gt ↔ greater) := by
    intro c c1 c2 c3
    rw [cmp_gt_iff c1 d2 c2 hh0, hH, c3, hhl]
    have e1 := limbs_le_iff c1.1 (k := N / 64 + 1) (by omega)
    have e2 := limbs_le_iff c1.1 hk
    rw [c3] at e1 e2
    have e3 : N / 64 + 1 < c.limbs.length ↔ 2 ^ (64 * (N / 64 + 1)) ≤ g := by
      rw [← not_le, e1, not_lt]
    have e4 : ¬ c.limbs.length ≤ N / 64 ↔ 2 ^ (64 * (N / 64)) ≤ g := by rw [e2, not_lt]
    rw [hgr, ← e3, ← e4]
    constructor
    · rintro (h | ⟨h, h'⟩)
      · exact .inl h
      · exact .inr ⟨by omega, h'⟩
    · rintro (h | ⟨h, h'⟩)
      · exact .inl h
      · by_cases hlt : N / 64 + 1 < c.limbs.length
        · exact .inl hlt
        · exact .inr ⟨by omega, h'⟩
  have hz : BInt.cmp f (FixedOf.zero (BInt.intOps .release)) = compare (ival f) 0 := by
    have h0 : ival BInt.zero = 0 := by decide
    rw [← h0]
    exact C47_cmp_partial f BInt.zero f4 (by decide) (.inr (.inr (.inr (.inl (by decide)))))
  have hcmp : ∀ a b, FixedOf.cmp (BInt.intOps .release) a b = .ok (BInt.cmp a b) := fun _ _ => rfl
  have hround : ∃ c : BInt, Canon c ∧ 0 ≤ ival c ∧ (ival c).natAbs = g ∧
      FixedOf.round (BInt.intOps .release) N x = if BInt.cmp c half = .gt then
        FixedOf.ceil (BInt.intOps .release) N x else FixedOf.floor (BInt.intOps .release) N x := by
    by_cases hf : 0 ≤ ival f
    · refine ⟨f, f4, hf, (hgd.1 hf).symm, ?_⟩
      unfold FixedOf.round
      rw [i1]
      simp only [Res.bind, t1, d1, f3, hcmp, hz]
      rw [if_pos (by rw [Ne, compare_lt_iff_lt]; omega)]
    · obtain ⟨c, c1, c2, c3, -⟩ := C43_sub_partial i f i2.1 f4.1
      have hfn : f.neg = true := f4.neg_iff.mpr (by omega)
      have hin : i.neg = false := by
        rw [← Bool.not_eq_true, i2.neg_iff, i3]
        have : (0 : Int) < 2 ^ N := by positivity
        omega
      have c4 := c3 (.inl (by rw [hfn, hin]; simp))
      have hsub : FixedOf.sub (BInt.intOps .release) i f = .ok c := c1
      have hpos : (0 : Int) < 2 ^ N := by positivity
      refine ⟨c, c2, by rw [c4, i3]; omega, ?_, ?_⟩
      · rw [hgd.2 hf, c4, i3]
        zify
        rw [abs_of_nonneg (by omega), abs_of_neg (by omega)]
        ring
      · unfold FixedOf.round
        rw [i1]
        simp only [Res.bind, t1, d1, f3, hcmp, hz]
        rw [if_neg (by rw [not_not, compare_lt_iff_lt]; omega), hsub]
  obtain ⟨c, c1, c2, c3, c4⟩ := hround
  refine ⟨fun h => ?_, fun h => ?_⟩
  · rw [c4, if_pos ((key c c1 c2 c3).mpr h)]
  · rw [c4, if_neg (mt (key c c1 c2 c3).mp h)]

-- with 64 fractional bits the half is `2^65 - 1`: `4 - 2^-64`, of which `fract` makes `5 - 2^-64`, is rounded
-- up; `3 + 5 / 2^64`, of which it makes `4 + 5 / 2^64`, is rounded down, as 5 is less than `2^64 - 1`
example : FixedOf.fract (BInt.intOps .release) 64 ⟨false, .slice [2 ^ 64 - 1, 3]⟩
      = .ok ⟨false, .slice [2 ^ 64 - 1, 4]⟩ ∧
    FixedOf.round (BInt.intOps .release) 64 ⟨false, .slice [2 ^ 64 - 1, 3]⟩ = .ok ⟨false, .slice [0, 4]⟩ ∧
    FixedOf.fract (BInt.intOps .release) 64 ⟨false, .slice [5, 3]⟩ = .ok ⟨false, .slice [5, 4]⟩ ∧
    FixedOf.round (BInt.intOps .release) 64 ⟨false, .slice [5, 3]⟩ = .ok ⟨false, .slice [0, 3]⟩ := by
  decide +kernel

end BInt

end Verif
