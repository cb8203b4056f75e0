import Verif.Props.FixedText
import Verif.Props.FixedExact

/-!
# C105, C106, exactly: printing fixed point numbers for all parameters
-/

namespace Verif

open Prim

/-- What the text `s` reads as if it is the digits of the integer `w`, with a point before the last `N`:
`w / 10^N` if there are that many digits, `w` itself if there are not, and no number if `w ≤ 0`. -/
def ReadsAs (N : Nat) (w : Int) (s : List Char) : Prop :=
  (0 < w → (N = 0 ∨ 10 ^ (N - 1) ≤ w) → pointVal 10 s = some ((w : ℚ) / 10 ^ N)) ∧
  (0 < w → 0 < N → w < 10 ^ (N - 1) → pointVal 10 s = some w) ∧
  (w ≤ 0 → pointVal 10 s = none)

private theorem readsAs_text (N : Nat) (w : Int) : ReadsAs N w
    (if N ≤ (Nat.digits 10 w.toNat).length then
      digitText ((Nat.digits 10 w.toNat).drop N) ++
        '.' :: digitText ((Nat.digits 10 w.toNat).take N)
    else digitText (Nat.digits 10 w.toNat)) := by
  by_cases h0 : 0 < w
  · obtain ⟨w, rfl⟩ := Int.eq_ofNat_of_zero_le h0.le
    rw [Int.toNat_natCast]
    have hw : 0 < w := by omega
    have hlt : ∀ d ∈ Nat.digits 10 w, d < 10 := fun d hd => Nat.digits_lt_base (by norm_num) hd
    have hne : Nat.digits 10 w ≠ [] := Nat.digits_ne_nil_iff_ne_zero.mpr (by omega)
    have hlen : N ≤ (Nat.digits 10 w).length ↔ N = 0 ∨ (10 : Int) ^ (N - 1) ≤ w := by
      rcases Nat.eq_zero_or_pos N with h | h
      · simp [h]
      · obtain ⟨k, rfl⟩ : ∃ k, N = k + 1 := ⟨N - 1, by omega⟩
        rw [Nat.succ_le_iff, Nat.lt_digits_length_iff (by norm_num), Nat.add_sub_cancel]
        have e : (10 : Int) ^ k = ((10 ^ k : Nat) : Int) := by push_cast; rfl
        rw [e]
        omega
    refine ⟨fun _ h => ?_, fun _ h1 h2 => ?_, fun h => absurd h0 (by omega)⟩
    · rw [if_pos (hlen.mpr h), pointVal_point (by norm_num) _ _
        (fun d hd => hlt d (List.mem_of_mem_drop hd)) (fun d hd => hlt d (List.mem_of_mem_take hd))]
      · have e := Nat.ofDigits_digits 10 w
        rw [← List.take_append_drop N (Nat.digits 10 w), Nat.ofDigits_append,
          List.length_take_of_le (hlen.mpr h)] at e
        rw [List.length_take_of_le (hlen.mpr h)]
        have e' := congrArg (fun n : Nat => (n : ℚ)) e
        push_cast at e'
        have hp : (0 : ℚ) < 10 ^ N := by positivity
        congr 1
        push_cast
        field_simp
        linarith
      · intro hc
        apply hne
        have := congrArg List.length hc
        rw [← List.length_eq_zero_iff, ← List.take_append_drop N (Nat.digits 10 w)]
        simp only [List.length_append, List.length_nil] at this ⊢
        omega
    · rw [if_neg]
      · rw [pointVal_plain (by norm_num) _ hlt hne, Nat.ofDigits_digits]
        simp
      · rw [hlen]; omega
  · have e : w.toNat = 0 := by omega
    refine ⟨fun h => absurd h h0, fun h => absurd h h0, fun _ => ?_⟩
    rw [e, Nat.digits_zero]
    by_cases hN0 : N = 0
    · subst hN0; decide
    · rw [if_neg (by simp; omega)]; decide

/-- `e` is the exponent `N` as it arrives at `pow`: cut to the type, and then to 32 bits. -/
def CutExponent (p : Prim) (N e : Nat) : Prop :=
  e < 2 ^ 32 ∧ ∃ n : Int, p.InRange n ∧ (2 ^ p.bits : Int) ∣ n - N ∧ (2 ^ 32 : Int) ∣ e - n

/-- C105, exactly, for all parameters. Let `e` be the number `N` of fractional bits cut to the type and to
32 bits. Debug builds panic if `10^e` or its product with the raw integer `x` does not fit the type; otherwise
they write the digits of `x * 5^e`, with a point before the last `N`. Release builds reduce `x * 10^e` and
`2^e` to the type, panic if the latter is zero (`e ≥ bits`), and write the quotient. Missing, because
false: that the text denotes the number. -/
theorem C105_debug_exact_partial (p : Prim) (hb : 5 ≤ p.bits) (N : Nat) (x : Int) (hx : p.InRange x) :
    ∃ e, CutExponent p N e ∧
      (¬ (p.InRange (10 ^ e) ∧ p.InRange (x * 10 ^ e)) → Fixed.debug .debug p N x = .panic) ∧
      (p.InRange (10 ^ e) ∧ p.InRange (x * 10 ^ e) →
        ∃ s, Fixed.debug .debug p N x = .ok s ∧ ReadsAs N (x * 5 ^ e) s) ∧
      (p.bits ≤ e → Fixed.debug .release p N x = .panic) ∧
      (e < p.bits → ∃ s y b, Fixed.debug .release p N x = .ok s ∧
        p.InRange y ∧ (2 ^ p.bits : Int) ∣ y - x * 10 ^ e ∧
        p.InRange b ∧ (2 ^ p.bits : Int) ∣ b - 2 ^ e ∧ ReadsAs N (y.tdiv b) s) := by
  have hb0 : 0 < p.bits := by omega
  obtain ⟨b1, b2, b3⟩ := bounds (p := p) hb0
  have h16 : (16 : Int) ≤ 2 ^ (p.bits - 1) := by
    calc (16 : Int) = 2 ^ 4 := by norm_num
      _ ≤ _ := pow_le_pow_right₀ (by norm_num) (by omega)
  have hpp : (2 : Int) ^ p.bits = 2 * 2 ^ (p.bits - 1) := by
    rw [← pow_succ']; congr 1; omega
  have hmin : p.minV = -2 ^ (p.bits - 1) ∨ p.minV = 0 := by unfold minV; split <;> simp
  have htwo : p.truncateFrom 2 = 2 := by
    apply wrap_eq hb0
    refine ⟨by omega, ?_⟩
    unfold maxV
    split <;> omega
  obtain ⟨n1, n2⟩ := wrap_spec (p := p) hb0 (N : Int)
  obtain ⟨u1, u2⟩ := wrap_spec (p := u32) (by decide) (p.wrap (N : Int))
  have hu0 : 0 ≤ u32.wrap (p.wrap (N : Int)) := by
    have := u1.1; rwa [show u32.minV = 0 by decide] at this
  have hu1 : u32.wrap (p.wrap (N : Int)) < 2 ^ 32 := by
    have := u1.2; rw [show u32.maxV = 2 ^ 32 - 1 by decide] at this; omega
  obtain ⟨e, he⟩ := Int.eq_ofNat_of_zero_le hu0
  refine ⟨e, ⟨by omega, p.wrap N, n1, n2, by rw [← he]; exact u2⟩, ?_⟩
  have hpow : ∀ (m : Mode) (a : Int), Prim.pow m p a (p.truncateFrom N) = arith m p (a ^ e) := by
    intro m a
    unfold Prim.pow truncateFrom
    rw [he, Int.toNat_natCast]
  have hdbg : ∀ m : Mode, Fixed.debug m p N x =
      (arith m p (10 ^ e)).bind fun t => (arith m p (x * t)).bind fun y =>
      (arith m p (2 ^ e)).bind fun b => (Prim.div p y b).bind fun w =>
      .ok (if N ≤ (Nat.digits 10 w.toNat).length then
        digitText ((Nat.digits 10 w.toNat).drop N) ++
          '.' :: digitText ((Nat.digits 10 w.toNat).take N)
      else digitText (Nat.digits 10 w.toNat)) := by
    intro m
    unfold Fixed.debug
    rw [Fixed.trunc_ten hb, htwo, hpow, hpow]
    simp only [Fixed.debugText_spec hb]
  have h2p : (0 : Int) < 2 ^ e := by positivity
  have h210 : (2 : Int) ^ e ≤ 10 ^ e := pow_le_pow_left₀ (by norm_num) (by norm_num) e
  refine ⟨fun h => ?_, fun ⟨h1, h2⟩ => ?_, fun h => ?_, fun h => ?_⟩
  · rw [hdbg]
    by_cases h1 : p.InRange (10 ^ e)
    · rw [arith_ok _ h1]
      simp only [Res.bind]
      unfold arith
      rw [if_neg (fun h2 => h ⟨h1, h2⟩)]
    · unfold arith
      rw [if_neg h1]
      rfl
  · refine ⟨_, ?_, readsAs_text N (x * 5 ^ e)⟩
    have hdiv : Prim.div p (x * 10 ^ e) (2 ^ e) = .ok (x * 5 ^ e) := by
      unfold Prim.div
      rw [if_neg h2p.ne', if_neg (by omega)]
      congr 1
      rw [show (10 : Int) = 5 * 2 by norm_num, mul_pow, ← mul_assoc, Int.mul_tdiv_cancel _ h2p.ne']
    rw [hdbg, arith_ok _ h1]
    simp only [Res.bind]
    rw [arith_ok _ h2, arith_ok _ ⟨by omega, by have := h1.2; omega⟩]
    simp only
    rw [hdiv]
  · have hz : p.wrap (2 ^ e) = 0 := by
      obtain ⟨c1, c2⟩ := wrap_spec (p := p) hb0 (2 ^ e)
      apply eq_of_dvd hb0 c1 ⟨b1, b2⟩
      have : (2 ^ p.bits : Int) ∣ 2 ^ e := pow_dvd_pow 2 h
      have := dvd_add c2 this
      simpa using this
    have ha : arith .release p (2 ^ e) = .ok 0 := by
      unfold arith
      split
      · next k => rw [wrap_eq hb0 k] at hz; omega
      · show Res.ok (p.wrap (2 ^ e)) = _; rw [hz]
    rw [hdbg]
    have hr : ∀ z, ∃ r, arith .release p z = .ok r := by
      intro z; unfold arith; split <;> exact ⟨_, rfl⟩
    obtain ⟨t, ht⟩ := hr (10 ^ e)
    obtain ⟨y, hy⟩ := hr (x * t)
    rw [ht]; simp only [Res.bind]
    rw [hy]; simp only
    rw [ha]; simp only
    unfold Prim.div
    rw [if_pos rfl]
  · have hr : ∀ z, arith .release p z = .ok (p.wrap z) := by
      intro z
      unfold arith
      split
      · next k => rw [wrap_eq hb0 k]
      · rfl
    obtain ⟨c1, c2⟩ := wrap_spec (p := p) hb0 (10 ^ e)
    obtain ⟨d1, d2⟩ := wrap_spec (p := p) hb0 (x * p.wrap (10 ^ e))
    obtain ⟨g1, g2⟩ := wrap_spec (p := p) hb0 (2 ^ e)
    have hdiv : Prim.div p (p.wrap (x * p.wrap (10 ^ e))) (p.wrap (2 ^ e)) =
        .ok ((p.wrap (x * p.wrap (10 ^ e))).tdiv (p.wrap (2 ^ e))) := by
      have h2e : (2 : Int) ^ e ≤ 2 ^ (p.bits - 1) := pow_le_pow_right₀ (by norm_num) (by omega)
      have hlow : p.wrap (2 ^ e) = 2 ^ e ∨ p.wrap (2 ^ e) = 2 ^ e - 2 ^ p.bits := by
        obtain ⟨k, hk⟩ := g2
        have e1 := g1.1
        have e2 := g1.2
        have : k = 0 ∨ k = -1 := by
          have h1 : k < 1 := by
            by_contra hc
            have : (2 : Int) ^ p.bits * 1 ≤ 2 ^ p.bits * k := mul_le_mul_of_nonneg_left (by omega) (by positivity)
            omega
          have h2 : -2 < k := by
            by_contra hc
            have : (2 : Int) ^ p.bits * k ≤ 2 ^ p.bits * (-2) := mul_le_mul_of_nonneg_left (by omega) (by positivity)
            omega
          omega
        rcases this with rfl | rfl
        · left; omega
        · right; omega
      unfold Prim.div
      rw [if_neg (by omega), if_neg (by omega)]
    refine ⟨_, _, _, ?_, d1, ?_, g1, g2, readsAs_text N _⟩
    · rw [hdbg, hr]; simp only [Res.bind]
      rw [hr]; simp only
      rw [hr]; simp only
      rw [hdiv]
    · have := dvd_add d2 (dvd_mul_of_dvd_right c2 x)
      have e' : p.wrap (x * p.wrap (10 ^ e)) - x * p.wrap (10 ^ e) + x * (p.wrap (10 ^ e) - 10 ^ e) =
        p.wrap (x * p.wrap (10 ^ e)) - x * 10 ^ e := by ring
      rwa [e'] at this

example : CutExponent i8 300 44 ∧ CutExponent i8 200 (2 ^ 32 - 56) ∧ CutExponent i32 4 4 := by
  refine ⟨⟨by norm_num, 44, by decide, by decide, by decide⟩,
    ⟨by norm_num, -56, by decide, by decide, by decide⟩, ⟨by norm_num, 4, by decide, by decide, by decide⟩⟩

example : Fixed.debug .release i8 1 20 = .ok [] ∧ Fixed.debug .release i8 1 52 = .ok ['.', '4'] ∧
    Fixed.debug .debug i8 1 20 = .panic ∧ Fixed.debug .release i32 32 1 = .panic ∧
    Fixed.debug .release i8 256 37 = .ok ['3', '7'] := by
  decide

/-- C106, exactly, for all numbers: before the point `{:b}` writes the binary digits of the number with
its fraction dropped, as a raw integer (so `2^N` times too large), after it those of the raw fraction,
without leading zeros; both are reduced modulo `2^bits` if negative. Missing, because false: that the text
denotes the number. -/
theorem C106_binary_exact_partial (m : Mode) (p : Prim) (N : Nat) (hb : 2 ≤ p.bits) (hN : N < p.bits)
    (x : Int) (hx : p.InRange x) :
    ∃ s k, Fixed.binary m p N x = .ok s ∧
      let t := truncQ (fval N x) * 2 ^ N % 2 ^ p.bits
      let f := (x - truncQ (fval N x) * 2 ^ N) % 2 ^ p.bits
      pointVal 2 s = some ((t : ℚ) + f / 2 ^ k) ∧ f < 2 ^ k ∧ (f ≠ 0 → 2 ^ k ≤ 2 * f) := by
  have text : ∀ z : Int, ∃ (D : List Nat), Fixed.binText p z = digitText D ∧ (∀ d ∈ D, d < 2) ∧ D ≠ [] ∧
      ((Nat.ofDigits 2 D : Nat) : Int) = z % 2 ^ p.bits ∧ z % 2 ^ p.bits < 2 ^ D.length ∧
      (z % 2 ^ p.bits ≠ 0 → 2 ^ D.length ≤ 2 * (z % 2 ^ p.bits)) := by
    intro z
    have h2 : ((BitVec.ofInt p.bits z).toNat : Int) = z % 2 ^ p.bits := by
      rw [BitVec.toNat_ofInt]
      push_cast
      exact Int.toNat_of_nonneg (Int.emod_nonneg _ (by positivity))
    unfold Fixed.binText
    generalize (BitVec.ofInt p.bits z).toNat = n at h2
    rw [← h2]
    by_cases h0 : n = 0
    · subst h0
      exact ⟨[0], rfl, by simp, by simp, by simp [Nat.ofDigits], by norm_num, by norm_num⟩
    · refine ⟨Nat.digits 2 n, ?_, fun d hd => Nat.digits_lt_base (by norm_num) hd,
        Nat.digits_ne_nil_iff_ne_zero.mpr h0, by rw [Nat.ofDigits_digits], ?_, fun _ => ?_⟩
      · rw [← digits_toDigits 2 (by norm_num) _ (by omega), digitText, List.map_reverse]
      · exact_mod_cast Nat.lt_base_pow_length_digits (b := 2) (m := n) (by norm_num)
      · exact_mod_cast Nat.base_pow_length_digits_le 2 n (by norm_num) h0
  have hdec := Int.tmod_add_mul_tdiv x (2 ^ N)
  have hf : x - truncQ (fval N x) * 2 ^ N = x.tmod (2 ^ N) := by
    rw [Fixed.trunc_fval]; linarith
  obtain ⟨A, a1, a2, a3, a4, _, _⟩ := text (x.tdiv (2 ^ N) * 2 ^ N)
  obtain ⟨B, c1, c2, c3, c4, c5, c6⟩ := text (x.tmod (2 ^ N))
  refine ⟨digitText A ++ '.' :: digitText B, B.length, ?_, ?_⟩
  · unfold Fixed.binary
    rw [Fixed.trunc_spec m hb hN hx, Fixed.fract_spec m hb hN x]
    simp only [Res.bind]
    rw [a1, c1, List.append_assoc]
    rfl
  · intro t f
    have ht : t = x.tdiv (2 ^ N) * 2 ^ N % 2 ^ p.bits := by
      show truncQ (fval N x) * 2 ^ N % 2 ^ p.bits = _
      rw [Fixed.trunc_fval]
    have hf' : f = x.tmod (2 ^ N) % 2 ^ p.bits := by
      show (x - truncQ (fval N x) * 2 ^ N) % 2 ^ p.bits = _
      rw [hf]
    rw [ht, hf']
    refine ⟨?_, c5, c6⟩
    rw [pointVal_point (by norm_num) A B a2 c2 (by simp [a3]), ← a4, ← c4,
      Int.cast_natCast, Int.cast_natCast]
    norm_cast

example : Fixed.binary .debug i8 1 (-3) =
    .ok ['1', '1', '1', '1', '1', '1', '1', '0', '.', '1', '1', '1', '1', '1', '1', '1', '1'] := by decide

end Verif
