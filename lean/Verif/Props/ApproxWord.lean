import Verif.Props.BigIntWordExact
import Verif.Lemmas.Approx

/-!
# C196: `approx_float` with `usize` of 16 or 32 bits

`usize::MAX as f64` is `2^64` on a target of 64 bits, but `2^32 - 1` and `2^16 - 1` on the others, so there the
words of a number are read as digits to the wrong base.
-/

namespace Verif

namespace WInt

open Fl
open BInt (Near near_of_nat)

set_option exponentiation.threshold 2000

variable {w : Nat}

/-- The digits of `n` to the base `2^w`, read to the base `2^w - 1`. -/
def misread (w n : Nat) : Nat := Nat.ofDigits (2 ^ w - 1) (Nat.digits (2 ^ w) n)

private theorem misread_step (hw : 0 < w) (n : Nat) :
    misread w n = n % 2 ^ w + (2 ^ w - 1) * misread w (n / 2 ^ w) := by
  rcases Nat.eq_zero_or_pos n with rfl | hn
  · simp [misread]
  · unfold misread
    rw [Nat.digits_def' (Nat.one_lt_two_pow (by omega)) hn, Nat.ofDigits_cons]

private theorem misread_le (hw : 0 < w) (n : Nat) : misread w n ≤ n := by
  induction n using Nat.strongRecOn with
  | _ n ih =>
    rcases Nat.eq_zero_or_pos n with rfl | hn
    · simp [misread]
    · rw [misread_step hw]
      have h1 := ih (n / 2 ^ w) (Nat.div_lt_self hn (Nat.one_lt_two_pow (by omega)))
      have h2 := Nat.div_add_mod n (2 ^ w)
      have h3 : (2 ^ w - 1) * misread w (n / 2 ^ w) ≤ 2 ^ w * (n / 2 ^ w) := Nat.mul_le_mul (by omega) h1
      omega

private theorem misread_eq_iff (hw : 1 < w) (n : Nat) : misread w n = n ↔ n < 2 ^ w := by
  have hp : 2 ≤ 2 ^ w := le_trans (by norm_num) (Nat.pow_le_pow_right (n := 2) (by norm_num) (show 1 ≤ w by omega))
  constructor
  · intro h
    by_contra hc
    rw [misread_step (by omega)] at h
    have h1 := misread_le (show 0 < w by omega) (n / 2 ^ w)
    have h2 := Nat.div_add_mod n (2 ^ w)
    have h4 : 0 < n / 2 ^ w := Nat.div_pos (by omega) (by omega)
    have h3 : (2 ^ w - 1) * misread w (n / 2 ^ w) ≤ (2 ^ w - 1) * (n / 2 ^ w) := Nat.mul_le_mul_left _ h1
    have h5 : (2 ^ w - 1) * (n / 2 ^ w) + n / 2 ^ w = 2 ^ w * (n / 2 ^ w) := by
      rw [← Nat.succ_mul]; congr 1; omega
    omega
  · intro h
    rw [misread_step (by omega), Nat.mod_eq_of_lt h, Nat.div_eq_of_lt h]
    simp [misread]

private theorem misread_limbs (hw : 0 < w) {l : List (BitVec w)} (h : Norm l) :
    misread w (val l) = Nat.ofDigits (2 ^ w - 1) (l.map BitVec.toNat) := by
  by_cases h0 : val l = 0
  · rw [norm_zero h h0]
    simp [misread, val]
  · unfold misread
    rw [digits_val hw h h0]

private theorem horner_pos (l : List (BitVec w)) (h : l ≠ []) (hl : l.getLast? ≠ some 0) :
    (2 ^ w - 1) ^ (l.length - 1) ≤ Nat.ofDigits (2 ^ w - 1) (l.map BitVec.toNat) := by
  induction l with
  | nil => exact absurd rfl h
  | cons v vs ih =>
    rw [List.map_cons, Nat.ofDigits_cons]
    cases vs with
    | nil =>
      have : v ≠ 0 := fun h => hl (by rw [h]; rfl)
      have : v.toNat ≠ 0 := fun h => this (BitVec.eq_of_toNat_eq (by simpa using h))
      simp; omega
    | cons u us =>
      have := ih (by simp) (by simpa using hl)
      simp only [List.length_cons, Nat.add_sub_cancel] at this ⊢
      rw [pow_succ, mul_comm]
      exact le_trans (Nat.mul_le_mul_left _ this) (Nat.le_add_left _ _)

private theorem usizeMaxF_eq (hw : w ≤ 32) : usizeMaxF w = .fin (2 ^ w - 1) := by
  obtain ⟨z, h1, h2, _⟩ := round_eq (2 ^ w - 1)
  have hp : 2 ^ w ≤ 2 ^ 32 := Nat.pow_le_pow_right (by norm_num) hw
  have hz := h2 (by omega)
  unfold usizeMaxF
  rw [BitVec.toNat_allOnes, h1, hz, if_pos]
  exact lt_of_lt_of_le (show 2 ^ w - 1 < 2 ^ 32 by omega) (Nat.pow_le_pow_right (by norm_num) (by norm_num))

private theorem lt_limit {k x a : Nat} (hk : k ≤ 66) (h : Near k x a) (hx : x ≤ 2 ^ 1023) : a < limit := by
  have h1 := (h.mono hk).2
  have h2 : (x : ℚ) ≤ 2 ^ 1023 := by exact_mod_cast hx
  have h3 : (1 + 1 / 2 ^ 53 : ℚ) ^ 66 < 2 := by norm_num
  have h4 : (a : ℚ) < 2 ^ 1023 * 2 := by
    refine lt_of_le_of_lt (h1.trans (mul_le_mul_of_nonneg_right h2 (by positivity))) ?_
    exact mul_lt_mul_of_pos_left h3 (by positivity)
  unfold limit
  rw [show (1024 : Nat) = 1023 + 1 from rfl, pow_succ]
  exact_mod_cast h4

private theorem approx_loop (hw : w = 16 ∨ w = 32) (s : Nat) (hs : s ≤ 2 ^ 1023) (l : List (BitVec w)) (idx x a : Nat)
    (hidx : idx + l.length ≤ 64) (hl : l.getLast? ≠ some 0) (h : Near (idx + 1) x a) (hex : s ≤ 2 ^ 53 → a = x)
    (hx : x + (2 ^ w - 1) ^ idx * Nat.ofDigits (2 ^ w - 1) (l.map BitVec.toNat) = s) :
    ∃ z, approxLoop idx l (.fin a) = .fin z ∧ Near 65 s z ∧ (s ≤ 2 ^ 53 → z = s) := by
  induction l generalizing idx x a with
  | nil =>
    simp at hx
    subst hx
    exact ⟨a, rfl, h.mono (by simp at hidx; omega), hex⟩
  | cons v vs ih =>
    rw [List.length_cons] at hidx
    have hw1 : 1 < w := by omega
    have hone : 1 ≤ Nat.ofDigits (2 ^ w - 1) ((v :: vs).map BitVec.toNat) := by
      refine le_trans (Nat.one_le_pow _ _ ?_) (horner_pos (v :: vs) (by simp) hl)
      have : 2 ≤ 2 ^ w := le_trans (by norm_num) (Nat.pow_le_pow_right (n := 2) (by norm_num) (show 1 ≤ w by omega))
      omega
    have hP : (2 ^ w - 1) ^ idx ≤ s := by
      rw [← hx]
      exact le_trans (Nat.le_mul_of_pos_right _ hone) (Nat.le_add_left _ _)
    rw [List.map_cons, Nat.ofDigits_cons] at hx
    have hx' : x + v.toNat * (2 ^ w - 1) ^ idx +
        (2 ^ w - 1) ^ (idx + 1) * Nat.ofDigits (2 ^ w - 1) (vs.map BitVec.toNat) = s := by
      rw [← hx, pow_succ]; ring
    generalize hQ : (2 ^ w - 1) ^ idx = P at *
    -- the power
    obtain ⟨p, hp, np, ep⟩ : ∃ p, powi (usizeMaxF w) idx = .fin p ∧ Near 1 P p ∧ (s ≤ 2 ^ 53 → p = P) := by
      rw [usizeMaxF_eq (by omega)]
      cases idx with
      | zero =>
        rw [pow_zero] at hQ
        subst hQ
        exact ⟨1, by unfold powi; rfl, near_of_nat (by omega) (by omega), fun _ => rfl⟩
      | succ k =>
        rw [powi_fin, hQ]
        obtain ⟨z, h1, h2, _, h3, h4⟩ := round_eq P
        have hn := near_of_nat h3 h4
        refine ⟨z, ?_, hn, fun h => h2 (by omega)⟩
        rw [h1, if_pos (lt_limit (by omega) hn (by omega))]
    -- the word
    have hv : Fl.round v.toNat = .fin v.toNat := by
      have hlt := v.isLt
      have hb : 2 ^ w ≤ 2 ^ 32 := Nat.pow_le_pow_right (by norm_num) (by omega)
      obtain ⟨z, h1, h2, _⟩ := round_eq v.toNat
      rw [h1, h2 (by omega), if_pos]
      exact lt_of_lt_of_le (show v.toNat < 2 ^ 32 by omega) (Nat.pow_le_pow_right (by norm_num) (by norm_num))
    obtain ⟨z, h1, h2, _, h3, h4⟩ := round_eq (v.toNat * p + a)
    have n1 : Near (idx + 1) (v.toNat * P) (v.toNat * p) := by
      rw [mul_comm _ P, mul_comm _ p]; exact (np.mono (by omega)).mul _
    have n2 := h.add n1
    rw [add_comm a] at n2
    have n3 := n2.trans (near_of_nat h3 h4)
    have hz : z < limit := lt_limit (by omega) n3 (by omega)
    obtain ⟨y, g1, g2, g3⟩ := ih (idx + 1) (x + v.toNat * P) z (by omega)
      (by
        cases vs with
        | nil => simp
        | cons u us => simpa using hl)
      n3 (fun hle => by
        have e1 := ep hle
        have e2 := hex hle
        subst e1 e2
        rw [h2 (by omega), add_comm]) (by rw [← hx', pow_succ])
    refine ⟨y, ?_, g2, g3⟩
    unfold approxLoop
    rw [if_pos (by omega), hv, hp]
    change approxLoop (idx + 1) vs (Fl.round (v.toNat * p + a)) = _
    rw [h1, if_pos hz]
    exact g1

/-- C196, `approx_float` on targets of 16 and 32 bits: the approximated number is not the given one, but that with its
words read to the base `2^w - 1` (`misread`), which is smaller as soon as there are two words. Up to `2^53`
this number is the result, and up to `2^1023` the result is within one part in `2^46` of it (if `powi` is
correctly rounded). Missing: larger numbers. -/
theorem C196_approx_exact_partial (hw : w ∈ [16, 32]) (a : WInt w) (ha : Rep a)
    (hs : misread w (ival a).natAbs ≤ 2 ^ 1023) :
    ∃ z, approxFloat a = .fin z ∧
      (misread w (ival a).natAbs ≤ 2 ^ 53 → z = misread w (ival a).natAbs) ∧
      misread w (ival a).natAbs * 2 ^ 46 ≤ z * 2 ^ 46 + misread w (ival a).natAbs ∧
      z * 2 ^ 46 ≤ misread w (ival a).natAbs * 2 ^ 46 + misread w (ival a).natAbs ∧
      misread w (ival a).natAbs ≤ (ival a).natAbs ∧
      (misread w (ival a).natAbs = (ival a).natAbs ↔ (ival a).natAbs < 2 ^ w) := by
  haveI hW : PtrWidth w := ⟨by simp at hw ⊢; omega⟩
  have hw' : w = 16 ∨ w = 32 := by simpa using hw
  rw [natAbs_ival] at hs ⊢
  have hle := misread_le hW.pos (val a.limbs)
  have hiff := misread_eq_iff (w := w) (by omega) (val a.limbs)
  have hnorm := ha.norm
  generalize hS : misread w (val a.limbs) = s at *
  rw [misread_limbs hW.pos hnorm] at hS
  unfold approxFloat
  generalize a.limbs = l at *
  suffices hmain : ∃ z, approxLoop 0 l (.fin 0) = .fin z ∧ Near 65 s z ∧ (s ≤ 2 ^ 53 → z = s) by
    obtain ⟨z, h1, ⟨h2, h3⟩, h4⟩ := hmain
    have hs0 : (0 : ℚ) ≤ s := by positivity
    refine ⟨z, h1, h4, ?_, ?_, hle, hiff⟩
    · have e : (1 : ℚ) - 1 / 2 ^ 46 ≤ (1 - 1 / 2 ^ 53) ^ 65 := by norm_num
      have := (mul_le_mul_of_nonneg_left e hs0).trans h2
      have : (s : ℚ) * 2 ^ 46 ≤ z * 2 ^ 46 + s := by
        have h5 := mul_le_mul_of_nonneg_right this (show (0 : ℚ) ≤ 2 ^ 46 by positivity)
        have h6 : (s : ℚ) * (1 - 1 / 2 ^ 46) * 2 ^ 46 = s * 2 ^ 46 - s := by ring
        linarith
      exact_mod_cast this
    · have e : (1 + 1 / 2 ^ 53 : ℚ) ^ 65 ≤ 1 + 1 / 2 ^ 46 := by norm_num
      have := h3.trans (mul_le_mul_of_nonneg_left e hs0)
      have : (z : ℚ) * 2 ^ 46 ≤ s * 2 ^ 46 + s := by
        have h5 := mul_le_mul_of_nonneg_right this (show (0 : ℚ) ≤ 2 ^ 46 by positivity)
        have h6 : (s : ℚ) * (1 + 1 / 2 ^ 46) * 2 ^ 46 = s * 2 ^ 46 + s := by ring
        linarith
      exact_mod_cast this
  have hnear : Near 1 0 0 := near_of_nat (by simp) (by simp)
  by_cases hz : val l = 0
  · have hl := norm_zero hnorm hz
    subst hl
    have hs0 : s = 0 := by rw [← hS]; simp
    subst hs0
    refine ⟨0, ?_, hnear.mono (by omega), fun _ => rfl⟩
    unfold approxLoop approxLoop
    rw [if_pos (by omega)]
    rw [usizeMaxF_eq (by omega), show BitVec.toNat (0 : BitVec w) = 0 by simp,
      show powi (.fin (2 ^ w - 1)) 0 = .fin 1 by unfold powi; rfl]
    decide +kernel
  · have hl : l.getLast? ≠ some 0 := by
      rcases hnorm.2 with h1 | h1
      · obtain ⟨x, rfl⟩ := List.length_eq_one_iff.mp h1
        intro h
        simp at h
        subst h
        simp [val] at hz
      · exact h1
    have hlen : l.length ≤ 64 := by
      by_contra hc
      have h1 := horner_pos l hnorm.1 hl
      rw [hS] at h1
      have h2 : (2 ^ 16 - 1) ^ 64 ≤ (2 ^ w - 1) ^ (l.length - 1) := by
        refine le_trans (Nat.pow_le_pow_left ?_ 64) (Nat.pow_le_pow_right ?_ (by omega))
        · rcases hw' with rfl | rfl <;> norm_num
        · rcases hw' with rfl | rfl <;> norm_num
      have h3 : 2 ^ 1023 < (2 ^ 16 - 1) ^ 64 := by decide +kernel
      exact absurd (h2.trans (h1.trans hs)) (Nat.not_le.mpr h3)
    exact approx_loop hw' s hs l 0 0 0 (by omega) hl hnear (fun _ => rfl) (by simpa using hS)

example : misread 32 (2 ^ 32) = 2 ^ 32 - 1 ∧ misread 32 (7 * 2 ^ 32 + 5) = 7 * (2 ^ 32 - 1) + 5 := by decide +kernel

example : approxFloat (⟨true, .slice [5, 7]⟩ : WInt 32) = .fin (7 * (2 ^ 32 - 1) + 5) ∧
    Rep (⟨true, .slice [5, 7]⟩ : WInt 32) := by decide +kernel

end WInt

end Verif
