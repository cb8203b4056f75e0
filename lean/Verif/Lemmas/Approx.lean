import Mathlib.Tactic.Linarith
import Mathlib.Tactic.Positivity
import Mathlib.Tactic.Ring
import Mathlib.Tactic.NormNum
import Mathlib.Algebra.Order.Field.Basic
import Mathlib.Algebra.Order.Ring.Rat
import Verif.Model.Approx
import Verif.Lemmas.BigInt

/-!
# Helper lemmas: rounding and `approx_float`
-/

namespace Verif

namespace Fl

/-- The value of `round n` before the overflow test. -/
theorem round_eq (n : Nat) : ∃ z : Nat, (round n = if z < limit then .fin z else .inf) ∧
    (n ≤ 2 ^ 53 → z = n) ∧ (∀ j, n = 2 ^ j → z = n) ∧
    n * 2 ^ 53 ≤ z * 2 ^ 53 + n ∧ z * 2 ^ 53 ≤ n * 2 ^ 53 + n := by
  refine ⟨round53 n, by unfold round clip; rfl, ?_⟩
  unfold round53
  simp only []
  generalize he : Nat.log2 n - 52 = e
  have hdm := Nat.div_add_mod n (2 ^ e)
  have hlt := Nat.mod_lt n (show 0 < 2 ^ e by positivity)
  generalize hq : n / 2 ^ e = q at *
  generalize hr : n % 2 ^ e = r at *
  have hdvd : r = 0 → (if 2 ^ e < 2 * r ∨ (2 * r = 2 ^ e ∧ q % 2 = 1) then q + 1 else q) * 2 ^ e = n := by
    intro h
    have hp : 0 < 2 ^ e := by positivity
    rw [if_neg (by omega), ← hdm, h]
    ring
  refine ⟨fun h => hdvd ?_, fun j hj => hdvd ?_, ?_⟩
  · rcases Nat.lt_or_ge n (2 ^ 53) with h1 | h1
    · have : Nat.log2 n ≤ 52 := by
        rcases Nat.eq_zero_or_pos n with h0 | h0
        · simp [h0]
        · have := (Nat.log2_lt (by omega)).mpr h1; omega
      have : e = 0 := by omega
      subst this
      rw [← hr]; exact Nat.mod_one n
    · have hn : n = 2 ^ 53 := by omega
      have : Nat.log2 n = 53 := by rw [hn, Nat.log2_two_pow]
      have : e = 1 := by omega
      rw [← hr, this, hn]; norm_num
  · have : Nat.log2 n = j := by rw [hj, Nat.log2_two_pow]
    rw [← hr, hj]
    exact Nat.mod_eq_zero_of_dvd (pow_dvd_pow 2 (by omega))
  · rcases Nat.eq_zero_or_pos e with h0 | h0
    · subst h0
      have : r = 0 := by rw [← hr]; exact Nat.mod_one n
      rw [hdvd this]
      omega
    · have hn0 : n ≠ 0 := by
        intro h; rw [h] at he; simp at he; omega
      have hle : 2 ^ (e + 52) ≤ n := by
        have h1 := Nat.log2_self_le hn0
        have : Nat.log2 n = e + 52 := by omega
        rwa [this] at h1
      rw [pow_add] at hle
      have hnq : n = q * 2 ^ e + r := by rw [← hdm]; ring
      generalize 2 ^ e = P at *
      by_cases hup : P < 2 * r ∨ (2 * r = P ∧ q % 2 = 1)
      · rw [if_pos hup]
        have : (q + 1) * P = n - r + P := by rw [hnq]; ring_nf; omega
        rw [this]
        omega
      · rw [if_neg hup]
        have : q * P = n - r := by omega
        rw [this]
        omega

theorem round_pow (j : Nat) : round (2 ^ j) = if j < 1024 then .fin (2 ^ j) else .inf := by
  obtain ⟨z, h1, _, h2, _⟩ := round_eq (2 ^ j)
  rw [h1, h2 j rfl]
  have : 2 ^ j < limit ↔ j < 1024 := Nat.pow_lt_pow_iff_right (by norm_num)
  simp only [this]

theorem usizeMax_eq : BInt.usizeMaxF = .fin (2 ^ 64) := by decide +kernel

theorem powi_fin (b k : Nat) : powi (.fin b) (k + 1) = round (b ^ (k + 1)) := by
  unfold powi
  rfl

theorem powi_eq (k : Nat) : powi BInt.usizeMaxF k = if k < 16 then .fin (2 ^ (64 * k)) else .inf := by
  rw [usizeMax_eq]
  cases k with
  | zero => rfl
  | succ k =>
    rw [powi_fin]
    rw [← pow_mul, round_pow]
    have : 64 * (k + 1) < 1024 ↔ k + 1 < 16 := by omega
    simp only [this]

/-- Not a finite number. -/
def Big (x : Fl) : Prop := x = .inf ∨ x = .nan

theorem mulAdd_big (x y c : Fl) (h : Big c) : Big (mulAdd x y c) := by
  rcases h with rfl | rfl <;> cases x <;> cases y <;> simp only [mulAdd, Big] <;>
    first | (split <;> simp) | simp

theorem mulAdd_inf (a : Nat) (c : Fl) : Big (mulAdd (.fin a) .inf c) := by
  cases c <;> simp only [mulAdd, Big] <;> first | (split <;> simp) | simp

end Fl

namespace BInt

open Fl

theorem approxLoop_big (vs : List (BitVec 64)) (idx : Nat) (acc : Fl) (h : Big acc) :
    Big (approxLoop idx vs acc) := by
  induction vs generalizing idx acc with
  | nil => exact h
  | cons v vs ih =>
    unfold approxLoop
    split
    · exact ih _ _ (mulAdd_big _ _ _ h)
    · exact .inl rfl

theorem ofUsize_eq (v : BitVec 64) : ∃ d, ofUsize v = .fin d ∧ (v.toNat ≤ 2 ^ 53 → d = v.toNat) ∧
    v.toNat * 2 ^ 53 ≤ d * 2 ^ 53 + v.toNat ∧ d * 2 ^ 53 ≤ v.toNat * 2 ^ 53 + v.toNat := by
  obtain ⟨z, h1, h2, _, h3, h4⟩ := round_eq v.toNat
  refine ⟨z, ?_, h2, h3, h4⟩
  unfold ofUsize
  rw [h1, if_pos]
  have := v.isLt
  have : z < 2 ^ 66 := by omega
  exact lt_of_lt_of_le this (Nat.pow_le_pow_right (by norm_num) (by norm_num))

/-- `a` is `x` with `k` roundings. -/
def Near (k : Nat) (x a : Nat) : Prop :=
  (x : ℚ) * (1 - 1 / 2 ^ 53) ^ k ≤ a ∧ (a : ℚ) ≤ x * (1 + 1 / 2 ^ 53) ^ k

theorem near_of_nat {x a : Nat} (h1 : x * 2 ^ 53 ≤ a * 2 ^ 53 + x) (h2 : a * 2 ^ 53 ≤ x * 2 ^ 53 + x) :
    Near 1 x a := by
  have h1' : (x : ℚ) * 2 ^ 53 ≤ a * 2 ^ 53 + x := by exact_mod_cast h1
  have h2' : (a : ℚ) * 2 ^ 53 ≤ x * 2 ^ 53 + x := by exact_mod_cast h2
  constructor
  · rw [pow_one]
    have : (x : ℚ) * (1 - 1 / 2 ^ 53) = (x * 2 ^ 53 - x) / 2 ^ 53 := by ring
    rw [this, div_le_iff₀ (by positivity)]
    linarith
  · rw [pow_one]
    have : (x : ℚ) * (1 + 1 / 2 ^ 53) = (x * 2 ^ 53 + x) / 2 ^ 53 := by ring
    rw [this, le_div_iff₀ (by positivity)]
    linarith

theorem eps_pos : (0 : ℚ) < 1 - 1 / 2 ^ 53 := by norm_num

theorem Near.trans {j k x a b : Nat} (h : Near j x a) (h' : Near k a b) : Near (j + k) x b := by
  have p1 : (0 : ℚ) ≤ (1 - 1 / 2 ^ 53) ^ k := pow_nonneg eps_pos.le k
  have p2 : (0 : ℚ) ≤ (1 + 1 / 2 ^ 53) ^ k := by positivity
  constructor
  · rw [pow_add, ← mul_assoc]
    exact (mul_le_mul_of_nonneg_right h.1 p1).trans h'.1
  · rw [pow_add, ← mul_assoc]
    exact h'.2.trans (mul_le_mul_of_nonneg_right h.2 p2)

theorem Near.mono {j k x a : Nat} (h : Near j x a) (hjk : j ≤ k) : Near k x a := by
  have hx : (0 : ℚ) ≤ x := by positivity
  constructor
  · refine le_trans (mul_le_mul_of_nonneg_left ?_ hx) h.1
    exact pow_le_pow_of_le_one eps_pos.le (by norm_num) hjk
  · refine h.2.trans (mul_le_mul_of_nonneg_left ?_ hx)
    exact pow_le_pow_right₀ (by norm_num) hjk

theorem Near.add {k x y a b : Nat} (h : Near k x a) (h' : Near k y b) : Near k (x + y) (a + b) := by
  obtain ⟨h1, h2⟩ := h
  obtain ⟨h3, h4⟩ := h'
  constructor <;> push_cast <;> rw [add_mul] <;> linarith

theorem Near.mul {k x a : Nat} (h : Near k x a) (c : Nat) : Near k (x * c) (a * c) := by
  have hc : (0 : ℚ) ≤ c := by positivity
  constructor
  · push_cast
    have := mul_le_mul_of_nonneg_right h.1 hc
    linarith
  · push_cast
    have := mul_le_mul_of_nonneg_right h.2 hc
    linarith

/-- One round of the loop. -/
theorem approx_step (idx x a : Nat) (v : BitVec 64) (hidx : idx < 16) (h : Near (idx + 1) x a) :
    ∃ z, mulAdd (ofUsize v) (powi usizeMaxF idx) (.fin a) = (if z < limit then .fin z else .inf) ∧
      Near (idx + 2) (x + v.toNat * 2 ^ (64 * idx)) z := by
  obtain ⟨d, h1, _, h2, h3⟩ := ofUsize_eq v
  rw [h1, powi_eq, if_pos hidx]
  obtain ⟨z, g1, _, _, g2, g3⟩ := round_eq (d * 2 ^ (64 * idx) + a)
  refine ⟨z, g1, ?_⟩
  have n1 : Near (idx + 1) (v.toNat * 2 ^ (64 * idx)) (d * 2 ^ (64 * idx)) :=
    ((near_of_nat h2 h3).mono (by omega)).mul _
  have n2 := (h.add n1)
  rw [add_comm a] at n2
  exact n2.trans (near_of_nat g2 g3)

/-- A finite result of the loop is close to the number. -/
theorem approxLoop_near (vs : List (BitVec 64)) (idx x a z : Nat) (hidx : idx ≤ 16)
    (h : Near (idx + 1) x a) (hz : approxLoop idx vs (.fin a) = .fin z) :
    Near 17 (x + val vs * 2 ^ (64 * idx)) z := by
  induction vs generalizing idx x a with
  | nil =>
    unfold approxLoop at hz
    cases hz
    simpa using h.mono (by omega)
  | cons v vs ih =>
    unfold approxLoop at hz
    rw [if_pos (by omega)] at hz
    have hbig : ∀ c, Big c → approxLoop (idx + 1) vs c ≠ .fin z := by
      intro c hc
      rcases approxLoop_big vs (idx + 1) c hc with e | e <;> rw [e] <;> simp
    rcases Nat.lt_or_ge idx 16 with hlt | hge
    · obtain ⟨y, h1, h2⟩ := approx_step idx x a v hlt h
      rw [h1] at hz
      by_cases hy : y < limit
      · rw [if_pos hy] at hz
        have := ih (idx + 1) _ y (by omega) h2 hz
        rw [val_cons]
        have e : x + (v.toNat + 2 ^ 64 * val vs) * 2 ^ (64 * idx) =
            x + v.toNat * 2 ^ (64 * idx) + val vs * 2 ^ (64 * (idx + 1)) := by
          rw [show 64 * (idx + 1) = 64 + 64 * idx by ring, pow_add]; ring
        rw [e]; exact this
      · rw [if_neg hy] at hz
        exact absurd hz (hbig _ (.inl rfl))
    · obtain ⟨d, h1, _⟩ := ofUsize_eq v
      rw [h1, powi_eq, if_neg (by omega)] at hz
      exact absurd hz (hbig _ (mulAdd_inf _ _))

/-- Numbers up to `(2^48 - 1) * 2^976` have a finite result. -/
theorem approxLoop_fin (vs : List (BitVec 64)) (idx x a : Nat) (hidx : idx + vs.length ≤ 16)
    (h : Near (idx + 1) x a) (hx : x + val vs * 2 ^ (64 * idx) ≤ (2 ^ 48 - 1) * 2 ^ 976) :
    ∃ z, approxLoop idx vs (.fin a) = .fin z := by
  induction vs generalizing idx x a with
  | nil => exact ⟨a, rfl⟩
  | cons v vs ih =>
    rw [List.length_cons] at hidx
    rw [val_cons] at hx
    have e : x + (v.toNat + 2 ^ 64 * val vs) * 2 ^ (64 * idx) =
        x + v.toNat * 2 ^ (64 * idx) + val vs * 2 ^ (64 * (idx + 1)) := by
      rw [show 64 * (idx + 1) = 64 + 64 * idx by ring, pow_add]; ring
    rw [e] at hx
    obtain ⟨y, h1, h2⟩ := approx_step idx x a v (by omega) h
    have hy : y < limit := by
      have h3 := (h2.mono (show idx + 2 ≤ 17 by omega)).2
      have h4 : ((x + v.toNat * 2 ^ (64 * idx) : Nat) : ℚ) ≤ (2 ^ 48 - 1) * 2 ^ 976 := by
        have : x + v.toNat * 2 ^ (64 * idx) ≤ (2 ^ 48 - 1) * 2 ^ 976 := le_trans (Nat.le_add_right _ _) hx
        have h48 : ((2 ^ 48 - 1 : Nat) : ℚ) = 2 ^ 48 - 1 := by norm_num
        rw [← h48]
        exact_mod_cast this
      have h5 : ((2 : ℚ) ^ 48 - 1) * (1 + 1 / 2 ^ 53) ^ 17 < 2 ^ 48 := by norm_num
      have h6 : (y : ℚ) < 2 ^ 48 * 2 ^ 976 := by
        refine lt_of_le_of_lt (h3.trans (mul_le_mul_of_nonneg_right h4 (by positivity))) ?_
        rw [mul_right_comm]
        exact mul_lt_mul_of_pos_right h5 (by positivity)
      rw [← pow_add] at h6
      unfold limit
      exact_mod_cast h6
    unfold approxLoop
    rw [if_pos (by omega), h1, if_pos hy]
    exact ih (idx + 1) _ y (by omega) h2 hx

theorem ofUsize_zero (v : BitVec 64) (d : Nat) (h : ofUsize v = .fin d) : d = 0 ↔ v = 0 := by
  obtain ⟨z, h1, h2, h3, _⟩ := ofUsize_eq v
  rw [h1] at h
  cases h
  constructor
  · intro h0
    subst h0
    apply BitVec.eq_of_toNat_eq
    simp only [BitVec.ofNat_eq_ofNat, BitVec.toNat_ofNat, Nat.zero_mod]
    omega
  · rintro rfl
    exact h2 (by simp)

/-- From the sixteenth limb on only infinity and NaN are left. -/
theorem approxLoop_high (vs : List (BitVec 64)) (idx : Nat) (acc : Fl) (hidx : 16 ≤ idx)
    (hlen : idx + vs.length ≤ 2 ^ 31) :
    approxLoop idx vs acc = if acc = .nan ∨ (0 : BitVec 64) ∈ vs then .nan else
      if vs = [] then acc else .inf := by
  induction vs generalizing idx acc with
  | nil =>
    unfold approxLoop
    by_cases h : acc = .nan <;> simp [h]
  | cons v vs ih =>
    rw [List.length_cons] at hlen
    obtain ⟨d, h1, _⟩ := ofUsize_eq v
    have hd := ofUsize_zero v d h1
    unfold approxLoop
    rw [if_pos (by omega), h1, powi_eq, if_neg (by omega), ih _ _ (by omega) (by omega)]
    by_cases hv : v = 0
    · have hd0 := hd.mpr hv
      subst hd0
      subst hv
      cases acc <;> simp [mulAdd]
    · have hd0 : d ≠ 0 := fun h => hv (hd.mp h)
      have hv' : ¬ (0#64 : BitVec 64) = v := fun h => hv h.symm
      cases acc <;> simp [mulAdd, hd0, hv']

/-- Below the sixteenth limb there is no NaN. -/
theorem approxLoop_notNan (vs : List (BitVec 64)) (idx : Nat) (acc : Fl)
    (hidx : idx + vs.length ≤ 16) (h : acc ≠ .nan) : approxLoop idx vs acc ≠ .nan := by
  induction vs generalizing idx acc with
  | nil => exact h
  | cons v vs ih =>
    rw [List.length_cons] at hidx
    rw [approxLoop, if_pos (by omega)]
    refine ih _ _ (by omega) ?_
    obtain ⟨d, h1, _⟩ := ofUsize_eq v
    rw [h1, powi_eq, if_pos (by omega)]
    cases acc with
    | fin a =>
      obtain ⟨z, h2, _⟩ := round_eq (d * 2 ^ (64 * idx) + a)
      simp only [mulAdd]
      rw [h2]
      split <;> simp
    | inf => simp [mulAdd]
    | nan => exact absurd rfl h

theorem approxLoop_append (us vs : List (BitVec 64)) (idx : Nat) (acc : Fl)
    (hlen : idx + us.length ≤ 2 ^ 31) :
    approxLoop idx (us ++ vs) acc = approxLoop (idx + us.length) vs (approxLoop idx us acc) := by
  induction us generalizing idx acc with
  | nil => rfl
  | cons u us ih =>
    rw [List.length_cons] at hlen
    have e : ∀ ws, approxLoop idx (u :: ws) acc =
        approxLoop (idx + 1) ws (mulAdd (ofUsize u) (powi usizeMaxF idx) acc) := by
      intro ws
      rw [approxLoop, if_pos (by omega)]
    rw [List.cons_append, e, e, ih _ _ (by omega), List.length_cons]
    rw [show idx + 1 + us.length = idx + (us.length + 1) by omega]

end BInt

end Verif
