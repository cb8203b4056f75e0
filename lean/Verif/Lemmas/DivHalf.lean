import Verif.Lemmas.DivExact
import Mathlib.Tactic.Ring
import Mathlib.Tactic.Linarith
import Mathlib.Data.Nat.Bitwise

/-!
# Dividing a power of two by twice itself with low-limb-first comparisons
-/

namespace Verif

variable {w : Nat}

theorem low_digit_zero {w x J k : Nat} (h : x % 2 ^ (w * J) = 0) (hk : k < J) :
    x / 2 ^ (w * k) % 2 ^ w = 0 := by
  have hd : 2 ^ (w * k) * 2 ^ w ∣ x := by
    refine Nat.dvd_trans ?_ (Nat.dvd_of_mod_eq_zero h)
    rw [← Nat.pow_add]
    apply Nat.pow_dvd_pow
    calc w * k + w = w * (k + 1) := by ring
      _ ≤ w * J := Nat.mul_le_mul_left _ hk
  obtain ⟨c, rfl⟩ := hd
  rw [Nat.mul_assoc, Nat.mul_div_cancel_left _ (Nat.two_pow_pos _), Nat.mul_mod_right]

theorem exists_low_digit {w x : Nat} : ∀ J, x % 2 ^ (w * J) ≠ 0 →
    ∃ j < J, (∀ k < j, x / 2 ^ (w * k) % 2 ^ w = 0) ∧ x / 2 ^ (w * j) % 2 ^ w ≠ 0 := by
  intro J
  induction J with
  | zero => intro h; simp [Nat.mod_one] at h
  | succ J ih =>
    intro h
    by_cases h0 : x % 2 ^ (w * J) = 0
    · refine ⟨J, by omega, fun k hk => low_digit_zero h0 hk, fun hz => h ?_⟩
      obtain ⟨c, rfl⟩ := Nat.dvd_of_mod_eq_zero h0
      rw [Nat.mul_div_cancel_left _ (Nat.two_pow_pos _)] at hz
      obtain ⟨e, rfl⟩ := Nat.dvd_of_mod_eq_zero hz
      rw [← Nat.mul_assoc, ← Nat.pow_add, show w * J + w = w * (J + 1) by ring, Nat.mul_mod_right]
    · obtain ⟨j, h1, h2, h3⟩ := ih h0
      exact ⟨j, by omega, h2, h3⟩

/-- Comparing with a power of two, from the least significant digit up. -/
theorem lowGe_two_pow (hw : 0 < w) (x D : Nat) :
    LowGe w x (2 ^ D) ↔ x % 2 ^ (w * (D / w)) ≠ 0 ∨
      2 ^ (D % w) ≤ x / 2 ^ (w * (D / w)) % 2 ^ w := by
  have hD : w * (D / w) + D % w = D := Nat.div_add_mod D w
  have hs : D % w < w := Nat.mod_lt _ hw
  generalize D / w = J at *
  generalize D % w = s at *
  have hsw : 2 ^ s < 2 ^ w := Nat.pow_lt_pow_right (by norm_num) hs
  have hdJ : 2 ^ D / 2 ^ (w * J) = 2 ^ s := by
    rw [← hD, Nat.pow_add, Nat.mul_div_cancel_left _ (Nat.two_pow_pos _)]
  have hdJ' : 2 ^ D / 2 ^ (w * J) % 2 ^ w = 2 ^ s := by rw [hdJ, Nat.mod_eq_of_lt hsw]
  have hlow : ∀ k < J, 2 ^ D / 2 ^ (w * k) % 2 ^ w = 0 := fun k hk =>
    low_digit_zero (by rw [← hD, Nat.pow_add, Nat.mul_mod_right]) hk
  have hhigh : ∀ k, J < k → 2 ^ D / 2 ^ (w * k) = 0 := by
    intro k hk
    apply Nat.div_eq_of_lt
    apply Nat.pow_lt_pow_right (by norm_num)
    have : w * (J + 1) ≤ w * k := Nat.mul_le_mul_left _ hk
    rw [Nat.mul_add] at this
    omega
  constructor
  · rintro (rfl | ⟨j, h1, h2⟩)
    · exact Or.inr (le_of_eq hdJ'.symm)
    · by_cases h0 : x % 2 ^ (w * J) = 0
      · right
        rcases Nat.lt_trichotomy j J with hj | rfl | hj
        · rw [low_digit_zero h0 hj] at h2
          omega
        · rw [hdJ'] at h2
          omega
        · rw [h1 J hj, hdJ']
      · exact Or.inl h0
  · rintro (h | h)
    · obtain ⟨j, h1, h2, h3⟩ := exists_low_digit J h
      refine Or.inr ⟨j, fun k hk => ?_, ?_⟩
      · rw [h2 k hk, hlow k (by omega)]
      · rw [hlow j h1]; omega
    · by_cases h0 : x % 2 ^ (w * J) = 0
      · rcases Nat.lt_or_eq_of_le h with hlt | heq
        · refine Or.inr ⟨J, fun k hk => ?_, by rw [hdJ']; exact hlt⟩
          rw [low_digit_zero h0 hk, hlow k hk]
        · -- equal there: look above
          obtain ⟨c, rfl⟩ := Nat.dvd_of_mod_eq_zero h0
          rw [Nat.mul_div_cancel_left _ (Nat.two_pow_pos _)] at heq
          by_cases hc : c / 2 ^ w = 0
          · left
            have := Nat.div_add_mod c (2 ^ w)
            rw [hc, ← heq] at this
            rw [← hD, Nat.pow_add, ← this]
            ring
          · rcases lowGe_zero hw (c / 2 ^ w) with hz | ⟨j, h1, h2⟩
            · exact absurd hz hc
            · have sh : ∀ k, 2 ^ (w * J) * c / 2 ^ (w * (J + 1 + k)) = c / 2 ^ w / 2 ^ (w * k) := by
                intro k
                rw [show w * (J + 1 + k) = w * J + (w + w * k) by ring, Nat.pow_add,
                  Nat.mul_div_mul_left _ _ (Nat.two_pow_pos _), Nat.pow_add, Nat.div_div_eq_div_mul]
              refine Or.inr ⟨J + 1 + j, fun k hk => ?_, ?_⟩
              · rcases Nat.lt_trichotomy k J with hkJ | rfl | hkJ
                · rw [low_digit_zero h0 hkJ, hlow k hkJ]
                · rw [hdJ', Nat.mul_div_cancel_left _ (Nat.two_pow_pos _), heq]
                · obtain ⟨e, rfl⟩ : ∃ e, k = J + 1 + e := ⟨k - (J + 1), by omega⟩
                  rw [sh, h1 e (by omega), hhigh _ hkJ]
                  simp
              · rw [sh, hhigh _ (by omega)]
                simpa using h2
      · obtain ⟨j, h1, h2, h3⟩ := exists_low_digit J h0
        refine Or.inr ⟨j, fun k hk => ?_, ?_⟩
        · rw [h2 k hk, hlow k (by omega)]
        · rw [hlow j h1]; omega

/-- What comes out when `2^N` is divided by `2^(N+1)`: ones up to bit `N`, from bit `w - 1` on if the
divisor is the top bit of a limb, and from bit 0 on otherwise. -/
def halfQuot (w N : Nat) : Nat := 2 ^ (N + 1) - 2 ^ (if (N + 2) % w = 0 then w - 1 else 0)

theorem halfQuot_testBit {e N i : Nat} (he : e ≤ N + 1) :
    (2 ^ (N + 1) - 2 ^ e).testBit i = (decide (e ≤ i) && decide (i ≤ N)) := by
  obtain ⟨c, hc⟩ : ∃ c, N + 1 = e + c := ⟨N + 1 - e, by omega⟩
  have h1 : 2 ^ (N + 1) - 2 ^ e = 2 ^ e * (2 ^ c - 1) := by
    rw [hc, Nat.pow_add, Nat.mul_sub, Nat.mul_one]
  rw [h1, Nat.testBit_two_pow_mul, Nat.testBit_two_pow_sub_one]
  by_cases h : e ≤ i
  · simp only [h, decide_true, Bool.true_and]
    apply decide_eq_decide.mpr
    omega
  · simp [h]

theorem halfQuot_div {e N i : Nat} (he : e ≤ N + 1) (hi : i ≤ e) :
    (2 ^ (N + 1) - 2 ^ e) / 2 ^ i = 2 ^ (N + 1 - i) - 2 ^ (e - i) := by
  have h1 : 2 ^ (N + 1) - 2 ^ e = 2 ^ i * (2 ^ (N + 1 - i) - 2 ^ (e - i)) := by
    have a : i + (N + 1 - i) = N + 1 := by omega
    have b : i + (e - i) = e := by omega
    rw [Nat.mul_sub, ← Nat.pow_add, ← Nat.pow_add, a, b]
  rw [h1, Nat.mul_div_cancel_left _ (Nat.two_pow_pos _)]

/-- The comparison at bit `i`. -/
theorem halfQuot_compare (hw : 0 < w) {W N i x : Nat} (hN : w ≤ N + 1) (hW : N + 1 < W) (hdv : w ∣ W)
    (hx : x < 2 ^ W)
    (h : 2 * (halfQuot w N / 2 ^ (i + 1)) * 2 ^ (N + 1) + x ≡ 2 ^ N / 2 ^ i [MOD 2 ^ W]) :
    LowGe w x (2 ^ (N + 1)) ↔ (halfQuot w N).testBit i = true := by
  rw [lowGe_two_pow hw]
  have hD : w * ((N + 1) / w) + (N + 1) % w = N + 1 := Nat.div_add_mod _ w
  have hs : (N + 1) % w < w := Nat.mod_lt _ hw
  have hJ : 1 ≤ (N + 1) / w := (Nat.one_le_div_iff hw).mpr hN
  have hwJ : w ≤ w * ((N + 1) / w) := Nat.le_mul_of_pos_right _ hJ
  have hJW : w * ((N + 1) / w) + w ≤ W := by
    obtain ⟨c, rfl⟩ := hdv
    have : (N + 1) / w < c := Nat.div_lt_of_lt_mul hW
    calc w * ((N + 1) / w) + w = w * ((N + 1) / w + 1) := by ring
      _ ≤ w * c := Nat.mul_le_mul_left _ this
  have he : (N + 2) % w = 0 ↔ (N + 1) % w = w - 1 := by
    rw [show N + 2 = N + 1 + 1 from rfl, Nat.add_mod]
    rcases Nat.lt_or_ge 1 w with h1 | h1
    · rw [Nat.mod_eq_of_lt h1]
      rcases Nat.lt_or_ge ((N + 1) % w + 1) w with h2 | h2
      · rw [Nat.mod_eq_of_lt h2]; omega
      · have : (N + 1) % w + 1 = w := by omega
        rw [this, Nat.mod_self]; omega
    · have : w = 1 := by omega
      subst this
      simp [Nat.mod_one]
  generalize hJe : w * ((N + 1) / w) = A at *
  generalize hse : (N + 1) % w = s at *
  unfold halfQuot at h ⊢
  set e := if (N + 2) % w = 0 then w - 1 else 0 with hedef
  have heN : e ≤ N + 1 := by rw [hedef]; split <;> omega
  rw [halfQuot_testBit heN]
  simp only [Bool.and_eq_true, decide_eq_true_eq]
  by_cases hiN : i ≤ N
  swap
  · -- above the only bit
    have h0 : 2 ^ N / 2 ^ i = 0 := Nat.div_eq_of_lt (Nat.pow_lt_pow_right (by norm_num) (by omega))
    have h1 : (2 ^ (N + 1) - 2 ^ e) / 2 ^ (i + 1) = 0 := by
      apply Nat.div_eq_of_lt
      exact lt_of_le_of_lt (Nat.sub_le _ _) (Nat.pow_lt_pow_right (by norm_num) (by omega))
    rw [h0, h1] at h
    have hx0 : x = 0 := by
      have h2 : (2 * 0 * 2 ^ (N + 1) + x) % 2 ^ W = 0 % 2 ^ W := h
      rw [Nat.mul_zero, Nat.zero_mul, Nat.zero_add, Nat.mod_eq_of_lt hx, Nat.zero_mod] at h2
      exact h2
    subst hx0
    have hp := Nat.two_pow_pos s
    simp only [Nat.zero_mod, Nat.zero_div, ne_eq, not_true_eq_false, false_or]
    omega
  · obtain ⟨k, rfl⟩ : ∃ k, N = i + k := ⟨N - i, by omega⟩
    have hn : 2 ^ (i + k) / 2 ^ i = 2 ^ k := by
      rw [Nat.pow_add, Nat.mul_div_cancel_left _ (Nat.two_pow_pos _)]
    rw [hn] at h
    generalize hQ : (2 ^ (i + k + 1) - 2 ^ e) / 2 ^ (i + 1) = Q at h
    have hdA : 2 ^ (i + k + 1) = 2 ^ A * 2 ^ s := by rw [← Nat.pow_add, hD]
    have hlow : x ≡ 2 ^ k [MOD 2 ^ A] := by
      have h1 := h.of_dvd (Nat.pow_dvd_pow 2 (by omega : A ≤ W))
      have h2 : 2 * Q * 2 ^ (i + k + 1) + x ≡ x [MOD 2 ^ A] := by
        rw [hdA, show 2 * Q * (2 ^ A * 2 ^ s) + x = x + 2 ^ A * (2 * Q * 2 ^ s) by ring]
        simp [Nat.ModEq]
      exact h2.symm.trans h1
    by_cases hk : k < A
    · have h1 : x % 2 ^ A = 2 ^ k := by
        have : x % 2 ^ A = 2 ^ k % 2 ^ A := hlow
        rw [this, Nat.mod_eq_of_lt (Nat.pow_lt_pow_right (by norm_num) hk)]
      have hp := Nat.two_pow_pos k
      have : e ≤ i := by rw [hedef]; split <;> omega
      simp only [h1]
      constructor
      · intro _; exact ⟨this, hiN⟩
      · intro _; left; omega
    · have hA0 : x % 2 ^ A = 0 := by
        have h1 : x % 2 ^ A = 2 ^ k % 2 ^ A := hlow
        rw [h1]
        exact Nat.mod_eq_zero_of_dvd (Nat.pow_dvd_pow 2 (by omega))
      obtain ⟨c, rfl⟩ := Nat.dvd_of_mod_eq_zero hA0
      rw [Nat.mul_div_cancel_left _ (Nat.two_pow_pos _)]
      obtain ⟨t, rfl⟩ : ∃ t, k = A + t := ⟨k - A, by omega⟩
      -- the digit
      have hdig : 2 * Q * 2 ^ s + c ≡ 2 ^ t [MOD 2 ^ w] := by
        have h1 := h.of_dvd (Nat.pow_dvd_pow 2 hJW)
        rw [hdA, show 2 * Q * (2 ^ A * 2 ^ s) + 2 ^ A * c = 2 ^ A * (2 * Q * 2 ^ s + c) by ring,
          Nat.pow_add, Nat.pow_add] at h1
        exact Nat.ModEq.mul_left_cancel' (Nat.two_pow_pos _).ne' h1
      have hts : t + i + 1 = s := by omega
      have htlt : 2 ^ t < 2 ^ s := Nat.pow_lt_pow_right (by norm_num) (by omega)
      have hsw : 2 ^ s < 2 ^ w := Nat.pow_lt_pow_right (by norm_num) hs
      simp only [Nat.mul_mod_right, ne_eq, not_true_eq_false, false_or]
      by_cases hlast : (i + (A + t) + 2) % w = 0
      · have hsl := he.mp hlast
        have hee : e = w - 1 := by rw [hedef, if_pos hlast]
        have h2w : 2 * 2 ^ s = 2 ^ w := by
          rw [← Nat.pow_succ', hsl]; congr 1; omega
        have hc : c ≡ 2 ^ t [MOD 2 ^ w] := by
          have h3 : 2 * Q * 2 ^ s + c ≡ c [MOD 2 ^ w] := by
            rw [show 2 * Q * 2 ^ s + c = c + 2 ^ w * Q by rw [← h2w]; ring]
            simp [Nat.ModEq]
          exact h3.symm.trans hdig
        have hc' : c % 2 ^ w = 2 ^ t := by
          have h4 : c % 2 ^ w = 2 ^ t % 2 ^ w := hc
          rw [h4, Nat.mod_eq_of_lt (by omega)]
        rw [hc', hee]
        constructor
        · intro h5; omega
        · intro h5; omega
      · have hsl : s ≠ w - 1 := fun hz => hlast (he.mpr hz)
        have hee : e = 0 := by rw [hedef, if_neg hlast]
        have hQv : Q + 1 = 2 ^ (A + t) := by
          rw [← hQ, hee, Nat.pow_zero]
          have h6 : 2 ^ (i + (A + t) + 1) - 1 = 2 ^ (i + 1) * (2 ^ (A + t) - 1) + (2 ^ (i + 1) - 1) := by
            rw [show i + (A + t) + 1 = (i + 1) + (A + t) by ring, Nat.pow_add, Nat.mul_sub]
            have := Nat.two_pow_pos (i + 1)
            have h7 : 2 ^ (i + 1) * 1 ≤ 2 ^ (i + 1) * 2 ^ (A + t) :=
              Nat.mul_le_mul_left _ (Nat.two_pow_pos _)
            omega
          rw [h6, Nat.mul_add_div (Nat.two_pow_pos _),
            Nat.div_eq_of_lt (by have := Nat.two_pow_pos (i + 1); omega)]
          have := Nat.two_pow_pos (A + t)
          omega
        have hc : c ≡ 2 ^ t + 2 ^ (s + 1) [MOD 2 ^ w] := by
          have h3 : 2 * Q * 2 ^ s + c + 2 ^ (s + 1) ≡ c [MOD 2 ^ w] := by
            have h4 : 2 * Q * 2 ^ s + c + 2 ^ (s + 1) = c + 2 ^ w * (2 ^ (A - w) * 2 ^ t * 2 ^ (s + 1)) := by
              have h5 : 2 ^ A = 2 ^ w * 2 ^ (A - w) := by rw [← Nat.pow_add]; congr 1; omega
              calc 2 * Q * 2 ^ s + c + 2 ^ (s + 1) = c + (Q + 1) * 2 ^ (s + 1) := by rw [Nat.pow_succ]; ring
                _ = _ := by rw [hQv, Nat.pow_add, h5]; ring
            rw [h4]
            simp [Nat.ModEq]
          exact h3.symm.trans (hdig.add_right _)
        have h2 : 2 ^ (s + 1) ≤ 2 ^ (w - 1) := Nat.pow_le_pow_right (by norm_num) (by omega)
        have h2' : 2 ^ w = 2 * 2 ^ (w - 1) := by rw [← Nat.pow_succ']; congr 1; omega
        have h2'' : 2 ^ (s + 1) = 2 * 2 ^ s := Nat.pow_succ'
        have hc' : c % 2 ^ w = 2 ^ t + 2 ^ (s + 1) := by
          have h4 : c % 2 ^ w = (2 ^ t + 2 ^ (s + 1)) % 2 ^ w := hc
          have h5 : 2 ^ t + 2 ^ (s + 1) < 2 ^ w := by omega
          rw [h4, Nat.mod_eq_of_lt h5]
        rw [hc', hee]
        constructor
        · intro _; exact ⟨Nat.zero_le _, hiN⟩
        · intro _
          calc 2 ^ s ≤ 2 ^ (s + 1) := Nat.pow_le_pow_right (by norm_num) (by omega)
            _ ≤ _ := Nat.le_add_left _ _

theorem divStep_half (hw : 0 < w) {W N : Nat} (hN : w ≤ N + 1) (hW : N + 1 < W) (hdv : w ∣ W) :
    DivStep w W (2 ^ N) (2 ^ (N + 1)) (fun i q r =>
      (q * 2 ^ (N + 1) + r) % 2 ^ W = 2 ^ N / 2 ^ i % 2 ^ W ∧ q = halfQuot w N / 2 ^ i) := by
  intro i q r g x hi ⟨h1, h2⟩ hx hg
  have hc := divStep_cong (w := w) W (2 ^ N) (2 ^ (N + 1)) (Nat.pow_lt_pow_right (by norm_num) hW)
    i q r g x hi h1 hx hg
  refine ⟨hc, ?_⟩
  have hxl : x < 2 ^ W := by rw [hx]; exact Nat.mod_lt _ (Nat.two_pow_pos _)
  have hcong : 2 * (halfQuot w N / 2 ^ (i + 1)) * 2 ^ (N + 1) + x ≡ 2 ^ N / 2 ^ i [MOD 2 ^ W] := by
    rw [← h2, div_pow_step (2 ^ N) i]
    have hx' : x ≡ 2 * r + ((2 ^ N).testBit i).toNat [MOD 2 ^ W] := by rw [hx]; exact Nat.mod_modEq _ _
    refine (hx'.add_left _).trans ?_
    have e : ∀ b : Nat, 2 * q * 2 ^ (N + 1) + (2 * r + b) = 2 * (q * 2 ^ (N + 1) + r) + b := by
      intro b; ring
    rw [e]
    have h1' : q * 2 ^ (N + 1) + r ≡ 2 ^ N / 2 ^ (i + 1) [MOD 2 ^ W] := h1
    exact (h1'.mul_left 2).add_right _
  have hb := halfQuot_compare hw hN hW hdv hxl hcong
  have hgb : g = (halfQuot w N).testBit i := by
    cases g <;> cases hq : (halfQuot w N).testBit i <;> rw [hq] at hb <;> simp_all
  rw [h2, hgb, ← div_pow_step]

end Verif
