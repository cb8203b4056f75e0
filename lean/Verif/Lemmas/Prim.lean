import Mathlib.Data.Int.ModEq
import Mathlib.Data.Nat.Factorial.Basic
import Mathlib.Tactic.Ring
import Mathlib.Tactic.Linarith
import Mathlib.Tactic.NormNum
import Mathlib.Tactic.Positivity
import Verif.Model.Prim

/-!
# Helper lemmas: primitive integers
-/

namespace Verif

namespace Prim

variable {p : Prim}

theorem two_pow_pred (h : 0 < p.bits) : (2 : Int) ^ p.bits = 2 * 2 ^ (p.bits - 1) := by
  rw [← pow_succ']
  congr 1; omega

/-- The three facts about bounds that are used below. -/
theorem bounds (h : 0 < p.bits) : p.minV ≤ 0 ∧ 0 ≤ p.maxV ∧ p.maxV - p.minV + 1 = 2 ^ p.bits := by
  have h1 := two_pow_pred h
  have h2 : (0 : Int) < 2 ^ (p.bits - 1) := by positivity
  unfold minV maxV
  split <;> refine ⟨?_, ?_, ?_⟩ <;> omega

theorem wrap_spec (h : 0 < p.bits) (z : Int) :
    p.InRange (p.wrap z) ∧ (2 ^ p.bits : Int) ∣ p.wrap z - z := by
  have h1 := two_pow_pred h
  have h2 : (0 : Int) < 2 ^ (p.bits - 1) := by positivity
  unfold InRange wrap minV maxV
  have hcast : ((2 ^ p.bits : Nat) : Int) = 2 ^ p.bits := by push_cast; ring
  split
  · have hpos : 0 < 2 ^ p.bits := by positivity
    have a1 := Int.le_bmod (x := z) hpos
    have a2 := Int.bmod_lt (x := z) hpos
    rw [hcast] at a1 a2
    refine ⟨⟨by omega, by omega⟩, ?_⟩
    have a3 := Int.dvd_bmod_sub_self (x := z) (m := 2 ^ p.bits)
    rw [hcast] at a3
    exact a3
  · have a1 := Int.emod_nonneg z (show (2 ^ p.bits : Int) ≠ 0 by omega)
    have a2 := Int.emod_lt_of_pos z (show (0 : Int) < 2 ^ p.bits by omega)
    refine ⟨⟨by omega, by omega⟩, ?_⟩
    exact Int.dvd_self_sub_of_emod_eq rfl |> fun h => by
      have := dvd_neg.mpr h
      rwa [neg_sub] at this

/-- Congruent values of a type are equal. -/
theorem eq_of_dvd (h : 0 < p.bits) {a b : Int} (ha : p.InRange a) (hb : p.InRange b)
    (hd : (2 ^ p.bits : Int) ∣ a - b) : a = b := by
  obtain ⟨_, _, h3⟩ := bounds h
  unfold InRange at ha hb
  have := Int.eq_zero_of_abs_lt_dvd hd (by rw [abs_lt]; constructor <;> omega)
  omega

theorem wrap_eq (h : 0 < p.bits) {z : Int} (hz : p.InRange z) : p.wrap z = z :=
  eq_of_dvd h (wrap_spec h z).1 hz (wrap_spec h z).2

theorem arith_ok (m : Mode) {z : Int} (hz : p.InRange z) : arith m p z = .ok z := by
  unfold arith; rw [if_pos hz]

/-! ## gcd -/

/-- The two pairs on which a step of the loop overflows, now or at the next step. -/
def GcdBad (p : Prim) (a b : Int) : Prop :=
  p.signed = true ∧ ((a = p.minV ∧ b = -1) ∨ (a = -1 ∧ b = p.minV))

instance (p : Prim) (a b : Int) : Decidable (GcdBad p a b) := by unfold GcdBad; infer_instance

theorem natAbs_le (hs : p.signed = true) {a : Int} (ha : p.InRange a) :
    a.natAbs ≤ p.minV.natAbs := by
  unfold InRange minV maxV at *
  rw [hs] at ha ⊢
  simp only [if_true] at *
  omega

theorem minV_lt (hb : 2 ≤ p.bits) (hs : p.signed = true) : p.minV ≤ -2 := by
  unfold minV
  rw [hs]
  simp only [if_true]
  have : (2 : Int) ^ 1 ≤ 2 ^ (p.bits - 1) := pow_le_pow_right₀ (by norm_num) (by omega)
  omega

theorem inRange_tmod (hb : 2 ≤ p.bits) {a : Int} (ha : p.InRange a)
    (b : Int) : p.InRange (a.tmod b) := by
  obtain ⟨h1, h2, _⟩ := bounds (p := p) (by omega)
  unfold InRange at *
  rcases Int.le_total 0 a with h | h
  · have e1 := Int.tmod_nonneg b h
    have e2 : (a.tmod b).natAbs ≤ a.natAbs := by rw [Int.natAbs_tmod]; exact Nat.mod_le _ _
    omega
  · have e1 : a.tmod b ≤ 0 := by
      have := Int.tmod_nonneg b (show 0 ≤ -a by omega)
      rw [Int.neg_tmod] at this
      omega
    have e2 : (a.tmod b).natAbs ≤ a.natAbs := by rw [Int.natAbs_tmod]; exact Nat.mod_le _ _
    omega

theorem gcdLoop_spec (hb : 2 ≤ p.bits) (fuel : Nat) (mn mx : Int) (h1 : p.InRange mn)
    (h2 : p.InRange mx) (hbad : ¬ GcdBad p mn mx) (hf : mn.natAbs ≤ fuel) :
    ∃ g, gcdLoop p fuel mn mx = .ok g ∧ g.natAbs = Int.gcd mn mx ∧ p.InRange g ∧
      (0 ≤ mn → 0 ≤ mx → 0 ≤ g) := by
  induction fuel generalizing mn mx with
  | zero =>
    have : mn = 0 := by omega
    subst this
    exact ⟨mx, by simp [gcdLoop], by simp, h2, fun _ h => h⟩
  | succ fuel ih =>
    unfold gcdLoop
    by_cases h0 : mn = 0
    · subst h0
      exact ⟨mx, by simp, by simp, h2, fun _ h => h⟩
    · rw [if_pos h0]
      have hrem : rem p mx mn = .ok (mx.tmod mn) := by
        unfold rem
        rw [if_neg h0, if_neg]
        rintro ⟨e1, e2, e3⟩
        exact hbad ⟨e1, .inr ⟨e3, e2⟩⟩
      rw [hrem]
      simp only [Res.bind]
      have hlt : (mx.tmod mn).natAbs < mn.natAbs := by
        rw [Int.natAbs_tmod]
        exact Nat.mod_lt _ (by omega)
      obtain ⟨g, g1, g2, g3, g4⟩ := ih (mx.tmod mn) mn (inRange_tmod hb h2 mn) h1 (by
        rintro ⟨e1, (⟨e2, e3⟩ | ⟨e2, e3⟩)⟩
        · have := minV_lt hb e1
          omega
        · by_cases e4 : mx = p.minV
          · rw [e4, e3] at e2
            simp at e2
          · have := natAbs_le e1 h2
            have e5 : mx.natAbs < mn.natAbs := by
              rw [e3]
              rcases Nat.lt_or_ge mx.natAbs p.minV.natAbs with h | h
              · exact h
              · have := minV_lt hb e1
                unfold InRange maxV at h2
                have hm : p.minV = -2 ^ (p.bits - 1) := by unfold minV; rw [e1]; rfl
                rw [e1] at h2
                simp only [if_true] at h2
                omega
            have e6 : mx.tmod mn = mx := by
              have := Int.natAbs_tmod mx mn
              rw [Nat.mod_eq_of_lt e5] at this
              rcases Int.le_total 0 mx with h | h
              · have := Int.tmod_nonneg mn h; omega
              · have h' := Int.tmod_nonneg mn (show 0 ≤ -mx by omega)
                rw [Int.neg_tmod] at h'
                omega
            rw [e6] at e2
            exact hbad ⟨e1, .inl ⟨e3, e2⟩⟩) (by omega)
      refine ⟨g, g1, ?_, g3, fun _ hm => g4 (Int.tmod_nonneg _ hm) (by omega)⟩
      rw [g2, Int.gcd_def, Int.gcd_def, Int.natAbs_tmod, ← Nat.gcd_rec, Nat.gcd_comm]

theorem gcd_spec (hb : 2 ≤ p.bits) {a b : Int} (h1 : p.InRange a) (h2 : p.InRange b)
    (hbad : ¬ GcdBad p a b) :
    ∃ g, gcd p a b = .ok g ∧ g.natAbs = Int.gcd a b ∧ p.InRange g ∧ (0 ≤ a → 0 ≤ b → 0 ≤ g) := by
  unfold gcd
  by_cases h0 : a = 0 ∧ b = 0
  · rw [if_pos h0]
    obtain ⟨rfl, rfl⟩ := h0
    exact ⟨0, rfl, by simp, h1, fun _ _ => Int.le_refl 0⟩
  · rw [if_neg h0]
    unfold minmax
    by_cases hle : a ≤ b
    · rw [if_pos hle]
      exact gcdLoop_spec hb _ a b h1 h2 hbad (Nat.le_refl _)
    · rw [if_neg hle]
      have hbad' : ¬ GcdBad p b a := by
        rintro ⟨e1, h | h⟩
        · exact hbad ⟨e1, .inr ⟨h.2, h.1⟩⟩
        · exact hbad ⟨e1, .inl ⟨h.2, h.1⟩⟩
      obtain ⟨g, g1, g2, g3, g4⟩ := gcdLoop_spec hb _ b a h2 h1 hbad' (Nat.le_refl _)
      exact ⟨g, g1, by rw [g2, Int.gcd_comm], g3, fun x y => g4 y x⟩

theorem gcd_bad (hb : 2 ≤ p.bits) {a b : Int} (hbad : GcdBad p a b) : gcd p a b = .panic := by
  have hs := hbad.1
  have hlt := minV_lt hb hs
  have key : gcdLoop p p.minV.natAbs p.minV (-1) = .panic := by
    obtain ⟨n, hn⟩ : ∃ n, p.minV.natAbs = n + 2 := ⟨p.minV.natAbs - 2, by omega⟩
    rw [hn]
    have hr : rem p (-1) p.minV = .ok (-1) := by
      unfold rem
      rw [if_neg (by omega), if_neg (by omega)]
      congr 1
      have h1 := Int.natAbs_tmod (-1) p.minV
      rw [Nat.mod_eq_of_lt (by omega)] at h1
      have h2 := Int.tmod_nonneg p.minV (show 0 ≤ -(-1 : Int) by omega)
      rw [Int.neg_tmod] at h2
      omega
    have hr2 : rem p p.minV (-1) = .panic := by
      unfold rem
      rw [if_neg (by omega), if_pos ⟨hs, rfl, rfl⟩]
    rw [gcdLoop, if_pos (by omega), hr]
    simp only [Res.bind]
    rw [gcdLoop, if_pos (by omega), hr2]
    rfl
  unfold gcd minmax
  rcases hbad.2 with ⟨rfl, rfl⟩ | ⟨rfl, rfl⟩
  · rw [if_neg (by omega), if_pos (by omega)]
    exact key
  · rw [if_neg (by omega), if_neg (by omega)]
    exact key

end Prim

end Verif
