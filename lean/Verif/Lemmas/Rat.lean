import Verif.Lemmas.Fixed

/-!
# Helper lemmas: rationals
-/

namespace Verif

namespace RatM

open Prim

variable {p : Prim}

/-- What `reduce` returns. -/
structure Reduced (p : Prim) (num denom : Int) (r : RatM) : Prop where
  valid : RatValid p r
  cross : r.num * denom = num * r.denom

theorem rem_ok {a b : Int} (hb : b ≠ 0) (h : ¬ (p.signed = true ∧ a = p.minV ∧ b = -1)) :
    rem p a b = .ok (a.tmod b) := by
  unfold rem; rw [if_neg hb, if_neg h]

theorem div_ok {a b : Int} (hb : b ≠ 0) (h : ¬ (p.signed = true ∧ a = p.minV ∧ b = -1)) :
    Prim.div p a b = .ok (a.tdiv b) := by
  unfold Prim.div; rw [if_neg hb, if_neg h]

theorem div_bad {a b : Int} (h : p.signed = true ∧ a = p.minV ∧ b = -1) :
    Prim.div p a b = .panic := by
  unfold Prim.div
  rw [if_neg (by omega), if_pos h]

theorem tdiv_inRange (hb : 2 ≤ p.bits) {a b : Int} (ha : p.InRange a)
    (hr : p.InRange b) (h : ¬ (p.signed = true ∧ a = p.minV ∧ b = -1)) : p.InRange (a.tdiv b) := by
  obtain ⟨b1, b2, b3⟩ := bounds (p := p) (by omega)
  unfold InRange at *
  have h1 : (a.tdiv b).natAbs ≤ a.natAbs := by
    rw [Int.natAbs_tdiv]; exact Nat.div_le_self _ _
  by_cases hs : p.signed = true
  · have e : p.minV = -p.maxV - 1 := by unfold minV maxV; rw [hs]; simp
    by_cases hm : a = p.minV
    · by_cases h0 : b = 0
      · subst h0; rw [Int.tdiv_zero]; omega
      by_cases h1' : b = 1
      · subst h1'; rw [Int.tdiv_one]; omega
      · have hb2 : 2 ≤ b.natAbs := by
          have : b ≠ -1 := fun hc => h ⟨hs, hm, hc⟩
          omega
        have h2 : (a.tdiv b).natAbs ≤ a.natAbs / 2 := by
          rw [Int.natAbs_tdiv]; exact Nat.div_le_div_left hb2 (by omega)
        have h4 : (4 : Int) ≤ 2 ^ p.bits := by
          have : (2 : Int) ^ 2 ≤ 2 ^ p.bits := pow_le_pow_right₀ (by norm_num) hb
          omega
        omega
    · omega
  · have e : p.minV = 0 := by unfold minV; rw [if_neg hs]
    have := Int.tdiv_nonneg (show 0 ≤ a by omega) (show 0 ≤ b by omega)
    omega

theorem reduce_cases (hb : 2 ≤ p.bits) {num denom : Int} (hn : p.InRange num)
    (hd : p.InRange denom) (h0 : denom ≠ 0) :
    reduce p num denom = .panic ∨ ∃ r, reduce p num denom = .ok r ∧ Reduced p num denom r ∧
      (¬ denom ∣ num → ¬ num ∣ denom → Int.gcd r.num r.denom = 1) ∧
      (0 ≤ num → 0 ≤ denom → 0 ≤ r.num ∧ 0 ≤ r.denom) := by
  have hself : Reduced p num denom ⟨num, denom⟩ := ⟨⟨hn, hd, h0⟩, rfl⟩
  have hone : p.InRange 1 := by
    obtain ⟨b1, b2, b3⟩ := bounds (p := p) (by omega)
    have h4 : (2 : Int) ^ 1 ≤ 2 ^ (p.bits - 1) := pow_le_pow_right₀ (by norm_num) (by omega)
    have h5 := two_pow_pred (show 0 < p.bits by omega)
    unfold InRange minV maxV at *
    split <;> omega
  have hzero : p.InRange 0 := by
    obtain ⟨b1, b2, b3⟩ := bounds (p := p) (by omega)
    exact ⟨b1, b2⟩
  unfold reduce
  by_cases e0 : num = 0
  · rw [if_pos e0]
    refine .inr ⟨_, rfl, ⟨⟨hzero, hone, by decide⟩, ?_⟩, fun h _ => ?_, fun _ _ => by decide⟩
    · rw [e0]; simp [zero]
    · exact absurd (e0 ▸ dvd_zero _) h
  rw [if_neg e0]
  by_cases e1 : num = 1 ∧ denom = 1
  · rw [if_pos e1]
    exact .inr ⟨_, rfl, hself, fun h _ => absurd (by rw [e1.1, e1.2]) h, fun h h' => ⟨h, h'⟩⟩
  rw [if_neg e1]
  by_cases c1 : p.signed = true ∧ num = p.minV ∧ denom = -1
  · left; unfold rem; rw [if_neg h0, if_pos c1]; rfl
  rw [rem_ok h0 c1]
  simp only [Res.bind]
  by_cases d1 : num.tmod denom = 0
  · rw [if_pos d1]
    exact .inr ⟨_, rfl, hself, fun h _ => absurd (Int.dvd_of_tmod_eq_zero d1) h,
      fun h h' => ⟨h, h'⟩⟩
  rw [if_neg d1]
  by_cases c2 : p.signed = true ∧ denom = p.minV ∧ num = -1
  · left; unfold rem; rw [if_neg e0, if_pos c2]
  rw [rem_ok e0 c2]
  simp only
  by_cases d2 : denom.tmod num = 0
  · rw [if_pos d2]
    exact .inr ⟨_, rfl, hself, fun _ h => absurd (Int.dvd_of_tmod_eq_zero d2) h,
      fun h h' => ⟨h, h'⟩⟩
  rw [if_neg d2]
  obtain ⟨g, hg, hgabs, hgr, hgn⟩ := gcd_spec hb hn hd (by
    rintro ⟨hs, ⟨x, y⟩ | ⟨x, y⟩⟩
    · exact c1 ⟨hs, x, y⟩
    · exact c2 ⟨hs, y, x⟩)
  rw [hg]
  simp only
  have hg0 : g ≠ 0 := by
    rintro rfl
    exact e0 (Int.gcd_eq_zero_iff.mp hgabs.symm).1
  have hgd1 : g ∣ num := by
    rw [← Int.natAbs_dvd, hgabs]; exact Int.gcd_dvd_left ..
  have hgd2 : g ∣ denom := by
    rw [← Int.natAbs_dvd, hgabs]; exact Int.gcd_dvd_right ..
  by_cases c3 : p.signed = true ∧ num = p.minV ∧ g = -1
  · left; rw [div_bad c3]
  rw [div_ok hg0 c3]
  simp only
  by_cases c4 : p.signed = true ∧ denom = p.minV ∧ g = -1
  · left; rw [div_bad c4]
  rw [div_ok hg0 c4]
  simp only
  obtain ⟨a, ha⟩ := hgd1
  obtain ⟨b, hb'⟩ := hgd2
  have ea : num.tdiv g = a := by rw [ha, Int.mul_tdiv_cancel_left _ hg0]
  have eb : denom.tdiv g = b := by rw [hb', Int.mul_tdiv_cancel_left _ hg0]
  have hin1 := tdiv_inRange hb hn hgr c3
  have hin2 := tdiv_inRange hb hd hgr c4
  rw [ea] at hin1 ⊢
  rw [eb] at hin2 ⊢
  refine .inr ⟨_, rfl, ⟨⟨hin1, hin2, ?_⟩, ?_⟩, fun _ _ => ?_, fun h h' => ?_⟩
  · rintro rfl; exact h0 (by rw [hb', Int.mul_zero])
  · rw [ha, hb']; ring
  · have h1 : g.natAbs * Int.gcd a b = g.natAbs := by
      rw [← Int.gcd_mul_left, ← ha, ← hb', hgabs]
    have h2 : 0 < g.natAbs := Int.natAbs_pos.mpr hg0
    exact Nat.eq_of_mul_eq_mul_left h2 (by rw [h1, Nat.mul_one])
  · have hgp : 0 < g := lt_of_le_of_ne (hgn h h') (Ne.symm hg0)
    constructor
    · exact nonneg_of_mul_nonneg_right (ha ▸ h) hgp
    · exact nonneg_of_mul_nonneg_right (hb' ▸ h') hgp

theorem reduce_ok (hb : 2 ≤ p.bits) {num denom : Int} (hn : p.InRange num)
    (hd : p.InRange denom) (h0 : denom ≠ 0) (m1 : NoMin p num) (m2 : NoMin p denom) :
    ∃ r, reduce p num denom = .ok r := by
  unfold reduce
  split
  · exact ⟨_, rfl⟩
  rename_i e0
  split
  · exact ⟨_, rfl⟩
  rw [rem_ok h0 (fun h => m1 ⟨h.1, h.2.1⟩)]
  simp only [Res.bind]
  split
  · exact ⟨_, rfl⟩
  rw [rem_ok e0 (fun h => m2 ⟨h.1, h.2.1⟩)]
  simp only
  split
  · exact ⟨_, rfl⟩
  obtain ⟨g, hg, hgabs, hgr, hgn⟩ := gcd_spec hb hn hd (by
    rintro ⟨hs, ⟨x, y⟩ | ⟨x, y⟩⟩
    · exact m1 ⟨hs, x⟩
    · exact m2 ⟨hs, y⟩)
  have hg0 : g ≠ 0 := by
    rintro rfl
    exact e0 (Int.gcd_eq_zero_iff.mp hgabs.symm).1
  rw [hg]
  simp only
  rw [div_ok hg0 (fun h => m1 ⟨h.1, h.2.1⟩)]
  simp only
  rw [div_ok hg0 (fun h => m2 ⟨h.1, h.2.1⟩)]
  exact ⟨_, rfl⟩

theorem Reduced.val {num denom : Int} {r : RatM} (h : Reduced p num denom r) (h0 : denom ≠ 0) :
    qval r = num / denom := by
  unfold qval
  have h1 : (denom : ℚ) ≠ 0 := by exact_mod_cast h0
  have h2 : (r.denom : ℚ) ≠ 0 := by exact_mod_cast h.valid.nonzero
  rw [div_eq_div_iff h2 h1]
  exact_mod_cast h.cross

theorem newUnwrap_zero (num : Int) : newUnwrap p num 0 = .panic := by
  unfold newUnwrap new; rw [if_pos rfl]; rfl

theorem newUnwrap_eq {num denom : Int} (h0 : denom ≠ 0) :
    newUnwrap p num denom = reduce p num denom := by
  unfold newUnwrap new
  rw [if_neg h0]
  cases reduce p num denom <;> rfl

/-- Whatever `Rat::new(..).unwrap()` returns has the value of the fraction. -/
theorem newUnwrap_val (hb : 2 ≤ p.bits) {num denom : Int} (hn : p.InRange num)
    (hd : p.InRange denom) {r : RatM} (h : newUnwrap p num denom = .ok r) :
    RatValid p r ∧ denom ≠ 0 ∧ qval r = num / denom := by
  by_cases h0 : denom = 0
  · rw [h0, newUnwrap_zero] at h; exact absurd h (by simp)
  · rw [newUnwrap_eq h0] at h
    rcases reduce_cases hb hn hd h0 with h1 | ⟨r', h1, h2, _⟩
    · rw [h1] at h; exact absurd h (by simp)
    · rw [h1, Res.ok.injEq] at h
      subst h
      exact ⟨h2.valid, h0, h2.val h0⟩

theorem newUnwrap_ok (hb : 2 ≤ p.bits) {num denom : Int} (hn : p.InRange num)
    (hd : p.InRange denom) (h0 : denom ≠ 0) (m1 : NoMin p num) (m2 : NoMin p denom) :
    ∃ r, newUnwrap p num denom = .ok r ∧ RatValid p r ∧ qval r = num / denom := by
  obtain ⟨r, h⟩ := reduce_ok hb hn hd h0 m1 m2
  rw [← newUnwrap_eq h0] at h
  obtain ⟨a, _, c⟩ := newUnwrap_val hb hn hd h
  exact ⟨r, h, a, c⟩

theorem arith_debug {z r : Int} (h : arith .debug p z = .ok r) : p.InRange z ∧ r = z := by
  unfold arith at h
  by_cases hz : p.InRange z
  · rw [if_pos hz, Res.ok.injEq] at h; exact ⟨hz, h.symm⟩
  · rw [if_neg hz] at h; exact absurd h (by simp)

theorem bind_ok {α β : Type} {x : Res α} {f : α → Res β} {b : β} (h : x.bind f = .ok b) :
    ∃ a, x = .ok a ∧ f a = .ok b := by
  cases x with
  | ok a => exact ⟨a, rfl, h⟩
  | panic => exact absurd h (by simp [Res.bind])
  | hang => exact absurd h (by simp [Res.bind])

end RatM

end Verif
