import Verif.Lemmas.Gauss
import Verif.Lemmas.FloatSum
import Verif.Spec.Elimination

/-!
# Elimination on floats that happens to be exact
-/

namespace Verif

namespace Gauss

section step

variable {M K : Type} {ops : MatOps M K} {R C : Nat} {Rep : M → (Nat → Nat → K) → Prop}
  (h : Good ops R C Rep)
include h

variable [Zero K] [One K] [Neg K] [Sub K] [Mul K] [Div K] [DecidableEq K] [LT K] [DecidableLT K]
  [PartialCmp K]

/-- A column without pivot. -/
theorem gaussStep_skip {col : Nat} (hcol : col < C) {s : MatOps.GState M K} {f : Nat → Nat → K}
    (hm : Rep s.m f) (hr : s.row ≤ R) (hz : ∀ i, s.row ≤ i → i < R → f i col = 0) :
    ops.gaussStep C R col s = .ok s := by
  obtain ⟨b, e, hb⟩ := allZero_spec h hm hcol (R - s.row) s.row (by omega)
  unfold MatOps.gaussStep
  rw [e]
  simp only [Res.bind]
  rw [if_pos (hb.mpr hz)]

/-- A column with the pivot in row `small`. -/
theorem gaussStep_eq {col : Nat} (hcol : col < C) {s : MatOps.GState M K} {f : Nat → Nat → K}
    (hm : Rep s.m f) {small : Nat} (hs : ops.smallIdx s.m col s.row R = .ok small)
    (h1 : s.row ≤ small) (h2 : small < R) (h3 : f small col ≠ 0) :
    ∃ m' g, ops.gaussStep C R col s =
        .ok ⟨m', s.row + 1, if small ≠ s.row then -s.factor else s.factor⟩ ∧ Rep m' g ∧
      ∀ a b, a < R → b < C → g a b = if s.row < a ∧ col ≤ b then
          f (Equiv.swap small s.row a) b - f small b * (f (Equiv.swap small s.row a) col / f small col)
        else f (Equiv.swap small s.row a) b := by
  obtain ⟨b, e, hb⟩ := allZero_spec h hm hcol (R - s.row) s.row (by omega)
  unfold MatOps.gaussStep
  rw [e]
  simp only [Res.bind]
  have hbf : b = false := by
    cases b with
    | false => rfl
    | true => exact absurd (hb.mp rfl small h1 h2) h3
  subst hbf
  rw [if_neg (by simp), hs]
  simp only
  have hpiv : ∃ m1 f1, ops.pivot s small = .ok ⟨m1, s.row, if small ≠ s.row then -s.factor else s.factor⟩ ∧
      Rep m1 f1 ∧ ∀ a b, f1 a b = f (Equiv.swap small s.row a) b := by
    unfold MatOps.pivot
    by_cases hne : small ≠ s.row
    · rw [if_pos hne, if_pos hne]
      obtain ⟨m', e3, hm'⟩ := h.swap hm h2 (show s.row < R by omega)
      rw [e3]
      refine ⟨_, _, rfl, hm', fun a b => ?_⟩
      rw [Equiv.swap_apply_def]
      split
      · rfl
      · split <;> rfl
    · rw [if_neg hne, if_neg hne]
      have hh : small = s.row := not_not.mp hne
      exact ⟨s.m, f, rfl, hm, fun a b => by rw [hh, Equiv.swap_self]; rfl⟩
  obtain ⟨m1, f1, e4, hm1, hf1⟩ := hpiv
  rw [e4]
  simp only
  rw [h.get hm1 (show s.row < R by omega) hcol]
  simp only
  obtain ⟨m', g, e5, hm', hg⟩ := elimBelow_any h hm1 hcol (show s.row < R by omega)
    (R - (s.row + 1)) (by omega)
  unfold MatOps.elimBelow
  rw [e5]
  refine ⟨_, g, rfl, hm', fun a b ha hb => ?_⟩
  rw [hg a b hb, show s.row + 1 + (R - (s.row + 1)) = R by omega, hf1, hf1, hf1, hf1,
    Equiv.swap_apply_right]
  by_cases hc : s.row < a ∧ col ≤ b
  · rw [if_pos hc, if_pos ⟨hc.1, ha, hc.2⟩]
  · rw [if_neg hc, if_neg fun hh => hc ⟨hh.1, hh.2.2⟩]

end step

section sim

open Flt

variable {fm : FloatFmt} {M M' : Type} {ops : MatOps M ℚ} {ops' : MatOps M' (Flt fm)} {N : Nat}
  {Rep : M → (Nat → Nat → ℚ) → Prop} {Rep' : M' → (Nat → Nat → Flt fm) → Prop}
  (hq : Good ops N N Rep) (hF : Good ops' N N Rep')

theorem fin_eq_zero {q : ℚ} : (Flt.fin q : Flt fm) = 0 ↔ q = 0 := by
  constructor
  · intro h; injection h
  · rintro rfl; rfl

theorem fin_lt {a b : ℚ} : (Flt.fin a : Flt fm) < Flt.fin b ↔ a < b := by
  show ltB _ _ = true ↔ _
  simp [ltB]

include hq hF

/-- The search for the pivot finds the same row. -/
theorem minLoop_sim {m : M} {m' : M'} {g : Nat → Nat → ℚ} (hm : Rep m g)
    (hm' : Rep' m' fun i j => .fin (g i j)) {col row : Nat} (hc : col < N) (n : Nat) (hn : row + n ≤ N) :
    ∃ best, forUpM n (fun idx best =>
      (ops.get m (row + idx) col).bind fun v =>
        if MatOps.clash best v then .panic else .ok (MatOps.keepMin best idx v)) none = .ok best ∧
      forUpM n (fun idx best =>
      (ops'.get m' (row + idx) col).bind fun v =>
        if MatOps.clash best v then .panic else .ok (MatOps.keepMin best idx v)) none =
          .ok (best.map fun p => (p.1, Flt.fin p.2)) ∧
      (∀ i, i < n → g (row + i) col ≠ 0 → ∃ idx w, best = some (idx, w) ∧ w ≤ g (row + i) col) ∧
      ∀ idx w, best = some (idx, w) → idx < n ∧ g (row + idx) col = w ∧ w ≠ 0 := by
  induction n with
  | zero => exact ⟨none, rfl, rfl, fun i hi => by omega, fun _ _ hh => by simp at hh⟩
  | succ n ih =>
    obtain ⟨best, e, e', h1, h2⟩ := ih (by omega)
    rw [forUpM, e, forUpM, e']
    simp only [Res.bind]
    rw [hq.get hm (by omega) hc, hF.get hm' (by omega) hc]
    simp only [clash_false, Bool.false_eq_true, if_false]
    have hcl : MatOps.clash (best.map fun p => (p.1, (Flt.fin p.2 : Flt fm)))
        (Flt.fin (g (row + n) col)) = false := by
      cases best <;> simp [MatOps.clash, PartialCmp.comparable]
    rw [hcl]
    simp only [Bool.false_eq_true, if_false]
    refine ⟨_, rfl, ?_, ?_, ?_⟩
    · congr 1
      unfold MatOps.keepMin
      simp only [isZero_iff, fin_eq_zero]
      split
      · rfl
      · cases best with
        | none => rfl
        | some p =>
          simp only [Option.map_some, fin_lt]
          split <;> rfl
    · intro i hi hne
      unfold MatOps.keepMin
      by_cases hz : g (row + n) col = 0
      · rw [if_pos (c := ZeroTest.IsZero _) hz]
        rcases Nat.lt_succ_iff_lt_or_eq.mp hi with hi | rfl
        · exact h1 i hi hne
        · exact absurd hz hne
      · rw [if_neg (c := ZeroTest.IsZero _) hz]
        rcases Nat.lt_succ_iff_lt_or_eq.mp hi with hi | rfl
        · obtain ⟨idx, w, rfl, hw⟩ := h1 i hi hne
          simp only
          by_cases hlt : g (row + n) col < w
          · exact ⟨_, _, by rw [if_pos hlt], by linarith⟩
          · exact ⟨_, _, by rw [if_neg hlt], hw⟩
        · cases best with
          | none => exact ⟨_, _, rfl, le_refl _⟩
          | some p =>
            obtain ⟨idx, w⟩ := p
            simp only
            by_cases hlt : g (row + i) col < w
            · exact ⟨_, _, by rw [if_pos hlt], le_refl _⟩
            · exact ⟨_, _, by rw [if_neg hlt], not_lt.mp hlt⟩
    · unfold MatOps.keepMin
      intro idx w
      by_cases hz : g (row + n) col = 0
      · rw [if_pos (c := ZeroTest.IsZero _) hz]
        intro hb
        obtain ⟨a, b, c⟩ := h2 idx w hb
        exact ⟨by omega, b, c⟩
      · rw [if_neg (c := ZeroTest.IsZero _) hz]
        intro hb
        split at hb
        · simp only [Option.some.injEq, Prod.mk.injEq] at hb
          obtain ⟨rfl, rfl⟩ := hb
          exact ⟨by omega, rfl, hz⟩
        · rename_i j w'
          split at hb
          · simp only [Option.some.injEq, Prod.mk.injEq] at hb
            obtain ⟨rfl, rfl⟩ := hb
            exact ⟨by omega, rfl, hz⟩
          · obtain ⟨a, b, c⟩ := h2 idx w hb
            exact ⟨by omega, b, c⟩

theorem smallIdx_sim {m : M} {m' : M'} {g : Nat → Nat → ℚ} (hm : Rep m g)
    (hm' : Rep' m' fun i j => .fin (g i j)) {col row : Nat} (hc : col < N) (hr : row ≤ N)
    (hz : ∃ i, row ≤ i ∧ i < N ∧ g i col ≠ 0) :
    ∃ s, ops.smallIdx m col row N = .ok s ∧ ops'.smallIdx m' col row N = .ok s ∧ row ≤ s ∧ s < N ∧
      g s col ≠ 0 ∧ ∀ i, row ≤ i → i < N → g i col ≠ 0 → g s col ≤ g i col := by
  obtain ⟨best, e, e', h1, h2⟩ := minLoop_sim hq hF hm hm' (row := row) hc (N - row) (by omega)
  obtain ⟨i, hi1, hi2, hi3⟩ := hz
  obtain ⟨idx, w, rfl, _⟩ := h1 (i - row) (by omega) (by rwa [show row + (i - row) = i by omega])
  obtain ⟨a, b, c⟩ := h2 idx w rfl
  unfold MatOps.smallIdx
  rw [e, e']
  refine ⟨idx + row, rfl, rfl, by omega, by omega, by rw [Nat.add_comm, b]; exact c, fun i k1 k2 k3 => ?_⟩
  obtain ⟨idx', w', hb', hw'⟩ := h1 (i - row) (by omega) (by rwa [show row + (i - row) = i by omega])
  simp only [Option.some.injEq, Prod.mk.injEq] at hb'
  rw [show row + (i - row) = i by omega, ← hb'.2] at hw'
  rw [Nat.add_comm, b]
  exact hw'

/-- Elimination on floats is elimination on rational numbers, as long as nothing is rounded. -/
theorem gaussElim_sim {A : Nat → Nat → ℚ} {m : M} {m' : M'} (hm : Rep m A)
    (hm' : Rep' m' fun i j => .fin (A i j))
    (hexact : ∀ k B p q, Arises (toM N N A) k B → IsPivot k B p q → ∀ i : Fin N, k ≤ i → i ≠ p →
      fm.Has (B i q / B p q) ∧ ∀ j, fm.Has (B p j * (B i q / B p q)) ∧
        fm.Has (B i j - B p j * (B i q / B p q))) :
    ∃ t t' g d k, ops.gaussElim N N m = .ok (t, d) ∧ ops'.gaussElim N N m' = .ok (t', .fin d) ∧
      Rep t g ∧ Rep' t' (fun i j => .fin (g i j)) ∧ Arises (toM N N A) k (toM N N g) ∧ (d = 1 ∨ d = -1) ∧
      ∀ i j, k ≤ i → i < N → j < N → g i j = 0 := by
  have key : ∀ n, n ≤ N → ∃ s s' g, forUpM n (fun col s => ops.gaussStep N N col s) ⟨m, 0, 1⟩ = .ok s ∧
      forUpM n (fun col s => ops'.gaussStep N N col s) ⟨m', 0, 1⟩ = .ok s' ∧ Rep s.m g ∧
      Rep' s'.m (fun i j => .fin (g i j)) ∧ s'.row = s.row ∧ s'.factor = .fin s.factor ∧
      Arises (toM N N A) s.row (toM N N g) ∧ (s.factor = 1 ∨ s.factor = -1) ∧ s.row ≤ n ∧
      ∀ i j, s.row ≤ i → i < N → j < n → g i j = 0 := by
    intro n
    induction n with
    | zero => exact fun _ => ⟨_, _, A, rfl, rfl, hm, hm', rfl, rfl, .start, .inl rfl, Nat.le_refl _,
        fun _ _ _ _ h => by omega⟩
    | succ n ih =>
      intro hn
      obtain ⟨s, s', g, e, e', h1, h1', h2, h3, h4, h5, h6, h7⟩ := ih (by omega)
      rw [forUpM, e, forUpM, e']
      simp only [Res.bind]
      by_cases hz : ∀ i, s.row ≤ i → i < N → g i n = 0
      · rw [gaussStep_skip hq (show n < N by omega) h1 (by omega) hz,
          gaussStep_skip hF (show n < N by omega) h1' (by omega) (fun i hi hi' => by
            rw [hz i (by omega) hi']; rfl)]
        refine ⟨s, s', g, rfl, rfl, h1, h1', h2, h3, h4, h5, by omega, fun i j hi hi' hj => ?_⟩
        rcases Nat.lt_succ_iff_lt_or_eq.mp hj with hj | rfl
        · exact h7 i j hi hi' hj
        · exact hz i hi hi'
      · have hz' : ∃ i, s.row ≤ i ∧ i < N ∧ g i n ≠ 0 := by
          push Not at hz
          exact hz
        obtain ⟨p, hp, hp', k1, k2, k3, k4⟩ := smallIdx_sim hq hF h1 h1' (col := n) (row := s.row)
          (by omega) (by omega) hz'
        obtain ⟨t, G, et, ht, hG⟩ := gaussStep_eq hq (show n < N by omega) h1 hp k1 k2 k3
        obtain ⟨t', G', et', ht', hG'⟩ := gaussStep_eq hF (show n < N by omega) h1' (h2 ▸ hp') (by omega) k2
          (fun hh => k3 (fin_eq_zero.mp hh))
        have hrow : s.row < N := by omega
        have hpiv : IsPivot s.row (toM N N g) ⟨p, k2⟩ ⟨n, by omega⟩ :=
          ⟨k1, k3, fun i hi hne => k4 i hi i.isLt hne, fun i j hi hj => h7 i j hi i.isLt hj⟩
        have hex := hexact _ _ _ _ h4 hpiv
        have hsw : ∀ a, a < N → Equiv.swap p s.row a < N := by
          intro a ha
          rw [Equiv.swap_apply_def]
          split
          · omega
          · split <;> omega
        have hsw' : ∀ a, s.row < a → s.row ≤ Equiv.swap p s.row a ∧ Equiv.swap p s.row a ≠ p := by
          intro a ha
          rw [Equiv.swap_apply_def]
          split
          · omega
          · split
            · omega
            · omega
        have hfs : ∀ a : Fin N, ((Equiv.swap (⟨p, k2⟩ : Fin N) ⟨s.row, hrow⟩ a : Fin N) : Nat) =
            Equiv.swap p s.row a := by
          intro a
          rw [Equiv.swap_apply_def, Equiv.swap_apply_def]
          simp only [Fin.ext_iff]
          split
          · rfl
          · split <;> rfl
        have hmat : toM N N G = eliminate ⟨s.row, hrow⟩ (toM N N g) ⟨p, k2⟩ ⟨n, by omega⟩ := by
          ext a b
          simp only [toM, eliminate, Matrix.of_apply, hfs, Fin.lt_def]
          rw [hG a b a.isLt b.isLt]
          by_cases ha : s.row < a
          · rw [if_pos ha]
            by_cases hb : n ≤ b
            · rw [if_pos ⟨ha, hb⟩]
            · rw [if_neg (by omega), h7 _ b (hsw' a ha).1 (hsw a a.isLt) (by omega),
                h7 p b k1 k2 (by omega)]
              ring
          · rw [if_neg ha, if_neg (by omega)]
        rw [et, et']
        refine ⟨_, _, G, rfl, rfl, ht, hF.ext ht' fun a b ha hb => ?_, ?_, ?_, ?_, ?_, ?_, ?_⟩
        · rw [hG' a b ha hb, hG a b ha hb, h2]
          split
          · rename_i hc
            obtain ⟨x1, x2⟩ := hex ⟨_, hsw a ha⟩ (hsw' a hc.1).1 (fun hh => (hsw' a hc.1).2 (Fin.mk.inj hh))
            obtain ⟨x2, x3⟩ := x2 ⟨b, hb⟩
            simp only [toM] at x1 x2 x3
            have d1 : (Flt.fin (g (Equiv.swap p s.row a) n) / Flt.fin (g p n) : Flt fm) =
                Flt.fin (g (Equiv.swap p s.row a) n / g p n) := by
              change div _ _ = _
              unfold div
              simp only [if_neg k3]
              exact rnd_exact x1
            rw [d1, fin_mul, rnd_exact x2, fin_sub]
            exact rnd_exact x3
          · rfl
        · show s'.row + 1 = s.row + 1
          rw [h2]
        · simp only [h2, h3]
          split <;> rfl
        · rw [hmat]
          exact .step (k := ⟨s.row, hrow⟩) h4 hpiv
        · simp only
          split
          · rcases h5 with h5 | h5 <;> rw [h5] <;> simp
          · exact h5
        · simp only; omega
        · intro i j hi hi' hj
          simp only at hi
          rw [hG i j hi' (by omega)]
          by_cases hjn : j = n
          · rw [if_pos (by omega), hjn, mul_div_cancel₀ _ k3, sub_self]
          · rw [if_neg (by omega)]
            exact h7 _ _ (hsw' i (by omega)).1 (hsw i hi') (by omega)
  obtain ⟨s, s', g, e, e', h1, h1', h2, h3, h4, h5, h6, h7⟩ := key N (Nat.le_refl _)
  refine ⟨s.m, s'.m, g, s.factor, s.row, ?_, ?_, h1, h1', h4, h5, h7⟩
  · unfold MatOps.gaussElim
    rw [e]
    rfl
  · unfold MatOps.gaussElim
    rw [e', ← h3]
    rfl

end sim

end Gauss

end Verif
