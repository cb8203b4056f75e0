import Verif.Props.FloatElim

/-!
# C144: the pivot search and NaN
-/

namespace Verif

open Flt

variable {f : FloatFmt}

namespace Gauss

variable {M : Type} {ops : MatOps M (Flt f)} {R C : Nat} {Rep : M → (Nat → Nat → Flt f) → Prop}

/-- A NaN beside another number that is not zero, in the given column from row `row` on. -/
def NanBeside (g : Nat → Nat → Flt f) (col row n : Nat) : Prop :=
  ∃ i j, i < n ∧ j < n ∧ i ≠ j ∧ g (row + i) col = .nan ∧ g (row + j) col ≠ 0

theorem minLoop_nan (h : Good ops R C Rep) {m : M} {g : Nat → Nat → Flt f} (hm : Rep m g) {col row : Nat}
    (hc : col < C) (n : Nat) (hn : row + n ≤ R) :
    (NanBeside g col row n → forUpM n (fun idx best =>
      (ops.get m (row + idx) col).bind fun v =>
        if MatOps.clash best v then .panic else .ok (MatOps.keepMin best idx v)) none = .panic) ∧
    (¬ NanBeside g col row n → ∃ best, forUpM n (fun idx best =>
      (ops.get m (row + idx) col).bind fun v =>
        if MatOps.clash best v then .panic else .ok (MatOps.keepMin best idx v)) none = .ok best ∧
      (best = none → ∀ i, i < n → g (row + i) col = 0) ∧
      ∀ idx w, best = some (idx, w) → idx < n ∧ g (row + idx) col = w ∧ w ≠ 0) := by
  induction n with
  | zero =>
    exact ⟨fun ⟨i, _, hi, _⟩ => by omega, fun _ => ⟨none, rfl, fun _ i hi => by omega, fun _ _ hh => by simp at hh⟩⟩
  | succ n ih =>
    obtain ⟨ih1, ih2⟩ := ih (by omega)
    have nz : (.nan : Flt f) ≠ 0 := nofun
    by_cases hN : NanBeside g col row n
    · have : NanBeside g col row (n + 1) := by
        obtain ⟨i, j, a, b, c⟩ := hN
        exact ⟨i, j, by omega, by omega, c⟩
      refine ⟨fun _ => ?_, fun hh => absurd this hh⟩
      rw [forUpM, ih1 hN]
      rfl
    · obtain ⟨best, e, h1, h2⟩ := ih2 hN
      rw [forUpM, e]
      simp only [Res.bind]
      rw [h.get hm (by omega) hc]
      simp only
      by_cases hcl : MatOps.clash best (g (row + n) col) = true
      · rw [if_pos hcl]
        refine ⟨fun _ => rfl, fun hh => absurd ?_ hh⟩
        unfold MatOps.clash at hcl
        split at hcl
        · cases hcl
        · rename_i idx w
          obtain ⟨a, b, c⟩ := h2 idx w rfl
          rw [Bool.and_eq_true, decide_eq_true_eq, Bool.not_eq_true'] at hcl
          obtain ⟨hv, hcmp⟩ := hcl
          by_cases hw : w = .nan
          · exact ⟨idx, n, by omega, by omega, by omega, b.trans hw, hv⟩
          · have : g (row + n) col = .nan := by
              by_contra hne
              simp [PartialCmp.comparable, hw, hne] at hcmp
            exact ⟨n, idx, by omega, by omega, by omega, this, by rw [b]; exact c⟩
      · have hnb : ¬ NanBeside g col row (n + 1) := by
          rintro ⟨i, j, hi, hj, hij, hnan, hne⟩
          have some_of : ∀ k, k < n → g (row + k) col ≠ 0 → ∃ idx w, best = some (idx, w) := by
            intro k hk hk0
            cases hb : best with
            | none => exact absurd (h1 hb k hk) hk0
            | some x => exact ⟨x.1, x.2, rfl⟩
          apply hcl
          rcases Nat.lt_succ_iff_lt_or_eq.mp hi with hi | rfl
          · rcases Nat.lt_succ_iff_lt_or_eq.mp hj with hj | rfl
            · exact absurd ⟨i, j, hi, hj, hij, hnan, hne⟩ hN
            · obtain ⟨idx, w, rfl⟩ := some_of i hi (by rw [hnan]; exact nz)
              obtain ⟨a, b, c⟩ := h2 idx w rfl
              have hw : w = .nan := by
                by_contra hw
                by_cases hii : i = idx
                · subst hii; exact hw (b.symm.trans hnan)
                · exact hN ⟨i, idx, hi, a, hii, hnan, by rw [b]; exact c⟩
              simp [MatOps.clash, PartialCmp.comparable, hw, hne]
          · obtain ⟨idx, w, rfl⟩ := some_of j (by omega) hne
            rw [hnan]
            simp [MatOps.clash, PartialCmp.comparable, nz]
        refine ⟨fun hh => absurd hh hnb, fun _ => ?_⟩
        rw [if_neg hcl]
        refine ⟨_, rfl, ?_, ?_⟩
        · unfold MatOps.keepMin
          by_cases hz : g (row + n) col = 0
          · rw [if_pos (c := ZeroTest.IsZero _) hz]
            intro hb i hi
            rcases Nat.lt_succ_iff_lt_or_eq.mp hi with hi | rfl
            · exact h1 hb i hi
            · exact hz
          · rw [if_neg (c := ZeroTest.IsZero _) hz]
            intro hb
            split at hb
            · simp at hb
            · split at hb <;> simp at hb
        · unfold MatOps.keepMin
          intro idx w
          by_cases hz : g (row + n) col = 0
          · rw [if_pos (c := ZeroTest.IsZero _) hz]
            intro hb
            obtain ⟨a, b, c⟩ := h2 idx w hb
            exact ⟨by omega, b, c⟩
          · rw [if_neg (c := ZeroTest.IsZero _) hz]
            intro hb
            split at hb
            · simp only [Option.some.injEq, Prod.mk.injEq] at hb
              obtain ⟨rfl, rfl⟩ := hb
              exact ⟨by omega, rfl, hz⟩
            · rename_i j w'
              split at hb
              · simp only [Option.some.injEq, Prod.mk.injEq] at hb
                obtain ⟨rfl, rfl⟩ := hb
                exact ⟨by omega, rfl, hz⟩
              · obtain ⟨a, b, c⟩ := h2 idx w hb
                exact ⟨by omega, b, c⟩

/-- One round of elimination on floats panics exactly if there is a NaN beside another number that is not zero. -/
theorem gaussStep_nan (h : Good ops R C Rep) {col : Nat} (hcol : col < C) {s : MatOps.GState M (Flt f)}
    {g : Nat → Nat → Flt f} (hm : Rep s.m g) (hr : s.row ≤ R) :
    (NanBeside g col s.row (R - s.row) → ops.gaussStep C R col s = .panic) ∧
    (¬ NanBeside g col s.row (R - s.row) → ∃ s' g', ops.gaussStep C R col s = .ok s' ∧ Rep s'.m g' ∧
      ((s'.row = s.row ∧ g' = g ∧ ∀ i, s.row ≤ i → i < R → g i col = 0) ∨
       (s'.row = s.row + 1 ∧ s.row < R ∧ ¬ ∀ i, s.row ≤ i → i < R → g i col = 0))) := by
  obtain ⟨l1, l2⟩ := minLoop_nan h hm hcol (R - s.row) (by omega : s.row + (R - s.row) ≤ R)
  refine ⟨fun hN => ?_, fun hN => ?_⟩
  · obtain ⟨b, e, hb⟩ := allZero_spec h hm hcol (R - s.row) s.row (by omega)
    unfold MatOps.gaussStep
    rw [e]
    simp only [Res.bind]
    cases b with
    | true =>
      obtain ⟨i, j, hi, hj, -, -, hne⟩ := hN
      exact absurd (hb.mp rfl _ (Nat.le_add_right _ _) (by omega)) hne
    | false =>
      rw [if_neg (by simp)]
      unfold MatOps.smallIdx
      rw [l1 hN]
      rfl
  · obtain ⟨best, e, h1, h2⟩ := l2 hN
    obtain ⟨s', g', e', hm', hs'⟩ := gaussStep_of h hcol hm hr (fun hz => by
      unfold MatOps.smallIdx
      rw [e]
      simp only [Res.bind]
      cases best with
      | none =>
        exfalso
        apply hz
        intro i hi1 hi2
        have := h1 rfl (i - s.row) (by omega)
        rwa [show s.row + (i - s.row) = i by omega] at this
      | some b =>
        obtain ⟨idx, w⟩ := b
        obtain ⟨a, b, c⟩ := h2 idx w rfl
        exact ⟨idx + s.row, rfl, by omega, by omega, by rw [Nat.add_comm, b]; exact c⟩)
    exact ⟨s', g', e', hm', hs'.imp id fun x => ⟨x.2.1, x.1, x.2.2.1⟩⟩

end Gauss

open Gauss

/-- The first round, on a matrix with entries of any kind. -/
private theorem first_round {N : Nat} (hN : 0 < N) {m : List (List (Flt f))} {F : Nat → Nat → Flt f}
    (hm : m = rowsOf N N F) :
    (NanBeside F 0 0 N → Mat.gaussElim N N m = .panic) ∧
    (¬ NanBeside F 0 0 N → ∃ s g, (Mat.ops (α := Flt f)).gaussStep N N 0 ⟨m, 0, 1⟩ = .ok s ∧ s.m = rowsOf N N g ∧
      ((s.row = 0 ∧ g = F ∧ ∀ i, i < N → F i 0 = 0) ∨ (s.row = 1 ∧ ¬ ∀ i, i < N → F i 0 = 0))) := by
  obtain ⟨h1, h2⟩ := gaussStep_nan (mat_good (α := Flt f) N N) (col := 0) hN (s := ⟨m, 0, 1⟩) (g := F) hm
    (Nat.zero_le _)
  refine ⟨fun h => ?_, fun h => ?_⟩
  · have e := h1 h
    have key : ∀ n, forUpM (n + 1) (fun col s => (Mat.ops (α := Flt f)).gaussStep N N col s) ⟨m, 0, 1⟩ =
        (.panic : Res (MatOps.GState (List (List (Flt f))) (Flt f))) := by
      intro n
      induction n with
      | zero => exact e
      | succ n ih => rw [forUpM, ih]; rfl
    obtain ⟨n, rfl⟩ : ∃ n, N = n + 1 := ⟨N - 1, by omega⟩
    unfold Mat.gaussElim MatOps.gaussElim
    rw [key n]
    rfl
  · obtain ⟨s, g, e, hs, hr⟩ := h2 h
    exact ⟨s, g, e, hs, hr.imp (fun x => ⟨x.1, x.2.1, fun i hi => x.2.2 i (Nat.zero_le _) hi⟩)
      fun x => ⟨x.1, fun hh => x.2.2 fun i _ hi => hh i hi⟩⟩

/-- C144, matrices with a NaN: if the first column has one beside another number that is not zero, `row_reduce`
panics, and so does `determinant` of three or more rows. -/
theorem C144_nan {N : Nat} {m : List (List (Flt f))} (A : Matrix (Fin N) (Fin N) (Flt f)) (hm : MatOf m A)
    {i j c : Fin N} (hc : c.val = 0) (hij : i ≠ j) (hi : A i c = .nan) (hj : A j c ≠ 0) :
    Mat.rowReduce N N m = .panic ∧ (3 ≤ N → Mat.determinant N m = .panic) := by
  have hm' := matOf_rowsOf hm
  have e := (first_round (Nat.zero_lt_of_lt c.2) hm').1 ⟨i, j, i.2, j.2, fun h => hij (Fin.ext h), by
    rw [Nat.zero_add, ← hc, extend_apply]; exact hi, by
    rw [Nat.zero_add, ← hc, extend_apply]; exact hj⟩
  refine ⟨by unfold Mat.rowReduce; rw [e]; rfl, fun h3 => ?_⟩
  obtain ⟨n, rfl⟩ : ∃ n, N = n + 3 := ⟨N - 3, by omega⟩
  change (Mat.gaussElim (n + 3) (n + 3) m).bind _ = _
  rw [e]
  rfl

/-- A column of two rows is a NaN and a number that is not zero. -/
def NanPair (A : Matrix (Fin 2) (Fin 2) (Flt f)) (c : Fin 2) : Prop :=
  (A 0 c = .nan ∧ A 1 c ≠ 0) ∨ (A 1 c = .nan ∧ A 0 c ≠ 0)

private theorem nanPair_iff (A : Matrix (Fin 2) (Fin 2) (Flt f)) (c : Fin 2) :
    NanBeside (extend A) c 0 2 ↔ NanPair A c := by
  unfold NanBeside NanPair
  have e0 := extend_apply A 0 c
  have e1 := extend_apply A 1 c
  constructor
  · rintro ⟨i, j, hi, hj, hij, h1, h2⟩
    rw [Nat.zero_add] at h1 h2
    obtain ⟨rfl, rfl⟩ | ⟨rfl, rfl⟩ : (i = 0 ∧ j = 1) ∨ (i = 1 ∧ j = 0) := by omega
    · exact .inl ⟨e0.symm.trans h1, fun e => h2 (e1.trans e)⟩
    · exact .inr ⟨e1.symm.trans h1, fun e => h2 (e0.trans e)⟩
  · rintro (⟨h1, h2⟩ | ⟨h1, h2⟩)
    · exact ⟨0, 1, by decide, by decide, by decide, e0.trans h1, fun e => h2 (e1.symm.trans e)⟩
    · exact ⟨1, 0, by decide, by decide, by decide, e1.trans h1, fun e => h2 (e0.symm.trans e)⟩

/-- C144, two rows, exactly: whatever the entries are, `row_reduce` panics if and only if the first column that is not
zero consists of a NaN and a number that is not zero; otherwise it returns. `determinant` always returns. Missing, because
false for matrices that contain NaN: that `row_reduce` always returns. -/
theorem C144_two_exact_partial {m : List (List (Flt f))} (A : Matrix (Fin 2) (Fin 2) (Flt f)) (hm : MatOf m A) :
    (Mat.rowReduce 2 2 m = .panic ↔ NanPair A 0 ∨ (A 0 0 = 0 ∧ A 1 0 = 0 ∧ NanPair A 1)) ∧
    ((∃ r, Mat.rowReduce 2 2 m = .ok r) ↔ ¬ (NanPair A 0 ∨ (A 0 0 = 0 ∧ A 1 0 = 0 ∧ NanPair A 1))) ∧
    ∃ d, Mat.determinant 2 m = .ok d := by
  have hm' := matOf_rowsOf hm
  have run : ∀ s, (Mat.ops (α := Flt f)).gaussStep 2 2 0 ⟨m, 0, 1⟩ = .ok s →
      Mat.rowReduce 2 2 m = ((Mat.ops (α := Flt f)).gaussStep 2 2 1 s).bind fun s => .ok s.m := by
    intro s e
    unfold Mat.rowReduce Mat.gaussElim MatOps.gaussElim
    simp only [forUpM]
    rw [Res.bind, e, Res.bind]
    cases (Mat.ops (α := Flt f)).gaussStep 2 2 1 s <;> rfl
  have zero : (∀ i, i < 2 → extend A i 0 = 0) ↔ A 0 0 = 0 ∧ A 1 0 = 0 :=
    ⟨fun h => ⟨(extend_apply A 0 0).symm.trans (h 0 (by decide)), (extend_apply A 1 0).symm.trans (h 1 (by decide))⟩,
      fun h i hi => by
        obtain rfl | rfl : i = 0 ∨ i = 1 := by omega
        · exact (extend_apply A 0 0).trans h.1
        · exact (extend_apply A 1 0).trans h.2⟩
  have key : ((NanPair A 0 ∨ (A 0 0 = 0 ∧ A 1 0 = 0 ∧ NanPair A 1)) → Mat.rowReduce 2 2 m = .panic) ∧
      (¬ (NanPair A 0 ∨ (A 0 0 = 0 ∧ A 1 0 = 0 ∧ NanPair A 1)) → ∃ r, Mat.rowReduce 2 2 m = .ok r) := by
    obtain ⟨f1, f2⟩ := first_round (by decide) hm'
    by_cases h0 : NanPair A 0
    · have e := f1 ((nanPair_iff A 0).mpr h0)
      exact ⟨fun _ => by unfold Mat.rowReduce; rw [e]; rfl, fun h => absurd (.inl h0) h⟩
    · obtain ⟨s, g, e, hs, hrow⟩ := f2 (fun h => h0 ((nanPair_iff A 0).mp h))
      have hstep := gaussStep_nan (mat_good (α := Flt f) 2 2) (col := 1) (by decide) hs
        (by rcases hrow with ⟨h, _⟩ | ⟨h, _⟩ <;> omega)
      rw [run s e]
      rcases hrow with ⟨h, rfl, hz⟩ | ⟨h, hz⟩
      · rw [h] at hstep
        have hz' := zero.mp hz
        refine ⟨fun hh => ?_, fun hh => ?_⟩
        · rw [hstep.1 ((nanPair_iff A 1).mpr (hh.elim (absurd · h0) fun x => x.2.2))]
          rfl
        · obtain ⟨s', _, e', _⟩ := hstep.2 fun hb => hh (.inr ⟨hz'.1, hz'.2, (nanPair_iff A 1).mp hb⟩)
          rw [e']
          exact ⟨_, rfl⟩
      · rw [h] at hstep
        refine ⟨fun hh => absurd (zero.mpr ?_) hz, fun _ => ?_⟩
        · exact hh.elim (absurd · h0) fun x => ⟨x.1, x.2.1⟩
        · obtain ⟨s', _, e', _⟩ := hstep.2 (by rintro ⟨i, j, hi, hj, hij, _⟩; omega)
          rw [e']
          exact ⟨_, rfl⟩
  refine ⟨⟨fun hp => ?_, key.1⟩, ⟨fun ⟨r, hr⟩ hh => ?_, key.2⟩, ?_⟩
  · by_contra hh
    obtain ⟨r, hr⟩ := key.2 hh
    rw [hp] at hr
    cases hr
  · rw [key.1 hh] at hr
    cases hr
  · rw [hm']
    exact ⟨_, rfl⟩

/-- A NaN among the entries panics if another entry of its column is not zero, and is otherwise taken for
the pivot. -/
example : Mat.rowReduce 2 2 [[.fin 1, .fin 2], [.nan, .fin 3]] = (.panic : Res (List (List (Flt .f64)))) ∧
    Mat.rowReduce 2 2 [[.fin 0, .fin 2], [.nan, .fin 3]] =
      (.ok [[.nan, .fin 3], [.nan, .nan]] : Res (List (List (Flt .f64)))) ∧
    Mat.rowReduce 2 2 [[.fin 0, .nan], [.fin 0, .inf false]] = (.panic : Res (List (List (Flt .f64)))) ∧
    Mat.rowReduce 2 2 [[.fin 4, .fin 2], [.fin 2, .fin 3]] =
      (.ok [[.fin 2, .fin 3], [.fin 0, .fin (-4)]] : Res (List (List (Flt .f64)))) := by
  decide +kernel

end Verif
