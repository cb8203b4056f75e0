import Verif.Props.Matrix

/-!
# C81, exactly: row reduction of rectangular matrices
-/

namespace Verif

variable {K : Type} [Field K] [LinearOrder K]

/-- A loop panics if it does in one of its rounds. -/
theorem forUpM_panic {σ : Type} {body : Nat → σ → Res σ} {s s' : σ} {k : Nat}
    (e : forUpM k body s = .ok s') (hp : body k s' = .panic) (n : Nat) (hn : k < n) :
    forUpM n body s = .panic := by
  induction n with
  | zero => omega
  | succ n ih =>
    rw [forUpM]
    rcases Nat.lt_succ_iff_lt_or_eq.mp hn with hn | rfl
    · rw [ih hn]; rfl
    · rw [e]; exact hp

theorem forUpM_panic' {σ : Type} {body : Nat → σ → Res σ} {s : σ} {k : Nat}
    (e : forUpM k body s = .panic) (n : Nat) (hn : k ≤ n) : forUpM n body s = .panic := by
  induction n with
  | zero =>
    obtain rfl : k = 0 := by omega
    exact e
  | succ n ih =>
    rcases Nat.eq_or_lt_of_le hn with rfl | hn
    · exact e
    · rw [forUpM, ih (by omega)]; rfl

/-! ## More columns than rows -/

section wide

variable {M : Type} {ops : MatOps M K} {m : M} {R C : Nat}

theorem wide_allZero (hin : ∀ i, i < R → ∃ v, ops.get m i 0 = .ok v) (hout : ops.get m R 0 = .panic)
    (n i : Nat) (h1 : R < i + n) (h2 : i ≤ R) :
    ops.allZero m 0 n i = .panic ∨ ops.allZero m 0 n i = .ok false := by
  induction n generalizing i with
  | zero => omega
  | succ n ih =>
    unfold MatOps.allZero
    rcases Nat.eq_or_lt_of_le h2 with rfl | h2
    · left; rw [hout]; rfl
    · obtain ⟨v, hv⟩ := hin i h2
      rw [hv]
      simp only [Res.bind]
      by_cases hv0 : v = 0
      · rw [if_pos (c := ZeroTest.IsZero _) hv0]
        exact ih (i + 1) (by omega) (by omega)
      · rw [if_neg (c := ZeroTest.IsZero _) hv0]
        right; rfl

theorem wide_gauss (hin : ∀ i, i < R → ∃ v, ops.get m i 0 = .ok v)
    (hout : ops.get m R 0 = .panic) (hR : 0 < R) (hRC : R < C) :
    ops.gaussElim R C m = .panic := by
  have hsmall : ops.smallIdx m 0 0 C = .panic := by
    unfold MatOps.smallIdx
    have hok : ∀ k, k ≤ R → ∃ b, forUpM k (fun idx best =>
        (ops.get m (0 + idx) 0).bind fun v =>
          if MatOps.clash best v then .panic else Res.ok (MatOps.keepMin best idx v)) none = .ok b := by
      intro k
      induction k with
      | zero => exact fun _ => ⟨none, rfl⟩
      | succ k ihk =>
        intro hk
        obtain ⟨b, hb⟩ := ihk (by omega)
        obtain ⟨v, hv⟩ := hin k (by omega)
        rw [forUpM, hb]
        simp only [Res.bind]
        rw [Nat.zero_add, hv]
        exact ⟨_, by simp only [Gauss.clash_false, Bool.false_eq_true, if_false]; rfl⟩
    obtain ⟨b, hb⟩ := hok R (Nat.le_refl _)
    rw [forUpM_panic hb (by rw [Nat.zero_add, hout]; rfl) (C - 0) (by omega)]
    rfl
  have hstep : ops.gaussStep R C 0 (⟨m, 0, 1⟩ : MatOps.GState M K) = .panic := by
    unfold MatOps.gaussStep
    simp only
    rcases wide_allZero hin hout (C - 0) 0 (by omega) (by omega) with e | e
    · rw [e]; rfl
    · rw [e]
      simp only [Res.bind]
      rw [if_neg (by simp), hsmall]
  unfold MatOps.gaussElim
  rw [forUpM_panic (k := 0) (by rfl) hstep R hR]
  rfl

end wide

/-! ## More rows than columns -/

section tall

variable {M : Type} {ops : MatOps M K} {R C : Nat} {Rep : M → (Nat → Nat → K) → Prop}

omit [LinearOrder K] in
theorem tall_elimBelow (h : Gauss.Good ops C C Rep)
    (hout : ∀ {m f i}, Rep m f → i < C → ops.get m i C = .panic) (hRC : C < R) (hC : 2 ≤ C) {m : M}
    {f : Nat → Nat → K} (hm : Rep m f) {col : Nat} (hc : col < C) (top : K) :
    ops.elimBelow col R 0 C top m = .panic := by
  unfold MatOps.elimBelow
  refine forUpM_panic (k := 0) (by rfl) ?_ _ (by omega)
  rw [h.get hm (by omega) hc]
  simp only [Res.bind]
  unfold MatOps.elimRow
  obtain ⟨m', e, hm'⟩ := Gauss.elimRow_spec h hm (col := col) (row := 0) (r := 0 + 1 + 0)
    (by omega) (by omega) (by omega) (f (0 + 1 + 0) col / top) (C - col) (by omega)
  refine forUpM_panic e ?_ _ (by omega)
  rw [show col + (C - col) = C by omega, hout hm' (by omega)]
  rfl

theorem tall_step (h : Gauss.Good ops C C Rep)
    (hout : ∀ {m f i}, Rep m f → i < C → ops.get m i C = .panic) (hRC : C < R) (hC : 2 ≤ C) {m : M}
    {f : Nat → Nat → K} (hm : Rep m f) {col : Nat} (hc : col < C) :
    ops.gaussStep R C col (⟨m, 0, 1⟩ : MatOps.GState M K) = .panic ∨
      ops.gaussStep R C col (⟨m, 0, 1⟩ : MatOps.GState M K) = .ok ⟨m, 0, 1⟩ := by
  unfold MatOps.gaussStep
  simp only
  obtain ⟨b, e, hb⟩ := Gauss.allZero_spec h hm hc (C - 0) 0 (by omega)
  rw [e]
  simp only [Res.bind]
  by_cases hbt : b = true
  · rw [if_pos hbt]; right; rfl
  · rw [if_neg hbt]
    left
    obtain ⟨s, es, _, hs, _⟩ := Gauss.smallIdx_spec h hm hc (Nat.zero_le C)
      (fun _ _ _ _ _ => rfl) (fun H => hbt (hb.mpr H))
    rw [es]
    simp only
    unfold MatOps.pivot
    simp only
    by_cases h0 : s ≠ 0
    · rw [if_pos h0]
      obtain ⟨m', em, hm'⟩ := h.swap hm hs (show 0 < C by omega)
      rw [em]
      simp only [Res.bind]
      rw [h.get hm' (by omega) hc]
      simp only
      rw [tall_elimBelow h hout hRC hC hm' hc]
    · rw [if_neg h0]
      simp only
      rw [h.get hm (by omega) hc]
      simp only
      rw [tall_elimBelow h hout hRC hC hm hc]

theorem tall_gauss (h : Gauss.Good ops C C Rep)
    (hout : ∀ {m f i}, Rep m f → i < C → ops.get m i C = .panic) (hRC : C < R) (hC : 2 ≤ C) {m : M}
    {f : Nat → Nat → K} (hm : Rep m f) : ops.gaussElim R C m = .panic := by
  have key : ∀ k, k ≤ C →
      forUpM k (fun col s => ops.gaussStep R C col s) (⟨m, 0, 1⟩ : MatOps.GState M K) = .panic ∨
      forUpM k (fun col s => ops.gaussStep R C col s) (⟨m, 0, 1⟩ : MatOps.GState M K) =
        .ok ⟨m, 0, 1⟩ := by
    intro k
    induction k with
    | zero => intro _; right; rfl
    | succ k ih =>
      intro hk
      rw [forUpM]
      rcases ih (by omega) with e | e
      · rw [e]; left; rfl
      · rw [e]
        exact tall_step h hout hRC hC hm (by omega)
  unfold MatOps.gaussElim
  rcases key C (Nat.le_refl _) with e | e
  · rw [forUpM_panic' e R (by omega)]; rfl
  · rw [forUpM_panic e ?_ R hRC]
    · rfl
    · unfold MatOps.gaussStep
      simp only
      rw [show C - 0 = (C - 1) + 1 by omega]
      unfold MatOps.allZero
      rw [hout hm (by omega)]
      rfl

end tall

theorem noColumns_gauss {M : Type} (ops : MatOps M K) (m : M) (R : Nat) :
    ops.gaussElim R 0 m = .ok (m, 1) := by
  have : ∀ n, forUpM n (fun col s => ops.gaussStep R 0 col s) (⟨m, 0, 1⟩ : MatOps.GState M K) =
      .ok ⟨m, 0, 1⟩ := by
    intro n
    induction n with
    | zero => rfl
    | succ n ih => rw [forUpM, ih]; rfl
  unfold MatOps.gaussElim
  rw [this]
  rfl

/-- One column: the first round finds its pivot in row 0 or panics, and the others find nothing. -/
theorem oneColumn_gauss {M : Type} (ops : MatOps M K) (m : M) {R : Nat} (hR : 1 < R) {v : K}
    (hv : ops.get m 0 0 = .ok v) (hout : ops.get m 0 1 = .panic) :
    ops.gaussElim R 1 m = if v = 0 then .panic else .ok (m, 1) := by
  have haz : ops.allZero m 0 1 0 = if v = 0 then .ok true else .ok false := by
    unfold MatOps.allZero
    rw [hv]
    rfl
  have hsm : v ≠ 0 → ops.smallIdx m 0 0 1 = .ok 0 := by
    intro h0
    unfold MatOps.smallIdx
    simp only [Nat.sub_zero, forUpM, Res.bind, Nat.add_zero]
    rw [hv]
    simp [MatOps.keepMin, MatOps.clash, if_neg h0]
  by_cases h0 : v = 0
  · rw [if_pos h0]
    unfold MatOps.gaussElim
    rw [forUpM_panic (k := 1) (s' := ⟨m, 0, 1⟩) ?_ ?_ R hR]
    · rfl
    · simp only [forUpM, Res.bind, MatOps.gaussStep, Nat.sub_zero]
      rw [haz, if_pos h0]
      rfl
    · simp only [MatOps.gaussStep, Nat.sub_zero, MatOps.allZero]
      rw [hout]
      rfl
  · rw [if_neg h0]
    have : ∀ n, forUpM (n + 1) (fun col s => ops.gaussStep R 1 col s)
        (⟨m, 0, 1⟩ : MatOps.GState M K) = .ok ⟨m, 1, 1⟩ := by
      intro n
      induction n with
      | zero =>
        simp only [forUpM, Res.bind, MatOps.gaussStep, Nat.sub_zero]
        rw [haz, if_neg h0]
        simp only [Bool.false_eq_true, if_false]
        rw [hsm h0]
        simp only [MatOps.pivot, ne_eq, not_true_eq_false, if_false]
        rw [hv]
        rfl
      | succ n ih => rw [forUpM, ih]; rfl
    unfold MatOps.gaussElim
    obtain ⟨n, rfl⟩ : ∃ n, R = n + 1 := ⟨R - 1, by omega⟩
    rw [this]
    rfl

/-- C81, exactly, for static matrices which are not square: an empty one, and one with a single column
the first entry of which is not zero, are returned as they are; all the others panic. So the claim holds
for these matrices only if they are empty, or zero below the first entry of their only column. -/
theorem C81_rect_exact_partial {R C : Nat} (hne : R ≠ C) {m : List (List K)}
    {A : Matrix (Fin R) (Fin C) K} (h : MatOf m A) :
    Mat.rowReduce R C m =
      if R = 0 ∨ C = 0 ∨ ∃ (_ : C = 1) (hr : 0 < R) (hc : 0 < C), A ⟨0, hr⟩ ⟨0, hc⟩ ≠ 0
      then .ok m else .panic := by
  have hl := matOf_length h
  unfold Mat.rowReduce Mat.gaussElim
  by_cases hR : R = 0
  · subst hR
    rw [if_pos (.inl rfl)]
    rfl
  by_cases hC : C = 0
  · subst hC
    rw [if_pos (.inr (.inl rfl)), noColumns_gauss]
    rfl
  have hcol : ∀ i, Mat.get m i C = .panic := by
    intro i
    unfold Mat.get
    cases hi : m[i]? with
    | none => rfl
    | some r =>
      have := hl.2 r (List.mem_of_getElem? hi)
      rw [Option.bind_some, List.getElem?_eq_none (by omega)]
      rfl
  rcases Nat.lt_or_gt_of_ne hne with hRC | hRC
  · rw [wide_gauss (ops := Mat.ops) (fun i hi => ⟨_, matOf_entry h hi (by omega)⟩)
      (by
        show Mat.get m R 0 = .panic
        unfold Mat.get
        rw [List.getElem?_eq_none (by omega)]
        rfl) (by omega) hRC]
    rw [if_neg]
    · rfl
    · rintro (h0 | h0 | ⟨h0, h1, _⟩) <;> omega
  · by_cases hC1 : C = 1
    · subst hC1
      rw [oneColumn_gauss Mat.ops m hRC (matOf_entry h (show 0 < R by omega) (by omega)) (hcol 0)]
      by_cases hv : A ⟨0, by omega⟩ ⟨0, by omega⟩ = 0
      · rw [if_pos hv, if_neg]
        · rfl
        · rintro (h0 | h0 | ⟨_, _, _, h0⟩)
          · omega
          · omega
          · exact h0 hv
      · rw [if_neg hv, if_pos (.inr (.inr ⟨rfl, by omega, by omega, hv⟩))]
        rfl
    · have hgood : Gauss.Good (Mat.ops (α := K)) C C
          (fun m f => ∃ g, m = rowsOf R C g ∧ ∀ i j, i < C → j < C → f i j = g i j) := by
        have hg := mat_good (α := K) R C
        refine ⟨?_, ?_, ?_, ?_⟩
        · rintro m f i j ⟨g, hm, hf⟩ hi hj
          rw [hf i j hi hj]
          exact hg.get hm (by omega) hj
        · rintro m f i j v ⟨g, hm, hf⟩ hi hj
          obtain ⟨m', e, hm'⟩ := hg.set v hm (show i < R by omega) hj
          refine ⟨m', e, _, hm', fun a b ha hb => ?_⟩
          simp only [hf a b ha hb]
        · rintro m f i j ⟨g, hm, hf⟩ hi hj
          obtain ⟨m', e, hm'⟩ := hg.swap hm (show i < R by omega) (show j < R by omega)
          refine ⟨m', e, _, hm', fun a b ha hb => ?_⟩
          simp only [hf a b ha hb, hf i b hi hb, hf j b hj hb]
        · rintro m f g ⟨k, hm, hf⟩ hfg
          exact ⟨k, hm, fun i j hi hj => (hfg i j hi hj).symm.trans (hf i j hi hj)⟩
      rw [tall_gauss hgood ?_ hRC (by omega) ⟨_, matOf_rowsOf h, fun _ _ _ _ => rfl⟩, if_neg]
      · rfl
      · rintro (h0 | h0 | ⟨h0, _⟩) <;> omega
      · rintro m f i ⟨g, rfl, _⟩ hi
        show Mat.get _ i C = .panic
        unfold Mat.get
        rw [rowsOf_get? g (by omega), Option.bind_some, List.getElem?_eq_none (by simp)]
        rfl

/-- C81 for dynamic matrices with more columns than rows: those without rows are returned as they are;
all the others panic. Not treated: more rows than columns (`C81_dyn_violated` has one returned with
wrong entries). -/
theorem C81_dyn_wide_exact_partial (md : Mode) (P : Nat) {R C : Nat} (hRC : R < C) {d : DynMat K}
    {A : Matrix (Fin R) (Fin C) K} (h : DynOf P d A) :
    DynMat.rowReduce md P d = if R = 0 then .ok d else .panic := by
  obtain ⟨hw, hr, hc, he⟩ := h
  unfold DynMat.rowReduce DynMat.gaussElim
  rw [hr, hc]
  by_cases hR : R = 0
  · subst hR
    rw [if_pos rfl]
    rfl
  have hfit := hw.fits
  have hlen := hw.len
  rw [hr, hc] at hfit hlen
  rw [if_neg hR, wide_gauss ?_ ?_ (by omega) hRC]
  · rfl
  · intro i hi
    refine ⟨A ⟨i, hi⟩ ⟨0, by omega⟩, ?_⟩
    show DynMat.get md P d i 0 = _
    unfold DynMat.get
    rw [hc, offset_ok md hi (by omega) hfit]
    simp only [Res.bind]
    have := he ⟨i, hi⟩ ⟨0, by omega⟩
    simp only at this
    rw [this]
    rfl
  · show DynMat.get md P d R 0 = _
    unfold DynMat.get DynMat.offset
    rw [hc, usz_ok md hfit]
    simp only [Res.bind]
    rw [usz_ok md (by omega)]
    simp only
    rw [List.getElem?_eq_none (by omega)]
    rfl

example : MatOf [[3], [(1 : ℚ)]] !![3; 1] ∧ Mat.rowReduce 2 1 [[3], [(1 : ℚ)]] = .ok [[3], [1]] ∧
    Mat.rowReduce 2 1 [[0], [(1 : ℚ)]] = .panic ∧
    Mat.rowReduce 3 2 [[0, 0], [0, 0], [0, (0 : ℚ)]] = .panic ∧
    DynMat.rowReduce .release 64 ⟨[1, 2, 3, 4, 5, (6 : ℚ)], 2, 3⟩ = .panic := by
  refine ⟨by simp [MatOf], by decide +kernel, by decide +kernel, by decide +kernel,
    by decide +kernel⟩

end Verif
