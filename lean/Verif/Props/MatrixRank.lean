import Mathlib.LinearAlgebra.Matrix.Rank
import Mathlib.LinearAlgebra.Matrix.NonsingularInverse
import Verif.Lemmas.GaussExact
import Verif.Props.Matrix

/-!
# C189: what row reduction tells about a matrix
-/

namespace Verif

variable {K : Type} [Field K]

/-! ## Echelon forms -/

/-- The rows of an echelon form which are not zero are linearly independent. -/
private theorem echelon_independent {R C : Nat} {A : Matrix (Fin R) (Fin C) K} (h : IsEchelon A) :
    LinearIndependent K fun i : {i : Fin R // A i ≠ 0} => A i.1 := by
  have lead : ∀ i : Fin R, A i ≠ 0 → ∃ c, Leads A i c := by
    intro i hi
    obtain ⟨c, hc⟩ := Function.ne_iff.1 hi
    have : ∃ c : Nat, ∃ h : c < C, A i ⟨c, h⟩ ≠ 0 := ⟨c, c.isLt, hc⟩
    classical
    obtain ⟨hl, hne⟩ := Nat.find_spec this
    refine ⟨⟨Nat.find this, hl⟩, hne, fun c' hc' => ?_⟩
    by_contra hn
    exact Nat.find_min this hc' ⟨c'.isLt, hn⟩
  classical
  rw [Fintype.linearIndependent_iff]
  intro g hg
  by_contra hne
  push Not at hne
  obtain ⟨i, hi⟩ := hne
  have hw : ∃ n : Nat, ∃ i : {i : Fin R // A i ≠ 0}, (i.1 : Nat) = n ∧ g i ≠ 0 := ⟨_, i, rfl, hi⟩
  obtain ⟨i, hin, hi⟩ := Nat.find_spec hw
  have hmin : ∀ j : {i : Fin R // A i ≠ 0}, j.1 < i.1 → g j = 0 := by
    intro j hj
    by_contra hn
    exact Nat.find_min hw (m := j.1) (by rw [← hin]; exact hj) ⟨j, rfl, hn⟩
  obtain ⟨c, hc⟩ := lead i.1 i.2
  have hz := congrFun hg c
  rw [Finset.sum_apply, Finset.sum_eq_single i] at hz
  · rcases mul_eq_zero.1 hz with h | h
    · exact hi h
    · exact hc.1 h
  · intro j _ hji
    have hne : j.1 ≠ i.1 := fun h => hji (Subtype.ext h)
    rcases lt_or_gt_of_ne hne with hlt | hgt
    · rw [hmin j hlt, zero_smul]; rfl
    · obtain ⟨d, hd⟩ := lead j.1 j.2
      obtain ⟨e, he, hl⟩ := h i.1 j.1 d hgt hd
      have : e = c := by
        rcases lt_trichotomy e c with h | h | h
        · exact absurd (hc.2 e h) hl.1
        · exact h
        · exact absurd (hl.2 c h) hc.1
      rw [Pi.smul_apply, hd.2 c (this ▸ he), smul_zero]
  · intro h; exact absurd (Finset.mem_univ i) h

open Classical in
/-- The rank of an echelon form is the number of its rows that are not zero. -/
private theorem echelon_rank {R C : Nat} {A : Matrix (Fin R) (Fin C) K} (h : IsEchelon A) :
    A.rank = (Finset.univ.filter fun i => A i ≠ 0).card := by
  have hs : Submodule.span K (Set.range A.row) =
      Submodule.span K (Set.range fun i : {i : Fin R // A i ≠ 0} => A i.1) := by
    apply le_antisymm
    · rw [Submodule.span_le]
      rintro _ ⟨i, rfl⟩
      by_cases hi : A i = 0
      · change A i ∈ _
        rw [hi]; exact Submodule.zero_mem _
      · exact Submodule.subset_span ⟨⟨i, hi⟩, rfl⟩
    · refine Submodule.span_mono ?_
      rintro _ ⟨i, rfl⟩
      exact ⟨i.1, rfl⟩
  rw [Matrix.rank_eq_finrank_span_row, hs, finrank_span_eq_card (echelon_independent h),
    Fintype.card_subtype]

private theorem rowEquiv_rank {R C : Nat} {A B : Matrix (Fin R) (Fin C) K} (h : RowEquiv A B) : A.rank = B.rank := by
  obtain ⟨⟨P, hP⟩, Q, hQ⟩ := h
  apply le_antisymm
  · conv_lhs => rw [hQ]
    exact Matrix.rank_mul_le_right Q B
  · conv_lhs => rw [hP]
    exact Matrix.rank_mul_le_right P A

/-! ## Reducing again -/

namespace Gauss

variable {M : Type} [LinearOrder K] {ops : MatOps M K} {R C : Nat} {Rep : M → (Nat → Nat → K) → Prop}

/-- Elimination leaves an echelon form as it is. -/
theorem gaussElim_fixed (h : Good ops R C Rep) {m : M} {f : Nat → Nat → K} (hm : Rep m f)
    (he : IsEchelon (toM R C f)) : ∃ m', ops.gaussElim C R m = .ok (m', 1) ∧ Rep m' f := by
  have : ∀ k, k ≤ C → ∃ s, forUpM k (fun col s => ops.gaussStep C R col s)
      (⟨m, 0, 1⟩ : MatOps.GState M K) = .ok s ∧ Rep s.m f ∧ s.factor = 1 ∧ s.row ≤ R ∧
      (∀ i, i < s.row → ∃ c, c < k ∧ Lead f i c) ∧ ∀ i, s.row ≤ i → i < R → ∀ c, c < k → f i c = 0 := by
    intro k
    induction k with
    | zero =>
      intro _
      exact ⟨_, rfl, hm, rfl, Nat.zero_le _, fun i hi => absurd hi (Nat.not_lt_zero _),
        fun _ _ _ c hc => absurd hc (Nat.not_lt_zero _)⟩
    | succ k ih =>
      intro hk
      obtain ⟨s, e, hs, hf, hr, hl, hz⟩ := ih (by omega)
      rw [forUpM, e]
      simp only [Res.bind]
      by_cases hc : ∀ i, s.row ≤ i → i < R → f i k = 0
      · refine ⟨s, gaussStep_skip h (by omega) hs hr hc, hs, hf, hr, fun i hi => ?_, fun i h1 h2 c h3 => ?_⟩
        · obtain ⟨c, h1, h2⟩ := hl i hi
          exact ⟨c, by omega, h2⟩
        · rcases Nat.lt_succ_iff_lt_or_eq.1 h3 with h3 | rfl
          · exact hz i h1 h2 c h3
          · exact hc i h1 h2
      · have below : ∀ i, s.row < i → i < R → f i k = 0 := by
          intro i h1 h2
          by_contra hn
          obtain ⟨c, h3, h4⟩ := he ⟨s.row, by omega⟩ ⟨i, h2⟩ ⟨k, by omega⟩ h1
            ⟨hn, fun c' hc' => hz i (by omega) h2 c' hc'⟩
          exact h4.1 (hz s.row (by omega) (by omega) c h3)
        obtain ⟨small, e2, h1, h2, h3⟩ := smallIdx_spec h hs (show k < C by omega) hr (fun _ _ _ _ _ => rfl) hc
        have hsm : small = s.row := by
          by_contra hn
          exact h3 (below small (by omega) h2)
        subst hsm
        obtain ⟨m', g, e3, hg, hgf⟩ := gaussStep_eq h (show k < C by omega) hs e2 h1 h2 h3
        rw [if_neg (by simp)] at e3
        refine ⟨_, e3, h.ext hg fun a b ha hb => ?_, hf, by simp only; omega, fun i hi => ?_, fun i h4 h5 c h6 => ?_⟩
        · rw [hgf a b ha hb, Equiv.swap_self]
          simp only [Equiv.refl_apply]
          split
          · rename_i hh
            rw [below a hh.1 ha, zero_div, mul_zero, sub_zero]
          · rfl
        · simp only at hi
          rcases Nat.lt_succ_iff_lt_or_eq.1 hi with hi | rfl
          · obtain ⟨c, h1, h2⟩ := hl i hi
            exact ⟨c, by omega, h2⟩
          · exact ⟨k, by omega, h3, fun c' hc' => hz s.row (by omega) h2 c' hc'⟩
        · simp only at h4
          rcases Nat.lt_succ_iff_lt_or_eq.1 h6 with h6 | rfl
          · exact hz i (by omega) h5 c h6
          · exact below i (by omega) h5
  obtain ⟨s, e, hs, hf, _⟩ := this C (le_refl _)
  unfold MatOps.gaussElim
  rw [e]
  exact ⟨s.m, by simp only [Res.bind]; rw [hf], hs⟩

end Gauss

variable [LinearOrder K]

/-! ## C189 -/

open Classical in
/-- C189: the number of nonzero rows of `row_reduce` is the rank, and reducing again changes nothing. -/
theorem C189_rank {N : Nat} {m : List (List K)} {A : Matrix (Fin N) (Fin N) K} (h : MatOf m A) :
    ∃ (m' : List (List K)) (A' : Matrix (Fin N) (Fin N) K), Mat.rowReduce N N m = .ok m' ∧ MatOf m' A' ∧
      A.rank = (Finset.univ.filter fun i => A' i ≠ 0).card ∧ Mat.rowReduce N N m' = .ok m' := by
  obtain ⟨m', A', e, hm', he, hr⟩ := C81_square_partial h
  refine ⟨m', A', e, hm', by rw [rowEquiv_rank hr, echelon_rank he], ?_⟩
  obtain ⟨m2, e2, h2⟩ := Gauss.gaussElim_fixed (mat_good N N) (matOf_rowsOf hm') (by rwa [toM_extend])
  unfold Mat.rowReduce Mat.gaussElim
  rw [e2]
  rw [h2, ← matOf_rowsOf hm']
  rfl

open Classical in
/-- C189 for dynamic matrices. -/
theorem C189_dyn_rank (md : Mode) (P : Nat) {N : Nat} {d : DynMat K} {A : Matrix (Fin N) (Fin N) K}
    (h : DynOf P d A) :
    ∃ (d' : DynMat K) (A' : Matrix (Fin N) (Fin N) K), DynMat.rowReduce md P d = .ok d' ∧ DynOf P d' A' ∧
      A.rank = (Finset.univ.filter fun i => A' i ≠ 0).card ∧
      ∃ d'', DynMat.rowReduce md P d' = .ok d'' ∧ DynOf P d'' A' := by
  obtain ⟨d', A', e, hd', he, hr⟩ := C81_dyn_square_partial md P h
  refine ⟨d', A', e, hd', by rw [rowEquiv_rank hr, echelon_rank he], ?_⟩
  obtain ⟨hw, hr, hc, hx⟩ := hd'
  have hrep : DynRep P N N d' (extend A') := ⟨hw, hr, hc, fun i j hi hj => by
    rw [extend, dif_pos ⟨hi, hj⟩]; exact hx ⟨i, hi⟩ ⟨j, hj⟩⟩
  obtain ⟨d2, e2, h2⟩ := Gauss.gaussElim_fixed (dyn_good md P N N) hrep (by rwa [toM_extend])
  refine ⟨d2, ?_, h2.wf, h2.rows, h2.cols, fun i j => ?_⟩
  · unfold DynMat.rowReduce DynMat.gaussElim
    rw [hr, hc, e2]
    rfl
  · have := h2.entry i j i.isLt j.isLt
    rwa [extend_apply] at this

/-- C189: the determinant is not zero exactly if the rows are linearly independent, if no row of `row_reduce` is
zero, and if the system of equations has exactly one solution for every right-hand side. -/
theorem C189_determinant {N : Nat} {m : List (List K)} {A : Matrix (Fin N) (Fin N) K} (h : MatOf m A) :
    ∃ (d : K) (m' : List (List K)) (A' : Matrix (Fin N) (Fin N) K), Mat.determinant N m = .ok d ∧ Mat.rowReduce N N m = .ok m' ∧ MatOf m' A' ∧
      (d ≠ 0 ↔ LinearIndependent K fun i => A i) ∧ (d ≠ 0 ↔ ∀ i, A' i ≠ 0) ∧
      (d ≠ 0 ↔ ∀ b : Fin N → K, ∃! x, A.mulVec x = b) := by
  classical
  obtain ⟨m', A', e, hm', hr, _⟩ := C189_rank h
  have hu : A.det ≠ 0 ↔ IsUnit A := by rw [Matrix.isUnit_iff_isUnit_det, isUnit_iff_ne_zero]
  have hi : A.det ≠ 0 ↔ LinearIndependent K fun i => A i := by
    rw [hu, ← Matrix.linearIndependent_rows_iff_isUnit]; rfl
  refine ⟨A.det, m', A', C80_determinant h, e, hm', hi, ?_, ?_⟩
  · have hfull : A.det ≠ 0 ↔ A.rank = N := by
      rw [hi, linearIndependent_iff_card_eq_finrank_span, Fintype.card_fin, A.rank_eq_finrank_span_row]
      exact eq_comm
    rw [hfull, hr]
    constructor
    · intro hc i
      have : (Finset.univ.filter fun i => A' i ≠ 0) = Finset.univ := by
        rw [← Finset.card_eq_iff_eq_univ, hc, Fintype.card_fin]
      have hmem : i ∈ Finset.univ.filter fun i => A' i ≠ 0 := by rw [this]; exact Finset.mem_univ i
      exact (Finset.mem_filter.1 hmem).2
    · intro hall
      rw [Finset.filter_true_of_mem fun i _ => hall i, Finset.card_univ, Fintype.card_fin]
  · rw [hu]
    constructor
    · intro hA b
      refine ⟨A⁻¹.mulVec b, ?_, fun y hy => ?_⟩
      · simp only
        rw [Matrix.mulVec_mulVec, Matrix.mul_nonsing_inv A ((Matrix.isUnit_iff_isUnit_det A).1 hA), Matrix.one_mulVec]
      · rw [← hy, Matrix.mulVec_mulVec, Matrix.nonsing_inv_mul A ((Matrix.isUnit_iff_isUnit_det A).1 hA),
          Matrix.one_mulVec]
    · intro hb
      rw [← Matrix.mulVec_injective_iff_isUnit]
      intro x y hxy
      exact (hb (A.mulVec y)).unique hxy rfl

/-- A matrix of rank 2 in three rows. -/
example : ∃ m', Mat.rowReduce 3 3 [[(1 : ℚ), 2, 3], [2, 4, 6], [1, 1, 1]] = .ok m' ∧
    m' = [[1, 2, 3], [0, -1, -2], [0, 0, 0]] ∧ Mat.rowReduce 3 3 m' = .ok m' ∧
    Mat.determinant 3 [[(1 : ℚ), 2, 3], [2, 4, 6], [1, 1, 1]] = .ok 0 :=
  ⟨[[1, 2, 3], [0, -1, -2], [0, 0, 0]], by decide +kernel, rfl, by decide +kernel, by decide +kernel⟩

end Verif
