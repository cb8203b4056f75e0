import Verif.Lemmas.GaussExact
import Verif.Props.FloatDet
import Mathlib.LinearAlgebra.Matrix.Determinant.TotallyUnimodular
import Mathlib.LinearAlgebra.Matrix.SchurComplement

/-!
# Elimination on floats is exact if nothing needs to be rounded (C151)
-/

namespace Verif

open Flt

variable {f : FloatFmt} {N : Nat}

/-! ## C151 -/

/-- All quotients, products and differences of exact elimination are floats. -/
def Unrounded (f : FloatFmt) (A : Matrix (Fin N) (Fin N) ℚ) : Prop :=
  ∀ k B p q, Arises A k B → IsPivot k B p q → ∀ i : Fin N, k ≤ i → i ≠ p →
    f.Has (B i q / B p q) ∧ ∀ j, f.Has (B p j * (B i q / B p q)) ∧
      f.Has (B i j - B p j * (B i q / B p q))

/-- The last matrix of exact elimination. -/
def Final (A B : Matrix (Fin N) (Fin N) ℚ) : Prop :=
  ∃ k, Arises A k B ∧ ∀ i j : Fin N, k ≤ i → B i j = 0

private theorem map_extend (A : Matrix (Fin N) (Fin N) ℚ) :
    extend (A.map (Flt.fin : ℚ → Flt f)) = fun i j => Flt.fin (extend A i j) := by
  funext i j
  unfold extend
  split <;> rfl

private theorem matOf_extend (A : Matrix (Fin N) (Fin N) ℚ) : MatOf (rowsOf N N (extend A)) A := by
  have := rowsOf_matOf N N (extend A)
  unfold MatOf at this ⊢
  rw [this]
  simp only [extend_apply]

private theorem sim {A : Matrix (Fin N) (Fin N) ℚ} (hA : Unrounded f A) {m : List (List (Flt f))}
    (hm : MatOf m (A.map Flt.fin)) :
    ∃ g d, Mat.gaussElim N N (rowsOf N N (extend A)) = .ok (rowsOf N N g, d) ∧
      Mat.gaussElim N N m = .ok (rowsOf N N fun i j => .fin (g i j), .fin d) ∧
      Final A (Gauss.toM N N g) ∧ (d = 1 ∨ d = -1) := by
  obtain ⟨t, t', g, d, k, e, e', rfl, rfl, h3, h4, h5⟩ := Gauss.gaussElim_sim (fm := f) (mat_good N N)
    (mat_good N N) (A := extend A) (m := rowsOf N N (extend A))
    (m' := rowsOf N N fun i j => (Flt.fin (extend A i j) : Flt f)) rfl rfl (by rw [toM_extend]; exact hA)
  rw [toM_extend] at h3
  refine ⟨g, d, e, ?_, ⟨k, h3, fun i j hi => h5 i j hi i.isLt j.isLt⟩, h4⟩
  rw [matOf_rowsOf hm, map_extend]
  exact e'

private theorem echelon_of {A : Matrix (Fin N) (Fin N) ℚ} {g : Nat → Nat → ℚ} {d : ℚ}
    (e : Mat.gaussElim N N (rowsOf N N (extend A)) = .ok (rowsOf N N g, d)) :
    IsEchelon (Gauss.toM N N g) ∧ RowEquiv A (Gauss.toM N N g) := by
  obtain ⟨m', A', e2, h1, h2, h3⟩ := C81_square_partial (matOf_extend A)
  unfold Mat.rowReduce at e2
  rw [e] at e2
  injection e2 with e2
  subst e2
  cases matOf_inj h1 (rowsOf_matOf N N g)
  exact ⟨h2, h3⟩

/-- C151 for `row_reduce` of static matrices: an echelon form that is exactly row-equivalent. -/
theorem C151_row_reduce {A : Matrix (Fin N) (Fin N) ℚ} (hA : Unrounded f A) {m : List (List (Flt f))}
    (hm : MatOf m (A.map Flt.fin)) :
    ∃ r E, Mat.rowReduce N N m = .ok r ∧ MatOf r (E.map Flt.fin) ∧ Final A E ∧ IsEchelon E ∧
      RowEquiv A E := by
  obtain ⟨g, d, e, e', h1, h2⟩ := sim hA hm
  refine ⟨_, Gauss.toM N N g, by unfold Mat.rowReduce; rw [e']; rfl, ?_, h1, echelon_of e⟩
  exact rowsOf_matOf N N fun i j => (Flt.fin (g i j) : Flt f)

/-- C151 for `row_reduce` of dynamic matrices. -/
theorem C151_dyn_row_reduce (md : Mode) (P : Nat) {A : Matrix (Fin N) (Fin N) ℚ} (hA : Unrounded f A)
    {d : DynMat (Flt f)} (hd : DynOf P d (A.map Flt.fin)) :
    ∃ r E, DynMat.rowReduce md P d = .ok r ∧ DynOf P r (E.map Flt.fin) ∧ Final A E ∧ IsEchelon E ∧
      RowEquiv A E := by
  obtain ⟨hw, hr, hc, he⟩ := hd
  have hrep : DynRep P N N d (fun i j => Flt.fin (extend A i j)) := ⟨hw, hr, hc, fun i j hi hj => by
    rw [extend, dif_pos ⟨hi, hj⟩]; exact he ⟨i, hi⟩ ⟨j, hj⟩⟩
  obtain ⟨t, t', g, x, k, e, e', rfl, h2, h3, h4, h5⟩ := Gauss.gaussElim_sim (fm := f) (mat_good N N)
    (dyn_good md P N N) (A := extend A) (m := rowsOf N N (extend A)) rfl hrep
    (by rw [toM_extend]; exact hA)
  rw [toM_extend] at h3
  refine ⟨t', Gauss.toM N N g, ?_, ⟨h2.wf, h2.rows, h2.cols, fun i j => h2.entry i j i.isLt j.isLt⟩,
    ⟨k, h3, fun i j hi => h5 i j hi i.isLt j.isLt⟩, echelon_of e⟩
  unfold DynMat.rowReduce DynMat.gaussElim
  rw [hr, hc, e']
  rfl

private theorem fold_exact (l : List ℚ) : ∀ (s : ℚ), (∀ n, n ≤ l.length → f.Has (s * (l.take n).prod)) →
    (l.map (Flt.fin : ℚ → Flt f)).foldl (fun a v => a * v) (.fin s) = .fin (s * l.prod) := by
  induction l with
  | nil => intro s _; simp
  | cons x l ih =>
    intro s h
    have h1 := h 1 (by simp)
    simp only [List.take_succ_cons, List.take_zero, List.prod_cons, List.prod_nil, mul_one] at h1
    rw [List.map_cons, List.foldl_cons, fin_mul, rnd_exact h1, ih _ fun n hn => by
      have := h (n + 1) (by simpa using hn)
      rwa [List.take_succ_cons, List.prod_cons, ← mul_assoc] at this, List.prod_cons, mul_assoc]

private theorem det_general (hN : N ≠ 1 ∧ N ≠ 2) {A : Matrix (Fin N) (Fin N) ℚ} (hA : Unrounded f A)
    (hprod : ∀ B, Final A B → ∀ n ≤ N, f.Has ((List.ofFn fun i => B i i).take n).prod)
    {m : List (List (Flt f))} (hm : MatOf m (A.map Flt.fin)) :
    Mat.determinant N m = .ok (.fin A.det) := by
  obtain ⟨g, d, e, e', h1, h2⟩ := sim hA hm
  have hbr : ∀ {K : Type} [Zero K] [One K] [Neg K] [Sub K] [Mul K] [Div K] [DecidableEq K] [LT K]
      [DecidableLT K] [PartialCmp K] (m : List (List K)), Mat.determinant N m =
      (Mat.gaussElim N N m).bind fun r => (Mat.diag N r.1).bind fun d =>
        (Res.ofOption (Vect.product N d)).bind fun p => .ok (p / r.2) := by
    intros
    unfold Mat.determinant
    split
    · exact absurd rfl hN.1
    · exact absurd rfl hN.2
    · rfl
  have hdg : ∀ {K : Type} (F : Nat → Nat → K), Mat.diag N (rowsOf N N F) =
      .ok (List.ofFn fun i : Fin N => F i i) := by
    intro K F
    unfold Mat.diag
    rw [fromFnM_eq N _ _ fun i hi => mat_get _ hi hi]
    congr 1
    rw [← ofFn_eq_range]
  have hdet := C80_determinant (matOf_extend A)
  rw [hbr, e] at hdet
  simp only [Res.bind] at hdet
  rw [hdg] at hdet
  simp only at hdet
  rw [(Vect.C77_others N _ (by simp) 0).2.2.2.1] at hdet
  simp only [Res.ofOption, Res.ok.injEq] at hdet
  have hfold : (List.ofFn fun i : Fin N => g i i).foldl (· * ·) 1 = (List.ofFn fun i : Fin N => g i i).prod := by
    rw [List.prod_eq_foldl]
  rw [hfold] at hdet
  have hhas := hprod _ h1
  rw [hbr, e']
  simp only [Res.bind]
  rw [hdg]
  simp only
  rw [(Vect.C77_others N _ (by simp) 0).2.2.2.1]
  simp only [Res.ofOption, Res.ok.injEq]
  have hfl := fold_exact (f := f) (List.ofFn fun i : Fin N => g i i) 1 fun n hn => by
    rw [one_mul]
    exact hhas n (by simpa using hn)
  rw [one_mul, List.map_ofFn] at hfl
  have hgoal : (List.ofFn fun i : Fin N => (Flt.fin (g i i) : Flt f)).foldl (fun a v => a * v) 1 =
    .fin (List.ofFn fun i : Fin N => g i i).prod := hfl
  rw [hgoal, ← hdet]
  have hP : f.Has (List.ofFn fun i : Fin N => g i i).prod := by
    have := hhas N (Nat.le_refl _)
    rwa [List.take_of_length_le (by simp)] at this
  change div _ _ = _
  unfold div
  rcases h2 with rfl | rfl
  · simp only [one_ne_zero, if_false, div_one]
    exact rnd_exact hP
  · simp only [neg_eq_zero, one_ne_zero, if_false, div_neg, div_one]
    exact rnd_exact (Has.neg hP)

/-- C151 for determinants of three or more rows, if the products of the entries on the diagonal are floats
as well. -/
theorem C151_determinant (hN : 3 ≤ N) {A : Matrix (Fin N) (Fin N) ℚ} (hA : Unrounded f A)
    (hprod : ∀ B, Final A B → ∀ n ≤ N, f.Has ((List.ofFn fun i => B i i).take n).prod)
    {m : List (List (Flt f))} (hm : MatOf m (A.map Flt.fin)) :
    Mat.determinant N m = .ok (.fin A.det) :=
  det_general (by omega) hA hprod hm

/-! ### Totally unimodular matrices -/

/-- The three numbers. -/
private def Tri (x : ℚ) : Prop := x ∈ Set.range (SignType.cast : SignType → ℚ)

private theorem tri_iff {x : ℚ} : Tri x ↔ x = 0 ∨ x = 1 ∨ x = -1 := by
  constructor
  · rintro ⟨s, rfl⟩
    cases s <;> simp
  · rintro (rfl | rfl | rfl)
    · exact ⟨0, by simp⟩
    · exact ⟨1, by simp⟩
    · exact ⟨-1, by simp⟩

private theorem Tri.mul {x y : ℚ} (hx : Tri x) (hy : Tri y) : Tri (x * y) := by
  rw [tri_iff] at *
  rcases hx with rfl | rfl | rfl <;> rcases hy with rfl | rfl | rfl <;> simp

private theorem Tri.div {x y : ℚ} (hx : Tri x) (hy : Tri y) : Tri (x / y) := by
  rw [tri_iff] at *
  rcases hx with rfl | rfl | rfl <;> rcases hy with rfl | rfl | rfl <;> norm_num

private theorem Tri.has (hf : f.Ok) {x : ℚ} (hx : Tri x) : f.Has x := by
  have h1 : f.Has (1 : ℚ) := by
    exact_mod_cast has_int hf (z := 1) (by rw [abs_one]; exact one_le_pow₀ (by norm_num))
  rw [tri_iff] at hx
  rcases hx with rfl | rfl | rfl
  · exact Has.zero f
  · exact h1
  · exact Has.neg h1

/-- What is not finished stays totally unimodular, and the entries stay in `{-1, 0, 1}`. -/
private theorem tu_arises {A : Matrix (Fin N) (Fin N) ℚ} (hA : A.IsTotallyUnimodular) {k : Nat}
    {B : Matrix (Fin N) (Fin N) ℚ} (h : Arises A k B) :
    (B.submatrix (fun i : {i : Fin N // k ≤ i} => i.1) id).IsTotallyUnimodular ∧ ∀ i j, Tri (B i j) := by
  induction h with
  | start => exact ⟨hA.submatrix _ _, fun i j => hA.apply i j⟩
  | @step k B p q h hp ih =>
    obtain ⟨ih, ih'⟩ := ih
    have hpq : B p q = 1 ∨ B p q = -1 := by
      have := (tri_iff.mp (ih' p q))
      have := hp.ne
      tauto
    have hsw : ∀ i : Fin N, (k : Nat) ≤ i → (k : Nat) ≤ (Equiv.swap p k i : Fin N) := by
      intro i hi
      rw [Equiv.swap_apply_def]
      split
      · exact Nat.le_refl _
      · split
        · exact hp.row
        · exact hi
    have hnew : ((eliminate k B p q).submatrix (fun i : {i : Fin N // (k : Nat) + 1 ≤ i} => i.1)
        id).IsTotallyUnimodular := by
      rw [Matrix.isTotallyUnimodular_iff]
      intro n rs cs
      -- the minor with the pivot
      have hbig := (Matrix.isTotallyUnimodular_iff_fintype _).mp ih (Unit ⊕ Fin n)
        (Sum.elim (fun _ => ⟨p, hp.row⟩) fun i => ⟨Equiv.swap p k (rs i).1, hsw _ (by have := (rs i).2; omega)⟩)
        (Sum.elim (fun _ => q) cs)
      set D : Matrix (Fin n) (Fin n) ℚ := Matrix.of fun i j => B (Equiv.swap p k (rs i).1) (cs j) with hD
      set b : Matrix Unit (Fin n) ℚ := Matrix.of fun _ j => B p (cs j) with hb
      set c : Matrix (Fin n) Unit ℚ := Matrix.of fun i _ => B (Equiv.swap p k (rs i).1) q with hc
      set a : Matrix Unit Unit ℚ := Matrix.of fun _ _ => B p q with ha
      have hblk : (B.submatrix (fun i : {i : Fin N // (k : Nat) ≤ i} => i.1) id).submatrix
          (Sum.elim (fun _ => ⟨p, hp.row⟩) fun i =>
            ⟨Equiv.swap p k (rs i).1, hsw _ (by have := (rs i).2; omega)⟩)
          (Sum.elim (fun _ => q) cs) = Matrix.fromBlocks a b c D := by
        ext i j
        rcases i with i | i <;> rcases j with j | j <;> rfl
      let inv : Invertible a := ⟨Matrix.of fun _ _ => (B p q)⁻¹, by
        ext i j
        simp [Matrix.mul_apply, ha, hp.ne], by
        ext i j
        simp [Matrix.mul_apply, ha, hp.ne]⟩
      have hinv : ⅟a = Matrix.of fun _ _ => (B p q)⁻¹ := rfl
      have hsmall : ((eliminate k B p q).submatrix (fun i : {i : Fin N // (k : Nat) + 1 ≤ i} => i.1)
          id).submatrix rs cs = D - c * ⅟a * b := by
        ext i j
        have hk : k < (rs i).1 := (rs i).2
        simp only [Matrix.submatrix_apply, eliminate, Matrix.of_apply, if_pos hk, Matrix.sub_apply,
          Matrix.mul_apply, hinv, hD, hb, hc, id, Finset.univ_unique, Finset.sum_singleton]
        rw [div_eq_mul_inv]
        ring
      rw [hblk, Matrix.det_fromBlocks₁₁] at hbig
      rw [hsmall]
      have hdeta : a.det = B p q := by simp [ha]
      rw [hdeta] at hbig
      have hx : Tri (B p q * (D - c * ⅟a * b).det) := hbig
      show Tri _
      rw [tri_iff] at hx ⊢
      rcases hpq with h1 | h1 <;> rw [h1] at hx
      · simpa using hx
      · rcases hx with hx | hx | hx
        · left; linarith
        · right; right; linarith
        · right; left; linarith
    refine ⟨hnew, fun i j => ?_⟩
    by_cases hi : k < i
    · exact hnew.apply ⟨i, hi⟩ j
    · simp only [eliminate, Matrix.of_apply, if_neg hi]
      exact ih' _ _

private theorem tu_unrounded (hf : f.Ok) {A : Matrix (Fin N) (Fin N) ℚ} (hA : A.IsTotallyUnimodular) :
    Unrounded f A := by
  intro k B p q h hp i hi hne
  obtain ⟨-, h1⟩ := tu_arises hA h
  have hk : k < N := by have := hp.row; have := p.isLt; omega
  obtain ⟨-, h2⟩ := tu_arises hA (Arises.step (k := ⟨k, hk⟩) h hp)
  have hfac := (h1 i q).div (h1 p q)
  refine ⟨hfac.has hf, fun j => ⟨((h1 p j).mul hfac).has hf, ?_⟩⟩
  by_cases hik : i = ⟨k, hk⟩
  · -- row `k` is exchanged with row `p`
    have hlt : (⟨k, hk⟩ : Fin N) < p := by
      have := hp.row
      rw [Fin.lt_def]
      have : p ≠ ⟨k, hk⟩ := fun hh => hne (by rw [hik, hh])
      have : (p : Nat) ≠ k := fun hh => this (Fin.ext hh)
      simp only
      omega
    have := h2 p j
    simp only [eliminate, Matrix.of_apply, if_pos hlt, Equiv.swap_apply_left] at this
    rw [hik]
    exact this.has hf
  · have hlt : (⟨k, hk⟩ : Fin N) < i := by
      rw [Fin.lt_def]
      have : (i : Nat) ≠ k := fun hh => hik (Fin.ext hh)
      simp only
      omega
    have := h2 i j
    simp only [eliminate, Matrix.of_apply, if_pos hlt] at this
    rw [Equiv.swap_apply_of_ne_of_ne hne hik] at this
    exact this.has hf

private theorem tri_prod (l : List ℚ) (h : ∀ x ∈ l, Tri x) : Tri l.prod := by
  induction l with
  | nil => exact tri_iff.mpr (.inr (.inl rfl))
  | cons x l ih =>
    rw [List.prod_cons]
    exact (h x (by simp)).mul (ih fun y hy => h y (by simp [hy]))

/-- C151 for totally unimodular matrices, all square submatrices of which have determinant -1, 0 or 1:
`row_reduce` and `determinant` are exact. -/
theorem C151_totally_unimodular (hf : f.Ok) {A : Matrix (Fin N) (Fin N) ℚ} (hA : A.IsTotallyUnimodular)
    {m : List (List (Flt f))} (hm : MatOf m (A.map Flt.fin)) :
    (∃ r E, Mat.rowReduce N N m = .ok r ∧ MatOf r (E.map Flt.fin) ∧ IsEchelon E ∧ RowEquiv A E ∧
      ∀ i j, E i j = 0 ∨ E i j = 1 ∨ E i j = -1) ∧
    Mat.determinant N m = .ok (.fin A.det) := by
  have hu := tu_unrounded hf hA
  constructor
  · obtain ⟨r, E, h1, h2, ⟨k, h3, _⟩, h4, h5⟩ := C151_row_reduce hu hm
    exact ⟨r, E, h1, h2, h4, h5, fun i j => tri_iff.mp ((tu_arises hA h3).2 i j)⟩
  · have htri : ∀ i j, Tri (A i j) := fun i j => hA.apply i j
    have hget : ∀ i j : Fin N, Mat.get m i j = .ok (.fin (A i j)) := fun i j => by
      rw [matOf_rowsOf hm, mat_get _ i.isLt j.isLt, extend_apply]
      rfl
    by_cases h1 : N = 1
    · subst h1
      rw [Matrix.det_fin_one]
      unfold Mat.determinant
      exact hget 0 0
    · by_cases h2 : N = 2
      · subst h2
        unfold Mat.determinant
        simp only
        rw [show Mat.get m 0 0 = _ from hget 0 0, show Mat.get m 1 1 = _ from hget 1 1,
          show Mat.get m 1 0 = _ from hget 1 0, show Mat.get m 0 1 = _ from hget 0 1]
        have hdet : Tri A.det := by
          have := (Matrix.isTotallyUnimodular_iff A).mp hA 2 id id
          rwa [Matrix.submatrix_id_id] at this
        rw [Matrix.det_fin_two] at hdet ⊢
        have e1 : A 0 1 * A 1 0 = A 1 0 * A 0 1 := mul_comm _ _
        rw [e1] at hdet ⊢
        simp only [Res.bind]
        congr 1
        change (Flt.fin (A 0 0) : Flt f) * .fin (A 1 1) - .fin (A 1 0) * .fin (A 0 1) = _
        rw [fin_mul, fin_mul, rnd_exact (((htri 0 0).mul (htri 1 1)).has hf),
          rnd_exact (((htri 1 0).mul (htri 0 1)).has hf), fin_sub, rnd_exact (hdet.has hf)]
      · refine det_general ⟨h1, h2⟩ hu (fun B ⟨k, hB, _⟩ n hn => ?_) hm
        refine (tri_prod _ fun x hx => ?_).has hf
        obtain ⟨i, rfl⟩ := (List.mem_ofFn).mp (List.mem_of_mem_take hx)
        exact (tu_arises hA hB).2 i i

/-! The incidence matrix of a directed triangle. -/

private def triangle : Matrix (Fin 3) (Fin 3) ℚ := !![1, 0, 1; 1, 1, 0; 0, 1, -1]

example : triangle.IsTotallyUnimodular := by
  intro k r c hr hc
  have hk : k ≤ 3 := by simpa using Fintype.card_le_of_injective r hr
  have key : ∀ k ≤ 3, ∀ r c : Fin k → Fin 3, (triangle.submatrix r c).det = 0 ∨
      (triangle.submatrix r c).det = 1 ∨ (triangle.submatrix r c).det = -1 := by
    intro k hk
    interval_cases k
    · decide +kernel
    · decide +kernel
    · decide +kernel
    · decide +kernel
  exact tri_iff.mpr (key k hk r c)
example : Mat.rowReduce 3 3 [[.fin 1, .fin 0, .fin 1], [.fin 1, .fin 1, .fin 0],
    [.fin 0, .fin 1, .fin (-1)]] = .ok [[.fin 1, .fin 0, .fin 1], [.fin 0, .fin 1, .fin (-1)],
      [.fin 0, .fin 0, (.fin 0 : Flt .f32)]] := by decide +kernel
example : Mat.determinant 3 [[.fin (-1), .fin 1, .fin 0], [.fin 0, .fin (-1), .fin 1],
    [.fin 0, .fin 0, .fin (-1)]] = .ok (.fin (-1) : Flt .f32) := by decide +kernel

end Verif
