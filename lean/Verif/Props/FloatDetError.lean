import Mathlib.LinearAlgebra.Matrix.Permanent
import Verif.Props.FloatBackward

/-!
# How far off determinants of float matrices can be (C129)

The exact determinant is a sum of signed products of entries; the permanent of the magnitudes is the sum of the magnitudes
of these products.
-/

namespace Verif

open Matrix

/-- What the roundings of elimination may contribute to entry `(i, j)` (`Factors.close`). -/
def FloatFmt.slack {N : Nat} (f : FloatFmt) (L U : Matrix (Fin N) (Fin N) ℚ) (i j : Fin N) : ℚ :=
  ((1 + f.u) ^ (i : Nat) - 1) * magnitude L U i j + (1 + f.u) ^ (i : Nat) * f.underflow U i j

private theorem prod_close {ι : Type} (s : Finset ι) (a m e : ι → ℚ) (h : ∀ i, |m i - a i| ≤ e i) :
    |∏ i ∈ s, m i - ∏ i ∈ s, a i| ≤ ∏ i ∈ s, (|a i| + e i) - ∏ i ∈ s, |a i| := by
  classical
  induction s using Finset.induction_on with
  | empty => simp
  | insert i s hi ih =>
    rw [Finset.prod_insert hi, Finset.prod_insert hi, Finset.prod_insert hi, Finset.prod_insert hi]
    have he : 0 ≤ e i := (abs_nonneg _).trans (h i)
    have hm : |m i| ≤ |a i| + e i := by
      have := abs_add_le (m i - a i) (a i)
      rw [sub_add_cancel] at this
      linarith [h i]
    have hp : |∏ j ∈ s, a j| = ∏ j ∈ s, |a j| := Finset.abs_prod _ _
    have h0 : (0 : ℚ) ≤ ∏ j ∈ s, |a j| := Finset.prod_nonneg fun _ _ => abs_nonneg _
    have e1 : m i * ∏ j ∈ s, m j - a i * ∏ j ∈ s, a j =
        m i * (∏ j ∈ s, m j - ∏ j ∈ s, a j) + (m i - a i) * ∏ j ∈ s, a j := by ring
    rw [e1]
    refine (abs_add_le _ _).trans ?_
    rw [abs_mul, abs_mul, hp]
    have k1 := mul_le_mul hm ih (abs_nonneg _) (by positivity)
    have k2 := mul_le_mul_of_nonneg_right (h i) h0
    nlinarith

private theorem det_close {N : Nat} (A M E : Matrix (Fin N) (Fin N) ℚ) (h : ∀ i j, |M i j - A i j| ≤ E i j) :
    |M.det - A.det| ≤ (Matrix.of fun i j => |A i j| + E i j).permanent - (A.map fun x => |x|).permanent ∧
    |M.det| ≤ (Matrix.of fun i j => |A i j| + E i j).permanent := by
  have sgn : ∀ (σ : Equiv.Perm (Fin N)) (x : ℚ), |(Equiv.Perm.sign σ : ℤˣ) • x| = |x| := by
    intro σ x
    rcases Int.units_eq_one_or (Equiv.Perm.sign σ) with e | e <;> rw [e] <;> simp
  constructor
  · rw [det_apply, det_apply, ← Finset.sum_sub_distrib, permanent, permanent, ← Finset.sum_sub_distrib]
    refine (Finset.abs_sum_le_sum_abs _ _).trans (Finset.sum_le_sum fun σ _ => ?_)
    rw [← smul_sub, sgn]
    exact prod_close _ (fun i => A (σ i) i) (fun i => M (σ i) i) (fun i => E (σ i) i) fun i => h _ _
  · rw [det_apply, permanent]
    refine (Finset.abs_sum_le_sum_abs _ _).trans (Finset.sum_le_sum fun σ _ => ?_)
    rw [sgn, Finset.abs_prod]
    refine Finset.prod_le_prod (fun _ _ => abs_nonneg _) fun i _ => ?_
    have := abs_add_le (M (σ i) i - A (σ i) i) (A (σ i) i)
    rw [sub_add_cancel] at this
    exact this.trans (by rw [of_apply]; linarith [h (σ i) i])

/-- C129, what holds for every matrix of three or more rows: a finite determinant, whose product does not underflow, differs
from the exact determinant by at most what the roundings of the elimination and of the product make of the products of
entries: the sum of the magnitudes of these products, with every entry enlarged by the roundings it has undergone
and the whole by `N - 1` roundings, less the same sum without. Missing, because
false: that the entries undergo little; small pivots enlarge `L` and `U` (`C129_violated`). -/
theorem C129_error_partial {N : Nat} {f : FloatFmt} (hf : f.Ok) (hN : 3 ≤ N) {A B : Matrix (Fin N) (Fin N) ℚ}
    (hA : ∀ i j, f.Has (A i j)) {m r : List (List (Flt f))} (hm : MatOf m (A.map Flt.fin))
    (h : Mat.rowReduce N N m = .ok r) (hr : MatOf r (B.map Flt.fin))
    (hsafe : (∃ i, B i i = 0) ∨ ∀ k, 0 < k → k < N → 2 ^ f.emin ≤
      (1 - f.u) ^ (k - 1) * |((List.ofFn fun i => B i i).take (k + 1)).prod|)
    {d : ℚ} (hd : Mat.determinant N m = .ok (.fin d)) :
    ∃ σ L U, Factors f A B σ L U ∧
      |d - A.det| ≤ (1 + f.u) ^ (N - 1) * (Matrix.of fun i j => |A (σ i) j| + f.slack L U i j).permanent -
        (A.map fun x => |x|).permanent := by
  obtain ⟨σ, L, U, hF, hE⟩ := C152_determinant hf hN hA hm h hr hsafe hd
  refine ⟨σ, L, U, hF, ?_⟩
  obtain ⟨k1, k2⟩ := det_close (A.submatrix σ id) (L * U) (Matrix.of (f.slack L U)) fun i j => by
    rw [abs_sub_comm]; exact hF.close i j
  have hu : (1 : ℚ) ≤ (1 + f.u) ^ (N - 1) := one_le_pow₀ (by have := Flt.u_pos f; linarith)
  have sgn : ∀ (τ : Equiv.Perm (Fin N)), |((Equiv.Perm.sign τ : ℤ) : ℚ)| = 1 := by
    intro τ
    rcases Int.units_eq_one_or (Equiv.Perm.sign τ) with e | e <;> rw [e] <;> simp
  have e1 : |((L * U).submatrix σ.symm id).det - A.det| = |(L * U).det - (A.submatrix σ id).det| := by
    have e : A = (A.submatrix σ id).submatrix σ.symm id := by
      ext i j; simp
    conv_lhs => rw [e]
    rw [det_permute, det_permute σ.symm (A.submatrix σ id), ← mul_sub, abs_mul, sgn, one_mul]
  have e2 : |((L * U).submatrix σ.symm id).det| = |(L * U).det| := by
    rw [det_permute, abs_mul, sgn, one_mul]
  have e3 : ((A.submatrix σ id).map fun x => |x|).permanent = (A.map fun x => |x|).permanent :=
    permanent_permute_cols σ (A.map fun x => |x|)
  rw [e3] at k1
  rw [e2] at hE
  have k3 := abs_sub_le d ((L * U).submatrix σ.symm id).det A.det
  rw [e1] at k3
  have k4 := mul_le_mul_of_nonneg_left k2 (sub_nonneg.2 hu)
  simp only [submatrix_apply, id, of_apply] at k1 k2 k4 ⊢
  linarith

-- the matrix of `C152_not_echelon`, of determinant -10
example : ∃ σ L U, Factors .f32 !![(3 : ℚ), 1, 2; 7, 3, 5; 10, 2, 1]
    !![(3 : ℚ), 1, 2; 0, -5592405 / 2 ^ 22, -11883861 / 2 ^ 21; 0, -1 / 2 ^ 24, -5242881 / 2 ^ 21] σ L U ∧
    |(-10485761 / 2 ^ 20 : ℚ) - (!![(3 : ℚ), 1, 2; 7, 3, 5; 10, 2, 1]).det| ≤
      (1 + FloatFmt.f32.u) ^ 2 * (Matrix.of fun i j => |(!![(3 : ℚ), 1, 2; 7, 3, 5; 10, 2, 1]) (σ i) j| +
        FloatFmt.f32.slack L U i j).permanent - ((!![(3 : ℚ), 1, 2; 7, 3, 5; 10, 2, 1]).map fun x => |x|).permanent := by
  refine C129_error_partial f32_ok (by norm_num) (fun i j => ?_) (by rfl) C152_not_echelon.1 (by rfl) (.inr ?_)
    C152_not_echelon.2.1
  · have hz : ∀ z : Int, |z| ≤ 16 → FloatFmt.f32.Has z := fun z hz =>
      Flt.has_int f32_ok (hz.trans (by decide))
    fin_cases i <;> fin_cases j
    · exact_mod_cast hz 3 (by decide)
    · exact_mod_cast hz 1 (by decide)
    · exact_mod_cast hz 2 (by decide)
    · exact_mod_cast hz 7 (by decide)
    · exact_mod_cast hz 3 (by decide)
    · exact_mod_cast hz 5 (by decide)
    · exact_mod_cast hz 10 (by decide)
    · exact_mod_cast hz 2 (by decide)
    · exact_mod_cast hz 1 (by decide)
  · intro k h1 h2
    obtain rfl | rfl : k = 1 ∨ k = 2 := by omega
    · decide +kernel
    · decide +kernel

end Verif
