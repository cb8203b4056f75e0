import Verif.Lemmas.GaussError
import Verif.Spec.FloatFactors
import Verif.Props.FloatDet

/-!
# Backward error analysis of elimination on floats (C152)
-/

namespace Verif

open Flt

variable {f : FloatFmt} {N : Nat}

/-! ## C152 -/

namespace Gauss

variable {B L U : Nat → Nat → ℚ} {g : Nat → Nat → Flt f} {row : Nat} {piv : Nat → Nat}

private theorem LU.piv_ge (h : LU f N B L U g N row piv) : ∀ m, m < row → m ≤ piv m := by
  intro m
  induction m with
  | zero => intro _; omega
  | succ m ih =>
    intro hm
    have := ih (by omega)
    have := h.mono m (m + 1) (by omega) hm
    omega

private theorem LU.upper (h : LU f N B L U g N row piv) {i j : Nat} (hi : i < N) (hji : j < i) :
    U i j = 0 := by
  rcases Nat.lt_or_ge i row with hr | hr
  · exact h.left i j hr (by have := h.piv_ge i hr; omega)
  · exact h.below i j hr hi (by omega)

/-- The entries on the diagonal are those of the factor, or both have a zero there. -/
private theorem LU.diag (h : LU f N B L U g N row piv) (hr : row ≤ N) :
    (∀ i, i < N → g i i = .fin (U i i)) ∨ ∃ i, i < N ∧ g i i = .fin 0 ∧ U i i = 0 := by
  by_cases hp : ∃ m, m < row ∧ piv m ≠ m
  · right
    obtain ⟨h1, h2⟩ := Nat.find_spec hp
    have hmin := fun m hm => Nat.find_min hp (m := m) hm
    set k := Nat.find hp
    have hU : U k k = 0 := h.left k k h1 (by have := h.piv_ge k h1; omega)
    refine ⟨k, by omega, ?_, hU⟩
    rcases h.entry k k (by omega) (by omega) with e | ⟨m, hm, hm', e, _⟩
    · rw [e, hU]
    · exfalso
      have : piv m = m := by
        by_contra hc
        exact hmin m hm ⟨hm', hc⟩
      omega
  · left
    push Not at hp
    intro i hi
    rcases h.entry i i hi hi with e | ⟨m, hm, hm', e, _⟩
    · exact e
    · have := hp m hm'
      omega

/-- The matrix of factors. -/
private def lower (L : Nat → Nat → ℚ) (row N : Nat) : Matrix (Fin N) (Fin N) ℚ :=
  Matrix.of fun i m => if m < i ∧ (m : Nat) < row then L i m else if m = i then 1 else 0

private theorem sum_lower {β : Type} [AddCommMonoid β] (row : Nat) (i : Fin N) (F : Nat → β) (x : β) :
    (∑ m : Fin N, if m < i ∧ (m : Nat) < row then F m else if m = i then x else 0) =
      ∑ m ∈ Finset.range (min i row), F m + x := by
  have h1 : ∀ m : Fin N, (if m < i ∧ (m : Nat) < row then F m else if m = i then x else 0) =
      (if (m : Nat) < min (i : Nat) row then F m else 0) + if m = i then x else 0 := by
    intro m
    by_cases hm : m < i
    · have hne : m ≠ i := ne_of_lt hm
      by_cases hr : (m : Nat) < row
      · rw [if_pos ⟨hm, hr⟩, if_pos (by rw [Fin.lt_def] at hm; omega), if_neg hne, add_zero]
      · rw [if_neg (by tauto), if_neg hne, if_neg (by omega), add_zero]
    · rw [if_neg (by tauto), if_neg (show ¬ (m : Nat) < min (i : Nat) row by rw [Fin.lt_def] at hm; omega),
        zero_add]
  rw [Finset.sum_congr rfl fun m _ => h1 m, Finset.sum_add_distrib, Finset.sum_ite_eq' Finset.univ i,
    if_pos (Finset.mem_univ _), Fin.sum_univ_eq_sum_range (fun m => if m < min (i : Nat) row then F m else 0)]
  congr 1
  rw [← Finset.sum_filter]
  refine Finset.sum_congr ?_ fun _ _ => rfl
  ext m
  simp only [Finset.mem_filter, Finset.mem_range]
  have := i.isLt
  omega

private theorem LU.factors (hr : row ≤ N) (h : LU f N B L U g N row piv) {A R : Matrix (Fin N) (Fin N) ℚ}
    {σ : Equiv.Perm (Fin N)} (hB : ∀ i j : Fin N, B i j = A (σ i) j)
    (hR : ∀ i j : Fin N, g i j = .fin (R i j)) :
    Factors f A R σ (lower L row N) (toM N N U) := by
  have hprod : ∀ i j : Fin N, (lower L row N * toM N N U) i j =
      ∑ m ∈ Finset.range (min i row), L i m * U m j + U i j := by
    intro i j
    rw [Matrix.mul_apply, ← sum_lower row i (fun m => L i m * U m j) (U i j)]
    refine Finset.sum_congr rfl fun m _ => ?_
    simp only [lower, toM, Matrix.of_apply]
    split
    · rfl
    · split
      · rename_i hm; rw [hm, one_mul]
      · rw [zero_mul]
  have hmag : ∀ i j : Fin N, magnitude (lower L row N) (toM N N U) i j =
      ∑ m ∈ Finset.range (min i row), |L i m * U m j| + |U i j| := by
    intro i j
    unfold magnitude
    rw [Matrix.mul_apply, ← sum_lower row i (fun m => |L i m * U m j|) |U i j|]
    refine Finset.sum_congr rfl fun m _ => ?_
    simp only [lower, toM, Matrix.of_apply, Matrix.map_apply]
    split
    · rw [abs_mul]
    · split
      · rename_i hm; rw [hm, abs_one, one_mul]
      · rw [abs_zero, zero_mul]
  have hη := (eta_pos f).le
  have hu := (u_pos f).le
  have hund : ∀ i j : Fin N, ∑ m ∈ Finset.range (min i row), f.eta * (1 + |U m j|) ≤
      f.underflow (toM N N U) i j := by
    intro i j
    unfold FloatFmt.underflow
    rw [Finset.sum_filter]
    have e : ∀ m : Fin N, (if m < i then f.eta * (1 + |toM N N U m j|) else 0) =
        (fun m : Nat => if m < (i : Nat) then f.eta * (1 + |U m j|) else 0) m := fun m => rfl
    rw [Finset.sum_congr rfl fun m _ => e m, Fin.sum_univ_eq_sum_range
      (fun m : Nat => if m < (i : Nat) then f.eta * (1 + |U m j|) else 0), ← Finset.sum_filter]
    refine Finset.sum_le_sum_of_subset_of_nonneg (fun m hm => ?_) fun m _ _ => by positivity
    simp only [Finset.mem_filter, Finset.mem_range] at hm ⊢
    have := i.isLt
    omega
  refine ⟨fun i => ?_, fun i j hij => ?_, ?_, fun i j => ?_, fun i j => ?_⟩
  · simp only [lower, Matrix.of_apply, lt_irrefl, false_and, if_false, if_true]
  · simp only [lower, Matrix.of_apply]
    rw [if_neg fun hh => absurd (hh.1.trans hij) (lt_irrefl _), if_neg (ne_of_gt hij)]
  · intro i i' c' hii ⟨h1, h2⟩
    have hi' : (i' : Nat) < row := by
      by_contra hc
      exact h1 (h.below i' c' (by omega) i'.isLt c'.isLt)
    have hi : (i : Nat) < row := by rw [Fin.lt_def] at hii; omega
    have hc' : (c' : Nat) = piv i' := by
      rcases Nat.lt_trichotomy c' (piv i') with hlt | heq | hgt
      · exact absurd (h.left i' c' hi' hlt) h1
      · exact heq
      · exact absurd (h2 ⟨piv i', h.lt i' hi'⟩ hgt) (h.lead i' hi')
    refine ⟨⟨piv i, h.lt i hi⟩, ?_, h.lead i hi, fun c hc => h.left i c hi hc⟩
    rw [Fin.lt_def, hc']
    exact h.mono i i' hii hi'
  · rw [hprod, hmag, ← hB]
    refine (h.err i j i.isLt j.isLt).trans ?_
    have hpow : (1 + f.u) ^ min (i : Nat) row ≤ (1 + f.u) ^ (i : Nat) :=
      pow_le_pow_right₀ (by linarith) (Nat.min_le_left _ _)
    have h0 : 0 ≤ ∑ m ∈ Finset.range (min (i : Nat) row), f.eta * (1 + |U m j|) :=
      Finset.sum_nonneg fun m _ => by positivity
    refine add_le_add (mul_le_mul_of_nonneg_right (by linarith) ?_) (mul_le_mul hpow (hund i j) h0 (by positivity))
    exact add_nonneg (Finset.sum_nonneg fun m _ => abs_nonneg _) (abs_nonneg _)
  · rcases h.entry i j i.isLt j.isLt with e | ⟨m, hm, hm', e1, e2, y, e3, e4⟩
    · left
      rw [hR] at e
      injection e
    · right
      refine ⟨e2, ?_⟩
      rw [hR] at e3
      injection e3 with e3
      rw [e3]
      refine e4.trans (mul_le_mul_of_nonneg_left ?_ (by linarith))
      have hmem : m ∈ Finset.range (min (i : Nat) row) := Finset.mem_range.mpr (by omega)
      refine add_le_add (mul_le_mul_of_nonneg_left ?_ (by linarith)) ?_
      · rw [hmag]
        have := Finset.single_le_sum (f := fun m => |L i m * U m j|) (fun m _ => abs_nonneg _) hmem
        have := abs_nonneg (U i j)
        linarith
      · refine le_trans ?_ (hund i j)
        exact Finset.single_le_sum (f := fun m => f.eta * (1 + |U m j|)) (fun m _ => by positivity) hmem

private theorem LU.det (hr : row ≤ N) (h : LU f N B L U g N row piv) {σ : Equiv.Perm (Fin N)} :
    ((lower L row N * toM N N U).submatrix σ.symm id).det =
      ((Equiv.Perm.sign σ : Int) : ℚ) * ∏ i : Fin N, U i i := by
  rw [Matrix.det_permute, Matrix.det_mul, Matrix.det_of_isLowerTriangular _ fun i j hij => ?_,
    Matrix.det_of_isUpperTriangular fun i j hij => ?_]
  · simp [lower, toM]
  · exact h.upper i.isLt hij
  · simp only [lower, Matrix.of_apply]
    have hij' : i < j := hij
    rw [if_neg fun hh => absurd (hh.1.trans hij') (lt_irrefl _), if_neg (ne_of_gt hij')]

end Gauss

private theorem map_extend (A : Matrix (Fin N) (Fin N) ℚ) :
    extend (A.map (Flt.fin : ℚ → Flt f)) = fun i j => Flt.fin (extend A i j) := by
  funext i j
  unfold extend
  split <;> rfl

private theorem extend_has {A : Matrix (Fin N) (Fin N) ℚ} (hA : ∀ i j, f.Has (A i j)) :
    ∀ i j, i < N → j < N → f.Has (extend A i j) := fun i j hi hj => by
  rw [extend_apply A ⟨i, hi⟩ ⟨j, hj⟩]; exact hA _ _

/-- C152 for `row_reduce` of static matrices: if the entries it returns are finite, it has computed the
factors of a matrix nearby. -/
theorem C152_row_reduce (hf : f.Ok) {A B : Matrix (Fin N) (Fin N) ℚ} (hA : ∀ i j, f.Has (A i j))
    {m r : List (List (Flt f))} (hm : MatOf m (A.map Flt.fin)) (h : Mat.rowReduce N N m = .ok r)
    (hr : MatOf r (B.map Flt.fin)) : ∃ σ L U, Factors f A B σ L U := by
  unfold Mat.rowReduce at h
  cases e : Mat.gaussElim N N m with
  | panic => rw [e] at h; cases h
  | hang => rw [e] at h; cases h
  | ok x =>
    rw [e] at h
    simp only [Res.bind, Res.ok.injEq] at h
    subst h
    rw [matOf_rowsOf hm, map_extend] at e
    obtain ⟨g, hg, hval, hlu⟩ := Gauss.gaussElim_lu (mat_good N N) hf (A := extend A) rfl (extend_has hA) e
    have hgB : ∀ i j : Fin N, g i j = .fin (B i j) := by
      intro i j
      have := rowsOf_matOf N N g
      rw [← hg] at this
      have h2 := matOf_inj this hr
      have h3 := congrFun (congrFun h2 i) j
      exact h3
    obtain ⟨σ, B', L, U, row, piv, k1, k2, k3, k4⟩ := hlu fun i j hi hj => ⟨_, hgB ⟨i, hi⟩ ⟨j, hj⟩⟩
    exact ⟨σ, _, _, k4.factors k1 (fun i j => by rw [k3, extend_apply]) hgB⟩

/-- C152 for `row_reduce` of dynamic matrices. -/
theorem C152_dyn_row_reduce (md : Mode) (P : Nat) (hf : f.Ok) {A B : Matrix (Fin N) (Fin N) ℚ}
    (hA : ∀ i j, f.Has (A i j)) {d r : DynMat (Flt f)} (hd : DynOf P d (A.map Flt.fin))
    (h : DynMat.rowReduce md P d = .ok r) (hr : DynOf P r (B.map Flt.fin)) :
    ∃ σ L U, Factors f A B σ L U := by
  obtain ⟨hw, hdr, hdc, he⟩ := hd
  have hrep : DynRep P N N d (fun i j => Flt.fin (extend A i j)) := ⟨hw, hdr, hdc, fun i j hi hj => by
    rw [extend, dif_pos ⟨hi, hj⟩]; exact he ⟨i, hi⟩ ⟨j, hj⟩⟩
  unfold DynMat.rowReduce DynMat.gaussElim at h
  rw [hdr, hdc] at h
  cases e : (DynMat.ops md P).gaussElim N N d with
  | panic => rw [e] at h; cases h
  | hang => rw [e] at h; cases h
  | ok x =>
    rw [e] at h
    simp only [Res.bind, Res.ok.injEq] at h
    subst h
    obtain ⟨g, hg, hval, hlu⟩ := Gauss.gaussElim_lu (dyn_good md P N N) hf (A := extend A) hrep (extend_has hA) e
    have hgB : ∀ i j : Fin N, g i j = .fin (B i j) := by
      intro i j
      have h1 := hg.entry i j i.isLt j.isLt
      obtain ⟨_, _, _, h2⟩ := hr
      have h3 := h2 i j
      rw [h1] at h3
      injection h3
    obtain ⟨σ, B', L, U, row, piv, k1, k2, k3, k4⟩ := hlu fun i j hi hj => ⟨_, hgB ⟨i, hi⟩ ⟨j, hj⟩⟩
    exact ⟨σ, _, _, k4.factors k1 (fun i j => by rw [k3, extend_apply]) hgB⟩

private theorem fold_zero (l : List ℚ) : ∀ s : ℚ, (s = 0 ∨ (0 : ℚ) ∈ l) → ∀ v,
    (l.map (Flt.fin : ℚ → Flt f)).foldl (fun a v => a * v) (.fin s) = .fin v → v = 0 := by
  induction l with
  | nil =>
    intro s hs v h
    simp only [List.not_mem_nil, or_false] at hs
    simp only [List.map_nil, List.foldl_nil] at h
    injection h with h
    rw [← h, hs]
  | cons x l ih =>
    intro s hs v h
    rw [List.map_cons, List.foldl_cons] at h
    obtain ⟨s', hs'⟩ := mul_foldl_fin h
    rw [hs'] at h
    refine ih s' ?_ v h
    rw [fin_mul] at hs'
    rcases hs with rfl | hs
    · left
      rw [zero_mul] at hs'
      exact rnd_fin_of_zero hs'
    · rcases List.mem_cons.mp hs with rfl | hs
      · left
        rw [mul_zero] at hs'
        exact rnd_fin_of_zero hs'
      · exact .inr hs

private theorem fold_has (hf : f.Ok) (l : List ℚ) : ∀ s : ℚ, f.Has s → ∀ v,
    (l.map (Flt.fin : ℚ → Flt f)).foldl (fun a v => a * v) (.fin s) = .fin v → f.Has v := by
  induction l with
  | nil =>
    intro s hs v h
    simp only [List.map_nil, List.foldl_nil] at h
    injection h with h
    exact h ▸ hs
  | cons x l ih =>
    intro s hs v h
    rw [List.map_cons, List.foldl_cons] at h
    obtain ⟨s', hs'⟩ := mul_foldl_fin h
    rw [hs'] at h
    exact ih s' (rnd_has hf hs') v h

/-- C152 for determinants of three or more rows: a finite result is the determinant of a matrix nearby, up
to the roundings of the product of the diagonal, if that does not underflow. -/
theorem C152_determinant (hf : f.Ok) (hN : 3 ≤ N) {A B : Matrix (Fin N) (Fin N) ℚ}
    (hA : ∀ i j, f.Has (A i j)) {m r : List (List (Flt f))} (hm : MatOf m (A.map Flt.fin))
    (h : Mat.rowReduce N N m = .ok r) (hr : MatOf r (B.map Flt.fin))
    (hsafe : (∃ i, B i i = 0) ∨ ∀ k, 0 < k → k < N → 2 ^ f.emin ≤
      (1 - f.u) ^ (k - 1) * |((List.ofFn fun i => B i i).take (k + 1)).prod|)
    {d : ℚ} (hd : Mat.determinant N m = .ok (.fin d)) :
    ∃ σ L U, Factors f A B σ L U ∧
      |d - ((L * U).submatrix σ.symm id).det| ≤
        ((1 + f.u) ^ (N - 1) - 1) * |((L * U).submatrix σ.symm id).det| := by
  have hbr : Mat.determinant N m = (Mat.gaussElim N N m).bind fun r => (Mat.diag N r.1).bind fun d =>
      (Res.ofOption (Vect.product N d)).bind fun p => .ok (p / r.2) := by
    obtain ⟨n, rfl⟩ : ∃ n, N = n + 3 := ⟨N - 3, by omega⟩
    rfl
  rw [hbr] at hd
  unfold Mat.rowReduce at h
  cases e : Mat.gaussElim N N m with
  | panic => rw [e] at h; cases h
  | hang => rw [e] at h; cases h
  | ok x =>
    rw [e] at h hd
    simp only [Res.bind, Res.ok.injEq] at h hd
    subst h
    rw [matOf_rowsOf hm, map_extend] at e
    obtain ⟨g, hg, hval, hlu⟩ := Gauss.gaussElim_lu (mat_good N N) hf (A := extend A) rfl (extend_has hA) e
    have hgB : ∀ i j : Fin N, g i j = .fin (B i j) := by
      intro i j
      have := rowsOf_matOf N N g
      rw [← hg] at this
      have h2 := matOf_inj this hr
      have h3 := congrFun (congrFun h2 i) j
      exact h3
    obtain ⟨σ, B', L, U, row, piv, k1, k2, k3, k4⟩ := hlu fun i j hi hj => ⟨_, hgB ⟨i, hi⟩ ⟨j, hj⟩⟩
    refine ⟨σ, _, _, k4.factors k1 (fun i j => by rw [k3, extend_apply]) hgB, ?_⟩
    rw [k4.det k1]
    have hdg : Mat.diag N x.1 = .ok (vec fun i => B i i) := by
      rw [hg]
      unfold Mat.diag
      rw [fromFnM_eq N _ _ fun i hi => mat_get _ hi hi]
      congr 1
      rw [← ofFn_eq_range]
      unfold vec
      congr 1
      funext i
      exact hgB i i
    rw [hdg] at hd
    simp only at hd
    rw [(Vect.C77_others N (vec fun i => B i i) (by simp [vec]) 0).2.2.2.1] at hd
    simp only [Res.ofOption, Res.ok.injEq] at hd
    rw [k2] at hd
    rcases div_fin hd with ⟨p, b, hp, hb, -, hrnd⟩ | ⟨s, hs⟩
    swap
    · cases hs
    injection hb with hb
    subst hb
    have hBhas : ∀ i, f.Has (B i i) := fun i => hval i i i.isLt i.isLt _ (hgB i i)
    have hlist : (vec fun i => B i i : List (Flt f)) = (List.ofFn fun i => B i i).map Flt.fin := by
      unfold vec
      rw [List.map_ofFn]
      rfl
    have hhas : f.Has p := by
      rw [hlist] at hp
      exact fold_has hf _ 1 (by exact_mod_cast has_int hf (z := 1) (by
        rw [abs_one]; exact one_le_pow₀ (by norm_num))) _ hp
    have hzero : (∃ i, B i i = 0) → p = 0 := by
      rintro ⟨i, hi⟩
      rw [hlist] at hp
      refine fold_zero _ 1 (.inr ?_) _ hp
      rw [List.mem_ofFn]
      exact ⟨i, hi⟩
    have hone : 0 ≤ (1 + f.u) ^ (N - 1) - 1 := by
      have : 1 ≤ (1 + f.u) ^ (N - 1) := one_le_pow₀ (by linarith [u_pos f])
      linarith
    -- the product of the diagonal
    have hprod : |p - ∏ i : Fin N, U i i| ≤ ((1 + f.u) ^ (N - 1) - 1) * |∏ i : Fin N, U i i| ∧ f.Has p := by
      refine ⟨?_, hhas⟩
      rcases k4.diag k1 with hd | ⟨i, hi, hd, hu⟩
      · have hBU : ∀ i : Fin N, U i i = B i i := by
          intro i
          have := hd i i.isLt
          rw [hgB] at this
          injection this with this
          exact this.symm
        rw [Finset.prod_congr rfl fun i _ => hBU i]
        rcases hsafe with hz | hsafe
        · rw [hzero hz]
          obtain ⟨i, hi⟩ := hz
          rw [Finset.prod_eq_zero (f := fun i => B i i) (Finset.mem_univ i) hi]
          simp
        · obtain ⟨s, e1, e2, _⟩ := C126_product hf (fun i => B i i) hBhas hsafe
          rw [(Vect.C77_others N (vec fun i => B i i) (by simp [vec]) 0).2.2.2.1] at e1
          exact e2 p ((Option.some.inj e1).symm.trans hp)
      · rw [hzero ⟨⟨i, hi⟩, by
          have h1 : g i i = .fin (B ⟨i, hi⟩ ⟨i, hi⟩) := hgB ⟨i, hi⟩ ⟨i, hi⟩
          rw [hd] at h1
          injection h1 with h1
          exact h1.symm⟩, Finset.prod_eq_zero (Finset.mem_univ (⟨i, hi⟩ : Fin N)) hu]
        simp
    have hsgn : ((Equiv.Perm.sign σ : Int) : ℚ) = 1 ∨ ((Equiv.Perm.sign σ : Int) : ℚ) = -1 := by
      rcases Int.units_eq_one_or (Equiv.Perm.sign σ) with h | h <;> rw [h] <;> simp
    rcases hsgn with hs | hs
    · rw [hs, div_one, rnd_exact hprod.2] at hrnd
      injection hrnd with hrnd
      rw [hs, one_mul, ← hrnd]
      exact hprod.1
    · rw [hs, div_neg, div_one, rnd_exact (Has.neg hprod.2)] at hrnd
      injection hrnd with hrnd
      rw [hs, neg_one_mul, ← hrnd, abs_neg, ← abs_neg]
      convert hprod.1 using 2
      ring

/-- The bounds are needed: the entries below a pivot are computed like the others, and here `row_reduce`
returns `-2^-24` in place of a zero, which is not an echelon form; the determinant is -10. -/
theorem C152_not_echelon :
    Mat.rowReduce 3 3 [[.fin 3, .fin 1, .fin 2], [.fin 7, .fin 3, .fin 5], [.fin 10, .fin 2, .fin 1]] =
      (.ok [[.fin 3, .fin 1, .fin 2], [.fin 0, .fin (-5592405 / 2 ^ 22), .fin (-11883861 / 2 ^ 21)],
        [.fin 0, .fin (-1 / 2 ^ 24), .fin (-5242881 / 2 ^ 21)]] : Res (List (List (Flt .f32)))) ∧
    Mat.determinant 3 [[.fin 3, .fin 1, .fin 2], [.fin 7, .fin 3, .fin 5], [.fin 10, .fin 2, .fin 1]] =
      (.ok (.fin (-10485761 / 2 ^ 20)) : Res (Flt .f32)) ∧
    ¬ IsEchelon !![(3 : ℚ), 1, 2; 0, -5592405 / 2 ^ 22, -11883861 / 2 ^ 21; 0, -1 / 2 ^ 24, -5242881 / 2 ^ 21] := by
  refine ⟨by decide +kernel, by decide +kernel, fun h => ?_⟩
  obtain ⟨c, hc, hl, _⟩ := h 1 2 1 (by decide) ⟨by simp, fun c' hc' => by
    fin_cases c' <;> simp_all⟩
  fin_cases c <;> simp_all

-- the theorems apply to this matrix
example : ∃ σ L U, Factors .f32 !![(3 : ℚ), 1, 2; 7, 3, 5; 10, 2, 1]
    !![(3 : ℚ), 1, 2; 0, -5592405 / 2 ^ 22, -11883861 / 2 ^ 21; 0, -1 / 2 ^ 24, -5242881 / 2 ^ 21] σ L U ∧
    |(-10485761 / 2 ^ 20 : ℚ) - ((L * U).submatrix σ.symm id).det| ≤
      ((1 + FloatFmt.f32.u) ^ 2 - 1) * |((L * U).submatrix σ.symm id).det| := by
  refine C152_determinant f32_ok (by norm_num) (fun i j => ?_) (by rfl) C152_not_echelon.1 (by rfl) (.inr ?_)
    C152_not_echelon.2.1
  · have hz : ∀ z : Int, |z| ≤ 16 → FloatFmt.f32.Has z := fun z hz =>
      has_int f32_ok (hz.trans (by decide))
    fin_cases i <;> fin_cases j
    · exact_mod_cast hz 3 (by decide)
    · exact_mod_cast hz 1 (by decide)
    · exact_mod_cast hz 2 (by decide)
    · exact_mod_cast hz 7 (by decide)
    · exact_mod_cast hz 3 (by decide)
    · exact_mod_cast hz 5 (by decide)
    · exact_mod_cast hz 10 (by decide)
    · exact_mod_cast hz 2 (by decide)
    · exact_mod_cast hz 1 (by decide)
  · intro k h1 h2
    obtain rfl | rfl : k = 1 ∨ k = 2 := by omega
    · decide +kernel
    · decide +kernel

end Verif
