import Verif.Props.FloatDiv
import Verif.Props.BiVec

/-!
# Products, determinants and wedge products of floats (C126, C127, C129)
-/

namespace Verif

open Flt

variable {f : FloatFmt}

/-! ## C129 -/

theorem mul_foldl_fin {l : List (Flt f)} : ∀ {z : Flt f} {r : ℚ},
    l.foldl (fun a v => a * v) z = .fin r → ∃ s, z = .fin s := by
  induction l with
  | nil => intro z r h; exact ⟨r, h⟩
  | cons w l ih =>
    intro z r h
    rw [List.foldl_cons] at h
    obtain ⟨s, hs⟩ := ih h
    obtain ⟨a, b, ha, -, -⟩ := mul_fin hs
    exact ⟨a, ha⟩

/-- The error of a product of factors. -/
theorem prod_error (hf : f.Ok) (l : List ℚ) : ∀ (s S : ℚ) (k : Nat) (r : ℚ), f.Has s →
    (1 - f.u) ^ k * |S| ≤ |s| → |s - S| ≤ ((1 + f.u) ^ k - 1) * |S| →
    (∀ j < l.length, 2 ^ f.emin ≤ (1 - f.u) ^ (k + j) * |S * (l.take (j + 1)).prod|) →
    (l.map (Flt.fin : ℚ → Flt f)).foldl (fun a v => a * v) (.fin s) = .fin r →
    f.Has r ∧ |r - S * l.prod| ≤ ((1 + f.u) ^ (k + l.length) - 1) * |S * l.prod| := by
  induction l with
  | nil =>
    intro s S k r hs _ hE _ h
    simp only [List.map_nil, List.foldl_nil] at h
    injection h with h
    subst h
    exact ⟨hs, by simpa using hE⟩
  | cons x l ih =>
    intro s S k r hs hlow hE hsafe h
    rw [List.map_cons, List.foldl_cons] at h
    obtain ⟨s', hs'⟩ := mul_foldl_fin h
    rw [hs'] at h
    rw [fin_mul] at hs'
    have hu := u_pos f
    have hu1 : f.u ≤ 1 := by
      unfold FloatFmt.u
      rw [div_le_one (by positivity)]
      exact one_le_pow₀ (by norm_num)
    have h0 := hsafe 0 (by simp)
    simp only [Nat.add_zero, Nat.zero_add, List.take_succ_cons, List.take_zero, List.prod_cons,
      List.prod_nil, mul_one] at h0
    have hsx : (1 - f.u) ^ k * |S * x| ≤ |s * x| := by
      rw [abs_mul, abs_mul, ← mul_assoc]
      exact mul_le_mul_of_nonneg_right hlow (abs_nonneg _)
    have hrel := rnd_rel (.inr (h0.trans hsx)) hs'
    have hx := abs_nonneg x
    have := ih s' (S * x) (k + 1) r (rnd_has hf hs') ?_ ?_ ?_ h
    · rw [List.length_cons, List.prod_cons, ← mul_assoc, show k + (l.length + 1) = k + 1 + l.length by ring]
      exact this
    · have h1 := abs_sub_abs_le_abs_sub (s * x) s'
      rw [abs_sub_comm] at h1
      have h2 : (1 - f.u) * |s * x| ≤ |s'| := by linarith
      refine le_trans ?_ h2
      rw [pow_succ, mul_comm _ (1 - f.u), mul_assoc]
      exact mul_le_mul_of_nonneg_left hsx (by linarith)
    · have e1 : |s' - S * x| ≤ |s' - s * x| + |s * x - S * x| := abs_sub_le _ _ _
      have e2 : |s * x - S * x| ≤ ((1 + f.u) ^ k - 1) * |S * x| := by
        rw [← sub_mul, abs_mul, abs_mul, ← mul_assoc]
        exact mul_le_mul_of_nonneg_right hE hx
      have e3 : |s * x| ≤ (1 + f.u) ^ k * |S * x| := by
        have := abs_sub_abs_le_abs_sub (s * x) (S * x)
        linarith
      have e4 := mul_le_mul_of_nonneg_left e3 hu.le
      rw [pow_succ]
      nlinarith
    · intro j hj
      have := hsafe (j + 1) (by simpa using hj)
      rw [List.take_succ_cons, List.prod_cons, ← mul_assoc] at this
      rw [show k + 1 + j = k + (j + 1) by ring]
      exact this

/-- A product stays finite if no partial product comes near the largest number or underflows. -/
private theorem prod_total (hf : f.Ok) (l : List ℚ) : ∀ (s S : ℚ) (k : Nat),
    (1 - f.u) ^ k * |S| ≤ |s| → |s| ≤ (1 + f.u) ^ k * |S| →
    (∀ j < l.length, 2 ^ f.emin ≤ (1 - f.u) ^ (k + j) * |S * (l.take (j + 1)).prod| ∧
      (1 + f.u) ^ (k + j) * |S * (l.take (j + 1)).prod| ≤ f.max) →
    ∃ r, (l.map (Flt.fin : ℚ → Flt f)).foldl (fun a v => a * v) (.fin s) = .fin r := by
  induction l with
  | nil => intro s S k _ _ _; exact ⟨s, rfl⟩
  | cons x l ih =>
    intro s S k hlow hup hsafe
    rw [List.map_cons, List.foldl_cons, fin_mul]
    have hu := u_pos f
    have hu1 : f.u ≤ 1 := by
      unfold FloatFmt.u
      rw [div_le_one (by positivity)]
      exact one_le_pow₀ (by norm_num)
    obtain ⟨h0, h0'⟩ := hsafe 0 (by simp)
    simp only [Nat.add_zero, Nat.zero_add, List.take_succ_cons, List.take_zero, List.prod_cons,
      List.prod_nil, mul_one] at h0 h0'
    have hsx : (1 - f.u) ^ k * |S * x| ≤ |s * x| := by
      rw [abs_mul, abs_mul, ← mul_assoc]
      exact mul_le_mul_of_nonneg_right hlow (abs_nonneg _)
    have hsx' : |s * x| ≤ (1 + f.u) ^ k * |S * x| := by
      rw [abs_mul, abs_mul, ← mul_assoc]
      exact mul_le_mul_of_nonneg_right hup (abs_nonneg _)
    obtain ⟨s', hs'⟩ := rnd_total hf (hsx'.trans h0')
    have hrel := rnd_rel (.inr (h0.trans hsx)) hs'
    rw [hs']
    refine ih s' (S * x) (k + 1) ?_ ?_ ?_
    · have h1 := abs_sub_abs_le_abs_sub (s * x) s'
      rw [abs_sub_comm] at h1
      have h2 : (1 - f.u) * |s * x| ≤ |s'| := by linarith
      refine le_trans ?_ h2
      rw [pow_succ, mul_comm _ (1 - f.u), mul_assoc]
      exact mul_le_mul_of_nonneg_left hsx (by linarith)
    · have h1 := abs_sub_abs_le_abs_sub s' (s * x)
      have h2 : |s'| ≤ (1 + f.u) * |s * x| := by linarith
      refine le_trans h2 ?_
      rw [pow_succ, mul_comm _ (1 + f.u), mul_assoc]
      exact mul_le_mul_of_nonneg_left hsx' (by linarith)
    · intro j hj
      have := hsafe (j + 1) (by simpa using hj)
      rw [List.take_succ_cons, List.prod_cons, ← mul_assoc] at this
      rw [show k + 1 + j = k + (j + 1) by ring]
      exact this

/-- C126 for `product`: `n` factors, the first of which is multiplied by one exactly, if no partial product
underflows. -/
theorem C126_product (hf : f.Ok) {n : Nat} (x : Fin n → ℚ) (hx : ∀ i, f.Has (x i))
    (hsafe : ∀ k, 0 < k → k < n → 2 ^ f.emin ≤
      (1 - f.u) ^ (k - 1) * |((List.ofFn x).take (k + 1)).prod|) :
    ∃ s : Flt f, Vect.product n (vec x) = some s ∧
      (∀ v, s = .fin v → |v - ∏ i, x i| ≤ ((1 + f.u) ^ (n - 1) - 1) * |∏ i, x i|) ∧
      ((∀ k, 0 < k → k < n → (1 + f.u) ^ (k - 1) * |((List.ofFn x).take (k + 1)).prod| ≤ f.max) →
        ∃ v, s = .fin v) := by
  refine ⟨_, (Vect.C77_others n (vec x : List (Flt f)) (by simp [vec]) 0).2.2.2.1, ?_⟩
  cases n with
  | zero =>
    refine ⟨fun v h => ?_, fun _ => ⟨1, rfl⟩⟩
    cases h
    simp
  | succ n =>
    have hx0 := hx 0
    have e : (vec x : List (Flt f)).foldl (fun a v => a * v) 1 =
        ((List.ofFn fun i : Fin n => x i.succ).map (Flt.fin : ℚ → Flt f)).foldl (fun a v => a * v)
          (.fin (x 0)) := by
      unfold vec
      rw [List.ofFn_succ, List.foldl_cons, List.map_ofFn,
        show (1 : Flt f) = .fin 1 from rfl, fin_mul, one_mul, rnd_exact hx0]
      rfl
    have hs : ∀ j, ((List.ofFn x).take (j + 1 + 1)).prod =
        x 0 * ((List.ofFn fun i : Fin n => x i.succ).take (j + 1)).prod := fun j => by
      rw [List.ofFn_succ, List.take_succ_cons, List.prod_cons]
    rw [e]
    constructor
    · intro v hv
      have key := prod_error hf _ (x 0) (x 0) 0 v hx0 (by simp) (by simp) (fun j hj => by
        have := hsafe (j + 1) (by omega) (by simpa using hj)
        rw [hs] at this
        simpa using this) hv
      have e2 : x 0 * (List.ofFn fun i : Fin n => x i.succ).prod = ∏ i, x i := by
        rw [List.prod_ofFn, Fin.prod_univ_succ]
      rw [e2] at key
      simpa using key.2
    · intro hmax
      refine prod_total hf _ (x 0) (x 0) 0 (by simp) (by simp) fun j hj => ?_
      have h1 := hsafe (j + 1) (by omega) (by simpa using hj)
      have h2 := hmax (j + 1) (by omega) (by simpa using hj)
      rw [hs] at h1 h2
      simpa using And.intro h1 h2

example : Vect.product 3 (vec ![3, 1 / 2, 10]) = some (.fin 15 : Flt .f32) := by decide +kernel
-- one factor at a time, in order: the exact product is one
example : Vect.product 3 (vec ![2 ^ 100, 2 ^ 100, 1 / 2 ^ 200]) = some (.inf false : Flt .f32) := by
  decide +kernel

/-- C126 for the wedge product, the components of which are determinants. -/
theorem C126_wedge (hf : f.Ok) (m : Mode) (P : Nat) {D : Nat} (x y : Fin D → ℚ)
    (hD : D * (D - 1) < 2 ^ P) :
    ∃ comps : List (Flt f), BiVec.new m P D (vec x) (vec y) = .ok comps ∧ comps.length = D.choose 2 ∧
      ∀ (n : Nat) (i j : Fin D), (BiVec.pairs D)[n]? = some ((i : Nat), (j : Nat)) →
        ∃ r, comps[n]? = some r ∧
          Accurate r (x i * y j - x j * y i) (|x i * y j| + |x j * y i|) 2 := by
  obtain ⟨comps, h1, h2, h3⟩ := BiVec.C84_wedge m P (fun i => (Flt.fin (x i) : Flt f))
    (fun i => .fin (y i)) hD
  refine ⟨comps, h1, h2, fun n i j h => ⟨_, h3 n i j h, ?_⟩⟩
  obtain ⟨r, e1, e2⟩ := C126_det2 hf (x i) (y i) (x j) (y j)
  cases e1
  exact e2

/-- C127 for the wedge product. -/
theorem C127_wedge (hf : f.Ok) (m : Mode) (P : Nat) {D : Nat} (x y : Fin D → Int)
    (hD : D * (D - 1) < 2 ^ P) (h : ∀ i j, i < j → |x i * y j| + |x j * y i| ≤ 2 ^ f.prec) :
    BiVec.new m P D (List.ofFn fun i => (ofZ (x i) : Flt f)) (List.ofFn fun i => ofZ (y i)) =
      .ok ((BiVec.pairs D).map fun p => ofZ (BiVec.at0 x p.1 * BiVec.at0 y p.2 -
        BiVec.at0 x p.2 * BiVec.at0 y p.1)) := by
  rw [BiVec.new_eq m P _ _ hD]
  congr 1
  unfold BiVec.wedge
  refine List.map_congr_left fun p hp => ?_
  obtain ⟨i, j⟩ := p
  obtain ⟨hij, hj⟩ := (BiVec.mem_pairs D i j).1 hp
  have hi : i < D := by omega
  simp only [BiVec.at0, dif_pos hi, dif_pos hj]
  have := C127_det2 (f := f) hf (x ⟨i, hi⟩) (y ⟨i, hi⟩) (x ⟨j, hj⟩) (y ⟨j, hj⟩) (h _ _ hij)
  exact Res.ok.inj this

example : BiVec.new .debug 64 3 [.fin 1, .fin 2, .fin 3] [.fin 4, .fin 5, .fin 6] =
    .ok [(.fin (-3) : Flt .f64), .fin (-6), .fin (-3)] := by decide +kernel

section triangular

variable {N : Nat} {g : Nat → Nat → ℚ}

/-- Elimination does nothing to an upper triangular matrix. -/
private theorem gaussElim_triangular (hlow : ∀ i j, i < N → j < i → g i j = 0)
    (hdiag : ∀ i, i < N → g i i ≠ 0) (hhas : ∀ i j, i < N → j < N → f.Has (g i j)) :
    Mat.gaussElim N N (rowsOf N N fun i j => (Flt.fin (g i j) : Flt f)) =
      .ok (rowsOf N N fun i j => .fin (g i j), 1) := by
  set F : Nat → Nat → Flt f := fun i j => .fin (g i j) with hF
  have good := mat_good (α := Flt f) N N
  have hzero : ∀ q : ℚ, (Flt.fin q : Flt f) = 0 ↔ q = 0 := by
    intro q
    constructor
    · intro h; injection h
    · rintro rfl; rfl
  have hstep : ∀ col, col < N → (Mat.ops (α := Flt f)).gaussStep N N col ⟨rowsOf N N F, col, 1⟩ =
      .ok ⟨rowsOf N N F, col + 1, 1⟩ := by
    intro col hcol
    unfold MatOps.gaussStep
    obtain ⟨b, e, hb⟩ := Gauss.allZero_spec good (m := rowsOf N N F) (f := F) rfl hcol (N - col) col
      (by omega)
    rw [e]
    have hbf : b = false := by
      cases b with
      | false => rfl
      | true => exact absurd ((hzero _).1 (hb.1 rfl col (le_refl _) hcol)) (hdiag col hcol)
    subst hbf
    simp only [Res.bind, Bool.false_eq_true, if_false]
    obtain ⟨small, e2, hs1, hs2, hs3⟩ := Gauss.smallIdx_spec good (m := rowsOf N N F) (f := F) rfl hcol
      (row := col) hcol.le (fun _ _ _ _ _ => rfl)
      (fun hh => hdiag col hcol ((hzero _).1 (hh col (le_refl _) hcol)))
    have hsm : small = col := by
      by_contra hne
      exact hs3 ((hzero _).2 (hlow small col hs2 (by omega)))
    rw [e2, hsm]
    simp only
    unfold MatOps.pivot
    rw [if_neg (by simp)]
    simp only
    rw [good.get (m := rowsOf N N F) (f := F) rfl hcol hcol]
    simp only
    have helim : (Mat.ops (α := Flt f)).elimBelow col N col N (F col col) (rowsOf N N F) =
        .ok (rowsOf N N F) := by
      unfold MatOps.elimBelow
      have : ∀ n, n ≤ N - (col + 1) → forUpM n (fun k m =>
          ((Mat.ops (α := Flt f)).get m (col + 1 + k) col).bind fun v =>
            (Mat.ops (α := Flt f)).elimRow col N col (col + 1 + k) (v / F col col) m)
          (rowsOf N N F) = .ok (rowsOf N N F) := by
        intro n
        induction n with
        | zero => intro _; rfl
        | succ n ih =>
          intro hn
          rw [forUpM, ih (by omega)]
          simp only [Res.bind]
          rw [good.get (m := rowsOf N N F) (f := F) rfl (by omega) hcol]
          simp only
          have hfac : F (col + 1 + n) col / F col col = 0 := by
            change div (Flt.fin _) (Flt.fin _) = _
            rw [hlow (col + 1 + n) col (by omega) (by omega)]
            unfold div
            simp only [if_neg (hdiag col hcol), zero_div]
            exact rnd_zero f
          rw [hfac]
          obtain ⟨m', e3, hm'⟩ := Gauss.elimRow_spec good (m := rowsOf N N F) (f := F) rfl (col := col)
            (row := col) (r := col + 1 + n) hcol (by omega) (by omega) 0 (N - col) (by omega)
          unfold MatOps.elimRow
          rw [e3, hm']
          congr 1
          refine rowsOf_congr fun i j hi hj => ?_
          split
          · rename_i hc
            rw [hc.1]
            have e4 : F col j * 0 = 0 := by
              change (Flt.fin (g col j) : Flt f) * .fin 0 = _
              rw [fin_mul, mul_zero]
              exact rnd_zero f
            rw [e4]
            change (Flt.fin (g (col + 1 + n) j) : Flt f) - .fin 0 = .fin (g (col + 1 + n) j)
            rw [fin_sub, sub_zero]
            exact rnd_exact (hhas _ _ (by omega) hj)
          · rfl
      exact this _ (le_refl _)
    rw [helim]
  unfold Mat.gaussElim MatOps.gaussElim
  have : ∀ n, n ≤ N → forUpM n (fun col s => (Mat.ops (α := Flt f)).gaussStep N N col s)
      ⟨rowsOf N N F, 0, 1⟩ = .ok ⟨rowsOf N N F, n, 1⟩ := by
    intro n
    induction n with
    | zero => intro _; rfl
    | succ n ih =>
      intro hn
      rw [forUpM, ih (by omega)]
      exact hstep n (by omega)
  rw [this N (le_refl _)]
  rfl

end triangular

/-- C129: the determinant of an upper triangular matrix of at least three rows, with nonzero floats on
the diagonal, whose products do not underflow: if it is finite, its relative error is at most that of
the roundings of a product. Missing: other matrices of three or more rows, for which it is false. -/
theorem C129_triangular_partial (hf : f.Ok) {N : Nat} (hN : 3 ≤ N) {m : List (List (Flt f))}
    (A : Matrix (Fin N) (Fin N) ℚ) (hm : MatOf m (A.map Flt.fin)) (hA : ∀ i j, f.Has (A i j))
    (htri : ∀ i j, j < i → A i j = 0) (hdiag : ∀ i, A i i ≠ 0)
    (hsafe : ∀ k < N, 2 ^ f.emin ≤
      (1 - f.u) ^ k * |((List.ofFn fun i => A i i).take (k + 1)).prod|) :
    ∃ d, Mat.determinant N m = .ok d ∧
      ∀ r, d = .fin r → |r - A.det| ≤ ((1 + f.u) ^ N - 1) * |A.det| := by
  have hdet : A.det = (List.ofFn fun i => A i i).prod := by
    rw [Matrix.det_of_isUpperTriangular (fun i j hij => htri i j hij), List.prod_ofFn]
  have he : extend (A.map (Flt.fin : ℚ → Flt f)) = fun i j => Flt.fin (extend A i j) := by
    funext i j
    unfold extend
    split <;> rfl
  have hel := gaussElim_triangular (f := f) (N := N) (g := extend A)
    (fun i j hi hj => by
      have := htri ⟨i, hi⟩ ⟨j, by omega⟩ hj
      rw [← this]; exact extend_apply A ⟨i, hi⟩ ⟨j, by omega⟩)
    (fun i hi => by rw [extend_apply A ⟨i, hi⟩ ⟨i, hi⟩]; exact hdiag _)
    (fun i j hi hj => by rw [extend_apply A ⟨i, hi⟩ ⟨j, hj⟩]; exact hA _ _)
  have hm' : m = rowsOf N N fun i j => (Flt.fin (extend A i j) : Flt f) := by
    rw [matOf_rowsOf hm, he]
  have hdg : Mat.diag N (rowsOf N N fun i j => (Flt.fin (extend A i j) : Flt f)) =
      .ok ((List.ofFn fun i => A i i).map (Flt.fin : ℚ → Flt f)) := by
    unfold Mat.diag
    rw [fromFnM_eq N _ _ fun i hi => mat_get _ hi hi, List.map_ofFn]
    congr 1
    rw [← ofFn_eq_range]
    congr 1
    funext i
    simp only [extend_apply]
    rfl
  have hbr : Mat.determinant N m = (Mat.gaussElim N N m).bind fun r => (Mat.diag N r.1).bind fun d =>
      (Res.ofOption (Vect.product N d)).bind fun p => .ok (p / r.2) := by
    obtain ⟨n, rfl⟩ : ∃ n, N = n + 3 := ⟨N - 3, by omega⟩
    rfl
  rw [hbr, hm', hel]
  simp only [Res.bind]
  rw [hdg]
  simp only
  rw [(Vect.C77_others N _ (by simp) 0).2.2.2.1]
  refine ⟨_, rfl, fun r h => ?_⟩
  rcases div_fin h with ⟨p, b, hp, hb, -, hr⟩ | ⟨s, hs⟩
  · injection hb with hb
    subst hb
    have key := prod_error hf (List.ofFn fun i => A i i) 1 1 0 p
      (by exact_mod_cast has_int hf (z := 1) (by
        rw [abs_one]; exact one_le_pow₀ (by norm_num)))
      (by simp) (by simp) (fun j hj => by
        have := hsafe j (by simpa using hj)
        simpa using this) hp
    rw [div_one, rnd_exact key.1] at hr
    injection hr with hr
    subst hr
    rw [hdet]
    simpa using key.2
  · cases hs

/-- C129 fails: elimination takes the smallest nonzero entry of a column for its pivot, which loses
everything. The determinant of this matrix is `2 - 3 * 2^-60`, the result zero; the same
happens with a matrix of integers. -/
theorem C129_violated :
    Mat.determinant 3 [[.fin (1 / 2 ^ 60), .fin 1, .fin 1], [.fin 1, .fin 1, .fin 2],
      [.fin 1, .fin 2, .fin 1]] = .ok (.fin 0 : Flt .f64) ∧
    Mat.determinant 3 [[(1 / 2 ^ 60 : ℚ), 1, 1], [1, 1, 2], [1, 2, 1]] = .ok (2 - 3 / 2 ^ 60) ∧
    Mat.determinant 3 [[.fin 1, .fin (2 ^ 60), .fin (2 ^ 60)], [.fin (2 ^ 60), .fin (2 ^ 60),
      .fin (2 ^ 61)], [.fin (2 ^ 60), .fin (2 ^ 61), .fin (2 ^ 60)]] = .ok (.fin 0 : Flt .f64) ∧
    Mat.determinant 3 [[(1 : ℚ), 2 ^ 60, 2 ^ 60], [2 ^ 60, 2 ^ 60, 2 ^ 61], [2 ^ 60, 2 ^ 61, 2 ^ 60]] =
      .ok (2 ^ 181 - 3 * 2 ^ 120) := by
  decide +kernel

/-- … and the determinant of a small integer matrix, the one of the tests, is not an integer. -/
theorem C129_violated_integers :
    Mat.determinant 3 [[.fin 2, .fin (-3), .fin 1], [.fin 2, .fin 0, .fin (-1)],
      [.fin 1, .fin 4, .fin 5]] = .ok (.fin (6896136929411071 / 2 ^ 47) : Flt .f64) ∧
    Mat.determinant 3 [[(2 : ℚ), -3, 1], [2, 0, -1], [1, 4, 5]] = .ok 49 := by
  decide +kernel

example : Mat.determinant 3 [[.fin 2, .fin 7, .fin 1], [.fin 0, .fin 3, .fin (-1)],
    [.fin 0, .fin 0, .fin 5]] = .ok (.fin 30 : Flt .f64) := by decide +kernel
example : (2 : ℚ) ^ FloatFmt.f64.emin ≤ (1 - FloatFmt.f64.u) ^ 2 * |([2, 3, 5].take 3).prod| := by
  decide +kernel

end Verif
