import Verif.Lemmas.FloatSum
import Verif.Model.Complex
import Verif.Props.Vector
import Verif.Props.Matrix

/-!
# Computations with floats (C126, C127)
-/

namespace Verif

open Flt

theorem f32_ok : FloatFmt.f32.Ok := ⟨by decide, by decide, by decide⟩
theorem f64_ok : FloatFmt.f64.Ok := ⟨by decide, by decide, by decide⟩

variable {f : FloatFmt}

/-! ## C126: results are as accurate as the number of operations allows -/

private theorem forall₂_ofFn {α β : Type} {R : α → β → Prop} {n : Nat} {a : Fin n → α} {b : Fin n → β}
    (h : ∀ i, R (a i) (b i)) : List.Forall₂ R (List.ofFn a) (List.ofFn b) := by
  rw [List.forall₂_iff_get]
  refine ⟨by simp, fun i h1 h2 => ?_⟩
  simpa using h ⟨i, by simpa using h1⟩

private theorem pow_pred (x : ℚ) (n : Nat) (h : 0 < n) : x ^ (n - 1) * x = x ^ n := by
  rw [← pow_succ]; congr 1; omega

/-- Adding up rounded products from zero. -/
private theorem accurate_fold (hf : f.Ok) {n : Nat} (v : Fin n → Flt f) (p : Fin n → ℚ)
    (hv : ∀ i, v i = rnd f (p i)) :
    Accurate ((List.ofFn v).foldl (fun a v => a + v) 0) (∑ i, p i) (∑ i, |p i|) n := by
  have hnear : List.Forall₂ (Near f.u f.eta) (List.ofFn v) (List.ofFn p) :=
    forall₂_ofFn fun i y hy => by
      rw [hv] at hy
      exact ⟨rnd_has hf hy, rnd_error hy⟩
  have hsum : (List.ofFn p).sum = ∑ i, p i := List.sum_ofFn
  have habs : ((List.ofFn p).map (|·|)).sum = ∑ i, |p i| := by
    rw [List.map_ofFn, List.sum_ofFn]; rfl
  have hu := u_pos f
  rcases Nat.eq_zero_or_pos n with h0 | hpos
  · subst h0
    refine ⟨fun w hw => ?_, fun _ => ⟨0, rfl⟩⟩
    simp only [List.ofFn_zero, List.foldl_nil] at hw
    injection hw with hw
    subst hw; simp
  constructor
  · intro w hw
    have := fold_error_zero hf hu.le (eta_pos f).le _ _ hnear hw
    rw [hsum, habs, List.length_ofFn, pow_pred _ _ hpos] at this
    exact this
  · intro hB
    refine fold_total_zero hf hu.le (eta_pos f).le _ _ hnear ?_ ?_
    · intro w hw
      obtain ⟨i, rfl⟩ := (List.mem_ofFn' v w).1 hw
      rw [hv]
      refine rnd_total hf (le_trans ?_ hB)
      have h1 : |p i| ≤ ∑ i, |p i| :=
        Finset.single_le_sum (fun j _ => abs_nonneg (p j)) (Finset.mem_univ i)
      have h2 : (1 : ℚ) ≤ (1 + f.u) ^ n := one_le_pow₀ (by linarith)
      have h3 : 0 ≤ (n : ℚ) * (1 + f.u) ^ (n - 1) * f.eta := by have := eta_pos f; positivity
      have h4 : ∑ i, |p i| ≤ (1 + f.u) ^ n * ∑ i, |p i| :=
        le_mul_of_one_le_left ((abs_nonneg _).trans h1) h2
      linarith
    · rw [habs, List.length_ofFn, pow_pred _ _ hpos]
      exact hB

/-- C126 for `dot_product`. -/
theorem C126_dot (hf : f.Ok) {n : Nat} (x y : Fin n → ℚ) :
    Accurate (Vect.dotProduct (vec x : List (Flt f)) (vec y)) (∑ i, x i * y i) (∑ i, |x i * y i|) n := by
  have e : Vect.dotProduct (vec x : List (Flt f)) (vec y) =
      (List.ofFn fun i => (Flt.fin (x i) * .fin (y i) : Flt f)).foldl (fun a v => a + v) 0 := by
    unfold Vect.dotProduct vec
    rw [Vect.stdZip_map (fun x y => x * y), Vect.zipWith_ofFn]
  rw [e]
  exact accurate_fold hf _ _ fun i => rfl

example := C126_dot f64_ok ![1 / 2, 3] ![2 ^ 60, -1]

/-- C126 for `sum`: nothing is multiplied, so there is one rounding less, and no underflow. -/
theorem C126_sum (hf : f.Ok) {n : Nat} (x : Fin n → ℚ) (hx : ∀ i, f.Has (x i)) :
    ∃ s : Flt f, Vect.sum n (vec x) = some s ∧
      (∀ v, s = .fin v → |v - ∑ i, x i| ≤ ((1 + f.u) ^ (n - 1) - 1) * ∑ i, |x i|) ∧
      ((1 + f.u) ^ (n - 1) * ∑ i, |x i| ≤ f.max → ∃ v, s = .fin v) := by
  have hnear : List.Forall₂ (Near 0 0) (vec x : List (Flt f)) (List.ofFn x) :=
    forall₂_ofFn fun i => near_fin (hx i)
  have hsum : (List.ofFn x).sum = ∑ i, x i := List.sum_ofFn
  have habs : ((List.ofFn x).map (|·|)).sum = ∑ i, |x i| := by
    rw [List.map_ofFn, List.sum_ofFn]; rfl
  have hlen : (vec x : List (Flt f)).length = n := List.length_ofFn
  refine ⟨_, (Vect.C77_others n (vec x : List (Flt f)) (by simp [vec]) 0).2.2.1, ?_, ?_⟩
  · intro v hv
    have := fold_error_zero hf (le_refl 0) (le_refl 0) _ _ hnear hv
    rw [hsum, habs, hlen] at this
    simpa using this
  · intro hB
    refine fold_total_zero hf (le_refl 0) (le_refl 0) _ _ hnear ?_ ?_
    · intro w hw
      obtain ⟨i, rfl⟩ := (List.mem_ofFn' _ w).1 hw
      exact ⟨_, rfl⟩
    · rw [habs, hlen]
      simpa [FloatFmt.max] using hB

private theorem mulEntry_flt {R C D : Nat} (g h : Nat → Nat → ℚ) (hC : 0 < C) (hf : f.Ok)
    {i j : Nat} (hi : i < R) (hj : j < D) :
    Mat.mulEntry C (rowsOf R C fun i k => (Flt.fin (g i k) : Flt f))
        (rowsOf C D fun k j => (Flt.fin (h k j) : Flt f)) i j =
      .ok (((List.range C).map fun k => rnd f (g i k * h k j)).foldl (fun a v => a + v) 0) := by
  have key : ∀ n, n + 1 ≤ C → forUpM n (fun k out =>
      (Mat.get (rowsOf R C fun i k => (Flt.fin (g i k) : Flt f)) i (k + 1)).bind fun x =>
        (Mat.get (rowsOf C D fun k j => (Flt.fin (h k j) : Flt f)) (k + 1) j).bind fun y =>
          Res.ok (out + x * y))
      (Flt.fin (g i 0) * Flt.fin (h 0 j)) =
      .ok (((List.range (n + 1)).map fun k => rnd f (g i k * h k j)).foldl (fun a v => a + v) 0) := by
    intro n
    induction n with
    | zero =>
      intro _
      rw [show List.range (0 + 1) = [0] from rfl]
      simp only [forUpM, List.map_cons, List.map_nil, List.foldl_cons, List.foldl_nil]
      rw [fin_mul]
      congr 1
      rcases hr : rnd f (g i 0 * h 0 j) with _ | s | q
      · rfl
      · rfl
      · rw [show (0 : Flt f) + .fin q = rnd f (0 + q) from rfl, zero_add, rnd_exact (rnd_has hf hr)]
    | succ n ih =>
      intro hn
      rw [forUpM, ih (by omega)]
      simp only [Res.bind]
      rw [mat_get _ hi (by omega), mat_get _ (by omega) hj]
      simp only
      rw [List.range_succ (n := n + 1), List.map_append, List.foldl_append]
      rfl
  unfold Mat.mulEntry
  rw [mat_get _ hi hC, mat_get _ hC hj]
  simp only [Res.bind] at key ⊢
  have := key (C - 1) (by omega)
  rw [show C - 1 + 1 = C by omega] at this
  exact this

private theorem extend_fin {R C : Nat} (A : Matrix (Fin R) (Fin C) ℚ) :
    extend (A.map (Flt.fin : ℚ → Flt f)) = fun i j => Flt.fin (extend A i j) := by
  funext i j
  unfold extend
  split <;> rfl

/-- The entries of a product. -/
private theorem mul_flt (hf : f.Ok) {R C D : Nat} (hC : 0 < C) {a b : List (List (Flt f))}
    (A : Matrix (Fin R) (Fin C) ℚ) (B : Matrix (Fin C) (Fin D) ℚ)
    (ha : MatOf a (A.map Flt.fin)) (hb : MatOf b (B.map Flt.fin)) :
    ∃ (c : List (List (Flt f))) (P : Matrix (Fin R) (Fin D) (Flt f)),
      Mat.mul R C D a b = .ok c ∧ MatOf c P ∧
      ∀ i j, P i j = (List.ofFn fun k => rnd f (A i k * B k j)).foldl (fun a v => a + v) 0 := by
  let F : Nat → Nat → Flt f := fun i j =>
    ((List.range C).map fun k => rnd f (extend A i k * extend B k j)).foldl (fun a v => a + v) 0
  refine ⟨rowsOf R D F, fun i j => F i j, ?_, rowsOf_matOf R D F, fun i j => ?_⟩
  · rw [matOf_rowsOf ha, matOf_rowsOf hb, extend_fin, extend_fin]
    unfold Mat.mul
    rw [fromFnM_eq R _ (fun i => (List.range D).map fun j => F i j)]
    · rfl
    · intro i hi
      exact fromFnM_eq D _ _ fun j hj => mulEntry_flt _ _ hC hf hi hj
  · have el : ((List.range C).map fun k => rnd f (extend A i k * extend B k j)) =
        List.ofFn fun k => rnd f (A i k * B k j) := by
      rw [← ofFn_eq_range]
      simp only [extend_apply]
    change (List.foldl _ _ _) = _
    rw [el]

/-- C126 for matrix products. -/
theorem C126_matrix_mul (hf : f.Ok) {R C D : Nat} (hC : 0 < C) {a b : List (List (Flt f))}
    (A : Matrix (Fin R) (Fin C) ℚ) (B : Matrix (Fin C) (Fin D) ℚ)
    (ha : MatOf a (A.map Flt.fin)) (hb : MatOf b (B.map Flt.fin)) :
    ∃ (c : List (List (Flt f))) (P : Matrix (Fin R) (Fin D) (Flt f)),
      Mat.mul R C D a b = .ok c ∧ MatOf c P ∧
      ∀ i j, Accurate (P i j) ((A * B) i j) (∑ k, |A i k * B k j|) C := by
  obtain ⟨c, P, h, hP, he⟩ := mul_flt hf hC A B ha hb
  refine ⟨c, P, h, hP, fun i j => ?_⟩
  rw [he, Matrix.mul_apply]
  exact accurate_fold hf _ _ fun k => rfl

/-- A sum or difference of two products. -/
theorem accurate_two (hf : f.Ok) (a b c d : ℚ) :
    Accurate (Flt.fin a * .fin b + .fin c * .fin d : Flt f) (a * b + c * d) (|a * b| + |c * d|) 2 ∧
    Accurate (Flt.fin a * .fin b - .fin c * .fin d : Flt f) (a * b - c * d) (|a * b| + |c * d|) 2 := by
  have hu := u_pos f
  have he := eta_pos f
  -- both are a sum, the second term being rounded to something near `t`
  have key : ∀ (v : Flt f) (t : ℚ), (∀ y, v = .fin y → f.Has y ∧ |y - t| ≤ f.u * |t| + f.eta) →
      (|t| ≤ f.max → ∃ y, v = .fin y) →
      Accurate (Flt.fin a * .fin b + v : Flt f) (a * b + t) (|a * b| + |t|) 2 := by
    intro v t hv ht
    have hT := abs_nonneg (a * b)
    have htn := abs_nonneg t
    constructor
    · intro w hw
      obtain ⟨s, y, hs, hy, hr⟩ := add_fin hw
      obtain ⟨hyh, hye⟩ := hv y hy
      have := (step_error (k := 0) hu.le he.le (s := s) (S := a * b) (T := |a * b|) (y := y) (x := t)
        (by simpa using rnd_error hs) (le_refl _) hye).2 w (rnd_add_error (rnd_has hf hs) hyh hr)
      refine this.trans (le_of_eq ?_)
      push_cast
      ring
    · intro hB
      have hmag : |a * b| + |t| ≤ f.max := by
        refine le_trans ?_ hB
        have h2 : (1 : ℚ) ≤ (1 + f.u) ^ 2 := one_le_pow₀ (by linarith)
        have h4 := le_mul_of_one_le_left (add_nonneg hT htn) h2
        have h5 : 0 ≤ ((2 : ℕ) : ℚ) * (1 + f.u) ^ (2 - 1) * f.eta := by positivity
        linarith
      obtain ⟨s, hs⟩ := rnd_total hf (x := a * b) (by
        change |a * b| ≤ f.max
        linarith)
      obtain ⟨y, hy⟩ := ht (by linarith)
      obtain ⟨hyh, hye⟩ := hv y hy
      rw [fin_mul, hs, hy, fin_add]
      apply rnd_total hf
      refine ((step_error (f := f) (k := 0) hu.le he.le (s := s) (S := a * b) (T := |a * b|) (y := y) (x := t)
        (by simpa using rnd_error hs) (le_refl _) hye).1.trans (le_of_eq ?_)).trans hB
      push_cast
      ring
  constructor
  · refine key _ _ (fun y hy => ⟨rnd_has hf hy, rnd_error hy⟩) fun h => rnd_total hf h
  · rw [sub_eq_add_neg (a * b), ← abs_neg (c * d)]
    refine key (neg (Flt.fin c * .fin d)) _ (fun y hy => ?_) fun h => ?_
    · rw [fin_mul] at hy
      rcases hr : rnd f (c * d) with _ | s | q <;> rw [hr] at hy <;> simp only [neg] at hy
      · cases hy
      · cases hy
      · injection hy with hy
        subst hy
        refine ⟨Has.neg (rnd_has hf hr), ?_⟩
        rw [← abs_neg, abs_neg (c * d)]
        have := rnd_error hr
        rwa [show -(-q - -(c * d)) = q - c * d by ring]
    · rw [abs_neg] at h
      obtain ⟨y, hy⟩ := rnd_total hf h
      exact ⟨-y, by rw [fin_mul, hy]; rfl⟩

/-- C126 for `cross`. -/
theorem C126_cross (hf : f.Ok) (x y z u v w : ℚ) :
    ∃ c₁ c₂ c₃ : Flt f, Vect.cross [.fin x, .fin y, .fin z] [.fin u, .fin v, .fin w] = [c₁, c₂, c₃] ∧
      Accurate c₁ (y * w - z * v) (|y * w| + |z * v|) 2 ∧
      Accurate c₂ (z * u - x * w) (|z * u| + |x * w|) 2 ∧
      Accurate c₃ (x * v - y * u) (|x * v| + |y * u|) 2 :=
  ⟨_, _, _, rfl, (accurate_two hf _ _ _ _).2, (accurate_two hf _ _ _ _).2,
    (accurate_two hf _ _ _ _).2⟩

/-- C126 for complex products. -/
theorem C126_complex_mul (hf : f.Ok) (a b c d : ℚ) :
    Accurate (Complex.mul (⟨.fin a, .fin b⟩ : Complex (Flt f)) ⟨.fin c, .fin d⟩).real
      (a * c - b * d) (|a * c| + |b * d|) 2 ∧
    Accurate (Complex.mul (⟨.fin a, .fin b⟩ : Complex (Flt f)) ⟨.fin c, .fin d⟩).imag
      (a * d + c * b) (|a * d| + |c * b|) 2 :=
  ⟨(accurate_two hf _ _ _ _).2, (accurate_two hf _ _ _ _).1⟩

/-- C126 for `abs_squared`, which moreover has a small relative error. -/
theorem C126_abs_squared (hf : f.Ok) (a b : ℚ) :
    Accurate (Complex.absSquared (⟨.fin a, .fin b⟩ : Complex (Flt f))) (a ^ 2 + b ^ 2)
      (a ^ 2 + b ^ 2) 2 := by
  have := (accurate_two hf a a b b).1
  rw [abs_mul_self, abs_mul_self, ← pow_two, ← pow_two] at this
  exact this

/-- C126 for determinants of two rows. -/
theorem C126_det2 (hf : f.Ok) (a b c d : ℚ) :
    ∃ r : Flt f, Mat.determinant 2 [[.fin a, .fin b], [.fin c, .fin d]] = .ok r ∧
      Accurate r (a * d - c * b) (|a * d| + |c * b|) 2 :=
  ⟨_, rfl, (accurate_two hf _ _ _ _).2⟩

-- rounding happens: `0.1 * 3 + 0.2 * 3` in `f64` (`0.1` and `0.2` being the floats of these names)
example : Vect.dotProduct (vec ![3602879701896397 / 2 ^ 55, 3602879701896397 / 2 ^ 54])
    (vec ![3, 3]) = (.fin (4053239664633447 / 2 ^ 52) : Flt .f64) ∧
    (4053239664633447 / 2 ^ 52 : ℚ) ≠
      3602879701896397 / 2 ^ 55 * 3 + 3602879701896397 / 2 ^ 54 * 3 := by decide +kernel
example : Vect.sum 2 (vec ![2 ^ 53, 1]) = some (.fin (2 ^ 53) : Flt .f64) := by decide +kernel
-- overflow, and cancellation of infinities
example : Vect.sum 2 (vec ![FloatFmt.f64.max, FloatFmt.f64.max]) = some (.inf false : Flt .f64) := by
  decide +kernel
example : Vect.dotProduct (vec ![2 ^ 1000, 2 ^ 1000]) (vec ![2 ^ 1000, -2 ^ 1000]) =
    (.nan : Flt .f64) := by decide +kernel

/-! ## C127: small integers are computed with exactly -/

theorem Flt.has_int (hf : f.Ok) {z : Int} (h : |z| ≤ 2 ^ f.prec) : f.Has z := by
  have h1 := hf.prec_pos
  have h2 := hf.emin_le
  have h3 := hf.prec_le
  have hb : |(z : ℚ)| < 2 ^ (f.emax + 1) := by
    have e1 : |(z : ℚ)| ≤ 2 ^ (f.prec : Int) := by
      rw [zpow_natCast]
      exact_mod_cast h
    exact e1.trans_lt ((zpow_lt_zpow_iff_right₀ (by norm_num)).2 (by omega))
  rcases h.lt_or_eq with hlt | heq
  · exact ⟨z, 0, hlt, by omega, by simp, hb⟩
  · have : z = 2 ^ f.prec ∨ z = -2 ^ f.prec := by
      rcases abs_choice z with hc | hc <;> rw [hc] at heq
      · exact .inl heq
      · exact .inr (by linarith)
    have hp : (1 : Int) < 2 ^ f.prec := one_lt_pow₀ (by norm_num) (by omega)
    rcases this with rfl | rfl
    · exact ⟨1, f.prec, by simpa using hp, by omega, by push_cast; rw [zpow_natCast]; ring, hb⟩
    · exact ⟨-1, f.prec, by simpa using hp, by omega, by push_cast; rw [zpow_natCast]; ring, hb⟩

private theorem rnd_int (hf : f.Ok) {z : Int} (h : |z| ≤ 2 ^ f.prec) : rnd f z = .fin z :=
  rnd_exact (has_int hf h)

theorem fold_ofZ (hf : f.Ok) (l : List Int) : ∀ s : Int,
    |s| + (l.map (|·|)).sum ≤ 2 ^ f.prec →
    (l.map (ofZ : Int → Flt f)).foldl (fun a v => a + v) (ofZ s) = ofZ (s + l.sum) := by
  induction l with
  | nil => intro s _; simp
  | cons z l ih =>
    intro s h
    rw [List.map_cons, List.sum_cons] at h
    have hn : 0 ≤ (l.map (|·|)).sum := List.sum_nonneg (by
      intro t ht
      obtain ⟨y, -, rfl⟩ := List.mem_map.1 ht
      exact abs_nonneg y)
    have h1 := abs_add_le s z
    rw [List.map_cons, List.foldl_cons, show (ofZ s : Flt f) + ofZ z = ofZ (s + z) by
      unfold ofZ
      rw [fin_add, ← Int.cast_add, rnd_int hf (by omega)], ih (s + z) (by omega), List.sum_cons,
      add_assoc]

/-- Adding up products of integers. -/
private theorem fold_products (hf : f.Ok) {n : Nat} (p : Fin n → Int)
    (h : ∑ i, |p i| ≤ 2 ^ f.prec) :
    (List.ofFn fun i => rnd f (p i : ℚ)).foldl (fun a v => a + v) 0 = ofZ (∑ i, p i) := by
  have habs : ((List.ofFn p).map (|·|)).sum = ∑ i, |p i| := by
    rw [List.map_ofFn, List.sum_ofFn]; rfl
  have e : (List.ofFn fun i => rnd f (p i : ℚ)) = (List.ofFn p).map (ofZ : Int → Flt f) := by
    rw [List.map_ofFn]
    congr 1
    funext i
    refine rnd_int hf (le_trans ?_ h)
    exact Finset.single_le_sum (f := fun j => |p j|) (fun j _ => abs_nonneg (p j)) (Finset.mem_univ i)
  have := fold_ofZ hf (List.ofFn p) 0 (by rw [habs]; simpa using h)
  rw [List.sum_ofFn, zero_add] at this
  rw [e]
  exact this

/-- C127 for `dot_product`. -/
theorem C127_dot (hf : f.Ok) {n : Nat} (x y : Fin n → Int) (h : ∑ i, |x i * y i| ≤ 2 ^ f.prec) :
    Vect.dotProduct (List.ofFn fun i => (ofZ (x i) : Flt f)) (List.ofFn fun i => ofZ (y i)) =
      ofZ (∑ i, x i * y i) := by
  have e : Vect.dotProduct (List.ofFn fun i => (ofZ (x i) : Flt f)) (List.ofFn fun i => ofZ (y i)) =
      (List.ofFn fun i => rnd f ((x i * y i : Int) : ℚ)).foldl (fun a v => a + v) 0 := by
    unfold Vect.dotProduct ofZ
    rw [Vect.stdZip_map (fun x y => x * y), Vect.zipWith_ofFn]
    simp only [fin_mul, Int.cast_mul]
  rw [e, fold_products hf _ h]

example : Vect.dotProduct [(ofZ 3 : Flt .f32), ofZ (-4)] [ofZ 1000, ofZ 7] = ofZ (∑ i : Fin 2, ![3, -4] i * ![1000, 7] i) :=
  C127_dot f32_ok ![3, -4] ![1000, 7] (by decide)

/-- C127 for `sum`. -/
theorem C127_sum (hf : f.Ok) {n : Nat} (x : Fin n → Int) (h : ∑ i, |x i| ≤ 2 ^ f.prec) :
    Vect.sum n (List.ofFn fun i => (ofZ (x i) : Flt f)) = some (ofZ (∑ i, x i)) := by
  rw [(Vect.C77_others n (List.ofFn fun i => (ofZ (x i) : Flt f)) (by simp) 0).2.2.1]
  have habs : ((List.ofFn x).map (|·|)).sum = ∑ i, |x i| := by
    rw [List.map_ofFn, List.sum_ofFn]; rfl
  have := fold_ofZ hf (List.ofFn x) 0 (by rw [habs]; simpa using h)
  rw [List.sum_ofFn, zero_add, List.map_ofFn] at this
  congr 1

example : Vect.sum 3 [(ofZ 3 : Flt .f32), ofZ (-4), ofZ 100] = some (ofZ (∑ i : Fin 3, ![3, -4, 100] i)) :=
  C127_sum f32_ok ![3, -4, 100] (by decide)

/-- C127 for matrix products. -/
theorem C127_matrix_mul (hf : f.Ok) {R C D : Nat} (hC : 0 < C) {a b : List (List (Flt f))}
    (A : Matrix (Fin R) (Fin C) Int) (B : Matrix (Fin C) (Fin D) Int)
    (ha : MatOf a (A.map ofZ)) (hb : MatOf b (B.map ofZ))
    (h : ∀ i j, ∑ k, |A i k * B k j| ≤ 2 ^ f.prec) :
    ∃ c, Mat.mul R C D a b = .ok c ∧ MatOf c ((A * B).map ofZ) := by
  obtain ⟨c, P, hc, hP, he⟩ := mul_flt hf hC (A.map fun z => (z : ℚ)) (B.map fun z => (z : ℚ))
    ha hb
  refine ⟨c, hc, ?_⟩
  have : P = (A * B).map ofZ := by
    ext i j
    rw [he, Matrix.map_apply, Matrix.mul_apply, ← fold_products hf _ (h i j)]
    simp only [Matrix.map_apply]
    push_cast
    rfl
  rw [← this]
  exact hP

example := C127_matrix_mul f32_ok (by decide) !![3, -4] !![1000; 7] (a := [[ofZ 3, ofZ (-4)]])
  (b := [[ofZ 1000], [ofZ 7]]) rfl rfl (by decide)

private theorem two_int (hf : f.Ok) (a b c d : Int) (h : |a * b| + |c * d| ≤ 2 ^ f.prec) :
    (ofZ a * ofZ b + ofZ c * ofZ d : Flt f) = ofZ (a * b + c * d) ∧
    (ofZ a * ofZ b - ofZ c * ofZ d : Flt f) = ofZ (a * b - c * d) := by
  have h1 := abs_nonneg (a * b)
  have h2 := abs_nonneg (c * d)
  have h3 := abs_add_le (a * b) (c * d)
  have h4 := abs_sub (a * b) (c * d)
  unfold ofZ
  rw [fin_mul, fin_mul, show (a : ℚ) * b = ((a * b : Int) : ℚ) by push_cast; rfl,
    show (c : ℚ) * d = ((c * d : Int) : ℚ) by push_cast; rfl, rnd_int hf (by omega),
    rnd_int hf (by omega), fin_add, fin_sub, ← Int.cast_add, ← Int.cast_sub, rnd_int hf (by omega),
    rnd_int hf (by omega)]
  exact ⟨rfl, rfl⟩

/-- C127 for `cross`. -/
theorem C127_cross (hf : f.Ok) (x y z u v w : Int) (h1 : |y * w| + |z * v| ≤ 2 ^ f.prec)
    (h2 : |z * u| + |x * w| ≤ 2 ^ f.prec) (h3 : |x * v| + |y * u| ≤ 2 ^ f.prec) :
    Vect.cross [(ofZ x : Flt f), ofZ y, ofZ z] [ofZ u, ofZ v, ofZ w] =
      [ofZ (y * w - z * v), ofZ (z * u - x * w),
        ofZ (x * v - y * u)] := by
  rw [← (two_int hf _ _ _ _ h1).2, ← (two_int hf _ _ _ _ h2).2, ← (two_int hf _ _ _ _ h3).2]
  rfl

/-- C127 for complex products. -/
theorem C127_complex_mul (hf : f.Ok) (a b c d : Int) (h1 : |a * c| + |b * d| ≤ 2 ^ f.prec)
    (h2 : |a * d| + |c * b| ≤ 2 ^ f.prec) :
    Complex.mul (⟨ofZ a, ofZ b⟩ : Complex (Flt f)) ⟨ofZ c, ofZ d⟩ =
      ⟨ofZ (a * c - b * d), ofZ (a * d + c * b)⟩ := by
  rw [← (two_int hf _ _ _ _ h1).2, ← (two_int hf _ _ _ _ h2).1]
  rfl

/-- C127 for `abs_squared`. -/
theorem C127_abs_squared (hf : f.Ok) (a b : Int) (h : a ^ 2 + b ^ 2 ≤ 2 ^ f.prec) :
    Complex.absSquared (⟨ofZ a, ofZ b⟩ : Complex (Flt f)) = ofZ (a ^ 2 + b ^ 2) := by
  rw [pow_two, pow_two, ← (two_int hf a a b b (by rw [abs_mul_self, abs_mul_self, ← pow_two, ← pow_two]; exact h)).1]
  rfl

/-- C127 for determinants of two rows. -/
theorem C127_det2 (hf : f.Ok) (a b c d : Int) (h : |a * d| + |c * b| ≤ 2 ^ f.prec) :
    Mat.determinant 2 [[(ofZ a : Flt f), ofZ b], [ofZ c, ofZ d]] =
      .ok (ofZ (a * d - c * b)) := by
  rw [← (two_int hf _ _ _ _ h).2]
  rfl

example : Mat.mul 1 2 1 [[.fin 3, .fin (-4)]] [[.fin 5], [.fin 6]] = .ok [[(.fin (-9) : Flt .f32)]] := by
  decide +kernel
example : Complex.mul (⟨.fin 3, .fin 4⟩ : Complex (Flt .f32)) ⟨.fin 1, .fin (-2)⟩ =
    ⟨.fin 11, .fin (-2)⟩ := by decide +kernel
example : Vect.dotProduct (vec ![94906265, 3]) (vec ![94906265, 5]) =
    (.fin (94906265 ^ 2 + 15) : Flt .f64) := by decide +kernel
-- one more bit and it is no longer exact
example : Vect.dotProduct (vec ![94906267, 2]) (vec ![94906267, 1]) ≠
    (.fin (94906267 ^ 2 + 2) : Flt .f64) := by decide +kernel

end Verif
