import Verif.Model.Matrix
import Verif.Spec.Matrix
import Mathlib.LinearAlgebra.Matrix.Transvection
import Mathlib.LinearAlgebra.Matrix.Permutation
import Mathlib.LinearAlgebra.Matrix.NonsingularInverse
import Mathlib.LinearAlgebra.Matrix.Block
import Mathlib.Algebra.Order.Field.Basic
import Mathlib.Tactic.Ring
import Mathlib.Tactic.FieldSimp

/-!
# Lemmas on Gaussian elimination
-/

namespace Verif

namespace Gauss

variable {M K : Type}

theorem clash_false [Zero K] [LinearOrder K] (best : Option (Nat × K)) (v : K) :
    MatOps.clash best v = false := by
  unfold MatOps.clash
  split
  · rfl
  · simp [PartialCmp.comparable]

/-- Matrices of dimensions `R × C` are represented by functions. -/
structure Good (ops : MatOps M K) (R C : Nat) (Rep : M → (Nat → Nat → K) → Prop) : Prop where
  get : ∀ {m f i j}, Rep m f → i < R → j < C → ops.get m i j = .ok (f i j)
  set : ∀ {m f i j} (v : K), Rep m f → i < R → j < C → ∃ m', ops.set m i j v = .ok m' ∧
    Rep m' (fun a b => if a = i ∧ b = j then v else f a b)
  swap : ∀ {m f i j}, Rep m f → i < R → j < R → ∃ m', ops.swapRows m i j = .ok m' ∧
    Rep m' (fun a b => if a = i then f j b else if a = j then f i b else f a b)
  ext : ∀ {m f g}, Rep m f → (∀ i j, i < R → j < C → f i j = g i j) → Rep m g

section loops

variable {ops : MatOps M K} {R C : Nat} {Rep : M → (Nat → Nat → K) → Prop} (h : Good ops R C Rep)
include h

theorem allZero_spec [Zero K] [DecidableEq K] {m : M} {f : Nat → Nat → K} (hm : Rep m f) {col : Nat}
    (hc : col < C) (n r : Nat) (hr : r + n = R) :
    ∃ b, ops.allZero m col n r = .ok b ∧ (b = true ↔ ∀ i, r ≤ i → i < R → f i col = 0) := by
  induction n generalizing r with
  | zero => exact ⟨true, rfl, by simp; intro i h1 h2; omega⟩
  | succ n ih =>
    unfold MatOps.allZero
    rw [h.get hm (by omega) hc]
    simp only [Res.bind]
    by_cases hz : f r col = 0
    · rw [if_pos (c := ZeroTest.IsZero _) hz]
      obtain ⟨b, e, hb⟩ := ih (r + 1) (by omega)
      refine ⟨b, e, hb.trans ⟨fun H i h1 h2 => ?_, fun H i h1 h2 => H i (by omega) h2⟩⟩
      rcases Nat.eq_or_lt_of_le h1 with rfl | h1
      · exact hz
      · exact H i h1 h2
    · rw [if_neg (c := ZeroTest.IsZero _) hz]
      exact ⟨false, rfl, by
        simp only [Bool.false_eq_true, false_iff]
        exact fun H => hz (H r (le_refl _) (by omega))⟩

theorem minLoop_spec [Zero K] [DecidableEq K] [LT K] [DecidableLT K] [PartialCmp K] {m : M}
    {f : Nat → Nat → K} (hm : Rep m f) {col row : Nat} (hc : col < C) (n : Nat) (hn : row + n ≤ R)
    (hcmp : ∀ i j, row ≤ i → i < j → j < row + n →
      PartialCmp.comparable (f i col) (f j col) = true) :
    ∃ best, forUpM n (fun idx best =>
      (ops.get m (row + idx) col).bind fun v =>
        if MatOps.clash best v then .panic else .ok (MatOps.keepMin best idx v)) none = .ok best ∧
      (best = none → ∀ i, i < n → f (row + i) col = 0) ∧
      ∀ idx w, best = some (idx, w) → idx < n ∧ f (row + idx) col = w ∧ w ≠ 0 := by
  induction n with
  | zero => exact ⟨none, rfl, fun _ i hi => by omega, fun _ _ hh => by simp at hh⟩
  | succ n ih =>
    obtain ⟨best, e, h1, h2⟩ := ih (by omega) fun i j _ _ _ =>
      hcmp i j (by omega) (by omega) (by omega)
    rw [forUpM, e]
    simp only [Res.bind]
    rw [h.get hm (by omega) hc]
    have hcl : MatOps.clash best (f (row + n) col) = false := by
      unfold MatOps.clash
      split
      · rfl
      · rename_i w
        obtain ⟨a, b, _⟩ := h2 _ w rfl
        rw [← b, hcmp _ _ (by omega) (by omega) (by omega)]
        simp
    simp only [hcl, Bool.false_eq_true, if_false]
    refine ⟨_, rfl, ?_, ?_⟩
    · unfold MatOps.keepMin
      by_cases hz : f (row + n) col = 0
      · rw [if_pos (c := ZeroTest.IsZero _) hz]
        intro hb i hi
        rcases Nat.lt_succ_iff_lt_or_eq.mp hi with hi | rfl
        · exact h1 hb i hi
        · exact hz
      · rw [if_neg (c := ZeroTest.IsZero _) hz]
        intro hb
        split at hb
        · simp at hb
        · split at hb <;> simp at hb
    · unfold MatOps.keepMin
      intro idx w
      by_cases hz : f (row + n) col = 0
      · rw [if_pos (c := ZeroTest.IsZero _) hz]
        intro hb
        obtain ⟨a, b, c⟩ := h2 idx w hb
        exact ⟨by omega, b, c⟩
      · rw [if_neg (c := ZeroTest.IsZero _) hz]
        intro hb
        split at hb
        · simp only [Option.some.injEq, Prod.mk.injEq] at hb
          obtain ⟨rfl, rfl⟩ := hb
          exact ⟨by omega, rfl, hz⟩
        · rename_i j w'
          split at hb
          · simp only [Option.some.injEq, Prod.mk.injEq] at hb
            obtain ⟨rfl, rfl⟩ := hb
            exact ⟨by omega, rfl, hz⟩
          · obtain ⟨a, b, c⟩ := h2 idx w hb
            exact ⟨by omega, b, c⟩

theorem smallIdx_spec [Zero K] [DecidableEq K] [LT K] [DecidableLT K] [PartialCmp K] {m : M}
    {f : Nat → Nat → K} (hm : Rep m f) {col row : Nat} (hc : col < C) (hr : row ≤ R)
    (hcmp : ∀ i j, row ≤ i → i < j → j < R →
      PartialCmp.comparable (f i col) (f j col) = true)
    (hz : ¬ ∀ i, row ≤ i → i < R → f i col = 0) :
    ∃ s, ops.smallIdx m col row R = .ok s ∧ row ≤ s ∧ s < R ∧ f s col ≠ 0 := by
  obtain ⟨best, e, h1, h2⟩ := minLoop_spec h hm (row := row) hc (R - row) (by omega)
    fun i j _ _ _ => hcmp i j (by omega) (by omega) (by omega)
  unfold MatOps.smallIdx
  rw [e]
  simp only [Res.bind]
  cases best with
  | none =>
    exfalso
    apply hz
    intro i hi1 hi2
    have := h1 rfl (i - row) (by omega)
    rwa [show row + (i - row) = i by omega] at this
  | some b =>
    obtain ⟨idx, w⟩ := b
    obtain ⟨a, b, c⟩ := h2 idx w rfl
    exact ⟨idx + row, rfl, by omega, by omega, by rw [Nat.add_comm, b]; exact c⟩

theorem elimRow_spec [Sub K] [Mul K] {m : M} {f : Nat → Nat → K} (hm : Rep m f) {col row r : Nat}
    (hrow : row < R) (hr : r < R) (hne : r ≠ row) (fac : K) (k : Nat) (hk : col + k ≤ C) :
    ∃ m', forUpM k (fun k m =>
      (ops.get m r (col + k)).bind fun a => (ops.get m row (col + k)).bind fun b =>
        ops.set m r (col + k) (a - b * fac)) m = .ok m' ∧
      Rep m' (fun a b => if a = r ∧ col ≤ b ∧ b < col + k then f r b - f row b * fac else f a b) := by
  induction k with
  | zero =>
    refine ⟨m, rfl, h.ext hm fun i j _ _ => ?_⟩
    rw [if_neg (by omega)]
  | succ k ih =>
    obtain ⟨m', e, hm'⟩ := ih (by omega)
    rw [forUpM, e]
    simp only [Res.bind]
    rw [h.get hm' hr (by omega)]
    simp only
    rw [h.get hm' hrow (by omega)]
    simp only
    rw [if_neg (by omega), if_neg (by omega)]
    obtain ⟨m'', e2, hm''⟩ := h.set (f r (col + k) - f row (col + k) * fac) hm' hr
      (show col + k < C by omega)
    refine ⟨m'', e2, h.ext hm'' fun i j _ _ => ?_⟩
    by_cases h1 : i = r ∧ j = col + k
    · rw [if_pos h1, if_pos (by omega), h1.2]
    · rw [if_neg h1]
      by_cases h2 : i = r ∧ col ≤ j ∧ j < col + k
      · rw [if_pos h2, if_pos (by omega)]
      · rw [if_neg h2, if_neg (by omega)]

theorem elimBelow_any [Sub K] [Mul K] [Div K] {m : M} {f : Nat → Nat → K} (hm : Rep m f) {col row : Nat}
    (hcol : col < C) (hrow : row < R) (k : Nat) (hk : row + 1 + k ≤ R) :
    ∃ m' g, forUpM k (fun k m =>
      (ops.get m (row + 1 + k) col).bind fun v =>
        ops.elimRow col C row (row + 1 + k) (v / f row col) m) m = .ok m' ∧
      Rep m' g ∧
      ∀ a b, b < C → g a b = if row < a ∧ a < row + 1 + k ∧ col ≤ b then
        f a b - f row b * (f a col / f row col) else f a b := by
  induction k with
  | zero =>
    refine ⟨m, f, rfl, hm, fun a b _ => ?_⟩
    rw [if_neg (by omega)]
  | succ k ih =>
    obtain ⟨m', g, e, hm', hg⟩ := ih (by omega)
    rw [forUpM, e]
    simp only [Res.bind]
    rw [h.get hm' (by omega) hcol]
    simp only
    rw [hg _ col hcol, if_neg (by omega)]
    unfold MatOps.elimRow
    obtain ⟨m'', e2, hm''⟩ := elimRow_spec h hm' (col := col) (row := row) (r := row + 1 + k) hrow
      (by omega) (by omega) (f (row + 1 + k) col / f row col) (C - col) (by omega)
    rw [e2]
    refine ⟨m'', _, rfl, hm'', ?_⟩
    intro a b hb
    by_cases h1 : a = row + 1 + k ∧ col ≤ b ∧ b < col + (C - col)
    · rw [if_pos h1, if_pos (by omega), hg _ b hb, hg _ b hb, if_neg (by omega),
        if_neg (by omega), h1.1]
    · rw [if_neg h1, hg a b hb]
      by_cases h2 : row < a ∧ a < row + 1 + k ∧ col ≤ b
      · rw [if_pos h2, if_pos (by omega)]
      · rw [if_neg h2, if_neg (by omega)]

/-- One round of elimination, over numbers of any kind: what becomes of the entries, if the
search for a pivot returns. The column is skipped,
or `p` is the row of the pivot, which is exchanged with row `s.row`. -/
theorem gaussStep_of [Zero K] [One K] [Neg K] [Sub K] [Mul K] [Div K] [DecidableEq K] [LT K]
    [DecidableLT K] [PartialCmp K] {col : Nat} (hcol : col < C) {s : MatOps.GState M K}
    {f : Nat → Nat → K} (hm : Rep s.m f) (hr : s.row ≤ R)
    (hsm : (¬ ∀ i, s.row ≤ i → i < R → f i col = 0) →
      ∃ k, ops.smallIdx s.m col s.row R = .ok k ∧ s.row ≤ k ∧ k < R ∧ f k col ≠ 0) :
    ∃ s' g, ops.gaussStep C R col s = .ok s' ∧ Rep s'.m g ∧
      ((s'.row = s.row ∧ g = f ∧ ∀ i, s.row ≤ i → i < R → f i col = 0) ∨
       (s.row < R ∧ s'.row = s.row + 1 ∧ (¬ ∀ i, s.row ≤ i → i < R → f i col = 0) ∧ ∃ f1 : Nat → Nat → K, (∀ i, i < R → ∃ i', i' < R ∧ f1 i = f i') ∧
        f1 s.row col ≠ 0 ∧ ∀ a b, b < C → g a b = if s.row < a ∧ a < R ∧ col ≤ b then
          f1 a b - f1 s.row b * (f1 a col / f1 s.row col) else f1 a b)) := by
  obtain ⟨b, e, hb⟩ := allZero_spec h hm hcol (R - s.row) s.row (by omega)
  unfold MatOps.gaussStep
  rw [e]
  simp only [Res.bind]
  cases b with
  | true => exact ⟨s, f, by rw [if_pos rfl], hm, .inl ⟨rfl, rfl, hb.mp rfl⟩⟩
  | false =>
    rw [if_neg (by simp)]
    have hz : ¬ ∀ i, s.row ≤ i → i < R → f i col = 0 := fun hh => by
      have := hb.mpr hh; simp at this
    obtain ⟨small, e2, hs1, hs2, hs3⟩ := hsm hz
    rw [e2]
    simp only
    have hpiv : ∃ s1 f1, ops.pivot s small = .ok s1 ∧ s1.row = s.row ∧ Rep s1.m f1 ∧
        (∀ i, i < R → ∃ i', i' < R ∧ f1 i = f i') ∧ f1 s.row col ≠ 0 := by
      unfold MatOps.pivot
      by_cases hne : small ≠ s.row
      · rw [if_pos hne]
        obtain ⟨m', e3, hm'⟩ := h.swap hm hs2 (show s.row < R by omega)
        rw [e3]
        refine ⟨_, _, rfl, rfl, hm', fun i hi => ?_, ?_⟩
        · by_cases h1 : i = small
          · exact ⟨s.row, by omega, by simp only [if_pos h1]⟩
          · by_cases h2 : i = s.row
            · exact ⟨small, hs2, by simp only [if_neg h1, if_pos h2]⟩
            · exact ⟨i, hi, by simp only [if_neg h1, if_neg h2]⟩
        · simp only
          rw [if_neg (Ne.symm hne), if_pos trivial]
          exact hs3
      · rw [if_neg hne]
        have : small = s.row := not_not.mp hne
        exact ⟨s, f, rfl, rfl, hm, fun i hi => ⟨i, hi, rfl⟩, this ▸ hs3⟩
    obtain ⟨s1, f1, e4, hrow, hm1, hi1, htop⟩ := hpiv
    rw [e4]
    simp only
    rw [hrow, h.get hm1 (show s.row < R by omega) hcol]
    simp only
    obtain ⟨m', g, e5, hm', hg⟩ := elimBelow_any h hm1 hcol (show s.row < R by omega)
      (R - (s.row + 1)) (by omega)
    unfold MatOps.elimBelow
    rw [e5]
    refine ⟨_, g, rfl, hm', .inr ⟨by omega, rfl, hz, f1, hi1, htop, fun a b hb => ?_⟩⟩
    rw [hg a b hb, show s.row + 1 + (R - (s.row + 1)) = R by omega]

/-- `gaussStep_of`, if the entries are comparable. -/
theorem gaussStep_any [Zero K] [One K] [Neg K] [Sub K] [Mul K] [Div K] [DecidableEq K] [LT K]
    [DecidableLT K] [PartialCmp K] {col : Nat} (hcol : col < C) {s : MatOps.GState M K}
    {f : Nat → Nat → K} (hm : Rep s.m f) (hr : s.row ≤ R)
    (hcmp : ∀ i j, s.row ≤ i → i < j → j < R →
      PartialCmp.comparable (f i col) (f j col) = true) :
    ∃ s' g, ops.gaussStep C R col s = .ok s' ∧ Rep s'.m g ∧
      ((s'.row = s.row ∧ g = f) ∨
       (s.row < R ∧ s'.row = s.row + 1 ∧ ∃ f1 : Nat → Nat → K, (∀ i, i < R → ∃ i', i' < R ∧ f1 i = f i') ∧
        f1 s.row col ≠ 0 ∧ ∀ a b, b < C → g a b = if s.row < a ∧ a < R ∧ col ≤ b then
          f1 a b - f1 s.row b * (f1 a col / f1 s.row col) else f1 a b)) :=
  have ⟨s', g, e, hm', h'⟩ := gaussStep_of h hcol hm hr (smallIdx_spec h hm hcol hr hcmp)
  ⟨s', g, e, hm', h'.imp (fun x => ⟨x.1, x.2.1⟩) fun x => ⟨x.1, x.2.1, x.2.2.2⟩⟩

end loops

/-! ## Row operations as matrices -/

variable [Field K] [LinearOrder K]

/-- The matrix of a function. -/
def toM (R C : Nat) (f : Nat → Nat → K) : Matrix (Fin R) (Fin C) K := fun i j => f i j

/-- `g` arises from `f` by row operations with determinant `d`. -/
def RowRel (R C : Nat) (f g : Nat → Nat → K) (d : K) : Prop :=
  ∃ P : Matrix (Fin R) (Fin R) K, P.det = d ∧ toM R C g = P * toM R C f

theorem RowRel.refl (R C : Nat) (f : Nat → Nat → K) : RowRel R C f f 1 :=
  ⟨1, Matrix.det_one, by rw [Matrix.one_mul]⟩

theorem RowRel.trans {R C : Nat} {f g k : Nat → Nat → K} {d e : K} (h1 : RowRel R C f g d)
    (h2 : RowRel R C g k e) : RowRel R C f k (e * d) := by
  obtain ⟨P, hP, e1⟩ := h1
  obtain ⟨Q, hQ, e2⟩ := h2
  exact ⟨Q * P, by rw [Matrix.det_mul, hP, hQ], by rw [e2, e1, Matrix.mul_assoc]⟩

theorem RowRel.congr {R C : Nat} {f g k : Nat → Nat → K} {d : K} (h1 : RowRel R C f g d)
    (h2 : ∀ i j, i < R → j < C → g i j = k i j) : RowRel R C f k d := by
  obtain ⟨P, hP, e1⟩ := h1
  refine ⟨P, hP, ?_⟩
  rw [← e1]
  funext i j
  exact (h2 i j i.isLt j.isLt).symm

theorem rowRel_swap {R C : Nat} (f : Nat → Nat → K) {i j : Nat} (hi : i < R) (hj : j < R)
    (hne : i ≠ j) :
    RowRel R C f (fun a b => if a = i then f j b else if a = j then f i b else f a b) (-1) := by
  have hne' : (⟨i, hi⟩ : Fin R) ≠ ⟨j, hj⟩ := by simpa using hne
  refine ⟨(Equiv.swap (⟨i, hi⟩ : Fin R) ⟨j, hj⟩).permMatrix K, ?_, ?_⟩
  · rw [Matrix.det_permutation, Equiv.Perm.sign_swap hne']; simp
  · rw [PEquiv.toMatrix_toPEquiv_mul]
    funext a b
    simp only [toM, Matrix.submatrix_apply, id]
    by_cases h1 : (a : Nat) = i
    · rw [if_pos h1, show a = ⟨i, hi⟩ from Fin.ext h1, Equiv.swap_apply_left]
    · rw [if_neg h1]
      by_cases h2 : (a : Nat) = j
      · rw [if_pos h2, show a = ⟨j, hj⟩ from Fin.ext h2, Equiv.swap_apply_right]
      · rw [if_neg h2, Equiv.swap_apply_of_ne_of_ne (fun hh => h1 (by rw [hh]))
          (fun hh => h2 (by rw [hh]))]

theorem rowRel_add {R C : Nat} (f : Nat → Nat → K) {r s : Nat} (hr : r < R) (hs : s < R)
    (hne : r ≠ s) (c : K) :
    RowRel R C f (fun a b => if a = r then f r b - f s b * c else f a b) 1 := by
  have hne' : (⟨r, hr⟩ : Fin R) ≠ ⟨s, hs⟩ := by simpa using hne
  refine ⟨Matrix.transvection ⟨r, hr⟩ ⟨s, hs⟩ (-c), Matrix.det_transvection_of_ne _ _ hne' _, ?_⟩
  funext a b
  by_cases h1 : (a : Nat) = r
  · rw [show a = ⟨r, hr⟩ from Fin.ext h1, Matrix.transvection_mul_apply_same]
    simp only [toM, if_true]
    ring
  · rw [Matrix.transvection_mul_apply_of_ne _ _ _ _ (fun hh => h1 (by rw [hh]))]
    simp only [toM, if_neg h1]

/-! ## Elimination -/

section main

variable {ops : MatOps M K} {R C : Nat} {Rep : M → (Nat → Nat → K) → Prop} (h : Good ops R C Rep)
include h

theorem elimBelow_spec {m : M} {f : Nat → Nat → K} (hm : Rep m f) {col row : Nat} (hcol : col < C)
    (hrow : row < R) (hz : ∀ i, row ≤ i → i < R → ∀ c, c < col → f i c = 0) (k : Nat)
    (hk : row + 1 + k ≤ R) :
    ∃ m' g, forUpM k (fun k m =>
      (ops.get m (row + 1 + k) col).bind fun v =>
        ops.elimRow col C row (row + 1 + k) (v / f row col) m) m = .ok m' ∧
      Rep m' g ∧ RowRel R C f g 1 ∧
      ∀ a b, b < C → g a b = if row < a ∧ a < row + 1 + k ∧ col ≤ b then
        f a b - f row b * (f a col / f row col) else f a b := by
  induction k with
  | zero =>
    refine ⟨m, f, rfl, hm, RowRel.refl R C f, fun a b _ => ?_⟩
    rw [if_neg (by omega)]
  | succ k ih =>
    obtain ⟨m', g, e, hm', hrel, hg⟩ := ih (by omega)
    rw [forUpM, e]
    simp only [Res.bind]
    rw [h.get hm' (by omega) hcol]
    simp only
    rw [hg _ col hcol, if_neg (by omega)]
    unfold MatOps.elimRow
    obtain ⟨m'', e2, hm''⟩ := elimRow_spec h hm' (col := col) (row := row) (r := row + 1 + k) hrow
      (by omega) (by omega) (f (row + 1 + k) col / f row col) (C - col) (by omega)
    rw [e2]
    refine ⟨m'', _, rfl, hm'', ?_, ?_⟩
    · have := hrel.trans (rowRel_add (C := C) g (r := row + 1 + k) (s := row) (by omega) hrow
        (by omega) (f (row + 1 + k) col / f row col))
      rw [mul_one] at this
      refine this.congr fun i j hi hj => ?_
      by_cases h1 : i = row + 1 + k
      · rw [if_pos h1]
        by_cases h2 : col ≤ j
        · rw [if_pos (by omega)]
        · rw [if_neg (by omega), h1, hg row j hj, if_neg (by omega),
            hz row (le_refl _) hrow j (by omega)]
          ring
      · rw [if_neg h1, if_neg (by omega)]
    · intro a b hb
      by_cases h1 : a = row + 1 + k ∧ col ≤ b ∧ b < col + (C - col)
      · rw [if_pos h1, if_pos (by omega), hg _ b hb, hg _ b hb, if_neg (by omega),
          if_neg (by omega), h1.1]
      · rw [if_neg h1, hg a b hb]
        by_cases h2 : row < a ∧ a < row + 1 + k ∧ col ≤ b
        · rw [if_pos h2, if_pos (by omega)]
        · rw [if_neg h2, if_neg (by omega)]

end main

/-- The leading entry of row `i` is in column `c`. -/
def Lead (f : Nat → Nat → K) (i c : Nat) : Prop := f i c ≠ 0 ∧ ∀ c', c' < c → f i c' = 0

/-- The invariant of the loop over the columns. -/
structure Inv (R C : Nat) (f0 f : Nat → Nat → K) (col row : Nat) (factor : K) : Prop where
  rel : RowRel R C f0 f factor
  sign : factor = 1 ∨ factor = -1
  row_le : row ≤ R
  row_col : row ≤ col
  zero : ∀ i, row ≤ i → i < R → ∀ c, c < col → f i c = 0
  lead : ∀ i, i < row → ∃ c, c < col ∧ Lead f i c
  ech : ∀ i i' c', i < i' → i' < row → Lead f i' c' → ∃ c, c < c' ∧ Lead f i c

theorem lead_unique {f : Nat → Nat → K} {i c c' : Nat} (h1 : Lead f i c) (h2 : Lead f i c') :
    c = c' := by
  rcases Nat.lt_trichotomy c c' with h | h | h
  · exact absurd (h2.2 c h) h1.1
  · exact h
  · exact absurd (h1.2 c' h) h2.1

theorem lead_congr {f g : Nat → Nat → K} {i c : Nat} (h : ∀ b, b ≤ c → f i b = g i b) :
    Lead f i c ↔ Lead g i c := by
  unfold Lead
  rw [h c (le_refl _)]
  constructor
  · exact fun hh => ⟨hh.1, fun c' hc => by rw [← h c' (by omega)]; exact hh.2 c' hc⟩
  · exact fun hh => ⟨hh.1, fun c' hc => by rw [h c' (by omega)]; exact hh.2 c' hc⟩

/-- One column is finished by clearing it below the pivot. -/
theorem inv_step {R C : Nat} {f0 f g : Nat → Nat → K} {col row : Nat} {factor : K}
    (hc : col < C) (hr : row < R) (h : Inv R C f0 f col row factor) (htop : f row col ≠ 0)
    (hrel : RowRel R C f g 1)
    (hg : ∀ a b, b < C → g a b = if row < a ∧ a < R ∧ col ≤ b then
        f a b - f row b * (f a col / f row col) else f a b) :
    Inv R C f0 g (col + 1) (row + 1) factor := by
  have hlow : ∀ i, i ≤ row → ∀ b, b < C → g i b = f i b := by
    intro i hi b hb
    rw [hg i b hb, if_neg (by omega)]
  have hleadrow : Lead g row col := by
    refine ⟨by rw [hlow row (le_refl _) col hc]; exact htop, fun c' hc' => ?_⟩
    rw [hlow row (le_refl _) c' (by omega)]
    exact h.zero row (le_refl _) hr c' hc'
  have hleadlow : ∀ i c, i < row → c < C → (Lead g i c ↔ Lead f i c) := fun i c hi hcc =>
    lead_congr fun b hb => hlow i (by omega) b (by omega)
  refine ⟨?_, h.sign, hr, by have := h.row_col; omega, ?_, ?_, ?_⟩
  · have := h.rel.trans hrel
    rwa [one_mul] at this
  · intro i h1 h2 c hcc
    rw [hg i c (by omega)]
    rcases Nat.lt_succ_iff_lt_or_eq.mp hcc with hcc | rfl
    · rw [if_neg (by omega)]
      exact h.zero i (by omega) h2 c hcc
    · rw [if_pos (by omega)]
      field_simp
      ring
  · intro i hi
    rcases Nat.lt_succ_iff_lt_or_eq.mp hi with hi | rfl
    · obtain ⟨c, h1, h2⟩ := h.lead i hi
      exact ⟨c, by omega, (hleadlow i c hi (by omega)).mpr h2⟩
    · exact ⟨col, by omega, hleadrow⟩
  · intro i i' c' hii hi' hl
    rcases Nat.lt_succ_iff_lt_or_eq.mp hi' with hi' | rfl
    · obtain ⟨c1, h1, h2⟩ := h.lead i' hi'
      have : c' = c1 := lead_unique hl ((hleadlow i' c1 hi' (by omega)).mpr h2)
      subst this
      obtain ⟨c, h3, h4⟩ := h.ech i i' c' hii hi' h2
      exact ⟨c, h3, (hleadlow i c (by omega) (by omega)).mpr h4⟩
    · obtain ⟨c, h1, h2⟩ := h.lead i hii
      have : c' = col := lead_unique hl hleadrow
      subst this
      exact ⟨c, h1, (hleadlow i c hii (by omega)).mpr h2⟩

/-- Exchanging two of the remaining rows. -/
theorem inv_swap {R C : Nat} {f0 f : Nat → Nat → K} {col row s : Nat} {factor : K}
    (hs1 : row ≤ s) (hs2 : s < R) (hne : s ≠ row) (h : Inv R C f0 f col row factor) :
    Inv R C f0 (fun a b => if a = s then f row b else if a = row then f s b else f a b) col row
      (-factor) := by
  have hlead : ∀ i c, i < row → (Lead (fun a b => if a = s then f row b else if a = row then f s b
      else f a b) i c ↔ Lead f i c) := fun i c hi => lead_congr fun b _ => by
    rw [if_neg (by omega), if_neg (by omega)]
  refine ⟨?_, ?_, h.row_le, h.row_col, ?_, ?_, ?_⟩
  · have := h.rel.trans (rowRel_swap (C := C) f hs2 (show row < R by omega) hne)
    rwa [neg_one_mul] at this
  · rcases h.sign with h | h
    · right; rw [h]
    · left; rw [h, neg_neg]
  · intro i h1 h2 c hc
    split
    · exact h.zero row (le_refl _) (by omega) c hc
    · split
      · exact h.zero s hs1 hs2 c hc
      · exact h.zero i h1 h2 c hc
  · intro i hi
    obtain ⟨c, h1, h2⟩ := h.lead i hi
    exact ⟨c, h1, (hlead i c hi).mpr h2⟩
  · intro i i' c' hii hi' hl
    obtain ⟨c, h1, h2⟩ := h.ech i i' c' hii hi' ((hlead i' c' hi').mp hl)
    exact ⟨c, h1, (hlead i c (by omega)).mpr h2⟩

section main2

variable {ops : MatOps M K} {R C : Nat} {Rep : M → (Nat → Nat → K) → Prop} (h : Good ops R C Rep)
include h

theorem gaussStep_spec {f0 f : Nat → Nat → K} {col : Nat} (hcol : col < C) (s : MatOps.GState M K)
    (hm : Rep s.m f) (hi : Inv R C f0 f col s.row s.factor) :
    ∃ s' g, ops.gaussStep C R col s = .ok s' ∧ Rep s'.m g ∧
      Inv R C f0 g (col + 1) s'.row s'.factor := by
  obtain ⟨b, e, hb⟩ := allZero_spec h hm hcol (R - s.row) s.row (by have := hi.row_le; omega)
  unfold MatOps.gaussStep
  rw [e]
  simp only [Res.bind]
  cases b with
  | true =>
    rw [if_pos rfl]
    have hz := hb.mp rfl
    refine ⟨s, f, rfl, hm, hi.rel, hi.sign, hi.row_le, by have := hi.row_col; omega, ?_, ?_, hi.ech⟩
    · intro i h1 h2 c hc
      rcases Nat.lt_succ_iff_lt_or_eq.mp hc with hc | rfl
      · exact hi.zero i h1 h2 c hc
      · exact hz i h1 h2
    · intro i hlt
      obtain ⟨c, h1, h2⟩ := hi.lead i hlt
      exact ⟨c, by omega, h2⟩
  | false =>
    rw [if_neg (by simp)]
    have hz : ¬ ∀ i, s.row ≤ i → i < R → f i col = 0 := fun hh => by
      have := hb.mpr hh; simp at this
    obtain ⟨small, e2, hs1, hs2, hs3⟩ := smallIdx_spec h hm hcol hi.row_le (fun _ _ _ _ _ => rfl) hz
    rw [e2]
    simp only
    have hpiv : ∃ s1 f1, ops.pivot s small = .ok s1 ∧ s1.row = s.row ∧ Rep s1.m f1 ∧
        Inv R C f0 f1 col s.row s1.factor ∧ f1 s.row col ≠ 0 := by
      unfold MatOps.pivot
      by_cases hne : small ≠ s.row
      · rw [if_pos hne]
        obtain ⟨m', e3, hm'⟩ := h.swap hm hs2 (show s.row < R by omega)
        rw [e3]
        refine ⟨_, _, rfl, rfl, hm', inv_swap hs1 hs2 hne hi, ?_⟩
        simp only
        rw [if_neg (Ne.symm hne), if_pos trivial]
        exact hs3
      · rw [if_neg hne]
        have : small = s.row := not_not.mp hne
        exact ⟨s, f, rfl, rfl, hm, hi, this ▸ hs3⟩
    obtain ⟨s1, f1, e4, hrow, hm1, hi1, htop⟩ := hpiv
    rw [e4]
    simp only
    rw [hrow, h.get hm1 (show s.row < R by omega) hcol]
    simp only
    obtain ⟨m', g, e5, hm', hrel, hg⟩ := elimBelow_spec h hm1 hcol (show s.row < R by omega)
      hi1.zero (R - (s.row + 1)) (by omega)
    unfold MatOps.elimBelow
    rw [e5]
    refine ⟨_, g, rfl, hm', inv_step hcol (by omega) hi1 htop hrel ?_⟩
    intro a b hb
    rw [hg a b hb, show s.row + 1 + (R - (s.row + 1)) = R by omega]

/-- With `$cols` and `$rows` as their names say, `gauss_elim` gives an echelon form by row operations,
whose determinant is the returned factor. -/
theorem gaussElim_spec {m : M} {f0 : Nat → Nat → K} (hm : Rep m f0) :
    ∃ m' f factor row, ops.gaussElim C R m = .ok (m', factor) ∧ Rep m' f ∧
      Inv R C f0 f C row factor := by
  have : ∀ k, k ≤ C → ∃ s f, forUpM k (fun col s => ops.gaussStep C R col s)
      (⟨m, 0, 1⟩ : MatOps.GState M K) = .ok s ∧ Rep s.m f ∧ Inv R C f0 f k s.row s.factor := by
    intro k
    induction k with
    | zero =>
      intro _
      exact ⟨_, f0, rfl, hm, RowRel.refl R C f0, Or.inl rfl, Nat.zero_le _, le_refl _,
        fun _ _ _ c hc => by omega, fun i hi => by simp at hi, fun i i' c' h1 h2 => by simp at h2⟩
    | succ k ih =>
      intro hk
      obtain ⟨s, f, e, hm1, hi⟩ := ih (by omega)
      rw [forUpM, e]
      exact gaussStep_spec h (by omega) s hm1 hi
  obtain ⟨s, f, e, hm', hi⟩ := this C (le_refl _)
  unfold MatOps.gaussElim
  rw [e]
  exact ⟨s.m, f, s.factor, s.row, rfl, hm', hi⟩

end main2

/-! ## Consequences of the invariant -/

theorem inv_echelon {R C : Nat} {f0 f : Nat → Nat → K} {row : Nat} {factor : K}
    (h : Inv R C f0 f C row factor) : IsEchelon (toM R C f) := by
  have key : ∀ (i : Fin R) (c : Fin C), Leads (toM R C f) i c ↔ Lead f i c := by
    intro i c
    unfold Leads Lead toM
    constructor
    · exact fun hh => ⟨hh.1, fun c' hc => hh.2 ⟨c', by omega⟩ hc⟩
    · exact fun hh => ⟨hh.1, fun c' hc => hh.2 c' hc⟩
  intro i i' c' hii hl
  have hl' := (key i' c').mp hl
  have hrow : (i' : Nat) < row := by
    by_contra hn
    exact hl'.1 (h.zero i' (by omega) i'.isLt c' c'.isLt)
  obtain ⟨c, h1, h2⟩ := h.ech i i' c' hii hrow hl'
  exact ⟨⟨c, by omega⟩, h1, (key i ⟨c, by omega⟩).mpr h2⟩

theorem inv_rowEquiv {R C : Nat} {f0 f : Nat → Nat → K} {row : Nat} {factor : K}
    (h : Inv R C f0 f C row factor) : RowEquiv (toM R C f0) (toM R C f) := by
  obtain ⟨P, hP, e⟩ := h.rel
  refine ⟨⟨P, e⟩, P⁻¹, ?_⟩
  have hu : IsUnit P.det := by
    rw [hP]
    rcases h.sign with h | h <;> simp [h]
  rw [e, ← Matrix.mul_assoc, Matrix.nonsing_inv_mul _ hu, Matrix.one_mul]

theorem lead_ge {R C : Nat} {f0 f : Nat → Nat → K} {row : Nat} {factor : K}
    (h : Inv R C f0 f C row factor) (i : Nat) (hi : i < row) : ∀ c, Lead f i c → i ≤ c := by
  induction i with
  | zero => exact fun c _ => Nat.zero_le _
  | succ i ih =>
    intro c hl
    obtain ⟨c1, h1, h2⟩ := h.ech i (i + 1) c (by omega) hi hl
    have := ih (by omega) c1 h2
    omega

theorem inv_det {N : Nat} {f0 f : Nat → Nat → K} {row : Nat} {factor : K}
    (h : Inv N N f0 f N row factor) :
    (∏ i : Fin N, f i i) = factor * (toM N N f0).det := by
  obtain ⟨P, hP, e⟩ := h.rel
  have htri : (toM N N f).BlockTriangular id := by
    intro i j hji
    simp only [id] at hji
    have hji : (j : Nat) < i := hji
    simp only [toM]
    by_cases hr : (i : Nat) < row
    · obtain ⟨c, hc, hl⟩ := h.lead i hr
      have := lead_ge h i hr c hl
      exact hl.2 j (by omega)
    · exact h.zero i (by omega) i.isLt j j.isLt
  have := Matrix.det_of_upperTriangular htri
  have h2 : (toM N N f).det = factor * (toM N N f0).det := by rw [e, Matrix.det_mul, hP]
  rw [← h2, this]
  rfl

end Gauss

end Verif
