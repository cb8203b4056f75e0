import Verif.Props.Vector
import Verif.Props.Matrix

/-!
# C114: components of vectors by name and by index; C115: laws of the determinant
-/

namespace Verif

namespace Vect

variable {α : Type}

/-- C114: reading component `i` of a vector gives that component, and panics exactly when there is
none; writing changes that component only, and panics exactly when there is none. -/
theorem C114_index {N : Nat} (f : Fin N → α) (i : Nat) (v : α) :
    (∀ h : i < N, index (List.ofFn f) i = .ok (f ⟨i, h⟩) ∧
      setIndex (List.ofFn f) i v = .ok (List.ofFn (Function.update f ⟨i, h⟩ v))) ∧
    (N ≤ i → index (List.ofFn f) i = .panic ∧ setIndex (List.ofFn f) i v = .panic) := by
  unfold index setIndex
  refine ⟨fun h => ⟨?_, ?_⟩, fun h => ⟨?_, ?_⟩⟩
  · rw [List.getElem?_ofFn, dif_pos h]
    rfl
  · rw [if_pos (by simpa using h)]
    congr 1
    apply List.ext_getElem (by simp)
    intro n h1 h2
    rw [List.getElem_set, List.getElem_ofFn, List.getElem_ofFn, Function.update_apply]
    by_cases hn : i = n
    · subst hn; simp
    · rw [if_neg hn, if_neg (fun hh => hn (Fin.mk.inj_iff.mp hh).symm)]
  · rw [List.getElem?_ofFn, dif_neg (by omega)]
    rfl
  · rw [if_neg (by simpa using h)]

/-- C114: the names. `x`, `y`, `z`, `w` are the components a vector is made of by `from_xy`, `from_xyz`
and `from_xyzw`, in this order, and setting one of them leaves the others alone. -/
theorem C114_names (a b c d v : α) :
    (x (fromXY a b) = .ok a ∧ y (fromXY a b) = .ok b ∧
      setX (fromXY a b) v = .ok (fromXY v b) ∧ setY (fromXY a b) v = .ok (fromXY a v)) ∧
    (x (fromXYZ a b c) = .ok a ∧ y (fromXYZ a b c) = .ok b ∧ z (fromXYZ a b c) = .ok c ∧
      setX (fromXYZ a b c) v = .ok (fromXYZ v b c) ∧ setY (fromXYZ a b c) v = .ok (fromXYZ a v c) ∧
      setZ (fromXYZ a b c) v = .ok (fromXYZ a b v)) ∧
    (x (fromXYZW a b c d) = .ok a ∧ y (fromXYZW a b c d) = .ok b ∧ z (fromXYZW a b c d) = .ok c ∧
      w (fromXYZW a b c d) = .ok d ∧
      setX (fromXYZW a b c d) v = .ok (fromXYZW v b c d) ∧
      setY (fromXYZW a b c d) v = .ok (fromXYZW a v c d) ∧
      setZ (fromXYZW a b c d) v = .ok (fromXYZW a b v d) ∧
      setW (fromXYZW a b c d) v = .ok (fromXYZW a b c v)) :=
  ⟨⟨rfl, rfl, rfl, rfl⟩, ⟨rfl, rfl, rfl, rfl, rfl, rfl⟩, ⟨rfl, rfl, rfl, rfl, rfl, rfl, rfl, rfl⟩⟩

/-- C114: names and indices agree, and every vector of 2, 3 or 4 components is made of what the names
read. -/
theorem C114_rebuild (a : List α) :
    (x a = index a 0 ∧ y a = index a 1 ∧ z a = index a 2 ∧ w a = index a 3) ∧
    (a.length = 2 → ∃ p q, x a = .ok p ∧ y a = .ok q ∧ a = fromXY p q) ∧
    (a.length = 3 → ∃ p q r, x a = .ok p ∧ y a = .ok q ∧ z a = .ok r ∧ a = fromXYZ p q r) ∧
    (a.length = 4 → ∃ p q r s, x a = .ok p ∧ y a = .ok q ∧ z a = .ok r ∧ w a = .ok s ∧
      a = fromXYZW p q r s) := by
  refine ⟨⟨rfl, rfl, rfl, rfl⟩, fun h => ?_, fun h => ?_, fun h => ?_⟩
  · match a, h with
    | [p, q], _ => exact ⟨p, q, rfl, rfl, rfl⟩
  · match a, h with
    | [p, q, r], _ => exact ⟨p, q, r, rfl, rfl, rfl, rfl⟩
  · match a, h with
    | [p, q, r, s], _ => exact ⟨p, q, r, s, rfl, rfl, rfl, rfl, rfl⟩

/-- C114: the default vector has the default in every component. -/
theorem C114_default [Inhabited α] (N i : Nat) :
    (dflt N : List α).length = N ∧ (i < N → index (dflt N : List α) i = .ok default) := by
  unfold dflt index
  refine ⟨by simp, fun h => ?_⟩
  rw [List.getElem?_map, List.getElem?_range h]
  rfl

example : index [1, 2, (3 : Nat)] 2 = .ok 3 ∧ setIndex [1, 2, (3 : Nat)] 3 9 = .panic ∧
    setZ [1, 2, (3 : Nat)] 9 = .ok [1, 2, 9] := by decide

end Vect

/-! ## C115 -/

variable {K : Type} [Field K] [LinearOrder K]

/-- C115: the determinant of a product is the product of the determinants, that of the transpose is the
same, and that of the identity is 1. -/
theorem C115_det_mul {N : Nat} (hN : 0 < N) {a b : List (List K)} {A B : Matrix (Fin N) (Fin N) K}
    (ha : MatOf a A) (hb : MatOf b B) :
    ∃ p t da db, Mat.mul N N N a b = .ok p ∧ Mat.transpose N a = some t ∧
      Mat.determinant N a = .ok da ∧ Mat.determinant N b = .ok db ∧
      Mat.determinant N p = .ok (da * db) ∧ Mat.determinant N t = .ok da ∧
      Mat.determinant N (Mat.one N N : List (List K)) = .ok 1 := by
  obtain ⟨p, e1, h1⟩ := C79_mul hN ha hb
  obtain ⟨t, e2, h2⟩ := (C79_ops ha ha).2.2.1
  refine ⟨p, t, _, _, e1, e2, C80_determinant ha, C80_determinant hb, ?_, ?_, ?_⟩
  · rw [C80_determinant h1, Matrix.det_mul]
  · rw [C80_determinant h2, Matrix.det_transpose]
  · rw [C80_determinant (C79_identities N N).2, Matrix.det_one]

/-- C115: exchanging two different rows negates the determinant, and a matrix with two equal rows, or a
zero row, has determinant 0. -/
theorem C115_det_rows {N : Nat} {a : List (List K)} {A : Matrix (Fin N) (Fin N) K} (ha : MatOf a A)
    (i j : Fin N) (hij : i ≠ j) :
    (∃ s da, Mat.swapRows a i j = .ok s ∧ Mat.determinant N a = .ok da ∧
      Mat.determinant N s = .ok (-da)) ∧
    (A i = A j → Mat.determinant N a = .ok 0) ∧
    ((∀ k, A i k = 0) → Mat.determinant N a = .ok 0) := by
  refine ⟨?_, ?_, ?_⟩
  · obtain ⟨s, e, hs⟩ := (mat_good (α := K) N N).swap (matOf_rowsOf ha) i.isLt j.isLt
    have hS : MatOf s (A.submatrix (Equiv.swap i j) id) := by
      rw [hs]
      have := rowsOf_matOf N N (fun a b => if a = i.val then extend A j b else
        if a = j.val then extend A i b else extend A a b)
      refine this.trans ?_
      congr 1
      funext a
      congr 1
      funext b
      simp only [Matrix.submatrix_apply, id, Equiv.swap_apply_def, Fin.ext_iff]
      split_ifs <;> exact extend_apply A _ _
    refine ⟨s, _, e, C80_determinant ha, ?_⟩
    rw [C80_determinant hS, Matrix.det_permute, Equiv.Perm.sign_swap hij]
    simp
  · intro h
    rw [C80_determinant ha, Matrix.det_zero_of_row_eq hij h]
  · intro h
    rw [C80_determinant ha, Matrix.det_eq_zero_of_row_eq_zero i h]

example : Mat.mul 2 2 2 [[1, 2], [3, 4]] [[0, 1], [2, (5 : ℚ)]] = .ok [[4, 11], [8, 23]] ∧
    Mat.determinant 2 [[1, 2], [3, (4 : ℚ)]] = .ok (-2) ∧
    Mat.determinant 2 [[0, 1], [2, (5 : ℚ)]] = .ok (-2) ∧
    Mat.determinant 2 [[4, 11], [8, (23 : ℚ)]] = .ok 4 ∧
    Mat.swapRows [[1, 2], [3, (4 : ℚ)]] 0 1 = .ok [[3, 4], [1, 2]] ∧
    Mat.determinant 2 [[3, 4], [1, (2 : ℚ)]] = .ok 2 := by decide +kernel

end Verif
