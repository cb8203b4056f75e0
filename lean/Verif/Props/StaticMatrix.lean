import Verif.Props.Matrix

/-!
# C149: fixed-size matrices are rectangular arrays
-/

namespace Verif

variable {α : Type}

theorem matOf_row? {R C : Nat} {m : List (List α)} {A : Matrix (Fin R) (Fin C) α} (h : MatOf m A)
    (i : Nat) : m[i]? = if hi : i < R then some (List.ofFn fun j => A ⟨i, hi⟩ j) else none := by
  rw [h, List.getElem?_ofFn]

/-- C149: `m[(i, j)]` is the entry in row `i` and column `j`, and panics if there is none. -/
theorem C149_index {R C : Nat} {m : List (List α)} {A : Matrix (Fin R) (Fin C) α} (h : MatOf m A)
    (i j : Nat) :
    Mat.get m i j = if hh : i < R ∧ j < C then .ok (A ⟨i, hh.1⟩ ⟨j, hh.2⟩) else .panic := by
  unfold Mat.get
  rw [matOf_row? h]
  by_cases hi : i < R
  · rw [dif_pos hi]
    simp only [Option.bind_some, List.getElem?_ofFn]
    by_cases hj : j < C
    · rw [dif_pos hj, dif_pos ⟨hi, hj⟩]
      rfl
    · rw [dif_neg hj, dif_neg (fun hh => hj hh.2)]
      rfl
  · rw [dif_neg hi, dif_neg (fun hh => hi hh.1)]
    rfl

/-- C149: `m[(i, j)] = x` changes exactly that entry, and panics if there is none. -/
theorem C149_write {R C : Nat} {m : List (List α)} {A : Matrix (Fin R) (Fin C) α} (h : MatOf m A)
    (i j : Nat) (x : α) :
    (i < R ∧ j < C → ∃ m', Mat.set m i j x = .ok m' ∧
      MatOf m' (fun (a : Fin R) (b : Fin C) => if a = i ∧ b = j then x else A a b)) ∧
    (¬ (i < R ∧ j < C) → Mat.set m i j x = .panic) := by
  unfold Mat.set
  rw [matOf_row? h]
  constructor
  · rintro ⟨hi, hj⟩
    rw [dif_pos hi]
    simp only [List.length_ofFn]
    refine ⟨_, if_pos hj, ?_⟩
    unfold MatOf
    apply List.ext_getElem?
    intro a
    rw [List.getElem?_set, matOf_row? h, List.getElem?_ofFn, (matOf_length h).1]
    by_cases ha : a < R
    · rw [dif_pos ha, dif_pos ha]
      by_cases hai : i = a
      · subst hai
        rw [if_pos rfl, if_pos ha]
        congr 1
        apply List.ext_getElem?
        intro b
        rw [List.getElem?_set, List.getElem?_ofFn, List.getElem?_ofFn, List.length_ofFn]
        by_cases hb : b < C
        · rw [dif_pos hb, dif_pos hb]
          by_cases hbj : j = b
          · subst hbj
            simp [hb]
          · rw [if_neg hbj]
            have : ¬ b = j := fun hh => hbj hh.symm
            simp [this]
        · rw [dif_neg hb, dif_neg hb]
          by_cases hbj : j = b
          · omega
          · rw [if_neg hbj]
      · rw [if_neg hai]
        have : ¬ a = i := fun hh => hai hh.symm
        simp [this]
    · rw [dif_neg ha, dif_neg ha]
      by_cases hai : i = a
      · omega
      · rw [if_neg hai]
  · intro hn
    by_cases hi : i < R
    · rw [dif_pos hi]
      simp only [List.length_ofFn]
      rw [if_neg (fun hj => hn ⟨hi, hj⟩)]
    · rw [dif_neg hi]

/-- C149: `swap_rows` exchanges two rows and leaves the others alone; it panics if one of them does not
exist. -/
theorem C149_swap_rows {R C : Nat} {m : List (List α)} {A : Matrix (Fin R) (Fin C) α} (h : MatOf m A) :
    (∀ i j : Fin R, ∃ m', Mat.swapRows m i j = .ok m' ∧ MatOf m' (A.submatrix (Equiv.swap i j) id) ∧
      Mat.swapRows m' i j = .ok m) ∧
    (∀ i j : Nat, (R ≤ i ∨ R ≤ j) → Mat.swapRows m i j = .panic) := by
  have key : ∀ {m : List (List α)} {A : Matrix (Fin R) (Fin C) α}, MatOf m A → ∀ i j : Fin R,
      ∃ m', Mat.swapRows m i j = .ok m' ∧ MatOf m' (A.submatrix (Equiv.swap i j) id) := by
    intro m A h i j
    unfold Mat.swapRows
    rw [matOf_row? h, matOf_row? h, dif_pos i.isLt, dif_pos j.isLt]
    refine ⟨_, rfl, ?_⟩
    unfold MatOf
    apply List.ext_getElem?
    intro a
    rw [List.getElem?_set, List.getElem?_set, matOf_row? h, List.getElem?_ofFn, List.length_set,
      (matOf_length h).1]
    by_cases ha : a < R
    · rw [dif_pos ha, dif_pos ha]
      by_cases haj : a = j
      · have e : (⟨a, ha⟩ : Fin R) = j := Fin.ext haj
        rw [if_pos haj.symm, if_pos j.isLt, e]
        simp
      · rw [if_neg (fun hh => haj hh.symm)]
        by_cases hai : a = i
        · have e : (⟨a, ha⟩ : Fin R) = i := Fin.ext hai
          rw [if_pos hai.symm, if_pos i.isLt, e]
          simp
        · have e : Equiv.swap i j ⟨a, ha⟩ = ⟨a, ha⟩ := Equiv.swap_apply_of_ne_of_ne
            (fun hh => hai (congrArg Fin.val hh)) (fun hh => haj (congrArg Fin.val hh))
          rw [if_neg (fun hh => hai hh.symm)]
          simp [e]
    · rw [dif_neg ha, dif_neg ha, if_neg (by omega), if_neg (by omega)]
  constructor
  · intro i j
    obtain ⟨m', e, h'⟩ := key h i j
    obtain ⟨m'', e2, h''⟩ := key h' i j
    refine ⟨m', e, h', ?_⟩
    rw [e2, show m'' = m from ?_]
    have e3 : (A.submatrix (Equiv.swap i j) id).submatrix (Equiv.swap i j) id = A := by
      ext a b
      simp
    rw [e3] at h''
    exact h''.trans h.symm
  · intro i j hij
    unfold Mat.swapRows
    rw [matOf_row? h, matOf_row? h]
    by_cases hi : i < R
    · rw [dif_pos hi, dif_neg (by omega)]
    · rw [dif_neg hi]

/-- C149: `diag` lists the entries on the diagonal. -/
theorem C149_diag {N : Nat} {m : List (List α)} {A : Matrix (Fin N) (Fin N) α} (h : MatOf m A) :
    Mat.diag N m = .ok (List.ofFn fun i => A i i) := by
  unfold Mat.diag
  have : ∀ (n : Nat) (hn : n ≤ N), fromFnM n (fun i => Mat.get m i i) =
      .ok (List.ofFn fun i : Fin n => A ⟨i, by omega⟩ ⟨i, by omega⟩) := by
    intro n
    induction n with
    | zero => intro _; rfl
    | succ n ih =>
      intro hn
      have := ih (by omega)
      unfold fromFnM at this ⊢
      rw [forUpM, this]
      simp only [Res.bind]
      rw [C149_index h, dif_pos ⟨by omega, by omega⟩]
      simp only
      rw [List.ofFn_succ_last]
      rfl
  exact this N (le_refl N)

example : Mat.get [[1, 2], [3, 4]] 1 0 = .ok 3 ∧ Mat.get [[1, 2], [3, 4]] 0 2 = .panic ∧
    Mat.set [[1, 2], [3, 4]] 0 1 7 = .ok [[1, 7], [3, 4]] ∧
    Mat.swapRows [[1, 2], [3, 4]] 1 0 = .ok [[3, 4], [1, 2]] ∧
    Mat.swapRows [[1, 2], [3, 4]] 1 2 = .panic ∧
    Mat.diag 2 [[1, 2], [3, 4]] = .ok [1, 4] := by decide
example : MatOf [[1, 2], [3, 4]] !![1, 2; 3, (4 : Nat)] := by simp [MatOf]

end Verif
