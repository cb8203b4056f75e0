import Verif.Props.Matrix

/-!
# C82, C83: dynamic matrices and matrix views
-/

namespace Verif

variable {α : Type}

/-! ## C82: dynamic matrices -/

/-- C82: in debug builds, `new` accepts exactly the data of the right length (and then gives a matrix
within the limits assumed below), and panics otherwise. -/
theorem C82_new (P : Nat) (data : List α) (R C : Nat) (hR : R < 2 ^ P) (hC : C < 2 ^ P)
    (hd : data.length < 2 ^ P) :
    (data.length = R * C → DynMat.new .debug P data R C = .ok ⟨data, R, C⟩ ∧
      DynMat.WF P (⟨data, R, C⟩ : DynMat α)) ∧
    (data.length ≠ R * C → DynMat.new .debug P data R C = .panic) := by
  constructor
  · intro h
    refine ⟨?_, ⟨hR, hC, h, by simp only; omega⟩⟩
    unfold DynMat.new
    rw [usz_ok _ (by omega)]
    simp only [Res.bind]
    rw [if_pos h]
  · intro h
    unfold DynMat.new usz
    by_cases hf : R * C < 2 ^ P
    · rw [if_pos hf]
      simp only [Res.bind]
      rw [if_neg h]
    · rw [if_neg hf]
      rfl

example : DynMat.new .debug 64 [1, 2, 3, 4, 5, 6] 2 3 = .ok ⟨[1, 2, 3, 4, 5, 6], 2, 3⟩ ∧
    DynMat.new .debug 64 [1, 2, 3, 4, 5] 2 3 = .panic :=
  ⟨((C82_new 64 [1, 2, 3, 4, 5, 6] 2 3 (by decide) (by decide) (by decide)).1 rfl).1,
    (C82_new 64 [1, 2, 3, 4, 5] 2 3 (by decide) (by decide) (by decide)).2 (by decide)⟩

/-- C82 fails: in release builds the product of the dimensions wraps around, and a matrix without data
can have 2³² rows and columns. -/
theorem C82_new_violated : ∃ R C : Nat, R < 2 ^ 64 ∧ C < 2 ^ 64 ∧ ([] : List Nat).length ≠ R * C ∧
    DynMat.new .release 64 ([] : List Nat) R C = .ok ⟨[], R, C⟩ :=
  ⟨2 ^ 32, 2 ^ 32, by decide, by decide, by decide, by decide⟩

/-- C82: the entry at an index in range is the row-major one. -/
theorem C82_index (m : Mode) (P : Nat) (d : DynMat α) (hw : d.WF P) (i j : Nat) (hi : i < d.rows)
    (hj : j < d.cols) :
    ∃ v, d.data[i * d.cols + j]? = some v ∧ DynMat.get m P d i j = .ok v := by
  have hlt := idx_lt hi hj
  have hl := hw.len
  have h : i * d.cols + j < d.data.length := by omega
  refine ⟨_, List.getElem?_eq_getElem h, ?_⟩
  unfold DynMat.get
  rw [offset_ok m hi hj hw.fits]
  simp only [Res.bind]
  rw [List.getElem?_eq_getElem h]
  rfl

example : ∃ v, [1, 2, 3, 4, 5, 6][1 * 3 + 2]? = some v ∧
    DynMat.get .debug 64 ⟨[1, 2, 3, 4, 5, 6], 2, 3⟩ 1 2 = .ok v :=
  C82_index .debug 64 ⟨[1, 2, 3, 4, 5, 6], 2, 3⟩
    ((C82_new 64 [1, 2, 3, 4, 5, 6] 2 3 (by decide) (by decide) (by decide)).1 rfl).2 1 2 (by decide) (by decide)

/-- C82: writing an entry, then reading: the new value there, and the old ones elsewhere. -/
theorem C82_write (m : Mode) (P : Nat) (d : DynMat α) (hw : d.WF P) (i j : Nat) (v : α)
    (hi : i < d.rows) (hj : j < d.cols) :
    ∃ d', DynMat.set m P d i j v = .ok d' ∧ d'.WF P ∧ d'.rows = d.rows ∧ d'.cols = d.cols ∧
      DynMat.get m P d' i j = .ok v ∧
      ∀ i' j', i' < d.rows → j' < d.cols → (i', j') ≠ (i, j) →
        DynMat.get m P d' i' j' = DynMat.get m P d i' j' := by
  have hlt := idx_lt hi hj
  have hl := hw.len
  unfold DynMat.set
  rw [offset_ok m hi hj hw.fits]
  simp only [Res.bind]
  rw [if_pos (by omega)]
  refine ⟨_, rfl, ⟨hw.rows, hw.cols, by simp [hl], hw.fits⟩, rfl, rfl, ?_, ?_⟩
  · unfold DynMat.get
    simp only
    rw [offset_ok m hi hj hw.fits]
    simp only [Res.bind]
    rw [List.getElem?_set, if_pos rfl, if_pos (by omega)]
    rfl
  · intro i' j' hi' hj' hne
    unfold DynMat.get
    simp only
    rw [offset_ok m hi' hj' hw.fits]
    simp only [Res.bind]
    rw [List.getElem?_set, if_neg (fun hh => hne (by
      obtain ⟨h1, h2⟩ := idx_inj hj hj' hh
      rw [h1, h2]))]

example : DynMat.set .debug 64 ⟨[1, 2, 3, 4, 5, 6], 2, 3⟩ 1 0 9 = .ok ⟨[1, 2, 3, 9, 5, 6], 2, 3⟩ := by decide

/-- C82: a row index that is too large panics in debug builds, whatever the column. -/
theorem C82_row_out_of_range_partial (P : Nat) (d : DynMat α) (hw : d.WF P) (i j : Nat)
    (hi : d.rows ≤ i) :
    DynMat.get .debug P d i j = .panic := by
  have hl := hw.len
  have h1 : d.rows * d.cols ≤ i * d.cols := Nat.mul_le_mul_right _ hi
  unfold DynMat.get DynMat.offset usz
  by_cases hf : i * d.cols < 2 ^ P
  · rw [if_pos hf]
    simp only [Res.bind]
    by_cases hf2 : i * d.cols + j < 2 ^ P
    · rw [if_pos hf2]
      simp only
      rw [List.getElem?_eq_none (by omega)]
      rfl
    · rw [if_neg hf2]
  · rw [if_neg hf]
    rfl

/-- C82 fails: a column index that is too large does not panic but gives an entry of another row,
whenever there is one. -/
theorem C82_column_violated (m : Mode) (P : Nat) (d : DynMat α) (hw : d.WF P) (i j : Nat)
    (hi : i + 1 < d.rows) (hj : j < d.cols) :
    DynMat.get m P d i (d.cols + j) = DynMat.get m P d (i + 1) j ∧
    ∃ v, DynMat.get m P d i (d.cols + j) = .ok v := by
  have hlt := idx_lt hi hj
  have hf := hw.fits
  have e : i * d.cols + (d.cols + j) = (i + 1) * d.cols + j := by rw [Nat.succ_mul]; omega
  have e1 : DynMat.offset m P d.cols i (d.cols + j) = .ok ((i + 1) * d.cols + j) := by
    unfold DynMat.offset
    rw [usz_ok m (by omega)]
    simp only [Res.bind]
    rw [usz_ok m (by omega), e]
  have h : DynMat.get m P d i (d.cols + j) = DynMat.get m P d (i + 1) j := by
    unfold DynMat.get
    rw [e1, offset_ok m hi hj hw.fits]
  obtain ⟨v, _, hv⟩ := C82_index m P d hw (i + 1) j hi hj
  exact ⟨h, v, by rw [h, hv]⟩

/-- C82: `swap_rows` exchanges two rows and leaves the others, and doing it twice changes nothing. -/
theorem C82_swap_rows (m : Mode) (P : Nat) (d : DynMat α) (hw : d.WF P) (a b : Nat)
    (ha : a < d.rows) (hb : b < d.rows) :
    ∃ d', DynMat.swapRows m P d a b = .ok d' ∧ d'.WF P ∧ d'.rows = d.rows ∧ d'.cols = d.cols ∧
      (∀ j, j < d.cols → DynMat.get m P d' a j = DynMat.get m P d b j ∧
        DynMat.get m P d' b j = DynMat.get m P d a j) ∧
      (∀ i j, i < d.rows → j < d.cols → i ≠ a → i ≠ b →
        DynMat.get m P d' i j = DynMat.get m P d i j) ∧
      DynMat.swapRows m P d' a b = .ok d := by
  obtain ⟨d', e, h1, h2, h3, h4⟩ := dyn_swap m hw ha hb
  have hw' : d'.WF P := ⟨by rw [h1]; exact hw.rows, by rw [h2]; exact hw.cols,
    by rw [h3, h1, h2]; exact hw.len, by rw [h1, h2]; exact hw.fits⟩
  have hget : ∀ i j, i < d.rows → j < d.cols → DynMat.get m P d' i j =
      Res.ofOption d'.data[i * d.cols + j]? := by
    intro i j hi hj
    unfold DynMat.get
    rw [h2, offset_ok m hi hj hw.fits]
    rfl
  have hget2 : ∀ i j, i < d.rows → j < d.cols → DynMat.get m P d i j =
      Res.ofOption d.data[i * d.cols + j]? := by
    intro i j hi hj
    unfold DynMat.get
    rw [offset_ok m hi hj hw.fits]
    rfl
  refine ⟨d', e, hw', h1, h2, fun j hj => ⟨?_, ?_⟩, fun i j hi hj hia hib => ?_, ?_⟩
  · rw [hget a j ha hj, hget2 b j hb hj, h4 a j hj, if_pos rfl]
  · rw [hget b j hb hj, hget2 a j ha hj, h4 b j hj]
    by_cases hba : b = a
    · rw [if_pos hba, hba]
    · rw [if_neg hba, if_pos rfl]
  · rw [hget i j hi hj, hget2 i j hi hj, h4 i j hj, if_neg hia, if_neg hib]
  · obtain ⟨d'', e2, g1, g2, g3, g4⟩ := dyn_swap m hw' (a := a) (b := b) (by rw [h1]; exact ha)
      (by rw [h1]; exact hb)
    rw [e2]
    have hdata : d''.data = d.data := by
      apply List.ext_getElem?
      intro k
      by_cases hk : k < d.data.length
      · rw [hw.len] at hk
        have hc : 0 < d.cols := by
          rcases Nat.eq_zero_or_pos d.cols with h | h
          · rw [h] at hk; simp at hk
          · exact h
        have hj : k % d.cols < d.cols := Nat.mod_lt _ hc
        have ek : k = (k / d.cols) * d.cols + k % d.cols := by
          rw [Nat.mul_comm]; exact (Nat.div_add_mod k d.cols).symm
        have g4' := g4 (k / d.cols) (k % d.cols) (by rw [h2]; exact hj)
        rw [h2] at g4'
        rw [ek, g4', h4 b _ hj, h4 a _ hj, h4 _ _ hj]
        by_cases hia : k / d.cols = a
        · rw [if_pos hia, hia]
          by_cases hba : b = a
          · rw [if_pos hba, hba]
          · rw [if_neg hba, if_pos rfl]
        · rw [if_neg hia, if_neg hia]
          by_cases hib : k / d.cols = b
          · rw [if_pos hib, if_pos rfl, hib]
          · rw [if_neg hib, if_neg hib]
      · rw [List.getElem?_eq_none (by omega), List.getElem?_eq_none (by omega)]
    congr 1
    cases d''; cases d; cases d'
    simp_all

/-- C82: an array of rows converts to the matrix with the same entries. -/
theorem C82_of_array (P R C : Nat) (a : List (List α)) (A : Matrix (Fin R) (Fin C) α) (ha : MatOf a A)
    (hR : R < 2 ^ P) (hC : C < 2 ^ P) (hf : R * C < 2 ^ P) :
    ∃ d, DynMat.ofArray .debug P R C a = .ok d ∧ DynOf P d A := by
  obtain ⟨h1, h2⟩ := matOf_length ha
  have key : ∀ l : List (List α), (∀ r ∈ l, r.length = C) → l.flatten.length = l.length * C ∧
      ∀ (i j : Nat) (r : List α), l[i]? = some r → j < C → l.flatten[i * C + j]? = r[j]? := by
    intro l
    induction l with
    | nil => intro _; exact ⟨by simp, fun i j r hr => by simp at hr⟩
    | cons x l ih =>
      intro hl
      obtain ⟨e1, e2⟩ := ih (fun r hr => hl r (by simp [hr]))
      have hx : x.length = C := hl x (by simp)
      refine ⟨by simp [e1, hx, Nat.succ_mul]; omega, fun i j r hr hj => ?_⟩
      rw [List.flatten_cons]
      cases i with
      | zero =>
        simp only [List.getElem?_cons_zero, Option.some.injEq] at hr
        subst hr
        rw [Nat.zero_mul, Nat.zero_add, List.getElem?_append_left (by omega)]
      | succ i =>
        simp only [List.getElem?_cons_succ] at hr
        rw [List.getElem?_append_right (by rw [Nat.succ_mul]; omega), hx,
          show (i + 1) * C + j - C = i * C + j by rw [Nat.succ_mul]; omega]
        exact e2 i j r hr hj
  obtain ⟨k1, k2⟩ := key a h2
  rw [h1] at k1
  obtain ⟨e, hw⟩ := (C82_new P a.flatten R C hR hC (by omega)).1 k1
  refine ⟨_, e, hw, rfl, rfl, fun i j => ?_⟩
  have hrow : a[(i : Nat)]? = some (List.ofFn fun j => A i j) := by
    unfold MatOf at ha
    rw [ha, List.getElem?_ofFn, dif_pos i.isLt]
  simp only
  rw [k2 i j _ hrow j.isLt, List.getElem?_ofFn, dif_pos j.isLt]

example : DynMat.WF 64 (⟨[1, 2, 3, 4, 5, 6], 2, 3⟩ : DynMat Nat) ∧
    DynMat.get .debug 64 ⟨[1, 2, 3, 4, 5, 6], 2, 3⟩ 1 2 = .ok 6 ∧
    DynMat.get .debug 64 ⟨[1, 2, 3, 4, 5, 6], 2, 3⟩ 0 4 = .ok 5 ∧
    DynMat.swapRows .debug 64 ⟨[1, 2, 3, 4, 5, 6], 2, 3⟩ 0 1 = .ok ⟨[4, 5, 6, 1, 2, 3], 2, 3⟩ := by
  refine ⟨⟨by decide, by decide, rfl, by decide⟩, by decide, by decide, by decide⟩

/-! ## C83: matrix views -/

/-- A view of a matrix. -/
def ViewOf {R C : Nat} (P : Nat) (v : MatView α) (A : Matrix (Fin R) (Fin C) α) : Prop :=
  DynOf P ⟨v.mem, v.rows, v.cols⟩ A

/-- Views are made of static and of dynamic matrices. -/
theorem C83_views (P : Nat) {R C : Nat} (A : Matrix (Fin R) (Fin C) α) :
    (∀ d, DynOf P d A → ViewOf P (MatView.ofDyn d) A) ∧
    (∀ m, MatOf m A → R < 2 ^ P → C < 2 ^ P → R * C < 2 ^ P → ViewOf P (MatView.ofMat R C m) A) := by
  constructor
  · exact fun d h => h
  · intro m h hR hC hf
    obtain ⟨d, e, hd⟩ := C82_of_array P R C m A h hR hC hf
    have hl : m.flatten.length = R * C := by
      by_contra hn
      have hp : DynMat.new .debug P m.flatten R C = .panic := by
        unfold DynMat.new
        rw [usz_ok _ hf]
        simp only [Res.bind]
        rw [if_neg hn]
      rw [DynMat.ofArray, hp] at e
      simp at e
    have h2 := (C82_new P m.flatten R C hR hC (by omega)).1 hl
    rw [DynMat.ofArray, h2.1] at e
    injection e with e
    subst e
    exact hd

example := (C83_views 64 !![1, 2; 3, (4 : Int)]).2 [[1, 2], [3, 4]] rfl (by decide) (by decide) (by decide)

/-- C83, part: an index in range reads that entry, and one that is beyond the limits by more than one
panics. Missing: a row index equal to the number of rows, or a column index equal to the number of
columns, where the claim fails (below). -/
theorem C83_index_partial (md : Mode) (P : Nat) {R C : Nat} {v : MatView α}
    {A : Matrix (Fin R) (Fin C) α} (h : ViewOf P v A) :
    (∀ (i : Fin R) (j : Fin C), MatView.index md P v i j = some (.ok (A i j))) ∧
    (∀ i j : Nat, (R < i ∨ C < j) → MatView.index md P v i j = some .panic) := by
  obtain ⟨hw, hr, hc, he⟩ := h
  simp only at hr hc he
  constructor
  · intro i j
    unfold MatView.index
    rw [hr, hc, if_neg (by omega), offset_ok md i.isLt j.isLt (by
      have := hw.fits; simp only at this; rwa [hr, hc] at this)]
    simp only
    unfold MatView.read
    rw [he i j]
    rfl
  · intro i j hij
    unfold MatView.index
    rw [hr, hc, if_pos hij]

/-- C83 fails: reading just below the matrix is out of bounds, and undefined behaviour (`none`). -/
theorem C83_index_violated (P : Nat) {R C : Nat} {v : MatView α} {A : Matrix (Fin R) (Fin C) α}
    (h : ViewOf P v A) (j : Nat) (hj : j ≤ C) (hf : R * C + j < 2 ^ P) (md : Mode) :
    MatView.index md P v R j = none := by
  obtain ⟨hw, hr, hc, _⟩ := h
  simp only at hr hc
  have hl := hw.len
  simp only at hl
  rw [hr, hc] at hl
  unfold MatView.index
  rw [hr, hc, if_neg (by omega)]
  have : DynMat.offset md P C R j = .ok (R * C + j) := by
    unfold DynMat.offset
    rw [usz_ok md (by omega)]
    simp only [Res.bind]
    rw [usz_ok md hf]
  rw [this]
  simp only
  unfold MatView.read
  rw [List.getElem?_eq_none (by omega)]
  rfl

/-- C83 fails: reading just right of the matrix gives an entry of the next row. -/
theorem C83_column_violated :
    MatView.index .debug 64 (MatView.ofMat 2 2 [[1, 2], [3, 4]]) 0 2 = some (.ok 3) := by decide

/-- C83: assignments through `MatrixMut` change exactly that entry, or panic. -/
theorem C83_assign (md : Mode) (P : Nat) {R C : Nat} {v : MatView α}
    {A : Matrix (Fin R) (Fin C) α} (h : ViewOf P v A) (x : α) :
    (∀ (i : Fin R) (j : Fin C), ∃ mem, MatView.assign md P v i j x = some (.ok mem) ∧
      ViewOf P ⟨mem, v.rows, v.cols⟩
        (fun (a : Fin R) (b : Fin C) => if a = i ∧ b = j then x else A a b)) ∧
    (∀ i j : Nat, (R ≤ i ∨ C ≤ j) → MatView.assign md P v i j x = some .panic) := by
  obtain ⟨hw, hr, hc, he⟩ := h
  simp only at hr hc he
  have hl := hw.len
  simp only at hl
  rw [hr, hc] at hl
  constructor
  · intro i j
    have hlt := idx_lt i.isLt j.isLt
    unfold MatView.assign
    rw [hr, hc, if_pos ⟨i.isLt, j.isLt⟩, offset_ok md i.isLt j.isLt (by
      have := hw.fits; simp only at this; rwa [hr, hc] at this)]
    simp only
    rw [if_pos (by omega)]
    refine ⟨_, rfl, ⟨by have := hw.rows; simp only at this ⊢; omega,
      by have := hw.cols; simp only at this ⊢; omega, by simp [hl],
      by have := hw.fits; simp only at this ⊢; rwa [hr, hc] at this⟩, rfl, rfl, fun a b => ?_⟩
    simp only
    rw [List.getElem?_set]
    by_cases hab : a = i ∧ b = j
    · obtain ⟨rfl, rfl⟩ := hab
      rw [if_pos rfl, if_pos (by omega), if_pos ⟨rfl, rfl⟩]
    · rw [if_neg (fun hh => hab (by
        obtain ⟨h1, h2⟩ := idx_inj j.isLt b.isLt hh
        exact ⟨Fin.ext h1.symm, Fin.ext h2.symm⟩)), if_neg hab]
      exact he a b
  · intro i j hij
    unfold MatView.assign
    rw [hr, hc, if_neg (by omega)]

example : ViewOf 64 (MatView.ofMat 2 2 [[1, 2], [3, 4]]) !![1, 2; 3, (4 : Nat)] :=
  (C83_views 64 _).2 _ (by simp [MatOf]) (by decide) (by decide) (by decide)

end Verif
