import Verif.Props.DynMatrix
import Verif.Props.MatrixExact

/-!
# C81 to C83, exactly: indices out of range, and tall dynamic matrices
-/

namespace Verif

variable {α : Type}

/-! ## Indexing -/

/-- The entry at place `k` when the rows of a matrix are written one after the other. -/
def entryAt {R C : Nat} (A : Matrix (Fin R) (Fin C) α) (k : Nat) : Option α :=
  if h : k < R * C then
    have hc : 0 < C := Nat.pos_of_ne_zero fun h0 => by subst h0; omega
    some (A ⟨k / C, (Nat.div_lt_iff_lt_mul hc).mpr h⟩ ⟨k % C, Nat.mod_lt _ hc⟩)
  else none

theorem dynOf_get? {P R C : Nat} {d : DynMat α} {A : Matrix (Fin R) (Fin C) α} (h : DynOf P d A)
    (k : Nat) : d.data[k]? = entryAt A k := by
  obtain ⟨hw, hr, hc, he⟩ := h
  have hl := hw.len
  rw [hr, hc] at hl
  unfold entryAt
  by_cases hk : k < R * C
  · rw [dif_pos hk]
    have hC : 0 < C := Nat.pos_of_ne_zero fun h0 => by subst h0; omega
    have := he ⟨k / C, (Nat.div_lt_iff_lt_mul hC).mpr hk⟩ ⟨k % C, Nat.mod_lt _ hC⟩
    simp only at this
    rw [← this, Nat.div_add_mod']
  · rw [dif_neg hk, List.getElem?_eq_none (by omega)]

theorem offset_eq (md : Mode) (P C i j : Nat) : DynMat.offset md P C i j =
    if i * C + j < 2 ^ P then .ok (i * C + j)
    else match md with
      | .debug => .panic
      | .release => .ok ((i * C + j) % 2 ^ P) := by
  unfold DynMat.offset usz
  by_cases h1 : i * C + j < 2 ^ P
  · rw [if_pos h1, if_pos (by omega)]
    simp only [Res.bind]
    rw [if_pos h1]
  · rw [if_neg h1]
    by_cases h2 : i * C < 2 ^ P
    · rw [if_pos h2]
      simp only [Res.bind]
      rw [if_neg h1]
      cases md <;> rfl
    · rw [if_neg h2]
      cases md
      · rfl
      · simp only [Res.bind]
        by_cases h3 : i * C % 2 ^ P + j < 2 ^ P
        · rw [if_pos h3, ← Nat.mod_add_mod, Nat.mod_eq_of_lt h3]
        · rw [if_neg h3, Nat.mod_add_mod]

/-- C82, exactly: whatever the indices, the entry at place `i * C + j` of the row-major order is read,
be it in another row. Beyond the last entry the access panics. If the place is no value of the pointer
type, debug builds panic and release builds reduce it first. -/
theorem C82_index_exact_partial (md : Mode) (P : Nat) {R C : Nat} {d : DynMat α}
    {A : Matrix (Fin R) (Fin C) α} (h : DynOf P d A) (i j : Nat) :
    DynMat.get md P d i j =
      if i * C + j < 2 ^ P ∨ md = .release then Res.ofOption (entryAt A ((i * C + j) % 2 ^ P))
      else .panic := by
  have hc := h.2.2.1
  unfold DynMat.get
  rw [hc, offset_eq]
  by_cases h1 : i * C + j < 2 ^ P
  · rw [if_pos h1, if_pos (.inl h1), Nat.mod_eq_of_lt h1]
    simp only [Res.bind]
    rw [dynOf_get? h]
  · rw [if_neg h1]
    cases md
    · rw [if_neg (by simpa using h1)]
      rfl
    · rw [if_pos (.inr rfl)]
      simp only [Res.bind]
      rw [dynOf_get? h]

/-- C82, the same in terms of rows and columns: a column index that is too large goes on in the rows
below. -/
theorem C82_carry_exact_partial (md : Mode) (P : Nat) {R C : Nat} {d : DynMat α}
    {A : Matrix (Fin R) (Fin C) α} (h : DynOf P d A) (i j : Nat) (hf : i * C + j < 2 ^ P)
    (hC : 0 < C) :
    DynMat.get md P d i j =
      if hr : i + j / C < R then .ok (A ⟨i + j / C, hr⟩ ⟨j % C, Nat.mod_lt _ hC⟩) else .panic := by
  rw [C82_index_exact_partial md P h, if_pos (.inl hf), Nat.mod_eq_of_lt hf]
  unfold entryAt
  have e1 : (i * C + j) / C = i + j / C := by
    rw [Nat.add_comm, Nat.add_mul_div_right _ _ hC, Nat.add_comm]
  have e2 : (i * C + j) % C = j % C := by rw [Nat.add_comm, Nat.add_mul_mod_self_right]
  have hiff : i * C + j < R * C ↔ i + j / C < R := by
    rw [← Nat.div_lt_iff_lt_mul hC, e1]
  by_cases hr : i + j / C < R
  · rw [dif_pos (hiff.mpr hr), dif_pos hr]
    simp only [Res.ofOption]
    congr 2
    · exact Fin.ext e1
    · exact Fin.ext e2
  · rw [dif_neg (fun hh => hr (hiff.mp hh)), dif_neg hr]
    rfl

/-- C82, exactly, for writing: whatever the indices, the entry at place `i * C + j` of the row-major order
is replaced and no other; beyond the last entry the access panics. -/
theorem C82_write_exact_partial (md : Mode) (P : Nat) {R C : Nat} {d : DynMat α}
    {A : Matrix (Fin R) (Fin C) α} (h : DynOf P d A) (i j : Nat) (x : α) :
    ((i * C + j < 2 ^ P ∨ md = .release) ∧ (i * C + j) % 2 ^ P < R * C →
      ∃ d', DynMat.set md P d i j x = .ok d' ∧ DynOf P d'
        (fun (a : Fin R) (b : Fin C) => if a * C + b = (i * C + j) % 2 ^ P then x else A a b)) ∧
    (¬ ((i * C + j < 2 ^ P ∨ md = .release) ∧ (i * C + j) % 2 ^ P < R * C) →
      DynMat.set md P d i j x = .panic) := by
  obtain ⟨hw, hr, hc, he⟩ := h
  have hl := hw.len
  rw [hr, hc] at hl
  have key : ∀ k, k < R * C →
      DynOf P { d with data := d.data.set k x }
        (fun (a : Fin R) (b : Fin C) => if a * C + b = k then x else A a b) := by
    intro k hk
    refine ⟨⟨hw.rows, hw.cols, by simp [hw.len], hw.fits⟩, hr, hc, fun a b => ?_⟩
    have := he a b
    simp only [List.getElem?_set]
    by_cases hab : (a : Nat) * C + b = k
    · rw [if_pos hab.symm, if_pos (by omega), if_pos hab]
    · rw [if_neg (fun hh => hab hh.symm), if_neg hab]
      exact this
  unfold DynMat.set
  rw [hc, offset_eq]
  by_cases h1 : i * C + j < 2 ^ P
  · rw [if_pos h1, Nat.mod_eq_of_lt h1]
    simp only [Res.bind, hl]
    constructor
    · rintro ⟨-, hk⟩
      exact ⟨_, if_pos hk, hc ▸ key _ hk⟩
    · intro hn
      rw [if_neg (fun hk => hn ⟨.inl h1, hk⟩)]
  · rw [if_neg h1]
    cases md
    · exact ⟨fun hh => by simp [h1] at hh, fun _ => rfl⟩
    · simp only [Res.bind, hl]
      constructor
      · rintro ⟨-, hk⟩
        exact ⟨_, if_pos hk, hc ▸ key _ hk⟩
      · intro hn
        rw [if_neg (fun hk => hn ⟨by simp, hk⟩)]

/-- C82: `swap_rows` with two different rows panics if one of them does not exist, unless the rows are
empty. In release builds this needs the place at which the row would begin to be a value of the pointer
type. -/
theorem C82_swap_out_of_range_partial (md : Mode) (P : Nat) (d : DynMat α) (hw : d.WF P) (a b : Nat)
    (ha : a < 2 ^ P) (hb : b < 2 ^ P) (hab : a ≠ b) (hc : 0 < d.cols)
    (hout : d.rows ≤ a ∨ d.rows ≤ b) (hf : md = .debug ∨ max a b * d.cols < 2 ^ P) :
    DynMat.swapRows md P d a b = .panic := by
  have hl := hw.len
  have hr : d.rows ≤ max a b := by omega
  have h1 : d.rows * d.cols ≤ max a b * d.cols := Nat.mul_le_mul_right _ hr
  unfold DynMat.swapRows
  rw [if_neg hab]
  simp only
  by_cases hm : max a b * d.cols < 2 ^ P
  · rw [usz_ok md hm]
    simp only [Res.bind]
    by_cases hle : max a b * d.cols ≤ d.data.length
    · rw [if_pos hle]
      have h2 : min a b * d.cols ≤ max a b * d.cols := Nat.mul_le_mul_right _ (by omega)
      have h3 : (min a b + 1) * d.cols ≤ max a b * d.cols := Nat.mul_le_mul_right _ (by omega)
      rw [usz_ok md (by omega)]
      simp only
      rw [usz_ok md (by omega)]
      simp only
      rw [usz_ok md (by omega)]
      simp only
      unfold DynMat.exchange
      rw [if_neg (by
        rw [List.length_drop, List.length_take]
        omega)]
    · rw [if_neg hle]
  · rcases hf with rfl | hf
    · unfold usz
      rw [if_neg hm]
      rfl
    · exact absurd hf hm

/-- C82 fails in release builds: the place at which the row would begin wraps around, and two rows are
exchanged although the second one does not exist. -/
theorem C82_swap_out_of_range_violated :
    DynMat.swapRows .release 64 (⟨[1, 2, 3, 4], 2, 2⟩ : DynMat Nat) 0 (2 ^ 63 + 1) =
      .ok ⟨[3, 4, 1, 2], 2, 2⟩ ∧
    DynMat.swapRows .debug 64 (⟨[1, 2, 3, 4], 2, 2⟩ : DynMat Nat) 0 (2 ^ 63 + 1) = .panic := by
  decide +kernel

example : DynMat.swapRows .release 64 (⟨[1, 2, 3, 4], 2, 2⟩ : DynMat Nat) 2 0 = .panic :=
  C82_swap_out_of_range_partial _ _ _ ⟨by decide, by decide, by decide, by decide⟩ _ _ (by decide)
    (by decide) (by decide) (by decide) (by decide) (by decide)

/-- C83, exactly, for reading: the limits are checked with one row and one column too many; what passes
reads the place of the row-major order, and beyond the last entry the behaviour is undefined (`none`).
If the place is no value of the pointer type, debug builds panic and release builds reduce it. -/
theorem C83_index_exact_partial (md : Mode) (P : Nat) {R C : Nat} {v : MatView α}
    {A : Matrix (Fin R) (Fin C) α} (h : ViewOf P v A) (i j : Nat) :
    MatView.index md P v i j =
      if R < i ∨ C < j then some .panic
      else if i * C + j < 2 ^ P ∨ md = .release then
        (entryAt A ((i * C + j) % 2 ^ P)).map .ok
      else some .panic := by
  have hr : v.rows = R := h.2.1
  have hc : v.cols = C := h.2.2.1
  unfold MatView.index
  rw [hr, hc]
  by_cases h0 : R < i ∨ C < j
  · rw [if_pos h0, if_pos h0]
  · rw [if_neg h0, if_neg h0, offset_eq]
    by_cases h1 : i * C + j < 2 ^ P
    · rw [if_pos h1, if_pos (.inl h1), Nat.mod_eq_of_lt h1]
      simp only [MatView.read]
      rw [← dynOf_get? h]
    · rw [if_neg h1]
      cases md
      · rw [if_neg (by simpa using h1)]
      · rw [if_pos (.inr rfl)]
        simp only [MatView.read]
        rw [← dynOf_get? h]

/-- C83: exactly which reads panic. Those just below the matrix, or just right of it, do not. -/
theorem C83_panics_exact_partial (P : Nat) {R C : Nat} {v : MatView α} {A : Matrix (Fin R) (Fin C) α}
    (h : ViewOf P v A) (hfit : (R + 1) * (C + 1) < 2 ^ P) (md : Mode) (i j : Nat) :
    MatView.index md P v i j = some .panic ↔ R < i ∨ C < j := by
  rw [C83_index_exact_partial md P h]
  by_cases h0 : R < i ∨ C < j
  · rw [if_pos h0]
    exact ⟨fun _ => h0, fun _ => rfl⟩
  · rw [if_neg h0]
    have h1 : i * C ≤ R * C := Nat.mul_le_mul_right _ (by omega)
    have h2 : (R + 1) * (C + 1) = R * C + C + R + 1 := by
      rw [Nat.add_mul, Nat.mul_add]; omega
    rw [if_pos (.inl (by omega))]
    constructor
    · intro hh
      cases he : entryAt A ((i * C + j) % 2 ^ P) with
      | none => rw [he] at hh; simp at hh
      | some x => rw [he] at hh; simp at hh
    · exact fun hh => absurd hh h0

example : DynOf 64 ⟨[1, 2, 3, (4 : Nat)], 2, 2⟩ !![1, 2; 3, 4] ∧
    DynMat.get .debug 64 ⟨[1, 2, 3, (4 : Nat)], 2, 2⟩ 0 3 = .ok 4 ∧
    DynMat.get .release 2 ⟨[1, 2, (3 : Nat)], 1, 3⟩ 1 1 = .ok 1 ∧
    DynMat.get .debug 2 ⟨[1, 2, (3 : Nat)], 1, 3⟩ 1 1 = .panic ∧
    MatView.index .release 64 (MatView.ofMat 2 2 [[1, 2], [3, (4 : Nat)]]) 1 2 = none ∧
    MatView.index .release 64 (MatView.ofMat 2 2 [[1, 2], [3, (4 : Nat)]]) 0 2 = some (.ok 3) := by
  refine ⟨⟨⟨by decide, by decide, rfl, by decide⟩, rfl, rfl, ?_⟩, by decide, by decide, by decide,
    by decide, by decide⟩
  intro i j
  fin_cases i <;> fin_cases j <;> rfl

/-! ## Row reduction of dynamic matrices with more rows than columns -/

theorem forUpM_keeps {σ : Type} {body : Nat → σ → Res σ} {I : Nat → σ → Prop} {s : σ} (n : Nat)
    (h0 : I 0 s) (hs : ∀ k s, k < n → I k s → ∃ s', body k s = .ok s' ∧ I (k + 1) s') :
    ∃ s', forUpM n body s = .ok s' ∧ I n s' := by
  induction n with
  | zero => exact ⟨s, rfl, h0⟩
  | succ n ih =>
    obtain ⟨s', e, hi⟩ := ih fun k s hk => hs k s (by omega)
    obtain ⟨s'', e', hi'⟩ := hs n s' (by omega) hi
    exact ⟨s'', by rw [forUpM, e]; exact e', hi'⟩

section safe

variable {K : Type} [Field K] [LinearOrder K] {M : Type}

/-- Operations that succeed in a rectangle, and keep an invariant. -/
structure SafeOps (ops : MatOps M K) (rows cols : Nat) (Inv : M → Prop) : Prop where
  get : ∀ {m i j}, Inv m → i < rows → j < cols → ∃ v, ops.get m i j = .ok v
  set : ∀ {m i j} (v : K), Inv m → i < rows → j < cols → ∃ m', ops.set m i j v = .ok m' ∧ Inv m'
  swap : ∀ {m i j}, Inv m → i < rows → j < rows → ∃ m', ops.swapRows m i j = .ok m' ∧ Inv m'

variable {ops : MatOps M K} {rows cols : Nat} {Inv : M → Prop}

theorem safe_allZero (h : SafeOps ops rows cols Inv) {m : M} (hm : Inv m) {col : Nat} (hc : col < cols)
    (n r : Nat) (hn : r + n ≤ rows) :
    ∃ b, ops.allZero m col n r = .ok b ∧
      (b = false → ∃ k v, r ≤ k ∧ k < r + n ∧ ops.get m k col = .ok v ∧ v ≠ 0) := by
  induction n generalizing r with
  | zero => exact ⟨true, rfl, by simp⟩
  | succ n ih =>
    obtain ⟨v, hv⟩ := h.get (i := r) hm (by omega) hc
    unfold MatOps.allZero
    rw [hv]
    simp only [Res.bind]
    by_cases h0 : v = 0
    · rw [if_pos (c := ZeroTest.IsZero _) h0]
      obtain ⟨b, e, hb⟩ := ih (r + 1) (by omega)
      refine ⟨b, e, fun hf => ?_⟩
      obtain ⟨k, w, h1, h2, h3⟩ := hb hf
      exact ⟨k, w, by omega, by omega, h3⟩
    · rw [if_neg (c := ZeroTest.IsZero _) h0]
      exact ⟨false, rfl, fun _ => ⟨r, v, Nat.le_refl _, by omega, hv, h0⟩⟩

theorem safe_smallIdx (h : SafeOps ops rows cols Inv) {m : M} (hm : Inv m) {col : Nat}
    (hc : col < cols) {row : Nat} (hr : row ≤ rows)
    (hz : ∃ k v, row ≤ k ∧ k < rows ∧ ops.get m k col = .ok v ∧ v ≠ 0) :
    ∃ s, ops.smallIdx m col row rows = .ok s ∧ row ≤ s ∧ s < rows := by
  obtain ⟨k, v, h1, h2, hv, hv0⟩ := hz
  unfold MatOps.smallIdx
  obtain ⟨best, e, hb1, hb2⟩ := forUpM_keeps (body := fun idx best =>
      (ops.get m (row + idx) col).bind fun v =>
        if MatOps.clash best v then .panic else Res.ok (MatOps.keepMin best idx v))
    (I := fun n best => (row + n ≤ rows → ∀ i w, best = some (i, w) → i < n) ∧
      (k < row + n → best ≠ none)) (s := none) (rows - row)
    ⟨by simp, fun hh => by omega⟩ (by
      intro n best hn ⟨hi1, hi2⟩
      obtain ⟨w, hw⟩ := h.get (i := row + n) hm (by omega) hc
      refine ⟨_, by rw [hw]; simp only [Res.bind, Gauss.clash_false, Bool.false_eq_true, if_false]; rfl, ?_, ?_⟩
      · intro _ i u hu
        unfold MatOps.keepMin at hu
        split at hu
        · have := hi1 (by omega) i u hu; omega
        · split at hu
          · cases hu; omega
          · split at hu
            · cases hu; omega
            · have := hi1 (by omega) i u hu; omega
      · intro hk
        unfold MatOps.keepMin
        split
        · rename_i hw0
          rcases Nat.lt_or_ge k (row + n) with hlt | hge
          · exact hi2 hlt
          · obtain rfl : k = row + n := by omega
            rw [hw] at hv
            cases hv
            exact absurd hw0 hv0
        · split
          · simp
          · split <;> simp)
  rw [e]
  simp only [Res.bind]
  cases best with
  | none => exact absurd rfl (hb2 (by omega))
  | some p =>
    obtain ⟨i, w⟩ := p
    have := hb1 (by omega) i w rfl
    exact ⟨i + row, rfl, by omega, by omega⟩

omit [LinearOrder K] in
theorem safe_elimBelow (h : SafeOps ops rows cols Inv) {m : M} (hm : Inv m) {col row : Nat}
    (hc : col < cols) (hr : row < rows) (top : K) :
    ∃ m', ops.elimBelow col cols row rows top m = .ok m' ∧ Inv m' := by
  unfold MatOps.elimBelow
  refine forUpM_keeps (I := fun _ m => Inv m) _ hm fun k m hk hm => ?_
  obtain ⟨v, hv⟩ := h.get (i := row + 1 + k) hm (by omega) hc
  rw [hv]
  simp only [Res.bind]
  unfold MatOps.elimRow
  refine forUpM_keeps (I := fun _ m => Inv m) _ hm fun c m hc' hm => ?_
  obtain ⟨a, ha⟩ := h.get (i := row + 1 + k) (j := col + c) hm (by omega) (by omega)
  obtain ⟨b, hb⟩ := h.get (i := row) (j := col + c) hm (by omega) (by omega)
  rw [ha]
  simp only [Res.bind]
  rw [hb]
  exact h.set _ hm (by omega) (by omega)

theorem safe_gauss (h : SafeOps ops rows cols Inv) {m : M} (hm : Inv m) :
    ∃ r, ops.gaussElim cols rows m = .ok r ∧ Inv r.1 ∧ (r.2 = 1 ∨ r.2 = -1) := by
  unfold MatOps.gaussElim
  obtain ⟨s, e, hs1, hs2, hs3⟩ := forUpM_keeps (body := fun col s => ops.gaussStep cols rows col s)
    (I := fun _ (s : MatOps.GState M K) => Inv s.m ∧ s.row ≤ rows ∧ (s.factor = 1 ∨ s.factor = -1))
    (s := ⟨m, 0, 1⟩) cols ⟨hm, Nat.zero_le _, .inl rfl⟩ (by
      intro col s hcol ⟨hi, hrow, hf⟩
      unfold MatOps.gaussStep
      obtain ⟨b, eb, hb⟩ := safe_allZero h hi hcol (rows - s.row) s.row (by omega)
      rw [eb]
      simp only [Res.bind]
      cases b with
      | true => exact ⟨s, by simp, hi, hrow, hf⟩
      | false =>
        rw [if_neg (by simp)]
        obtain ⟨k, v, h1, h2, h3, h4⟩ := hb rfl
        obtain ⟨sm, es, hs1, hs2⟩ := safe_smallIdx h hi hcol hrow ⟨k, v, h1, by omega, h3, h4⟩
        rw [es]
        simp only
        have hp : ∃ s' : MatOps.GState M K, ops.pivot s sm = .ok s' ∧ Inv s'.m ∧ s'.row = s.row ∧
            (s'.factor = 1 ∨ s'.factor = -1) := by
          unfold MatOps.pivot
          by_cases hne : sm ≠ s.row
          · rw [if_pos hne]
            obtain ⟨m', e', hm'⟩ := h.swap (i := sm) (j := s.row) hi hs2 (by omega)
            rw [e']
            refine ⟨_, rfl, hm', rfl, ?_⟩
            rcases hf with hf | hf
            · right; simp [hf]
            · left; simp [hf]
          · rw [if_neg hne]
            exact ⟨s, rfl, hi, rfl, hf⟩
        obtain ⟨s', ep, hp1, hp2, hp3⟩ := hp
        rw [ep]
        simp only
        obtain ⟨top, ht⟩ := h.get (i := s'.row) hp1 (by omega) hcol
        rw [ht]
        simp only
        obtain ⟨m', e', hm'⟩ := safe_elimBelow h hp1 hcol (show s'.row < rows by omega) top
        rw [e']
        exact ⟨_, rfl, hm', by simp only; omega, hp3⟩)
  rw [e]
  exact ⟨_, rfl, hs1, hs3⟩

/-- C81 for dynamic matrices with at least as many rows as columns: no panic, and a matrix of the same
dimensions; the entries from place `(C - 1) * C + R` of the row-major order on, of which there are
`(R - C) * (C - 1)`, are never touched. If there are more rows than columns its entries may be wrong
(`C81_dyn_violated`, `C81_dyn_tall_violated`). -/
theorem C81_dyn_tall_partial (md : Mode) (P : Nat) {R C : Nat} (hRC : C ≤ R) {d : DynMat K}
    (hw : d.WF P) (hr : d.rows = R) (hc : d.cols = C) :
    ∃ d', DynMat.rowReduce md P d = .ok d' ∧ d'.WF P ∧ d'.rows = R ∧ d'.cols = C ∧
      ∀ k, (C - 1) * C + R ≤ k → d'.data[k]? = d.data[k]? := by
  have hsafe : SafeOps (DynMat.ops (α := K) md P) C R
      (fun d' => d'.WF P ∧ d'.rows = R ∧ d'.cols = C ∧
        ∀ k, (C - 1) * C + R ≤ k → d'.data[k]? = d.data[k]?) := by
    have hidx : ∀ {i j : Nat}, i < C → j < R → i * C + j < R * C := by
      intro i j hi hj
      have h1 : i * C ≤ (C - 1) * C := Nat.mul_le_mul_right _ (by omega)
      obtain ⟨e, rfl⟩ : ∃ e, R = C + e := ⟨R - C, by omega⟩
      obtain ⟨c, rfl⟩ : ∃ c, C = c + 1 := ⟨C - 1, by omega⟩
      rw [Nat.add_mul]
      have h2 : e ≤ e * (c + 1) := Nat.le_mul_of_pos_right _ (by omega)
      have h3 : (c + 1) * (c + 1) = (c + 1 - 1) * (c + 1) + (c + 1) := by
        rw [Nat.add_sub_cancel]; ring
      omega
    refine ⟨?_, ?_, ?_⟩
    · rintro d i j ⟨hw, hr, hc, -⟩ hi hj
      have := hidx hi hj
      have hf := hw.fits
      have hl := hw.len
      rw [hr, hc] at hf hl
      refine ⟨d.data[i * C + j]'(by omega), ?_⟩
      show DynMat.get md P d i j = _
      unfold DynMat.get
      rw [offset_eq, hc, if_pos (by omega)]
      simp only [Res.bind]
      rw [List.getElem?_eq_getElem (by omega)]
      rfl
    · rintro d i j v ⟨hw, hr, hc, hk⟩ hi hj
      have := hidx hi hj
      have hf := hw.fits
      have hl := hw.len
      refine ⟨{ d with data := d.data.set (i * C + j) v }, ?_, ⟨hw.rows, hw.cols, ?_, hw.fits⟩, hr, hc,
        fun k hk' => ?_⟩
      · show DynMat.set md P d i j v = _
        unfold DynMat.set
        rw [hr, hc] at hf hl
        rw [offset_eq, hc, if_pos (by omega)]
        simp only [Res.bind]
        rw [if_pos (by omega)]
      · simpa using hl
      · have h1 : i * C ≤ (C - 1) * C := Nat.mul_le_mul_right _ (by omega)
        simp only
        rw [List.getElem?_set_ne (by omega)]
        exact hk k hk'
    · rintro d i j ⟨hw, hr, hc, hk⟩ hi hj
      obtain ⟨d', e, h1, h2, h3, h4⟩ := dyn_swap md hw (a := i) (b := j) (by omega) (by omega)
      refine ⟨d', e, ⟨by rw [h1]; exact hw.rows, by rw [h2]; exact hw.cols,
        by rw [h1, h2, h3]; exact hw.len, by rw [h1, h2]; exact hw.fits⟩, h1.trans hr, h2.trans hc,
        fun k hk' => ?_⟩
      rw [← hk k hk']
      have hC : 0 < C := by omega
      have hkC : C ≤ k / C := by
        rw [Nat.le_div_iff_mul_le hC]
        obtain ⟨c, rfl⟩ : ∃ c, C = c + 1 := ⟨C - 1, by omega⟩
        rw [Nat.add_sub_cancel] at hk'
        have : (c + 1) * (c + 1) = c * (c + 1) + (c + 1) := by ring
        omega
      have := h4 (k / C) (k % C) (by rw [hc]; exact Nat.mod_lt _ hC)
      rw [hc, Nat.div_add_mod'] at this
      rw [this, if_neg (by omega), if_neg (by omega)]
  obtain ⟨r, e, hi, _⟩ := safe_gauss hsafe ⟨hw, hr, hc, fun _ _ => rfl⟩
  refine ⟨r.1, ?_, hi⟩
  unfold DynMat.rowReduce DynMat.gaussElim
  rw [hr, hc, e]
  rfl

/-- In an echelon form with more rows than columns the last row is zero. -/
theorem echelon_tall [Zero α] {R C : Nat} {A : Matrix (Fin R) (Fin C) α} (h : IsEchelon A)
    (r : Nat) (hr : r < R) (c : Fin C) (hl : Leads A ⟨r, hr⟩ c) : r ≤ c := by
  induction r generalizing c with
  | zero => exact Nat.zero_le _
  | succ r ih =>
    obtain ⟨c', hc, hl'⟩ := h ⟨r, by omega⟩ ⟨r + 1, hr⟩ c (by simp [Fin.lt_def]) hl
    have := ih (by omega) c' hl'
    rw [Fin.lt_def] at hc
    omega

theorem echelon_low [Zero α] {R C : Nat} {A : Matrix (Fin R) (Fin C) α} (h : IsEchelon A)
    (r : Nat) (hr : r < R) (hC : C ≤ r) (c : Fin C) : A ⟨r, hr⟩ c = 0 := by
  by_contra hne
  classical
  obtain ⟨n, hn⟩ : ∃ n : Nat, n = (c : Nat) := ⟨_, rfl⟩
  have key : ∀ n, ∀ c : Fin C, (c : Nat) = n → A ⟨r, hr⟩ c ≠ 0 → ∃ c', Leads A ⟨r, hr⟩ c' := by
    intro n
    induction n using Nat.strong_induction_on with
    | _ n ih =>
      intro c hc hne
      by_cases hz : ∀ c' < c, A ⟨r, hr⟩ c' = 0
      · exact ⟨c, hne, hz⟩
      · push Not at hz
        obtain ⟨c', h1, h2⟩ := hz
        exact ih c' (by rw [Fin.lt_def] at h1; omega) c' rfl h2
  obtain ⟨c', hl⟩ := key n c hn.symm hne
  have := echelon_tall h r hr c' hl
  have := c'.isLt
  omega

/-- C81 fails for nearly all dynamic matrices with more rows than columns and more than one column: an entry
in the rows below the square, other than the first `R - C` entries of these rows, is returned as it is, so that
unless all of them are zero the result is no echelon form. -/
theorem C81_dyn_tall_violated (md : Mode) (P : Nat) {R C : Nat} (hRC : C < R) {d : DynMat K}
    {A : Matrix (Fin R) (Fin C) K} (h : DynOf P d A) (i : Fin R) (j : Fin C) (hi : C ≤ (i : Nat))
    (hij : (C - 1) * C + R ≤ i * C + j) (hne : A i j ≠ 0) :
    ∃ d' A', DynMat.rowReduce md P d = .ok d' ∧ DynOf P d' A' ∧ A' i j = A i j ∧ ¬ IsEchelon A' := by
  obtain ⟨hw, hr, hc, he⟩ := h
  obtain ⟨d', e, hw', hr', hc', hk⟩ := C81_dyn_tall_partial md P (by omega) hw hr hc
  have hl := hw'.len
  rw [hr', hc'] at hl
  have hlt : ∀ (a : Fin R) (b : Fin C), (a : Nat) * C + b < d'.data.length := by
    intro a b
    rw [hl]
    exact idx_lt a.isLt b.isLt
  have hent : d'.data[(i : Nat) * C + j]'(hlt i j) = A i j := by
    have := (hk _ hij).trans (he i j)
    rw [List.getElem?_eq_getElem (hlt i j)] at this
    exact Option.some.inj this
  refine ⟨d', fun a b => d'.data[(a : Nat) * C + b]'(hlt a b), e,
    ⟨hw', hr', hc', fun a b => List.getElem?_eq_getElem (hlt a b)⟩, hent, fun hE => ?_⟩
  apply hne
  rw [← hent]
  exact echelon_low hE i i.isLt hi j

-- the last entry is one of them, whatever the dimensions; here it is the only one
example : ∃ d' A', DynMat.rowReduce .release 64 ⟨[1, 2, 3, 4, 5, (6 : ℚ)], 3, 2⟩ = .ok d' ∧
    DynOf (R := 3) (C := 2) 64 d' A' ∧ A' 2 1 = 6 ∧ ¬ IsEchelon A' :=
  C81_dyn_tall_violated .release 64 (A := !![1, 2; 3, 4; 5, 6]) (by decide)
    ⟨⟨by decide, by decide, rfl, by decide⟩, rfl, rfl, by decide⟩ 2 1 (by decide) (by decide) (by decide)

/-- C81 for dynamic matrices of one column: they are returned as they are, so the claim holds exactly if all
entries but the first are zero. -/
theorem C81_dyn_column_exact_partial (md : Mode) (P : Nat) {R : Nat} {d : DynMat K}
    {A : Matrix (Fin R) (Fin 1) K} (h : DynOf P d A) :
    DynMat.rowReduce md P d = .ok d ∧ (IsEchelon A ↔ ∀ i : Fin R, 0 < (i : Nat) → A i 0 = 0) := by
  constructor
  · obtain ⟨hw, hr, hc, he⟩ := h
    have hf := hw.fits
    have hl := hw.len
    rw [hr, hc] at hf hl
    have hget : ∀ col < R, ∃ v, DynMat.get md P d 0 col = .ok v := by
      intro col hcol
      refine ⟨d.data[col]'(by omega), ?_⟩
      unfold DynMat.get
      rw [offset_eq, hc, if_pos (by omega)]
      simp only [Res.bind]
      rw [List.getElem?_eq_getElem (by omega)]
      simp [Res.ofOption]
    obtain ⟨s, e, hs, -⟩ := forUpM_keeps
      (body := fun col s => (DynMat.ops (α := K) md P).gaussStep R 1 col s)
      (I := fun _ (s : MatOps.GState (DynMat K) K) => s.m = d ∧ s.row ≤ 1)
      (s := ⟨d, 0, 1⟩) R ⟨rfl, Nat.zero_le _⟩ (by
        intro col s hcol ⟨hm, hrow⟩
        obtain ⟨v, hv⟩ := hget col hcol
        have hv' : (DynMat.ops (α := K) md P).get d 0 col = .ok v := hv
        unfold MatOps.gaussStep
        obtain ⟨m, row, f⟩ := s
        simp only at hm hrow
        subst hm
        rcases Nat.lt_or_ge row 1 with h | h
        · obtain rfl : row = 0 := by omega
          simp only [Nat.sub_zero, MatOps.allZero, hv', Res.bind]
          by_cases h0 : v = 0
          · rw [if_pos (c := ZeroTest.IsZero _) h0]
            simp only [if_true]
            exact ⟨_, rfl, rfl, by simp⟩
          · rw [if_neg (c := ZeroTest.IsZero _) h0]
            simp only [Bool.false_eq_true, if_false]
            have hsm : (DynMat.ops (α := K) md P).smallIdx m col 0 1 = .ok 0 := by
              unfold MatOps.smallIdx
              simp only [forUpM, Nat.sub_zero, Nat.add_zero, hv', Res.bind, MatOps.clash,
                MatOps.keepMin, Bool.false_eq_true, if_false, isZero_iff, if_neg h0]
            rw [hsm]
            simp only [MatOps.pivot, ne_eq, not_true_eq_false, if_false, hv']
            exact ⟨_, rfl, rfl, by simp⟩
        · obtain rfl : row = 1 := by omega
          simp only [Nat.sub_self, MatOps.allZero, Res.bind, if_true]
          exact ⟨_, rfl, rfl, by simp⟩)
    unfold DynMat.rowReduce DynMat.gaussElim MatOps.gaussElim
    rw [hr, hc, e]
    simp only [Res.bind]
    rw [hs]
  · constructor
    · intro hE i hi
      exact echelon_low hE i i.isLt hi 0
    · intro hz i i' c' hlt hl
      rw [Fin.lt_def] at hlt
      obtain rfl : c' = 0 := Subsingleton.elim _ _
      exact absurd (hz i' (by omega)) hl.1

example : DynMat.rowReduce .debug 64 ⟨[1, 1, (1 : ℚ)], 3, 1⟩ = .ok ⟨[1, 1, 1], 3, 1⟩ := by decide

example : ∃ d', DynMat.rowReduce .debug 64 ⟨[1, 2, 3, 4, 5, (6 : ℚ)], 3, 2⟩ = .ok d' ∧ d'.rows = 3 := by
  obtain ⟨d', e, _, h, _⟩ := C81_dyn_tall_partial .debug 64 (R := 3) (C := 2) (by decide)
    (d := ⟨[1, 2, 3, 4, 5, (6 : ℚ)], 3, 2⟩) ⟨by decide, by decide, rfl, by decide⟩ rfl rfl
  exact ⟨d', e, h⟩

end safe

end Verif
