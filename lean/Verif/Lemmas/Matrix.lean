import Verif.Lemmas.Gauss
import Verif.Props.Vector

/-!
# Lemmas on static and dynamic matrices
-/

namespace Verif

variable {α : Type}

theorem fromFnM_eq {β : Type} (n : Nat) (f : Nat → Res β) (g : Nat → β)
    (h : ∀ i, i < n → f i = .ok (g i)) : fromFnM n f = .ok ((List.range n).map g) := by
  unfold fromFnM
  induction n with
  | zero => rfl
  | succ n ih =>
    rw [forUpM, ih (fun i hi => h i (by omega))]
    simp only [Res.bind]
    rw [h n (by omega)]
    simp [List.range_succ]

theorem ofFn_eq_range {β : Type} (n : Nat) (g : Nat → β) :
    (List.ofFn fun i : Fin n => g i) = (List.range n).map g := by
  apply List.ext_getElem?
  intro i
  by_cases h : i < n <;> simp [h, List.getElem?_ofFn]

/-- The rows of a function. -/
def rowsOf (R C : Nat) (f : Nat → Nat → α) : List (List α) :=
  (List.range R).map fun i => (List.range C).map fun j => f i j

theorem rowsOf_matOf (R C : Nat) (f : Nat → Nat → α) :
    MatOf (rowsOf R C f) (fun (i : Fin R) (j : Fin C) => f i j) := by
  unfold MatOf rowsOf
  rw [← ofFn_eq_range R (fun i => (List.range C).map fun j => f i j)]
  congr 1
  funext i
  exact (ofFn_eq_range C (f i)).symm

/-- A matrix as a function on all indices. -/
def extend [Zero α] {R C : Nat} (A : Matrix (Fin R) (Fin C) α) (i j : Nat) : α :=
  if h : i < R ∧ j < C then A ⟨i, h.1⟩ ⟨j, h.2⟩ else 0

theorem extend_apply [Zero α] {R C : Nat} (A : Matrix (Fin R) (Fin C) α) (i : Fin R) (j : Fin C) :
    extend A i j = A i j := by
  unfold extend
  rw [dif_pos ⟨i.isLt, j.isLt⟩]

theorem toM_extend {K : Type} [Field K] {R C : Nat} (A : Matrix (Fin R) (Fin C) K) :
    Gauss.toM R C (extend A) = A := by
  funext i j
  exact extend_apply A i j

theorem matOf_rowsOf [Zero α] {R C : Nat} {l : List (List α)} {A : Matrix (Fin R) (Fin C) α}
    (h : MatOf l A) : l = rowsOf R C (extend A) := by
  have := rowsOf_matOf R C (extend A)
  unfold MatOf at h this
  rw [h, this]
  simp only [extend_apply]

theorem matOf_inj {R C : Nat} {l : List (List α)} {A B : Matrix (Fin R) (Fin C) α}
    (h1 : MatOf l A) (h2 : MatOf l B) : A = B := by
  unfold MatOf at h1 h2
  rw [h1] at h2
  have := List.ofFn_injective h2
  funext i j
  exact congrFun (List.ofFn_injective (congrFun this i)) j

theorem exists_matOf {R C : Nat} (l : List (List α)) (h1 : l.length = R)
    (h2 : ∀ r ∈ l, r.length = C) : ∃ A : Matrix (Fin R) (Fin C) α, MatOf l A := by
  subst h1
  refine ⟨fun i j => (l[i])[j]'(by rw [h2 l[i] (List.getElem_mem _)]; exact j.isLt), ?_⟩
  unfold MatOf
  apply List.ext_getElem?
  intro i
  by_cases h : i < l.length
  · have hl : (l[i]).length = C := h2 _ (List.getElem_mem _)
    rw [List.getElem?_eq_getElem h, List.getElem?_ofFn, dif_pos h]
    congr 1
    apply List.ext_getElem?
    intro j
    by_cases hj : j < C
    · rw [List.getElem?_eq_getElem (by omega), List.getElem?_ofFn, dif_pos hj]
      rfl
    · rw [List.getElem?_eq_none (by omega), List.getElem?_eq_none (by simp; omega)]
  · rw [List.getElem?_eq_none (by omega), List.getElem?_eq_none (by simp; omega)]

theorem matOf_length {R C : Nat} {l : List (List α)} {A : Matrix (Fin R) (Fin C) α}
    (h : MatOf l A) : l.length = R ∧ ∀ r ∈ l, r.length = C := by
  unfold MatOf at h
  subst h
  refine ⟨by simp, fun r hr => ?_⟩
  simp only [List.mem_ofFn] at hr
  obtain ⟨i, rfl⟩ := hr
  simp

theorem rowsOf_get? {R C : Nat} (f : Nat → Nat → α) {i : Nat} (hi : i < R) :
    (rowsOf R C f)[i]? = some ((List.range C).map (f i)) := by
  unfold rowsOf
  simp [hi]

theorem rowsOf_congr {R C : Nat} {f g : Nat → Nat → α} (h : ∀ i j, i < R → j < C → f i j = g i j) :
    rowsOf R C f = rowsOf R C g := by
  unfold rowsOf
  apply List.map_congr_left
  intro i hi
  apply List.map_congr_left
  intro j hj
  exact h i j (List.mem_range.mp hi) (List.mem_range.mp hj)

theorem mat_get {R C : Nat} (f : Nat → Nat → α) {i j : Nat} (hi : i < R) (hj : j < C) :
    Mat.get (rowsOf R C f) i j = .ok (f i j) := by
  unfold Mat.get
  rw [rowsOf_get? f hi]
  simp [hj, Res.ofOption]

theorem map_range_set {β : Type} (n : Nat) (g : Nat → β) (i : Nat) (v : β) :
    ((List.range n).map g).set i v = (List.range n).map fun a => if a = i then v else g a := by
  apply List.ext_getElem?
  intro k
  rw [List.getElem?_set]
  by_cases h : k < n
  · by_cases hk : i = k
    · subst hk; simp [h]
    · rw [if_neg hk]; simp [h, Ne.symm hk]
  · by_cases hk : i = k
    · subst hk
      rw [if_pos rfl, if_neg (by simpa using h), List.getElem?_eq_none (by simp; omega)]
    · rw [if_neg hk, List.getElem?_eq_none (by simp; omega), List.getElem?_eq_none (by simp; omega)]

/-- Static matrices. -/
theorem mat_good (R C : Nat) :
    Gauss.Good (Mat.ops (α := α)) R C (fun m f => m = rowsOf R C f) where
  get := by
    rintro m f i j rfl hi hj
    exact mat_get f hi hj
  set := by
    rintro m f i j v rfl hi hj
    simp only [Mat.ops, Mat.set]
    rw [rowsOf_get? f hi]
    simp only [List.length_map, List.length_range]
    rw [if_pos hj]
    refine ⟨_, rfl, ?_⟩
    unfold rowsOf
    rw [map_range_set, map_range_set]
    apply List.map_congr_left
    intro a _
    by_cases ha : a = i
    · rw [if_pos ha, ha]
      apply List.map_congr_left
      intro b _
      beta_reduce
      simp
    · rw [if_neg ha]
      apply List.map_congr_left
      intro b _
      beta_reduce
      rw [if_neg (fun hh => ha hh.1)]
  swap := by
    rintro m f i j rfl hi hj
    simp only [Mat.ops, Mat.swapRows]
    rw [rowsOf_get? f hi, rowsOf_get? f hj]
    refine ⟨_, rfl, ?_⟩
    unfold rowsOf
    rw [map_range_set, map_range_set]
    apply List.map_congr_left
    intro a _
    by_cases h1 : a = j
    · rw [if_pos h1]
      apply List.map_congr_left
      intro b _
      beta_reduce
      by_cases h2 : a = i
      · rw [if_pos h2, ← h1, h2]
      · rw [if_neg h2, if_pos h1]
    · rw [if_neg h1]
      by_cases h2 : a = i
      · rw [if_pos h2]
        apply List.map_congr_left
        intro b _
        beta_reduce
        rw [if_pos h2]
      · rw [if_neg h2]
        apply List.map_congr_left
        intro b _
        beta_reduce
        rw [if_neg h2, if_neg h1]
  ext := by
    rintro m f g rfl h
    exact rowsOf_congr h

/-! ## Dynamic matrices -/

/-- The dimensions of a `DynMatrix` fit the pointer size, and so does the number of its entries. -/
structure DynMat.WF (P : Nat) (d : DynMat α) : Prop where
  rows : d.rows < 2 ^ P
  cols : d.cols < 2 ^ P
  len : d.data.length = d.rows * d.cols
  fits : d.rows * d.cols < 2 ^ P

theorem usz_ok (m : Mode) {P n : Nat} (h : n < 2 ^ P) : usz m P n = .ok n := by
  unfold usz
  rw [if_pos h]

theorem idx_lt {i j R C : Nat} (hi : i < R) (hj : j < C) : i * C + j < R * C := by
  have : (i + 1) * C ≤ R * C := Nat.mul_le_mul_right _ hi
  rw [Nat.succ_mul] at this
  omega

theorem offset_ok (m : Mode) {P R C i j : Nat} (hi : i < R) (hj : j < C) (h : R * C < 2 ^ P) :
    DynMat.offset m P C i j = .ok (i * C + j) := by
  have := idx_lt hi hj
  unfold DynMat.offset
  rw [usz_ok m (by omega)]
  simp only [Res.bind]
  rw [usz_ok m (by omega)]

theorem idx_inj {i j i' j' C : Nat} (hj : j < C) (hj' : j' < C) (h : i * C + j = i' * C + j') :
    i = i' ∧ j = j' := by
  have hc : 0 < C := by omega
  have h1 : (i * C + j) / C = i := by
    rw [Nat.add_comm, Nat.add_mul_div_right _ _ hc, Nat.div_eq_of_lt hj, Nat.zero_add]
  have h2 : (i' * C + j') / C = i' := by
    rw [Nat.add_comm, Nat.add_mul_div_right _ _ hc, Nat.div_eq_of_lt hj', Nat.zero_add]
  have : i = i' := by rw [← h1, h, h2]
  subst this
  exact ⟨rfl, by omega⟩

/-- Entry `k` after `swap_rows`. -/
theorem exchange_get (data : List α) (C l r : Nat) (hlr : l < r) (hlen : (r + 1) * C ≤ data.length) :
    ∃ out, DynMat.exchange (data.take (r * C)) (data.drop (r * C)) (l * C) ((l + 1) * C) C = .ok out ∧
      out.length = data.length ∧
      ∀ i j, j < C → out[i * C + j]? =
        (if i = l then data[r * C + j]? else if i = r then data[l * C + j]? else data[i * C + j]?) := by
  have h1 : (l + 1) * C ≤ r * C := Nat.mul_le_mul_right _ hlr
  have e1 : (l + 1) * C = l * C + C := Nat.succ_mul _ _
  have e2 : (r + 1) * C = r * C + C := Nat.succ_mul _ _
  unfold DynMat.exchange
  rw [if_pos (by
    rw [List.length_take, List.length_drop, Nat.min_eq_left (by omega)]
    omega)]
  refine ⟨_, rfl, ?_, ?_⟩
  · simp only [List.length_append, List.length_take, List.length_drop]
    omega
  · intro i j hj
    have hi1 : i < l → i * C + j < l * C := fun h => idx_lt h hj
    have hi2 : l < i → l * C + C ≤ i * C := fun h => by
      have := Nat.mul_le_mul_right C h; rw [Nat.succ_mul] at this; exact this
    have hi3 : i < r → i * C + C ≤ r * C := fun h => by
      have := Nat.mul_le_mul_right C h; rw [Nat.succ_mul] at this; exact this
    have hi4 : r < i → r * C + C ≤ i * C := fun h => by
      have := Nat.mul_le_mul_right C h; rw [Nat.succ_mul] at this; exact this
    simp only [List.append_assoc]
    rcases Nat.lt_trichotomy i l with h | h | h
    · have := hi1 h
      rw [if_neg (by omega), if_neg (by omega), List.getElem?_append_left (by
        rw [List.length_take, List.length_take]; omega)]
      rw [List.getElem?_take, if_pos this, List.getElem?_take, if_pos (by omega)]
    · subst h
      rw [if_pos rfl]
      have ht : ((data.take (r * C)).take (i * C)).length = i * C := by
        rw [List.length_take, List.length_take]; omega
      rw [List.getElem?_append_right (by omega), ht,
        List.getElem?_append_left (by rw [List.length_take, List.length_drop]; omega),
        List.getElem?_take, if_pos (by omega), List.getElem?_drop]
      congr 1
      omega
    · rw [if_neg (by omega)]
      have := hi2 h
      have ht : ((data.take (r * C)).take (l * C)).length = l * C := by
        rw [List.length_take, List.length_take]; omega
      have ht2 : ((data.drop (r * C)).take C).length = C := by
        rw [List.length_take, List.length_drop]; omega
      rw [List.getElem?_append_right (by omega), ht, List.getElem?_append_right (by omega), ht2]
      have ht3 : ((data.take (r * C)).drop ((l + 1) * C)).length = r * C - (l * C + C) := by
        rw [List.length_drop, List.length_take]; omega
      rcases Nat.lt_trichotomy i r with hr | hr | hr
      · have := hi3 hr
        rw [if_neg (by omega), List.getElem?_append_left (by omega), List.getElem?_drop,
          List.getElem?_take, if_pos (by omega)]
        congr 1
        omega
      · subst hr
        rw [if_pos rfl, List.getElem?_append_right (by omega), ht3]
        have ht4 : (((data.take (i * C)).drop (l * C)).take ((l + 1) * C - l * C)).length = C := by
          rw [List.length_take, List.length_drop, List.length_take]; omega
        rw [List.getElem?_append_left (by omega), List.getElem?_take, if_pos (by omega),
          List.getElem?_drop, List.getElem?_take, if_pos (by omega)]
        congr 1
        omega
      · have := hi4 hr
        rw [if_neg (by omega), List.getElem?_append_right (by omega), ht3]
        have ht4 : (((data.take (r * C)).drop (l * C)).take ((l + 1) * C - l * C)).length = C := by
          rw [List.length_take, List.length_drop, List.length_take]; omega
        rw [List.getElem?_append_right (by omega), ht4, List.getElem?_drop, List.getElem?_drop]
        congr 1
        omega

/-- A dynamic matrix of the given dimensions and entries. -/
structure DynRep (P R C : Nat) (d : DynMat α) (f : Nat → Nat → α) : Prop where
  wf : d.WF P
  rows : d.rows = R
  cols : d.cols = C
  entry : ∀ i j, i < R → j < C → d.data[i * C + j]? = some (f i j)

theorem dyn_swap (m : Mode) {P : Nat} {d : DynMat α} (hw : d.WF P) {a b : Nat} (ha : a < d.rows)
    (hb : b < d.rows) :
    ∃ d', DynMat.swapRows m P d a b = .ok d' ∧ d'.rows = d.rows ∧ d'.cols = d.cols ∧
      d'.data.length = d.data.length ∧
      ∀ i j, j < d.cols → d'.data[i * d.cols + j]? =
        (if i = a then d.data[b * d.cols + j]?
         else if i = b then d.data[a * d.cols + j]? else d.data[i * d.cols + j]?) := by
  unfold DynMat.swapRows
  by_cases hab : a = b
  · rw [if_pos hab]
    refine ⟨d, rfl, rfl, rfl, rfl, fun i j _ => ?_⟩
    subst hab
    by_cases hi : i = a
    · rw [if_pos hi, hi]
    · rw [if_neg hi, if_neg hi]
  · rw [if_neg hab]
    have hlr : min a b < max a b := by omega
    have hr : max a b < d.rows := by omega
    have h1 : (max a b + 1) * d.cols ≤ d.rows * d.cols := Nat.mul_le_mul_right _ hr
    have h2 : max a b * d.cols ≤ (max a b + 1) * d.cols := Nat.mul_le_mul_right _ (by omega)
    have h3 : (min a b + 1) * d.cols ≤ (max a b + 1) * d.cols := Nat.mul_le_mul_right _ (by omega)
    have h4 : min a b * d.cols ≤ (max a b + 1) * d.cols := Nat.mul_le_mul_right _ (by omega)
    have hf := hw.fits
    have hrows := hw.rows
    have hlen := hw.len
    obtain ⟨out, e, hl, hg⟩ := exchange_get d.data d.cols (min a b) (max a b) hlr (by omega)
    simp only
    rw [usz_ok m (by omega)]
    simp only [Res.bind]
    rw [if_pos (by omega), usz_ok m (by omega)]
    simp only
    rw [usz_ok m (by omega)]
    simp only
    rw [usz_ok m (by omega)]
    simp only
    rw [e]
    refine ⟨_, rfl, rfl, rfl, hl, fun i j hj => ?_⟩
    simp only
    rw [hg i j hj]
    rcases Nat.lt_or_ge a b with h | h
    · rw [Nat.min_eq_left (by omega), Nat.max_eq_right (by omega)]
    · rw [Nat.min_eq_right (by omega), Nat.max_eq_left (by omega)]
      by_cases hi : i = a
      · rw [if_neg (by omega), if_pos hi, if_pos hi]
      · rw [if_neg hi, if_neg hi]

theorem dyn_good (m : Mode) (P R C : Nat) :
    Gauss.Good (DynMat.ops (α := α) m P) R C (DynRep P R C) where
  get := by
    intro d f i j h hi hj
    simp only [DynMat.ops, DynMat.get]
    rw [h.cols, offset_ok m hi hj (by have := h.wf.fits; rwa [h.rows, h.cols] at this)]
    simp only [Res.bind]
    rw [h.entry i j hi hj]
    rfl
  set := by
    intro d f i j v h hi hj
    have hl := h.wf.len
    rw [h.rows, h.cols] at hl
    have hlt := idx_lt hi hj
    simp only [DynMat.ops, DynMat.set]
    rw [h.cols, offset_ok m hi hj (by have := h.wf.fits; rwa [h.rows, h.cols] at this)]
    simp only [Res.bind]
    rw [if_pos (by omega)]
    refine ⟨_, rfl, ⟨h.wf.rows, by simpa [h.cols] using h.wf.cols, by simp [h.rows, h.cols, hl],
      by simpa [h.cols] using h.wf.fits⟩, h.rows, rfl, fun a b ha hb => ?_⟩
    rw [List.getElem?_set]
    by_cases hab : a = i ∧ b = j
    · obtain ⟨rfl, rfl⟩ := hab
      rw [if_pos rfl, if_pos (by omega), if_pos ⟨rfl, rfl⟩]
    · rw [if_neg hab, if_neg (fun hh => hab (by
        obtain ⟨h1, h2⟩ := idx_inj hj hb hh
        exact ⟨h1.symm, h2.symm⟩))]
      exact h.entry a b ha hb
  swap := by
    intro d f i j h hi hj
    obtain ⟨d', e, h1, h2, h3, h4⟩ := dyn_swap m h.wf (a := i) (b := j) (by rw [h.rows]; exact hi)
      (by rw [h.rows]; exact hj)
    refine ⟨d', e, ⟨by rw [h1]; exact h.wf.rows, by rw [h2]; exact h.wf.cols,
      by rw [h3, h1, h2]; exact h.wf.len, by rw [h1, h2]; exact h.wf.fits⟩, by rw [h1, h.rows],
      by rw [h2, h.cols], fun a b ha hb => ?_⟩
    have := h4 a b (by rw [h.cols]; exact hb)
    rw [h.cols] at this
    rw [this]
    by_cases hai : a = i
    · rw [if_pos hai, if_pos hai]
      exact h.entry j b hj hb
    · rw [if_neg hai, if_neg hai]
      by_cases haj : a = j
      · rw [if_pos haj, if_pos haj]
        exact h.entry i b hi hb
      · rw [if_neg haj, if_neg haj]
        exact h.entry a b ha hb
  ext := by
    intro d f g h hfg
    exact ⟨h.wf, h.rows, h.cols, fun i j hi hj => by rw [h.entry i j hi hj, hfg i j hi hj]⟩

end Verif
