import Mathlib.Data.List.Forall2
import Verif.Model.Equality
import Verif.Props.PrimBytes
import Verif.Props.BigInt
import Verif.Model.Float

/-!
# C181: equality and hashing of vectors, matrices and complex numbers
-/

namespace Verif

variable {α : Type}

theorem sliceEqFrom_iff (eq : α → α → Bool) (a b : List α) (h : a.length = b.length) :
    sliceEqFrom eq a b = true ↔ List.Forall₂ (fun x y => eq x y = true) a b := by
  induction a generalizing b with
  | nil =>
    cases b with
    | nil => simp [sliceEqFrom]
    | cons y ys => simp at h
  | cons x xs ih =>
    cases b with
    | nil => simp at h
    | cons y ys =>
      rw [sliceEqFrom, List.forall₂_cons, ← ih ys (by simpa using h)]
      cases eq x y <;> simp

theorem sliceEq_iff (eq : α → α → Bool) (a b : List α) :
    sliceEq eq a b = true ↔ List.Forall₂ (fun x y => eq x y = true) a b := by
  unfold sliceEq
  split
  · rename_i h
    constructor
    · intro h2; cases h2
    · intro h2; exact absurd h2.length_eq h
  · rename_i h
    exact sliceEqFrom_iff eq a b (by simpa using h)

/-- C181: `==` holds exactly if it holds for all corresponding components; dynamic matrices must have the same
numbers of rows and columns as well. -/
theorem C181_componentwise (eq : α → α → Bool) :
    (∀ a b : List α, Vect.eq eq a b = true ↔
      a.length = b.length ∧ ∀ (i : Nat) (x y : α), a[i]? = some x → b[i]? = some y → eq x y = true) ∧
    (∀ a b : List (List α), Mat.eq eq a b = true ↔ a.length = b.length ∧
      ∀ (i : Nat) (r s : List α), a[i]? = some r → b[i]? = some s → r.length = s.length ∧
        ∀ (j : Nat) (x y : α), r[j]? = some x → s[j]? = some y → eq x y = true) ∧
    (∀ a b : DynMat α, DynMat.eq eq a b = true ↔ a.rows = b.rows ∧ a.cols = b.cols ∧
      a.data.length = b.data.length ∧
      ∀ (i : Nat) (x y : α), a.data[i]? = some x → b.data[i]? = some y → eq x y = true) ∧
    (∀ a b : Complex α, Complex.eq eq a b = true ↔ eq a.real b.real = true ∧ eq a.imag b.imag = true) := by
  have key : ∀ {β : Type} (eq : β → β → Bool) (a b : List β), sliceEq eq a b = true ↔
      a.length = b.length ∧ ∀ (i : Nat) (x y : β), a[i]? = some x → b[i]? = some y → eq x y = true := by
    intro β eq a b
    rw [sliceEq_iff, List.forall₂_iff_get]
    refine and_congr_right fun hl => ⟨fun h i x y hx hy => ?_, fun h i h1 h2 => ?_⟩
    · obtain ⟨h1, rfl⟩ := List.getElem?_eq_some_iff.mp hx
      obtain ⟨h2, rfl⟩ := List.getElem?_eq_some_iff.mp hy
      exact h i h1 h2
    · exact h i _ _ (List.getElem?_eq_getElem h1) (List.getElem?_eq_getElem h2)
  refine ⟨fun a b => key eq a b, fun a b => ?_, fun a b => ?_, fun a b => ?_⟩
  · unfold Mat.eq
    rw [key]
    simp only [key eq]
  · unfold DynMat.eq
    rw [Bool.and_eq_true, Bool.and_eq_true, key, beq_iff_eq, beq_iff_eq]
    constructor
    · rintro ⟨⟨⟨h1, h2⟩, h3⟩, h4⟩
      exact ⟨h3, h4, h1, h2⟩
    · rintro ⟨h3, h4, h1, h2⟩
      exact ⟨⟨⟨h1, h2⟩, h3⟩, h4⟩
  · unfold Complex.eq
    rw [Bool.and_eq_true]

/-- The laws of `Eq`. -/
def LawfulEq (eq : α → α → Bool) : Prop :=
  (∀ x, eq x x = true) ∧ (∀ x y, eq x y = true → eq y x = true) ∧
  (∀ x y z, eq x y = true → eq y z = true → eq x z = true)

theorem sliceEq_lawful {eq : α → α → Bool} (h : LawfulEq eq) : LawfulEq (sliceEq eq) := by
  obtain ⟨h1, h2, h3⟩ := h
  refine ⟨fun a => ?_, fun a b hab => ?_, fun a b c hab hbc => ?_⟩
  · rw [sliceEq_iff]
    exact List.forall₂_same.mpr fun x _ => h1 x
  · rw [sliceEq_iff] at hab ⊢
    exact (List.Forall₂.flip hab).imp fun x y hxy => h2 _ _ hxy
  · rw [sliceEq_iff] at hab hbc ⊢
    induction hab generalizing c with
    | nil => exact hbc
    | cons hxy _ ih =>
      cases hbc with
      | cons hyz hr => exact .cons (h3 _ _ _ hxy hyz) (ih _ hr)

/-- C181: if `==` of the components is an equivalence, so is that of the compounds. -/
theorem C181_lawful (eq : α → α → Bool) (h : LawfulEq eq) :
    LawfulEq (Vect.eq eq) ∧ LawfulEq (Mat.eq eq) ∧ LawfulEq (DynMat.eq eq) ∧ LawfulEq (Complex.eq eq) := by
  have hs := sliceEq_lawful h
  refine ⟨hs, sliceEq_lawful hs, ?_, ?_⟩
  · refine ⟨fun a => ?_, fun a b hab => ?_, fun a b c hab hbc => ?_⟩ <;>
      simp only [DynMat.eq, Bool.and_eq_true, beq_iff_eq] at *
    · exact ⟨⟨hs.1 _, trivial⟩, trivial⟩
    · exact ⟨⟨hs.2.1 _ _ hab.1.1, hab.1.2.symm⟩, hab.2.symm⟩
    · exact ⟨⟨hs.2.2 _ _ _ hab.1.1 hbc.1.1, hab.1.2.trans hbc.1.2⟩, hab.2.trans hbc.2⟩
  · refine ⟨fun a => ?_, fun a b hab => ?_, fun a b c hab hbc => ?_⟩ <;>
      simp only [Complex.eq, Bool.and_eq_true] at *
    · exact ⟨h.1 _, h.1 _⟩
    · exact ⟨h.2.1 _ _ hab.1, h.2.1 _ _ hab.2⟩
    · exact ⟨h.2.2 _ _ _ hab.1 hbc.1, h.2.2 _ _ _ hab.2 hbc.2⟩

example := C181_lawful (fun x y : Int => decide (x = y)) ⟨by simp, by simp [eq_comm], by simp⟩

theorem forall2_map {β : Type} (rel : α → α → Prop) (f : α → β) (a b : List α)
    (h : ∀ x ∈ a, ∀ y ∈ b, (rel x y ↔ f x = f y)) : List.Forall₂ rel a b ↔ a.map f = b.map f := by
  induction a generalizing b with
  | nil => cases b <;> simp
  | cons x xs ih =>
    cases b with
    | nil => simp
    | cons y ys =>
      rw [List.forall₂_cons, List.map_cons, List.map_cons, List.cons.injEq,
        ih ys (fun x hx y hy => h x (by simp [hx]) y (by simp [hy])), h x (by simp) y (by simp)]

/-- C181 for components that `==` compares by value, as primitive integers, `U<N>`, `I<N>`, fixed-point numbers
and canonical `BigInt`s are: equal compounds are those of equal values. -/
theorem C181_values {β : Type} (eq : α → α → Bool) (ok : α → Prop) (value : α → β)
    (heq : ∀ x y, ok x → ok y → (eq x y = true ↔ value x = value y)) :
    (∀ a b : List α, (∀ x ∈ a, ok x) → (∀ x ∈ b, ok x) → (Vect.eq eq a b = true ↔ a.map value = b.map value)) ∧
    (∀ a b : List (List α), (∀ r ∈ a, ∀ x ∈ r, ok x) → (∀ r ∈ b, ∀ x ∈ r, ok x) →
      (Mat.eq eq a b = true ↔ a.map (List.map value) = b.map (List.map value))) := by
  have hv : ∀ a b : List α, (∀ x ∈ a, ok x) → (∀ x ∈ b, ok x) →
      (sliceEq eq a b = true ↔ a.map value = b.map value) := by
    intro a b ha hb
    rw [sliceEq_iff, forall2_map _ value a b fun x hx y hy => heq x y (ha x hx) (hb y hy)]
  refine ⟨hv, fun a b ha hb => ?_⟩
  unfold Mat.eq
  rw [sliceEq_iff, forall2_map _ (List.map value) a b fun x hx y hy => hv x y (ha x hx) (hb y hy)]

/-- … in particular canonical `BigInt`s … -/
theorem C181_big_int (a b : List (List BInt)) (ha : ∀ r ∈ a, ∀ x ∈ r, BInt.Canon x)
    (hb : ∀ r ∈ b, ∀ x ∈ r, BInt.Canon x) :
    Mat.eq BInt.eq a b = true ↔ a.map (List.map BInt.ival) = b.map (List.map BInt.ival) :=
  (C181_values BInt.eq BInt.Canon BInt.ival
    (fun x y hx hy => (C46_eq_partial x y hx.1 hy.1).2 hx hy)).2 a b ha hb

/-- … and with floats a vector is equal to itself exactly if none of its components is NaN. -/
theorem C181_floats {f : FloatFmt} (a : List (Flt f)) : Vect.eq Flt.eqB a a = true ↔ Flt.nan ∉ a := by
  unfold Vect.eq
  rw [sliceEq_iff, List.forall₂_same]
  constructor
  · intro h hn
    have := h _ hn
    cases this
  · intro h x hx
    cases x with
    | nan => exact absurd hx h
    | inf s => simp [Flt.eqB]
    | fin q => simp [Flt.eqB]

theorem flatMap_inj_len {β : Type} (g : α → List β) (n : Nat) (hn : ∀ x, (g x).length = n)
    (hg : ∀ x y, g x = g y → x = y) (a b : List α) (hl : a.length = b.length) (h : a.flatMap g = b.flatMap g) :
    a = b := by
  induction a generalizing b with
  | nil => exact (List.length_eq_zero_iff.mp hl.symm).symm
  | cons x xs ih =>
    cases b with
    | nil => simp at hl
    | cons y ys =>
      rw [List.flatMap_cons, List.flatMap_cons] at h
      obtain ⟨h1, h2⟩ := List.append_inj h (by rw [hn, hn])
      rw [hg x y h1, ih ys (by simpa using hl) h2]

/-- C181, hashing: if equal components hand the same to the hasher, so do equal vectors; and vectors of primitive
integers hand the same to the hasher exactly if they are equal (vectors of one type have one length). -/
theorem C181_hash (P : Nat) :
    (∀ (eq : α → α → Bool) (h : α → List Bytes), (∀ x y, eq x y = true → h x = h y) →
      ∀ a b, Vect.eq eq a b = true → Vect.hash P h a = Vect.hash P h b) ∧
    (∀ (little : Bool) (size : Nat) (a b : List (BitVec (8 * size))), a.length = b.length →
      (Vect.hashPrim P little size a = Vect.hashPrim P little size b ↔
        Vect.eq (fun x y => decide (x = y)) a b = true)) := by
  constructor
  · intro eq h hh a b hab
    unfold Vect.eq at hab
    rw [sliceEq_iff] at hab
    unfold Vect.hash
    rw [hab.length_eq]
    congr 1
    induction hab with
    | nil => rfl
    | cons hxy _ ih => rw [List.flatMap_cons, List.flatMap_cons, hh _ _ hxy, ih]
  · intro little size a b hl
    have heq : Vect.eq (fun x y => decide (x = y)) a b = true ↔ a = b := by
      unfold Vect.eq
      rw [sliceEq_iff]
      simp only [decide_eq_true_eq, List.forall₂_eq_eq_eq]
    rw [heq]
    constructor
    · intro h
      unfold Vect.hashPrim at h
      simp only [List.cons.injEq, and_true] at h
      refine flatMap_inj_len (Prim.toNeBytes little size) size (fun x => ?_) (fun x y hxy => ?_) a b hl h.2
      · obtain ⟨h1, _, h3, _, h5⟩ := C120_digits size x little
        rw [h5]
        split
        · exact h1
        · rw [h3, List.length_reverse, h1]
      · have h1 := ((C120_round_trip size little).1 x).2.2
        have h2 := ((C120_round_trip size little).1 y).2.2
        rw [← h1, hxy, h2]
    · rintro rfl
      rfl

/-- Matrices with the same entries but different shapes differ; so do vectors with a different component at the
end; and a vector with a NaN differs from itself. -/
example :
    DynMat.eq (fun x y : Int => decide (x = y)) ⟨[1, 2, 3, 4], 2, 2⟩ ⟨[1, 2, 3, 4], 1, 4⟩ = false ∧
    DynMat.eq (fun x y : Int => decide (x = y)) ⟨[1, 2, 3, 4], 2, 2⟩ ⟨[1, 2, 3, 4], 2, 2⟩ = true ∧
    Vect.eq (fun x y : Int => decide (x = y)) [1, 2, 3] [1, 2, 4] = false ∧
    Vect.eq Flt.eqB [(.fin 1 : Flt .f64), .nan] [.fin 1, .nan] = false ∧
    Complex.eq (fun x y : Int => decide (x = y)) ⟨1, 2⟩ ⟨1, 2⟩ = true := by decide +kernel

/-- The hypotheses of `C181_big_int` are met: one matrix, its entries stored apart. -/
example : BInt.Canon ⟨true, .inline 7⟩ ∧ Mat.eq BInt.eq [[⟨true, .inline 7⟩]] [[⟨true, .inline 7⟩]] = true ∧
    Mat.eq BInt.eq [[⟨true, .inline 7⟩]] [[⟨false, .inline 7⟩]] = false := by decide +kernel

end Verif
