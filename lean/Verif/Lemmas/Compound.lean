import Verif.Props.Vector
import Verif.Props.Matrix
import Verif.Model.Complex

/-!
# Compound types over related component types

If two component types are related by `R`, and `R` is respected by the operators, then what the
models of the compound types compute with them is related, too.
-/

namespace Verif

/-- `R` is respected by zero, `+` and `*`. -/
structure SemiRel {α β : Type} [Zero α] [Add α] [Mul α] [Zero β] [Add β] [Mul β]
    (R : α → β → Prop) : Prop where
  zero : R 0 0
  add : ∀ {a b x y}, R a x → R b y → R (a + b) (x + y)
  mul : ∀ {a b x y}, R a x → R b y → R (a * b) (x * y)

variable {α β : Type}

theorem foldl_rel {R : α → β → Prop} [Add α] [Add β]
    (add : ∀ {a b x y}, R a x → R b y → R (a + b) (x + y)) {l : List α} {l' : List β}
    (h : List.Forall₂ R l l') {s : α} {s' : β} (hs : R s s') :
    R (l.foldl (fun a v => a + v) s) (l'.foldl (fun a v => a + v) s') := by
  induction h generalizing s s' with
  | nil => exact hs
  | cons h1 _ ih => exact ih (add hs h1)

theorem foldl_mul_rel {R : α → β → Prop} [Mul α] [Mul β]
    (mul : ∀ {a b x y}, R a x → R b y → R (a * b) (x * y)) {l : List α} {l' : List β}
    (h : List.Forall₂ R l l') {s : α} {s' : β} (hs : R s s') :
    R (l.foldl (fun a v => a * v) s) (l'.foldl (fun a v => a * v) s') := by
  induction h generalizing s s' with
  | nil => exact hs
  | cons h1 _ ih => exact ih (mul hs h1)

theorem zip_rel {R : α → β → Prop} [Mul α] [Mul β]
    (mul : ∀ {a b x y}, R a x → R b y → R (a * b) (x * y)) {a b : List α} {x y : List β}
    (ha : List.Forall₂ R a x) (hb : List.Forall₂ R b y) :
    List.Forall₂ R ((Vect.stdZip a b).map fun p => p.1 * p.2)
      ((Vect.stdZip x y).map fun p => p.1 * p.2) := by
  induction ha generalizing b y with
  | nil => cases hb <;> exact .nil
  | cons h1 _ ih =>
    cases hb with
    | nil => exact .nil
    | cons h2 hb => exact .cons (mul h1 h2) (ih hb)

variable [Zero α] [Add α] [Mul α] [Zero β] [Add β] [Mul β]

theorem SemiRel.dot {R : α → β → Prop} (h : SemiRel R) {a b : List α} {x y : List β}
    (ha : List.Forall₂ R a x) (hb : List.Forall₂ R b y) :
    R (Vect.dotProduct a b) (Vect.dotProduct x y) :=
  foldl_rel h.add (zip_rel h.mul ha hb) h.zero

/-- An entry of a product, written out. -/
def entry {R C D : Nat} (A : Matrix (Fin R) (Fin C) α) (B : Matrix (Fin C) (Fin D) α) (i j : Nat) : α :=
  forUp (C - 1) (fun k out => out + extend A i (k + 1) * extend B (k + 1) j)
    (extend A i 0 * extend B 0 j)

theorem mulEntry_fold {R C D : Nat} (f g : Nat → Nat → α) (hC : 0 < C) {i j : Nat} (hi : i < R)
    (hj : j < D) :
    Mat.mulEntry C (rowsOf R C f) (rowsOf C D g) i j =
      .ok (forUp (C - 1) (fun k out => out + f i (k + 1) * g (k + 1) j) (f i 0 * g 0 j)) := by
  have key : ∀ n, n + 1 ≤ C → forUpM n (fun k out =>
      (Mat.get (rowsOf R C f) i (k + 1)).bind fun x =>
        (Mat.get (rowsOf C D g) (k + 1) j).bind fun y => Res.ok (out + x * y))
      (f i 0 * g 0 j) =
      .ok (forUp n (fun k out => out + f i (k + 1) * g (k + 1) j) (f i 0 * g 0 j)) := by
    intro n
    induction n with
    | zero => intro _; rfl
    | succ n ih =>
      intro hn
      rw [forUpM, ih (by omega)]
      simp only [Res.bind]
      rw [mat_get f hi (by omega), mat_get g (by omega) hj]
      rfl
  unfold Mat.mulEntry
  rw [mat_get f hi hC, mat_get g hC hj]
  simp only [Res.bind] at key ⊢
  exact key (C - 1) (by omega)

theorem mul_fold {R C D : Nat} (hC : 0 < C) {a b : List (List α)} {A : Matrix (Fin R) (Fin C) α}
    {B : Matrix (Fin C) (Fin D) α} (ha : MatOf a A) (hb : MatOf b B) :
    ∃ c, Mat.mul R C D a b = .ok c ∧ MatOf c (fun (i : Fin R) (j : Fin D) => entry A B i j) := by
  refine ⟨rowsOf R D (entry A B), ?_, rowsOf_matOf R D _⟩
  rw [matOf_rowsOf ha, matOf_rowsOf hb]
  unfold Mat.mul
  rw [fromFnM_eq R _ (fun i => (List.range D).map fun j => entry A B i j)]
  · rfl
  · intro i hi
    exact fromFnM_eq D _ _ fun j hj => mulEntry_fold _ _ hC hi hj

theorem extend_rel {R : α → β → Prop} (h0 : R 0 0) {m n : Nat} {A : Matrix (Fin m) (Fin n) α}
    {A' : Matrix (Fin m) (Fin n) β} (h : ∀ i j, R (A i j) (A' i j)) (i j : Nat) :
    R (extend A i j) (extend A' i j) := by
  unfold extend
  split
  · exact h _ _
  · exact h0

theorem SemiRel.entry {R : α → β → Prop} (h : SemiRel R) {r c d : Nat}
    {A : Matrix (Fin r) (Fin c) α} {A' : Matrix (Fin r) (Fin c) β} {B : Matrix (Fin c) (Fin d) α}
    {B' : Matrix (Fin c) (Fin d) β} (hA : ∀ i j, R (A i j) (A' i j)) (hB : ∀ i j, R (B i j) (B' i j))
    (i j : Nat) : R (Verif.entry A B i j) (Verif.entry A' B' i j) := by
  unfold Verif.entry
  generalize c - 1 = n
  induction n with
  | zero => exact h.mul (extend_rel h.zero hA _ _) (extend_rel h.zero hB _ _)
  | succ n ih => exact h.add ih (h.mul (extend_rel h.zero hA _ _) (extend_rel h.zero hB _ _))

theorem entry_ring {K : Type} [Ring K] {r c d : Nat} (hc : 0 < c) (A : Matrix (Fin r) (Fin c) K)
    (B : Matrix (Fin c) (Fin d) K) (i : Fin r) (j : Fin d) : entry A B i j = (A * B) i j := by
  obtain ⟨p, h1, h2⟩ := C79_mul hc (a := rowsOf r c (extend A)) (b := rowsOf c d (extend B))
    (A := A) (B := B) (by have := rowsOf_matOf r c (extend A); simpa only [extend_apply] using this)
    (by have := rowsOf_matOf c d (extend B); simpa only [extend_apply] using this)
  obtain ⟨q, h3, h4⟩ := mul_fold hc (a := rowsOf r c (extend A)) (b := rowsOf c d (extend B))
    (A := A) (B := B) (by have := rowsOf_matOf r c (extend A); simpa only [extend_apply] using this)
    (by have := rowsOf_matOf c d (extend B); simpa only [extend_apply] using this)
  rw [h1] at h3
  cases h3
  exact (congrFun (congrFun (matOf_inj h4 h2) i) j)

/-- The identity matrix. -/
theorem matOf_one {α : Type} [Zero α] [One α] (C : Nat) :
    MatOf (Mat.one C C : List (List α)) fun i j : Fin C => if i = j then 1 else 0 := by
  have : (Mat.one C C : List (List α)) = rowsOf C C fun i j => if i = j then 1 else 0 := rfl
  rw [this]
  have e : (fun i j : Fin C => if i = j then (1 : α) else 0) =
      fun i j : Fin C => if (i : Nat) = j then 1 else 0 := by
    funext i j
    simp only [Fin.ext_iff]
  rw [e]
  exact rowsOf_matOf C C fun i j => if i = j then (1 : α) else 0

end Verif
