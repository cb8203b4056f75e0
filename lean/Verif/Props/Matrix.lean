import Verif.Lemmas.Matrix
import Mathlib.Data.Rat.Floor

/-!
# C79–C83: matrices
-/

namespace Verif

open StaticIter

variable {α : Type}

/-! ## C79: matrix algebra -/

theorem rowsOp_spec (f : α → α → α) {R C : Nat} {a b : List (List α)}
    {A B : Matrix (Fin R) (Fin C) α} (ha : MatOf a A) (hb : MatOf b B) :
    ∃ s, Mat.rowsOp f R C a b = some s ∧ MatOf s (fun i j => f (A i j) (B i j)) := by
  have hla := matOf_length ha
  have hlb := matOf_length hb
  have h := C85_zip_map a b (by rw [hla.1, hlb.1]) (Vect.opVec f C)
  rw [hla.1] at h
  refine ⟨List.zipWith (List.zipWith f) a b, ?_, ?_⟩
  · unfold Mat.rowsOp
    have h' : collectArray R (map (zip (intoIter a) (intoIter b)) fun p w =>
        (Vect.opVec f C p.1 p.2, w)) () = some (List.zipWith (Vect.opVec f C) a b, ()) := h
    rw [h', Option.bind_some, Vect.mapM_id_some]
    apply List.ext_getElem?
    intro i
    rw [List.getElem?_zipWith, List.getElem?_map, List.getElem?_zipWith]
    by_cases hi : i < R
    · rw [List.getElem?_eq_getElem (by omega : i < a.length),
        List.getElem?_eq_getElem (by omega : i < b.length)]
      simp only [Option.map_some]
      congr 1
      exact Vect.opVec_eq f (hla.2 _ (List.getElem_mem _)) (hlb.2 _ (List.getElem_mem _))
    · rw [List.getElem?_eq_none (by omega : a.length ≤ i)]
      rfl
  · unfold MatOf at ha hb ⊢
    rw [ha, hb, Vect.zipWith_ofFn]
    congr 1
    funext i
    exact Vect.zipWith_ofFn _ _ _

theorem zipAll_spec {R C : Nat} {a : List (List α)} {A : Matrix (Fin R) (Fin C) α} (ha : MatOf a A) :
    ∃ t, collectArray C (zipAll (a.map intoIter)) () = some (t, ()) ∧ MatOf t A.transpose := by
  have hla := matOf_length ha
  obtain ⟨cols, e, hl, hc⟩ := C85_zip_all C a hla.2
  refine ⟨cols, e, ?_⟩
  unfold MatOf
  apply List.ext_getElem?
  intro i
  by_cases hi : i < C
  · obtain ⟨c, e1, hcl, hk⟩ := hc i hi
    rw [e1, List.getElem?_ofFn, dif_pos hi]
    congr 1
    apply List.ext_getElem?
    intro k
    by_cases hkR : k < R
    · have hr : a[k]? = some (List.ofFn fun j => A ⟨k, hkR⟩ j) := by
        unfold MatOf at ha
        rw [ha, List.getElem?_ofFn, dif_pos hkR]
      rw [hk k _ hr, List.getElem?_ofFn, List.getElem?_ofFn, dif_pos hi, dif_pos hkR]
      rfl
    · rw [List.getElem?_eq_none (by omega), List.getElem?_eq_none (by simp; omega)]
  · rw [List.getElem?_eq_none (by omega), List.getElem?_eq_none (by simp; omega)]

section semiring

variable [Ring α]

/-- C79: `+`, `-`, `transpose`, `from_rows`, `from_columns` are the matrix operations. The two
constructors take the lists of row and column vectors. -/
theorem C79_ops {R C : Nat} {a b : List (List α)} {A B : Matrix (Fin R) (Fin C) α} (ha : MatOf a A)
    (hb : MatOf b B) :
    (∃ s, Mat.add R C a b = some s ∧ MatOf s (A + B)) ∧
    (∃ s, Mat.sub R C a b = some s ∧ MatOf s (A - B)) ∧
    (∃ t, Mat.transpose C a = some t ∧ MatOf t A.transpose) ∧
    Mat.fromRows R a = some a ∧
    (∃ t, Mat.fromColumns C a = some t ∧ MatOf t A.transpose) := by
  refine ⟨rowsOp_spec (· + ·) ha hb, rowsOp_spec (· - ·) ha hb, ?_, ?_, ?_⟩
  · obtain ⟨t, e, ht⟩ := zipAll_spec ha
    exact ⟨t, by unfold Mat.transpose; rw [e]; rfl, ht⟩
  · have hs : (Pipe.map (.array a) fun v w => (v, w) : Pipe Unit (List α)).Sized R :=
      (matOf_length ha).1
    obtain ⟨o, e, ho, hi⟩ := C85_pointwise R _ hs
    have : Mat.fromRows R a = some o := congrArg (Option.map Prod.fst) e
    rw [this]
    congr 1
    apply List.ext_getElem?
    intro i
    by_cases h : i < R
    · rw [hi i h]
      simp only [Pipe.elem]
      rw [List.getElem?_eq_getElem (by rw [(matOf_length ha).1]; exact h)]; rfl
    · rw [List.getElem?_eq_none (by omega), List.getElem?_eq_none (by
        rw [(matOf_length ha).1]; omega)]
  · obtain ⟨t, e, ht⟩ := zipAll_spec ha
    exact ⟨t, by unfold Mat.fromColumns; rw [e]; rfl, ht⟩

example := C79_ops (a := [[1, 2], [3, 4]]) (b := [[0, 5], [-1, (2 : Int)]]) (A := !![1, 2; 3, 4]) (B := !![0, 5; -1, 2])
  (by simp [MatOf]) (by simp [MatOf])

theorem mulEntry_spec {R C C2 : Nat} (f g : Nat → Nat → α) (hC : 0 < C) {i j : Nat} (hi : i < R)
    (hj : j < C2) :
    Mat.mulEntry C (rowsOf R C f) (rowsOf C C2 g) i j =
      .ok (∑ k ∈ Finset.range C, f i k * g k j) := by
  have key : ∀ n, n + 1 ≤ C → forUpM n (fun k out =>
      (Mat.get (rowsOf R C f) i (k + 1)).bind fun x =>
        (Mat.get (rowsOf C C2 g) (k + 1) j).bind fun y => Res.ok (out + x * y))
      (f i 0 * g 0 j) = .ok (∑ k ∈ Finset.range (n + 1), f i k * g k j) := by
    intro n
    induction n with
    | zero => intro _; simp [forUpM]
    | succ n ih =>
      intro hn
      rw [forUpM, ih (by omega)]
      simp only [Res.bind]
      rw [mat_get f hi (by omega), mat_get g (by omega) hj]
      simp only
      rw [← Finset.sum_range_succ (fun k => f i k * g k j) (n + 1)]
  unfold Mat.mulEntry
  rw [mat_get f hi hC, mat_get g hC hj]
  simp only [Res.bind] at key ⊢
  have := key (C - 1) (by omega)
  rw [show C - 1 + 1 = C by omega] at this
  exact this

/-- C79: `*` is the matrix product. -/
theorem C79_mul {R C C2 : Nat} (hC : 0 < C) {a b : List (List α)} {A : Matrix (Fin R) (Fin C) α}
    {B : Matrix (Fin C) (Fin C2) α} (ha : MatOf a A) (hb : MatOf b B) :
    ∃ p, Mat.mul R C C2 a b = .ok p ∧ MatOf p (A * B) := by
  rw [matOf_rowsOf ha, matOf_rowsOf hb]
  refine ⟨rowsOf R C2 (fun i j => ∑ k ∈ Finset.range C, extend A i k * extend B k j), ?_, ?_⟩
  · unfold Mat.mul
    rw [fromFnM_eq R _ (fun i => (List.range C2).map fun j =>
      ∑ k ∈ Finset.range C, extend A i k * extend B k j)]
    · rfl
    · intro i hi
      exact fromFnM_eq C2 _ _ fun j hj => mulEntry_spec _ _ hC hi hj
  · have := rowsOf_matOf R C2 (fun i j => ∑ k ∈ Finset.range C, extend A i k * extend B k j)
    have e : A * B = fun (i : Fin R) (j : Fin C2) =>
        ∑ k ∈ Finset.range C, extend A i k * extend B k j := by
      funext i j
      rw [Matrix.mul_apply, Finset.sum_range]
      exact Finset.sum_congr rfl fun k _ => by rw [extend_apply, extend_apply]
    rw [e]
    exact this

example := C79_mul (C := 2) (by decide) (a := [[1, 2]]) (b := [[0], [(2 : Int)]]) (A := !![1, 2]) (B := !![0; 2])
  rfl rfl

/-- C79: `zero()` and `one()` are the zero matrix and the identity matrix. -/
theorem C79_identities (R C : Nat) :
    MatOf (Mat.zero R C) (0 : Matrix (Fin R) (Fin C) α) ∧
    MatOf (Mat.one R R) (1 : Matrix (Fin R) (Fin R) α) := by
  constructor
  · exact rowsOf_matOf R C fun _ _ => (0 : α)
  · have := rowsOf_matOf R R fun i j => if i = j then (1 : α) else 0
    have e : (1 : Matrix (Fin R) (Fin R) α) =
        fun (i j : Fin R) => if (i : Nat) = j then (1 : α) else 0 := by
      funext i j
      rw [Matrix.one_apply]
      simp only [Fin.ext_iff]
    rw [e]
    exact this

/-- C79: multiplication is associative. -/
theorem C79_mul_assoc {R C D E : Nat} (hC : 0 < C) (hD : 0 < D) {a b c : List (List α)}
    {A : Matrix (Fin R) (Fin C) α} {B : Matrix (Fin C) (Fin D) α} {X : Matrix (Fin D) (Fin E) α}
    (ha : MatOf a A) (hb : MatOf b B) (hc : MatOf c X) :
    ∃ ab bc abc, Mat.mul R C D a b = .ok ab ∧ Mat.mul C D E b c = .ok bc ∧
      Mat.mul R D E ab c = .ok abc ∧ Mat.mul R C E a bc = .ok abc := by
  obtain ⟨ab, e1, h1⟩ := C79_mul hC ha hb
  obtain ⟨bc, e2, h2⟩ := C79_mul hD hb hc
  obtain ⟨x, e3, h3⟩ := C79_mul hD h1 hc
  obtain ⟨y, e4, h4⟩ := C79_mul hC ha h2
  refine ⟨ab, bc, x, e1, e2, e3, ?_⟩
  rw [e4]
  unfold MatOf at h3 h4
  rw [h3, h4, Matrix.mul_assoc]

example := C79_mul_assoc (C := 2) (D := 1) (by decide) (by decide) (a := [[1, 2]]) (b := [[0], [(2 : Int)]])
  (c := [[3, 4]]) (A := !![1, 2]) (B := !![0; 2]) (X := !![3, 4]) rfl rfl rfl

/-- C79: distributivity, neutral and absorbing elements. -/
theorem C79_mul_laws {R C D : Nat} (hC : 0 < C) {a b c : List (List α)}
    {A : Matrix (Fin R) (Fin C) α} {B X : Matrix (Fin C) (Fin D) α}
    (ha : MatOf a A) (hb : MatOf b B) (hc : MatOf c X) :
    (∃ bc ab ac p, Mat.add C D b c = some bc ∧ Mat.mul R C D a b = .ok ab ∧
      Mat.mul R C D a c = .ok ac ∧ Mat.add R D ab ac = some p ∧ Mat.mul R C D a bc = .ok p) ∧
    Mat.mul R C C a (Mat.one C C) = .ok a ∧
    (0 < R → Mat.mul R R C (Mat.one R R) a = .ok a) ∧
    Mat.mul R C D a (Mat.zero C D) = .ok (Mat.zero R D) ∧
    Mat.mul R C D (Mat.zero R C) b = .ok (Mat.zero R D) := by
  refine ⟨?_, ?_, fun hR => ?_, ?_, ?_⟩
  · obtain ⟨bc, e1, h1⟩ := (C79_ops hb hc).1
    obtain ⟨ab, e2, h2⟩ := C79_mul hC ha hb
    obtain ⟨ac, e3, h3⟩ := C79_mul hC ha hc
    obtain ⟨p, e4, h4⟩ := (C79_ops h2 h3).1
    obtain ⟨q, e5, h5⟩ := C79_mul hC ha h1
    refine ⟨bc, ab, ac, p, e1, e2, e3, e4, ?_⟩
    rw [e5]
    unfold MatOf at h4 h5
    rw [h4, h5, Matrix.mul_add]
  · obtain ⟨p, e, h⟩ := C79_mul hC ha (C79_identities C C).2
    rw [e]
    unfold MatOf at h ha
    rw [h, Matrix.mul_one, ← ha]
  · obtain ⟨p, e, h⟩ := C79_mul hR (C79_identities R R).2 ha
    rw [e]
    unfold MatOf at h ha
    rw [h, Matrix.one_mul, ← ha]
  · obtain ⟨p, e, h⟩ := C79_mul hC ha (C79_identities C D).1
    rw [e]
    have hz := (C79_identities (α := α) R D).1
    unfold MatOf at h hz
    rw [h, hz, Matrix.mul_zero]
  · obtain ⟨p, e, h⟩ := C79_mul hC (C79_identities R C).1 hb
    rw [e]
    have hz := (C79_identities (α := α) R D).1
    unfold MatOf at h hz
    rw [h, hz, Matrix.zero_mul]

example := C79_mul_laws (C := 2) (by decide) (a := [[1, 2]]) (b := [[0], [(2 : Int)]])
  (c := [[3], [4]]) (A := !![1, 2]) (B := !![0; 2]) (X := !![3; 4]) rfl rfl rfl

/-- C79: distributivity from the right. -/
theorem C79_add_mul {R C D : Nat} (hC : 0 < C) {a b c : List (List α)}
    {A B : Matrix (Fin R) (Fin C) α} {X : Matrix (Fin C) (Fin D) α}
    (ha : MatOf a A) (hb : MatOf b B) (hc : MatOf c X) :
    ∃ ab ac bc p, Mat.add R C a b = some ab ∧ Mat.mul R C D a c = .ok ac ∧
      Mat.mul R C D b c = .ok bc ∧ Mat.add R D ac bc = some p ∧ Mat.mul R C D ab c = .ok p := by
  obtain ⟨ab, e1, h1⟩ := (C79_ops ha hb).1
  obtain ⟨ac, e2, h2⟩ := C79_mul hC ha hc
  obtain ⟨bc, e3, h3⟩ := C79_mul hC hb hc
  obtain ⟨p, e4, h4⟩ := (C79_ops h2 h3).1
  obtain ⟨q, e5, h5⟩ := C79_mul hC h1 hc
  refine ⟨ab, ac, bc, p, e1, e2, e3, e4, ?_⟩
  rw [e5]
  unfold MatOf at h4 h5
  rw [h4, h5, Matrix.add_mul]

end semiring

section commutative

variable [CommRing α]

/-- C79: transposing twice gives the matrix back, and a product is transposed by transposing and
exchanging its factors; `from_columns` is the transpose of `from_rows`. -/
theorem C79_transpose {R C D : Nat} (hC : 0 < C) {a b : List (List α)}
    {A : Matrix (Fin R) (Fin C) α} {B : Matrix (Fin C) (Fin D) α} (ha : MatOf a A)
    (hb : MatOf b B) :
    (∃ t, Mat.transpose C a = some t ∧ Mat.transpose R t = some a) ∧
    (∃ at' bt ab p, Mat.transpose C a = some at' ∧ Mat.transpose D b = some bt ∧
      Mat.mul R C D a b = .ok ab ∧ Mat.transpose D ab = some p ∧ Mat.mul D C R bt at' = .ok p) ∧
    (∃ m t, Mat.fromRows R a = some m ∧ Mat.fromColumns C a = some t ∧
      Mat.transpose C m = some t) := by
  obtain ⟨t, e1, h1⟩ := (C79_ops ha ha).2.2.1
  obtain ⟨u, e2, h2⟩ := (C79_ops h1 h1).2.2.1
  refine ⟨⟨t, e1, ?_⟩, ?_, ?_⟩
  · rw [e2]
    unfold MatOf at h2 ha
    rw [h2, Matrix.transpose_transpose, ← ha]
  · obtain ⟨bt, e3, h3⟩ := (C79_ops hb hb).2.2.1
    obtain ⟨ab, e4, h4⟩ := C79_mul hC ha hb
    obtain ⟨p, e5, h5⟩ := (C79_ops h4 h4).2.2.1
    obtain ⟨q, e6, h6⟩ := C79_mul hC h3 h1
    refine ⟨t, bt, ab, p, e1, e3, e4, e5, ?_⟩
    rw [e6]
    unfold MatOf at h5 h6
    rw [h5, h6, Matrix.transpose_mul]
  · obtain ⟨t', e3, h3⟩ := (C79_ops ha ha).2.2.2.2
    refine ⟨a, t', (C79_ops ha ha).2.2.2.1, e3, ?_⟩
    rw [e1]
    unfold MatOf at h1 h3
    rw [h1, h3]

end commutative

/-- Without columns there is no first product, and the multiplication panics. -/
theorem C79_mul_empty {R D : Nat} (hR : 0 < R) (hD : 0 < D) [Ring α] (a b : List (List α))
    (A : Matrix (Fin R) (Fin 0) α) (ha : MatOf a A) : Mat.mul R 0 D a b = .panic := by
  have hg : Mat.get a 0 0 = .panic := by
    unfold Mat.get
    have : a[0]? = some [] := by
      unfold MatOf at ha
      rw [ha, List.getElem?_ofFn, dif_pos hR]
      simp
    rw [this]
    rfl
  have h1 : ∀ {β : Type} (n : Nat) (g : Nat → Res β), 0 < n → g 0 = .panic →
      fromFnM n g = .panic := by
    intro β n g hn hg
    unfold fromFnM
    induction n with
    | zero => omega
    | succ n ih =>
      rw [forUpM]
      by_cases hn0 : n = 0
      · subst hn0
        simp only [forUpM, Res.bind]
        rw [hg]
      · rw [ih (by omega)]; rfl
  unfold Mat.mul
  apply h1 R _ hR
  apply h1 D _ hD
  unfold Mat.mulEntry
  rw [hg]
  rfl

theorem all_true_iff {β : Type} {N : Nat} (p : Pipe Bool β) (h : p.Sized N) (v : Nat → β)
    (hv : ∀ i w, i < N → p.elem i w = some (v i, w)) (g : Nat → Bool) (f : β → Option Bool)
    (hf : ∀ i, i < N → f (v i) = some (g i)) :
    ∃ b, all N p.iter (fun r w => Mat.inner (f r) w) true = some (b, true) ∧
      (b = true ↔ ∀ i, i < N → g i = true) := by
  rw [all_spec h]
  have key : ∀ n k, k + n = N → ∃ b, runAny p.elem
      (fun a w => (!(Mat.inner (f a) w).1, (Mat.inner (f a) w).2)) (List.range' k n) true =
      some (b, true) ∧ (b = false ↔ ∀ i, k ≤ i → i < N → g i = true) := by
    intro n
    induction n with
    | zero =>
      intro k hk
      exact ⟨false, rfl, by simp; intro i h1 h2; omega⟩
    | succ n ih =>
      intro k hk
      obtain ⟨b, e, hb⟩ := ih (k + 1) (by omega)
      rw [List.range'_succ, runAny, hv k true (by omega), Option.bind_some]
      have h1 : Mat.inner (f (v k)) true = (g k, true) := by rw [hf k (by omega)]; rfl
      rw [h1]
      cases hg : g k with
      | false =>
        refine ⟨true, rfl, ?_⟩
        simp only [Bool.true_eq_false, false_iff]
        intro hh
        have := hh k (le_refl _) (by omega)
        rw [hg] at this
        simp at this
      | true =>
        refine ⟨b, e, hb.trans ?_⟩
        constructor
        · intro hh i h1 h2
          rcases Nat.eq_or_lt_of_le h1 with rfl | h1
          · exact hg
          · exact hh i h1 h2
        · exact fun hh i h1 h2 => hh i (by omega) h2
  obtain ⟨b, e, hb⟩ := key N 0 (by omega)
  rw [List.range_eq_range', e]
  refine ⟨!b, rfl, ?_⟩
  rw [Bool.not_eq_true', hb]
  exact ⟨fun hh i hi => hh i (Nat.zero_le _) hi, fun hh i _ hi => hh i hi⟩

/-- C79: `is_zero` recognises the zero matrix, `is_one` the matrix with ones on the diagonal and zeros
elsewhere. -/
theorem C79_is_zero_one {R C : Nat} [Ring α] [DecidableEq α] {a : List (List α)}
    {A : Matrix (Fin R) (Fin C) α} (ha : MatOf a A) :
    (∃ b, Mat.isZero R C a = some b ∧ (b = true ↔ A = 0)) ∧
    (∃ b, Mat.isOne R C a = some b ∧
      (b = true ↔ ∀ i j, A i j = if (i : Nat) = j then 1 else 0)) := by
  have hl := matOf_length ha
  have hrow : ∀ i (hi : i < R), a[i]? = some (List.ofFn fun j => A ⟨i, hi⟩ j) := by
    intro i hi
    unfold MatOf at ha
    rw [ha, List.getElem?_ofFn, dif_pos hi]
  have hrow2 : ∀ i, i < R → a[i]? = some (a.getD i []) := by
    intro i hi
    rw [List.getD_eq_getElem?_getD, hrow i hi]
    rfl
  have hval : ∀ i (hi : i < R), a.getD i [] = List.ofFn fun j => A ⟨i, hi⟩ j := by
    intro i hi
    rw [List.getD_eq_getElem?_getD, hrow i hi]
    rfl
  constructor
  · unfold Mat.isZero
    obtain ⟨b, h, hb⟩ := all_true_iff (N := R) (Pipe.ref a : Pipe Bool (List α)) hl.1
      (fun i => a.getD i []) (fun i w hi => by simp only [Pipe.elem]; rw [hrow2 i hi]; rfl)
      (fun i => decide (∀ x ∈ a.getD i [], x = 0)) (Vect.isZero C)
      (fun i hi => by
        have := (Vect.C77_others C (a.getD i []) (by rw [hval i hi]; simp) 0).2.2.2.2.1
        exact this)
    rw [show (Pipe.ref a : Pipe Bool (List α)).iter = refIter a from rfl] at h
    rw [h]
    refine ⟨b, rfl, hb.trans ?_⟩
    constructor
    · intro hh
      funext i j
      have := hh i i.isLt
      rw [decide_eq_true_iff, hval i i.isLt] at this
      exact this (A i j) (by simp [List.mem_ofFn])
    · intro hh i hi
      rw [decide_eq_true_iff, hval i hi, hh]
      intro x hx
      simp only [List.mem_ofFn] at hx
      obtain ⟨j, rfl⟩ := hx
      rfl
  · unfold Mat.isOne
    have hrowOne : ∀ i (hi : i < R), ∃ b, Mat.isOneRow C i (a.getD i []) = some b ∧
        (b = true ↔ ∀ j : Fin C, A ⟨i, hi⟩ j = if i = (j : Nat) then 1 else 0) := by
      intro i hi
      rw [hval i hi]
      unfold Mat.isOneRow
      have hs : (Pipe.enumerate (.ref (List.ofFn fun j => A ⟨i, hi⟩ j)) :
          Pipe Unit (Nat × α)).Sized C := by simp [Pipe.Sized]
      obtain ⟨l, e, _, h2⟩ := C85_any_all_pure C _ hs
        (fun p => if i = p.1 then decide (p.2 = 1) else decide (p.2 = 0))
      obtain ⟨l2, e2, hl2, hp2⟩ := C85_pointwise C _ hs
      rw [e] at e2
      simp only [Option.some.injEq, Prod.mk.injEq, and_true] at e2
      subst e2
      have h3 := congrArg (Option.map Prod.fst) h2
      rw [show (Pipe.enumerate (.ref (List.ofFn fun j => A ⟨i, hi⟩ j)) :
          Pipe Unit (Nat × α)).iter = enumerate (refIter (List.ofFn fun j => A ⟨i, hi⟩ j)) from rfl]
        at h3
      refine ⟨_, h3, ?_⟩
      rw [List.all_eq_true]
      have hlj : ∀ j (hj : j < C), l[j]? = some (j, A ⟨i, hi⟩ ⟨j, hj⟩) := by
        intro j hj
        rw [hp2 j hj]
        simp [Pipe.elem, hj]
      constructor
      · intro hh j
        have := hh ((j : Nat), A ⟨i, hi⟩ j) (List.mem_iff_getElem?.mpr ⟨j, hlj j j.isLt⟩)
        simp only at this
        split at this
        · rename_i hij
          rw [if_pos hij]
          exact decide_eq_true_iff.mp this
        · rename_i hij
          rw [if_neg hij]
          exact decide_eq_true_iff.mp this
      · intro hh p hp
        obtain ⟨j, hj⟩ := List.mem_iff_getElem?.mp hp
        have hjC : j < C := by
          by_contra hn
          rw [List.getElem?_eq_none (by omega)] at hj
          simp at hj
        rw [hlj j hjC] at hj
        simp only [Option.some.injEq] at hj
        subst hj
        have := hh ⟨j, hjC⟩
        simp only at this ⊢
        split
        · rename_i hij
          rw [if_pos hij] at this
          exact decide_eq_true_iff.mpr this
        · rename_i hij
          rw [if_neg hij] at this
          exact decide_eq_true_iff.mpr this
    obtain ⟨b, h, hb⟩ := all_true_iff (N := R)
      (Pipe.enumerate (.ref a) : Pipe Bool (Nat × List α)) hl.1 (fun i => (i, a.getD i []))
      (fun i w hi => by simp only [Pipe.elem]; rw [hrow2 i hi]; rfl)
      (fun i => Mat.isOneRow C i (a.getD i []) == some true) (fun p => Mat.isOneRow C p.1 p.2)
      (fun i hi => by
        obtain ⟨b, e, _⟩ := hrowOne i hi
        simp only
        rw [e]
        simp)
    rw [show (Pipe.enumerate (.ref a) : Pipe Bool (Nat × List α)).iter = enumerate (refIter a)
      from rfl] at h
    rw [h]
    refine ⟨b, rfl, hb.trans ?_⟩
    constructor
    · intro hh i
      have := hh i i.isLt
      obtain ⟨b, e, hb⟩ := hrowOne i i.isLt
      rw [e] at this
      exact hb.mp (by simpa using this)
    · intro hh i hi
      obtain ⟨b, e, hb⟩ := hrowOne i hi
      rw [e]
      simpa using hb.mpr (hh ⟨i, hi⟩)

/-- A concrete case. -/
example : MatOf [[1, 2], [3, (4 : Int)]] !![1, 2; 3, 4] ∧
    Mat.mul 2 2 2 [[1, 2], [3, 4]] [[5, 6], [7, (8 : Int)]] = .ok [[19, 22], [43, 50]] ∧
    Mat.transpose 3 [[1, 2, 3], [4, 5, (6 : Int)]] = some [[1, 4], [2, 5], [3, 6]] := by
  refine ⟨?_, by decide, by decide⟩
  simp [MatOf]

/-! ## C80: the determinant -/

variable {K : Type} [Field K] [LinearOrder K]

theorem gaussElim_square {N : Nat} {m : List (List K)} {A : Matrix (Fin N) (Fin N) K}
    (h : MatOf m A) :
    ∃ f factor row, Mat.gaussElim N N m = .ok (rowsOf N N f, factor) ∧
      Gauss.Inv N N (extend A) f N row factor := by
  obtain ⟨m', f, factor, row, e, hm', hi⟩ := Gauss.gaussElim_spec (mat_good N N) (matOf_rowsOf h)
  exact ⟨f, factor, row, by rw [← hm']; exact e, hi⟩

theorem matOf_entry {R C : Nat} {m : List (List K)} {A : Matrix (Fin R) (Fin C) K} (h : MatOf m A)
    {i j : Nat} (hi : i < R) (hj : j < C) : Mat.get m i j = .ok (A ⟨i, hi⟩ ⟨j, hj⟩) := by
  rw [matOf_rowsOf h, mat_get _ hi hj, extend, dif_pos ⟨hi, hj⟩]

theorem det_gauss {N : Nat} {m : List (List K)} {A : Matrix (Fin N) (Fin N) K} (h : MatOf m A) :
    ((Mat.gaussElim N N m).bind fun r => (Mat.diag N r.1).bind fun d =>
      (Res.ofOption (Vect.product N d)).bind fun p => .ok (p / r.2)) = Res.ok A.det := by
  obtain ⟨f, factor, row, e, hi⟩ := gaussElim_square h
  rw [e]
  simp only [Res.bind]
  have hd : Mat.diag N (rowsOf N N f) = .ok ((List.range N).map fun i => f i i) := by
    unfold Mat.diag
    exact fromFnM_eq N _ _ fun i hi => mat_get f hi hi
  rw [hd]
  simp only
  have hp : Vect.product N ((List.range N).map fun i => f i i) = some (∏ i : Fin N, f i i) := by
    rw [(Vect.C77_others N ((List.range N).map fun i => f i i) (by simp) 0).2.2.2.1]
    congr 1
    rw [← List.prod_eq_foldl, ← ofFn_eq_range N (fun i => f i i), List.prod_ofFn]
  rw [hp]
  simp only [Res.ofOption]
  rw [Gauss.inv_det hi, toM_extend]
  congr 1
  rcases hi.sign with hs | hs <;> rw [hs]
  · rw [one_mul, div_one]
  · rw [neg_one_mul, neg_div_neg_eq, div_one]

/-- C80: `determinant` is the determinant (Mathlib's, by the formula of Leibniz), for every size. -/
theorem C80_determinant {N : Nat} {m : List (List K)} {A : Matrix (Fin N) (Fin N) K}
    (h : MatOf m A) : Mat.determinant N m = .ok A.det := by
  unfold Mat.determinant
  split
  · rw [matOf_entry h (by omega) (by omega), Matrix.det_fin_one]
    rfl
  · rw [matOf_entry h (i := 0) (j := 0) (by omega) (by omega),
      matOf_entry h (i := 1) (j := 1) (by omega) (by omega),
      matOf_entry h (i := 1) (j := 0) (by omega) (by omega),
      matOf_entry h (i := 0) (j := 1) (by omega) (by omega)]
    simp only [Res.bind]
    rw [Matrix.det_fin_two, mul_comm (A ⟨1, _⟩ ⟨0, _⟩)]
    rfl
  · exact det_gauss h

/-- The formula of Leibniz, for reference. -/
theorem C80_leibniz {N : Nat} (A : Matrix (Fin N) (Fin N) K) :
    A.det = ∑ σ : Equiv.Perm (Fin N), (Equiv.Perm.sign σ : K) * ∏ i, A (σ i) i :=
  Matrix.det_apply' A

example : Mat.determinant 3 [[0, 2, 1], [1, 0, 3], [2, 1, (0 : ℚ)]] = .ok 13 := by decide +kernel
example : MatOf [[0, 2, 1], [1, 0, 3], [2, 1, (0 : ℚ)]] !![0, 2, 1; 1, 0, 3; 2, 1, 0] := by
  simp [MatOf]

/-! ## C81: row reduction -/

/-- C81, part: for square matrices, `row_reduce` gives a row echelon form with the same row space.
Missing: rectangular matrices, where the claim fails (below), because the macro is given the number of
rows for that of columns and vice versa. -/
theorem C81_square_partial {N : Nat} {m : List (List K)} {A : Matrix (Fin N) (Fin N) K}
    (h : MatOf m A) :
    ∃ m' A', Mat.rowReduce N N m = .ok m' ∧ MatOf m' A' ∧ IsEchelon A' ∧ RowEquiv A A' := by
  obtain ⟨f, factor, row, e, hi⟩ := gaussElim_square h
  refine ⟨rowsOf N N f, Gauss.toM N N f, by unfold Mat.rowReduce; rw [e]; rfl, rowsOf_matOf N N f,
    Gauss.inv_echelon hi, ?_⟩
  have := Gauss.inv_rowEquiv hi
  rwa [toM_extend] at this

/-- Same row space means the same solutions. -/
theorem C81_solutions {R C : Nat} {A A' : Matrix (Fin R) (Fin C) K} (h : RowEquiv A A')
    (x : Fin C → K) : A.mulVec x = 0 ↔ A'.mulVec x = 0 := by
  obtain ⟨⟨P, hP⟩, Q, hQ⟩ := h
  constructor
  · intro hx; rw [hP, ← Matrix.mulVec_mulVec, hx, Matrix.mulVec_zero]
  · intro hx; rw [hQ, ← Matrix.mulVec_mulVec, hx, Matrix.mulVec_zero]

/-- The row-major entries of a matrix. -/
def DynOf {R C : Nat} (P : Nat) (d : DynMat α) (A : Matrix (Fin R) (Fin C) α) : Prop :=
  d.WF P ∧ d.rows = R ∧ d.cols = C ∧
    ∀ (i : Fin R) (j : Fin C), d.data[(i : Nat) * C + (j : Nat)]? = some (A i j)

/-- C81, part: the same for square dynamic matrices. -/
theorem C81_dyn_square_partial (md : Mode) (P : Nat) {N : Nat} {d : DynMat K}
    {A : Matrix (Fin N) (Fin N) K} (h : DynOf P d A) :
    ∃ d' A', DynMat.rowReduce md P d = .ok d' ∧ DynOf P d' A' ∧ IsEchelon A' ∧ RowEquiv A A' := by
  obtain ⟨hw, hr, hc, he⟩ := h
  have hrep : DynRep P N N d (extend A) := ⟨hw, hr, hc, fun i j hi hj => by
    rw [extend, dif_pos ⟨hi, hj⟩]; exact he ⟨i, hi⟩ ⟨j, hj⟩⟩
  obtain ⟨d', f, factor, row, e, hd', hi⟩ := Gauss.gaussElim_spec (dyn_good md P N N) hrep
  refine ⟨d', Gauss.toM N N f, ?_, ⟨hd'.wf, hd'.rows, hd'.cols, fun i j => ?_⟩,
    Gauss.inv_echelon hi, ?_⟩
  · unfold DynMat.rowReduce DynMat.gaussElim
    rw [hr, hc, e]
    rfl
  · exact hd'.entry i j i.isLt j.isLt
  · have := Gauss.inv_rowEquiv hi
    rwa [toM_extend] at this

/-- C81 fails: every static matrix with more columns than rows panics. -/
theorem C81_wide_violated {R C : Nat} (hR : 0 < R) (hRC : R < C) {m : List (List K)}
    {A : Matrix (Fin R) (Fin C) K} (h : MatOf m A) : Mat.rowReduce R C m = .panic := by
  have hl := matOf_length h
  have hout : Mat.get m R 0 = .panic := by
    unfold Mat.get
    rw [List.getElem?_eq_none (by omega)]
    rfl
  have hin : ∀ i, i < R → ∃ v, Mat.get m i 0 = .ok v := fun i hi =>
    ⟨_, matOf_entry h hi (show 0 < C by omega)⟩
  have haz : ∀ n i, i + n = C → i ≤ R →
      Mat.ops.allZero m 0 n i = .panic ∨ Mat.ops.allZero m 0 n i = .ok false := by
    intro n
    induction n with
    | zero => intro i h1 h2; omega
    | succ n ih =>
      intro i h1 h2
      unfold MatOps.allZero
      rcases Nat.eq_or_lt_of_le h2 with rfl | h2
      · left
        rw [show Mat.ops.get m i 0 = Mat.get m i 0 from rfl, hout]
        rfl
      · obtain ⟨v, hv⟩ := hin i h2
        rw [show Mat.ops.get m i 0 = Mat.get m i 0 from rfl, hv]
        simp only [Res.bind]
        by_cases hv0 : v = 0
        · rw [if_pos (c := ZeroTest.IsZero _) hv0]
          exact ih (i + 1) (by omega) (by omega)
        · rw [if_neg (c := ZeroTest.IsZero _) hv0]
          right; rfl
  have hsmall : Mat.ops.smallIdx m 0 0 C = .panic := by
    unfold MatOps.smallIdx
    have : ∀ n, R < n → forUpM n (fun idx best =>
        (Mat.ops.get m (0 + idx) 0).bind fun v =>
          if MatOps.clash best v then .panic else Res.ok (MatOps.keepMin best idx v)) none =
        .panic := by
      intro n hn
      induction n with
      | zero => omega
      | succ n ih =>
        rw [forUpM]
        rcases Nat.lt_succ_iff_lt_or_eq.mp hn with hn | rfl
        · rw [ih hn]; rfl
        · cases hf : forUpM R (fun idx best =>
              (Mat.ops.get m (0 + idx) 0).bind fun v =>
          if MatOps.clash best v then .panic else Res.ok (MatOps.keepMin best idx v)) none with
          | ok b =>
            simp only [Res.bind]
            rw [Nat.zero_add, show Mat.ops.get m R 0 = Mat.get m R 0 from rfl, hout]
          | panic => rfl
          | hang =>
            exfalso
            clear hn
            have : ∀ k, k ≤ R → ∃ b, forUpM k (fun idx best =>
                (Mat.ops.get m (0 + idx) 0).bind fun v =>
          if MatOps.clash best v then .panic else Res.ok (MatOps.keepMin best idx v)) none =
                .ok b := by
              intro k
              induction k with
              | zero => exact fun _ => ⟨none, rfl⟩
              | succ k ihk =>
                intro hk
                obtain ⟨b, hb⟩ := ihk (by omega)
                obtain ⟨v, hv⟩ := hin k (by omega)
                rw [forUpM, hb]
                simp only [Res.bind]
                rw [Nat.zero_add, show Mat.ops.get m k 0 = Mat.get m k 0 from rfl, hv]
                exact ⟨_, by simp only [Gauss.clash_false, Bool.false_eq_true, if_false]; rfl⟩
            obtain ⟨b, hb⟩ := this R (le_refl _)
            rw [hb] at hf
            simp at hf
    rw [this (C - 0) (by omega)]
    rfl
  have hstep : Mat.ops.gaussStep R C 0 (⟨m, 0, 1⟩ : MatOps.GState (List (List K)) K) = .panic := by
    unfold MatOps.gaussStep
    rcases haz (C - 0) 0 (by omega) (by omega) with e | e
    · simp only
      rw [e]; rfl
    · simp only
      rw [e]
      simp only [Res.bind]
      rw [if_neg (by simp), hsmall]
  have hloop : ∀ n, 0 < n → forUpM n (fun col s => Mat.ops.gaussStep R C col s)
      (⟨m, 0, 1⟩ : MatOps.GState (List (List K)) K) = .panic := by
    intro n
    induction n with
    | zero => intro hn; omega
    | succ n ih =>
      intro _
      rw [forUpM]
      by_cases hn : n = 0
      · subst hn
        exact hstep
      · rw [ih (by omega)]; rfl
  unfold Mat.rowReduce Mat.gaussElim MatOps.gaussElim
  rw [hloop R hR]
  rfl

/-- C81 fails: matrices with more rows than columns are left unreduced, or panic. -/
theorem C81_tall_violated :
    (∃ A' : Matrix (Fin 2) (Fin 1) ℚ, Mat.rowReduce 2 1 [[1], [(1 : ℚ)]] = .ok [[1], [1]] ∧
      MatOf [[1], [(1 : ℚ)]] A' ∧ ¬ IsEchelon A') ∧
    Mat.rowReduce 3 2 [[1, 0], [1, 1], [0, (1 : ℚ)]] = .panic := by
  refine ⟨⟨!![1; 1], by decide +kernel, by simp [MatOf], ?_⟩, by decide +kernel⟩
  intro h
  obtain ⟨c, hc, _⟩ := h 0 1 0 (by decide) ⟨by simp, fun c' hc' => absurd hc' (by omega)⟩
  omega

/-- C81 fails for dynamic matrices: a wide one panics; a tall one is overwritten with wrong values, as
indices beyond the end of a row reach into the next. -/
theorem C81_dyn_violated :
    DynMat.rowReduce .debug 64 ⟨[1, 2, 3, 4, 5, (6 : ℚ)], 2, 3⟩ = .panic ∧
    (∃ d A', DynMat.rowReduce .debug 64 ⟨[1, 0, 1, 1, 0, (1 : ℚ)], 3, 2⟩ = .ok d ∧
      DynOf (R := 3) (C := 2) 64 d A' ∧ ¬ IsEchelon A') := by
  refine ⟨by decide +kernel, ⟨[1, 0, 0, 1, 0, 1], 3, 2⟩, !![1, 0; 0, 1; 0, 1], by decide +kernel,
    ⟨⟨by decide, by decide, rfl, by decide⟩, rfl, rfl, by decide +kernel⟩, ?_⟩
  intro h
  obtain ⟨c, hc, hl⟩ := h 1 2 1 (by decide) ⟨by simp, fun c' hc' => by
    have : c' = 0 := by omega
    subst this; simp⟩
  have : c = 0 := by omega
  subst this
  exact hl.1 (by simp)

example : MatOf [[0, 2], [3, (4 : ℚ)]] !![0, 2; 3, 4] ∧
    Mat.rowReduce 2 2 [[0, 2], [3, (4 : ℚ)]] = .ok [[3, 4], [0, 2]] := by
  refine ⟨by simp [MatOf], by decide +kernel⟩

end Verif
