import Verif.Model.Nested
import Verif.Lemmas.Compound
import Verif.Lemmas.Checked
import Verif.Props.Complex
import Verif.Props.CompoundInts
import Mathlib.Data.Complex.Basic

/-!
# C150: matrices of complex numbers and matrices of matrices
-/

namespace Verif

namespace Complex

variable {K : Type} [CommRing K]

instance : Neg (Complex K) := ⟨fun a => ⟨-a.real, -a.imag⟩⟩

/-- The ring of C76. -/
instance instCommRing : CommRing (Complex K) where
  add_assoc a b c := (C76_ring a b c).2.1
  zero_add a := by rw [show (0 : Complex K) + a = add zero a from rfl, (C76_ring zero a a).1,
    (C76_ring a a a).2.2.1]
  add_zero a := (C76_ring a a a).2.2.1
  add_comm a b := (C76_ring a b a).1
  left_distrib a b c := (C76_ring a b c).2.2.2.2.2.2.2
  right_distrib a b c := by
    show mul (add a b) c = add (mul a c) (mul b c)
    rw [(C76_ring (add a b) c c).2.2.2.2.1, (C76_ring c a b).2.2.2.2.2.2.2,
      (C76_ring c a a).2.2.2.2.1, (C76_ring c b b).2.2.2.2.1]
  zero_mul a := by
    show mul zero a = zero
    apply ext' <;> simp [mul, zero]
  mul_zero a := by
    show mul a zero = zero
    apply ext' <;> simp [mul, zero]
  mul_assoc a b c := (C76_ring a b c).2.2.2.2.2.1
  one_mul a := by
    show mul one a = a
    rw [(C76_ring one a a).2.2.2.2.1, (C76_ring a a a).2.2.2.2.2.2.1]
  mul_one a := (C76_ring a a a).2.2.2.2.2.2.1
  mul_comm a b := (C76_ring a b a).2.2.2.2.1
  neg_add_cancel a := by
    show add ⟨-a.real, -a.imag⟩ a = zero
    apply ext' <;> simp [add, zero]
  sub_eq_add_neg a b := by
    show sub a b = add a ⟨-b.real, -b.imag⟩
    apply ext' <;> simp [add, sub, sub_eq_add_neg]
  nsmul := nsmulRec
  zsmul := zsmulRec

theorem add_real (a b : Complex K) : (a + b).real = a.real + b.real := rfl
theorem add_imag (a b : Complex K) : (a + b).imag = a.imag + b.imag := rfl
theorem mul_real (a b : Complex K) : (a * b).real = a.real * b.real - a.imag * b.imag := rfl
theorem mul_imag (a b : Complex K) : (a * b).imag = a.real * b.imag + b.real * a.imag := rfl

theorem sum_parts {ι : Type} (s : Finset ι) (f : ι → Complex K) :
    (∑ k ∈ s, f k).real = ∑ k ∈ s, (f k).real ∧ (∑ k ∈ s, f k).imag = ∑ k ∈ s, (f k).imag := by
  classical
  induction s using Finset.induction_on with
  | empty => exact ⟨rfl, rfl⟩
  | insert a s ha ih =>
    rw [Finset.sum_insert ha, Finset.sum_insert ha, Finset.sum_insert ha, add_real, add_imag, ih.1, ih.2]
    exact ⟨rfl, rfl⟩

theorem matrix_mul_parts {R C D : Nat} (A : Matrix (Fin R) (Fin C) (Complex K))
    (B : Matrix (Fin C) (Fin D) (Complex K)) :
    (A * B).map real = A.map real * B.map real - A.map imag * B.map imag ∧
    (A * B).map imag = A.map real * B.map imag + A.map imag * B.map real := by
  constructor
  · ext i j
    rw [Matrix.map_apply, Matrix.mul_apply, (sum_parts _ _).1, Matrix.sub_apply, Matrix.mul_apply,
      Matrix.mul_apply, ← Finset.sum_sub_distrib]
    rfl
  · ext i j
    rw [Matrix.map_apply, Matrix.mul_apply, (sum_parts _ _).2, Matrix.add_apply, Matrix.mul_apply,
      Matrix.mul_apply, ← Finset.sum_add_distrib]
    exact Finset.sum_congr rfl fun k _ => by
      rw [mul_imag, Matrix.map_apply, Matrix.map_apply, Matrix.map_apply, Matrix.map_apply,
        mul_comm (B k j).real]

/-- C150: the product of two matrices of complex numbers, `A = A₁ + A₂·i` and `B = B₁ + B₂·i`, is
`(A₁B₁ - A₂B₂) + (A₁B₂ + A₂B₁)·i`; sums and differences are taken of both parts. -/
theorem C150_complex {R C D : Nat} (hC : 0 < C) {a a' b : List (List (Complex K))}
    {A A' : Matrix (Fin R) (Fin C) (Complex K)} {B : Matrix (Fin C) (Fin D) (Complex K)}
    (ha : MatOf a A) (ha' : MatOf a' A') (hb : MatOf b B) :
    (∃ p P, Mat.mul R C D a b = .ok p ∧ MatOf p P ∧
      P.map real = A.map real * B.map real - A.map imag * B.map imag ∧
      P.map imag = A.map real * B.map imag + A.map imag * B.map real) ∧
    (∃ p P, Mat.add R C a a' = some p ∧ MatOf p P ∧
      P.map real = A.map real + A'.map real ∧ P.map imag = A.map imag + A'.map imag) ∧
    (∃ p P, Mat.sub R C a a' = some p ∧ MatOf p P ∧
      P.map real = A.map real - A'.map real ∧ P.map imag = A.map imag - A'.map imag) := by
  obtain ⟨p, e, h⟩ := C79_mul hC ha hb
  obtain ⟨s, e1, h1⟩ := (C79_ops ha ha').1
  obtain ⟨d, e2, h2⟩ := (C79_ops ha ha').2.1
  exact ⟨⟨p, _, e, h, matrix_mul_parts A B⟩, ⟨s, _, e1, h1, rfl, rfl⟩, ⟨d, _, e2, h2, rfl, rfl⟩⟩

/-- C150: the laws of C79 hold for matrices of complex numbers: products are associative and distribute
over sums, `one()` and `zero()` are as they should be, and transposing reverses products. -/
theorem C150_complex_laws {R C D E : Nat} (hC : 0 < C) (hD : 0 < D)
    {a b b' c : List (List (Complex K))} {A : Matrix (Fin R) (Fin C) (Complex K)}
    {B B' : Matrix (Fin C) (Fin D) (Complex K)} {G : Matrix (Fin D) (Fin E) (Complex K)}
    (ha : MatOf a A) (hb : MatOf b B) (hb' : MatOf b' B') (hc : MatOf c G) :
    (∃ ab bc r, Mat.mul R C D a b = .ok ab ∧ Mat.mul C D E b c = .ok bc ∧
      Mat.mul R D E ab c = .ok r ∧ Mat.mul R C E a bc = .ok r) ∧
    (∃ s p q r, Mat.add C D b b' = some s ∧ Mat.mul R C D a s = .ok r ∧
      Mat.mul R C D a b = .ok p ∧ Mat.mul R C D a b' = .ok q ∧ Mat.add R D p q = some r) ∧
    Mat.mul R C C a (Mat.one C C) = .ok a ∧
    Mat.mul R C D a (Mat.zero C D) = .ok (Mat.zero R D) ∧
    (∃ at' bt ab p, Mat.transpose C a = some at' ∧ Mat.transpose D b = some bt ∧
      Mat.mul R C D a b = .ok ab ∧ Mat.transpose D ab = some p ∧ Mat.mul D C R bt at' = .ok p) := by
  obtain ⟨ab, e1, h1⟩ := C79_mul hC ha hb
  obtain ⟨bc, e2, h2⟩ := C79_mul hD hb hc
  obtain ⟨r, e3, h3⟩ := C79_mul hD h1 hc
  obtain ⟨r', e4, h4⟩ := C79_mul hC ha h2
  obtain ⟨s, e5, h5⟩ := (C79_ops hb hb').1
  obtain ⟨t, e6, h6⟩ := C79_mul hC ha h5
  obtain ⟨ab', e7, h7⟩ := C79_mul hC ha hb'
  obtain ⟨u, e8, h8⟩ := (C79_ops h1 h7).1
  obtain ⟨v, e9, h9⟩ := C79_mul hC ha (C79_identities (α := Complex K) C C).2
  obtain ⟨w, e10, h10⟩ := C79_mul hC ha (C79_identities (α := Complex K) C D).1
  have k1 : r' = r := by unfold MatOf at h3 h4; rw [h3, h4, Matrix.mul_assoc]
  have k2 : u = t := by unfold MatOf at h6 h8; rw [h6, h8, Matrix.mul_add]
  have k3 : v = a := by unfold MatOf at h9 ha; rw [h9, ha, Matrix.mul_one]
  have k4 : w = Mat.zero R D := by
    have := (C79_identities (α := Complex K) R D).1
    unfold MatOf at h10 this
    rw [h10, this, Matrix.mul_zero]
  exact ⟨⟨ab, bc, r, e1, e2, e3, by rw [e4, k1]⟩, ⟨s, ab, ab', t, e5, e6, e1, e7, by rw [e8, k2]⟩,
    by rw [e9, k3], by rw [e10, k4], (C79_transpose hC ha hb).2.1⟩

/-- A complex number of the model over the reals, as a complex number of Mathlib. -/
def toC (z : Complex ℝ) : ℂ := ⟨z.real, z.imag⟩

/-- C150: over the reals, it is the product of matrices over ℂ. -/
theorem C150_complex_numbers {R C D : Nat} (hC : 0 < C) {a b : List (List (Complex ℝ))}
    {A : Matrix (Fin R) (Fin C) (Complex ℝ)} {B : Matrix (Fin C) (Fin D) (Complex ℝ)}
    (ha : MatOf a A) (hb : MatOf b B) :
    ∃ p P, Mat.mul R C D a b = .ok p ∧ MatOf p P ∧ P.map toC = A.map toC * B.map toC := by
  obtain ⟨p, e, h⟩ := C79_mul hC ha hb
  refine ⟨p, _, e, h, ?_⟩
  obtain ⟨h1, h2⟩ := matrix_mul_parts A B
  ext i j
  have h1' := congrFun (congrFun h1 i) j
  have h2' := congrFun (congrFun h2 i) j
  simp only [Matrix.map_apply, Matrix.sub_apply, Matrix.add_apply, Matrix.mul_apply] at h1' h2' ⊢
  apply _root_.Complex.ext
  · show (∑ k, A i k * B k j).real = _
    rw [h1', ← Finset.sum_sub_distrib, _root_.Complex.re_sum]
    rfl
  · show (∑ k, A i k * B k j).imag = _
    rw [h2', ← Finset.sum_add_distrib, _root_.Complex.im_sum]
    rfl

end Complex

/-! ## Complex machine integers -/

section ints

variable {m : Mode} {p : Prim}

/-- A complex number with machine parts against a Gaussian integer. -/
def CTracks (m : Mode) (p : Prim) (c : Complex (Chk m p)) (z : Complex Int) : Prop :=
  Tracks m p c.real.res z.real ∧ Tracks m p c.imag.res z.imag

theorem ctracks_semi (hp : 0 < p.bits) : SemiRel (CTracks m p) where
  zero := ⟨tracks_of (by
    have h1 : (1 : Int) ≤ 2 ^ (p.bits - 1) := one_le_pow₀ (by norm_num)
    have h2 : (1 : Int) ≤ 2 ^ p.bits := one_le_pow₀ (by norm_num)
    show p.InRange 0
    unfold Prim.InRange Prim.minV Prim.maxV
    cases p.signed <;> simp <;> omega), tracks_of (by
    have h1 : (1 : Int) ≤ 2 ^ (p.bits - 1) := one_le_pow₀ (by norm_num)
    have h2 : (1 : Int) ≤ 2 ^ p.bits := one_le_pow₀ (by norm_num)
    show p.InRange 0
    unfold Prim.InRange Prim.minV Prim.maxV
    cases p.signed <;> simp <;> omega)⟩
  add h1 h2 := ⟨tracks_add hp h1.1 h2.1, tracks_add hp h1.2 h2.2⟩
  mul h1 h2 := ⟨tracks_sub hp (tracks_mul hp h1.1 h2.1) (tracks_mul hp h1.2 h2.2),
    tracks_add hp (tracks_mul hp h1.1 h2.2) (tracks_mul hp h2.1 h1.2)⟩

/-- C150: with parts of a primitive integer type, the parts of every entry of a product are in release
builds congruent to those of the exact product, in debug builds exact or a panic. -/
theorem C150_complex_ints (m : Mode) (p : Prim) (hp : 0 < p.bits) {R C D : Nat} (hC : 0 < C)
    (A₁ A₂ : Matrix (Fin R) (Fin C) Int) (B₁ B₂ : Matrix (Fin C) (Fin D) Int)
    (hA : ∀ i j, p.InRange (A₁ i j) ∧ p.InRange (A₂ i j))
    (hB : ∀ i j, p.InRange (B₁ i j) ∧ p.InRange (B₂ i j)) {a b : List (List (Complex (Chk m p)))}
    (ha : MatOf a fun i j => (⟨Chk.of (A₁ i j), Chk.of (A₂ i j)⟩ : Complex (Chk m p)))
    (hb : MatOf b fun i j => (⟨Chk.of (B₁ i j), Chk.of (B₂ i j)⟩ : Complex (Chk m p))) :
    ∃ c P, Mat.mul R C D a b = .ok c ∧ MatOf c P ∧
      ∀ i j, Tracks m p (P i j).real.res ((A₁ * B₁ - A₂ * B₂) i j) ∧
        Tracks m p (P i j).imag.res ((A₁ * B₂ + A₂ * B₁) i j) := by
  obtain ⟨c, e, h⟩ := mul_fold hC ha hb
  refine ⟨c, _, e, h, fun i j => ?_⟩
  have key := (ctracks_semi (m := m) hp).entry
    (A' := fun i j => (⟨A₁ i j, A₂ i j⟩ : Complex Int)) (B' := fun i j => (⟨B₁ i j, B₂ i j⟩ : Complex Int))
    (A := fun i j => (⟨Chk.of (A₁ i j), Chk.of (A₂ i j)⟩ : Complex (Chk m p)))
    (B := fun i j => (⟨Chk.of (B₁ i j), Chk.of (B₂ i j)⟩ : Complex (Chk m p)))
    (fun i j => ⟨tracks_of (hA i j).1, tracks_of (hA i j).2⟩)
    (fun i j => ⟨tracks_of (hB i j).1, tracks_of (hB i j).2⟩) i j
  have er := entry_ring hC (fun i j => (⟨A₁ i j, A₂ i j⟩ : Complex Int) : Matrix (Fin R) (Fin C) _)
    (fun i j => (⟨B₁ i j, B₂ i j⟩ : Complex Int) : Matrix (Fin C) (Fin D) _) i j
  replace key : CTracks m p _ _ := er ▸ key
  obtain ⟨h1, h2⟩ := Complex.matrix_mul_parts (fun i j => (⟨A₁ i j, A₂ i j⟩ : Complex Int))
    (fun i j => (⟨B₁ i j, B₂ i j⟩ : Complex Int))
  have h1' := congrFun (congrFun h1 i) j
  have h2' := congrFun (congrFun h2 i) j
  rw [Matrix.map_apply] at h1' h2'
  unfold CTracks at key
  rw [h1', h2'] at key
  exact key

end ints

/-! ## Matrices of matrices -/

section blocks

variable {K : Type} [Ring K]

/-- A computed square matrix. -/
def IsBlock {N : Nat} (x : Comp (Mat.squareOps K N)) (A : Matrix (Fin N) (Fin N) K) : Prop :=
  ∃ l, x.res = .ok l ∧ MatOf l A

theorem isBlock_semi (N : Nat) : SemiRel (IsBlock (K := K) (N := N)) where
  zero := ⟨_, rfl, (C79_identities N N).1⟩
  add := by
    rintro ⟨a⟩ ⟨b⟩ A B ⟨l, rfl, hl⟩ ⟨l', rfl, hl'⟩
    obtain ⟨s, e, hs⟩ := (C79_ops hl hl').1
    exact ⟨s, by
      show Res.ofOption (Mat.add N N l l') = _
      rw [e]; rfl, hs⟩
  mul := by
    rintro ⟨a⟩ ⟨b⟩ A B ⟨l, rfl, hl⟩ ⟨l', rfl, hl'⟩
    rcases Nat.eq_zero_or_pos N with rfl | hN
    · exact ⟨[], rfl, by simp [MatOf]⟩
    · obtain ⟨s, e, hs⟩ := C79_mul hN hl hl'
      exact ⟨s, e, hs⟩

/-- The large matrix that is cut into the given blocks. -/
def large {N R C : Nat} (A : Matrix (Fin R) (Fin C) (Matrix (Fin N) (Fin N) K)) :
    Matrix (Fin R × Fin N) (Fin C × Fin N) K :=
  fun x y => A x.1 y.1 x.2 y.2

/-- C150: the product of two matrices, the entries of which are `N × N` matrices, consists of `N × N`
matrices, and is the product of the two large matrices that are cut into these blocks. -/
theorem C150_blocks (N : Nat) {R C D : Nat} (hC : 0 < C)
    (A : Matrix (Fin R) (Fin C) (Matrix (Fin N) (Fin N) K))
    (B : Matrix (Fin C) (Fin D) (Matrix (Fin N) (Fin N) K))
    {a b : List (List (Comp (Mat.squareOps K N)))}
    {A' : Matrix (Fin R) (Fin C) (Comp (Mat.squareOps K N))}
    {B' : Matrix (Fin C) (Fin D) (Comp (Mat.squareOps K N))} (ha : MatOf a A') (hb : MatOf b B')
    (hA : ∀ i j, IsBlock (A' i j) (A i j)) (hB : ∀ i j, IsBlock (B' i j) (B i j)) :
    ∃ c P', ∃ P : Matrix (Fin R) (Fin D) (Matrix (Fin N) (Fin N) K), Mat.mul R C D a b = .ok c ∧ MatOf c P' ∧ (∀ i j, IsBlock (P' i j) (P i j)) ∧
      large P = large A * large B := by
  obtain ⟨c, e, h⟩ := mul_fold hC ha hb
  refine ⟨c, _, A * B, e, h, fun i j => ?_, ?_⟩
  · have := (isBlock_semi N).entry hA hB i j
    rwa [entry_ring hC] at this
  · funext x z
    show (A * B) x.1 z.1 x.2 z.2 = (large A * large B) x z
    rw [Matrix.mul_apply, Matrix.mul_apply, Matrix.sum_apply, Fintype.sum_prod_type]
    exact Finset.sum_congr rfl fun k _ => Matrix.mul_apply

end blocks

example : Mat.mul 1 2 1 [[⟨1, 2⟩, ⟨0, 1⟩]] [[⟨3, -1⟩], [⟨0, (1 : ℤ)⟩]] = .ok [[(⟨4, 5⟩ : Complex ℤ)]] := by
  decide

example : Mat.mul 1 1 1 [[(⟨Chk.of 100, Chk.of 2⟩ : Complex (Chk .release ⟨true, 8⟩))]]
    [[⟨Chk.of 3, Chk.of 1⟩]] = .ok [[⟨Chk.of 42, Chk.of 106⟩]] := by decide

example : ∃ c, Mat.mul 1 2 1
      [[Comp.of [[1, 2], [3, 4]], Comp.of [[0, 1], [1, 0]]]]
      [[Comp.of [[1, 0], [0, 1]]], [(Comp.of [[5, 6], [7, 8]] : Comp (Mat.squareOps ℤ 2))]] =
      .ok [[c]] ∧ c.res = .ok [[8, 10], [8, 10]] := ⟨_, rfl, by decide⟩

end Verif
