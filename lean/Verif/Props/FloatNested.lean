import Verif.Model.Nested
import Verif.Lemmas.FloatNested
import Verif.Lemmas.Compound
import Verif.Props.Float

/-!
# C159: matrices and vectors of complex floats
-/

namespace Verif

open Flt

variable {f : FloatFmt}

/-- A term: the real or the imaginary part of a product. -/
private theorem near_two (hf : f.Ok) {v : Flt f} {x t : ℚ} (hx : |x| ≤ t) (h : Accurate v x t 2)
    (hv : ∀ y, v = .fin y → f.Has y) :
    NearMag ((1 + f.u) ^ 2 - 1) (2 * (1 + f.u) * f.eta) v (x, t) := by
  refine ⟨hx, fun y hy => ⟨hv y hy, (h.1 y hy).trans (le_of_eq ?_)⟩⟩
  push_cast
  ring

private theorem two_nonneg (f : FloatFmt) :
    0 ≤ (1 + f.u) ^ 2 - 1 ∧ 0 ≤ 2 * (1 + f.u) * f.eta := by
  have hu := u_pos f
  have he := eta_pos f
  refine ⟨?_, by positivity⟩
  nlinarith

/-- Adding up such terms. -/
private theorem pairs (hf : f.Ok) (n : Nat) (v : Nat → Flt f) (x t : Nat → ℚ) (hx : ∀ k, |x k| ≤ t k)
    (h : ∀ k, Accurate (v k) (x k) (t k) 2) (hv : ∀ k y, v k = .fin y → f.Has y) :
    AccuratePairs (((List.range n).map fun k => v (k + 1)).foldl (fun a v => a + v) (v 0))
      (∑ k ∈ Finset.range (n + 1), x k) (∑ k ∈ Finset.range (n + 1), t k) (n + 1) := by
  have hu := u_pos f
  have he := eta_pos f
  obtain ⟨hδ, hε⟩ := two_nonneg f
  have hnn : ∀ k, 0 ≤ t k := fun k => (abs_nonneg _).trans (hx k)
  have hl : List.Forall₂ (NearMag ((1 + f.u) ^ 2 - 1) (2 * (1 + f.u) * f.eta))
      ((List.range n).map fun k => v (k + 1)) ((List.range n).map fun k => (x (k + 1), t (k + 1))) := by
    rw [List.forall₂_map_left_iff, List.forall₂_map_right_iff, List.forall₂_same]
    exact fun k _ => near_two hf (hx _) (h _) (hv _)
  have key := fold_mag_first hf hδ hε (v 0) _ (x 0, t 0) _ (near_two hf (hx 0) (h 0) (hv 0)) hl
  have sum : ∀ g : Nat → ℚ, g 0 + ((List.range n).map fun k => g (k + 1)).sum =
      ∑ k ∈ Finset.range (n + 1), g k := by
    intro g
    rw [Finset.sum_range_succ', add_comm]
    congr 1
  have s1 : ((((x 0, t 0) :: (List.range n).map fun k => (x (k + 1), t (k + 1))).map Prod.fst).sum) =
      ∑ k ∈ Finset.range (n + 1), x k := by
    rw [List.map_cons, List.sum_cons, List.map_map]; exact sum x
  have s2 : ((((x 0, t 0) :: (List.range n).map fun k => (x (k + 1), t (k + 1))).map Prod.snd).sum) =
      ∑ k ∈ Finset.range (n + 1), t k := by
    rw [List.map_cons, List.sum_cons, List.map_map]; exact sum t
  rw [s1, s2, List.length_map, List.length_range] at key
  refine ⟨fun r hr => (key.1 r hr).trans (le_of_eq ?_), fun hB => key.2 ?_ ?_⟩
  · push_cast
    ring
  · have hall : ∀ k < n + 1, ∃ y, v k = .fin y := by
      intro k hk
      refine (h k).2 (le_trans ?_ hB)
      have h1 : t k ≤ ∑ k ∈ Finset.range (n + 1), t k :=
        Finset.single_le_sum (fun j _ => hnn j) (Finset.mem_range.2 hk)
      have h2 : (1 + f.u) ^ 2 ≤ (1 + f.u) ^ (n + 1 + 1) := pow_le_pow_right₀ (by linarith) (by omega)
      have h3 : (1 + f.u) ^ (2 - 1) ≤ (1 + f.u) ^ (n + 1) := pow_le_pow_right₀ (by linarith) (by omega)
      have h4 := hnn k
      push_cast
      have : (1 : ℚ) ≤ n + 1 := by have : (0 : ℚ) ≤ n := by positivity
                                   linarith
      gcongr ?_ * ?_ + ?_
      · calc 2 * (1 + f.u) ^ (2 - 1) * f.eta ≤ 2 * (1 + f.u) ^ (n + 1) * f.eta := by gcongr
          _ = 2 * 1 * (1 + f.u) ^ (n + 1) * f.eta := by ring
          _ ≤ _ := by gcongr
    intro w hw
    rcases List.mem_cons.1 hw with rfl | hw
    · exact hall 0 (by omega)
    · obtain ⟨k, hk, rfl⟩ := List.mem_map.1 hw
      exact hall _ (by rw [List.mem_range] at hk; omega)
  · refine le_trans (le_of_eq ?_) hB
    push_cast
    ring

/-- Both parts of a sum of complex numbers are sums. -/
private theorem forUp_parts (n : Nat) (t : Nat → Complex (Flt f)) :
    (forUp n (fun k out => out + t (k + 1)) (t 0)).real =
      ((List.range n).map fun k => (t (k + 1)).real).foldl (fun a v => a + v) (t 0).real ∧
    (forUp n (fun k out => out + t (k + 1)) (t 0)).imag =
      ((List.range n).map fun k => (t (k + 1)).imag).foldl (fun a v => a + v) (t 0).imag := by
  induction n with
  | zero => exact ⟨rfl, rfl⟩
  | succ n ih =>
    rw [forUp, List.range_succ, List.map_append, List.foldl_append, List.map_append, List.foldl_append,
      ← ih.1, ← ih.2]
    exact ⟨rfl, rfl⟩

private theorem parts_ext {z w : Complex (Flt f)} (h1 : z.real = w.real) (h2 : z.imag = w.imag) :
    z = w := by
  cases z; cases w; cases h1; cases h2; rfl

private theorem mul_fin_has (hf : f.Ok) (a b c d : ℚ) :
    (∀ y, (Complex.mul (⟨.fin a, .fin b⟩ : Complex (Flt f)) ⟨.fin c, .fin d⟩).real = .fin y → f.Has y) ∧
    (∀ y, (Complex.mul (⟨.fin a, .fin b⟩ : Complex (Flt f)) ⟨.fin c, .fin d⟩).imag = .fin y → f.Has y) := by
  constructor
  · intro y hy
    obtain ⟨s, t, -, -, h⟩ := sub_fin hy
    exact rnd_has hf h
  · intro y hy
    obtain ⟨s, t, -, -, h⟩ := add_fin hy
    exact rnd_has hf h

/-- A complex number with finite parts. -/
def Flt.cfin {f : FloatFmt} (x y : ℚ) : Complex (Flt f) := ⟨.fin x, .fin y⟩

/-- C159 for matrix products: with `A = A₁ + A₂·i` and `B = B₁ + B₂·i`, both parts of every entry are as
accurate as the `2·C` products they consist of allow. -/
theorem C159_matrix_mul (hf : f.Ok) {R C D : Nat} (hC : 0 < C) {a b : List (List (Complex (Flt f)))}
    (A₁ A₂ : Matrix (Fin R) (Fin C) ℚ) (B₁ B₂ : Matrix (Fin C) (Fin D) ℚ)
    (ha : MatOf a (Matrix.of fun i j => cfin (A₁ i j) (A₂ i j)))
    (hb : MatOf b (Matrix.of fun i j => cfin (B₁ i j) (B₂ i j))) :
    ∃ (c : List (List (Complex (Flt f)))) (P : Matrix (Fin R) (Fin D) (Complex (Flt f))),
      Mat.mul R C D a b = .ok c ∧ MatOf c P ∧
      ∀ i j,
        AccuratePairs (P i j).real ((A₁ * B₁ - A₂ * B₂) i j)
          (∑ k, (|A₁ i k * B₁ k j| + |A₂ i k * B₂ k j|)) C ∧
        AccuratePairs (P i j).imag ((A₁ * B₂ + A₂ * B₁) i j)
          (∑ k, (|A₁ i k * B₂ k j| + |A₂ i k * B₁ k j|)) C := by
  obtain ⟨c, e, hc⟩ := mul_fold hC ha hb
  refine ⟨c, _, e, hc, fun i j => ?_⟩
  obtain ⟨n, rfl⟩ : ∃ n, C = n + 1 := ⟨C - 1, by omega⟩
  have ext : ∀ {m n : Nat} (X Y : Matrix (Fin m) (Fin n) ℚ) (i j : Nat),
      extend (Matrix.of fun i j => (cfin (X i j) (Y i j) : Complex (Flt f))) i j =
        cfin (extend X i j) (extend Y i j) := by
    intro m n X Y i j
    unfold extend
    split <;> rfl
  have hterm : ∀ k : Nat, extend (Matrix.of fun i j => (cfin (A₁ i j) (A₂ i j) : Complex (Flt f))) i k *
      extend (Matrix.of fun i j => (cfin (B₁ i j) (B₂ i j) : Complex (Flt f))) k j =
      Complex.mul (cfin (extend A₁ i k) (extend A₂ i k)) (cfin (extend B₁ k j) (extend B₂ k j)) := by
    intro k
    rw [ext, ext]; rfl
  have he : entry (Matrix.of fun i j => (cfin (A₁ i j) (A₂ i j) : Complex (Flt f)))
      (Matrix.of fun i j => (cfin (B₁ i j) (B₂ i j) : Complex (Flt f))) i j =
      forUp n (fun k out => out + (fun k : Nat => Complex.mul (cfin (extend A₁ i k) (extend A₂ i k))
        (cfin (extend B₁ k j) (extend B₂ k j))) (k + 1))
        ((fun k : Nat => Complex.mul (cfin (extend A₁ i k) (extend A₂ i k))
        (cfin (extend B₁ k j) (extend B₂ k j))) 0) := by
    unfold entry
    simp only [hterm, Nat.add_sub_cancel]
  have hp := forUp_parts n (fun k : Nat => Complex.mul (cfin (extend A₁ i k) (extend A₂ i k))
    (cfin (extend B₁ k j) (extend B₂ k j) : Complex (Flt f)))
  rw [← he] at hp
  rw [hp.1, hp.2]
  have fin : ∀ g : Nat → ℚ, ∑ k ∈ Finset.range (n + 1), g k = ∑ k : Fin (n + 1), g k :=
    fun g => Finset.sum_range g
  constructor
  · have := pairs hf n (fun k => (Complex.mul (cfin (extend A₁ i k) (extend A₂ i k))
        (cfin (extend B₁ k j) (extend B₂ k j) : Complex (Flt f))).real)
      (fun k => extend A₁ i k * extend B₁ k j - extend A₂ i k * extend B₂ k j)
      (fun k => |extend A₁ i k * extend B₁ k j| + |extend A₂ i k * extend B₂ k j|)
      (fun k => abs_sub _ _) (fun k => (C126_complex_mul hf _ _ _ _).1)
      (fun k => (mul_fin_has hf _ _ _ _).1)
    rw [fin, fin] at this
    simp only [extend_apply] at this
    rw [Matrix.sub_apply, Matrix.mul_apply, Matrix.mul_apply, ← Finset.sum_sub_distrib]
    exact this
  · have := pairs hf n (fun k => (Complex.mul (cfin (extend A₁ i k) (extend A₂ i k))
        (cfin (extend B₁ k j) (extend B₂ k j) : Complex (Flt f))).imag)
      (fun k => extend A₁ i k * extend B₂ k j + extend A₂ i k * extend B₁ k j)
      (fun k => |extend A₁ i k * extend B₂ k j| + |extend A₂ i k * extend B₁ k j|)
      (fun k => abs_add_le _ _) (fun k => by
        rw [mul_comm (extend A₂ i k)]
        exact (C126_complex_mul hf _ _ _ _).2)
      (fun k => (mul_fin_has hf _ _ _ _).2)
    rw [fin, fin] at this
    simp only [extend_apply] at this
    rw [Matrix.add_apply, Matrix.mul_apply, Matrix.mul_apply, ← Finset.sum_add_distrib]
    exact this

/-- Parts of a product that starts from zero. -/
private theorem dot_parts (l : List (Complex (Flt f))) : ∀ z : Complex (Flt f),
    (l.foldl (fun a v => a + v) z).real = (l.map Complex.real).foldl (fun a v => a + v) z.real ∧
    (l.foldl (fun a v => a + v) z).imag = (l.map Complex.imag).foldl (fun a v => a + v) z.imag := by
  induction l with
  | nil => intro z; exact ⟨rfl, rfl⟩
  | cons v l ih => intro z; exact ih (z + v)

private theorem zero_add_flt {v : Flt f} (h : ∀ y, v = .fin y → f.Has y) : (0 : Flt f) + v = v := by
  rcases v with _ | s | y
  · rfl
  · rfl
  · rw [show (0 : Flt f) + .fin y = rnd f (0 + y) from rfl, zero_add, rnd_exact (h y rfl)]

/-- C159 for `dot_product`, which does not conjugate. -/
theorem C159_dot (hf : f.Ok) {n : Nat} (x₁ x₂ y₁ y₂ : Fin n → ℚ) :
    AccuratePairs (Vect.dotProduct (List.ofFn fun i => (cfin (x₁ i) (x₂ i) : Complex (Flt f)))
        (List.ofFn fun i => cfin (y₁ i) (y₂ i))).real
      (∑ i, (x₁ i * y₁ i - x₂ i * y₂ i)) (∑ i, (|x₁ i * y₁ i| + |x₂ i * y₂ i|)) n ∧
    AccuratePairs (Vect.dotProduct (List.ofFn fun i => (cfin (x₁ i) (x₂ i) : Complex (Flt f)))
        (List.ofFn fun i => cfin (y₁ i) (y₂ i))).imag
      (∑ i, (x₁ i * y₂ i + x₂ i * y₁ i)) (∑ i, (|x₁ i * y₂ i| + |x₂ i * y₁ i|)) n := by
  have e : Vect.dotProduct (List.ofFn fun i => (cfin (x₁ i) (x₂ i) : Complex (Flt f)))
      (List.ofFn fun i => cfin (y₁ i) (y₂ i)) =
      (List.ofFn fun i => Complex.mul (cfin (x₁ i) (x₂ i) : Complex (Flt f))
        (cfin (y₁ i) (y₂ i))).foldl (fun a v => a + v) 0 := by
    unfold Vect.dotProduct
    rw [Vect.stdZip_map (fun x y => x * y), Vect.zipWith_ofFn]
    rfl
  rw [e, (dot_parts _ _).1, (dot_parts _ _).2, List.map_ofFn, List.map_ofFn]
  rcases n with _ | n
  · constructor <;> refine ⟨fun v hv => ?_, fun _ => ⟨0, rfl⟩⟩ <;>
    · simp only [List.ofFn_zero, List.foldl_nil] at hv
      injection hv with hv
      subst hv
      simp
  let X₁ : Nat → ℚ := fun k => if h : k < n + 1 then x₁ ⟨k, h⟩ else 0
  let X₂ : Nat → ℚ := fun k => if h : k < n + 1 then x₂ ⟨k, h⟩ else 0
  let Y₁ : Nat → ℚ := fun k => if h : k < n + 1 then y₁ ⟨k, h⟩ else 0
  let Y₂ : Nat → ℚ := fun k => if h : k < n + 1 then y₂ ⟨k, h⟩ else 0
  have hX : ∀ (g : Fin (n + 1) → ℚ) (i : Fin (n + 1)),
      (fun k => if h : k < n + 1 then g ⟨k, h⟩ else 0 : Nat → ℚ) i = g i := by
    intro g i
    simp only [i.isLt, dif_pos]
  have hsum : ∀ g : Nat → ℚ, ∑ k ∈ Finset.range (n + 1), g k = ∑ k : Fin (n + 1), g k :=
    fun g => Finset.sum_range g
  have hlist : ∀ (g : Nat → Flt f), (∀ k y, g k = .fin y → f.Has y) →
      (List.ofFn fun i : Fin (n + 1) => g i).foldl (fun a v => a + v) 0 =
      ((List.range n).map fun k => g (k + 1)).foldl (fun a v => a + v) (g 0) := by
    intro g hg
    rw [ofFn_eq_range (n + 1) g, List.range_succ_eq_map, List.map_cons, List.foldl_cons,
      zero_add_flt (hg 0), List.map_map]
    rfl
  constructor
  · have := pairs hf n (fun k => (Complex.mul (cfin (X₁ k) (X₂ k))
        (cfin (Y₁ k) (Y₂ k) : Complex (Flt f))).real)
      (fun k => X₁ k * Y₁ k - X₂ k * Y₂ k) (fun k => |X₁ k * Y₁ k| + |X₂ k * Y₂ k|)
      (fun k => abs_sub _ _) (fun k => (C126_complex_mul hf _ _ _ _).1)
      (fun k => (mul_fin_has hf _ _ _ _).1)
    rw [hsum, hsum, ← hlist (fun k => (Complex.mul (cfin (X₁ k) (X₂ k))
        (cfin (Y₁ k) (Y₂ k) : Complex (Flt f))).real) (fun k => (mul_fin_has hf _ _ _ _).1)] at this
    simp only [X₁, X₂, Y₁, Y₂, hX] at this
    exact this
  · have := pairs hf n (fun k => (Complex.mul (cfin (X₁ k) (X₂ k))
        (cfin (Y₁ k) (Y₂ k) : Complex (Flt f))).imag)
      (fun k => X₁ k * Y₂ k + X₂ k * Y₁ k) (fun k => |X₁ k * Y₂ k| + |X₂ k * Y₁ k|)
      (fun k => abs_add_le _ _) (fun k => by
        rw [mul_comm (X₂ k)]
        exact (C126_complex_mul hf _ _ _ _).2)
      (fun k => (mul_fin_has hf _ _ _ _).2)
    rw [hsum, hsum, ← hlist (fun k => (Complex.mul (cfin (X₁ k) (X₂ k))
        (cfin (Y₁ k) (Y₂ k) : Complex (Flt f))).imag) (fun k => (mul_fin_has hf _ _ _ _).2)] at this
    simp only [X₁, X₂, Y₁, Y₂, hX] at this
    exact this

/-- The complex float with integer parts. -/
def Flt.cofZ {f : FloatFmt} (z : Complex Int) : Complex (Flt f) := ⟨ofZ z.real, ofZ z.imag⟩

/-- C159: matrices of Gaussian integers are multiplied without error if for no entry the magnitudes of the
products it consists of add up to more than `2 ^ prec`. -/
theorem C159_integers (hf : f.Ok) {R C D : Nat} (hC : 0 < C) {a b : List (List (Complex (Flt f)))}
    (A : Matrix (Fin R) (Fin C) (Complex Int)) (B : Matrix (Fin C) (Fin D) (Complex Int))
    (ha : MatOf a (A.map cofZ)) (hb : MatOf b (B.map cofZ))
    (h : ∀ i j, ∑ k, (|(A i k).real * (B k j).real| + |(A i k).imag * (B k j).imag|) ≤ 2 ^ f.prec ∧
      ∑ k, (|(A i k).real * (B k j).imag| + |(A i k).imag * (B k j).real|) ≤ 2 ^ f.prec) :
    ∃ (c : List (List (Complex (Flt f)))) (P : Matrix (Fin R) (Fin D) (Complex Int)),
      Mat.mul R C D a b = .ok c ∧ MatOf c (P.map cofZ) ∧
      P.map Complex.real = A.map Complex.real * B.map Complex.real -
        A.map Complex.imag * B.map Complex.imag ∧
      P.map Complex.imag = A.map Complex.real * B.map Complex.imag +
        A.map Complex.imag * B.map Complex.real := by
  obtain ⟨c, e, hc⟩ := mul_fold hC ha hb
  let P : Matrix (Fin R) (Fin D) (Complex Int) := Matrix.of fun i j =>
    ⟨∑ k, ((A i k).real * (B k j).real - (A i k).imag * (B k j).imag),
      ∑ k, ((A i k).real * (B k j).imag + (A i k).imag * (B k j).real)⟩
  refine ⟨c, P, e, ?_, ?_, ?_⟩
  · have hent : (fun (i : Fin R) (j : Fin D) => entry (A.map cofZ) (B.map cofZ) i j) =
        (P.map cofZ : Matrix _ _ (Complex (Flt f))) := by
      funext i j
      obtain ⟨n, rfl⟩ : ∃ n, C = n + 1 := ⟨C - 1, by omega⟩
      obtain ⟨hr, hi⟩ := h i j
      -- the products are exact
      let t : Nat → Complex Int := fun k =>
        ⟨(extend A i k).real * (extend B k j).real - (extend A i k).imag * (extend B k j).imag,
          (extend A i k).real * (extend B k j).imag + (extend B k j).real * (extend A i k).imag⟩
      have hext : ∀ {m n : Nat} (X : Matrix (Fin m) (Fin n) (Complex Int)) (i j : Nat),
          extend (X.map (cofZ : Complex Int → Complex (Flt f))) i j = cofZ (extend X i j) := by
        intro m n X i j
        unfold extend
        split <;> rfl
      have hterm : ∀ k < n + 1, extend (A.map (cofZ : Complex Int → Complex (Flt f))) i k *
          extend (B.map (cofZ : Complex Int → Complex (Flt f))) k j = cofZ (t k) := by
        intro k hk
        rw [hext, hext]
        have b1 : |(extend A i k).real * (extend B k j).real| +
            |(extend A i k).imag * (extend B k j).imag| ≤ 2 ^ f.prec := by
          refine le_trans ?_ hr
          have := Finset.single_le_sum (f := fun k : Fin (n + 1) =>
            |(A i k).real * (B k j).real| + |(A i k).imag * (B k j).imag|)
            (fun k _ => by positivity) (Finset.mem_univ ⟨k, hk⟩)
          refine le_trans (le_of_eq ?_) this
          rw [show extend A i k = A i ⟨k, hk⟩ from extend_apply A i ⟨k, hk⟩,
            show extend B k j = B ⟨k, hk⟩ j from extend_apply B ⟨k, hk⟩ j]
        have b2 : |(extend A i k).real * (extend B k j).imag| +
            |(extend B k j).real * (extend A i k).imag| ≤ 2 ^ f.prec := by
          refine le_trans ?_ hi
          have := Finset.single_le_sum (f := fun k : Fin (n + 1) =>
            |(A i k).real * (B k j).imag| + |(A i k).imag * (B k j).real|)
            (fun k _ => by positivity) (Finset.mem_univ ⟨k, hk⟩)
          refine le_trans (le_of_eq ?_) this
          rw [show extend A i k = A i ⟨k, hk⟩ from extend_apply A i ⟨k, hk⟩,
            show extend B k j = B ⟨k, hk⟩ j from extend_apply B ⟨k, hk⟩ j, mul_comm (B _ j).real]
        exact C127_complex_mul hf _ _ _ _ b1 b2
      have hloop : ∀ m ≤ n, forUp m (fun k out => out +
          extend (A.map (cofZ : Complex Int → Complex (Flt f))) i (k + 1) *
          extend (B.map (cofZ : Complex Int → Complex (Flt f))) (k + 1) j)
          (extend (A.map (cofZ : Complex Int → Complex (Flt f))) i 0 *
          extend (B.map (cofZ : Complex Int → Complex (Flt f))) 0 j) =
          forUp m (fun k out => out + (fun k => (cofZ (t k) : Complex (Flt f))) (k + 1))
            ((fun k => (cofZ (t k) : Complex (Flt f))) 0) := by
        intro m hm
        induction m with
        | zero => exact hterm 0 (by omega)
        | succ m ih =>
          rw [forUp, forUp, ih (by omega), hterm (m + 1) (by omega)]
      have hp := forUp_parts n (fun k => (cofZ (t k) : Complex (Flt f)))
      have hsum : ∀ (g b : Nat → Int), (∀ k, |g k| ≤ b k) →
          ∑ k ∈ Finset.range (n + 1), b k ≤ 2 ^ f.prec →
          ((List.range n).map fun k => (ofZ (g (k + 1)) : Flt f)).foldl (fun a v => a + v)
            (ofZ (g 0)) = ofZ (∑ k ∈ Finset.range (n + 1), g k) := by
        intro g b hg hb
        have hl : ((List.range n).map fun k => (ofZ (g (k + 1)) : Flt f)) =
            ((List.range n).map fun k => g (k + 1)).map ofZ := by
          rw [List.map_map]; rfl
        have e1 : ∀ q : Nat → Int, ((List.range n).map fun k => q (k + 1)).sum =
            ∑ k ∈ Finset.range n, q (k + 1) := fun q => rfl
        rw [hl, fold_ofZ hf]
        · congr 1
          rw [Finset.sum_range_succ', add_comm]
          congr 1
        · rw [List.map_map]
          refine le_trans ?_ hb
          refine le_trans ?_ (Finset.sum_le_sum fun k _ => hg k)
          rw [Finset.sum_range_succ', add_comm]
          exact le_of_eq (congrArg₂ _ rfl rfl)
      have hfin : ∀ g : Nat → Int, ∑ k ∈ Finset.range (n + 1), g k = ∑ k : Fin (n + 1), g k :=
        fun g => Finset.sum_range g
      unfold entry
      rw [Nat.add_sub_cancel, hloop n (Nat.le_refl _)]
      refine parts_ext ?_ ?_
      · rw [hp.1]
        refine (hsum (fun k => (t k).real) (fun k => |(extend A i k).real * (extend B k j).real| +
            |(extend A i k).imag * (extend B k j).imag|) (fun k => abs_sub _ _) ?_).trans ?_
        · rw [hfin]
          simp only [extend_apply]
          exact hr
        · rw [hfin]
          simp only [t, extend_apply]
          rfl
      · rw [hp.2]
        refine (hsum (fun k => (t k).imag) (fun k => |(extend A i k).real * (extend B k j).imag| +
            |(extend B k j).real * (extend A i k).imag|) (fun k => abs_add_le _ _) ?_).trans ?_
        · rw [hfin]
          simp only [extend_apply]
          refine le_trans (le_of_eq (Finset.sum_congr rfl fun k _ => ?_)) hi
          rw [mul_comm (B k j).real]
        · rw [hfin]
          simp only [t, extend_apply]
          refine congrArg ofZ (Finset.sum_congr rfl fun k _ => ?_)
          rw [mul_comm (B k j).real]
    rw [← hent]
    exact hc
  · ext i j
    rw [Matrix.sub_apply, Matrix.mul_apply, Matrix.mul_apply, ← Finset.sum_sub_distrib]
    rfl
  · ext i j
    rw [Matrix.add_apply, Matrix.mul_apply, Matrix.mul_apply, ← Finset.sum_add_distrib]
    rfl

-- (1 + 2i)(3 + 4i) + (5 + 6i)(7 - 8i) = 78 + 12i
example : Mat.mul 1 2 1 [[(⟨.fin 1, .fin 2⟩ : Complex (Flt .f32)), ⟨.fin 5, .fin 6⟩]]
    [[⟨.fin 3, .fin 4⟩], [⟨.fin 7, .fin (-8)⟩]] = .ok [[⟨.fin 78, .fin 12⟩]] := by decide +kernel
-- rounding happens: `(2^24 + i)(1 + i)` in `f32`
example : Mat.mul 1 1 1 [[(⟨.fin (2 ^ 24), .fin 1⟩ : Complex (Flt .f32))]] [[⟨.fin 1, .fin 1⟩]] =
    .ok [[⟨.fin (2 ^ 24 - 1), .fin (2 ^ 24)⟩]] := by decide +kernel
-- and cancellation: both products of the real part overflow, though it is zero
example : Vect.dotProduct [(⟨.fin (2 ^ 100), .fin (2 ^ 100)⟩ : Complex (Flt .f32))]
    [⟨.fin (2 ^ 100), .fin (2 ^ 100)⟩] = ⟨.nan, .inf false⟩ := by decide +kernel
-- the bound for overflow is met by moderate entries
example : (1 + FloatFmt.f32.u) ^ (2 + 1) * (100 : ℚ) +
    2 * 2 * (1 + FloatFmt.f32.u) ^ 2 * FloatFmt.f32.eta ≤ FloatFmt.f32.max := by
  norm_num [FloatFmt.u, FloatFmt.eta, FloatFmt.max, FloatFmt.f32]

end Verif
