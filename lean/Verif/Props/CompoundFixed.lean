import Verif.Spec.Real
import Verif.Spec.CompoundNums
import Verif.Props.CompoundInts
import Verif.Lemmas.Checked
import Verif.Lemmas.Compound
import Verif.Model.CheckedNum
import Verif.Model.Complex
import Verif.Props.Fixed
import Mathlib.Tactic.FieldSimp

/-!
# C139: vectors, matrices and complex numbers of `Fixed<T, N>`
-/

namespace Verif

namespace Fixed

variable {m : Mode} {p : Prim} {N : Nat}

/-- A component that is a value, by its raw integer. -/
abbrev raw (m : Mode) (p : Prim) (N : Nat) (x : Int) : Comp (Fixed.ops m p N) := Comp.of x

private theorem zero_inRange (hp : 0 < p.bits) : p.InRange 0 := by
  obtain ⟨h1, h2, _⟩ := Prim.bounds hp
  exact ⟨h1, h2⟩

/-- Fixed-point components are machine integers, by their raw values. -/
private theorem semi : SemiRel fun (c : Comp (Fixed.ops m p N)) (k : Chk m p) => c.res = k.res where
  zero := rfl
  add := fun {a b x y} ha hb => by
    change (a.res.bind fun s => b.res.bind fun t => _) = (x.res.bind fun s => y.res.bind fun t => _)
    rw [ha, hb]; rfl
  mul := fun {a b x y} ha hb => by
    change (a.res.bind fun s => b.res.bind fun t => _) = (x.res.bind fun s => y.res.bind fun t => _)
    rw [ha, hb]; rfl

private theorem vec_rel {n : Nat} (x : Fin n → Int) :
    List.Forall₂ (fun (c : Comp (Fixed.ops m p N)) (k : Chk m p) => c.res = k.res)
      (List.ofFn fun i => raw m p N (x i)) ((List.ofFn x).map Chk.of) := by
  rw [List.forall₂_iff_get]
  refine ⟨by simp, fun i h1 h2 => ?_⟩
  simp only [List.get_eq_getElem, List.getElem_ofFn, List.getElem_map]
  rfl

/-- A computation that tracks `z`: in debug builds it is `z` or a panic, and if it does not panic there,
it is `z` in both builds. -/
private theorem outcome (hp : 0 < p.bits) {r : Mode → Res Int} {z : Int} {q : ℚ}
    (ht : ∀ m, Tracks m p (r m) z) (hq : fval N z = q) : Outcome p N r q := by
  obtain ⟨t1, t2, -, t4⟩ := ht .debug
  cases hd : r .debug with
  | hang => exact absurd hd t1
  | panic => exact .inl hd
  | ok v =>
    refine .inr ⟨v, hd, ?_, (t2 v hd).1, by rw [t4 rfl v hd, hq]⟩
    obtain ⟨w, hw⟩ := (ht .release).2.2.1 rfl
    obtain ⟨h2, h3⟩ := (ht .release).2.1 w hw
    have h4 := (t2 v hd).2
    rw [hw, Prim.eq_of_dvd hp h2 (t2 v hd).1]
    exact Int.modEq_iff_dvd.mp (h4.trans h3.symm)

/-- C139 is violated for every positive number of fractional bits: the scalar product, the matrix product
and the complex product of 1 and 1 are `2^N`. -/
theorem C139_violated (m : Mode) (p : Prim) (N : Nat) (hN : 0 < N) (h : 2 * N < p.bits)
    (hr : (2 : Int) ^ (2 * N) ≤ p.maxV) :
    ∃ o r, Fixed.one m p N = .ok o ∧ fval N o = 1 ∧ fval N r = 2 ^ N ∧
      (Vect.dotProduct [raw m p N o] [raw m p N o]).res = .ok r ∧
      Mat.mul 1 1 1 [[raw m p N o]] [[raw m p N o]] = .ok [[raw m p N r]] ∧
      (Complex.mul ⟨raw m p N o, raw m p N 0⟩ ⟨raw m p N o, raw m p N 0⟩).real.res = .ok r := by
  have hb : 0 < p.bits := by omega
  have h1 : (2 : Int) ^ N < 2 ^ (2 * N) := pow_lt_pow_right₀ (by norm_num) (by omega)
  have e : (2 : Int) ^ N * 2 ^ N = 2 ^ (2 * N) := by rw [two_mul, pow_add]
  have hmin : p.minV ≤ 0 := (zero_inRange hb).1
  have h2 : (0 : Int) < 2 ^ N := by positivity
  have ir : p.InRange (2 ^ (2 * N)) := ⟨by omega, hr⟩
  have i0 := zero_inRange hb
  have mm : Fixed.mul m p (2 ^ N) (2 ^ N) = .ok (2 ^ (2 * N)) := by
    unfold Fixed.mul; rw [e]; exact Verif.arith_ok ir
  have m0 : Fixed.mul m p 0 0 = .ok 0 := Verif.arith_ok (by rw [mul_zero]; exact i0)
  have s0 : Fixed.sub m p (2 ^ (2 * N)) 0 = .ok (2 ^ (2 * N)) := by
    unfold Fixed.sub; rw [sub_zero]; exact Verif.arith_ok ir
  have a0 : Fixed.add m p 0 (2 ^ (2 * N)) = .ok (2 ^ (2 * N)) := by
    unfold Fixed.add; rw [zero_add]; exact Verif.arith_ok ir
  refine ⟨2 ^ N, 2 ^ (2 * N), Fixed.maxV_pow (by omega) (by omega) m, ?_, ?_, ?_, ?_, ?_⟩
  · unfold fval; push_cast; field_simp
  · unfold fval; push_cast; rw [two_mul, pow_add]; field_simp
  · change ((Res.ok 0).bind fun x => (Fixed.mul m p (2 ^ N) (2 ^ N)).bind fun y =>
      Fixed.add m p x y) = _
    rw [mm]; exact a0
  · change Res.ok [[(⟨Fixed.mul m p (2 ^ N) (2 ^ N)⟩ : Comp (Fixed.ops m p N))]] = _
    rw [mm]; rfl
  · change ((Fixed.mul m p (2 ^ N) (2 ^ N)).bind fun x => (Fixed.mul m p 0 0).bind fun y =>
      Fixed.sub m p x y) = _
    rw [mm, m0]; exact s0

/-- A vector of fixed-point numbers with given raw values. -/
abbrev vecOf (m : Mode) (p : Prim) (N : Nat) {n : Nat} (x : Fin n → Int) : List (Comp (Fixed.ops m p N)) :=
  List.ofFn fun i => raw m p N (x i)

private theorem fval_sum {n : Nat} (z : Fin n → Int) : fval N (∑ i, z i) = ∑ i, fval N (z i) := by
  unfold fval; push_cast; rw [Finset.sum_div]

private theorem fval_mul (x y : Int) : fval N (x * y) = 2 ^ N * (fval N x * fval N y) := by
  unfold fval; push_cast; field_simp

/-- C139 for `sum`: exact, or a panic of debug builds, which happens exactly if a partial sum overflows. -/
theorem C139_sum (p : Prim) (N : Nat) (hp : 0 < p.bits) {n : Nat} (x : Fin n → Int)
    (hx : ∀ i, p.InRange (x i)) :
    ∃ s : ∀ m, Comp (Fixed.ops m p N), (∀ m, Vect.sum n (vecOf m p N x) = some (s m)) ∧
      Outcome p N (fun m => (s m).res) (∑ i, fval N (x i)) ∧
      ((s .debug).res = .panic ↔ ¬ SumsFit p (List.ofFn x)) := by
  have key : ∀ m, ((vecOf m p N x).foldl (fun a v => a + v) 0).res =
      (((List.ofFn x).map (Chk.of (m := m) (p := p))).foldl (fun a v => a + v) 0).res := fun m =>
    foldl_rel semi.add (vec_rel x) semi.zero
  have hl : (List.ofFn x).length = n := by simp
  have c := fun m => C123_sum m p hp (List.ofFn x) (by
    intro z hz
    obtain ⟨i, rfl⟩ := (List.mem_ofFn' x z).1 hz
    exact hx i)
  have c' := fun m => (Vect.C77_others (List.ofFn x).length ((List.ofFn x).map (Chk.of (m := m) (p := p)))
    (by simp) 0).2.2.1
  refine ⟨_, fun m => (Vect.C77_others n (vecOf m p N x) (by simp) 0).2.2.1, ?_, ?_⟩
  · refine outcome (z := (List.ofFn x).sum) hp (fun m => ?_) (by rw [List.sum_ofFn, fval_sum])
    obtain ⟨s, h1, h2, -⟩ := c m
    rw [c' m] at h1
    cases h1
    rw [key]; exact h2
  · obtain ⟨s, h1, h2, h3⟩ := c .debug
    rw [c' .debug] at h1
    cases h1
    rw [key, ← h3 rfl]
    cases hr : (((List.ofFn x).map (Chk.of (m := .debug) (p := p))).foldl (fun a v => a + v) 0).res with
    | ok v => simp
    | panic => simp
    | hang => exact absurd hr h2.1

example := C139_sum ⟨true, 8⟩ 4 (by decide) ![100, 20, -30] (by decide)

/-- C139 for `dot_product`, what the code does: a panic in debug builds, exactly if a product or a partial sum
of the raw values overflows, or `2^N` times the exact result. Missing: the exact result for `0 < N`. -/
theorem C139_dot_partial (p : Prim) (N : Nat) (hp : 0 < p.bits) {n : Nat} (x y : Fin n → Int) :
    Outcome p N (fun m => (Vect.dotProduct (vecOf m p N x) (vecOf m p N y)).res)
      (2 ^ N * ∑ i, fval N (x i) * fval N (y i)) ∧
    ((Vect.dotProduct (vecOf .debug p N x) (vecOf .debug p N y)).res = .panic ↔
      ¬ SumsFit p (List.ofFn fun i => x i * y i)) := by
  have key : ∀ m, (Vect.dotProduct (vecOf m p N x) (vecOf m p N y)).res =
      (Vect.dotProduct ((List.ofFn x).map (Chk.of (m := m) (p := p))) ((List.ofFn y).map Chk.of)).res :=
    fun m => semi.dot (vec_rel x) (vec_rel y)
  have c := fun m => C123_dot m p hp (List.ofFn x) (List.ofFn y)
  rw [Vect.zipWith_ofFn] at c
  constructor
  · refine outcome (z := ∑ i, x i * y i) hp (fun m => ?_) ?_
    · rw [key, ← List.sum_ofFn]; exact (c m).1
    · rw [fval_sum, Finset.mul_sum]
      exact Finset.sum_congr rfl fun i _ => fval_mul _ _
  · rw [key, ← (c .debug).2 rfl]
    cases hr : (Vect.dotProduct ((List.ofFn x).map (Chk.of (m := .debug) (p := p)))
      ((List.ofFn y).map Chk.of)).res with
    | ok v => simp
    | panic => simp
    | hang => exact absurd hr (c .debug).1.1

example : (Vect.dotProduct (vecOf .debug ⟨true, 8⟩ 4 ![100]) (vecOf .debug ⟨true, 8⟩ 4 ![2])).res = .panic :=
  (C139_dot_partial ⟨true, 8⟩ 4 (by decide) ![100] ![2]).2.2
    fun h => absurd (h.1 200 (by decide)) (by decide)

/-- C139 for matrix products, what the code does: likewise for each entry. -/
theorem C139_matrix_partial (p : Prim) (N : Nat) (hp : 0 < p.bits) {R C D : Nat} (hC : 0 < C)
    (A : Matrix (Fin R) (Fin C) Int) (B : Matrix (Fin C) (Fin D) Int)
    (a b : ∀ m, List (List (Comp (Fixed.ops m p N))))
    (ha : ∀ m, MatOf (a m) (A.map (raw m p N))) (hb : ∀ m, MatOf (b m) (B.map (raw m p N))) :
    ∃ (c : ∀ m, List (List (Comp (Fixed.ops m p N))))
      (P : ∀ m, Matrix (Fin R) (Fin D) (Comp (Fixed.ops m p N))),
      (∀ m, Mat.mul R C D (a m) (b m) = .ok (c m) ∧ MatOf (c m) (P m)) ∧
      ∀ i j, Outcome p N (fun m => (P m i j).res) (2 ^ N * ∑ k, fval N (A i k) * fval N (B k j)) ∧
        ((P .debug i j).res = .panic ↔ ¬ SumsFit p (List.ofFn fun k => A i k * B k j)) := by
  choose c h1 h2 using fun m => mul_fold hC (ha m) (hb m)
  refine ⟨c, _, fun m => ⟨h1 m, h2 m⟩, fun i j => ?_⟩
  have key : ∀ m, (entry (A.map (raw m p N)) (B.map (raw m p N)) i j).res =
      (entry (A.map (Chk.of (m := m) (p := p))) (B.map Chk.of) i j).res := fun m =>
    semi.entry (fun _ _ => rfl) (fun _ _ => rfl) i j
  have tr : ∀ m, Tracks m p (entry (A.map (Chk.of (m := m) (p := p))) (B.map Chk.of) i j).res ((A * B) i j) ∧
      (m = .debug → ((∃ v, (entry (A.map (Chk.of (m := m) (p := p))) (B.map Chk.of) i j).res = .ok v) ↔
          SumsFit p (List.ofFn fun k => A i k * B k j))) := by
    intro m
    let X : List (List (Chk m p)) := List.ofFn fun i => List.ofFn fun j => (A.map Chk.of) i j
    let Y : List (List (Chk m p)) := List.ofFn fun i => List.ofFn fun j => (B.map Chk.of) i j
    obtain ⟨c', P, e1, e2, e3⟩ := C123_matrix_mul m p hp hC (a := X) (b := Y) A B rfl rfl
    obtain ⟨d, e4, e5⟩ := mul_fold hC (a := X) (b := Y) (A := A.map Chk.of) (B := B.map Chk.of) rfl rfl
    rw [e1] at e4
    cases e4
    have := matOf_inj e2 e5
    have h := e3 i j
    rw [this] at h
    exact h
  constructor
  · refine outcome (z := (A * B) i j) hp (fun m => ?_) ?_
    · rw [key]; exact (tr m).1
    · rw [Matrix.mul_apply, fval_sum, Finset.mul_sum]
      exact Finset.sum_congr rfl fun k _ => fval_mul _ _
  · rw [key, ← (tr .debug).2 rfl]
    cases hr : (entry (A.map (Chk.of (m := .debug) (p := p))) (B.map Chk.of) i j).res with
    | ok v => simp
    | panic => simp
    | hang => exact absurd hr (tr .debug).1.1

/-- C139 for sums and differences of matrices: each entry is exact, or panics in debug builds, exactly if it
is not representable. -/
theorem C139_matrix_add (p : Prim) (N : Nat) (hp : 0 < p.bits) {R C : Nat} (A B : Matrix (Fin R) (Fin C) Int)
    (hA : ∀ i j, p.InRange (A i j)) (hB : ∀ i j, p.InRange (B i j))
    (a b : ∀ m, List (List (Comp (Fixed.ops m p N))))
    (ha : ∀ m, MatOf (a m) (A.map (raw m p N))) (hb : ∀ m, MatOf (b m) (B.map (raw m p N))) :
    (∃ (c : ∀ m, List (List (Comp (Fixed.ops m p N))))
      (P : ∀ m, Matrix (Fin R) (Fin C) (Comp (Fixed.ops m p N))),
      (∀ m, Mat.add R C (a m) (b m) = some (c m) ∧ MatOf (c m) (P m)) ∧
      ∀ i j, Outcome p N (fun m => (P m i j).res) (fval N (A i j) + fval N (B i j))) ∧
    (∃ (c : ∀ m, List (List (Comp (Fixed.ops m p N))))
      (P : ∀ m, Matrix (Fin R) (Fin C) (Comp (Fixed.ops m p N))),
      (∀ m, Mat.sub R C (a m) (b m) = some (c m) ∧ MatOf (c m) (P m)) ∧
      ∀ i j, Outcome p N (fun m => (P m i j).res) (fval N (A i j) - fval N (B i j))) := by
  choose c h1 h2 using fun m => rowsOp_spec (· + ·) (ha m) (hb m)
  choose d h3 h4 using fun m => rowsOp_spec (· - ·) (ha m) (hb m)
  refine ⟨⟨c, _, fun m => ⟨h1 m, h2 m⟩, fun i j => ?_⟩, ⟨d, _, fun m => ⟨h3 m, h4 m⟩, fun i j => ?_⟩⟩
  · exact outcome hp (fun m => tracks_add hp (tracks_of (m := m) (hA i j)) (tracks_of (hB i j)))
      (by unfold fval; push_cast; ring)
  · exact outcome hp (fun m => tracks_sub hp (tracks_of (m := m) (hA i j)) (tracks_of (hB i j)))
      (by unfold fval; push_cast; ring)

/-- C139 for complex numbers and `cross`, what the code does: sums and differences are exact, products and
`abs_squared` are `2^N` times the exact result, or debug builds panic. Missing: exact products for
`0 < N`. -/
theorem C139_complex_partial (p : Prim) (N : Nat) (hp : 0 < p.bits) (x y z u v w : Int)
    (hr : ∀ t ∈ [x, y, z, u, v, w], p.InRange t) :
    let c := fun m => raw m p N
    let f := fval N
    (Outcome p N (fun m => (Complex.add ⟨c m x, c m y⟩ ⟨c m u, c m v⟩).real.res) (f x + f u) ∧
      Outcome p N (fun m => (Complex.add ⟨c m x, c m y⟩ ⟨c m u, c m v⟩).imag.res) (f y + f v)) ∧
    (Outcome p N (fun m => (Complex.sub ⟨c m x, c m y⟩ ⟨c m u, c m v⟩).real.res) (f x - f u) ∧
      Outcome p N (fun m => (Complex.sub ⟨c m x, c m y⟩ ⟨c m u, c m v⟩).imag.res) (f y - f v)) ∧
    (Outcome p N (fun m => (Complex.mul ⟨c m x, c m y⟩ ⟨c m u, c m v⟩).real.res)
        (2 ^ N * (f x * f u - f y * f v)) ∧
      Outcome p N (fun m => (Complex.mul ⟨c m x, c m y⟩ ⟨c m u, c m v⟩).imag.res)
        (2 ^ N * (f x * f v + f u * f y))) ∧
    Outcome p N (fun m => (Complex.absSquared ⟨c m x, c m y⟩).res) (2 ^ N * (f x * f x + f y * f y)) ∧
    ∃ c₁ c₂ c₃ : ∀ m, Comp (Fixed.ops m p N),
      (∀ m, Vect.cross [c m x, c m y, c m z] [c m u, c m v, c m w] = [c₁ m, c₂ m, c₃ m]) ∧
      Outcome p N (fun m => (c₁ m).res) (2 ^ N * (f y * f w - f z * f v)) ∧
      Outcome p N (fun m => (c₂ m).res) (2 ^ N * (f z * f u - f x * f w)) ∧
      Outcome p N (fun m => (c₃ m).res) (2 ^ N * (f x * f v - f y * f u)) := by
  simp only [List.mem_cons, List.not_mem_nil, or_false, forall_eq_or_imp, forall_eq] at hr
  obtain ⟨hx, hy, hz, hu, hv, hw⟩ := hr
  have T := fun (m : Mode) {t : Int} (h : p.InRange t) => tracks_of (m := m) h
  refine ⟨⟨?_, ?_⟩, ⟨?_, ?_⟩, ⟨?_, ?_⟩, ?_, ⟨_, _, _, fun _ => rfl, ?_, ?_, ?_⟩⟩
  · exact outcome hp (fun m => tracks_add hp (T m hx) (T m hu)) (by unfold fval; push_cast; ring)
  · exact outcome hp (fun m => tracks_add hp (T m hy) (T m hv)) (by unfold fval; push_cast; ring)
  · exact outcome hp (fun m => tracks_sub hp (T m hx) (T m hu)) (by unfold fval; push_cast; ring)
  · exact outcome hp (fun m => tracks_sub hp (T m hy) (T m hv)) (by unfold fval; push_cast; ring)
  · exact outcome hp (fun m => tracks_sub hp (tracks_mul hp (T m hx) (T m hu)) (tracks_mul hp (T m hy) (T m hv)))
      (by unfold fval; push_cast; field_simp)
  · exact outcome hp (fun m => tracks_add hp (tracks_mul hp (T m hx) (T m hv)) (tracks_mul hp (T m hu) (T m hy)))
      (by unfold fval; push_cast; field_simp)
  · exact outcome hp (fun m => tracks_add hp (tracks_mul hp (T m hx) (T m hx)) (tracks_mul hp (T m hy) (T m hy)))
      (by unfold fval; push_cast; field_simp)
  · exact outcome hp (fun m => tracks_sub hp (tracks_mul hp (T m hy) (T m hw)) (tracks_mul hp (T m hz) (T m hv)))
      (by unfold fval; push_cast; field_simp)
  · exact outcome hp (fun m => tracks_sub hp (tracks_mul hp (T m hz) (T m hu)) (tracks_mul hp (T m hx) (T m hw)))
      (by unfold fval; push_cast; field_simp)
  · exact outcome hp (fun m => tracks_sub hp (tracks_mul hp (T m hx) (T m hv)) (tracks_mul hp (T m hy) (T m hu)))
      (by unfold fval; push_cast; field_simp)

/-- C139 for `product`, what the code does: with the factor `2^N` for each component, the first being
multiplied by one. -/
theorem C139_product_partial (p : Prim) (N : Nat) (hp : 0 < p.bits) (hN : N < p.bits)
    (h1 : (2 : Int) ^ N ≤ p.maxV) {n : Nat} (x : Fin n → Int) (hx : ∀ i, p.InRange (x i)) :
    ∃ s : ∀ m, Comp (Fixed.ops m p N), (∀ m, Vect.product n (vecOf m p N x) = some (s m)) ∧
      Outcome p N (fun m => (s m).res) (2 ^ (N * n) * ∏ i, fval N (x i)) := by
  refine ⟨_, fun m => (Vect.C77_others n (vecOf m p N x) (by simp) 0).2.2.2.1, ?_⟩
  have hone : ∀ m, (1 : Comp (Fixed.ops m p N)).res = .ok (2 ^ N) := fun m => Fixed.maxV_pow hN h1 m
  have h0 := zero_inRange hp
  have ir : p.InRange (2 ^ N) := ⟨le_trans h0.1 (by positivity), h1⟩
  have key : ∀ (m : Mode) (l : List Int), (∀ z ∈ l, p.InRange z) → ∀ (c : Comp (Fixed.ops m p N)) (z : Int),
      Tracks m p c.res z →
      Tracks m p ((l.map (raw m p N)).foldl (fun a v => a * v) c).res (z * l.prod) := by
    intro m l
    induction l with
    | nil => intro _ c z h; simpa using h
    | cons w l ih =>
      intro hl c z h
      rw [List.map_cons, List.foldl_cons, List.prod_cons, ← mul_assoc]
      exact ih (fun z hz => hl z (List.mem_cons_of_mem _ hz)) _ _
        (tracks_mul (a := ⟨c.res⟩) hp h (tracks_of (hl w List.mem_cons_self)))
  refine outcome (z := 2 ^ N * (List.ofFn x).prod) hp (fun m => ?_) ?_
  · have := key m (List.ofFn x) (by
      intro z hz
      obtain ⟨i, rfl⟩ := (List.mem_ofFn' x z).1 hz
      exact hx i) 1 (2 ^ N) (by rw [hone]; exact tracks_of (m := m) ir)
    rw [List.map_ofFn] at this
    exact this
  · rw [List.prod_ofFn]
    unfold fval
    push_cast
    rw [Finset.prod_div_distrib, Finset.prod_const, Finset.card_univ, Fintype.card_fin, ← pow_mul]
    field_simp

-- 1.5 · 2 + 0.5 · 4 = 5 with two fractional bits comes out as 20; 1.5 + 2 = 3.5
example : (Vect.dotProduct (vecOf .debug ⟨true, 8⟩ 2 ![6, 2]) (vecOf .debug ⟨true, 8⟩ 2 ![8, 16])).res = .ok 80 ∧
    fval 2 80 = 20 ∧ SumsFit ⟨true, 8⟩ (List.ofFn fun i => (![6, 2] : Fin 2 → Int) i * ![8, 16] i) ∧
    (Vect.sum 2 (vecOf .debug ⟨true, 8⟩ 2 ![6, 8])).map Comp.res = some (.ok 14) := by
  refine ⟨by decide +kernel, by unfold fval; norm_num, ?_, by decide +kernel⟩
  refine ⟨by decide, by decide⟩

end Fixed

end Verif
