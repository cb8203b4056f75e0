import Verif.Lemmas.Checked
import Verif.Model.Complex
import Verif.Model.Fixed
import Verif.Props.Vector
import Verif.Props.Matrix

/-!
# Compound types over primitive integers (C123)

The theorems about vectors, matrices and complex numbers elsewhere are over exact components. Here the
components are machine integers, which overflow: values of the primitive integer types, or the raw
values of `Fixed<T, N>`, on which the operators are the ones of `T` (`C123_fixed`). The methods `sum`,
`dot_product` and `abs_squared` want `T: Real`, so they exist for the second kind only.
-/

namespace Verif

variable {m : Mode} {p : Prim}

/-- Components that are values. -/
abbrev vec (m : Mode) (p : Prim) (a : List Int) : List (Chk m p) := a.map Chk.of

/-- C123: `Fixed<T, N>` components are machine integers, by their raw values. -/
theorem C123_fixed (m : Mode) (p : Prim) (x y : Int) :
    (Chk.of x + Chk.of y : Chk m p).res = Fixed.add m p x y ∧
    (Chk.of x - Chk.of y : Chk m p).res = Fixed.sub m p x y ∧
    (Chk.of x * Chk.of y : Chk m p).res = Fixed.mul m p x y ∧
    (Chk.of x / Chk.of y : Chk m p).res = Fixed.div p x y ∧
    (Chk.of x % Chk.of y : Chk m p).res = Fixed.rem p x y ∧
    (0 : Chk m p).res = .ok Fixed.zero :=
  ⟨rfl, rfl, rfl, rfl, rfl, rfl⟩

/-- C123 for vectors: each component of `a + b`, `a - b`, `a * b`, `a / b`, `a % b` is what the machine
operation gives for the two components. -/
theorem C123_vector_ops (m : Mode) (p : Prim) (N : Nat) (a b : List Int) (ha : a.length = N)
    (hb : b.length = N) :
    (∃ o, Vect.add N (vec m p a) (vec m p b) = some o ∧ o.length = N ∧ ∀ i (h : i < N) (ho : i < o.length),
      o[i].res = Prim.arith m p (a[i] + b[i])) ∧
    (∃ o, Vect.sub N (vec m p a) (vec m p b) = some o ∧ o.length = N ∧ ∀ i (h : i < N) (ho : i < o.length),
      o[i].res = Prim.arith m p (a[i] - b[i])) ∧
    (∃ o, Vect.mul N (vec m p a) (vec m p b) = some o ∧ o.length = N ∧ ∀ i (h : i < N) (ho : i < o.length),
      o[i].res = Prim.arith m p (a[i] * b[i])) ∧
    (∃ o, Vect.div N (vec m p a) (vec m p b) = some o ∧ o.length = N ∧ ∀ i (h : i < N) (ho : i < o.length),
      o[i].res = Prim.div p a[i] b[i]) ∧
    (∃ o, Vect.rem N (vec m p a) (vec m p b) = some o ∧ o.length = N ∧ ∀ i (h : i < N) (ho : i < o.length),
      o[i].res = Prim.rem p a[i] b[i]) := by
  obtain ⟨⟨o1, e1, l1, h1⟩, ⟨o2, e2, l2, h2⟩, ⟨o3, e3, l3, h3⟩, ⟨o4, e4, l4, h4⟩, ⟨o5, e5, l5, h5⟩⟩ :=
    Vect.C77_ops N (vec m p a) (vec m p b) (by simpa using ha) (by simpa using hb)
  refine ⟨⟨o1, e1, l1, fun i h ho => ?_⟩, ⟨o2, e2, l2, fun i h ho => ?_⟩,
    ⟨o3, e3, l3, fun i h ho => ?_⟩, ⟨o4, e4, l4, fun i h ho => ?_⟩, ⟨o5, e5, l5, fun i h ho => ?_⟩⟩
  · obtain ⟨x, y, hx, hy, hv⟩ := h1 i h
    simp only [vec, List.getElem?_map, List.getElem?_eq_getElem (show i < a.length by omega),
      List.getElem?_eq_getElem (show i < b.length by omega), Option.map_some, Option.some.injEq] at hx hy
    rw [List.getElem?_eq_getElem ho, Option.some.injEq] at hv
    rw [hv, ← hx, ← hy]; rfl
  · obtain ⟨x, y, hx, hy, hv⟩ := h2 i h
    simp only [vec, List.getElem?_map, List.getElem?_eq_getElem (show i < a.length by omega),
      List.getElem?_eq_getElem (show i < b.length by omega), Option.map_some, Option.some.injEq] at hx hy
    rw [List.getElem?_eq_getElem ho, Option.some.injEq] at hv
    rw [hv, ← hx, ← hy]; rfl
  · obtain ⟨x, y, hx, hy, hv⟩ := h3 i h
    simp only [vec, List.getElem?_map, List.getElem?_eq_getElem (show i < a.length by omega),
      List.getElem?_eq_getElem (show i < b.length by omega), Option.map_some, Option.some.injEq] at hx hy
    rw [List.getElem?_eq_getElem ho, Option.some.injEq] at hv
    rw [hv, ← hx, ← hy]; rfl
  · obtain ⟨x, y, hx, hy, hv⟩ := h4 i h
    simp only [vec, List.getElem?_map, List.getElem?_eq_getElem (show i < a.length by omega),
      List.getElem?_eq_getElem (show i < b.length by omega), Option.map_some, Option.some.injEq] at hx hy
    rw [List.getElem?_eq_getElem ho, Option.some.injEq] at hv
    rw [hv, ← hx, ← hy]; rfl
  · obtain ⟨x, y, hx, hy, hv⟩ := h5 i h
    simp only [vec, List.getElem?_map, List.getElem?_eq_getElem (show i < a.length by omega),
      List.getElem?_eq_getElem (show i < b.length by omega), Option.map_some, Option.some.injEq] at hx hy
    rw [List.getElem?_eq_getElem ho, Option.some.injEq] at hv
    rw [hv, ← hx, ← hy]; rfl

example : Vect.add 2 (vec .debug ⟨true, 8⟩ [100, 3]) (vec .debug ⟨true, 8⟩ [28, -5]) = some [⟨.panic⟩, Chk.of (-2)] := by
  decide

private theorem zipWith_vec (a b : List Int) :
    List.zipWith (fun x y : Chk m p => x * y) (vec m p a) (vec m p b) =
      (List.zipWith (· * ·) a b).map fun z => ⟨Prim.arith m p z⟩ := by
  induction a generalizing b with
  | nil => rfl
  | cons x a ih => cases b with
    | nil => rfl
    | cons y b => simp only [vec, List.map_cons, List.zipWith_cons_cons] at ih ⊢; rw [ih]; rfl

private theorem forall₂_arith (hb : 0 < p.bits) (zs : List Int) :
    List.Forall₂ (fun (c : Chk m p) z => Tracks m p c.res z)
      (zs.map fun z => ⟨Prim.arith m p z⟩) zs := by
  induction zs with
  | nil => exact .nil
  | cons z zs ih => exact .cons (tracks_arith hb rfl fun _ => rfl) ih

private theorem inRange_zero (hb : 0 < p.bits) : p.InRange 0 := by
  have h1 : (1 : Int) ≤ 2 ^ (p.bits - 1) := one_le_pow₀ (by norm_num)
  have h2 : (1 : Int) ≤ 2 ^ p.bits := one_le_pow₀ (by norm_num)
  unfold Prim.InRange Prim.minV Prim.maxV
  cases p.signed <;> simp <;> omega

/-- C123 for `dot_product`: in release builds congruent to the exact scalar product, in debug builds
exact or a panic, and a panic exactly if one of the products or one of the partial sums (from the
left) overflows. -/
theorem C123_dot (m : Mode) (p : Prim) (hp : 0 < p.bits) (a b : List Int) :
    Tracks m p (Vect.dotProduct (vec m p a) (vec m p b)).res (List.zipWith (· * ·) a b).sum ∧
    (m = .debug → ((∃ v, (Vect.dotProduct (vec m p a) (vec m p b)).res = .ok v) ↔
      SumsFit p (List.zipWith (· * ·) a b))) := by
  have e : Vect.dotProduct (vec m p a) (vec m p b) =
      ((List.zipWith (· * ·) a b).map fun z => (⟨Prim.arith m p z⟩ : Chk m p)).foldl
        (fun a v => a + v) (Chk.of 0) := by
    unfold Vect.dotProduct
    rw [Vect.stdZip_map (fun x y => x * y), zipWith_vec]
    rfl
  rw [e]
  constructor
  · have := tracks_foldl hp _ _ (forall₂_arith (m := m) hp (List.zipWith (· * ·) a b))
      (Chk.of 0) 0 (tracks_of (inRange_zero hp))
    rwa [zero_add] at this
  · rintro rfl
    rw [foldl_debug _ _ (inRange_zero hp)]
    unfold SumsFit
    simp only [zero_add]

/-- C123 for `sum`: likewise. -/
theorem C123_sum (m : Mode) (p : Prim) (hp : 0 < p.bits) (a : List Int)
    (ha : ∀ x ∈ a, p.InRange x) :
    ∃ s, Vect.sum a.length (vec m p a) = some s ∧ Tracks m p s.res a.sum ∧
      (m = .debug → ((∃ v, s.res = .ok v) ↔ SumsFit p a)) := by
  have h := (Vect.C77_others a.length (vec m p a) (by simp) 0).2.2.1
  have e : vec m p a = a.map fun z => (⟨Prim.arith m p z⟩ : Chk m p) := by
    apply List.map_congr_left
    intro x hx
    rw [arith_ok (ha x hx)]; rfl
  refine ⟨_, h, ?_, ?_⟩
  · rw [e]
    have := tracks_foldl hp _ _ (forall₂_arith (m := m) hp a) (Chk.of 0) 0
      (tracks_of (inRange_zero hp))
    rwa [zero_add] at this
  · rintro rfl
    rw [e]
    have := foldl_debug (p := p) a 0 (inRange_zero hp)
    simp only [zero_add] at this
    exact this

example := C123_sum .debug ⟨true, 8⟩ (by decide) [100, 20, -30] (by decide)

/-- C123 for `cross`. -/
theorem C123_cross (m : Mode) (p : Prim) (hp : 0 < p.bits) (x y z u v w : Int)
    (hr : ∀ t ∈ [x, y, z, u, v, w], p.InRange t) :
    ∃ c₁ c₂ c₃, Vect.cross (vec m p [x, y, z]) (vec m p [u, v, w]) = [c₁, c₂, c₃] ∧
      Tracks m p c₁.res (y * w - z * v) ∧ Tracks m p c₂.res (z * u - x * w) ∧
      Tracks m p c₃.res (x * v - y * u) := by
  simp only [List.mem_cons, List.not_mem_nil, or_false, forall_eq_or_imp, forall_eq] at hr
  obtain ⟨hx, hy, hz, hu, hv, hw⟩ := hr
  refine ⟨_, _, _, rfl, ?_, ?_, ?_⟩ <;>
    exact tracks_sub hp (tracks_mul hp (tracks_of ‹_›) (tracks_of ‹_›))
      (tracks_mul hp (tracks_of ‹_›) (tracks_of ‹_›))

example := C123_cross .release ⟨true, 8⟩ (by decide) 1 2 3 100 (-5) 6 (by decide)

/-- C123 for complex numbers (Gaussian integers): `+`, `-`, `*` and `abs_squared`. -/
theorem C123_complex (m : Mode) (p : Prim) (hp : 0 < p.bits) (x y u v : Int)
    (hr : ∀ t ∈ [x, y, u, v], p.InRange t) :
    let a : Complex (Chk m p) := ⟨Chk.of x, Chk.of y⟩
    let b : Complex (Chk m p) := ⟨Chk.of u, Chk.of v⟩
    (Tracks m p (Complex.add a b).real.res (x + u) ∧ Tracks m p (Complex.add a b).imag.res (y + v)) ∧
    (Tracks m p (Complex.sub a b).real.res (x - u) ∧ Tracks m p (Complex.sub a b).imag.res (y - v)) ∧
    (Tracks m p (Complex.mul a b).real.res (x * u - y * v) ∧
      Tracks m p (Complex.mul a b).imag.res (x * v + u * y)) ∧
    Tracks m p (Complex.absSquared a).res (x * x + y * y) := by
  simp only [List.mem_cons, List.not_mem_nil, or_false, forall_eq_or_imp, forall_eq] at hr
  obtain ⟨hx, hy, hu, hv⟩ := hr
  refine ⟨⟨?_, ?_⟩, ⟨?_, ?_⟩, ⟨?_, ?_⟩, ?_⟩
  · exact tracks_add hp (tracks_of hx) (tracks_of hu)
  · exact tracks_add hp (tracks_of hy) (tracks_of hv)
  · exact tracks_sub hp (tracks_of hx) (tracks_of hu)
  · exact tracks_sub hp (tracks_of hy) (tracks_of hv)
  · exact tracks_sub hp (tracks_mul hp (tracks_of hx) (tracks_of hu))
      (tracks_mul hp (tracks_of hy) (tracks_of hv))
  · exact tracks_add hp (tracks_mul hp (tracks_of hx) (tracks_of hv))
      (tracks_mul hp (tracks_of hu) (tracks_of hy))
  · exact tracks_add hp (tracks_mul hp (tracks_of hx) (tracks_of hx))
      (tracks_mul hp (tracks_of hy) (tracks_of hy))

private theorem zero_add_arith (hp : 0 < p.bits) (z : Int) :
    (Chk.of 0 + ⟨Prim.arith m p z⟩ : Chk m p) = ⟨Prim.arith m p z⟩ := by
  change (⟨(Prim.arith m p z).bind fun y => Prim.arith m p (0 + y)⟩ : Chk m p) = _
  congr 1
  simp only [zero_add]
  cases m with
  | release =>
    rw [arith_release hp]
    simp only [Res.bind]
    rw [arith_ok (Prim.wrap_spec hp z).1]
  | debug =>
    by_cases h : p.InRange z
    · rw [arith_ok h]; exact arith_ok (m := .debug) h
    · rw [arith_debug h]; rfl

/-- One entry of the product. -/
private theorem mulEntry_chk (hp : 0 < p.bits) {R C D : Nat} (f g : Nat → Nat → Int) (hC : 0 < C)
    {i j : Nat} (hi : i < R) (hj : j < D) :
    Mat.mulEntry C (rowsOf R C fun i k => (Chk.of (f i k) : Chk m p))
        (rowsOf C D fun k j => (Chk.of (g k j) : Chk m p)) i j =
      .ok ((((List.range C).map fun k => f i k * g k j).map fun z =>
        (⟨Prim.arith m p z⟩ : Chk m p)).foldl (fun a v => a + v) (Chk.of 0)) := by
  have key : ∀ n, n + 1 ≤ C → forUpM n (fun k out =>
      (Mat.get (rowsOf R C fun i k => (Chk.of (f i k) : Chk m p)) i (k + 1)).bind fun x =>
        (Mat.get (rowsOf C D fun k j => (Chk.of (g k j) : Chk m p)) (k + 1) j).bind fun y =>
          Res.ok (out + x * y))
      (Chk.of (f i 0) * Chk.of (g 0 j)) =
      .ok ((((List.range (n + 1)).map fun k => f i k * g k j).map fun z =>
        (⟨Prim.arith m p z⟩ : Chk m p)).foldl (fun a v => a + v) (Chk.of 0)) := by
    intro n
    induction n with
    | zero =>
      intro _
      rw [show List.range (0 + 1) = [0] from rfl]
      simp only [forUpM, List.map_cons, List.map_nil, List.foldl_cons, List.foldl_nil]
      rw [zero_add_arith hp]; rfl
    | succ n ih =>
      intro hn
      rw [forUpM, ih (by omega)]
      simp only [Res.bind]
      rw [mat_get _ hi (by omega), mat_get _ (by omega) hj]
      simp only
      rw [List.range_succ (n := n + 1), List.map_append, List.map_append, List.foldl_append]
      rfl
  unfold Mat.mulEntry
  rw [mat_get _ hi hC, mat_get _ hC hj]
  simp only [Res.bind] at key ⊢
  have := key (C - 1) (by omega)
  rw [show C - 1 + 1 = C by omega] at this
  exact this

private theorem extend_of {R C : Nat} (A : Matrix (Fin R) (Fin C) Int) :
    extend (A.map (Chk.of : Int → Chk m p)) = fun i j => Chk.of (extend A i j) := by
  funext i j
  unfold extend
  split <;> rfl

/-- C123 for matrix products: every entry is in release builds congruent to the entry of the exact
product, in debug builds exact or a panic, and a panic exactly if one of its products or partial sums
overflows. -/
theorem C123_matrix_mul (m : Mode) (p : Prim) (hp : 0 < p.bits) {R C D : Nat} (hC : 0 < C)
    {a b : List (List (Chk m p))} (A : Matrix (Fin R) (Fin C) Int) (B : Matrix (Fin C) (Fin D) Int)
    (ha : MatOf a (A.map Chk.of)) (hb : MatOf b (B.map Chk.of)) :
    ∃ (c : List (List (Chk m p))) (P : Matrix (Fin R) (Fin D) (Chk m p)),
      Mat.mul R C D a b = .ok c ∧ MatOf c P ∧
      ∀ i j, Tracks m p (P i j).res ((A * B) i j) ∧
        (m = .debug → ((∃ v, (P i j).res = .ok v) ↔
          SumsFit p (List.ofFn fun k => A i k * B k j))) := by
  let F : Nat → Nat → Chk m p := fun i j =>
    (((List.range C).map fun k => extend A i k * extend B k j).map fun z =>
        (⟨Prim.arith m p z⟩ : Chk m p)).foldl (fun a v => a + v) (Chk.of 0)
  refine ⟨rowsOf R D F, fun i j => F i j, ?_, rowsOf_matOf R D F, fun i j => ?_⟩
  · rw [matOf_rowsOf ha, matOf_rowsOf hb, extend_of, extend_of]
    unfold Mat.mul
    rw [fromFnM_eq R _ (fun i => (List.range D).map fun j => F i j)]
    · rfl
    · intro i hi
      exact fromFnM_eq D _ _ fun j hj => mulEntry_chk hp _ _ hC hi hj
  · have el : ((List.range C).map fun k => extend A i k * extend B k j) =
        List.ofFn fun k => A i k * B k j := by
      rw [← ofFn_eq_range]
      simp only [extend_apply]
    have eF : F i j = ((List.ofFn fun k => A i k * B k j).map fun z =>
        (⟨Prim.arith m p z⟩ : Chk m p)).foldl (fun a v => a + v) (Chk.of 0) := by
      simp only [F]; rw [el]
    change Tracks m p (F i j).res _ ∧ (m = .debug → ((∃ v, (F i j).res = .ok v) ↔ _))
    rw [eF]
    constructor
    · have := tracks_foldl hp _ _ (forall₂_arith (m := m) hp (List.ofFn fun k => A i k * B k j))
        (Chk.of 0) 0 (tracks_of (inRange_zero hp))
      rw [zero_add, List.sum_ofFn] at this
      exact this
    · rintro rfl
      have := foldl_debug (p := p) (List.ofFn fun k => A i k * B k j) 0 (inRange_zero hp)
      simp only [zero_add] at this
      exact this

/-- C123 for sums and differences of matrices: entry by entry. -/
theorem C123_matrix_add (m : Mode) (p : Prim) {R C : Nat} {a b : List (List (Chk m p))}
    (A B : Matrix (Fin R) (Fin C) Int) (ha : MatOf a (A.map Chk.of)) (hb : MatOf b (B.map Chk.of)) :
    (∃ c P, Mat.add R C a b = some c ∧ MatOf c P ∧
      ∀ i j, (P i j).res = Prim.arith m p (A i j + B i j)) ∧
    (∃ c P, Mat.sub R C a b = some c ∧ MatOf c P ∧
      ∀ i j, (P i j).res = Prim.arith m p (A i j - B i j)) := by
  obtain ⟨c, e, h⟩ := rowsOp_spec (· + ·) ha hb
  obtain ⟨d, e', h'⟩ := rowsOp_spec (· - ·) ha hb
  exact ⟨⟨c, _, e, h, fun _ _ => rfl⟩, ⟨d, _, e', h', fun _ _ => rfl⟩⟩

private theorem arith_mul_one {x : Int} (hx : p.InRange x) : Prim.arith m p (x * 1) = .ok x := by
  rw [mul_one]; exact arith_ok hx

/-- C123 for `one`: multiplying a complex number by it changes nothing and does not overflow, and the
identity matrix has the machine numbers 1 and 0 as entries. -/
theorem C123_one (m : Mode) (p : Prim) (hp : 0 < p.bits) (x y : Int) (hx : p.InRange x)
    (hy : p.InRange y) (R : Nat) :
    Complex.mul (⟨Chk.of x, Chk.of y⟩ : Complex (Chk m p)) Complex.one = ⟨Chk.of x, Chk.of y⟩ ∧
    MatOf (Mat.one R R : List (List (Chk m p))) ((1 : Matrix (Fin R) (Fin R) Int).map Chk.of) := by
  have h0 : ∀ z, Prim.arith m p (z * 0) = .ok 0 := fun z => by
    rw [mul_zero]; exact arith_ok (inRange_zero hp)
  have e1 : ∀ {z : Int}, p.InRange z → (Chk.of z * 1 : Chk m p) = Chk.of z := fun hz =>
    congrArg Chk.mk (arith_mul_one hz)
  have e0 : ∀ z : Int, (Chk.of z * 0 : Chk m p) = Chk.of 0 := fun z => congrArg Chk.mk (h0 z)
  have e2 : (1 * Chk.of y : Chk m p) = Chk.of y :=
    congrArg Chk.mk (by change Prim.arith m p (1 * y) = _; rw [one_mul]; exact arith_ok hy)
  have e3 : (Chk.of x - Chk.of 0 : Chk m p) = Chk.of x :=
    congrArg Chk.mk (by change Prim.arith m p (x - 0) = _; rw [sub_zero]; exact arith_ok hx)
  have e4 : (Chk.of 0 + Chk.of y : Chk m p) = Chk.of y :=
    congrArg Chk.mk (by change Prim.arith m p (0 + y) = _; rw [zero_add]; exact arith_ok hy)
  constructor
  · unfold Complex.mul Complex.one Complex.fromReal
    simp only [e1 hx, e0, e2, e3, e4]
  · have : (Mat.one R R : List (List (Chk m p))) =
        rowsOf R R fun i j => Chk.of (if i = j then 1 else 0) := by
      unfold Mat.one rowsOf
      apply List.map_congr_left
      intro i _
      apply List.map_congr_left
      intro j _
      by_cases h : i = j
      · simp only [if_pos h]; rfl
      · simp only [if_neg h]; rfl
    have e : ((1 : Matrix (Fin R) (Fin R) Int).map Chk.of : Matrix _ _ (Chk m p)) =
        fun (i j : Fin R) => (Chk.of (if (i : Nat) = j then 1 else 0) : Chk m p) := by
      funext i j
      simp only [Matrix.map_apply, Matrix.one_apply, Fin.ext_iff]
    rw [this, e]
    exact rowsOf_matOf R R (fun i j => (Chk.of (if i = j then 1 else 0) : Chk m p))

/-! Non-trivial cases: a scalar product that fits, one of which only a partial sum overflows, and what
release builds make of it. -/

example : (Vect.dotProduct (vec .debug ⟨true, 8⟩ [100, 27]) (vec .debug ⟨true, 8⟩ [1, 1])).res = .ok 127 ∧
    SumsFit ⟨true, 8⟩ (List.zipWith (· * ·) [100, 27] [1, 1]) := by
  refine ⟨by decide, (C123_dot .debug ⟨true, 8⟩ (by decide) [100, 27] [1, 1]).2 rfl |>.mp ⟨127, by decide⟩⟩

example : (Vect.dotProduct (vec .debug ⟨true, 8⟩ [100, 100, -100]) (vec .debug ⟨true, 8⟩ [1, 1, 1])).res =
      .panic ∧
    (Vect.dotProduct (vec .release ⟨true, 8⟩ [100, 100, -100]) (vec .release ⟨true, 8⟩ [1, 1, 1])).res =
      .ok 100 := by decide

example : (Complex.mul (⟨Chk.of 11, Chk.of 2⟩ : Complex (Chk .release ⟨true, 8⟩)) ⟨Chk.of 11, Chk.of (-1)⟩).real.res =
    .ok 123 := by decide

example : Mat.mul 1 2 1 ([[Chk.of 100, Chk.of 2]] : List (List (Chk .release ⟨false, 8⟩))) [[Chk.of 2], [Chk.of 30]] =
    .ok [[Chk.of 4]] := by decide

end Verif
