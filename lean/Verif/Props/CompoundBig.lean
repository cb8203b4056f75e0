import Verif.Spec.CompoundNums
import Verif.Model.CheckedNum
import Verif.Lemmas.Compound
import Verif.Props.Programs

/-!
# C136: vectors, matrices and complex numbers of `BigInt`
-/

namespace Verif

namespace BInt

/-- A component that is a value. -/
abbrev big (m : Mode) (x : BInt) : Comp (BInt.ops m) := Comp.of x

/-- C136 for vectors: each component of `a + b`, `a - b`, `a * b` and `a / b` is what the operator of
`BigInt` (C42-C44) gives for the two components. -/
theorem C136_vector_ops (m : Mode) {n : Nat} (a b : Fin n → BInt) :
    let vec := fun (v : Fin n → BInt) => List.ofFn fun i => big m (v i)
    Vect.add n (vec a) (vec b) = some (List.ofFn fun i => ⟨BInt.add (a i) (b i)⟩) ∧
    Vect.sub n (vec a) (vec b) = some (List.ofFn fun i => ⟨BInt.sub (a i) (b i)⟩) ∧
    Vect.mul n (vec a) (vec b) = some (List.ofFn fun i => ⟨BInt.mul (a i) (b i)⟩) ∧
    Vect.div n (vec a) (vec b) = some (List.ofFn fun i => ⟨BInt.div m (a i) (b i)⟩) := by
  have op : ∀ (f : Comp (ops m) → Comp (ops m) → Comp (ops m)),
      Vect.opVec f n (List.ofFn fun i => big m (a i)) (List.ofFn fun i => big m (b i)) =
        some (List.ofFn fun i => f (big m (a i)) (big m (b i))) := fun f => by
    rw [Vect.opVec_eq f (by simp) (by simp), Vect.zipWith_ofFn]
  exact ⟨op _, op _, op _, op _⟩

/-- C136 is violated: multiplying by the identity matrix changes a matrix of `BigInt`. -/
theorem C136_identity_violated :
    (Mat.mul 1 2 2 [[big .debug BInt.zero, big .debug ⟨true, .inline 2⟩]] (Mat.one 2 2)) =
      .ok [[big _ BInt.zero, big _ BInt.zero]] := by
  have e1 : (big .debug BInt.zero * big _ BInt.one + big _ ⟨true, .inline 2⟩ * big _ BInt.zero :
      Comp (BInt.ops .debug)).res = .ok BInt.zero := by decide +kernel
  have e2 : (big .debug BInt.zero * big _ BInt.zero + big _ ⟨true, .inline 2⟩ * big _ BInt.one :
      Comp (BInt.ops .debug)).res = .ok BInt.zero := by decide +kernel
  change Res.ok [[(⟨(big .debug BInt.zero * big _ BInt.one + big _ ⟨true, .inline 2⟩ * big _ BInt.zero :
      Comp (BInt.ops .debug)).res⟩ : Comp (BInt.ops .debug)),
    ⟨(big .debug BInt.zero * big _ BInt.zero + big _ ⟨true, .inline 2⟩ * big _ BInt.one :
      Comp (BInt.ops .debug)).res⟩]] = _
  rw [e1, e2]; rfl

/-- C136 is violated: `(1 1) · (1 -3)ᵗ` is 0, and so is the real part of `(1 + i)(1 + 3i)`. -/
theorem C136_violated :
    (¬ ∀ (m : Mode) (x y u v : BInt), Canon x → Canon y → Canon u → Canon v →
      ∃ c, Mat.mul 1 2 1 [[big m x, big m y]] [[big m u], [big m v]] = .ok [[c]] ∧
        HoldsB c.res (ival x * ival u + ival y * ival v)) ∧
    (¬ ∀ (m : Mode) (x y u v : BInt), Canon x → Canon y → Canon u → Canon v →
      HoldsB (Complex.mul ⟨big m x, big m y⟩ ⟨big m u, big m v⟩).real.res
        (ival x * ival u - ival y * ival v)) := by
  constructor
  · intro h
    obtain ⟨c, h1, v, h2, _, h3⟩ := h .debug ⟨false, .inline 1⟩ ⟨false, .inline 1⟩ ⟨false, .inline 1⟩
      ⟨true, .inline 3⟩ (by decide) (by decide) (by decide) (by decide)
    have e : Mat.mul 1 2 1 [[big .debug ⟨false, .inline 1⟩, big _ ⟨false, .inline 1⟩]]
        [[big _ ⟨false, .inline 1⟩], [big _ ⟨true, .inline 3⟩]] = .ok [[big .debug BInt.zero]] := by
      have e : (big .debug ⟨false, .inline 1⟩ * big _ ⟨false, .inline 1⟩ +
          big _ ⟨false, .inline 1⟩ * big _ ⟨true, .inline 3⟩ : Comp (BInt.ops .debug)).res =
          .ok BInt.zero := by decide +kernel
      change Res.ok [[(⟨(big .debug ⟨false, .inline 1⟩ * big _ ⟨false, .inline 1⟩ +
          big _ ⟨false, .inline 1⟩ * big _ ⟨true, .inline 3⟩ : Comp (BInt.ops .debug)).res⟩ :
          Comp (BInt.ops .debug))]] = _
      rw [e]; rfl
    rw [e] at h1
    cases h1
    cases h2
    revert h3
    decide
  · intro h
    obtain ⟨v, h2, _, h3⟩ := h .debug ⟨false, .inline 1⟩ ⟨false, .inline 1⟩ ⟨false, .inline 1⟩
      ⟨false, .inline 3⟩ (by decide) (by decide) (by decide) (by decide)
    have e : (Complex.mul ⟨big .debug ⟨false, .inline 1⟩, big .debug ⟨false, .inline 1⟩⟩
        ⟨big .debug ⟨false, .inline 1⟩, big .debug ⟨false, .inline 3⟩⟩).real.res = .ok BInt.zero := by
      decide +kernel
    rw [e] at h2
    cases h2
    revert h3
    decide

/-- The components and the integers are off by at most `2 * e`, evenly. -/
private def Near (e : Nat) (r : Res BInt) (z : ℤ) : Prop :=
  ∃ w, HoldsB r w ∧ |w - z| ≤ 2 * e ∧ (w - z) % 2 = 0

private theorem holds_of {m : Mode} {x : BInt} (h : Canon x) : HoldsB (big m x).res (ival x) :=
  ⟨x, rfl, h, rfl⟩

private theorem holds_mul {m : Mode} {a b : Comp (ops m)} {x y : ℤ} (ha : HoldsB a.res x)
    (hb : HoldsB b.res y) : HoldsB (a * b).res (x * y) := by
  obtain ⟨s, s1, s2, s3⟩ := ha
  obtain ⟨t, t1, t2, t3⟩ := hb
  obtain ⟨c, c1, c2, c3⟩ := C42_mul_exact s t s2.1 t2.1
  refine ⟨c, ?_, c3, by rw [c2, s3, t3]⟩
  change (a.res.bind fun x => b.res.bind fun y => BInt.mul x y) = _
  rw [s1, t1]; exact c1

private theorem holds_mul_rep {m : Mode} {x y : BInt} (hx : Rep x) (hy : Rep y) :
    HoldsB (big m x * big m y).res (ival x * ival y) := by
  obtain ⟨c, c1, c2, c3⟩ := C42_mul_exact x y hx hy
  exact ⟨c, c1, c3, c2⟩

private theorem holds_add {m : Mode} {a b : Comp (ops m)} {x y : ℤ} (ha : HoldsB a.res x)
    (hb : HoldsB b.res y) : ∃ w, HoldsB (a + b).res w ∧ (AddsUp x y → w = x + y) ∧
      (¬ AddsUp x y → w = x + y + if x < 0 then -2 else 2) := by
  obtain ⟨s, s1, s2, s3⟩ := ha
  obtain ⟨t, t1, t2, t3⟩ := hb
  obtain ⟨c, c1, c2, c3, c4⟩ := C43_add_partial s t s2.1 t2.1
  rw [neg_eq_decide s2, neg_eq_decide t2, s3, t3] at c3 c4
  refine ⟨ival c, ⟨c, ?_, c2, rfl⟩, fun h => ?_, fun h => ?_⟩
  · change (a.res.bind fun x => b.res.bind fun y => BInt.add x y) = _
    rw [s1, t1]; exact c1
  · exact c3 (h.imp_left decide_eq_decide.mpr)
  · unfold AddsUp at h
    push Not at h
    have := c4 (fun e => by have := decide_eq_decide.mp e; omega) (by omega) (by omega)
    simpa using this

private theorem holds_sub {m : Mode} {a b : Comp (ops m)} {x y : ℤ} (ha : HoldsB a.res x)
    (hb : HoldsB b.res y) : ∃ w, HoldsB (a - b).res w ∧ (Subtracts x y → w = x - y) ∧
      (¬ Subtracts x y → w = x - y + if x < 0 then -2 else 2) := by
  obtain ⟨s, s1, s2, s3⟩ := ha
  obtain ⟨t, t1, t2, t3⟩ := hb
  obtain ⟨c, c1, c2, c3, c4⟩ := C43_sub_partial s t s2.1 t2.1
  rw [neg_eq_decide s2, neg_eq_decide t2, s3, t3] at c3 c4
  refine ⟨ival c, ⟨c, ?_, c2, rfl⟩, fun h => ?_, fun h => ?_⟩
  · change (a.res.bind fun x => b.res.bind fun y => BInt.sub x y) = _
    rw [s1, t1]; exact c1
  · refine c3 (h.imp_left fun h e => ?_)
    have := decide_eq_decide.mp e; omega
  · unfold Subtracts at h
    push Not at h
    have := c4 (decide_eq_decide.mpr (by omega)) (by omega) (by omega)
    simpa using this

/-- The integers `BigInt` arrives at when adding up `t 0`, …, `t n`. -/
private theorem holds_sum {m : Mode} (c : Nat → Comp (ops m)) (t : Nat → ℤ) (n : Nat)
    (h : ∀ k ≤ n, HoldsB (c k).res (t k)) :
    Near n (forUp n (fun k out => out + c (k + 1)) (c 0)).res (∑ k ∈ Finset.range (n + 1), t k) ∧
    ((∀ k, 0 < k → k ≤ n → AddsUp (∑ l ∈ Finset.range k, t l) (t k)) →
      HoldsB (forUp n (fun k out => out + c (k + 1)) (c 0)).res (∑ k ∈ Finset.range (n + 1), t k)) := by
  induction n with
  | zero =>
    have := h 0 le_rfl
    rw [zero_add, Finset.sum_range_one]
    exact ⟨⟨t 0, this, by simp, by simp⟩, fun _ => this⟩
  | succ n ih =>
    obtain ⟨⟨w, w1, w2, w3⟩, ih2⟩ := ih fun k hk => h k (by omega)
    rw [Finset.sum_range_succ]
    constructor
    · obtain ⟨z, z1, z2, z3⟩ := holds_add w1 (h (n + 1) le_rfl)
      refine ⟨z, z1, ?_⟩
      by_cases ha : AddsUp w (t (n + 1))
      · rw [z2 ha]
        refine ⟨?_, by omega⟩
        rw [abs_le] at w2 ⊢
        push_cast
        omega
      · rw [z3 ha]
        rw [abs_le] at w2 ⊢
        push_cast
        split <;> omega
    · intro hs
      obtain ⟨z, z1, z2, _⟩ := holds_add (ih2 fun k h0 hk => hs k h0 (by omega)) (h (n + 1) le_rfl)
      rw [z2 (hs (n + 1) (by omega) le_rfl)] at z1
      exact z1

private theorem holds_sum_exact {m : Mode} (c : Nat → Comp (ops m)) (t : Nat → ℤ) (n : Nat)
    (h : ∀ k ≤ n, HoldsB (c k).res (t k)) :
    HoldsB (forUp n (fun k out => out + c (k + 1)) (c 0)).res
      (((List.range n).map fun k => t (k + 1)).foldl bigAdd (t 0)) := by
  induction n with
  | zero => exact h 0 le_rfl
  | succ n ih =>
    obtain ⟨z, z1, z2, z3⟩ := holds_add (ih fun k hk => h k (by omega)) (h (n + 1) le_rfl)
    rw [List.range_succ, List.map_append, List.foldl_append]
    have e : z = bigAdd (((List.range n).map fun k => t (k + 1)).foldl bigAdd (t 0)) (t (n + 1)) := by
      unfold bigAdd
      split
      · exact z2 ‹_›
      · exact z3 ‹_›
    rw [e] at z1
    exact z1

/-- C136 for products of matrices, exactly, for all entries (negative zeros too): the products of an entry are
added up from the left with the sums of `BigInt`, which are two off where C43 says. Missing, because false: that
they are exact. -/
theorem C136_matrix_exact_partial (m : Mode) {R C D : Nat} (hC : 0 < C) (A : Matrix (Fin R) (Fin C) BInt)
    (B : Matrix (Fin C) (Fin D) BInt) (hA : ∀ i k, Rep (A i k)) (hB : ∀ k j, Rep (B k j))
    (a b : List (List (Comp (ops m)))) (ha : MatOf a (A.map (big m))) (hb : MatOf b (B.map (big m))) :
    ∃ c P, Mat.mul R C D a b = .ok c ∧ MatOf c P ∧ ∀ i j, ∃ t ts,
      List.ofFn (fun k => ival (A i k) * ival (B k j)) = t :: ts ∧
      HoldsB (P i j).res (ts.foldl bigAdd t) := by
  obtain ⟨c, h1, h2⟩ := mul_fold hC ha hb
  refine ⟨c, _, h1, h2, fun i j => ?_⟩
  let t : Nat → ℤ := fun k => extend (A.map ival) i k * extend (B.map ival) k j
  have et : ∀ k : Fin C, t k = ival (A i k) * ival (B k j) := fun k => by
    simp only [t, extend_apply]; rfl
  have k := holds_sum_exact (fun k => extend (A.map (big m)) i k * extend (B.map (big m)) k j) t
    (C - 1) (fun k hk => by
      have e1 := extend_apply (A.map (big m)) i ⟨k, by omega⟩
      have e2 := extend_apply (B.map (big m)) ⟨k, by omega⟩ j
      rw [e1, e2, et ⟨k, by omega⟩]
      exact holds_mul_rep (hA _ _) (hB _ _))
  refine ⟨_, _, ?_, k⟩
  have e1 : List.ofFn (fun k : Fin C => ival (A i k) * ival (B k j)) = (List.range C).map t := by
    apply List.ext_getElem
    · simp
    · intro n h1 h2
      rw [List.getElem_ofFn, List.getElem_map, List.getElem_range]
      exact (et ⟨n, by simpa using h1⟩).symm
  rw [e1]
  obtain ⟨n, rfl⟩ : ∃ n, C = n + 1 := ⟨C - 1, by omega⟩
  rw [List.range_succ_eq_map]
  simp [Function.comp_def]

-- the row 1, 1, -0 times the column 2, -4, 6 has the products 2, -4 and 0: the first sum is two too great
example : (Mat.mul 1 3 1 [[big .debug BInt.one, big _ BInt.one, big _ ⟨true, .inline 0⟩]]
      [[big _ ⟨false, .inline 2⟩], [big _ ⟨true, .inline 4⟩], [big _ ⟨false, .inline 6⟩]]) =
    .ok [[big _ BInt.zero]] ∧ [-4, 0].foldl bigAdd 2 = 0 ∧ (2 : ℤ) + -4 + 0 = -2 ∧
    Rep ⟨true, .inline 0⟩ ∧ ¬ Canon ⟨true, .inline 0⟩ := by
  refine ⟨?_, by decide, by decide, by decide, by decide⟩
  refine .trans (b := .ok [[(_ : Comp (BInt.ops .debug))]]) rfl ?_
  congr 3

/-- C136 for products of matrices, the part that holds: every entry is returned and canonical; it is
exact if every step of adding up its products is one that `BigInt` computes correctly, in particular
if all of them are nonnegative, and in any case it is off by an even number of at most twice the number
of additions. Missing: exact sums of products of opposite signs. -/
theorem C136_matrix_partial (m : Mode) {R C D : Nat} (hC : 0 < C) (A : Matrix (Fin R) (Fin C) BInt)
    (B : Matrix (Fin C) (Fin D) BInt) (hA : ∀ i k, Rep (A i k)) (hB : ∀ k j, Rep (B k j))
    (a b : List (List (Comp (ops m)))) (ha : MatOf a (A.map (big m))) (hb : MatOf b (B.map (big m))) :
    ∃ c P, Mat.mul R C D a b = .ok c ∧ MatOf c P ∧ ∀ i j,
      (∃ w, HoldsB (P i j).res w ∧ |w - ∑ k, ival (A i k) * ival (B k j)| ≤ 2 * (C - 1) ∧
        (w - ∑ k, ival (A i k) * ival (B k j)) % 2 = 0) ∧
      ((∀ k : Fin C, 0 < k.val → AddsUp (∑ l ∈ Finset.univ.filter (· < k), ival (A i l) * ival (B l j))
          (ival (A i k) * ival (B k j))) →
        HoldsB (P i j).res (∑ k, ival (A i k) * ival (B k j))) ∧
      ((∀ k, 0 ≤ ival (A i k) * ival (B k j)) →
        HoldsB (P i j).res (∑ k, ival (A i k) * ival (B k j))) := by
  obtain ⟨c, h1, h2⟩ := mul_fold hC ha hb
  refine ⟨c, _, h1, h2, fun i j => ?_⟩
  let t : Nat → ℤ := fun k => extend (A.map ival) i k * extend (B.map ival) k j
  have et : ∀ k : Fin C, t k = ival (A i k) * ival (B k j) := fun k => by
    simp only [t, extend_apply]; rfl
  have hs : ∑ k, ival (A i k) * ival (B k j) = ∑ k ∈ Finset.range (C - 1 + 1), t k := by
    rw [show C - 1 + 1 = C by omega, Finset.sum_range]
    exact Finset.sum_congr rfl fun k _ => (et k).symm
  obtain ⟨⟨w, w1, w2, w3⟩, k2⟩ := holds_sum (fun k => extend (A.map (big m)) i k * extend (B.map (big m)) k j) t
    (C - 1) (fun k hk => by
      have e1 := extend_apply (A.map (big m)) i ⟨k, by omega⟩
      have e2 := extend_apply (B.map (big m)) ⟨k, by omega⟩ j
      rw [e1, e2, et ⟨k, by omega⟩]
      exact holds_mul_rep (hA _ _) (hB _ _))
  rw [← hs] at w2 w3 k2
  have sum_lt : ∀ k (hk : k < C), ∑ l ∈ Finset.univ.filter (· < (⟨k, hk⟩ : Fin C)), ival (A i l) * ival (B l j) =
      ∑ l ∈ Finset.range k, t l := by
    intro k hk
    refine Finset.sum_bij (fun l _ => l.val) (fun l hl => ?_) (fun l _ l' _ h => Fin.ext h)
      (fun l hl => ?_) (fun l _ => (et l).symm)
    · simpa [Fin.lt_def] using hl
    · have := Finset.mem_range.mp hl
      exact ⟨⟨l, by omega⟩, by simpa [Fin.lt_def] using this, rfl⟩
  have main : (∀ k : Fin C, 0 < k.val → AddsUp (∑ l ∈ Finset.univ.filter (· < k), ival (A i l) * ival (B l j))
          (ival (A i k) * ival (B k j))) →
        HoldsB (entry (A.map (big m)) (B.map (big m)) i j).res (∑ k, ival (A i k) * ival (B k j)) := by
    intro h
    refine k2 fun k h0 hk => ?_
    have := h ⟨k, by omega⟩ h0
    rwa [sum_lt, ← et] at this
  refine ⟨⟨w, w1, ?_, w3⟩, main, fun h => main fun k _ => .inl ?_⟩
  · rw [Nat.cast_sub hC] at w2; exact_mod_cast w2
  · have h1 := Finset.sum_nonneg (s := Finset.univ.filter (· < k)) fun l _ => h l
    have h2 := h k
    omega

/-- C136 for complex numbers and `cross`, the part that holds: sums, differences and products are
returned and canonical, off by at most two, and exact if their last step is one that `BigInt` computes
correctly; for sums and differences, if no component is a negative zero (see
`C136_complex_flags_exact_partial` for those). Missing: the others. -/
theorem C136_complex_partial (m : Mode) (x y z u v w : BInt)
    (hc : ∀ t ∈ [x, y, z, u, v, w], Rep t) :
    let c := big m
    -- `r` is the outcome of adding or subtracting `s` and `t`
    let sum := fun (r : Res BInt) (s t : ℤ) => ∃ n, HoldsB r n ∧ (AddsUp s t → n = s + t) ∧
      (¬ AddsUp s t → n = s + t + if s < 0 then -2 else 2)
    let diff := fun (r : Res BInt) (s t : ℤ) => ∃ n, HoldsB r n ∧ (Subtracts s t → n = s - t) ∧
      (¬ Subtracts s t → n = s - t + if s < 0 then -2 else 2)
    ((∀ t ∈ [x, y, u, v], Canon t) →
      (sum (Complex.add ⟨c x, c y⟩ ⟨c u, c v⟩).real.res (ival x) (ival u) ∧
        sum (Complex.add ⟨c x, c y⟩ ⟨c u, c v⟩).imag.res (ival y) (ival v)) ∧
      (diff (Complex.sub ⟨c x, c y⟩ ⟨c u, c v⟩).real.res (ival x) (ival u) ∧
        diff (Complex.sub ⟨c x, c y⟩ ⟨c u, c v⟩).imag.res (ival y) (ival v))) ∧
    (diff (Complex.mul ⟨c x, c y⟩ ⟨c u, c v⟩).real.res (ival x * ival u) (ival y * ival v) ∧
      sum (Complex.mul ⟨c x, c y⟩ ⟨c u, c v⟩).imag.res (ival x * ival v) (ival u * ival y)) ∧
    ∃ c₁ c₂ c₃, Vect.cross [c x, c y, c z] [c u, c v, c w] = [c₁, c₂, c₃] ∧
      diff c₁.res (ival y * ival w) (ival z * ival v) ∧ diff c₂.res (ival z * ival u) (ival x * ival w) ∧
      diff c₃.res (ival x * ival v) (ival y * ival u) := by
  simp only [List.mem_cons, List.not_mem_nil, or_false, forall_eq_or_imp, forall_eq] at hc
  obtain ⟨hx, hy, hz, hu, hv, hw⟩ := hc
  have H := fun {t : BInt} (h : Canon t) => holds_of (m := m) h
  refine ⟨fun hc => ?_, ⟨?_, ?_⟩, ⟨_, _, _, rfl, ?_, ?_, ?_⟩⟩
  · simp only [List.mem_cons, List.not_mem_nil, or_false, forall_eq_or_imp, forall_eq] at hc
    obtain ⟨hx, hy, hu, hv⟩ := hc
    exact ⟨⟨holds_add (H hx) (H hu), holds_add (H hy) (H hv)⟩, holds_sub (H hx) (H hu),
      holds_sub (H hy) (H hv)⟩
  · exact holds_sub (holds_mul_rep hx hu) (holds_mul_rep hy hv)
  · exact holds_add (holds_mul_rep hx hv) (holds_mul_rep hu hy)
  all_goals exact holds_sub (holds_mul_rep ‹_› ‹_›) (holds_mul_rep ‹_› ‹_›)

/-- C136 for sums and differences of complex numbers, exactly, for all components, negative zeros too: each component is
returned and canonical, and exact unless the sign bits differ (for sums; for differences, agree), the second operand
is larger in magnitude and the result is even; then it is two too close to zero. Missing: that these are exact, too,
which is false. -/
theorem C136_complex_flags_exact_partial (m : Mode) (x y u v : BInt) (hx : Rep x) (hy : Rep y) (hu : Rep u)
    (hv : Rep v) :
    -- `r` is the outcome of adding `±b` to `a`, where `away` tells whether the sign bits of the summands differ
    let out := fun (r : Res BInt) (a b : BInt) (t : ℤ) (away : Bool) =>
      HoldsB r (ival a + t + if away ∧ (ival a).natAbs < (ival b).natAbs ∧ (ival a + t) % 2 = 0 then
        (if a.neg then -2 else 2) else 0)
    let c := big m
    (out (Complex.add ⟨c x, c y⟩ ⟨c u, c v⟩).real.res x u (ival u) (x.neg != u.neg) ∧
      out (Complex.add ⟨c x, c y⟩ ⟨c u, c v⟩).imag.res y v (ival v) (y.neg != v.neg)) ∧
    (out (Complex.sub ⟨c x, c y⟩ ⟨c u, c v⟩).real.res x u (-ival u) (x.neg == u.neg) ∧
      out (Complex.sub ⟨c x, c y⟩ ⟨c u, c v⟩).imag.res y v (-ival v) (y.neg == v.neg)) := by
  intro out c
  have hadd : ∀ a b : BInt, Rep a → Rep b → out (c a + c b).res a b (ival b) (a.neg != b.neg) := by
    intro a b ha hb
    obtain ⟨r, e, hr, h1, h2⟩ := C43_add_partial a b ha hb
    refine ⟨r, e, hr, ?_⟩
    split
    · rename_i h
      exact h2 (by simpa using h.1) h.2.1 h.2.2
    · rename_i h
      rw [add_zero]
      refine h1 ?_
      by_contra hn
      push Not at hn
      exact h ⟨by simpa using hn.1, hn.2.1, hn.2.2⟩
  have hsub : ∀ a b : BInt, Rep a → Rep b → out (c a - c b).res a b (-ival b) (a.neg == b.neg) := by
    intro a b ha hb
    obtain ⟨r, e, hr, h1, h2⟩ := C43_sub_partial a b ha hb
    refine ⟨r, e, hr, ?_⟩
    rw [← sub_eq_add_neg]
    split
    · rename_i h
      exact h2 (by simpa using h.1) h.2.1 h.2.2
    · rename_i h
      rw [add_zero]
      refine h1 ?_
      by_contra hn
      push Not at hn
      exact h ⟨by simpa using hn.1, hn.2.1, hn.2.2⟩
  exact ⟨⟨hadd _ _ hx hu, hadd _ _ hy hv⟩, hsub _ _ hx hu, hsub _ _ hy hv⟩

-- (-0 + i) + (2 + i): the real part is off, because of the sign bit
example : Rep ⟨true, .inline 0⟩ ∧
    (Complex.add (⟨big .debug ⟨true, .inline 0⟩, big _ ⟨false, .inline 1⟩⟩ : Complex (Comp (ops .debug)))
      ⟨big _ ⟨false, .inline 2⟩, big _ ⟨false, .inline 1⟩⟩).real.res = .ok ⟨false, .inline 0⟩ := by
  refine ⟨by decide, ?_⟩
  decide +kernel

-- 2⁶² · 2⁶² + 3 · 5: more than a machine word
example : Canon ⟨false, .slice [0x4000000000000000]⟩ ∧
    ((big .debug ⟨false, .slice [0x4000000000000000]⟩ * big _ ⟨false, .slice [0x4000000000000000]⟩ +
      big _ ⟨false, .inline 3⟩ * big _ ⟨false, .inline 5⟩ : Comp (ops .debug))).res =
      .ok ⟨false, .slice [15, 0x1000000000000000]⟩ := by
  refine ⟨by decide, ?_⟩
  decide +kernel

end BInt

end Verif
