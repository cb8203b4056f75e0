import Verif.Spec.CompoundNums
import Verif.Model.CheckedNum
import Verif.Lemmas.Compound
import Verif.Props.Programs

/-!
# C135: vectors, matrices and complex numbers of `U<N>` and `I<N>`
-/

namespace Verif

/-- Components that are values. -/
abbrev compOf {α : Type} (o : NumOps α) (x : α) : Comp o := Comp.of x

/-- Operators that always return, with results congruent to the exact ones. -/
private structure Wraps (o : NumOps Bytes) (N : Nat) (v : Bytes → ℤ) : Prop where
  zero : o.zero.length = N ∧ v o.zero ≡ 0 [ZMOD 256 ^ N]
  add : ∀ x y, x.length = N → y.length = N →
    ∃ z, o.add x y = .ok z ∧ z.length = N ∧ v z ≡ v x + v y [ZMOD 256 ^ N]
  sub : ∀ x y, x.length = N → y.length = N →
    ∃ z, o.sub x y = .ok z ∧ z.length = N ∧ v z ≡ v x - v y [ZMOD 256 ^ N]
  mul : ∀ x y, x.length = N → y.length = N →
    ∃ z, o.mul x y = .ok z ∧ z.length = N ∧ v z ≡ v x * v y [ZMOD 256 ^ N]

private def Cong {o : NumOps Bytes} (N : Nat) (v : Bytes → ℤ) (c : Comp o) (z : ℤ) : Prop :=
  ∃ x, c.res = .ok x ∧ x.length = N ∧ v x ≡ z [ZMOD 256 ^ N]

variable {o : NumOps Bytes} {N : Nat} {v : Bytes → ℤ}

private theorem cong_of {x : Bytes} (h : x.length = N) : Cong N v (compOf o x) (v x) := ⟨x, rfl, h, rfl⟩

private theorem Wraps.cadd (h : Wraps o N v) {a b : Comp o} {x y : ℤ} (ha : Cong N v a x)
    (hb : Cong N v b y) : Cong N v (a + b) (x + y) := by
  obtain ⟨s, s1, s2, s3⟩ := ha
  obtain ⟨t, t1, t2, t3⟩ := hb
  obtain ⟨z, z1, z2, z3⟩ := h.add s t s2 t2
  refine ⟨z, ?_, z2, z3.trans (s3.add t3)⟩
  change (a.res.bind fun x => b.res.bind fun y => o.add x y) = _
  rw [s1, t1]; exact z1

private theorem Wraps.csub (h : Wraps o N v) {a b : Comp o} {x y : ℤ} (ha : Cong N v a x)
    (hb : Cong N v b y) : Cong N v (a - b) (x - y) := by
  obtain ⟨s, s1, s2, s3⟩ := ha
  obtain ⟨t, t1, t2, t3⟩ := hb
  obtain ⟨z, z1, z2, z3⟩ := h.sub s t s2 t2
  refine ⟨z, ?_, z2, z3.trans (s3.sub t3)⟩
  change (a.res.bind fun x => b.res.bind fun y => o.sub x y) = _
  rw [s1, t1]; exact z1

private theorem Wraps.cmul (h : Wraps o N v) {a b : Comp o} {x y : ℤ} (ha : Cong N v a x)
    (hb : Cong N v b y) : Cong N v (a * b) (x * y) := by
  obtain ⟨s, s1, s2, s3⟩ := ha
  obtain ⟨t, t1, t2, t3⟩ := hb
  obtain ⟨z, z1, z2, z3⟩ := h.mul s t s2 t2
  refine ⟨z, ?_, z2, z3.trans (s3.mul t3)⟩
  change (a.res.bind fun x => b.res.bind fun y => o.mul x y) = _
  rw [s1, t1]; exact z1

private theorem Wraps.semi (h : Wraps o N v) : SemiRel (Cong (o := o) N v) :=
  ⟨⟨_, rfl, h.zero⟩, h.cadd, h.cmul⟩

private theorem wraps_u (N : Nat) : Wraps (UN.ops .release N) N (fun a => (val a : ℤ)) := by
  refine ⟨⟨by simp [UN.ops, UN.zero], ?_⟩, fun x y hx hy => ?_, fun x y hx hy => ?_, fun x y hx hy => ?_⟩
  · have := (C26_ring_ops N (UN.zero N) (UN.zero N) (by simp [UN.zero]) (by simp [UN.zero])).2.2.2.1.2
    change (val (UN.zero N) : ℤ) ≡ 0 [ZMOD 256 ^ N]
    rw [this]; rfl
  · obtain ⟨⟨h1, h2⟩, _⟩ := C26_ring_ops N x y hx hy
    refine ⟨UN.wrappingAdd x y, rfl, h1, zmod_to_int ?_⟩
    push_cast; exact h2
  · obtain ⟨_, ⟨h1, h2⟩, _⟩ := C26_ring_ops N x y hx hy
    refine ⟨UN.wrappingSub x y, rfl, h1, zmod_to_int ?_⟩
    push_cast; exact h2
  · obtain ⟨_, _, ⟨p, h0, h1, h2⟩, _⟩ := C26_ring_ops N x y hx hy
    refine ⟨p, h0, h1, zmod_to_int ?_⟩
    push_cast; exact h2

private theorem wraps_i (m : Mode) (N : Nat) : Wraps (IN.ops m N) N sval := by
  refine ⟨⟨by simp [IN.ops, IN.zero], ?_⟩, fun x y hx hy => ?_, fun x y hx hy => ?_, fun x y hx hy => ?_⟩
  · have hz : val (IN.zero N) = 0 := by
      have := (C26_ring_ops N (UN.zero N) (UN.zero N) (by simp [UN.zero]) (by simp [UN.zero])).2.2.2.1.2
      exact this
    change sval (IN.zero N) ≡ 0 [ZMOD 256 ^ N]
    unfold sval
    rw [hz, if_pos (by simp)]; rfl
  · obtain ⟨⟨h1, h2⟩, _⟩ := C38_twos_complement x y (by omega)
    rw [hx] at h1 h2
    exact ⟨_, rfl, h1, (Int.modEq_iff_dvd.mpr h2.2.2).symm⟩
  · obtain ⟨_, ⟨h1, h2⟩, _⟩ := C38_twos_complement x y (by omega)
    rw [hx] at h1 h2
    exact ⟨_, rfl, h1, (Int.modEq_iff_dvd.mpr h2.2.2).symm⟩
  · obtain ⟨_, _, ⟨h1, h2⟩, _⟩ := C38_twos_complement x y (by omega)
    rw [hx] at h1 h2
    exact ⟨_, rfl, h1, (Int.modEq_iff_dvd.mpr h2.2.2).symm⟩

private theorem holdsU {m : Mode} {c : Comp (UN.ops m N)} {z : ℤ}
    (h : Cong N (fun a => (val a : ℤ)) c z) : HoldsU N c.res z := by
  obtain ⟨x, h1, h2, h3⟩ := h
  refine ⟨x, h1, h2, ?_⟩
  have hlt : (val x : ℤ) < 256 ^ N := by
    have := val_lt x
    rw [modulus_bytes, h2] at this
    exact_mod_cast this
  rw [← h3]
  exact (Int.emod_eq_of_lt (by positivity) hlt).symm

private theorem holdsI {m : Mode} {c : Comp (IN.ops m N)} {z : ℤ} (h : Cong N sval c z) :
    HoldsI N c.res z := by
  obtain ⟨x, h1, h2, h3⟩ := h
  have hr := sval_range x
  rw [h2] at hr
  exact ⟨x, h1, h2, hr.1, hr.2, Int.modEq_iff_dvd.mp h3.symm⟩

/-- C135 for products of matrices of `U<N>` in release builds: every entry is the exact one modulo
`256^N`. -/
theorem C135_unsigned_matrix (N : Nat) {R C D : Nat} (hC : 0 < C) (A : Matrix (Fin R) (Fin C) Bytes)
    (B : Matrix (Fin C) (Fin D) Bytes) (hA : ∀ i k, (A i k).length = N) (hB : ∀ k j, (B k j).length = N)
    (a b : List (List (Comp (UN.ops .release N)))) (ha : MatOf a (A.map (compOf _)))
    (hb : MatOf b (B.map (compOf _))) :
    ∃ c P, Mat.mul R C D a b = .ok c ∧ MatOf c P ∧
      ∀ i j, HoldsU N (P i j).res (∑ k, (val (A i k) : ℤ) * val (B k j)) := by
  obtain ⟨c, h1, h2⟩ := mul_fold hC ha hb
  refine ⟨c, _, h1, h2, fun i j => holdsU ?_⟩
  have h3 := (wraps_u N).semi.entry (A := A.map (compOf _)) (B := B.map (compOf _))
    (A' := A.map fun x => (val x : ℤ)) (B' := B.map fun x => (val x : ℤ))
    (fun i k => cong_of (hA i k)) (fun k j => cong_of (hB k j)) i j
  rw [entry_ring hC, Matrix.mul_apply] at h3
  exact h3

example := C135_unsigned_matrix 1 (by decide) !![[100#8], [3#8]] !![[2#8]; [200#8]] (by decide) (by decide)
  [[compOf _ [100#8], compOf _ [3#8]]] [[compOf _ [2#8]], [compOf _ [200#8]]] rfl rfl

/-- C135 for products of matrices of `I<N>`, in both builds. -/
theorem C135_signed_matrix (m : Mode) (N : Nat) {R C D : Nat} (hC : 0 < C)
    (A : Matrix (Fin R) (Fin C) Bytes)
    (B : Matrix (Fin C) (Fin D) Bytes) (hA : ∀ i k, (A i k).length = N) (hB : ∀ k j, (B k j).length = N)
    (a b : List (List (Comp (IN.ops m N)))) (ha : MatOf a (A.map (compOf _)))
    (hb : MatOf b (B.map (compOf _))) :
    ∃ c P, Mat.mul R C D a b = .ok c ∧ MatOf c P ∧
      ∀ i j, HoldsI N (P i j).res (∑ k, sval (A i k) * sval (B k j)) := by
  obtain ⟨c, h1, h2⟩ := mul_fold hC ha hb
  refine ⟨c, _, h1, h2, fun i j => holdsI ?_⟩
  have h3 := (wraps_i m N).semi.entry (A := A.map (compOf _)) (B := B.map (compOf _))
    (A' := A.map sval) (B' := B.map sval)
    (fun i k => cong_of (hA i k)) (fun k j => cong_of (hB k j)) i j
  rw [entry_ring hC, Matrix.mul_apply] at h3
  exact h3

example := C135_signed_matrix .debug 1 (by decide) !![[100#8], [3#8]] !![[2#8]; [200#8]] (by decide) (by decide)
  [[compOf _ [100#8], compOf _ [3#8]]] [[compOf _ [2#8]], [compOf _ [200#8]]] rfl rfl

/-- C135 for complex numbers and `cross`: release builds with `U<N>`. -/
theorem C135_unsigned_complex (N : Nat) (x y z u v w : Bytes)
    (hl : ∀ t ∈ [x, y, z, u, v, w], t.length = N) :
    let c := compOf (UN.ops .release N)
    (HoldsU N (Complex.add ⟨c x, c y⟩ ⟨c u, c v⟩).real.res (val x + val u) ∧
      HoldsU N (Complex.add ⟨c x, c y⟩ ⟨c u, c v⟩).imag.res (val y + val v)) ∧
    (HoldsU N (Complex.sub ⟨c x, c y⟩ ⟨c u, c v⟩).real.res (val x - val u) ∧
      HoldsU N (Complex.sub ⟨c x, c y⟩ ⟨c u, c v⟩).imag.res (val y - val v)) ∧
    (HoldsU N (Complex.mul ⟨c x, c y⟩ ⟨c u, c v⟩).real.res (val x * val u - val y * val v) ∧
      HoldsU N (Complex.mul ⟨c x, c y⟩ ⟨c u, c v⟩).imag.res (val x * val v + val u * val y)) ∧
    ∃ c₁ c₂ c₃, Vect.cross [c x, c y, c z] [c u, c v, c w] = [c₁, c₂, c₃] ∧
      HoldsU N c₁.res (val y * val w - val z * val v) ∧ HoldsU N c₂.res (val z * val u - val x * val w) ∧
      HoldsU N c₃.res (val x * val v - val y * val u) := by
  simp only [List.mem_cons, List.not_mem_nil, or_false, forall_eq_or_imp, forall_eq] at hl
  obtain ⟨hx, hy, hz, hu, hv, hw⟩ := hl
  have W := wraps_u N
  refine ⟨⟨?_, ?_⟩, ⟨?_, ?_⟩, ⟨?_, ?_⟩, ⟨_, _, _, rfl, ?_, ?_, ?_⟩⟩ <;> apply holdsU
  · exact W.cadd (cong_of hx) (cong_of hu)
  · exact W.cadd (cong_of hy) (cong_of hv)
  · exact W.csub (cong_of hx) (cong_of hu)
  · exact W.csub (cong_of hy) (cong_of hv)
  · exact W.csub (W.cmul (cong_of hx) (cong_of hu)) (W.cmul (cong_of hy) (cong_of hv))
  · exact W.cadd (W.cmul (cong_of hx) (cong_of hv)) (W.cmul (cong_of hu) (cong_of hy))
  all_goals exact W.csub (W.cmul (cong_of ‹_›) (cong_of ‹_›)) (W.cmul (cong_of ‹_›) (cong_of ‹_›))

example := C135_unsigned_complex 1 [100#8] [3#8] [7#8] [2#8] [250#8] [9#8] (by decide)

/-- C135 for complex numbers and `cross`: both builds with `I<N>`. -/
theorem C135_signed_complex (m : Mode) (N : Nat) (x y z u v w : Bytes)
    (hl : ∀ t ∈ [x, y, z, u, v, w], t.length = N) :
    let c := compOf (IN.ops m N)
    (HoldsI N (Complex.add ⟨c x, c y⟩ ⟨c u, c v⟩).real.res (sval x + sval u) ∧
      HoldsI N (Complex.add ⟨c x, c y⟩ ⟨c u, c v⟩).imag.res (sval y + sval v)) ∧
    (HoldsI N (Complex.sub ⟨c x, c y⟩ ⟨c u, c v⟩).real.res (sval x - sval u) ∧
      HoldsI N (Complex.sub ⟨c x, c y⟩ ⟨c u, c v⟩).imag.res (sval y - sval v)) ∧
    (HoldsI N (Complex.mul ⟨c x, c y⟩ ⟨c u, c v⟩).real.res (sval x * sval u - sval y * sval v) ∧
      HoldsI N (Complex.mul ⟨c x, c y⟩ ⟨c u, c v⟩).imag.res (sval x * sval v + sval u * sval y)) ∧
    ∃ c₁ c₂ c₃, Vect.cross [c x, c y, c z] [c u, c v, c w] = [c₁, c₂, c₃] ∧
      HoldsI N c₁.res (sval y * sval w - sval z * sval v) ∧
      HoldsI N c₂.res (sval z * sval u - sval x * sval w) ∧
      HoldsI N c₃.res (sval x * sval v - sval y * sval u) := by
  simp only [List.mem_cons, List.not_mem_nil, or_false, forall_eq_or_imp, forall_eq] at hl
  obtain ⟨hx, hy, hz, hu, hv, hw⟩ := hl
  have W := wraps_i m N
  refine ⟨⟨?_, ?_⟩, ⟨?_, ?_⟩, ⟨?_, ?_⟩, ⟨_, _, _, rfl, ?_, ?_, ?_⟩⟩ <;> apply holdsI
  · exact W.cadd (cong_of hx) (cong_of hu)
  · exact W.cadd (cong_of hy) (cong_of hv)
  · exact W.csub (cong_of hx) (cong_of hu)
  · exact W.csub (cong_of hy) (cong_of hv)
  · exact W.csub (W.cmul (cong_of hx) (cong_of hu)) (W.cmul (cong_of hy) (cong_of hv))
  · exact W.cadd (W.cmul (cong_of hx) (cong_of hv)) (W.cmul (cong_of hu) (cong_of hy))
  all_goals exact W.csub (W.cmul (cong_of ‹_›) (cong_of ‹_›)) (W.cmul (cong_of ‹_›) (cong_of ‹_›))

example := C135_signed_complex .debug 1 [100#8] [3#8] [7#8] [2#8] [250#8] [9#8] (by decide)

/-! Without overflow `U<N>` is exact in debug builds, too. -/

private theorem exact_add {m : Mode} {a b : Comp (UN.ops m N)} {x y : ℤ} (ha : ExactU N a.res x)
    (hb : ExactU N b.res y) (h : x + y < 256 ^ N) : ExactU N (a + b).res (x + y) := by
  obtain ⟨s, s1, s2, s3⟩ := ha
  obtain ⟨t, t1, t2, t3⟩ := hb
  obtain ⟨k1, _⟩ := C27_checked_add_sub s t (by omega)
  obtain ⟨z, _, z2, z3, z4, z5⟩ := k1 (by rw [s2]; rw [← s3, ← t3] at h; exact_mod_cast h)
  refine ⟨z, ?_, by omega, by omega⟩
  change (a.res.bind fun x => b.res.bind fun y => UN.add m x y) = _
  rw [s1, t1]
  cases m <;> assumption

private theorem exact_sub {m : Mode} {a b : Comp (UN.ops m N)} {x y : ℤ} (ha : ExactU N a.res x)
    (hb : ExactU N b.res y) (h : y ≤ x) : ExactU N (a - b).res (x - y) := by
  obtain ⟨s, s1, s2, s3⟩ := ha
  obtain ⟨t, t1, t2, t3⟩ := hb
  obtain ⟨_, _, k1, _⟩ := C27_checked_add_sub s t (by omega)
  obtain ⟨z, _, z2, z3, z4, z5⟩ := k1 (by omega)
  refine ⟨z, ?_, by omega, by omega⟩
  change (a.res.bind fun x => b.res.bind fun y => UN.sub m x y) = _
  rw [s1, t1]
  cases m <;> assumption

private theorem exact_mul {m : Mode} {a b : Comp (UN.ops m N)} {x y : ℤ} (ha : ExactU N a.res x)
    (hb : ExactU N b.res y) (h : x * y < 256 ^ N) : ExactU N (a * b).res (x * y) := by
  obtain ⟨s, s1, s2, s3⟩ := ha
  obtain ⟨t, t1, t2, t3⟩ := hb
  obtain ⟨k1, _⟩ := C28_checked_mul_partial s t
  obtain ⟨z, _, z2, z3, z4, z5⟩ := k1 (by rw [s2]; rw [← s3, ← t3] at h; exact_mod_cast h)
  refine ⟨z, ?_, by omega, by rw [z3, ← s3, ← t3]; push_cast; rfl⟩
  change (a.res.bind fun x => b.res.bind fun y => UN.mul m x y) = _
  rw [s1, t1]
  cases m <;> assumption

/-- C135: an entry of the product of two matrices of `U<N>` that fits is exact, in both builds. -/
theorem C135_matrix_exact (m : Mode) (N : Nat) {R C D : Nat} (hC : 0 < C)
    (A : Matrix (Fin R) (Fin C) Bytes) (B : Matrix (Fin C) (Fin D) Bytes)
    (hA : ∀ i k, (A i k).length = N) (hB : ∀ k j, (B k j).length = N)
    (a b : List (List (Comp (UN.ops m N)))) (ha : MatOf a (A.map (compOf _)))
    (hb : MatOf b (B.map (compOf _))) :
    ∃ c P, Mat.mul R C D a b = .ok c ∧ MatOf c P ∧
      ∀ i j, ∑ k, (val (A i k) : ℤ) * val (B k j) < 256 ^ N →
        ExactU N (P i j).res (∑ k, (val (A i k) : ℤ) * val (B k j)) := by
  obtain ⟨c, h1, h2⟩ := mul_fold hC ha hb
  refine ⟨c, _, h1, h2, fun i j hlt => ?_⟩
  let t : Nat → ℤ := fun k => extend (A.map fun x => (val x : ℤ)) i k * extend (B.map fun x => (val x : ℤ)) k j
  have hs : ∑ k, (val (A i k) : ℤ) * val (B k j) = ∑ k ∈ Finset.range C, t k := by
    rw [Finset.sum_range]
    refine Finset.sum_congr rfl fun k _ => ?_
    simp only [t, extend_apply]; rfl
  have t0 : ∀ k, k < C → 0 ≤ t k := by
    intro k hk
    have e1 := extend_apply (A.map fun x => (val x : ℤ)) i ⟨k, hk⟩
    have e2 := extend_apply (B.map fun x => (val x : ℤ)) ⟨k, hk⟩ j
    simp only at e1 e2
    simp only [t]
    rw [e1, e2]
    exact mul_nonneg (Int.natCast_nonneg _) (Int.natCast_nonneg _)
  rw [hs] at hlt ⊢
  have le : ∀ n, n ≤ C → ∑ k ∈ Finset.range n, t k < 256 ^ N := fun n hn => by
    refine lt_of_le_of_lt (Finset.sum_le_sum_of_subset_of_nonneg (Finset.range_mono hn) ?_) hlt
    exact fun k hk _ => t0 k (Finset.mem_range.mp hk)
  have term : ∀ k, k < C → ExactU N (extend (A.map (compOf (UN.ops m N))) i k *
      extend (B.map (compOf (UN.ops m N))) k j).res (t k) := by
    intro k hk
    have e1 := extend_apply (A.map (compOf (UN.ops m N))) i ⟨k, hk⟩
    have e2 := extend_apply (B.map (compOf (UN.ops m N))) ⟨k, hk⟩ j
    have e3 := extend_apply (A.map fun x => (val x : ℤ)) i ⟨k, hk⟩
    have e4 := extend_apply (B.map fun x => (val x : ℤ)) ⟨k, hk⟩ j
    have hle := le (k + 1) hk
    have h0 : 0 ≤ ∑ k ∈ Finset.range k, t k :=
      Finset.sum_nonneg fun l hl => t0 l (by have := Finset.mem_range.mp hl; omega)
    rw [Finset.sum_range_succ] at hle
    have ht : t k < 256 ^ N := by omega
    simp only at e1 e2 e3 e4
    simp only [t] at ht ⊢
    rw [e3, e4] at ht
    rw [e1, e2, e3, e4]
    exact exact_mul ⟨A i ⟨k, hk⟩, rfl, hA _ _, rfl⟩ ⟨B ⟨k, hk⟩ j, rfl, hB _ _, rfl⟩ ht
  have key : ∀ n, n + 1 ≤ C → ExactU N (forUp n (fun k out => out +
      extend (A.map (compOf (UN.ops m N))) i (k + 1) * extend (B.map (compOf (UN.ops m N))) (k + 1) j)
      (extend (A.map (compOf (UN.ops m N))) i 0 * extend (B.map (compOf (UN.ops m N))) 0 j)).res
      (∑ k ∈ Finset.range (n + 1), t k) := by
    intro n
    induction n with
    | zero => intro _; rw [zero_add, Finset.sum_range_one]; exact term 0 hC
    | succ n ih =>
      intro hn
      have := le (n + 1 + 1) hn
      rw [Finset.sum_range_succ] at this ⊢
      exact exact_add (ih (by omega)) (term (n + 1) (by omega)) this
  have := key (C - 1) (by omega)
  rw [show C - 1 + 1 = C by omega] at this
  exact this

/-- C135: likewise for products of complex numbers of `U<N>` whose products and parts fit. -/
theorem C135_complex_exact (m : Mode) (N : Nat) (x y u v : Bytes)
    (hl : ∀ t ∈ [x, y, u, v], t.length = N) (h1 : val x * val u < 256 ^ N)
    (h2 : val y * val v ≤ val x * val u) (h3 : val x * val v + val u * val y < 256 ^ N) :
    let c := compOf (UN.ops m N)
    ExactU N (Complex.mul ⟨c x, c y⟩ ⟨c u, c v⟩).real.res (val x * val u - val y * val v) ∧
    ExactU N (Complex.mul ⟨c x, c y⟩ ⟨c u, c v⟩).imag.res (val x * val v + val u * val y) := by
  simp only [List.mem_cons, List.not_mem_nil, or_false, forall_eq_or_imp, forall_eq] at hl
  obtain ⟨hx, hy, hu, hv⟩ := hl
  have ex : ∀ {t : Bytes}, t.length = N → ExactU N (compOf (UN.ops m N) t).res (val t) :=
    fun ht => ⟨_, rfl, ht, rfl⟩
  refine ⟨exact_sub (exact_mul (ex hx) (ex hu) (by exact_mod_cast h1))
    (exact_mul (ex hy) (ex hv) (by exact_mod_cast lt_of_le_of_lt h2 h1)) (by exact_mod_cast h2), ?_⟩
  exact exact_add (exact_mul (ex hx) (ex hv) (by exact_mod_cast (by omega : val x * val v < 256 ^ N)))
    (exact_mul (ex hu) (ex hy) (by exact_mod_cast (by omega : val u * val y < 256 ^ N)))
    (by exact_mod_cast h3)

/-- C135 for vectors: each component of `a + b`, `a - b`, `a * b` and `a / b` is what the operator of the
numbers (C26-C30, C38, C41) gives for the two components. -/
theorem C135_vector_ops (m : Mode) (N : Nat) {n : Nat} (a b : Fin n → Bytes) :
    (let vec := fun (v : Fin n → Bytes) => List.ofFn fun i => compOf (UN.ops m N) (v i);
      Vect.add n (vec a) (vec b) = some (List.ofFn fun i => ⟨UN.add m (a i) (b i)⟩) ∧
      Vect.sub n (vec a) (vec b) = some (List.ofFn fun i => ⟨UN.sub m (a i) (b i)⟩) ∧
      Vect.mul n (vec a) (vec b) = some (List.ofFn fun i => ⟨UN.mul m (a i) (b i)⟩) ∧
      Vect.div n (vec a) (vec b) = some (List.ofFn fun i => ⟨UN.div m (a i) (b i)⟩)) ∧
    (let vec := fun (v : Fin n → Bytes) => List.ofFn fun i => compOf (IN.ops m N) (v i);
      Vect.add n (vec a) (vec b) = some (List.ofFn fun i => ⟨.ok (IN.add (a i) (b i))⟩) ∧
      Vect.sub n (vec a) (vec b) = some (List.ofFn fun i => ⟨.ok (IN.sub (a i) (b i))⟩) ∧
      Vect.mul n (vec a) (vec b) = some (List.ofFn fun i => ⟨.ok (IN.mul (a i) (b i))⟩) ∧
      Vect.div n (vec a) (vec b) = some (List.ofFn fun i => ⟨IN.div m (a i) (b i)⟩)) := by
  have op : ∀ {o : NumOps Bytes} (f : Comp o → Comp o → Comp o),
      Vect.opVec f n (List.ofFn fun i => compOf o (a i)) (List.ofFn fun i => compOf o (b i)) =
        some (List.ofFn fun i => f (compOf o (a i)) (compOf o (b i))) := fun f => by
    rw [Vect.opVec_eq f (by simp) (by simp), Vect.zipWith_ofFn]
  exact ⟨⟨op _, op _, op _, op _⟩, ⟨op _, op _, op _, op _⟩⟩

/-- C135: multiplying a matrix of `U<N>` or `I<N>` by the identity matrix changes nothing, in both builds. -/
theorem C135_identity (m : Mode) (N : Nat) (hN : 0 < N) {R C : Nat} (hC : 0 < C)
    (A : Matrix (Fin R) (Fin C) Bytes) (hA : ∀ i k, (A i k).length = N) :
    (∀ a, MatOf a (A.map (compOf (UN.ops m N))) → Mat.mul R C C a (Mat.one C C) = .ok a) ∧
    (∀ a, MatOf a (A.map (compOf (IN.ops m N))) → Mat.mul R C C a (Mat.one C C) = .ok a) := by
  let B : Matrix (Fin C) (Fin C) Bytes := fun i j => if i = j then UN.one N else UN.zero N
  have hB : ∀ i j, (B i j).length = N := fun i j => by
    simp only [B]; split
    · exact UN.length_one N
    · simp [UN.zero]
  have v1 : val (UN.one N) = 1 := by
    rw [UN.val_one, Nat.mod_eq_of_lt]
    exact Nat.one_lt_pow (by omega) (by norm_num)
  have hv : ∀ i j, (val (B i j) : ℤ) = if i = j then 1 else 0 := fun i j => by
    simp only [B]; split
    · rw [v1]; rfl
    · rw [UN.val_zero]; rfl
  have hlt : ∀ i k, val (A i k) < 256 ^ N := fun i k => by
    have := val_lt (A i k)
    rwa [modulus_bytes, hA] at this
  constructor
  · intro a ha
    have hb : MatOf (Mat.one C C) (B.map (compOf (UN.ops m N))) := by
      have := matOf_one (α := Comp (UN.ops m N)) C
      refine this.trans ?_
      congr 1; funext i; congr 1; funext j
      change (if i = j then (1 : Comp (UN.ops m N)) else 0) = compOf _ (if i = j then _ else _)
      split <;> rfl
    obtain ⟨c, P, h1, h2, h3⟩ := C135_matrix_exact m N hC A B hA hB a _ ha hb
    rw [h1, h2, ha]
    congr 2; funext i; congr 1; funext j
    have e : ∑ k, (val (A i k) : ℤ) * val (B k j) = val (A i j) := by
      simp only [hv]; simp
    obtain ⟨v, v1, v2, v3⟩ := h3 i j (by rw [e]; exact_mod_cast hlt i j)
    rw [e] at v3
    have : v = A i j := eq_of_val_eq (by rw [v2, hA]) (by exact_mod_cast v3)
    rw [this] at v1
    exact congrArg Comp.mk v1
  · intro a ha
    have hb : MatOf (Mat.one C C) (B.map (compOf (IN.ops m N))) := by
      have := matOf_one (α := Comp (IN.ops m N)) C
      refine this.trans ?_
      congr 1; funext i; congr 1; funext j
      change (if i = j then (1 : Comp (IN.ops m N)) else 0) = compOf _ (if i = j then _ else _)
      split <;> rfl
    obtain ⟨c, P, h1, h2, h3⟩ := C135_signed_matrix m N hC A B hA hB a _ ha hb
    rw [h1, h2, ha]
    congr 2; funext i; congr 1; funext j
    have mod : ∀ x : Bytes, x.length = N → (val x : ℤ) ≡ sval x [ZMOD 256 ^ N] := fun x hx => by
      unfold sval
      rw [hx]
      split
      · rfl
      · exact (Int.modEq_iff_dvd.mpr ⟨-1, by ring⟩)
    have e : (val (A i j) : ℤ) ≡ ∑ k, sval (A i k) * sval (B k j) [ZMOD 256 ^ N] := by
      have e0 : (val (A i j) : ℤ) = ∑ k, (val (A i k) : ℤ) * val (B k j) := by
        simp only [hv]; simp
      rw [e0]
      rw [Int.modEq_iff_dvd, ← Finset.sum_sub_distrib]
      exact Finset.dvd_sum fun k _ => Int.modEq_iff_dvd.mp ((mod _ (hA i k)).mul (mod _ (hB k j)))
    obtain ⟨v, v1, v2, v3⟩ := h3 i j
    have e2 : (val v : ℤ) ≡ val (A i j) [ZMOD 256 ^ N] :=
      (mod v v2).trans ((Int.modEq_iff_dvd.mpr v3.2.2).symm.trans e.symm)
    have hvlt : val v < 256 ^ N := by
      have := val_lt v
      rwa [modulus_bytes, v2] at this
    have e3 : val v = val (A i j) := by
      have e4 : val v ≡ val (A i j) [MOD 256 ^ N] := by
        apply Int.natCast_modEq_iff.mp; exact_mod_cast e2
      exact Nat.ModEq.eq_of_lt_of_lt e4 hvlt (hlt i j)
    have : v = A i j := eq_of_val_eq (by rw [v2, hA]) e3
    rw [this] at v1
    exact congrArg Comp.mk v1

-- (2 3) · (5 7)ᵗ = 31, (100 100) · (2 1)ᵗ = 300, and (5 + 2i)(3 + i) = 13 + 11i in one byte
example : (Mat.mul 1 2 1 [[compOf (UN.ops .debug 1) [2#8], compOf _ [3#8]]]
      [[compOf _ [5#8]], [compOf _ [7#8]]]) = .ok [[compOf _ [31#8]]] ∧
    (Mat.mul 1 2 1 [[compOf (UN.ops .release 1) [100#8], compOf _ [100#8]]]
      [[compOf _ [2#8]], [compOf _ [1#8]]]) = .ok [[compOf _ [44#8]]] ∧
    (Complex.mul ⟨compOf (UN.ops .debug 1) [5#8], compOf _ [2#8]⟩ ⟨compOf _ [3#8], compOf _ [1#8]⟩) =
      ⟨compOf _ [13#8], compOf _ [11#8]⟩ := by
  refine ⟨?_, ?_, ?_⟩ <;> rfl

end Verif
