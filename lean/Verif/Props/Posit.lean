import Verif.Lemmas.Posit
import Verif.Spec.Val
import Verif.Lemmas.Val

/-!
# C102-C104: posits and `F<N>`

`posVal (byteBits a)` is the number denoted by the posit with bytes `a` according to the Posit
Standard 2022, `none` for NaR.
-/

namespace Verif

/-! ## C102: queries and negation -/

private theorem byte_low (b : BitVec 8) :
    ((List.range' 1 7).map b.getLsbD).all (· = false) = true ↔ b &&& 0xFE = 0 := by
  revert b; decide +kernel
private theorem byte_bit (b : BitVec 8) : (b &&& 1 != 0) = b.getLsbD 0 := by
  revert b; decide +kernel
private theorem byte_one (b : BitVec 8) :
    (b == 1) = (b.getLsbD 0 && decide (b &&& 0xFE = 0)) := by
  revert b; decide +kernel
theorem byte_flip (b : BitVec 8) : (b ^^^ 1).getLsbD 0 = (!b.getLsbD 0) ∧
    (List.range' 1 7).map (b ^^^ 1).getLsbD = (List.range' 1 7).map b.getLsbD ∧
    b ^^^ 1 ^^^ 1 = b := by
  revert b; decide +kernel

/-- C102 (part): `is_nar` holds exactly for NaR, `is_negative` exactly for NaR and the negative
numbers, and `new` is zero. -/
theorem C102_queries_partial (a : Bytes) (ha : a ≠ []) :
    Posit.isNar a = .ok (decide (posVal (byteBits a) = none)) ∧
    Posit.isNegative a = .ok (decide (∀ v, posVal (byteBits a) = some v → v < 0)) ∧
    posVal (byteBits (Posit.new a.length)) = some 0 := by
  obtain ⟨b, bs, rfl⟩ := List.exists_cons_of_ne_nil ha
  have hall : ((List.range' 1 7).map b.getLsbD ++ byteBits bs).all (· = false) = true ↔
      (b &&& 0xFE = 0 ∧ (bs.all fun b => b == 0) = true) := by
    rw [List.all_append, Bool.and_eq_true, byteBits_all_false]
    exact and_congr_left' (byte_low b)
  have hbit := byte_bit b
  have hone := byte_one b
  refine ⟨?_, ?_, ?_⟩
  · rw [byteBits_cons]
    show Res.ok _ = Res.ok _
    congr 1
    rw [hone, Bool.eq_iff_iff]
    rcases posVal_cons (b.getLsbD 0) ((List.range' 1 7).map b.getLsbD ++ byteBits bs) with
      ⟨h1, h2⟩ | ⟨h1, f, k, _, _, _, _, h2⟩
    · rw [h2]
      obtain ⟨e1, e2⟩ := hall.mp h1
      simp only [e1, e2]
      cases b.getLsbD 0 <;> simp
    · rw [h2]
      have hn : ¬ (b &&& 0xFE = 0 ∧ (bs.all fun b => b == 0) = true) := by
        rw [← hall, h1]; simp
      constructor
      · intro h
        simp only [Bool.and_eq_true, decide_eq_true_eq] at h
        exact absurd ⟨h.1.2, h.2⟩ hn
      · intro h
        rw [decide_eq_true_eq] at h
        split at h <;> cases h
  · rw [byteBits_cons]
    show Res.ok _ = Res.ok _
    congr 1
    rw [hbit, Bool.eq_iff_iff, decide_eq_true_eq]
    rcases posVal_cons (b.getLsbD 0) ((List.range' 1 7).map b.getLsbD ++ byteBits bs) with
      ⟨h1, h2⟩ | ⟨h1, f, k, f0, f1, _, _, h2⟩
    · rw [h2]
      cases b.getLsbD 0 <;> simp
    · rw [h2]
      have hp : (0 : Rat) < 2 ^ k := by positivity
      have hq : (0 : Rat) < 2 ^ (-(k + 1)) := by positivity
      cases b.getLsbD 0
      · simp only [Bool.false_eq_true, if_false, Option.some.injEq, forall_eq', false_iff, not_lt]
        positivity
      · simp only [if_true, Option.some.injEq, forall_eq', true_iff]
        exact mul_neg_of_neg_of_pos (by linarith) hq
  · have h : ∀ n, byteBits (List.replicate (n + 1) 0) = false :: List.replicate (8 * n + 7) false := by
      intro n
      have := (byteBits_all_false (List.replicate (n + 1) 0)).mpr (by simp)
      rw [← List.replicate_succ]
      exact all_false_eq _ _ (by simp [byteBits_length]; omega) this (by simp)
    rw [Posit.new, List.length_cons, h]
    simp [posVal]

example : Posit.isNar [1, 0] = .ok true ∧ Posit.isNegative [3, 0] = .ok true ∧
    Posit.isNegative [2, 0] = .ok false := by decide

/-- C102 is violated: negating zero gives NaR, negating NaR gives zero, and negating 2 gives -1/2. -/
theorem C102_neg_violated :
    (posVal (byteBits [0]) = some 0 ∧ ∃ z, Posit.neg [0] = .ok z ∧ posVal (byteBits z) = none) ∧
    (posVal (byteBits [1]) = none ∧ ∃ z, Posit.neg [1] = .ok z ∧ posVal (byteBits z) = some 0) ∧
    (posVal (byteBits [0x12]) = some 2 ∧
      ∃ z, Posit.neg [0x12] = .ok z ∧ posVal (byteBits z) = some (-1 / 2)) := by
  refine ⟨⟨by decide, _, rfl, by decide⟩, ⟨by decide, _, rfl, by decide⟩, ?_, _, rfl, ?_⟩
  · have : byteBits [0x12] = [false, true, false, false, true, false, false, false] := by decide
    rw [this]
    norm_num [posVal, regime, afterRegime, runLen, expBits, fracBits]
  · show posVal (byteBits [0x12#8 ^^^ 1]) = _
    have : byteBits [0x12#8 ^^^ 1] = [true, true, false, false, true, false, false, false] := by
      decide
    rw [this]
    norm_num [posVal, regime, afterRegime, runLen, expBits, fracBits]

/-- C102 (part): negation is an involution and changes the sign of every nonzero number, but it
gives the negated number only for 1 and -1; zero and NaR are exchanged. -/
theorem C102_neg_partial (a : Bytes) (ha : a ≠ []) :
    ∃ z, Posit.neg a = .ok z ∧ z.length = a.length ∧ Posit.neg z = .ok a ∧
      (posVal (byteBits a) = some 0 ↔ posVal (byteBits z) = none) ∧
      (posVal (byteBits a) = none ↔ posVal (byteBits z) = some 0) ∧
      ∀ v, posVal (byteBits a) = some v → v ≠ 0 →
        ∃ w, posVal (byteBits z) = some w ∧ (w < 0 ↔ 0 < v) ∧ (w = -v ↔ v = 1 ∨ v = -1) := by
  obtain ⟨b, bs, rfl⟩ := List.exists_cons_of_ne_nil ha
  obtain ⟨h0, ht, hinv⟩ := byte_flip b
  refine ⟨(b ^^^ 1) :: bs, rfl, by simp, by simp only [Posit.neg, hinv], ?_⟩
  rw [byteBits_cons, byteBits_cons, h0, ht]
  generalize (List.range' 1 7).map b.getLsbD ++ byteBits bs = t
  generalize b.getLsbD 0 = s
  rcases posVal_cons s t with ⟨h1, h2⟩ | ⟨h1, f, k, f0, f1, _, _, h2⟩
  · rcases posVal_cons (!s) t with ⟨_, h3⟩ | ⟨h3, _⟩
    · rw [h2, h3]
      cases s
      · refine ⟨by simp, by simp, ?_⟩
        intro v hv hv0
        simp at hv
        exact absurd hv.symm hv0
      · refine ⟨by simp, by simp, ?_⟩
        intro v hv
        simp at hv
    · rw [h1] at h3; cases h3
  · have e1 := h2 s
    have e2 := h2 (!s)
    have hp : (0 : Rat) < 2 ^ k := by positivity
    have hq : (0 : Rat) < 2 ^ (-(k + 1)) := by positivity
    have hP : (0 : Rat) < (1 + f) * 2 ^ k := by positivity
    have hN : (-2 + f) * 2 ^ (-(k + 1)) < (0 : Rat) := mul_neg_of_neg_of_pos (by linarith) hq
    -- the two numbers with this body are opposite only when they are 1 and -1
    have key : ((-2 + f) * 2 ^ (-(k + 1)) = -((1 + f) * 2 ^ k) ↔ (1 + f) * 2 ^ k = (1 : Rat)) ∧
        ((1 + f) * 2 ^ k = -((-2 + f) * 2 ^ (-(k + 1))) ↔ (-2 + f) * 2 ^ (-(k + 1)) = (-1 : Rat)) := by
      have one : ∀ (x : Rat) (i : Int), 1 ≤ x ∧ x < 2 → x * 2 ^ i = 1 → i = 0 ∧ x = 1 := by
        intro x i hx h
        have := pow_unique x 1 i 0 hx ⟨le_refl _, by norm_num⟩ (by simpa using h)
        exact this
      have two : ∀ (x : Rat) (i : Int), 1 < x ∧ x ≤ 2 → x * 2 ^ i = 1 → i = -1 ∧ x = 2 := by
        intro x i hx h
        have := pow_unique' x 2 i (-1) hx ⟨by norm_num, le_refl _⟩ (by rw [h]; norm_num)
        exact this
      have main : (2 - f) * 2 ^ (-(k + 1)) = (1 + f) * 2 ^ k → k = 0 ∧ f = 0 := by
        intro h
        by_cases hf : f = 0
        · subst hf
          have h' : (1 : Rat) * 2 ^ (-k) = 1 * 2 ^ k := by
            have : (2 : Rat) ^ (-k) = 2 * 2 ^ (-(k + 1)) := by
              rw [show -k = 1 + -(k + 1) by ring, zpow_add₀ (by norm_num), zpow_one]
            rw [one_mul, this]
            linarith
          have := (pow_unique 1 1 (-k) k ⟨le_refl _, by norm_num⟩ ⟨le_refl _, by norm_num⟩ h').1
          exact ⟨by omega, rfl⟩
        · have hf0 : 0 < f := lt_of_le_of_ne f0 (Ne.symm hf)
          have := pow_unique (2 - f) (1 + f) (-(k + 1)) k ⟨by linarith, by linarith⟩
            ⟨by linarith, by linarith⟩ h
          omega
      constructor
      · constructor
        · intro h
          obtain ⟨rfl, rfl⟩ := main (by linarith)
          norm_num
        · intro h
          obtain ⟨rfl, hf⟩ := one (1 + f) k ⟨by linarith, by linarith⟩ h
          have : f = 0 := by linarith
          subst this
          norm_num
      · constructor
        · intro h
          obtain ⟨rfl, rfl⟩ := main (by linarith)
          norm_num
        · intro h
          obtain ⟨hk, hf⟩ := two (2 - f) (-(k + 1)) ⟨by linarith, by linarith⟩ (by linarith)
          have : f = 0 := by linarith
          subst this
          have : k = 0 := by omega
          subst this
          norm_num
    rw [e1, e2]
    cases s
    · simp only [Bool.not_false, Bool.false_eq_true, if_false, if_true, Option.some.injEq,
        reduceCtorEq, iff_false, false_iff]
      refine ⟨hP.ne', hN.ne, ?_⟩
      rintro v rfl _
      refine ⟨_, rfl, iff_of_true hN hP, ?_⟩
      rw [key.1]
      constructor
      · exact .inl
      · rintro (h | h)
        · exact h
        · linarith
    · simp only [Bool.not_true, Bool.false_eq_true, if_false, if_true, Option.some.injEq,
        reduceCtorEq, iff_false, false_iff]
      refine ⟨hN.ne, hP.ne', ?_⟩
      rintro v rfl _
      refine ⟨_, rfl, ?_, ?_⟩
      · constructor <;> intro <;> linarith
      · rw [key.2]
        constructor
        · exact .inr
        · rintro (h | h)
          · linarith
          · exact h

example : Posit.neg [0x02, 0] = .ok [0x03, 0] ∧ posVal (byteBits [0x02]) = some 1 := by
  refine ⟨by decide, ?_⟩
  have : byteBits [0x02] = [false, true, false, false, false, false, false, false] := by decide
  rw [this]
  norm_num [posVal, regime, afterRegime, runLen, expBits, fracBits]

/-! ## C103: equality -/

/-- C103: posits of the same size are equal (`==`) exactly when they denote the same number or are
both NaR: no number has two representations. -/
theorem C103_eq (a b : Bytes) (hl : a.length = b.length) (ha : a ≠ []) :
    Posit.eq a b = true ↔ posVal (byteBits a) = posVal (byteBits b) := by
  unfold Posit.eq
  rw [beq_iff_eq]
  constructor
  · rintro rfl; rfl
  · intro h
    refine byteBits_inj a b (posVal_inj _ _ (by simp [byteBits_length, hl]) ?_ h)
    obtain ⟨x, xs, rfl⟩ := List.exists_cons_of_ne_nil ha
    rw [byteBits_cons]
    simp

example : Posit.eq [0x12, 1] [0x12, 1] = true ∧ Posit.eq [0x12, 1] [0x12, 2] = false := by decide

/-! ## C104: bytes of `F<N>` -/

/-- The number written by bytes in big-endian order, from the first (most significant) byte on. -/
private def beNum (b : Bytes) : Nat := b.foldl (fun acc x => acc * 256 + x.toNat) 0

private theorem beNum_eq (b : Bytes) : beNum b = val b.reverse := by
  have h : ∀ (b : Bytes) (acc : Nat),
      b.foldl (fun acc x => acc * 256 + x.toNat) acc = acc * 256 ^ b.length + val b.reverse := by
    intro b
    induction b with
    | nil => intro acc; simp
    | cons x xs ih =>
      intro acc
      rw [List.foldl_cons, ih, List.reverse_cons, val_append]
      have hm : modulus xs.reverse = 256 ^ xs.length := by
        rw [modulus, List.length_reverse, pow_mul]; norm_num
      simp [val, pow_succ, hm]
      ring
  unfold beNum
  rw [h]; simp

/-- C104: the little-endian, big-endian, native and bit-pattern conversions of `F<N>` are inverse to
each other in both directions, on both kinds of machine; the big-endian bytes are the little-endian
ones in reverse, so that all of them write the same bit pattern. -/
theorem C104_bytes (little : Bool) (a : Bytes) :
    FN.fromLeBytes (FN.toLeBytes a) = a ∧ FN.toLeBytes (FN.fromLeBytes a) = a ∧
    FN.fromBeBytes (FN.toBeBytes a) = a ∧ FN.toBeBytes (FN.fromBeBytes a) = a ∧
    FN.fromNeBytes little (FN.toNeBytes little a) = a ∧
    FN.toNeBytes little (FN.fromNeBytes little a) = a ∧
    FN.fromBits (FN.toBits a) = a ∧ FN.toBits (FN.fromBits a) = a ∧
    val (FN.toLeBytes a) = val (FN.toBits a) ∧
    (FN.toBeBytes a).foldl (fun acc x => acc * 256 + x.toNat) 0 = val (FN.toBits a) ∧
    FN.toNeBytes true a = FN.toLeBytes a ∧ FN.toNeBytes false a = FN.toBeBytes a ∧
    FN.fromNeBytes true a = FN.fromLeBytes a ∧ FN.fromNeBytes false a = FN.fromBeBytes a := by
  have hb : FN.fromBeBytes (FN.toBeBytes a) = a := List.reverse_reverse a
  have hb' : FN.toBeBytes (FN.fromBeBytes a) = a := List.reverse_reverse a
  refine ⟨rfl, rfl, hb, hb', ?_, ?_, rfl, rfl, rfl, ?_, rfl, rfl, rfl, rfl⟩
  · cases little
    · exact hb
    · rfl
  · cases little
    · exact hb'
    · rfl
  · exact (beNum_eq _).trans (by rw [FN.toBeBytes, FN.reverse, List.reverse_reverse]; rfl)

example : FN.toBeBytes [0xDB, 0x0F, 0x49, 0x40] = [0x40, 0x49, 0x0F, 0xDB] ∧
    FN.fromBeBytes [0x40, 0x49, 0x0F, 0xDB] = [0xDB, 0x0F, 0x49, 0x40] := by decide

end Verif
