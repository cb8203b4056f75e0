import Verif.Props.Posit

/-!
# C102, exactly: the number a negated posit denotes
-/

namespace Verif

/-- C102, exactly: between two powers of 2, negation maps the positive number `v` to the negative one
`(v - 3 2^k) / (2 4^k)`, instead of to `-v`, and back. -/
theorem C102_neg_exact_partial (a : Bytes) (ha : a ≠ []) :
    ∃ z, Posit.neg a = .ok z ∧ ∀ v, posVal (byteBits a) = some v →
      (0 < v → ∃ k : Int, 2 ^ k ≤ v ∧ v < 2 ^ (k + 1) ∧
        posVal (byteBits z) = some ((v - 3 * 2 ^ k) / (2 * 4 ^ k))) ∧
      (v < 0 → ∃ (w : Rat) (k : Int), posVal (byteBits z) = some w ∧ 2 ^ k ≤ w ∧ w < 2 ^ (k + 1) ∧
        v = (w - 3 * 2 ^ k) / (2 * 4 ^ k)) := by
  obtain ⟨b, bs, rfl⟩ := List.exists_cons_of_ne_nil ha
  obtain ⟨h0, ht, hinv⟩ := byte_flip b
  refine ⟨(b ^^^ 1) :: bs, rfl, ?_⟩
  rw [byteBits_cons, byteBits_cons, h0, ht]
  generalize (List.range' 1 7).map b.getLsbD ++ byteBits bs = t
  generalize b.getLsbD 0 = s
  rcases posVal_cons s t with ⟨h1, h2⟩ | ⟨h1, f, k, f0, f1, _, _, h2⟩
  · rw [h2]
    intro v hv
    cases s
    · simp only [Bool.false_eq_true, if_false, Option.some.injEq] at hv
      subst hv
      exact ⟨fun h => absurd h (lt_irrefl _), fun h => absurd h (lt_irrefl _)⟩
    · simp at hv
  · have hp : (0 : Rat) < 2 ^ k := by positivity
    have hpos : (0 : Rat) < (1 + f) * 2 ^ k := by positivity
    have hneg : (-2 + f) * 2 ^ (-(k + 1)) < (0 : Rat) :=
      mul_neg_of_neg_of_pos (by linarith) (by positivity)
    have hb1 : (2 : Rat) ^ k ≤ (1 + f) * 2 ^ k := by nlinarith
    have hb2 : (1 + f) * 2 ^ k < (2 : Rat) ^ (k + 1) := by
      rw [zpow_add₀ (by norm_num), zpow_one]; nlinarith
    have hrel : (-2 + f) * 2 ^ (-(k + 1)) = ((1 + f) * 2 ^ k - 3 * 2 ^ k) / (2 * 4 ^ k : Rat) := by
      rw [zpow_neg, zpow_add₀ (by norm_num), zpow_one, show (4 : Rat) = 2 * 2 by norm_num, mul_zpow]
      field_simp
      ring
    intro v hv
    rw [h2] at hv
    cases s
    · simp only [Bool.false_eq_true, if_false, Option.some.injEq] at hv
      subst hv
      refine ⟨fun _ => ⟨k, hb1, hb2, ?_⟩, fun h => absurd hpos (by linarith)⟩
      rw [h2]
      simp only [Bool.not_false, if_true]
      rw [hrel]
    · simp only [if_true, Option.some.injEq] at hv
      subst hv
      refine ⟨fun h => absurd hneg (by linarith), fun _ => ⟨_, k, ?_, hb1, hb2, hrel⟩⟩
      rw [h2]
      simp

/-- The byte `0x22` denotes 3/2, and its negation denotes -3/4. -/
example : posVal (byteBits [0x22#8]) = some (3 / 2) ∧ Posit.neg [0x22#8] = .ok [0x23#8] ∧
    posVal (byteBits [0x23#8]) = some (-3 / 4) := by decide +kernel

/-- C122 is violated by every pair of posits: comparing, adding and subtracting panic, also for
operands whose order and sum are clear, such as 0 and 0. Nothing else of C122 can hold then. -/
theorem C122_violated : ∀ a b : Bytes,
    Posit.cmp a b = .panic ∧ Posit.add a b = .panic ∧ Posit.sub a b = .panic :=
  fun _ _ => ⟨rfl, rfl, rfl⟩

example : posVal (byteBits [0#8]) = some 0 ∧ Posit.cmp [0#8] [0#8] = .panic := by decide +kernel

end Verif
