import Verif.Model.Prim
import Mathlib.Tactic.Linarith
import Mathlib.Tactic.NormNum
import Mathlib.Tactic.Positivity

/-!
# Zero and one of the primitive integers (C121)
-/

namespace Verif

namespace Prim

private theorem inRange_small (p : Prim) (hp : 2 ≤ p.bits) :
    p.InRange 0 ∧ p.InRange 1 := by
  have h1 : (2 : Int) ≤ 2 ^ (p.bits - 1) := by
    calc (2 : Int) = 2 ^ 1 := by norm_num
      _ ≤ 2 ^ (p.bits - 1) := pow_le_pow_right₀ (by norm_num) (by omega)
  have h2 : (2 : Int) ≤ 2 ^ p.bits := by
    calc (2 : Int) = 2 ^ 1 := by norm_num
      _ ≤ 2 ^ p.bits := pow_le_pow_right₀ (by norm_num) (by omega)
  unfold InRange minV maxV
  cases p.signed <;> simp <;> omega

/-- C121: `zero()` and `one()` are values of the type and neutral for `+` and `*` (no build
overflows), `zero()` absorbs, and `is_zero` and `is_one` recognise exactly the values that are
neutral for addition and for multiplication. -/
theorem C121_identities (p : Prim) (hp : 2 ≤ p.bits) (m : Mode) (a : Int) (ha : p.InRange a) :
    p.InRange zero ∧ p.InRange one ∧
    arith m p (a + zero) = .ok a ∧ arith m p (zero + a) = .ok a ∧
    arith m p (a * one) = .ok a ∧ arith m p (one * a) = .ok a ∧ arith m p (a * zero) = .ok zero ∧
    (isZero a = true ↔ ∀ b, p.InRange b → checkedAdd p a b = some b) ∧
    (isOne a = true ↔ ∀ b, p.InRange b → checkedMul p a b = some b) := by
  obtain ⟨h0, h1⟩ := inRange_small p hp
  have ok : ∀ z, p.InRange z → arith m p z = .ok z := fun z hz => by unfold arith; rw [if_pos hz]
  have ck : ∀ z, p.InRange z → checked p z = some z := fun z hz => by
    unfold checked; rw [if_pos hz]
  have un : ∀ z r, checked p z = some r → z = r := by
    intro z r h
    unfold checked at h
    split at h
    · cases h; rfl
    · cases h
  refine ⟨h0, h1, ?_, ?_, ?_, ?_, ?_, ?_, ?_⟩
  · rw [show a + zero = a from add_zero a]; exact ok a ha
  · rw [show zero + a = a from zero_add a]; exact ok a ha
  · rw [show a * one = a from mul_one a]; exact ok a ha
  · rw [show one * a = a from one_mul a]; exact ok a ha
  · rw [show a * zero = 0 from mul_zero a]; exact ok 0 h0
  · unfold isZero checkedAdd
    rw [decide_eq_true_iff]
    refine ⟨fun h b hb => by rw [h, zero_add]; exact ck b hb, fun h => ?_⟩
    have := un _ _ (h 0 h0)
    omega
  · unfold isOne checkedMul
    rw [decide_eq_true_iff]
    refine ⟨fun h b hb => by rw [h, one_mul]; exact ck b hb, fun h => ?_⟩
    have := un _ _ (h 1 h1)
    omega

example : isZero 0 = true ∧ isOne 1 = true ∧ isOne (-1) = false ∧ checkedAdd i8 0 (-128) = some (-128) ∧
    checkedMul i8 (-1) (-128) = none := by decide

end Prim

end Verif
