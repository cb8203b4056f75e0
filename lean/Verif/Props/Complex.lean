import Verif.Model.Complex
import Mathlib.Algebra.Order.Field.Basic
import Mathlib.Data.Rat.Floor
import Mathlib.Tactic.Ring
import Mathlib.Tactic.FieldSimp
import Mathlib.Tactic.Linarith
import Mathlib.Tactic.NormNum

/-!
# C76: complex numbers
-/

namespace Verif

namespace Complex

@[ext] theorem ext' {α : Type} {a b : Complex α} (h1 : a.real = b.real) (h2 : a.imag = b.imag) :
    a = b := by
  cases a; cases b; simp_all

section ring

variable {K : Type} [CommRing K]

/-- C76: the laws of a commutative ring. -/
theorem C76_ring (a b c : Complex K) :
    add a b = add b a ∧ add (add a b) c = add a (add b c) ∧ add a zero = a ∧
    (∀ x, x = sub a b ↔ add x b = a) ∧
    mul a b = mul b a ∧ mul (mul a b) c = mul a (mul b c) ∧ mul a one = a ∧
    mul a (add b c) = add (mul a b) (mul a c) := by
  refine ⟨?_, ?_, ?_, fun x => ⟨?_, ?_⟩, ?_, ?_, ?_, ?_⟩
  on_goal 4 => rintro rfl
  on_goal 5 => rintro rfl
  all_goals
    apply ext' <;> simp only [add, sub, mul, zero, one, fromReal] <;> ring

/-- C76: it is the ring of complex numbers: `x + y·i` with `i² = -1`, where scalars are embedded by
`from_real`. -/
theorem C76_complex (x y : K) :
    mul (fromImag 1) (fromImag (1 : K)) = fromReal (-1) ∧
    (⟨x, y⟩ : Complex K) = add (fromReal x) (mul (fromImag 1) (fromReal y)) ∧
    fromImag y = mul (fromImag 1) (fromReal y) ∧
    fromReal (x + y) = add (fromReal x) (fromReal y) ∧
    fromReal (x * y) = mul (fromReal x) (fromReal y) ∧
    fromReal (0 : K) = zero ∧ fromReal (1 : K) = one ∧
    (fromReal x = fromReal y ↔ x = y) := by
  refine ⟨?_, ?_, ?_, ?_, ?_, rfl, rfl, ⟨fun h => by injection h, fun h => by rw [h]⟩⟩
  all_goals
    apply ext' <;> simp only [add, mul, fromReal, fromImag] <;> ring

/-- C76: `abs_squared` is multiplicative and is the product with the conjugate. -/
theorem C76_abs_squared (a b : Complex K) :
    absSquared (mul a b) = absSquared a * absSquared b ∧
    mul a ⟨a.real, -a.imag⟩ = fromReal (absSquared a) := by
  refine ⟨?_, ?_⟩
  · simp only [absSquared, mul]; ring
  · apply ext' <;> simp only [absSquared, mul, fromReal] <;> ring

/-- C76: `is_zero` and `is_one` recognise exactly `zero()` and `one()`. -/
theorem C76_identities [DecidableEq K] (a : Complex K) :
    (isZero a = true ↔ a.real = 0 ∧ a.imag = 0) ∧
    (isOne a = true ↔ a.real = 1 ∧ a.imag = 0) := by
  constructor
  · simp only [isZero, beq_iff_eq, zero]
    exact ⟨fun h => by rw [h]; exact ⟨rfl, rfl⟩, fun h => ext' h.1 h.2⟩
  · simp only [isOne, beq_iff_eq, one, fromReal]
    exact ⟨fun h => by rw [h]; exact ⟨rfl, rfl⟩, fun h => ext' h.1 h.2⟩

end ring

variable {K : Type} [Field K]

/-- C76: scalar operations agree with embedding the scalar. Division by the scalar is componentwise. -/
theorem C76_scalar (a : Complex K) (r : K) :
    addScalar a r = add a (fromReal r) ∧ subScalar a r = sub a (fromReal r) ∧
    mulScalar a r = mul a (fromReal r) ∧ divScalar a r = div a (fromReal r) ∧
    (r ≠ 0 → divScalar a r = ⟨a.real / r, a.imag / r⟩) := by
  refine ⟨?_, ?_, ?_, ?_, fun hr => ?_⟩
  · apply ext' <;> simp only [add, addScalar, fromReal] <;> ring
  · apply ext' <;> simp only [sub, subScalar, fromReal] <;> ring
  · apply ext' <;> simp only [mul, mulScalar, fromReal] <;> ring
  · apply ext' <;> simp only [div, divScalar, fromReal, mul_zero, add_zero, sub_zero]
  · apply ext' <;> simp only [divScalar] <;> field_simp

section ordered

variable [LinearOrder K] [IsStrictOrderedRing K]

/-- `abs_squared` is nonnegative and zero only for zero. -/
theorem C76_abs_squared_pos (a : Complex K) :
    0 ≤ absSquared a ∧ (absSquared a = 0 ↔ a = zero) := by
  have h1 := mul_self_nonneg a.real
  have h2 := mul_self_nonneg a.imag
  refine ⟨add_nonneg h1 h2, ⟨fun h => ?_, fun h => by rw [h]; simp [absSquared, zero]⟩⟩
  simp only [absSquared] at h
  exact ext' (mul_self_eq_zero.mp (by linarith)) (mul_self_eq_zero.mp (by linarith))

/-- C76: `/` is the division of the field: `a / b` is the only `q` with `q * b = a`, for `b ≠ 0`. -/
theorem C76_div (a b : Complex K) (hb : b ≠ zero) (q : Complex K) :
    q = div a b ↔ mul q b = a := by
  have hn : absSquared b ≠ 0 := fun h => hb ((C76_abs_squared_pos b).2.mp h)
  simp only [absSquared, ← sq] at hn
  constructor
  · rintro rfl
    apply ext' <;> simp only [mul, div] <;> field_simp <;> ring
  · rintro rfl
    apply ext' <;> simp only [mul, div] <;> field_simp <;> ring

end ordered

/-- A concrete case: (1 + 2i)(3 - i) = 5 + 5i, and back by division. -/
example : mul ⟨1, 2⟩ ⟨3, -1⟩ = (⟨5, 5⟩ : Complex ℚ) ∧ div ⟨5, 5⟩ ⟨3, -1⟩ = (⟨1, 2⟩ : Complex ℚ) ∧
    (⟨3, -1⟩ : Complex ℚ) ≠ zero := by
  refine ⟨?_, ?_, ?_⟩
  · apply ext' <;> norm_num [mul]
  · apply ext' <;> norm_num [div]
  · decide

end Complex

end Verif
