import Verif.Model.Default
import Verif.Spec.BigInt
import Verif.Props.IBits
import Verif.Props.Posit
import Verif.Props.IntLaws
import Verif.Props.IntSigns
import Verif.Props.Vector
import Verif.Props.Matrix
import Verif.Props.Complex

/-!
# C182: default values
-/

namespace Verif

/-- C182 for `U<N>`, `BigInt` and posits: the default value denotes 0; that of `BigInt` is a word that does not refer to
the store. -/
theorem C182_numbers (n : Nat) :
    ((UN.default n).length = n ∧ val (UN.default n) = 0 ∧ UN.isZero (UN.default n) = true) ∧
    (∃ b, BInt.default = .ok b ∧ BInt.ival b = 0 ∧ BInt.isZero b = true ∧
      ∃ w, BigWord.default = .ok w ∧ ∀ st, BigWord.view st w = .ok b) ∧
    (0 < n → posVal (byteBits (Posit.default n)) = some 0) := by
  have hv : val (UN.default n) = 0 := by
    unfold UN.default
    induction n with
    | zero => rfl
    | succ n ih => simp [List.replicate_succ, val, ih]
  refine ⟨⟨by simp [UN.default], hv, by simp [UN.isZero, UN.default]⟩,
    ⟨_, rfl, by decide, by decide, _, rfl, fun st => rfl⟩, fun hn => ?_⟩
  have := (C102_queries_partial (List.replicate n 0) (by simp; omega)).2.2
  simpa [Posit.default] using this

/-- C182 for fixed-point numbers and fractions over any type of integers of which what its operators return is
exact. -/
theorem C182_reals {α : Type} {o : IntOps α} {v : α → Int} {Valid : α → Prop} (h : Checks o v Valid) (N : Nat) :
    (Valid (FixedOf.default o) ∧ fval N (v (FixedOf.default o)) = 0) ∧
    (Valid (RatOf.default o).num ∧ Valid (RatOf.default o).denom ∧
      ratVal v (RatOf.default o) = 0 ∧ v (RatOf.default o).denom = 1) := by
  obtain ⟨z1, z2⟩ := h.zero
  obtain ⟨o1, o2⟩ := h.one
  refine ⟨⟨z1, ?_⟩, z1, o1, ?_, o2⟩
  · unfold FixedOf.default fval
    rw [z2]; simp
  · change (v o.zero : ℚ) / v o.one = 0
    rw [z2]; simp

/-- C182 for vectors, matrices and complex numbers: every component is the default of the component type. -/
theorem C182_components {α : Type} [Inhabited α] (N R C : Nat) :
    Vect.dflt N = List.replicate N (default : α) ∧
    MatOf (Mat.dflt R C) (Matrix.of fun (_ : Fin R) (_ : Fin C) => (default : α)) ∧
    (Complex.dflt : Complex α).real = default ∧ (Complex.dflt : Complex α).imag = default :=
  ⟨by simp [Vect.dflt, List.map_const'], rowsOf_matOf R C fun _ _ => default, rfl, rfl⟩

/-- C182 for vectors, matrices and complex numbers the default of whose components is zero: the whole is zero, and
adding it on either side changes nothing. -/
theorem C182_zero {α : Type} [Ring α] [DecidableEq α] [Inhabited α] (h0 : (default : α) = 0) (N R C : Nat) :
    (Vect.isZero N (Vect.dflt N : List α) = some true ∧
      ∀ a : List α, a.length = N → Vect.add N (Vect.dflt N) a = some a ∧ Vect.add N a (Vect.dflt N) = some a) ∧
    (Mat.isZero R C (Mat.dflt R C : List (List α)) = some true ∧
      ∀ (a : List (List α)) (A : Matrix (Fin R) (Fin C) α), MatOf a A →
        Mat.add R C (Mat.dflt R C) a = some a ∧ Mat.add R C a (Mat.dflt R C) = some a) ∧
    (Complex.isZero (Complex.dflt : Complex α) = true ∧
      ∀ z : Complex α, Complex.add Complex.dflt z = z ∧ Complex.add z Complex.dflt = z) := by
  obtain ⟨hv, hm, -, -⟩ := C182_components (α := α) N R C
  have hz : MatOf (Mat.dflt R C : List (List α)) (0 : Matrix (Fin R) (Fin C) α) := by
    rw [h0] at hm; exact hm
  rw [h0] at hv
  refine ⟨⟨?_, fun a ha => ?_⟩, ⟨?_, fun a A ha => ?_⟩, ?_, fun z => ?_⟩
  · rw [(Vect.C77_others N (Vect.dflt N : List α) (by simp [hv]) 0).2.2.2.2.1, hv]
    exact congrArg some (decide_eq_true fun x hx => (List.mem_replicate.mp hx).2)
  · rw [hv]
    have e1 : Vect.add N (List.replicate N 0) a = _ := Vect.opVec_eq (· + ·) (by simp) ha
    have e2 : Vect.add N a (List.replicate N 0) = _ := Vect.opVec_eq (· + ·) ha (by simp)
    rw [e1, e2]
    subst ha
    constructor <;> refine congrArg some ?_
    · clear e1 e2 hv; induction a with
      | nil => rfl
      | cons x xs ih => simp [List.replicate_succ, ih]
    · clear e1 e2 hv; induction a with
      | nil => rfl
      | cons x xs ih => simp [List.replicate_succ, ih]
  · obtain ⟨b, hb, h1⟩ := (C79_is_zero_one hz).1
    rw [hb, h1.mpr rfl]
  · obtain ⟨s, es, hs⟩ := (C79_ops hz ha).1
    obtain ⟨t, et, ht⟩ := (C79_ops ha hz).1
    rw [zero_add] at hs
    rw [add_zero] at ht
    rw [es, et]
    unfold MatOf at ha hs ht
    rw [hs, ht, ← ha]
    exact ⟨rfl, rfl⟩
  · simp [Complex.isZero, Complex.zero, Complex.dflt, h0]
  · cases z
    simp [Complex.add, Complex.dflt, h0]

/-- Three bytes; three rationals; a matrix of integers. -/
example : UN.default 3 = [0, 0, 0] ∧ (Vect.dflt 3 : List ℚ) = [0, 0, 0] ∧
    (Mat.dflt 2 3 : List (List Int)) = [[0, 0, 0], [0, 0, 0]] ∧ (default : Int) = 0 ∧
    Vect.add 3 (Vect.dflt 3) [(1 : ℚ), 2, 3] = some [1, 2, 3] := by
  refine ⟨rfl, rfl, rfl, rfl, by decide +kernel⟩

end Verif
