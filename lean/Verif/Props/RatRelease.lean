import Verif.Props.RatExact
import Mathlib.Data.Int.ModEq

/-!
# C67, C69: fractions of machine integers when something overflows
-/

namespace Verif

open Prim RatM

/-- The fraction of two values of the type: nothing hangs, it panics exactly if the denominator is zero
or Euclid's algorithm meets the minimum and ends in `-1` (C67), and otherwise it has the right value. -/
def FractionOf (p : Prim) (o : Res RatM) (n d : Int) : Prop :=
  o ≠ .hang ∧
  (o = .panic ↔ d = 0 ∨ (p.signed = true ∧ (n = p.minV ∨ d = p.minV) ∧ signedGcd n d = -1)) ∧
  ∀ r, o = .ok r → RatValid p r ∧ qval r = n / d

/-- The same for two integers which are first reduced to values of the type. -/
def WrappedFraction (p : Prim) (o : Res RatM) (N D : Int) : Prop :=
  ∃ n d, p.InRange n ∧ p.InRange d ∧ n ≡ N [ZMOD 2 ^ p.bits] ∧ d ≡ D [ZMOD 2 ^ p.bits] ∧
    FractionOf p o n d

private theorem fractionOf_newUnwrap {p : Prim} (hb : 2 ≤ p.bits) {n d : Int} (hn : p.InRange n)
    (hd : p.InRange d) : FractionOf p (newUnwrap p n d) n d := by
  obtain ⟨h1, h2⟩ := C67_new_exact_partial p hb n d hn hd
  refine ⟨?_, ?_, fun r h => ?_⟩
  · intro h
    unfold newUnwrap at h
    cases hnew : RatM.new p n d with
    | ok o =>
      rw [hnew] at h
      cases o <;> simp [Res.bind, Res.ofOption] at h
    | panic => rw [hnew] at h; simp [Res.bind] at h
    | hang => exact h1 hnew
  · by_cases h0 : d = 0
    · rw [h0, newUnwrap_zero]; simp
    · rw [← h2, or_iff_right h0]
      unfold newUnwrap
      cases hnew : RatM.new p n d with
      | ok o =>
        cases o with
        | none => exact absurd ((C67_new_partial p hb n d hn hd).1.mp hnew) h0
        | some r => simp [Res.bind, Res.ofOption]
      | panic => simp [Res.bind]
      | hang => exact absurd hnew h1
  · obtain ⟨a, -, b⟩ := newUnwrap_val hb hn hd h
    exact ⟨a, b⟩

private theorem wrap_modEq {p : Prim} (hb : 0 < p.bits) (z : Int) :
    p.wrap z ≡ z [ZMOD 2 ^ p.bits] :=
  ((Int.modEq_iff_dvd).mpr (wrap_spec hb z).2).symm

private theorem arith_rel {p : Prim} (hb : 0 < p.bits) (z : Int) :
    arith .release p z = .ok (p.wrap z) := by
  unfold arith
  split
  · rename_i h; rw [wrap_eq hb h]
  · rfl

private theorem wrapped_newUnwrap {p : Prim} (hb : 2 ≤ p.bits) {n d N D : Int}
    (hn : n ≡ N [ZMOD 2 ^ p.bits]) (hd : d ≡ D [ZMOD 2 ^ p.bits]) :
    WrappedFraction p (newUnwrap p (p.wrap n) (p.wrap d)) N D := by
  have hb' : 0 < p.bits := by omega
  exact ⟨p.wrap n, p.wrap d, (wrap_spec hb' n).1, (wrap_spec hb' d).1, (wrap_modEq hb' n).trans hn,
    (wrap_modEq hb' d).trans hd, fractionOf_newUnwrap hb (wrap_spec hb' n).1 (wrap_spec hb' d).1⟩

/-- C67, in release builds, exactly: sums, differences, products and quotients are the fractions of the
numerator and denominator of the textbook formula, each reduced to the type; a denominator reduced to zero
panics. Negation reduces the numerator. Missing, because false: that the result is the number if something
overflows. -/
theorem C67_release_exact_partial (p : Prim) (hb : 2 ≤ p.bits) (x y : RatM) :
    WrappedFraction p (RatM.add .release p x y) (x.num * y.denom + y.num * x.denom)
      (x.denom * y.denom) ∧
    WrappedFraction p (RatM.sub .release p x y) (x.num * y.denom - y.num * x.denom)
      (x.denom * y.denom) ∧
    WrappedFraction p (RatM.mul .release p x y) (x.num * y.num) (x.denom * y.denom) ∧
    WrappedFraction p (RatM.div .release p x y) (x.num * y.denom) (x.denom * y.num) ∧
    ∃ n, RatM.neg .release p x = .ok ⟨n, x.denom⟩ ∧ p.InRange n ∧ n ≡ -x.num [ZMOD 2 ^ p.bits] := by
  have hb' : 0 < p.bits := by omega
  refine ⟨?_, ?_, ?_, ?_, p.wrap (-x.num), ?_, (wrap_spec hb' _).1, wrap_modEq hb' _⟩
  · unfold RatM.add
    simp only [arith_rel hb', Res.bind]
    exact wrapped_newUnwrap hb ((wrap_modEq hb' _).add (wrap_modEq hb' _)) rfl
  · unfold RatM.sub
    simp only [arith_rel hb', Res.bind]
    exact wrapped_newUnwrap hb ((wrap_modEq hb' _).sub (wrap_modEq hb' _)) rfl
  · unfold RatM.mul
    simp only [arith_rel hb', Res.bind]
    exact wrapped_newUnwrap hb rfl rfl
  · unfold RatM.div
    simp only [arith_rel hb', Res.bind]
    exact wrapped_newUnwrap hb rfl rfl
  · unfold RatM.neg
    simp only [arith_rel hb', Res.bind]

-- the denominator 256 of the product of 1/16 with itself is reduced to 0; 100 + 100 becomes -56
example : RatM.mul .release u8 ⟨1, 16⟩ ⟨1, 16⟩ = .panic ∧
    RatM.add .release i8 ⟨100, 1⟩ ⟨100, 1⟩ = .ok ⟨-56, 1⟩ ∧
    RatM.neg .release i8 ⟨-128, 3⟩ = .ok ⟨-128, 3⟩ := by decide

/-- One operation in a debug build: it panics if one of the integers formed is no value of the type,
and is the fraction of the last two otherwise. -/
def CheckedFraction (p : Prim) (o : Res RatM) (formed : List Int) (N D : Int) : Prop :=
  ((∃ z ∈ N :: D :: formed, ¬ p.InRange z) → o = .panic) ∧
  ((∀ z ∈ N :: D :: formed, p.InRange z) → FractionOf p o N D)

private theorem arith_dbg {p : Prim} {z : Int} (h : ¬ p.InRange z) : arith .debug p z = .panic := by
  unfold arith; rw [if_neg h]

/-- C67, in debug builds, exactly: each operation panics if one of the products and sums it forms does not
fit the type, and is the fraction of numerator and denominator otherwise. -/
theorem C67_debug_exact_partial (p : Prim) (hb : 2 ≤ p.bits) (x y : RatM) :
    CheckedFraction p (RatM.add .debug p x y) [x.num * y.denom, y.num * x.denom]
      (x.num * y.denom + y.num * x.denom) (x.denom * y.denom) ∧
    CheckedFraction p (RatM.sub .debug p x y) [x.num * y.denom, y.num * x.denom]
      (x.num * y.denom - y.num * x.denom) (x.denom * y.denom) ∧
    CheckedFraction p (RatM.mul .debug p x y) [] (x.num * y.num) (x.denom * y.denom) ∧
    CheckedFraction p (RatM.div .debug p x y) [] (x.num * y.denom) (x.denom * y.num) ∧
    RatM.neg .debug p x = if p.InRange (-x.num) then .ok ⟨-x.num, x.denom⟩ else .panic := by
  have four : ∀ (a b n d : Int),
      CheckedFraction p ((arith .debug p a).bind fun _ => (arith .debug p b).bind fun _ =>
        (arith .debug p n).bind fun n => (arith .debug p d).bind fun d => newUnwrap p n d)
        [a, b] n d := by
    intro a b n d
    constructor
    · intro h
      by_cases ha : p.InRange a
      · by_cases hb : p.InRange b
        · by_cases hn : p.InRange n
          · by_cases hd : p.InRange d
            · exfalso
              obtain ⟨z, hz, hz'⟩ := h
              simp only [List.mem_cons, List.not_mem_nil, or_false] at hz
              rcases hz with rfl | rfl | rfl | rfl <;> contradiction
            · simp only [arith_ok _ ha, arith_ok _ hb, arith_ok _ hn, arith_dbg hd, Res.bind]
          · simp only [arith_ok _ ha, arith_ok _ hb, arith_dbg hn, Res.bind]
        · simp only [arith_ok _ ha, arith_dbg hb, Res.bind]
      · simp only [arith_dbg ha, Res.bind]
    · intro h
      simp only [List.mem_cons, List.not_mem_nil, or_false, forall_eq_or_imp, forall_eq] at h
      obtain ⟨hn, hd, ha, hb'⟩ := h
      simp only [arith_ok _ ha, arith_ok _ hb', arith_ok _ hn, arith_ok _ hd, Res.bind]
      exact fractionOf_newUnwrap hb hn hd
  have two : ∀ (n d : Int),
      CheckedFraction p ((arith .debug p n).bind fun n => (arith .debug p d).bind fun d =>
        newUnwrap p n d) [] n d := by
    intro n d
    constructor
    · intro h
      by_cases hn : p.InRange n
      · by_cases hd : p.InRange d
        · exfalso
          obtain ⟨z, hz, hz'⟩ := h
          simp only [List.mem_cons, List.not_mem_nil, or_false] at hz
          rcases hz with rfl | rfl <;> contradiction
        · simp only [arith_ok _ hn, arith_dbg hd, Res.bind]
      · simp only [arith_dbg hn, Res.bind]
    · intro h
      simp only [List.mem_cons, List.not_mem_nil, or_false, forall_eq_or_imp, forall_eq] at h
      obtain ⟨hn, hd⟩ := h
      simp only [arith_ok _ hn, arith_ok _ hd, Res.bind]
      exact fractionOf_newUnwrap hb hn hd
  have same : ∀ (z : Int) (k : Int → Res RatM),
      ((arith .debug p z).bind k) = (arith .debug p z).bind fun _ => k z := by
    intro z k
    by_cases hz : p.InRange z
    · simp only [arith_ok _ hz, Res.bind]
    · simp only [arith_dbg hz, Res.bind]
  refine ⟨?_, ?_, two _ _, two _ _, ?_⟩
  · have := four (x.num * y.denom) (y.num * x.denom) (x.num * y.denom + y.num * x.denom)
      (x.denom * y.denom)
    unfold RatM.add
    rw [same (x.num * y.denom), same (y.num * x.denom)]
    exact this
  · have := four (x.num * y.denom) (y.num * x.denom) (x.num * y.denom - y.num * x.denom)
      (x.denom * y.denom)
    unfold RatM.sub
    rw [same (x.num * y.denom), same (y.num * x.denom)]
    exact this
  · unfold RatM.neg
    by_cases hz : p.InRange (-x.num)
    · rw [if_pos hz, arith_ok _ hz]; rfl
    · rw [if_neg hz, arith_dbg hz]; rfl

example : RatM.add .debug i8 ⟨100, 3⟩ ⟨-50, 3⟩ = .panic ∧
    RatM.add .debug i8 ⟨1, 3⟩ ⟨1, 6⟩ = .ok ⟨9, 18⟩ ∧
    RatM.sub .debug u8 ⟨1, 3⟩ ⟨1, 2⟩ = .panic ∧ RatM.div .debug i8 ⟨1, 3⟩ ⟨0, 1⟩ = .panic := by decide

/-- C69, `ceil` in release builds, exactly: the integer that is one more than the number with its fraction
dropped, times the denominator, is reduced to the type and divided by the denominator, dropping the
fraction. Only `MIN / (-1)` panics, before or after. -/
theorem C69_ceil_release_exact_partial (p : Prim) (hb : 2 ≤ p.bits) (x : RatM) (hx : RatValid p x) :
    ∃ n, p.InRange n ∧ n ≡ (truncQ (qval x) + 1) * x.denom [ZMOD 2 ^ p.bits] ∧
      RatM.ceil .release p x =
        if p.signed = true ∧ (x.num = p.minV ∨ n = p.minV) ∧ x.denom = -1 then .panic
        else .ok ⟨truncQ (n / x.denom : ℚ), 1⟩ := by
  have h0 := hx.nonzero
  have hb' : 0 < p.bits := by omega
  refine ⟨p.wrap ((truncQ (qval x) + 1) * x.denom), (wrap_spec hb' _).1, wrap_modEq hb' _, ?_⟩
  have e := Int.tmod_add_mul_tdiv x.num x.denom
  have ht : ∀ n : Int, truncQ (n / x.denom : ℚ) = n.tdiv x.denom := fun n =>
    truncQ_qval ⟨n, x.denom⟩ h0
  rw [ht, truncQ_qval x h0]
  by_cases bad : p.signed = true ∧ x.num = p.minV ∧ x.denom = -1
  · rw [if_pos ⟨bad.1, Or.inl bad.2.1, bad.2.2⟩]
    unfold RatM.ceil rem
    rw [if_neg h0, if_pos bad]; rfl
  · unfold RatM.ceil
    rw [rem_ok h0 bad]
    simp only [Res.bind, arith_rel hb']
    have hw : p.wrap (x.num + p.wrap (x.denom - x.num.tmod x.denom)) =
        p.wrap ((x.num.tdiv x.denom + 1) * x.denom) := by
      refine eq_of_dvd hb' (wrap_spec hb' _).1 (wrap_spec hb' _).1 ?_
      rw [← Int.modEq_iff_dvd]
      refine (wrap_modEq hb' _).trans (Int.ModEq.symm ?_)
      refine (wrap_modEq hb' _).trans ?_
      refine (Int.ModEq.add_left _ (wrap_modEq hb' _)).trans ?_
      rw [show x.num + (x.denom - x.num.tmod x.denom) = (x.num.tdiv x.denom + 1) * x.denom by
        linarith]
    rw [hw]
    by_cases bad2 : p.signed = true ∧ p.wrap ((x.num.tdiv x.denom + 1) * x.denom) = p.minV ∧
        x.denom = -1
    · rw [if_pos ⟨bad2.1, Or.inr bad2.2.1, bad2.2.2⟩, div_bad bad2]
    · rw [if_neg, div_ok h0 bad2]
      · exact newUnwrap_int p _
      · rintro ⟨h1, h2 | h2, h3⟩
        · exact bad ⟨h1, h2, h3⟩
        · exact bad2 ⟨h1, h2, h3⟩

example : RatM.ceil .release i8 ⟨127, 2⟩ = .ok ⟨-64, 1⟩ ∧ RatM.ceil .release u8 ⟨255, 2⟩ = .ok ⟨0, 1⟩ ∧
    RatM.ceil .release i8 ⟨-127, -1⟩ = .panic := by decide

end Verif
