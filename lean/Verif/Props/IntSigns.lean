import Mathlib.Tactic.Linarith
import Verif.Props.IntLawsMore
import Verif.Props.IInt

/-!
# C166, C167: signs, identities and bounds of fixed-point numbers and fractions over any type of integers
-/

namespace Verif

variable {α : Type} {o : IntOps α} {v : α → Int} {Valid : α → Prop} {Fits : Int → Prop}
  {gcd : α → α → Res α} {s : SignOps α} {b : BoundOps α}

theorem ratVal_pos_iff {x : RatG α} (hx : RatOk v Valid x) :
    0 < ratVal v x ↔ (0 < v x.num ∧ 0 < v x.denom) ∨ (v x.num < 0 ∧ v x.denom < 0) := by
  unfold ratVal
  rw [div_pos_iff]
  exact_mod_cast Iff.rfl

theorem ratVal_neg_iff {x : RatG α} (hx : RatOk v Valid x) :
    ratVal v x < 0 ↔ (0 < v x.num ∧ v x.denom < 0) ∨ (v x.num < 0 ∧ 0 < v x.denom) := by
  unfold ratVal
  rw [div_neg_iff]
  exact_mod_cast Iff.rfl

/-! ## C166: signs and identities -/

/-- C166 for fixed-point numbers: `is_zero`, `is_one`, `is_positive` and `is_negative` answer for the number,
and negatives and absolute values are exact if representable. -/
theorem C166_fixed (h : Computes o v Valid Fits) (hbits : ComputesBits o v Valid Fits)
    (hs : Signs s v Valid Fits) (z : α → Bool) (hz : ∀ a, Valid a → (z a = true ↔ v a = 0)) (N : Nat)
    (hN : Fits (2 ^ N)) (x : α) (hx : Valid x) :
    (FixedOf.isZero z x = true ↔ fval N (v x) = 0) ∧
    FixedOf.isOne o N x = .ok (decide (fval N (v x) = 1)) ∧
    FixedOf.isPositive s x = .ok (decide (0 ≤ fval N (v x))) ∧
    FixedOf.isNegative s x = .ok (decide (fval N (v x) < 0)) ∧
    (Fits (-v x) → ∃ r, FixedOf.neg s x = .ok r ∧ Valid r ∧ fval N (v r) = -fval N (v x)) ∧
    (Fits |v x| → ∃ r, FixedOf.abs s x = .ok r ∧ Valid r ∧ fval N (v r) = |fval N (v x)|) := by
  have hp : (0 : ℚ) < 2 ^ N := by positivity
  have e0 : fval N (v x) = 0 ↔ v x = 0 := by
    unfold fval; rw [div_eq_zero_iff]; simp
  have en : fval N (v x) < 0 ↔ v x < 0 := by
    unfold fval; rw [div_lt_iff₀ hp, zero_mul]; exact_mod_cast Iff.rfl
  have ep : 0 ≤ fval N (v x) ↔ 0 ≤ v x := by rw [← not_lt, en, not_lt]
  refine ⟨?_, ?_, ?_, ?_, fun f => ?_, fun f => ?_⟩
  · exact (hz x hx).trans e0.symm
  · obtain ⟨r, e, e1, e2⟩ := FixedOf.one_ok h hbits N hN
    unfold FixedOf.isOne FixedOf.eq
    rw [e]
    dsimp only [Res.bind]
    congr 1
    rw [Bool.eq_iff_iff, h.eq x r hx e1, decide_eq_true_iff, e2]
    unfold fval
    rw [div_eq_one_iff_eq hp.ne']
    exact_mod_cast Iff.rfl
  · rw [FixedOf.isPositive, hs.isPositive x hx]; simp only [ep]
  · rw [FixedOf.isNegative, hs.isNegative x hx]; simp only [en]
  · obtain ⟨r, e, e1, e2⟩ := hs.neg x hx f
    exact ⟨r, e, e1, by rw [e2]; unfold fval; push_cast; ring⟩
  · obtain ⟨r, e, e1, e2⟩ := hs.abs x hx f
    exact ⟨r, e, e1, by rw [e2]; unfold fval; push_cast; rw [abs_div, abs_of_pos hp]⟩

/-- C166 for fractions: `is_zero` answers for the number; `is_one` accepts 1/1 and nothing else; the sign
queries and `abs` are right for a fraction if and only if it is 0 or its denominator is positive. Missing:
`is_one` of other fractions that are 1, and signs of fractions with a negative denominator. -/
theorem C166_rat_exact_partial (h : Checks o v Valid) (hs : Signs s v Valid Fits) (z : α → Bool)
    (hz : ∀ a, Valid a → (z a = true ↔ v a = 0)) (x : RatG α) (hx : RatOk v Valid x) :
    (RatOf.isZero z x = true ↔ ratVal v x = 0) ∧
    ratVal v (RatOf.default o) = 0 ∧
    (RatOf.isOne o x = true ↔ ratVal v x = 1 ∧ v x.denom = 1) ∧
    (RatOf.isPositive s x = .ok (decide (0 ≤ ratVal v x)) ↔ v x.num = 0 ∨ 0 < v x.denom) ∧
    (RatOf.isNegative s x = .ok (decide (ratVal v x < 0)) ↔ v x.num = 0 ∨ 0 < v x.denom) ∧
    (Fits |v x.num| → ∃ r, RatOf.abs s x = .ok r ∧ RatOk v Valid r ∧
      (ratVal v r = |ratVal v x| ↔ v x.num = 0 ∨ 0 < v x.denom)) := by
  have hd := hx.nonzero
  have hdq : (v x.denom : ℚ) ≠ 0 := by exact_mod_cast hd
  have pos := ratVal_pos_iff hx
  have neg := ratVal_neg_iff hx
  have e0 : ratVal v x = 0 ↔ v x.num = 0 := by
    unfold ratVal; rw [div_eq_zero_iff]; simp [hd]
  refine ⟨(hz _ hx.num).trans e0.symm, ?_, ?_, ?_, ?_, fun f => ?_⟩
  · exact (C165_identities h).2.1
  · unfold RatOf.isOne RatOf.eq RatOf.one
    rw [Bool.and_eq_true, h.eq _ _ hx.num h.one.1, h.eq _ _ hx.denom h.one.1, h.one.2]
    unfold ratVal
    constructor
    · rintro ⟨a, b⟩
      rw [a, b]; norm_num
    · rintro ⟨a, b⟩
      rw [b, Int.cast_one, div_one] at a
      exact ⟨by exact_mod_cast a, b⟩
  · rw [RatOf.isPositive, hs.isPositive _ hx.num]
    rw [Res.ok.injEq, decide_eq_decide, ← not_lt, ← not_lt, neg]
    omega
  · rw [RatOf.isNegative, hs.isNegative _ hx.num]
    rw [Res.ok.injEq, decide_eq_decide, neg]
    omega
  · obtain ⟨r, e, e1, e2⟩ := hs.abs _ hx.num f
    refine ⟨⟨r, x.denom⟩, by unfold RatOf.abs; rw [e]; rfl, ⟨e1, hx.denom, hd⟩, ?_⟩
    unfold ratVal
    dsimp only
    rw [e2, abs_div, Int.cast_abs, div_eq_div_iff hdq (by simpa using hd)]
    constructor
    · intro q
      have q' : |v x.num| * |v x.denom| = |v x.num| * v x.denom := by exact_mod_cast q
      rcases eq_or_ne (v x.num) 0 with k | k
      · exact .inl k
      · right
        have := mul_left_cancel₀ (abs_ne_zero.mpr k) q'
        have := abs_pos.mpr hd
        omega
    · rintro (k | k)
      · rw [k]; simp
      · rw [abs_of_pos (show (0 : ℚ) < v x.denom by exact_mod_cast k)]

/-- C166 is violated for every type that has -1 and 2: `Rat::new(1, -1)` says that it is positive and is its
own absolute value, and `Rat::new(2, 2)` is not one. -/
theorem C166_rat_violated (h : Computes o v Valid Fits) (hs : Signs s v Valid Fits) (m t : α)
    (hm : Valid m) (hm1 : v m = -1) (ht : Valid t) (ht2 : v t = 2) :
    ∃ x y r, RatOf.new o gcd o.one m = .ok (some x) ∧ ratVal v x = -1 ∧
      RatOf.isPositive s x = .ok true ∧ RatOf.isNegative s x = .ok false ∧
      RatOf.abs s x = .ok r ∧ ratVal v r = -1 ∧
      RatOf.new o gcd t t = .ok (some y) ∧ ratVal v y = 1 ∧ RatOf.isOne o y = false := by
  obtain ⟨o1, o2⟩ := h.one
  obtain ⟨z1, z2⟩ := h.zero
  have f1 : Fits 1 := by rw [← o2]; exact h.fits _ o1
  have fm : Fits (-1) := by rw [← hm1]; exact h.fits _ hm
  have ef : ∀ {a c : α}, Valid a → Valid c → v a ≠ v c → o.eq a c = false := fun ha hc k => by
    rw [Bool.eq_false_iff]; exact mt (h.eq _ _ ha hc).mp k
  have et : ∀ {a c : α}, Valid a → Valid c → v a = v c → o.eq a c = true := fun ha hc k =>
    (h.eq _ _ ha hc).mpr k
  obtain ⟨q, q1, q2, q3⟩ := h.rem o.one m o1 hm (by omega) (by rw [o2, hm1]; exact fm)
  rw [o2, hm1] at q3
  obtain ⟨w, w1, w2, w3⟩ := h.rem t t ht ht (by omega) (by rw [ht2]; exact f1)
  rw [ht2] at w3
  obtain ⟨r, e, e1, e2⟩ := hs.abs o.one o1 (by rw [o2]; exact f1)
  refine ⟨⟨o.one, m⟩, ⟨t, t⟩, ⟨r, m⟩, ?_, ?_, ?_, ?_, ?_, ?_, ?_, ?_, ?_⟩
  · unfold RatOf.new RatOf.reduce
    rw [ef hm z1 (by omega), ef o1 z1 (by omega), ef hm o1 (by omega), q1]
    simp only [Bool.and_false, Bool.false_eq_true, if_false, Res.bind]
    rw [et q2 z1 (by rw [q3, z2]; decide)]
    rfl
  · unfold ratVal; rw [hm1, o2]; norm_num
  · rw [RatOf.isPositive, hs.isPositive _ o1, o2]; rfl
  · rw [RatOf.isNegative, hs.isNegative _ o1, o2]; rfl
  · unfold RatOf.abs; rw [e]; rfl
  · unfold ratVal; rw [hm1, e2, o2]; norm_num
  · unfold RatOf.new RatOf.reduce
    rw [ef ht z1 (by omega), ef ht o1 (by omega), w1]
    simp only [Bool.and_false, Bool.false_eq_true, if_false, Res.bind]
    rw [et w2 z1 (by rw [w3, z2]; decide)]
    rfl
  · unfold ratVal; rw [ht2]; norm_num
  · unfold RatOf.isOne RatOf.eq RatOf.one
    rw [ef ht o1 (by omega)]; rfl

/-- The signs of a type of integers without bounds, as a user might define it. -/
def unboundedSigns : SignOps Int where
  neg a := .ok (-a)
  abs a := .ok |a|
  isPositive a := .ok (decide (0 ≤ a))
  isNegative a := .ok (decide (a < 0))

theorem unbounded_signs : Signs unboundedSigns id (fun _ => True) (fun _ => True) :=
  ⟨fun _ _ _ => ⟨_, rfl, trivial, rfl⟩, fun _ _ _ => ⟨_, rfl, trivial, rfl⟩, fun _ _ => rfl, fun _ _ => rfl⟩

example : RatOf.abs unboundedSigns ⟨-3, 2⟩ = .ok ⟨3, 2⟩ ∧ RatOf.isNegative unboundedSigns ⟨-3, 2⟩ = .ok true ∧
    RatOf.isOne unboundedOps ⟨1, 1⟩ = true ∧ RatOk id (fun _ => True) (⟨-3, 2⟩ : RatG Int) ∧
    FixedOf.abs unboundedSigns (-5) = .ok 5 :=
  ⟨rfl, rfl, rfl, ⟨trivial, trivial, by decide⟩, rfl⟩

/-! ## C167: bounds -/

/-- C167 for fixed-point numbers: all four bounds are extreme values. -/
theorem C167_fixed (h1 : Valid o.one ∧ v o.one = 1)
    (hn : ∀ a, Valid a → (∃ c, Valid c ∧ v c = -v a) → ∃ c, s.neg a = .ok c ∧ Valid c ∧ v c = -v a)
    (hb : Bounds b v Valid) (N : Nat) (x : α) (hx : Valid x) :
    (Valid (FixedOf.minValue b) ∧ fval N (v (FixedOf.minValue b)) ≤ fval N (v x)) ∧
    (Valid (FixedOf.maxValue b) ∧ fval N (v x) ≤ fval N (v (FixedOf.maxValue b))) ∧
    (Valid (FixedOf.minPositive o) ∧ 0 < fval N (v (FixedOf.minPositive o)) ∧
      (0 < fval N (v x) → fval N (v (FixedOf.minPositive o)) ≤ fval N (v x))) ∧
    ∃ r, FixedOf.maxNegative o s = .ok r ∧ Valid r ∧ fval N (v r) < 0 ∧
      (fval N (v x) < 0 → fval N (v x) ≤ fval N (v r)) := by
  have hp : (0 : ℚ) < 2 ^ N := by positivity
  have hle : ∀ a b : Int, fval N a ≤ fval N b ↔ a ≤ b := fun a b => by
    unfold fval; rw [div_le_div_iff_of_pos_right hp]; exact_mod_cast Iff.rfl
  have hlt : ∀ a b : Int, fval N a < fval N b ↔ a < b := fun a b => by
    rw [← not_le, hle, not_le]
  have h0 : (0 : ℚ) = fval N 0 := by simp [fval]
  obtain ⟨o1, o2⟩ := h1
  obtain ⟨n1, n2, n3⟩ := hb.maxNegative
  have sym := hb.symmetric
  have hmax := hb.maxValue.2 _ o1
  obtain ⟨r, e, e1, e2⟩ := hn o.one o1 (by
    rw [o2]; exact hb.between (-1) (by omega) (by omega))
  refine ⟨⟨hb.minValue.1, (hle _ _).mpr (hb.minValue.2 x hx)⟩,
    ⟨hb.maxValue.1, (hle _ _).mpr (hb.maxValue.2 x hx)⟩, ⟨o1, ?_, ?_⟩, r, e, e1, ?_, ?_⟩
  · rw [h0, hlt, FixedOf.minPositive, o2]; omega
  · rw [h0, hlt, hle, FixedOf.minPositive, o2]; omega
  · rw [h0, hlt, e2, o2]; omega
  · rw [h0, hlt, hle, e2, o2]; omega

/-- C167 for fractions: the bounds are fractions, and every fraction keeps to them but for these: `MIN / -1` is
above `max_value`, `-1 / MIN` is a positive number below `min_positive` and `1 / MIN` a negative number above
`max_negative`, if there is one number more below 0 than above. Missing: the bounds for these three. -/
theorem C167_rat_exact_partial (h1 : Valid o.one ∧ v o.one = 1) (hb : Bounds b v Valid) (x : RatG α)
    (hx : RatOk v Valid x) :
    (RatOk v Valid (RatOf.minValue o b) ∧ ratVal v (RatOf.minValue o b) ≤ ratVal v x) ∧
    (RatOk v Valid (RatOf.maxValue o b) ∧ (ratVal v x ≤ ratVal v (RatOf.maxValue o b) ↔
      ¬ (v x.num = -v b.maxValue - 1 ∧ v x.denom = -1))) ∧
    (RatOk v Valid (RatOf.minPositive b) ∧ 0 < ratVal v (RatOf.minPositive b) ∧
      (0 < ratVal v x → (ratVal v (RatOf.minPositive b) ≤ ratVal v x ↔
        ¬ (v x.num = -1 ∧ v x.denom = -v b.maxValue - 1)))) ∧
    RatOk v Valid (RatOf.maxNegative b) ∧ ratVal v (RatOf.maxNegative b) < 0 ∧
      (ratVal v x < 0 → (ratVal v x ≤ ratVal v (RatOf.maxNegative b) ↔
        ¬ (v x.num = 1 ∧ v x.denom = -v b.maxValue - 1))) := by
  obtain ⟨o1, o2⟩ := h1
  obtain ⟨l1, l2⟩ := hb.minValue
  obtain ⟨u1, u2⟩ := hb.maxValue
  obtain ⟨p1, p2, p3⟩ := hb.minPositive
  obtain ⟨n1, n2, n3⟩ := hb.maxNegative
  have sym := hb.symmetric
  have hp := p3 _ o1 (by omega)
  have hone := u2 _ o1
  have hpos : v b.minPositive = 1 := by omega
  have hneg : v b.maxNegative = -1 := by
    obtain ⟨a, a1, a2⟩ := hb.between (-1) (by omega) (by omega)
    have := n3 a a1 (by omega)
    omega
  have hn1 := l2 _ hx.num
  have hn2 := u2 _ hx.num
  have hd1 := l2 _ hx.denom
  have hd2 := u2 _ hx.denom
  have hd0 := hx.nonzero
  have pos := ratVal_pos_iff hx
  have neg := ratVal_neg_iff hx
  have m1 : -v b.maxValue - 1 ≤ v b.minValue := by omega
  have m2 : v b.minValue ≤ -v b.maxValue := by omega
  have m3 : 1 ≤ v b.maxValue := by omega
  have hu : (0 : ℚ) < v b.maxValue := by exact_mod_cast (by omega : 0 < v b.maxValue)
  refine ⟨⟨⟨l1, o1, by show v o.one ≠ 0; omega⟩, ?_⟩, ⟨⟨u1, o1, by show v o.one ≠ 0; omega⟩, ?_⟩,
    ⟨⟨p1, u1, by show v b.maxValue ≠ 0; omega⟩, ?_, fun hp => ?_⟩,
    ⟨n1, u1, by show v b.maxValue ≠ 0; omega⟩, ?_, fun hn => ?_⟩
  · unfold ratVal RatOf.minValue
    rw [o2, Int.cast_one, div_one]
    rcases lt_or_gt_of_ne hd0 with k | k
    · rw [le_div_iff_of_neg (by exact_mod_cast k)]
      exact_mod_cast (by
        nlinarith [mul_nonneg (by omega : 0 ≤ -v x.denom - 1) (by omega : 0 ≤ -v b.minValue)] :
          v x.num ≤ v b.minValue * v x.denom)
    · rw [le_div_iff₀ (by exact_mod_cast k)]
      exact_mod_cast (by
        nlinarith [mul_nonneg (by omega : 0 ≤ v x.denom - 1) (by omega : 0 ≤ -v b.minValue)] :
          v b.minValue * v x.denom ≤ v x.num)
  · unfold ratVal RatOf.maxValue
    rw [o2, Int.cast_one, div_one]
    rcases lt_or_gt_of_ne hd0 with k | k
    · rw [div_le_iff_of_neg (by exact_mod_cast k)]
      have e : (v b.maxValue : ℚ) * v x.denom ≤ v x.num ↔ v b.maxValue * v x.denom ≤ v x.num := by
        exact_mod_cast Iff.rfl
      rw [e]
      constructor
      · rintro q ⟨q1, q2⟩
        rw [q1, q2] at q
        omega
      · intro q
        by_cases k1 : v x.denom = -1
        · rw [k1]; omega
        · nlinarith [mul_nonneg (by omega : 0 ≤ -v x.denom - 2) (by omega : 0 ≤ v b.maxValue)]
    · rw [div_le_iff₀ (by exact_mod_cast k)]
      have e : (v x.num : ℚ) ≤ v b.maxValue * v x.denom ↔ v x.num ≤ v b.maxValue * v x.denom := by
        exact_mod_cast Iff.rfl
      rw [e]
      constructor
      · rintro - ⟨-, q2⟩
        omega
      · intro _
        nlinarith
  · unfold ratVal RatOf.minPositive
    dsimp only
    rw [hpos]
    positivity
  · unfold ratVal RatOf.minPositive
    dsimp only
    rw [hpos]
    rcases pos.mp hp with ⟨k1, k2⟩ | ⟨k1, k2⟩
    · rw [div_le_div_iff₀ hu (by exact_mod_cast k2)]
      constructor
      · rintro - ⟨q1, -⟩
        omega
      · intro _
        exact_mod_cast (by nlinarith : 1 * v x.denom ≤ v x.num * v b.maxValue)
    · rw [← neg_div_neg_eq (v x.num : ℚ), div_le_div_iff₀ hu (by rw [neg_pos]; exact_mod_cast k2)]
      have e : ((1 : Int) : ℚ) * -(v x.denom : ℚ) ≤ -(v x.num : ℚ) * v b.maxValue ↔
          1 * -v x.denom ≤ -v x.num * v b.maxValue := by exact_mod_cast Iff.rfl
      rw [e]
      constructor
      · rintro q ⟨q1, q2⟩
        rw [q1, q2] at q
        omega
      · intro q
        by_cases q1 : v x.num = -1
        · rw [q1]; omega
        · nlinarith [mul_nonneg (by omega : 0 ≤ -v x.num - 2) (by omega : 0 ≤ v b.maxValue)]
  · unfold ratVal RatOf.maxNegative
    dsimp only
    rw [hneg]
    exact div_neg_of_neg_of_pos (by norm_num) hu
  · unfold ratVal RatOf.maxNegative
    dsimp only
    rw [hneg]
    rcases neg.mp hn with ⟨k1, k2⟩ | ⟨k1, k2⟩
    · rw [← neg_div_neg_eq (v x.num : ℚ), div_le_div_iff₀ (by rw [neg_pos]; exact_mod_cast k2) hu]
      have e : -(v x.num : ℚ) * v b.maxValue ≤ ((-1 : Int) : ℚ) * -(v x.denom : ℚ) ↔
          -v x.num * v b.maxValue ≤ -1 * -v x.denom := by exact_mod_cast Iff.rfl
      rw [e]
      constructor
      · rintro q ⟨q1, q2⟩
        rw [q1, q2] at q
        omega
      · intro q
        by_cases q1 : v x.num = 1
        · rw [q1]; omega
        · nlinarith [mul_nonneg (by omega : 0 ≤ v x.num - 2) (by omega : 0 ≤ v b.maxValue)]
    · rw [div_le_div_iff₀ (by exact_mod_cast k2) hu]
      constructor
      · rintro - ⟨q1, -⟩
        omega
      · intro _
        exact_mod_cast (by nlinarith : v x.num * v b.maxValue ≤ -1 * v x.denom)

/-- C167 is violated for every type with a gcd that has one number more below 0 than above: `Rat::new(1, MIN)`
is a negative number above `max_negative`, and its negative a positive one below `min_positive`. -/
theorem C167_rat_violated (h : Computes o v Valid Fits) (hs : Signs s v Valid Fits) (hb : Bounds b v Valid)
    (hm : v b.minValue = -v b.maxValue - 1) :
    ∃ x y, RatOf.new o gcd o.one b.minValue = .ok (some x) ∧
      ratVal v x < 0 ∧ ratVal v (RatOf.maxNegative b) < ratVal v x ∧
      RatOf.neg s.neg x = .ok y ∧
      0 < ratVal v y ∧ ratVal v y < ratVal v (RatOf.minPositive b) := by
  obtain ⟨o1, o2⟩ := h.one
  obtain ⟨z1, z2⟩ := h.zero
  obtain ⟨l1, l2⟩ := hb.minValue
  have hone := hb.maxValue.2 _ o1
  have fl := h.fits _ l1
  have ef : ∀ {a c : α}, Valid a → Valid c → v a ≠ v c → o.eq a c = false := fun ha hc k => by
    rw [Bool.eq_false_iff]; exact mt (h.eq _ _ ha hc).mp k
  have et : ∀ {a c : α}, Valid a → Valid c → v a = v c → o.eq a c = true := fun ha hc k =>
    (h.eq _ _ ha hc).mpr k
  have t0 : (1 : Int).tdiv (v b.minValue) = 0 := by
    have k : (1 : Int).tdiv (-v b.minValue) = 0 := Int.tdiv_eq_zero_of_lt (by norm_num) (by omega)
    rw [Int.tdiv_neg] at k
    omega
  have t1 : (1 : Int).tmod (v b.minValue) = 1 := by
    have := Int.tmod_add_mul_tdiv 1 (v b.minValue)
    rw [t0] at this; omega
  obtain ⟨q, q1, q2, q3⟩ := h.rem o.one b.minValue o1 l1 (by omega) (by
    rw [o2, t0]; exact h.interval _ _ fl (.inr ⟨by omega, le_rfl⟩))
  rw [o2, t1] at q3
  obtain ⟨w, w1, w2, w3⟩ := h.rem b.minValue o.one l1 o1 (by omega) (by
    rw [o2, Int.tdiv_one]; exact fl)
  rw [o2, Int.tmod_one] at w3
  obtain ⟨r, e, e1, e2⟩ := hs.neg o.one o1 (by
    rw [o2]; exact h.interval _ _ fl (.inr ⟨by omega, by omega⟩))
  rw [o2] at e2
  have hx : RatOk v Valid (⟨o.one, b.minValue⟩ : RatG α) := ⟨o1, l1, by show v b.minValue ≠ 0; omega⟩
  have hy : RatOk v Valid (⟨r, b.minValue⟩ : RatG α) := ⟨e1, l1, by show v b.minValue ≠ 0; omega⟩
  have hx0 := (ratVal_neg_iff hx).mpr (.inl ⟨by show 0 < v o.one; omega, by show v b.minValue < 0; omega⟩)
  have hy0 := (ratVal_pos_iff hy).mpr (.inr ⟨by show v r < 0; omega, by show v b.minValue < 0; omega⟩)
  have bx := (C167_rat_exact_partial h.one hb _ hx).2.2.2.2.2 hx0
  have by' := (C167_rat_exact_partial h.one hb _ hy).2.2.1.2.2 hy0
  refine ⟨⟨o.one, b.minValue⟩, ⟨r, b.minValue⟩, ?_, hx0, ?_, ?_, hy0, ?_⟩
  · unfold RatOf.new RatOf.reduce
    rw [ef l1 z1 (by omega), ef o1 z1 (by omega), ef l1 o1 (by omega), q1]
    simp only [Bool.and_false, Bool.false_eq_true, if_false, Res.bind]
    rw [ef q2 z1 (by omega), w1]
    simp only [Bool.false_eq_true, if_false, Res.bind]
    rw [et w2 z1 (by omega)]
    rfl
  · rw [← not_le, bx, not_not]; exact ⟨o2, hm⟩
  · unfold RatOf.neg; rw [e]; rfl
  · rw [← not_le, by', not_not]; exact ⟨e2, hm⟩

/-- The bounds of `I<M>` are as these theorems ask, and so are 1 and negatives. -/
theorem C167_signed (m : Mode) (M : Nat) (hM : 0 < M) :
    Bounds (IN.boundOps M) sval (fun a => a.length = M) ∧
    sval (IN.boundOps M).minValue = -sval (IN.boundOps M).maxValue - 1 ∧
    ((IN.intOps m M).one.length = M ∧ sval (IN.intOps m M).one = 1) ∧
    ∀ a, a.length = M → (∃ c : Bytes, c.length = M ∧ sval c = -sval a) →
      ∃ c, IN.signOps.neg a = .ok c ∧ c.length = M ∧ sval c = -sval a := by
  have surj : ∀ k n, n < 256 ^ k → ∃ l : Bytes, l.length = k ∧ val l = n := by
    intro k
    induction k with
    | zero => intro n h; exact ⟨[], rfl, by simp at h; simp [val, h]⟩
    | succ k ih =>
      intro n h
      obtain ⟨l, l1, l2⟩ := ih (n / 256) (by rw [pow_succ] at h; omega)
      refine ⟨BitVec.ofNat 8 n :: l, by simp [l1], ?_⟩
      simp only [val, l2, BitVec.toNat_ofNat]
      omega
  have key : ∀ a : Bytes, a.length = M → a ≠ [] := fun a h e => by rw [e] at h; simp at h; omega
  have all : ∀ a : Bytes, a.length = M → _ := fun a h => C40_sign_bounds_partial a (key a h)
  obtain ⟨-, -, ⟨a1, a2⟩, ⟨b1, b2⟩, -, ⟨c1, c2⟩, ⟨d1, d2⟩, -, -⟩ := all (List.replicate M 0) (by simp)
  rw [List.length_replicate] at a1 a2 b1 b2 c1 c2 d1 d2
  refine ⟨⟨⟨a1, fun a h => ?_⟩, ⟨b1, fun a h => ?_⟩, ⟨d1, ?_, fun a h k => ?_⟩, ⟨c1, ?_, fun a h k => ?_⟩,
    fun z hz1 hz2 => ?_, .inr ?_⟩, ?_, ⟨d1, d2⟩, fun a h ⟨c, k1, k2⟩ => ?_⟩
  · have := (all a h).2.2.2.2.1.1; rw [h] at this; exact this
  · have := (all a h).2.2.2.2.1.2; rw [h] at this; exact this
  · show 0 < sval (IN.minPositive M); omega
  · show sval (IN.minPositive M) ≤ _; omega
  · show sval (IN.maxNegative M) < 0; omega
  · show _ ≤ sval (IN.maxNegative M); omega
  · change sval (IN.minValue M) ≤ z at hz1
    change z ≤ sval (IN.maxValue M) at hz2
    obtain ⟨l, l1, l2⟩ := surj M (z % 256 ^ M).toNat (by
      have := Int.emod_lt_of_pos z (by positivity : (0 : Int) < 256 ^ M)
      have := Int.emod_nonneg z (by positivity : (256 ^ M : Int) ≠ 0)
      zify
      rw [Int.toNat_of_nonneg this]
      assumption)
    refine ⟨l, l1, ?_⟩
    have hw : WrapsTo M z (sval l) := by
      have := wraps_of_mod l z (by
        rw [l1, l2, Int.toNat_of_nonneg (Int.emod_nonneg z (by positivity))]
        exact Int.dvd_sub_self_of_emod_eq (by simp))
      rw [l1] at this; exact this
    exact wraps_unique hw ⟨by omega, by omega, by simp⟩
  · show sval (IN.minValue M) = -sval (IN.maxValue M) - 1; omega
  · show sval (IN.minValue M) = -sval (IN.maxValue M) - 1; omega
  · obtain ⟨r1, r2⟩ := sval_range c
    rw [k1] at r1 r2
    refine ⟨IN.neg a, rfl, ?_, ?_⟩
    · rw [(C38_twos_complement a a rfl).2.2.2.1, h]
    · exact (C38_exact_when_it_fits a a rfl (-sval a) (by rw [h, ← k2]; exact ⟨r1, r2⟩)).2.2.2 rfl

/-- So for `I<M>` the fraction `1 / MIN`, in lowest terms, is a negative number above `max_negative`, and
`-1 / MIN` a positive one below `min_positive`. (`I<M>` has no gcd: such a fraction can only be made with
`new_unchecked`, whose conditions it meets.) -/
theorem C167_signed_violated (m : Mode) (M : Nat) (hM : 0 < M) :
    ∃ x y : RatG Bytes, RatOk sval (fun a => a.length = M) x ∧ RatOk sval (fun a => a.length = M) y ∧
      Int.gcd (sval x.num) (sval x.denom) = 1 ∧ Int.gcd (sval y.num) (sval y.denom) = 1 ∧
      ratVal sval x < 0 ∧ ratVal sval (RatOf.maxNegative (IN.boundOps M)) < ratVal sval x ∧
      0 < ratVal sval y ∧ ratVal sval y < ratVal sval (RatOf.minPositive (IN.boundOps M)) := by
  obtain ⟨hb, hm, h1, -⟩ := C167_signed m M hM
  obtain ⟨o1, o2⟩ := h1
  obtain ⟨l1, l2⟩ := hb.minValue
  have hone := hb.maxValue.2 _ o1
  obtain ⟨r, e1, e2⟩ := hb.between (-1) (by omega) (by omega)
  have hx : RatOk sval (fun a => a.length = M) (⟨(IN.intOps m M).one, (IN.boundOps M).minValue⟩ : RatG Bytes) :=
    ⟨o1, l1, by show sval (IN.boundOps M).minValue ≠ 0; omega⟩
  have hy : RatOk sval (fun a => a.length = M) (⟨r, (IN.boundOps M).minValue⟩ : RatG Bytes) :=
    ⟨e1, l1, by show sval (IN.boundOps M).minValue ≠ 0; omega⟩
  have hx0 := (ratVal_neg_iff hx).mpr
    (.inl ⟨by show 0 < sval (IN.intOps m M).one; omega, by show sval (IN.boundOps M).minValue < 0; omega⟩)
  have hy0 := (ratVal_pos_iff hy).mpr
    (.inr ⟨by show sval r < 0; omega, by show sval (IN.boundOps M).minValue < 0; omega⟩)
  have bx := (C167_rat_exact_partial (o := IN.intOps m M) ⟨o1, o2⟩ hb _ hx).2.2.2.2.2 hx0
  have by' := (C167_rat_exact_partial (o := IN.intOps m M) ⟨o1, o2⟩ hb _ hy).2.2.1.2.2 hy0
  refine ⟨_, _, hx, hy, ?_, ?_, hx0, ?_, hy0, ?_⟩
  · show Int.gcd (sval (IN.intOps m M).one) _ = 1; rw [o2]; simp
  · show Int.gcd (sval r) _ = 1; rw [e2]; simp
  · rw [← not_le, bx, not_not]; exact ⟨o2, hm⟩
  · rw [← not_le, by', not_not]; exact ⟨e2, hm⟩

example : ratVal sval (RatOf.maxNegative (IN.boundOps 1)) = -1 / 127 ∧
    ratVal sval (⟨[1#8], [0x80#8]⟩ : RatG Bytes) = -1 / 128 ∧
    fval 4 (sval (FixedOf.minValue (IN.boundOps 1))) = -8 := by
  have e1 : sval (IN.boundOps 1).maxNegative = -1 := by decide
  have e2 : sval (IN.boundOps 1).maxValue = 127 := by decide
  have e3 : sval [0x80#8] = -128 := by decide
  have e4 : sval [1#8] = 1 := by decide
  have e5 : sval (FixedOf.minValue (IN.boundOps 1)) = -128 := by decide
  unfold ratVal RatOf.maxNegative fval
  dsimp only
  rw [e1, e2, e3, e4, e5]
  norm_num

end Verif
