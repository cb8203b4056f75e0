import Verif.Props.IntLaws

/-!
# C164, C165: more about fixed-point numbers and fractions over any type of integers
-/

namespace Verif

open RatM (bind_ok)

variable {α : Type} {o : IntOps α} {v : α → Int} {Valid : α → Prop} {Fits : Int → Prop}
  {gcd : α → α → Res α}

/-! ## C164: products, quotients and remainders of fixed-point numbers -/

/-- C164 for `%`: the exact remainder of division truncated toward zero, smaller than the divisor and of the
sign of the dividend, if the whole part of the quotient is representable. -/
theorem C164_rem (h : Computes o v Valid Fits) (N : Nat) (x y : α) (hx : Valid x) (hy : Valid y)
    (h0 : fval N (v y) ≠ 0) (hf : Fits (truncQ (fval N (v x) / fval N (v y)))) :
    ∃ r, FixedOf.rem o x y = .ok r ∧ Valid r ∧
      fval N (v r) = fval N (v x) - truncQ (fval N (v x) / fval N (v y)) * fval N (v y) ∧
      |fval N (v r)| < |fval N (v y)| ∧ 0 ≤ fval N (v r) * fval N (v x) := by
  have z : fval N 0 = 0 := by unfold fval; simp
  have h0' : v y ≠ 0 := fun e => h0 (by rw [e, z])
  rw [Fixed.trunc_div_fval _ h0'] at hf ⊢
  obtain ⟨r, e, r1, r2⟩ := h.rem x y hx hy h0' hf
  have hp : (0 : ℚ) < 2 ^ N := by positivity
  have hdm := Int.tmod_add_mul_tdiv (v x) (v y)
  refine ⟨r, e, r1, ?_, ?_, ?_⟩
  · rw [r2]
    have : ((v x).tmod (v y) : ℚ) = v x - (v x).tdiv (v y) * v y := by
      have : (v x).tmod (v y) = v x - (v x).tdiv (v y) * v y := by linarith
      exact_mod_cast this
    unfold fval
    rw [this]
    ring
  · unfold fval
    rw [abs_div, abs_div, abs_of_pos hp, div_lt_div_iff_of_pos_right hp, r2]
    have : |(v x).tmod (v y)| < |v y| := by
      rw [Int.abs_eq_natAbs, Int.abs_eq_natAbs, Int.natAbs_tmod]
      exact_mod_cast Nat.mod_lt _ (by omega)
    exact_mod_cast this
  · have : 0 ≤ v r * v x := by
      rw [r2]
      rcases le_total 0 (v x) with q | q
      · exact mul_nonneg (Int.tmod_nonneg _ q) q
      · have a := Int.tmod_nonneg (v y) (show 0 ≤ -v x by omega)
        rw [Int.neg_tmod] at a
        exact mul_nonneg_of_nonpos_of_nonpos (by omega) q
    unfold fval
    rw [div_mul_div_comm]
    exact div_nonneg (by exact_mod_cast this) (by positivity)

/-- C164, what `*` and `/` do for every type of integers: the product is too large by the factor `2^N`, the
quotient is the whole part of the exact one, too small by that factor. Missing, because false for `N > 0`:
the right scale (`C164_mul_violated`, `C164_div_violated`). -/
theorem C164_mul_div_exact_partial (h : Computes o v Valid Fits) (N : Nat) (x y : α) (hx : Valid x)
    (hy : Valid y) :
    (Fits (v x * v y) → ∃ r, FixedOf.mul o x y = .ok r ∧ Valid r ∧
      fval N (v r) = fval N (v x) * fval N (v y) * 2 ^ N) ∧
    (fval N (v y) ≠ 0 → Fits (truncQ (fval N (v x) / fval N (v y))) →
      ∃ r, FixedOf.div o x y = .ok r ∧ Valid r ∧
        fval N (v r) = truncQ (fval N (v x) / fval N (v y)) / 2 ^ N) := by
  refine ⟨fun f => ?_, fun h0 hf => ?_⟩
  · obtain ⟨r, e, r1, r2⟩ := h.mul x y hx hy f
    refine ⟨r, e, r1, ?_⟩
    rw [r2]
    unfold fval
    push_cast
    field_simp
  · have h0' : v y ≠ 0 := fun e => h0 (by rw [e]; unfold fval; simp)
    rw [Fixed.trunc_div_fval _ h0'] at hf ⊢
    obtain ⟨r, e, r1, r2⟩ := h.div x y hx hy h0' hf
    exact ⟨r, e, r1, by rw [r2]; rfl⟩

/-- Without fractional bits both are right. -/
theorem C164_whole_partial (h : Computes o v Valid Fits) (x y : α) (hx : Valid x) (hy : Valid y) :
    (Fits (v x * v y) → ∃ r, FixedOf.mul o x y = .ok r ∧ Valid r ∧
      fval 0 (v r) = fval 0 (v x) * fval 0 (v y)) ∧
    (fval 0 (v y) ≠ 0 → Fits (truncQ (fval 0 (v x) / fval 0 (v y))) →
      ∃ r, FixedOf.div o x y = .ok r ∧ Valid r ∧ fval 0 (v r) = truncQ (fval 0 (v x) / fval 0 (v y))) := by
  have := C164_mul_div_exact_partial h 0 x y hx hy
  simpa using this

/-- C164 is violated by `*` for every type of integers and any positive number of fractional bits: the
square of 1 is not 1, nor within a unit of precision of it. -/
theorem C164_mul_violated (h : Computes o v Valid Fits) (hbits : ComputesBits o v Valid Fits)
    (N : Nat) (hN : 0 < N) (hf : Fits (2 ^ (2 * N))) :
    ∃ i r, FixedOf.one o N = .ok i ∧ FixedOf.mul o i i = .ok r ∧ fval N (v i) = 1 ∧
      1 / 2 ^ N < |fval N (v r) - 1| := by
  have p1 : (2 : Int) ^ 1 ≤ 2 ^ N := pow_le_pow_right₀ (by norm_num) hN
  have p2 : (2 : Int) ^ N ≤ 2 ^ (2 * N) := pow_le_pow_right₀ (by norm_num) (by omega)
  have hN' : Fits (2 ^ N) := h.interval _ _ hf (.inl ⟨by omega, p2⟩)
  obtain ⟨i, e, i1, i2⟩ := FixedOf.one_ok h hbits N hN'
  have hi : fval N (v i) = 1 := by
    have := Fixed.fval_scaled (N := N) 1
    rw [one_mul] at this
    rw [i2, this]; rfl
  obtain ⟨r, e', -, r2⟩ := (C164_mul_div_exact_partial h N i i i1 i1).1
    (by rw [i2, ← pow_add, ← two_mul]; exact hf)
  refine ⟨i, r, e, e', hi, ?_⟩
  rw [r2, hi]
  have q : (2 : ℚ) ≤ 2 ^ N := by exact_mod_cast p1
  have q2 : (1 : ℚ) / 2 ^ N ≤ 1 / 2 := one_div_le_one_div_of_le (by norm_num) q
  rw [abs_of_nonneg (by linarith)]
  linarith

/-- C164 is violated by `/` likewise: for two or more fractional bits, the quotient of 1 and 1 is off by more
than a unit of precision; it is not 1 for one fractional bit either. -/
theorem C164_div_violated (h : Computes o v Valid Fits) (hbits : ComputesBits o v Valid Fits)
    (N : Nat) (hN : 0 < N) (hf : Fits (2 ^ N)) :
    ∃ i r, FixedOf.one o N = .ok i ∧ FixedOf.div o i i = .ok r ∧ fval N (v i) = 1 ∧
      fval N (v r) = 1 / 2 ^ N ∧ fval N (v r) ≠ 1 ∧ (2 ≤ N → 1 / 2 ^ N < |fval N (v r) - 1|) := by
  have p1 : (2 : Int) ^ 1 ≤ 2 ^ N := pow_le_pow_right₀ (by norm_num) hN
  obtain ⟨i, e, i1, i2⟩ := FixedOf.one_ok h hbits N hf
  have hi : fval N (v i) = 1 := by
    have := Fixed.fval_scaled (N := N) 1
    rw [one_mul] at this
    rw [i2, this]; rfl
  have ht : truncQ (fval N (v i) / fval N (v i)) = 1 := by
    rw [hi]; unfold truncQ; norm_num
  obtain ⟨r, e', -, r2⟩ := (C164_mul_div_exact_partial h N i i i1 i1).2 (by rw [hi]; norm_num)
    (by rw [ht]; exact h.interval _ _ hf (.inl ⟨by omega, by omega⟩))
  rw [ht] at r2
  have q : (2 : ℚ) ≤ 2 ^ N := by exact_mod_cast p1
  have q2 : (1 : ℚ) / 2 ^ N ≤ 1 / 2 := one_div_le_one_div_of_le (by norm_num) q
  have r3 : fval N (v r) = 1 / 2 ^ N := by rw [r2]; norm_num
  refine ⟨i, r, e, e', hi, r3, by rw [r3]; intro e; linarith, fun h2 => ?_⟩
  have p4 : (4 : ℚ) ≤ 2 ^ N := by
    have : (2 : ℚ) ^ 2 ≤ 2 ^ N := pow_le_pow_right₀ (by norm_num) h2
    linarith
  have p5 : (1 : ℚ) / 2 ^ N ≤ 1 / 4 := one_div_le_one_div_of_le (by norm_num) p4
  rw [r3, abs_of_nonpos (by linarith)]
  linarith

example : FixedOf.rem (Prim.intOps .debug ⟨true, 16⟩) (-23) 10 = .ok (-3) ∧
    FixedOf.mul (Prim.intOps .debug ⟨true, 16⟩) 16 16 = .ok 256 ∧
    FixedOf.div (Prim.intOps .debug ⟨true, 16⟩) 16 16 = .ok 1 ∧
    (⟨true, 16⟩ : Prim).InRange (2 ^ (2 * 4)) := by decide

/-! ## C165: rounding fractions -/

/-- `zero`, `one` of `Rat<T>` are 0 and 1. -/
theorem C165_identities (h : Checks o v Valid) :
    RatOk v Valid (RatOf.zero o) ∧ ratVal v (RatOf.zero o) = 0 ∧
    RatOk v Valid (RatOf.one o) ∧ ratVal v (RatOf.one o) = 1 := by
  have h1 : v o.one ≠ 0 := by rw [h.one.2]; decide
  refine ⟨⟨h.zero.1, h.one.1, h1⟩, ?_, ⟨h.one.1, h.one.1, h1⟩, ?_⟩
  · show (v o.zero : ℚ) / v o.one = 0
    rw [h.zero.2, h.one.2]; simp
  · show (v o.one : ℚ) / v o.one = 1
    rw [h.one.2]; simp

/-- C165 for `ceil`, exactly: one more than the number with its fraction dropped toward zero. So it is the
least integer above exactly for positive numbers that are not whole. Missing, because false: all others. -/
theorem C165_ceil_exact_partial (h : Checks o v Valid) (hg : ChecksGcd gcd v Valid) (x r : RatG α)
    (hx : RatOk v Valid x) (e : RatOf.ceil o gcd x = .ok r) :
    RatOk v Valid r ∧ ratVal v r = truncQ (ratVal v x) + 1 ∧
    (ratVal v r = ⌈ratVal v x⌉ ↔ 0 < ratVal v x ∧ ∀ n : Int, ratVal v x ≠ n) := by
  obtain ⟨s, e1, e⟩ := bind_ok e
  obtain ⟨d, e2, e⟩ := bind_ok e
  obtain ⟨n, e3, e⟩ := bind_ok e
  obtain ⟨q, e4, e⟩ := bind_ok e
  obtain ⟨-, s1, s2⟩ := h.rem _ _ _ hx.num hx.denom e1
  obtain ⟨d1, d2⟩ := h.sub _ _ _ hx.denom s1 e2
  obtain ⟨n1, n2⟩ := h.add _ _ _ hx.num d1 e3
  obtain ⟨-, q1, q2⟩ := h.div _ _ _ n1 hx.denom e4
  obtain ⟨-, r1, r2⟩ := RatOf.newUnwrap_val h hg q1 h.one.1 e
  have hv : ratVal v r = truncQ (ratVal v x) + 1 := by
    rw [r2, h.one.2, q2, n2, d2, s2]
    unfold ratVal
    rw [Fixed.trunc_div _ hx.nonzero]
    have e : v x.num + (v x.denom - (v x.num).tmod (v x.denom)) =
        ((v x.num).tdiv (v x.denom) + 1) * v x.denom := by
      have := Int.tdiv_mul_add_tmod (v x.num) (v x.denom)
      linarith
    rw [e, Int.mul_tdiv_cancel _ hx.nonzero]
    push_cast
    simp
  refine ⟨r1, hv, ?_⟩
  rw [hv]
  generalize ratVal v x = z
  have e : ((truncQ z : ℚ) + 1 = ⌈z⌉) ↔ truncQ z + 1 = ⌈z⌉ := by exact_mod_cast Iff.rfl
  rw [e]
  unfold truncQ
  constructor
  · intro hh
    split at hh
    · have hnot : ∀ n : Int, z ≠ n := by
        rintro n rfl
        rw [Int.floor_intCast, Int.ceil_intCast] at hh
        omega
      exact ⟨lt_of_le_of_ne ‹_› (fun e => hnot 0 (by rw [← e]; simp)), hnot⟩
    · omega
  · rintro ⟨h0, hn⟩
    rw [if_pos h0.le]
    have h1 : (⌊z⌋ : ℚ) ≤ z := Int.floor_le z
    have h2 : z < ⌊z⌋ + 1 := Int.lt_floor_add_one z
    symm
    rw [Int.ceil_eq_iff]
    push_cast
    refine ⟨?_, h2.le⟩
    have := lt_of_le_of_ne h1 (fun e => hn ⌊z⌋ e.symm)
    linarith

/-- C165 for `round`, exactly: the number with its fraction dropped toward zero, and one more if, for a
positive denominator, the dropped fraction is above one half, or if, for a negative denominator, it is below one
half by at least half a unit of the denominator. -/
theorem C165_round_exact_partial (h : Checks o v Valid) (hg : ChecksGcd gcd v Valid) (x r : RatG α)
    (hx : RatOk v Valid x) (e : RatOf.round o gcd x = .ok r) :
    RatOk v Valid r ∧ ratVal v r = (truncQ (ratVal v x) : ℚ) + if 0 < v x.denom
      then (if 1 / 2 < ratVal v x - truncQ (ratVal v x) then 1 else 0)
      else (if (ratVal v x - truncQ (ratVal v x)) * |(v x.denom : ℚ)| < (|v x.denom| / 2 : Int)
        then 1 else 0) := by
  obtain ⟨t, e0, e⟩ := bind_ok e
  obtain ⟨s, e1, e⟩ := bind_ok e
  obtain ⟨f, e2, e⟩ := bind_ok e
  obtain ⟨c, e3, e⟩ := bind_ok e
  obtain ⟨q, e4, e⟩ := bind_ok e
  obtain ⟨n, e5, e⟩ := bind_ok e
  obtain ⟨t1, t2⟩ := h.add _ _ _ h.one.1 h.one.1 e0
  rw [h.one.2] at t2
  obtain ⟨h0, s1, s2⟩ := h.rem _ _ _ hx.num hx.denom e1
  obtain ⟨-, f1, f2⟩ := h.div _ _ _ hx.denom t1 e2
  have c2 := h.cmp _ _ _ s1 f1 e3
  obtain ⟨-, q1, q2⟩ := h.div _ _ _ hx.num hx.denom e4
  have k1 : Valid (if c = .gt then o.one else o.zero) := by
    split
    · exact h.one.1
    · exact h.zero.1
  obtain ⟨n1, n2⟩ := h.add _ _ _ q1 k1 e5
  obtain ⟨-, r1, r2⟩ := RatOf.newUnwrap_val h hg n1 h.one.1 e
  refine ⟨r1, ?_⟩
  have hd : (v x.denom : ℚ) ≠ 0 := by exact_mod_cast h0
  have hfr : ratVal v x - truncQ (ratVal v x) = ((v x.num).tmod (v x.denom) : ℚ) / v x.denom := by
    unfold ratVal
    rw [Fixed.trunc_div _ h0, eq_div_iff hd, sub_mul, div_mul_cancel₀ _ hd]
    have := Int.tdiv_mul_add_tmod (v x.num) (v x.denom)
    have : ((v x.num).tdiv (v x.denom) : ℚ) * v x.denom + ((v x.num).tmod (v x.denom) : Int) = v x.num := by
      exact_mod_cast this
    linarith
  have ht : truncQ (ratVal v x) = (v x.num).tdiv (v x.denom) := Fixed.trunc_div _ h0
  have hgt : c = .gt ↔ (v x.denom).tdiv 2 < (v x.num).tmod (v x.denom) := by
    rw [c2, s2, f2, t2]
    exact compare_gt_iff_gt
  have hk : (v (if c = .gt then o.one else o.zero) : ℚ) = if 0 < v x.denom
      then (if 1 / 2 < ratVal v x - truncQ (ratVal v x) then 1 else 0)
      else (if (ratVal v x - truncQ (ratVal v x)) * |(v x.denom : ℚ)| < (|v x.denom| / 2 : Int)
        then 1 else 0) := by
    rw [hfr]
    generalize (v x.num).tmod (v x.denom) = m at *
    generalize v x.denom = d at *
    have key : (c = .gt) ↔ (if 0 < d then (1 / 2 : ℚ) < (m : ℚ) / d
        else (m : ℚ) / d * |(d : ℚ)| < (|d| / 2 : Int)) := by
      rw [hgt]
      by_cases hpos : 0 < d
      · rw [if_pos hpos]
        have hq : (0 : ℚ) < d := by exact_mod_cast hpos
        rw [lt_div_iff₀ hq]
        have e : ((1 : ℚ) / 2 * d < m) ↔ d < 2 * m := by
          constructor
          · intro hh
            have : (d : ℚ) < 2 * m := by linarith
            exact_mod_cast this
          · intro hh
            have : (d : ℚ) < 2 * m := by exact_mod_cast hh
            linarith
        rw [e, Int.tdiv_eq_ediv_of_nonneg hpos.le]
        omega
      · rw [if_neg hpos]
        have hneg : d < 0 := by omega
        have hq : (d : ℚ) < 0 := by exact_mod_cast hneg
        have e : (m : ℚ) / d * |(d : ℚ)| = -m := by
          rw [abs_of_neg hq]; field_simp
        rw [e, abs_of_neg hneg]
        have e2 : d.tdiv 2 = -((-d) / 2) := by
          rw [← Int.tdiv_eq_ediv_of_nonneg (by omega), Int.neg_tdiv, Int.neg_neg]
        rw [e2]
        have e3 : (-(m : ℚ) < ((-d / 2 : Int) : ℚ)) ↔ -m < -d / 2 := by exact_mod_cast Iff.rfl
        rw [e3]
        omega
    by_cases hc : c = .gt
    · rw [if_pos hc, h.one.2]
      have k := key.mp hc
      by_cases hpos : 0 < d
      · rw [if_pos hpos] at k ⊢; rw [if_pos k]; rfl
      · rw [if_neg hpos] at k ⊢; rw [if_pos k]; rfl
    · rw [if_neg hc, h.zero.2]
      have k := mt key.mpr hc
      by_cases hpos : 0 < d
      · rw [if_pos hpos] at k ⊢; rw [if_neg k]; rfl
      · rw [if_neg hpos] at k ⊢; rw [if_neg k]; rfl
  rw [r2, h.one.2, n2, ht, ← ht, ← hk, q2]
  push_cast
  rw [ht]
  simp

/-- C165 for `round`: nonnegative numbers with a positive denominator are rounded to a nearest integer. -/
theorem C165_round_partial (h : Checks o v Valid) (hg : ChecksGcd gcd v Valid) (x r : RatG α)
    (hx : RatOk v Valid x) (h0 : 0 ≤ ratVal v x) (hd : 0 < v x.denom)
    (e : RatOf.round o gcd x = .ok r) :
    ∃ n : Int, ratVal v r = n ∧ |ratVal v r - ratVal v x| ≤ 1 / 2 := by
  obtain ⟨-, e⟩ := C165_round_exact_partial h hg x r hx e
  rw [if_pos hd] at e
  have ht : truncQ (ratVal v x) = ⌊ratVal v x⌋ := by unfold truncQ; rw [if_pos h0]
  rw [ht] at e
  have h1 : (⌊ratVal v x⌋ : ℚ) ≤ ratVal v x := Int.floor_le _
  have h2 : ratVal v x < ⌊ratVal v x⌋ + 1 := Int.lt_floor_add_one _
  split at e
  · refine ⟨⌊ratVal v x⌋ + 1, by rw [e]; push_cast; ring, ?_⟩
    rw [e, abs_le]
    constructor <;> linarith
  · refine ⟨⌊ratVal v x⌋, by rw [e]; push_cast; ring, ?_⟩
    rw [e, abs_le]
    constructor <;> linarith

/-- C165 is violated for every type of integers without bounds: `ceil` of 0 is 1. -/
theorem C165_ceil_violated (h : Checks o v Valid) (hc : Computes o v Valid fun _ => True)
    (hg : ChecksGcd gcd v Valid) (ht : ∀ a b, Valid a → Valid b → ∃ g, gcd a b = .ok g) :
    ∃ r, RatOf.ceil o gcd (RatOf.zero o) = .ok r ∧ ratVal v (RatOf.zero o) = 0 ∧ ratVal v r = 1 := by
  obtain ⟨z1, z2, -, -⟩ := C165_identities h
  obtain ⟨s, e1, s1, s2⟩ := hc.rem _ _ z1.num z1.denom z1.nonzero trivial
  obtain ⟨d, e2, d1, d2⟩ := hc.sub _ _ z1.denom s1 trivial
  obtain ⟨n, e3, n1, n2⟩ := hc.add _ _ z1.num d1 trivial
  obtain ⟨q, e4, q1, q2⟩ := hc.div _ _ n1 z1.denom z1.nonzero trivial
  obtain ⟨r, e5⟩ := RatOf.newUnwrap_ok hc hg ht q1 h.one.1 (by rw [h.one.2]; decide)
  have e : RatOf.ceil o gcd (RatOf.zero o) = .ok r := by
    unfold RatOf.ceil
    rw [e1]; dsimp only [Res.bind]; rw [e2]; dsimp only [Res.bind]; rw [e3]; dsimp only [Res.bind]
    rw [e4]
    exact e5
  refine ⟨r, e, z2, ?_⟩
  rw [(C165_ceil_exact_partial h hg _ r z1 e).2.1, z2]
  unfold truncQ
  norm_num

/-- C165 is violated by `round`: -3/4 is rounded to 0. -/
theorem C165_round_violated :
    RatOf.round unboundedOps (fun a b => .ok (Int.gcd a b : Int)) ⟨-3, 4⟩ = .ok ⟨0, 1⟩ ∧
    1 / 2 < |ratVal id (⟨0, 1⟩ : RatG Int) - ratVal id (⟨-3, 4⟩ : RatG Int)| := by
  refine ⟨rfl, ?_⟩
  unfold ratVal
  norm_num

example : RatOf.ceil unboundedOps (fun a b => .ok (Int.gcd a b : Int)) ⟨7, 2⟩ = .ok ⟨4, 1⟩ ∧
    RatOf.round unboundedOps (fun a b => .ok (Int.gcd a b : Int)) ⟨7, 4⟩ = .ok ⟨2, 1⟩ := ⟨rfl, rfl⟩

end Verif
