import Mathlib.Tactic.FieldSimp
import Mathlib.Tactic.Ring
import Verif.Spec.IntLaws
import Verif.Lemmas.Rat
import Verif.Lemmas.Fixed

/-!
# Helper lemmas: fractions over any type of integers
-/

namespace Verif

namespace RatOf

open RatM (bind_ok)

variable {α : Type} {o : IntOps α} {v : α → Int} {Valid : α → Prop} {Fits : Int → Prop}
  {gcd : α → α → Res α}

theorem reduce_val (h : Checks o v Valid) (hg : ChecksGcd gcd v Valid) {n d : α} (hn : Valid n)
    (hd : Valid d) (h0 : v d ≠ 0) {r : RatG α} (hr : reduce o gcd n d = .ok r) :
    RatOk v Valid r ∧ ratVal v r = (v n : ℚ) / v d := by
  unfold reduce at hr
  by_cases c1 : o.eq n o.zero = true
  · rw [if_pos c1] at hr
    cases hr
    have e := (h.eq n o.zero hn h.zero.1).mp c1
    rw [h.zero.2] at e
    refine ⟨⟨h.zero.1, h.one.1, ?_⟩, ?_⟩
    · show v o.one ≠ 0
      rw [h.one.2]; decide
    · show (v o.zero : ℚ) / v o.one = _
      rw [h.zero.2, h.one.2, e]; simp
  rw [if_neg c1] at hr
  have same : ∀ r' : RatG α, r' = ⟨n, d⟩ → RatOk v Valid r' ∧ ratVal v r' = (v n : ℚ) / v d := by
    rintro r' rfl
    exact ⟨⟨hn, hd, h0⟩, rfl⟩
  by_cases c2 : (o.eq n o.one && o.eq d o.one) = true
  · rw [if_pos c2] at hr
    cases hr
    exact same _ rfl
  rw [if_neg c2] at hr
  obtain ⟨r1, -, hr⟩ := bind_ok hr
  by_cases c3 : o.eq r1 o.zero = true
  · rw [if_pos c3] at hr; cases hr; exact same _ rfl
  rw [if_neg c3] at hr
  obtain ⟨r2, -, hr⟩ := bind_ok hr
  by_cases c4 : o.eq r2 o.zero = true
  · rw [if_pos c4] at hr; cases hr; exact same _ rfl
  rw [if_neg c4] at hr
  obtain ⟨g, e1, hr⟩ := bind_ok hr
  obtain ⟨n', e2, hr⟩ := bind_ok hr
  obtain ⟨d', e3, hr⟩ := bind_ok hr
  cases hr
  obtain ⟨g1, g2⟩ := hg n d g hn hd e1
  obtain ⟨g0, n1, n2⟩ := h.div n g n' hn g1 e2
  obtain ⟨-, d1, d2⟩ := h.div d g d' hd g1 e3
  have dn : v g ∣ v n := Int.natAbs_dvd.mp (by rw [g2]; exact Int.gcd_dvd_left ..)
  have dd : v g ∣ v d := Int.natAbs_dvd.mp (by rw [g2]; exact Int.gcd_dvd_right ..)
  have hd' : v d' ≠ 0 := by
    rw [d2]
    intro e
    have := Int.tdiv_mul_cancel dd
    rw [e, zero_mul] at this
    exact h0 this.symm
  refine ⟨⟨n1, d1, hd'⟩, ?_⟩
  show (v n' : ℚ) / v d' = _
  have q1 : (v n : ℚ) = v n' * v g := by rw [n2]; exact_mod_cast (Int.tdiv_mul_cancel dn).symm
  have q2 : (v d : ℚ) = v d' * v g := by rw [d2]; exact_mod_cast (Int.tdiv_mul_cancel dd).symm
  rw [q1, q2, mul_div_mul_right _ _ (by exact_mod_cast g0)]

theorem new_val (h : Checks o v Valid) (hg : ChecksGcd gcd v Valid) {n d : α} (hn : Valid n)
    (hd : Valid d) :
    (v d = 0 → new o gcd n d = .ok none) ∧
    (v d ≠ 0 → new o gcd n d ≠ .ok none) ∧
    ∀ r, new o gcd n d = .ok (some r) → RatOk v Valid r ∧ ratVal v r = (v n : ℚ) / v d := by
  have hz : o.eq d o.zero = true ↔ v d = 0 := by rw [h.eq d o.zero hd h.zero.1, h.zero.2]
  unfold new
  refine ⟨fun e => if_pos (hz.mpr e), fun e => ?_, fun r hr => ?_⟩
  · rw [if_neg (mt hz.mp e)]
    intro q
    obtain ⟨r, _, q⟩ := bind_ok q
    cases q
  · by_cases e : v d = 0
    · rw [if_pos (hz.mpr e)] at hr
      cases hr
    · rw [if_neg (mt hz.mp e)] at hr
      obtain ⟨r', q1, q2⟩ := bind_ok hr
      cases q2
      exact reduce_val h hg hn hd e q1

theorem newUnwrap_val (h : Checks o v Valid) (hg : ChecksGcd gcd v Valid) {n d : α} (hn : Valid n)
    (hd : Valid d) {r : RatG α} (hr : newUnwrap o gcd n d = .ok r) :
    v d ≠ 0 ∧ RatOk v Valid r ∧ ratVal v r = (v n : ℚ) / v d := by
  obtain ⟨n0, -, n2⟩ := new_val h hg hn hd
  unfold newUnwrap at hr
  obtain ⟨q, q1, q2⟩ := bind_ok hr
  cases q with
  | none => cases q2
  | some r' =>
    cases q2
    refine ⟨fun e => ?_, n2 _ q1⟩
    rw [n0 e] at q1
    cases q1

end RatOf

/-! ## Fractions over types without bounds -/

namespace RatOf

variable {α : Type} {o : IntOps α} {v : α → Int} {Valid : α → Prop} {gcd : α → α → Res α}

theorem newUnwrap_ok (h : Computes o v Valid fun _ => True)
    (hg : ChecksGcd gcd v Valid) (ht : ∀ a b, Valid a → Valid b → ∃ g, gcd a b = .ok g)
    {n d : α} (hn : Valid n) (hd : Valid d) (h0 : v d ≠ 0) : ∃ r, newUnwrap o gcd n d = .ok r := by
  have hz : ∀ x, Valid x → (o.eq x o.zero = true ↔ v x = 0) := fun x hx => by
    rw [h.eq x o.zero hx h.zero.1, h.zero.2]
  unfold newUnwrap new
  rw [if_neg (mt (hz d hd).mp h0)]
  suffices q : ∃ r, reduce o gcd n d = .ok r by
    obtain ⟨r, q⟩ := q
    exact ⟨r, by rw [q]; rfl⟩
  unfold reduce
  by_cases c1 : o.eq n o.zero = true
  · exact ⟨_, if_pos c1⟩
  rw [if_neg c1]
  by_cases c2 : (o.eq n o.one && o.eq d o.one) = true
  · exact ⟨_, if_pos c2⟩
  rw [if_neg c2]
  have n0 : v n ≠ 0 := fun e => c1 ((hz n hn).mpr e)
  obtain ⟨r1, e1, -⟩ := h.rem n d hn hd h0 trivial
  obtain ⟨r2, e2, -⟩ := h.rem d n hd hn n0 trivial
  obtain ⟨g, e3⟩ := ht n d hn hd
  obtain ⟨g1, g2⟩ := hg n d g hn hd e3
  have g0 : v g ≠ 0 := by
    intro e
    rw [e] at g2
    exact n0 (Int.gcd_eq_zero_iff.mp g2.symm).1
  obtain ⟨n', e4, -⟩ := h.div n g hn g1 g0 trivial
  obtain ⟨d', e5, -⟩ := h.div d g hd g1 g0 trivial
  rw [e1]
  show ∃ r, (if o.eq r1 o.zero then _ else _) = _
  split
  · exact ⟨_, rfl⟩
  rw [e2]
  show ∃ r, (if o.eq r2 o.zero then _ else _) = _
  split
  · exact ⟨_, rfl⟩
  rw [e3]
  show ∃ r, Res.bind (o.div n g) _ = _
  rw [e4]
  show ∃ r, Res.bind (o.div d g) _ = _
  rw [e5]
  exact ⟨_, rfl⟩

end RatOf

/-! ## Primitive integers -/

namespace Prim

theorem one_inRange {p : Prim} (hp : 2 ≤ p.bits) : p.InRange 1 := by
  obtain ⟨b1, b2, b3⟩ := Prim.bounds (p := p) (by omega)
  have h4 : (4 : Int) ≤ 2 ^ p.bits := by
    have : (2 : Int) ^ 2 ≤ 2 ^ p.bits := pow_le_pow_right₀ (by norm_num) hp
    omega
  refine ⟨by omega, ?_⟩
  unfold Prim.maxV Prim.minV at *
  by_cases hs : p.signed = true
  · simp only [hs, if_true] at *; omega
  · simp only [hs] at *; simp at *; omega

theorem tmod_inRange {p : Prim} {a b : Int} (ha : p.InRange a) : p.InRange (a.tmod b) := by
  have b1 : p.minV ≤ 0 := by unfold minV; split <;> simp
  have b2 : 0 ≤ p.maxV := by
    unfold maxV
    have h1 : (1 : Int) ≤ 2 ^ (p.bits - 1) := one_le_pow₀ (by norm_num)
    have h2 : (1 : Int) ≤ 2 ^ p.bits := one_le_pow₀ (by norm_num)
    split <;> omega
  unfold InRange at *
  have h2 : (a.tmod b).natAbs ≤ a.natAbs := by rw [Int.natAbs_tmod]; exact Nat.mod_le ..
  rcases le_total 0 a with q | q
  · have := Int.tmod_nonneg b q; omega
  · have := Int.tmod_nonneg b (show 0 ≤ -a by omega)
    rw [Int.neg_tmod] at this; omega

end Prim

/-! ## Fixed-point numbers -/

namespace FixedOf

variable {α : Type} {o : IntOps α} {v : α → Int} {Valid : α → Prop} {Fits : Int → Prop}

theorem one_ok (h : Computes o v Valid Fits) (hbits : ComputesBits o v Valid Fits) (N : Nat)
    (hN : Fits (2 ^ N)) : ∃ r, one o N = .ok r ∧ Valid r ∧ v r = 2 ^ N := by
  obtain ⟨r, e, e1, e2⟩ := hbits.shl o.one N h.one.1 hN (by rw [h.one.2, one_mul]; exact hN)
  exact ⟨r, e, e1, by rw [e2, h.one.2, one_mul]⟩

theorem floor_ok (h : Computes o v Valid Fits) (hbits : ComputesBits o v Valid Fits) (N : Nat)
    (hN : Fits (2 ^ N)) {x : α} (hx : Valid x) (hf : Fits (⌊fval N (v x)⌋ * 2 ^ N)) :
    ∃ r, floor o N x = .ok r ∧ Valid r ∧ v r = ⌊fval N (v x)⌋ * 2 ^ N := by
  obtain ⟨y, e, y1, y2⟩ := hbits.shr x N hx hN
  rw [← Fixed.floor_fval] at y2
  obtain ⟨r, e', r1, r2⟩ := hbits.shl y N y1 hN (by rw [y2]; exact hf)
  refine ⟨r, ?_, r1, by rw [r2, y2]⟩
  unfold floor
  rw [e]
  exact e'

theorem isWhole_ok (h : Computes o v Valid Fits) (hbits : ComputesBits o v Valid Fits) (N : Nat)
    (hN : Fits (2 ^ N)) {x : α} (hx : Valid x) :
    ∃ w, isWhole o N x = .ok w ∧ (w = true ↔ (2 ^ N : Int) ∣ v x) := by
  have hp : (1 : Int) ≤ 2 ^ N := one_le_pow₀ (by norm_num)
  obtain ⟨i, e, i1, i2⟩ := one_ok h hbits N hN
  obtain ⟨k, e', k1, k2⟩ := h.sub i o.one i1 h.one.1
    (h.interval _ _ hN (by rw [i2, h.one.2]; left; omega))
  rw [i2, h.one.2] at k2
  obtain ⟨k', c, e1, e2, c1, c2⟩ := hbits.clear x k N hx k1 hN k2
  refine ⟨o.eq c x, ?_, ?_⟩
  · unfold isWhole mask
    unfold one at e
    rw [e]
    dsimp only [Res.bind]
    rw [e']
    dsimp only [Res.bind]
    rw [e1]
    dsimp only [Res.bind]
    rw [e2]
  · rw [h.eq c x c1 hx, c2]

theorem ceil_ok (h : Computes o v Valid Fits) (hbits : ComputesBits o v Valid Fits) (N : Nat)
    (hN : Fits (2 ^ N)) {x : α} (hx : Valid x) (hf : Fits (⌊fval N (v x)⌋ * 2 ^ N))
    (hc : Fits (⌈fval N (v x)⌉ * 2 ^ N)) :
    ∃ r, ceil o N x = .ok r ∧ Valid r ∧ v r = ⌈fval N (v x)⌉ * 2 ^ N := by
  have hp : (0 : Int) < 2 ^ N := by positivity
  obtain ⟨w, e, hw⟩ := isWhole_ok h hbits N hN hx
  obtain ⟨f, e1, f1, f2⟩ := floor_ok h hbits N hN hx hf
  obtain ⟨i, e2, i1, i2⟩ := one_ok h hbits N hN
  unfold ceil
  rw [e]
  dsimp only [Res.bind]
  by_cases hd : (2 ^ N : Int) ∣ v x
  · rw [if_pos (hw.mpr hd)]
    refine ⟨f, e1, f1, ?_⟩
    obtain ⟨k, hk⟩ := hd
    rw [f2]
    have : fval N (v x) = (k : Int) := by rw [hk, mul_comm, Fixed.fval_scaled]
    rw [this, Int.floor_intCast, Int.ceil_intCast]
  · rw [if_neg (mt hw.mp hd), e1]
    dsimp only [Res.bind]
    rw [e2]
    dsimp only [Res.bind]
    have ec : ⌈fval N (v x)⌉ = ⌊fval N (v x)⌋ + 1 := by
      rw [Fixed.floor_fval, Fixed.ceil_fval]
      have h1 := Int.mul_ediv_add_emod (v x) (2 ^ N)
      have h2 := Int.emod_nonneg (v x) hp.ne'
      have h3 := Int.emod_lt_of_pos (v x) hp
      have h4 : v x % 2 ^ N ≠ 0 := fun q => hd (Int.dvd_of_emod_eq_zero q)
      have : (-v x) / 2 ^ N = -(v x / 2 ^ N) - 1 := by
        rw [Int.ediv_eq_iff_of_pos hp]
        constructor
        · linarith
        · have : (-(v x / 2 ^ N) - 1) * 2 ^ N + 2 ^ N = -(2 ^ N * (v x / 2 ^ N)) := by ring
          omega
      omega
    have ef : v f + v i = ⌈fval N (v x)⌉ * 2 ^ N := by rw [f2, i2, ec]; ring
    obtain ⟨r, e3, r1, r2⟩ := h.add f i f1 i1 (by rw [ef]; exact hc)
    exact ⟨r, e3, r1, by rw [r2, ef]⟩

theorem fract_ok (h : Computes o v Valid Fits) (hbits : ComputesBits o v Valid Fits) (N : Nat)
    (hN : Fits (2 ^ N)) {x : α} (hx : Valid x) :
    ∃ f, fract o N x = .ok f ∧ Valid f ∧ v f = (v x).tmod (2 ^ N) := by
  have hp : (0 : Int) < 2 ^ N := by positivity
  obtain ⟨i, e, i1, i2⟩ := one_ok h hbits N hN
  obtain ⟨f, e', f1, f2⟩ := h.rem x i hx i1 (by rw [i2]; exact hp.ne') (by
    rw [i2]
    refine h.interval _ _ (h.fits x hx) ?_
    have h1 : ((v x).tdiv (2 ^ N)).natAbs ≤ (v x).natAbs := by
      rw [Int.natAbs_tdiv]; exact Nat.div_le_self ..
    rcases le_total 0 (v x) with q | q
    · have := Int.tdiv_nonneg q hp.le; omega
    · have := Int.tdiv_nonneg (show 0 ≤ -v x by omega) hp.le
      rw [Int.neg_tdiv] at this
      omega)
  refine ⟨f, ?_, f1, by rw [f2, i2]⟩
  unfold fract
  rw [e]
  exact e'

theorem round_ok (h : Computes o v Valid Fits) (hbits : ComputesBits o v Valid Fits)
    (N : Nat) (hN : Fits (2 ^ (N + 1))) {x : α} (hx : Valid x) (hf : Fits (⌊fval N (v x)⌋ * 2 ^ N))
    (hc : Fits (⌈fval N (v x)⌉ * 2 ^ N)) (hneg : Fits (2 ^ N - (v x).tmod (2 ^ N))) :
    ∃ r, round o N x = .ok r ∧ Valid r ∧ v r = ⌈fval N (v x)⌉ * 2 ^ N := by
  have hp : (0 : Int) < 2 ^ N := by positivity
  have p2 : (2 : Int) ^ (N + 1) = 2 * 2 ^ N := by rw [pow_succ]; ring
  have hN' : Fits (2 ^ N) := h.interval _ _ hN (.inl ⟨by omega, by omega⟩)
  obtain ⟨i, e1, i1, i2⟩ := one_ok h hbits N hN'
  obtain ⟨t, e2, t1, t2⟩ := h.add i i i1 i1 (by rw [i2, ← two_mul, ← p2]; exact hN)
  have hz : (v i).tdiv (v t) = 0 := by
    rw [i2, t2, i2]; exact Int.tdiv_eq_zero_of_lt (by omega) (by omega)
  obtain ⟨k, e3, k1, k2⟩ := h.div i t i1 t1 (by rw [t2, i2]; omega)
    (by rw [hz]; exact h.interval _ _ hN (.inl ⟨le_refl _, by omega⟩))
  rw [hz] at k2
  obtain ⟨f, e4, f1, f2⟩ := fract_ok h hbits N hN' hx
  obtain ⟨fl, e5, l1, l2⟩ := floor_ok h hbits N hN' hx hf
  obtain ⟨ce, e6, c1, c2⟩ := ceil_ok h hbits N hN' hx hf hc
  obtain ⟨g, e7, g1, g2⟩ := h.sub i f i1 f1 (by rw [i2, f2]; exact hneg)
  have ec1 := h.cmp f o.zero f1 h.zero.1
  have flt : (v x).tmod (2 ^ N) < 2 ^ N := Int.tmod_lt_of_pos _ hp
  -- the fraction used by the code is positive unless `x` is whole
  obtain ⟨w, e8, w1, w2⟩ : ∃ w, (if compare (v f) (v o.zero) ≠ .lt then Res.ok f else sub o i f) = .ok w ∧
      Valid w ∧ (v w = 0 ∧ (v x).tmod (2 ^ N) = 0 ∨ 0 < v w ∧ (v x).tmod (2 ^ N) ≠ 0) := by
    rw [h.zero.2]
    by_cases q : v f < 0
    · rw [if_neg (by rw [compare_lt_iff_lt.mpr q]; simp)]
      refine ⟨g, e7, g1, .inr ?_⟩
      rw [f2] at q g2
      omega
    · rw [if_pos (fun c => q (compare_lt_iff_lt.mp c))]
      refine ⟨f, rfl, f1, ?_⟩
      rw [f2] at q ⊢
      omega
  have ec2 := h.cmp w k w1 k1
  rw [k2] at ec2
  unfold round
  rw [e1]; dsimp only [Res.bind]
  show ∃ r, Res.bind (o.add i i) _ = _ ∧ _
  rw [e2]; dsimp only [Res.bind]
  show ∃ r, Res.bind (o.div i t) _ = _ ∧ _
  rw [e3]; dsimp only [Res.bind]
  rw [e4]; dsimp only [Res.bind]
  show ∃ r, Res.bind (o.cmp f o.zero) _ = _ ∧ _
  rw [ec1]; dsimp only [Res.bind]
  rw [e8]; dsimp only [Res.bind]
  show ∃ r, Res.bind (o.cmp w k) _ = _ ∧ _
  rw [ec2]; dsimp only [Res.bind]
  rcases w2 with ⟨w2, q⟩ | ⟨w2, q⟩
  · rw [w2, if_neg (by decide)]
    refine ⟨fl, e5, l1, ?_⟩
    rw [l2]
    obtain ⟨j, hj⟩ := Int.dvd_of_tmod_eq_zero q
    have : fval N (v x) = (j : Int) := by rw [hj, mul_comm, Fixed.fval_scaled]
    rw [this, Int.floor_intCast, Int.ceil_intCast]
  · rw [if_pos (compare_gt_iff_gt.mpr w2)]
    exact ⟨ce, e6, c1, c2⟩

end FixedOf

end Verif
