import Mathlib.Tactic.FieldSimp
import Verif.Lemmas.Prim
import Verif.Model.Fixed
import Verif.Spec.Real

/-!
# Helper lemmas: fixed point
-/

namespace Verif

namespace Fixed

open Prim

variable {p : Prim} {N : Nat}

theorem two_pow_pos (N : Nat) : (0 : ℚ) < 2 ^ N := by positivity

theorem fval_lt (x y : Int) : fval N x < fval N y ↔ x < y := by
  unfold fval
  rw [div_lt_div_iff_of_pos_right (two_pow_pos N)]
  exact_mod_cast Iff.rfl

theorem fval_inj (x y : Int) : fval N x = fval N y ↔ x = y := by
  unfold fval
  rw [div_left_inj' (two_pow_pos N).ne']
  exact_mod_cast Iff.rfl

theorem fval_add (x y : Int) : fval N (x + y) = fval N x + fval N y := by
  unfold fval; push_cast; ring

theorem fval_sub (x y : Int) : fval N (x - y) = fval N x - fval N y := by
  unfold fval; push_cast; ring

theorem fval_neg (x : Int) : fval N (-x) = -fval N x := by
  unfold fval; push_cast; ring

theorem fval_scaled (n : Int) : fval N (n * 2 ^ N) = n := by
  unfold fval; push_cast; field_simp

theorem floor_fval (x : Int) : ⌊fval N x⌋ = x / 2 ^ N := by
  unfold fval
  have h := Rat.floor_intCast_div_natCast x (2 ^ N)
  push_cast at h
  exact h

theorem fval_nonneg (x : Int) : 0 ≤ fval N x ↔ 0 ≤ x := by
  have h := fval_lt (N := N) x 0
  have h0 : fval N 0 = 0 := by unfold fval; simp
  rw [h0] at h
  rw [← not_lt, h, not_lt]

theorem ceil_fval (x : Int) : ⌈fval N x⌉ = -((-x) / 2 ^ N) := by
  have h := floor_fval (N := N) (-x)
  rw [fval_neg, Int.floor_neg] at h
  omega

theorem trunc_fval (x : Int) : truncQ (fval N x) = x.tdiv (2 ^ N) := by
  unfold truncQ
  rw [floor_fval, ceil_fval]
  by_cases h : 0 ≤ x
  · rw [if_pos ((fval_nonneg x).mpr h), Int.tdiv_eq_ediv_of_nonneg h]
  · rw [if_neg (fun hc => h ((fval_nonneg x).mp hc))]
    have : x.tdiv (2 ^ N) = -((-x).tdiv (2 ^ N)) := by rw [Int.neg_tdiv]; omega
    rw [this, Int.tdiv_eq_ediv_of_nonneg (by omega)]

theorem trunc_div_pos (x : Int) {y : Int} (hy : 0 < y) : truncQ ((x : ℚ) / y) = x.tdiv y := by
  obtain ⟨n, rfl⟩ := Int.eq_ofNat_of_zero_le hy.le
  have hq : (0 : ℚ) < ((n : Int) : ℚ) := by exact_mod_cast hy
  unfold truncQ
  by_cases h : 0 ≤ x
  · rw [if_pos (div_nonneg (by exact_mod_cast h) hq.le), Int.tdiv_eq_ediv_of_nonneg h]
    exact_mod_cast Rat.floor_intCast_div_natCast x n
  · rw [if_neg]
    · have h1 : ((x : ℚ) / ((n : Int) : ℚ)) = -(((-x : Int) : ℚ) / (n : ℚ)) := by
        push_cast; ring
      have h2 : x.tdiv n = -((-x).tdiv n) := by rw [Int.neg_tdiv]; omega
      rw [h1, Int.ceil_neg, Rat.floor_intCast_div_natCast, h2,
        Int.tdiv_eq_ediv_of_nonneg (by omega)]
    · rw [not_le]
      exact div_neg_of_neg_of_pos (by exact_mod_cast (not_le.mp h)) hq

theorem trunc_div (x : Int) {y : Int} (hy : y ≠ 0) : truncQ ((x : ℚ) / y) = x.tdiv y := by
  rcases lt_or_gt_of_ne hy with h | h
  · have h1 := trunc_div_pos (-x) (show 0 < -y by omega)
    rw [Int.neg_tdiv, Int.tdiv_neg, Int.neg_neg] at h1
    rw [← h1]
    congr 1
    push_cast
    rw [neg_div_neg_eq]
  · exact trunc_div_pos x h

theorem trunc_div_fval (x : Int) {y : Int} (hy : y ≠ 0) :
    truncQ (fval N x / fval N y) = x.tdiv y := by
  rw [← trunc_div x hy]
  congr 1
  have : (y : ℚ) ≠ 0 := by exact_mod_cast hy
  unfold fval
  field_simp

theorem maxV_pow (hN : N < p.bits) (hone : (2 : Int) ^ N ≤ p.maxV) (m : Mode) :
    shl m p 1 N = .ok (2 ^ N) := by
  have hb : 0 < p.bits := by omega
  obtain ⟨b1, b2, _⟩ := bounds hb
  have hp : (0 : Int) < 2 ^ N := by positivity
  unfold shl
  rw [if_pos hN, Int.one_mul, wrap_eq hb ⟨by omega, hone⟩]

/-- `2^N` is a value of the type, or the type is signed and `N = bits - 1`. -/
theorem one_cases (hN : N < p.bits) :
    (2 : Int) ^ N ≤ p.maxV ∨ (p.signed = true ∧ N = p.bits - 1) := by
  unfold maxV
  by_cases hs : p.signed = true
  · by_cases hn : N = p.bits - 1
    · exact .inr ⟨hs, hn⟩
    · left
      rw [if_pos hs]
      have : (2 : Int) ^ N < 2 ^ (p.bits - 1) := pow_lt_pow_right₀ (by norm_num) (by omega)
      omega
  · left
    rw [if_neg hs]
    have : (2 : Int) ^ N < 2 ^ p.bits := pow_lt_pow_right₀ (by norm_num) hN
    omega

theorem shl_one (hN : N < p.bits) (m : Mode) :
    ∃ o, shl m p 1 N = .ok o ∧ (o = 2 ^ N ∨ (o = -2 ^ N ∧ p.signed = true)) := by
  rcases one_cases hN with h | ⟨hs, hn⟩
  · exact ⟨_, maxV_pow hN h m, .inl rfl⟩
  · have hb : 0 < p.bits := by omega
    have hp : (0 : Int) < 2 ^ N := by positivity
    refine ⟨-2 ^ N, ?_, .inr ⟨rfl, hs⟩⟩
    unfold shl
    rw [if_pos hN, Int.one_mul]
    congr 1
    refine eq_of_dvd hb (wrap_spec hb _).1 ?_ ?_
    · unfold InRange minV maxV
      rw [hs, hn]
      simp only [if_true]
      rw [hn] at hp
      constructor <;> omega
    · have h1 := (wrap_spec hb (2 ^ N)).2
      have h2 : (2 ^ p.bits : Int) ∣ 2 ^ N + 2 ^ N := by
        rw [two_pow_pred hb, hn]
        exact ⟨1, by ring⟩
      have := dvd_add h1 h2
      have e : p.wrap (2 ^ N) - 2 ^ N + (2 ^ N + 2 ^ N) = p.wrap (2 ^ N) - -2 ^ N := by ring
      rwa [e] at this

theorem minV_dvd (hN : N < p.bits) : (2 ^ N : Int) ∣ p.minV := by
  unfold minV
  split
  · exact dvd_neg.mpr (pow_dvd_pow 2 (by omega))
  · exact dvd_zero _

theorem floor_inRange (hN : N < p.bits) {x : Int} (hx : p.InRange x) :
    p.InRange (x / 2 ^ N * 2 ^ N) := by
  have hp : (0 : Int) < 2 ^ N := by positivity
  unfold InRange at *
  have h1 := Int.ediv_mul_le x hp.ne'
  refine ⟨?_, by omega⟩
  obtain ⟨k, hk⟩ := minV_dvd hN
  have h2 : k ≤ x / 2 ^ N := by
    rw [Int.le_ediv_iff_mul_le hp]
    rw [Int.mul_comm, ← hk]
    exact hx.1
  calc p.minV = k * 2 ^ N := by rw [hk, Int.mul_comm]
    _ ≤ x / 2 ^ N * 2 ^ N := Int.mul_le_mul_of_nonneg_right h2 (by omega)

theorem floor_spec (m : Mode) (hN : N < p.bits) {x : Int} (hx : p.InRange x) :
    floor m p N x = .ok (x / 2 ^ N * 2 ^ N) := by
  unfold floor shr
  rw [if_pos hN]
  simp only [Res.bind]
  unfold shl
  rw [if_pos hN, wrap_eq (by omega) (floor_inRange hN hx)]

theorem fract_spec (m : Mode) (hb : 2 ≤ p.bits) (hN : N < p.bits) (x : Int) :
    fract m p N x = .ok (x.tmod (2 ^ N)) := by
  obtain ⟨o, h1, h2⟩ := shl_one hN m
  have hp : (0 : Int) < 2 ^ N := by positivity
  unfold fract one
  rw [h1]
  simp only [Res.bind]
  unfold rem Prim.rem
  rcases h2 with rfl | ⟨rfl, hs⟩
  · rw [if_neg hp.ne', if_neg (by omega)]
  · rw [if_neg (by omega), if_neg, Int.tmod_neg]
    rintro ⟨_, _, h⟩
    rcases one_cases hN with h4 | ⟨_, hn⟩
    · rw [maxV_pow hN h4 m, Res.ok.injEq] at h1
      omega
    · have : (2 : Int) ^ 1 ≤ 2 ^ N := pow_le_pow_right₀ (by norm_num) (by omega)
      omega

theorem trunc_spec (m : Mode) (hb : 2 ≤ p.bits) (hN : N < p.bits) {x : Int} (hx : p.InRange x) :
    trunc m p N x = .ok (x.tdiv (2 ^ N) * 2 ^ N) := by
  unfold trunc
  rw [fract_spec m hb hN x]
  simp only [Res.bind]
  unfold sub
  have e : x - x.tmod (2 ^ N) = x.tdiv (2 ^ N) * 2 ^ N := by
    have := Int.tmod_add_mul_tdiv x (2 ^ N)
    linarith
  obtain ⟨b1, b2, _⟩ := bounds (p := p) (by omega)
  rw [arith_ok, e]
  unfold InRange at *
  have h1 : (x.tmod (2 ^ N)).natAbs ≤ x.natAbs := by rw [Int.natAbs_tmod]; exact Nat.mod_le _ _
  rcases Int.le_total 0 x with h | h
  · have := Int.tmod_nonneg (2 ^ N) h; omega
  · have h' := Int.tmod_nonneg (2 ^ N) (show 0 ≤ -x by omega)
    rw [Int.neg_tmod] at h'
    omega

/-! ## `is_whole` -/

theorem ofInt_wrap (hb : 0 < p.bits) (z : Int) :
    BitVec.ofInt p.bits (p.wrap z) = BitVec.ofInt p.bits z := by
  obtain ⟨_, h⟩ := wrap_spec hb z
  obtain ⟨k, hk⟩ := h
  apply BitVec.eq_of_toNat_eq
  rw [BitVec.toNat_ofInt, BitVec.toNat_ofInt]
  congr 1
  have e : p.wrap z = z + 2 ^ p.bits * k := by linarith
  rw [e]
  push_cast
  rw [Int.add_mul_emod_self_left]

theorem ofInt_toNat {w : Nat} (X : BitVec w) : BitVec.ofInt w (X.toNat : Int) = X := by
  apply BitVec.eq_of_toNat_eq
  rw [BitVec.toNat_ofInt]
  have h := X.isLt
  have : (X.toNat : Int) % ((2 ^ w : Nat) : Int) = X.toNat :=
    Int.emod_eq_of_lt (Int.natCast_nonneg _) (by exact_mod_cast h)
  rw [this, Int.toNat_natCast]

theorem wrap_ofInt (hb : 0 < p.bits) {x : Int} (hx : p.InRange x) :
    p.wrap ((BitVec.ofInt p.bits x).toNat : Int) = x := by
  apply eq_of_dvd hb (wrap_spec hb _).1 hx
  have h1 := (wrap_spec hb ((BitVec.ofInt p.bits x).toNat : Int)).2
  have h2 : (2 ^ p.bits : Int) ∣ ((BitVec.ofInt p.bits x).toNat : Int) - x := by
    rw [BitVec.toNat_ofInt]
    have hpos : (0 : Int) < 2 ^ p.bits := by positivity
    push_cast
    rw [Int.toNat_of_nonneg (Int.emod_nonneg _ hpos.ne')]
    have := Int.dvd_self_sub_emod (x := x) (m := 2 ^ p.bits)
    have := dvd_neg.mpr this
    rwa [neg_sub] at this
  have := dvd_add h1 h2
  simpa using this

theorem and_not_mask (hb : 0 < p.bits) (hN : N < p.bits) {x : Int} (hx : p.InRange x) :
    Prim.and p x (Prim.not p (2 ^ N - 1)) = x ↔ (2 ^ N : Int) ∣ x := by
  unfold Prim.and Prim.not
  rw [ofInt_wrap hb, ofInt_toNat]
  generalize hX : BitVec.ofInt p.bits x = X
  generalize hK : BitVec.ofInt p.bits (2 ^ N - 1) = K
  have hKn : K.toNat = 2 ^ N - 1 := by
    rw [← hK, BitVec.toNat_ofInt]
    have h1 : (2 : Int) ^ N < 2 ^ p.bits := pow_lt_pow_right₀ (by norm_num) hN
    have h2 : (0 : Int) < 2 ^ N := by positivity
    push_cast
    rw [Int.emod_eq_of_lt (by omega) (by omega)]
    have : ((2 : Int) ^ N - 1) = ((2 ^ N - 1 : Nat) : Int) := by
      push_cast [Nat.one_le_two_pow]; ring
    rw [this, Int.toNat_natCast]
  have step1 : p.wrap ((X &&& ~~~K).toNat : Int) = x ↔ X &&& ~~~K = X := by
    constructor
    · intro h
      have := congrArg (BitVec.ofInt p.bits) h
      rw [ofInt_wrap hb, ofInt_toNat, hX] at this
      exact this
    · intro h
      rw [h, ← hX, wrap_ofInt hb hx]
  have step2 : X &&& ~~~K = X ↔ X &&& K = 0#p.bits := by
    constructor
    · intro h
      rw [← h, BitVec.and_assoc]
      have : ~~~K &&& K = 0#p.bits := by
        apply BitVec.eq_of_getLsbD_eq
        intro i hi
        simp [hi]
      rw [this, BitVec.and_zero]
    · intro h
      apply BitVec.eq_of_getLsbD_eq
      intro i hi
      have := congrArg (fun v => v.getLsbD i) h
      simp only [BitVec.getLsbD_and, BitVec.getLsbD_zero, BitVec.getLsbD_not] at this ⊢
      cases hx1 : X.getLsbD i <;> rw [hx1] at this <;> simp_all
  have step3 : X &&& K = 0#p.bits ↔ X.toNat % 2 ^ N = 0 := by
    constructor
    · intro h
      have := congrArg BitVec.toNat h
      rwa [BitVec.toNat_and, hKn, Nat.and_two_pow_sub_one_eq_mod] at this
    · intro h
      apply BitVec.eq_of_toNat_eq
      rw [BitVec.toNat_and, hKn, Nat.and_two_pow_sub_one_eq_mod, h]; rfl
  rw [step1, step2, step3]
  have hXn : ((X.toNat : Int)) = x % 2 ^ p.bits := by
    rw [← hX, BitVec.toNat_ofInt]
    have hpos : (0 : Int) < 2 ^ p.bits := by positivity
    push_cast
    rw [Int.toNat_of_nonneg (Int.emod_nonneg _ hpos.ne')]
  have hd : (2 ^ N : Int) ∣ 2 ^ p.bits := pow_dvd_pow 2 (by omega)
  rw [Int.dvd_iff_emod_eq_zero, ← Int.emod_emod_of_dvd x hd, ← hXn]
  constructor
  · intro h; exact_mod_cast h
  · intro h; exact_mod_cast h

end Fixed

end Verif
