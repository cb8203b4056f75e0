import Verif.Lemmas.Mul

/-!
# Helper lemmas: the half-splitting widening multiplication of `u128`
-/

namespace Verif

theorem mul_add_lt_sq {a b c W : Nat} (ha : a < W) (hb : b < W) (hc : c < W) :
    a * b + c < W * W := by
  have h1 : a * b ≤ (W - 1) * (W - 1) := Nat.mul_le_mul (by omega) (by omega)
  obtain ⟨k, rfl⟩ : ∃ k, W = k + 1 := ⟨W - 1, by omega⟩
  simp only [Nat.add_sub_cancel] at h1
  have : (k + 1) * (k + 1) = k * k + k + k + 1 := by ring
  omega

theorem wideningMulHalves_spec (h : Nat) (a b c : BitVec (2 * h)) :
    (wideningMulHalves h a b c).1.toNat + (wideningMulHalves h a b c).2.toNat * 2 ^ (2 * h)
      = a.toNat * b.toNat + c.toNat := by
  have hW : 2 ^ (2 * h) = 2 ^ h * 2 ^ h := by rw [← Nat.pow_add]; congr 1; omega
  have hH : 0 < 2 ^ h := Nat.two_pow_pos h
  have hmask : (BitVec.allOnes (2 * h) >>> h).toNat = 2 ^ h - 1 := by
    rw [BitVec.toNat_ushiftRight, BitVec.toNat_allOnes, Nat.shiftRight_eq_div_pow, hW]
    generalize 2 ^ h = H at *
    apply Nat.div_eq_of_lt_le
    · rw [Nat.sub_mul]; omega
    · rw [show H - 1 + 1 = H by omega]
      have : 0 < H * H := Nat.mul_pos hH hH
      omega
  have lo : ∀ x : BitVec (2 * h),
      (x &&& (BitVec.allOnes (2 * h) >>> h)).toNat = x.toNat % 2 ^ h := by
    intro x
    rw [BitVec.toNat_and, hmask, Nat.and_two_pow_sub_one_eq_mod]
  have hi : ∀ x : BitVec (2 * h), (x >>> h).toNat = x.toNat / 2 ^ h := by
    intro x
    rw [BitVec.toNat_ushiftRight, Nat.shiftRight_eq_div_pow]
  have sh : ∀ x : BitVec (2 * h), (x <<< h).toNat = x.toNat % 2 ^ h * 2 ^ h := by
    intro x
    rw [BitVec.toNat_shiftLeft, Nat.shiftLeft_eq, hW, Nat.mul_mod_mul_right]
  have mulFit : ∀ x y : BitVec (2 * h), x.toNat < 2 ^ h → y.toNat < 2 ^ h →
      (x * y).toNat = x.toNat * y.toNat := by
    intro x y hx hy
    rw [BitVec.toNat_mul, hW, Nat.mod_eq_of_lt (Nat.mul_lt_mul'' hx hy)]
  have loLt : ∀ x : BitVec (2 * h), (x &&& (BitVec.allOnes (2 * h) >>> h)).toNat < 2 ^ h := by
    intro x; rw [lo]; exact Nat.mod_lt _ hH
  have hiLt : ∀ x : BitVec (2 * h), (x >>> h).toNat < 2 ^ h := by
    intro x; rw [hi]
    have := x.isLt
    rw [hW] at this
    exact Nat.div_lt_of_lt_mul this
  have ca : a.toNat = (a >>> h).toNat * 2 ^ h + (a &&& (BitVec.allOnes (2 * h) >>> h)).toNat := by
    rw [hi, lo]; exact (Nat.div_add_mod' _ _).symm
  have cb : b.toNat = (b >>> h).toNat * 2 ^ h + (b &&& (BitVec.allOnes (2 * h) >>> h)).toNat := by
    rw [hi, lo]; exact (Nat.div_add_mod' _ _).symm
  have hfit := mul_add_lt_sq a.isLt b.isLt c.isLt
  unfold wideningMulHalves
  simp only
  generalize hAl : a &&& (BitVec.allOnes (2 * h) >>> h) = aL at *
  generalize hBl : b &&& (BitVec.allOnes (2 * h) >>> h) = bL at *
  generalize hAh : a >>> h = aH at *
  generalize hBh : b >>> h = bH at *
  have lAl : aL.toNat < 2 ^ h := by rw [← hAl]; exact loLt a
  have lBl : bL.toNat < 2 ^ h := by rw [← hBl]; exact loLt b
  have lAh : aH.toNat < 2 ^ h := by rw [← hAh]; exact hiLt a
  have lBh : bH.toNat < 2 ^ h := by rw [← hBh]; exact hiLt b
  have t0 := mulFit aL bL lAl lBl
  have t1 := mulFit aL bH lAl lBh
  have t2 := mulFit aH bL lAh lBl
  have t3 := mulFit aH bH lAh lBh
  have e1 := ElementMul.ovfAdd_spec (aL * bL) ((aL * bH) <<< h)
  generalize ovfAdd (aL * bL) ((aL * bH) <<< h) = O1 at *
  have e2 := ElementMul.ovfAdd_spec O1.1 ((aH * bL) <<< h)
  generalize ovfAdd O1.1 ((aH * bL) <<< h) = O2 at *
  have e3 := ElementMul.ovfAdd_spec O2.1 c
  generalize ovfAdd O2.1 c = O3 at *
  rw [sh] at e1 e2
  have d1 := Nat.div_add_mod (aL * bH).toNat (2 ^ h)
  have d2 := Nat.div_add_mod (aH * bL).toNat (2 ^ h)
  -- the unwrapped high sum
  set S := (aH * bH).toNat + (aL * bH).toNat / 2 ^ h + (aH * bL).toNat / 2 ^ h
    + O1.2.toNat + O2.2.toNat + O3.2.toNat with hS
  have key : O3.1.toNat + S * 2 ^ (2 * h) = a.toNat * b.toNat + c.toNat := by
    have expand : a.toNat * b.toNat = (aH * bH).toNat * 2 ^ (2 * h)
        + ((aL * bH).toNat + (aH * bL).toNat) * 2 ^ h + (aL * bL).toNat := by
      rw [ca, cb, t0, t1, t2, t3, hW]; ring
    have x1 : (aL * bH).toNat * 2 ^ h = (aL * bH).toNat / 2 ^ h * 2 ^ (2 * h)
        + (aL * bH).toNat % 2 ^ h * 2 ^ h := by
      conv_lhs => rw [← d1]
      rw [hW]; ring
    have x2 : (aH * bL).toNat * 2 ^ h = (aH * bL).toNat / 2 ^ h * 2 ^ (2 * h)
        + (aH * bL).toNat % 2 ^ h * 2 ^ h := by
      conv_lhs => rw [← d2]
      rw [hW]; ring
    rw [expand, hS]
    simp only [Nat.add_mul]
    omega
  have hSlt : S < 2 ^ (2 * h) := by
    by_contra hc
    have : 2 ^ (2 * h) * 2 ^ (2 * h) ≤ S * 2 ^ (2 * h) := Nat.mul_le_mul_right _ (by omega)
    omega
  have hbool : ∀ x : Bool, (BitVec.ofNat (2 * h) x.toNat).toNat = x.toNat % 2 ^ (2 * h) := by
    intro x; simp
  have hsum : (aH * bH + (aL * bH) >>> h + (aH * bL) >>> h + BitVec.ofNat (2 * h) O1.2.toNat
      + BitVec.ofNat (2 * h) O2.2.toNat + BitVec.ofNat (2 * h) O3.2.toNat).toNat = S := by
    simp only [BitVec.toNat_add, hi, hbool, Nat.mod_add_mod, Nat.add_mod_mod]
    exact Nat.mod_eq_of_lt hSlt
  rw [hsum]
  exact key

end Verif
