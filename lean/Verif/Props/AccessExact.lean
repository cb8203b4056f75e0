import Verif.Props.Bitwise
import Mathlib.Data.Int.ModEq

/-!
# C24, C25, exactly: the announced length of bit iterators, and reading integers from any array
-/

namespace Verif

variable {w : Nat}

/-- C24, exactly: a bit iterator announces as many items too few as there are bits in the limbs it has
finished, modulo `2^64`. Debug builds panic from the second bit of the second limb on. -/
theorem C24_len_exact_partial (hw : 0 < w) (s : List (BitVec w)) (hfit : w * s.length < 2 ^ 64)
    (n : Nat) (hn : n < w * s.length) :
    BitIter.len .debug (BitIter.after s n) =
      (if n ≤ w then .ok (w * s.length - n - w * (n / w)) else .panic) ∧
    ∃ k : Nat, BitIter.len .release (BitIter.after s n) = .ok k ∧ k < 2 ^ 64 ∧
      (k : Int) ≡ w * s.length - n - w * (n / w : Nat) [ZMOD 2 ^ 64] := by
  have hb := bitLen_eq s
  have hlt : n / w < s.length := (Nat.div_lt_iff_lt_mul hw).mpr (by rw [Nat.mul_comm]; exact hn)
  have e : w * s.length = w * (s.length - (n / w + 1)) + w + w * (n / w) := by
    obtain ⟨c, hc⟩ : ∃ c, s.length = c + 1 + n / w := ⟨s.length - 1 - n / w, by omega⟩
    rw [hc, show c + 1 + n / w - (n / w + 1) = c by omega]
    ring
  have e' : (w : Int) * s.length = w * ((s.length - (n / w + 1) : Nat) : Int) + w +
      w * ((n / w : Nat) : Int) := by exact_mod_cast e
  rw [BitIter.after_eq hw s n (by omega)]
  simp only [BitIter.len, List.getElem?_eq_getElem hlt, List.length_drop]
  constructor
  · by_cases h : n ≤ w
    · rw [if_pos h]
      unfold usub
      rw [if_pos h]
      simp only [Res.bind, Res.ok.injEq]
      rw [Nat.mod_eq_of_lt (by unfold usizeSize; omega)]
      omega
    · rw [if_neg h]
      unfold usub
      rw [if_neg h]
      rfl
  · have hu : ∃ d : Nat, usub .release w n = .ok d ∧ (d : Int) ≡ w - n [ZMOD 2 ^ 64] := by
      unfold usub
      by_cases h : n ≤ w
      · rw [if_pos h]
        exact ⟨_, rfl, by rw [Nat.cast_sub h]⟩
      · rw [if_neg h]
        refine ⟨_, rfl, ?_⟩
        rw [Nat.cast_sub (by unfold usizeSize; omega)]
        refine (Int.modEq_iff_dvd.mpr ⟨-1, ?_⟩)
        unfold usizeSize
        push_cast
        ring
    obtain ⟨d, hd, hmod⟩ := hu
    rw [hd]
    refine ⟨_, rfl, Nat.mod_lt _ (by unfold usizeSize; norm_num), ?_⟩
    have h1 : (((w * (s.length - (n / w + 1)) + d) % usizeSize : Nat) : Int) ≡
        w * ((s.length - (n / w + 1) : Nat) : Int) + d [ZMOD 2 ^ 64] := by
      unfold usizeSize
      rw [Int.natCast_mod]
      push_cast
      exact Int.mod_modEq _ _
    refine h1.trans ?_
    rw [e', show (w : Int) * ((s.length - (n / w + 1) : Nat) : Int) + w + w * ((n / w : Nat) : Int) - n
      - w * ((n / w : Nat) : Int) = w * ((s.length - (n / w + 1) : Nat) : Int) + (w - n) by ring]
    exact Int.ModEq.add_left _ hmod

/-- C24: the announced length is right exactly inside the first limb, and after the end. -/
theorem C24_len_right_exact_partial (hw : 0 < w) (m : Mode) (s : List (BitVec w))
    (hfit : w * s.length < 2 ^ 64) (n : Nat) :
    BitIter.len m (BitIter.after s n) = .ok (w * s.length - n) ↔ n < w ∨ w * s.length ≤ n := by
  constructor
  · intro h
    by_contra hc
    have hn : n < w * s.length := by omega
    have hd : 0 < n / w := Nat.div_pos (by omega) hw
    have hle : w * (n / w) ≤ n := Nat.mul_div_le _ _
    have hpos : 0 < w * (n / w) := Nat.mul_pos hw hd
    obtain ⟨h1, k, h2, hk, hmod⟩ := C24_len_exact_partial hw s hfit n hn
    cases m
    · rw [h1] at h
      split at h
      · simp only [Res.ok.injEq] at h
        omega
      · exact absurd h (by simp)
    · rw [h2] at h
      simp only [Res.ok.injEq] at h
      subst h
      rw [Nat.cast_sub (by omega)] at hmod
      have := Int.modEq_iff_dvd.mp hmod
      rw [show (w : Int) * s.length - n - w * ((n / w : Nat) : Int) - (((w * s.length : Nat) : Int) - n) =
        -((w * (n / w) : Nat) : Int) by rw [Nat.cast_mul, Nat.cast_mul]; ring, Int.dvd_neg] at this
      have := Int.le_of_dvd (by exact_mod_cast hpos) this
      omega
  · exact (C24_bit_iter_partial hw m s hfit n).2

example : BitIter.len .debug (BitIter.after [1#8, 2#8, 3#8] 8) = .ok 8 ∧
    BitIter.len .release (BitIter.after [1#8, 2#8, 3#8] 17) = .ok (2 ^ 64 - 9) := by decide

/-- C25, exactly, for reading an integer from any array, with or without spare limbs: the result is
`None` exactly when the value does not fit, or the place of the top limb does not, be that limb zero or
not; otherwise it is the value. -/
theorem C25_read_exact_partial {t u : Nat} (m : Mode) (ht : 0 < t) (hu : 0 < u)
    (hdiv : t ∣ u ∨ u ∣ t) (arr : List (BitVec t)) (hlen : arr.length * t ≤ 2 ^ 32) :
    arrToInt t u m arr
      = .ok (if val arr < 2 ^ u ∧ (arr.length - 1) * t < u then some (BitVec.ofNat u (val arr))
        else none) := by
  unfold arrToInt
  obtain ⟨st, g0, g1⟩ := forUpM_inv
    (fun i (st : Option (BitVec u)) =>
      match st with
      | some x => x.toNat = pv arr i ∧ (i - 1) * t < u
      | none => 2 ^ u ≤ val arr ∨ u ≤ (arr.length - 1) * t)
    (fun idx out => arrToIntStep t u m idx (arr.getD idx 0) out)
    arr.length (some 0) (by simpa using hu) (by
      rintro i st hi hst
      unfold arrToIntStep
      match st, hst with
      | none, hst => exact ⟨none, rfl, hst⟩
      | some x, hst =>
        obtain ⟨hst, -⟩ := hst
        simp only
        have hlimb : (arr.getD i 0).toNat * 2 ^ (t * i) ≤ val arr := by
          have h1 := pv_le_val arr (i + 1)
          rw [pv_succ] at h1
          omega
        by_cases hfit : (arr.getD i 0).toNat < 2 ^ u
        · rw [if_pos hfit]
          unfold checkedShl
          have hsh : i * t % 2 ^ 32 = i * t := by
            apply Nat.mod_eq_of_lt
            have : (i + 1) * t ≤ arr.length * t := Nat.mul_le_mul_right _ hi
            rw [Nat.succ_mul] at this
            omega
          simp only [hsh]
          by_cases hs : i * t < u
          · rw [if_pos hs]
            simp only
            have hnext : (arr.getD i 0).toNat * 2 ^ (i * t) < 2 ^ u ∧
                pv arr (i + 1) < 2 ^ u := by
              rcases hdiv with hdv | hdv
              · have hle : t * (i + 1) ≤ u := by
                  obtain ⟨c, rfl⟩ := hdv
                  rw [Nat.mul_comm i t] at hs
                  have := Nat.lt_of_mul_lt_mul_left hs
                  exact Nat.mul_le_mul_left _ this
                have h1 := pv_lt arr (i + 1)
                have h2 : 2 ^ (t * (i + 1)) ≤ 2 ^ u := Nat.pow_le_pow_right (by norm_num) hle
                rw [Nat.mul_comm i t]
                have h3 := pv_succ arr i
                omega
              · have hle : u ≤ t := Nat.le_of_dvd ht hdv
                have hi0 : i = 0 := by
                  by_contra h
                  have : t ≤ i * t := Nat.le_mul_of_pos_left _ (by omega)
                  omega
                subst hi0
                rw [pv_succ]
                simpa using hfit
            have hx : (BitVec.ofNat u (arr.getD i 0).toNat <<< (i * t)).toNat
                = (arr.getD i 0).toNat * 2 ^ (i * t) := by
              rw [BitVec.toNat_shiftLeft, BitVec.toNat_ofNat, Nat.mod_eq_of_lt hfit,
                Nat.shiftLeft_eq, Nat.mod_eq_of_lt hnext.1]
            have hp := pv_succ arr i
            rw [Nat.mul_comm t i] at hp
            unfold ovfAdd
            simp only [hx, hst]
            rw [if_neg (by simp only [decide_eq_true_eq]; omega)]
            refine ⟨_, rfl, ?_⟩
            simp only
            rw [BitVec.toNat_add, hx, hst, ← hp, Nat.mod_eq_of_lt hnext.2]
            exact ⟨rfl, hs⟩
          · rw [if_neg hs]
            refine ⟨none, rfl, ?_⟩
            simp only
            have h2 : i * t ≤ (arr.length - 1) * t := Nat.mul_le_mul_right _ (by omega)
            omega
        · rw [if_neg hfit]
          refine ⟨none, rfl, ?_⟩
          simp only
          have := Nat.two_pow_pos (t * i)
          have h2 : (arr.getD i 0).toNat * 1 ≤ (arr.getD i 0).toNat * 2 ^ (t * i) :=
            Nat.mul_le_mul_left _ this
          omega)
  rw [g0]
  congr 1
  match st, g1 with
  | none, g1 => simp only at g1; rw [if_neg (by omega)]
  | some x, g1 =>
    simp only [pv_length] at g1
    have := x.isLt
    rw [if_pos ⟨by omega, g1.2⟩, ← g1.1]
    simp

/-- C25: which arrays are read back right. -/
theorem C25_round_trip_exact_partial {t u : Nat} (m : Mode) (ht : 0 < t) (hu : 0 < u)
    (hdiv : t ∣ u ∨ u ∣ t) (n : Nat) (hn : 0 < n) (hlen : n * u ≤ 2 ^ 32) (v : BitVec t)
    (hv : v.toNat < 2 ^ (u * n)) :
    ∃ a, intToArr t u n v m = .ok a ∧
      (arrToInt u t m a = .ok (some v) ↔ (n - 1) * u < t) ∧
      (arrToInt u t m a = .ok none ↔ t ≤ (n - 1) * u) := by
  obtain ⟨a, e, hl, hval⟩ := intToArr_spec (u := u) ht n hn v m
  refine ⟨a, e, ?_⟩
  rw [Nat.mod_eq_of_lt hv] at hval
  rw [C25_read_exact_partial m hu ht hdiv.symm a (by rw [hl]; exact hlen), hval, hl]
  by_cases h : (n - 1) * u < t
  · rw [if_pos ⟨v.isLt, h⟩]
    simp [h]
  · rw [if_neg (fun hh => h hh.2)]
    simp only [Res.ok.injEq, reduceCtorEq, h, true_iff, iff_self, true_and]
    omega

/-- C25: an array of no limbs. Every call panics, except that a release build silently turns a
value too large for one limb into the empty array. -/
theorem C25_no_limbs_partial {t u : Nat} (m : Mode) (v : BitVec t) :
    intToArr t u 0 v m = if m = .release ∧ 2 ^ u ≤ v.toNat then .ok [] else .panic := by
  unfold intToArr
  by_cases h : v.toNat < 2 ^ u <;> cases m <;> simp [h, forUp]
  all_goals omega

example : intToArr 16 8 0 300#16 .release = .ok [] ∧ intToArr 16 8 0 200#16 .release = .panic ∧
    intToArr 16 8 0 300#16 .debug = .panic := by decide

example : arrToInt 8 16 .debug [1#8, 2#8] = .ok (some 0x201#16) ∧
    arrToInt 8 16 .debug [1#8, 2#8, 0#8] = .ok none ∧
    arrToInt 16 8 .release [255#16] = .ok (some 255#8) ∧
    arrToInt 16 8 .release [256#16] = .ok none := by decide

end Verif
