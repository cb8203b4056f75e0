import Verif.Spec.Words
import Verif.Spec.Order
import Verif.Lemmas.Order
import Verif.Lemmas.BitAccess
import Verif.Lemmas.BigIntWordText
import Verif.Lemmas.BigIntWordConv
import Verif.Lemmas.BigIntWordDiv
import Verif.Props.DivExact
import Mathlib.Data.Nat.Digits.Lemmas

/-!
# C196: what the operations of `BigInt` that depend on the target compute on each
-/

namespace Verif

namespace WInt

variable {w : Nat}

private theorem val_ofDigits (l : List (BitVec w)) :
    val l = Nat.ofDigits (2 ^ w) (l.map BitVec.toNat) := by
  induction l with
  | nil => rfl
  | cons x xs ih => rw [List.map_cons, Nat.ofDigits_cons, ← ih]; rfl

private theorem bigEnd_ofDigits (l : List (BitVec w)) :
    bigEnd l = Nat.ofDigits (2 ^ w) (l.map BitVec.toNat).reverse := by
  induction l using List.reverseRecOn with
  | nil => rfl
  | append_singleton xs x ih =>
    unfold bigEnd at ih ⊢
    rw [List.foldl_append, List.map_append, List.reverse_append]
    simp only [List.foldl_cons, List.foldl_nil, List.map_cons, List.map_nil, List.reverse_cons,
      List.reverse_nil, List.nil_append, List.singleton_append, Nat.ofDigits_cons]
    rw [ih]
    ring

theorem digits_val (hw : 0 < w) {l : List (BitVec w)} (h : Norm l) (h0 : val l ≠ 0) :
    Nat.digits (2 ^ w) (val l) = l.map BitVec.toNat := by
  rw [val_ofDigits]
  apply Nat.digits_ofDigits _ (Nat.one_lt_two_pow (by omega))
  · intro x hx
    obtain ⟨v, _, rfl⟩ := List.mem_map.mp hx
    exact v.isLt
  · intro hne
    rw [List.getLast_map]
    intro hz
    have hx : l.getLast h.1 = 0 := by
      apply BitVec.eq_of_toNat_eq
      rw [hz]
      simp
    rcases h.2 with h1 | h1
    · obtain ⟨x, rfl⟩ := List.length_eq_one_iff.mp h1
      simp only [List.getLast_singleton] at hx
      subst hx
      simp [val] at h0
    · exact h1 (by rw [List.getLast?_eq_some_getLast h.1, hx])

theorem norm_zero {l : List (BitVec w)} (h : Norm l) (h0 : val l = 0) : l = [0] := by
  refine Norm.unique h ⟨by simp, Or.inl rfl⟩ ?_
  rw [h0]
  simp [val]

private theorem words_val (hw : 0 < w) {l : List (BitVec w)} (h : Norm l) :
    words w (val l) = l.length ∧ backwards w (val l) = bigEnd l := by
  unfold words backwards
  by_cases h0 : val l = 0
  · rw [norm_zero h h0]
    simp [val, bigEnd]
  · rw [digits_val hw h h0, bigEnd_ofDigits, List.length_map]
    have := List.length_pos_iff.mpr h.1
    exact ⟨by omega, rfl⟩

/-- C196, the order on a target of `w` bits, exactly: values with the negative flag come first; of two
values without it the one of fewer words is the smaller one, and of two with the same number of words
the one that is smaller when its words are read backwards; for two values with the flag it is the
other way round. -/
theorem C196_cmp_exact_partial (hw : w ∈ [16, 32, 64]) (a b : WInt w) (ha : Rep a) (hb : Rep b) :
    cmp a b = match a.neg, b.neg with
      | true, false => .lt
      | false, true => .gt
      | false, false => (compare (words w (ival a).natAbs) (words w (ival b).natAbs)).then
          (compare (backwards w (ival a).natAbs) (backwards w (ival b).natAbs))
      | true, true => ((compare (words w (ival a).natAbs) (words w (ival b).natAbs)).then
          (compare (backwards w (ival a).natAbs) (backwards w (ival b).natAbs))).swap := by
  haveI hW : PtrWidth w := ⟨hw⟩
  rw [natAbs_ival, natAbs_ival, (words_val hW.pos ha.norm).1, (words_val hW.pos hb.norm).1,
    (words_val hW.pos ha.norm).2, (words_val hW.pos hb.norm).2]
  have hm : (compare a.limbs.length b.limbs.length).then (compare (bigEnd a.limbs) (bigEnd b.limbs))
      = if a.limbs.length ≠ b.limbs.length then compare a.limbs.length b.limbs.length
        else zipCmp a.limbs b.limbs := by
    by_cases h : a.limbs.length = b.limbs.length
    · rw [if_neg (by simpa using h), compare_eq_iff_eq.mpr h, zipCmp_elementCmp _ _ h,
        elementCmp_bigEnd _ _ h]
      rfl
    · rw [if_pos h]
      rcases Nat.lt_or_gt_of_ne h with c | c
      · rw [compare_lt_iff_lt.mpr c]; rfl
      · rw [compare_gt_iff_gt.mpr c]; rfl
  rw [hm]
  unfold cmp isNegative isPositive
  by_cases hab : a = b
  · subst hab
    have hz : zipCmp a.limbs a.limbs = .eq := (zipCmp_eq _ _ rfl).mpr rfl
    rw [if_pos rfl]
    cases a.neg <;> simp [hz]
  · rw [if_neg hab]
    cases a.neg <;> cases b.neg <;> simp

example : cmp (⟨false, .slice [5, 1]⟩ : WInt 32) ⟨false, .slice [3, 2]⟩ = .gt ∧
    cmp (⟨true, .slice [5, 1]⟩ : WInt 16) ⟨true, .slice [3, 2]⟩ = .lt := by decide

/-- C196, `!` on a target of `w` bits, exactly: the magnitude is reflected at the largest number of
the same number of words, and the sign is kept. -/
theorem C196_not_exact_partial (hw : w ∈ [16, 32, 64]) (a : WInt w) (ha : Rep a) :
    ∃ c, not a = .ok c ∧ Canon c ∧
      (ival c).natAbs = 2 ^ (w * words w (ival a).natAbs) - 1 - (ival a).natAbs ∧
      (a.neg = true → ival c ≤ 0) ∧ (a.neg = false → 0 ≤ ival c) := by
  haveI hW : PtrWidth w := ⟨hw⟩
  have h := not_val a.limbs
  unfold modulus at h
  have hne : elementNot a.limbs ≠ [] := by
    have := ha.norm.1
    simpa [elementNot] using this
  obtain ⟨c, h1, h2, h3, h4⟩ := finish_spec (notRaw a) _ _ rfl hne
  refine ⟨c, h1, h2, ?_, ?_, ?_⟩
  · rw [natAbs_ival, natAbs_ival, (words_val hW.pos ha.norm).1, h3]
    omega
  · intro hn
    rw [h4]
    unfold isNegative
    rw [if_pos hn]
    omega
  · intro hn
    rw [h4]
    unfold isNegative
    rw [if_neg (by rw [hn]; simp)]
    omega

example : not (⟨true, .slice [5, 1]⟩ : WInt 16) = .ok ⟨true, .slice [0xFFFA, 0xFFFE]⟩ := by
  decide +kernel

/-- C196, `>>` on a target of `w` bits: by less than `w` it divides the magnitude and keeps the sign;
from `w` on it panics in debug builds; in release builds it divides the magnitude for all amounts below
`2^w` (numbers of at most `2^(w-1)` words) and panics beyond; negative amounts panic. -/
theorem C196_shr_exact_partial (hw : w ∈ [16, 32, 64]) (m : Mode) (a k : WInt w) (ha : Rep a)
    (hk : Canon k) :
    (0 ≤ ival k → ival k < w ∨ m = .release ∧ ival k < 2 ^ w ∧
        words w (ival a).natAbs ≤ 2 ^ (w - 1) →
      ∃ c, shr m a k = .ok c ∧ Canon c ∧ ival c = (ival a).tdiv (2 ^ (ival k).toNat)) ∧
    (m = .debug → w ≤ ival k → shr m a k = .panic) ∧
    (ival k < 0 ∨ 2 ^ w ≤ ival k → shr m a k = .panic) := by
  haveI hW : PtrWidth w := ⟨hw⟩
  rw [natAbs_ival, (words_val hW.pos ha.norm).1]
  refine ⟨fun h0 h => ?_, fun hm h => by subst hm; exact shr_debug_panic ha hk h, fun h => ?_⟩
  · obtain ⟨c, c1, c2, c3⟩ := shr_ok ha hk h0 h
    refine ⟨c, c1, c2, ?_⟩
    rw [c3]
    generalize (ival k).toNat = n
    rw [show ((2 : Int) ^ n) = ((2 ^ n : Nat) : Int) by push_cast; rfl]
    unfold ival
    cases a.neg
    · rfl
    · simp only [if_true]
      rw [Int.neg_tdiv]
      rfl
  · unfold shr shrRaw
    rw [shiftAmount_spec m hk, if_neg (by omega)]
    rfl

example : shr .debug (⟨true, .slice [5, 1]⟩ : WInt 16) ⟨false, .inline 2⟩
      = .ok ⟨true, .slice [0x4001]⟩ ∧
    shr .debug (⟨true, .slice [5, 1]⟩ : WInt 16) ⟨false, .inline 16⟩ = .panic ∧
    shr .release (⟨true, .slice [5, 1]⟩ : WInt 16) ⟨false, .inline 16⟩ = .ok ⟨true, .inline 1⟩ := by
  decide +kernel

/-- C196, division on a target of `w` bits, exactly: for a divisor of at most as many words as the
numerator `|q| * |b| + |r|` is congruent to `|a|`, the quotient by a nonzero divisor is right if and
only if every comparison of the long division comes out right, and then the remainder has the right
magnitude; dividing by zero gives the largest magnitude of that many words, and the numerator as
remainder; a divisor of more words panics. The numbers must have fewer than `2^w` bits. -/
theorem C196_div_exact_partial (hw : w ∈ [16, 32, 64]) (m : Mode) (a b : WInt w) (ha : Rep a)
    (hb : Rep b) (hfa : w * words w (ival a).natAbs < 2 ^ w)
    (hfb : w * words w (ival b).natAbs < 2 ^ w) :
    (words w (ival a).natAbs < words w (ival b).natAbs → div m a b = .panic ∧ rem m a b = .panic) ∧
    (words w (ival b).natAbs ≤ words w (ival a).natAbs →
      ∃ q r, div m a b = .ok q ∧ rem m a b = .ok r ∧ Canon q ∧ Canon r ∧
        ((ival q).natAbs * (ival b).natAbs + (ival r).natAbs) % 2 ^ (w * words w (ival a).natAbs)
          = (ival a).natAbs ∧
        (ival b ≠ 0 →
          (ival q = (ival a).tdiv (ival b) ↔
            ComparesRight w (w * words w (ival a).natAbs) (ival a).natAbs (ival b).natAbs) ∧
          (ComparesRight w (w * words w (ival a).natAbs) (ival a).natAbs (ival b).natAbs →
            (ival r).natAbs = ((ival a).tmod (ival b)).natAbs)) ∧
        (ival b = 0 → (ival q).natAbs = 2 ^ (w * words w (ival a).natAbs) - 1 ∧
          (ival r).natAbs = (ival a).natAbs) ∧
        (a.neg = b.neg → 0 ≤ ival q ∧ 0 ≤ ival r) ∧
        (a.neg ≠ b.neg → ival q ≤ 0 ∧ ival r ≤ 0)) := by
  haveI hW : PtrWidth w := ⟨hw⟩
  have wa := (words_val hW.pos ha.norm).1
  have wb := (words_val hW.pos hb.norm).1
  rw [← natAbs_ival] at wa wb
  rw [wa] at hfa
  rw [wb] at hfb
  rw [wa, wb]
  refine ⟨fun h => ?_, fun hlen => ?_⟩
  · have h1 := divLong_longer m a.limbs b.limbs h hfb
    constructor
    · unfold div divRaw finish
      rw [h1]; rfl
    · unfold rem remRaw finish
      rw [h1]; rfl
  have hal := List.length_pos_iff.mpr ha.norm.1
  obtain ⟨q, r, g0, -, -, g3, g4, g4', g5, g6⟩ :=
    C20_bitwise_div_exact_partial m hW.pos a.limbs b.limbs hlen
      (le_trans (by have := hW.ge; omega) (Nat.le_mul_of_pos_right w hal))
      (lt_of_lt_of_le hfa pow_le_64)
  rw [← divLong_eq m a.limbs b.limbs hlen hal hfa] at g0
  have hq : q ≠ [] := by rintro rfl; simp at g3; omega
  have hr : r ≠ [] := by rintro rfl; simp at g4; omega
  obtain ⟨c, c1, c2, c3, c4⟩ := finish_spec (divRaw m a b) q (a.isNegative != b.isNegative)
    (by unfold divRaw; rw [g0]; rfl) hq
  obtain ⟨e, e1, e2, e3, e4⟩ := finish_spec (remRaw m a b) r (a.isNegative != b.isNegative)
    (by unfold remRaw; rw [g0]; rfl) hr
  refine ⟨c, e, c1, e1, c2, e2, ?_, ?_, ?_, ?_, ?_⟩
  · rw [natAbs_ival, natAbs_ival, natAbs_ival, natAbs_ival, c3, e3]
    exact g4'
  · intro h0
    rw [natAbs_ival, natAbs_ival]
    have hb0 : 0 < val b.limbs := by rw [← natAbs_ival b]; omega
    obtain ⟨k1, k2⟩ := g5 hb0
    refine ⟨?_, fun hc => ?_⟩
    · rw [← k1, c4]
      unfold ival isNegative
      have hcast : (val q : Int) = (val a.limbs : Int) / (val b.limbs : Int)
          ↔ val q = val a.limbs / val b.limbs := by norm_cast
      cases a.neg <;> cases b.neg <;>
        simp [Int.tdiv_neg, Int.neg_tdiv, Int.tdiv_eq_ediv_of_nonneg, hcast]
    · rw [natAbs_ival, e3, k2 hc]
      rw [Int.natAbs_tmod, natAbs_ival, natAbs_ival]
  · intro h0
    have hb0 : val b.limbs = 0 := by rw [← natAbs_ival b]; omega
    obtain ⟨k1, k2⟩ := g6 hb0
    rw [natAbs_ival, natAbs_ival, natAbs_ival, c3, e3]
    exact ⟨by omega, k2⟩
  · intro hs
    rw [c4, e4]
    unfold isNegative
    rw [hs]
    simp
  · intro hs
    rw [c4, e4]
    unfold isNegative
    have : (a.neg != b.neg) = true := by simpa using hs
    rw [this]
    simp

example : div .debug (⟨true, .slice [0xFFFF, 0xFFFF]⟩ : WInt 16) ⟨false, .slice [0xFFFF, 1]⟩
      = .ok ⟨true, .slice [0x8000]⟩ ∧
    rem .debug (⟨true, .slice [5, 6]⟩ : WInt 16) zero = .ok ⟨true, .slice [5, 6]⟩ ∧
    div .release (⟨false, .inline 5⟩ : WInt 16) ⟨false, .slice [0, 1]⟩ = .panic := by decide +kernel

/-- C196, conversion to signed types no wider than a word, exactly: below the range and above it the
errors are right; the smallest value is refused, and the other negative numbers in range lose their
sign. Cutting down clamps the magnitude and keeps the sign. Unsigned cutting down clamps the magnitude
and drops the sign, for every width. -/
theorem C196_convert_exact_partial (hw : w ∈ [16, 32, 64]) (m : Mode) (t : Nat)
    (ht : t ∈ [8, 16, 32, 64, 128]) (a : WInt w) (ha : Rep a) :
    truncateU t m a = .ok (BitVec.ofNat t (min (ival a).natAbs (2 ^ t - 1))) ∧
    (t ≤ w →
      tryIntoS t m a = .ok (if ival a < -2 ^ (t - 1) then .error .below
        else if ival a = -2 ^ (t - 1) then .error .above
        else if ival a < 2 ^ (t - 1) then .ok (BitVec.ofNat t (ival a).natAbs)
        else .error .above) ∧
      truncateS t m a = .ok (BitVec.ofInt t ((ival a).sign * min (ival a).natAbs (2 ^ (t - 1) - 1)))) := by
  haveI hW : PtrWidth w := ⟨hw⟩
  refine ⟨by rw [natAbs_ival]; exact truncateU_rep ht m ha, fun htw =>
    ⟨tryIntoS_rep ht htw m ha, ?_⟩⟩
  rw [truncateS_rep ht htw m ha, natAbs_ival]
  congr 1
  unfold ival
  by_cases h0 : val a.limbs = 0
  · rw [h0]; simp
  · have hs : (val a.limbs : Int).sign = 1 := Int.sign_eq_one_of_pos (by omega)
    cases a.neg
    · simp only [Bool.false_eq_true, if_false, hs, one_mul]
      rw [← BitVec.ofInt_natCast]
    · simp only [if_true, Int.sign_neg, hs, neg_mul, one_mul]
      rw [BitVec.ofInt_neg, ← BitVec.ofInt_natCast]

example : tryIntoS 16 .debug (⟨true, .inline 7⟩ : WInt 16) = .ok (.ok 7) ∧
    tryIntoS 16 .debug (⟨true, .slice [0x8000]⟩ : WInt 16) = .ok (.error .above) ∧
    truncateS 16 .debug (⟨true, .slice [0, 1]⟩ : WInt 16) = .ok (-0x7FFF) ∧
    truncateU 32 .debug (⟨true, .slice [0, 1, 1]⟩ : WInt 16) = .ok 0xFFFFFFFF := by decide +kernel

/-- C196 for conversions, the part that holds: on all targets the same program converts to the same
`i8` and `i16`, or fails alike, and is cut down to the same `i8`, `i16` and unsigned integers.
Missing: the wider signed types, see `C196_try_into_signed_violated`. -/
theorem C196_convert_partial {w' : Nat} (hw : w ∈ [16, 32, 64]) (hw' : w' ∈ [16, 32, 64]) (m : Mode)
    (fuel : Nat) (e : BigExpr) (a : WInt w) (a' : WInt w') (ha : e.run w m fuel = .ok a)
    (ha' : e.run w' m fuel = .ok a') :
    (∀ t ∈ [8, 16, 32, 64, 128], truncateU t m a = truncateU t m a') ∧
    (∀ t ∈ [8, 16], tryIntoS t m a = tryIntoS t m a' ∧ saturateS t m a = saturateS t m a' ∧
      truncateS t m a = truncateS t m a') := by
  haveI hW : PtrWidth w := ⟨hw⟩
  haveI hW' : PtrWidth w' := ⟨hw'⟩
  have h := run_agree (w := w) (w' := w') m fuel e
  rw [ha, ha'] at h
  have hi : ival a = ival a' := Same.ival h
  have e1 := hW.ge
  have e2 := hW'.ge
  refine ⟨fun t ht => ?_, fun t ht => ?_⟩
  · rw [(C196_convert_exact_partial hw m t ht a h.1).1,
      (C196_convert_exact_partial hw' m t ht a' h.2.1).1, hi]
  · have ht' : t ∈ [8, 16, 32, 64, 128] ∧ t ≤ 16 := by
      simp only [List.mem_cons, List.not_mem_nil, or_false] at ht ⊢
      omega
    obtain ⟨x1, x2⟩ := (C196_convert_exact_partial hw m t ht'.1 a h.1).2 (by omega)
    obtain ⟨y1, y2⟩ := (C196_convert_exact_partial hw' m t ht'.1 a' h.2.1).2 (by omega)
    have e3 : tryIntoS t m a = tryIntoS t m a' := by rw [x1, y1, hi]
    exact ⟨e3, by unfold saturateS; rw [e3], by rw [x2, y2, hi]⟩

example : ((BigExpr.shr (.neg (.shl (.unsigned 8 (by decide) 3) 40)) 15 (by decide)).run 16 .debug 0).bind
      (truncateS 16 .debug) = .ok (-0x7FFF) ∧
    ((BigExpr.shr (.neg (.shl (.unsigned 8 (by decide) 3) 40)) 15 (by decide)).run 64 .debug 0).bind
      (truncateS 16 .debug) = .ok (-0x7FFF) := by decide +kernel

private theorem binary_loop (hw : 0 < w) (s : List (BitVec w)) (n : Nat) (hn : n ≤ BitSlice.bitLen s)
    (cs : List Char) :
    forDownM n (fun idx (cs : List Char) =>
      (BitSlice.getBit s idx).bind fun x => .ok (cs ++ [if x then '1' else '0'])) cs
      = .ok (cs ++ (List.range n).reverse.map fun i => if (val s).testBit i then '1' else '0') := by
  induction n generalizing cs with
  | zero => simp [forDownM]
  | succ n ih =>
    rw [forDownM, getBit_eq hw, if_pos (by omega)]
    refine (ih (by omega) _).trans ?_
    rw [List.range_succ]
    simp

/-- C196, binary text on a target of `w` bits, exactly: all bits of all words, the most significant
one first. -/
theorem C196_binary_exact_partial (hw : w ∈ [16, 32, 64]) (a : WInt w) (ha : Rep a) :
    binary a = .ok ((if a.neg then ['-'] else []) ++ ['0', 'b'] ++
      (List.range (w * words w (ival a).natAbs)).reverse.map
        fun i => if (ival a).natAbs.testBit i then '1' else '0') := by
  haveI hW : PtrWidth w := ⟨hw⟩
  rw [natAbs_ival, (words_val hW.pos ha.norm).1]
  unfold binary
  rw [binary_loop hW.pos a.limbs _ le_rfl, bitLen_eq]
  rfl

example : binary (⟨true, .inline 6⟩ : WInt 16)
    = .ok ("-0b0000000000000110".toList) := by decide +kernel

end WInt

end Verif
