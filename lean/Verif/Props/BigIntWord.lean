import Verif.Lemmas.BigIntWordText

/-!
# C196: `BigInt` on targets of 16, 32 and 64 bits
-/

namespace Verif

namespace WInt

variable {w w' : Nat}

private theorem isZero_iff {b : WInt w} [hw : PtrWidth w] (hb : Rep b) :
    b.isZero = (!b.neg && decide (val b.limbs = 0)) := by
  have hz : Rep (zero : WInt w) := by
    show (0 : BitVec w).toNat < _
    simp
  have hv : val (zero : WInt w).limbs = 0 := by
    show val [(0 : BitVec w)] = 0
    simp [val]
  unfold isZero
  by_cases h : b = zero
  · subst h
    simp [hv, show (zero : WInt w).neg = false from rfl]
  · have : ¬ (b.neg = false ∧ val b.limbs = 0) := fun h1 =>
      h (Rep.ext hb hz h1.1 (by rw [h1.2, hv]))
    simp only [h, decide_false]
    cases hn : b.neg <;> simp_all

private theorem isOne_iff {b : WInt w} [hw : PtrWidth w] (hb : Rep b) :
    b.isOne = (!b.neg && decide (val b.limbs = 1)) := by
  have h1w : (1 : BitVec w).toNat = 1 := by
    show (BitVec.ofNat w 1).toNat = 1
    rw [BitVec.toNat_ofNat]
    exact Nat.mod_eq_of_lt (Nat.one_lt_two_pow (by have := hw.ge; omega))
  have hz : Rep (one : WInt w) := by
    show (1 : BitVec w).toNat < _
    rw [h1w]
    exact Nat.one_lt_two_pow (by have := hw.ge; omega)
  have hv : val (one : WInt w).limbs = 1 := by
    show val [(1 : BitVec w)] = 1
    simp only [val, h1w]
    rfl
  unfold isOne
  by_cases h : b = one
  · subst h
    simp [hv, show (one : WInt w).neg = false from rfl]
  · have : ¬ (b.neg = false ∧ val b.limbs = 1) := fun h1 =>
      h (Rep.ext hb hz h1.1 (by rw [h1.2, hv]))
    simp only [h, decide_false]
    cases hn : b.neg <;> simp_all

private theorem eq_iff {a b : WInt w} [PtrWidth w] (ha : Rep a) (hb : Rep b) :
    eq a b = (decide (a.neg = b.neg) && decide (val a.limbs = val b.limbs)) := by
  have key : eq a b = true ↔ a = b := by
    unfold eq
    by_cases h : a = b
    · simp [h]
    · rw [if_neg h]
      simp only [h, iff_false]
      split
      · rename_i hc
        simp only [decide_eq_true_eq]
        intro hl
        exact h (Rep.ext ha hb hc.1 (by rw [hl]))
      · simp
  rw [Bool.eq_iff_iff, key]
  simp only [Bool.and_eq_true, decide_eq_true_eq]
  exact ⟨fun h => by rw [h]; exact ⟨rfl, rfl⟩, fun h => Rep.ext ha hb h.1 h.2⟩

private theorem cmp_neg_pos {b x : WInt w} (hb : b.neg = true) (hx : x.neg = false) :
    cmp b x = .lt := by
  unfold cmp isNegative isPositive
  rw [if_neg (fun h => by rw [h, hx] at hb; cases hb), if_pos ⟨hb, by rw [hx]; rfl⟩]

private theorem tryIntoU_rep [PtrWidth w] {t : Nat} (ht : t ∈ BInt.primWidths) (m : Mode)
    {b : WInt w} (hb : Rep b) :
    tryIntoU t m b = .ok (if b.neg then .error .below
      else if (val b.limbs : Int) < 2 ^ t then .ok (BitVec.ofNat t (val b.limbs))
      else .error .above) := by
  cases hn : b.neg
  · have hc : Canon b := ⟨hb, fun h => by rw [hn] at h; cases h⟩
    rw [tryIntoU_spec ht m hc, ival_of_pos hn, if_neg (by omega), Int.toNat_natCast]
    rfl
  · obtain ⟨mx, h1, h2, _, h4⟩ := fromU_spec (w := w) ht (BitVec.allOnes t)
    obtain ⟨mn, g1, g2, _, g4⟩ := fromU_spec (w := w) ht 0
    unfold tryIntoU
    rw [h1, g1]
    simp only [Res.bind]
    rw [cmp_neg_pos hn (h2.val_of_nonneg (by omega)).1,
      cmp_neg_pos hn (g2.val_of_nonneg (by omega)).1]
    rfl

private theorem eqS_agree [PtrWidth w] [PtrWidth w'] {t : Nat} (ht : t ∈ BInt.primWidths)
    (m : Mode) {a : WInt w} {a' : WInt w'} (h : Same a a') (v : BitVec t) :
    eqS t m a v = eqS t m a' v := by
  by_cases hm : v ≠ BitVec.intMin t ∨ m = .release
  · rw [eqS_spec ht m h.1 v hm, eqS_spec ht m h.2.1 v hm, h.2.2.1, h.2.2.2]
  · push Not at hm
    have hd : m = .debug := by cases m <;> simp_all
    unfold eqS isNegative
    rw [h.2.2.1]
    split
    · rfl
    · rw [if_pos ⟨hm.1, hd⟩, if_pos ⟨hm.1, hd⟩]

/-- Enough room for the bits of a number below `2^60000`. -/
private theorem room [hw : PtrWidth w] {l : List (BitVec w)} (h : Norm l) (hv : val l < 2 ^ 60000) :
    w * l.length < 2 ^ w ∧ w * l.length < 60100 := by
  have key : ∀ k, 0 < k → 60000 ≤ w * k → l.length ≤ k := fun k hk h6 =>
    length_le h (lt_of_lt_of_le hv (Nat.pow_le_pow_right (by norm_num) h6)) hk
  rcases hw.cases with e | e | e <;> subst e
  · have := key 3750 (by norm_num) (by norm_num); omega
  · have := key 1875 (by norm_num) (by norm_num); omega
  · have := key 938 (by norm_num) (by norm_num); omega

private theorem writeBase_rep [hw : PtrWidth w] (m : Mode) (n : Nat) (hn : n = 10 ∨ n = 16)
    (chars : List Char) (g : Char → Char) (hg : ∀ d < n, chars[d]? = some (g d.digitChar))
    (fuel : Nat) {b : WInt w} (hb : Rep b) (hv : val b.limbs < 2 ^ 60000) (hf : 60100 ≤ fuel) :
    writeBase m fuel (BitVec.ofNat w n) chars b
      = .ok (if b.neg then [g '0'] else (Nat.toDigits n (val b.limbs)).map g) := by
  have h16 : (2 : Nat) ^ 16 ≤ 2 ^ w := Nat.pow_le_pow_right (by norm_num) hw.ge
  have hnw : (BitVec.ofNat w n).toNat = n := by
    rw [BitVec.toNat_ofNat, Nat.mod_eq_of_lt (by omega)]
  obtain ⟨r1, r2⟩ := room hb.norm hv
  cases hneg : b.neg
  · have hc : Canon b := ⟨hb, fun h => by rw [hneg] at h; cases h⟩
    rw [writeBase_spec m _ (by omega) (by omega) chars g (by rw [hnw]; exact hg) fuel b hc
      (by rw [ival_of_pos hneg]; omega) r1 (by omega), hnw, ival_of_pos hneg, Int.toNat_natCast]
    rfl
  · obtain ⟨k, rfl⟩ : ∃ k, fuel = k + 1 := ⟨fuel - 1, by omega⟩
    unfold writeBase digitLoop
    rw [cmpS_small (by decide) hb 0 (by decide) (by decide), hneg]
    have h0 := hg 0 (by omega)
    simp only [if_true, Res.bind]
    rw [if_neg (by decide)]
    simp only [List.isEmpty_nil, if_true, List.reverse_cons, List.reverse_nil, List.nil_append]
    unfold BInt.writeDigits
    rw [show (0 : BitVec 8).toNat = 0 from rfl, h0]
    rfl

/-- What is printed. -/
private theorem print_rep [hw : PtrWidth w] (m : Mode) (fuel : Nat) {b : WInt w} (hb : Rep b)
    (hv : val b.limbs < 2 ^ 60000) (hf : 60100 ≤ fuel) :
    display m fuel b = .ok (if b.neg then ['-', '0'] else Nat.toDigits 10 (val b.limbs)) ∧
    lowerHex m fuel b = .ok (if b.neg then ['-', '0', 'x', '0']
      else '0' :: 'x' :: Nat.toDigits 16 (val b.limbs)) ∧
    upperHex m fuel b = .ok (if b.neg then ['-', '0', 'x', '0']
      else '0' :: 'x' :: (Nat.toDigits 16 (val b.limbs)).map Char.toUpper) := by
  have hdec : ∀ d < 10, BInt.decChars[d]? = some (id d.digitChar) := by decide
  have hlow : ∀ d < 16, BInt.lowerHexChars[d]? = some (id d.digitChar) := by decide
  have hupp : ∀ d < 16, BInt.upperHexChars[d]? = some (d.digitChar.toUpper) := by decide
  refine ⟨?_, ?_, ?_⟩
  · unfold display
    rw [show (10 : BitVec w) = BitVec.ofNat w 10 from rfl,
      writeBase_rep m 10 (by simp) _ id hdec fuel hb hv hf]
    unfold signChars isNegative
    cases b.neg <;> simp [Res.bind]
  · unfold lowerHex
    rw [show (16 : BitVec w) = BitVec.ofNat w 16 from rfl,
      writeBase_rep m 16 (by simp) _ id hlow fuel hb hv hf]
    unfold signChars isNegative
    cases b.neg <;> simp [Res.bind]
  · unfold upperHex
    rw [show (16 : BitVec w) = BitVec.ofNat w 16 from rfl,
      writeBase_rep m 16 (by simp) _ Char.toUpper hupp fuel hb hv hf]
    unfold signChars isNegative
    cases b.neg
    · simp [Res.bind]
    · simp only [Res.bind, if_true]
      rfl

/-- C196, the part that holds for whole programs: an expression built from primitive integers of
fixed width or from text with `+`, `-`, `*`, unary `-`, `abs`, `pow`, `&`, `|`, `^`, `<<` by a literal
below `2^16` and `>>` by a literal below 16 has the same outcome on targets of 16, 32 and 64 bits. Either both runs panic, or both give the same integer, of
which the sign, the zero and one tests, equality with primitives, conversion to unsigned types and the
printed text (below `2^60000`) agree. Missing: the order, `!`, division, other shifts, conversion to
signed types, binary text and `approx_float`; see below and `Props/BigIntWordExact`. -/
theorem C196_program_partial (hw : w ∈ [16, 32, 64]) (hw' : w' ∈ [16, 32, 64]) (m : Mode)
    (fuel : Nat) (e : BigExpr) :
    (∀ a, e.run w m fuel = .ok a → ∃ a', e.run w' m fuel = .ok a' ∧ ival a' = ival a ∧
      a'.isNegative = a.isNegative ∧ a'.isPositive = a.isPositive ∧
      a'.isZero = a.isZero ∧ a'.isOne = a.isOne ∧
      (∀ t ∈ [8, 16, 32, 64, 128], tryIntoU t m a' = tryIntoU t m a ∧
        saturateU t m a' = saturateU t m a ∧
        ∀ v : BitVec t, eqU t a' v = eqU t a v ∧ eqS t m a' v = eqS t m a v) ∧
      ((ival a).natAbs < 2 ^ 60000 → ∀ n, 60100 ≤ n → display m n a' = display m n a ∧
        lowerHex m n a' = lowerHex m n a ∧ upperHex m n a' = upperHex m n a)) ∧
    (e.run w m fuel = .panic ↔ e.run w' m fuel = .panic) ∧
    (e.run w m fuel = .hang ↔ e.run w' m fuel = .hang) := by
  haveI : PtrWidth w := ⟨hw⟩
  haveI : PtrWidth w' := ⟨hw'⟩
  have h := run_agree (w := w) (w' := w') m fuel e
  refine ⟨fun a ha => ?_, ?_, ?_⟩
  · rw [ha] at h
    cases hr : e.run w' m fuel with
    | panic => rw [hr] at h; exact False.elim h
    | hang => rw [hr] at h; exact False.elim h
    | ok a' =>
      rw [hr] at h
      obtain ⟨r1, r2, r3, r4⟩ := id h
      refine ⟨a', rfl, (Same.ival h).symm, r3.symm, by unfold isPositive; rw [r3], ?_, ?_, ?_, ?_⟩
      · rw [isZero_iff r1, isZero_iff r2, r3, r4]
      · rw [isOne_iff r1, isOne_iff r2, r3, r4]
      · intro t ht
        have ht' : t ∈ BInt.primWidths := ht
        have e1 : tryIntoU t m a' = tryIntoU t m a := by
          rw [tryIntoU_rep ht' m r1, tryIntoU_rep ht' m r2, r3, r4]
        refine ⟨e1, by unfold saturateU; rw [e1], fun v => ⟨?_, (eqS_agree ht' m h v).symm⟩⟩
        rw [eqU_spec ht' r1, eqU_spec ht' r2, r4]
      · intro hv n hn
        rw [natAbs_ival] at hv
        obtain ⟨p1, p2, p3⟩ := print_rep m n r1 hv hn
        obtain ⟨q1, q2, q3⟩ := print_rep m n r2 (by rw [← r4]; exact hv) hn
        rw [p1, p2, p3, q1, q2, q3, r3, r4]
        exact ⟨rfl, rfl, rfl⟩
  · cases hr : e.run w m fuel <;> cases hr' : e.run w' m fuel <;> rw [hr, hr'] at h <;>
      first | exact False.elim h | simp
  · cases hr : e.run w m fuel <;> cases hr' : e.run w' m fuel <;> rw [hr, hr'] at h <;>
      first | exact False.elim h | simp

/-- C196 for equality: two programs give equal numbers on one target exactly if they do on another. -/
theorem C196_equality (hw : w ∈ [16, 32, 64]) (hw' : w' ∈ [16, 32, 64]) (m : Mode)
    (fuel : Nat) (e f : BigExpr) (a b : WInt w) (a' b' : WInt w')
    (ha : e.run w m fuel = .ok a) (hb : f.run w m fuel = .ok b)
    (ha' : e.run w' m fuel = .ok a') (hb' : f.run w' m fuel = .ok b') : eq a b = eq a' b' := by
  haveI : PtrWidth w := ⟨hw⟩
  haveI : PtrWidth w' := ⟨hw'⟩
  have h := run_agree (w := w) (w' := w') m fuel e
  have g := run_agree (w := w) (w' := w') m fuel f
  rw [ha, ha'] at h
  rw [hb, hb'] at g
  rw [eq_iff h.1 g.1, eq_iff h.2.1 g.2.1, h.2.2.1, h.2.2.2, g.2.2.1, g.2.2.2]

/-- C196, division: with a divisor of at most `2^(w-1)` the quotient and, up to its sign, the
remainder are exact on a target of `w` bits. Missing: larger divisors, see `C196_div_violated` and
`C196_quotient_violated`. -/
theorem C196_div_partial (hw : w ∈ [16, 32, 64]) (m : Mode) (a b : WInt w) (ha : Rep a) (hb : Rep b)
    (h0 : ival b ≠ 0) (h1 : (ival b).natAbs ≤ 2 ^ (w - 1)) (hlen : w * a.limbs.length < 2 ^ w) :
    ∃ q r, div m a b = .ok q ∧ rem m a b = .ok r ∧ Canon q ∧ Canon r ∧
      ival q = (ival a).tdiv (ival b) ∧
      ival r = if b.neg then -((ival a).tmod (ival b)) else (ival a).tmod (ival b) := by
  haveI : PtrWidth w := ⟨hw⟩
  have hp : 2 ^ w = 2 * 2 ^ (w - 1) := by
    have := PtrWidth.ge (w := w) inferInstance
    rw [← Nat.pow_succ']; congr 1; omega
  rw [natAbs_ival] at h1
  have hz : 0 < val b.limbs := by
    rw [← natAbs_ival]; omega
  have hpos := Nat.two_pow_pos (w - 1)
  have hd : DivOk a b := ⟨hz, by omega, Or.inr (by omega), hlen⟩
  obtain ⟨q, q1, q2, q3⟩ := div_spec m ha hb hd
  obtain ⟨r, r1, r2, r3⟩ := rem_spec m ha hb hd
  exact ⟨q, r, q1, r1, q2, r2, q3, r3⟩

/-- C196, the order: right on a target of `w` bits if one of the numbers is below `2^w` in magnitude,
or the signs differ. Missing: two numbers of several words each, see
`C196_cmp_violated`. -/
theorem C196_cmp_partial (hw : w ∈ [16, 32, 64]) (a b : WInt w) (ha : Canon a) (hb : Canon b)
    (h : (ival a < 0 ↔ 0 ≤ ival b) ∨ (ival a).natAbs < 2 ^ w ∨ (ival b).natAbs < 2 ^ w) :
    cmp a b = compare (ival a) (ival b) := by
  haveI : PtrWidth w := ⟨hw⟩
  apply cmp_spec ha hb
  rw [natAbs_ival, natAbs_ival] at h
  rcases h with h | h | h
  · left
    intro hn
    have h1 := ha.neg_iff
    have h2 := hb.neg_iff
    rw [hn] at h1
    have h3 := h1.symm.trans h2
    omega
  · exact Or.inr (comparable_one (length_one_of_lt ha.norm h))
  · exact Or.inr (comparable_one (length_one_of_lt hb.norm h)).symm

/-- C196, shifting left: exact for amounts below `2^w` and a panic from there on, so that the largest
shift depends on the target. -/
theorem C196_shl_partial (hw : w ∈ [16, 32, 64]) (m : Mode) (a k : WInt w) (hk : Canon k)
    (h0 : 0 ≤ ival k) :
    (ival k < 2 ^ w → ∃ c, shl m a k = .ok c ∧ Canon c ∧ ival c = ival a * 2 ^ (ival k).toNat) ∧
    (2 ^ w ≤ ival k → shl m a k = .panic) := by
  haveI hW : PtrWidth w := ⟨hw⟩
  unfold shl shlRaw
  rw [shiftAmount_spec m hk]
  constructor
  · intro h1
    rw [if_pos ⟨h0, h1⟩]
    simp only [Res.bind]
    obtain ⟨out, g1, g2, g3⟩ := ElementShl.shl_spec hW.pos a.limbs (ival k).toNat
    rw [g1]
    simp only
    obtain ⟨c, c1, c2, _, c4⟩ := finish_spec (.ok (out, a.isNegative)) out a.isNegative rfl g3.1
    refine ⟨c, c1, c2, ?_⟩
    rw [c4, g2]
    unfold ival isNegative
    cases a.neg <;> simp
  · intro h1
    rw [if_neg (by omega)]
    rfl

/-- The program `(3 * 2^40 - 5)^2 & 0xffff…` with text input: the same on all three targets. -/
example : (BigExpr.mul (.sub (.unsigned 64 (by decide) (3 * 2 ^ 40)) (.parse ['5'] 10))
      (.neg (.signed 8 (by decide) (-7)))).run 16 .debug 0
      = .ok ⟨false, .slice [0xFFDD, 0xFFFF, 0x14FF]⟩ ∧
    (BigExpr.mul (.sub (.unsigned 64 (by decide) (3 * 2 ^ 40)) (.parse ['5'] 10))
      (.neg (.signed 8 (by decide) (-7)))).run 32 .debug 0
      = .ok ⟨false, .slice [0xFFFFFFDD, 0x14FF]⟩ ∧
    (BigExpr.mul (.sub (.unsigned 64 (by decide) (3 * 2 ^ 40)) (.parse ['5'] 10))
      (.neg (.signed 8 (by decide) (-7)))).run 64 .debug 0
      = .ok ⟨false, .inline 0x14FFFFFFFFDD⟩ := by decide +kernel

example : div .debug (⟨false, .slice [0, 3]⟩ : WInt 32) ⟨true, .inline 5⟩
    = .ok ⟨true, .slice [0x99999999]⟩ := by decide +kernel
example : cmp (⟨false, .slice [0, 3]⟩ : WInt 32) ⟨false, .inline 5⟩ = .gt := by decide +kernel
example : shl .debug (⟨true, .inline 3⟩ : WInt 16) ⟨false, .inline 40⟩
    = .ok ⟨true, .slice [0, 0, 0x300]⟩ := by decide +kernel

/-- C196 is violated by the order: `2^32 + 5` is below `2^33 + 3` with 64 bits, above it with 32. -/
theorem C196_cmp_violated : ¬ ∀ (x y : BitVec 64) (a b : WInt 32) (c d : WInt 64),
    fromU 32 64 x = .ok a → fromU 32 64 y = .ok b → fromU 64 64 x = .ok c → fromU 64 64 y = .ok d →
    cmp a b = cmp c d := by
  intro h
  have := h (2 ^ 32 + 5) (2 ^ 33 + 3) ⟨false, .slice [5, 1]⟩ ⟨false, .slice [3, 2]⟩
    ⟨false, .inline (2 ^ 32 + 5)⟩ ⟨false, .inline (2 ^ 33 + 3)⟩ (by decide +kernel)
    (by decide +kernel) (by decide +kernel) (by decide +kernel)
  revert this
  decide +kernel

/-- C196 is violated by `!`: `!0` is `2^32 - 1` or `2^64 - 1`. -/
theorem C196_not_violated : ¬ ∀ (x : BitVec 64) (a b : WInt 32) (c d : WInt 64),
    fromU 32 64 x = .ok a → fromU 64 64 x = .ok c → not a = .ok b → not c = .ok d →
    ival b = ival d := by
  intro h
  have := h 0 ⟨false, .inline 0⟩ ⟨false, .slice [0xFFFFFFFF]⟩ ⟨false, .inline 0⟩
    ⟨false, .slice [0xFFFFFFFFFFFFFFFF]⟩ (by decide +kernel) (by decide +kernel) (by decide +kernel)
    (by decide +kernel)
  revert this
  decide +kernel

/-- C196 is violated by division: `5 / 2^32` is 0 with 64 bits and panics with 32. -/
theorem C196_div_violated : ¬ ∀ (m : Mode) (x y : BitVec 64) (a b : WInt 32) (c d q : WInt 64),
    fromU 32 64 x = .ok a → fromU 32 64 y = .ok b → fromU 64 64 x = .ok c → fromU 64 64 y = .ok d →
    div m c d = .ok q → ∃ q', div m a b = .ok q' := by
  intro h
  obtain ⟨q', h1⟩ := h .release 5 (2 ^ 32) ⟨false, .inline 5⟩ ⟨false, .slice [0, 1]⟩
    ⟨false, .inline 5⟩ ⟨false, .inline (2 ^ 32)⟩ ⟨false, .inline 0⟩ (by decide +kernel)
    (by decide +kernel) (by decide +kernel) (by decide +kernel) (by decide +kernel)
  rw [show div .release (⟨false, .inline 5⟩ : WInt 32) ⟨false, .slice [0, 1]⟩ = .panic by
    decide +kernel] at h1
  cases h1

/-- C196 is violated by division also where both succeed: `(3 * 2^32) / (2^33 + 1)` is 1 with 64 bits
and 8589934591 with 32. -/
theorem C196_quotient_violated : ¬ ∀ (m : Mode) (x y : BitVec 64) (a b q : WInt 32)
    (c d q' : WInt 64), fromU 32 64 x = .ok a → fromU 32 64 y = .ok b → fromU 64 64 x = .ok c →
    fromU 64 64 y = .ok d → div m a b = .ok q → div m c d = .ok q' → ival q = ival q' := by
  intro h
  have := h .release (3 * 2 ^ 32) (2 ^ 33 + 1) ⟨false, .slice [0, 3]⟩ ⟨false, .slice [1, 2]⟩
    ⟨false, .slice [0xFFFFFFFF, 1]⟩ ⟨false, .inline (3 * 2 ^ 32)⟩ ⟨false, .inline (2 ^ 33 + 1)⟩
    ⟨false, .inline 1⟩ (by decide +kernel) (by decide +kernel) (by decide +kernel)
    (by decide +kernel) (by decide +kernel) (by decide +kernel)
  revert this
  decide +kernel

/-- C196 is violated by shifting right: in debug builds `2^32 >> 32` is 1 with 64 bits and panics with
32. -/
theorem C196_shr_violated : ¬ ∀ (x y : BitVec 64) (a b : WInt 32) (c d q : WInt 64),
    fromU 32 64 x = .ok a → fromU 32 64 y = .ok b → fromU 64 64 x = .ok c → fromU 64 64 y = .ok d →
    shr .debug c d = .ok q → ∃ q', shr .debug a b = .ok q' := by
  intro h
  obtain ⟨q', h1⟩ := h (2 ^ 32) 32 ⟨false, .slice [0, 1]⟩ ⟨false, .inline 32⟩
    ⟨false, .inline (2 ^ 32)⟩ ⟨false, .inline 32⟩ ⟨false, .inline 1⟩ (by decide +kernel)
    (by decide +kernel) (by decide +kernel) (by decide +kernel) (by decide +kernel)
  rw [show shr .debug (⟨false, .slice [0, 1]⟩ : WInt 32) ⟨false, .inline 32⟩ = .panic by
    decide +kernel] at h1
  cases h1

/-- C196 is violated by conversion to signed types: `2^63` is not an `i64`, which is noticed with 64
bits; with 32 bits it becomes `i64::MIN`. -/
theorem C196_try_into_signed_violated : ¬ ∀ (m : Mode) (x : BitVec 64) (a : WInt 32) (c : WInt 64),
    fromU 32 64 x = .ok a → fromU 64 64 x = .ok c → tryIntoS 64 m a = tryIntoS 64 m c := by
  intro h
  have := h .release (2 ^ 63) ⟨false, .slice [0, 2 ^ 31]⟩ ⟨false, .slice [2 ^ 63]⟩
    (by decide +kernel) (by decide +kernel)
  revert this
  decide +kernel

example : tryIntoS 64 .release (⟨false, .slice [0, 2 ^ 31]⟩ : WInt 32)
      = .ok (.ok (BitVec.intMin 64)) ∧
    tryIntoS 64 .release (⟨false, .slice [2 ^ 63]⟩ : WInt 64) = .ok (.error .above) := by
  decide +kernel

/-- C196 is violated by binary text: the number 5 is printed with 32 or 64 digits. -/
theorem C196_binary_violated : ¬ ∀ (x : BitVec 64) (a : WInt 32) (c : WInt 64),
    fromU 32 64 x = .ok a → fromU 64 64 x = .ok c → binary a = binary c := by
  intro h
  have := h 5 ⟨false, .inline 5⟩ ⟨false, .inline 5⟩ (by decide +kernel) (by decide +kernel)
  revert this
  decide +kernel

/-- C196 is violated by `approx_float`: the approximation of `2^32` is `2^32` with 64 bits, but
`2^32 - 1` with 32. -/
theorem C196_approx_violated : ¬ ∀ (x : BitVec 64) (a : WInt 32) (c : WInt 64),
    fromU 32 64 x = .ok a → fromU 64 64 x = .ok c → approxFloat a = approxFloat c := by
  intro h
  have := h (2 ^ 32) ⟨false, .slice [0, 1]⟩ ⟨false, .inline (2 ^ 32)⟩ (by decide +kernel)
    (by decide +kernel)
  revert this
  decide +kernel

end WInt

end Verif
