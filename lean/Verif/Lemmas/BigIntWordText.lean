import Verif.Spec.BigExpr
import Verif.Lemmas.BigIntWordShift
import Verif.Lemmas.BigIntText

/-!
# Helper lemmas: printing and parsing `BigInt` on targets of any pointer width
-/

namespace Verif

namespace WInt

theorem PtrWidth.prim {w : Nat} [hw : PtrWidth w] : w ∈ BInt.primWidths := by
  rcases hw.cases with h | h | h <;> subst h <;> decide

variable {w : Nat} [hw : PtrWidth w]

/-- Comparison with a small number that is not negative. -/
theorem cmpS_small {t : Nat} (ht : t ∈ BInt.primWidths) {b : WInt w} (hb : Rep b) (v : BitVec t)
    (h0 : 0 ≤ v.toInt) (hv : v.toInt < 2 ^ 16) :
    cmpS t b v = .ok (if b.neg then .lt else compare (ival b) v.toInt) := by
  obtain ⟨x, h1, h2, h3, h4⟩ := fromS_spec (w := w) ht v
  have hxn : x.neg = false := (h2.val_of_nonneg (by omega)).1
  unfold cmpS
  rw [h1]
  simp only [Res.bind]
  cases hn : b.neg
  · have hc : Canon b := ⟨hb, fun h => by rw [hn] at h; cases h⟩
    have h16 : (2 : Nat) ^ 16 ≤ 2 ^ w := Nat.pow_le_pow_right (by norm_num) hw.ge
    rw [cmp_small hc h2 (by omega), h4]
    rfl
  · unfold cmp isNegative isPositive
    rw [if_neg (fun h => by rw [h, hxn] at hn; cases hn), if_pos ⟨hn, by rw [hxn]; rfl⟩]
    rfl

theorem cmpS_zero {b : WInt w} (hb : Canon b) :
    cmpS 32 b 0 = .ok (compare (ival b) (0 : BitVec 32).toInt) := by
  rw [cmpS_small (by decide) hb.1 0 (by decide) (by decide)]
  cases hn : b.neg
  · rfl
  · have := hb.neg_iff.mp hn
    simp only [if_true]
    rw [show (0 : BitVec 32).toInt = 0 by decide, (BInt.compare_lt_iff _ _).mpr this]

theorem digitLoop_spec (m : Mode) (base : BitVec w) (h2 : 2 ≤ base.toNat)
    (h256 : base.toNat ≤ 256) (fuel : Nat) (b : WInt w) (hb : Canon b) (h0 : 0 ≤ ival b)
    (hlen : w * b.limbs.length < 2 ^ w)
    (hf : val b.limbs < base.toNat ^ fuel) (ds : List (BitVec 8)) :
    digitLoop m base (fuel + 1) b ds
      = .ok (ds ++ (Nat.digits base.toNat (val b.limbs)).map (BitVec.ofNat 8)) := by
  induction fuel generalizing b ds with
  | zero =>
    unfold digitLoop
    rw [cmpS_zero hb]
    simp only [Res.bind, BInt.compare_gt_iff]
    obtain ⟨n1, n2⟩ := hb.val_of_nonneg h0
    have hz : val b.limbs = 0 := by simpa using hf
    rw [show (0 : BitVec 32).toInt = 0 by decide, if_neg (by omega), hz]
    simp
  | succ fuel ih =>
    unfold digitLoop
    rw [cmpS_zero hb]
    simp only [Res.bind, BInt.compare_gt_iff]
    rw [show (0 : BitVec 32).toInt = 0 by decide]
    obtain ⟨n1, n2⟩ := hb.val_of_nonneg h0
    by_cases hgt : 0 < ival b
    · rw [if_pos hgt]
      obtain ⟨x, x1, x2, x3, x4⟩ := fromU_spec (w := w) PtrWidth.prim base
      have hD : DivOk b x := by
        have h16 : (2 : Nat) ^ 16 ≤ 2 ^ w := Nat.pow_le_pow_right (by norm_num) hw.ge
        refine ⟨by omega, by omega, Or.inr (by omega), hlen⟩
      have hxn : x.neg = false := (x2.val_of_nonneg (by omega)).1
      obtain ⟨r, r1, r2, r3⟩ := rem_spec m hb.1 x2.1 hD
      obtain ⟨q, q1, q2, q3⟩ := div_spec m hb.1 x2.1 hD
      rw [hxn] at r3
      simp only [Bool.false_eq_true, if_false] at r3
      rw [n2, x4, ← Int.ofNat_tmod] at r3
      rw [n2, x4, ← Int.ofNat_tdiv] at q3
      have hrlt : val b.limbs % base.toNat < base.toNat := Nat.mod_lt _ (by omega)
      have hqv : val q.limbs = val b.limbs / base.toNat := by
        rw [← natAbs_ival q, q3]; rfl
      rw [x1]
      simp only
      rw [r1]
      simp only
      rw [tryIntoU_spec (by decide) m r2, r3, if_neg (by omega), if_pos (by
        have : (2 : Int) ^ 8 = 256 := by norm_num
        omega)]
      simp only
      rw [q1]
      simp only
      have hqlen : q.limbs.length ≤ b.limbs.length := by
        by_contra hc
        have h1 := length_lt_of_val' hb.norm q2.norm (by omega)
        rw [hqv] at h1
        have := Nat.div_le_self (val b.limbs) base.toNat
        omega
      rw [ih q q2 (by omega) (lt_of_le_of_lt (Nat.mul_le_mul_left w hqlen) hlen) (by
        rw [hqv]
        rw [pow_succ] at hf
        exact Nat.div_lt_of_lt_mul (by rwa [Nat.mul_comm])), hqv]
      conv_rhs => rw [Nat.digits_def' (by omega : 1 < base.toNat) (by omega : 0 < val b.limbs)]
      rw [Int.toNat_natCast]
      simp
    · rw [if_neg hgt, show val b.limbs = 0 by omega]
      simp

theorem writeBase_spec (m : Mode) (base : BitVec w) (h2 : 2 ≤ base.toNat)
    (h256 : base.toNat ≤ 256) (chars : List Char) (g : Char → Char)
    (hg : ∀ d < base.toNat, chars[d]? = some (g d.digitChar))
    (fuel : Nat) (b : WInt w) (hb : Canon b) (h0 : 0 ≤ ival b)
    (hlen : w * b.limbs.length < 2 ^ w) (hf : w * b.limbs.length < fuel) :
    writeBase m fuel base chars b
      = .ok ((Nat.toDigits base.toNat (ival b).toNat).map g) := by
  obtain ⟨n1, n2⟩ := hb.val_of_nonneg h0
  have hval : (ival b).toNat = val b.limbs := by omega
  rw [hval]
  unfold writeBase
  obtain ⟨k, rfl⟩ : ∃ k, fuel = k + 1 := ⟨fuel - 1, by omega⟩
  rw [digitLoop_spec m base h2 h256 k b hb h0 hlen]
  · simp only [Res.bind, List.nil_append]
    by_cases hz : val b.limbs = 0
    · rw [hz]
      simp only [Nat.digits_zero, List.map_nil, List.isEmpty_nil, if_true]
      rw [BInt.writeDigits_spec chars (fun d => g d.digitChar)]
      · simp [Nat.toDigits_eq_if (by omega : 1 < base.toNat), show 0 < base.toNat by omega]
      · intro d hd
        simp only [List.reverse_cons, List.reverse_nil, List.nil_append, List.mem_singleton] at hd
        subst hd
        exact hg 0 (by omega)
    · have hne : ((Nat.digits base.toNat (val b.limbs)).map (BitVec.ofNat 8)).isEmpty = false := by
        have := (Nat.digits_ne_nil_iff_ne_zero (b := base.toNat)).mpr hz
        simp [this]
      rw [hne]
      simp only [Bool.false_eq_true, if_false]
      rw [BInt.writeDigits_spec chars (fun d => g d.digitChar)]
      · rw [← digits_toDigits base.toNat (by omega) _ (by omega)]
        have h := digits_map_toNat base.toNat (val b.limbs) (by omega) h256
        conv_rhs => rw [← h]
        simp only [List.map_reverse, List.map_map]
        rfl
      · intro d hd
        rw [List.mem_reverse, List.mem_map] at hd
        obtain ⟨a, ha, rfl⟩ := hd
        have := Nat.digits_lt_base (by omega : 1 < base.toNat) ha
        rw [BitVec.toNat_ofNat, Nat.mod_eq_of_lt (by omega)]
        exact hg a this
  · have h3 := val_lt b.limbs
    unfold modulus at h3
    refine lt_of_lt_of_le h3 (le_trans (Nat.pow_le_pow_left h2 _) ?_)
    exact Nat.pow_le_pow_right (by omega) (by omega)

/-! ## Parsing -/

theorem parseLoop_ok (radix : BitVec 32) (hr : radix.toNat ≤ 36) (cs : List Char)
    (hcs : ∀ c ∈ cs, IsDigit radix.toNat c) (out : WInt w) (hout : Canon out) (h0 : 0 ≤ ival out) :
    ∃ b, parseLoop radix cs out = .ok (.ok b) ∧ Canon b ∧
      ival b = (cs.foldl (fun n c => n * radix.toNat + (digitValue c).getD 0) (ival out).toNat : Nat) := by
  induction cs generalizing out with
  | nil => exact ⟨out, rfl, hout, by simp only [List.foldl_nil]; omega⟩
  | cons c cs ih =>
    obtain ⟨g1, g2⟩ := (BInt.valFromChar_spec c radix.toNat hr).1 (hcs c (by simp))
    unfold parseLoop
    rw [g1]
    simp only
    obtain ⟨r, r1, r2, _, r4⟩ := fromU_spec (w := w) (t := 32) (by decide) radix
    obtain ⟨x, x1, x2, x3⟩ := mul_spec (b := r) hout.1
    obtain ⟨d, d1, d2, d3, d4⟩ := fromU_spec (w := w) (t := 32) (by decide)
      (BitVec.ofNat 32 ((digitValue c).getD 0))
    obtain ⟨y, y1, y2, y3⟩ := add_full (b := d) x2.1
    rw [BitVec.toNat_ofNat, Nat.mod_eq_of_lt (by omega)] at d4
    rw [r1]; simp only [Res.bind]
    rw [x1]; simp only
    rw [d1]; simp only
    rw [y1]; simp only
    rw [r4] at x3
    have hx0 : 0 ≤ ival x := by rw [x3]; positivity
    have hxn := (x2.val_of_nonneg hx0).1
    have hdn := (d2.val_of_nonneg (by omega)).1
    rw [if_neg (by rw [hxn, hdn]; simp), d4] at y3
    obtain ⟨b, b1, b2, b3⟩ := ih (fun c hc => hcs c (by simp [hc])) y y2 (by omega)
    refine ⟨b, b1, b2, ?_⟩
    rw [b3, List.foldl_cons]
    congr 2
    rw [y3, x3]
    have : ival out = ((ival out).toNat : Int) := by omega
    generalize (ival out).toNat = n at this
    rw [this]
    omega

theorem parseLoop_bad (radix : BitVec 32) (hr : radix.toNat ≤ 36) (pre : List Char) (c : Char)
    (post : List Char) (hpre : ∀ c ∈ pre, IsDigit radix.toNat c) (hc : ¬ IsDigit radix.toNat c)
    (out : WInt w) (hout : Canon out) (h0 : 0 ≤ ival out) :
    parseLoop radix (pre ++ c :: post) out = .ok (.error (.invalidChar c)) := by
  induction pre generalizing out with
  | nil =>
    rw [List.nil_append]
    unfold parseLoop
    rw [(BInt.valFromChar_spec c radix.toNat hr).2 hc]
  | cons a pre ih =>
    obtain ⟨g1, g2⟩ := (BInt.valFromChar_spec a radix.toNat hr).1 (hpre a (by simp))
    rw [List.cons_append]
    unfold parseLoop
    rw [g1]
    simp only
    obtain ⟨r, r1, r2, _, r4⟩ := fromU_spec (w := w) (t := 32) (by decide) radix
    obtain ⟨x, x1, x2, x3⟩ := mul_spec (b := r) hout.1
    obtain ⟨d, d1, d2, d3, d4⟩ := fromU_spec (w := w) (t := 32) (by decide)
      (BitVec.ofNat 32 ((digitValue a).getD 0))
    obtain ⟨y, y1, y2, y3⟩ := add_full (b := d) x2.1
    rw [BitVec.toNat_ofNat, Nat.mod_eq_of_lt (by omega)] at d4
    rw [r1]; simp only [Res.bind]
    rw [x1]; simp only
    rw [d1]; simp only
    rw [y1]; simp only
    rw [r4] at x3
    have hx0 : 0 ≤ ival x := by rw [x3]; positivity
    have hxn := (x2.val_of_nonneg hx0).1
    have hdn := (d2.val_of_nonneg (by omega)).1
    rw [if_neg (by rw [hxn, hdn]; simp), d4] at y3
    exact ih (fun c hc => hpre c (by simp [hc])) y y2 (by omega)


/-! ## The same program at two widths -/

/-- The same sign bit and the same magnitude, both well stored. -/
def Same {w w' : Nat} (a : WInt w) (b : WInt w') : Prop :=
  Rep a ∧ Rep b ∧ a.neg = b.neg ∧ val a.limbs = val b.limbs

/-- The same outcome. -/
def Agree {w w' : Nat} : Res (WInt w) → Res (WInt w') → Prop
  | .ok a, .ok b => Same a b
  | .panic, .panic => True
  | .hang, .hang => True
  | _, _ => False

variable {w' : Nat} [hw' : PtrWidth w']

omit hw hw' in
theorem Same.ival {a : WInt w} {b : WInt w'} (h : Same a b) : ival a = ival b := by
  unfold WInt.ival; rw [h.2.2.1, h.2.2.2]

omit hw hw' in
theorem Same.symm {a : WInt w} {b : WInt w'} (h : Same a b) : Same b a :=
  ⟨h.2.1, h.1, h.2.2.1.symm, h.2.2.2.symm⟩

theorem same_of_canon {a : WInt w} {b : WInt w'} (ha : Canon a) (hb : Canon b)
    (h : WInt.ival a = WInt.ival b) : Same a b := by
  refine ⟨ha.1, hb.1, ?_, ?_⟩
  · have h1 := ha.neg_iff
    have h2 := hb.neg_iff
    rw [h] at h1
    exact Bool.eq_iff_iff.mpr (h1.trans h2.symm)
  · rw [← natAbs_ival a, ← natAbs_ival b, h]

omit hw hw' in
theorem Agree.bind {x : Res (WInt w)} {y : Res (WInt w')} {f : WInt w → Res (WInt w)}
    {g : WInt w' → Res (WInt w')} (h : Agree x y)
    (hf : ∀ a b, Same a b → Agree (f a) (g b)) : Agree (x.bind f) (y.bind g) := by
  cases x <;> cases y <;> first | exact hf _ _ h | exact False.elim h | exact h

theorem newSlice_agree {s : List (BitVec w)} {s' : List (BitVec w')} (hs : s ≠ []) (hs' : s' ≠ [])
    (h : val s = val s') (neg : Bool) : Agree (newSlice s neg) (newSlice s' neg) := by
  obtain ⟨b, h1, h2, h3, h4⟩ := newSlice_spec s hs neg
  obtain ⟨c, g1, g2, g3, g4⟩ := newSlice_spec s' hs' neg
  rw [h1, g1]
  exact same_of_canon h2 g2 (by rw [h4, g4, h])

theorem fromU_agree {t : Nat} (ht : t ∈ BInt.primWidths) (v : BitVec t) :
    Agree (fromU w t v) (fromU w' t v) := by
  obtain ⟨b, h1, h2, _, h4⟩ := fromU_spec (w := w) ht v
  obtain ⟨c, g1, g2, _, g4⟩ := fromU_spec (w := w') ht v
  rw [h1, g1]
  exact same_of_canon h2 g2 (by rw [h4, g4])

theorem fromS_agree {t : Nat} (ht : t ∈ BInt.primWidths) (v : BitVec t) :
    Agree (fromS w t v) (fromS w' t v) := by
  obtain ⟨b, h1, h2, _, h4⟩ := fromS_spec (w := w) ht v
  obtain ⟨c, g1, g2, _, g4⟩ := fromS_spec (w := w') ht v
  rw [h1, g1]
  exact same_of_canon h2 g2 (by rw [h4, g4])

variable {a b : WInt w} {a' b' : WInt w'}

theorem add_agree (ha : Same a a') (hb : Same b b') : Agree (add a b) (add a' b') := by
  obtain ⟨c, h1, h2, h3⟩ := add_full (b := b) ha.1
  obtain ⟨c', g1, g2, g3⟩ := add_full (b := b') ha.2.1
  rw [h1, g1]
  refine same_of_canon h2 g2 ?_
  rw [h3, g3, ha.ival, hb.ival, ha.2.2.1, ha.2.2.2, hb.2.2.1, hb.2.2.2]

theorem sub_agree (ha : Same a a') (hb : Same b b') : Agree (sub a b) (sub a' b') := by
  obtain ⟨c, h1, h2, h3⟩ := sub_full (b := b) ha.1
  obtain ⟨c', g1, g2, g3⟩ := sub_full (b := b') ha.2.1
  rw [h1, g1]
  refine same_of_canon h2 g2 ?_
  rw [h3, g3, ha.ival, hb.ival, ha.2.2.1, ha.2.2.2, hb.2.2.1, hb.2.2.2]

theorem mul_agree (ha : Same a a') (hb : Same b b') : Agree (mul a b) (mul a' b') := by
  obtain ⟨c, h1, h2, h3⟩ := mul_spec (b := b) ha.1
  obtain ⟨c', g1, g2, g3⟩ := mul_spec (b := b') ha.2.1
  rw [h1, g1]
  exact same_of_canon h2 g2 (by rw [h3, g3, ha.ival, hb.ival])

omit hw hw' in
theorem neg_agree (ha : Same a a') : Same (neg' a) (neg' a') :=
  ⟨ha.1, ha.2.1, congrArg Bool.not ha.2.2.1, ha.2.2.2⟩

omit hw hw' in
theorem abs_agree (ha : Same a a') : Same (WInt.abs a) (WInt.abs a') := by
  unfold WInt.abs isNegative
  rw [ha.2.2.1]
  split
  · exact neg_agree ha
  · exact ha

/-- The three limb-wise operators. -/
theorem bits_agree (f : Nat → Nat → Nat)
    {op : List (BitVec w) → List (BitVec w) → Res (List (BitVec w))}
    {op' : List (BitVec w') → List (BitVec w') → Res (List (BitVec w'))}
    (h : ∀ l r, ∃ out, op l r = .ok out ∧ out.length = max l.length r.length ∧
      val out = f (val l) (val r))
    (h' : ∀ l r, ∃ out, op' l r = .ok out ∧ out.length = max l.length r.length ∧
      val out = f (val l) (val r)) (ha : Same a a') (hb : Same b b') :
    Agree (finish ((op a.limbs b.limbs).bind fun out => .ok (out, a.isNegative)))
      (finish ((op' a'.limbs b'.limbs).bind fun out => .ok (out, a'.isNegative))) := by
  obtain ⟨o, h1, h2, h3⟩ := h a.limbs b.limbs
  obtain ⟨o', g1, g2, g3⟩ := h' a'.limbs b'.limbs
  rw [h1, g1]
  have p1 := List.length_pos_iff.mpr ha.1.norm.1
  have p2 := List.length_pos_iff.mpr ha.2.1.norm.1
  have hneg : a.isNegative = a'.isNegative := ha.2.2.1
  change Agree (newSlice o a.isNegative) (newSlice o' a'.isNegative)
  rw [hneg]
  exact newSlice_agree (List.length_pos_iff.mp (by omega)) (List.length_pos_iff.mp (by omega))
    (by rw [h3, g3, ha.2.2.2, hb.2.2.2]) _

/-! ## Shifts by small literals -/

theorem shl_agree (m : Mode) (ha : Same a a') (k : BitVec 16) :
    Agree ((fromU w 16 k).bind fun y => shl m a y) ((fromU w' 16 k).bind fun y => shl m a' y) := by
  obtain ⟨x, h1, h2, _, h4⟩ := fromU_spec (w := w) (t := 16) (by decide) k
  obtain ⟨x', g1, g2, _, g4⟩ := fromU_spec (w := w') (t := 16) (by decide) k
  have hk := k.isLt
  have h16 : (2 : Int) ^ 16 ≤ 2 ^ w := by
    exact_mod_cast Nat.pow_le_pow_right (n := 2) (by norm_num) hw.ge
  have h16' : (2 : Int) ^ 16 ≤ 2 ^ w' := by
    exact_mod_cast Nat.pow_le_pow_right (n := 2) (by norm_num) hw'.ge
  rw [h1, g1]
  simp only [Res.bind]
  obtain ⟨c, c1, c2, c3⟩ := shl_ok (m := m) (a := a) h2 (by omega) (by omega)
  obtain ⟨c', d1, d2, d3⟩ := shl_ok (m := m) (a := a') g2 (by omega) (by omega)
  rw [c1, d1]
  exact same_of_canon c2 d2 (by rw [c3, d3, ha.ival, h4, g4])

theorem shr_agree (m : Mode) (ha : Same a a') (k : BitVec 16) (hk : k.toNat < 16) :
    Agree ((fromU w 16 k).bind fun y => shr m a y) ((fromU w' 16 k).bind fun y => shr m a' y) := by
  obtain ⟨x, h1, h2, _, h4⟩ := fromU_spec (w := w) (t := 16) (by decide) k
  obtain ⟨x', g1, g2, _, g4⟩ := fromU_spec (w := w') (t := 16) (by decide) k
  have e1 := hw.ge
  have e2 := hw'.ge
  rw [h1, g1]
  simp only [Res.bind]
  obtain ⟨c, c1, c2, c3⟩ := shr_ok (m := m) ha.1 h2 (by omega) (Or.inl (by omega))
  obtain ⟨c', d1, d2, d3⟩ := shr_ok (m := m) ha.2.1 g2 (by omega) (Or.inl (by omega))
  rw [c1, d1]
  exact same_of_canon c2 d2 (by rw [c3, d3, h4, g4, ha.2.2.1, ha.2.2.2])

/-! ## Powers -/

theorem powLoop_agree (ha : Same a a') (fuel : Nat) (e out : WInt w) (e' out' : WInt w')
    (he : Same e e') (hout : Same out out') :
    Agree (powLoop a fuel e out) (powLoop a' fuel e' out') := by
  induction fuel generalizing e out e' out' with
  | zero => trivial
  | succ fuel ih =>
    unfold powLoop
    rw [cmpS_small (by decide) he.1 1 (by decide) (by decide),
      cmpS_small (by decide) he.2.1 1 (by decide) (by decide), he.2.2.1, he.ival]
    simp only [Res.bind]
    generalize (if e'.neg then Ordering.lt else compare (WInt.ival e') (1 : BitVec 32).toInt) = c
    by_cases hc : c = .gt
    · rw [if_pos hc, if_pos hc]
      refine (mul_agree hout ha).bind fun o o' ho => (fromS_agree (by decide) 1).bind
        fun x x' hx => (sub_agree he hx).bind fun r r' hr => ih r o r' o' hr ho
    · rw [if_neg hc, if_neg hc]
      exact hout

theorem pow_agree (m : Mode) (fuel : Nat) (ha : Same a a') (hb : Same b b') :
    Agree (pow m fuel a b) (pow m fuel a' b') := by
  unfold pow
  rw [eqS_spec (by decide) m hb.1 0 (Or.inl (by decide)),
    eqS_spec (by decide) m hb.2.1 0 (Or.inl (by decide)), hb.2.2.1, hb.2.2.2]
  simp only [Res.bind]
  split
  · exact fromS_agree (by decide) 1
  · exact powLoop_agree ha fuel b a b' a' hb ha

/-! ## Parsing -/

/-- The same outcome of parsing. -/
def AgreeP {w w' : Nat} : Res (Except BInt.ParseError (WInt w)) →
    Res (Except BInt.ParseError (WInt w')) → Prop
  | .ok (.ok a), .ok (.ok b) => Same a b
  | .ok (.error e), .ok (.error e') => e = e'
  | .panic, .panic => True
  | .hang, .hang => True
  | _, _ => False

omit hw hw' in
theorem Agree.bindP {x : Res (WInt w)} {y : Res (WInt w')}
    {f : WInt w → Res (Except BInt.ParseError (WInt w))}
    {g : WInt w' → Res (Except BInt.ParseError (WInt w'))} (h : Agree x y)
    (hf : ∀ a b, Same a b → AgreeP (f a) (g b)) : AgreeP (x.bind f) (y.bind g) := by
  cases x <;> cases y <;> first | exact hf _ _ h | exact False.elim h | exact h

theorem parse_agree (radix : BitVec 32) (s : List Char) (out : WInt w) (out' : WInt w')
    (h : Same out out') : AgreeP (parseLoop radix s out) (parseLoop radix s out') := by
  induction s generalizing out out' with
  | nil => exact h
  | cons c cs ih =>
    unfold parseLoop
    split
    · rfl
    · exact (fromU_agree (by decide) radix).bindP fun r r' hr => (mul_agree h hr).bindP
        fun x x' hx => (fromU_agree (by decide) _).bindP fun d d' hd => (add_agree hx hd).bindP
        fun o o' ho => ih o o' ho

theorem zero_same : Same (zero : WInt w) (zero : WInt w') := by
  refine ⟨?_, ?_, rfl, ?_⟩
  · show (0 : BitVec w).toNat < _
    simp
  · show (0 : BitVec w').toNat < _
    simp
  · show val [(0 : BitVec w)] = val [(0 : BitVec w')]
    simp [val]

/-- The same program has the same outcome at both widths. -/
theorem run_agree (m : Mode) (fuel : Nat) (e : BigExpr) :
    Agree (e.run w m fuel) (e.run w' m fuel) := by
  induction e with
  | unsigned t ht v => exact fromU_agree ht v
  | signed t ht v => exact fromS_agree ht v
  | parse s radix =>
    have h := parse_agree (w := w) (w' := w') radix s zero zero zero_same
    unfold BigExpr.run fromStrRadix
    generalize parseLoop radix s (zero : WInt w) = x at *
    generalize parseLoop radix s (zero : WInt w') = y at *
    cases x with
    | ok x => cases x <;> cases y with
      | ok y => cases y <;> first | exact h | exact False.elim h | trivial
      | panic => exact False.elim h
      | hang => exact False.elim h
    | panic => cases y with
      | ok y => cases y <;> exact False.elim h
      | _ => first | exact h | exact False.elim h
    | hang => cases y with
      | ok y => cases y <;> exact False.elim h
      | _ => first | exact h | exact False.elim h
  | add a b iha ihb => exact iha.bind fun _ _ hx => ihb.bind fun _ _ hy => add_agree hx hy
  | sub a b iha ihb => exact iha.bind fun _ _ hx => ihb.bind fun _ _ hy => sub_agree hx hy
  | mul a b iha ihb => exact iha.bind fun _ _ hx => ihb.bind fun _ _ hy => mul_agree hx hy
  | neg a iha => exact iha.bind fun _ _ hx => neg_agree hx
  | abs a iha => exact iha.bind fun _ _ hx => abs_agree hx
  | pow a b iha ihb => exact iha.bind fun _ _ hx => ihb.bind fun _ _ hy => pow_agree m fuel hx hy
  | and a b iha ihb =>
    exact iha.bind fun _ _ hx => ihb.bind fun _ _ hy =>
      bits_agree (· &&& ·) (bitand_spec hw.pos) (bitand_spec hw'.pos) hx hy
  | or a b iha ihb =>
    exact iha.bind fun _ _ hx => ihb.bind fun _ _ hy =>
      bits_agree (· ||| ·) (bitor_spec hw.pos) (bitor_spec hw'.pos) hx hy
  | xor a b iha ihb =>
    exact iha.bind fun _ _ hx => ihb.bind fun _ _ hy =>
      bits_agree (· ^^^ ·) (bitxor_spec hw.pos) (bitxor_spec hw'.pos) hx hy
  | shl a k iha => exact iha.bind fun _ _ hx => shl_agree m hx k
  | shr a k hk iha => exact iha.bind fun _ _ hx => shr_agree m hx k hk

end WInt

end Verif
