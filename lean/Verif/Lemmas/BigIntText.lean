import Mathlib.Data.Nat.Digits.Defs
import Verif.Spec.Text
import Verif.Lemmas.BigIntOps
import Verif.Lemmas.Digits

/-!
# Helper lemmas: `BigInt` powers, printing and parsing
-/

namespace Verif

namespace BInt

theorem cmpS_spec {t : Nat} (ht : 0 < t) (ht64 : t ≤ 64) {b : BInt} (hb : Canon b) (v : BitVec t) :
    cmpS t b v = .ok (compare (ival b) v.toInt) := by
  obtain ⟨x, h1, h2, h3, h4⟩ := fromS_spec ht v
  unfold cmpS
  rw [h1]
  simp only [Res.bind]
  rw [cmp_small hb h2, h4]
  rw [h3]
  have h5 := BitVec.toInt_lt (x := v)
  have h6 := BitVec.le_toInt v
  have h7 : (2 : Int) ^ (t - 1) ≤ 2 ^ 63 := by
    have : 2 ^ (t - 1) ≤ 2 ^ 63 := Nat.pow_le_pow_right (by norm_num) (by omega)
    exact_mod_cast this
  omega

/-! ## pow -/

theorem powLoop_spec (a : BInt) (fuel : Nat) (e out : BInt) (he : Canon e) (hout : Rep out)
    (h0 : 1 ≤ ival e) (hf : (ival e).toNat ≤ fuel) :
    ∃ c, powLoop a fuel e out = .ok c ∧ ival c = ival out * ival a ^ ((ival e).toNat - 1) ∧
      (Canon out → Canon c) ∧ (2 ≤ ival e → Canon c) := by
  induction fuel generalizing e out with
  | zero => omega
  | succ fuel ih =>
    unfold powLoop
    rw [cmpS_spec (by norm_num) (by norm_num) he]
    simp only [Res.bind, compare_gt_iff]
    have h1 : (1 : BitVec 32).toInt = 1 := by decide
    rw [h1]
    by_cases hgt : 1 < ival e
    · rw [if_pos hgt]
      obtain ⟨o2, m1, m2, m3⟩ := mul_spec (b := a) hout
      obtain ⟨x, x1, x2, x3, x4⟩ := fromS_spec (by norm_num : 0 < 32) (1 : BitVec 32)
      rw [h1] at x3 x4
      obtain ⟨e2, s1, s2, s3⟩ := sub_full (b := x) he.1
      rw [m1]
      simp only
      rw [x1]
      simp only
      rw [s1]
      simp only
      obtain ⟨n1, n2⟩ := he.val_of_nonneg (by omega)
      rw [if_neg (by rw [x3]; simp only [Int.natAbs_one]; omega), x4] at s3
      obtain ⟨c, c1, c2, c3, c4⟩ := ih e2 o2 s2 m2.1 (by omega) (by omega)
      refine ⟨c, c1, ?_, fun _ => c3 m2, fun _ => c3 m2⟩
      rw [c2, m3, s3]
      have : (ival e).toNat - 1 = ((ival e - 1 + 0).toNat - 1) + 1 := by omega
      rw [this, pow_succ]
      ring
    · rw [if_neg hgt]
      have : ival e = 1 := by omega
      refine ⟨out, rfl, ?_, id, fun h => by omega⟩
      rw [this]
      simp

/-! ## Digits -/

theorem digitLoop_spec (m : Mode) (base : BitVec 64) (h2 : 2 ≤ base.toNat)
    (h256 : base.toNat ≤ 256) (fuel : Nat) (b : BInt) (hb : Canon b) (h0 : 0 ≤ ival b)
    (hlen : 64 * b.limbs.length < 2 ^ 64)
    (hf : val b.limbs < base.toNat ^ fuel) (ds : List (BitVec 8)) :
    digitLoop m base (fuel + 1) b ds
      = .ok (ds ++ (Nat.digits base.toNat (val b.limbs)).map (BitVec.ofNat 8)) := by
  induction fuel generalizing b ds with
  | zero =>
    unfold digitLoop
    rw [cmpS_spec (by norm_num) (by norm_num) hb]
    simp only [Res.bind, compare_gt_iff]
    obtain ⟨n1, n2⟩ := hb.val_of_nonneg h0
    have hz : val b.limbs = 0 := by simpa using hf
    rw [show (0 : BitVec 32).toInt = 0 by decide, if_neg (by omega), hz]
    simp
  | succ fuel ih =>
    unfold digitLoop
    rw [cmpS_spec (by norm_num) (by norm_num) hb]
    simp only [Res.bind, compare_gt_iff]
    rw [show (0 : BitVec 32).toInt = 0 by decide]
    obtain ⟨n1, n2⟩ := hb.val_of_nonneg h0
    by_cases hgt : 0 < ival b
    · rw [if_pos hgt]
      obtain ⟨x, x1, x2, x3, x4⟩ := fromU_spec (by norm_num : 0 < 64) base
      have hD : DivOk b x := by
        refine ⟨by omega, by omega, Or.inr (by omega), hlen⟩
      have hxn : x.neg = false := (x2.val_of_nonneg (by omega)).1
      obtain ⟨r, r1, r2, r3⟩ := rem_spec m hb.1 x2.1 hD
      obtain ⟨q, q1, q2, q3⟩ := div_spec m hb.1 x2.1 hD
      rw [hxn] at r3
      simp only [Bool.false_eq_true, if_false] at r3
      rw [n2, x4, ← Int.ofNat_tmod] at r3
      rw [n2, x4, ← Int.ofNat_tdiv] at q3
      have hrlt : val b.limbs % base.toNat < base.toNat := Nat.mod_lt _ (by omega)
      have hqv : val q.limbs = val b.limbs / base.toNat := by
        rw [← natAbs_ival q, q3]; rfl
      rw [x1]
      simp only
      rw [r1]
      simp only
      rw [tryIntoU_spec (by decide) m r2, r3, if_neg (by omega), if_pos (by
        have : (2 : Int) ^ 8 = 256 := by norm_num
        omega)]
      simp only
      rw [q1]
      simp only
      have hqlen : q.limbs.length ≤ b.limbs.length := by
        by_contra hc
        have h1 := length_lt_of_val' hb.norm q2.norm (by omega)
        rw [hqv] at h1
        have := Nat.div_le_self (val b.limbs) base.toNat
        omega
      rw [ih q q2 (by omega) (by omega) (by
        rw [hqv]
        rw [pow_succ] at hf
        exact Nat.div_lt_of_lt_mul (by rwa [Nat.mul_comm])), hqv]
      conv_rhs => rw [Nat.digits_def' (by omega : 1 < base.toNat) (by omega : 0 < val b.limbs)]
      rw [Int.toNat_natCast]
      simp
    · rw [if_neg hgt, show val b.limbs = 0 by omega]
      simp

theorem writeDigits_spec (chars : List Char) (g : Nat → Char) (ds : List (BitVec 8))
    (h : ∀ d ∈ ds, chars[d.toNat]? = some (g d.toNat)) :
    writeDigits chars ds = .ok (ds.map fun d => g d.toNat) := by
  induction ds with
  | nil => rfl
  | cons d ds ih =>
    unfold writeDigits
    rw [h d (by simp), ih (fun d hd => h d (by simp [hd]))]
    rfl

theorem writeBase_spec (m : Mode) (base : BitVec 64) (h2 : 2 ≤ base.toNat)
    (h256 : base.toNat ≤ 256) (chars : List Char) (g : Char → Char)
    (hg : ∀ d < base.toNat, chars[d]? = some (g d.digitChar))
    (fuel : Nat) (b : BInt) (hb : Canon b) (h0 : 0 ≤ ival b)
    (hlen : 64 * b.limbs.length < 2 ^ 64) (hf : 64 * b.limbs.length < fuel) :
    writeBase m fuel base chars b
      = .ok ((Nat.toDigits base.toNat (ival b).toNat).map g) := by
  obtain ⟨n1, n2⟩ := hb.val_of_nonneg h0
  have hval : (ival b).toNat = val b.limbs := by omega
  rw [hval]
  unfold writeBase
  obtain ⟨k, rfl⟩ : ∃ k, fuel = k + 1 := ⟨fuel - 1, by omega⟩
  rw [digitLoop_spec m base h2 h256 k b hb h0 hlen]
  · simp only [Res.bind, List.nil_append]
    by_cases hz : val b.limbs = 0
    · rw [hz]
      simp only [Nat.digits_zero, List.map_nil, List.isEmpty_nil, if_true]
      rw [writeDigits_spec chars (fun d => g d.digitChar)]
      · simp [Nat.toDigits_eq_if (by omega : 1 < base.toNat), show 0 < base.toNat by omega]
      · intro d hd
        simp only [List.reverse_cons, List.reverse_nil, List.nil_append, List.mem_singleton] at hd
        subst hd
        exact hg 0 (by omega)
    · have hne : ((Nat.digits base.toNat (val b.limbs)).map (BitVec.ofNat 8)).isEmpty = false := by
        have := (Nat.digits_ne_nil_iff_ne_zero (b := base.toNat)).mpr hz
        simp [this]
      rw [hne]
      simp only [Bool.false_eq_true, if_false]
      rw [writeDigits_spec chars (fun d => g d.digitChar)]
      · rw [← digits_toDigits base.toNat (by omega) _ (by omega)]
        have h := digits_map_toNat base.toNat (val b.limbs) (by omega) h256
        conv_rhs => rw [← h]
        simp only [List.map_reverse, List.map_map]
        rfl
      · intro d hd
        rw [List.mem_reverse, List.mem_map] at hd
        obtain ⟨a, ha, rfl⟩ := hd
        have := Nat.digits_lt_base (by omega : 1 < base.toNat) ha
        rw [BitVec.toNat_ofNat, Nat.mod_eq_of_lt (by omega)]
        exact hg a this
  · have h3 := val_lt b.limbs
    unfold modulus at h3
    refine lt_of_lt_of_le h3 (le_trans (Nat.pow_le_pow_left h2 _) ?_)
    exact Nat.pow_le_pow_right (by omega) (by omega)

/-! ## Parsing -/

theorem digitValue_insens (c : Char) :
    insensChars.findIdx? (· == c.toLower) = digitValue c := by
  by_cases h : c.toNat < 128
  · have key : ∀ n < 128, insensChars.findIdx? (· == (Char.ofNat n).toLower)
        = digitValue (Char.ofNat n) := by decide +kernel
    have := key c.toNat h
    rwa [Char.ofNat_toNat] at this
  · have hval : 128 ≤ c.val.toNat := by
      have : c.toNat = c.val.toNat := rfl
      omega
    have hlow : c.toLower = c := by
      unfold Char.toLower
      rw [dif_neg]
      intro hc
      have h1 : c.val ≤ 'Z'.val := hc.2
      have h2 := UInt32.le_iff_toNat_le.mp h1
      have h3 : 'Z'.val.toNat = 90 := by decide
      omega
    rw [hlow]
    have hall : ∀ x ∈ insensChars, x.toNat < 128 := by decide
    have e1 : insensChars.findIdx? (· == c) = none := by
      rw [List.findIdx?_eq_none_iff]
      intro x hx
      simp only [beq_eq_false_iff_ne, ne_eq]
      rintro rfl
      exact h (hall x hx)
    rw [e1]
    have hle : ∀ d : Char, d.val.toNat < 128 → ¬ c ≤ d := by
      intro d hd hc
      have h1 : c.val ≤ d.val := hc
      have h2 := UInt32.le_iff_toNat_le.mp h1
      omega
    unfold digitValue
    rw [if_neg (fun h => hle _ (by decide) h.2), if_neg (fun h => hle _ (by decide) h.2),
      if_neg (fun h => hle _ (by decide) h.2)]

theorem findIdx?_take {α : Type} (l : List α) (p : α → Bool) (n : Nat) :
    (l.take n).findIdx? p = (l.findIdx? p).filter (· < n) := by
  induction l generalizing n with
  | nil => simp
  | cons x xs ih =>
    cases n with
    | zero => cases List.findIdx? p (x :: xs) <;> simp [Option.filter]
    | succ n =>
      rw [List.take_succ_cons, List.findIdx?_cons, List.findIdx?_cons, ih]
      split
      · simp [Option.filter]
      · cases List.findIdx? p xs with
        | none => simp [Option.filter]
        | some i =>
          by_cases hi : i < n <;> simp [Option.filter, hi]

theorem valFromChar_spec (c : Char) (radix : Nat) (hr : radix ≤ 36) :
    (IsDigit radix c → valFromChar c radix = .ok ((digitValue c).getD 0) ∧
      (digitValue c).getD 0 < radix) ∧
    (¬ IsDigit radix c → valFromChar c radix = .error (.invalidChar c)) := by
  have h := findIdx?_take insensChars (· == c.toLower) radix
  rw [digitValue_insens] at h
  unfold valFromChar
  rw [if_pos hr, h]
  constructor
  · rintro ⟨d, h1, h2⟩
    rw [h1]
    simp [Option.filter, h2]
  · intro hn
    cases hd : digitValue c with
    | none => simp [Option.filter]
    | some d =>
      have : ¬ d < radix := fun h => hn ⟨d, hd, h⟩
      simp [Option.filter, this]

theorem parseLoop_ok (radix : BitVec 32) (hr : radix.toNat ≤ 36) (cs : List Char)
    (hcs : ∀ c ∈ cs, IsDigit radix.toNat c) (out : BInt) (hout : Canon out) (h0 : 0 ≤ ival out) :
    ∃ b, parseLoop radix cs out = .ok (.ok b) ∧ Canon b ∧
      ival b = (cs.foldl (fun n c => n * radix.toNat + (digitValue c).getD 0) (ival out).toNat : Nat) := by
  induction cs generalizing out with
  | nil => exact ⟨out, rfl, hout, by simp only [List.foldl_nil]; omega⟩
  | cons c cs ih =>
    obtain ⟨g1, g2⟩ := (valFromChar_spec c radix.toNat hr).1 (hcs c (by simp))
    unfold parseLoop
    rw [g1]
    simp only
    obtain ⟨r, r1, r2, _, r4⟩ := fromU_spec (by norm_num : 0 < 32) radix
    obtain ⟨x, x1, x2, x3⟩ := mul_spec (b := r) hout.1
    obtain ⟨d, d1, d2, d3, d4⟩ := fromU_spec (by norm_num : 0 < 32)
      (BitVec.ofNat 32 ((digitValue c).getD 0))
    obtain ⟨y, y1, y2, y3⟩ := add_full (b := d) x2.1
    rw [BitVec.toNat_ofNat, Nat.mod_eq_of_lt (by omega)] at d4
    rw [r1]; simp only [Res.bind]
    rw [x1]; simp only
    rw [d1]; simp only
    rw [y1]; simp only
    rw [r4] at x3
    have hx0 : 0 ≤ ival x := by rw [x3]; positivity
    have hxn := (x2.val_of_nonneg hx0).1
    have hdn := (d2.val_of_nonneg (by omega)).1
    rw [if_neg (by rw [hxn, hdn]; simp), d4] at y3
    obtain ⟨b, b1, b2, b3⟩ := ih (fun c hc => hcs c (by simp [hc])) y y2 (by omega)
    refine ⟨b, b1, b2, ?_⟩
    rw [b3, List.foldl_cons]
    congr 2
    rw [y3, x3]
    have : ival out = ((ival out).toNat : Int) := by omega
    generalize (ival out).toNat = n at this
    rw [this]
    omega

theorem parseLoop_bad (radix : BitVec 32) (hr : radix.toNat ≤ 36) (pre : List Char) (c : Char)
    (post : List Char) (hpre : ∀ c ∈ pre, IsDigit radix.toNat c) (hc : ¬ IsDigit radix.toNat c)
    (out : BInt) (hout : Canon out) (h0 : 0 ≤ ival out) :
    parseLoop radix (pre ++ c :: post) out = .ok (.error (.invalidChar c)) := by
  induction pre generalizing out with
  | nil =>
    rw [List.nil_append]
    unfold parseLoop
    rw [(valFromChar_spec c radix.toNat hr).2 hc]
  | cons a pre ih =>
    obtain ⟨g1, g2⟩ := (valFromChar_spec a radix.toNat hr).1 (hpre a (by simp))
    rw [List.cons_append]
    unfold parseLoop
    rw [g1]
    simp only
    obtain ⟨r, r1, r2, _, r4⟩ := fromU_spec (by norm_num : 0 < 32) radix
    obtain ⟨x, x1, x2, x3⟩ := mul_spec (b := r) hout.1
    obtain ⟨d, d1, d2, d3, d4⟩ := fromU_spec (by norm_num : 0 < 32)
      (BitVec.ofNat 32 ((digitValue a).getD 0))
    obtain ⟨y, y1, y2, y3⟩ := add_full (b := d) x2.1
    rw [BitVec.toNat_ofNat, Nat.mod_eq_of_lt (by omega)] at d4
    rw [r1]; simp only [Res.bind]
    rw [x1]; simp only
    rw [d1]; simp only
    rw [y1]; simp only
    rw [r4] at x3
    have hx0 : 0 ≤ ival x := by rw [x3]; positivity
    have hxn := (x2.val_of_nonneg hx0).1
    have hdn := (d2.val_of_nonneg (by omega)).1
    rw [if_neg (by rw [hxn, hdn]; simp), d4] at y3
    exact ih (fun c hc => hpre c (by simp [hc])) y y2 (by omega)

/-! ## Numerals read back -/

theorem digitValue_digitChar (d : Nat) (hd : d < 16) : digitValue d.digitChar = some d := by
  have : ∀ d < 16, digitValue d.digitChar = some d := by decide
  exact this d hd

theorem digitValue_upper (d : Nat) (hd : d < 16) :
    digitValue d.digitChar.toUpper = some d := by
  have : ∀ d < 16, digitValue d.digitChar.toUpper = some d := by decide
  exact this d hd

theorem numeral_toDigits (base : Nat) (hb : 1 < base) (g : Char → Char)
    (hg : ∀ d < base, digitValue (g d.digitChar) = some d) (n : Nat) :
    numeral base ((Nat.toDigits base n).map g) = n ∧
      ∀ c ∈ (Nat.toDigits base n).map g, IsDigit base c := by
  induction n using Nat.strong_induction_on with
  | _ n ih =>
    rw [Nat.toDigits_eq_if hb]
    split
    · rename_i h
      constructor
      · simp [numeral, hg n h]
      · intro c hc
        simp only [List.map_cons, List.map_nil, List.mem_singleton] at hc
        subst hc
        exact ⟨n, hg n h, h⟩
    · rename_i h
      have hlt : n / base < n := Nat.div_lt_self (by omega) hb
      have hm : n % base < base := Nat.mod_lt _ (by omega)
      obtain ⟨i1, i2⟩ := ih _ hlt
      constructor
      · rw [List.map_append]
        unfold numeral at i1 ⊢
        rw [List.foldl_append, i1]
        simp only [List.map_cons, List.map_nil, List.foldl_cons, List.foldl_nil, hg _ hm,
          Option.getD_some]
        exact Nat.div_add_mod' n base
      · intro c hc
        rw [List.map_append, List.mem_append] at hc
        rcases hc with hc | hc
        · exact i2 c hc
        · simp only [List.map_cons, List.map_nil, List.mem_singleton] at hc
          subst hc
          exact ⟨n % base, hg _ hm, hm⟩

end BInt

end Verif
