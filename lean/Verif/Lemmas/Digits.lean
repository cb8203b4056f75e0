import Mathlib.Data.Nat.Digits.Defs
import Verif.Lemmas.UInt

/-!
# Helper lemmas: digit lists and characters
-/

namespace Verif

theorem digits_toDigits (b : Nat) (hb : 1 < b) (n : Nat) (hn : 0 < n) :
    (Nat.digits b n).reverse.map Nat.digitChar = Nat.toDigits b n := by
  induction n using Nat.strong_induction_on with
  | _ n ih =>
    rw [Nat.digits_def' hb hn, Nat.toDigits_eq_if hb]
    split
    · rename_i h
      rw [Nat.div_eq_of_lt h, Nat.mod_eq_of_lt h]
      simp
    · rename_i h
      have h1 : 0 < n / b := Nat.div_pos (by omega) (by omega)
      rw [← ih (n / b) (Nat.div_lt_self hn hb) h1]
      simp

theorem write_chars (chars : List Char) (g : Nat → Char) (ds : List (BitVec 8)) (out : List Char)
    (h : ∀ d ∈ ds, chars[d.toNat]? = some (g d.toNat)) :
    ds.foldl (fun out d => Res.bind out fun out => (Res.ofOption chars[d.toNat]?).bind fun c =>
      .ok (out ++ [c])) (.ok out) = .ok (out ++ ds.map fun d => g d.toNat) := by
  induction ds generalizing out with
  | nil => simp
  | cons d ds ih =>
    rw [List.foldl_cons]
    simp only [Res.bind, h d (by simp), Res.ofOption]
    have := ih (out ++ [g d.toNat]) (fun d hd => h d (by simp [hd]))
    simp only [Res.bind, Res.ofOption] at this
    rw [this]
    simp

theorem decDigits_get (d : Nat) (h : d < 10) : UN.decDigits[d]? = some d.digitChar := by
  match d, h with
  | 0, _ | 1, _ | 2, _ | 3, _ | 4, _ | 5, _ | 6, _ | 7, _ | 8, _ | 9, _ => rfl
  | d + 10, h => omega

theorem digits_map_toNat (b n : Nat) (hb : 1 < b) (hb2 : b ≤ 256) :
    ((Nat.digits b n).map (BitVec.ofNat 8)).map BitVec.toNat = Nat.digits b n := by
  rw [List.map_map]
  conv_rhs => rw [← List.map_id (Nat.digits b n)]
  apply List.map_congr_left
  intro d hd
  have := Nat.digits_lt_base hb hd
  simp only [Function.comp, BitVec.toNat_ofNat, id]
  omega

/-! ## One-byte arithmetic -/

theorem one_byte_div (m : Mode) (x y : BitVec 8) (hy : 0 < y.toNat) :
    UN.div m [x] [y] = .ok [x / y] ∧ UN.rem m [x] [y] = .ok [x % y] := by
  have hS : DivSmall 8 (val [x]) (val [y]) := by
    refine ⟨by simpa [val], ?_, Or.inl ?_⟩
    · have := y.isLt; simpa [val] using this
    · have := x.isLt; simpa [val] using this
  obtain ⟨q, r, g0, g1, _, g3, _⟩ := bitwiseDivLongOverflowing_small m (by norm_num) [x] [y]
    (by simp) (by norm_num) (by norm_num) hS
  obtain ⟨r', k0, k1, k2⟩ := bitwiseRemLongOverflowing_small m (by norm_num) [x] [y]
    (by simp) (by norm_num) (by norm_num) hS
  have hq : q = [x / y] := by
    apply eq_of_val_eq (by simpa using g1)
    rw [g3]; simp [val]
  have hr : r' = [x % y] := by
    apply eq_of_val_eq (by simpa using k1)
    rw [k2]; simp [val]
  constructor
  · unfold UN.div BitwiseDiv.divLongChecked BitwiseDiv.divLongWrapping
    cases m <;> simp only <;> rw [g0, hq] <;> rfl
  · unfold UN.rem BitwiseDiv.remLongChecked
    rw [k0, hr]; rfl

theorem cmp_one_byte_zero (x : BitVec 8) :
    UN.cmp [x] (UN.zero [x].length) = .gt ↔ 0 < x.toNat := by
  have h := elementCmp_one_limb [x] (UN.zero 1) 0 (by
    intro j hj
    match j with
    | 0 => exact absurd rfl hj
    | j + 1 => simp [UN.zero])
  show elementCmp [x] (UN.zero 1) = .gt ↔ _
  rw [h, UN.val_zero, Nat.compare_eq_gt]
  simp [val]

theorem writeLoop_one (m : Mode) (fuel : Nat) (x : BitVec 8) (ds : List (BitVec 8))
    (hf : x.toNat ≤ fuel) :
    UN.writeLoop m [10#8] fuel [x] ds
      = .ok (ds ++ (Nat.digits 10 x.toNat).map (BitVec.ofNat 8)) := by
  have hcmp := fun x : BitVec 8 => cmp_one_byte_zero x
  induction fuel generalizing x ds with
  | zero =>
    have h0 : x.toNat = 0 := by omega
    unfold UN.writeLoop
    rw [if_neg (by rw [hcmp]; omega), h0]
    simp
  | succ fuel ih =>
    unfold UN.writeLoop
    by_cases h : 0 < x.toNat
    · rw [if_pos ((hcmp x).mpr h)]
      obtain ⟨d1, d2⟩ := one_byte_div m x 10#8 (by decide)
      simp only
      rw [d2]
      simp only [Res.bind]
      rw [toPrimChecked_small 1 _ (by simp)]
      simp only [Res.ofOption]
      rw [d1]
      simp only
      have hdiv : (x / 10#8).toNat = x.toNat / 10 := by simp
      rw [ih (x / 10#8) _ (by rw [hdiv]; omega)]
      rw [hdiv]
      conv_rhs => rw [Nat.digits_def' (by norm_num) h]
      simp only [List.append_assoc, List.singleton_append, List.map_cons]
      congr 3
    · rw [if_neg (by rw [hcmp]; exact h), show x.toNat = 0 by omega]
      simp

theorem display_one (m : Mode) (fuel : Nat) (x : BitVec 8) (hf : x.toNat ≤ fuel) :
    UN.display m fuel [x] = .ok (Nat.toDigits 10 x.toNat) := by
  unfold UN.display UN.writeBase
  have hb : UN.fromPrimChecked 1 8 (BitVec.ofNat 64 10) = .ok (some [10#8]) := by decide +kernel
  simp only [List.length_cons, List.length_nil, Nat.zero_add]
  rw [hb]
  simp only [Res.bind, Res.ofOption]
  rw [writeLoop_one m fuel x [] hf]
  simp only [List.nil_append]
  have key : ∀ ds : List (BitVec 8), (∀ d ∈ ds, d.toNat < 10) →
      ds.foldl (fun out d => Res.bind out fun out =>
        (Res.ofOption UN.decDigits[d.toNat]?).bind fun c => .ok (out ++ [c])) (.ok [])
      = .ok (ds.map fun d => d.toNat.digitChar) := by
    intro ds hds
    have := write_chars UN.decDigits Nat.digitChar ds [] (fun d hd => decDigits_get _ (hds d hd))
    simpa using this
  simp only [Res.bind, Res.ofOption] at key
  by_cases h0 : x.toNat = 0
  · rw [h0]
    simp only [Nat.digits_zero, List.map_nil, List.isEmpty_nil, if_true]
    rw [key _ (by simp)]
    rfl
  · have hne : ((Nat.digits 10 x.toNat).map (BitVec.ofNat 8)).isEmpty = false := by
      have := (Nat.digits_ne_nil_iff_ne_zero (b := 10)).mpr h0
      simp [this]
    rw [hne]
    simp only [Bool.false_eq_true, if_false]
    rw [key, List.map_reverse]
    · congr 1
      rw [← digits_toDigits 10 (by norm_num) _ (by omega), List.map_reverse]
      congr 1
      have := digits_map_toNat 10 x.toNat (by norm_num) (by norm_num)
      conv_rhs => rw [← this, List.map_map]
      rfl
    · intro d hd
      rw [List.mem_reverse, List.mem_map] at hd
      obtain ⟨a, ha, rfl⟩ := hd
      have := Nat.digits_lt_base (by norm_num : 1 < 10) ha
      rw [BitVec.toNat_ofNat]; omega

end Verif
