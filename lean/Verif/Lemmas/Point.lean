import Mathlib.Data.Nat.Digits.Lemmas
import Mathlib.Tactic.Linarith
import Mathlib.Tactic.Ring
import Mathlib.Tactic.FieldSimp
import Mathlib.Tactic.Positivity
import Verif.Lemmas.Digits
import Verif.Lemmas.Fixed
import Verif.Spec.Decimal

/-!
# Helper lemmas: texts with a point
-/

namespace Verif

theorem digitChar_facts : ∀ d < 10, digitValue (Nat.digitChar d) = some d ∧
    Nat.digitChar d ≠ '.' ∧ Nat.digitChar d ≠ '-' := by decide

/-- Digits, least significant first, written most significant first. -/
def digitText (ds : List Nat) : List Char := (ds.map Nat.digitChar).reverse

theorem digitText_length (ds : List Nat) : (digitText ds).length = ds.length := by
  simp [digitText]

theorem mem_digitText {r : Nat} (hr : r ≤ 10) {ds : List Nat} (h : ∀ d ∈ ds, d < r) {c : Char}
    (hc : c ∈ digitText ds) : IsDigit r c ∧ c ≠ '.' ∧ c ≠ '-' := by
  simp only [digitText, List.mem_reverse, List.mem_map] at hc
  obtain ⟨d, hd, rfl⟩ := hc
  obtain ⟨h1, h2, h3⟩ := digitChar_facts d (by have := h d hd; omega)
  exact ⟨⟨d, h1, h d hd⟩, h2, h3⟩

theorem numeral_digitText {r : Nat} (hr : r ≤ 10) (ds : List Nat) (h : ∀ d ∈ ds, d < r) :
    numeral r (digitText ds) = Nat.ofDigits r ds := by
  induction ds with
  | nil => rfl
  | cons d ds ih =>
    have h1 := (digitChar_facts d (by have := h d (by simp); omega)).1
    have := ih (fun d hd => h d (by simp [hd]))
    unfold numeral digitText at *
    rw [List.map_cons, List.reverse_cons, List.foldl_append, this]
    simp only [List.foldl_cons, List.foldl_nil, h1, Option.getD_some, Nat.ofDigits_cons]
    ring

theorem pointVal_unsigned (r : Nat) (s : List Char) (h : s.head? ≠ some '-') :
    pointVal r s = pointVal.unsigned r s := by
  unfold pointVal
  split
  · simp at h
  · rfl

theorem pointVal_point {r : Nat} (hr : r ≤ 10) (A B : List Nat) (hA : ∀ d ∈ A, d < r)
    (hB : ∀ d ∈ B, d < r) (hne : A ++ B ≠ []) :
    pointVal r (digitText A ++ '.' :: digitText B) =
      some (((Nat.ofDigits r A : Nat) : Rat) + ((Nat.ofDigits r B : Nat) : Rat) / (r : Rat) ^ B.length) := by
  rw [pointVal_unsigned]
  · unfold pointVal.unsigned
    have h1 : (digitText A ++ '.' :: digitText B).takeWhile (· ≠ '.') = digitText A := by
      rw [List.takeWhile_append_of_pos]
      · simp
      · intro c hc; simpa using (mem_digitText hr hA hc).2.1
    rw [h1]
    have h2 : ((digitText A ++ '.' :: digitText B).drop (digitText A).length).drop 1 =
        digitText B := by simp
    simp only [h2]
    rw [if_pos, numeral_digitText hr A hA, numeral_digitText hr B hB, digitText_length]
    refine ⟨?_, ?_⟩
    · intro hc
      apply hne
      have := congrArg List.length hc
      simp only [List.length_append, digitText_length, List.length_nil] at this
      rw [← List.length_eq_zero_iff, List.length_append, this]
    · intro c hc
      rcases List.mem_append.mp hc with hc | hc
      · exact (mem_digitText hr hA hc).1
      · exact (mem_digitText hr hB hc).1
  · cases hA' : digitText A with
    | nil => simp
    | cons c t =>
      have := (mem_digitText hr hA (c := c) (by rw [hA']; simp)).2.2
      simpa using this

theorem pointVal_plain {r : Nat} (hr : r ≤ 10) (A : List Nat) (hA : ∀ d ∈ A, d < r) (hne : A ≠ []) :
    pointVal r (digitText A) = some ((Nat.ofDigits r A : Nat) : Rat) := by
  rw [pointVal_unsigned]
  · unfold pointVal.unsigned
    have h1 : (digitText A).takeWhile (· ≠ '.') = digitText A := by
      have := List.takeWhile_append_of_pos (p := fun c : Char => decide (c ≠ '.'))
        (l₁ := digitText A) (l₂ := [])
        (fun c hc => by simpa using (mem_digitText hr hA hc).2.1)
      simpa using this
    rw [h1]
    simp only [List.drop_length, List.drop_nil, List.append_nil]
    rw [if_pos, numeral_digitText hr A hA]
    · simp [numeral]
    · refine ⟨?_, fun c hc => (mem_digitText hr hA hc).1⟩
      intro hc
      have := congrArg List.length hc
      rw [digitText_length] at this
      exact hne (List.length_eq_zero_iff.mp this)
  · cases hA' : digitText A with
    | nil => simp
    | cons c t =>
      have := (mem_digitText hr hA (c := c) (by rw [hA']; simp)).2.2
      simpa using this

namespace Fixed

open Prim

variable {p : Prim} {N : Nat}

/-- The text produced by the loop of `Debug`, in reverse, for the digits from position `idx` on. -/
def pointed (N : Nat) : Nat → List Nat → List Char
  | _, [] => []
  | idx, d :: ds => (if idx = N then ['.'] else []) ++ Nat.digitChar d :: pointed N (idx + 1) ds

theorem pointed_eq (idx : Nat) (ds : List Nat) :
    pointed N idx ds =
      if idx ≤ N then
        (ds.take (N - idx)).map Nat.digitChar ++ (if N - idx < ds.length then ['.'] else []) ++
          (ds.drop (N - idx)).map Nat.digitChar
      else ds.map Nat.digitChar := by
  induction ds generalizing idx with
  | nil => simp [pointed]
  | cons d ds ih =>
    unfold pointed
    rw [ih (idx + 1)]
    by_cases h1 : idx = N
    · subst h1
      simp
    · by_cases h2 : idx ≤ N
      · obtain ⟨k, hk⟩ : ∃ k, N - idx = k + 1 := ⟨N - idx - 1, by omega⟩
        have hk' : N - (idx + 1) = k := by omega
        rw [if_neg h1, if_pos h2, if_pos (by omega), hk, hk']
        simp
      · rw [if_neg h1, if_neg h2, if_neg (by omega)]
        simp

theorem trunc_ten (hb : 5 ≤ p.bits) : p.truncateFrom 10 = 10 := by
  apply wrap_eq (by omega)
  obtain ⟨b1, _, _⟩ := bounds (p := p) (by omega)
  refine ⟨by omega, ?_⟩
  unfold maxV
  have h1 : (2 : Int) ^ 4 ≤ 2 ^ (p.bits - 1) := pow_le_pow_right₀ (by norm_num) (by omega)
  have h2 : (2 : Int) ^ 4 ≤ 2 ^ p.bits := pow_le_pow_right₀ (by norm_num) (by omega)
  split <;> omega

theorem debugLoop_spec (hb : 5 ≤ p.bits) (w fuel idx : Nat) (buf : List Char) (hf : w < fuel) :
    debugLoop p N fuel w idx buf =
      .ok (idx + (Nat.digits 10 w).length, buf ++ pointed N idx (Nat.digits 10 w)) := by
  induction fuel generalizing w idx buf with
  | zero => omega
  | succ fuel ih =>
    unfold debugLoop
    by_cases h0 : w = 0
    · subst h0
      simp [pointed]
    · have hr : Prim.rem p w 10 = .ok ((w % 10 : Nat) : Int) := by
        unfold Prim.rem
        rw [if_neg (by decide), if_neg (by omega), Int.tmod_eq_emod_of_nonneg (by omega)]
        norm_cast
      have hd : Prim.div p w 10 = .ok ((w / 10 : Nat) : Int) := by
        unfold Prim.div
        rw [if_neg (by decide), if_neg (by omega), Int.tdiv_eq_ediv_of_nonneg (by omega)]
        norm_cast
      rw [if_pos (by omega), trunc_ten hb, hr]
      simp only [Res.bind]
      rw [hd]
      refine (ih (w / 10) (idx + 1) _ (by omega)).trans ?_
      rw [Nat.digits_def' (by norm_num) (show 0 < w by omega)]
      simp only [List.length_cons, pointed, Int.toNat_natCast]
      congr 2
      · omega
      · split <;> simp

/-- The text written by the loop for the integer `w`. -/
theorem debugText_spec (hb : 5 ≤ p.bits) (w : Int) :
    ((debugLoop p N (w.toNat + 1) w 0 []).bind fun r =>
      let buf := if r.1 = N then r.2 ++ ['.'] else r.2
      Res.ok buf.reverse) = .ok
      (if N ≤ (Nat.digits 10 w.toNat).length then
        digitText ((Nat.digits 10 w.toNat).drop N) ++
          '.' :: digitText ((Nat.digits 10 w.toNat).take N)
      else digitText (Nat.digits 10 w.toNat)) := by
  have hloop : debugLoop p N (w.toNat + 1) w 0 [] =
      .ok ((Nat.digits 10 w.toNat).length, pointed N 0 (Nat.digits 10 w.toNat)) := by
    by_cases h : 0 ≤ w
    · obtain ⟨w, rfl⟩ := Int.eq_ofNat_of_zero_le h
      rw [Int.toNat_natCast, debugLoop_spec hb w (w + 1) 0 [] (by omega)]
      simp
    · have : w.toNat = 0 := by omega
      rw [this]
      unfold debugLoop
      rw [if_neg (by omega)]
      simp [pointed]
  rw [hloop]
  simp only [Res.bind]
  generalize Nat.digits 10 w.toNat = D
  congr 1
  rw [pointed_eq, if_pos (Nat.zero_le _), Nat.sub_zero]
  unfold digitText
  by_cases h1 : D.length = N
  · rw [if_pos h1, if_neg (by omega), if_pos (by omega), List.take_of_length_le (by omega),
      List.drop_of_length_le (by omega)]
    simp
  · rw [if_neg h1]
    by_cases h2 : N < D.length
    · rw [if_pos h2, if_pos (by omega)]
      simp
    · rw [if_neg h2, if_neg (by omega), List.take_of_length_le (by omega),
        List.drop_of_length_le (by omega)]
      simp

/-- The text written by `Debug`, when nothing overflows. -/
theorem debug_spec (m : Mode) (hb : 5 ≤ p.bits) (hN : N < 2 ^ 32) (ht : p.InRange (10 ^ N)) (x : Int)
    (hx : p.InRange (x * 10 ^ N)) :
    debug m p N x = .ok
      (if N ≤ (Nat.digits 10 (x * 5 ^ N).toNat).length then
        digitText ((Nat.digits 10 (x * 5 ^ N).toNat).drop N) ++
          '.' :: digitText ((Nat.digits 10 (x * 5 ^ N).toNat).take N)
      else digitText (Nat.digits 10 (x * 5 ^ N).toNat)) := by
  obtain ⟨b1, b2, _⟩ := bounds (p := p) (by omega)
  have hNt : (N : Int) < 10 ^ N := by exact_mod_cast Nat.lt_pow_self (by norm_num)
  have hNr : p.truncateFrom N = N := wrap_eq (by omega) ⟨by omega, by have := ht.2; omega⟩
  have h32 : u32.wrap (N : Int) = N := by
    apply wrap_eq (by decide)
    unfold InRange minV maxV u32
    simp
    omega
  have h210 : (2 : Int) ^ N ≤ 10 ^ N := pow_le_pow_left₀ (by norm_num) (by norm_num) N
  have h2p : (0 : Int) < 2 ^ N := by positivity
  have htwo : p.truncateFrom 2 = 2 := by
    apply wrap_eq (by omega)
    refine ⟨by omega, ?_⟩
    unfold maxV
    have h1 : (2 : Int) ^ 4 ≤ 2 ^ (p.bits - 1) := pow_le_pow_right₀ (by norm_num) (by omega)
    have h2 : (2 : Int) ^ 4 ≤ 2 ^ p.bits := pow_le_pow_right₀ (by norm_num) (by omega)
    split <;> omega
  have hpow : ∀ a : Int, p.InRange (a ^ N) → Prim.pow m p a N = .ok (a ^ N) := by
    intro a ha
    unfold Prim.pow
    rw [h32, Int.toNat_natCast, arith_ok m ha]
  have hdiv : Prim.div p (x * 10 ^ N) (2 ^ N) = .ok (x * 5 ^ N) := by
    unfold Prim.div
    rw [if_neg h2p.ne', if_neg (by omega)]
    congr 1
    rw [show (10 : Int) = 5 * 2 by norm_num, mul_pow, ← mul_assoc, Int.mul_tdiv_cancel _ h2p.ne']
  unfold debug
  rw [trunc_ten hb, hNr, hpow 10 ht]
  simp only [Res.bind]
  rw [arith_ok m hx]
  simp only
  rw [htwo, hpow 2 ⟨by omega, by have := ht.2; omega⟩]
  simp only
  rw [hdiv]
  exact debugText_spec hb _

end Fixed

end Verif
