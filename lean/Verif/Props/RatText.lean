import Verif.Props.RatExact
import Verif.Lemmas.Point
import Verif.Lemmas.BigIntText

/-!
# C168: printing fractions

`quotientVal 10 s` is the number written by the text `s`, `none` if `s` is not of the form `a / b`.
-/

namespace Verif

open Prim

theorem digits_isDigit (n : Nat) : ∀ c ∈ Nat.toDigits 10 n, IsDigit 10 c := by
  have h := (BInt.numeral_toDigits 10 (by norm_num) id
    (fun d hd => BInt.digitValue_digitChar d (by omega)) n).2
  rwa [List.map_id] at h

theorem digits_numeral (n : Nat) : numeral 10 (Nat.toDigits 10 n) = n := by
  have h := (BInt.numeral_toDigits 10 (by norm_num) id
    (fun d hd => BInt.digitValue_digitChar d (by omega)) n).1
  rwa [List.map_id] at h

theorem isDigit_ne {c d : Char} (h : IsDigit 10 c) (hd : ¬ IsDigit 10 d) : c ≠ d := fun e => hd (e ▸ h)

theorem takeWhile_all {α : Type} (f : α → Bool) (l r : List α) (h : ∀ a ∈ l, f a = true)
    (hr : ∀ a ∈ r.head?, f a = false) : (l ++ r).takeWhile f = l := by
  induction l with
  | nil =>
    cases r with
    | nil => rfl
    | cons a r =>
      have := hr a (by simp)
      simp [this]
  | cons a l ih =>
    rw [List.cons_append, List.takeWhile_cons, h a (by simp), if_pos rfl,
      ih fun b hb => h b (List.mem_cons_of_mem _ hb)]

theorem unsigned_digits (n : Nat) : pointVal.unsigned 10 (Nat.toDigits 10 n) = some (n : ℚ) := by
  have hd := digits_isDigit n
  have hne : Nat.toDigits 10 n ≠ [] := by
    rw [Nat.toDigits_eq_if (by norm_num)]
    split <;> simp
  have e : (Nat.toDigits 10 n).takeWhile (· ≠ '.') = Nat.toDigits 10 n := by
    have := takeWhile_all (· ≠ '.') (Nat.toDigits 10 n) [] (fun c hc => by
      have := isDigit_ne (hd c hc) (d := '.') (by decide)
      simpa using this) (by simp)
    rwa [List.append_nil] at this
  unfold pointVal.unsigned
  dsimp only
  rw [e]
  simp only [List.drop_length, List.drop_nil, List.append_nil]
  rw [if_pos ⟨hne, hd⟩, digits_numeral]
  simp [numeral]

/-- The text of an integer is a numeral for it, and contains no space. -/
theorem intText_val (z : Int) : pointVal 10 (RatM.intText z) = some (z : ℚ) ∧ ∀ c ∈ RatM.intText z, c ≠ ' ' := by
  have hd := digits_isDigit z.natAbs
  have hs : ∀ c ∈ Nat.toDigits 10 z.natAbs, c ≠ ' ' := fun c hc => isDigit_ne (hd c hc) (by decide)
  have hz : (if z < 0 then -(z.natAbs : ℚ) else (z.natAbs : ℚ)) = z := by
    have e : (z.natAbs : ℚ) = ((z.natAbs : Int) : ℚ) := (Int.cast_natCast _).symm
    rw [e]
    split
    · rw [← Int.cast_neg]; congr 1; omega
    · congr 1; omega
  unfold RatM.intText
  split
  · rename_i h
    constructor
    · change (pointVal.unsigned 10 (Nat.toDigits 10 z.natAbs)).map (-·) = _
      rw [unsigned_digits, ← hz, if_pos h]; rfl
    · intro c hc
      rcases List.mem_cons.mp hc with rfl | hc
      · decide
      · exact hs c hc
  · rename_i h
    constructor
    · have hm : ∀ c ∈ (Nat.toDigits 10 z.natAbs).head?, c ≠ '-' := fun c hc =>
        isDigit_ne (hd c (List.mem_of_mem_head? hc)) (by decide)
      rw [← hz, if_neg h, ← unsigned_digits]
      unfold pointVal
      split
      · rename_i s e
        rw [e] at hm
        exact absurd rfl (hm '-' (by simp))
      · rfl
    · exact hs

/-- C168 (part): the text of every fraction denotes it, and two fractions have the same text exactly if they
are `==`. Missing: that fractions of the same value are `==` (C68 says which are). -/
theorem C168_debug_partial (x y : RatM) (h : x.denom ≠ 0) :
    quotientVal 10 (RatM.debug x) = some (qval x) ∧
    (RatM.debug x = RatM.debug y ↔ RatM.eq x y = true) := by
  have split : ∀ w : RatM, (RatM.debug w).takeWhile (· ≠ ' ') = RatM.intText w.num := fun w => by
    unfold RatM.debug
    rw [List.append_assoc]
    exact takeWhile_all _ _ _ (fun c hc => by simpa using (intText_val w.num).2 c hc) (by simp)
  have rest : ∀ w : RatM, (RatM.debug w).drop ((RatM.debug w).takeWhile (· ≠ ' ')).length =
      ' ' :: '/' :: ' ' :: RatM.intText w.denom := fun w => by
    rw [split]
    unfold RatM.debug
    rw [List.append_assoc, List.drop_left]
    rfl
  have inj : ∀ a b : Int, RatM.intText a = RatM.intText b → a = b := fun a b e => by
    have h1 := (intText_val a).1
    rw [e, (intText_val b).1, Option.some.injEq] at h1
    exact_mod_cast h1.symm
  constructor
  · unfold quotientVal
    dsimp only
    rw [rest, split]
    simp only []
    rw [(intText_val _).1, (intText_val _).1]
    simp only [Option.bind_some]
    rw [if_neg (by exact_mod_cast h)]
    rfl
  · unfold RatM.eq
    rw [decide_eq_true_iff]
    constructor
    · intro e
      have e1 := split x
      rw [e, split] at e1
      have e2 := rest x
      rw [e, rest] at e2
      simp only [List.cons.injEq, true_and] at e2
      have n := inj _ _ e1
      have d := inj _ _ e2
      obtain ⟨a, b⟩ := x
      obtain ⟨a', b'⟩ := y
      simp only at n d
      rw [n, d]
    · intro e; rw [e]

/-- C168 is violated: `Rat::new(2, 4)` prints as `2 / 4`, `Rat::new(1, 2)` as `1 / 2`. -/
theorem C168_violated :
    ∃ x y, RatM.new i8 2 4 = .ok (some x) ∧ RatM.new i8 1 2 = .ok (some y) ∧ qval x = qval y ∧
      RatM.debug x = ['2', ' ', '/', ' ', '4'] ∧ RatM.debug y = ['1', ' ', '/', ' ', '2'] := by
  refine ⟨⟨2, 4⟩, ⟨1, 2⟩, by decide, by decide, ?_, by decide, by decide⟩
  unfold qval; norm_num

example : RatM.debug ⟨-30, 7⟩ = ['-', '3', '0', ' ', '/', ' ', '7'] ∧
    quotientVal 10 ['-', '3', '0', ' ', '/', ' ', '7'] = some (-30 / 7) := by
  refine ⟨by decide, by decide +kernel⟩

end Verif
