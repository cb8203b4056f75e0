import Mathlib.Tactic.Linarith
import Mathlib.Tactic.Positivity
import Mathlib.Tactic.Ring
import Mathlib.Tactic.FieldSimp
import Mathlib.Algebra.Order.Field.Basic
import Mathlib.Algebra.Order.Field.Power
import Mathlib.Algebra.Order.Ring.Rat
import Verif.Spec.Posit
import Verif.Model.Posit

/-!
# Lemmas on posits
-/

namespace Verif

theorem fracBits_bounds (l : List Bool) : 0 ≤ fracBits l ∧ fracBits l < 1 := by
  induction l with
  | nil => simp [fracBits]
  | cons b t ih =>
    unfold fracBits
    cases b <;> simp <;> constructor <;> linarith [ih.1, ih.2]

theorem fracBits_inj (l l' : List Bool) (hl : l.length = l'.length)
    (h : fracBits l = fracBits l') : l = l' := by
  induction l generalizing l' with
  | nil => cases l' with
    | nil => rfl
    | cons _ _ => simp at hl
  | cons b t ih =>
    cases l' with
    | nil => simp at hl
    | cons b' t' =>
      have h1 := fracBits_bounds t
      have h2 := fracBits_bounds t'
      simp only [fracBits] at h
      have hb : b = b' := by
        cases b <;> cases b' <;> first | rfl | (exfalso; simp at h; linarith [h1.1, h1.2, h2.1, h2.2])
      subst hb
      rw [ih t' (by simpa using hl) (by linarith)]

/-- A number in `[1, 2)` times a power of two determines both. -/
theorem pow_unique (x y : Rat) (i j : Int) (hx : 1 ≤ x ∧ x < 2) (hy : 1 ≤ y ∧ y < 2)
    (h : x * 2 ^ i = y * 2 ^ j) : i = j ∧ x = y := by
  have key : ∀ (x y : Rat) (i j : Int), 1 ≤ x → y < 2 → 0 < y → x * 2 ^ i = y * 2 ^ j → i ≤ j := by
    intro x y i j hx hy hy0 h
    by_contra hlt
    have hle : (2 : Rat) ^ (j + 1) ≤ 2 ^ i := zpow_le_zpow_right₀ (by norm_num) (by omega)
    have hp : (0 : Rat) < 2 ^ j := by positivity
    rw [zpow_add₀ (by norm_num), zpow_one] at hle
    have : y * 2 ^ j < 2 * 2 ^ j := mul_lt_mul_of_pos_right hy hp
    have : (2 : Rat) ^ i ≤ x * 2 ^ i := le_mul_of_one_le_left (by positivity) hx
    linarith
  have hij : i = j := le_antisymm (key x y i j hx.1 hy.2 (by linarith [hy.1]) h)
    (key y x j i hy.1 hx.2 (by linarith [hx.1]) h.symm)
  subst hij
  exact ⟨rfl, mul_right_cancel₀ (by positivity) h⟩

/-- A number in `(1, 2]` times a power of two determines both. -/
theorem pow_unique' (x y : Rat) (i j : Int) (hx : 1 < x ∧ x ≤ 2) (hy : 1 < y ∧ y ≤ 2)
    (h : x * 2 ^ i = y * 2 ^ j) : i = j ∧ x = y := by
  have key : ∀ (x y : Rat) (i j : Int), 1 < x → y ≤ 2 → x * 2 ^ i = y * 2 ^ j → i ≤ j := by
    intro x y i j hx hy h
    by_contra hlt
    have hle : (2 : Rat) ^ (j + 1) ≤ 2 ^ i := zpow_le_zpow_right₀ (by norm_num) (by omega)
    have hp : (0 : Rat) < 2 ^ j := by positivity
    rw [zpow_add₀ (by norm_num), zpow_one] at hle
    have : y * 2 ^ j ≤ 2 * 2 ^ j := mul_le_mul_of_nonneg_right hy hp.le
    have hpi : (0 : Rat) < 2 ^ i := by positivity
    have : (2 : Rat) ^ i < x * 2 ^ i := lt_mul_of_one_lt_left hpi hx
    linarith
  have hij : i = j := le_antisymm (key x y i j hx.1 hy.2 h) (key y x j i hy.1 hx.2 h.symm)
  subst hij
  exact ⟨rfl, mul_right_cancel₀ (by positivity) h⟩

theorem runLen_le (b : Bool) (l : List Bool) : runLen b l ≤ l.length := by
  induction l with
  | nil => simp [runLen]
  | cons x t ih =>
    unfold runLen
    split
    · simp only [List.length_cons]; omega
    · simp

/-- Strings of the same length with the same first bit, the same run and the same rest are equal. -/
theorem run_inj (b : Bool) (l l' : List Bool) (hl : l.length = l'.length)
    (hr : runLen b l = runLen b l') (hd : l.drop (runLen b l + 1) = l'.drop (runLen b l' + 1)) :
    l = l' := by
  induction l generalizing l' with
  | nil => cases l' with
    | nil => rfl
    | cons _ _ => simp at hl
  | cons x t ih =>
    cases l' with
    | nil => simp at hl
    | cons x' t' =>
      have hne : ∀ (c d : Bool), ¬ c = b → ¬ d = b → c = d := by
        intro c d; cases c <;> cases d <;> cases b <;> simp
      unfold runLen at hr hd
      by_cases hx : x = b <;> by_cases hx' : x' = b
      · rw [if_pos hx, if_pos hx'] at hr hd
        simp only [List.drop_succ_cons] at hd
        rw [hx, hx', ih t' (by simpa using hl) (by omega) hd]
      · rw [if_pos hx, if_neg hx'] at hr; omega
      · rw [if_neg hx, if_pos hx'] at hr; omega
      · rw [if_neg hx, if_neg hx'] at hd
        simp only [Nat.zero_add, List.drop_succ_cons, List.drop_zero] at hd
        rw [hne x x' hx hx', hd]

theorem expBits_lt (l : List Bool) : expBits l < 4 := by
  unfold expBits
  split
  · omega
  · rename_i b; cases b <;> simp
  · rename_i b c _; cases b <;> cases c <;> simp

theorem exp_frac_inj (l l' : List Bool) (hl : l.length = l'.length) (he : expBits l = expBits l')
    (hf : fracBits (l.drop 2) = fracBits (l'.drop 2)) : l = l' := by
  match l, l', hl with
  | [], [], _ => rfl
  | [b], [b'], _ =>
    cases b <;> cases b' <;> simp [expBits] at he ⊢
  | b :: c :: t, b' :: c' :: t', hl =>
    simp only [List.drop_succ_cons, List.drop_zero] at hf
    rw [fracBits_inj t t' (by simpa using hl) hf]
    cases b <;> cases b' <;> cases c <;> cases c' <;> simp [expBits] at he ⊢

theorem regime_inj (l l' : List Bool) (hl : l.length = l'.length) (hr : regime l = regime l')
    (hd : afterRegime l = afterRegime l') : l = l' := by
  match l, l', hl with
  | [], [], _ => rfl
  | b :: t, b' :: t', hl =>
    have hl' : t.length = t'.length := by simpa using hl
    cases b <;> cases b' <;> simp only [regime] at hr
    · rw [run_inj false t t' hl' (by omega) hd]
    · omega
    · omega
    · rw [run_inj true t t' hl' (by omega) hd]

theorem length_afterRegime (l l' : List Bool) (hl : l.length = l'.length)
    (hr : regime l = regime l') : (afterRegime l).length = (afterRegime l').length := by
  match l, l', hl with
  | [], [], _ => rfl
  | b :: t, b' :: t', hl =>
    have hl' : t.length = t'.length := by simpa using hl
    cases b <;> cases b' <;> simp only [regime] at hr <;>
      simp only [afterRegime, List.length_drop] <;> omega

/-- The exponent and the fraction determine the string after the sign. -/
theorem body_inj (t t' : List Bool) (hl : t.length = t'.length)
    (hk : 4 * regime t + expBits (afterRegime t) = 4 * regime t' + expBits (afterRegime t'))
    (hf : fracBits ((afterRegime t).drop 2) = fracBits ((afterRegime t').drop 2)) : t = t' := by
  have h1 := expBits_lt (afterRegime t)
  have h2 := expBits_lt (afterRegime t')
  have hr : regime t = regime t' := by omega
  exact regime_inj t t' hl hr (exp_frac_inj _ _ (length_afterRegime t t' hl hr) (by omega) hf)

theorem all_false_eq (t t' : List Bool) (hl : t.length = t'.length)
    (h : t.all (· = false) = true) (h' : t'.all (· = false) = true) : t = t' := by
  have e : ∀ t : List Bool, t.all (· = false) = true → t = List.replicate t.length false := by
    intro t ht
    rw [List.eq_replicate_iff]
    exact ⟨rfl, fun b hb => by simpa using List.all_eq_true.mp ht b hb⟩
  rw [e t h, e t' h', hl]

/-- The sign of the number is the first bit. -/
theorem posVal_cons (s : Bool) (t : List Bool) :
    (t.all (· = false) = true ∧ posVal (s :: t) = if s then none else some 0) ∨
    (t.all (· = false) = false ∧ ∃ (f : Rat) (k : Int), 0 ≤ f ∧ f < 1 ∧
      f = fracBits ((afterRegime t).drop 2) ∧ k = 4 * regime t + expBits (afterRegime t) ∧
      ∀ s', posVal (s' :: t) =
        if s' then some ((-2 + f) * 2 ^ (-(k + 1))) else some ((1 + f) * 2 ^ k)) := by
  by_cases h : t.all (· = false) = true
  · exact .inl ⟨h, by simp only [posVal, h, if_true]⟩
  · refine .inr ⟨by simpa using h, _, _, (fracBits_bounds _).1, (fracBits_bounds _).2, rfl, rfl, ?_⟩
    intro s'
    simp only [posVal, h, if_false, Bool.false_eq_true]

/-- A posit has only one bit string. -/
theorem posVal_inj (l l' : List Bool) (hl : l.length = l'.length) (h0 : l ≠ [])
    (h : posVal l = posVal l') : l = l' := by
  match l, l', hl with
  | [], [], _ => rfl
  | s :: t, s' :: t', hl =>
    have hl' : t.length = t'.length := by simpa using hl
    have pos : ∀ (f : Rat) (k : Int), 0 ≤ f → (0 : Rat) < (1 + f) * 2 ^ k := by
      intro f k hf; positivity
    have neg : ∀ (f : Rat) (k : Int), f < 1 → (-2 + f) * 2 ^ k < (0 : Rat) := by
      intro f k hf
      exact mul_neg_of_neg_of_pos (by linarith) (by positivity)
    rcases posVal_cons s t with ⟨ha, hv⟩ | ⟨ha, f, k, f0, f1, hf, hk, hv⟩ <;>
      rcases posVal_cons s' t' with ⟨ha', hv'⟩ | ⟨ha', f', k', f0', f1', hf', hk', hv'⟩
    · rw [hv, hv'] at h
      rw [all_false_eq t t' hl' ha ha']
      cases s <;> cases s' <;> simp at h ⊢
    · exfalso
      rw [hv, hv'] at h
      cases s <;> cases s' <;> simp only [if_true, if_false, Bool.false_eq_true, Option.some.injEq,
        reduceCtorEq] at h
      · have := pos f' k' f0'; linarith
      · have := neg f' (-(k' + 1)) f1'; linarith
    · exfalso
      rw [hv, hv'] at h
      cases s <;> cases s' <;> simp only [if_true, if_false, Bool.false_eq_true, Option.some.injEq,
        reduceCtorEq] at h
      · have := pos f k f0; linarith
      · have := neg f (-(k + 1)) f1; linarith
    · rw [hv, hv'] at h
      cases s <;> cases s' <;> simp only [if_true, if_false, Bool.false_eq_true,
        Option.some.injEq] at h
      · obtain ⟨e1, e2⟩ := pow_unique _ _ k k' ⟨by linarith, by linarith⟩ ⟨by linarith, by linarith⟩ h
        rw [body_inj t t' hl' (by omega) (by rw [← hf, ← hf']; linarith)]
      · have := pos f k f0; have := neg f' (-(k' + 1)) f1'; linarith
      · have := pos f' k' f0'; have := neg f (-(k + 1)) f1; linarith
      · obtain ⟨e1, e2⟩ := pow_unique' (2 - f) (2 - f') (-(k + 1)) (-(k' + 1))
          ⟨by linarith, by linarith⟩ ⟨by linarith, by linarith⟩ (by linarith)
        rw [body_inj t t' hl' (by omega) (by rw [← hf, ← hf']; linarith)]

theorem byteBits_cons (b : BitVec 8) (bs : List (BitVec 8)) :
    byteBits (b :: bs) = b.getLsbD 0 ::
      ((List.range' 1 7).map b.getLsbD ++ byteBits bs) := by
  simp [byteBits, List.range_succ, List.range'_succ]

theorem byteBits_length (a : List (BitVec 8)) : (byteBits a).length = 8 * a.length := by
  induction a with
  | nil => rfl
  | cons b bs ih => rw [byteBits_cons]; simp [ih]; omega

theorem byteBits_inj (a b : List (BitVec 8)) (h : byteBits a = byteBits b) : a = b := by
  induction a generalizing b with
  | nil =>
    cases b with
    | nil => rfl
    | cons y ys => have := congrArg List.length h; simp [byteBits_length] at this
  | cons x xs ih =>
    cases b with
    | nil => have := congrArg List.length h; simp [byteBits_length] at this
    | cons y ys =>
      have h' : (List.range 8).map x.getLsbD ++ byteBits xs =
          (List.range 8).map y.getLsbD ++ byteBits ys := h
      obtain ⟨e1, e2⟩ := List.append_inj h' (by simp)
      rw [ih ys e2]
      congr 1
      apply BitVec.eq_of_getLsbD_eq
      intro i hi
      exact List.map_inj_left.mp e1 i (by simpa using hi)

theorem byteBits_all_false (a : List (BitVec 8)) :
    (byteBits a).all (· = false) = true ↔ (a.all fun b => b == 0) = true := by
  have e : byteBits (List.replicate a.length 0) = List.replicate (8 * a.length) false := by
    induction a with
    | nil => rfl
    | cons x xs ih =>
      rw [List.length_cons, List.replicate_succ, byteBits_cons, ih,
        show 8 * (xs.length + 1) = 8 * xs.length + 7 + 1 by omega, List.replicate_succ]
      rfl
  constructor
  · intro h
    have h1 : byteBits a = byteBits (List.replicate a.length 0) := by
      rw [e]
      exact all_false_eq _ _ (by simp [byteBits_length]) h (by simp)
    have := byteBits_inj _ _ h1
    rw [this]; simp
  · intro h
    have h1 : a = List.replicate a.length 0 := by
      rw [List.eq_replicate_iff]
      exact ⟨rfl, fun b hb => by simpa using List.all_eq_true.mp h b hb⟩
    rw [h1, e]; simp

end Verif
