import Mathlib.Data.EReal.Operations
import Verif.Props.FloatSqrt

/-!
# Infinities and NaN among the components (C188)
-/

namespace Verif

open Flt

variable {f : FloatFmt}

namespace Special

/-- The value of a float in the extended reals, `none` for NaN. -/
noncomputable def val : Flt f → Option EReal
  | .nan => none
  | .inf s => some (if s then ⊥ else ⊤)
  | .fin q => some ((q : ℝ) : EReal)

/-- Being infinite, finite. -/
def IsInf (x : Flt f) : Prop := ∃ s, x = .inf s
def IsFin (x : Flt f) : Prop := ∃ q, x = .fin q

end Special

open Special

/-! ## The operators -/

/-- C188: with an infinite operand `+` and `*` give the sum and product in the extended reals, NaN if the operands
are infinities of opposite sign, or one is zero; NaN if an operand is. -/
theorem C188_operators (a b : Flt f) :
    (a = .nan ∨ b = .nan → a + b = .nan ∧ a * b = .nan) ∧
    ∀ x y, val a = some x → val b = some y → IsInf a ∨ IsInf b →
      (val (a + b) = if x = -y then none else some (x + y)) ∧
      (val (a * b) = if x = 0 ∨ y = 0 then none else some (x * y)) := by
  refine ⟨?_, ?_⟩
  · rintro (rfl | rfl)
    · cases b <;> exact ⟨rfl, rfl⟩
    · cases a <;> exact ⟨rfl, rfl⟩
  · intro x y hx hy h
    have z : ∀ q : ℚ, (((q : ℝ) : EReal) = 0 ↔ q = 0) := fun q => by
      rw [EReal.coe_eq_zero]; exact_mod_cast Iff.rfl
    have n : ∀ q : ℚ, q < 0 → ((q : ℝ) : EReal) < 0 := fun q h => by
      exact_mod_cast h
    have p : ∀ q : ℚ, 0 < q → 0 < ((q : ℝ) : EReal) := fun q h => by
      exact_mod_cast h
    rcases a with _ | s | u
    · cases hx
    · rcases b with _ | t | v
      · cases hy
      · cases hx; cases hy
        rw [show (.inf s + .inf t : Flt f) = if s = t then .inf s else .nan from rfl,
          show (.inf s * .inf t : Flt f) = .inf (xor s t) from rfl]
        cases s <;> cases t <;> constructor <;> simp [val]
      · cases hx; cases hy
        rw [show (.inf s + .fin v : Flt f) = .inf s from rfl,
          show (.inf s * .fin v : Flt f) = if v = 0 then .nan else .inf (xor s (decide (v < 0))) from rfl]
        constructor
        · cases s
          · rw [if_neg (fun h => by rw [← EReal.coe_neg] at h; exact EReal.top_ne_coe _ h)]
            simp [val]
          · rw [if_neg (fun h => by rw [← EReal.coe_neg] at h; exact EReal.bot_ne_coe _ h)]
            simp [val]
        · rcases lt_trichotomy v 0 with hv | hv | hv
          · rw [if_neg hv.ne, if_neg (by rintro (h | h); · cases s <;> simp at h
                                         · exact (n v hv).ne h)]
            cases s
            · simp [val, hv, EReal.top_mul_of_neg (n v hv)]
            · simp [val, hv, EReal.bot_mul_of_neg (n v hv)]
          · rw [if_pos hv, if_pos (.inr ((z v).2 hv))]; rfl
          · rw [if_neg hv.ne', if_neg (by rintro (h | h); · cases s <;> simp at h
                                          · exact (p v hv).ne' h)]
            cases s
            · simp [val, hv.le, EReal.top_mul_of_pos (p v hv)]
            · simp [val, hv.le, EReal.bot_mul_of_pos (p v hv)]
    · rcases b with _ | t | v
      · cases hy
      · cases hx; cases hy
        rw [show (.fin u + .inf t : Flt f) = .inf t from rfl,
          show (.fin u * .inf t : Flt f) = if u = 0 then .nan else .inf (xor (decide (u < 0)) t) from rfl]
        constructor
        · cases t
          · rw [if_neg (by simp)]
            simp [val]
          · rw [if_neg (by simp)]
            simp [val]
        · rcases lt_trichotomy u 0 with hv | hv | hv
          · rw [if_neg hv.ne, if_neg (by rintro (h | h); · exact (n u hv).ne h
                                         · cases t <;> simp at h)]
            cases t
            · simp [val, hv, EReal.mul_top_of_neg (n u hv)]
            · simp [val, hv, EReal.mul_bot_of_neg (n u hv)]
          · rw [if_pos hv, if_pos (.inl ((z u).2 hv))]; rfl
          · rw [if_neg hv.ne', if_neg (by rintro (h | h); · exact (p u hv).ne' h
                                          · cases t <;> simp at h)]
            cases t
            · simp [val, hv.le, EReal.mul_top_of_pos (p u hv)]
            · simp [val, hv.le, EReal.mul_bot_of_pos (p u hv)]
      · rcases h with ⟨_, h⟩ | ⟨_, h⟩ <;> cases h

/-- C188: likewise quotients by numbers that are not zero, NaN if both are infinite. (The sign of a zero, which decides
the sign of a quotient by it, is not modelled.) -/
theorem C188_divide (a b : Flt f) :
    (a = .nan ∨ b = .nan → a / b = .nan) ∧
    ∀ x y, val a = some x → val b = some y → IsInf a ∨ IsInf b → y ≠ 0 →
      (IsInf a ∧ IsInf b → val (a / b) = none) ∧ (¬ (IsInf a ∧ IsInf b) → val (a / b) = some (x / y)) := by
  refine ⟨?_, ?_⟩
  · rintro (rfl | rfl)
    · cases b <;> rfl
    · cases a <;> rfl
  · intro x y hx hy h h0
    rcases a with _ | s | u
    · cases hx
    · rcases b with _ | t | v
      · cases hy
      · exact ⟨fun _ => rfl, fun h => absurd ⟨⟨_, rfl⟩, ⟨_, rfl⟩⟩ h⟩
      · cases hx; cases hy
        refine ⟨fun h => (by obtain ⟨_, _, h⟩ := h; cases h), fun _ => ?_⟩
        rw [show (.inf s / .fin v : Flt f) = .inf (xor s (decide (v < 0))) from rfl]
        rcases lt_trichotomy v 0 with hv | hv | hv
        · have hv' : (((v : ℝ) : EReal)) < 0 := by exact_mod_cast hv
          cases s
          · simp [val, hv, EReal.top_div_of_neg_ne_bot hv' (EReal.coe_ne_bot _)]
          · simp [val, hv, EReal.bot_div_of_neg_ne_bot hv' (EReal.coe_ne_bot _)]
        · subst hv; exact absurd (by simp) h0
        · have hv' : 0 < (((v : ℝ) : EReal)) := by exact_mod_cast hv
          cases s
          · simp [val, hv.le, EReal.top_div_of_pos_ne_top hv' (EReal.coe_ne_top _)]
          · simp [val, hv.le, EReal.bot_div_of_pos_ne_top hv' (EReal.coe_ne_top _)]
    · rcases b with _ | t | v
      · cases hy
      · cases hx; cases hy
        refine ⟨fun h => (by obtain ⟨⟨_, h⟩, _⟩ := h; cases h), fun _ => ?_⟩
        rw [show (.fin u / .inf t : Flt f) = .fin 0 from rfl]
        cases t <;> simp [val]
      · rcases h with ⟨_, h⟩ | ⟨_, h⟩ <;> cases h

/-- C188: dividing by a zero gives NaN for zero and NaN, and an infinity for everything else. -/
theorem C188_by_zero (a b : Flt f) (hb : val b = some 0) :
    (a / b = .nan ↔ a = .nan ∨ val a = some 0) ∧ (IsInf (a / b) ↔ a ≠ .nan ∧ val a ≠ some 0) := by
  rcases b with _ | t | v
  · cases hb
  · exfalso
    cases t <;> simp [val] at hb
  · have hv : v = 0 := by
      simp only [val, Option.some.injEq, EReal.coe_eq_zero] at hb
      exact_mod_cast hb
    subst hv
    rcases a with _ | s | u
    · rw [show (.nan / .fin 0 : Flt f) = .nan from rfl]
      refine ⟨by simp, fun ⟨_, h⟩ => (by cases h), fun h => absurd rfl h.1⟩
    · rw [show (.inf s / .fin 0 : Flt f) = .inf (xor s (decide ((0 : ℚ) < 0))) from rfl]
      refine ⟨⟨fun h => (by cases h), fun h => ?_⟩, fun _ => ⟨by simp, ?_⟩, fun _ => ⟨_, rfl⟩⟩
      · rcases h with h | h
        · cases h
        · cases s <;> simp [val] at h
      · cases s <;> simp [val]
    · have hz : val (.fin u : Flt f) = some 0 ↔ u = 0 := by
        simp only [val, Option.some.injEq, EReal.coe_eq_zero]
        exact_mod_cast Iff.rfl
      rw [hz, show (.fin u / .fin 0 : Flt f) = if u = 0 then .nan else .inf (decide (u < 0)) from by
        change Flt.div _ _ = _
        simp [Flt.div]]
      by_cases hu : u = 0
      · rw [if_pos hu]
        exact ⟨by simp [hu], fun ⟨_, h⟩ => (by cases h), fun h => absurd (hz.mpr hu) h.2⟩
      · rw [if_neg hu]
        exact ⟨by simp [hu], fun _ => ⟨by simp, fun h => hu (hz.mp h)⟩, fun _ => ⟨_, rfl⟩⟩

-- one over zero, zero over zero
example : IsInf ((.fin 1 : Flt .f64) / .fin 0) ∧ (.fin 0 : Flt .f64) / .fin 0 = .nan :=
  ⟨(C188_by_zero _ _ (by simp [val])).2.mpr ⟨by simp, by simp [val]⟩,
    (C188_by_zero _ _ (by simp [val])).1.mpr (.inr (by simp [val]))⟩

/-- C188: `<` is that of the extended reals, false if an operand is NaN. -/
theorem C188_less (a b : Flt f) : a < b ↔ ∃ x y, val a = some x ∧ val b = some y ∧ x < y := by
  have e : a < b ↔ ltB a b = true := Iff.rfl
  rw [e]
  rcases a with _ | s | u <;> rcases b with _ | t | v
  all_goals simp only [ltB, val, decide_eq_true_eq, Option.some.injEq, reduceCtorEq, false_and, and_false,
    exists_false, exists_eq_left', Bool.false_eq_true, exists_and_left]
  · cases s <;> cases t <;> simp
  · cases s <;> simp
  · cases t <;> simp
  · rw [EReal.coe_lt_coe_iff]; exact_mod_cast Iff.rfl

/-! ## Sums -/

private theorem fold_nan (l : List (Flt f)) : l.foldl (fun a v => a + v) .nan = .nan := by
  induction l with
  | nil => rfl
  | cons x l ih => rw [List.foldl_cons, show (.nan + x : Flt f) = .nan by cases x <;> rfl]; exact ih

private theorem fold_inf (t : Bool) (l : List (Flt f)) : l.foldl (fun a v => a + v) (.inf t) =
    if .nan ∈ l ∨ .inf (!t) ∈ l then .nan else .inf t := by
  induction l with
  | nil => rfl
  | cons x l ih =>
    rw [List.foldl_cons]
    rcases x with _ | s | q
    · rw [show (.inf t + .nan : Flt f) = .nan from rfl, fold_nan, if_pos (.inl (List.mem_cons_self ..))]
    · rw [show (.inf t + .inf s : Flt f) = if t = s then .inf t else .nan from rfl]
      rcases eq_or_ne t s with rfl | h
      · rw [if_pos rfl, ih]
        simp
      · have : s = !t := by cases s <;> cases t <;> simp_all
        rw [if_neg h, fold_nan, if_pos (.inr (by rw [this]; exact List.mem_cons_self ..))]
    · rw [show (.inf t + .fin q : Flt f) = .inf t from rfl, ih]
      simp

private theorem fold_fin_ne (l : List (Flt f)) (h : ∀ x ∈ l, IsFin x) (a : Flt f) (ha : a ≠ .nan) :
    l.foldl (fun a v => a + v) a ≠ .nan := by
  induction l generalizing a with
  | nil => exact ha
  | cons x l ih =>
    rw [List.foldl_cons]
    obtain ⟨q, rfl⟩ := h x (List.mem_cons_self ..)
    refine ih (fun y hy => h y (List.mem_cons_of_mem _ hy)) _ ?_
    rcases a with _ | s | p
    · exact absurd rfl ha
    · exact nofun
    · rw [show (.fin p + .fin q : Flt f) = rnd f (p + q) from rfl]
      unfold rnd
      split
      · exact nofun
      · dsimp only; split <;> exact nofun

/-- Adding up floats of which one is infinite. -/
private theorem fold_split (l1 : List (Flt f)) (h : ∀ x ∈ l1, IsFin x) (t : Bool) (l2 : List (Flt f)) :
    (l1 ++ .inf t :: l2).foldl (fun a v => a + v) 0 =
      if l1.foldl (fun a v => a + v) 0 = .inf (!t) ∨ .nan ∈ l2 ∨ .inf (!t) ∈ l2 then .nan else .inf t := by
  rw [List.foldl_append, List.foldl_cons]
  have := fold_fin_ne l1 h 0 nofun
  rcases hs : l1.foldl (fun a v => a + v) (0 : Flt f) with _ | s | q
  · exact absurd hs this
  · rw [show (.inf s + .inf t : Flt f) = if s = t then .inf s else .nan from rfl]
    rcases eq_or_ne s t with rfl | hst
    · rw [if_pos rfl, fold_inf]
      simp
    · have : s = !t := by cases s <;> cases t <;> simp_all
      rw [if_neg hst, fold_nan, if_pos (.inl (by rw [this]))]
  · rw [show (.fin q + .inf t : Flt f) = .inf t from rfl, fold_inf]
    simp

private theorem fold_mem_nan (l : List (Flt f)) (a : Flt f) (h : .nan ∈ l) :
    l.foldl (fun a v => a + v) a = .nan := by
  obtain ⟨l1, l2, rfl⟩ := List.append_of_mem h
  rw [List.foldl_append, List.foldl_cons, show ∀ x : Flt f, x + .nan = .nan by intro x; cases x <;> rfl, fold_nan]

private theorem fold_mem_inf (l : List (Flt f)) (a : Flt f) (t : Bool) (h : .inf t ∈ l) :
    l.foldl (fun a v => a + v) a = .nan ∨ l.foldl (fun a v => a + v) a = .inf t := by
  obtain ⟨l1, l2, rfl⟩ := List.append_of_mem h
  rw [List.foldl_append, List.foldl_cons]
  generalize l1.foldl (fun a v => a + v) a = x
  have e : x + .inf t = .nan ∨ x + .inf t = .inf t := by
    rcases x with _ | s | q
    · exact .inl rfl
    · rw [show (.inf s + .inf t : Flt f) = if s = t then .inf s else .nan from rfl]
      rcases eq_or_ne s t with rfl | hst
      · rw [if_pos rfl]; exact .inr rfl
      · rw [if_neg hst]; exact .inl rfl
    · exact .inr rfl
  rcases e with e | e <;> rw [e]
  · exact .inl (fold_nan _)
  · rw [fold_inf]; split <;> simp

/-- C188 for `sum`: NaN if a component is; with an infinite component never finite; and exactly which: if the
components before the first infinite one are finite, the result is that infinity unless the sum of those overflowed
the other way, or a NaN or the other infinity follows. -/
theorem C188_sum (l : List (Flt f)) :
    ∃ s, Vect.sum l.length l = some s ∧ (.nan ∈ l → s = .nan) ∧
      (∀ t, .inf t ∈ l → s = .nan ∨ s = .inf t) ∧
      ∀ l1 t l2, l = l1 ++ .inf t :: l2 → (∀ x ∈ l1, IsFin x) →
        ∃ s1, Vect.sum l1.length l1 = some s1 ∧
          s = if s1 = .inf (!t) ∨ .nan ∈ l2 ∨ .inf (!t) ∈ l2 then .nan else .inf t := by
  refine ⟨_, (Vect.C77_others l.length l rfl 0).2.2.1, fold_mem_nan l 0, fun t => fold_mem_inf l 0 t, ?_⟩
  rintro l1 t l2 rfl h1
  exact ⟨_, (Vect.C77_others l1.length l1 rfl 0).2.2.1, fold_split l1 h1 t l2⟩

/-! ## Scalar and matrix products -/

private theorem mul_nan (p : Flt f × Flt f)
    (h : p.1 = .nan ∨ p.2 = .nan ∨ IsInf p.1 ∧ p.2 = 0 ∨ p.1 = 0 ∧ IsInf p.2) : p.1 * p.2 = .nan := by
  obtain ⟨a, b⟩ := p
  rcases h with h | h | ⟨⟨s, h⟩, h'⟩ | ⟨h', ⟨s, h⟩⟩
  · exact ((C188_operators a b).1 (.inl h)).2
  · exact ((C188_operators a b).1 (.inr h)).2
  · dsimp only at h h'; subst h h'
    exact if_pos (c := (0 : ℚ) = 0) (e := .inf false) rfl
  · dsimp only at h h'; subst h h'
    exact if_pos (c := (0 : ℚ) = 0) (e := .inf false) rfl

private theorem mul_inf (a b : Flt f) (h : IsInf a ∨ IsInf b) : a * b = .nan ∨ ∃ t, a * b = .inf t := by
  rcases a with _ | s | u
  · exact .inl (by cases b <;> rfl)
  · rcases b with _ | t | v
    · exact .inl rfl
    · exact .inr ⟨_, rfl⟩
    · rw [show (.inf s * .fin v : Flt f) = if v = 0 then .nan else .inf (xor s (decide (v < 0))) from rfl]
      split
      · exact .inl rfl
      · exact .inr ⟨_, rfl⟩
  · rcases b with _ | t | v
    · exact .inl rfl
    · rw [show (.fin u * .inf t : Flt f) = if u = 0 then .nan else .inf (xor (decide (u < 0)) t) from rfl]
      split
      · exact .inl rfl
      · exact .inr ⟨_, rfl⟩
    · rcases h with ⟨_, h⟩ | ⟨_, h⟩ <;> cases h

/-- The possible results of adding up the products of pairs. -/
private theorem pairs (l : List (Flt f × Flt f)) :
    let s := (l.map fun p => p.1 * p.2).foldl (fun a v => a + v) 0
    ((∃ p ∈ l, p.1 = .nan ∨ p.2 = .nan ∨ IsInf p.1 ∧ p.2 = 0 ∨ p.1 = 0 ∧ IsInf p.2) → s = .nan) ∧
    ((∃ p ∈ l, IsInf p.1 ∨ IsInf p.2) → ¬ IsFin s) := by
  refine ⟨?_, ?_⟩
  · rintro ⟨p, hp, h⟩
    exact fold_mem_nan _ _ (List.mem_map.2 ⟨p, hp, mul_nan p h⟩)
  · rintro ⟨⟨a, b⟩, hp, h⟩ ⟨q, hq⟩
    have hx : a * b ∈ l.map fun p => p.1 * p.2 := List.mem_map.2 ⟨_, hp, rfl⟩
    rcases mul_inf a b h with h | ⟨t, h⟩
    · rw [h] at hx
      rw [fold_mem_nan _ _ hx] at hq
      cases hq
    · rw [h] at hx
      rcases fold_mem_inf _ 0 _ hx with h | h <;> rw [h] at hq <;> cases hq

/-- C188 for `dot_product`: NaN if a component is, or an infinite one meets a zero; never finite with an infinite
component. -/
theorem C188_dot {n : Nat} (x y : Fin n → Flt f) :
    let s := Vect.dotProduct (List.ofFn x) (List.ofFn y)
    ((∃ i, x i = .nan ∨ y i = .nan ∨ IsInf (x i) ∧ y i = 0 ∨ x i = 0 ∧ IsInf (y i)) → s = .nan) ∧
    ((∃ i, IsInf (x i) ∨ IsInf (y i)) → ¬ IsFin s) := by
  have e : Vect.dotProduct (List.ofFn x) (List.ofFn y) =
      ((List.ofFn fun i => (x i, y i)).map fun p => p.1 * p.2).foldl (fun a v => a + v) 0 := by
    unfold Vect.dotProduct
    rw [Vect.stdZip_map (fun x y => x * y), Vect.zipWith_ofFn, List.map_ofFn]
    rfl
  dsimp only
  rw [e]
  have := pairs (List.ofFn fun i => (x i, y i))
  refine ⟨?_, ?_⟩
  · rintro ⟨i, h⟩
    exact this.1 ⟨_, (List.mem_ofFn' _ _).2 ⟨i, rfl⟩, h⟩
  · rintro ⟨i, h⟩
    exact this.2 ⟨_, (List.mem_ofFn' _ _).2 ⟨i, rfl⟩, h⟩

private theorem mulEntry_fold {R C D : Nat} (g h : Nat → Nat → Flt f) (hC : 0 < C) {i j : Nat} (hi : i < R)
    (hj : j < D) :
    Mat.mulEntry C (rowsOf R C g) (rowsOf C D h) i j =
      .ok (((List.range (C - 1)).map fun k => g i (k + 1) * h (k + 1) j).foldl (fun a v => a + v)
        (g i 0 * h 0 j)) := by
  have key : ∀ n, n + 1 ≤ C → forUpM n (fun k out =>
      (Mat.get (rowsOf R C g) i (k + 1)).bind fun x => (Mat.get (rowsOf C D h) (k + 1) j).bind fun y =>
          Res.ok (out + x * y)) (g i 0 * h 0 j) =
      .ok (((List.range n).map fun k => g i (k + 1) * h (k + 1) j).foldl (fun a v => a + v) (g i 0 * h 0 j)) := by
    intro n
    induction n with
    | zero => intro _; rfl
    | succ n ih =>
      intro hn
      rw [forUpM, ih (by omega)]
      simp only [Res.bind]
      rw [mat_get _ hi (by omega), mat_get _ (by omega) hj]
      simp only
      rw [List.range_succ, List.map_append, List.foldl_append]
      rfl
  unfold Mat.mulEntry
  rw [mat_get _ hi hC, mat_get _ hC hj]
  simp only [Res.bind] at key ⊢
  exact key (C - 1) (by omega)

/-- C188 for matrix products: an entry is NaN if a factor in its row or column is, or an infinite one meets a zero;
it is never finite with an infinite factor. -/
theorem C188_matrix_mul {R C D : Nat} (hC : 0 < C) {a b : List (List (Flt f))} (A : Matrix (Fin R) (Fin C) (Flt f))
    (B : Matrix (Fin C) (Fin D) (Flt f)) (ha : MatOf a A) (hb : MatOf b B) :
    ∃ (c : List (List (Flt f))) (P : Matrix (Fin R) (Fin D) (Flt f)), Mat.mul R C D a b = .ok c ∧ MatOf c P ∧
      ∀ i j,
        ((∃ k, A i k = .nan ∨ B k j = .nan ∨ IsInf (A i k) ∧ B k j = 0 ∨ A i k = 0 ∧ IsInf (B k j)) →
          P i j = .nan) ∧
        ((∃ k, IsInf (A i k) ∨ IsInf (B k j)) → ¬ IsFin (P i j)) := by
  let F : Nat → Nat → Flt f := fun i j =>
    ((List.range (C - 1)).map fun k => extend A i (k + 1) * extend B (k + 1) j).foldl (fun a v => a + v)
      (extend A i 0 * extend B 0 j)
  refine ⟨rowsOf R D F, fun i j => F i j, ?_, rowsOf_matOf R D F, fun i j => ?_⟩
  · rw [matOf_rowsOf ha, matOf_rowsOf hb]
    unfold Mat.mul
    rw [fromFnM_eq R _ (fun i => (List.range D).map fun j => F i j)]
    · rfl
    · intro i hi
      exact fromFnM_eq D _ _ fun j hj => mulEntry_fold _ _ hC hi hj
  · have mem : ∀ k : Fin C, k ≠ ⟨0, hC⟩ → A i k * B k j ∈
        (List.range (C - 1)).map fun k => extend A i (k + 1) * extend B (k + 1) j := by
      rintro ⟨k, hk⟩ hne
      have h0 : k ≠ 0 := fun h => hne (by subst h; rfl)
      refine List.mem_map.2 ⟨k - 1, List.mem_range.2 (by omega), ?_⟩
      rw [show k - 1 + 1 = ((⟨k, hk⟩ : Fin C) : Nat) by simp only; omega, extend_apply, extend_apply]
    have zero : extend A i 0 * extend B 0 j = A i ⟨0, hC⟩ * B ⟨0, hC⟩ j := by
      rw [← extend_apply A, ← extend_apply B]
    change (_ → (List.foldl _ _ _) = _) ∧ (_ → ¬ IsFin (List.foldl _ _ _))
    rw [zero]
    refine ⟨?_, ?_⟩
    · rintro ⟨k, h⟩
      have := mul_nan (A i k, B k j) h
      by_cases hk : k = ⟨0, hC⟩
      · subst hk
        dsimp only at this
        rw [this, fold_nan]
      · exact fold_mem_nan _ _ (this ▸ mem k hk)
    · rintro ⟨k, h⟩ ⟨q, hq⟩
      rcases mul_inf (A i k) (B k j) h with h | ⟨t, h⟩
      · by_cases hk : k = ⟨0, hC⟩
        · subst hk
          rw [h, fold_nan] at hq
          cases hq
        · rw [fold_mem_nan _ _ (h ▸ mem k hk)] at hq
          cases hq
      · by_cases hk : k = ⟨0, hC⟩
        · subst hk
          rw [h, fold_inf] at hq
          split at hq <;> cases hq
        · rcases fold_mem_inf _ (A i ⟨0, hC⟩ * B ⟨0, hC⟩ j) _ (h ▸ mem k hk) with h | h <;> rw [h] at hq <;> cases hq

/-! ## Complex numbers -/

private theorem abs_inf {r i : Flt f} (h : IsInf r ∨ IsInf i) (hr : r ≠ .nan) (hi : i ≠ .nan) :
    Complex.abs sqrt (⟨r, i⟩ : Complex (Flt f)) = .inf false := by
  have sq : ∀ q : ℚ, rnd f (q * q) = .inf false ∨ ∃ p, rnd f (q * q) = .fin p := by
    intro q
    unfold rnd
    split
    · exact .inr ⟨_, rfl⟩
    · dsimp only
      split
      · exact .inr ⟨_, rfl⟩
      · rw [show decide (q * q < 0) = false from by simpa using mul_self_nonneg q]
        exact .inl rfl
  have key : r * r + i * i = .inf false := by
    rcases r with _ | s | p
    · exact absurd rfl hr
    · rw [show (.inf s * .inf s : Flt f) = .inf (xor s s) from rfl, Bool.xor_self]
      rcases i with _ | t | q
      · exact absurd rfl hi
      · rw [show (.inf t * .inf t : Flt f) = .inf (xor t t) from rfl, Bool.xor_self]; rfl
      · rw [show (.fin q * .fin q : Flt f) = rnd f (q * q) from rfl]
        rcases sq q with h | ⟨p, h⟩ <;> rw [h] <;> rfl
    · rcases i with _ | t | q
      · exact absurd rfl hi
      · rw [show (.inf t * .inf t : Flt f) = .inf (xor t t) from rfl, Bool.xor_self,
          show (.fin p * .fin p : Flt f) = rnd f (p * p) from rfl]
        rcases sq p with h | ⟨p, h⟩ <;> rw [h] <;> rfl
      · rcases h with ⟨_, h⟩ | ⟨_, h⟩ <;> cases h
  unfold Complex.abs Complex.absSquared
  rw [key]; rfl

private theorem abs_nan {r i : Flt f} (h : r = .nan ∨ i = .nan) :
    Complex.abs sqrt (⟨r, i⟩ : Complex (Flt f)) = .nan := by
  have key : r * r + i * i = .nan := by
    rcases h with rfl | rfl
    · rw [show (.nan * .nan : Flt f) = .nan from rfl]
      cases i * i <;> rfl
    · rw [show (.nan * .nan : Flt f) = .nan from rfl]
      cases r * r <;> rfl
  unfold Complex.abs Complex.absSquared
  rw [key]; rfl

/-- C188 for complex numbers: NaN parts give the absolute value NaN; without them it is infinite if a part is, and
this is kept by multiplication by a nonzero scalar. -/
theorem C188_complex_abs (r i : Flt f) :
    (r = .nan ∨ i = .nan → Complex.abs sqrt (⟨r, i⟩ : Complex (Flt f)) = .nan) ∧
    (IsInf r ∨ IsInf i → r ≠ .nan → i ≠ .nan →
      Complex.abs sqrt (⟨r, i⟩ : Complex (Flt f)) = .inf false ∧
      ∀ c : ℚ, c ≠ 0 → Complex.abs sqrt (Complex.mulScalar ⟨r, i⟩ (.fin c : Flt f)) = .inf false) := by
  refine ⟨abs_nan, fun h hr hi => ⟨abs_inf h hr hi, fun c hc => ?_⟩⟩
  have ne : ∀ x : Flt f, x ≠ .nan → x * .fin c ≠ .nan := by
    intro x hx
    rcases x with _ | s | q
    · exact absurd rfl hx
    · rw [show (.inf s * .fin c : Flt f) = if c = 0 then .nan else .inf (xor s (decide (c < 0))) from rfl, if_neg hc]
      exact nofun
    · rw [show (.fin q * .fin c : Flt f) = rnd f (q * c) from rfl]
      unfold rnd
      split
      · exact nofun
      · dsimp only; split <;> exact nofun
  have io : ∀ x : Flt f, IsInf x → IsInf (x * .fin c) := by
    rintro x ⟨s, rfl⟩
    exact ⟨_, if_neg hc⟩
  exact abs_inf (h.imp (io r) (io i)) (ne r hr) (ne i hi)

/-- C188 for products of complex numbers, what the code does: an infinite real number with a finite imaginary part
times a finite number is infinite exactly if both parts of the latter are not zero, else NaN (if the products of the
finite parts do not overflow). Missing: the same if one part of the factor is zero, which is false. -/
theorem C188_complex_mul_partial (s : Bool) (b c d : ℚ) (h1 : IsFin (rnd f (b * d))) (h2 : IsFin (rnd f (b * c))) :
    Complex.abs sqrt (Complex.mul ⟨.inf s, .fin b⟩ ⟨.fin c, .fin d⟩ : Complex (Flt f)) =
      if c = 0 ∨ d = 0 then .nan else .inf false := by
  obtain ⟨u, h1⟩ := h1
  obtain ⟨v, h2⟩ := h2
  have e : (Complex.mul ⟨.inf s, .fin b⟩ ⟨.fin c, .fin d⟩ : Complex (Flt f)) =
      ⟨if c = 0 then .nan else .inf (xor s (decide (c < 0))),
        if d = 0 then .nan else .inf (xor s (decide (d < 0)))⟩ := by
    unfold Complex.mul
    congr 1
    · change (if c = 0 then .nan else .inf (xor s (decide (c < 0))) : Flt f) - rnd f (b * d) = _
      rw [h1]
      split <;> rfl
    · change (if d = 0 then .nan else .inf (xor s (decide (d < 0))) : Flt f) + rnd f (c * b) = _
      rw [mul_comm c b, h2]
      split <;> rfl
  rw [e]
  by_cases h : c = 0 ∨ d = 0
  · rw [if_pos h]
    exact abs_nan (h.imp (fun h => if_pos h) (fun h => if_pos h))
  · rw [if_neg h]
    rw [not_or] at h
    rw [if_neg h.1, if_neg h.2]
    exact abs_inf (.inl ⟨_, rfl⟩) nofun nofun

example : Vect.sum 3 [.fin 1, .inf true, .fin 2] = some (.inf true : Flt .f32) ∧
    Vect.sum 3 [.inf false, .inf true, .fin 2] = some (.nan : Flt .f32) ∧
    Vect.sum 3 [maxValue, maxValue, .inf true] = some (.nan : Flt .f32) ∧
    Vect.dotProduct [.inf false, .fin 1] [.fin (-2), .fin 3] = (.inf true : Flt .f64) ∧
    Vect.dotProduct [.inf false, .fin 1] [.fin 0, .fin 3] = (.nan : Flt .f64) ∧
    Mat.mul 1 2 1 [[.fin 1, .inf true]] [[.fin 1], [.fin 2]] = .ok [[(.inf true : Flt .f64)]] ∧
    Complex.abs sqrt (Complex.mul ⟨.inf true, .fin 1⟩ ⟨.fin 2, .fin 3⟩ : Complex (Flt .f64)) = .inf false ∧
    Complex.abs sqrt (Complex.mulScalar ⟨.inf true, .fin 1⟩ (.fin 2) : Complex (Flt .f64)) = .inf false := by
  decide +kernel

/-- C188 is violated by products of complex numbers: the product of infinity and 1, both complex, has no absolute
value. -/
theorem C188_violated :
    Complex.mul ⟨.inf false, .fin 0⟩ ⟨.fin 1, .fin 0⟩ = (⟨.inf false, .nan⟩ : Complex (Flt .f64)) ∧
    Complex.abs sqrt (⟨.inf false, .fin 0⟩ : Complex (Flt .f64)) = .inf false ∧
    Complex.abs sqrt (⟨.inf false, .nan⟩ : Complex (Flt .f64)) = .nan := by
  decide +kernel

end Verif
