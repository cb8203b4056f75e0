import Mathlib.Data.ZMod.Basic
import Mathlib.Data.Int.ModEq
import Verif.Spec.Programs
import Verif.Lemmas.BigInt
import Verif.Lemmas.BigIntOps
import Verif.Lemmas.BigIntSigned

/-!
# Helper lemmas for whole computations (`Props/Programs.lean`)
-/

namespace Verif

theorem Res.bind_eq_ok' {α β : Type} {x : Res α} {f : α → Res β} {b : β} (h : x.bind f = .ok b) :
    ∃ a, x = .ok a ∧ f a = .ok b := by
  cases x with
  | ok a => exact ⟨a, rfl, h⟩
  | panic => cases h
  | hang => cases h

/-- Evaluation with operators that always return, and whose results are congruent to the exact
ones. -/
theorem Expr.run_total {α : Type} {add sub mul : α → α → Res α} (P : α → Prop) (v : α → ℤ)
    (M : ℤ)
    (ha : ∀ x y, P x → P y → ∃ z, add x y = .ok z ∧ P z ∧ v z ≡ v x + v y [ZMOD M])
    (hs : ∀ x y, P x → P y → ∃ z, sub x y = .ok z ∧ P z ∧ v z ≡ v x - v y [ZMOD M])
    (hm : ∀ x y, P x → P y → ∃ z, mul x y = .ok z ∧ P z ∧ v z ≡ v x * v y [ZMOD M])
    (e : Expr α) (he : e.Lits P) :
    ∃ z, e.run add sub mul = .ok z ∧ P z ∧ v z ≡ e.denote v [ZMOD M] := by
  induction e with
  | lit a => exact ⟨a, rfl, he, rfl⟩
  | add p q ihp ihq =>
    obtain ⟨x, x1, x2, x3⟩ := ihp he.1
    obtain ⟨y, y1, y2, y3⟩ := ihq he.2
    obtain ⟨z, z1, z2, z3⟩ := ha x y x2 y2
    exact ⟨z, by rw [Expr.run, x1, y1]; exact z1, z2, z3.trans (x3.add y3)⟩
  | sub p q ihp ihq =>
    obtain ⟨x, x1, x2, x3⟩ := ihp he.1
    obtain ⟨y, y1, y2, y3⟩ := ihq he.2
    obtain ⟨z, z1, z2, z3⟩ := hs x y x2 y2
    exact ⟨z, by rw [Expr.run, x1, y1]; exact z1, z2, z3.trans (x3.sub y3)⟩
  | mul p q ihp ihq =>
    obtain ⟨x, x1, x2, x3⟩ := ihp he.1
    obtain ⟨y, y1, y2, y3⟩ := ihq he.2
    obtain ⟨z, z1, z2, z3⟩ := hm x y x2 y2
    exact ⟨z, by rw [Expr.run, x1, y1]; exact z1, z2, z3.trans (x3.mul y3)⟩

/-- Evaluation with operators that are exact whenever the exact result satisfies `F`. -/
theorem Expr.run_exact {α : Type} {add sub mul : α → α → Res α} (P : α → Prop) (v : α → ℤ)
    (F : ℤ → Prop)
    (ha : ∀ x y, P x → P y → F (v x + v y) → ∃ z, add x y = .ok z ∧ P z ∧ v z = v x + v y)
    (hs : ∀ x y, P x → P y → F (v x - v y) → ∃ z, sub x y = .ok z ∧ P z ∧ v z = v x - v y)
    (hm : ∀ x y, P x → P y → F (v x * v y) → ∃ z, mul x y = .ok z ∧ P z ∧ v z = v x * v y)
    (e : Expr α) (he : e.Lits P) (hw : e.Within v F) :
    ∃ z, e.run add sub mul = .ok z ∧ P z ∧ v z = e.denote v := by
  induction e with
  | lit a => exact ⟨a, rfl, he, rfl⟩
  | add p q ihp ihq =>
    obtain ⟨x, x1, x2, x3⟩ := ihp he.1 hw.1
    obtain ⟨y, y1, y2, y3⟩ := ihq he.2 hw.2.1
    obtain ⟨z, z1, z2, z3⟩ := ha x y x2 y2 (by rw [x3, y3]; exact hw.2.2)
    exact ⟨z, by rw [Expr.run, x1, y1]; exact z1, z2, by rw [z3, x3, y3]; rfl⟩
  | sub p q ihp ihq =>
    obtain ⟨x, x1, x2, x3⟩ := ihp he.1 hw.1
    obtain ⟨y, y1, y2, y3⟩ := ihq he.2 hw.2.1
    obtain ⟨z, z1, z2, z3⟩ := hs x y x2 y2 (by rw [x3, y3]; exact hw.2.2)
    exact ⟨z, by rw [Expr.run, x1, y1]; exact z1, z2, by rw [z3, x3, y3]; rfl⟩
  | mul p q ihp ihq =>
    obtain ⟨x, x1, x2, x3⟩ := ihp he.1 hw.1
    obtain ⟨y, y1, y2, y3⟩ := ihq he.2 hw.2.1
    obtain ⟨z, z1, z2, z3⟩ := hm x y x2 y2 (by rw [x3, y3]; exact hw.2.2)
    exact ⟨z, by rw [Expr.run, x1, y1]; exact z1, z2, by rw [z3, x3, y3]; rfl⟩

theorem zmod_to_int {N : Nat} {x : Nat} {y : ℤ} (h : (x : ZMod (256 ^ N)) = (y : ZMod (256 ^ N))) :
    (x : ℤ) ≡ y [ZMOD (256 ^ N : ℤ)] := by
  have := (ZMod.intCast_eq_intCast_iff (x : ℤ) y (256 ^ N)).mp (by push_cast at *; exact h)
  push_cast at this
  exact this

namespace BInt

/-- Every operator ends in `new_slice`, so what it returns is canonical. -/
theorem finish_canon {x : Res (List (BitVec 64) × Bool)} {b : BInt} (h : finish x = .ok b) :
    Canon b := by
  obtain ⟨⟨out, neg⟩, h1, h2⟩ := Res.bind_eq_ok' h
  by_cases hne : out = []
  · subst hne
    cases h2
  · obtain ⟨c, c1, c2, _⟩ := newSlice_spec out hne neg
    rw [show newSlice out neg = .ok b from h2] at c1
    cases c1
    exact c2

theorem newSlice_canon {s : List (BitVec 64)} {neg : Bool} {b : BInt}
    (h : newSlice s neg = .ok b) : Canon b :=
  finish_canon (x := .ok (s, neg)) h

theorem fromU_canon {t : Nat} {v : BitVec t} {b : BInt} (h : fromU t v = .ok b) :
    Canon b := by
  obtain ⟨a, _, h2⟩ := Res.bind_eq_ok' h
  exact newSlice_canon h2

theorem fromS_canon {t : Nat} {v : BitVec t} {b : BInt} (h : fromS t v = .ok b) :
    Canon b := by
  obtain ⟨a, _, h2⟩ := Res.bind_eq_ok' h
  exact newSlice_canon h2

theorem powLoop_either (self : BInt) (fuel : Nat) (rhs out b : BInt)
    (h : powLoop self fuel rhs out = .ok b) : b = out ∨ Canon b := by
  induction fuel generalizing rhs out with
  | zero => cases h
  | succ fuel ih =>
    rw [powLoop] at h
    obtain ⟨c, _, h⟩ := Res.bind_eq_ok' h
    split at h
    · obtain ⟨o, h1, h⟩ := Res.bind_eq_ok' h
      obtain ⟨x, _, h⟩ := Res.bind_eq_ok' h
      obtain ⟨r, _, h⟩ := Res.bind_eq_ok' h
      rcases ih _ _ h with e | e
      · subst e; exact .inr (finish_canon h1)
      · exact .inr e
    · cases h; exact .inl rfl

theorem pow_either {m : Mode} {fuel : Nat} {a e b : BInt} (h : pow m fuel a e = .ok b) :
    b = a ∨ Canon b := by
  obtain ⟨z, _, h⟩ := Res.bind_eq_ok' h
  split at h
  · exact .inr (fromS_canon h)
  · exact powLoop_either _ _ _ _ _ h

theorem parseLoop_canon (radix : BitVec 32) (s : List Char) (out b : BInt)
    (ho : Canon out) (h : parseLoop radix s out = .ok (.ok b)) : Canon b := by
  induction s generalizing out with
  | nil => cases h; exact ho
  | cons c cs ih =>
    rw [parseLoop] at h
    split at h
    · cases h
    · obtain ⟨r, _, h⟩ := Res.bind_eq_ok' h
      obtain ⟨x, _, h⟩ := Res.bind_eq_ok' h
      obtain ⟨d, _, h⟩ := Res.bind_eq_ok' h
      obtain ⟨o, h1, h⟩ := Res.bind_eq_ok' h
      exact ih o (finish_canon h1) h

theorem parse_canon {m : Mode} {fuel : Nat} {s : List Char} {radix : BitVec 32} {b : BInt}
    (h : (Prog.parse s radix).run m fuel = .ok b) : Canon b := by
  obtain ⟨r, h1, h2⟩ := Res.bind_eq_ok' h
  cases r with
  | error e => cases h2
  | ok c => cases h2; exact parseLoop_canon radix s _ _ (by decide) h1

theorem length_of_small {a : BInt} (ha : Rep a) (h : (ival a).natAbs.log2 < 2 ^ 57) :
    a.limbs.length ≤ 2 ^ 56 := by
  rw [natAbs_ival] at h
  rcases ha.norm.lower with h1 | h1
  · omega
  · have h0 : val a.limbs ≠ 0 := by have := Nat.two_pow_pos (64 * (a.limbs.length - 1)); omega
    have := (Nat.le_log2 h0).mpr h1
    omega

theorem neg_eq_decide {a : BInt} (ha : Canon a) : a.neg = decide (ival a < 0) := by
  have := ha.neg_iff
  by_cases h : ival a < 0
  · rw [decide_eq_true h]; exact this.mpr h
  · rw [decide_eq_false h]
    cases hn : a.neg
    · rfl
    · exact absurd (this.mp hn) h

end BInt

end Verif
