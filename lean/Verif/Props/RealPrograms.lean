import Verif.Spec.RealPrograms
import Verif.Props.RatExact
import Verif.Props.Fixed
import Verif.Props.Signs
import Verif.Props.Profile
import Mathlib.Data.Int.ModEq

/-!
# C125: whole computations with rational and fixed-point numbers
-/

namespace Verif

open Prim

theorem bind_ne_hang {α β : Type} {x : Res α} {f : α → Res β} (hx : x ≠ .hang)
    (hf : ∀ a, x = .ok a → f a ≠ .hang) : x.bind f ≠ .hang := by
  cases x with
  | ok a => exact hf a rfl
  | panic => simp [Res.bind]
  | hang => exact absurd rfl hx

theorem arith_ne_hang (m : Mode) (p : Prim) (z : Int) : arith m p z ≠ .hang := by
  unfold arith
  split
  · simp
  · cases m <;> simp

theorem arith_in_range {m : Mode} {p : Prim} (hb : 0 < p.bits) {z r : Int}
    (h : arith m p z = .ok r) : p.InRange r := by
  unfold arith at h
  split at h
  · rename_i hz; cases h; exact hz
  · cases m with
    | debug => simp at h
    | release => cases h; exact (wrap_spec hb z).1

/-! ## `Rat` -/

namespace RatM

theorem newUnwrap_ne_hang {p : Prim} (hb : 2 ≤ p.bits) {n d : Int} (hn : p.InRange n)
    (hd : p.InRange d) : newUnwrap p n d ≠ .hang := by
  by_cases h0 : d = 0
  · rw [h0, newUnwrap_zero]; simp
  · rw [newUnwrap_eq h0]
    rcases reduce_cases hb hn hd h0 with h1 | ⟨r', h1, _⟩ <;> rw [h1] <;> simp

/-- C125: in either build the computation comes to an end, so if it returns nothing it panics. -/
theorem C125_rat_ends (m : Mode) (p : Prim) (hb : 2 ≤ p.bits) (e : Prog) (he : e.Typed p) :
    e.run m p ≠ .hang := by
  have hp : 0 < p.bits := by omega
  have ar := fun z => arith_ne_hang m p z
  induction e with
  | new n d => exact newUnwrap_ne_hang hb he.1 he.2
  | add a b iha ihb =>
    exact bind_ne_hang (iha he.1) fun x _ => bind_ne_hang (ihb he.2) fun y _ =>
      bind_ne_hang (ar _) fun _ _ => bind_ne_hang (ar _) fun _ _ => bind_ne_hang (ar _) fun _ h1 =>
      bind_ne_hang (ar _) fun _ h2 => newUnwrap_ne_hang hb (arith_in_range hp h1) (arith_in_range hp h2)
  | sub a b iha ihb =>
    exact bind_ne_hang (iha he.1) fun x _ => bind_ne_hang (ihb he.2) fun y _ =>
      bind_ne_hang (ar _) fun _ _ => bind_ne_hang (ar _) fun _ _ => bind_ne_hang (ar _) fun _ h1 =>
      bind_ne_hang (ar _) fun _ h2 => newUnwrap_ne_hang hb (arith_in_range hp h1) (arith_in_range hp h2)
  | mul a b iha ihb =>
    exact bind_ne_hang (iha he.1) fun x _ => bind_ne_hang (ihb he.2) fun y _ =>
      bind_ne_hang (ar _) fun _ h1 => bind_ne_hang (ar _) fun _ h2 =>
      newUnwrap_ne_hang hb (arith_in_range hp h1) (arith_in_range hp h2)
  | div a b iha ihb =>
    exact bind_ne_hang (iha he.1) fun x _ => bind_ne_hang (ihb he.2) fun y _ =>
      bind_ne_hang (ar _) fun _ h1 => bind_ne_hang (ar _) fun _ h2 =>
      newUnwrap_ne_hang hb (arith_in_range hp h1) (arith_in_range hp h2)
  | neg a iha =>
    exact bind_ne_hang (iha he) fun x _ => bind_ne_hang (ar _) fun _ _ => by simp

/-- C125, `Rat` in debug builds: what a computation returns is the number it stands for; so it does not
return anything if something is divided by zero. -/
theorem C125_rat_debug (p : Prim) (hb : 2 ≤ p.bits) (e : Prog) (he : e.Typed p) (r : RatM)
    (h : e.run .debug p = .ok r) : RatValid p r ∧ e.denote = some (qval r) := by
  induction e generalizing r with
  | new n d =>
    obtain ⟨h1, h2, h3⟩ := newUnwrap_val hb he.1 he.2 h
    exact ⟨h1, by rw [Prog.denote, if_neg h2, h3]⟩
  | add a b iha ihb =>
    obtain ⟨x, hx, h⟩ := bind_ok h
    obtain ⟨y, hy, h⟩ := bind_ok h
    obtain ⟨vx, ex⟩ := iha he.1 x hx
    obtain ⟨vy, ey⟩ := ihb he.2 y hy
    obtain ⟨v, q⟩ := (C67_debug_exact p hb x y r vx vy).1 h
    exact ⟨v, by rw [Prog.denote, ex, ey, q]; rfl⟩
  | sub a b iha ihb =>
    obtain ⟨x, hx, h⟩ := bind_ok h
    obtain ⟨y, hy, h⟩ := bind_ok h
    obtain ⟨vx, ex⟩ := iha he.1 x hx
    obtain ⟨vy, ey⟩ := ihb he.2 y hy
    obtain ⟨v, q⟩ := (C67_debug_exact p hb x y r vx vy).2.1 h
    exact ⟨v, by rw [Prog.denote, ex, ey, q]; rfl⟩
  | mul a b iha ihb =>
    obtain ⟨x, hx, h⟩ := bind_ok h
    obtain ⟨y, hy, h⟩ := bind_ok h
    obtain ⟨vx, ex⟩ := iha he.1 x hx
    obtain ⟨vy, ey⟩ := ihb he.2 y hy
    obtain ⟨v, q⟩ := (C67_debug_exact p hb x y r vx vy).2.2.1 h
    exact ⟨v, by rw [Prog.denote, ex, ey, q]; rfl⟩
  | div a b iha ihb =>
    obtain ⟨x, hx, h⟩ := bind_ok h
    obtain ⟨y, hy, h⟩ := bind_ok h
    obtain ⟨vx, ex⟩ := iha he.1 x hx
    obtain ⟨vy, ey⟩ := ihb he.2 y hy
    obtain ⟨v, n, q⟩ := (C67_debug_exact p hb x y r vx vy).2.2.2.1 h
    refine ⟨v, ?_⟩
    rw [Prog.denote, ex, ey, q]
    change (if qval y = 0 then none else some _) = _
    rw [if_neg n]
  | neg a iha =>
    obtain ⟨x, hx, h⟩ := bind_ok h
    obtain ⟨vx, ex⟩ := iha he x hx
    obtain ⟨v, q⟩ := (C67_debug_exact p hb x x r vx vx).2.2.2.2 h
    exact ⟨v, by rw [Prog.denote, ex, q]; rfl⟩

/-- C125: release builds return the same whenever the debug build returns something. -/
theorem C125_rat_release (p : Prim) (e : Prog) : SameResult fun m => e.run m p := by
  induction e with
  | new n d => exact .const _
  | add a b iha ihb => exact .bind iha fun x => .bind ihb fun y => (C116_rational p x y).1
  | sub a b iha ihb => exact .bind iha fun x => .bind ihb fun y => (C116_rational p x y).2.1
  | mul a b iha ihb => exact .bind iha fun x => .bind ihb fun y => (C116_rational p x y).2.2.1
  | div a b iha ihb => exact .bind iha fun x => .bind ihb fun y => (C116_rational p x y).2.2.2.1
  | neg a iha => exact .bind iha fun x => (C116_rational p x x).2.2.2.2.1

theorem inRange_of_natAbs {p : Prim} (hb : 2 ≤ p.bits) {z : Int} (hs : p.signed = true ∨ 0 ≤ z)
    (h : z.natAbs ≤ p.maxV.toNat) : p.InRange z ∧ NoMin p z := by
  obtain ⟨b1, b2, _⟩ := bounds (p := p) (by omega)
  have hsym : p.signed = true → p.maxV = -p.minV - 1 := by intro hs; unfold minV maxV; simp [hs]
  have hmin := fun hs => minV_lt (p := p) hb hs
  unfold InRange NoMin
  rcases hs with hs | hz
  · have := hsym hs
    have := hmin hs
    refine ⟨⟨by omega, by omega⟩, fun hc => ?_⟩
    have := hc.2
    omega
  · refine ⟨⟨by omega, by omega⟩, fun hc => ?_⟩
    have := hmin hc.1
    have := hc.2
    omega

theorem nonneg_of_inRange {p : Prim} {z : Int} (h : p.InRange z) : p.signed = true ∨ 0 ≤ z := by
  by_cases hs : p.signed = true
  · exact .inl hs
  · right
    have := h.1
    unfold minV at this
    rwa [if_neg hs] at this

theorem nonneg_mul {p : Prim} {x y : Int} (hx : p.InRange x) (hy : p.InRange y) :
    p.signed = true ∨ 0 ≤ x * y := by
  rcases nonneg_of_inRange hx with h | h
  · exact .inl h
  · rcases nonneg_of_inRange hy with h' | h'
    · exact .inl h'
    · exact .inr (mul_nonneg h h')

theorem newUnwrap_small {p : Prim} (hb : 2 ≤ p.bits) {n d : Int} (h0 : d ≠ 0)
    (sn : p.signed = true ∨ 0 ≤ n) (sd : p.signed = true ∨ 0 ≤ d)
    (hn : n.natAbs ≤ p.maxV.toNat) (hd : d.natAbs ≤ p.maxV.toNat) :
    ∃ r, newUnwrap p n d = .ok r ∧ RatValid p r ∧ qval r = n / d ∧ r.num.natAbs ≤ n.natAbs ∧
      r.denom.natAbs ≤ d.natAbs := by
  obtain ⟨n1, n2⟩ := inRange_of_natAbs hb sn hn
  obtain ⟨d1, d2⟩ := inRange_of_natAbs hb sd hd
  obtain ⟨r, h1, h2, h3⟩ := newUnwrap_ok hb n1 d1 h0 n2 d2
  refine ⟨r, h1, h2, h3, ?_⟩
  rw [newUnwrap_eq h0, reduce_exact hb n1 d1 h0] at h1
  split at h1
  · simp at h1
  · split at h1
    · rw [Res.ok.injEq] at h1; rw [← h1]; simp only; omega
    · split at h1
      · rw [Res.ok.injEq] at h1; rw [← h1]; simp
      · rw [Res.ok.injEq] at h1
        rw [← h1]
        simp only [Int.natAbs_tdiv]
        exact ⟨Nat.div_le_self _ _, Nat.div_le_self _ _⟩

theorem size_le {M : Nat} (e : Prog) (h : e.Fits M) : e.size.1 ≤ M := by
  induction e with
  | new n d => exact h.1
  | add a b => exact h.2.2.1
  | sub a b => exact h.2.2.1
  | mul a b => exact h.2.2.1
  | div a b => exact h.2.2.1
  | neg a iha => exact iha h

/-- C125: a computation without division by zero, in which no numerator or denominator would become
larger than the type allows even without any cancelling, returns the number it stands for in both
profiles. (With an unsigned type, if nothing is subtracted or negated.) -/
theorem C125_rat_total (m : Mode) (p : Prim) (hb : 2 ≤ p.bits) (e : Prog)
    (hs : p.signed = true ∨ e.SubFree) (he : e.Typed p) (hf : e.Fits p.maxV.toNat) (hd : e.denote ≠ none) :
    ∃ r, e.run m p = .ok r ∧ RatValid p r ∧ e.denote = some (qval r) := by
  suffices h : ∃ r, e.run m p = .ok r ∧ RatValid p r ∧ e.denote = some (qval r) ∧
      r.num.natAbs ≤ e.size.1 ∧ r.denom.natAbs ≤ e.size.2 by
    obtain ⟨r, h1, h2, h3, _⟩ := h
    exact ⟨r, h1, h2, h3⟩
  induction e with
  | new n d =>
    have h0 : d ≠ 0 := fun h => hd (by rw [Prog.denote, if_pos h])
    obtain ⟨r, h1, h2, h3, h4⟩ := newUnwrap_small hb h0 (nonneg_of_inRange he.1)
      (nonneg_of_inRange he.2) hf.1 hf.2
    exact ⟨r, h1, h2, by rw [Prog.denote, if_neg h0, h3], h4⟩
  | add a b iha ihb =>
    have da : a.denote ≠ none := fun h => hd (by rw [Prog.denote, h]; rfl)
    have db : b.denote ≠ none := fun h => hd (by
      rw [Prog.denote, h]; cases a.denote <;> rfl)
    obtain ⟨x, x1, x2, x3, x4, x5⟩ := iha (hs.imp_right And.left) he.1 hf.1 da
    obtain ⟨y, y1, y2, y3, y4, y5⟩ := ihb (hs.imp_right And.right) he.2 hf.2.1 db
    have g1 := nonneg_mul x2.num y2.denom
    have g2 := nonneg_mul y2.num x2.denom
    have g4 := nonneg_mul x2.denom y2.denom
    have g3 : p.signed = true ∨ 0 ≤ x.num * y.denom + y.num * x.denom := by
      rcases g1 with h | h
      · exact .inl h
      · exact g2.imp_right fun h' => by omega
    have s1 := hf.2.2.1
    have s2 := hf.2.2.2
    simp only [Prog.size] at s1 s2 ⊢
    have p1 := Nat.mul_le_mul x4 y5
    have p2 := Nat.mul_le_mul y4 x5
    have p3 := Nat.mul_le_mul x5 y5
    rw [← Int.natAbs_mul] at p1 p2 p3
    have p4 := Int.natAbs_add_le (x.num * y.denom) (y.num * x.denom)
    obtain ⟨r, h1, h2, h3, h4, h5⟩ := newUnwrap_small hb
      (mul_ne_zero x2.nonzero y2.nonzero) g3 g4 (p4.trans (by omega)) (p3.trans s2)
    have e1 := arith_ok m (inRange_of_natAbs hb g1 (p1.trans (by omega))).1
    have e2 := arith_ok m (inRange_of_natAbs hb g2 (p2.trans (by omega))).1
    have e3 := arith_ok m (inRange_of_natAbs hb g3 (p4.trans (by omega))).1
    have e4 := arith_ok m (inRange_of_natAbs hb g4 (p3.trans s2)).1
    have hr : RatM.add m p x y = .ok r := by
      unfold RatM.add
      rw [e1, e2]; simp only [Res.bind]
      rw [e3, e4]; exact h1
    refine ⟨r, by rw [Prog.run, x1, y1]; exact hr, h2, ?_, h4.trans (by omega), h5.trans p3⟩
    have hx0 : (x.denom : ℚ) ≠ 0 := by exact_mod_cast x2.nonzero
    have hy0 : (y.denom : ℚ) ≠ 0 := by exact_mod_cast y2.nonzero
    rw [Prog.denote, x3, y3, h3]
    change some (qval x + qval y) = _
    unfold qval
    push_cast
    congr 1
    field_simp
  | sub a b iha ihb =>
    have da : a.denote ≠ none := fun h => hd (by rw [Prog.denote, h]; rfl)
    have db : b.denote ≠ none := fun h => hd (by
      rw [Prog.denote, h]; cases a.denote <;> rfl)
    have hs' : p.signed = true := hs.resolve_right id
    obtain ⟨x, x1, x2, x3, x4, x5⟩ := iha (.inl hs') he.1 hf.1 da
    obtain ⟨y, y1, y2, y3, y4, y5⟩ := ihb (.inl hs') he.2 hf.2.1 db
    have g1 := nonneg_mul x2.num y2.denom
    have g2 := nonneg_mul y2.num x2.denom
    have g4 := nonneg_mul x2.denom y2.denom
    have g3 : p.signed = true ∨ 0 ≤ x.num * y.denom - y.num * x.denom := .inl hs'
    have s1 := hf.2.2.1
    have s2 := hf.2.2.2
    simp only [Prog.size] at s1 s2 ⊢
    have p1 := Nat.mul_le_mul x4 y5
    have p2 := Nat.mul_le_mul y4 x5
    have p3 := Nat.mul_le_mul x5 y5
    rw [← Int.natAbs_mul] at p1 p2 p3
    have p4 := Int.natAbs_sub_le (x.num * y.denom) (y.num * x.denom)
    obtain ⟨r, h1, h2, h3, h4, h5⟩ := newUnwrap_small hb
      (mul_ne_zero x2.nonzero y2.nonzero) g3 g4 (p4.trans (by omega)) (p3.trans s2)
    have e1 := arith_ok m (inRange_of_natAbs hb g1 (p1.trans (by omega))).1
    have e2 := arith_ok m (inRange_of_natAbs hb g2 (p2.trans (by omega))).1
    have e3 := arith_ok m (inRange_of_natAbs hb g3 (p4.trans (by omega))).1
    have e4 := arith_ok m (inRange_of_natAbs hb g4 (p3.trans s2)).1
    have hr : RatM.sub m p x y = .ok r := by
      unfold RatM.sub
      rw [e1, e2]; simp only [Res.bind]
      rw [e3, e4]; exact h1
    refine ⟨r, by rw [Prog.run, x1, y1]; exact hr, h2, ?_, h4.trans (by omega), h5.trans p3⟩
    have hx0 : (x.denom : ℚ) ≠ 0 := by exact_mod_cast x2.nonzero
    have hy0 : (y.denom : ℚ) ≠ 0 := by exact_mod_cast y2.nonzero
    rw [Prog.denote, x3, y3, h3]
    change some (qval x - qval y) = _
    unfold qval
    push_cast
    congr 1
    field_simp
  | mul a b iha ihb =>
    have da : a.denote ≠ none := fun h => hd (by rw [Prog.denote, h]; rfl)
    have db : b.denote ≠ none := fun h => hd (by
      rw [Prog.denote, h]; cases a.denote <;> rfl)
    obtain ⟨x, x1, x2, x3, x4, x5⟩ := iha (hs.imp_right And.left) he.1 hf.1 da
    obtain ⟨y, y1, y2, y3, y4, y5⟩ := ihb (hs.imp_right And.right) he.2 hf.2.1 db
    have s1 := hf.2.2.1
    have s2 := hf.2.2.2
    simp only [Prog.size] at s1 s2 ⊢
    have p1 := Nat.mul_le_mul x4 y4
    have p3 := Nat.mul_le_mul x5 y5
    rw [← Int.natAbs_mul] at p1 p3
    obtain ⟨r, h1, h2, h3, h4, h5⟩ := newUnwrap_small hb
      (mul_ne_zero x2.nonzero y2.nonzero) (nonneg_mul x2.num y2.num)
      (nonneg_mul x2.denom y2.denom) (p1.trans s1) (p3.trans s2)
    have e1 := arith_ok m (inRange_of_natAbs hb (nonneg_mul x2.num y2.num) (p1.trans s1)).1
    have e4 := arith_ok m (inRange_of_natAbs hb (nonneg_mul x2.denom y2.denom) (p3.trans s2)).1
    have hr : RatM.mul m p x y = .ok r := by
      unfold RatM.mul
      rw [e1, e4]; exact h1
    refine ⟨r, by rw [Prog.run, x1, y1]; exact hr, h2, ?_, h4.trans p1, h5.trans p3⟩
    rw [Prog.denote, x3, y3, h3]
    change some (qval x * qval y) = _
    unfold qval
    push_cast
    rw [div_mul_div_comm]
  | div a b iha ihb =>
    have da : a.denote ≠ none := fun h => hd (by rw [Prog.denote, h]; rfl)
    have db : b.denote ≠ none := fun h => hd (by
      rw [Prog.denote, h]; cases a.denote <;> rfl)
    obtain ⟨x, x1, x2, x3, x4, x5⟩ := iha (hs.imp_right And.left) he.1 hf.1 da
    obtain ⟨y, y1, y2, y3, y4, y5⟩ := ihb (hs.imp_right And.right) he.2 hf.2.1 db
    have hd' : (if qval y = 0 then none else some (qval x / qval y)) ≠ none := by
      rw [Prog.denote, x3, y3] at hd; exact hd
    have hq : qval y ≠ 0 := fun h => hd' (by rw [if_pos h])
    have hy : y.num ≠ 0 := fun h => hq (by unfold qval; rw [h]; simp)
    have s1 := hf.2.2.1
    have s2 := hf.2.2.2
    simp only [Prog.size] at s1 s2 ⊢
    have p1 := Nat.mul_le_mul x4 y5
    have p3 := Nat.mul_le_mul x5 y4
    rw [← Int.natAbs_mul] at p1 p3
    obtain ⟨r, h1, h2, h3, h4, h5⟩ := newUnwrap_small hb
      (mul_ne_zero x2.nonzero hy) (nonneg_mul x2.num y2.denom) (nonneg_mul x2.denom y2.num) (p1.trans s1) (p3.trans s2)
    have e1 := arith_ok m (inRange_of_natAbs hb (nonneg_mul x2.num y2.denom) (p1.trans s1)).1
    have e4 := arith_ok m (inRange_of_natAbs hb (nonneg_mul x2.denom y2.num) (p3.trans s2)).1
    have hr : RatM.div m p x y = .ok r := by
      unfold RatM.div
      rw [e1, e4]; exact h1
    refine ⟨r, by rw [Prog.run, x1, y1]; exact hr, h2, ?_, h4.trans p1, h5.trans p3⟩
    rw [Prog.denote, x3, y3, h3]
    change (if qval y = 0 then none else some (qval x / qval y)) = _
    rw [if_neg hq]
    unfold qval
    push_cast
    rw [div_div_div_eq]
  | neg a iha =>
    have hs' : p.signed = true := hs.resolve_right id
    have da : a.denote ≠ none := fun h => hd (by rw [Prog.denote, h]; rfl)
    obtain ⟨x, x1, x2, x3, x4, x5⟩ := iha (.inl hs') he hf da
    have hx : x.num.natAbs ≤ p.maxV.toNat := x4.trans (size_le a hf)
    have e1 := arith_ok m (inRange_of_natAbs hb (.inl hs') (z := -x.num) (by omega)).1
    refine ⟨⟨-x.num, x.denom⟩, ?_, ⟨(inRange_of_natAbs hb (.inl hs') (by simpa using hx)).1, x2.denom,
      x2.nonzero⟩, ?_, ?_, x5⟩
    · rw [Prog.run, x1]
      change RatM.neg m p x = _
      unfold RatM.neg
      rw [e1]; rfl
    · rw [Prog.denote, x3]
      change some (-qval x) = _
      unfold qval
      push_cast
      rw [neg_div]
    · simpa [Prog.size] using x4

/-- `(1/2 + 1/3) / (1/2 - 5/2) = -5/12`. -/
private def sample : Prog :=
  .div (.add (.new 1 2) (.new 1 3)) (.sub (.new 1 2) (.new 5 2))

example : sample.Typed i8 ∧ i8.signed = true ∧ sample.Fits i8.maxV.toNat ∧ sample.denote = some (-5 / 12) ∧
    sample.run .debug i8 = .ok ⟨5, -12⟩ ∧ (Prog.div (.new 1 2) (.new 0 3)).denote = none := by
  refine ⟨by simp [sample, Prog.Typed, InRange, minV, maxV, i8], rfl, by
    simp [sample, Prog.Fits, Prog.size, i8, maxV], ?_, by decide, ?_⟩
  · norm_num [sample, Prog.denote]
  · norm_num [Prog.denote]

end RatM

/-! ## `Fixed` -/

namespace Fixed

/-- C125: in either build the computation comes to an end, so if it returns nothing it panics. -/
theorem C125_fixed_ends (m : Mode) (p : Prim) (N : Nat) (e : Prog) : e.run m p N ≠ .hang := by
  have ar := fun z => arith_ne_hang m p z
  have sl : ∀ a n, Prim.shl m p a n ≠ .hang := fun a n => by
    unfold Prim.shl; split
    · simp
    · cases m <;> simp
  have sr : ∀ a n, Prim.shr m p a n ≠ .hang := fun a n => by
    unfold Prim.shr; split
    · simp
    · cases m <;> simp
  have rm : ∀ a b, Prim.rem p a b ≠ .hang := fun a b => by
    unfold Prim.rem; split
    · simp
    · split <;> simp
  induction e with
  | raw x => simp [Prog.run]
  | val v => exact sl _ _
  | add a b iha ihb => exact bind_ne_hang iha fun x _ => bind_ne_hang ihb fun y _ => ar _
  | sub a b iha ihb => exact bind_ne_hang iha fun x _ => bind_ne_hang ihb fun y _ => ar _
  | rem a b iha ihb => exact bind_ne_hang iha fun x _ => bind_ne_hang ihb fun y _ => rm _ _
  | neg a iha => exact bind_ne_hang iha fun x _ => ar _
  | abs a iha =>
    refine bind_ne_hang iha fun x _ => ?_
    unfold Fixed.abs
    split
    · exact ar _
    · simp
  | floor a iha => exact bind_ne_hang iha fun x _ => bind_ne_hang (sr _ _) fun _ _ => sl _ _
  | trunc a iha =>
    exact bind_ne_hang iha fun x _ => bind_ne_hang (bind_ne_hang (sl _ _) fun _ _ => rm _ _)
      fun _ _ => ar _
  | fract a iha => exact bind_ne_hang iha fun x _ => bind_ne_hang (sl _ _) fun _ _ => rm _ _

open RatM (bind_ok)

theorem fval_abs (N : Nat) (x : Int) : fval N |x| = |fval N x| := by
  have hp : (0 : ℚ) < 2 ^ N := by positivity
  unfold fval; rw [abs_div, abs_of_pos hp]; push_cast; rfl

theorem fval_eq_zero (N : Nat) (x : Int) : fval N x = 0 ↔ x = 0 := by
  unfold fval; simp

theorem abs_debug {p : Prim} {x r : Int} (h : Fixed.abs .debug p x = .ok r) : r = |x| := by
  unfold Fixed.abs at h
  by_cases hx : x < 0
  · rw [if_pos hx] at h
    rw [(RatM.arith_debug h).2, abs_of_neg hx]
  · rw [if_neg hx, Res.ok.injEq] at h
    rw [← h, abs_of_nonneg (by omega)]

/-- C125, `Fixed` in debug builds: what a computation returns is exactly the number it stands for,
without any rounding. -/
theorem C125_fixed_debug (p : Prim) (N : Nat) (hb : 2 ≤ p.bits) (hN : N < p.bits) (e : Prog)
    (he : e.Typed p N) (r : Int) (h : e.run .debug p N = .ok r) :
    p.InRange r ∧ e.denote N = some (fval N r) := by
  have hp : (0 : Int) < 2 ^ N := by positivity
  induction e generalizing r with
  | raw x => rw [Prog.run, Res.ok.injEq] at h; subst h; exact ⟨he, rfl⟩
  | val v =>
    obtain ⟨r', h1, h2, h3⟩ := (C63_exact .debug p N hN v v).2.2.2.1 he
    rw [Prog.run, h1, Res.ok.injEq] at h; subst h
    exact ⟨h2, by rw [Prog.denote, h3]⟩
  | add a b iha ihb =>
    obtain ⟨x, hx, h⟩ := bind_ok h
    obtain ⟨y, hy, h⟩ := bind_ok h
    obtain ⟨vx, ex⟩ := iha he.1 x hx
    obtain ⟨vy, ey⟩ := ihb he.2 y hy
    obtain ⟨h1, rfl⟩ := RatM.arith_debug h
    exact ⟨h1, by rw [Prog.denote, ex, ey, fval_add]; rfl⟩
  | sub a b iha ihb =>
    obtain ⟨x, hx, h⟩ := bind_ok h
    obtain ⟨y, hy, h⟩ := bind_ok h
    obtain ⟨vx, ex⟩ := iha he.1 x hx
    obtain ⟨vy, ey⟩ := ihb he.2 y hy
    obtain ⟨h1, rfl⟩ := RatM.arith_debug h
    exact ⟨h1, by rw [Prog.denote, ex, ey, fval_sub]; rfl⟩
  | rem a b iha ihb =>
    obtain ⟨x, hx, h⟩ := bind_ok h
    obtain ⟨y, hy, h⟩ := bind_ok h
    obtain ⟨vx, ex⟩ := iha he.1 x hx
    obtain ⟨vy, ey⟩ := ihb he.2 y hy
    obtain ⟨k1, k2, _⟩ := C90_rem p N x y
    have hy0 : y ≠ 0 := fun h0 => by rw [k2 h0] at h; simp at h
    have hbad : ¬ (p.signed = true ∧ x = p.minV ∧ y = -1) := fun hc => by
      have : Fixed.rem p x y = .panic := by
        unfold Fixed.rem Prim.rem; rw [if_neg hy0, if_pos hc]
      rw [this] at h; simp at h
    obtain ⟨r', h1, h2, _⟩ := k1 hy0 hbad
    rw [h1, Res.ok.injEq] at h; subst h
    refine ⟨?_, ?_⟩
    · have h1' : Fixed.rem p x y = .ok (x.tmod y) := by
        unfold Fixed.rem Prim.rem; rw [if_neg hy0, if_neg hbad]
      rw [h1', Res.ok.injEq] at h1
      obtain ⟨_, t2, t3, t4⟩ := tmod_bounds x y hy0
      obtain ⟨b1, b2, _⟩ := bounds (p := p) (by omega)
      unfold InRange at vx ⊢
      omega
    · rw [Prog.denote, ex, ey, h2]
      change (if fval N y = 0 then none else some _) = _
      rw [if_neg (fun h0 => hy0 ((fval_eq_zero N y).mp h0))]
  | neg a iha =>
    obtain ⟨x, hx, h⟩ := bind_ok h
    obtain ⟨vx, ex⟩ := iha he x hx
    obtain ⟨h1, rfl⟩ := RatM.arith_debug h
    exact ⟨h1, by rw [Prog.denote, ex, fval_neg]; rfl⟩
  | abs a iha =>
    obtain ⟨x, hx, h⟩ := bind_ok h
    obtain ⟨vx, ex⟩ := iha he x hx
    have hr := abs_debug h
    refine ⟨?_, by rw [Prog.denote, ex, hr, fval_abs]; rfl⟩
    unfold Fixed.abs at h
    by_cases h0 : x < 0
    · rw [if_pos h0] at h
      obtain ⟨h1, rfl⟩ := RatM.arith_debug h; exact h1
    · rw [if_neg h0, Res.ok.injEq] at h; subst h; exact vx
  | floor a iha =>
    obtain ⟨x, hx, h⟩ := bind_ok h
    obtain ⟨vx, ex⟩ := iha he x hx
    obtain ⟨r', h1, h2, h3⟩ := C65_floor .debug p N hN x vx
    rw [h1, Res.ok.injEq] at h; subst h
    exact ⟨h2, by rw [Prog.denote, ex, h3]; rfl⟩
  | trunc a iha =>
    obtain ⟨x, hx, h⟩ := bind_ok h
    obtain ⟨vx, ex⟩ := iha he x hx
    obtain ⟨t, f, h1, _, h3, _⟩ := C65_trunc_fract .debug p N hb hN x vx
    rw [h1, Res.ok.injEq] at h; subst h
    refine ⟨?_, by rw [Prog.denote, ex, h3]; rfl⟩
    unfold Fixed.trunc at h1
    obtain ⟨f', _, h5⟩ := bind_ok h1
    obtain ⟨h6, rfl⟩ := RatM.arith_debug h5
    exact h6
  | fract a iha =>
    obtain ⟨x, hx, h⟩ := bind_ok h
    obtain ⟨vx, ex⟩ := iha he x hx
    obtain ⟨t, f, _, h2, h3, h4, _⟩ := C65_trunc_fract .debug p N hb hN x vx
    rw [h2, Res.ok.injEq] at h; subst h
    refine ⟨?_, ?_⟩
    · rw [fract_spec .debug hb hN x, Res.ok.injEq] at h2
      obtain ⟨_, t2, t3, t4⟩ := tmod_bounds x (2 ^ N) hp.ne'
      obtain ⟨b1, b2, _⟩ := bounds (p := p) (by omega)
      unfold InRange at vx ⊢
      omega
    · rw [Prog.denote, ex]
      change some (fval N x - truncQ (fval N x)) = _
      rw [← h3]; congr 1; linarith

/-- C125: release builds return the same whenever the debug build returns something. -/
theorem C125_fixed_release (p : Prim) (N : Nat) (e : Prog) : SameResult fun m => e.run m p N := by
  have H := C116_prim_fixed p N
  induction e with
  | raw x => exact .const _
  | val v => exact (H v v).2.2.2.1
  | add a b iha ihb => exact .bind iha fun x => .bind ihb fun y => (H x y).2.2.2.2.2.1
  | sub a b iha ihb => exact .bind iha fun x => .bind ihb fun y => (H x y).2.2.2.2.2.2.1
  | rem a b iha ihb => exact .bind iha fun x => .bind ihb fun y => .const _
  | neg a iha => exact .bind iha fun x => (H x x).2.2.2.2.2.2.2.2.1
  | abs a iha => exact .bind iha fun x => (H x x).2.2.2.2.2.2.2.2.2.2.2.1
  | floor a iha => exact .bind iha fun x => (H x x).2.2.2.2.2.2.2.2.2.2.2.2.2.1
  | trunc a iha => exact .bind iha fun x => (H x x).2.2.2.2.2.2.2.2.2.2.2.2.2.2.2.2.1
  | fract a iha => exact .bind iha fun x => (H x x).2.2.2.2.2.2.2.2.2.2.2.2.2.2.2.1

/-- C125: a computation all of whose sums, differences, negatives and absolute values are representable
returns the number it stands for in both profiles. -/
theorem C125_fixed_total (m : Mode) (p : Prim) (N : Nat) (hb : 2 ≤ p.bits) (hN : N < p.bits) (e : Prog)
    (he : e.Typed p N) (hw : e.Within p N) :
    ∃ r, e.run m p N = .ok r ∧ p.InRange r ∧ e.denote N = some (fval N r) := by
  suffices h : ∃ r, e.run .debug p N = .ok r by
    obtain ⟨r, h⟩ := h
    refine ⟨r, ?_, C125_fixed_debug p N hb hN e he r h⟩
    cases m
    · exact h
    · exact C125_fixed_release p N e r h
  induction e with
  | raw x => exact ⟨_, rfl⟩
  | val v => exact ⟨_, ((C63_exact .debug p N hN v v).2.2.2.1 he).choose_spec.1⟩
  | add a b iha ihb =>
    obtain ⟨x, hx⟩ := iha he.1 hw.1
    obtain ⟨y, hy⟩ := ihb he.2 hw.2.1
    obtain ⟨_, ex⟩ := C125_fixed_debug p N hb hN a he.1 x hx
    obtain ⟨_, ey⟩ := C125_fixed_debug p N hb hN b he.2 y hy
    obtain ⟨r, r1, r2⟩ := hw.2.2
    rw [Prog.denote, ex, ey] at r2
    have : fval N x + fval N y = fval N r := Option.some.inj r2
    rw [← fval_add, fval_inj] at this
    exact ⟨r, by rw [Prog.run, hx, hy]; exact this ▸ arith_ok .debug (this ▸ r1)⟩
  | sub a b iha ihb =>
    obtain ⟨x, hx⟩ := iha he.1 hw.1
    obtain ⟨y, hy⟩ := ihb he.2 hw.2.1
    obtain ⟨_, ex⟩ := C125_fixed_debug p N hb hN a he.1 x hx
    obtain ⟨_, ey⟩ := C125_fixed_debug p N hb hN b he.2 y hy
    obtain ⟨r, r1, r2⟩ := hw.2.2
    rw [Prog.denote, ex, ey] at r2
    have : fval N x - fval N y = fval N r := Option.some.inj r2
    rw [← fval_sub, fval_inj] at this
    exact ⟨r, by rw [Prog.run, hx, hy]; exact this ▸ arith_ok .debug (this ▸ r1)⟩
  | rem a b iha ihb => exact absurd hw id
  | neg a iha =>
    obtain ⟨x, hx⟩ := iha he hw.1
    obtain ⟨_, ex⟩ := C125_fixed_debug p N hb hN a he x hx
    obtain ⟨r, r1, r2⟩ := hw.2
    rw [Prog.denote, ex] at r2
    have : -fval N x = fval N r := Option.some.inj r2
    rw [← fval_neg, fval_inj] at this
    exact ⟨r, by rw [Prog.run, hx]; exact this ▸ arith_ok .debug (this ▸ r1)⟩
  | abs a iha =>
    obtain ⟨x, hx⟩ := iha he hw.1
    obtain ⟨_, ex⟩ := C125_fixed_debug p N hb hN a he x hx
    obtain ⟨r, r1, r2⟩ := hw.2
    rw [Prog.denote, ex] at r2
    have : |fval N x| = fval N r := Option.some.inj r2
    rw [← fval_abs, fval_inj] at this
    refine ⟨|x|, ?_⟩
    rw [Prog.run, hx]
    change Fixed.abs .debug p x = _
    unfold Fixed.abs
    by_cases h0 : x < 0
    · rw [if_pos h0]
      rw [abs_of_neg h0] at this ⊢
      exact arith_ok .debug (this ▸ r1)
    · rw [if_neg h0, abs_of_nonneg (by omega)]
  | floor a iha =>
    obtain ⟨x, hx⟩ := iha he hw
    obtain ⟨vx, _⟩ := C125_fixed_debug p N hb hN a he x hx
    obtain ⟨r, h1, _⟩ := C65_floor .debug p N hN x vx
    exact ⟨r, by rw [Prog.run, hx]; exact h1⟩
  | trunc a iha =>
    obtain ⟨x, hx⟩ := iha he hw
    obtain ⟨vx, _⟩ := C125_fixed_debug p N hb hN a he x hx
    obtain ⟨t, f, h1, _⟩ := C65_trunc_fract .debug p N hb hN x vx
    exact ⟨t, by rw [Prog.run, hx]; exact h1⟩
  | fract a iha =>
    obtain ⟨x, hx⟩ := iha he hw
    obtain ⟨vx, _⟩ := C125_fixed_debug p N hb hN a he x hx
    obtain ⟨t, f, _, h1, _⟩ := C65_trunc_fract .debug p N hb hN x vx
    exact ⟨f, by rw [Prog.run, hx]; exact h1⟩

/-- C125, overflow in release builds: sums, differences and negatives nested to any depth give the exact
number reduced into the type, so that overflow of intermediate results is harmless if the end result is
representable. -/
theorem C125_fixed_wrapping (p : Prim) (N : Nat) (hN : N < p.bits) (e : Prog) (hl : e.Linear)
    (he : e.Typed p N) :
    ∃ r z : Int, e.run .release p N = .ok r ∧ p.InRange r ∧ e.denote N = some (fval N z) ∧
      r ≡ z [ZMOD 2 ^ p.bits] ∧ (p.InRange z → r = z) := by
  have hb : 0 < p.bits := by omega
  have harith : ∀ z : Int, ∃ r, Prim.arith .release p z = .ok r ∧ p.InRange r ∧
      r ≡ z [ZMOD 2 ^ p.bits] := by
    intro z
    obtain ⟨h1, h2⟩ := wrap_spec hb z
    refine ⟨p.wrap z, ?_, h1, ?_⟩
    · unfold Prim.arith
      by_cases hz : p.InRange z
      · rw [if_pos hz, wrap_eq hb hz]
      · rw [if_neg hz]
    exact (Int.modEq_iff_dvd.mpr (by have := dvd_neg.mpr h2; rwa [neg_sub] at this))
  suffices h : ∃ r z : Int, e.run .release p N = .ok r ∧ p.InRange r ∧ e.denote N = some (fval N z) ∧
      r ≡ z [ZMOD 2 ^ p.bits] by
    obtain ⟨r, z, h1, h2, h3, h4⟩ := h
    exact ⟨r, z, h1, h2, h3, h4, fun hz => eq_of_dvd hb h2 hz (by
      have := Int.modEq_iff_dvd.mp h4.symm; exact this)⟩
  induction e with
  | raw x => exact ⟨x, x, rfl, he, rfl, Int.ModEq.refl _⟩
  | val v =>
    obtain ⟨r, h1, h2, h3⟩ := (C63_exact .release p N hN v v).2.2.2.1 he
    exact ⟨r, r, h1, h2, by rw [Prog.denote, h3], Int.ModEq.refl _⟩
  | add a b iha ihb =>
    obtain ⟨x, u, x1, x2, x3, x4⟩ := iha hl.1 he.1
    obtain ⟨y, v, y1, y2, y3, y4⟩ := ihb hl.2 he.2
    obtain ⟨r, r1, r2, r3⟩ := harith (x + y)
    refine ⟨r, u + v, by rw [Prog.run, x1, y1]; exact r1, r2, ?_, r3.trans (x4.add y4)⟩
    rw [Prog.denote, x3, y3, fval_add]; rfl
  | sub a b iha ihb =>
    obtain ⟨x, u, x1, x2, x3, x4⟩ := iha hl.1 he.1
    obtain ⟨y, v, y1, y2, y3, y4⟩ := ihb hl.2 he.2
    obtain ⟨r, r1, r2, r3⟩ := harith (x - y)
    refine ⟨r, u - v, by rw [Prog.run, x1, y1]; exact r1, r2, ?_, r3.trans (x4.sub y4)⟩
    rw [Prog.denote, x3, y3, fval_sub]; rfl
  | neg a iha =>
    obtain ⟨x, u, x1, x2, x3, x4⟩ := iha hl he
    obtain ⟨r, r1, r2, r3⟩ := harith (-x)
    refine ⟨r, -u, by rw [Prog.run, x1]; exact r1, r2, ?_, r3.trans x4.neg⟩
    rw [Prog.denote, x3, fval_neg]; rfl
  | _ => exact absurd hl id

/-- `fract (-(2 - 5/4)) = -3/4`. -/
private def sample : Prog := .fract (.neg (.sub (.val 2) (.raw 5)))

example : sample.Typed i8 2 ∧ sample.Within i8 2 ∧ sample.run .debug i8 2 = .ok (-3) := by
  refine ⟨by simp [sample, Prog.Typed, InRange, minV, maxV, i8], ?_, by decide⟩
  refine ⟨⟨trivial, trivial, 3, by decide, ?_⟩, -3, by decide, ?_⟩ <;>
  · simp [Prog.denote]; norm_num

end Fixed

end Verif
