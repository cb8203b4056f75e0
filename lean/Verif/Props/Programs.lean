import Verif.Spec.Programs
import Verif.Lemmas.Programs
import Verif.Props.BigInt
import Verif.Props.DivExact
import Verif.Props.UInt
import Verif.Props.IInt

/-!
# Whole computations (C117–C119)

The earlier theorems are about one operation each. These are about everything a user can compute
with them: expressions nested to any depth.
-/

namespace Verif

/-! ## C118: `U<N>` and `I<N>` -/

/-- C118, release builds: every expression over `+`, `-` and `*` has a result, namely the exact
integer reduced modulo `256^N`; the order in which intermediate results overflow is irrelevant. -/
theorem C118_wrapping (N : Nat) (e : Expr Bytes) (he : e.Lits fun a => a.length = N) :
    ∃ z, UN.eval .release e = .ok z ∧ z.length = N ∧
      (val z : ℤ) = e.denote (fun a => (val a : ℤ)) % 256 ^ N := by
  obtain ⟨z, z1, z2, z3⟩ := Expr.run_total (add := UN.add .release) (sub := UN.sub .release)
    (mul := UN.mul .release) (fun a : Bytes => a.length = N) (fun a => (val a : ℤ)) (256 ^ N)
    (fun x y hx hy => by
      obtain ⟨⟨h1, h2⟩, _⟩ := C26_ring_ops N x y hx hy
      obtain ⟨k1, k2, _⟩ := C27_checked_add_sub x y (by omega)
      refine ⟨UN.wrappingAdd x y, rfl, h1, zmod_to_int ?_⟩
      push_cast; exact h2)
    (fun x y hx hy => by
      obtain ⟨_, ⟨h1, h2⟩, _⟩ := C26_ring_ops N x y hx hy
      refine ⟨UN.wrappingSub x y, rfl, h1, zmod_to_int ?_⟩
      push_cast; exact h2)
    (fun x y hx hy => by
      obtain ⟨_, _, ⟨p, h0, h1, h2⟩, _⟩ := C26_ring_ops N x y hx hy
      refine ⟨p, h0, h1, zmod_to_int ?_⟩
      push_cast; exact h2) e he
  refine ⟨z, z1, z2, ?_⟩
  have hlt : (val z : ℤ) < 256 ^ N := by
    have := val_lt z
    rw [modulus_bytes, z2] at this
    exact_mod_cast this
  rw [← z3]
  exact (Int.emod_eq_of_lt (by positivity) hlt).symm

example : UN.eval .release (.mul (.lit [200#8]) (.add (.lit [3#8]) (.lit [1#8]))) = .ok [32#8] := by decide +kernel

/-- C118, algebraic identities: expressions that stand for the same integer have the same result in
release builds, however differently they are written (`(a + b) * (a - b)` and `a * a - b * b`). -/
theorem C118_identities (N : Nat) (e f : Expr Bytes) (he : e.Lits fun a => a.length = N)
    (hf : f.Lits fun a => a.length = N)
    (h : e.denote (fun a => (val a : ℤ)) = f.denote (fun a => (val a : ℤ))) :
    UN.eval .release e = UN.eval .release f := by
  obtain ⟨x, x1, x2, x3⟩ := C118_wrapping N e he
  obtain ⟨y, y1, y2, y3⟩ := C118_wrapping N f hf
  rw [x1, y1]
  congr 1
  exact eq_of_val_eq (by omega) (by rw [h] at x3; omega)

/-- C118, no overflow: if the values of all subexpressions fit, both build profiles return the exact
integer. -/
theorem C118_exact (N : Nat) (m : Mode) (e : Expr Bytes) (he : e.Lits fun a => a.length = N)
    (hw : e.Within (fun a => (val a : ℤ)) fun x => 0 ≤ x ∧ x < 256 ^ N) :
    ∃ z, UN.eval m e = .ok z ∧ z.length = N ∧ (val z : ℤ) = e.denote (fun a => (val a : ℤ)) := by
  refine Expr.run_exact (fun a : Bytes => a.length = N) (fun a => (val a : ℤ)) _
    (fun x y hx hy h => ?_) (fun x y hx hy h => ?_) (fun x y hx hy h => ?_) e he hw
  · obtain ⟨k1, _⟩ := C27_checked_add_sub x y (by omega)
    obtain ⟨z, _, z2, z3, z4, z5⟩ := k1 (by rw [hx]; exact_mod_cast h.2)
    exact ⟨z, by cases m <;> assumption, by omega, by exact_mod_cast z3⟩
  · obtain ⟨_, _, k1, _⟩ := C27_checked_add_sub x y (by omega)
    obtain ⟨z, _, z2, z3, z4, z5⟩ := k1 (by omega)
    exact ⟨z, by cases m <;> assumption, by omega, by omega⟩
  · obtain ⟨k1, _⟩ := C28_checked_mul_partial x y
    obtain ⟨z, _, z2, z3, z4, z5⟩ := k1 (by rw [hx]; exact_mod_cast h.2)
    exact ⟨z, by cases m <;> assumption, by omega, by exact_mod_cast z3⟩

/-- C118, overflow is not missed in sums: a debug build evaluates an expression without
multiplication exactly when the values of all subexpressions fit, and otherwise panics. -/
theorem C118_sums (N : Nat) (e : Expr Bytes) (he : e.Lits fun a => a.length = N) (hf : e.MulFree) :
    (e.Within (fun a => (val a : ℤ)) (fun x => 0 ≤ x ∧ x < 256 ^ N) ∧
      ∃ z, UN.eval .debug e = .ok z ∧ z.length = N ∧
        (val z : ℤ) = e.denote (fun a => (val a : ℤ))) ∨
    (¬ e.Within (fun a => (val a : ℤ)) (fun x => 0 ≤ x ∧ x < 256 ^ N) ∧
      UN.eval .debug e = .panic) := by
  induction e with
  | lit a =>
    left
    have := val_lt a
    rw [modulus_bytes, show a.length = N from he] at this
    exact ⟨⟨Int.natCast_nonneg _, by change (val a : ℤ) < _; exact_mod_cast this⟩, a, rfl, he, rfl⟩
  | add p q ihp ihq =>
    rcases ihp he.1 hf.1 with ⟨w, x, x1, x2, x3⟩ | ⟨w, x1⟩
    · rcases ihq he.2 hf.2 with ⟨w', y, y1, y2, y3⟩ | ⟨w', y1⟩
      · obtain ⟨k1, k2, _⟩ := C27_checked_add_sub x y (by omega)
        have hr : UN.eval .debug (.add p q) = UN.add .debug x y := by
          unfold UN.eval at *
          rw [Expr.run, x1, y1]; rfl
        rw [hr]
        by_cases h : val x + val y < 256 ^ x.length
        · left
          obtain ⟨z, _, z2, z3, z4, _⟩ := k1 h
          rw [x2] at h
          refine ⟨⟨w, w', ?_⟩, z, z4, by omega, by rw [z3, Expr.denote, ← x3, ← y3]; push_cast; rfl⟩
          rw [← x3, ← y3]
          exact ⟨by positivity, by exact_mod_cast h⟩
        · right
          refine ⟨fun hh => h ?_, (k2 (by omega)).2.1⟩
          have := hh.2.2.2
          rw [← x3, ← y3] at this
          rw [x2]; exact_mod_cast this
      · right
        exact ⟨fun h => w' h.2.1, by unfold UN.eval at *; rw [Expr.run, x1, y1]; rfl⟩
    · right
      exact ⟨fun h => w h.1, by unfold UN.eval at *; rw [Expr.run, x1]; rfl⟩
  | sub p q ihp ihq =>
    rcases ihp he.1 hf.1 with ⟨w, x, x1, x2, x3⟩ | ⟨w, x1⟩
    · rcases ihq he.2 hf.2 with ⟨w', y, y1, y2, y3⟩ | ⟨w', y1⟩
      · obtain ⟨_, _, k1, k2⟩ := C27_checked_add_sub x y (by omega)
        have hr : UN.eval .debug (.sub p q) = UN.sub .debug x y := by
          unfold UN.eval at *
          rw [Expr.run, x1, y1]; rfl
        rw [hr]
        by_cases h : val y ≤ val x
        · left
          obtain ⟨z, _, z2, z3, z4, _⟩ := k1 h
          have hx : (val x : ℤ) < 256 ^ N := by
            have := val_lt x
            rw [modulus_bytes, x2] at this
            exact_mod_cast this
          refine ⟨⟨w, w', ?_⟩, z, z4, by omega, by rw [Expr.denote, ← x3, ← y3]; omega⟩
          rw [← x3, ← y3]
          constructor <;> omega
        · right
          refine ⟨fun hh => h ?_, (k2 (by omega)).2.1⟩
          have := hh.2.2.1
          rw [← x3, ← y3] at this
          omega
      · right
        exact ⟨fun h => w' h.2.1, by unfold UN.eval at *; rw [Expr.run, x1, y1]; rfl⟩
    · right
      exact ⟨fun h => w h.1, by unfold UN.eval at *; rw [Expr.run, x1]; rfl⟩
  | mul p q => exact absurd hf (by simp [Expr.MulFree])

/-- C118 for `I<N>`: every expression has a result, the exact integer reduced to
`-256^N/2 .. 256^N/2`; so only the final value has to fit, not the intermediate ones. -/
theorem C118_signed (N : Nat) (e : Expr Bytes) (he : e.Lits fun a => a.length = N) :
    ∃ z, IN.eval e = .ok z ∧ z.length = N ∧ WrapsTo N (e.denote sval) (sval z) ∧
      (-(256 ^ N : ℤ) ≤ 2 * e.denote sval → 2 * e.denote sval < 256 ^ N →
        sval z = e.denote sval) := by
  have key : ∃ z, IN.eval e = .ok z ∧ z.length = N ∧ sval z ≡ e.denote sval [ZMOD 256 ^ N] := by
    refine Expr.run_total (fun a : Bytes => a.length = N) sval (256 ^ N)
      (fun x y hx hy => ?_) (fun x y hx hy => ?_) (fun x y hx hy => ?_) e he
    · obtain ⟨⟨h1, h2⟩, _⟩ := C38_twos_complement x y (by omega)
      rw [hx] at h1 h2
      exact ⟨_, rfl, h1, (Int.modEq_iff_dvd.mpr h2.2.2).symm⟩
    · obtain ⟨_, ⟨h1, h2⟩, _⟩ := C38_twos_complement x y (by omega)
      rw [hx] at h1 h2
      exact ⟨_, rfl, h1, (Int.modEq_iff_dvd.mpr h2.2.2).symm⟩
    · obtain ⟨_, _, ⟨h1, h2⟩, _⟩ := C38_twos_complement x y (by omega)
      rw [hx] at h1 h2
      exact ⟨_, rfl, h1, (Int.modEq_iff_dvd.mpr h2.2.2).symm⟩
  obtain ⟨z, z1, z2, z3⟩ := key
  have hr := sval_range z
  rw [z2] at hr
  have hw : WrapsTo N (e.denote sval) (sval z) := ⟨hr.1, hr.2, Int.modEq_iff_dvd.mp z3.symm⟩
  exact ⟨z, z1, z2, hw, fun h1 h2 => wraps_unique hw ⟨h1, h2, by simp⟩⟩

-- (200 + 100) - 90 in one byte: every build returns 210 in release, the debug build panics at 300
example : UN.eval .release (.sub (.add (.lit [200#8]) (.lit [100#8])) (.lit [90#8])) = .ok [210#8] ∧
    UN.eval .debug (.sub (.add (.lit [200#8]) (.lit [100#8])) (.lit [90#8])) = .panic := by
  decide +kernel
-- 3 * 70 - 10, all intermediate values fit
example : UN.eval .debug (.sub (.mul (.lit [3#8]) (.lit [70#8])) (.lit [10#8])) = .ok [200#8] := by
  decide +kernel
-- (a + b) * (a - b) = a * a - b * b for a = 100, b = 33
example : UN.eval .release (.mul (.add (.lit [100#8]) (.lit [33#8])) (.sub (.lit [100#8]) (.lit [33#8])))
    = UN.eval .release (.sub (.mul (.lit [100#8]) (.lit [100#8])) (.mul (.lit [33#8]) (.lit [33#8]))) :=
  C118_identities 1 _ _ (by simp [Expr.Lits]) (by simp [Expr.Lits]) (by decide)
-- 100 + 100 - 150 = 50 in I<1>, though 200 does not fit
example : IN.eval (.sub (.add (.lit [100#8]) (.lit [100#8])) (.lit [150#8])) = .ok [50#8] := by
  decide +kernel

/-! ## C117: every `BigInt` a program can hold is well stored -/

namespace BInt

/-- C117: whatever a computation with `BigInt`s returns is well stored (inline exactly below `2^62`,
no superfluous limbs), in both build profiles; and it is canonical unless the last operation is a
negation (or the power of one), and even then unless what is negated is zero. -/
theorem C117_stored (m : Mode) (fuel : Nat) (p : Prog) (b : BInt) (h : p.run m fuel = .ok b) :
    Rep b ∧ (¬ p.Negation → Canon b) ∧
      ∀ q, p = .neg q → ∃ c, q.run m fuel = .ok c ∧ (Canon c → ival c ≠ 0 → Canon b) := by
  induction p generalizing b with
  | unsigned t v => have := fromU_canon h; exact ⟨this.1, fun _ => this, nofun⟩
  | signed t v => have := fromS_canon h; exact ⟨this.1, fun _ => this, nofun⟩
  | parse s r => have := parse_canon h; exact ⟨this.1, fun _ => this, nofun⟩
  | neg p ih =>
    obtain ⟨x, h1, h2⟩ := Res.bind_eq_ok' h
    cases h2
    obtain ⟨i1, i2, _⟩ := ih x h1
    refine ⟨(C48_neg_partial x i1).1, fun hn => absurd trivial hn, fun q hq => ?_⟩
    cases hq
    exact ⟨x, h1, fun hc h0 => ((C48_neg_partial x i1).2.2.2.2.2 hc).2.1 h0⟩
  | abs p ih =>
    obtain ⟨x, h1, h2⟩ := Res.bind_eq_ok' h
    cases h2
    obtain ⟨i1, _⟩ := ih x h1
    have hc : Canon (BInt.abs x) := by
      refine ⟨(C48_neg_partial x i1).2.1, fun hn => ?_⟩
      unfold BInt.abs isNegative at hn
      split at hn
      · rename_i hx; simp [neg', hx] at hn
      · rename_i hx; exact absurd hn hx
    exact ⟨hc.1, fun _ => hc, nofun⟩
  | not p ih =>
    obtain ⟨x, h1, h2⟩ := Res.bind_eq_ok' h
    have := finish_canon h2; exact ⟨this.1, fun _ => this, nofun⟩
  | pow p q ihp ihq =>
    obtain ⟨x, h1, h2⟩ := Res.bind_eq_ok' h
    obtain ⟨y, h3, h4⟩ := Res.bind_eq_ok' h2
    obtain ⟨i1, i2, _⟩ := ihp x h1
    rcases pow_either h4 with e | e
    · subst e; exact ⟨i1, fun hn => i2 hn, nofun⟩
    · exact ⟨e.1, fun _ => e, nofun⟩
  | add p q | sub p q | mul p q | div p q | rem p q | bitand p q | bitor p q | bitxor p q | shl p q
  | shr p q =>
    obtain ⟨x, h1, h2⟩ := Res.bind_eq_ok' h
    obtain ⟨y, h3, h4⟩ := Res.bind_eq_ok' h2
    have := finish_canon h4; exact ⟨this.1, fun _ => this, nofun⟩

/-- C117, what follows for `==`: two computations that do not end in a negation have equal results
exactly when the results are the same integer, and then the results are stored the same way. -/
theorem C117_equal (m : Mode) (fuel : Nat) (p q : Prog) (b c : BInt) (hp : ¬ p.Negation)
    (hq : ¬ q.Negation) (h1 : p.run m fuel = .ok b) (h2 : q.run m fuel = .ok c) :
    (BInt.eq b c = true ↔ ival b = ival c) ∧ (ival b = ival c → b = c) := by
  have hb := (C117_stored m fuel p b h1).2.1 hp
  have hc := (C117_stored m fuel q c h2).2.1 hq
  exact ⟨(C46_eq_partial b c hb.1 hc.1).2 hb hc, Canon.ext hb hc⟩

-- (7 << 62) - (7 << 62) is the inline zero, and -((7 - 7)) is the zero that is not canonical
example : (Prog.sub (.shl (.unsigned 8 7#8) (.unsigned 8 62#8)) (.shl (.unsigned 8 7#8)
      (.unsigned 8 62#8))).run .debug 0 = .ok BInt.zero ∧
    (Prog.neg (.sub (.unsigned 8 7#8) (.unsigned 8 7#8))).run .debug 0 = .ok ⟨true, .inline 0⟩ ∧
    ¬ Canon ⟨true, .inline 0⟩ := by decide +kernel

/-! ## C119: computations with `BigInt` are exact -/

/-- C119 is violated: (1 - 3) + 2 is 2. -/
theorem C119_violated : ¬ ∀ (e : Expr BInt), e.Lits Canon →
    ∃ c, e.run BInt.add BInt.sub BInt.mul = .ok c ∧ ival c = e.denote ival := by
  intro h
  obtain ⟨c, h1, h2⟩ := h (.add (.sub (.lit ⟨false, .inline 1⟩) (.lit ⟨false, .inline 3⟩))
    (.lit ⟨false, .inline 2⟩)) (by simp only [Expr.Lits]; decide)
  have e : Expr.run BInt.add BInt.sub BInt.mul (.add (.sub (.lit ⟨false, .inline 1⟩)
    (.lit ⟨false, .inline 3⟩)) (.lit ⟨false, .inline 2⟩)) = .ok ⟨false, .inline 2⟩ := by
    decide +kernel
  rw [e] at h1
  cases h1
  revert h2
  decide

/-- C119 for sums and products of nonnegative numbers: always exact, of any size and nesting depth,
canonical, and equal integers are stored equally. -/
theorem C119_sums_products_partial (e : Expr BInt) (hl : e.Lits fun a => Canon a ∧ 0 ≤ ival a)
    (hs : e.SubFree) :
    ∃ c, e.run BInt.add BInt.sub BInt.mul = .ok c ∧ Canon c ∧ ival c = e.denote ival ∧
      0 ≤ ival c := by
  induction e with
  | lit a => exact ⟨a, rfl, hl.1, rfl, hl.2⟩
  | add p q ihp ihq =>
    obtain ⟨x, x1, x2, x3, x4⟩ := ihp hl.1 hs.1
    obtain ⟨y, y1, y2, y3, y4⟩ := ihq hl.2 hs.2
    obtain ⟨c, c1, c2, c3, _⟩ := C43_add_partial x y x2.1 y2.1
    have hc := c3 (.inl (by rw [(x2.val_of_nonneg x4).1, (y2.val_of_nonneg y4).1]))
    exact ⟨c, by rw [Expr.run, x1, y1]; exact c1, c2, by rw [hc, x3, y3]; rfl, by omega⟩
  | mul p q ihp ihq =>
    obtain ⟨x, x1, x2, x3, x4⟩ := ihp hl.1 hs.1
    obtain ⟨y, y1, y2, y3, y4⟩ := ihq hl.2 hs.2
    obtain ⟨c, c1, c2, c3⟩ := C42_mul_exact x y x2.1 y2.1
    exact ⟨c, by rw [Expr.run, x1, y1]; exact c1, c3, by rw [c2, x3, y3]; rfl,
      by rw [c2]; exact mul_nonneg x4 y4⟩
  | sub p q => exact absurd hs (by simp [Expr.SubFree])

private theorem limbs_log2 {a : BInt} (ha : Rep a) :
    a.limbs.length = (ival a).natAbs.log2 / 64 + 1 := by
  rw [natAbs_ival]
  have hlt := val_lt a.limbs
  rw [modulus] at hlt
  have hpos : 0 < a.limbs.length := List.length_pos_iff.mpr ha.norm.1
  by_cases h0 : val a.limbs = 0
  · rw [h0]
    rcases ha.norm.lower with h1 | h1
    · rw [h1]; decide
    · rw [h0] at h1
      exact absurd h1 (by have := Nat.two_pow_pos (64 * (a.limbs.length - 1)); omega)
  · have hup := (Nat.log2_lt h0).mpr hlt
    rcases ha.norm.lower with h1 | h1
    · omega
    · have hlo := (Nat.le_log2 h0).mpr h1
      omega

/-- Division where `Divides` says so. -/
private theorem div_in_region (m : Mode) {a b : BInt} (ha : Canon a) (hb : Canon b)
    (h0 : ival b ≠ 0) (hx : Prog.Divides (ival a) (ival b)) :
    ∃ q r, div m a b = .ok q ∧ rem m a b = .ok r ∧ Canon q ∧ Canon r ∧
      ival q = (ival a).tdiv (ival b) ∧
      (0 < ival b ∨ ival b ∣ ival a → ival r = (ival a).tmod (ival b)) := by
  rcases hx with hx | hx | ⟨h1, h2, h3⟩
  · have hl := length_one_of_lt ha.norm (by rw [← natAbs_ival]; exact hx.1)
    obtain ⟨q, r, c1, c2, c3, c4, c5, _, c7, _⟩ := C44_div_rem_partial m a b ha.1 hb.1 h0 hx.2
      (.inl hx.1) (by omega)
    exact ⟨q, r, c1, c2, c3, c4, c5, fun h => (c7 h).1⟩
  · have hl := length_of_small ha.1 hx.1
    obtain ⟨q, r, c1, c2, c3, c4, c5, _, c7, _⟩ := C44_div_rem_partial m a b ha.1 hb.1 h0
      (by omega) (.inr hx.2) (by omega)
    exact ⟨q, r, c1, c2, c3, c4, c5, fun h => (c7 h).1⟩
  · have hl := length_of_small ha.1 h1
    rw [← limbs_log2 ha.1] at h3
    obtain ⟨q, r, c1, c2, c3, c4, _, c6, _, c9, c10⟩ := C44_div_exact_partial m a b ha.1
      (by rw [limbs_log2 ha.1, limbs_log2 hb.1]; omega) (by omega)
    obtain ⟨c7, c8⟩ := c6 h0
    refine ⟨q, r, c1, c2, c3, c4, c7.mpr h3, fun h => ?_⟩
    have hr := c8 h3
    rw [neg_eq_decide ha, neg_eq_decide hb] at c9 c10
    by_cases hd : ival b ∣ ival a
    · rw [Int.tmod_eq_zero_of_dvd hd] at hr ⊢
      omega
    · have hbp : 0 < ival b := h.resolve_right hd
      have hbn : decide (ival b < 0) = false := by simp; omega
      rw [hbn] at c9 c10
      by_cases han : ival a < 0
      · have h1 := (c10 (by simp [han])).2
        have h2 : (ival a).tmod (ival b) ≤ 0 := by
          have := Int.neg_tmod (ival a) (ival b)
          have := Int.tmod_nonneg (ival b) (show 0 ≤ -ival a by omega)
          omega
        omega
      · have h1 := (c9 (by simp; omega)).2
        have h2 := Int.tmod_nonneg (ival b) (show 0 ≤ ival a by omega)
        omega

/-- C119: the region for division cannot be enlarged. For nonzero divisors (and numerators below `2^57`
bits) it is exactly where `/` returns the quotient. -/
theorem C119_division_region_partial (m : Mode) (a b : BInt) (ha : Canon a) (hb : Canon b)
    (h0 : ival b ≠ 0) (hs : (ival a).natAbs.log2 < 2 ^ 57) :
    (∃ q, div m a b = .ok q ∧ ival q = (ival a).tdiv (ival b)) ↔ Prog.Divides (ival a) (ival b) := by
  constructor
  · rintro ⟨q, h1, h2⟩
    have hl := length_of_small ha.1 hs
    by_cases hlen : b.limbs.length ≤ a.limbs.length
    · obtain ⟨q', r, c1, -, -, -, -, c6, -⟩ := C44_div_exact_partial m a b ha.1 hlen (by omega)
      rw [h1, Res.ok.injEq] at c1
      subst c1
      have hc := (c6 h0).1.mp h2
      rw [limbs_log2 ha.1] at hc
      rw [limbs_log2 ha.1, limbs_log2 hb.1] at hlen
      exact .inr (.inr ⟨hs, by omega, hc⟩)
    · rw [(C44_div_longer_violated m a b ha.1 hb.1 (by omega)).1] at h1
      exact absurd h1 (by simp)
  · intro h
    obtain ⟨q, r, c1, -, -, -, c5, -⟩ := div_in_region m ha hb h0 h
    exact ⟨q, c1, c5⟩

example : ∃ q, div .debug ⟨false, .slice [0, 3]⟩ ⟨true, .inline 7⟩ = .ok q ∧
    ival q = Int.tdiv (3 * 2 ^ 64) (-7) := ⟨_, rfl, by decide⟩

/-- C119 for all operators: a computation returns the exact integer, canonically stored and in both
build profiles, as long as each operation stays within the region where it is exact: sums of opposite
signs and differences only where they are not two off, no zero negated, divisors on which the comparisons
of long division come out right (up to `2^63` they do), remainders by positive divisors or without
remainder, bit operators on nonnegative numbers, right shifts by less than 64 (in release builds by any
amount) of nonnegative numbers or without remainder. The regions cannot be enlarged (C43–C45, C48). -/
theorem C119_exact_partial (m : Mode) (fuel : Nat) (p : Prog) (x : Int) (h : p.Exact m fuel x) :
    ∃ b, p.run m fuel = .ok b ∧ Canon b ∧ ival b = x := by
  induction h with
  | unsigned v ht => exact (C49_from _ ht v).1
  | signed v ht => exact (C49_from _ ht v).2
  | parse h2 h36 hs =>
    obtain ⟨b, b1, b2, b3⟩ := C51_parse _ h2 h36 _ hs
    exact ⟨b, by rw [Prog.run, b1]; rfl, b2, b3⟩
  | neg _ h0 ih =>
    obtain ⟨a, a1, a2, a3⟩ := ih
    obtain ⟨_, _, k3, _, _, k6⟩ := C48_neg_partial a a2.1
    exact ⟨neg' a, by rw [Prog.run, a1]; rfl, (k6 a2).2.1 (by rw [a3]; exact h0), by rw [k3, a3]⟩
  | abs _ ih =>
    obtain ⟨a, a1, a2, a3⟩ := ih
    obtain ⟨_, _, _, _, k5, k6⟩ := C48_neg_partial a a2.1
    exact ⟨BInt.abs a, by rw [Prog.run, a1]; rfl, (k6 a2).1, by rw [k5, a3, Int.abs_eq_natAbs]⟩
  | add _ _ h ihp ihq =>
    obtain ⟨a, a1, a2, a3⟩ := ihp
    obtain ⟨b, b1, b2, b3⟩ := ihq
    obtain ⟨c, c1, c2, c3, _⟩ := C43_add_partial a b a2.1 b2.1
    refine ⟨c, by rw [Prog.run, a1, b1]; exact c1, c2, ?_⟩
    rw [c3, a3, b3]
    rw [a3, b3, neg_eq_decide a2, neg_eq_decide b2, a3, b3]
    rcases h with h | h | h
    · left; exact decide_eq_decide.mpr h
    · exact .inr (.inl h)
    · exact .inr (.inr h)
  | sub _ _ h ihp ihq =>
    obtain ⟨a, a1, a2, a3⟩ := ihp
    obtain ⟨b, b1, b2, b3⟩ := ihq
    obtain ⟨c, c1, c2, c3, _⟩ := C43_sub_partial a b a2.1 b2.1
    refine ⟨c, by rw [Prog.run, a1, b1]; exact c1, c2, ?_⟩
    rw [c3, a3, b3]
    rw [a3, b3, neg_eq_decide a2, neg_eq_decide b2, a3, b3]
    rcases h with h | h | h
    · left; intro e; have := decide_eq_decide.mp e; omega
    · exact .inr (.inl h)
    · exact .inr (.inr h)
  | mul _ _ ihp ihq =>
    obtain ⟨a, a1, a2, a3⟩ := ihp
    obtain ⟨b, b1, b2, b3⟩ := ihq
    obtain ⟨c, c1, c2, c3⟩ := C42_mul_exact a b a2.1 b2.1
    exact ⟨c, by rw [Prog.run, a1, b1]; exact c1, c3, by rw [c2, a3, b3]⟩
  | div _ _ h0 hx ihp ihq =>
    obtain ⟨a, a1, a2, a3⟩ := ihp
    obtain ⟨b, b1, b2, b3⟩ := ihq
    subst a3 b3
    obtain ⟨q, r, q1, _, q3, _, q5, _⟩ := div_in_region m a2 b2 h0 hx
    exact ⟨q, by rw [Prog.run, a1, b1]; exact q1, q3, q5⟩
  | rem _ _ h0 hs hx ihp ihq =>
    obtain ⟨a, a1, a2, a3⟩ := ihp
    obtain ⟨b, b1, b2, b3⟩ := ihq
    subst a3 b3
    obtain ⟨q, r, _, r1, _, r3, _, r5⟩ := div_in_region m a2 b2 h0 hx
    exact ⟨r, by rw [Prog.run, a1, b1]; exact r1, r3, r5 hs⟩
  | bitand _ _ ihp ihq =>
    obtain ⟨a, a1, a2, a3⟩ := ihp
    obtain ⟨b, b1, b2, b3⟩ := ihq
    obtain ⟨⟨c, c1, c2, c3⟩, _⟩ := C54_bit_ops_partial a b a2 b2 (by omega) (by omega)
    exact ⟨c, by rw [Prog.run, a1, b1]; exact c1, c2, by rw [c3, a3, b3]; rfl⟩
  | bitor _ _ ihp ihq =>
    obtain ⟨a, a1, a2, a3⟩ := ihp
    obtain ⟨b, b1, b2, b3⟩ := ihq
    obtain ⟨_, ⟨c, c1, c2, c3⟩, _⟩ := C54_bit_ops_partial a b a2 b2 (by omega) (by omega)
    exact ⟨c, by rw [Prog.run, a1, b1]; exact c1, c2, by rw [c3, a3, b3]; rfl⟩
  | bitxor _ _ ihp ihq =>
    obtain ⟨a, a1, a2, a3⟩ := ihp
    obtain ⟨b, b1, b2, b3⟩ := ihq
    obtain ⟨_, _, ⟨c, c1, c2, c3⟩⟩ := C54_bit_ops_partial a b a2 b2 (by omega) (by omega)
    exact ⟨c, by rw [Prog.run, a1, b1]; exact c1, c2, by rw [c3, a3, b3]; rfl⟩
  | shl _ _ hk ihp ihq =>
    obtain ⟨a, a1, a2, a3⟩ := ihp
    obtain ⟨b, b1, b2, b3⟩ := ihq
    obtain ⟨c, c1, c2, c3⟩ := (C45_shl_partial m a b a2.1 b2).1 (by omega) (by omega)
    exact ⟨c, by rw [Prog.run, a1, b1]; exact c1, c2, by rw [c3, a3, b3]; rfl⟩
  | shr _ _ hk hx h ihp ihq =>
    obtain ⟨a, a1, a2, a3⟩ := ihp
    obtain ⟨b, b1, b2, b3⟩ := ihq
    have hl := length_of_small a2.1 (by rw [a3]; exact hx)
    obtain ⟨c, c1, c2, c3, c4⟩ := C45_shr_partial m a b a2.1 b2 (by omega) (by omega)
      (by rcases hk with hk | ⟨hk, hk'⟩
          · exact .inl (by omega)
          · exact .inr ⟨hk, by omega⟩)
    refine ⟨c, by rw [Prog.run, a1, b1]; exact c1, c2, ?_⟩
    rw [a3, b3, Int.toNat_natCast] at c3
    rw [a3] at c4
    rename_i x k _ _
    rcases h with h | ⟨y, rfl⟩
    · obtain ⟨n, rfl⟩ := Int.eq_ofNat_of_zero_le h
      rw [Int.natAbs_natCast] at c3
      have e : ((n : Int) / 2 ^ k) = ((n / 2 ^ k : Nat) : Int) := by push_cast; rfl
      rw [e, ← c3]
      omega
    · have hp : (0 : Int) < 2 ^ k := by positivity
      rw [Int.mul_ediv_cancel_left _ hp.ne']
      rw [Int.natAbs_mul, Int.natAbs_pow, show Int.natAbs 2 = 2 from rfl,
        Nat.mul_div_cancel_left _ (by positivity)] at c3
      by_cases hy : y < 0
      · have hyn : 2 ^ k * y < 0 := mul_neg_of_pos_of_neg hp hy
        have := c4 (by omega)
        omega
      · have hyn : 0 ≤ 2 ^ k * y := mul_nonneg hp.le (by omega)
        by_cases hc : ival c = 0
        · omega
        · have := c4 hc
          omega
  | pow _ _ hk ihp ihq =>
    obtain ⟨a, a1, a2, a3⟩ := ihp
    obtain ⟨b, b1, b2, b3⟩ := ihq
    obtain ⟨c, c1, c2, c3⟩ := C53_pow_partial m a b a2.1 b2 (by omega) fuel (by omega)
    exact ⟨c, by rw [Prog.run, a1, b1]; exact c1, c3 a2, by rw [c2, a3, b3]; rfl⟩

-- ((2 << 100) - 7) / -3, a computation across 2^64 with every side condition met
example : ∃ b, (Prog.div (.sub (.shl (.unsigned 8 2#8) (.unsigned 8 100#8)) (.unsigned 8 7#8))
    (.neg (.signed 32 3#32))).run .debug 0 = .ok b ∧ Canon b ∧
    ival b = Int.tdiv (2 * 2 ^ 100 - 7) (-3) := by
  refine C119_exact_partial .debug 0 _ _ (.div (.sub (.shl (.unsigned _ (by decide))
    (.unsigned (t := 8) 100#8 (by decide)) (by decide)) (.unsigned _ (by decide)) (by decide))
    (.neg (.signed _ (by decide)) (by decide)) (by decide) (.inr (.inl (by decide))))

-- in release builds, (2^130 >> 66) % 3 and a right shift of a negative number
example : ∃ b, (Prog.rem (.shr (.shl (.unsigned 8 1#8) (.unsigned 8 130#8)) (.unsigned 8 66#8))
    (.unsigned 8 3#8)).run .release 0 = .ok b ∧ Canon b ∧ ival b = 1 := by
  exact C119_exact_partial .release 0 _ _ (.rem (.shr (k := 66) (.shl (k := 130)
    (.unsigned _ (by decide)) (.unsigned (t := 8) 130#8 (by decide)) (by decide))
    (.unsigned (t := 8) 66#8 (by decide)) (by decide) (by decide) (by decide))
    (.unsigned _ (by decide)) (by decide) (by decide) (.inr (.inl (by decide))))

end BInt

end Verif
