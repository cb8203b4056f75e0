import Verif.Props.DropIn
import Verif.Props.UIntPtr
import Verif.Props.DivBits
import Verif.Props.IntExact
import Verif.Props.IBits

/-!
# What every expression over `U<N>` and `I<N>` computes (C195, exactly)

The results are given as numbers, by the relation `Quirks.Runs`, which does not mention bytes: sums, differences,
bit operators and shifts to the left are those of numbers of `8 * N` bits; a product is reported as too large
only if a row of the schoolbook product carries; quotients are those of `LowQuot`, and shifts to the right those of
`staleShr`. For `I<N>`, `Quirks.RunsS` gives the integers: sums, differences and products wrap in every build, bit
operators are those of two's complement, quotients are computed from the operands without their sign bits, and shifts
are not implemented.
-/

namespace Verif

namespace Quirks

open Word

/-- `x` where the profile does not check, or if it is in range. -/
def kept (m : Mode) (inRange : Prop) (x : Nat) (r : Res Nat) : Prop :=
  (m = .debug ∧ ¬ inRange ∧ r = .panic) ∨ ((m = .release ∨ inRange) ∧ r = .ok x)

/-- The amount by which `8 * n` bits are shifted in a release build: the largest power of two that is at most the
number of bits bounds it. -/
def cut (n k : Nat) : Nat := k % 2 ^ Nat.log2 (8 * n)

/-- `f` of the values of both, from left to right; panics win. -/
def both {α : Type} (r1 r2 : Res α → Prop) (f : α → α → Res α → Prop) (r : Res α) : Prop :=
  (∃ x, r1 (.ok x) ∧ ((∃ y, r2 (.ok y) ∧ f x y r) ∨ (r2 .panic ∧ r = .panic))) ∨ (r1 .panic ∧ r = .panic)

/-- `f` of the value. -/
def one {α : Type} (r1 : Res α → Prop) (f : α → Res α → Prop) (r : Res α) : Prop :=
  (∃ x, r1 (.ok x) ∧ f x r) ∨ (r1 .panic ∧ r = .panic)

/-- An expression over numbers of `n` bytes has the outcome `r`. -/
def Runs (m : Mode) (n : Nat) : Expr Nat → Res Nat → Prop
  | .lit a => fun r => r = .ok a
  | .add p q => both (Runs m n p) (Runs m n q) fun x y r => kept m (x + y < 256 ^ n) ((x + y) % 256 ^ n) r
  | .sub p q => both (Runs m n p) (Runs m n q) fun x y r => kept m (y ≤ x) ((x + 256 ^ n - y) % 256 ^ n) r
  | .mul p q => both (Runs m n p) (Runs m n q) fun x y r => kept m (¬ RowCarries 8 n x y) (x * y % 256 ^ n) r
  | .div p q => both (Runs m n p) (Runs m n q) fun x y r => ∃ a b, LowQuot 8 (8 * n) x y a b ∧ r = .ok a
  | .rem p q => both (Runs m n p) (Runs m n q) fun x y r => ∃ a b, LowQuot 8 (8 * n) x y a b ∧ r = .ok b
  | .and p q => both (Runs m n p) (Runs m n q) fun x y r => r = .ok (x &&& y)
  | .or p q => both (Runs m n p) (Runs m n q) fun x y r => r = .ok (x ||| y)
  | .xor p q => both (Runs m n p) (Runs m n q) fun x y r => r = .ok (x ^^^ y)
  | .not p => one (Runs m n p) fun x r => r = .ok (256 ^ n - 1 - x)
  | .shl p k => one (Runs m n p) fun x r =>
      match m with
      | .debug => (k ≤ 8 * n ∧ r = .ok (x * 2 ^ k % 256 ^ n)) ∨ (8 * n < k ∧ r = .panic)
      | .release => r = .ok (x * 2 ^ cut n k % 256 ^ n)
  | .shr p k => one (Runs m n p) fun x r =>
      match m with
      | .debug => (k < 8 * n ∧ r = .ok (staleShr 8 (8 * n) x k)) ∨ (8 * n ≤ k ∧ r = .panic)
      | .release => r = .ok (staleShr 8 (8 * n) x (cut n k))

/-- `x` or `-x`, cut to `n` bytes: the quotient and the remainder of the operands `a` and `b`. -/
def signed (n : Nat) (a b : ℤ) (x : ℕ) (r : Res ℤ) : Prop :=
  ∃ z, WrapsTo n (if (a < 0 ↔ b < 0) then x else -x) z ∧ r = .ok z

/-- An expression over integers of `n` bytes has the outcome `r`. -/
def RunsS (n : Nat) : Expr ℤ → Res ℤ → Prop
  | .lit a => fun r => r = .ok a
  | .add p q => both (RunsS n p) (RunsS n q) fun x y r => ∃ z, WrapsTo n (x + y) z ∧ r = .ok z
  | .sub p q => both (RunsS n p) (RunsS n q) fun x y r => ∃ z, WrapsTo n (x - y) z ∧ r = .ok z
  | .mul p q => both (RunsS n p) (RunsS n q) fun x y r => ∃ z, WrapsTo n (x * y) z ∧ r = .ok z
  | .div p q => both (RunsS n p) (RunsS n q) fun x y r =>
      ∃ a b, LowQuot 8 (8 * n) (signCleared n x) (signCleared n y) a b ∧ signed n x y a r
  | .rem p q => both (RunsS n p) (RunsS n q) fun x y r =>
      ∃ a b, LowQuot 8 (8 * n) (signCleared n x) (signCleared n y) a b ∧ signed n x y b r
  | .and p q => both (RunsS n p) (RunsS n q) fun x y r =>
      ∃ z : ℤ, (∀ k, z.testBit k = (x.testBit k && y.testBit k)) ∧ r = .ok z
  | .or p q => both (RunsS n p) (RunsS n q) fun x y r =>
      ∃ z : ℤ, (∀ k, z.testBit k = (x.testBit k || y.testBit k)) ∧ r = .ok z
  | .xor p q => both (RunsS n p) (RunsS n q) fun x y r =>
      ∃ z : ℤ, (∀ k, z.testBit k = (x.testBit k != y.testBit k)) ∧ r = .ok z
  | .not p => one (RunsS n p) fun x r => r = .ok (-x - 1)
  | .shl p _ => one (RunsS n p) fun _ r => r = .panic
  | .shr p _ => one (RunsS n p) fun _ r => r = .panic

end Quirks

open Word Quirks

/-- The outcome as a number; `v` is `val` or `sval`. -/
def Res.number {α : Type} (v : Bytes → α) (r : Res Bytes) : Res α := r.bind fun x => .ok (v x)

variable {α : Type} {v : Bytes → α}

/-- `R` is the graph of the outcome `r` of the code, which has `n` bytes and does not hang. -/
private def Graph (v : Bytes → α) (n : Nat) (R : Res α → Prop) (r : Res Bytes) : Prop :=
  (∀ s, R s ↔ r.number v = s) ∧ (∀ x, r = .ok x → x.length = n) ∧ r ≠ .hang

private theorem graph_ok {n : Nat} {R : Res α → Prop} {r : Res Bytes} {x : Bytes} (h : r = .ok x)
    (hl : x.length = n) (hR : ∀ s, R s ↔ s = .ok (v x)) : Graph v n R r := by
  subst h
  exact ⟨fun s => (hR s).trans eq_comm, fun y hy => by cases hy; exact hl, nofun⟩

private theorem graph_panic {n : Nat} {R : Res α → Prop} {r : Res Bytes} (h : r = .panic)
    (hR : ∀ s, R s ↔ s = .panic) : Graph v n R r := by
  subst h
  exact ⟨fun s => (hR s).trans eq_comm, nofun, nofun⟩

private theorem graph_both {n : Nat} {R1 R2 : Res α → Prop} {r1 r2 : Res Bytes}
    {f : α → α → Res α → Prop} {g : Bytes → Bytes → Res Bytes} (h1 : Graph v n R1 r1) (h2 : Graph v n R2 r2)
    (hf : ∀ x y, x.length = n → y.length = n → Graph v n (f (v x) (v y)) (g x y)) :
    Graph v n (both R1 R2 f) (r1.bind fun x => r2.bind fun y => g x y) := by
  obtain ⟨a1, a2, a3⟩ := h1
  obtain ⟨b1, b2, b3⟩ := h2
  cases r1 with
  | hang => exact absurd rfl a3
  | panic =>
    refine graph_panic rfl fun s => ?_
    unfold both
    simp only [a1, Res.number, Res.bind]
    simp
  | ok x =>
    cases r2 with
    | hang => exact absurd rfl b3
    | panic =>
      refine graph_panic rfl fun s => ?_
      unfold both
      simp only [a1, b1, Res.number, Res.bind]
      simp
    | ok y =>
      obtain ⟨c1, c2, c3⟩ := hf x y (a2 x rfl) (b2 y rfl)
      refine ⟨fun s => ?_, c2, c3⟩
      unfold both
      simp only [a1, b1, Res.number, Res.bind]
      simp only [Res.ok.injEq, exists_eq_left', reduceCtorEq, false_and, or_false]
      exact c1 s

private theorem graph_one {n : Nat} {R1 : Res α → Prop} {r1 : Res Bytes}
    {f : α → Res α → Prop} {g : Bytes → Res Bytes} (h1 : Graph v n R1 r1)
    (hf : ∀ x, x.length = n → Graph v n (f (v x)) (g x)) :
    Graph v n (one R1 f) (r1.bind fun x => g x) := by
  obtain ⟨a1, a2, a3⟩ := h1
  cases r1 with
  | hang => exact absurd rfl a3
  | panic =>
    refine graph_panic rfl fun s => ?_
    unfold one
    simp only [a1, Res.number, Res.bind]
    simp
  | ok x =>
    obtain ⟨c1, c2, c3⟩ := hf x (a2 x rfl)
    refine ⟨fun s => ?_, c2, c3⟩
    unfold one
    simp only [a1, Res.number, Res.bind]
    simp only [Res.ok.injEq, exists_eq_left', reduceCtorEq, false_and, or_false]
    exact c1 s

private theorem kept_ok {m : Mode} {P : Prop} {x : Nat} (h : m = .release ∨ P) (s : Res Nat) :
    kept m P x s ↔ s = .ok x := by
  unfold kept
  constructor
  · rintro (⟨rfl, h2, _⟩ | ⟨_, h⟩)
    · rcases h with h | h
      · cases h
      · exact absurd h h2
    · exact h
  · exact fun e => .inr ⟨h, e⟩

private theorem kept_panic {P : Prop} {x : Nat} (h : ¬ P) (s : Res Nat) :
    kept .debug P x s ↔ s = .panic := by
  unfold kept
  constructor
  · rintro (⟨_, _, h⟩ | ⟨h1 | h1, _⟩)
    · exact h
    · cases h1
    · exact absurd h1 h
  · exact fun e => .inl ⟨rfl, h, e⟩

private theorem run_graph (n : Nat) (h0 : 0 < n) (h60 : n < 2 ^ 60) (m : Mode) (e : Expr Bytes)
    (he : e.Lits fun a => a.length = n) : Graph val n (Runs m n (e.map val)) (e.run (UN.wordOps m)) := by
  induction e with
  | lit a => exact graph_ok rfl he fun s => Iff.rfl
  | add p q h1 h2 =>
    refine graph_both (h1 he.1) (h2 he.2) fun a b ha hb => ?_
    obtain ⟨k1, k2, _⟩ := C27_checked_add_sub a b (hb.trans ha.symm)
    rw [ha] at k1 k2
    change Graph val n _ (UN.add m a b)
    rcases Nat.lt_or_ge (val a + val b) (256 ^ n) with hv | hv
    · obtain ⟨x, _, x2, x3, x4, x5⟩ := k1 hv
      refine graph_ok (x := x) (by cases m <;> assumption) x2 fun s => ?_
      rw [kept_ok (.inr hv), x3, Nat.mod_eq_of_lt hv]
    · obtain ⟨_, x2, x, x3, x4, x5⟩ := k2 hv
      cases m with
      | debug => exact graph_panic x2 (kept_panic (by omega))
      | release =>
        refine graph_ok x3 x4 fun s => ?_
        have hx := modulus_bytes x ▸ val_lt x
        rw [x4] at hx
        rw [kept_ok (.inl rfl), x5, Nat.mod_eq_sub_mod hv, Nat.mod_eq_of_lt (x5 ▸ hx)]
  | sub p q h1 h2 =>
    refine graph_both (h1 he.1) (h2 he.2) fun a b ha hb => ?_
    obtain ⟨_, _, k1, k2⟩ := C27_checked_add_sub a b (hb.trans ha.symm)
    rw [ha] at k1 k2
    change Graph val n _ (UN.sub m a b)
    have hva := modulus_bytes a ▸ val_lt a
    rw [ha] at hva
    rcases Nat.lt_or_ge (val a) (val b) with hv | hv
    · obtain ⟨_, x2, x, x3, x4, x5⟩ := k2 hv
      cases m with
      | debug => exact graph_panic x2 (kept_panic (by omega))
      | release =>
        refine graph_ok x3 x4 fun s => ?_
        rw [kept_ok (.inl rfl), x5, Nat.mod_eq_of_lt (by omega)]
    · obtain ⟨x, _, x2, x3, x4, x5⟩ := k1 hv
      refine graph_ok (x := x) (by cases m <;> assumption) x2 fun s => ?_
      rw [kept_ok (.inr hv), x3, show val a + 256 ^ n - val b = val a - val b + 256 ^ n by omega,
        Nat.add_mod_right, Nat.mod_eq_of_lt (by omega)]
  | mul p q h1 h2 =>
    refine graph_both (h1 he.1) (h2 he.2) fun a b ha hb => ?_
    obtain ⟨x, x1, x2, x3, x4, x5⟩ := C28_checked_mul_exact_partial a b
    rw [ha] at x1 x2 x4 x5
    change Graph val n _ (UN.mul m a b)
    cases m with
    | debug =>
      by_cases hc : RowCarries 8 n (val a) (val b)
      · exact graph_panic (x4 hc).2 (kept_panic (not_not.mpr hc))
      · exact graph_ok (x5 hc).2 x1 fun s => by rw [kept_ok (.inr hc), x2]
    | release => exact graph_ok x3 x1 fun s => by rw [kept_ok (.inl rfl), x2]
  | div p q h1 h2 =>
    refine graph_both (h1 he.1) (h2 he.2) fun a b ha hb => ?_
    have hne : a ≠ [] := List.length_pos_iff.mp (by omega)
    obtain ⟨x, y, x1, x2, x3⟩ := C30_div_bits_partial m a b (hb.trans ha.symm) hne (by omega)
    obtain ⟨x', _, y1, _, _, y4, _⟩ := C30_div_exact_partial m a b (hb.trans ha.symm) hne (by omega)
    rw [x1] at y1; cases y1
    rw [ha] at x3 y4
    refine graph_ok x1 y4 fun s => ⟨?_, fun e => ⟨_, _, x3, e⟩⟩
    rintro ⟨c, d, c1, rfl⟩
    rw [(lowQuot_unique c1 x3).1]
  | rem p q h1 h2 =>
    refine graph_both (h1 he.1) (h2 he.2) fun a b ha hb => ?_
    have hne : a ≠ [] := List.length_pos_iff.mp (by omega)
    obtain ⟨x, y, x1, x2, x3⟩ := C30_div_bits_partial m a b (hb.trans ha.symm) hne (by omega)
    obtain ⟨_, y', _, y1, _, _, y5, _⟩ := C30_div_exact_partial m a b (hb.trans ha.symm) hne (by omega)
    rw [x2] at y1; cases y1
    rw [ha] at x3 y5
    refine graph_ok x2 y5 fun s => ⟨?_, fun e => ⟨_, _, x3, e⟩⟩
    rintro ⟨c, d, c1, rfl⟩
    rw [(lowQuot_unique c1 x3).2]
  | and p q h1 h2 =>
    refine graph_both (h1 he.1) (h2 he.2) fun a b ha hb => ?_
    obtain ⟨⟨a1, a2⟩, _⟩ := C33_bit_ops a b (hb.trans ha.symm)
    exact graph_ok (x := UN.bitand a b) rfl (by omega) fun s => by rw [a2]
  | or p q h1 h2 =>
    refine graph_both (h1 he.1) (h2 he.2) fun a b ha hb => ?_
    obtain ⟨_, ⟨a1, a2⟩, _⟩ := C33_bit_ops a b (hb.trans ha.symm)
    exact graph_ok (x := UN.bitor a b) rfl (by omega) fun s => by rw [a2]
  | xor p q h1 h2 =>
    refine graph_both (h1 he.1) (h2 he.2) fun a b ha hb => ?_
    obtain ⟨_, _, ⟨a1, a2⟩, _⟩ := C33_bit_ops a b (hb.trans ha.symm)
    exact graph_ok (x := UN.bitxor a b) rfl (by omega) fun s => by rw [a2]
  | not p h1 =>
    refine graph_one (h1 he) fun a ha => ?_
    obtain ⟨_, _, _, a1, a2⟩ := C33_bit_ops a a rfl
    rw [ha] at a2
    exact graph_ok (x := UN.not a) rfl (by omega) fun s => by rw [a2]
  | shl p k h1 =>
    refine graph_one (h1 he) fun a ha => ?_
    have hne : a ≠ [] := List.length_pos_iff.mp (by omega)
    obtain ⟨s1, s2, _, _, ⟨x, s5, s6, s7⟩, _⟩ := C34_shifts_exact_partial a k hne (by omega)
    rw [ha] at s1 s2 s6 s7
    change Graph val n _ (UN.shl m a k)
    cases m with
    | debug =>
      rcases Nat.lt_or_ge (8 * n) k with hv | hv
      · refine graph_panic (s2 hv) fun s => ⟨?_, fun e => .inr ⟨hv, e⟩⟩
        rintro (⟨h, _⟩ | ⟨_, h⟩)
        · omega
        · exact h
      · obtain ⟨x, x1, x2, x3⟩ := s1 hv
        refine graph_ok x1 x2 fun s => ?_
        rw [x3]
        refine ⟨?_, fun e => .inl ⟨hv, e⟩⟩
        rintro (⟨_, h⟩ | ⟨h, _⟩)
        · exact h
        · omega
    | release => exact graph_ok s5 s6 fun s => by rw [s7]; rfl
  | shr p k h1 =>
    refine graph_one (h1 he) fun a ha => ?_
    have hne : a ≠ [] := List.length_pos_iff.mp (by omega)
    obtain ⟨_, _, s3, s4, _, ⟨y, s7, s8, s9⟩⟩ := C34_shifts_exact_partial a k hne (by omega)
    rw [ha] at s3 s4 s8 s9
    change Graph val n _ (UN.shr m a k)
    cases m with
    | debug =>
      rcases Nat.lt_or_ge k (8 * n) with hv | hv
      · obtain ⟨x, x1, x2, x3⟩ := s3 hv
        refine graph_ok x1 x2 fun s => ?_
        rw [x3]
        refine ⟨?_, fun e => .inl ⟨hv, e⟩⟩
        rintro (⟨_, h⟩ | ⟨h, _⟩)
        · exact h
        · omega
      · refine graph_panic (s4 hv) fun s => ⟨?_, fun e => .inr ⟨hv, e⟩⟩
        rintro (⟨h, _⟩ | ⟨_, h⟩)
        · omega
        · exact h
    | release => exact graph_ok s7 s8 fun s => by rw [s9]; rfl

/-- C195, exact: the outcome of every expression over `U<N>`, in both profiles, is the one `Quirks.Runs` gives, which
is unique; a result has `N` bytes, so this determines it. Missing, because false: that these are the outcomes for the
primitive. -/
theorem C195_exact_partial (n : Nat) (h0 : 0 < n) (h60 : n < 2 ^ 60) (m : Mode) (e : Expr Bytes)
    (he : e.Lits fun a => a.length = n) :
    (∀ r, Quirks.Runs m n (e.map val) r ↔ (e.run (UN.wordOps m)).number val = r) ∧
    (∀ x, e.run (UN.wordOps m) = .ok x → x.length = n) ∧ e.run (UN.wordOps m) ≠ .hang :=
  run_graph n h0 h60 m e he

/-- In `U<1>`, `(200 * 2) >> 1` is `144 >> 1` in both profiles, as no row carries, and that has the top bit of 144
twice; in `U<2>`, `0xffff * 0xffff` is reported in debug builds. -/
example : Quirks.Runs .debug 1 (.shr (.mul (.lit 200) (.lit 2)) 1) (.ok 200) ∧
    Quirks.Runs .release 1 (.shr (.mul (.lit 200) (.lit 2)) 1) (.ok 200) ∧
    Quirks.Runs .debug 2 (.shr (.mul (.lit 65535) (.lit 65535)) 1) .panic := by
  have h := fun m => (C195_exact_partial 1 (by norm_num) (by norm_num) m
    (.shr (.mul (.lit [200#8]) (.lit [2#8])) 1) ⟨rfl, rfl⟩).1
  have k := (C195_exact_partial 2 (by norm_num) (by norm_num) .debug
    (.shr (.mul (.lit [255#8, 255#8]) (.lit [255#8, 255#8])) 1) ⟨rfl, rfl⟩).1
  exact ⟨(h .debug (.ok 200)).mpr (by decide +kernel), (h .release (.ok 200)).mpr (by decide +kernel),
    (k .panic).mpr (by decide +kernel)⟩

private theorem int_bits {x y : ℤ} (h : ∀ k, x.testBit k = y.testBit k) : x = y := by
  have mixed : ∀ a b : ℕ, (∀ k, (a.testBit k) = !(b.testBit k)) → False := by
    intro a b h
    have h1 := h (a + b)
    rw [Nat.testBit_lt_two_pow (lt_of_lt_of_le Nat.lt_two_pow_self (Nat.pow_le_pow_right (by norm_num) (by omega))),
      Nat.testBit_lt_two_pow (lt_of_lt_of_le Nat.lt_two_pow_self (Nat.pow_le_pow_right (by norm_num) (by omega)))] at h1
    cases h1
  cases x with
  | ofNat a =>
    cases y with
    | ofNat b => rw [Nat.eq_of_testBit_eq (x := a) (y := b) h]
    | negSucc b => exact (mixed a b h).elim
  | negSucc a =>
    cases y with
    | ofNat b => exact (mixed b a fun k => (h k).symm).elim
    | negSucc b => rw [Nat.eq_of_testBit_eq (x := a) (y := b) fun k => Bool.not_inj (h k)]

private theorem the_bits {z : ℤ} {f : ℕ → Bool} (h : ∀ k, z.testBit k = f k) (s : Res ℤ) :
    (∃ y : ℤ, (∀ k, y.testBit k = f k) ∧ s = .ok y) ↔ s = .ok z := by
  refine ⟨?_, fun e => ⟨z, h, e⟩⟩
  rintro ⟨y, h1, rfl⟩
  rw [int_bits fun k => (h1 k).trans (h k).symm]

private theorem the_wrapped {n : Nat} {x z : ℤ} (h : WrapsTo n x z) (s : Res ℤ) :
    (∃ y, WrapsTo n x y ∧ s = .ok y) ↔ s = .ok z := by
  refine ⟨?_, fun e => ⟨z, h, e⟩⟩
  rintro ⟨y, h1, rfl⟩
  rw [wraps_unique h1 h]

private theorem run_graphS (n : Nat) (h0 : 0 < n) (h60 : n < 2 ^ 60) (m : Mode) (e : Expr Bytes)
    (he : e.Lits fun a => a.length = n) : Graph sval n (RunsS n (e.map sval)) (e.run (IN.wordOps m)) := by
  induction e with
  | lit a => exact graph_ok rfl he fun s => Iff.rfl
  | add p q h1 h2 =>
    refine graph_both (h1 he.1) (h2 he.2) fun a b ha hb => ?_
    obtain ⟨⟨k1, k2⟩, _⟩ := C38_twos_complement a b (hb.trans ha.symm)
    rw [ha] at k1 k2
    exact graph_ok (x := IN.add a b) rfl k1 (the_wrapped k2)
  | sub p q h1 h2 =>
    refine graph_both (h1 he.1) (h2 he.2) fun a b ha hb => ?_
    obtain ⟨_, ⟨k1, k2⟩, _⟩ := C38_twos_complement a b (hb.trans ha.symm)
    rw [ha] at k1 k2
    exact graph_ok (x := IN.sub a b) rfl k1 (the_wrapped k2)
  | mul p q h1 h2 =>
    refine graph_both (h1 he.1) (h2 he.2) fun a b ha hb => ?_
    obtain ⟨_, _, ⟨k1, k2⟩, _⟩ := C38_twos_complement a b (hb.trans ha.symm)
    rw [ha] at k1 k2
    exact graph_ok (x := IN.mul a b) rfl k1 (the_wrapped k2)
  | div p q h1 h2 =>
    refine graph_both (h1 he.1) (h2 he.2) fun a b ha hb => ?_
    have hne : a ≠ [] := List.length_pos_iff.mp (by omega)
    obtain ⟨x, y, q₀, r₀, x1, _, x3, _, x5⟩ := C41_div_bits_partial m a b hne (hb.trans ha.symm) (by omega)
    obtain ⟨x', _, _, _, y1, _, y4, _⟩ := C41_div_exact_partial m a b hne (hb.trans ha.symm) (by omega)
    rw [x1] at y1; cases y1
    rw [ha] at x3 x5 y4
    refine graph_ok x1 y4 fun s => ⟨?_, fun e => ⟨_, _, x5, _, x3, e⟩⟩
    rintro ⟨c, d, c1, c2⟩
    rw [(lowQuot_unique c1 x5).1] at c2
    exact (the_wrapped x3 s).mp c2
  | rem p q h1 h2 =>
    refine graph_both (h1 he.1) (h2 he.2) fun a b ha hb => ?_
    have hne : a ≠ [] := List.length_pos_iff.mp (by omega)
    obtain ⟨x, y, q₀, r₀, _, x1, _, x3, x5⟩ := C41_div_bits_partial m a b hne (hb.trans ha.symm) (by omega)
    obtain ⟨_, y', _, _, _, y1, _, y4, _⟩ := C41_div_exact_partial m a b hne (hb.trans ha.symm) (by omega)
    rw [x1] at y1; cases y1
    rw [ha] at x3 x5 y4
    refine graph_ok x1 y4 fun s => ⟨?_, fun e => ⟨_, _, x5, _, x3, e⟩⟩
    rintro ⟨c, d, c1, c2⟩
    rw [(lowQuot_unique c1 x5).2] at c2
    exact (the_wrapped x3 s).mp c2
  | and p q h1 h2 =>
    refine graph_both (h1 he.1) (h2 he.2) fun a b ha hb => ?_
    obtain ⟨⟨k1, k2⟩, _⟩ := C92_bit_ops a b (List.length_pos_iff.mp (by omega)) (hb.trans ha.symm)
    exact graph_ok (x := IN.bitand a b) rfl (k1.trans ha) (the_bits k2)
  | or p q h1 h2 =>
    refine graph_both (h1 he.1) (h2 he.2) fun a b ha hb => ?_
    obtain ⟨_, ⟨k1, k2⟩, _⟩ := C92_bit_ops a b (List.length_pos_iff.mp (by omega)) (hb.trans ha.symm)
    exact graph_ok (x := IN.bitor a b) rfl (k1.trans ha) (the_bits k2)
  | xor p q h1 h2 =>
    refine graph_both (h1 he.1) (h2 he.2) fun a b ha hb => ?_
    obtain ⟨_, _, ⟨k1, k2⟩, _⟩ := C92_bit_ops a b (List.length_pos_iff.mp (by omega)) (hb.trans ha.symm)
    exact graph_ok (x := IN.bitxor a b) rfl (k1.trans ha) (the_bits k2)
  | not p h1 =>
    refine graph_one (h1 he) fun a ha => ?_
    obtain ⟨_, _, _, k1, k2⟩ := C92_bit_ops a a (List.length_pos_iff.mp (by omega)) rfl
    exact graph_ok (x := IN.not a) rfl (k1.trans ha) fun s => by rw [k2]
  | shl p k h1 | shr p k h1 =>
    refine graph_one (h1 he) fun a ha => ?_
    exact graph_panic rfl fun s => Iff.rfl

/-- C195 for `I<N>`, exact: the outcome of every expression, in both profiles, is the one `Quirks.RunsS` gives. Missing,
because false: that these are the outcomes for the primitive. -/
theorem C195_signed_exact_partial (n : Nat) (h0 : 0 < n) (h60 : n < 2 ^ 60) (m : Mode) (e : Expr Bytes)
    (he : e.Lits fun a => a.length = n) :
    (∀ r, Quirks.RunsS n (e.map sval) r ↔ (e.run (IN.wordOps m)).number sval = r) ∧
    (∀ x, e.run (IN.wordOps m) = .ok x → x.length = n) ∧ e.run (IN.wordOps m) ≠ .hang :=
  run_graphS n h0 h60 m e he

/-- In `I<1>`, `(-100 - 29) / 3` is `127 / 3`, and `-1 / 1` is -127; nothing can be shifted. -/
example : Quirks.RunsS 1 (.div (.sub (.lit (-100)) (.lit 29)) (.lit 3)) (.ok 42) ∧
    Quirks.RunsS 1 (.div (.lit (-1)) (.lit 1)) (.ok (-127)) ∧ Quirks.RunsS 1 (.shl (.lit 1) 1) .panic := by
  have h := (C195_signed_exact_partial 1 (by norm_num) (by norm_num) .debug
    (.div (.sub (.lit [156#8]) (.lit [29#8])) (.lit [3#8])) ⟨⟨rfl, rfl⟩, rfl⟩).1
  have k := (C195_signed_exact_partial 1 (by norm_num) (by norm_num) .debug
    (.div (.lit [255#8]) (.lit [1#8])) ⟨rfl, rfl⟩).1
  have l := (C195_signed_exact_partial 1 (by norm_num) (by norm_num) .debug (.shl (.lit [1#8]) 1) rfl).1
  exact ⟨(h (.ok 42)).mpr (by decide +kernel), (k (.ok (-127))).mpr (by decide +kernel),
    (l .panic).mpr (by decide +kernel)⟩

end Verif
