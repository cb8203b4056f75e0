import Verif.Model.FixedInts
import Verif.Spec.Real
import Verif.Lemmas.Fixed
import Verif.Props.ShiftExact
import Verif.Props.Order
import Verif.Props.DivExact
import Verif.Props.IInt

/-!
# Properties of `Fixed` backed by `U<M>` and `I<M>`
-/

namespace Verif

open Fixed

/-! ## The generic model and the model for primitives -/

/-- For primitives the generic functions are those of `Model/Fixed.lean`. -/
theorem FixedOf.prim (m : Mode) (p : Prim) (N : Nat) (x y : Int) :
    FixedOf.one (Prim.intOps m p) N = Fixed.one m p N ∧
    FixedOf.fromVal (Prim.intOps m p) N x = Fixed.fromVal m p N x ∧
    FixedOf.isWhole (Prim.intOps m p) N x = Fixed.isWhole m p N x ∧
    FixedOf.add (Prim.intOps m p) x y = Fixed.add m p x y ∧
    FixedOf.sub (Prim.intOps m p) x y = Fixed.sub m p x y ∧
    FixedOf.floor (Prim.intOps m p) N x = Fixed.floor m p N x ∧
    FixedOf.ceil (Prim.intOps m p) N x = Fixed.ceil m p N x ∧
    FixedOf.fract (Prim.intOps m p) N x = Fixed.fract m p N x ∧
    FixedOf.trunc (Prim.intOps m p) N x = Fixed.trunc m p N x ∧
    FixedOf.round (Prim.intOps m p) N x = Fixed.round m p N x := by
  refine ⟨rfl, rfl, rfl, rfl, rfl, rfl, rfl, rfl, rfl, ?_⟩
  unfold FixedOf.round Fixed.round
  have hf : FixedOf.fract (Prim.intOps m p) N x = Fixed.fract m p N x := rfl
  have hc : FixedOf.ceil (Prim.intOps m p) N x = Fixed.ceil m p N x := rfl
  have hl : FixedOf.floor (Prim.intOps m p) N x = Fixed.floor m p N x := rfl
  have ho : FixedOf.one (Prim.intOps m p) N = Fixed.one m p N := rfl
  rw [hf, hc, hl, ho]
  congr 1; funext o
  change (Fixed.add m p o o).bind _ = _
  congr 1; funext two
  change (Fixed.div p o two).bind _ = _
  congr 1; funext half
  congr 1; funext f
  change (if compare f 0 ≠ .lt then Res.ok f else Fixed.sub m p o f).bind _ = _
  have e : (compare f 0 ≠ .lt) ↔ f ≥ 0 := by
    rw [Ne, compare_lt_iff_lt]; omega
  rw [show (if compare f 0 ≠ .lt then Res.ok f else Fixed.sub m p o f) =
    (if f ≥ 0 then Res.ok f else Fixed.sub m p o f) from if_congr e rfl rfl]
  congr 1; funext g
  change (if compare g half = .gt then _ else _) = _
  rw [if_congr (compare_gt_iff_gt) rfl rfl]

/-! ## C141: `U<M>` -/

/-- The largest power of two up to the number of bits bounds the shifts that release builds do right. -/
private theorem and_high {B N a : Nat} (hN : N ≤ B) (ha : a < 2 ^ B) :
    a &&& (2 ^ B - 2 ^ N) = a / 2 ^ N * 2 ^ N := by
  have e : 2 ^ B - 2 ^ N = (2 ^ (B - N) - 1) * 2 ^ N := by
    rw [Nat.sub_mul, ← pow_add, Nat.sub_add_cancel hN, one_mul]
  apply Nat.eq_of_testBit_eq
  intro i
  rw [e, Nat.testBit_and, Nat.testBit_mul_two_pow, Nat.testBit_mul_two_pow, Nat.testBit_two_pow_sub_one,
    Nat.testBit_div_two_pow]
  by_cases h : N ≤ i
  · rw [Nat.sub_add_cancel h]
    by_cases hi : i < B
    · have : i - N < B - N := by omega
      simp [h, this]
    · have : a.testBit i = false := Nat.testBit_lt_two_pow (lt_of_lt_of_le ha (Nat.pow_le_pow_right (by norm_num) (by omega)))
      simp [this]
  · simp [h]

section

variable {m : Mode} {M N : Nat}

private theorem bytes_pow (M : Nat) : 256 ^ M = 2 ^ (8 * M) := by
  rw [Nat.pow_mul]

private theorem ne_nil {a : Bytes} (ha : a.length = M) (hM : 0 < M) : a ≠ [] := by
  rintro rfl; simp at ha; omega

theorem FixedOf.u_shl (hM : 0 < M) (hfit : M < 2 ^ 60) (hN : N < 8 * M)
    (hr : m = .release → N < 2 ^ Nat.log2 (8 * M)) {a : Bytes} (ha : a.length = M) :
    ∃ out, UN.shl m a N = .ok out ∧ out.length = M ∧ val out = val a * 2 ^ N % 256 ^ M := by
  obtain ⟨h1, -, -, -, h5, -⟩ := C34_shifts_exact_partial a N (ne_nil ha hM) (by omega)
  subst ha
  cases m with
  | debug => exact h1 hN.le
  | release =>
    have h := h5
    rwa [Nat.mod_eq_of_lt (hr rfl)] at h

theorem FixedOf.u_shr (hM : 0 < M) (hfit : M < 2 ^ 60) (hN : N < 8 * M)
    (hr : m = .release → N < 2 ^ Nat.log2 (8 * M)) {a : Bytes} (ha : a.length = M) :
    ∃ out, UN.shr m a N = .ok out ∧ out.length = M ∧ val out = staleShr 8 (8 * M) (val a) N := by
  obtain ⟨-, -, h3, -, -, h6⟩ := C34_shifts_exact_partial a N (ne_nil ha hM) (by omega)
  subst ha
  cases m with
  | debug => exact h3 hN
  | release =>
    have h := h6
    rwa [Nat.mod_eq_of_lt (hr rfl)] at h

theorem FixedOf.u_one_val (hM : 0 < M) : val (UN.one M) = 1 := by
  rw [UN.val_one, Nat.mod_eq_of_lt (Nat.one_lt_pow (by omega) (by norm_num))]

theorem FixedOf.u_one (hM : 0 < M) (hfit : M < 2 ^ 60) (hN : N < 8 * M)
    (hr : m = .release → N < 2 ^ Nat.log2 (8 * M)) :
    ∃ out, FixedOf.one (UN.intOps m M) N = .ok out ∧ out.length = M ∧ val out = 2 ^ N := by
  obtain ⟨out, h1, h2, h3⟩ := FixedOf.u_shl hM hfit hN hr (UN.length_one M)
  refine ⟨out, h1, h2, ?_⟩
  rw [h3, FixedOf.u_one_val hM, one_mul, bytes_pow, Nat.mod_eq_of_lt (Nat.pow_lt_pow_right (by norm_num) hN)]

theorem FixedOf.u_floor (hM : 0 < M) (hfit : M < 2 ^ 60) (hN : N < 8 * M)
    (hr : m = .release → N < 2 ^ Nat.log2 (8 * M)) {x : Bytes} (hx : x.length = M) :
    ∃ out, FixedOf.floor (UN.intOps m M) N x = .ok out ∧ out.length = M ∧
      val out = val x / 2 ^ N * 2 ^ N := by
  obtain ⟨y, h1, h2, h3⟩ := FixedOf.u_shr hM hfit hN hr hx
  obtain ⟨out, k1, k2, k3⟩ := FixedOf.u_shl hM hfit hN hr h2
  refine ⟨out, ?_, k2, ?_⟩
  · unfold FixedOf.floor
    change (UN.shr m x N).bind (fun y => UN.shl m y N) = _
    rw [h1]; exact k1
  · have hlt := val_lt x
    rw [modulus, hx] at hlt
    rw [k3, h3, staleShr, add_mul, mul_assoc (_ % _), ← pow_add, Nat.sub_add_cancel hN.le, bytes_pow,
      Nat.add_mul_mod_self_right]
    exact Nat.mod_eq_of_lt (lt_of_le_of_lt (Nat.div_mul_le_self _ _) hlt)

theorem FixedOf.u_whole (hM : 0 < M) (hfit : M < 2 ^ 60) (hN : N < 8 * M)
    (hr : m = .release → N < 2 ^ Nat.log2 (8 * M)) {x : Bytes} (hx : x.length = M) :
    FixedOf.isWhole (UN.intOps m M) N x = .ok (decide (2 ^ N ∣ val x)) := by
  obtain ⟨i, h1, h2, h3⟩ := FixedOf.u_one hM hfit hN hr
  have hp : 1 ≤ 2 ^ N := Nat.one_le_two_pow
  obtain ⟨-, -, hs, -⟩ := C27_checked_add_sub i (UN.one M) (by rw [UN.length_one, h2])
  obtain ⟨k, -, k1, k2, kd, kr⟩ := hs (by rw [FixedOf.u_one_val hM, h3]; exact hp)
  rw [h2] at k1
  have hmask : FixedOf.mask (UN.intOps m M) N = .ok k := by
    unfold FixedOf.mask
    change (FixedOf.one (UN.intOps m M) N).bind (fun x => UN.sub m x (UN.one M)) = _
    rw [h1]
    cases m
    · exact kd
    · exact kr
  rw [h3, FixedOf.u_one_val hM] at k2
  obtain ⟨-, -, -, n1, n2⟩ := C33_bit_ops k k rfl
  obtain ⟨⟨a1, a2⟩, -⟩ := C33_bit_ops x (UN.not k) (by rw [n1, k1, hx])
  have hlt := val_lt x
  rw [modulus, hx] at hlt
  have hpB : 2 ^ N ≤ 2 ^ (8 * M) := Nat.pow_le_pow_right (by norm_num) hN.le
  have hv : val (UN.bitand x (UN.not k)) = val x / 2 ^ N * 2 ^ N := by
    rw [a2, n2, k1, k2, bytes_pow,
      show 2 ^ (8 * M) - 1 - (2 ^ N - 1) = 2 ^ (8 * M) - 2 ^ N by omega]
    exact and_high hN.le hlt
  unfold FixedOf.isWhole
  rw [hmask]
  change Res.ok (UN.eq (UN.bitand x (UN.not k)) x) = _
  congr 1
  unfold UN.eq
  apply decide_eq_decide.mpr
  constructor
  · intro h
    rw [h] at hv
    exact ⟨val x / 2 ^ N, by rw [mul_comm]; exact hv⟩
  · rintro h
    apply eq_of_val_eq a1
    rw [hv, Nat.div_mul_cancel h]

end

/-- C141 for the constant one and for whole numbers: `one` is 1, and `from_val` of a number that is
representable is that number. -/
theorem C141_one_partial (m : Mode) (M N : Nat) (hM : 0 < M) (hfit : M < 2 ^ 60) (hN : N < 8 * M)
    (hr : m = .release → N < 2 ^ Nat.log2 (8 * M)) (v : Bytes) (hv : v.length = M) :
    (∃ r, FixedOf.one (UN.intOps m M) N = .ok r ∧ r.length = M ∧ fval N (val r) = 1) ∧
    (val v * 2 ^ N < 256 ^ M →
      ∃ r, FixedOf.fromVal (UN.intOps m M) N v = .ok r ∧ r.length = M ∧ fval N (val r) = val v) := by
  constructor
  · obtain ⟨r, h1, h2, h3⟩ := FixedOf.u_one hM hfit hN hr
    refine ⟨r, h1, h2, ?_⟩
    rw [h3]
    have := fval_scaled (N := N) 1
    push_cast at this ⊢
    rwa [one_mul] at this
  · intro hb
    obtain ⟨r, h1, h2, h3⟩ := FixedOf.u_shl hM hfit hN hr hv
    refine ⟨r, h1, h2, ?_⟩
    rw [h3, Nat.mod_eq_of_lt hb]
    have := fval_scaled (N := N) (val v)
    push_cast at this ⊢
    exact this

example : ∃ r, FixedOf.fromVal (UN.intOps .debug 2) 5 [7#8, 0#8] = .ok r ∧ r.length = 2 ∧ fval 5 (val r) = val [7#8, 0#8] :=
  (C141_one_partial .debug 2 5 (by decide) (by decide) (by decide) (by decide) [7#8, 0#8] rfl).2 (by decide)

/-- C141 for `floor`. -/
theorem C141_floor_partial (m : Mode) (M N : Nat) (hM : 0 < M) (hfit : M < 2 ^ 60) (hN : N < 8 * M)
    (hr : m = .release → N < 2 ^ Nat.log2 (8 * M)) (x : Bytes) (hx : x.length = M) :
    ∃ r, FixedOf.floor (UN.intOps m M) N x = .ok r ∧ r.length = M ∧
      fval N (val r) = ⌊fval N (val x)⌋ := by
  obtain ⟨r, h1, h2, h3⟩ := FixedOf.u_floor hM hfit hN hr hx
  refine ⟨r, h1, h2, ?_⟩
  rw [h3, floor_fval]
  have := fval_scaled (N := N) ((val x : Int) / 2 ^ N)
  push_cast at this ⊢
  exact this

example := C141_floor_partial .release 2 5 (by decide) (by decide) (by decide) (by decide) [0x39#8, 0x30#8] rfl

theorem ceil_fval_nat (N a : Nat) : ⌈fval N a⌉ =
    ((if 2 ^ N ∣ a then a / 2 ^ N else a / 2 ^ N + 1 : Nat) : Int) := by
  have hp : 0 < 2 ^ N := Nat.two_pow_pos N
  rw [ceil_fval]
  have hd := Nat.div_add_mod (a) (2 ^ N)
  have hml := Nat.mod_lt (a) hp
  have hpI : (0 : Int) < 2 ^ N := by positivity
  split
  · rename_i hdv
    have e : (a : Int) = 2 ^ N * (a / 2 ^ N : Nat) := by
      exact_mod_cast (Nat.mul_div_cancel' hdv).symm
    rw [e, ← mul_neg, Int.mul_ediv_cancel_left _ hpI.ne', neg_neg]
  · rename_i hdv
    have hm0 : 0 < a % 2 ^ N := Nat.pos_of_ne_zero fun h => hdv (Nat.dvd_of_mod_eq_zero h)
    have : (-(a : Int)) / 2 ^ N = -((a / 2 ^ N : Nat) : Int) - 1 := by
      rw [Int.ediv_eq_iff_of_pos hpI]
      have hdI : (2 : Int) ^ N * (a / 2 ^ N : Nat) + (a % 2 ^ N : Nat) = a := by
        exact_mod_cast hd
      have h1 : ((a % 2 ^ N : Nat) : Int) < 2 ^ N := by exact_mod_cast hml
      have h2 : (0 : Int) < ((a % 2 ^ N : Nat) : Int) := by exact_mod_cast hm0
      constructor <;> nlinarith
    rw [this]; push_cast; ring

/-- C141 for `ceil`: exact if it is representable, otherwise debug builds panic. -/
theorem C141_ceil_partial (m : Mode) (M N : Nat) (hM : 0 < M) (hfit : M < 2 ^ 60) (hN : N < 8 * M)
    (hr : m = .release → N < 2 ^ Nat.log2 (8 * M)) (x : Bytes) (hx : x.length = M) :
    (⌈fval N (val x)⌉ * 2 ^ N < 256 ^ M →
      ∃ r, FixedOf.ceil (UN.intOps m M) N x = .ok r ∧ r.length = M ∧
        fval N (val r) = ⌈fval N (val x)⌉) ∧
    (256 ^ M ≤ ⌈fval N (val x)⌉ * 2 ^ N → m = .debug →
      FixedOf.ceil (UN.intOps m M) N x = .panic) := by
  have hp : 0 < 2 ^ N := Nat.two_pow_pos N
  have hw := FixedOf.u_whole hM hfit hN hr hx
  obtain ⟨f, f1, f2, f3⟩ := FixedOf.u_floor hM hfit hN hr hx
  have hc := ceil_fval_nat N (val x)
  rw [hc]
  unfold FixedOf.ceil
  rw [hw]
  simp only [Res.bind]
  by_cases hdv : 2 ^ N ∣ val x
  · simp only [hdv, if_true, decide_true]
    constructor
    · intro _
      refine ⟨f, f1, f2, ?_⟩
      rw [f3]
      have := fval_scaled (N := N) ((val x / 2 ^ N : Nat) : Int)
      push_cast at this ⊢
      exact this
    · intro hb
      have hlt := val_lt x
      rw [modulus, hx, ← bytes_pow] at hlt
      have := Nat.div_mul_le_self (val x) (2 ^ N)
      have h : 256 ^ M ≤ val x / 2 ^ N * 2 ^ N := by exact_mod_cast hb
      omega
  · simp only [hdv, if_false, decide_false, Bool.false_eq_true]
    obtain ⟨i, i1, i2, i3⟩ := FixedOf.u_one hM hfit hN hr
    rw [f1]
    simp only [i1]
    change (_ → ∃ r, UN.add m f i = _ ∧ _) ∧ (_ → _ → UN.add m f i = _)
    obtain ⟨a1, a2, -⟩ := C27_checked_add_sub f i (by rw [i2, f2])
    rw [f2] at a1 a2
    constructor
    · intro hb
      have hb' : (val x / 2 ^ N + 1) * 2 ^ N < 256 ^ M := by exact_mod_cast hb
      obtain ⟨r, -, r1, r2, rd, rr⟩ := a1 (by rw [f3, i3]; linarith)
      refine ⟨r, by cases m; exacts [rd, rr], r1, ?_⟩
      rw [r2, f3, i3]
      have := fval_scaled (N := N) ((val x / 2 ^ N + 1 : Nat) : Int)
      push_cast at this ⊢
      rw [← this]
      congr 1
      ring
    · intro hb hd
      have hb' : 256 ^ M ≤ (val x / 2 ^ N + 1) * 2 ^ N := by exact_mod_cast hb
      subst hd
      exact (a2 (by rw [f3, i3]; linarith)).2.1

example : FixedOf.ceil (UN.intOps .debug 2) 5 [0x39#8, 0x30#8] = .ok [0x40, 0x30] ∧
    FixedOf.ceil (UN.intOps .debug 1) 4 [0xF1#8] = .panic := by decide +kernel

/-- C141 for `fract` and `trunc` with at most seven fractional bits. Missing: more fractional bits, where
the remainder is wrong (`C141_fract_violated`). -/
theorem C141_fract_partial (m : Mode) (M N : Nat) (hM : 0 < M) (hfit : M < 2 ^ 60) (hN : N ≤ 7)
    (x : Bytes) (hx : x.length = M) :
    ∃ f t, FixedOf.fract (UN.intOps m M) N x = .ok f ∧ FixedOf.trunc (UN.intOps m M) N x = .ok t ∧
      f.length = M ∧ t.length = M ∧
      fval N (val t) = ⌊fval N (val x)⌋ ∧ fval N (val f) = Int.fract (fval N (val x)) := by
  have hlog : 3 ≤ Nat.log2 (8 * M) := (Nat.le_log2 (by omega)).mpr (by omega)
  have hr : m = .release → N < 2 ^ Nat.log2 (8 * M) := fun _ =>
    lt_of_lt_of_le (by omega : N < 2 ^ 3) (Nat.pow_le_pow_right (by norm_num) hlog)
  obtain ⟨i, i1, i2, i3⟩ := FixedOf.u_one hM hfit (by omega) hr
  have hp : 0 < 2 ^ N := Nat.two_pow_pos N
  have hle : 2 ^ N ≤ 2 ^ 7 := Nat.pow_le_pow_right (by norm_num) hN
  obtain ⟨q, f, -, h2, -, -, h5, h6, h7⟩ := C30_div_partial m x i (by rw [i2, hx]) (ne_nil hx hM) (by omega)
    (by omega) (by omega) (Or.inr (by omega))
  rw [i3] at h6 h7
  have hmod : val f = val x % 2 ^ N := by
    rw [h6, Nat.mul_add_mod_self_right, Nat.mod_eq_of_lt h7]
  have hfr : FixedOf.fract (UN.intOps m M) N x = .ok f := by
    unfold FixedOf.fract
    rw [i1]; exact h2
  obtain ⟨-, -, hs, -⟩ := C27_checked_add_sub x f (by rw [h5])
  obtain ⟨t, -, t1, t2, td, tr⟩ := hs (by omega)
  refine ⟨f, t, hfr, ?_, by rw [h5, hx], by rw [t1, hx], ?_, ?_⟩
  · unfold FixedOf.trunc
    rw [hfr]
    change UN.sub m x f = _
    cases m
    · exact td
    · exact tr
  · have hd := Nat.div_add_mod (val x) (2 ^ N)
    have : val t = val x / 2 ^ N * 2 ^ N := by rw [t2, hmod, mul_comm]; omega
    rw [this, floor_fval]
    have := fval_scaled (N := N) ((val x / 2 ^ N : Nat) : Int)
    push_cast at this ⊢
    exact this
  · rw [Int.fract, floor_fval, hmod, ← fval_scaled (N := N), ← fval_sub]
    congr 1
    have hd := Nat.div_add_mod (val x) (2 ^ N)
    have : ((2 : Int) ^ N * (val x / 2 ^ N) + (val x % 2 ^ N : Nat)) = val x := by exact_mod_cast hd
    linarith

example := C141_fract_partial .debug 2 5 (by decide) (by decide) (by decide) [0x39#8, 0x30#8] rfl

/-- C141 for `fract` with any number of fractional bits: the result differs from the fractional part by a
whole number, which is 0 if the comparisons in the division come out right. Missing, because false: that
it is always 0. -/
theorem C141_fract_exact_partial (m : Mode) (M N : Nat) (hM : 0 < M) (hfit : M < 2 ^ 60) (hN : N < 8 * M)
    (hr : m = .release → N < 2 ^ Nat.log2 (8 * M)) (x : Bytes) (hx : x.length = M) :
    ∃ f, ∃ k : Nat, FixedOf.fract (UN.intOps m M) N x = .ok f ∧ f.length = M ∧
      fval N (val f) = Int.fract (fval N (val x)) + k ∧
      (ComparesRight 8 (8 * M) (val x) (2 ^ N) → k = 0) := by
  obtain ⟨i, i1, i2, i3⟩ := FixedOf.u_one hM hfit hN hr
  obtain ⟨q, f, -, h2, -, -, h5, h6, h7, -⟩ := C30_div_exact_partial m x i (by rw [i2, hx]) (ne_nil hx hM)
    (by omega)
  have hp : 0 < 2 ^ N := Nat.two_pow_pos N
  rw [hx] at h5 h6 h7
  rw [i3] at h6 h7
  have hmod : val f % 2 ^ N = val x % 2 ^ N := by
    have hdvd : 2 ^ N ∣ 2 ^ (8 * M) := pow_dvd_pow 2 hN.le
    rw [← h6, Nat.mod_mod_of_dvd _ hdvd, Nat.mul_add_mod_self_right]
  refine ⟨f, val f / 2 ^ N, ?_, h5, ?_, fun hc => ?_⟩
  · unfold FixedOf.fract
    rw [i1]; exact h2
  · have hd := Nat.div_add_mod (val f) (2 ^ N)
    have hd' := Nat.div_add_mod (val x) (2 ^ N)
    rw [Int.fract, floor_fval, ← fval_scaled (N := N), ← fval_sub]
    have hk : ((val f / 2 ^ N : Nat) : ℚ) = fval N ((val f / 2 ^ N : Nat) * 2 ^ N) := by
      rw [fval_scaled]; rfl
    rw [hk, ← fval_add]
    congr 1
    rw [hmod] at hd
    have e1 : ((2 : Int) ^ N * (val f / 2 ^ N : Nat) + (val x % 2 ^ N : Nat)) = val f := by exact_mod_cast hd
    have e2 : ((2 : Int) ^ N * (val x / 2 ^ N) + (val x % 2 ^ N : Nat)) = val x := by exact_mod_cast hd'
    linarith
  · rw [(h7 hp.ne').2 hc]
    exact Nat.div_eq_of_lt (Nat.mod_lt _ hp)

example := C141_fract_exact_partial .debug 2 11 (by decide) (by decide) (by decide) (by decide) [0x39#8, 0x30#8] rfl

/-- C141 is violated: with eight fractional bits the fractional part of 1/256 comes out as
`255 + 1/256`, and that of `1 + 1/256` as `2 + 1/256`. -/
theorem C141_fract_violated :
    FixedOf.fract (UN.intOps .debug 2) 8 [1#8, 0#8] = .ok [1, 255] ∧
    FixedOf.fract (UN.intOps .debug 2) 8 [1#8, 1#8] = .ok [1, 2] ∧
    ¬ ∀ x f : Bytes, x.length = 2 → FixedOf.fract (UN.intOps .debug 2) 8 x = .ok f →
      fval 8 (val f) = Int.fract (fval 8 (val x)) := by
  have e : FixedOf.fract (UN.intOps .debug 2) 8 [1#8, 0#8] = .ok [1, 255] := by decide +kernel
  refine ⟨e, by decide +kernel, fun h => ?_⟩
  have := h [1#8, 0#8] [1#8, 255#8] rfl e
  have h1 := Int.fract_lt_one (fval 8 (val [1#8, 0#8]))
  rw [← this] at h1
  have hv : val [1#8, 255#8] = 65281 := by decide
  rw [hv] at h1
  unfold fval at h1
  norm_num at h1

/-- C141, what release builds do for all numbers of fractional bits: they reduce it modulo the largest
power of two up to the number of bits of the type. -/
theorem C141_release_exact_partial (M N : Nat) (hM : 0 < M) (hfit : M < 2 ^ 60) :
    ∃ r, FixedOf.one (UN.intOps .release M) N = .ok r ∧ r.length = M ∧
      val r = 2 ^ (N % 2 ^ Nat.log2 (8 * M)) := by
  obtain ⟨-, -, -, -, ⟨r, h1, h2, h3⟩, -⟩ := C34_shifts_exact_partial (UN.one M) N
    (ne_nil (UN.length_one M) hM) (by rw [UN.length_one]; exact hfit)
  rw [UN.length_one] at h2 h3
  refine ⟨r, h1, h2, ?_⟩
  rw [h3, FixedOf.u_one_val hM, one_mul, bytes_pow, Nat.mod_eq_of_lt]
  apply Nat.pow_lt_pow_right (by norm_num)
  exact lt_of_lt_of_le (Nat.mod_lt _ (Nat.two_pow_pos _)) (Nat.log2_self_le (by omega))

example : FixedOf.one (UN.intOps .release 1) 11 = .ok [8#8] := by decide +kernel

/-- C141 is violated in release builds: with 17 fractional bits in three bytes, `one` is `2/2^17`. -/
theorem C141_one_violated :
    FixedOf.one (UN.intOps .debug 3) 17 = .ok [0, 0, 2] ∧
    FixedOf.one (UN.intOps .release 3) 17 = .ok [2, 0, 0] ∧
    fval 17 (val [0#8, 0#8, 2#8]) = 1 ∧ fval 17 (val [2#8, 0#8, 0#8]) ≠ 1 := by
  refine ⟨by decide +kernel, by decide +kernel, ?_, ?_⟩
  · have : val [0#8, 0#8, 2#8] = 131072 := by decide
    rw [this]; unfold fval; norm_num
  · have : val [2#8, 0#8, 0#8] = 2 := by decide
    rw [this]; unfold fval; norm_num

/-- C141 for `round`, with at most six fractional bits: as for primitives (C66) it rounds up, so it is
right only if the distance up is at most one half. Missing: numbers with a fraction below one half, more
fractional bits, and numbers the ceiling of which is not representable. -/
theorem C141_round_partial (m : Mode) (M N : Nat) (hM : 0 < M) (hfit : M < 2 ^ 60) (hN : N ≤ 6)
    (x : Bytes) (hx : x.length = M) (hb : ⌈fval N (val x)⌉ * 2 ^ N < 256 ^ M) :
    ∃ r, FixedOf.round (UN.intOps m M) N x = .ok r ∧ r.length = M ∧
      fval N (val r) = ⌈fval N (val x)⌉ := by
  have hlog : 3 ≤ Nat.log2 (8 * M) := (Nat.le_log2 (by omega)).mpr (by omega)
  have hr : m = .release → N < 2 ^ Nat.log2 (8 * M) := fun _ =>
    lt_of_lt_of_le (by omega : N < 2 ^ 3) (Nat.pow_le_pow_right (by norm_num) hlog)
  obtain ⟨i, i1, i2, i3⟩ := FixedOf.u_one hM hfit (by omega) hr
  have hp : 0 < 2 ^ N := Nat.two_pow_pos N
  have hle : 2 ^ N ≤ 2 ^ 6 := Nat.pow_le_pow_right (by norm_num) hN
  have h256 : 256 ≤ 256 ^ M := Nat.le_self_pow (by omega) _
  obtain ⟨a1, -⟩ := C27_checked_add_sub i i rfl
  obtain ⟨two, -, t1, t2, td, tr⟩ := a1 (by rw [i2]; omega)
  have ht : FixedOf.add (UN.intOps m M) i i = .ok two := by
    cases m
    · exact td
    · exact tr
  obtain ⟨half, rm, d1, -, -, d4, -, d6, d7⟩ := C30_div_partial m i two t1 (ne_nil i2 hM) (by omega)
    (by omega) (by omega) (Or.inr (by omega))
  have hhalf : val half = 0 := by
    by_contra hc
    have : val two ≤ val half * val two := Nat.le_mul_of_pos_left _ (by omega)
    rw [i3] at d6 t2
    omega
  have hd : FixedOf.div (UN.intOps m M) i two = .ok half := d1
  have hz : half = UN.zero M := eq_of_val_eq (by rw [d4, i2, UN.length_zero]) (by rw [hhalf, UN.val_zero])
  obtain ⟨f, t, f1, -, f2, -, -, f3⟩ := C141_fract_partial m M N hM hfit (by omega) x hx
  obtain ⟨c1, -⟩ := C141_ceil_partial m M N hM hfit (by omega) hr x hx
  have hcmp : UN.cmp f (UN.zero M) = compare (beVal f) (beVal (UN.zero M)) :=
    C31_order_exact_partial f (UN.zero M) (by rw [UN.length_zero, f2])
  have hz0 : beVal (UN.zero M) = 0 := by
    have := (C32_bytes_round_trip (UN.zero M) true).2.2.2.2.2.2.2.1
    rw [← this]
    unfold UN.fromBeBytes
    rw [constReverse_eq, UN.zero, List.reverse_replicate]
    exact UN.val_zero M
  unfold FixedOf.round
  rw [i1]
  simp only [Res.bind]
  rw [ht]
  simp only []
  rw [hd]
  simp only []
  rw [f1]
  simp only []
  have hge : UN.cmp f (UN.zero M) ≠ .lt := by
    rw [hcmp, hz0, Ne, compare_lt_iff_lt]; omega
  change ∃ r, ((if UN.cmp f (UN.zero M) ≠ .lt then Res.ok f else _ : Res Bytes).bind
    fun f => if UN.cmp f half = .gt then FixedOf.ceil (UN.intOps m M) N x
      else FixedOf.floor (UN.intOps m M) N x) = .ok r ∧ _
  rw [if_pos hge]
  change ∃ r, (if UN.cmp f half = .gt then FixedOf.ceil (UN.intOps m M) N x
      else FixedOf.floor (UN.intOps m M) N x) = .ok r ∧ _
  by_cases hgt : UN.cmp f half = .gt
  · rw [if_pos hgt]
    exact c1 hb
  · rw [if_neg hgt]
    rw [hz, hcmp, hz0, compare_gt_iff_gt] at hgt
    have hf0 : beVal f = 0 := by omega
    have hfz : f = UN.zero M := by
      have h := (C32_bytes_round_trip f true).2.2.2.2.2.2.2.1
      have h' := (C32_bytes_round_trip f true).2.2.1
      have : UN.fromBeBytes f = UN.zero M :=
        eq_of_val_eq (by unfold UN.fromBeBytes; rw [constReverse_eq, List.length_reverse, f2, UN.length_zero])
          (by rw [h, hf0, UN.val_zero])
      have e : f = (UN.fromBeBytes f).reverse := by
        unfold UN.fromBeBytes; rw [constReverse_eq, List.reverse_reverse]
      rw [e, this, UN.zero, List.reverse_replicate]
    obtain ⟨r, r1, r2, r3⟩ := C141_floor_partial m M N hM hfit (by omega) hr x hx
    refine ⟨r, r1, r2, ?_⟩
    rw [hfz, UN.val_zero] at f3
    have h0 : Int.fract (fval N (val x)) = 0 := by
      rw [← f3]; unfold fval; simp
    rw [r3]
    obtain ⟨z, hz⟩ := Int.fract_eq_zero_iff.mp h0
    rw [← hz]
    simp

example : FixedOf.round (UN.intOps .debug 2) 5 [0x31#8, 0x30#8] = .ok [0x40, 0x30] := by decide +kernel

/-- C141 is violated by `round`: 1.25 is rounded to 2. -/
theorem C141_round_violated : FixedOf.round (UN.intOps .debug 2) 2 [5#8, 0#8] = .ok [8, 0] ∧
    fval 2 (val [5#8, 0#8]) = 5 / 4 ∧ fval 2 (val [8#8, 0#8]) = 2 := by
  refine ⟨by decide +kernel, ?_, ?_⟩
  · have : val [5#8, 0#8] = 5 := by decide
    rw [this]; unfold fval; norm_num
  · have : val [8#8, 0#8] = 8 := by decide
    rw [this]; unfold fval; norm_num

/-- C141 for sums and differences: exact if representable, otherwise debug builds panic. -/
theorem C141_add_sub (m : Mode) (M N : Nat) (x y : Bytes) (hx : x.length = M) (hy : y.length = M) :
    (val x + val y < 256 ^ M → ∃ r, FixedOf.add (UN.intOps m M) x y = .ok r ∧ r.length = M ∧
      fval N (val r) = fval N (val x) + fval N (val y)) ∧
    (val y ≤ val x → ∃ r, FixedOf.sub (UN.intOps m M) x y = .ok r ∧ r.length = M ∧
      fval N (val r) = fval N (val x) - fval N (val y)) ∧
    (256 ^ M ≤ val x + val y → m = .debug → FixedOf.add (UN.intOps m M) x y = .panic) ∧
    (val x < val y → m = .debug → FixedOf.sub (UN.intOps m M) x y = .panic) := by
  obtain ⟨h1, h2, h3, h4⟩ := C27_checked_add_sub x y (by rw [hx, hy])
  subst hx
  refine ⟨fun h => ?_, fun h => ?_, fun h e => ?_, fun h e => ?_⟩
  · obtain ⟨r, -, r1, r2, rd, rr⟩ := h1 h
    refine ⟨r, by cases m; exacts [rd, rr], r1, ?_⟩
    rw [r2, ← fval_add]; push_cast; rfl
  · obtain ⟨r, -, r1, r2, rd, rr⟩ := h3 h
    refine ⟨r, by cases m; exacts [rd, rr], r1, ?_⟩
    rw [r2, ← fval_sub]; push_cast [h]; rfl
  · subst e; exact (h2 h).2.1
  · subst e; exact (h4 h).2.1

/-- C141 is violated by comparisons: with eight fractional bits in two bytes, 1 is less than 1/256. -/
theorem C141_cmp_violated : FixedOf.cmp (UN.intOps .debug 2) [0#8, 1#8] [1#8, 0#8] = .ok .lt ∧
    fval 8 (val [1#8, 0#8]) < fval 8 (val [0#8, 1#8]) := by
  refine ⟨by decide, ?_⟩
  rw [fval_lt]
  decide

/-! ## C142: `I<M>` -/

/-- C142 is violated: every function that needs the number one or a shift panics, for all operands. -/
theorem C142_violated (m : Mode) (M N : Nat) (x : Bytes) :
    FixedOf.one (IN.intOps m M) N = .panic ∧ FixedOf.fromVal (IN.intOps m M) N x = .panic ∧
    FixedOf.isOne (IN.intOps m M) N x = .panic ∧ FixedOf.floor (IN.intOps m M) N x = .panic ∧
    FixedOf.ceil (IN.intOps m M) N x = .panic ∧ FixedOf.fract (IN.intOps m M) N x = .panic ∧
    FixedOf.trunc (IN.intOps m M) N x = .panic ∧ FixedOf.round (IN.intOps m M) N x = .panic :=
  ⟨rfl, rfl, rfl, rfl, rfl, rfl, rfl, rfl⟩

/-- C142 for sums and differences, in both build modes: exact if representable, otherwise wrapped around.
Missing: everything else. -/
theorem C142_add_sub_partial (m : Mode) (M N : Nat) (x y : Bytes) (hx : x.length = M) (hy : y.length = M) :
    (∃ r, FixedOf.add (IN.intOps m M) x y = .ok r ∧ r.length = M ∧
      WrapsTo M (sval x + sval y) (sval r) ∧
      (-(256 ^ M : Int) ≤ 2 * (sval x + sval y) → 2 * (sval x + sval y) < 256 ^ M →
        fval N (sval r) = fval N (sval x) + fval N (sval y))) ∧
    (∃ r, FixedOf.sub (IN.intOps m M) x y = .ok r ∧ r.length = M ∧
      WrapsTo M (sval x - sval y) (sval r) ∧
      (-(256 ^ M : Int) ≤ 2 * (sval x - sval y) → 2 * (sval x - sval y) < 256 ^ M →
        fval N (sval r) = fval N (sval x) - fval N (sval y))) := by
  subst hx
  obtain ⟨⟨a1, a2⟩, ⟨s1, s2⟩, -⟩ := C38_twos_complement x y hy
  refine ⟨⟨_, rfl, a1, a2, fun h1 h2 => ?_⟩, ⟨_, rfl, s1, s2, fun h1 h2 => ?_⟩⟩
  · rw [wraps_unique a2 ⟨h1, h2, by simp⟩, fval_add]
  · rw [wraps_unique s2 ⟨h1, h2, by simp⟩, fval_sub]

-- 1.5 - 2.25 with two fractional bits in one byte
example : FixedOf.sub (IN.intOps .debug 1) [6#8] [9#8] = .ok [0xFD] ∧ sval [0xFD#8] = -3 := by decide +kernel

-- 12345 with five fractional bits in two bytes is 385.78125
example : FixedOf.floor (UN.intOps .debug 2) 5 [0x39#8, 0x30#8] = .ok [0x20, 0x30] ∧
    FixedOf.ceil (UN.intOps .release 2) 5 [0x39#8, 0x30#8] = .ok [0x40, 0x30] ∧
    FixedOf.fract (UN.intOps .release 2) 5 [0x39#8, 0x30#8] = .ok [0x19, 0] ∧
    FixedOf.trunc (UN.intOps .debug 2) 5 [0x39#8, 0x30#8] = .ok [0x20, 0x30] ∧
    FixedOf.round (UN.intOps .debug 2) 5 [0x39#8, 0x30#8] = .ok [0x40, 0x30] ∧
    FixedOf.floor (UN.intOps .debug 2) 11 [0xFF#8, 0xFF#8] = .ok [0, 0xF8] ∧
    FixedOf.fromVal (UN.intOps .debug 2) 5 [7#8, 1#8] = .ok [0xE0, 0x20] := by decide +kernel

end Verif
