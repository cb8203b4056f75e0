import Mathlib.Tactic.LinearCombination
import Mathlib.Algebra.BigOperators.Intervals
import Mathlib.Algebra.Order.BigOperators.Group.Finset
import Mathlib.GroupTheory.Perm.Sign
import Verif.Lemmas.GaussExact

/-!
# Rounding errors of elimination on floats
-/

namespace Verif

namespace Flt

variable {f : FloatFmt}

/-- Rounding does not leave the binade downwards. -/
theorem pow_le_rnd {x y : ℚ} (h : rnd f x = .fin y) (hf : f.Ok) (hx : x ≠ 0)
    (hl : f.emin ≤ Int.log 2 |x|) : (2 : ℚ) ^ Int.log 2 |x| ≤ |y| := by
  have h1 := hf.prec_pos
  have hu : ulp f x = 2 ^ (Int.log 2 |x| - ((f.prec : Int) - 1)) := by
    unfold ulp
    rw [max_eq_left hl]
  have hpos := ulp_pos f x
  have hz : (2 : ℚ) ^ Int.log 2 |x| = ((2 ^ (f.prec - 1) : Int) : ℚ) * ulp f x := by
    rw [hu]
    push_cast
    rw [← zpow_natCast, ← zpow_add₀ (by norm_num)]
    congr 1
    push_cast [h1]
    ring
  have hlog := log_le hx
  rw [(rnd_fin h hx).1, abs_mul, abs_of_pos hpos, hz]
  refine mul_le_mul_of_nonneg_right ?_ hpos.le
  rw [hz] at hlog
  rcases le_or_gt 0 x with h0 | h0
  · rw [abs_of_nonneg h0] at hlog
    have h2 := le_roundEven ((le_div_iff₀ hpos).2 hlog)
    refine le_trans ?_ (le_abs_self _)
    exact_mod_cast h2
  · rw [abs_of_neg h0] at hlog
    have h2 := roundEven_le (x := x / ulp f x) (n := -2 ^ (f.prec - 1)) (by
      rw [div_le_iff₀ hpos]
      push_cast
      push_cast at hlog
      linarith)
    refine le_trans ?_ (neg_le_abs _)
    have h3 : ((roundEven (x / ulp f x) : Int) : ℚ) ≤ ((-2 ^ (f.prec - 1) : Int) : ℚ) := by exact_mod_cast h2
    push_cast at h3 ⊢
    linarith

/-- The error of a rounding in terms of the result. -/
theorem rnd_error_res {x y : ℚ} (h : rnd f x = .fin y) (hf : f.Ok) : |y - x| ≤ f.u * |y| + f.eta := by
  by_cases hx : x = 0
  · subst hx
    rw [rnd_fin_of_zero h]
    simp [(eta_pos f).le]
  by_cases hl : f.emin ≤ Int.log 2 |x|
  · have h1 := near_ulp f x
    rw [← (rnd_fin h hx).1, half_ulp, max_eq_left hl] at h1
    have h2 := mul_le_mul_of_nonneg_right (pow_le_rnd h hf hx hl) (u_pos f).le
    linarith [eta_pos f]
  · have h1 := near_ulp f x
    rw [← (rnd_fin h hx).1, half_ulp, max_eq_right (by omega)] at h1
    have h2 : (2 : ℚ) ^ f.emin * f.u = f.eta := by
      unfold FloatFmt.u FloatFmt.eta
      rw [sub_eq_add_neg, zpow_add₀ (by norm_num), zpow_neg, zpow_natCast, one_div]
    have := mul_nonneg (u_pos f).le (abs_nonneg y)
    linarith

/-- A sum that is small is exact. -/
theorem rnd_add_small {a b y : ℚ} (ha : f.Has a) (hb : f.Has b) (hx : a + b ≠ 0)
    (hl : Int.log 2 |a + b| < f.emin) (h : rnd f (a + b) = .fin y) : y = a + b := by
  obtain ⟨m, e, hm, he, ha', -⟩ := ha
  obtain ⟨n, k, hn, hk, hb', -⟩ := hb
  set o := f.emin - ((f.prec : Int) - 1) with ho
  have hs : a + b = ((m * 2 ^ (e - o).toNat + n * 2 ^ (k - o).toNat : Int) : ℚ) * 2 ^ o := by
    rw [ha', hb', two_zpow_sub he, two_zpow_sub hk]; push_cast; ring
  have hq : (a + b) / ulp f (a + b) = ((m * 2 ^ (e - o).toNat + n * 2 ^ (k - o).toNat : Int) : ℚ) := by
    rw [div_eq_iff (ulp_pos _ _).ne']
    unfold ulp
    rw [max_eq_right (by omega)]
    exact hs
  have hyy := (rnd_fin h hx).1
  rw [hq, roundEven_int, ← hq, div_mul_cancel₀ _ (ulp_pos _ _).ne'] at hyy
  exact hyy

/-- The error of a difference of two floats in terms of the result. -/
theorem rnd_sub_res (hf : f.Ok) {a b y : ℚ} (ha : f.Has a) (hb : f.Has b) (h : rnd f (a - b) = .fin y) :
    |y - (a - b)| ≤ f.u * |y| := by
  rw [sub_eq_add_neg a b] at h ⊢
  by_cases hx : a + -b = 0
  · rw [hx] at h ⊢
    rw [rnd_fin_of_zero h]; simp
  by_cases hl : f.emin ≤ Int.log 2 |a + -b|
  · have h1 := near_ulp f (a + -b)
    rw [← (rnd_fin h hx).1, half_ulp, max_eq_left hl] at h1
    have h2 := mul_le_mul_of_nonneg_right (pow_le_rnd h hf hx hl) (u_pos f).le
    linarith
  · rw [rnd_add_small ha (Has.neg hb) hx (by omega) h]
    simp
    exact mul_nonneg (u_pos f).le (abs_nonneg _)

end Flt

namespace Gauss

open Flt

section inv

variable {M K : Type} {ops : MatOps M K} {R C : Nat} {Rep : M → (Nat → Nat → K) → Prop}
  (h : Good ops R C Rep)
include h

variable [Zero K] [DecidableEq K] [LT K] [DecidableLT K] [PartialCmp K]

/-- If the search for the pivot ends, it has found one. -/
theorem minLoop_inv {m : M} {f : Nat → Nat → K} (hm : Rep m f) {col row : Nat} (hc : col < C) (n : Nat)
    (hn : row + n ≤ R) {best : Option (Nat × K)}
    (e : forUpM n (fun idx best =>
      (ops.get m (row + idx) col).bind fun v =>
        if MatOps.clash best v then .panic else .ok (MatOps.keepMin best idx v)) none = .ok best) :
    ∀ idx w, best = some (idx, w) → idx < n ∧ f (row + idx) col = w ∧ w ≠ 0 := by
  induction n generalizing best with
  | zero =>
    intro idx w hb
    simp only [forUpM, Res.ok.injEq] at e
    rw [← e] at hb
    cases hb
  | succ n ih =>
    rw [forUpM] at e
    cases e1 : forUpM n (fun idx best =>
      (ops.get m (row + idx) col).bind fun v =>
        if MatOps.clash best v then .panic else .ok (MatOps.keepMin best idx v)) none with
    | panic => rw [e1] at e; cases e
    | hang => rw [e1] at e; cases e
    | ok best1 =>
      rw [e1] at e
      simp only [Res.bind] at e
      rw [h.get hm (by omega) hc] at e
      simp only at e
      split at e
      · cases e
      · simp only [Res.ok.injEq] at e
        subst e
        intro idx w hb
        have h2 := ih (by omega) e1
        unfold MatOps.keepMin at hb
        by_cases hz : f (row + n) col = 0
        · rw [if_pos (c := ZeroTest.IsZero _) hz] at hb
          obtain ⟨a, b, c⟩ := h2 idx w hb
          exact ⟨by omega, b, c⟩
        · rw [if_neg (c := ZeroTest.IsZero _) hz] at hb
          split at hb
          · simp only [Option.some.injEq, Prod.mk.injEq] at hb
            obtain ⟨rfl, rfl⟩ := hb
            exact ⟨by omega, rfl, hz⟩
          · split at hb
            · simp only [Option.some.injEq, Prod.mk.injEq] at hb
              obtain ⟨rfl, rfl⟩ := hb
              exact ⟨by omega, rfl, hz⟩
            · obtain ⟨a, b, c⟩ := h2 idx w hb
              exact ⟨by omega, b, c⟩

theorem smallIdx_inv {m : M} {f : Nat → Nat → K} (hm : Rep m f) {col row : Nat} (hc : col < C)
    (hr : row ≤ R) {s : Nat} (e : ops.smallIdx m col row R = .ok s) :
    row ≤ s ∧ s < R ∧ f s col ≠ 0 := by
  unfold MatOps.smallIdx at e
  cases e1 : forUpM (R - row) (fun idx best =>
      (ops.get m (row + idx) col).bind fun v =>
        if MatOps.clash best v then .panic else .ok (MatOps.keepMin best idx v)) none with
  | panic => rw [e1] at e; cases e
  | hang => rw [e1] at e; cases e
  | ok best =>
    rw [e1] at e
    simp only [Res.bind] at e
    cases best with
    | none => cases e
    | some p =>
      obtain ⟨idx, w⟩ := p
      simp only [Res.ok.injEq] at e
      subst e
      obtain ⟨a, b, c⟩ := minLoop_inv h hm hc (R - row) (by omega) e1 idx w rfl
      rw [← b, Nat.add_comm] at c
      exact ⟨by omega, by omega, c⟩

variable [One K] [Neg K] [Sub K] [Mul K] [Div K]

/-- What a step that returns has done. -/
theorem gaussStep_inv {col : Nat} (hcol : col < C) {s s' : MatOps.GState M K} {f : Nat → Nat → K}
    (hm : Rep s.m f) (hr : s.row ≤ R) (e : ops.gaussStep C R col s = .ok s') :
    (s' = s ∧ ∀ i, s.row ≤ i → i < R → f i col = 0) ∨
    ∃ small g, s.row ≤ small ∧ small < R ∧ f small col ≠ 0 ∧ Rep s'.m g ∧ s'.row = s.row + 1 ∧
      (s'.factor = if small ≠ s.row then -s.factor else s.factor) ∧
      ∀ a b, a < R → b < C → g a b = if s.row < a ∧ col ≤ b then
          f (Equiv.swap small s.row a) b - f small b * (f (Equiv.swap small s.row a) col / f small col)
        else f (Equiv.swap small s.row a) b := by
  by_cases hz : ∀ i, s.row ≤ i → i < R → f i col = 0
  · rw [gaussStep_skip h hcol hm hr hz] at e
    simp only [Res.ok.injEq] at e
    exact .inl ⟨e.symm, hz⟩
  · right
    obtain ⟨b, eb, hb⟩ := allZero_spec h hm hcol (R - s.row) s.row (by omega)
    have hbf : b = false := by
      cases b with
      | false => rfl
      | true => exact absurd (hb.mp rfl) hz
    subst hbf
    cases es : ops.smallIdx s.m col s.row R with
    | panic =>
      unfold MatOps.gaussStep at e
      rw [eb] at e
      simp only [Res.bind, Bool.false_eq_true, if_false, es] at e
      cases e
    | hang =>
      unfold MatOps.gaussStep at e
      rw [eb] at e
      simp only [Res.bind, Bool.false_eq_true, if_false, es] at e
      cases e
    | ok small =>
      obtain ⟨h1, h2, h3⟩ := smallIdx_inv h hm hcol hr es
      obtain ⟨m', g, e', hg, hg'⟩ := gaussStep_eq h hcol hm es h1 h2 h3
      rw [e'] at e
      simp only [Res.ok.injEq] at e
      subst e
      exact ⟨small, g, h1, h2, h3, hg, rfl, rfl, hg'⟩

end inv


/-! ### The computed factors -/

section lu

/-- One step of the error analysis: the error bound of an entry before the step gives the one after. -/
theorem err_step {u T A S S' a w y t : ℚ} {k : Nat} (hu : 0 ≤ u) (ht : 0 ≤ t) (hT : 0 ≤ T) (hS' : 0 ≤ S')
    (h : |A - (S + a)| ≤ ((1 + u) ^ k - 1) * (S' + |a|) + (1 + u) ^ k * T)
    (ha : |a - (w + y)| ≤ u * (|w| + |y|) + t) :
    |A - (S + w + y)| ≤ ((1 + u) ^ (k + 1) - 1) * (S' + |w| + |y|) + (1 + u) ^ (k + 1) * (T + t) := by
  have hc : 1 ≤ (1 + u) ^ k := one_le_pow₀ (by linarith)
  rw [pow_succ]
  set c := (1 + u) ^ k
  set v := |w| + |y| with hv
  have hv0 : 0 ≤ v := add_nonneg (abs_nonneg _) (abs_nonneg _)
  have h1 : |a| ≤ (1 + u) * v + t := by
    have e : a = (a - (w + y)) + (w + y) := by ring
    have := abs_add_le (a - (w + y)) (w + y)
    rw [← e] at this
    have h2 := abs_add_le w y
    linarith
  have h3 : |A - (S + w + y)| ≤ |A - (S + a)| + |a - (w + y)| := by
    have e : A - (S + w + y) = (A - (S + a)) + (a - (w + y)) := by ring
    rw [e]
    exact abs_add_le _ _
  have h4 := mul_le_mul_of_nonneg_left h1 (show 0 ≤ c - 1 by linarith)
  have h5 : 0 ≤ c * u * S' := by positivity
  have h6 : 0 ≤ c * u * (T + t) := by positivity
  rw [add_assoc S']
  linarith

/-- The finite value of a float. -/
def toQ {f : FloatFmt} : Flt f → ℚ
  | .fin q => q
  | _ => 0

theorem fin_toQ {f : FloatFmt} {x : Flt f} (h : ∃ q, x = .fin q) : x = .fin (toQ x) := by
  obtain ⟨q, rfl⟩ := h; rfl

/-- The factors computed so far: `n` columns are done, `row` of them with a pivot, in the columns `piv`;
`B` is the matrix elimination started from, with its rows reordered, `g` the current matrix. -/
structure LU (fm : FloatFmt) (N : Nat) (B L U : Nat → Nat → ℚ) (g : Nat → Nat → Flt fm) (n row : Nat)
    (piv : Nat → Nat) : Prop where
  entry : ∀ i j, i < N → j < N → g i j = .fin (U i j) ∨ ∃ m, m < i ∧ m < row ∧ j = piv m ∧ U i j = 0 ∧
    ∃ y, g i j = .fin y ∧ |y| ≤ (1 + fm.u) * (2 * fm.u * |L i m * U m j| + fm.eta * (1 + |U m j|))
  lt : ∀ m, m < row → piv m < n
  mono : ∀ m m', m < m' → m' < row → piv m < piv m'
  lead : ∀ m, m < row → U m (piv m) ≠ 0
  left : ∀ m j, m < row → j < piv m → U m j = 0
  below : ∀ i j, row ≤ i → i < N → j < n → U i j = 0
  err : ∀ i j, i < N → j < N →
    |B i j - (∑ m ∈ Finset.range (min i row), L i m * U m j + U i j)| ≤
      ((1 + fm.u) ^ min i row - 1) * (∑ m ∈ Finset.range (min i row), |L i m * U m j| + |U i j|) +
        (1 + fm.u) ^ min i row * ∑ m ∈ Finset.range (min i row), fm.eta * (1 + |U m j|)

variable {fm : FloatFmt} {N : Nat} {B L U : Nat → Nat → ℚ} {g : Nat → Nat → Flt fm} {n row : Nat}
  {piv : Nat → Nat}

theorem LU.start (hg : ∀ i j, i < N → j < N → g i j = .fin (B i j)) : LU fm N B L B g 0 0 piv where
  entry i j hi hj := .inl (hg i j hi hj)
  lt m h := by omega
  mono m m' _ h := by omega
  lead m h := by omega
  left m j h := by omega
  below i j _ _ h := by omega
  err i j _ _ := by simp

/-- A column without pivot. -/
theorem LU.skip (h : LU fm N B L U g n row piv) (hn : n < N)
    (hz : ∀ i, row ≤ i → i < N → g i n = 0) : LU fm N B L U g (n + 1) row piv where
  entry := h.entry
  lt m hm := by have := h.lt m hm; omega
  mono := h.mono
  lead := h.lead
  left := h.left
  below i j hi hi' hj := by
    rcases Nat.lt_succ_iff_lt_or_eq.mp hj with hj | rfl
    · exact h.below i j hi hi' hj
    · rcases h.entry i j hi' hn with e | ⟨m, _, hm, e, _⟩
      · rw [hz i hi hi'] at e
        injection e with e
        exact e.symm
      · have := h.lt m hm; omega
  err := h.err

/-- The errors of one entry. -/
theorem entry_error (hf : fm.Ok) {a b l y : ℚ} (ha : fm.Has a)
    (h : (Flt.fin a : Flt fm) - .fin b * .fin l = .fin y) :
    |a - (l * b + y)| ≤ fm.u * (|l * b| + |y|) + fm.eta := by
  obtain ⟨a', p, e1, e2, e3⟩ := sub_fin h
  injection e1 with e1
  subst e1
  rw [fin_mul] at e2
  have h1 := rnd_error e2
  have h2 := rnd_sub_res hf ha (rnd_has hf e2) e3
  have e : a - (l * b + y) = (p - b * l) - (y - (a - p)) := by ring
  rw [e, mul_comm l b]
  have := abs_sub (p - b * l) (y - (a - p))
  linarith

/-- The errors of the column of the pivot. -/
theorem pivot_error (hf : fm.Ok) {v t l y : ℚ} (hv : fm.Has v) (ht : t ≠ 0)
    (hl : (Flt.fin v : Flt fm) / .fin t = .fin l)
    (h : (Flt.fin v : Flt fm) - .fin t * .fin l = .fin y) :
    |v - l * t| ≤ fm.u * |l * t| + fm.eta * |t| ∧
    |y| ≤ (1 + fm.u) * (2 * fm.u * |l * t| + fm.eta * (1 + |t|)) := by
  have hl' : rnd fm (v / t) = .fin l := by
    change div _ _ = _ at hl
    unfold div at hl
    simpa only [if_neg ht] using hl
  have h0 := rnd_error_res hl' hf
  have hA : |v - l * t| ≤ fm.u * |l * t| + fm.eta * |t| := by
    have e : v - l * t = -((l - v / t) * t) := by field_simp; ring
    rw [e, abs_neg, abs_mul, abs_mul]
    have := mul_le_mul_of_nonneg_right h0 (abs_nonneg t)
    linarith
  refine ⟨hA, ?_⟩
  obtain ⟨a', p, e1, e2, e3⟩ := sub_fin h
  injection e1 with e1
  subst e1
  rw [fin_mul] at e2
  have h1 := rnd_error e2
  have h2 := rnd_add_error hv (Has.neg (rnd_has hf e2)) (by rwa [← sub_eq_add_neg])
  rw [← sub_eq_add_neg] at h2
  have hu := (u_pos fm).le
  have h3 : |v - p| ≤ 2 * fm.u * |l * t| + fm.eta * (1 + |t|) := by
    have e : v - p = (v - l * t) - (p - t * l) := by ring
    rw [e]
    have := abs_sub (v - l * t) (p - t * l)
    rw [mul_comm t l] at h1 this
    rw [mul_comm t l]
    linarith
  have h4 : |y| ≤ |y - (v - p)| + |v - p| := by
    have := abs_add_le (y - (v - p)) (v - p)
    rwa [sub_add_cancel] at this
  have h5 := mul_le_mul_of_nonneg_left h3 (show 0 ≤ 1 + fm.u by linarith)
  linarith

/-- A column with a pivot, if all entries are finite afterwards. -/
theorem LU.step (hf : fm.Ok) (h : LU fm N B L U g n row piv) (hn : n < N)
    (hv : ∀ i j, i < N → j < N → ∀ q, g i j = .fin q → fm.Has q) {p : Nat} (hp : row ≤ p) (hp' : p < N)
    (hne : g p n ≠ 0) {g' : Nat → Nat → Flt fm}
    (hg' : ∀ a b, a < N → b < N → g' a b = if row < a ∧ n ≤ b then
      g (Equiv.swap p row a) b - g p b * (g (Equiv.swap p row a) n / g p n)
        else g (Equiv.swap p row a) b)
    (hfin : ∀ i j, i < N → j < N → ∃ q, g' i j = .fin q) :
    ∃ L' U' piv', LU fm N (fun i j => B (Equiv.swap p row i) j) L' U' g' (n + 1) (row + 1) piv' := by
  set τ := Equiv.swap p row with hτ
  have hs1 : ∀ i, i < row → τ i = i := fun i hi => Equiv.swap_apply_of_ne_of_ne (by omega) (by omega)
  have hs2 : τ row = p := Equiv.swap_apply_right _ _
  have hs3 : ∀ i, row < i → i < N → row ≤ τ i ∧ τ i < N := by
    intro i hi hi'
    rw [hτ, Equiv.swap_apply_def]
    split
    · omega
    · split <;> omega
  -- the current entries to the right
  have hcur : ∀ i j, i < N → j < N → n ≤ j → g i j = .fin (U i j) := by
    intro i j hi hj hnj
    rcases h.entry i j hi hj with e | ⟨m, _, hm, e, _⟩
    · exact e
    · have := h.lt m hm; omega
  have hpn : U p n ≠ 0 := by
    intro e
    rw [hcur p n hp' hn (Nat.le_refl _), e] at hne
    exact hne rfl
  -- the factors
  have hl : ∀ i, row < i → i < N → ∃ l, (Flt.fin (U (τ i) n) : Flt fm) / .fin (U p n) = .fin l := by
    intro i hi hi'
    obtain ⟨q, hq⟩ := hfin i n hi' hn
    rw [hg' i n hi' hn, if_pos ⟨hi, Nat.le_refl _⟩, hcur p n hp' hn (Nat.le_refl _),
      hcur (τ i) n (hs3 i hi hi').2 hn (Nat.le_refl _)] at hq
    obtain ⟨_, _, _, e, _⟩ := sub_fin hq
    obtain ⟨_, l, _, e, _⟩ := mul_fin e
    exact ⟨l, e⟩
  let l : Nat → ℚ := fun i => toQ ((Flt.fin (U (τ i) n) : Flt fm) / .fin (U p n))
  have hl' : ∀ i, row < i → i < N → (Flt.fin (U (τ i) n) : Flt fm) / .fin (U p n) = .fin (l i) :=
    fun i hi hi' => fin_toQ (hl i hi hi')
  have hnew : ∀ i j, row < i → i < N → j < N → n ≤ j →
      (Flt.fin (U (τ i) j) : Flt fm) - .fin (U p j) * .fin (l i) = .fin (toQ (g' i j)) := by
    intro i j hi hi' hj hnj
    have e := fin_toQ (hfin i j hi' hj)
    rw [← e, hg' i j hi' hj, if_pos ⟨hi, hnj⟩, hcur p n hp' hn (Nat.le_refl _), hcur p j hp' hj hnj,
      hcur (τ i) n (hs3 i hi hi').2 hn (Nat.le_refl _), hcur (τ i) j (hs3 i hi hi').2 hj hnj,
      hl' i hi hi']
  have hhas : ∀ i j, i < N → j < N → n ≤ j → fm.Has (U i j) := fun i j hi hj hnj =>
    hv i j hi hj _ (hcur i j hi hj hnj)
  let L' : Nat → Nat → ℚ := fun i m => if m = row then l i else L (τ i) m
  let U' : Nat → Nat → ℚ := fun i j => if row < i then (if j ≤ n then 0 else toQ (g' i j)) else U (τ i) j
  let piv' : Nat → Nat := fun m => if m = row then n else piv m
  have hU1 : ∀ m j, m < row → U' m j = U m j := by
    intro m j hm
    simp only [U', if_neg (show ¬ row < m by omega), hs1 m hm]
  have hU2 : ∀ j, U' row j = U p j := by
    intro j
    simp only [U', if_neg (Nat.lt_irrefl row), hs2]
  have hL1 : ∀ i m, m < row → L' i m = L (τ i) m := by
    intro i m hm
    simp only [L', if_neg (show m ≠ row by omega)]
  have hP1 : ∀ m, m < row → piv' m = piv m := by
    intro m hm
    simp only [piv', if_neg (show m ≠ row by omega)]
  have hP2 : piv' row = n := by simp only [piv', if_true]
  have hτN : ∀ i, i < N → τ i < N := by
    intro i hi
    rcases Nat.lt_trichotomy i row with h1 | h1 | h1
    · rw [hs1 i h1]; omega
    · rw [h1, hs2]; omega
    · exact (hs3 i h1 hi).2
  have hη := (eta_pos fm).le
  have hu := (u_pos fm).le
  refine ⟨L', U', piv', ?_, ?_, ?_, ?_, ?_, ?_, ?_⟩
  · intro i j hi hj
    rcases Nat.lt_or_ge row i with hri | hri
    · rcases Nat.lt_trichotomy j n with hjn | hjn | hjn
      · -- already cleared
        have hU0 : U' i j = 0 := by simp only [U', if_pos hri, if_pos hjn.le]
        have e := hg' i j hi hj
        rw [if_neg (by omega)] at e
        rcases h.entry (τ i) j (hτN i hi) hj with e' | ⟨m, _, hm, e1, _, y, e2, e3⟩
        · left
          rw [e, e', hU0, h.below _ j (hs3 i hri hi).1 (hτN i hi) hjn]
        · right
          refine ⟨m, by omega, by omega, by rw [hP1 m hm]; exact e1, hU0, y, by rw [e, e2], ?_⟩
          rw [hL1 i m hm, hU1 m j hm]
          exact e3
      · subst hjn
        right
        refine ⟨row, hri, by omega, hP2.symm, by simp only [U', if_pos hri, if_pos (Nat.le_refl _)],
          _, fin_toQ (hfin i j hi hj), ?_⟩
        rw [hU2]
        simp only [L', if_true]
        exact (pivot_error hf (hhas _ _ (hτN i hi) hj (Nat.le_refl _)) hpn (hl' i hri hi)
          (hnew i j hri hi hj (Nat.le_refl _))).2
      · left
        simp only [U', if_pos hri, if_neg (show ¬ j ≤ n by omega)]
        exact fin_toQ (hfin i j hi hj)
    · have e := hg' i j hi hj
      rw [if_neg (by omega)] at e
      have hUi : U' i j = U (τ i) j := by simp only [U', if_neg (show ¬ row < i by omega)]
      rcases h.entry (τ i) j (hτN i hi) hj with e' | ⟨m, hmi, hm, e1, e0, y, e2, e3⟩
      · left
        rw [e, e', hUi]
      · right
        refine ⟨m, ?_, by omega, by rw [hP1 m hm]; exact e1, by rw [hUi, e0], y, by rw [e, e2], ?_⟩
        · rcases Nat.lt_or_eq_of_le hri with h1 | h1
          · rwa [hs1 i h1] at hmi
          · omega
        · rw [hL1 i m hm, hU1 m j hm]
          exact e3
  · intro m hm
    rcases Nat.lt_succ_iff_lt_or_eq.mp hm with hm | rfl
    · rw [hP1 m hm]; have := h.lt m hm; omega
    · rw [hP2]; omega
  · intro m m' hmm hm'
    rcases Nat.lt_succ_iff_lt_or_eq.mp hm' with hm' | rfl
    · rw [hP1 m (by omega), hP1 m' hm']
      exact h.mono m m' hmm hm'
    · rw [hP1 m hmm, hP2]
      exact h.lt m hmm
  · intro m hm
    rcases Nat.lt_succ_iff_lt_or_eq.mp hm with hm | rfl
    · rw [hP1 m hm, hU1 m _ hm]; exact h.lead m hm
    · rw [hP2, hU2]; exact hpn
  · intro m j hm hj
    rcases Nat.lt_succ_iff_lt_or_eq.mp hm with hm | rfl
    · rw [hP1 m hm] at hj
      rw [hU1 m _ hm]
      exact h.left m j hm hj
    · rw [hP2] at hj
      rw [hU2]
      exact h.below p j hp hp' hj
  · intro i j hi hi' hj
    simp only [U', if_pos (show row < i by omega), if_pos (show j ≤ n by omega)]
  · intro i j hi hj
    rcases Nat.lt_or_ge row i with hri | hri
    · rw [show min i (row + 1) = row + 1 by omega, Finset.sum_range_succ, Finset.sum_range_succ,
        Finset.sum_range_succ]
      have hold := h.err (τ i) j (hτN i hi) hj
      rw [show min (τ i) row = row by have := (hs3 i hri hi).1; omega] at hold
      have s1 : ∑ m ∈ Finset.range row, L' i m * U' m j = ∑ m ∈ Finset.range row, L (τ i) m * U m j :=
        Finset.sum_congr rfl fun m hm => by
          have := Finset.mem_range.mp hm
          rw [hL1 i m this, hU1 m j this]
      have s2 : ∑ m ∈ Finset.range row, |L' i m * U' m j| = ∑ m ∈ Finset.range row, |L (τ i) m * U m j| :=
        Finset.sum_congr rfl fun m hm => by
          have := Finset.mem_range.mp hm
          rw [hL1 i m this, hU1 m j this]
      have s3 : ∑ m ∈ Finset.range row, fm.eta * (1 + |U' m j|) =
          ∑ m ∈ Finset.range row, fm.eta * (1 + |U m j|) :=
        Finset.sum_congr rfl fun m hm => by rw [hU1 m j (Finset.mem_range.mp hm)]
      rw [s1, s2, s3, hU2]
      have hLr : L' i row = l i := by simp only [L', if_true]
      rw [hLr]
      refine err_step hu (by positivity) (Finset.sum_nonneg fun m _ => by positivity)
        (Finset.sum_nonneg fun m _ => abs_nonneg _) hold ?_
      rcases Nat.lt_trichotomy j n with hjn | hjn | hjn
      · have e1 : U' i j = 0 := by simp only [U', if_pos hri, if_pos hjn.le]
        rw [e1, h.below _ j (hs3 i hri hi).1 (hτN i hi) hjn, h.below p j hp hp' hjn]
        simp only [mul_zero, add_zero, sub_zero, abs_zero, mul_one, zero_add]
        exact hη
      · subst hjn
        have e1 : U' i j = 0 := by simp only [U', if_pos hri, if_pos (Nat.le_refl _)]
        rw [e1, add_zero, abs_zero, add_zero]
        have := (pivot_error hf (hhas _ _ (hτN i hi) hj (Nat.le_refl _)) hpn (hl' i hri hi)
          (hnew i j hri hi hj (Nat.le_refl _))).1
        linarith
      · have e1 : U' i j = toQ (g' i j) := by
          simp only [U', if_pos hri, if_neg (show ¬ j ≤ n by omega)]
        rw [e1]
        have := entry_error hf (hhas _ _ (hτN i hi) hj hjn.le) (hnew i j hri hi hj hjn.le)
        have h0 := mul_nonneg hη (abs_nonneg (U p j))
        linarith
    · have hold := h.err (τ i) j (hτN i hi) hj
      have e0 : min (τ i) row = min i (row + 1) := by
        rcases Nat.lt_or_eq_of_le hri with h1 | h1
        · rw [hs1 i h1]; omega
        · rw [h1, hs2]; omega
      have hle : min i (row + 1) ≤ row := by omega
      rw [e0] at hold
      have hUi : U' i j = U (τ i) j := by simp only [U', if_neg (show ¬ row < i by omega)]
      have s1 : ∑ m ∈ Finset.range (min i (row + 1)), L' i m * U' m j =
          ∑ m ∈ Finset.range (min i (row + 1)), L (τ i) m * U m j :=
        Finset.sum_congr rfl fun m hm => by
          have := Finset.mem_range.mp hm
          rw [hL1 i m (by omega), hU1 m j (by omega)]
      have s2 : ∑ m ∈ Finset.range (min i (row + 1)), |L' i m * U' m j| =
          ∑ m ∈ Finset.range (min i (row + 1)), |L (τ i) m * U m j| :=
        Finset.sum_congr rfl fun m hm => by
          have := Finset.mem_range.mp hm
          rw [hL1 i m (by omega), hU1 m j (by omega)]
      have s3 : ∑ m ∈ Finset.range (min i (row + 1)), fm.eta * (1 + |U' m j|) =
          ∑ m ∈ Finset.range (min i (row + 1)), fm.eta * (1 + |U m j|) :=
        Finset.sum_congr rfl fun m hm => by
          have := Finset.mem_range.mp hm
          rw [hU1 m j (by omega)]
      rw [s1, s2, s3, hUi]
      exact hold

/-- Elimination that returns finite entries computes such factors. -/
theorem gaussElim_lu {M : Type} {ops : MatOps M (Flt fm)} {Rep : M → (Nat → Nat → Flt fm) → Prop}
    (hgood : Good ops N N Rep) (hf : fm.Ok) {A : Nat → Nat → ℚ} {m t : M} {d : Flt fm}
    (hm : Rep m fun i j => .fin (A i j)) (hA : ∀ i j, i < N → j < N → fm.Has (A i j))
    (e : ops.gaussElim N N m = .ok (t, d)) :
    ∃ g, Rep t g ∧ (∀ i j, i < N → j < N → ∀ q, g i j = .fin q → fm.Has q) ∧
      ((∀ i j, i < N → j < N → ∃ q, g i j = .fin q) → ∃ (σ : Equiv.Perm (Fin N))
      (B L U : Nat → Nat → ℚ) (row : Nat) (piv : Nat → Nat), row ≤ N ∧
      d = .fin ((Equiv.Perm.sign σ : Int) : ℚ) ∧ (∀ i j : Fin N, B i j = A (σ i) j) ∧
      LU fm N B L U g N row piv) := by
  have key : ∀ n, n ≤ N → ∀ s, forUpM n (fun col s => ops.gaussStep N N col s) ⟨m, 0, 1⟩ = .ok s →
      ∃ g, Rep s.m g ∧ s.row ≤ n ∧ (∀ i j, i < N → j < N → ∀ q, g i j = .fin q → fm.Has q) ∧
      ((∀ i j, i < N → j < N → ∃ q, g i j = .fin q) → ∃ (σ : Equiv.Perm (Fin N))
      (B L U : Nat → Nat → ℚ) (piv : Nat → Nat),
      s.factor = .fin ((Equiv.Perm.sign σ : Int) : ℚ) ∧ (∀ i j : Fin N, B i j = A (σ i) j) ∧
      LU fm N B L U g n s.row piv) := by
    intro n
    induction n with
    | zero =>
      intro _ s e
      simp only [forUpM, Res.ok.injEq] at e
      subst e
      refine ⟨_, hm, Nat.le_refl _, fun i j hi hj q hq => ?_, fun _ => ⟨1, A, fun _ _ => 0, A, fun _ => 0, ?_,
        fun i j => rfl, LU.start fun i j _ _ => rfl⟩⟩
      · injection hq with hq
        exact hq ▸ hA i j hi hj
      · simp only [Equiv.Perm.sign_one]
        norm_num
        rfl
    | succ n ih =>
      intro hn s' e
      rw [forUpM] at e
      cases e1 : forUpM n (fun col s => ops.gaussStep N N col s) ⟨m, 0, 1⟩ with
      | panic => rw [e1] at e; cases e
      | hang => rw [e1] at e; cases e
      | ok s =>
        rw [e1] at e
        simp only [Res.bind] at e
        obtain ⟨g, h1, h2, h3, h4⟩ := ih (by omega) s e1
        rcases gaussStep_inv hgood (show n < N by omega) h1 (by omega) e with ⟨rfl, hz⟩ |
          ⟨p, g', k1, k2, k3, k4, k5, k6, k7⟩
        · refine ⟨g, h1, by omega, h3, fun hfin => ?_⟩
          obtain ⟨σ, B, L, U, piv, x1, x2, x3⟩ := h4 hfin
          exact ⟨σ, B, L, U, piv, x1, x2, x3.skip (by omega) hz⟩
        · have hsw : ∀ a, a < N → Equiv.swap p s.row a < N := by
            intro a ha
            rw [Equiv.swap_apply_def]
            split
            · omega
            · split <;> omega
          refine ⟨g', k4, by omega, fun i j hi hj q hq => ?_, fun hfin => ?_⟩
          · rw [k7 i j hi hj] at hq
            split at hq
            · obtain ⟨_, _, _, _, hr⟩ := sub_fin hq
              exact rnd_has hf hr
            · exact h3 _ _ (hsw i hi) hj q hq
          · have hfin' : ∀ i j, i < N → j < N → ∃ q, g i j = .fin q := by
              intro i j hi hj
              obtain ⟨q, hq⟩ := hfin (Equiv.swap p s.row i) j (hsw i hi) hj
              rw [k7 _ j (hsw i hi) hj, Equiv.swap_apply_self] at hq
              split at hq
              · obtain ⟨a, _, ha, _⟩ := sub_fin hq
                exact ⟨a, ha⟩
              · exact ⟨q, hq⟩
            obtain ⟨σ, B, L, U, piv, x1, x2, x3⟩ := h4 hfin'
            obtain ⟨L', U', piv', hlu⟩ := x3.step hf (by omega) h3 k1 k2 k3 k7 hfin
            have hrow : s.row < N := by omega
            have hfs : ∀ a : Fin N, ((Equiv.swap (⟨p, k2⟩ : Fin N) ⟨s.row, hrow⟩ a : Fin N) : Nat) =
                Equiv.swap p s.row a := by
              intro a
              rw [Equiv.swap_apply_def, Equiv.swap_apply_def]
              simp only [Fin.ext_iff]
              split
              · rfl
              · split <;> rfl
            refine ⟨σ * Equiv.swap ⟨p, k2⟩ ⟨s.row, hrow⟩, _, L', U', piv', ?_, fun i j => ?_, k5 ▸ hlu⟩
            · rw [k6, x1]
              by_cases hps : p = s.row
              · subst hps
                simp
              · rw [if_pos hps, Equiv.Perm.sign_mul, Equiv.Perm.sign_swap (by simpa using hps)]
                simp
                rfl
            · rw [Equiv.Perm.mul_apply, ← x2, hfs]
  unfold MatOps.gaussElim at e
  cases e1 : forUpM N (fun col s => ops.gaussStep N N col s) ⟨m, 0, 1⟩ with
  | panic => rw [e1] at e; cases e
  | hang => rw [e1] at e; cases e
  | ok s =>
    rw [e1] at e
    simp only [Res.bind, Res.ok.injEq, Prod.mk.injEq] at e
    obtain ⟨rfl, rfl⟩ := e
    obtain ⟨g, h1, h2, h3, h4⟩ := key N (Nat.le_refl _) s e1
    refine ⟨g, h1, h3, fun hfin => ?_⟩
    obtain ⟨σ, B, L, U, piv, x1, x2, x3⟩ := h4 hfin
    exact ⟨σ, B, L, U, s.row, piv, h2, x1, x2, x3⟩

end lu

end Gauss

end Verif
