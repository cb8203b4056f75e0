import Verif.Model.BiVec
import Verif.Lemmas.Matrix
import Mathlib.Data.Nat.Choose.Basic
import Mathlib.Data.Nat.Choose.Sum
import Mathlib.Algebra.Order.Field.Rat
import Mathlib.Algebra.Field.Basic
import Mathlib.Tactic.Ring

/-!
# C84: bivectors
-/

namespace Verif.BiVec

theorem step_div (a b c d : Nat) (hc : 0 < c) (h : a % c = 0) :
    (a / c) * b / d = a * b / (c * d) := by
  obtain ⟨k, rfl⟩ := Nat.dvd_of_mod_eq_zero h
  rw [Nat.mul_div_cancel_left _ hc, Nat.mul_assoc, Nat.mul_div_mul_left _ _ hc]

/-- What the loop computes, if it does not overflow. -/
theorem chooseLoop_val (m : Mode) (P : Nat) : ∀ (r n out denom v : Nat), r ≤ n → 0 < denom →
    (out * n.descFactorial r < 2 ^ P ∧ denom * r.factorial < 2 ^ P → 
      chooseLoop m P r n out denom = .ok (out * n.descFactorial r / (denom * r.factorial))) ∧
    (chooseLoop .debug P r n out denom = .ok v →
      v = out * n.descFactorial r / (denom * r.factorial) ∧ chooseLoop m P r n out denom = .ok v) := by
  intro r
  induction r with
  | zero =>
    intro n out denom v _ hd
    have h0 : denom ≠ 0 := by omega
    simp [chooseLoop, h0]
    exact fun h => ⟨h.symm, h⟩
  | succ r ih =>
    intro n out denom v hr hd
    obtain ⟨n, rfl⟩ : ∃ k, n = k + 1 := ⟨n - 1, by omega⟩
    have hdf : (n + 1).descFactorial (r + 1) = (n + 1) * n.descFactorial r :=
      Nat.succ_descFactorial_succ n r
    have hff : (r + 1).factorial = (r + 1) * r.factorial := Nat.factorial_succ r
    have e1 : out * (n + 1).descFactorial (r + 1) = (out * (n + 1)) * n.descFactorial r := by
      rw [hdf, Nat.mul_assoc]
    have e2 : denom * (r + 1).factorial = (denom * (r + 1)) * r.factorial := by
      rw [hff, Nat.mul_assoc]
    have hd2 : 0 < denom * (r + 1) := Nat.mul_pos hd (Nat.succ_pos r)
    have hp1 : 1 ≤ n.descFactorial r := Nat.descFactorial_pos.mpr (by omega)
    have hp2 : 1 ≤ r.factorial := Nat.factorial_pos r
    have step : out * (n + 1) < 2 ^ P → denom * (r + 1) < 2 ^ P → ∀ md : Mode,
        chooseLoop md P (r + 1) (n + 1) out denom =
        if out * (n + 1) % (denom * (r + 1)) = 0 then
          chooseLoop md P r n (out * (n + 1) / (denom * (r + 1))) 1
        else chooseLoop md P r n (out * (n + 1)) (denom * (r + 1)) := by
      intro h1 h2 md
      rw [chooseLoop, usz_ok md h1]
      simp only [Res.bind]
      rw [usz_ok md h2]
      simp only [dec]
      rw [if_neg (by omega)]
    rw [e1, e2]
    constructor
    · intro ⟨h1, h2⟩
      have l1 : out * (n + 1) < 2 ^ P := lt_of_le_of_lt (Nat.le_mul_of_pos_right _ hp1) h1
      have l2 : denom * (r + 1) < 2 ^ P := lt_of_le_of_lt (Nat.le_mul_of_pos_right _ hp2) h2
      rw [step l1 l2]
      by_cases hz : out * (n + 1) % (denom * (r + 1)) = 0
      · rw [if_pos hz]
        have := (ih n (out * (n + 1) / (denom * (r + 1))) 1 0 (by omega) (by omega)).1 ⟨?_, ?_⟩
        · rw [this, Nat.one_mul, step_div _ _ _ _ hd2 hz]
        · exact lt_of_le_of_lt (Nat.mul_le_mul_right _ (Nat.div_le_self _ _)) h1
        · rw [Nat.one_mul]
          exact lt_of_le_of_lt (Nat.le_mul_of_pos_left _ hd2) h2
      · rw [if_neg hz]
        exact (ih n _ _ 0 (by omega) hd2).1 ⟨h1, h2⟩
    · intro h
      have l1 : out * (n + 1) < 2 ^ P := by
        by_contra hn
        rw [chooseLoop, usz, if_neg hn] at h
        simp [Res.bind] at h
      have l2 : denom * (r + 1) < 2 ^ P := by
        by_contra hn
        rw [chooseLoop, usz_ok _ l1] at h
        simp only [Res.bind] at h
        rw [usz, if_neg hn] at h
        simp at h
      rw [step l1 l2] at h ⊢
      by_cases hz : out * (n + 1) % (denom * (r + 1)) = 0
      · rw [if_pos hz] at h ⊢
        obtain ⟨g1, g2⟩ := (ih n (out * (n + 1) / (denom * (r + 1))) 1 v (by omega) (by omega)).2 h
        rw [Nat.one_mul, step_div _ _ _ _ hd2 hz] at g1
        exact ⟨g1, g2⟩
      · rw [if_neg hz] at h ⊢
        exact (ih n _ _ v (by omega) hd2).2 h

/-- C84: `choose_n` is the binomial coefficient if the falling factorial fits. -/
theorem C84_choose (m : Mode) (P n r : Nat) (h : n.descFactorial r < 2 ^ P) :
    choose m P n r = .ok (n.choose r) := by
  unfold choose
  by_cases hn : n < r
  · rw [if_pos hn, Nat.choose_eq_zero_of_lt hn]
  · rw [if_neg hn]
    have hle : r.factorial ≤ n.descFactorial r := by
      rw [← Nat.descFactorial_self]
      exact Nat.descFactorial_le r (by omega)
    rw [(chooseLoop_val m P r n 1 1 0 (by omega) (by omega)).1 ⟨by omega, by omega⟩, Nat.one_mul,
      Nat.one_mul, ← Nat.choose_eq_descFactorial_div_factorial]

/-- C84: whenever `choose_n` returns in a build with overflow checks, that is, whenever no intermediate
product overflows, it returns the binomial coefficient, and so does a build without the checks. -/
theorem C84_choose_checked (P n r v : Nat) (h : choose .debug P n r = .ok v) :
    v = n.choose r ∧ choose .release P n r = .ok v := by
  unfold choose at h ⊢
  by_cases hn : n < r
  · rw [if_pos hn] at h ⊢
    injection h with h
    exact ⟨by rw [← h, Nat.choose_eq_zero_of_lt hn], by rw [h]⟩
  · rw [if_neg hn] at h ⊢
    obtain ⟨h1, h2⟩ := (chooseLoop_val .release P r n 1 1 v (by omega) (by omega)).2 h
    exact ⟨by rw [h1, Nat.one_mul, Nat.one_mul, ← Nat.choose_eq_descFactorial_div_factorial], h2⟩

example : choose .debug 64 23 17 = .ok 100947 ∧ (1000000000).descFactorial 2 < 2 ^ 64 ∧
    choose .debug 64 1000000000 2 = .ok 499999999500000000 := by decide

/-! ## The wedge product -/

/-- The pairs `i < j` below `D`, in lexicographic order. -/
def pairs (D : Nat) : List (Nat × Nat) :=
  (List.range D).flatMap fun i => (List.range (D - (i + 1))).map fun k => (i, i + 1 + k)

/-- `pairs` lists each pair `i < j < D` … -/
theorem mem_pairs (D i j : Nat) : (i, j) ∈ pairs D ↔ i < j ∧ j < D := by
  unfold pairs
  simp only [List.mem_flatMap, List.mem_range, List.mem_map, Prod.mk.injEq]
  constructor
  · rintro ⟨a, ha, k, hk, rfl, rfl⟩
    omega
  · rintro ⟨h1, h2⟩
    exact ⟨i, by omega, j - (i + 1), by omega, rfl, by omega⟩

/-- … in increasing order, hence once. -/
theorem pairs_sorted (D : Nat) :
    (pairs D).Pairwise fun p q => p.1 < q.1 ∨ p.1 = q.1 ∧ p.2 < q.2 := by
  unfold pairs
  rw [List.pairwise_flatMap]
  constructor
  · intro i _
    rw [List.pairwise_map]
    exact (List.pairwise_lt_range (n := D - (i + 1))).imp (fun h => Or.inr ⟨rfl, by omega⟩)
  · refine (List.pairwise_lt_range (n := D)).imp ?_
    intro a b hab x hx y hy
    simp only [List.mem_map] at hx hy
    obtain ⟨_, _, rfl⟩ := hx
    obtain ⟨_, _, rfl⟩ := hy
    exact Or.inl hab

theorem pairs_length (D : Nat) : (pairs D).length = D.choose 2 := by
  unfold pairs
  rw [List.length_flatMap]
  simp only [List.length_map, List.length_range]
  rw [Nat.choose_two_right]
  have : ∀ n, n ≤ D → ((List.range n).map fun i => D - (i + 1)).sum * 2 + (D - n) * (D - n - 1) =
      D * (D - 1) := by
    intro n
    induction n with
    | zero => simp
    | succ n ih =>
      intro hn
      have := ih (by omega)
      rw [← this, List.range_succ, List.map_append, List.sum_append]
      obtain ⟨k, hk⟩ : ∃ k, D - n = k + 1 := ⟨D - n - 1, by omega⟩
      have h2 : D - (n + 1) = k := by omega
      rw [hk, h2]
      simp only [List.map_cons, List.map_nil, List.sum_cons, List.sum_nil, Nat.add_sub_cancel, h2]
      rcases k with _ | k
      · simp
      · simp only [Nat.add_sub_cancel]; ring
  have h := this D le_rfl
  simp at h
  omega

section

variable {K : Type} [Zero K] [One K] [Neg K] [Sub K] [Mul K] [Div K] [DecidableEq K] [LT K] [DecidableLT K]
  [PartialCmp K]

theorem comp_eq {D : Nat} (A B : Fin D → K) (i j : Fin D) :
    comp (List.ofFn A) (List.ofFn B) i j = .ok (A i * B j - A j * B i) := by
  unfold comp
  have h : ∀ (V : Fin D → K) (k : Fin D), (List.ofFn V)[(k : Nat)]? = some (V k) := by
    intro V k
    rw [List.getElem?_ofFn, dif_pos k.isLt]
  rw [h, h, h, h]
  rfl

/-- A component of a vector, zero outside of it. -/
def at0 {D : Nat} (V : Fin D → K) (i : Nat) : K := if h : i < D then V ⟨i, h⟩ else 0

/-- The wedge product. -/
def wedge {D : Nat} (A B : Fin D → K) : List K :=
  (pairs D).map fun p => at0 A p.1 * at0 B p.2 - at0 A p.2 * at0 B p.1

theorem new_eq (m : Mode) (P : Nat) {D : Nat} (A B : Fin D → K) (hD : D * (D - 1) < 2 ^ P) :
    new m P D (List.ofFn A) (List.ofFn B) = .ok (wedge A B) := by
  have hch : ∀ md : Mode, choose md P D 2 = .ok (D.choose 2) := fun md => C84_choose md P D 2 (by
    rw [Nat.descFactorial_succ, Nat.descFactorial_one, Nat.mul_comm]; exact hD)
  have inner : ∀ (i : Nat), i < D → ∀ (n : Nat), n ≤ D - (i + 1) → ∀ acc : List K,
      forUpM n (fun k comps => (comp (List.ofFn A) (List.ofFn B) i (i + 1 + k)).bind fun c =>
        .ok (comps ++ [c])) acc =
      .ok (acc ++ ((List.range n).map fun k =>
        at0 A i * at0 B (i + 1 + k) - at0 A (i + 1 + k) * at0 B i)) := by
    intro i hi n
    induction n with
    | zero => intro _ acc; simp [forUpM]
    | succ n ih =>
      intro hn acc
      have hj : i + 1 + n < D := by omega
      rw [forUpM, ih (by omega) acc]
      simp only [Res.bind]
      have := comp_eq A B ⟨i, hi⟩ ⟨i + 1 + n, hj⟩
      simp only at this
      rw [this]
      simp only
      rw [List.range_succ, List.map_append, List.append_assoc, List.map_cons, List.map_nil]
      unfold at0
      rw [dif_pos hi, dif_pos hi, dif_pos hj, dif_pos hj]
  have outer : ∀ n, n ≤ D → forUpM n (fun i comps => forUpM (D - (i + 1)) (fun k comps =>
      (comp (List.ofFn A) (List.ofFn B) i (i + 1 + k)).bind fun c => .ok (comps ++ [c])) comps)
        ([] : List K) =
      .ok (((List.range n).flatMap fun i => (List.range (D - (i + 1))).map fun k => (i, i + 1 + k)).map
        fun p => at0 A p.1 * at0 B p.2 - at0 A p.2 * at0 B p.1) := by
    intro n
    induction n with
    | zero => intro _; simp [forUpM]
    | succ n ih =>
      intro hn
      rw [forUpM, ih (by omega)]
      simp only [Res.bind]
      have := inner n (by omega) (D - (n + 1)) le_rfl
      simp only [Res.bind] at this
      rw [this, List.range_succ, List.flatMap_append, List.map_append]
      simp
  unfold new
  rw [hch, outer D le_rfl, hch]
  simp only [Res.bind]
  rw [if_pos]
  · rfl
  · rw [List.length_map]
    exact pairs_length D

/-- C84: the wedge product of two vectors does not panic, and has one component `aᵢbⱼ − aⱼbᵢ` for each
`i < j`, in lexicographic order (`mem_pairs`, `pairs_sorted`), `D(D−1)/2` in all. -/
theorem C84_wedge (m : Mode) (P : Nat) {D : Nat} (A B : Fin D → K) (hD : D * (D - 1) < 2 ^ P) :
    ∃ comps, new m P D (List.ofFn A) (List.ofFn B) = .ok comps ∧ comps.length = D.choose 2 ∧
      ∀ (n : Nat) (i j : Fin D), (pairs D)[n]? = some ((i : Nat), (j : Nat)) →
        comps[n]? = some (A i * B j - A j * B i) := by
  refine ⟨_, new_eq m P A B hD, by rw [wedge, List.length_map, pairs_length], fun n i j h => ?_⟩
  unfold wedge
  rw [List.getElem?_map, h]
  simp [at0]

end

variable {K : Type} [Field K] [LinearOrder K]

/-- C84: the wedge product is antisymmetric, and vanishes on equal vectors. -/
theorem C84_antisymmetric (m : Mode) (P : Nat) {D : Nat} (A B : Fin D → K)
    (hD : D * (D - 1) < 2 ^ P) :
    ∃ comps, new m P D (List.ofFn A) (List.ofFn B) = .ok comps ∧
      new m P D (List.ofFn B) (List.ofFn A) = .ok (comps.map fun c => -c) ∧
      new m P D (List.ofFn A) (List.ofFn A) = .ok (List.replicate (D.choose 2) 0) := by
  refine ⟨_, new_eq m P A B hD, ?_, ?_⟩
  · rw [new_eq m P B A hD]
    unfold wedge
    rw [List.map_map]
    congr 1
    apply List.map_congr_left
    intro p _
    simp only [Function.comp]
    ring
  · rw [new_eq m P A A hD]
    congr 1
    rw [← pairs_length, ← List.map_const']
    unfold wedge
    apply List.map_congr_left
    intro p _
    ring

example : pairs 3 = [(0, 1), (0, 2), (1, 2)] ∧
    new .debug 64 3 [1, 2, 3] [4, 5, (6 : Rat)] = .ok [-3, -6, -3] := by
  refine ⟨by decide, by decide +kernel⟩

end Verif.BiVec
