import Verif.Lemmas.FloatSum

/-!
# Adding up floats that are themselves results of several operations

As in `Lemmas/FloatSum.lean`, but the error of a term is relative to a bound on its size that may exceed
the term itself, as it does if the term is a difference of products.
-/

namespace Verif

namespace Flt

variable {f : FloatFmt}

/-- A float near a number `p.1`, relative to the size `p.2`. -/
def NearMag (δ ε : ℚ) (v : Flt f) (p : ℚ × ℚ) : Prop :=
  |p.1| ≤ p.2 ∧ ∀ y, v = .fin y → f.Has y ∧ |y - p.1| ≤ δ * p.2 + ε

/-- One addition: how the bound grows. -/
theorem step_mag {δ ε : ℚ} (hδ : 0 ≤ δ) (hε : 0 ≤ ε) {s S T y x t : ℚ} {k : Nat}
    (hE : |s - S| ≤ ((1 + f.u) ^ k * (1 + δ) - 1) * T + (k + 1) * (1 + f.u) ^ k * ε) (hS : |S| ≤ T)
    (hx : |x| ≤ t) (hye : |y - x| ≤ δ * t + ε) :
    |s + y| ≤ (1 + f.u) ^ (k + 1) * (1 + δ) * (T + t) + (k + 1 + 1) * (1 + f.u) ^ (k + 1) * ε ∧
    ∀ s', |s' - (s + y)| ≤ f.u * |s + y| →
      |s' - (S + x)| ≤ ((1 + f.u) ^ (k + 1) * (1 + δ) - 1) * (T + t) +
        (k + 1 + 1) * (1 + f.u) ^ (k + 1) * ε := by
  have hu := u_pos f
  have hk1 : (1 : ℚ) ≤ (1 + f.u) ^ k := one_le_pow₀ (by linarith)
  have hT : 0 ≤ T := (abs_nonneg _).trans hS
  have hxn : 0 ≤ t := (abs_nonneg _).trans hx
  have e2 : |s + y| ≤ T + t + (|s - S| + |y - x|) := by
    have t1 := abs_add_le (S + x) ((s - S) + (y - x))
    have t2 := abs_add_le (s - S) (y - x)
    have t3 := abs_add_le S x
    rw [show s + y = (S + x) + ((s - S) + (y - x)) by ring]
    linarith
  have hED : 0 ≤ |s - S| + |y - x| := by positivity
  have hmain : (1 + f.u) * (|s - S| + |y - x|) + f.u * (T + t) ≤
      ((1 + f.u) ^ (k + 1) * (1 + δ) - 1) * (T + t) + (k + 1 + 1) * (1 + f.u) ^ (k + 1) * ε := by
    have e4 : (1 + f.u) * (|s - S| + |y - x|) ≤ (1 + f.u) * ((((1 + f.u) ^ k * (1 + δ) - 1) * T +
        (k + 1) * (1 + f.u) ^ k * ε) + (δ * t + ε)) :=
      mul_le_mul_of_nonneg_left (by linarith) (by linarith)
    refine (add_le_add_left e4 _).trans ?_
    have e5 : 0 ≤ ((1 + f.u) ^ k - 1) * ((1 + f.u) * ((1 + δ) * t)) := by
      have : 0 ≤ (1 + f.u) ^ k - 1 := by linarith
      positivity
    have e6 : 0 ≤ ((1 + f.u) ^ k - 1) * ((1 + f.u) * ε) := by
      have : 0 ≤ (1 + f.u) ^ k - 1 := by linarith
      positivity
    rw [pow_succ]
    nlinarith
  refine ⟨?_, fun s' hadd => ?_⟩
  · have e7 : 0 ≤ f.u * (|s - S| + |y - x|) := by positivity
    have e8 : 0 ≤ f.u * (T + t) := by positivity
    nlinarith
  · have e1 : |s' - (S + x)| ≤ |s' - (s + y)| + (|s - S| + |y - x|) := by
      have t1 := abs_add_le (s' - (s + y)) ((s - S) + (y - x))
      have t2 := abs_add_le (s - S) (y - x)
      rw [show s' - (S + x) = (s' - (s + y)) + ((s - S) + (y - x)) by ring]
      linarith
    have := mul_le_mul_of_nonneg_left e2 hu.le
    linarith

/-- The error of adding up terms. -/
theorem fold_mag (hf : f.Ok) {δ ε : ℚ} (hδ : 0 ≤ δ) (hε : 0 ≤ ε) (l : List (Flt f)) (xs : List (ℚ × ℚ))
    (hl : List.Forall₂ (NearMag δ ε) l xs) :
    ∀ (s S T : ℚ) (k : Nat), f.Has s →
      |s - S| ≤ ((1 + f.u) ^ k * (1 + δ) - 1) * T + (k + 1) * (1 + f.u) ^ k * ε → |S| ≤ T →
      (∀ r, l.foldl (fun a v => a + v) (Flt.fin s) = .fin r →
        |r - (S + (xs.map Prod.fst).sum)| ≤
          ((1 + f.u) ^ (k + l.length) * (1 + δ) - 1) * (T + (xs.map Prod.snd).sum) +
          (k + l.length + 1) * (1 + f.u) ^ (k + l.length) * ε) ∧
      ((∀ v ∈ l, ∃ y, v = .fin y) →
        (1 + f.u) ^ (k + l.length) * (1 + δ) * (T + (xs.map Prod.snd).sum) +
          (k + l.length + 1) * (1 + f.u) ^ (k + l.length) * ε ≤ f.max →
        ∃ r, l.foldl (fun a v => a + v) (Flt.fin s) = .fin r) := by
  induction hl with
  | nil =>
    intro s S T k _ hE _
    refine ⟨fun r h => ?_, fun _ _ => ⟨s, rfl⟩⟩
    simp only [List.foldl_nil] at h
    injection h with h
    subst h
    simpa using hE
  | @cons v x l xs hv hl ih =>
    intro s S T k hs hE hS
    have hT : 0 ≤ T := (abs_nonneg _).trans hS
    have hx : 0 ≤ x.2 := (abs_nonneg _).trans hv.1
    refine ⟨fun r h => ?_, fun hfin hB => ?_⟩
    · rw [List.foldl_cons] at h
      obtain ⟨s', hs'⟩ := fold_start h
      rw [hs'] at h
      obtain ⟨a, y, ha, hy, hr⟩ := add_fin hs'
      injection ha with ha
      subst ha
      obtain ⟨hyh, hye⟩ := hv.2 y hy
      have := (ih s' (S + x.1) (T + x.2) (k + 1) (rnd_has hf hr)
        (by
          have := (step_mag hδ hε hE hS hv.1 hye).2 s' (rnd_add_error hs hyh hr)
          push_cast; exact this)
        ((abs_add_le _ _).trans (by linarith [hv.1]))).1 r h
      rw [List.length_cons, List.map_cons, List.sum_cons, List.map_cons, List.sum_cons]
      rw [show k + (l.length + 1) = k + 1 + l.length by ring]
      push_cast at this ⊢
      rw [← add_assoc S, ← add_assoc T]
      convert this using 2
      ring
    · obtain ⟨y, hy⟩ := hfin v (by simp)
      obtain ⟨hyh, hye⟩ := hv.2 y hy
      have hstep := step_mag hδ hε hE hS hv.1 hye
      rw [List.length_cons, List.map_cons, List.sum_cons] at hB
      rw [show k + (l.length + 1) = k + 1 + l.length by ring] at hB
      push_cast at hB
      have hu := u_pos f
      have hle : |s + y| ≤ f.max := by
        refine (hstep.1.trans ?_).trans hB
        have hsum : 0 ≤ (xs.map Prod.snd).sum := by
          apply List.sum_nonneg
          intro t ht
          obtain ⟨z, hz, rfl⟩ := List.mem_map.1 ht
          obtain ⟨i, hi, rfl⟩ := List.mem_iff_getElem.1 hz
          exact (abs_nonneg _).trans (List.forall₂_iff_get.1 hl |>.2 i
            (by rw [hl.length_eq]; exact hi) hi).1
        have hp : (1 + f.u) ^ (k + 1) ≤ (1 + f.u) ^ (k + 1 + l.length) :=
          pow_le_pow_right₀ (by linarith) (by omega)
        gcongr ?_ + ?_
        · gcongr; linarith
        · gcongr
          have : (0 : ℚ) ≤ l.length := by positivity
          linarith
      obtain ⟨s', hr⟩ := rnd_total hf hle
      rw [List.foldl_cons, hy, fin_add, hr]
      refine (ih s' (S + x.1) (T + x.2) (k + 1) (rnd_has hf hr)
        (by
          have := hstep.2 s' (rnd_add_error hs hyh hr)
          push_cast; exact this)
        ((abs_add_le _ _).trans (by linarith [hv.1]))).2 (fun w hw => hfin w (by simp [hw])) ?_
      push_cast
      refine le_trans (le_of_eq ?_) hB
      ring

/-- Likewise, from the first term. -/
theorem fold_mag_first (hf : f.Ok) {δ ε : ℚ} (hδ : 0 ≤ δ) (hε : 0 ≤ ε) (v : Flt f) (l : List (Flt f))
    (x : ℚ × ℚ) (xs : List (ℚ × ℚ)) (hv : NearMag δ ε v x) (hl : List.Forall₂ (NearMag δ ε) l xs) :
    (∀ r, l.foldl (fun a v => a + v) v = .fin r →
      |r - ((x :: xs).map Prod.fst).sum| ≤
        ((1 + f.u) ^ l.length * (1 + δ) - 1) * ((x :: xs).map Prod.snd).sum +
        (l.length + 1) * (1 + f.u) ^ l.length * ε) ∧
    ((∀ w ∈ v :: l, ∃ y, w = .fin y) →
      (1 + f.u) ^ l.length * (1 + δ) * ((x :: xs).map Prod.snd).sum +
        (l.length + 1) * (1 + f.u) ^ l.length * ε ≤ f.max →
      ∃ r, l.foldl (fun a v => a + v) v = .fin r) := by
  constructor
  · intro r h
    obtain ⟨s, rfl⟩ := fold_start h
    obtain ⟨hs, he⟩ := hv.2 s rfl
    have := (fold_mag hf hδ hε l xs hl s x.1 x.2 0 hs (by simpa using he) hv.1).1 r h
    simpa using this
  · intro hfin hB
    obtain ⟨s, rfl⟩ := hfin v (by simp)
    obtain ⟨hs, he⟩ := hv.2 s rfl
    refine (fold_mag hf hδ hε l xs hl s x.1 x.2 0 hs (by simpa using he) hv.1).2
      (fun w hw => hfin w (by simp [hw])) ?_
    simpa using hB

end Flt

end Verif
