import Verif.Lemmas.BigIntWord

/-!
# Shifting right with `usize` of any width
-/

namespace Verif

namespace WInt

variable {w : Nat}

theorem shrSlice_debug (s : List (BitVec w)) (k : Nat) :
    shrSlice .debug s k = ElementShr.shr .debug s k := rfl

theorem shrBody_small (m : Mode) (e i : Nat) (v : BitVec w) (s : List (BitVec w)) (he : e < w) :
    shrBody m 1 e i v s = .ok (ElementShr.pureBody 0 e i v s) := by
  rw [← ElementShr.body_small m e i v s he]
  unfold shrBody ElementShr.body
  by_cases h : i = 0
  · subst h
    simp [usub, Verif.usub, Res.bind]
  · have h1 : 1 ≤ i := by omega
    simp [h, usub, Verif.usub, h1, Res.bind]

/-- In release builds the wrapped indices fall outside the slice. -/
theorem shrBody_release (a e i : Nat) (v : BitVec w) (s : List (BitVec w)) (he : e < w)
    (hs : s.length + a + 1 ≤ 2 ^ w) :
    shrBody .release (a + 1) e i v s = .ok (ElementShr.pureBody a e i v s) := by
  unfold shrBody ElementShr.pureBody
  simp only [getZ_eq, setIgnore_eq, ElementShr.shr_and_not_mask _ _ he]
  have oob : ∀ (t : List (BitVec w)) (k : Nat) (x : BitVec w), t.length = s.length →
      s.length ≤ k → t.set k x = t := fun t k x ht hk => List.set_eq_of_length_le (by omega)
  by_cases h1 : a + 1 ≤ i
  · have h0 : i ≠ 0 := by omega
    have h2 : a + 1 ≤ i + 1 := by omega
    have h3 : a ≤ i := by omega
    have h4 : i + 1 - (a + 1) = i - a := by omega
    simp [h0, usub, h1, h3, h4, Res.bind]
  · by_cases h3 : a ≤ i
    · have h2 : a + 1 ≤ i + 1 := by omega
      have h4 : i + 1 - (a + 1) = i - a := by omega
      by_cases h0 : i = 0
      · simp [h0, usub, Res.bind]
        have : a = 0 := by omega
        subst this
        simp
      · simp only [ne_eq, h0, not_false_eq_true, if_true, usub, h1, if_false, Res.bind, h2, h3, h4]
        rw [oob s _ _ rfl (by omega)]
    · have h2 : ¬ (a + 1 ≤ i + 1) := by omega
      by_cases h0 : i = 0
      · simp only [h0, ne_eq, not_true_eq_false, if_false, Res.bind, usub]
        have h5 : ¬ (a + 1 ≤ 0 + 1) := by omega
        simp only [h5, if_false]
        have h6 : ¬ (a + 1 ≤ 0) := by omega
        have h7 : ¬ (a ≤ 0) := by omega
        simp only [h6, h7, if_false]
        rw [oob s _ _ rfl (by omega)]
      · simp only [ne_eq, h0, not_false_eq_true, if_true, usub, h1, if_false, Res.bind, h2, h3]
        rw [oob s _ _ rfl (by omega), oob s _ _ rfl (by omega)]

theorem shrSlice_of_body (m : Mode) (hw : 0 < w) (s : List (BitVec w)) (k : Nat) (hne : s ≠ [])
    (hb : ∀ i (t : List (BitVec w)), t.length = s.length →
      shrBody m (k / w + 1) (k % w) i (s.getD i 0) t
        = .ok (ElementShr.pureBody (k / w) (k % w) i (s.getD i 0) t)) :
    ∃ out, shrSlice m s k = .ok out ∧ val out = val s / 2 ^ k ∧ Norm out := by
  have he : k % w < w := Nat.mod_lt _ hw
  unfold shrSlice
  simp only
  obtain ⟨out, h1, h2, h3⟩ := forUpM_inv (fun i (out : List (BitVec w)) =>
    out.length = s.length ∧ ∀ j < s.length, out.getD j 0 = ElementShr.E s (k / w) (k % w) i j)
    (fun idx out => shrBody m (k / w + 1) (k % w) idx (s.getD idx 0) out) s.length
    (List.replicate s.length 0)
    ⟨by simp, fun j _ => by rw [getD_replicate]; simp [ElementShr.E]⟩
    (by
      rintro i out hi ⟨g1, g2⟩
      refine ⟨_, hb i out g1, by rw [ElementShr.pureBody_length, g1], fun j hj => ?_⟩
      rw [ElementShr.pureBody_getD _ _ _ _ _ _ (by omega), g2 j hj]
      exact ElementShr.E_step s _ _ i j he)
  have hne' : out ≠ [] := by
    intro h0; rw [h0] at h2; exact hne (List.length_eq_zero_iff.mp (by simpa using h2.symm))
  obtain ⟨t, ht, hv, hn, _⟩ := shrink_ok out hne'
  refine ⟨t, by rw [h1]; exact ht, ?_, hn⟩
  rw [hv, ElementShr.val_of_E s out _ _ he h2 h3, Nat.div_add_mod]

theorem shrSlice_small (m : Mode) (s : List (BitVec w)) (k : Nat) (hk : k < w) (hne : s ≠ []) :
    ∃ out, shrSlice m s k = .ok out ∧ val out = val s / 2 ^ k ∧ Norm out := by
  apply shrSlice_of_body m (by omega) s k hne
  intro i t _
  rw [Nat.div_eq_of_lt hk, Nat.mod_eq_of_lt hk]
  exact shrBody_small m k i _ t hk

theorem shrSlice_release (hw : 0 < w) (s : List (BitVec w)) (k : Nat) (hne : s ≠ [])
    (hs : s.length + k / w + 1 ≤ 2 ^ w) :
    ∃ out, shrSlice .release s k = .ok out ∧ val out = val s / 2 ^ k ∧ Norm out := by
  apply shrSlice_of_body .release hw s k hne
  intro i t ht
  exact shrBody_release (k / w) (k % w) i _ t (Nat.mod_lt _ hw) (by omega)

theorem shl_ok {m : Mode} {a k : WInt w} [hw : PtrWidth w] (hk : Canon k)
    (h0 : 0 ≤ ival k) (h1 : ival k < 2 ^ w) :
    ∃ c, shl m a k = .ok c ∧ Canon c ∧ ival c = ival a * 2 ^ (ival k).toNat := by
  unfold shl shlRaw
  rw [shiftAmount_spec m hk, if_pos ⟨h0, h1⟩]
  simp only [Res.bind]
  obtain ⟨out, g1, g2, g3⟩ := ElementShl.shl_spec hw.pos a.limbs (ival k).toNat
  rw [g1]
  simp only
  obtain ⟨c, c1, c2, _, c4⟩ := finish_spec (.ok (out, a.isNegative)) out a.isNegative rfl g3.1
  refine ⟨c, c1, c2, ?_⟩
  rw [c4, g2]
  unfold ival isNegative
  cases a.neg <;> simp

/-- In debug builds every shift by `w` or more panics. -/
theorem shr_debug_panic {a k : WInt w} [hw : PtrWidth w] (ha : Rep a) (hk : Canon k)
    (h : (w : Int) ≤ ival k) : shr .debug a k = .panic := by
  unfold shr shrRaw
  rw [shiftAmount_spec .debug hk]
  split
  · simp only [Res.bind]
    rw [shrSlice_debug, ElementShr.shr_debug_panic hw.pos a.limbs _ ha.norm.1 (by omega)]
    rfl
  · rfl

theorem shr_ok {m : Mode} {a k : WInt w} [hw : PtrWidth w] (ha : Rep a) (hk : Canon k)
    (h0 : 0 ≤ ival k)
    (h : ival k < w ∨ m = .release ∧ ival k < 2 ^ w ∧ a.limbs.length ≤ 2 ^ (w - 1)) :
    ∃ c, shr m a k = .ok c ∧ Canon c ∧
      ival c = (if a.neg then -((val a.limbs / 2 ^ (ival k).toNat : Nat) : Int)
        else (val a.limbs / 2 ^ (ival k).toNat : Nat)) := by
  have hww : (w : Int) < 2 ^ w := by exact_mod_cast Nat.lt_two_pow_self
  unfold shr shrRaw
  rw [shiftAmount_spec m hk, if_pos ⟨h0, by omega⟩]
  simp only [Res.bind]
  have key : ∃ out, shrSlice m a.limbs (ival k).toNat = .ok out ∧
      val out = val a.limbs / 2 ^ (ival k).toNat ∧ Norm out := by
    by_cases hs : ival k < w
    · exact shrSlice_small m a.limbs _ (by omega) ha.norm.1
    · rcases h with h | ⟨rfl, h1, h2⟩
      · omega
      · apply shrSlice_release hw.pos a.limbs _ ha.norm.1
        have hk2 : (ival k).toNat < 2 ^ w := by
          have : ((2 ^ w : Nat) : Int) = 2 ^ w := by push_cast; rfl
          omega
        have h3 : (ival k).toNat / w ≤ (ival k).toNat / 16 := Nat.div_le_div_left hw.ge (by norm_num)
        have h4 : 2 ^ w = 2 * 2 ^ (w - 1) := by
          have := hw.ge; rw [← Nat.pow_succ']; congr 1; omega
        have h5 : 2 ^ 15 ≤ 2 ^ (w - 1) := Nat.pow_le_pow_right (by norm_num) (by have := hw.ge; omega)
        omega
  obtain ⟨out, g1, g2, g3⟩ := key
  rw [g1]
  obtain ⟨c, c1, c2, c3, c4⟩ := finish_spec (.ok (out, a.isNegative)) out a.isNegative rfl g3.1
  refine ⟨c, c1, c2, ?_⟩
  rw [c4, g2]
  rfl

end WInt

end Verif
