import Verif.Model.UIntPtr
import Verif.Lemmas.BigIntWord
import Verif.Lemmas.DivExact
import Verif.Lemmas.UInt

/-!
# Helper lemmas: the index arithmetic of `U<N>` and `I<N>` with `usize` of any width
-/

namespace Verif

namespace Ptr

open BitSlice WInt

variable {w p : Nat} [hp : PtrWidth p]

private theorem forDownM_same {σ : Type _} (I : σ → Prop) (f g : Nat → σ → Res σ) (n : Nat) (s : σ)
    (h0 : I s) (h : ∀ i s, i < n → I s → f i s = g i s ∧ ∃ s', g i s = .ok s' ∧ I s') :
    forDownM n f s = forDownM n g s := by
  induction n generalizing s with
  | zero => rfl
  | succ n ih =>
    obtain ⟨h1, s', h2, h3⟩ := h n s (Nat.lt_succ_self n) h0
    rw [forDownM, forDownM, h1, h2]
    exact ih s' h3 fun i s hi hs => h i s (Nat.lt_succ_of_lt hi) hs

theorem shlWrapping_eq (m : Mode) (s : List (BitVec w)) (k : Nat) (h1 : 2 ≤ w * s.length)
    (h2 : w * s.length < 2 ^ p) : shlWrapping p m s k = ElementShl.shlWrapping m s k := by
  unfold shlWrapping ElementShl.shlWrapping
  rw [bitLen_eq, WInt.maskShift_eq m _ k h1 h2,
    Verif.maskShift_eq m _ k h1 (lt_of_lt_of_le h2 pow_le_64)]

private theorem innerLoop_length (a e n : Nat) (s : List (BitVec w)) (he : e < w) :
    (forUp n (ElementShr.innerBody (a + 1) e) s).length = s.length := by
  induction n with
  | zero => rfl
  | succ n ih =>
    rw [forUp, ElementShr.innerBody_eq _ _ _ _ he, ElementShr.pureBody_length, ih]

omit hp in
private theorem inner_end (m : Mode) (P Q L a : Nat) (t : List (BitVec w)) (ha : a ≤ L) (hs : L + 1 < P) (hq : P ≤ Q)
    (up uq : Res Nat)
    (hp : up = if a + 1 ≤ L then .ok (L - (a + 1)) else match (generalizing := false) m with
      | .debug => .panic
      | .release => .ok (L + P - (a + 1)))
    (hq' : uq = if a + 1 ≤ L then .ok (L - (a + 1)) else match (generalizing := false) m with
      | .debug => .panic
      | .release => .ok (L + Q - (a + 1))) :
    (up.bind fun e => if (e + 1) % P ≤ L then Res.ok (t.take ((e + 1) % P) ++ List.replicate (L - (e + 1) % P) 0)
        else .panic)
      = uq.bind fun e => if (e + 1) % Q ≤ L then .ok (t.take ((e + 1) % Q) ++ List.replicate (L - (e + 1) % Q) 0)
        else .panic := by
  have key : ∀ x y : Nat, (x + 1) % P = (y + 1) % Q → ((Res.ok x).bind fun e =>
        if (e + 1) % P ≤ L then Res.ok (t.take ((e + 1) % P) ++ List.replicate (L - (e + 1) % P) 0) else .panic)
      = (Res.ok y).bind fun e => if (e + 1) % Q ≤ L then
          .ok (t.take ((e + 1) % Q) ++ List.replicate (L - (e + 1) % Q) 0) else .panic := by
    intro x y h
    rw [Res.bind, Res.bind, h]
  by_cases h : a + 1 ≤ L
  · rw [if_pos h] at hp hq'
    subst hp hq'
    refine key _ _ ?_
    rw [Nat.mod_eq_of_lt (by omega : L - (a + 1) + 1 < P), Nat.mod_eq_of_lt (by omega : L - (a + 1) + 1 < Q)]
  · rw [if_neg h] at hp hq'
    cases m with
    | debug =>
      simp only at hp hq'
      subst hp hq'
      rw [Res.bind, Res.bind]
    | release =>
      simp only at hp hq'
      subst hp hq'
      refine key _ _ ?_
      rw [show L + P - (a + 1) + 1 = P by omega, show L + Q - (a + 1) + 1 = Q by omega, Nat.mod_self,
        Nat.mod_self]

theorem innerShr_eq (m : Mode) (hw : 0 < w) (s : List (BitVec w)) (k : Nat)
    (hk : k ≤ w * s.length) (hs : s.length + 1 < 2 ^ p) :
    innerShr p m s k = ElementShr.inner m s k := by
  have ha : k / w ≤ s.length := by
    rw [← Nat.mul_div_cancel_left s.length hw]; exact Nat.div_le_div_right hk
  have hl := innerLoop_length (k / w) (k % w) s.length s (Nat.mod_lt _ hw)
  unfold innerShr ElementShr.inner
  simp only
  rw [hl]
  exact inner_end m (2 ^ p) usizeSize _ _ _ ha hs pow_le_64 _ _ rfl rfl

theorem shrChecked_eq (m : Mode) (hw : 0 < w) (s : List (BitVec w)) (k : Nat)
    (hs : s.length + 1 < 2 ^ p) : shrChecked p m s k = ElementShr.shrChecked m s k := by
  unfold shrChecked ElementShr.shrChecked
  by_cases h : k > bitLen s
  · rw [if_pos h, if_pos h]
  · rw [if_neg h, if_neg h, innerShr_eq m hw s k (by rw [bitLen_eq] at h; omega) hs]

theorem shrWrapping_eq (m : Mode) (hw : 0 < w) (s : List (BitVec w)) (k : Nat) (h1 : 2 ≤ w * s.length)
    (h2 : w * s.length < 2 ^ p) (hs : s.length + 1 < 2 ^ p) :
    shrWrapping p m s k = ElementShr.shrWrapping m s k := by
  unfold shrWrapping ElementShr.shrWrapping
  rw [bitLen_eq, WInt.maskShift_eq m _ k h1 h2,
    Verif.maskShift_eq m _ k h1 (lt_of_lt_of_le h2 pow_le_64)]
  simp only [Res.bind]
  refine innerShr_eq m hw s _ (le_of_lt (lt_of_lt_of_le (Nat.mod_lt _ (Nat.two_pow_pos _)) ?_)) hs
  exact Nat.log2_self_le (by omega)

theorem divLongOverflowing_eq (m : Mode) (hw : 0 < w) (num div : List (BitVec w))
    (hlen : div.length = num.length) (h1 : 2 ≤ w * num.length) (h2 : w * num.length < 2 ^ p) :
    divLongOverflowing p m num div (List.replicate num.length 0)
      = BitwiseDiv.divLongOverflowing m num div (List.replicate num.length 0) := by
  unfold divLongOverflowing BitwiseDiv.divLongOverflowing
  have hmax : max num.length div.length = num.length := by omega
  simp only [max_bitLen, hmax]
  refine forDownM_same (fun st => st.1.length = num.length ∧ st.2.length = num.length) _ _ _ _
    (by simp) ?_
  rintro i ⟨q, r⟩ hi ⟨k1, k2⟩
  simp only at k1 k2 ⊢
  rw [shlWrapping_eq m r 1 (by rw [k2]; exact h1) (by rw [k2]; exact h2)]
  refine ⟨rfl, ?_⟩
  obtain ⟨r1, r2, a1, a2, a3, a4, a5, a6⟩ := rem_step_mod m hw div r ((val q).testBit i)
    (by omega) (by rw [k2]; exact h1) (by rw [k2]; exact lt_of_lt_of_le h2 pow_le_64)
  rw [a1, getBit_eq hw, if_pos (by rw [bitLen_eq, k1]; exact hi)]
  simp only [Res.bind, a2]
  cases isGe (elementCmp r2 div) with
  | true =>
    simp only [if_true]
    obtain ⟨q', b1, b2, b3⟩ := setBit_spec hw q i true (by rw [bitLen_eq, k1]; exact hi)
    rw [b1]
    exact ⟨_, rfl, by simp only; omega, by simp only; omega⟩
  | false =>
    simp only [Bool.false_eq_true, if_false]
    obtain ⟨q', b1, b2, b3⟩ := setBit_spec hw q i false (by rw [bitLen_eq, k1]; exact hi)
    rw [b1]
    exact ⟨_, rfl, by simp only; omega, by simp only; omega⟩

theorem remLongOverflowing_eq (m : Mode) (hw : 0 < w) (num div : List (BitVec w))
    (hlen : div.length = num.length) (h1 : 2 ≤ w * num.length) (h2 : w * num.length < 2 ^ p) :
    remLongOverflowing p m num div (List.replicate num.length 0)
      = BitwiseDiv.remLongOverflowing m num div (List.replicate num.length 0) := by
  unfold remLongOverflowing BitwiseDiv.remLongOverflowing
  have hmax : max num.length div.length = num.length := by omega
  simp only [max_bitLen, hmax]
  congr 1
  refine forDownM_same (fun st => st.length = num.length) _ _ _ _ (by simp) ?_
  intro i r hi k2
  rw [shlWrapping_eq m r 1 (by rw [k2]; exact h1) (by rw [k2]; exact h2)]
  refine ⟨rfl, ?_⟩
  obtain ⟨r1, r2, a1, a2, a3, a4, a5, a6⟩ := rem_step_mod m hw div r ((val num).testBit i)
    (by omega) (by rw [k2]; exact h1) (by rw [k2]; exact lt_of_lt_of_le h2 pow_le_64)
  rw [a1, getBit_eq hw, if_pos (by rw [bitLen_eq]; exact hi)]
  simp only [Res.bind, a2]
  refine ⟨_, rfl, ?_⟩
  split
  · omega
  · omega

end Ptr

end Verif
