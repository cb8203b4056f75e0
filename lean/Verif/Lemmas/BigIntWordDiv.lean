import Verif.Lemmas.BigIntWord
import Verif.Lemmas.DivExact

/-!
# Long division with `usize` of any width
-/

namespace Verif

namespace WInt

variable {w : Nat} [hw : PtrWidth w]

omit hw in
private theorem forDownM_same {σ : Type _} (I : σ → Prop) (f g : Nat → σ → Res σ) (n : Nat) (s : σ)
    (h0 : I s) (h : ∀ i s, i < n → I s → f i s = g i s ∧ ∃ s', g i s = .ok s' ∧ I s') :
    forDownM n f s = forDownM n g s := by
  induction n generalizing s with
  | zero => rfl
  | succ n ih =>
    obtain ⟨h1, s', h2, h3⟩ := h n s (Nat.lt_succ_self n) h0
    rw [forDownM, forDownM, h1, h2]
    exact ih s' h3 fun i s hi hs => h i s (Nat.lt_succ_of_lt hi) hs

/-- Long division is the same as with 64-bit indices as long as the bits can be counted. -/
theorem divLong_eq (m : Mode) (num div : List (BitVec w)) (hlen : div.length ≤ num.length)
    (hpos : 0 < num.length) (h2 : w * num.length < 2 ^ w) :
    divLong m num div = BitwiseDiv.divLong m num div := by
  have h0 := hw.pos
  have h1 : 2 ≤ w * num.length := le_trans (by have := hw.ge; omega)
    (Nat.le_mul_of_pos_right w hpos)
  unfold divLong BitwiseDiv.divLong
  have hmax : max num.length div.length = num.length := by omega
  simp only [max_bitLen, hmax]
  refine forDownM_same (fun st => st.1.length = num.length ∧ st.2.length = num.length) _ _ _ _
    (by simp) ?_
  rintro i ⟨q, r⟩ hi ⟨k1, k2⟩
  simp only at k1 k2 ⊢
  rw [shlWrapping_eq m r 1 (by rw [k2]; exact h1) (by rw [k2]; exact h2)]
  refine ⟨rfl, ?_⟩
  obtain ⟨r1, r2, a1, a2, a3, a4, a5, a6⟩ := rem_step_mod m h0 div r ((val num).testBit i)
    (by omega) (by rw [k2]; exact h1) (by rw [k2]; exact lt_of_lt_of_le h2 pow_le_64)
  rw [a1, getBit_eq h0, if_pos (by rw [bitLen_eq]; exact hi)]
  simp only [Res.bind, a2]
  cases isGe (elementCmp r2 div) with
  | true =>
    simp only [if_true]
    obtain ⟨q', b1, b2, b3⟩ := setBit_spec h0 q i true (by rw [bitLen_eq, k1]; exact hi)
    rw [b1]
    exact ⟨_, rfl, by simp only; omega, by simp only; omega⟩
  | false =>
    simp only [Bool.false_eq_true, if_false]
    exact ⟨_, rfl, k1, a3.trans k2⟩

/-- With a longer divisor the first bit asked for is outside the numerator. -/
theorem divLong_longer (m : Mode) (num div : List (BitVec w)) (hlen : num.length < div.length)
    (h2 : w * div.length < 2 ^ w) : divLong m num div = .panic := by
  have h0 := hw.pos
  have h1 : 2 ≤ w * div.length := le_trans (by have := hw.ge; omega)
    (Nat.le_mul_of_pos_right w (by omega))
  unfold divLong
  have hmax : max num.length div.length = div.length := by omega
  simp only [max_bitLen, hmax]
  obtain ⟨n, hn⟩ : ∃ n, w * div.length = n + 1 := ⟨w * div.length - 1, by omega⟩
  have hlen' : w * num.length + w ≤ w * div.length := by
    rw [← Nat.mul_succ]; exact Nat.mul_le_mul_left w hlen
  rw [hn, forDownM]
  obtain ⟨r1, r2, a1, -⟩ := rem_step_mod m h0 (List.replicate div.length (0 : BitVec w))
    (List.replicate div.length (0 : BitVec w)) false (by simp) (by simpa using h1)
    (by simpa using lt_of_lt_of_le h2 pow_le_64)
  rw [shlWrapping_eq m _ 1 (by simpa using h1) (by simpa using h2), a1]
  simp only [Res.bind]
  rw [getBit_eq h0, if_neg (by rw [bitLen_eq]; omega)]

end WInt

end Verif
