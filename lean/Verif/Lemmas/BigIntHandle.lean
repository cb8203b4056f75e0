import Verif.Model.BigIntHandle
import Verif.Lemmas.BigInt
import Verif.Lemmas.Intern
import Verif.Props.Intern
import Mathlib.Tactic.IntervalCases

/-!
# Helper lemmas: `BigInt` words
-/

namespace Verif

namespace BigWord

open BInt Intern

theorem tag_lt (w : Nat) : tag w < 4 := Nat.mod_lt _ (by norm_num)

theorem offset_new (o t : Nat) (ht : t < 4) : offset (o * 4 + t) = o ∧ tag (o * 4 + t) = t := by
  unfold offset tag; omega

theorem word_eq {a b : Nat} (h1 : offset a = offset b) (h2 : tag a = tag b) : a = b := by
  unfold offset tag at *; omega

theorem invertNeg_spec (w : Nat) : offset (invertNeg w) = offset w ∧
    inline (tag (invertNeg w)) = inline (tag w) ∧
    negative (tag (invertNeg w)) = !negative (tag w) := by
  have h1 : offset (invertNeg w) = offset w := by
    unfold offset invertNeg
    have := Nat.xor_div_two_pow (a := w) (b := 1) (n := 2)
    simpa using this
  have h2 : tag (invertNeg w) = tag w ^^^ 1 := by
    unfold tag invertNeg
    have := Nat.xor_mod_two_pow (a := w) (b := 1) (n := 2)
    simpa using this
  refine ⟨h1, ?_, ?_⟩ <;> rw [h2] <;>
    (have := tag_lt w; generalize tag w = t at *; interval_cases t <;> decide)

theorem tag_eq {a b : Nat} (h1 : inline (tag a) = inline (tag b))
    (h2 : negative (tag a) = negative (tag b)) : tag a = tag b := by
  have ha := tag_lt a
  have hb := tag_lt b
  generalize tag a = s at *
  generalize tag b = t at *
  interval_cases s <;> interval_cases t <;> revert h1 h2 <;> decide

theorem view_inline (st : IntStore) {w : Nat} (h : inline (tag w) = true) :
    view st w = .ok ⟨negative (tag w), .inline (BitVec.ofNat 64 (offset w))⟩ := by
  unfold view mag
  rw [if_pos h]
  rfl

theorem get_eq {st : IntStore} {i : Nat} {s : Slot (List (BitVec 64))} (h : at_ st i = some s)
    (hr : 1 ≤ s.refs) (v : List (BitVec 64)) (hv : s.val = some v) : Intern.get st i = .ok v := by
  unfold Intern.get Intern.tryGet
  rw [slot_eq, h]
  simp only [Res.ofOption, Res.bind]
  rw [if_neg (by omega), hv]

theorem view_interned {st : IntStore} {w : Nat} (h : inline (tag w) = false)
    {s : Slot (List (BitVec 64))} (hs : at_ st (offset w) = some s)
    (hr : 1 ≤ s.refs) (v : List (BitVec 64)) (hv : s.val = some v) :
    view st w = .ok ⟨negative (tag w), .slice v⟩ := by
  unfold view mag
  rw [if_neg (by simp [h]), get_eq hs hr v hv]
  rfl

/-- `word` refers to slot `i`. -/
def refersTo (i : Nat) : Option Nat → Bool
  | some w => !inline (tag w) && offset w == i
  | none => false

theorem refersTo_inline {w : Nat} (h : inline (tag w) = true) (i : Nat) :
    refersTo i (some w) = false := by simp [refersTo, h]

theorem refersTo_interned {w : Nat} (h : inline (tag w) = false) (i : Nat) :
    refersTo i (some w) = decide (offset w = i) := by
  simp only [refersTo, h, Bool.not_false, Bool.true_and]
  rfl

theorem refersTo_invertNeg (w i : Nat) : refersTo i (some (invertNeg w)) = refersTo i (some w) := by
  obtain ⟨h1, h2, _⟩ := invertNeg_spec w
  simp only [refersTo, h1, h2]

/-- Number of live words that refer to slot `i`. -/
def refsOf (live : List (Option Nat)) (i : Nat) : Nat := live.countP (refersTo i)

theorem countP_set {α : Type} (p : α → Bool) (l : List α) (k : Nat) (x y : α)
    (h : l[k]? = some x) :
    (l.set k y).countP p + (p x).toNat = l.countP p + (p y).toNat := by
  induction l generalizing k with
  | nil => simp at h
  | cons a l ih =>
    cases k with
    | zero =>
      simp only [List.getElem?_cons_zero, Option.some.injEq] at h
      subst h
      rw [List.set_cons_zero, List.countP_cons, List.countP_cons]
      cases p a <;> cases p y <;> simp
    | succ k =>
      rw [List.set_cons_succ, List.countP_cons, List.countP_cons]
      have := ih k (by simpa using h)
      omega

theorem refsOf_append (live : List (Option Nat)) (w i : Nat) :
    refsOf (live ++ [some w]) i = refsOf live i + (refersTo i (some w)).toNat := by
  unfold refsOf
  rw [List.countP_append]
  cases h : refersTo i (some w) <;> simp [h]

theorem refsOf_pos {live : List (Option Nat)} {k w : Nat} (h : live[k]? = some (some w))
    (hi : inline (tag w) = false) : 1 ≤ refsOf live (offset w) := by
  unfold refsOf
  rw [Nat.one_le_iff_ne_zero, ← Nat.pos_iff_ne_zero, List.countP_pos_iff]
  exact ⟨some w, List.mem_of_getElem? h, by simp [refersTo_interned hi]⟩

theorem refsOf_le (live : List (Option Nat)) (i : Nat) :
    refsOf live i ≤ live.countP Option.isSome := by
  apply List.countP_mono_left
  intro o _ h
  cases o with
  | none => simp [refersTo] at h
  | some w => rfl

/-- What `new_slice` does to a store, apart from failing on slots beyond `2^62`. -/
theorem newSlice_cases {m : Mode} {st st' : IntStore} {s : List (BitVec 64)} {neg : Bool} {w : Nat}
    (h : newSlice m st s neg = .ok (st', w)) :
    ∃ b, BInt.newSlice s neg = .ok b ∧ Rep b ∧ w < 2 ^ 64 ∧ negative (tag w) = b.neg ∧
      ((inline (tag w) = true ∧ st' = st ∧ b.mag = .inline (BitVec.ofNat 64 (offset w))) ∨
       (inline (tag w) = false ∧ ∃ v, b.mag = .slice v ∧ Intern.add m st v = .ok (st', offset w))) := by
  have hs : s ≠ [] := by
    rintro rfl
    simp [newSlice, shrink_nil, Res.bind] at h
  obtain ⟨b, b1, b2, _, _⟩ := newSlice_spec s hs neg
  refine ⟨b, b1, b2.1, ?_⟩
  obtain ⟨t, t1, _, _, _⟩ := shrink_ok s hs
  unfold newSlice at h
  unfold BInt.newSlice at b1
  rw [t1] at h b1
  simp only [Res.bind] at h b1
  by_cases hc : t.length = 1 ∧ (t.getD 0 0).toNat ≤ inlineMax
  · rw [if_pos hc] at h b1
    generalize t.getD 0 0 = x at *
    unfold newInline new at h
    unfold BInt.newInline at b1
    rw [if_pos hc.2] at h b1
    simp only [Res.ok.injEq, Prod.mk.injEq] at h b1
    obtain ⟨rfl, rfl⟩ := h
    subst b1
    have hx : x.toNat ≤ 2 ^ 62 - 1 := by have := hc.2; rw [inlineMax_eq] at this; exact this
    have ht : ∀ p : Prop, ∀ _ : Decidable p, (if p then tagInlineNeg else tagInline) < 4 := by
      intro p _; split <;> decide
    obtain ⟨o1, o2⟩ := offset_new x.toNat (if x ≠ 0 ∧ neg = true then tagInlineNeg else tagInline)
      (ht _ _)
    refine ⟨?_, ?_, Or.inl ⟨?_, rfl, ?_⟩⟩
    · have := ht (x ≠ 0 ∧ neg = true) inferInstance
      omega
    · rw [o2]
      by_cases hx0 : x = 0
      · subst hx0; cases neg <;> decide
      · cases neg
        · simp; decide
        · simp only [ne_eq, hx0, not_false_eq_true, and_self, if_true, decide_true, Bool.and_self]
          decide
    · rw [o2]
      split <;> decide
    · rw [o1]; simp
  · rw [if_neg hc] at h b1
    simp only [Res.ok.injEq] at b1
    subst b1
    unfold newIntern at h
    cases ha : Intern.add m st t with
    | ok x =>
      rw [ha] at h
      simp only [Res.bind] at h
      unfold new at h
      by_cases hle : x.2 ≤ inlineMax
      · rw [if_pos hle] at h
        simp only [Res.ok.injEq, Prod.mk.injEq] at h
        obtain ⟨rfl, rfl⟩ := h
        have ht : (if neg = true then tagNeg else tagNone) < 4 := by split <;> decide
        obtain ⟨o1, o2⟩ := offset_new x.2 _ ht
        rw [inlineMax_eq] at hle
        refine ⟨by omega, ?_, Or.inr ⟨?_, t, rfl, ?_⟩⟩
        · rw [o2]; cases neg <;> rfl
        · rw [o2]; cases neg <;> rfl
        · rw [o1]; exact ha
      · rw [if_neg hle] at h; cases h
    | panic => rw [ha] at h; cases h
    | hang => rw [ha] at h; cases h

end BigWord

end Verif
