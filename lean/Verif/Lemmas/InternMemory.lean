import Verif.Lemmas.BigIntWorld
import Mathlib.Algebra.BigOperators.Group.Finset.Basic
import Mathlib.Algebra.BigOperators.Group.Finset.Piecewise
import Mathlib.Algebra.Order.BigOperators.Group.Finset
import Mathlib.Data.Fintype.Card

/-!
# How the store of the interner grows
-/

namespace Verif

open Intern BigWord

variable {T : Type} [DecidableEq T]

/-- A call leaves the size of the store alone, or finds every slot in use and adds a chunk. -/
theorem call_length {m : Mode} {c c' : Client T} (h : ClientInv c) (hc : Call m c c') :
    c'.store.length = c.store.length ∨
    (c'.store.length = c.store.length + 1 ∧ ∀ j < 32 * c.store.length + 1, 1 ≤ c'.refs j) := by
  cases hc with
  | add v st' id hbound hadd =>
    obtain ⟨st2, id2, h1, _, h3⟩ := add_spec h.wf m v (h.bound hbound)
    rw [hadd, Res.ok.injEq, Prod.mk.injEq] at h1
    obtain ⟨rfl, rfl⟩ := h1
    rcases h3 with ⟨_, _, _, g, _⟩ | ⟨g1, g2, g3, _⟩
    · exact .inl g
    · refine .inr ⟨g3, fun j hj => ?_⟩
      change 1 ≤ Function.update c.refs id (c.refs id + 1) j
      rw [Function.update_apply]
      split
      · omega
      · obtain ⟨s', hs'⟩ := (at_isSome h.wf j).mpr (by omega)
        have := (g2 j s' hs').2
        rw [h.count j s' hs'] at this
        omega
  | incr i st' hi hbound hincr =>
    unfold incr at hincr
    obtain ⟨s, v, hs, hv⟩ := h.given i hi
    rw [slot_eq, hs] at hincr
    simp only [Res.ofOption, Res.bind, incrInner] at hincr
    rw [if_neg (by rw [h.count i s hs]; unfold usizeSize; omega)] at hincr
    simp only [Res.ok.injEq] at hincr
    exact .inl (by simp only; rw [← hincr, (wf_setSlot h.wf _ _).2])
  | decr i st' hown hdecr =>
    unfold decr at hdecr
    obtain ⟨s, v, hs, hv⟩ := h.given i (h.owned i hown)
    rw [slot_eq, hs] at hdecr
    simp only [Res.ofOption, Res.bind, Res.ok.injEq] at hdecr
    exact .inl (by simp only; rw [← hdecr, (wf_setSlot h.wf _ _).2])

theorem sum_refersTo_le (n : Nat) (o : Option Nat) :
    ∑ i ∈ Finset.range n, (refersTo i o).toNat ≤ o.isSome.toNat := by
  cases o with
  | none => simp [refersTo]
  | some w =>
    by_cases hi : BigWord.inline (tag w) = true
    · simp [refersTo_inline hi]
    · have hi : BigWord.inline (tag w) = false := by simpa using hi
      simp only [refersTo_interned hi, Option.isSome_some, Bool.toNat_true]
      have : ∀ i, (decide (offset w = i)).toNat = if offset w = i then 1 else 0 := by
        intro i; by_cases h : offset w = i <;> simp [h]
      simp only [this]
      rw [Finset.sum_ite_eq]
      split <;> omega

/-- Each live word refers to at most one slot. -/
theorem sum_refsOf_le (n : Nat) (live : List (Option Nat)) :
    ∑ i ∈ Finset.range n, refsOf live i ≤ live.countP Option.isSome := by
  induction live with
  | nil => simp [refsOf]
  | cons o live ih =>
    have e : ∀ i, refsOf (o :: live) i = refsOf live i + (refersTo i o).toNat := by
      intro i
      unfold refsOf
      rw [List.countP_cons]
      cases refersTo i o <;> simp
    simp only [e]
    rw [Finset.sum_add_distrib, List.countP_cons]
    have := sum_refersTo_le n o
    cases h : o.isSome with
    | false => rw [h] at this; simp only [Bool.toNat_false] at this; simp; omega
    | true => rw [h] at this; simp only [Bool.toNat_true] at this; simp; omega

theorem slots_le_words {n : Nat} {live : List (Option Nat)} (h : ∀ i < n, 1 ≤ refsOf live i) :
    n ≤ live.countP Option.isSome := by
  refine le_trans ?_ (sum_refsOf_le n live)
  calc n = ∑ i ∈ Finset.range n, 1 := by simp
    _ ≤ _ := Finset.sum_le_sum fun i hi => h i (Finset.mem_range.mp hi)

theorem make_length {m : Mode} {x : World} (hx : WInv x) {s : List (BitVec 64)} {neg : Bool}
    {st : IntStore} {w : Nat} (hb : x.live.countP Option.isSome < 2 ^ 64 - 1)
    (h : BigWord.newSlice m x.store s neg = .ok (st, w)) :
    st.length = x.store.length ∨
    (st.length = x.store.length + 1 ∧
      32 * x.store.length + 1 ≤ (x.live ++ [some w]).countP Option.isSome) := by
  obtain ⟨b, b1, b2, b3, b4, hcase⟩ := newSlice_cases h
  obtain ⟨ids, hc⟩ := hx.client
  rcases hcase with ⟨c1, rfl, c3⟩ | ⟨c1, v, c2, c3⟩
  · exact .inl rfl
  · have hcall := Call.add ⟨x.store, refsOf x.live, ids⟩ v st (offset w) (bound_of hb) c3
    rcases call_length hc hcall with h | ⟨h, h'⟩
    · exact .inl h
    · refine .inr ⟨h, slots_le_words fun i hi => ?_⟩
      rw [refsOf_append_interned _ c1]
      exact h' i hi

/-- The same for programs. -/
theorem step_length {m : Mode} {x y : World} (hx : WInv x) (h : WStep m x y) :
    y.store.length = x.store.length ∨
    (y.store.length = x.store.length + 1 ∧
      32 * x.store.length + 1 ≤ y.live.countP Option.isSome) := by
  cases h with
  | make s neg st w hb h => exact make_length hx hb h
  | op f j k a b st w hb hj hk h =>
    unfold BigWord.binop at h
    obtain ⟨_, x1, e1, _⟩ := hx.words a (List.mem_of_getElem? hj)
    obtain ⟨_, y1, e2, _⟩ := hx.words b (List.mem_of_getElem? hk)
    rw [e1, e2] at h
    simp only [Res.bind] at h
    cases hf : f x1 y1 with
    | ok r => rw [hf] at h; exact make_length hx hb h
    | panic => rw [hf] at h; cases h
    | hang => rw [hf] at h; cases h
  | clone k a st w hb hk h =>
    unfold BigWord.clone at h
    by_cases hi : BigWord.inline (tag a) = true
    · rw [if_pos hi, Res.ok.injEq, Prod.mk.injEq] at h
      exact .inl (by rw [← h.1])
    · rw [if_neg hi] at h
      have hi : BigWord.inline (tag a) = false := by simpa using hi
      obtain ⟨ids, hc⟩ := hx.client
      cases hinc : Intern.incr m x.store (offset a) with
      | ok st2 =>
        rw [hinc] at h
        simp only [Res.bind, Res.ok.injEq, Prod.mk.injEq] at h
        obtain ⟨rfl, rfl⟩ := h
        have hcall := Call.incr ⟨x.store, refsOf x.live, ids⟩ (offset a) st2
          (hc.owned _ (refsOf_pos hk hi)) (bound_of hb _) hinc
        rcases call_length hc hcall with h | ⟨h, h'⟩
        · exact .inl h
        · refine .inr ⟨h, slots_le_words fun i hi' => ?_⟩
          rw [refsOf_append_interned _ hi]
          exact h' i hi'
      | panic => rw [hinc] at h; cases h
      | hang => rw [hinc] at h; cases h
  | drop k a st hk h =>
    unfold BigWord.drop at h
    by_cases hi : BigWord.inline (tag a) = true
    · rw [if_pos hi, Res.ok.injEq] at h
      exact .inl (by rw [← h])
    · rw [if_neg hi] at h
      have hi : BigWord.inline (tag a) = false := by simpa using hi
      obtain ⟨ids, hc⟩ := hx.client
      have hcall := Call.decr (m := m) ⟨x.store, refsOf x.live, ids⟩ (offset a) st
        (refsOf_pos hk hi) h
      rcases call_length hc hcall with h | ⟨h, h'⟩
      · exact .inl h
      · refine .inr ⟨h, slots_le_words fun i hi' => ?_⟩
        rw [refsOf_drop_interned _ hi hk]
        exact h' i hi'
  | neg k a hk => exact .inl rfl

end Verif
