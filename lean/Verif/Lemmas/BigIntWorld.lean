import Verif.Lemmas.BigIntHandle

/-!
# Programs over `BigInt` words, and their invariant

A program state is the global store and the list of all `BigInt`s ever created: `some w` is alive
with word `w`, `none` was dropped. Steps are the operations on `BigInt`s; arithmetic is any function
from the operands to limbs and a sign, stored with `new_slice`.
-/

namespace Verif

open BInt Intern BigWord

/-- All `BigInt`s of a program and the global store. -/
structure World where
  store : IntStore
  live : List (Option Nat)

/-- One operation; fewer than `2^64 - 1` `BigInt`s are alive at a time. -/
inductive WStep (m : Mode) : World → World → Prop
  /-- Creation from limbs: `From`, parsing, and all other constructors. -/
  | make (x : World) (s : List (BitVec 64)) (neg : Bool) (st : IntStore) (w : Nat)
      (hb : x.live.countP Option.isSome < 2 ^ 64 - 1)
      (h : BigWord.newSlice m x.store s neg = .ok (st, w)) :
      WStep m x ⟨st, x.live ++ [some w]⟩
  /-- A binary operator on two live values. -/
  | op (x : World) (f : BInt → BInt → Res (List (BitVec 64) × Bool)) (j k a b : Nat)
      (st : IntStore) (w : Nat) (hb : x.live.countP Option.isSome < 2 ^ 64 - 1)
      (hj : x.live[j]? = some (some a)) (hk : x.live[k]? = some (some b))
      (h : BigWord.binop f m x.store a b = .ok (st, w)) :
      WStep m x ⟨st, x.live ++ [some w]⟩
  | clone (x : World) (k a : Nat) (st : IntStore) (w : Nat)
      (hb : x.live.countP Option.isSome < 2 ^ 64 - 1)
      (hk : x.live[k]? = some (some a)) (h : BigWord.clone m x.store a = .ok (st, w)) :
      WStep m x ⟨st, x.live ++ [some w]⟩
  | drop (x : World) (k a : Nat) (st : IntStore)
      (hk : x.live[k]? = some (some a)) (h : BigWord.drop x.store a = .ok st) :
      WStep m x ⟨st, x.live.set k none⟩
  /-- `-x`, in place. -/
  | neg (x : World) (k a : Nat) (hk : x.live[k]? = some (some a)) :
      WStep m x ⟨x.store, x.live.set k (some (BigWord.invertNeg a))⟩

/-- The states reachable from program start. -/
inductive WReachable (m : Mode) : World → Prop
  | start : WReachable m ⟨Intern.new, []⟩
  | step {x y : World} : WReachable m x → WStep m x y → WReachable m y

/-- Sequences of operations during which value number `k` is not itself dropped or negated. -/
inductive WKeeps (m : Mode) (k a : Nat) : World → World → Prop
  | refl (x : World) (h : x.live[k]? = some (some a)) : WKeeps m k a x x
  | step {x y z : World} : WKeeps m k a x y → WStep m y z → z.live[k]? = some (some a) →
      WKeeps m k a x z

/-- The invariant behind C55: the interner counts exactly the live words. -/
structure WInv (x : World) : Prop where
  client : ∃ ids, ClientInv ⟨x.store, refsOf x.live, ids⟩
  words : ∀ a, some a ∈ x.live → a < 2 ^ 64 ∧ ∃ b, view x.store a = .ok b ∧ Rep b

theorem refs_update {live live' : List (Option Nat)} (i n : Nat)
    (h : ∀ j, refsOf live' j = if j = i then n else refsOf live j) :
    refsOf live' = Function.update (refsOf live) i n := by
  funext j
  rw [h, Function.update_apply]

theorem refsOf_append_interned (live : List (Option Nat)) {w : Nat} (h : BigWord.inline (tag w) = false) :
    refsOf (live ++ [some w])
      = Function.update (refsOf live) (offset w) (refsOf live (offset w) + 1) := by
  apply refs_update
  intro j
  rw [refsOf_append, refersTo_interned h]
  by_cases hj : j = offset w
  · simp [hj]
  · rw [if_neg hj]; simp [Ne.symm hj]

theorem refsOf_append_inline (live : List (Option Nat)) {w : Nat} (h : BigWord.inline (tag w) = true) :
    refsOf (live ++ [some w]) = refsOf live := by
  funext j
  rw [refsOf_append, refersTo_inline h]; rfl

theorem refsOf_drop_interned (live : List (Option Nat)) {k w : Nat} (h : BigWord.inline (tag w) = false)
    (hk : live[k]? = some (some w)) :
    refsOf (live.set k none)
      = Function.update (refsOf live) (offset w) (refsOf live (offset w) - 1) := by
  apply refs_update
  intro j
  have := countP_set (refersTo j) live k (some w) none hk
  rw [refersTo_interned h] at this
  unfold refsOf
  by_cases hj : j = offset w
  · subst hj
    simp only [refersTo, decide_true, Bool.toNat_true, Bool.toNat_false] at this
    simp only [if_true]
    omega
  · rw [if_neg hj]
    simp only [Ne.symm hj, refersTo, decide_false, Bool.toNat_false] at this
    omega

theorem refsOf_drop_inline (live : List (Option Nat)) {k w : Nat} (h : BigWord.inline (tag w) = true)
    (hk : live[k]? = some (some w)) : refsOf (live.set k none) = refsOf live := by
  funext j
  have := countP_set (refersTo j) live k (some w) none hk
  rw [refersTo_inline h] at this
  simp only [refersTo] at this
  unfold refsOf
  omega

theorem refsOf_neg (live : List (Option Nat)) {k w : Nat} (hk : live[k]? = some (some w)) :
    refsOf (live.set k (some (invertNeg w))) = refsOf live := by
  funext j
  have := countP_set (refersTo j) live k (some w) (some (invertNeg w)) hk
  rw [refersTo_invertNeg] at this
  unfold refsOf
  omega

/-- A call that keeps the values of referenced slots keeps the views of live words. -/
theorem view_kept {x : World} {st : IntStore} (hw : WInv x)
    (hst : ∀ i s, 1 ≤ refsOf x.live i → at_ x.store i = some s →
      ∃ s', at_ st i = some s' ∧ s'.val = s.val)
    {k a : Nat} (hk : x.live[k]? = some (some a))
    (hr : BigWord.inline (tag a) = false → ∀ s, at_ st (offset a) = some s → 1 ≤ s.refs) :
    view st a = view x.store a := by
  by_cases hi : BigWord.inline (tag a) = true
  · rw [view_inline _ hi, view_inline _ hi]
  · have hi : BigWord.inline (tag a) = false := by simpa using hi
    obtain ⟨ids, hc⟩ := hw.client
    have hp := refsOf_pos hk hi
    obtain ⟨s, v, h1, h2⟩ := hc.given _ (hc.owned _ hp)
    obtain ⟨s', h3, h4⟩ := hst _ s hp h1
    rw [view_interned hi h3 (hr hi s' h3) v (by rw [h4, h2]),
      view_interned hi h1 (by rw [hc.count _ s h1]; exact hp) v h2]

theorem bound_of {x : World} (hb : x.live.countP Option.isSome < 2 ^ 64 - 1) (i : Nat) :
    refsOf x.live i < 2 ^ 64 - 1 := lt_of_le_of_lt (refsOf_le _ _) hb

/-- Creating a word by `new_slice` keeps everything. -/
theorem make_inv {m : Mode} {x : World} (hx : WInv x) {s : List (BitVec 64)} {neg : Bool}
    {st : IntStore} {w : Nat} (hb : x.live.countP Option.isSome < 2 ^ 64 - 1)
    (h : BigWord.newSlice m x.store s neg = .ok (st, w)) :
    WInv ⟨st, x.live ++ [some w]⟩ ∧
    (∀ k a : Nat, x.live[k]? = some (some a) → view st a = view x.store a) ∧
    ∃ b, BInt.newSlice s neg = .ok b ∧ view st w = .ok b := by
  obtain ⟨b, b1, b2, b3, b4, hcase⟩ := newSlice_cases h
  obtain ⟨ids, hc⟩ := hx.client
  have hmem : ∀ a, some a ∈ x.live ++ [some w] → a = w ∨ ∃ k : Nat, x.live[k]? = some (some a) := by
    intro a ha
    rcases List.mem_append.mp ha with ha | ha
    · exact .inr (List.mem_iff_getElem?.mp ha)
    · exact .inl (by simpa using ha)
  rcases hcase with ⟨c1, rfl, c3⟩ | ⟨c1, v, c2, c3⟩
  · have hv : view x.store w = .ok b := by
      rw [view_inline _ c1, b4, ← c3]
    refine ⟨⟨⟨ids, by rw [refsOf_append_inline _ c1]; exact hc⟩, ?_⟩, fun _ _ _ => rfl, b, b1, hv⟩
    intro a ha
    rcases hmem a ha with rfl | ⟨k, hk⟩
    · exact ⟨b3, b, hv, b2⟩
    · exact hx.words a (List.mem_of_getElem? hk)
  · have hcall := Call.add ⟨x.store, refsOf x.live, ids⟩ v st (offset w) (bound_of hb) c3
    obtain ⟨hc', hkeep⟩ := call_inv hc hcall
    rw [← refsOf_append_interned _ c1] at hc'
    have hold : ∀ k a : Nat, x.live[k]? = some (some a) → view st a = view x.store a := by
      intro k a hk
      apply view_kept hx hkeep hk
      intro hi s' hs'
      rw [hc'.count _ _ hs']
      refine refsOf_pos (k := k) ?_ hi
      rw [List.getElem?_append_left (List.getElem?_eq_some_iff.mp hk).1]
      exact hk
    have hv : view st w = .ok b := by
      obtain ⟨st2, id2, g1, _, g3⟩ := add_spec hc.wf m v (hc.bound (bound_of hb))
      rw [c3, Res.ok.injEq, Prod.mk.injEq] at g1
      obtain ⟨rfl, rfl⟩ := g1
      have e : at_ st (offset w) = some ⟨refsOf x.live (offset w) + 1, some v⟩ := by
        have hgiven := hc'.given (offset w) List.mem_cons_self
        obtain ⟨s', v', e1, e2⟩ := hgiven
        have hcnt := hc'.count _ _ e1
        rw [refsOf_append_interned _ c1] at hcnt
        dsimp only at hcnt
        rw [Function.update_self] at hcnt
        have : s'.val = some v := by
          rcases g3 with ⟨s, g1, g2, _, _, g3⟩ | ⟨g1, _, g2, g3⟩
          · rw [g3, if_pos rfl, Option.some.injEq] at e1
            rw [← e1]
          · rw [g3, if_pos rfl, Option.some.injEq] at e1
            rw [← e1]
        rw [e1]
        cases s'
        simp only at hcnt this
        rw [hcnt, this]
      rw [view_interned c1 e (by dsimp only; omega) v rfl, b4, ← c2]
    refine ⟨⟨⟨_, hc'⟩, ?_⟩, hold, b, b1, hv⟩
    intro a ha
    rcases hmem a ha with rfl | ⟨k, hk⟩
    · exact ⟨b3, b, hv, b2⟩
    · obtain ⟨h1, b', h2, h3⟩ := hx.words a (List.mem_of_getElem? hk)
      exact ⟨h1, b', by rw [hold k a hk]; exact h2, h3⟩

theorem clone_inv {m : Mode} {x : World} (hx : WInv x) {k a : Nat} {st : IntStore} {w : Nat}
    (hb : x.live.countP Option.isSome < 2 ^ 64 - 1) (hk : x.live[k]? = some (some a))
    (h : BigWord.clone m x.store a = .ok (st, w)) :
    w = a ∧ WInv ⟨st, x.live ++ [some w]⟩ ∧
    (∀ k a : Nat, x.live[k]? = some (some a) → view st a = view x.store a) := by
  obtain ⟨ids, hc⟩ := hx.client
  have hmem : ∀ c, some c ∈ x.live ++ [some a] → ∃ k : Nat, x.live[k]? = some (some c) := by
    intro c ha
    rcases List.mem_append.mp ha with ha | ha
    · exact List.mem_iff_getElem?.mp ha
    · have : c = a := by simpa using ha
      exact ⟨k, by rw [this]; exact hk⟩
  unfold BigWord.clone at h
  by_cases hi : BigWord.inline (tag a) = true
  · rw [if_pos hi, Res.ok.injEq, Prod.mk.injEq] at h
    obtain ⟨rfl, rfl⟩ := h
    refine ⟨rfl, ⟨⟨ids, by rw [refsOf_append_inline _ hi]; exact hc⟩, ?_⟩, fun _ _ _ => rfl⟩
    intro c hcm
    obtain ⟨k', hk'⟩ := hmem c hcm
    exact hx.words c (List.mem_of_getElem? hk')
  · rw [if_neg hi] at h
    have hi : BigWord.inline (tag a) = false := by simpa using hi
    cases hinc : Intern.incr m x.store (offset a) with
    | ok st2 =>
      rw [hinc] at h
      simp only [Res.bind, Res.ok.injEq, Prod.mk.injEq] at h
      obtain ⟨rfl, rfl⟩ := h
      have hcall := Call.incr ⟨x.store, refsOf x.live, ids⟩ (offset a) st2
        (hc.owned _ (refsOf_pos hk hi)) (bound_of hb _) hinc
      obtain ⟨hc', hkeep⟩ := call_inv hc hcall
      rw [← refsOf_append_interned _ hi] at hc'
      have hold : ∀ k a : Nat, x.live[k]? = some (some a) → view st2 a = view x.store a := by
        intro k' a' hk'
        apply view_kept hx hkeep hk'
        intro hi s' hs'
        rw [hc'.count _ _ hs']
        refine refsOf_pos (k := k') ?_ hi
        rw [List.getElem?_append_left (List.getElem?_eq_some_iff.mp hk').1]
        exact hk'
      refine ⟨rfl, ⟨⟨_, hc'⟩, ?_⟩, hold⟩
      intro c hcm
      obtain ⟨k', hk'⟩ := hmem c hcm
      obtain ⟨h1, b', h2, h3⟩ := hx.words c (List.mem_of_getElem? hk')
      exact ⟨h1, b', by rw [hold k' c hk']; exact h2, h3⟩
    | panic => rw [hinc] at h; cases h
    | hang => rw [hinc] at h; cases h

theorem drop_inv {x : World} (m : Mode) (hx : WInv x) {k a : Nat} {st : IntStore}
    (hk : x.live[k]? = some (some a)) (h : BigWord.drop x.store a = .ok st) :
    WInv ⟨st, x.live.set k none⟩ ∧
    (∀ j c : Nat, (x.live.set k none)[j]? = some (some c) → view st c = view x.store c) := by
  obtain ⟨ids, hc⟩ := hx.client
  have hmem : ∀ j c : Nat, (x.live.set k none)[j]? = some (some c) → x.live[j]? = some (some c) := by
    intro j c h
    rw [List.getElem?_set] at h
    by_cases hj : k = j
    · rw [if_pos hj] at h; split at h <;> simp at h
    · rw [if_neg hj] at h; exact h
  unfold BigWord.drop at h
  by_cases hi : BigWord.inline (tag a) = true
  · rw [if_pos hi, Res.ok.injEq] at h
    subst h
    refine ⟨⟨⟨ids, by rw [refsOf_drop_inline _ hi hk]; exact hc⟩, ?_⟩, fun _ _ _ => rfl⟩
    intro c hcm
    obtain ⟨j, hj⟩ := List.mem_iff_getElem?.mp hcm
    exact hx.words c (List.mem_of_getElem? (hmem j c hj))
  · rw [if_neg hi] at h
    have hi : BigWord.inline (tag a) = false := by simpa using hi
    have hcall := Call.decr (m := m) ⟨x.store, refsOf x.live, ids⟩ (offset a) st
      (refsOf_pos hk hi) h
    obtain ⟨hc', hkeep⟩ := call_inv hc hcall
    rw [← refsOf_drop_interned _ hi hk] at hc'
    have hold : ∀ j c : Nat, (x.live.set k none)[j]? = some (some c) → view st c = view x.store c := by
      intro j c hj
      apply view_kept hx hkeep (hmem j c hj)
      intro hi s' hs'
      rw [hc'.count _ _ hs']
      exact refsOf_pos hj hi
    refine ⟨⟨⟨_, hc'⟩, ?_⟩, hold⟩
    intro c hcm
    obtain ⟨j, hj⟩ := List.mem_iff_getElem?.mp hcm
    obtain ⟨h1, b', h2, h3⟩ := hx.words c (List.mem_of_getElem? (hmem j c hj))
    exact ⟨h1, b', by rw [hold j c hj]; exact h2, h3⟩

/-- `-x` on a word negates what the word stands for, and changes nothing else. -/
theorem view_invertNeg (st : IntStore) (a : Nat) (b : BInt) (h : view st a = .ok b) :
    view st (invertNeg a) = .ok b.neg' := by
  obtain ⟨h1, h2, h3⟩ := invertNeg_spec a
  unfold view BigWord.mag at *
  rw [h1, h2, h3]
  by_cases hi : BigWord.inline (tag a) = true
  · rw [if_pos hi] at h ⊢
    simp only [Res.bind, Res.ok.injEq] at h ⊢
    subst h; rfl
  · rw [if_neg hi] at h ⊢
    cases hg : Intern.get st (offset a) with
    | ok v =>
      rw [hg] at h
      simp only [Res.bind, Res.ok.injEq] at h ⊢
      subst h; rfl
    | panic => rw [hg] at h; cases h
    | hang => rw [hg] at h; cases h

end Verif
