import Verif.Model.LinkedIter
import Verif.Props.Linked

/-!
# C108, C109: iterating over, measuring and dropping the shared list
-/

namespace Verif

open Linked

variable {T : Type}

private theorem iterates_steps {s s' : State T} {c c' : Cursor} {R : List (Option Nat)}
    (h : Iterates s c R s' c') : Steps s s' := by
  induction h with
  | refl => exact .refl _
  | other _ hs ih => exact ih.tail hs
  | next _ ih => exact ih

private theorem steps_trans {s s' s'' : State T} (h : Steps s s') (h' : Steps s' s'') :
    Steps s s'' := by
  induction h' with
  | refl => exact h
  | tail _ hs ih => exact ih.tail hs

/-! ## C108 -/

/-- The cursor stands behind the first `k` nodes. -/
private def At (L : List Nat) (k : Nat) : Cursor → Prop
  | .head => k = 0
  | .next n => 0 < k ∧ L[k - 1]? = some n

private theorem At.load {m : Mem T} {L : List Nat} {k : Nat} {c : Cursor} (h : Chained m L)
    (hc : At L k c) : c.load m = L[k]? := by
  cases c with
  | head => cases hc; exact h.head
  | next n =>
    have := h.next _ _ hc.2
    rw [show k - 1 + 1 = k by have := hc.1; omega] at this
    exact this

private theorem At.mono {L L' : List Nat} {k : Nat} {c : Cursor} (hc : At L k c) (hp : L <+: L') :
    At L' k c := by
  cases c with
  | head => exact hc
  | next n =>
    refine ⟨hc.1, ?_⟩
    obtain ⟨t, rfl⟩ := hp
    have hi := (List.getElem?_eq_some_iff.mp hc.2).1
    rw [List.getElem?_append_left hi]
    exact hc.2

private theorem iterates_inv {s s' : State T} {c' : Cursor} {R : List (Option Nat)} {L : List Nat}
    (hL : Inv s L) (h : Iterates s iter R s' c') :
    ∃ L', Inv s' L' ∧ L <+: L' ∧ R.filterMap id <+: L' ∧ At L' (R.filterMap id).length c' := by
  generalize hi : iter = c at h
  induction h with
  | refl _ => subst hi; exact ⟨L, hL, List.prefix_refl _, List.nil_prefix, rfl⟩
  | other _ hs ih =>
    obtain ⟨L1, h1, h2, h3, h4⟩ := ih hi
    obtain ⟨L2, g1, g2, _⟩ := inv_steps h1 ((Steps.refl _).tail hs)
    exact ⟨L2, g1, h2.trans g2, h3.trans g2, h4.mono g2⟩
  | @next s' c c' R _ ih =>
    obtain ⟨L1, h1, h2, h3, h4⟩ := ih hi
    refine ⟨L1, h1, h2, ?_⟩
    have hl := h4.load h1.toChained
    unfold iterNext
    rw [hl]
    cases hk : L1[(R.filterMap id).length]? with
    | none => simpa [hk] using ⟨h3, h4⟩
    | some n =>
      simp only [List.filterMap_append, List.filterMap_cons, id_eq, List.filterMap_nil]
      obtain ⟨t, ht⟩ := h3
      have htl : t[0]? = some n := by
        rw [← ht, List.getElem?_append_right (Nat.le_refl _), Nat.sub_self] at hk
        exact hk
      obtain ⟨u, hu⟩ : ∃ u, t = n :: u := by
        cases t with
        | nil => simp at htl
        | cons x u => simp at htl; exact ⟨u, by rw [htl]⟩
      refine ⟨⟨u, by rw [← ht, hu]; simp⟩, by simp, ?_⟩
      simpa using hk

/-- C108, iteration: whatever all other threads do in the meantime, the nodes that an iterator has
yielded are the first ones on the list, in order, and the next call yields the node that follows
them, or nothing if there is none at that moment. -/
theorem C108_iter (s s' : State T) (hr : Steps init s) (R : List (Option Nat)) (c' : Cursor)
    (h : Iterates s iter R s' c') (L' : List Nat) (hL' : Contents s'.mem L') :
    R.filterMap id <+: L' ∧ (iterNext s'.mem c').1 = L'[(R.filterMap id).length]? := by
  obtain ⟨L, hL, _⟩ := inv_steps inv_init hr
  obtain ⟨K, h1, _, h3, h4⟩ := iterates_inv hL h
  have e := h1.toChained.contents.unique hL'
  subst e
  refine ⟨h3, ?_⟩
  have hl := h4.load h1.toChained
  unfold iterNext
  rw [hl]
  cases K[(R.filterMap id).length]? <;> rfl

/-- C108, the end of an iteration: when `next` returns `None`, everything on the list has been
yielded, in particular all that was on it when the iteration started; each element once. -/
theorem C108_iter_end (s s' : State T) (hr : Steps init s) (R : List (Option Nat)) (c' : Cursor)
    (h : Iterates s iter R s' c') (hend : (iterNext s'.mem c').1 = none) (L L' : List Nat)
    (hL : Contents s.mem L) (hL' : Contents s'.mem L') :
    R.filterMap id = L' ∧ L <+: R.filterMap id ∧ (R.filterMap id).Nodup := by
  obtain ⟨h1, h2⟩ := C108_iter s s' hr R c' h L' hL'
  have hs := iterates_steps h
  have e : R.filterMap id = L' := by
    rw [hend] at h2
    exact h1.eq_of_length_le (List.getElem?_eq_none_iff.mp h2.symm)
  refine ⟨e, ?_, ?_⟩
  · rw [e]; exact (C61_append_only s s' hr hs L L' hL hL').1
  · rw [e]
    obtain ⟨K, g1, g2, _⟩ := C61_list_intact s' (steps_trans hr hs)
    rwa [← g1.unique hL']

private def LenOk (L : List Nat) : LenPC → Prop
  | .head => True
  | .load cur len => 0 < len ∧ L[len - 1]? = some cur
  | .next cur len => 0 < len ∧ L[len - 1]? = some cur ∧ len < L.length
  | .ret len => len ≤ L.length
  | .crash => False

private theorem LenOk.mono {L L' : List Nat} {p : LenPC} (h : LenOk L p) (hp : L <+: L') :
    LenOk L' p := by
  have hlen := hp.length_le
  have hget : ∀ (i : Nat) n, L[i]? = some n → L'[i]? = some n := by
    intro i n hi
    obtain ⟨t, rfl⟩ := hp
    rw [List.getElem?_append_left (List.getElem?_eq_some_iff.mp hi).1]
    exact hi
  cases p with
  | head => trivial
  | load cur len => exact ⟨h.1, hget _ _ h.2⟩
  | next cur len => exact ⟨h.1, hget _ _ h.2.1, Nat.lt_of_lt_of_le h.2.2 hlen⟩
  | ret len => exact Nat.le_trans h hlen
  | crash => exact h

private theorem lenStep_ok {m : Mem T} {L : List Nat} {p : LenPC} (hc : Chained m L)
    (h : LenOk L p) : LenOk L (lenStep m p) ∧
      (∀ n, lenStep m p = .ret n → (∀ k, p ≠ .ret k) → n = L.length) := by
  cases p with
  | head =>
    simp only [lenStep]
    rw [hc.head]
    cases hL : L[0]? with
    | none =>
      have : L = [] := by simpa using hL
      subst this
      exact ⟨Nat.zero_le _, by intro n h; cases h; simp⟩
    | some cur => exact ⟨⟨by omega, hL⟩, by intro n h; cases h⟩
  | load cur len =>
    simp only [lenStep]
    have hn := hc.next _ _ h.2
    have hl := (List.getElem?_eq_some_iff.mp h.2).1
    have h1 := h.1
    rw [show len - 1 + 1 = len by omega] at hn
    cases hL : m.next cur with
    | none =>
      rw [hL] at hn
      have := List.getElem?_eq_none_iff.mp hn.symm
      refine ⟨show len ≤ L.length by omega, ?_⟩
      intro n h; cases h; intro _; omega
    | some cur' =>
      rw [hL] at hn
      have := (List.getElem?_eq_some_iff.mp hn.symm).1
      exact ⟨⟨h.1, h.2, this⟩, by intro n h; cases h⟩
  | next cur len =>
    simp only [lenStep]
    have hn := hc.next _ _ h.2.1
    have h1 := h.1
    rw [show len - 1 + 1 = len by omega] at hn
    cases hL : m.next cur with
    | none =>
      rw [hL] at hn
      have := List.getElem?_eq_none_iff.mp hn.symm
      have := h.2.2
      omega
    | some cur' =>
      rw [hL] at hn
      exact ⟨⟨by omega, by simpa using hn.symm⟩, by intro n h; cases h⟩
  | ret len => exact ⟨h, by intro n _ h; exact absurd rfl (h len)⟩
  | crash => exact h.elim

private theorem lens_inv {s s' : State T} {p' : LenPC} {L : List Nat} (hL : Inv s L)
    (h : Lens s .head s' p') : ∃ L', Inv s' L' ∧ L <+: L' ∧ LenOk L' p' ∧
      (∀ n, p' = .ret n → L.length ≤ n) := by
  generalize hi : LenPC.head = p at h
  induction h with
  | refl _ => subst hi; exact ⟨L, hL, List.prefix_refl _, trivial, by intro n h; cases h⟩
  | other _ hs ih =>
    obtain ⟨L1, h1, h2, h3, h4⟩ := ih hi
    obtain ⟨L2, g1, g2, _⟩ := inv_steps h1 ((Steps.refl _).tail hs)
    exact ⟨L2, g1, h2.trans g2, h3.mono g2, h4⟩
  | @own s' p p' _ ih =>
    obtain ⟨L1, h1, h2, h3, h4⟩ := ih hi
    obtain ⟨g1, g2⟩ := lenStep_ok h1.toChained h3
    refine ⟨L1, h1, h2, g1, ?_⟩
    intro n hn
    by_cases hp : ∃ k, p' = .ret k
    · obtain ⟨k, rfl⟩ := hp
      cases hn
      exact h4 _ rfl
    · rw [g2 n hn (fun k hk => hp ⟨k, hk⟩)]
      exact h2.length_le

/-- C108, the length: whatever all other threads do in the meantime, `len` follows no null pointer,
and what it returns is the length of the list at the moment of its last access; so it lies between
the lengths at the beginning and at the end of the call. -/
theorem C108_len (s s' : State T) (hr : Steps init s) (p' : LenPC) (h : Lens s .head s' p')
    (L L' : List Nat) (hL : Contents s.mem L) (hL' : Contents s'.mem L') :
    p' ≠ .crash ∧
    (∀ n, (∀ k, p' ≠ .ret k) → lenStep s'.mem p' = .ret n → n = L'.length) ∧
    (∀ n, p' = .ret n → L.length ≤ n ∧ n ≤ L'.length) := by
  obtain ⟨K, hK, _⟩ := inv_steps inv_init hr
  obtain ⟨K', h1, h2, h3, h4⟩ := lens_inv hK h
  have e := hK.toChained.contents.unique hL
  have e' := h1.toChained.contents.unique hL'
  subst e e'
  refine ⟨?_, fun n hn he => (lenStep_ok h1.toChained h3).2 n he hn, ?_⟩
  · rintro rfl; exact h3
  · rintro n rfl
    exact ⟨h4 n rfl, h3⟩

/-- C108, emptiness. -/
theorem C108_is_empty (s : State T) (L : List Nat) (hL : Contents s.mem L) :
    isEmpty s.mem = true ↔ L = [] := by
  unfold isEmpty
  unfold Contents at hL
  generalize s.mem.head = p at hL
  cases hL <;> simp

/-! ## C109 -/

private theorem step_owner {m m' : Mem T} {p p' : PC} (h : Linked.step m p = some (m', p')) :
    m'.alloc = m.alloc ∧
      ∀ n, p.owner = some n → p'.owner = some n ∨ (∃ ret r, p' = .done n ret r) ∨ p' = .crash := by
  cases p <;> simp only [Linked.step] at h
  all_goals first
    | cases h
    | (split at h <;> cases h <;> refine ⟨rfl, fun n hn => ?_⟩ <;> cases hn <;>
        first | exact .inl rfl | exact .inr (.inl ⟨_, _, rfl⟩) | exact .inr (.inr rfl))

/-- Every node is on the list or still in the hands of the `push` that made it. -/
private theorem accounted (s : State T) (hr : Steps init s) (L : List Nat)
    (hL : Contents s.mem L) : ∀ n, n < s.mem.alloc → n ∈ L ∨ ∃ t, (s.pc t).owner = some n := by
  induction hr generalizing L with
  | refl => intro n hn; exact absurd hn (Nat.not_lt_zero n)
  | @tail b c hb hs ih =>
    obtain ⟨K, g1, _⟩ := C61_list_intact b hb
    have ih := ih K g1
    have hp := (C61_append_only b c hb ((Steps.refl _).tail hs) K L g1 hL).1
    obtain ⟨L2, k1, _, k3, _, _, k4⟩ := C61_list_intact c (hb.tail hs)
    have e := k1.unique hL
    subst e
    intro n hn
    cases hs with
    | push t v hready =>
      by_cases hnew : n = b.mem.alloc
      · exact .inr ⟨t, by simp [PC.owner, hnew]⟩
      · have hlt : n < b.mem.alloc := by
          have : n < b.mem.alloc + 1 := hn
          omega
        rcases ih n hlt with h | ⟨t', h⟩
        · exact .inl (hp.subset h)
        · refine .inr ⟨t', ?_⟩
          have : t' ≠ t := by
            rintro rfl
            rw [ready_owner hready] at h
            cases h
          simpa [Function.update_of_ne this] using h
    | get t idx hready =>
      rcases ih n hn with h | ⟨t', h⟩
      · exact .inl (hp.subset h)
      · refine .inr ⟨t', ?_⟩
        have : t' ≠ t := by
          rintro rfl
          rw [ready_owner hready] at h
          cases h
        simpa [Function.update_of_ne this] using h
    | run t m' pc' hstep =>
      obtain ⟨ha, ho⟩ := step_owner hstep
      have hlt : n < b.mem.alloc := by rw [← ha]; exact hn
      rcases ih n hlt with h | ⟨t', h⟩
      · exact .inl (hp.subset h)
      · by_cases ht : t' = t
        · subst ht
          rcases ho n h with h | ⟨ret, r, h⟩ | h
          · exact .inr ⟨t', by simpa using h⟩
          · left
            have := k3 t' n ret r (by simpa using h)
            exact List.count_pos_iff.mp (by omega)
          · exact absurd (show _ = PC.crash by simpa using h) (k4 t')
        · exact .inr ⟨t', by simpa [Function.update_of_ne ht] using h⟩

private theorem dropLoop_ok {m : Mem T} {p : Option Nat} {L : List Nat}
    (h : Walk m.next p L) (fuel : Nat) (hf : L.length ≤ fuel) (freed : List Nat)
    (hn : (freed ++ L).Nodup) : dropLoop m fuel p freed = .ok (freed ++ L) := by
  induction h generalizing fuel freed with
  | nil => cases fuel <;> simp [dropLoop]
  | cons n L _ ih =>
    cases fuel with
    | zero => simp at hf
    | succ fuel =>
      have hmem : n ∉ freed := by
        intro hm
        exact (List.nodup_append.mp hn).2.2 n hm n (by simp) rfl
      rw [dropLoop, if_neg hmem, ih fuel (by simpa using hf) (freed ++ [n]) (by simpa using hn)]
      simp

/-- C109: after any concurrent history in which all calls of `push` have completed, dropping the list
comes to an end, never touches a node again after freeing it, and frees every node that was ever
made, each exactly once: no double free and no leak. -/
theorem C109_drop (s : State T) (hr : Steps init s) (hq : ∀ t, (s.pc t).owner = none) :
    ∃ freed, (∀ fuel, s.mem.alloc ≤ fuel → drop fuel s.mem = .ok freed) ∧
      Contents s.mem freed ∧ freed.Nodup ∧ ∀ n, n ∈ freed ↔ n < s.mem.alloc := by
  obtain ⟨K, h, _⟩ := inv_steps inv_init hr
  have hc := h.toChained.contents
  have hmem : ∀ n, n ∈ K ↔ n < s.mem.alloc := by
    intro n
    refine ⟨h.lt n, fun hn => ?_⟩
    rcases accounted s hr K hc n hn with h | ⟨t, h⟩
    · exact h
    · rw [hq t] at h; cases h
  have hlen : K.length ≤ s.mem.alloc := by
    have := h.nodup.length_le_of_subset (l₂ := List.range s.mem.alloc)
      (fun n hn => List.mem_range.mpr ((hmem n).mp hn))
    simpa using this
  refine ⟨K, fun fuel hf => ?_, hc, h.nodup, hmem⟩
  have := dropLoop_ok hc fuel (Nat.le_trans hlen hf) [] (by simpa using h.nodup)
  simpa [Linked.drop] using this

-- the schedule of three contending pushes meets the hypotheses: all calls have returned, and the
-- drop frees the three nodes
example : (runs init contended).map (fun s => ((List.range 4).map (fun t => (s.pc t).owner),
    Linked.drop 3 s.mem)) = some ([none, none, none, none], .ok [0, 1, 2]) := by decide

-- an iterator that has seen 10 while 20 was being pushed goes on with 20, then 30, then ends
example : (runs init contended).map (fun s =>
    ((iterNext s.mem (.next 0)).1, (iterNext s.mem (.next 1)).1, (iterNext s.mem (.next 2)).1))
    = some (some 1, some 2, none) := by decide

end Verif
