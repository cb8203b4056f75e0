import Mathlib.Logic.Function.Basic
import Verif.Lemmas.Intern

/-!
# C56–C59: the interner, single-threaded

`Client` pairs a store with the ledger of its callers: how many references to each id are
outstanding (one for every `add` that returned the id and every `incr` of it, minus one for every
`decr` of it), and which ids have been handed out.
-/

set_option linter.unusedSectionVars false

namespace Verif

open Intern

variable {T : Type} [DecidableEq T]

/-- A store together with the ledger of its callers. -/
structure Client (T : Type) where
  store : Store T
  refs : Nat → Nat
  ids : List Nat

/-- One call. `add` may be called at any time, `incr` with any id that was handed out, and `decr`
only by a caller owning a reference. Fewer than `2^64 - 1` references to one id exist at a time. -/
inductive Call (m : Mode) : Client T → Client T → Prop
  | add (c : Client T) (v : T) (st' : Store T) (id : Nat)
      (hbound : ∀ i, c.refs i < 2 ^ 64 - 1) (h : add m c.store v = .ok (st', id)) :
      Call m c ⟨st', Function.update c.refs id (c.refs id + 1), id :: c.ids⟩
  | incr (c : Client T) (i : Nat) (st' : Store T) (hi : i ∈ c.ids)
      (hbound : c.refs i < 2 ^ 64 - 1) (h : incr m c.store i = .ok st') :
      Call m c ⟨st', Function.update c.refs i (c.refs i + 1), c.ids⟩
  | decr (c : Client T) (i : Nat) (st' : Store T) (hown : 1 ≤ c.refs i)
      (h : decr c.store i = .ok st') :
      Call m c ⟨st', Function.update c.refs i (c.refs i - 1), c.ids⟩

/-- The states reachable from `Interner::new()` (`n = 0`) or `Interner::with_capacity(n)`. -/
inductive Reachable (m : Mode) (n : Nat) : Client T → Prop
  | start : Reachable m n ⟨withCapacity n, fun _ => 0, []⟩
  | call {c c' : Client T} : Reachable m n c → Call m c c' → Reachable m n c'

/-- Sequences of calls after each of which at least one reference to `id` is outstanding. -/
inductive Holding (m : Mode) (id : Nat) : Client T → Client T → Prop
  | refl (c : Client T) : Holding m id c c
  | call {a b c : Client T} : Holding m id a b → Call m b c → 1 ≤ c.refs id → Holding m id a c

/-- The invariant behind C56 and C57. -/
structure ClientInv (c : Client T) : Prop where
  wf : WF c.store
  count : ∀ i s, at_ c.store i = some s → s.refs = c.refs i
  fresh : ∀ i, at_ c.store i = none → c.refs i = 0
  given : ∀ i ∈ c.ids, ∃ s v, at_ c.store i = some s ∧ s.val = some v
  owned : ∀ i, 1 ≤ c.refs i → i ∈ c.ids

theorem ClientInv.bound {c : Client T} (h : ClientInv c) (hb : ∀ i, c.refs i < 2 ^ 64 - 1) :
    ∀ i s, at_ c.store i = some s → s.refs < usizeSize - 1 := fun i s hs => by
  rw [h.count i s hs]; exact hb i

/-- A call preserves the invariant and does not change the value of a slot that is referenced
before the call. -/
theorem call_inv {m : Mode} {c c' : Client T} (h : ClientInv c) (hc : Call m c c') :
    ClientInv c' ∧ ∀ i s, 1 ≤ c.refs i → at_ c.store i = some s →
      ∃ s', at_ c'.store i = some s' ∧ s'.val = s.val := by
  cases hc with
  | add v st' id hbound hadd =>
    obtain ⟨st2, id2, h1, h2, h3⟩ := add_spec h.wf m v (h.bound hbound)
    rw [hadd, Res.ok.injEq, Prod.mk.injEq] at h1
    obtain ⟨rfl, rfl⟩ := h1
    rcases h3 with ⟨s, g1, g2, _, _, g3⟩ | ⟨g1, _, g2, g3⟩
    · refine ⟨⟨h2, ?_, ?_, ?_, ?_⟩, ?_⟩
      · intro i s' hs'
        rw [g3] at hs'
        by_cases hi : i = id
        · subst hi
          rw [if_pos rfl, Option.some.injEq] at hs'
          rw [← hs']; dsimp only; rw [Function.update_self]
          rw [h.count _ s g1]
        · rw [if_neg hi] at hs'
          dsimp only; rw [Function.update_of_ne hi]
          exact h.count i s' hs'
      · intro i hi'
        rw [g3] at hi'
        by_cases hi : i = id
        · rw [if_pos hi] at hi'; cases hi'
        · rw [if_neg hi] at hi'
          dsimp only; rw [Function.update_of_ne hi]
          exact h.fresh i hi'
      · intro i hi'
        rw [g3]
        by_cases hi : i = id
        · rw [if_pos hi]; exact ⟨_, v, rfl, rfl⟩
        · rw [if_neg hi]
          rcases List.mem_cons.mp hi' with e | hm
          · exact absurd e hi
          · exact h.given i hm
      · intro i hi'
        by_cases hi : i = id
        · rw [hi]; exact List.mem_cons_self
        · simp only [Function.update_of_ne hi] at hi'
          exact List.mem_cons_of_mem _ (h.owned i hi')
      · intro i s' hr hs'
        rw [g3]
        by_cases hi : i = id
        · subst hi
          rw [if_pos rfl]
          rw [g1, Option.some.injEq] at hs'
          subst hs'
          refine ⟨_, rfl, ?_⟩
          rcases g2 with g2 | g2
          · exact g2.symm
          · rw [h.count _ _ g1] at g2; omega
        · rw [if_neg hi]; exact ⟨s', hs', rfl⟩
    · have hnone : at_ c.store id = none := (at_none h.wf id).mpr (by omega)
      have hnew : ∀ i s, at_ (c.store ++ [newChunk]) i = some s →
          at_ c.store i = some s ∨ (at_ c.store i = none ∧ s.refs = 0) := by
        intro i s hs
        rw [at_append] at hs
        split at hs
        · exact .inl hs
        · rename_i hlt
          split at hs
          · refine .inr ⟨(at_none h.wf i).mpr (by omega), ?_⟩
            rw [Option.some.injEq] at hs
            rw [← hs]; rfl
          · cases hs
      have hold : ∀ i s, at_ c.store i = some s → at_ (c.store ++ [newChunk]) i = some s := by
        intro i s hs
        rw [at_append, if_pos ((at_isSome h.wf i).mp ⟨s, hs⟩)]
        exact hs
      refine ⟨⟨h2, ?_, ?_, ?_, ?_⟩, ?_⟩
      · intro i s' hs'
        rw [g3] at hs'
        by_cases hi : i = id
        · subst hi
          rw [if_pos rfl, Option.some.injEq] at hs'
          rw [← hs']; dsimp only; rw [Function.update_self, h.fresh _ hnone]
        · rw [if_neg hi] at hs'
          dsimp only; rw [Function.update_of_ne hi]
          rcases hnew i s' hs' with e | ⟨e1, e2⟩
          · exact h.count i s' e
          · rw [e2, h.fresh i e1]
      · intro i hi'
        rw [g3] at hi'
        by_cases hi : i = id
        · rw [if_pos hi] at hi'; cases hi'
        · rw [if_neg hi] at hi'
          dsimp only; rw [Function.update_of_ne hi]
          apply h.fresh i
          cases hat : at_ c.store i with
          | none => rfl
          | some s => rw [hold i s hat] at hi'; cases hi'
      · intro i hi'
        rw [g3]
        by_cases hi : i = id
        · rw [if_pos hi]; exact ⟨_, v, rfl, rfl⟩
        · rw [if_neg hi]
          rcases List.mem_cons.mp hi' with e | hm
          · exact absurd e hi
          · obtain ⟨s, v, e1, e2⟩ := h.given i hm
            exact ⟨s, v, hold i s e1, e2⟩
      · intro i hi'
        by_cases hi : i = id
        · rw [hi]; exact List.mem_cons_self
        · simp only [Function.update_of_ne hi] at hi'
          exact List.mem_cons_of_mem _ (h.owned i hi')
      · intro i s' hr hs'
        rw [g3]
        by_cases hi : i = id
        · subst hi; rw [hnone] at hs'; cases hs'
        · rw [if_neg hi]; exact ⟨s', hold i s' hs', rfl⟩
  | incr i st' hi hbound hincr =>
    obtain ⟨s, v, hs, hv⟩ := h.given i hi
    unfold incr at hincr
    rw [slot_eq, hs] at hincr
    simp only [Res.ofOption, Res.bind, incrInner] at hincr
    rw [if_neg (by rw [h.count i s hs]; unfold usizeSize; omega)] at hincr
    simp only [Res.ok.injEq] at hincr
    have hat := fun j => at_setSlot i j { s with refs := s.refs + 1 } ⟨s, hs⟩
    rw [hincr] at hat
    refine ⟨⟨hincr ▸ (wf_setSlot h.wf _ _).1, ?_, ?_, ?_, ?_⟩, ?_⟩
    · intro j s' hs'
      rw [hat] at hs'
      by_cases hj : j = i
      · subst hj
        rw [if_pos rfl, Option.some.injEq] at hs'
        rw [← hs']; dsimp only; rw [Function.update_self]
        rw [h.count _ s hs]
      · rw [if_neg hj] at hs'
        dsimp only; rw [Function.update_of_ne hj]
        exact h.count j s' hs'
    · intro j hj'
      rw [hat] at hj'
      by_cases hj : j = i
      · rw [if_pos hj] at hj'; cases hj'
      · rw [if_neg hj] at hj'
        dsimp only; rw [Function.update_of_ne hj]
        exact h.fresh j hj'
    · intro j hj'
      rw [hat]
      by_cases hj : j = i
      · rw [if_pos hj]; exact ⟨_, v, rfl, hv⟩
      · rw [if_neg hj]; exact h.given j hj'
    · intro j hj'
      by_cases hj : j = i
      · rw [hj]; exact hi
      · simp only [Function.update_of_ne hj] at hj'
        exact h.owned j hj'
    · intro j s' _ hs'
      rw [hat]
      by_cases hj : j = i
      · subst hj
        rw [if_pos rfl]
        rw [hs, Option.some.injEq] at hs'
        exact ⟨_, rfl, by rw [← hs']⟩
      · rw [if_neg hj]; exact ⟨s', hs', rfl⟩
  | decr i st' hown hdecr =>
    have hi := h.owned i hown
    obtain ⟨s, v, hs, hv⟩ := h.given i hi
    unfold decr at hdecr
    rw [slot_eq, hs] at hdecr
    simp only [Res.ofOption, Res.bind, Res.ok.injEq] at hdecr
    have hat := fun j => at_setSlot i j (decrInner s) ⟨s, hs⟩
    rw [hdecr] at hat
    refine ⟨⟨hdecr ▸ (wf_setSlot h.wf _ _).1, ?_, ?_, ?_, ?_⟩, ?_⟩
    · intro j s' hs'
      rw [hat] at hs'
      by_cases hj : j = i
      · subst hj
        rw [if_pos rfl, Option.some.injEq] at hs'
        rw [← hs']; dsimp only; rw [Function.update_self]
        simp only [decrInner]
        rw [h.count _ s hs]
      · rw [if_neg hj] at hs'
        dsimp only; rw [Function.update_of_ne hj]
        exact h.count j s' hs'
    · intro j hj'
      rw [hat] at hj'
      by_cases hj : j = i
      · rw [if_pos hj] at hj'; cases hj'
      · rw [if_neg hj] at hj'
        dsimp only; rw [Function.update_of_ne hj]
        exact h.fresh j hj'
    · intro j hj'
      rw [hat]
      by_cases hj : j = i
      · rw [if_pos hj]; exact ⟨_, v, rfl, hv⟩
      · rw [if_neg hj]; exact h.given j hj'
    · intro j hj'
      by_cases hj : j = i
      · rw [hj]; exact hi
      · simp only [Function.update_of_ne hj] at hj'
        exact h.owned j hj'
    · intro j s' _ hs'
      rw [hat]
      by_cases hj : j = i
      · subst hj
        rw [if_pos rfl]
        rw [hs, Option.some.injEq] at hs'
        exact ⟨_, rfl, by rw [← hs']; rfl⟩
      · rw [if_neg hj]; exact ⟨s', hs', rfl⟩

theorem reachable_inv {m : Mode} {n : Nat} {c : Client T} (h : Reachable m n c) : ClientInv c := by
  induction h with
  | start =>
    refine ⟨wf_withCapacity n, ?_, fun _ _ => rfl, by simp, by simp⟩
    intro i s hs
    rw [at_withCapacity n i s hs]
    rfl
  | call _ hc ih => exact (call_inv ih hc).1

/-! ## C56 -/

/-- C56: what was added is what is read, for as long as a reference is outstanding, whatever calls
are made in between. -/
theorem C56_get_returns_added (m : Mode) (n : Nat) (c : Client T) (hr : Reachable m n c) (v : T)
    (st' : Store T) (id : Nat) (hbound : ∀ i, c.refs i < 2 ^ 64 - 1)
    (hadd : add m c.store v = .ok (st', id)) (c' : Client T)
    (hh : Holding m id ⟨st', Function.update c.refs id (c.refs id + 1), id :: c.ids⟩ c') :
    get c'.store id = .ok v := by
  have main : ClientInv c' ∧ 1 ≤ c'.refs id ∧
      ∃ s, at_ c'.store id = some s ∧ s.val = some v := by
    generalize hc0 : (⟨st', Function.update c.refs id (c.refs id + 1), id :: c.ids⟩ : Client T) = c0
      at hh
    induction hh with
    | refl =>
      subst hc0
      refine ⟨(call_inv (reachable_inv hr) (.add c v st' id hbound hadd)).1, by simp, ?_⟩
      have hi := reachable_inv hr
      obtain ⟨st2, id2, h1, h2, h3⟩ := add_spec hi.wf m v (hi.bound hbound)
      rw [hadd, Res.ok.injEq, Prod.mk.injEq] at h1
      obtain ⟨rfl, rfl⟩ := h1
      rcases h3 with ⟨s, _, _, _, _, g3⟩ | ⟨_, _, _, g3⟩
      · exact ⟨_, by rw [g3, if_pos rfl], rfl⟩
      · exact ⟨_, by rw [g3, if_pos rfl], rfl⟩
    | call _ hc hpos ih =>
      obtain ⟨i1, i2, s, i3, i4⟩ := ih
      obtain ⟨j1, j2⟩ := call_inv i1 hc
      obtain ⟨s', j3, j4⟩ := j2 id s i2 i3
      exact ⟨j1, hpos, s', j3, j4.trans i4⟩
  obtain ⟨h1, h2, s, h3, h4⟩ := main
  unfold Intern.get tryGet
  rw [slot_eq, h3]
  simp only [Res.ofOption, Res.bind, h4]
  rw [if_neg (by rw [h1.count id s h3]; omega)]

/-- The calls covered by C56 never panic: `add` always succeeds, as do `incr` of an id that was
handed out, and `decr` and `get` of an id with outstanding references. -/
theorem C56_no_panic (m : Mode) (n : Nat) (c : Client T) (hr : Reachable m n c)
    (hbound : ∀ i, c.refs i < 2 ^ 64 - 1) :
    (∀ v, ∃ x, add m c.store v = .ok x) ∧
    (∀ i ∈ c.ids, ∃ x, incr m c.store i = .ok x) ∧
    (∀ i ∈ c.ids, ∃ x, decr c.store i = .ok x) ∧
    (∀ i, 1 ≤ c.refs i → ∃ v, get c.store i = .ok v) := by
  have h := reachable_inv hr
  refine ⟨fun v => ?_, fun i hi => ?_, fun i hi => ?_, fun i hi => ?_⟩
  · obtain ⟨st', id, h1, _⟩ := add_spec h.wf m v (h.bound hbound)
    exact ⟨_, h1⟩
  · obtain ⟨s, v, hs, hv⟩ := h.given i hi
    unfold incr
    rw [slot_eq, hs]
    simp only [Res.ofOption, Res.bind, incrInner]
    rw [if_neg (by have := h.bound hbound i s hs; omega)]
    exact ⟨_, rfl⟩
  · obtain ⟨s, v, hs, hv⟩ := h.given i hi
    unfold decr
    rw [slot_eq, hs]
    exact ⟨_, rfl⟩
  · obtain ⟨s, v, hs, hv⟩ := h.given i (h.owned i hi)
    unfold Intern.get tryGet
    rw [slot_eq, hs]
    simp only [Res.ofOption, Res.bind, hv]
    rw [if_neg (by rw [h.count i s hs]; omega)]
    exact ⟨v, rfl⟩

-- a slot is released and reused for another value while value 7 stays put
example : ((add .debug (new : Store Nat) 5).bind fun x => (add .debug x.1 7).bind fun y =>
    (decr y.1 x.2).bind fun st => (add .debug st 9).bind fun z =>
    (get z.1 y.2).bind fun a => (get z.1 z.2).bind fun b => .ok (x.2, y.2, z.2, a, b))
    = .ok (0, 1, 0, 7, 9) := by decide

/-! ## C57 -/

/-- C57: the reference count is the number of outstanding references, `try_get` is `None` exactly
at zero, and `decr` at zero does nothing. -/
theorem C57_refcounts (m : Mode) (n : Nat) (c : Client T) (hr : Reachable m n c) :
    (∀ i, i < 32 * c.store.length → refcount c.store i = .ok (c.refs i)) ∧
    (∀ i, 32 * c.store.length ≤ i → c.refs i = 0 ∧ refcount c.store i = .panic) ∧
    (∀ i ∈ c.ids, i < 32 * c.store.length ∧
      (c.refs i = 0 → tryGet c.store i = .ok none) ∧
      (1 ≤ c.refs i → ∃ v, tryGet c.store i = .ok (some v))) ∧
    (∀ i ∈ c.ids, c.refs i = 0 → ∃ st', decr c.store i = .ok st' ∧
      ∀ j, at_ st' j = at_ c.store j) := by
  have h := reachable_inv hr
  refine ⟨fun i hi => ?_, fun i hi => ?_, fun i hi => ?_, fun i hi hz => ?_⟩
  · obtain ⟨s, hs⟩ := (at_isSome h.wf i).mpr hi
    unfold refcount
    rw [slot_eq, hs]
    simp only [Res.ofOption, Res.bind]
    rw [h.count i s hs]
  · have hn := (at_none h.wf i).mpr hi
    refine ⟨h.fresh i hn, ?_⟩
    unfold refcount
    rw [slot_eq, hn]
    rfl
  · obtain ⟨s, v, hs, hv⟩ := h.given i hi
    refine ⟨(at_isSome h.wf i).mp ⟨s, hs⟩, fun hz => ?_, fun hz => ?_⟩
    · unfold tryGet
      rw [slot_eq, hs]
      simp only [Res.ofOption, Res.bind]
      rw [if_pos (by rw [h.count i s hs]; exact hz)]
    · unfold tryGet
      rw [slot_eq, hs]
      simp only [Res.ofOption, Res.bind, hv]
      rw [if_neg (by rw [h.count i s hs]; omega)]
      exact ⟨v, rfl⟩
  · obtain ⟨s, v, hs, hv⟩ := h.given i hi
    unfold decr
    rw [slot_eq, hs]
    refine ⟨_, rfl, fun j => ?_⟩
    rw [at_setSlot i j _ ⟨s, hs⟩]
    by_cases hj : j = i
    · subst hj
      rw [if_pos rfl, hs]
      have : s.refs = 0 := by rw [h.count _ s hs]; exact hz
      cases s
      simp_all [decrInner]
    · rw [if_neg hj]

example : ((add .debug (new : Store Nat) 5).bind fun x => (add .debug x.1 5).bind fun y =>
    (incr .debug y.1 y.2).bind fun st => (decr st 0).bind fun st => refcount st 0) = .ok 2 := by
  decide

/-! ## C58 -/

/-- C58, violated by the code: after releasing the first of two values, adding the second, still
live, value again gives a different id (the free slot is found first). -/
theorem C58_dedup_violated :
    ¬ ∀ (m : Mode) (n : Nat) (c : Client Nat), Reachable m n c →
      ∀ (v : Nat) (i : Nat), 1 ≤ c.refs i → get c.store i = .ok v →
        ∀ st' id, add m c.store v = .ok (st', id) → id = i := by
  intro h
  have a1 : ∃ st, add .debug (withCapacity 0 : Store Nat) 5 = .ok (st, 0) ∧
      ∃ st2, add .debug st 7 = .ok (st2, 1) ∧ ∃ st3, decr st2 0 = .ok st3 ∧
      get st3 1 = .ok 7 ∧ ∃ st4, add .debug st3 7 = .ok (st4, 0) := by
    refine ⟨_, rfl, _, rfl, _, rfl, by decide, _, rfl⟩
  obtain ⟨st, b1, st2, b2, st3, b3, b4, st4, b5⟩ := a1
  have r1 := (Reachable.start (m := .debug) (n := 0) (T := Nat)).call
    (.add _ 5 st 0 (fun _ => by norm_num) b1)
  have r2 := r1.call (.add _ 7 st2 1 (fun i => by
    by_cases hi : i = 0
    · subst hi; simp
    · dsimp only; rw [Function.update_of_ne hi]; norm_num) b2)
  have r3 := r2.call (.decr _ 0 st3 (by simp [Function.update]) b3)
  have := h .debug 0 _ r3 7 1 (by simp [Function.update]) b4 st4 0 b5
  cases this

/-- C58, the part that holds: ids of distinct values are distinct (an id holds one value at a
time), and an equal value gets the same id as long as no released slot precedes it - in particular
if nothing was released so far. Missing: deduplication in the presence of an earlier free slot. -/
theorem C58_dedup_partial (m : Mode) (n : Nat) (c : Client T) (hr : Reachable m n c)
    (hbound : ∀ i, c.refs i < 2 ^ 64 - 1) (i : Nat) (v : T) (hi : 1 ≤ c.refs i)
    (hv : get c.store i = .ok v) :
    (∀ v' st' id, v' ≠ v → add m c.store v' = .ok (st', id) → id ≠ i) ∧
    ((∀ j < i, 1 ≤ c.refs j ∧ get c.store j ≠ .ok v) →
      ∃ st', add m c.store v = .ok (st', i)) := by
  have h := reachable_inv hr
  obtain ⟨s, w, hs, hw⟩ := h.given i (h.owned i hi)
  have hget : ∀ j s w, at_ c.store j = some s → s.val = some w → 1 ≤ c.refs j →
      get c.store j = .ok w := by
    intro j s w h1 h2 h3
    unfold Intern.get tryGet
    rw [slot_eq, h1]
    simp only [Res.ofOption, Res.bind, h2]
    rw [if_neg (by rw [h.count j s h1]; omega)]
  have hwv : w = v := by
    have := hget i s w hs hw hi
    rw [hv, Res.ok.injEq] at this
    exact this.symm
  subst hwv
  constructor
  · rintro v' st' id hne hadd rfl
    obtain ⟨st2, id2, h1, _, h3⟩ := add_spec h.wf m v' (h.bound hbound)
    rw [hadd, Res.ok.injEq, Prod.mk.injEq] at h1
    obtain ⟨rfl, rfl⟩ := h1
    rcases h3 with ⟨s', g1, g2, _⟩ | ⟨g1, _⟩
    · rw [hs, Option.some.injEq] at g1
      subst g1
      rcases g2 with g2 | g2
      · rw [hw, Option.some.injEq] at g2; exact hne g2.symm
      · rw [h.count _ _ hs] at g2; omega
    · have := (at_isSome h.wf id).mp ⟨s, hs⟩
      omega
  · intro hbefore
    obtain ⟨st', id, h1, _, h3⟩ := add_spec h.wf m w (h.bound hbound)
    refine ⟨st', ?_⟩
    rw [h1]
    congr 2
    rcases h3 with ⟨s', g1, g2, _, g3, _⟩ | ⟨g1, g2, _⟩
    · rcases Nat.lt_trichotomy id i with hlt | heq | hgt
      · obtain ⟨b1, b2⟩ := hbefore id hlt
        rcases g2 with g2 | g2
        · exact absurd (hget id s' w g1 g2 b1) b2
        · rw [h.count _ _ g1] at g2; omega
      · exact heq
      · exact absurd hw (g3 i hgt s hs).1
    · exact absurd hw (g2 i s hs).1

example : ((add .debug (new : Store Nat) 5).bind fun x => (add .debug x.1 7).bind fun y =>
    (add .debug y.1 7).bind fun z => .ok (y.2, z.2)) = .ok (1, 1) := by decide

/-- C58, exactly: the id that `add` returns is the least number that is free (no outstanding
reference) or holds an equal value, both before the call. So adding a live value again gives its id
just when no free slot, and no other copy of the value, precedes it. -/
theorem C58_dedup_exact_partial (m : Mode) (n : Nat) (c : Client T) (hr : Reachable m n c)
    (hbound : ∀ i, c.refs i < 2 ^ 64 - 1) (v : T) :
    (∀ id, (∃ st', add m c.store v = .ok (st', id)) ↔
      (c.refs id = 0 ∨ get c.store id = .ok v) ∧
        ∀ j < id, 1 ≤ c.refs j ∧ get c.store j ≠ .ok v) ∧
    (∀ i, 1 ≤ c.refs i → get c.store i = .ok v →
      ((∃ st', add m c.store v = .ok (st', i)) ↔
        ∀ j < i, 1 ≤ c.refs j ∧ get c.store j ≠ .ok v)) := by
  have h := reachable_inv hr
  have hget : ∀ j s, at_ c.store j = some s → 1 ≤ c.refs j →
      (get c.store j = .ok v ↔ s.val = some v) := by
    intro j s h1 h3
    obtain ⟨s', x, g1, g2⟩ := h.given j (h.owned j h3)
    rw [h1, Option.some.injEq] at g1
    subst g1
    unfold Intern.get tryGet
    rw [slot_eq, h1]
    simp only [Res.ofOption, Res.bind, g2]
    rw [if_neg (by rw [h.count j s h1]; omega)]
    simp
  have hid : ∃ st' id, add m c.store v = .ok (st', id) ∧
      (c.refs id = 0 ∨ get c.store id = .ok v) ∧
        ∀ j < id, 1 ≤ c.refs j ∧ get c.store j ≠ .ok v := by
    obtain ⟨st', id, h1, _, h3⟩ := add_spec h.wf m v (h.bound hbound)
    have hskip : ∀ j, j < 32 * c.store.length →
        (∀ s', at_ c.store j = some s' → Skips v s') →
        1 ≤ c.refs j ∧ get c.store j ≠ .ok v := by
      intro j hj hs
      obtain ⟨s', hs'⟩ := (at_isSome h.wf j).mpr hj
      obtain ⟨k1, k2⟩ := hs s' hs'
      rw [h.count j s' hs'] at k2
      have : 1 ≤ c.refs j := by omega
      exact ⟨this, fun e => k1 ((hget j s' hs' this).mp e)⟩
    refine ⟨st', id, h1, ?_⟩
    rcases h3 with ⟨s, g1, g2, _, g3, _⟩ | ⟨g1, g2, _⟩
    · have hlt := (at_isSome h.wf id).mp ⟨s, g1⟩
      refine ⟨?_, fun j hj => hskip j (by omega) (g3 j hj)⟩
      by_cases hz : c.refs id = 0
      · exact .inl hz
      · rcases g2 with g2 | g2
        · exact .inr ((hget id s g1 (by omega)).mpr g2)
        · exact .inl (by rw [← h.count id s g1]; exact g2)
    · refine ⟨.inl (h.fresh id ((at_none h.wf id).mpr (by omega))),
        fun j hj => hskip j (by omega) (g2 j)⟩
  have first : ∀ id, (∃ st', add m c.store v = .ok (st', id)) ↔
      (c.refs id = 0 ∨ get c.store id = .ok v) ∧
        ∀ j < id, 1 ≤ c.refs j ∧ get c.store j ≠ .ok v := by
    obtain ⟨st', id0, h1, h2, h3⟩ := hid
    intro id
    constructor
    · rintro ⟨st2, e⟩
      rw [h1, Res.ok.injEq, Prod.mk.injEq] at e
      rw [← e.2]
      exact ⟨h2, h3⟩
    · rintro ⟨k1, k2⟩
      refine ⟨st', ?_⟩
      rw [h1]
      congr 2
      rcases Nat.lt_trichotomy id0 id with hlt | heq | hgt
      · obtain ⟨a1, a2⟩ := k2 id0 hlt
        rcases h2 with h2 | h2
        · omega
        · exact absurd h2 a2
      · exact heq
      · obtain ⟨a1, a2⟩ := h3 id hgt
        rcases k1 with k1 | k1
        · omega
        · exact absurd k1 a2
  refine ⟨first, fun i hi hv => ?_⟩
  rw [first i]
  exact ⟨fun k => k.2, fun k => ⟨.inr hv, k⟩⟩

-- both sides of the equivalence: slot 1 holds 7; with slot 0 live the id is 1, once released 0
example : ((add .debug (new : Store Nat) 5).bind fun x => (add .debug x.1 7).bind fun y =>
    (add .debug y.1 7).bind fun z => (decr y.1 0).bind fun st => (add .debug st 7).bind fun u =>
    .ok (y.2, z.2, u.2)) = .ok (1, 1, 0) := by decide

/-! ## C59 -/

/-- Number of live slots among the first `k`. -/
def liveCount (c : Client T) : Nat → Nat
  | 0 => 0
  | k + 1 => liveCount c k + if 1 ≤ c.refs k then 1 else 0

theorem liveCount_full (c : Client T) (k : Nat) (h : ∀ i < k, 1 ≤ c.refs i) :
    liveCount c k = k := by
  induction k with
  | zero => rfl
  | succ k ih =>
    rw [liveCount, ih (fun i hi => h i (by omega)), if_pos (h k (by omega))]

theorem liveCount_mono (c : Client T) {j k : Nat} (h : j ≤ k) : liveCount c j ≤ liveCount c k := by
  induction h with
  | refl => exact le_rfl
  | step _ ih => rw [liveCount]; omega

theorem length_ge_capacity {m : Mode} {n : Nat} {c : Client T} (hr : Reachable m n c) :
    (n + 31) / 32 ≤ c.store.length := by
  induction hr with
  | start => simp [withCapacity, chunkSize]
  | call hr' hc ih =>
    have h := reachable_inv hr'
    cases hc with
    | add v st' id hbound hadd =>
      obtain ⟨st2, id2, h1, _, h3⟩ := add_spec h.wf m v (h.bound hbound)
      rw [hadd, Res.ok.injEq, Prod.mk.injEq] at h1
      obtain ⟨rfl, rfl⟩ := h1
      rcases h3 with ⟨_, _, _, g, _⟩ | ⟨_, _, g, _⟩ <;> simp only <;> omega
    | incr i st' hi hbound hincr =>
      unfold incr at hincr
      obtain ⟨s, v, hs, hv⟩ := h.given i hi
      rw [slot_eq, hs] at hincr
      simp only [Res.ofOption, Res.bind, incrInner] at hincr
      rw [if_neg (by rw [h.count i s hs]; unfold usizeSize; omega)] at hincr
      simp only [Res.ok.injEq] at hincr
      simp only
      rw [← hincr, (wf_setSlot h.wf _ _).2]
      exact ih
    | decr i st' hown hdecr =>
      unfold decr at hdecr
      obtain ⟨s, v, hs, hv⟩ := h.given i (h.owned i hown)
      rw [slot_eq, hs] at hdecr
      simp only [Res.ofOption, Res.bind, Res.ok.injEq] at hdecr
      simp only
      rw [← hdecr, (wf_setSlot h.wf _ _).2]
      exact ih

/-- C59: an id is either that of the slot already holding the value, or the first free slot; a
chunk is allocated only when every slot is live; and an interner created with capacity `n` does not
allocate while fewer than `n` slots are live. -/
theorem C59_dense_slots (m : Mode) (n : Nat) (c : Client T) (hr : Reachable m n c)
    (hbound : ∀ i, c.refs i < 2 ^ 64 - 1) (v : T) (st' : Store T) (id : Nat)
    (hadd : add m c.store v = .ok (st', id)) :
    (∀ j < id, 1 ≤ c.refs j) ∧
    (st'.length ≠ c.store.length → st'.length = c.store.length + 1 ∧ id = 32 * c.store.length ∧
      ∀ j < 32 * c.store.length, 1 ≤ c.refs j) ∧
    (liveCount c (32 * c.store.length) < n → st'.length = c.store.length) := by
  have h := reachable_inv hr
  obtain ⟨st2, id2, h1, _, h3⟩ := add_spec h.wf m v (h.bound hbound)
  rw [hadd, Res.ok.injEq, Prod.mk.injEq] at h1
  obtain ⟨rfl, rfl⟩ := h1
  have hcap := length_ge_capacity hr
  rcases h3 with ⟨s, g1, _, g2, g3, _⟩ | ⟨g1, g2, g3, _⟩
  · refine ⟨fun j hj => ?_, fun hne => absurd g2 hne, fun _ => g2⟩
    have hlt := (at_isSome h.wf id).mp ⟨s, g1⟩
    obtain ⟨s', hs'⟩ := (at_isSome h.wf j).mpr (by omega)
    have := (g3 j hj s' hs').2
    rw [h.count j s' hs'] at this
    omega
  · have hall : ∀ j < 32 * c.store.length, 1 ≤ c.refs j := by
      intro j hj
      obtain ⟨s', hs'⟩ := (at_isSome h.wf j).mpr hj
      have := (g2 j s' hs').2
      rw [h.count j s' hs'] at this
      omega
    refine ⟨fun j hj => hall j (by omega), fun _ => ⟨g3, g1, hall⟩, fun hlive => ?_⟩
    rw [liveCount_full c _ hall] at hlive
    omega

-- hypotheses met: capacity 40 gives two chunks, the first value goes to slot 0
example : (withCapacity 40 : Store Nat).length = 2 ∧
    ((add .debug (withCapacity 40 : Store Nat) 5).bind fun x => .ok (x.1.length, x.2))
      = .ok (2, 0) := by decide

end Verif
