import Verif.Lemmas.InternMemory
import Verif.Props.BigIntHandle

/-!
# C124: the interner needs no more memory than the live values at the busiest moment
-/

namespace Verif

open Intern BigWord

variable {T : Type} [DecidableEq T]

/-- At most `K` ids have outstanding references. -/
def LiveAtMost (K : Nat) (c : Client T) : Prop :=
  ∀ s : Finset Nat, (∀ i ∈ s, 1 ≤ c.refs i) → s.card ≤ K

/-- Reachable without ever having more than `K` live ids. -/
inductive ReachableWithin (m : Mode) (n K : Nat) : Client T → Prop
  | start : ReachableWithin m n K ⟨withCapacity n, fun _ => 0, []⟩
  | call {c c' : Client T} : ReachableWithin m n K c → Call m c c' → LiveAtMost K c' →
      ReachableWithin m n K c'

/-- C124: however long the interner is used, it holds no more chunks of 32 slots than were asked for
at the start or needed for the values that were live at the same time; and never fewer slots than
there are live values. -/
theorem C124_interner (m : Mode) (n K : Nat) (c : Client T) (hr : ReachableWithin m n K c) :
    c.store.length ≤ max ((n + 31) / 32) ((K + 31) / 32) ∧
    ∀ s : Finset Nat, (∀ i ∈ s, 1 ≤ c.refs i) → s.card ≤ 32 * c.store.length := by
  have hreach : Reachable m n c := by
    induction hr with
    | start => exact .start
    | call _ hc _ ih => exact ih.call hc
  constructor
  · clear hreach
    have key : ClientInv c ∧ c.store.length ≤ max ((n + 31) / 32) ((K + 31) / 32) := by
      induction hr with
      | start =>
        exact ⟨reachable_inv (m := m) .start, by simp [withCapacity, chunkSize]⟩
      | @call c c' _ hc hl ih =>
        obtain ⟨h1, h2⟩ := ih
        refine ⟨(call_inv h1 hc).1, ?_⟩
        rcases call_length h1 hc with h | ⟨h, h'⟩
        · rw [h]; exact h2
        · have := hl (Finset.range (32 * c.store.length + 1)) fun i hi =>
            h' i (Finset.mem_range.mp hi)
          rw [Finset.card_range] at this
          omega
    exact key.2
  · intro s hs
    have hsub : s ⊆ Finset.range (32 * c.store.length) := by
      intro i hi
      rw [Finset.mem_range]
      by_contra hlt
      have := ((C57_refcounts m n c hreach).2.1 i (by omega)).1
      have := hs i hi
      omega
    simpa using Finset.card_le_card hsub

/-- Programs that never have more than `K` `BigInt`s at the same time. -/
inductive WReachableWithin (m : Mode) (K : Nat) : World → Prop
  | start : WReachableWithin m K ⟨Intern.new, []⟩
  | step {x y : World} : WReachableWithin m K x → WStep m x y →
      y.live.countP Option.isSome ≤ K → WReachableWithin m K y

/-- C124 for `BigInt`s: a program that never has more than `K` of them at the same time never makes the
store larger than `K` rounded up to whole chunks, however many it creates. So the offsets always fit
in a word, which is what the operations need (`C55_ops`). -/
theorem C124_big_int (m : Mode) (K : Nat) (x : World) (hr : WReachableWithin m K x) :
    32 * x.store.length ≤ K + 31 ∧ (K + 31 < 2 ^ 62 → 32 * x.store.length < 2 ^ 62) := by
  have key : WInv x ∧ 32 * x.store.length ≤ K + 31 := by
    induction hr with
    | start => exact ⟨reachable_winv (m := m) .start, by simp [Intern.new]⟩
    | step _ hs hl ih =>
      obtain ⟨h1, h2⟩ := ih
      refine ⟨(step_inv h1 hs).1, ?_⟩
      rcases step_length h1 hs with h | ⟨h, h'⟩ <;> omega
  exact ⟨key.2, fun h => by omega⟩

/-- C124: after all `BigInt`s are dropped nothing is referenced any more: every slot is free, and the
next number that needs a slot gets the first one. -/
theorem C124_no_leak (m : Mode) (x : World) (hr : WReachable m x) (hd : ∀ o ∈ x.live, o = none) :
    (∀ i < 32 * x.store.length, refcount x.store i = .ok 0) ∧
    (∀ v st id, Intern.add m x.store v = .ok (st, id) → id = 0) := by
  obtain ⟨ids, hc⟩ := (reachable_winv hr).client
  have h0 : ∀ i, refsOf x.live i = 0 := by
    intro i
    unfold refsOf
    rw [List.countP_eq_zero]
    intro o ho
    rw [hd o ho]
    simp [refersTo]
  constructor
  · intro i hi
    obtain ⟨s, hs⟩ := (at_isSome hc.wf i).mpr hi
    unfold refcount
    rw [slot_eq, hs]
    simp only [Res.ofOption, Res.bind]
    rw [hc.count i s hs]
    exact congrArg _ (h0 i)
  · intro v st id h
    obtain ⟨st2, id2, h1, _, h3⟩ := add_spec hc.wf m v (hc.bound fun i => by
      change refsOf x.live i < _; rw [h0]; norm_num)
    rw [h, Res.ok.injEq, Prod.mk.injEq] at h1
    obtain ⟨rfl, rfl⟩ := h1
    by_contra hne
    have hlen : ∀ j s, at_ x.store j = some s → s.refs = 0 := fun j s hs => by
      rw [hc.count j s hs]; exact h0 j
    rcases h3 with ⟨s, g1, _, _, g3, _⟩ | ⟨g1, g2, _, _⟩
    · obtain ⟨s', hs'⟩ := (at_isSome hc.wf 0).mpr (by
        have := (at_isSome hc.wf id).mp ⟨s, g1⟩; omega)
      exact (g3 0 (by omega) s' hs').2 (hlen 0 s' hs')
    · obtain ⟨s', hs'⟩ := (at_isSome hc.wf 0).mpr (by omega)
      exact (g2 0 s' hs').2 (hlen 0 s' hs')

/-! A case with bound 1: a value is added and released, and another one added; one chunk is enough. -/

omit [DecidableEq T] in
private theorem liveAtMost_one {c : Client T} (h : ∀ i, i ≠ 0 → c.refs i = 0) : LiveAtMost 1 c := by
  intro s hs
  have : s ⊆ {0} := by
    intro i hi
    by_contra hne
    have := hs i hi
    rw [h i (by simpa using hne)] at this
    omega
  simpa using Finset.card_le_card this

example : ∃ c : Client Nat, ReachableWithin .debug 0 1 c ∧ c.refs 0 = 1 ∧ c.store.length = 1 ∧
    get c.store 0 = .ok 7 := by
  have a1 : ∃ st, Intern.add .debug (withCapacity 0 : Store Nat) 5 = .ok (st, 0) ∧
      ∃ st2, decr st 0 = .ok st2 ∧ ∃ st3, Intern.add .debug st2 7 = .ok (st3, 0) ∧
      st3.length = 1 ∧ get st3 0 = .ok 7 := ⟨_, rfl, _, rfl, _, rfl, rfl, rfl⟩
  obtain ⟨st, b1, st2, b2, st3, b3, b4, b5⟩ := a1
  have r1 := (ReachableWithin.start (m := .debug) (n := 0) (K := 1) (T := Nat)).call
    (.add _ 5 st 0 (fun _ => by norm_num) b1)
    (liveAtMost_one fun i hi => by simp [Function.update_of_ne hi])
  have r2 := r1.call (.decr _ 0 st2 (by simp) b2)
    (liveAtMost_one fun i hi => by simp [Function.update_of_ne hi])
  have r3 := r2.call (.add _ 7 st3 0 (fun i => by
      by_cases hi : i = 0 <;> simp [hi]) b3)
    (liveAtMost_one fun i hi => by simp [Function.update_of_ne hi])
  exact ⟨_, r3, by simp, b4, b5⟩

end Verif
