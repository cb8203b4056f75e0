import Verif.Model.InternRef
import Verif.Lemmas.Intern
import Mathlib.Tactic.IntervalCases

/-!
# References into the interner (C160)
-/

set_option linter.unusedSectionVars false

namespace Verif

namespace InternRef

open Intern

variable {T : Type} [DecidableEq T]

/-- The worlds that can be reached without undefined behaviour by calls of which `P` holds, panics
included (a panicking call changes nothing, except `add` when a conversion panics). -/
inductive Reach (m : Mode) (n : Nat) (P : World T → Act T → Prop) : World T → Prop
  | start : Reach m n P (start n)
  | step {w w' : World T} (a : Act T) (hr : Reach m n P w) (ha : P w a)
      (h : act m w a = .of (.ok w')) : Reach m n P w'

/-- No count is at its maximum. -/
def Small (w : World T) : Prop := ∀ i k, refcount w.store i = .ok k → k < 2 ^ 64 - 1

/-- Calls with ids that `add` has returned, the last count of a value not being given back while a
reference to the value is in use. -/
def Careful (w : World T) : Act T → Prop
  | .add _ | .addPanics _ => Small w
  | .incr i => i ∈ w.ids ∧ Small w
  | .decr i => i ∈ w.reads → ∀ k, refcount w.store i = .ok k → 2 ≤ k
  | .tryGet i | .get i => i ∈ w.ids
  | .release _ => True

/-! ## Invariant -/

structure Inv (w : World T) : Prop where
  wf : WF w.store
  known : ∀ i ∈ w.ids, ∃ s v, at_ w.store i = some s ∧ s.val = some v
  fresh : ∀ i s, at_ w.store i = some s → i ∉ w.ids → s.val = none
  live : ∀ i ∈ w.reads, i ∈ w.ids ∧ ∀ s, at_ w.store i = some s → 1 ≤ s.refs

private theorem refcount_at {st : Store T} {i : Nat} {s : Slot T} (h : at_ st i = some s) :
    refcount st i = .ok s.refs := by
  unfold refcount
  rw [slot_eq, h]; rfl

private theorem get_at {st : Store T} {i : Nat} {s : Slot T} (h : at_ st i = some s) {v : T}
    (hv : s.val = some v) (hs : 1 ≤ s.refs) : Intern.get st i = .ok v := by
  unfold Intern.get Intern.tryGet
  rw [slot_eq, h]
  simp only [Res.ofOption, Res.bind]
  rw [if_neg (by omega), hv]

private theorem small_at {w : World T} (h : Small w) :
    ∀ i s, at_ w.store i = some s → s.refs < usizeSize - 1 := fun i s hs => by
  have := h i _ (refcount_at hs)
  unfold usizeSize
  exact this

private theorem incrInner_small (m : Mode) {s : Slot T} (hs : s.refs < usizeSize - 1) :
    incrInner m s = .ok { s with refs := s.refs + 1 } := by
  unfold incrInner
  rw [if_neg (by omega)]

/-- The values in use stay. -/
def Stays (w w' : World T) : Prop :=
  ∀ i ∈ w.reads, ∃ v, Intern.get w.store i = .ok v ∧ Intern.get w'.store i = .ok v

private theorem inv_start (n : Nat) : Inv (start n : World T) where
  wf := wf_withCapacity n
  known := by simp [start]
  fresh i s h _ := by rw [at_withCapacity n i s h]; rfl
  live := by simp [start]

/-- Slots change in counts only, which stay positive where references are in use. -/
private theorem inv_counts {w : World T} (h : Inv w) (st : Store T) (hwf : WF st)
    (hat : ∀ i s, at_ w.store i = some s → ∃ s', at_ st i = some s' ∧ s'.val = s.val ∧
      (i ∈ w.reads → 1 ≤ s'.refs))
    (hnew : ∀ i s', at_ st i = some s' → at_ w.store i = none → s'.val = none) :
    Inv { w with store := st } ∧ Stays w { w with store := st } := by
  refine ⟨⟨hwf, ?_, ?_, ?_⟩, ?_⟩
  · intro i hi
    obtain ⟨s, v, h1, h2⟩ := h.known i hi
    obtain ⟨s', h3, h4, -⟩ := hat i s h1
    exact ⟨s', v, h3, by rw [h4, h2]⟩
  · intro i s hs hi
    cases ho : at_ w.store i with
    | none => exact hnew i s hs ho
    | some o =>
      obtain ⟨s', h3, h4, -⟩ := hat i o ho
      rw [hs, Option.some.injEq] at h3
      rw [h3, h4]
      exact h.fresh i o ho hi
  · intro i hi
    obtain ⟨h1, -⟩ := h.live i hi
    refine ⟨h1, fun s hs => ?_⟩
    obtain ⟨o, v, h3, -⟩ := h.known i h1
    obtain ⟨s', h4, -, h5⟩ := hat i o h3
    have hs' : at_ st i = some s := hs
    rw [hs', Option.some.injEq] at h4
    rw [h4]
    exact h5 hi
  · intro i hi
    obtain ⟨h1, h2⟩ := h.live i hi
    obtain ⟨o, v, h3, h4⟩ := h.known i h1
    obtain ⟨s', h5, h6, h7⟩ := hat i o h3
    exact ⟨v, get_at h3 h4 (h2 o h3), get_at h5 (by rw [h6, h4]) (h7 hi)⟩

private theorem stays_same {w w' : World T} (h : Inv w) (hs : w'.store = w.store) : Stays w w' := by
  intro i hi
  obtain ⟨h1, h2⟩ := h.live i hi
  obtain ⟨o, v, h3, h4⟩ := h.known i h1
  have := get_at h3 h4 (h2 o h3)
  exact ⟨v, this, by rw [hs]; exact this⟩

/-- `add`. -/
private theorem step_add (m : Mode) {w : World T} (h : Inv w) (hs : Small w) (v : T) :
    ∃ st id, InternRef.add m w v = .of (.ok { w with store := st, ids := id :: w.ids }) ∧
      Inv { w with store := st, ids := id :: w.ids } ∧
      Stays w { w with store := st, ids := id :: w.ids } := by
  obtain ⟨st, id, a1, a2, a3⟩ := add_spec h.wf m v (small_at hs)
  -- a slot in use is only touched if it holds the value
  have key : id ∈ w.reads → ∃ loc, find w.store v = .exists_ loc := by
    intro hid
    obtain ⟨k1, k2⟩ := h.live id hid
    obtain ⟨o, u, k3, k4⟩ := h.known id k1
    rcases a3 with ⟨s, b1, b2, -, b4, -⟩ | ⟨b1, -⟩
    · have hso : s = o := by rw [b1, Option.some.injEq] at k3; exact k3
      subst hso
      have hv : s.val = some v := b2.resolve_right (by have := k2 s b1; omega)
      rcases find_spec h.wf v with ⟨f1, f2⟩ | ⟨a, b, s', -, g1, g2, g3⟩
      · exact absurd hv (f2 id s b1).1
      · rcases g3 with ⟨-, g5⟩ | ⟨g4, g5, -⟩
        · exact ⟨_, g5⟩
        · exfalso
          rcases Nat.lt_trichotomy id (a * 32 + b) with hlt | heq | hgt
          · exact (g2 id hlt s b1).1 hv
          · rw [heq, g1, Option.some.injEq] at b1
            rw [b1] at g4
            exact g4 hv
          · exact (b4 _ hgt s' g1).2 g5
    · have := (at_isSome h.wf id).mp ⟨o, k3⟩
      omega
  have hres : InternRef.add m w v = .of (.ok { w with store := st, ids := id :: w.ids }) := by
    unfold InternRef.add
    rw [a1]
    cases hf : find w.store v with
    | exists_ loc => rfl
    | dead loc =>
      simp only
      rw [if_neg fun hid => by obtain ⟨l, hl⟩ := key hid; rw [hl] at hf; cases hf]
    | none =>
      simp only
      rw [if_neg fun hid => by obtain ⟨l, hl⟩ := key hid; rw [hl] at hf; cases hf]
  refine ⟨st, id, hres, ?_, ?_⟩
  all_goals
    have hat : ∀ j o, at_ w.store j = some o → j ≠ id → at_ st j = some o := by
      intro j o ho hj
      rcases a3 with ⟨s, b1, b2, -, -, b5⟩ | ⟨b1, -, -, b5⟩
      · rw [b5, if_neg hj, ho]
      · rw [b5, if_neg hj, at_append, if_pos ((at_isSome h.wf j).mp ⟨o, ho⟩), ho]
    have hid : ∃ s, at_ st id = some s ∧ s.val = some v ∧ 1 ≤ s.refs := by
      rcases a3 with ⟨s, -, -, -, -, b5⟩ | ⟨-, -, -, b5⟩
      · exact ⟨_, by rw [b5, if_pos rfl], rfl, Nat.le_add_left 1 _⟩
      · exact ⟨_, by rw [b5, if_pos rfl], rfl, le_rfl⟩
    obtain ⟨s0, i1, i2, i3⟩ := hid
  · refine ⟨a2, ?_, ?_, ?_⟩
    · intro i hi
      by_cases he : i = id
      · exact ⟨s0, v, by rw [he]; exact i1, i2⟩
      · obtain ⟨o, u, k1, k2⟩ := h.known i ((List.mem_cons.mp hi).resolve_left he)
        exact ⟨o, u, hat i o k1 he, k2⟩
    · intro i s hs' hi
      have he : i ≠ id := fun he => hi (by rw [he]; exact List.mem_cons_self ..)
      have hi' : i ∉ w.ids := fun hc => hi (List.mem_cons_of_mem _ hc)
      rcases a3 with ⟨s', b1, b2, -, -, b5⟩ | ⟨b1, -, -, b5⟩
      · change at_ st i = some s at hs'
        rw [b5, if_neg he] at hs'
        exact h.fresh i s hs' hi'
      · change at_ st i = some s at hs'
        rw [b5, if_neg he, at_append] at hs'
        split at hs'
        · exact h.fresh i s hs' hi'
        · split at hs'
          · rw [Option.some.injEq] at hs'; rw [← hs']; rfl
          · cases hs'
    · intro i hi
      obtain ⟨k1, k2⟩ := h.live i hi
      refine ⟨List.mem_cons_of_mem _ k1, fun s hs' => ?_⟩
      change at_ st i = some s at hs'
      by_cases he : i = id
      · rw [he, i1, Option.some.injEq] at hs'
        rw [← hs']; exact i3
      · obtain ⟨o, u, k3, k4⟩ := h.known i k1
        rw [hat i o k3 he, Option.some.injEq] at hs'
        rw [← hs']; exact k2 o k3
  · intro i hi
    obtain ⟨k1, k2⟩ := h.live i hi
    obtain ⟨o, u, k3, k4⟩ := h.known i k1
    refine ⟨u, get_at k3 k4 (k2 o k3), ?_⟩
    by_cases he : i = id
    · subst he
      have hu : u = v := by
        rcases a3 with ⟨s, b1, b2, -, -, -⟩ | ⟨b1, -⟩
        · rw [b1, Option.some.injEq] at k3
          subst k3
          have := b2.resolve_right (by have := k2 s b1; omega)
          rw [k4, Option.some.injEq] at this
          exact this
        · have := (at_isSome h.wf i).mp ⟨o, k3⟩
          omega
      rw [hu]
      exact get_at i1 i2 i3
    · exact get_at (hat i o k3 he) k4 (k2 o k3)

/-- `add` with a conversion that panics. -/
private theorem step_addPanics (m : Mode) {w : World T} (h : Inv w) (hs : Small w) (v : T) :
    ∃ w', InternRef.addPanics m w v = .of (.ok w') ∧ Inv w' ∧ Stays w w' := by
  unfold InternRef.addPanics
  rcases find_spec h.wf v with ⟨f1, f2⟩ | ⟨a, b, s, hb, g1, g2, g3⟩
  · rw [f1]
    simp only [List.length_append, List.length_singleton, Nat.add_sub_cancel]
    have hnew : at_ (w.store ++ [newChunk]) (w.store.length * 32 + 0) = some newUninit := by
      rw [at_append, if_neg (by omega), if_pos (by omega)]
    rw [slot_eq' _ _ _ (by omega), hnew]
    simp only [Res.ofOption, Res.bind]
    rw [incrInner_small m (by unfold newUninit usizeSize; simp)]
    refine ⟨_, rfl, inv_counts h _ (wf_setSlot (wf_append h.wf) _ _).1 ?_ ?_⟩
    · intro i o ho
      have hlt := (at_isSome h.wf i).mp ⟨o, ho⟩
      refine ⟨o, ?_, rfl, fun hi => (h.live i hi).2 o ho⟩
      rw [at_setSlot' _ _ _ (by omega) _ ⟨_, hnew⟩, if_neg (by omega), at_append, if_pos hlt, ho]
    · intro i s' hs' ho
      rw [at_setSlot' _ _ _ (by omega) _ ⟨_, hnew⟩] at hs'
      split at hs'
      · rw [Option.some.injEq] at hs'; rw [← hs']; rfl
      · rw [at_append] at hs'
        split at hs'
        · rw [ho] at hs'; cases hs'
        · split at hs'
          · rw [Option.some.injEq] at hs'; rw [← hs']; rfl
          · cases hs'
  · rcases g3 with ⟨-, g5⟩ | ⟨-, g5, g6⟩
    · rw [g5]
      obtain ⟨st, id, e1, e2, e3⟩ := step_add m h hs v
      exact ⟨_, e1, e2, e3⟩
    · rw [g6]
      simp only
      rw [slot_eq' _ _ _ hb, g1]
      simp only [Res.ofOption, Res.bind]
      rw [incrInner_small m (small_at hs _ s g1)]
      refine ⟨_, rfl, inv_counts h _ (wf_setSlot h.wf _ _).1 ?_ ?_⟩
      · intro i o ho
        rw [at_setSlot' _ _ _ hb _ ⟨s, g1⟩]
        by_cases he : i = a * 32 + b
        · rw [if_pos he]
          rw [he, g1, Option.some.injEq] at ho
          exact ⟨_, rfl, by rw [ho], fun _ => Nat.le_add_left 1 _⟩
        · rw [if_neg he]
          exact ⟨o, ho, rfl, fun hi => (h.live i hi).2 o ho⟩
      · intro i s' hs' ho
        rw [at_setSlot' _ _ _ hb _ ⟨s, g1⟩] at hs'
        split at hs'
        · rename_i he; rw [he, g1] at ho; cases ho
        · rw [ho] at hs'; cases hs'

private theorem tryGet_known {w : World T} {i : Nat} {s : Slot T} {v : T}
    (hs : at_ w.store i = some s) (hv : s.val = some v) :
    InternRef.tryGet w i =
      .of (.ok (if s.refs = 0 then (w, none) else ({ w with reads := i :: w.reads }, some v))) := by
  unfold InternRef.tryGet InternRef.val
  rw [slot_eq, hs]
  simp only [Res.ofOption]
  rw [hv]
  split <;> rfl

private theorem inv_read {w : World T} (h : Inv w) {i : Nat} (hi : i ∈ w.ids) {s : Slot T}
    (hs : at_ w.store i = some s) (h0 : s.refs ≠ 0) : Inv { w with reads := i :: w.reads } := by
  refine ⟨h.wf, h.known, h.fresh, ?_⟩
  intro j hj
  rcases List.mem_cons.mp hj with rfl | hj
  · refine ⟨hi, fun s' hs' => ?_⟩
    change at_ w.store j = some s' at hs'
    rw [hs, Option.some.injEq] at hs'
    rw [← hs']; omega
  · exact h.live j hj

/-- Every careful call. -/
private theorem step_careful (m : Mode) {w : World T} (h : Inv w) (a : Act T) (ha : Careful w a) :
    act m w a ≠ .ub ∧ ∀ w', act m w a = .of (.ok w') → Inv w' ∧ Stays w w' := by
  cases a with
  | add v =>
    obtain ⟨st, id, e1, e2, e3⟩ := step_add m h ha v
    change InternRef.add m w v ≠ .ub ∧ ∀ w', InternRef.add m w v = .of (.ok w') → Inv w' ∧ Stays w w'
    rw [e1]
    exact ⟨by simp, fun w' hw => by cases hw; exact ⟨e2, e3⟩⟩
  | addPanics v =>
    obtain ⟨x, e1, e2, e3⟩ := step_addPanics m h ha v
    change InternRef.addPanics m w v ≠ .ub ∧
      ∀ w', InternRef.addPanics m w v = .of (.ok w') → Inv w' ∧ Stays w w'
    rw [e1]
    exact ⟨by simp, fun w' hw => by cases hw; exact ⟨e2, e3⟩⟩
  | incr i =>
    obtain ⟨hi, hsm⟩ := ha
    obtain ⟨s, v, k1, k2⟩ := h.known i hi
    refine ⟨by simp [act, InternRef.incr], fun w' hw => ?_⟩
    change InternRef.incr m w i = .of (.ok w') at hw
    unfold InternRef.incr Intern.incr at hw
    rw [slot_eq, k1] at hw
    simp only [Res.ofOption, Res.bind] at hw
    rw [incrInner_small m (small_at hsm i s k1)] at hw
    cases hw
    refine inv_counts h _ (wf_setSlot h.wf _ _).1 ?_ ?_
    · intro j o ho
      rw [at_setSlot _ _ _ ⟨s, k1⟩]
      by_cases he : j = i
      · rw [if_pos he]
        rw [he, k1, Option.some.injEq] at ho
        exact ⟨_, rfl, by rw [ho], fun _ => Nat.le_add_left 1 _⟩
      · rw [if_neg he]
        exact ⟨o, ho, rfl, fun hj => (h.live j hj).2 o ho⟩
    · intro j s' hs' ho
      rw [at_setSlot _ _ _ ⟨s, k1⟩] at hs'
      split at hs'
      · rename_i he; rw [he, k1] at ho; cases ho
      · rw [ho] at hs'; cases hs'
  | decr i =>
    refine ⟨by simp [act, InternRef.decr], fun w' hw => ?_⟩
    change InternRef.decr w i = .of (.ok w') at hw
    unfold InternRef.decr Intern.decr at hw
    rw [slot_eq] at hw
    cases k1 : at_ w.store i with
    | none => rw [k1] at hw; simp [Res.ofOption, Res.bind] at hw
    | some s =>
      rw [k1] at hw
      simp only [Res.ofOption, Res.bind] at hw
      cases hw
      refine inv_counts h _ (wf_setSlot h.wf _ _).1 ?_ ?_
      · intro j o ho
        rw [at_setSlot _ _ _ ⟨s, k1⟩]
        by_cases he : j = i
        · rw [if_pos he]
          subst he
          rw [k1, Option.some.injEq] at ho
          subst ho
          refine ⟨_, rfl, rfl, fun hj => ?_⟩
          have := ha hj _ (refcount_at k1)
          change 1 ≤ s.refs - 1
          omega
        · rw [if_neg he]
          exact ⟨o, ho, rfl, fun hj => (h.live j hj).2 o ho⟩
      · intro j s' hs' ho
        rw [at_setSlot _ _ _ ⟨s, k1⟩] at hs'
        split at hs'
        · rename_i he; rw [he, k1] at ho; cases ho
        · rw [ho] at hs'; cases hs'
  | tryGet i =>
    obtain ⟨s, v, k1, k2⟩ := h.known i ha
    simp only [act]
    rw [tryGet_known k1 k2]
    refine ⟨by simp, fun w' hw => ?_⟩
    by_cases h0 : s.refs = 0
    · simp only [h0, if_true, Res.bind] at hw
      cases hw
      exact ⟨h, stays_same h rfl⟩
    · simp only [h0, if_false, Res.bind] at hw
      cases hw
      exact ⟨inv_read h ha k1 h0, stays_same h rfl⟩
  | get i =>
    obtain ⟨s, v, k1, k2⟩ := h.known i ha
    simp only [act]
    unfold InternRef.get
    rw [tryGet_known k1 k2]
    by_cases h0 : s.refs = 0
    · simp only [h0, if_true]
      exact ⟨by simp, fun w' hw => by simp [Res.bind] at hw⟩
    · simp only [h0, if_false, Res.bind]
      refine ⟨by simp, fun w' hw => ?_⟩
      cases hw
      exact ⟨inv_read h ha k1 h0, stays_same h rfl⟩
  | release i =>
    refine ⟨by simp [act], fun w' hw => ?_⟩
    simp only [act] at hw
    cases hw
    exact ⟨⟨h.wf, h.known, h.fresh, fun j hj => h.live j (List.mem_of_mem_erase hj)⟩,
      stays_same h rfl⟩

private theorem reach_inv {m : Mode} {n : Nat} {w : World T} (h : Reach m n Careful w) : Inv w := by
  induction h with
  | start => exact inv_start n
  | step a _ ha h ih => exact ((step_careful m ih a ha).2 _ h).1

/-! ## C160 -/

/-- C160, the part that holds: as long as ids are passed only after `add` has returned them, and the last
count of a value is not given back while a reference to the value is in use, no call has undefined
behaviour, and every reference in use goes on referring to the same value. Missing: other calls, which the
compiler accepts as well. -/
theorem C160_careful_partial (m : Mode) (n : Nat) (w : World T) (hr : Reach m n Careful w)
    (a : Act T) (ha : Careful w a) :
    act m w a ≠ .ub ∧ ∀ w', act m w a = .of (.ok w') → ∀ i ∈ w.reads,
      ∃ v, Intern.get w.store i = .ok v ∧ Intern.get w'.store i = .ok v := by
  obtain ⟨h1, h2⟩ := step_careful m (reach_inv hr) a ha
  exact ⟨h1, fun w' hw => (h2 w' hw).2⟩

/-- C160 fails: whatever was done before, counting an id that `add` has not returned, of a slot that
exists, and getting its value is undefined behaviour. -/
theorem C160_unknown_id_violated (m : Mode) (n : Nat) (w : World T) (hr : Reach m n Careful w)
    (hs : Small w) (i : Nat) (hi : i < 32 * w.store.length) (hn : i ∉ w.ids) :
    ∃ w', act m w (.incr i) = .of (.ok w') ∧ act m w' (.get i) = .ub ∧
      act m w' (.tryGet i) = .ub := by
  have h := reach_inv hr
  obtain ⟨s, k1⟩ := (at_isSome h.wf i).mpr hi
  have k2 := h.fresh i s k1 hn
  refine ⟨{ w with store := setSlot w.store (offsetToIdx i) { s with refs := s.refs + 1 } }, ?_, ?_⟩
  · change InternRef.incr m w i = _
    unfold InternRef.incr Intern.incr
    rw [slot_eq, k1]
    simp only [Res.ofOption, Res.bind]
    rw [incrInner_small m (small_at hs i s k1)]
  · have hat : at_ (setSlot w.store (offsetToIdx i) { s with refs := s.refs + 1 }) i =
        some { s with refs := s.refs + 1 } := by
      rw [at_setSlot _ _ _ ⟨s, k1⟩, if_pos rfl]
    have ht : InternRef.tryGet
        { w with store := setSlot w.store (offsetToIdx i) { s with refs := s.refs + 1 } } i = .ub := by
      unfold InternRef.tryGet InternRef.val
      simp only
      rw [slot_eq, hat]
      simp only [Res.ofOption, k2]
      rfl
    simp only [act]
    unfold InternRef.get
    rw [ht]
    exact ⟨rfl, rfl⟩

/-- C160 fails: whatever was done before, giving back the last count of a value to which a reference is
in use, and adding another value, overwrites the value under the reference, if no earlier slot is free or
holds the other value. -/
theorem C160_overwritten_violated (m : Mode) (n : Nat) (w : World T) (hr : Reach m n Careful w)
    (hs : Small w) (i : Nat) (hi : i ∈ w.reads) (h1 : refcount w.store i = .ok 1) (v : T)
    (hv : Intern.get w.store i ≠ .ok v)
    (hlt : ∀ j < i, refcount w.store j ≠ .ok 0 ∧ Intern.get w.store j ≠ .ok v) :
    ∃ w', act m w (.decr i) = .of (.ok w') ∧ act m w' (.add v) = .ub := by
  have h := reach_inv hr
  obtain ⟨k0, -⟩ := h.live i hi
  obtain ⟨s, u, k1, k2⟩ := h.known i k0
  have hs1 : s.refs = 1 := by
    rw [refcount_at k1, Res.ok.injEq] at h1; exact h1
  have hu : s.val ≠ some v := fun hc => hv (get_at k1 hc (by omega))
  refine ⟨{ w with store := setSlot w.store (offsetToIdx i) ⟨0, some u⟩ }, ?_, ?_⟩
  · change InternRef.decr w i = _
    unfold InternRef.decr Intern.decr
    rw [slot_eq, k1]
    simp only [Res.ofOption, Res.bind, decrInner, hs1, k2]
  · have hwf := (wf_setSlot h.wf (offsetToIdx i) (⟨0, some u⟩ : Slot T)).1
    have hat : ∀ j, at_ (setSlot w.store (offsetToIdx i) ⟨0, some u⟩) j =
        if j = i then some ⟨0, some u⟩ else at_ w.store j := fun j => at_setSlot _ _ _ ⟨s, k1⟩
    have hskip : ∀ j < i, ∀ s', at_ (setSlot w.store (offsetToIdx i) ⟨0, some u⟩) j = some s' →
        Skips v s' := by
      intro j hj s' hs'
      rw [hat, if_neg (by omega)] at hs'
      obtain ⟨l1, l2⟩ := hlt j hj
      rw [refcount_at hs'] at l1
      have h0 : s'.refs ≠ 0 := fun hc => l1 (by rw [hc])
      exact ⟨fun hc => l2 (get_at hs' hc (by omega)), h0⟩
    have hi0 : at_ (setSlot w.store (offsetToIdx i) ⟨0, some u⟩) i = some ⟨0, some u⟩ := by
      rw [hat, if_pos rfl]
    have huv : (some u : Option T) ≠ some v := by rw [← k2]; exact hu
    -- the slot that is found is `i`
    have hfind : ∃ a b, find (setSlot w.store (offsetToIdx i) ⟨0, some u⟩) v = .dead (a, b) := by
      rcases find_spec hwf v with ⟨-, f2⟩ | ⟨a, b, s', -, g1, g2, g3⟩
      · exact absurd rfl (f2 i _ hi0).2
      · rcases g3 with ⟨g4, -⟩ | ⟨-, -, g6⟩
        · exfalso
          rcases Nat.lt_trichotomy i (a * 32 + b) with hl | he | hg
          · exact (g2 i hl _ hi0).2 rfl
          · rw [← he, hi0, Option.some.injEq] at g1
            rw [← g1] at g4
            exact huv g4
          · exact (hskip _ hg s' g1).1 g4
        · exact ⟨a, b, g6⟩
    have hb : ∀ j s', at_ (setSlot w.store (offsetToIdx i) ⟨0, some u⟩) j = some s' →
        s'.refs < usizeSize - 1 := by
      intro j s' hs'
      rw [hat] at hs'
      split at hs'
      · rw [Option.some.injEq] at hs'; rw [← hs']; unfold usizeSize; simp
      · exact small_at hs j s' hs'
    obtain ⟨st', id, a1, -, a3⟩ := add_spec hwf m v hb
    have hid : id = i := by
      rcases a3 with ⟨s', b1, b2, -, b4, -⟩ | ⟨-, b2, -⟩
      · rcases Nat.lt_trichotomy id i with hl | he | hg
        · have := hskip id hl s' b1
          rcases b2 with b2 | b2
          · exact absurd b2 this.1
          · exact absurd b2 this.2
        · exact he
        · exact absurd rfl (b4 i hg _ hi0).2
      · exact absurd rfl (b2 i _ hi0).2
    obtain ⟨a, b, hf⟩ := hfind
    change InternRef.add m _ v = .ub
    unfold InternRef.add
    simp only
    rw [a1, hf]
    simp only
    rw [if_pos (by rw [hid]; exact hi)]

/-- C160 fails, in short. -/
theorem C160_violated : ¬ ∀ (m : Mode) (n : Nat) (w : World Nat),
    Reach m n (fun _ _ => True) w → ∀ a, act m w a ≠ .ub := by
  intro h
  have h1 : act .debug (start 1 : World Nat) (.incr 0) =
      .of (.ok ⟨[⟨1, none⟩ :: List.replicate 31 newUninit], [], []⟩) := by decide
  exact h .debug 1 _ (.step (.incr 0) .start trivial h1) (.get 0) (by decide)

-- an id that was returned may be counted and read: careful calls from the empty interner
example : ∃ w : World Nat, Reach .release 0 Careful w ∧ w.reads = [0] ∧ w.ids = [0] ∧
    Careful w (.incr 0) ∧ Careful w (.add 6) := by
  have small : ∀ w : World Nat, w.store = [⟨1, some 5⟩ :: List.replicate 31 newUninit] → Small w := by
    intro w hw i k hk
    rw [hw] at hk
    unfold refcount slot offsetToIdx at hk
    rcases hi : i / 32 with _ | _
    · rw [hi] at hk
      have : i % 32 < 32 := Nat.mod_lt _ (by decide)
      interval_cases i % 32 <;> simp [Res.ofOption, Res.bind, newUninit] at hk <;> omega
    · rw [hi] at hk
      simp [Res.ofOption, Res.bind] at hk
  have h1 : Reach .release 0 Careful (⟨[⟨1, some 5⟩ :: List.replicate 31 newUninit], [], [0]⟩ : World Nat) :=
    .step (.add 5) .start (by intro i k hk; simp [start, withCapacity, refcount, slot, chunkSize, Res.ofOption, Res.bind] at hk) rfl
  have h2 : Reach .release 0 Careful (⟨[⟨1, some 5⟩ :: List.replicate 31 newUninit], [0], [0]⟩ : World Nat) :=
    .step (.get 0) h1 (by simp [Careful]) rfl
  exact ⟨_, h2, rfl, rfl, ⟨by simp, small _ rfl⟩, small _ rfl⟩

-- a reference to 5 is read, its count given back, and 6 added: the reference now refers to 6
example : ∃ w1 w2 w3, act .debug (start 0 : World Nat) (.add 5) = .of (.ok w1) ∧
    act .debug w1 (.get 0) = .of (.ok w2) ∧ act .debug w2 (.decr 0) = .of (.ok w3) ∧
    act .debug w3 (.add 6) = .ub := by
  exact ⟨_, _, _, rfl, rfl, rfl, by decide⟩

-- the same with one more count is fine, and the reference goes on referring to 5
example : ∃ w1 w2 w3 w4 w5, act .debug (start 0 : World Nat) (.add 5) = .of (.ok w1) ∧
    act .debug w1 (.incr 0) = .of (.ok w2) ∧
    act .debug w2 (.get 0) = .of (.ok w3) ∧ act .debug w3 (.decr 0) = .of (.ok w4) ∧
    act .debug w4 (.add 6) = .of (.ok w5) ∧ w5.ids = [1, 0] ∧ w5.reads = [0] ∧
    Intern.get w5.store 0 = .ok 5 := by
  exact ⟨_, _, _, _, _, rfl, rfl, rfl, rfl, rfl, rfl, rfl, by decide⟩

end InternRef

end Verif
