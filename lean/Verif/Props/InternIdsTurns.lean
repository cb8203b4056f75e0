import Verif.Props.InternIds

/-!
# Ids when additions take turns and nothing is dropped (C198)
-/

set_option linter.unusedSectionVars false

namespace Verif

open Intern

variable {T : Type} [DecidableEq T]

/-- Runs in which the values `vs` were added, in this order, by any threads: a call of `add` begins only when no other
is running. Any thread may clone at any time (also while another adds); nothing is dropped. No count is near overflow. -/
inductive Intern.Turns (m : Mode) (a : Sys T) : List T → Sys T → Prop
  | refl : Turns m a [] a
  /-- thread `t` calls `add(v)` -/
  | start {vs : List T} {b : Sys T} (t : Nat) (v : T) : Turns m a vs b → (∀ t', (b.pc t').ready = true) →
      Turns m a (vs ++ [v]) ⟨b.store, Function.update b.pc t (.scan v 0), b.log⟩
  /-- thread `t` takes a step of `add` -/
  | run {vs : List T} {b : Sys T} (t : Nat) (st' : Store T) (pc' : APC T) : Turns m a vs b → Roomy b →
      addStep m (b.store.length + 1) b.store (b.pc t) = some (st', pc') →
      Turns m a vs ⟨st', Function.update b.pc t pc', b.log ++ pc'.ev⟩
  /-- thread `t` clones an id of which a reference is held -/
  | clone {vs : List T} {b : Sys T} (t i : Nat) : Turns m a vs b → Roomy b → (b.pc t).ready = true →
      lost i b.log < gained i b.log →
      Turns m a vs ⟨(incrAt m b.store i (b.pc t)).1, Function.update b.pc t (incrAt m b.store i (b.pc t)).2,
        b.log ++ [.incr i]⟩

/-- The slots after the values `us` were added; slot `e` may be counted already. -/
private structure Base (us : List T) (e : Option Nat) (st : Store T) : Prop where
  wf : WF st
  used : ∀ i v, (firsts us)[i]? = some v → ∃ x, at_ st i = some x ∧ x.val = some v ∧ 1 ≤ x.refs
  fresh : ∀ i x, at_ st i = some x → (firsts us).length ≤ i → x.val = none ∧ (e ≠ some i → x.refs = 0)
  room : (firsts us).length ≤ 32 * st.length

/-- Where the thread is that adds `v` after `us`. -/
private def Pos (us : List T) (v : T) (e : Option Nat) (st : Store T) : APC T → Prop
  | .scan w i => w = v ∧ e = none ∧ i ≤ (firsts us).length ∧ ∀ j < i, (firsts us)[j]? ≠ some v
  | .load w i => w = v ∧ e = none ∧ i ≤ (firsts us).length ∧ (∀ j < i, (firsts us)[j]? ≠ some v) ∧ i < 32 * st.length
  | .check w i count => w = v ∧ e = none ∧ i ≤ (firsts us).length ∧ (∀ j < i, (firsts us)[j]? ≠ some v) ∧
      i < 32 * st.length ∧ (count = 0 ↔ (firsts us).length ≤ i)
  | .incrExists w i => w = v ∧ e = none ∧ (firsts us)[i]? = some v
  | .incrDead w i => w = v ∧ e = none ∧ i = (firsts us).length ∧ v ∉ firsts us ∧ i < 32 * st.length
  | .setDead w i => w = v ∧ e = some i ∧ i = (firsts us).length ∧ v ∉ firsts us ∧
      ∃ x, at_ st i = some x ∧ 1 ≤ x.refs
  | .pushChunk w => w = v ∧ e = none ∧ (firsts us).length = 32 * st.length ∧ v ∉ firsts us
  | .incrNew w len => w = v ∧ e = none ∧ (len - 1) * 32 = (firsts us).length ∧ v ∉ firsts us ∧
      (len - 1) * 32 < 32 * st.length
  | .setNew w len => w = v ∧ e = some ((len - 1) * 32) ∧ (len - 1) * 32 = (firsts us).length ∧ v ∉ firsts us ∧
      ∃ x, at_ st ((len - 1) * 32) = some x ∧ 1 ≤ x.refs
  | .idle | .done .. | .panicked => False

private structure LogOk (us : List T) (l : List (Ev T)) : Prop where
  add : ∀ v i, Ev.add v i ∈ l → (firsts us)[i]? = some v
  incr : ∀ i, Ev.incr i ∈ l → i < (firsts us).length

private def TInv (vs : List T) (s : Sys T) : Prop :=
  ∃ us e, Base us e s.store ∧ LogOk us s.log ∧
    ((us = vs ∧ e = none ∧ ∀ t, (s.pc t).ready = true) ∨
     ∃ t v, vs = us ++ [v] ∧ Pos us v e s.store (s.pc t) ∧ ∀ t', t' ≠ t → (s.pc t').ready = true)

private theorem pos_busy {us : List T} {v : T} {e : Option Nat} {st : Store T} {p : APC T} (h : Pos us v e st p) :
    p.ready = false := by
  cases p <;> first | rfl | exact h.elim

private theorem get_lt {us : List T} {i : Nat} {v : T} (h : (firsts us)[i]? = some v) : i < (firsts us).length :=
  (List.getElem?_eq_some_iff.mp h).1

private theorem not_mem {us : List T} {v : T} (h : ∀ j < (firsts us).length, (firsts us)[j]? ≠ some v) :
    v ∉ firsts us := by
  intro hv
  obtain ⟨j, hj⟩ := List.getElem?_of_mem hv
  exact h j (get_lt hj) hj

private theorem snoc_new {us : List T} {v : T} (h : v ∉ firsts us) : firsts (us ++ [v]) = firsts us ++ [v] := by
  rw [firsts_snoc, if_neg h]

private theorem snoc_old {us : List T} {v : T} {i : Nat} (h : (firsts us)[i]? = some v) :
    firsts (us ++ [v]) = firsts us := by
  rw [firsts_snoc, if_pos (List.mem_of_getElem? h)]

/-- A used slot is counted once more. -/
private theorem Base.bump {us : List T} {e : Option Nat} {st : Store T} (h : Base us e st) {i : Nat}
    (hi : i < (firsts us).length) {x : Slot T} (hx : at_ st i = some x) :
    Base us e (setSlot st (offsetToIdx i) { x with refs := x.refs + 1 }) := by
  refine ⟨(wf_setSlot h.wf _ _).1, fun j v hj => ?_, fun j y hy hj => ?_, by rw [(wf_setSlot h.wf _ _).2]; exact h.room⟩
  · obtain ⟨y, y1, y2, y3⟩ := h.used j v hj
    rw [at_setSlot _ _ _ ⟨x, hx⟩]
    split
    · rename_i e
      subst e
      rw [hx] at y1
      cases y1
      exact ⟨_, rfl, y2, by simp⟩
    · exact ⟨y, y1, y2, y3⟩
  · rw [at_setSlot _ _ _ ⟨x, hx⟩, if_neg (by omega)] at hy
    exact h.fresh j y hy hj

/-- The first free slot is counted. -/
private theorem Base.count {us : List T} {st : Store T} (h : Base us none st) {i : Nat}
    (hi : i = (firsts us).length) {x : Slot T} (hx : at_ st i = some x) :
    Base us (some i) (setSlot st (offsetToIdx i) { x with refs := x.refs + 1 }) := by
  refine ⟨(wf_setSlot h.wf _ _).1, fun j v hj => ?_, fun j y hy hj => ?_, by rw [(wf_setSlot h.wf _ _).2]; exact h.room⟩
  · have := get_lt hj
    rw [at_setSlot _ _ _ ⟨x, hx⟩, if_neg (by omega)]
    exact h.used j v hj
  · rw [at_setSlot _ _ _ ⟨x, hx⟩] at hy
    split at hy
    · rename_i e
      subst e
      cases hy
      exact ⟨(h.fresh _ x hx hj).1, fun h' => absurd rfl h'⟩
    · exact ⟨(h.fresh j y hy hj).1, fun _ => (h.fresh j y hy hj).2 (by simp)⟩

/-- The counted slot is written. -/
private theorem Base.write {us : List T} {st : Store T} {i : Nat} (h : Base us (some i) st)
    (hi : i = (firsts us).length) {x : Slot T} (hx : at_ st i = some x) (hr : 1 ≤ x.refs) {v : T}
    (hv : v ∉ firsts us) :
    Base (us ++ [v]) none (setSlot st (offsetToIdx i) { x with val := some v }) := by
  have hlt := (at_isSome h.wf i).mp ⟨x, hx⟩
  refine ⟨(wf_setSlot h.wf _ _).1, fun j w hj => ?_, fun j y hy hj => ?_, ?_⟩
  · rw [snoc_new hv] at hj
    rw [at_setSlot _ _ _ ⟨x, hx⟩]
    split
    · rename_i e
      subst e
      rw [hi, List.getElem?_append_right (Nat.le_refl _)] at hj
      simp only [Nat.sub_self, List.getElem?_cons_zero] at hj
      exact ⟨_, rfl, hj, hr⟩
    · have hlen := (List.getElem?_eq_some_iff.mp hj).1
      rw [List.length_append, List.length_singleton] at hlen
      rw [List.getElem?_append_left (by omega)] at hj
      exact h.used j w hj
  · rw [snoc_new hv, List.length_append, List.length_singleton] at hj
    rw [at_setSlot _ _ _ ⟨x, hx⟩, if_neg (by omega)] at hy
    have := h.fresh j y hy (by omega)
    exact ⟨this.1, fun _ => this.2 (by simp only [ne_eq, Option.some.injEq]; omega)⟩
  · rw [snoc_new hv, List.length_append, List.length_singleton, (wf_setSlot h.wf _ _).2]
    omega

private theorem LogOk.done {us : List T} {l : List (Ev T)} (h : LogOk us l) (v : T) (i : Nat)
    (hi : (firsts (us ++ [v]))[i]? = some v) : LogOk (us ++ [v]) (l ++ (APC.done v i).ev) := by
  obtain ⟨r, hr⟩ := firsts_prefix us [v]
  have mono : ∀ (j : Nat) (w : T), (firsts us)[j]? = some w → (firsts (us ++ [v]))[j]? = some w := by
    intro j w hj
    rw [← hr, List.getElem?_append_left (get_lt hj)]
    exact hj
  refine ⟨fun w j hj => ?_, fun j hj => ?_⟩
  · simp only [APC.ev, List.mem_append, List.mem_singleton, Ev.add.injEq] at hj
    rcases hj with hj | ⟨rfl, rfl⟩
    · exact mono j w (h.add w j hj)
    · exact hi
  · simp only [APC.ev, List.mem_append, List.mem_singleton, reduceCtorEq, or_false] at hj
    have := h.incr j hj
    rw [← hr, List.length_append]
    omega

private theorem busy_run {m : Mode} {us : List T} {v : T} {e : Option Nat} {s : Sys T} {t : Nat} {st' : Store T}
    {pc' : APC T} (hb : Base us e s.store) (hl : LogOk us s.log) (hp : Pos us v e s.store (s.pc t))
    (hr : Roomy s) (ha : addStep m (s.store.length + 1) s.store (s.pc t) = some (st', pc')) :
    (∃ e', Base us e' st' ∧ LogOk us (s.log ++ pc'.ev) ∧ Pos us v e' st' pc') ∨
    (Base (us ++ [v]) none st' ∧ LogOk (us ++ [v]) (s.log ++ pc'.ev) ∧ pc'.ready = true) := by
  cases hpc : s.pc t with
  | idle | done | panicked => rw [hpc] at hp; exact hp.elim
  | scan w i =>
    rw [hpc] at ha hp
    obtain ⟨rfl, rfl, h1, h2⟩ := hp
    simp only [addStep, slot_eq] at ha
    left
    cases hx : at_ s.store i with
    | some x =>
      simp only [hx, Res.ofOption, Option.some.injEq, Prod.mk.injEq] at ha
      obtain ⟨rfl, rfl⟩ := ha
      exact ⟨none, hb, by simpa [APC.ev] using hl, rfl, rfl, h1, h2, (at_isSome hb.wf i).mp ⟨x, hx⟩⟩
    | none =>
      simp only [hx, Res.ofOption, Option.some.injEq, Prod.mk.injEq] at ha
      obtain ⟨rfl, rfl⟩ := ha
      have hge : ¬ i < 32 * s.store.length := fun h => by
        obtain ⟨x, hx'⟩ := (at_isSome hb.wf i).mpr h
        rw [hx] at hx'
        cases hx'
      have := hb.room
      exact ⟨none, hb, by simpa [APC.ev] using hl, rfl, rfl, by omega, not_mem fun j hj => h2 j (by omega)⟩
  | load w i =>
    rw [hpc] at ha hp
    obtain ⟨rfl, rfl, h1, h2, h3⟩ := hp
    obtain ⟨x, hx⟩ := (at_isSome hb.wf i).mpr h3
    simp only [addStep, slot_eq, hx, Res.ofOption, Option.some.injEq, Prod.mk.injEq] at ha
    obtain ⟨rfl, rfl⟩ := ha
    refine .inl ⟨none, hb, by simpa [APC.ev] using hl, rfl, rfl, h1, h2, h3, fun h0 => ?_, fun h0 => ?_⟩
    · by_contra hlt
      obtain ⟨y, y1, _, y3⟩ := hb.used i _ (List.getElem?_eq_getElem (Nat.lt_of_not_le hlt))
      rw [hx] at y1
      cases y1
      omega
    · exact (hb.fresh i x hx h0).2 (by simp)
  | check w i count =>
    rw [hpc] at ha hp
    obtain ⟨rfl, rfl, h1, h2, h3, h4⟩ := hp
    obtain ⟨x, hx⟩ := (at_isSome hb.wf i).mpr h3
    simp only [addStep, slot_eq, hx, Res.ofOption] at ha
    left
    split at ha
    · rename_i hv
      simp only [Option.some.injEq, Prod.mk.injEq] at ha
      obtain ⟨rfl, rfl⟩ := ha
      refine ⟨none, hb, by simpa [APC.ev] using hl, rfl, rfl, ?_⟩
      have hlt : i < (firsts us).length := by
        by_contra hge
        rw [(hb.fresh i x hx (by omega)).1] at hv
        cases hv
      obtain ⟨y, y1, y2, _⟩ := hb.used i _ (List.getElem?_eq_getElem hlt)
      rw [hx] at y1
      cases y1
      rw [List.getElem?_eq_getElem hlt, ← y2, hv]
    · rename_i hv
      have hne : (firsts us)[i]? ≠ some w := by
        intro h'
        obtain ⟨y, y1, y2, _⟩ := hb.used i _ h'
        rw [hx] at y1
        cases y1
        exact hv y2
      split at ha
      · rename_i h0
        simp only [Option.some.injEq, Prod.mk.injEq] at ha
        obtain ⟨rfl, rfl⟩ := ha
        have := h4.mp h0
        exact ⟨none, hb, by simpa [APC.ev] using hl, rfl, rfl, by omega, not_mem fun j hj => h2 j (by omega), h3⟩
      · rename_i h0
        simp only [Option.some.injEq, Prod.mk.injEq] at ha
        obtain ⟨rfl, rfl⟩ := ha
        have : ¬ (firsts us).length ≤ i := fun h' => h0 (h4.mpr h')
        refine ⟨none, hb, by simpa [APC.ev] using hl, rfl, rfl, by omega, fun j hj => ?_⟩
        by_cases e : j = i
        · subst e; exact hne
        · exact h2 j (by omega)
  | incrExists w i =>
    rw [hpc] at ha hp
    obtain ⟨rfl, rfl, h1⟩ := hp
    obtain ⟨x, hx, _, _⟩ := hb.used i _ h1
    have hroom := hr i x hx
    simp only [addStep, incrAt, incr_ok hx (show x.refs < usizeSize - 1 by unfold usizeSize; omega),
      Option.some.injEq, Prod.mk.injEq] at ha
    obtain ⟨rfl, rfl⟩ := ha
    refine .inr ⟨?_, hl.done w i (by rw [snoc_old h1]; exact h1), rfl⟩
    have := hb.bump (get_lt h1) hx
    exact ⟨this.wf, by rw [snoc_old h1]; exact this.used, by rw [snoc_old h1]; exact this.fresh,
      by rw [snoc_old h1]; exact this.room⟩
  | incrDead w i =>
    rw [hpc] at ha hp
    obtain ⟨rfl, rfl, h1, h2, h3⟩ := hp
    obtain ⟨x, hx⟩ := (at_isSome hb.wf i).mpr h3
    have hroom := hr i x hx
    simp only [addStep, incrAt, incr_ok hx (show x.refs < usizeSize - 1 by unfold usizeSize; omega),
      Option.some.injEq, Prod.mk.injEq] at ha
    obtain ⟨rfl, rfl⟩ := ha
    exact .inl ⟨some i, hb.count h1 hx, by simpa [APC.ev] using hl, rfl, rfl, h1, h2, _,
      by rw [at_setSlot _ _ _ ⟨x, hx⟩, if_pos rfl], by simp⟩
  | setDead w i =>
    rw [hpc] at ha hp
    obtain ⟨rfl, rfl, h1, h2, x, hx, hx1⟩ := hp
    simp only [addStep, setAt_ok hx, Option.some.injEq, Prod.mk.injEq] at ha
    obtain ⟨rfl, rfl⟩ := ha
    refine .inr ⟨hb.write h1 hx hx1 h2, hl.done w i ?_, rfl⟩
    rw [snoc_new h2, List.getElem?_append_right (by omega), h1]
    simp
  | pushChunk w =>
    rw [hpc] at ha hp
    obtain ⟨rfl, rfl, h1, h2⟩ := hp
    simp only [addStep, Option.some.injEq, Prod.mk.injEq] at ha
    obtain ⟨rfl, rfl⟩ := ha
    refine .inl ⟨none, ⟨wf_append hb.wf, fun i u hi => ?_, fun i x hx hi => ?_, by simp; omega⟩,
      by simpa [APC.ev] using hl, rfl, rfl, ?_, h2, ?_⟩
    · have := get_lt hi
      rw [at_append, if_pos (by omega)]
      exact hb.used i u hi
    · rw [at_append, if_neg (by omega)] at hx
      split at hx
      · cases hx
        simp [newUninit]
      · cases hx
    · simp only [Nat.add_sub_cancel]; omega
    · simp only [Nat.add_sub_cancel, List.length_append, List.length_singleton]; omega
  | incrNew w len =>
    rw [hpc] at ha hp
    obtain ⟨rfl, rfl, h1, h2, h3⟩ := hp
    obtain ⟨x, hx⟩ := (at_isSome hb.wf _).mpr h3
    have hroom := hr _ x hx
    simp only [addStep, incrAt, incr_ok hx (show x.refs < usizeSize - 1 by unfold usizeSize; omega),
      Option.some.injEq, Prod.mk.injEq] at ha
    obtain ⟨rfl, rfl⟩ := ha
    exact .inl ⟨_, hb.count h1 hx, by simpa [APC.ev] using hl, rfl, rfl, h1, h2, _,
      by rw [at_setSlot _ _ _ ⟨x, hx⟩, if_pos rfl], by simp⟩
  | setNew w len =>
    rw [hpc] at ha hp
    obtain ⟨rfl, rfl, h1, h2, x, hx, hx1⟩ := hp
    simp only [addStep, setAt_ok hx, Option.some.injEq, Prod.mk.injEq] at ha
    obtain ⟨rfl, rfl⟩ := ha
    refine .inr ⟨hb.write h1 hx hx1 h2, hl.done w _ ?_, rfl⟩
    rw [snoc_new h2, List.getElem?_append_right (by omega), h1]
    simp

private theorem turns_inv {m : Mode} {c : Nat} {vs : List T} {s : Sys T}
    (h : Turns m ⟨withCapacity c, fun _ => .idle, []⟩ vs s) : TInv vs s := by
  induction h with
  | refl =>
    refine ⟨[], none, ⟨wf_withCapacity c, by simp [firsts], fun i x hx _ => ?_, by simp [firsts]⟩, ⟨by simp, by simp⟩,
      .inl ⟨rfl, rfl, fun _ => rfl⟩⟩
    rw [at_withCapacity c i x hx]
    simp [newUninit]
  | @start vs b t v _ hr ih =>
    obtain ⟨us, e, hb, hl, ⟨rfl, rfl, _⟩ | ⟨t', _, _, hp, _⟩⟩ := ih
    · refine ⟨us, none, hb, hl, .inr ⟨t, v, rfl, ?_, fun t' ht' => ?_⟩⟩
      · simp [Pos]
      · simpa [Function.update_of_ne ht'] using hr t'
    · have := pos_busy hp
      rw [hr t'] at this
      cases this
  | @run vs b t st' pc' _ hroom ha ih =>
    obtain ⟨us, e, hb, hl, ⟨rfl, rfl, hr⟩ | ⟨t', v, rfl, hp, hr⟩⟩ := ih
    · exfalso
      have := hr t
      cases hpc : b.pc t <;> rw [hpc] at this ha <;> simp [APC.ready, addStep] at this ha
    · have ht : t = t' := by
        by_contra hne
        have := hr t hne
        cases hpc : b.pc t <;> rw [hpc] at this ha <;> simp [APC.ready, addStep] at this ha
      subst ht
      rcases busy_run hb hl hp hroom ha with ⟨e', h1, h2, h3⟩ | ⟨h1, h2, h3⟩
      · exact ⟨us, e', h1, h2, .inr ⟨t, v, rfl, by simpa using h3, fun t' ht' => by
          simpa [Function.update_of_ne ht'] using hr t' ht'⟩⟩
      · refine ⟨us ++ [v], none, h1, h2, .inl ⟨rfl, rfl, fun t' => ?_⟩⟩
        by_cases e : t' = t
        · subst e; simpa using h3
        · simpa [Function.update_of_ne e] using hr t' e
  | @clone vs b t i _ hroom hready held ih =>
    obtain ⟨us, e, hb, hl, hcase⟩ := ih
    have hi : i < (firsts us).length := by
      have hp : 0 < gained i b.log := by omega
      unfold gained at hp
      obtain ⟨ev, he, hm⟩ := List.countP_pos_iff.mp hp
      cases ev with
      | add v id => simp only [beq_iff_eq] at hm; subst hm; exact get_lt (hl.add v _ he)
      | incr id => simp only [beq_iff_eq] at hm; subst hm; exact hl.incr _ he
      | decr id => simp at hm
    obtain ⟨x, hx, _, _⟩ := hb.used i _ (List.getElem?_eq_getElem hi)
    have hx' := hroom i x hx
    have eq : incrAt m b.store i (b.pc t) = (setSlot b.store (offsetToIdx i) { x with refs := x.refs + 1 }, b.pc t) := by
      simp only [incrAt, incr_ok hx (show x.refs < usizeSize - 1 by unfold usizeSize; omega)]
    rw [eq]
    simp only [Function.update_eq_self]
    refine ⟨us, e, hb.bump hi hx, ⟨fun v j hj => ?_, fun j hj => ?_⟩, ?_⟩
    · simp only [List.mem_append, List.mem_singleton, reduceCtorEq, or_false] at hj
      exact hl.add v j hj
    · simp only [List.mem_append, List.mem_singleton, Ev.incr.injEq] at hj
      rcases hj with hj | rfl
      · exact hl.incr j hj
      · exact hi
    · rcases hcase with hc | ⟨t', v, h1, h2, h3⟩
      · exact .inl hc
      · refine .inr ⟨t', v, h1, ?_, h3⟩
        have hlen := (wf_setSlot hb.wf (offsetToIdx i) { x with refs := x.refs + 1 }).2
        have hat : ∀ j, (firsts us).length ≤ j →
            at_ (setSlot b.store (offsetToIdx i) { x with refs := x.refs + 1 }) j = at_ b.store j := by
          intro j hj
          rw [at_setSlot _ _ _ ⟨x, hx⟩, if_neg (by omega)]
        cases hpc : b.pc t' <;> rw [hpc] at h2 <;> simp only [Pos, hlen] at h2 ⊢ <;>
          first | exact h2 | (rw [hat _ (by omega)]; exact h2)

/-- C198: what holds for any number of threads that take turns to add and drop nothing: every id is the number of
different values added before its value, so it is below the number of different values, and reads as its value.
(The claim is also about additions at the same time, and about values that are dropped.) -/
theorem C198_turns_partial (m : Mode) (c : Nat) (vs : List T) (s : Sys T)
    (h : Turns m ⟨withCapacity c, fun _ => .idle, []⟩ vs s) (v : T) (i : Nat) (hi : Ev.add v i ∈ s.log) :
    i = (firsts vs).idxOf v ∧ i < (firsts vs).length ∧ get s.store i = .ok v := by
  obtain ⟨us, e, hb, hl, hcase⟩ := turns_inv h
  have h1 := hl.add v i hi
  obtain ⟨x, hx, hx1, hx2⟩ := hb.used i v h1
  have h2 : (firsts vs)[i]? = some v := by
    rcases hcase with ⟨rfl, _⟩ | ⟨_, w, rfl, _⟩
    · exact h1
    · obtain ⟨r, hr⟩ := firsts_prefix us [w]
      rw [← hr, List.getElem?_append_left (get_lt h1)]
      exact h1
  refine ⟨?_, get_lt h2, ?_⟩
  · obtain ⟨hlt, rfl⟩ := List.getElem?_eq_some_iff.mp h2
    exact (List.Nodup.idxOf_getElem (nodup_firsts vs) i hlt).symm
  · unfold Intern.get tryGet
    rw [slot_eq, hx]
    simp only [Res.ofOption, Res.bind]
    rw [if_neg (by omega), hx1]

-- hypotheses met: thread 0 adds 5, thread 1 clones it, thread 1 adds 5 too
example : ∃ s : Sys Nat, Turns .debug ⟨withCapacity 1, fun _ => .idle, []⟩ [5, 5] s ∧
    s.log = [.add 5 0, .incr 0, .add 5 0] := by
  have r : ∀ (l : List (Ev Nat)) (pc : Nat → APC Nat) (k : Nat) (o : Option Nat), k < 2 ^ 64 - 1 →
      Roomy ⟨[⟨k, o⟩ :: List.replicate 31 newUninit], pc, l⟩ := by
    intro l pc k o hk i x hx
    change at_ [⟨k, o⟩ :: List.replicate 31 newUninit] i = some x at hx
    unfold at_ at hx
    cases h : i / 32 with
    | zero =>
      rw [h] at hx
      simp only [List.getElem?_cons_zero, Option.bind_some] at hx
      have := List.mem_of_getElem? hx
      rcases List.mem_cons.mp this with rfl | h'
      · exact hk
      · rw [(List.mem_replicate.mp h').2]; simp [newUninit]
    | succ n => rw [h] at hx; simp at hx
  have h0 : 0 < 2 ^ 64 - 1 := by decide
  have h1 : 1 < 2 ^ 64 - 1 := by decide
  have h2 : 2 < 2 ^ 64 - 1 := by decide
  have a1 := Turns.start (m := .debug) 0 5 (.refl (a := ⟨withCapacity 1, fun _ => .idle, []⟩)) (fun _ => rfl)
  have a2 := a1.run 0 _ _ (r _ _ 0 none h0) rfl
  have a3 := a2.run 0 _ _ (r _ _ 0 none h0) rfl
  have a4 := a3.run 0 _ _ (r _ _ 0 none h0) rfl
  have a5 := a4.run 0 _ _ (r _ _ 0 none h0) rfl
  have a6 := a5.run 0 _ _ (r _ _ 1 none h1) rfl
  have a7 := a6.clone 1 0 (r _ _ 1 (some 5) h1) rfl (by decide)
  have a8 := a7.start 1 5 (fun t => by
    match t with
    | 0 => rfl
    | 1 => rfl
    | _ + 2 => rfl)
  have a9 := a8.run 1 _ _ (r _ _ 2 (some 5) h2) rfl
  have b1 := a9.run 1 _ _ (r _ _ 2 (some 5) h2) rfl
  have b2 := b1.run 1 _ _ (r _ _ 2 (some 5) h2) rfl
  have b3 := b2.run 1 _ _ (r _ _ 2 (some 5) h2) rfl
  exact ⟨_, b3, rfl⟩

end Verif
