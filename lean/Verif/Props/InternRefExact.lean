import Verif.Props.InternRef

/-!
# References into the interner: exactly which calls are undefined (C160)
-/

set_option linter.unusedSectionVars false

namespace Verif

namespace InternRef

open Intern

variable {T : Type} [DecidableEq T]

/-- What the caller knows after a call: for each id, the value of the latest `add` that returned it. -/
def told (last : Nat → Option T) : Act T → World T → Nat → Option T
  | .add v, w' => fun i => if w'.ids.head? = some i then some v else last i
  | _, _ => last

/-- The worlds that any calls lead to, with what the caller knows, while no count is at its maximum and nothing has
been undefined. -/
inductive Knows (m : Mode) (n : Nat) : (Nat → Option T) → World T → Prop
  | start : Knows m n (fun _ => none) (start n)
  | step {last : Nat → Option T} {w w' : World T} (a : Act T) (hr : Knows m n last w) (hs : Small w)
      (h : act m w a = .of (.ok w')) : Knows m n (told last a w') w'

/-- The calls that are undefined: getting an id that is counted and that no `add` has returned; and adding a value
when the first id without references, for which a reference is still in use, comes before the value. -/
def Undefined (last : Nat → Option T) (w : World T) : Act T → Prop
  | .get i | .tryGet i => last i = none ∧ ∃ k, 1 ≤ k ∧ refcount w.store i = .ok k
  | .add v => ∃ i ∈ w.reads, refcount w.store i = .ok 0 ∧ last i ≠ some v ∧
      ∀ j < i, refcount w.store j ≠ .ok 0 ∧ last j ≠ some v
  | _ => False

private theorem rc_at {st : Store T} {i : Nat} {s : Slot T} (h : at_ st i = some s) :
    refcount st i = .ok s.refs := by
  unfold refcount
  rw [slot_eq, h]; rfl

private theorem rc_ok {st : Store T} {i k : Nat} (h : refcount st i = .ok k) :
    ∃ s, at_ st i = some s ∧ s.refs = k := by
  unfold refcount at h
  rw [slot_eq] at h
  cases hs : at_ st i with
  | none => rw [hs] at h; simp [Res.ofOption, Res.bind] at h
  | some s =>
    rw [hs] at h
    simp only [Res.ofOption, Res.bind, Res.ok.injEq] at h
    exact ⟨s, rfl, h⟩

private theorem sm_at {w : World T} (h : Small w) : ∀ i s, at_ w.store i = some s → s.refs < usizeSize - 1 :=
  fun i s hs => by
    have := h i _ (rc_at hs)
    unfold usizeSize
    exact this

private theorem incr_sm (m : Mode) {s : Slot T} (hs : s.refs < usizeSize - 1) :
    incrInner m s = .ok { s with refs := s.refs + 1 } := by
  unfold incrInner
  rw [if_neg (by omega)]

/-- The value in a slot, with or without references. -/
private def shown (st : Store T) (i : Nat) : Option T := (at_ st i).bind Slot.val

private structure Knowing (last : Nat → Option T) (w : World T) : Prop where
  wf : WF w.store
  same : ∀ i, shown w.store i = last i
  read : ∀ i ∈ w.reads, last i ≠ none

/-- One call: whether it is undefined, and otherwise what it keeps. -/
private def Does (m : Mode) (last : Nat → Option T) (w : World T) (a : Act T) : Prop :=
  (act m w a = .ub ↔ Undefined last w a) ∧ ∀ w', act m w a = .of (.ok w') →
    Knowing (told last a w') w' ∧ ∀ i ∈ w.reads, told last a w' i = last i

private theorem shown_at {st : Store T} {i : Nat} {s : Slot T} (h : at_ st i = some s) : shown st i = s.val := by
  unfold shown; rw [h]; rfl

private theorem does_add (m : Mode) {last : Nat → Option T} {w : World T} (h : Knowing last w) (hs : Small w)
    (v : T) : Does m last w (.add v) := by
  obtain ⟨st, id, a1, a2, a3⟩ := add_spec h.wf m v (sm_at hs)
  have hslot : ∀ i ∈ w.reads, ∃ s, at_ w.store i = some s := by
    intro i hi
    cases hx : at_ w.store i with
    | some s => exact ⟨s, rfl⟩
    | none => exact absurd ((h.same i).symm.trans (by unfold shown; rw [hx]; rfl)) (h.read i hi)
  -- what is known afterwards
  have after : (id ∈ w.reads → last id = some v) →
      Knowing (told last (.add v) { w with store := st, ids := id :: w.ids }) { w with store := st, ids := id :: w.ids } ∧
      ∀ i ∈ w.reads, told last (.add v) { w with store := st, ids := id :: w.ids } i = last i := by
    intro hk
    have hkeep : ∀ i ∈ w.reads, told last (.add v) { w with store := st, ids := id :: w.ids } i = last i := by
      intro i hi
      simp only [told, List.head?_cons, Option.some.injEq]
      split
      · rename_i he; subst he; exact (hk hi).symm
      · rfl
    refine ⟨⟨a2, fun i => ?_, fun i hi => by rw [hkeep i hi]; exact h.read i hi⟩, hkeep⟩
    simp only [told, List.head?_cons, Option.some.injEq]
    rw [← h.same i]
    unfold shown
    rcases a3 with ⟨s, b1, b2, -, b4, b5⟩ | ⟨b1, b2, -, b5⟩
    · rw [b5]
      by_cases he : i = id
      · rw [if_pos he, if_pos he.symm]; rfl
      · rw [if_neg he, if_neg (Ne.symm he)]
    · rw [b5]
      by_cases he : i = id
      · rw [if_pos he, if_pos he.symm]; rfl
      · rw [if_neg he, if_neg (Ne.symm he), at_append]
        split
        · rfl
        · rename_i hl
          have : at_ w.store i = none := by
            cases hx : at_ w.store i with
            | none => rfl
            | some s => exact absurd ((at_isSome h.wf i).mp ⟨s, hx⟩) hl
          rw [this]
          split <;> rfl
  unfold Does
  change (InternRef.add m w v = .ub ↔ _) ∧ ∀ w', InternRef.add m w v = .of (.ok w') → _
  unfold InternRef.add
  rw [a1]
  rcases find_spec h.wf v with ⟨f1, f2⟩ | ⟨a, b, s, hb, g1, g2, g3⟩
  · rw [f1]
    have hid : id = 32 * w.store.length := by
      rcases a3 with ⟨s, b1, b2, -⟩ | ⟨b1, -⟩
      · rcases b2 with b2 | b2
        · exact absurd b2 (f2 id s b1).1
        · exact absurd b2 (f2 id s b1).2
      · exact b1
    have hnot : id ∉ w.reads := fun hi => by
      obtain ⟨s, hx⟩ := hslot id hi
      have := (at_isSome h.wf id).mp ⟨s, hx⟩
      omega
    simp only [hnot, if_false]
    refine ⟨⟨nofun, ?_⟩, fun w' hw => ?_⟩
    · rintro ⟨i, _, h1, _⟩
      obtain ⟨s, h2, h3⟩ := rc_ok h1
      exact absurd h3 (f2 i s h2).2
    · cases hw
      exact after fun hi => absurd hi hnot
  · rcases g3 with ⟨g4, g5⟩ | ⟨g4, g5, g6⟩
    · rw [g5]
      have hid : id = a * 32 + b := by
        rcases a3 with ⟨s', b1, b2, -, b4, -⟩ | ⟨-, b2, -⟩
        · rcases Nat.lt_trichotomy id (a * 32 + b) with hlt | heq | hgt
          · rcases b2 with b2 | b2
            · exact absurd b2 (g2 id hlt s' b1).1
            · exact absurd b2 (g2 id hlt s' b1).2
          · exact heq
          · exact absurd g4 (b4 _ hgt s g1).1
        · exact absurd g4 (b2 _ s g1).1
      have hl : last (a * 32 + b) = some v := by rw [← h.same, shown_at g1, g4]
      refine ⟨⟨nofun, ?_⟩, fun w' hw => ?_⟩
      · rintro ⟨i, _, h1, h2, h3⟩
        obtain ⟨o, h4, h5⟩ := rc_ok h1
        rcases Nat.lt_trichotomy i (a * 32 + b) with hlt | heq | hgt
        · exact absurd h5 (g2 i hlt o h4).2
        · exact absurd (heq ▸ hl) h2
        · exact absurd hl (h3 _ hgt).2
      · cases hw
        exact after fun _ => hid ▸ hl
    · rw [g6]
      have hid : id = a * 32 + b := by
        rcases a3 with ⟨s', b1, b2, -, b4, -⟩ | ⟨-, b2, -⟩
        · rcases Nat.lt_trichotomy id (a * 32 + b) with hlt | heq | hgt
          · rcases b2 with b2 | b2
            · exact absurd b2 (g2 id hlt s' b1).1
            · exact absurd b2 (g2 id hlt s' b1).2
          · exact heq
          · exact absurd g5 (b4 _ hgt s g1).2
        · exact absurd g5 (b2 _ s g1).2
      have hl : last id ≠ some v := by rw [hid, ← h.same, shown_at g1]; exact g4
      have hrc : refcount w.store id = .ok 0 := by rw [hid, rc_at g1, g5]
      by_cases hin : id ∈ w.reads
      · simp only [hin, if_true]
        refine ⟨⟨fun _ => ⟨id, hin, hrc, hl, fun j hj => ?_⟩, fun _ => trivial⟩, nofun⟩
        rw [hid] at hj
        constructor
        · intro hc
          obtain ⟨o, h4, h5⟩ := rc_ok hc
          exact (g2 j hj o h4).2 h5
        · intro hc
          rw [← h.same j] at hc
          unfold shown at hc
          cases hx : at_ w.store j with
          | none => rw [hx] at hc; cases hc
          | some o => rw [hx] at hc; exact (g2 j hj o hx).1 hc
      · simp only [hin, if_false]
        refine ⟨⟨nofun, ?_⟩, fun w' hw => ?_⟩
        · rintro ⟨i, hi, h1, h2, h3⟩
          obtain ⟨o, h4, h5⟩ := rc_ok h1
          rcases Nat.lt_trichotomy i id with hlt | heq | hgt
          · exact absurd h5 (g2 i (hid ▸ hlt) o h4).2
          · exact absurd (heq ▸ hi) hin
          · exact absurd hrc (h3 id hgt).1
        · cases hw
          exact after fun hi => absurd hi hin

/-- A change of counts only. -/
private theorem counts_only {last : Nat → Option T} {w : World T} (h : Knowing last w) (st : Store T)
    (hwf : WF st) (hat : ∀ i, shown st i = shown w.store i) : Knowing last { w with store := st } :=
  ⟨hwf, fun i => (hat i).trans (h.same i), h.read⟩

private theorem shown_set {st : Store T} {i : Nat} {s : Slot T} (k : Nat) (h : at_ st i = some s) (j : Nat) :
    shown (setSlot st (offsetToIdx i) { s with refs := k }) j = shown st j := by
  unfold shown
  rw [at_setSlot _ _ _ ⟨s, h⟩]
  by_cases he : j = i
  · rw [if_pos he, he, h]; rfl
  · rw [if_neg he]

private theorem shown_set' {st : Store T} {a b : Nat} (hb : b < 32) {s : Slot T} (k : Nat)
    (h : at_ st (a * 32 + b) = some s) (j : Nat) :
    shown (setSlot st (a, b) { s with refs := k }) j = shown st j := by
  unfold shown
  rw [at_setSlot' _ _ _ hb _ ⟨s, h⟩]
  by_cases he : j = a * 32 + b
  · rw [if_pos he, he, h]; rfl
  · rw [if_neg he]

private theorem does_addPanics (m : Mode) {last : Nat → Option T} {w : World T} (h : Knowing last w)
    (hs : Small w) (v : T) : Does m last w (.addPanics v) := by
  unfold Does
  change (InternRef.addPanics m w v = .ub ↔ False) ∧ ∀ w', InternRef.addPanics m w v = .of (.ok w') → _
  unfold InternRef.addPanics
  rcases find_spec h.wf v with ⟨f1, f2⟩ | ⟨a, b, s, hb, g1, g2, g3⟩
  · rw [f1]
    simp only [List.length_append, List.length_singleton, Nat.add_sub_cancel]
    have hnew : at_ (w.store ++ [newChunk]) (w.store.length * 32 + 0) = some newUninit := by
      rw [at_append, if_neg (by omega), if_pos (by omega)]
    rw [slot_eq' _ _ _ (by omega), hnew]
    simp only [Res.ofOption, Res.bind]
    rw [incr_sm m (by unfold newUninit usizeSize; simp)]
    refine ⟨⟨nofun, False.elim⟩, fun w' hw => ?_⟩
    cases hw
    refine ⟨counts_only h _ (wf_setSlot (wf_append h.wf) _ _).1 fun i => ?_, fun _ _ => rfl⟩
    rw [shown_set' (by omega) _ hnew]
    unfold shown
    rw [at_append]
    split
    · rfl
    · rename_i hl
      have : at_ w.store i = none := by
        cases hx : at_ w.store i with
        | none => rfl
        | some s => exact absurd ((at_isSome h.wf i).mp ⟨s, hx⟩) hl
      rw [this]
      split <;> rfl
  · rcases g3 with ⟨g4, g5⟩ | ⟨-, g5, g6⟩
    · rw [g5]
      obtain ⟨e1, e2⟩ := does_add m h hs v
      change (InternRef.add m w v = .ub ↔ False) ∧ ∀ w', InternRef.add m w v = .of (.ok w') → _
      have hl : last (a * 32 + b) = some v := by rw [← h.same, shown_at g1, g4]
      constructor
      · refine ⟨fun hc => ?_, False.elim⟩
        obtain ⟨i, _, h1, h2, h3⟩ := e1.mp hc
        obtain ⟨o, h4, h5⟩ := rc_ok h1
        rcases Nat.lt_trichotomy i (a * 32 + b) with hlt | heq | hgt
        · exact absurd h5 (g2 i hlt o h4).2
        · exact absurd (heq ▸ hl) h2
        · exact absurd hl (h3 _ hgt).2
      · intro w' hw
        obtain ⟨⟨k1, k2, k3⟩, k4⟩ := e2 w' hw
        -- the value was there before
        have hsame : told last (.add v) w' = last := by
          funext i
          unfold InternRef.add at hw
          rw [g5] at hw
          unfold Intern.add at hw
          rw [g5] at hw
          simp only at hw
          rw [slot_eq' _ _ _ hb, g1] at hw
          simp only [Res.ofOption, Res.bind] at hw
          rw [incr_sm m (sm_at hs _ s g1)] at hw
          cases hw
          simp only [told, List.head?_cons, Option.some.injEq]
          split
          · rename_i he; rw [← he, hl]
          · rfl
        rw [hsame] at k2 k3
        exact ⟨⟨k1, k2, k3⟩, fun _ _ => rfl⟩
    · rw [g6]
      simp only
      rw [slot_eq' _ _ _ hb, g1]
      simp only [Res.ofOption, Res.bind]
      rw [incr_sm m (sm_at hs _ s g1)]
      refine ⟨⟨nofun, False.elim⟩, fun w' hw => ?_⟩
      cases hw
      exact ⟨counts_only h _ (wf_setSlot h.wf _ _).1 (shown_set' hb _ g1), fun _ _ => rfl⟩

private theorem tryGet_out {last : Nat → Option T} {w : World T} (h : Knowing last w) (i : Nat) :
    (InternRef.tryGet w i = .ub ∧ Undefined last w (.get i)) ∨
    (¬ Undefined last w (.get i) ∧ (InternRef.tryGet w i = .of .panic ∨ InternRef.tryGet w i = .of (.ok (w, none)) ∨
      ∃ v, last i = some v ∧ InternRef.tryGet w i = .of (.ok ({ w with reads := i :: w.reads }, some v)))) := by
  unfold InternRef.tryGet
  rw [slot_eq]
  have hsm := h.same i
  unfold shown at hsm
  cases hx : at_ w.store i with
  | none =>
    refine .inr ⟨?_, .inl rfl⟩
    rintro ⟨_, k, _, hk⟩
    obtain ⟨s, h1, _⟩ := rc_ok hk
    rw [hx] at h1; cases h1
  | some s =>
    rw [hx] at hsm
    change s.val = last i at hsm
    simp only [Res.ofOption]
    by_cases h0 : s.refs = 0
    · rw [if_pos h0]
      refine .inr ⟨?_, .inr (.inl rfl)⟩
      rintro ⟨_, k, hk, hk'⟩
      rw [rc_at hx, Res.ok.injEq] at hk'
      omega
    · rw [if_neg h0]
      unfold InternRef.val
      cases hv : s.val with
      | none => exact .inl ⟨rfl, by rw [← hsm, hv], s.refs, by omega, rc_at hx⟩
      | some v =>
        refine .inr ⟨?_, .inr (.inr ⟨v, by rw [← hsm, hv], rfl⟩)⟩
        rintro ⟨hc, _⟩
        rw [← hsm, hv] at hc; cases hc

private theorem reading {last : Nat → Option T} {w : World T} (h : Knowing last w) {i : Nat} {v : T}
    (hl : last i = some v) : Knowing last { w with reads := i :: w.reads } := by
  refine ⟨h.wf, h.same, fun j hj => ?_⟩
  rcases List.mem_cons.mp hj with rfl | hj
  · rw [hl]; nofun
  · exact h.read j hj

private theorem does (m : Mode) {last : Nat → Option T} {w : World T} (h : Knowing last w) (hs : Small w)
    (a : Act T) : Does m last w a := by
  cases a with
  | add v => exact does_add m h hs v
  | addPanics v => exact does_addPanics m h hs v
  | incr i =>
    refine ⟨⟨fun hc => by simp [act, InternRef.incr] at hc, False.elim⟩, fun w' hw => ⟨?_, fun _ _ => rfl⟩⟩
    change InternRef.incr m w i = .of (.ok w') at hw
    unfold InternRef.incr Intern.incr at hw
    rw [slot_eq] at hw
    cases k1 : at_ w.store i with
    | none => rw [k1] at hw; simp [Res.ofOption, Res.bind] at hw
    | some s =>
      rw [k1] at hw
      simp only [Res.ofOption, Res.bind] at hw
      rw [incr_sm m (sm_at hs i s k1)] at hw
      cases hw
      exact counts_only h _ (wf_setSlot h.wf _ _).1 (shown_set _ k1)
  | decr i =>
    refine ⟨⟨fun hc => by simp [act, InternRef.decr] at hc, False.elim⟩, fun w' hw => ⟨?_, fun _ _ => rfl⟩⟩
    change InternRef.decr w i = .of (.ok w') at hw
    unfold InternRef.decr Intern.decr at hw
    rw [slot_eq] at hw
    cases k1 : at_ w.store i with
    | none => rw [k1] at hw; simp [Res.ofOption, Res.bind] at hw
    | some s =>
      rw [k1] at hw
      simp only [Res.ofOption, Res.bind] at hw
      cases hw
      exact counts_only h _ (wf_setSlot h.wf _ _).1 (shown_set _ k1)
  | tryGet i =>
    unfold Does
    change _ ∧ ∀ w', _ → Knowing last w' ∧ ∀ j ∈ w.reads, last j = last j
    simp only [act]
    rcases tryGet_out h i with ⟨e, hu⟩ | ⟨hu, e | e | ⟨v, hv, e⟩⟩ <;> rw [e]
    · exact ⟨⟨fun _ => hu, fun _ => rfl⟩, nofun⟩
    · exact ⟨⟨nofun, fun hc => absurd hc hu⟩, nofun⟩
    · exact ⟨⟨nofun, fun hc => absurd hc hu⟩, fun w' hw => by cases hw; exact ⟨h, fun _ _ => trivial⟩⟩
    · exact ⟨⟨nofun, fun hc => absurd hc hu⟩, fun w' hw => by cases hw; exact ⟨reading h hv, fun _ _ => trivial⟩⟩
  | get i =>
    unfold Does
    change _ ∧ ∀ w', _ → Knowing last w' ∧ ∀ j ∈ w.reads, last j = last j
    simp only [act]
    unfold InternRef.get
    rcases tryGet_out h i with ⟨e, hu⟩ | ⟨hu, e | e | ⟨v, hv, e⟩⟩ <;> rw [e]
    · exact ⟨⟨fun _ => hu, fun _ => rfl⟩, nofun⟩
    · exact ⟨⟨nofun, fun hc => absurd hc hu⟩, nofun⟩
    · exact ⟨⟨nofun, fun hc => absurd hc hu⟩, nofun⟩
    · exact ⟨⟨nofun, fun hc => absurd hc hu⟩, fun w' hw => by cases hw; exact ⟨reading h hv, fun _ _ => trivial⟩⟩
  | release i =>
    refine ⟨⟨fun hc => by simp [act] at hc, False.elim⟩, fun w' hw => ⟨?_, fun _ _ => rfl⟩⟩
    simp only [act] at hw
    cases hw
    exact ⟨h.wf, h.same, fun j hj => h.read j (List.mem_of_mem_erase hj)⟩

private theorem knowing {m : Mode} {n : Nat} {last : Nat → Option T} {w : World T} (h : Knows m n last w) :
    Knowing last w := by
  induction h with
  | start =>
    refine ⟨wf_withCapacity n, fun i => ?_, by simp [start]⟩
    unfold shown
    cases hx : at_ (start n : World T).store i with
    | none => rfl
    | some s => rw [at_withCapacity n i s hx]; rfl
  | step a _ hs h ih => exact ((does m ih hs a).2 _ h).1

/-- C160, exactly: after any calls, with any ids, a call is undefined if and only if it is one of those of
`Undefined`; every other call leaves the values to which references are in use as the caller knows them, and a
reference refers to the value that was added. Counts stay below their maximum (C161). Missing, because false: that
no call is undefined. -/
theorem C160_exact_partial (m : Mode) (n : Nat) (last : Nat → Option T) (w : World T) (hr : Knows m n last w)
    (hs : Small w) (a : Act T) :
    (act m w a = .ub ↔ Undefined last w a) ∧
    (∀ w', act m w a = .of (.ok w') → ∀ i ∈ w.reads, ∃ v s s', last i = some v ∧
      at_ w.store i = some s ∧ s.val = some v ∧ at_ w'.store i = some s' ∧ s'.val = some v) ∧
    (∀ i w' v, InternRef.get w i = .of (.ok (w', v)) → last i = some v) := by
  have h := knowing hr
  obtain ⟨h1, h2⟩ := does m h hs a
  have look : ∀ {l : Nat → Option T} {x : World T}, Knowing l x → ∀ i v, l i = some v →
      ∃ s, at_ x.store i = some s ∧ s.val = some v := by
    intro l x hk i v hl
    have := hk.same i
    rw [hl] at this
    unfold shown at this
    cases hx : at_ x.store i with
    | none => rw [hx] at this; cases this
    | some s => rw [hx] at this; exact ⟨s, rfl, this⟩
  refine ⟨h1, fun w' hw i hi => ?_, fun i w' v hg => ?_⟩
  · obtain ⟨h3, h4⟩ := h2 w' hw
    obtain ⟨v, hv⟩ := Option.ne_none_iff_exists'.mp (h.read i hi)
    obtain ⟨s, k1, k2⟩ := look h i v hv
    obtain ⟨s', k3, k4⟩ := look h3 i v ((h4 i hi).trans hv)
    exact ⟨v, s, s', hv, k1, k2, k3, k4⟩
  · unfold InternRef.get at hg
    rcases tryGet_out h i with ⟨e, hu⟩ | ⟨hu, e | e | ⟨u, hu', e⟩⟩ <;> rw [e] at hg
    · cases hg
    · cases hg
    · cases hg
    · cases hg; exact hu'

/-- A reference to 5 is in use and its count has been given back: adding 6 is undefined, adding 5 again is not, and
getting id 1, which is not counted, is not. -/
example : ∃ (last : Nat → Option Nat) (w : World Nat), Knows .debug 0 last w ∧ Small w ∧ last 0 = some 5 ∧
    Undefined last w (.add 6) ∧ ¬ Undefined last w (.add 5) ∧ ¬ Undefined last w (.get 1) := by
  have small : ∀ (w : World Nat) (k : Nat), k < 2 → w.store = [⟨k, some 5⟩ :: List.replicate 31 newUninit] →
      Small w := by
    intro w k0 hk0 hw i k hk
    rw [hw] at hk
    unfold refcount slot offsetToIdx at hk
    rcases hi : i / 32 with _ | _
    · rw [hi] at hk
      have : i % 32 < 32 := Nat.mod_lt _ (by decide)
      interval_cases i % 32 <;> simp [Res.ofOption, Res.bind, newUninit] at hk <;> omega
    · rw [hi] at hk
      simp [Res.ofOption, Res.bind] at hk
  have h1 : Knows .debug 0 (told (fun _ => none) (.add 5) _)
      (⟨[⟨1, some 5⟩ :: List.replicate 31 newUninit], [], [0]⟩ : World Nat) :=
    .step (.add 5) .start (by intro i k hk; simp [start, withCapacity, refcount, slot, chunkSize, Res.ofOption, Res.bind] at hk) rfl
  have h2 : Knows .debug 0 (told _ (.get 0) _)
      (⟨[⟨1, some 5⟩ :: List.replicate 31 newUninit], [0], [0]⟩ : World Nat) :=
    .step (.get 0) h1 (small _ 1 (by norm_num) rfl) rfl
  have h3 : Knows .debug 0 (told _ (.decr 0) _)
      (⟨[⟨0, some 5⟩ :: List.replicate 31 newUninit], [0], [0]⟩ : World Nat) :=
    .step (.decr 0) h2 (small _ 1 (by norm_num) rfl) rfl
  have h4 := small ⟨[⟨0, some 5⟩ :: List.replicate 31 newUninit], [0], [0]⟩ 0 (by norm_num) rfl
  have h5 := fun a => (C160_exact_partial .debug 0 _ _ h3 h4 a).1
  refine ⟨_, _, h3, h4, rfl, (h5 (.add 6)).mp (by decide), fun h => ?_, fun h => ?_⟩
  · exact absurd ((h5 (.add 5)).mpr h) (by decide)
  · exact absurd ((h5 (.get 1)).mpr h) (by decide)

end InternRef

end Verif
