import Verif.Lemmas.InternConc

/-!
# Lemmas on `add` by threads that never meet at a slot, while other threads clone and drop
-/

set_option linter.unusedSectionVars false

namespace Verif

open Intern

variable {T : Type} [DecidableEq T]

/-- Slot `i` is being claimed by a thread at this place: counted, but not yet written. -/
def claims (i : Nat) : APC T → Prop
  | .setDead _ j => j = i
  | .setNew _ len => (len - 1) * 32 = i
  | _ => False

/-- What a thread inside `add` knows, whatever the others do to references they hold. -/
def AdderOk (s : Sys T) : APC T → Prop
  | .idle | .done .. | .scan .. | .pushChunk _ => True
  | .load _ i => ∃ x, at_ s.store i = some x
  | .check _ i count => ∃ x, at_ s.store i = some x ∧ (count = 0 → x.refs = 0)
  | .incrExists v i => ∃ x, at_ s.store i = some x ∧ x.val = some v
  | .incrDead _ i => ∃ x, at_ s.store i = some x ∧ x.refs = 0
  | .incrNew _ len => ∃ x, at_ s.store ((len - 1) * 32) = some x ∧ x.refs = 0
  | .setDead _ i => ∃ x, at_ s.store i = some x ∧ x.refs = 1 ∧ gained i s.log = lost i s.log
  | .setNew _ len => ∃ x, at_ s.store ((len - 1) * 32) = some x ∧ x.refs = 1 ∧
      gained ((len - 1) * 32) s.log = lost ((len - 1) * 32) s.log
  | .panicked => False

/-- A reference to slot `i` has been held without interruption since the add of `v` logged after
`l1`. -/
def HeldSince (l1 : List (Ev T)) (v : T) (i : Nat) (l2 : List (Ev T)) : Prop :=
  ∀ p, p <+: l2 → lost i (l1 ++ .add v i :: p) < gained i (l1 ++ .add v i :: p)

structure ShareInv (s : Sys T) : Prop where
  wf : WF s.store
  bal : ∀ i, lost i s.log ≤ gained i s.log
  ids : ∀ i, 0 < gained i s.log → ∃ x, at_ s.store i = some x
  count : ∀ i x, at_ s.store i = some x → (∀ t, ¬ claims i (s.pc t)) →
    x.refs + lost i s.log = gained i s.log
  vals : ∀ i l1 v l2, s.log = l1 ++ .add v i :: l2 → HeldSince l1 v i l2 →
    ∃ x, at_ s.store i = some x ∧ x.val = some v
  threads : ∀ t, AdderOk s (s.pc t)

/-- A thread that is not inside a call knows nothing and claims nothing. -/
theorem ready_ok (s : Sys T) {p : APC T} (h : p.ready = true) : AdderOk s p ∧ ∀ i, ¬ claims i p := by
  cases p <;> simp_all [APC.ready, AdderOk, claims]

theorem heldSince_held {l1 l2 : List (Ev T)} {v : T} {i : Nat} (h : HeldSince l1 v i l2) :
    lost i (l1 ++ .add v i :: l2) < gained i (l1 ++ .add v i :: l2) := h l2 (List.prefix_refl _)

/-- The last event split off. -/
theorem heldSince_init {l1 l2 : List (Ev T)} {v : T} {i : Nat} {l : List (Ev T)} {e : Ev T}
    (h : l ++ [e] = l1 ++ .add v i :: l2) (hh : HeldSince l1 v i l2) :
    (l2 = [] ∧ l = l1 ∧ e = .add v i) ∨
      ∃ l2', l2 = l2' ++ [e] ∧ l = l1 ++ .add v i :: l2' ∧ HeldSince l1 v i l2' := by
  rcases List.eq_nil_or_concat l2 with rfl | ⟨l2', e', rfl⟩
  · left
    have := List.append_inj' h rfl
    exact ⟨rfl, this.1, List.singleton_inj.mp this.2⟩
  · right
    rw [List.concat_eq_append] at h hh ⊢
    rw [show l1 ++ Ev.add v i :: (l2' ++ [e']) = (l1 ++ Ev.add v i :: l2') ++ [e'] by simp] at h
    have := List.append_inj' h rfl
    obtain rfl := List.singleton_inj.mp this.2
    exact ⟨l2', rfl, this.1, fun p hp => hh p (hp.trans (List.prefix_append _ _))⟩

/-- Cloning or dropping a held reference. -/
theorem share_touch {s : Sys T} (h : ShareInv s) {t i : Nat} {e : Ev T} {x : Slot T} {r : Nat}
    (hx : at_ s.store i = some x) (held : lost i s.log < gained i s.log)
    (he : ∀ v j, e ≠ .add v j)
    (hg : ∀ j, j ≠ i → gained j (s.log ++ [e]) = gained j s.log ∧
      lost j (s.log ++ [e]) = lost j s.log)
    (hbal : lost i (s.log ++ [e]) ≤ gained i (s.log ++ [e]))
    (hr : r + lost i (s.log ++ [e]) + gained i s.log =
      x.refs + lost i s.log + gained i (s.log ++ [e])) :
    ShareInv ⟨setSlot s.store (offsetToIdx i) { x with refs := r },
      Function.update s.pc t (s.pc t), s.log ++ [e]⟩ := by
  have hat := fun j => at_setSlot i j { x with refs := r } ⟨x, hx⟩
  have hnc : ∀ t, ¬ claims i (s.pc t) := by
    intro t hc
    have := h.threads t
    cases hp : s.pc t <;> rw [hp] at this hc <;> simp only [claims] at hc
    · subst hc
      obtain ⟨_, _, _, h1⟩ := this
      omega
    · subst hc
      obtain ⟨_, _, _, h1⟩ := this
      omega
  have hx0 := h.count i x hx hnc
  rw [Function.update_eq_self]
  refine ⟨(wf_setSlot h.wf _ _).1, ?_, ?_, ?_, ?_, ?_⟩
  · intro j
    by_cases hj : j = i
    · subst hj; exact hbal
    · dsimp only; rw [(hg j hj).1, (hg j hj).2]; exact h.bal j
  · intro j hj
    rw [hat]
    by_cases hji : j = i
    · subst hji; rw [if_pos rfl]; exact ⟨_, rfl⟩
    · rw [if_neg hji]
      dsimp only at hj
      rw [(hg j hji).1] at hj
      exact h.ids j hj
  · intro j y hy hc
    rw [hat] at hy
    by_cases hji : j = i
    · subst hji
      rw [if_pos rfl] at hy
      cases hy
      dsimp only
      omega
    · rw [if_neg hji] at hy
      dsimp only
      rw [(hg j hji).1, (hg j hji).2]
      exact h.count j y hy hc
  · intro j l1 v l2 hl hh
    rcases heldSince_init hl hh with ⟨_, _, h3⟩ | ⟨l2', _, h2, h3⟩
    · exact absurd h3 (he _ _)
    · obtain ⟨y, h4, h5⟩ := h.vals j l1 v l2' h2 h3
      rw [hat]
      by_cases hji : j = i
      · subst hji
        rw [hx] at h4
        cases h4
        exact ⟨_, if_pos rfl, h5⟩
      · exact ⟨y, by rw [if_neg hji]; exact h4, h5⟩
  · intro t'
    have ht := h.threads t'
    dsimp only
    have live : ∀ j y, at_ s.store j = some y → y.refs = 0 → j ≠ i := by
      rintro j y h1 h2 rfl
      rw [hx] at h1
      cases h1
      omega
    cases hp : s.pc t' <;> rw [hp] at ht <;> simp only [AdderOk] at ht ⊢
    · obtain ⟨y, hy⟩ := ht
      rw [hat]
      split
      · exact ⟨_, rfl⟩
      · exact ⟨y, hy⟩
    · obtain ⟨y, hy, h0⟩ := ht
      rename_i j count
      rw [hat]
      by_cases hj : j = i
      · subst hj
        rw [if_pos rfl]
        refine ⟨_, rfl, fun hc => ?_⟩
        exact absurd rfl (live j y hy (h0 hc))
      · rw [if_neg hj]; exact ⟨y, hy, h0⟩
    · obtain ⟨y, hy, h0⟩ := ht
      rename_i j
      rw [hat]
      by_cases hj : j = i
      · subst hj
        rw [hx] at hy
        cases hy
        exact ⟨_, if_pos rfl, h0⟩
      · rw [if_neg hj]; exact ⟨y, hy, h0⟩
    · obtain ⟨y, hy, h0⟩ := ht
      rw [hat, if_neg (live _ y hy h0)]
      exact ⟨y, hy, h0⟩
    · obtain ⟨y, hy, h0, h1⟩ := ht
      rename_i j
      have hj : j ≠ i := by rintro rfl; omega
      rw [hat, if_neg hj, (hg j hj).1, (hg j hj).2]
      exact ⟨y, hy, h0, h1⟩
    · obtain ⟨y, hy, h0⟩ := ht
      rw [hat, if_neg (live _ y hy h0)]
      exact ⟨y, hy, h0⟩
    · obtain ⟨y, hy, h0, h1⟩ := ht
      rename_i len
      have hj : (len - 1) * 32 ≠ i := by intro hc; rw [hc] at h1; omega
      rw [hat, if_neg hj, (hg _ hj).1, (hg _ hj).2]
      exact ⟨y, hy, h0, h1⟩

/-- No two threads inside `add` are at the same slot, unless both have found their value there. -/
def Apart (s : Sys T) : Prop :=
  ∀ t t' i, t ≠ t' → (s.pc t).target = some i → (s.pc t').target = some i →
    (s.pc t).found = true ∧ (s.pc t').found = true

theorem claims_target {p : APC T} {i : Nat} (h : claims i p) : p.target = some i ∧ p.found = false := by
  cases p <;> simp_all [claims, APC.target, APC.found]

/-- A thread that is not at slot `i` does not notice a change of it. -/
theorem adder_frame {s s' : Sys T} {p : APC T} {i : Nat} (h : AdderOk s p) (hp : p.target ≠ some i)
    (hat : ∀ j, j ≠ i → at_ s'.store j = at_ s.store j) (hi : ∃ x, at_ s'.store i = some x)
    (hlog : ∀ j, j ≠ i → gained j s'.log = gained j s.log ∧ lost j s'.log = lost j s.log) :
    AdderOk s' p := by
  cases p with
  | idle | done | scan | pushChunk => trivial
  | panicked => exact h
  | load v j =>
    by_cases hj : j = i
    · subst hj; exact hi
    · obtain ⟨x, hx⟩ := h; exact ⟨x, by rw [hat j hj]; exact hx⟩
  | check v j count =>
    by_cases hj : j = i
    · subst hj
      obtain ⟨y, hy⟩ := hi
      exact ⟨y, hy, fun hc => absurd (by rw [APC.target, if_pos hc]) hp⟩
    · obtain ⟨x, hx⟩ := h; exact ⟨x, by rw [hat j hj]; exact hx⟩
  | incrExists v j =>
    obtain ⟨x, hx⟩ := h
    exact ⟨x, by rw [hat j (fun e => hp (congrArg some e))]; exact hx⟩
  | incrDead v j =>
    obtain ⟨x, hx⟩ := h
    exact ⟨x, by rw [hat j (fun e => hp (congrArg some e))]; exact hx⟩
  | incrNew v len =>
    obtain ⟨x, hx⟩ := h
    exact ⟨x, by rw [hat _ (fun e => hp (congrArg some e))]; exact hx⟩
  | setDead v j =>
    obtain ⟨x, hx⟩ := h
    have e := fun e => hp (congrArg some e)
    exact ⟨x, by rw [hat j e, (hlog j e).1, (hlog j e).2]; exact hx⟩
  | setNew v len =>
    obtain ⟨x, hx⟩ := h
    have e := fun e => hp (congrArg some e)
    exact ⟨x, by rw [hat _ e, (hlog _ e).1, (hlog _ e).2]; exact hx⟩

/-- Nor does a thread notice a new chunk. -/
theorem adder_grow {s s' : Sys T} {p : APC T} (h : AdderOk s p)
    (hat : ∀ j x, at_ s.store j = some x → at_ s'.store j = some x) (hlog : s'.log = s.log) :
    AdderOk s' p := by
  cases p with
  | idle | done | scan | pushChunk => trivial
  | panicked => exact h
  | _ =>
    obtain ⟨x, hx⟩ := h
    first
    | exact ⟨x, hat _ _ hx⟩
    | exact ⟨x, hat _ _ hx.1, hx.2⟩
    | exact ⟨x, hat _ _ hx.1, by rw [hlog]; exact hx.2⟩

theorem share_step {m : Mode} {V : Nat → T → Prop} {I : Nat → Nat → Prop} {s s' : Sys T}
    (h : ShareInv s) (h1 : Apart s)
    (hb : ∀ i x, at_ s.store i = some x → x.refs < 2 ^ 64 - 1)
    (hs : SysStep m V I exactLen s s') : ShareInv s' := by
  cases hs with
  | start t v hv hrdy =>
    refine ⟨h.wf, h.bal, h.ids, ?_, h.vals, ?_⟩
    · intro i x hx hc
      refine h.count i x hx fun t' hc' => ?_
      by_cases ht : t' = t
      · subst ht; exact (ready_ok s hrdy).2 i hc'
      · have := hc t'
        dsimp only at this
        rw [Function.update_of_ne ht] at this
        exact this hc'
    · intro t'
      dsimp only
      by_cases ht : t' = t
      · subst ht; rw [Function.update_self]; trivial
      · rw [Function.update_of_ne ht]; exact h.threads t'
  | clone t i hi hrdy held =>
    obtain ⟨x, hx⟩ := h.ids i (by omega)
    rw [incrAt_ok hx (hb i x hx)]
    have hgi : gained i (s.log ++ [.incr i]) = gained i s.log + 1 := by rw [gained_append]; simp
    have hli : lost i (s.log ++ [.incr i]) = lost i s.log := by rw [lost_append]; rfl
    refine share_touch h hx held (fun _ _ hc => by cases hc) ?_ (by omega) (by omega)
    intro j hj
    rw [gained_append, lost_append]
    simp [Ne.symm hj]
  | drop t i hi hrdy held =>
    obtain ⟨x, hx⟩ := h.ids i (by omega)
    rw [decrAt_ok hx]
    have hgi : gained i (s.log ++ [.decr i]) = gained i s.log := by rw [gained_append]; rfl
    have hli : lost i (s.log ++ [.decr i]) = lost i s.log + 1 := by rw [lost_append]; simp
    have hx0 : 0 < x.refs := by
      by_contra hc
      have hnc : ∀ t, ¬ claims i (s.pc t) := by
        intro t hc
        have := h.threads t
        cases hp : s.pc t <;> rw [hp] at this hc <;> simp only [claims] at hc
        · subst hc
          obtain ⟨_, _, _, h1⟩ := this
          omega
        · subst hc
          obtain ⟨_, _, _, h1⟩ := this
          omega
      have := h.count i x hx hnc
      omega
    refine share_touch h hx held (fun _ _ hc => by cases hc) ?_ (by omega) (by omega)
    intro j hj
    rw [gained_append, lost_append]
    simp [Ne.symm hj]
  | run t ret st' pc' hr hrun =>
    have ht := h.threads t
    -- a thread that is not at the slot this one uses
    have hother : ∀ i, (s.pc t).target = some i → (s.pc t).found = false →
        ∀ t', t' ≠ t → (s.pc t').target ≠ some i := by
      intro i hi hf t' htt hc
      have := (h1 t t' i (Ne.symm htt) hi hc).1
      rw [hf] at this
      cases this
    -- nobody claims a slot if nobody claims it now and this thread did not before
    have hnc : ∀ i, ¬ claims i (s.pc t) → (∀ t', ¬ claims i (Function.update s.pc t pc' t')) →
        ∀ t', ¬ claims i (s.pc t') := by
      intro i hc hall t'
      by_cases htt : t' = t
      · subst htt; exact hc
      · have := hall t'
        rwa [Function.update_of_ne htt] at this
    -- a step that does not change the store and logs nothing
    have silent : st' = s.store → pc'.ev = [] → (∀ i, ¬ claims i (s.pc t)) →
        AdderOk s pc' → ShareInv ⟨st', Function.update s.pc t pc', s.log ++ pc'.ev⟩ := by
      rintro rfl he hc hok
      rw [he, List.append_nil]
      refine ⟨h.wf, h.bal, h.ids, fun i x hx hcl => h.count i x hx (hnc i (hc i) hcl), h.vals, ?_⟩
      intro t'
      by_cases htt : t' = t
      · subst htt
        dsimp only
        rw [Function.update_self]
        cases pc' <;> exact hok
      · dsimp only
        rw [Function.update_of_ne htt]
        exact adder_grow (h.threads t') (fun _ _ h => h) rfl
    -- counting one reference to slot `i`
    have claim : ∀ (i : Nat) (x : Slot T), at_ s.store i = some x → x.refs = 0 →
        (∀ j, ¬ claims j (s.pc t)) → (s.pc t).target = some i → (s.pc t).found = false →
        claims i pc' → (∀ j, claims j pc' → j = i) → pc'.ev = [] →
        st' = setSlot s.store (offsetToIdx i) { x with refs := x.refs + 1 } →
        ShareInv ⟨st', Function.update s.pc t pc', s.log ++ pc'.ev⟩ := by
      rintro i x hx h0 hc htg hfd hcl hcl' he rfl
      have hat := fun j => at_setSlot i j { x with refs := x.refs + 1 } ⟨x, hx⟩
      have hxi := h.count i x hx (fun t' hct => by
        by_cases htt : t' = t
        · subst htt; exact hc i hct
        · exact hother i htg hfd t' htt (claims_target hct).1)
      rw [he, List.append_nil]
      refine ⟨(wf_setSlot h.wf _ _).1, h.bal, ?_, ?_, ?_, ?_⟩
      · intro j hj
        rw [hat]
        split
        · exact ⟨_, rfl⟩
        · exact h.ids j hj
      · intro j y hy hcj
        rw [hat] at hy
        by_cases hji : j = i
        · subst hji
          exact absurd hcl (by have := hcj t; dsimp only at this; rwa [Function.update_self] at this)
        · rw [if_neg hji] at hy
          exact h.count j y hy (hnc j (hc j) hcj)
      · intro j l1 v l2 hl hh
        obtain ⟨y, h4, h5⟩ := h.vals j l1 v l2 hl hh
        rw [hat]
        by_cases hji : j = i
        · subst hji
          have := heldSince_held hh
          rw [← hl] at this
          dsimp only at this
          omega
        · exact ⟨y, by rw [if_neg hji]; exact h4, h5⟩
      · intro t'
        by_cases htt : t' = t
        · subst htt
          dsimp only
          rw [Function.update_self]
          cases pc' <;> simp only [claims] at hcl
          · subst hcl
            exact ⟨_, by rw [hat, if_pos rfl], by dsimp only; omega, by dsimp only; omega⟩
          · subst hcl
            exact ⟨_, by rw [hat, if_pos rfl], by dsimp only; omega, by dsimp only; omega⟩
        · dsimp only
          rw [Function.update_of_ne htt]
          exact adder_frame (h.threads t') (hother i htg hfd t' htt)
            (fun j hj => by dsimp only; rw [hat, if_neg hj]) ⟨_, by dsimp only; rw [hat, if_pos rfl]⟩
            (fun _ _ => ⟨rfl, rfl⟩)
    -- writing the claimed slot `i`
    have write : ∀ (i : Nat) (x : Slot T) (v : T), at_ s.store i = some x → x.refs = 1 →
        gained i s.log = lost i s.log → claims i (s.pc t) → (∀ j, claims j (s.pc t) → j = i) →
        pc' = .done v i → st' = setSlot s.store (offsetToIdx i) { x with val := some v } →
        ShareInv ⟨st', Function.update s.pc t pc', s.log ++ pc'.ev⟩ := by
      rintro i x v hx hx1 hgl hcl hcl' rfl rfl
      have hat := fun j => at_setSlot i j { x with val := some v } ⟨x, hx⟩
      have hg : ∀ j, gained j (s.log ++ [.add v i]) = gained j s.log + if i = j then 1 else 0 := by
        intro j; rw [gained_append]
      have hl : ∀ j, lost j (s.log ++ [.add v i]) = lost j s.log := by
        intro j; rw [lost_append]; rfl
      simp only [APC.ev]
      refine ⟨(wf_setSlot h.wf _ _).1, ?_, ?_, ?_, ?_, ?_⟩
      · intro j
        dsimp only
        rw [hg, hl]
        have := h.bal j
        omega
      · intro j hj
        rw [hat]
        by_cases hji : j = i
        · rw [if_pos hji]; exact ⟨_, rfl⟩
        · rw [if_neg hji]
          dsimp only at hj
          rw [hg, if_neg (Ne.symm hji)] at hj
          exact h.ids j hj
      · intro j y hy hcj
        rw [hat] at hy
        dsimp only
        rw [hg, hl]
        by_cases hji : j = i
        · subst hji
          rw [if_pos rfl] at hy
          cases hy
          rw [if_pos rfl]
          dsimp only
          omega
        · rw [if_neg hji] at hy
          rw [if_neg (Ne.symm hji)]
          exact h.count j y hy (hnc j (fun hc => hji (hcl' j hc)) hcj)
      · intro j l1 v' l2 hlog hh
        rcases heldSince_init hlog hh with ⟨_, _, h3⟩ | ⟨l2', _, h2, h3⟩
        · cases h3
          exact ⟨_, by rw [hat, if_pos rfl], rfl⟩
        · obtain ⟨y, h4, h5⟩ := h.vals j l1 v' l2' h2 h3
          rw [hat]
          by_cases hji : j = i
          · subst hji
            have := heldSince_held h3
            rw [← h2] at this
            omega
          · exact ⟨y, by rw [if_neg hji]; exact h4, h5⟩
      · intro t'
        by_cases htt : t' = t
        · subst htt; dsimp only; rw [Function.update_self]; trivial
        · dsimp only
          rw [Function.update_of_ne htt]
          exact adder_frame (h.threads t')
            (hother i (claims_target hcl).1 (claims_target hcl).2 t' htt)
            (fun j hj => by dsimp only; rw [hat, if_neg hj]) ⟨_, by dsimp only; rw [hat, if_pos rfl]⟩
            (fun j hj => ⟨by dsimp only; rw [hg, if_neg (Ne.symm hj), Nat.add_zero], hl j⟩)
    cases hp : s.pc t with
    | idle => rw [hp] at hrun; cases hrun
    | done => rw [hp] at hrun; cases hrun
    | panicked => rw [hp] at hrun; cases hrun
    | scan v i =>
      rw [hp] at hrun
      simp only [addStep, slot_eq] at hrun
      cases hx : at_ s.store i with
      | none =>
        rw [hx] at hrun
        simp only [Res.ofOption, Option.some.injEq, Prod.mk.injEq] at hrun
        obtain ⟨rfl, rfl⟩ := hrun
        exact silent rfl rfl (by rw [hp]; exact fun _ h => h) trivial
      | some x =>
        rw [hx] at hrun
        simp only [Res.ofOption, Option.some.injEq, Prod.mk.injEq] at hrun
        obtain ⟨rfl, rfl⟩ := hrun
        exact silent rfl rfl (by rw [hp]; exact fun _ h => h) ⟨x, hx⟩
    | load v i =>
      rw [hp] at hrun ht
      obtain ⟨x, hx⟩ := ht
      simp only [addStep, slot_eq, hx, Res.ofOption, Option.some.injEq, Prod.mk.injEq] at hrun
      obtain ⟨rfl, rfl⟩ := hrun
      exact silent rfl rfl (by rw [hp]; exact fun _ h => h) ⟨x, hx, id⟩
    | check v i count =>
      rw [hp] at hrun ht
      obtain ⟨x, hx, h0⟩ := ht
      simp only [addStep, slot_eq, hx, Res.ofOption] at hrun
      by_cases hv : x.val = some v
      · rw [if_pos hv, Option.some.injEq, Prod.mk.injEq] at hrun
        obtain ⟨rfl, rfl⟩ := hrun
        exact silent rfl rfl (by rw [hp]; exact fun _ h => h) ⟨x, hx, hv⟩
      · rw [if_neg hv] at hrun
        by_cases hc : count = 0
        · rw [if_pos hc, Option.some.injEq, Prod.mk.injEq] at hrun
          obtain ⟨rfl, rfl⟩ := hrun
          exact silent rfl rfl (by rw [hp]; exact fun _ h => h) ⟨x, hx, h0 hc⟩
        · rw [if_neg hc, Option.some.injEq, Prod.mk.injEq] at hrun
          obtain ⟨rfl, rfl⟩ := hrun
          exact silent rfl rfl (by rw [hp]; exact fun _ h => h) trivial
    | incrExists v i =>
      rw [hp] at hrun ht
      obtain ⟨x, hx, hv⟩ := ht
      simp only [addStep, Option.some.injEq] at hrun
      rw [incrAt_ok hx (hb i x hx), Prod.mk.injEq] at hrun
      obtain ⟨rfl, rfl⟩ := hrun
      have hncl : ∀ j, ¬ claims j (s.pc t) := by rw [hp]; exact fun _ h => h
      have hat := fun j => at_setSlot i j { x with refs := x.refs + 1 } ⟨x, hx⟩
      have hg : ∀ j, gained j (s.log ++ [.add v i]) = gained j s.log + if i = j then 1 else 0 := by
        intro j; rw [gained_append]
      have hl : ∀ j, lost j (s.log ++ [.add v i]) = lost j s.log := by
        intro j; rw [lost_append]; rfl
      simp only [APC.ev]
      refine ⟨(wf_setSlot h.wf _ _).1, ?_, ?_, ?_, ?_, ?_⟩
      · intro j
        dsimp only
        rw [hg, hl]
        have := h.bal j
        omega
      · intro j hj
        rw [hat]
        by_cases hji : j = i
        · rw [if_pos hji]; exact ⟨_, rfl⟩
        · rw [if_neg hji]
          dsimp only at hj
          rw [hg, if_neg (Ne.symm hji)] at hj
          exact h.ids j hj
      · intro j y hy hcj
        rw [hat] at hy
        dsimp only
        rw [hg, hl]
        by_cases hji : j = i
        · subst hji
          rw [if_pos rfl] at hy
          cases hy
          rw [if_pos rfl]
          have := h.count j x hx (hnc j (hncl j) hcj)
          dsimp only
          omega
        · rw [if_neg hji] at hy
          rw [if_neg (Ne.symm hji)]
          exact h.count j y hy (hnc j (hncl j) hcj)
      · intro j l1 v' l2 hlog hh
        rcases heldSince_init hlog hh with ⟨_, _, h3⟩ | ⟨l2', _, h2, h3⟩
        · cases h3
          exact ⟨{ x with refs := x.refs + 1 }, by rw [hat, if_pos rfl], hv⟩
        · obtain ⟨y, h4, h5⟩ := h.vals j l1 v' l2' h2 h3
          rw [hat]
          by_cases hji : j = i
          · subst hji
            rw [hx] at h4
            cases h4
            exact ⟨_, if_pos rfl, h5⟩
          · exact ⟨y, by rw [if_neg hji]; exact h4, h5⟩
      · intro t'
        by_cases htt : t' = t
        · subst htt; dsimp only; rw [Function.update_self]; trivial
        · dsimp only
          rw [Function.update_of_ne htt]
          by_cases htg : (s.pc t').target = some i
          · obtain ⟨-, hf⟩ := h1 t t' i (Ne.symm htt) (by rw [hp]; rfl) htg
            have hok := h.threads t'
            cases hq : s.pc t' <;> rw [hq] at hf htg hok <;> simp only [APC.found] at hf <;>
              first | cases hf | skip
            obtain ⟨y, hy, hyv⟩ := hok
            obtain rfl := Option.some.inj htg
            rw [hx] at hy
            cases hy
            exact ⟨{ x with refs := x.refs + 1 }, by dsimp only; rw [hat, if_pos rfl], hyv⟩
          · exact adder_frame (h.threads t') htg
              (fun j hj => by dsimp only; rw [hat, if_neg hj]) ⟨_, by dsimp only; rw [hat, if_pos rfl]⟩
              (fun j hj => ⟨by dsimp only; rw [hg, if_neg (Ne.symm hj), Nat.add_zero], hl j⟩)
    | incrDead v i =>
      rw [hp] at hrun ht
      obtain ⟨x, hx, h0⟩ := ht
      simp only [addStep, Option.some.injEq] at hrun
      rw [incrAt_ok hx (hb i x hx), Prod.mk.injEq] at hrun
      obtain ⟨rfl, rfl⟩ := hrun
      exact claim i x hx h0 (by rw [hp]; exact fun _ h => h) (by rw [hp]; rfl) (by rw [hp]; rfl) rfl
        (fun j hj => Eq.symm hj) rfl rfl
    | incrNew v len =>
      rw [hp] at hrun ht
      obtain ⟨x, hx, h0⟩ := ht
      simp only [addStep, Option.some.injEq] at hrun
      rw [incrAt_ok hx (hb _ x hx), Prod.mk.injEq] at hrun
      obtain ⟨rfl, rfl⟩ := hrun
      exact claim _ x hx h0 (by rw [hp]; exact fun _ h => h) (by rw [hp]; rfl) (by rw [hp]; rfl) rfl
        (fun j hj => Eq.symm hj) rfl rfl
    | setDead v i =>
      rw [hp] at hrun ht
      obtain ⟨x, hx, hx1, hgl⟩ := ht
      simp only [addStep, Option.some.injEq] at hrun
      rw [setAt_ok hx, Prod.mk.injEq] at hrun
      obtain ⟨h2, h3⟩ := hrun
      exact write i x v hx hx1 hgl (by rw [hp]; rfl) (by rw [hp]; exact fun j hj => Eq.symm hj) h3.symm
        h2.symm
    | setNew v len =>
      rw [hp] at hrun ht
      obtain ⟨x, hx, hx1, hgl⟩ := ht
      simp only [addStep, Option.some.injEq] at hrun
      rw [setAt_ok hx, Prod.mk.injEq] at hrun
      obtain ⟨h2, h3⟩ := hrun
      exact write _ x v hx hx1 hgl (by rw [hp]; rfl) (by rw [hp]; exact fun j hj => Eq.symm hj) h3.symm
        h2.symm
    | pushChunk v =>
      rw [hp] at hrun
      simp only [addStep, Option.some.injEq, Prod.mk.injEq] at hrun
      obtain ⟨rfl, rfl⟩ := hrun
      have hncl : ∀ j, ¬ claims j (s.pc t) := by rw [hp]; exact fun _ h => h
      have hold : ∀ j y, at_ s.store j = some y → at_ (s.store ++ [newChunk]) j = some y := by
        intro j y hy
        rw [at_append, if_pos ((at_isSome h.wf j).mp ⟨y, hy⟩)]
        exact hy
      simp only [APC.ev, List.append_nil]
      refine ⟨wf_append h.wf, h.bal, ?_, ?_, ?_, ?_⟩
      · intro j hj
        obtain ⟨y, hy⟩ := h.ids j hj
        exact ⟨y, hold j y hy⟩
      · intro j y hy hcj
        dsimp only at hy ⊢
        cases hj : at_ s.store j with
        | some z =>
          rw [hold j z hj] at hy
          rw [← Option.some.inj hy]
          exact h.count j z hj (hnc j (hncl j) hcj)
        | none =>
          rw [at_append, if_neg (fun hc => by
            obtain ⟨z, hz⟩ := (at_isSome h.wf j).mpr hc
            rw [hj] at hz; cases hz)] at hy
          have hy0 : y = newUninit := by
            split at hy
            · exact (Option.some.inj hy).symm
            · cases hy
          have hg0 : gained j s.log = 0 := by
            by_contra hc
            obtain ⟨z, hz⟩ := h.ids j (by omega)
            rw [hj] at hz; cases hz
          have := h.bal j
          rw [hy0]
          show 0 + _ = _
          omega
      · intro j l1 v' l2 hlog hh
        obtain ⟨y, h4, h5⟩ := h.vals j l1 v' l2 hlog hh
        exact ⟨y, hold j y h4, h5⟩
      · intro t'
        by_cases htt : t' = t
        · subst htt
          dsimp only
          rw [Function.update_self]
          refine ⟨newUninit, ?_, rfl⟩
          unfold exactLen at hr
          dsimp only
          rw [hr, at_append, if_neg (by omega), if_pos (by omega)]
        · dsimp only
          rw [Function.update_of_ne htt]
          exact adder_grow (h.threads t') hold rfl

end Verif
