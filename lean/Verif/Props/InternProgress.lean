import Verif.Model.InternConc

/-!
# C171: adding to the interner looks at every slot at most once
-/

namespace Verif

open Intern

variable {T : Type} [DecidableEq T]

/-- Thread `t` takes `n` steps of its own inside its call while all other threads do anything. -/
inductive AddDuring (m : Mode) (V : Nat → T → Prop) (I : Nat → Nat → Prop) (R : Nat → Nat → Prop)
    (t : Nat) (s : Sys T) : Nat → Sys T → Prop
  | start : AddDuring m V I R t s 0 s
  | own {n ret : Nat} {s' : Sys T} {st : Store T} {p : APC T} : AddDuring m V I R t s n s' →
      R s'.store.length ret → addStep m ret s'.store (s'.pc t) = some (st, p) →
      AddDuring m V I R t s (n + 1) ⟨st, Function.update s'.pc t p, s'.log ++ p.ev⟩
  | other {n : Nat} {s' s'' : Sys T} : AddDuring m V I R t s n s' → SysStep m V I R s' s'' →
      s''.pc t = s'.pc t → AddDuring m V I R t s n s''

theorem setSlot_chunks (st : Store T) (loc : Nat × Nat) (s : Slot T) :
    (setSlot st loc s).length = st.length := by
  unfold setSlot
  rw [List.length_modify]

theorem incrAt_chunks (m : Mode) (st : Store T) (i : Nat) (p : APC T) :
    (incrAt m st i p).1.length = st.length := by
  unfold incrAt Intern.incr
  cases slot st (offsetToIdx i) with
  | ok s =>
    simp only [Res.bind]
    cases incrInner m s with
    | ok s' => simp only [Res.bind, setSlot_chunks]
    | panic => rfl
    | hang => rfl
  | panic => rfl
  | hang => rfl

theorem decrAt_chunks (st : Store T) (i : Nat) (p : APC T) :
    (decrAt st i p).1.length = st.length := by
  unfold decrAt Intern.decr
  cases slot st (offsetToIdx i) with
  | ok s => simp only [Res.bind, setSlot_chunks]
  | panic => rfl
  | hang => rfl

theorem setAt_chunks (st : Store T) (i : Nat) (v : T) (p : APC T) :
    (setAt st i v p).1.length = st.length := by
  unfold setAt
  cases slot st (offsetToIdx i) with
  | ok s => simp only [setSlot_chunks]
  | panic => rfl
  | hang => rfl

theorem slot_chunk {st : Store T} {i : Nat} {s : Slot T} (h : slot st (offsetToIdx i) = .ok s) :
    i < 32 * st.length := by
  unfold slot offsetToIdx at h
  cases hc : st[i / 32]? with
  | none => rw [hc] at h; cases h
  | some c =>
    have := (List.getElem?_eq_some_iff.mp hc).1
    omega

/-- How many steps a thread has spent in `add`, by where it is, with `N` chunks. -/
def AddSpent (N n : Nat) : APC T → Prop
  | .scan _ i => n = 3 * i ∧ i ≤ 32 * N
  | .load _ i => n = 3 * i + 1 ∧ i < 32 * N
  | .check _ i _ => n = 3 * i + 2 ∧ i < 32 * N
  | .incrExists _ i | .incrDead _ i => n = 3 * i + 3 ∧ i < 32 * N
  | .setDead _ i => n = 3 * i + 4 ∧ i < 32 * N
  | .pushChunk _ => n ≤ 96 * N + 1
  | .incrNew _ _ => 1 ≤ N ∧ n ≤ 96 * (N - 1) + 2
  | .setNew _ _ => 1 ≤ N ∧ n ≤ 96 * (N - 1) + 3
  | .done _ _ | .panicked => 1 ≤ N ∧ n ≤ 96 * N + 2
  | .idle => False

theorem AddSpent.mono {N N' n : Nat} {p : APC T} (h : AddSpent N n p) (hN : N ≤ N') :
    AddSpent N' n p := by
  cases p <;> simp only [AddSpent] at h ⊢ <;> omega

theorem addSpent_step {m : Mode} {ret n : Nat} {st st' : Store T} {q p : APC T}
    (h : addStep m ret st q = some (st', p)) (hs : AddSpent st.length n q) :
    st.length ≤ st'.length ∧ AddSpent st'.length (n + 1) p := by
  have inc : ∀ {i : Nat} {next : APC T}, some (incrAt m st i next) = some (st', p) →
      (1 ≤ st.length ∧ n + 1 ≤ 96 * st.length + 2) → AddSpent st.length (n + 1) next →
      st.length ≤ st'.length ∧ AddSpent st'.length (n + 1) p := by
    intro i next e h1 h2
    have e' := Option.some.inj e
    have hl := incrAt_chunks m st i next
    rw [e'] at hl
    have hl : st'.length = st.length := hl
    refine ⟨by omega, ?_⟩
    rw [hl]
    unfold incrAt at e'
    cases hi : Intern.incr m st i with
    | ok x => rw [hi] at e'; cases e'; exact h2
    | panic => rw [hi] at e'; cases e'; exact h1
    | hang => rw [hi] at e'; cases e'; exact h1
  have set : ∀ {i : Nat} {v : T} {next : APC T}, some (setAt st i v next) = some (st', p) →
      (1 ≤ st.length ∧ n + 1 ≤ 96 * st.length + 2) → AddSpent st.length (n + 1) next →
      st.length ≤ st'.length ∧ AddSpent st'.length (n + 1) p := by
    intro i v next e h1 h2
    have e' := Option.some.inj e
    have hl := setAt_chunks st i v next
    rw [e'] at hl
    have hl : st'.length = st.length := hl
    refine ⟨by omega, ?_⟩
    rw [hl]
    unfold setAt at e'
    cases hi : slot st (offsetToIdx i) with
    | ok x => rw [hi] at e'; cases e'; exact h2
    | panic => rw [hi] at e'; cases e'; exact h1
    | hang => rw [hi] at e'; cases e'; exact h1
  cases q with
  | idle => cases h
  | done v id => cases h
  | panicked => cases h
  | scan v i =>
    simp only [addStep] at h
    obtain ⟨h1, h2⟩ := hs
    cases hc : slot st (offsetToIdx i) with
    | ok x =>
      rw [hc] at h; cases h
      exact ⟨Nat.le_refl _, by omega, slot_chunk hc⟩
    | panic => rw [hc] at h; cases h; exact ⟨Nat.le_refl _, show n + 1 ≤ _ by omega⟩
    | hang => rw [hc] at h; cases h; exact ⟨Nat.le_refl _, show n + 1 ≤ _ by omega⟩
  | load v i =>
    simp only [addStep] at h
    obtain ⟨h1, h2⟩ := hs
    cases hc : slot st (offsetToIdx i) with
    | ok x => rw [hc] at h; cases h; exact ⟨Nat.le_refl _, by omega, h2⟩
    | panic => rw [hc] at h; cases h; exact ⟨Nat.le_refl _, by omega, by omega⟩
    | hang => rw [hc] at h; cases h; exact ⟨Nat.le_refl _, by omega, by omega⟩
  | check v i count =>
    simp only [addStep] at h
    obtain ⟨h1, h2⟩ := hs
    cases hc : slot st (offsetToIdx i) with
    | ok x =>
      rw [hc] at h
      dsimp only at h
      split at h
      · cases h; exact ⟨Nat.le_refl _, by omega, h2⟩
      · split at h
        · cases h; exact ⟨Nat.le_refl _, by omega, h2⟩
        · cases h; exact ⟨Nat.le_refl _, by omega, by omega⟩
    | panic => rw [hc] at h; cases h; exact ⟨Nat.le_refl _, by omega, by omega⟩
    | hang => rw [hc] at h; cases h; exact ⟨Nat.le_refl _, by omega, by omega⟩
  | incrExists v i =>
    obtain ⟨h1, h2⟩ := hs
    exact inc h ⟨by omega, by omega⟩ ⟨by omega, by omega⟩
  | incrDead v i =>
    obtain ⟨h1, h2⟩ := hs
    exact inc h ⟨by omega, by omega⟩ ⟨by omega, by omega⟩
  | setDead v i =>
    obtain ⟨h1, h2⟩ := hs
    exact set h ⟨by omega, by omega⟩ ⟨by omega, by omega⟩
  | pushChunk v =>
    have h1 : n ≤ 96 * st.length + 1 := hs
    cases h
    rw [List.length_append, List.length_singleton]
    exact ⟨by omega, by omega, by omega⟩
  | incrNew v len =>
    obtain ⟨h1, h2⟩ := hs
    exact inc h ⟨by omega, by omega⟩ ⟨by omega, by omega⟩
  | setNew v len =>
    obtain ⟨h1, h2⟩ := hs
    exact set h ⟨by omega, by omega⟩ ⟨by omega, by omega⟩

theorem chunks_step {m : Mode} {V : Nat → T → Prop} {I : Nat → Nat → Prop} {R : Nat → Nat → Prop}
    {s s' : Sys T} (h : SysStep m V I R s s') : s.store.length ≤ s'.store.length := by
  cases h with
  | start t v hv hr => exact Nat.le_refl _
  | clone t i hi hr held => exact Nat.le_of_eq (incrAt_chunks _ _ _ _).symm
  | drop t i hi hr held => exact Nat.le_of_eq (decrAt_chunks _ _ _).symm
  | run t ret st p hr h =>
    dsimp only
    revert h
    generalize s.pc t = q
    intro h
    have stay : ∀ {x : Store T × APC T}, x.1.length = s.store.length → some x = some (st, p) →
        s.store.length ≤ st.length := by
      intro x hx e
      have := Option.some.inj e
      subst this
      exact Nat.le_of_eq hx.symm
    cases q with
    | idle => cases h
    | done v id => cases h
    | panicked => cases h
    | scan v i => simp only [addStep] at h; split at h <;> exact stay rfl h
    | load v i => simp only [addStep] at h; split at h <;> exact stay rfl h
    | check v i c =>
      simp only [addStep] at h
      split at h
      · split at h
        · exact stay rfl h
        · split at h <;> exact stay rfl h
      · exact stay rfl h
    | incrExists v i => exact stay (incrAt_chunks _ _ _ _) h
    | incrDead v i => exact stay (incrAt_chunks _ _ _ _) h
    | setDead v i => exact stay (setAt_chunks _ _ _ _) h
    | pushChunk v => cases h; simp
    | incrNew v l => exact stay (incrAt_chunks _ _ _ _) h
    | setNew v l => exact stay (setAt_chunks _ _ _ _) h

/-- C171, bounded: whatever the other threads do meanwhile (add, clone or drop, even changing the
slots already looked at), from its start an `add` has taken at most three steps for every slot of
the chunks now allocated (32 each) and two more; `push` counts as one step here (C170 bounds its own). -/
theorem C171_bounded (m : Mode) (V : Nat → T → Prop) (I : Nat → Nat → Prop) (R : Nat → Nat → Prop)
    (s s' : Sys T) (t n : Nat) (v : T) (hp : s.pc t = .scan v 0)
    (hd : AddDuring m V I R t s n s') :
    n ≤ 3 * (32 * s'.store.length) + 2 := by
  have key : AddSpent s'.store.length n (s'.pc t) := by
    induction hd with
    | start => rw [hp]; exact ⟨rfl, Nat.zero_le _⟩
    | own _ _ h ih =>
      dsimp only
      rw [Function.update_self]
      exact (addSpent_step h ih).2
    | other _ h e ih => rw [e]; exact ih.mono (chunks_step h)
  revert key
  cases s'.pc t <;> intro key <;> simp only [AddSpent] at key <;> omega

/-- C171, never stuck: a thread inside `add` can always take its next step. -/
theorem C171_not_stuck (m : Mode) (st : Store T) (p : APC T) (ret : Nat) (hr : p.ready = false)
    (hp : p ≠ .panicked) : ∃ x, addStep m ret st p = some x := by
  cases p <;> try cases hr
  case panicked => exact absurd rfl hp
  all_goals simp only [addStep]
  case scan => split <;> exact ⟨_, rfl⟩
  case load => split <;> exact ⟨_, rfl⟩
  case check =>
    split
    · split
      · exact ⟨_, rfl⟩
      · split <;> exact ⟨_, rfl⟩
    · exact ⟨_, rfl⟩
  all_goals exact ⟨_, rfl⟩

-- a non-trivial case: the first `add` takes a scan, a push, a count and a write
example : ∃ (s s' : Sys Nat), s.pc 0 = .scan 7 0 ∧
    AddDuring .debug (fun _ _ => True) (fun _ _ => True) exactLen 0 s 4 s' ∧
    s'.pc 0 = .done 7 0 ∧ s'.store.length = 1 := by
  have d0 : AddDuring .debug (fun _ _ => True) (fun _ _ => True) exactLen 0
    (⟨[], fun _ => .scan 7 0, []⟩ : Sys Nat) 0 _ := .start
  have d1 := d0.own (ret := 1) rfl rfl
  have d2 := d1.own (ret := 1) rfl rfl
  have d3 := d2.own (ret := 2) rfl rfl
  have d4 := d3.own (ret := 2) rfl rfl
  exact ⟨_, _, rfl, d4, rfl, rfl⟩

end Verif
