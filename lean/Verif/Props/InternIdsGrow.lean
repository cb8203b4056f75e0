import Verif.Props.InternIdsTurns

/-!
# How many chunks threads that add at the same time allocate (C198)

Every call of `add` allocates at most one chunk of 32 slots, and calls that meet may each allocate one, even if they
all add the same value.
-/

set_option linter.unusedSectionVars false

namespace Verif

open Intern

variable {T : Type} [DecidableEq T]

/-- The thread is inside a call that has not allocated a chunk. -/
private def early : APC T → Bool
  | .scan .. | .load .. | .check .. | .incrExists .. | .incrDead .. | .setDead .. | .pushChunk .. => true
  | _ => false

/-- `N` is the number of chunks at first plus the number of calls; `P` contains the threads that may still allocate. -/
private structure Grown (N : Nat) (P : Finset Nat) (s : Sys T) : Prop where
  wf : WF s.store
  early : ∀ t, early (s.pc t) = true → t ∈ P
  card : s.store.length + P.card ≤ N
  ids : ∀ v i, Ev.add v i ∈ s.log → i + 32 ≤ 32 * N ∧ i < 32 * s.store.length
  late : ∀ t v len, s.pc t = .incrNew v len ∨ s.pc t = .setNew v len → 1 ≤ len ∧ len ≤ N

private theorem Grown.keep {N : Nat} {P : Finset Nat} {s : Sys T} (h : Grown N P s) {st : Store T} (hwf : WF st)
    (hlen : st.length = s.store.length) (t : Nat) (p : APC T) (he : Verif.early p = true → t ∈ P)
    (hl : ∀ v len, p = .incrNew v len ∨ p = .setNew v len → 1 ≤ len ∧ len ≤ N) (l : List (Ev T))
    (hi : ∀ v i, Ev.add v i ∈ l → i + 32 ≤ 32 * N ∧ i < 32 * s.store.length) :
    Grown N P ⟨st, Function.update s.pc t p, l⟩ := by
  refine ⟨hwf, fun t' ht' => ?_, by rw [hlen]; exact h.card, by rw [hlen]; exact hi, fun t' v len hp => ?_⟩
  · by_cases e : t' = t
    · subst e; simp only [Function.update_self] at ht'; exact he ht'
    · simp only [Function.update_of_ne e] at ht'; exact h.early t' ht'
  · by_cases e : t' = t
    · subst e; simp only [Function.update_self] at hp; exact hl v len hp
    · simp only [Function.update_of_ne e] at hp; exact h.late t' v len hp

private theorem incrAt_split (m : Mode) (st : Store T) (i : Nat) (next : APC T) :
    incrAt m st i next = (st, .panicked) ∨
      (∃ x, at_ st i = some x) ∧ ∃ y, incrAt m st i next = (setSlot st (offsetToIdx i) y, next) := by
  unfold incrAt incr
  rw [slot_eq]
  cases hx : at_ st i with
  | none => exact .inl rfl
  | some x =>
    simp only [Res.ofOption, Res.bind]
    cases e : incrInner m x with
    | ok y => exact .inr ⟨⟨x, rfl⟩, y, rfl⟩
    | panic => exact .inl rfl
    | hang => exact .inl rfl

private theorem setAt_split (st : Store T) (i : Nat) (v : T) (next : APC T) :
    setAt st i v next = (st, .panicked) ∨
      (∃ x, at_ st i = some x) ∧ ∃ y, setAt st i v next = (setSlot st (offsetToIdx i) y, next) := by
  unfold setAt
  rw [slot_eq]
  cases hx : at_ st i with
  | none => exact .inl rfl
  | some x => exact .inr ⟨⟨x, rfl⟩, _, rfl⟩

private theorem decrAt_split (st : Store T) (i : Nat) (next : APC T) :
    decrAt st i next = (st, .panicked) ∨ ∃ y, decrAt st i next = (setSlot st (offsetToIdx i) y, next) := by
  unfold decrAt decr
  rw [slot_eq]
  cases hx : at_ st i with
  | none => exact .inl rfl
  | some x => exact .inr ⟨_, rfl⟩

private theorem Grown.step {m : Mode} {I : Nat → Nat → Prop} {N : Nat} {P : Finset Nat} {s s' : Sys T}
    (h : Grown N P s) (hs : SysStep m (fun _ _ => False) I maybeStale s s') : ∃ P', Grown N P' s' := by
  have other : ∀ e : Ev T, (∀ v i, e ≠ .add v i) → ∀ v i, Ev.add v i ∈ s.log ++ [e] →
      i + 32 ≤ 32 * N ∧ i < 32 * s.store.length := by
    intro e he v i hi
    rcases List.mem_append.mp hi with hi | hi
    · exact h.ids v i hi
    · exact absurd (List.mem_singleton.mp hi).symm (he v i)
  have set := fun (loc : Nat × Nat) (y : Slot T) => wf_setSlot h.wf loc y
  cases hs with
  | start t v hv hr => exact hv.elim
  | clone t i hI hr hh =>
    refine ⟨P, ?_⟩
    rcases incrAt_split m s.store i (s.pc t) with e | ⟨_, y, e⟩ <;> rw [e]
    · exact h.keep h.wf rfl t .panicked (by simp [Verif.early]) (by simp) _ (other _ (by simp))
    · exact h.keep (set _ y).1 (set _ y).2 t (s.pc t) (h.early t) (h.late t) _ (other _ (by simp))
  | drop t i hI hr hh =>
    refine ⟨P, ?_⟩
    rcases decrAt_split s.store i (s.pc t) with e | ⟨y, e⟩ <;> rw [e]
    · exact h.keep h.wf rfl t .panicked (by simp [Verif.early]) (by simp) _ (other _ (by simp))
    · exact h.keep (set _ y).1 (set _ y).2 t (s.pc t) (h.early t) (h.late t) _ (other _ (by simp))
  | run t ret st' pc' hr ha =>
    have he := h.early t
    have hl := h.late t
    have hcard := h.card
    have quiet : ∀ v i, Ev.add v i ∈ s.log ++ [] → i + 32 ≤ 32 * N ∧ i < 32 * s.store.length := by
      intro v i hi
      rw [List.append_nil] at hi
      exact h.ids v i hi
    have loud : ∀ (w : T) (j : Nat), j + 32 ≤ 32 * N → (∃ x, at_ s.store j = some x) →
        ∀ v i, Ev.add v i ∈ s.log ++ (APC.done w j).ev → i + 32 ≤ 32 * N ∧ i < 32 * s.store.length := by
      intro w j hj hx v i hi
      simp only [APC.ev, List.mem_append, List.mem_singleton, Ev.add.injEq] at hi
      rcases hi with hi | ⟨_, rfl⟩
      · exact h.ids v i hi
      · exact ⟨hj, (at_isSome h.wf _).mp hx⟩
    -- a call that has not allocated a chunk leaves one of those it may allocate
    have spare : t ∈ P → ∀ j, (∃ x, at_ s.store j = some x) → j + 32 ≤ 32 * N := by
      intro ht j hx
      have := (at_isSome h.wf _).mp hx
      have := Finset.card_pos.mpr ⟨t, ht⟩
      omega
    cases hpc : s.pc t with
    | idle | done | panicked => rw [hpc] at ha; simp [addStep] at ha
    | scan v i =>
      rw [hpc] at ha he
      simp only [addStep] at ha
      split at ha <;> simp only [Option.some.injEq, Prod.mk.injEq] at ha <;> obtain ⟨rfl, rfl⟩ := ha
      · exact ⟨P, h.keep h.wf rfl t _ (fun _ => he rfl) (by simp) _ quiet⟩
      · exact ⟨P, h.keep h.wf rfl t _ (fun _ => he rfl) (by simp) _ quiet⟩
    | load v i =>
      rw [hpc] at ha he
      simp only [addStep] at ha
      split at ha <;> simp only [Option.some.injEq, Prod.mk.injEq] at ha <;> obtain ⟨rfl, rfl⟩ := ha
      · exact ⟨P, h.keep h.wf rfl t _ (fun _ => he rfl) (by simp) _ quiet⟩
      · exact ⟨P, h.keep h.wf rfl t _ (fun _ => he rfl) (by simp) _ quiet⟩
    | check v i count =>
      rw [hpc] at ha he
      simp only [addStep] at ha
      split at ha
      · split at ha
        · simp only [Option.some.injEq, Prod.mk.injEq] at ha
          obtain ⟨rfl, rfl⟩ := ha
          exact ⟨P, h.keep h.wf rfl t _ (fun _ => he rfl) (by simp) _ quiet⟩
        · split at ha <;> simp only [Option.some.injEq, Prod.mk.injEq] at ha <;> obtain ⟨rfl, rfl⟩ := ha
          · exact ⟨P, h.keep h.wf rfl t _ (fun _ => he rfl) (by simp) _ quiet⟩
          · exact ⟨P, h.keep h.wf rfl t _ (fun _ => he rfl) (by simp) _ quiet⟩
      · simp only [Option.some.injEq, Prod.mk.injEq] at ha
        obtain ⟨rfl, rfl⟩ := ha
        exact ⟨P, h.keep h.wf rfl t _ (fun _ => he rfl) (by simp) _ quiet⟩
    | incrExists v i =>
      rw [hpc] at ha he
      simp only [addStep, Option.some.injEq] at ha
      rcases incrAt_split m s.store i (.done v i) with e | ⟨hx, y, e⟩ <;> rw [e] at ha <;>
        simp only [Prod.mk.injEq] at ha <;> obtain ⟨rfl, rfl⟩ := ha
      · exact ⟨P, h.keep h.wf rfl t _ (by simp [Verif.early]) (by simp) _ quiet⟩
      · exact ⟨P, h.keep (set _ y).1 (set _ y).2 t _ (by simp [Verif.early]) (by simp) _ (loud v i (spare (he rfl) i hx) hx)⟩
    | incrDead v i =>
      rw [hpc] at ha he
      simp only [addStep, Option.some.injEq] at ha
      rcases incrAt_split m s.store i (.setDead v i) with e | ⟨hx, y, e⟩ <;> rw [e] at ha <;>
        simp only [Prod.mk.injEq] at ha <;> obtain ⟨rfl, rfl⟩ := ha
      · exact ⟨P, h.keep h.wf rfl t _ (by simp [Verif.early]) (by simp) _ quiet⟩
      · exact ⟨P, h.keep (set _ y).1 (set _ y).2 t _ (fun _ => he rfl) (by simp) _ quiet⟩
    | setDead v i =>
      rw [hpc] at ha he
      simp only [addStep, Option.some.injEq] at ha
      rcases setAt_split s.store i v (.done v i) with e | ⟨hx, y, e⟩ <;> rw [e] at ha <;>
        simp only [Prod.mk.injEq] at ha <;> obtain ⟨rfl, rfl⟩ := ha
      · exact ⟨P, h.keep h.wf rfl t _ (by simp [Verif.early]) (by simp) _ quiet⟩
      · exact ⟨P, h.keep (set _ y).1 (set _ y).2 t _ (by simp [Verif.early]) (by simp) _ (loud v i (spare (he rfl) i hx) hx)⟩
    | pushChunk v =>
      rw [hpc] at ha he
      simp only [addStep, Option.some.injEq, Prod.mk.injEq] at ha
      obtain ⟨rfl, rfl⟩ := ha
      have ht := he rfl
      have hc := Finset.card_erase_add_one ht
      refine ⟨P.erase t, wf_append h.wf, fun t' ht' => ?_, ?_, fun v i hi => ?_, fun t' w len hp => ?_⟩
      · by_cases e : t' = t
        · subst e; simp [Verif.early] at ht'
        · simp only [Function.update_of_ne e] at ht'
          exact Finset.mem_erase.mpr ⟨e, h.early t' ht'⟩
      · simp only [List.length_append, List.length_singleton]
        omega
      · simp only [List.length_append, List.length_singleton]
        have := quiet v i hi
        omega
      · by_cases e : t' = t
        · subst e
          simp only [Function.update_self, APC.incrNew.injEq, reduceCtorEq, or_false] at hp
          obtain ⟨_, rfl⟩ := hp
          exact ⟨hr.1, by have := hr.2; omega⟩
        · simp only [Function.update_of_ne e] at hp
          exact h.late t' w len hp
    | incrNew v len =>
      rw [hpc] at ha
      have hb := hl v len (.inl hpc)
      simp only [addStep, Option.some.injEq] at ha
      rcases incrAt_split m s.store ((len - 1) * 32) (.setNew v len) with e | ⟨hx, y, e⟩ <;> rw [e] at ha <;>
        simp only [Prod.mk.injEq] at ha <;> obtain ⟨rfl, rfl⟩ := ha
      · exact ⟨P, h.keep h.wf rfl t _ (by simp [Verif.early]) (by simp) _ quiet⟩
      · exact ⟨P, h.keep (set _ y).1 (set _ y).2 t _ (by simp [Verif.early]) (by
          intro w k hk
          simp only [reduceCtorEq, APC.setNew.injEq, false_or] at hk
          rw [← hk.2]
          exact hb) _ quiet⟩
    | setNew v len =>
      rw [hpc] at ha
      have hb := hl v len (.inr hpc)
      simp only [addStep, Option.some.injEq] at ha
      rcases setAt_split s.store ((len - 1) * 32) v (.done v ((len - 1) * 32)) with e | ⟨hx, y, e⟩ <;> rw [e] at ha <;>
        simp only [Prod.mk.injEq] at ha <;> obtain ⟨rfl, rfl⟩ := ha
      · exact ⟨P, h.keep h.wf rfl t _ (by simp [Verif.early]) (by simp) _ quiet⟩
      · exact ⟨P, h.keep (set _ y).1 (set _ y).2 t _ (by simp [Verif.early]) (by simp) _ (loud v _ (by omega) hx)⟩

/-- C198: what holds for every interner. Whatever the schedule, whatever the threads clone and drop meanwhile, and
whatever stale length `push` returns, `n` calls of `add` allocate at most `n` chunks of 32 slots, and every id that is
returned refers to an allocated slot, and is at most `32 * (L + n - 1)` if there were `L` chunks before. (The claim is
about the number of different values. `C198_new_violated`: this bound is reached.) -/
theorem C198_chunks_partial (m : Mode) (I : Nat → Nat → Prop) (a : Sys T) (hwf : WF a.store)
    (hidle : ∀ t, (a.pc t).ready = true) (hlog : a.log = []) (n : Nat) (s : Sys T) (h : Calls m I maybeStale a n s) :
    s.store.length ≤ a.store.length + n ∧
      ∀ v i, Ev.add v i ∈ s.log → i < 32 * s.store.length ∧ i ≤ 32 * (a.store.length + n - 1) := by
  have main : ∃ P, Grown (a.store.length + n) P s := by
    induction h with
    | refl =>
      refine ⟨∅, hwf, fun t ht => ?_, by simp, by simp [hlog], fun t v len hp => ?_⟩
      · have := hidle t
        cases hp : a.pc t <;> rw [hp] at ht this <;> simp [Verif.early, APC.ready] at ht this
      · have := hidle t
        rcases hp with hp | hp <;> rw [hp] at this <;> simp [APC.ready] at this
    | @start n b t v _ hr ih =>
      obtain ⟨P, h⟩ := ih
      refine ⟨insert t P, ?_⟩
      have hc := Finset.card_insert_le t P
      have h' : Grown (a.store.length + (n + 1)) (insert t P) b :=
        ⟨h.wf, fun t' ht' => Finset.mem_insert_of_mem (h.early t' ht'), by have := h.card; omega,
          fun v i hi => by have := h.ids v i hi; omega, fun t' w len hp => by have := h.late t' w len hp; omega⟩
      exact h'.keep h.wf rfl t (.scan v 0) (fun _ => Finset.mem_insert_self t P) (by simp) _ h'.ids
    | other _ hs ih =>
      obtain ⟨P, h⟩ := ih
      exact h.step hs
  obtain ⟨P, h⟩ := main
  refine ⟨by have := h.card; omega, fun v i hi => ?_⟩
  have := h.ids v i hi
  omega

/-! ## The bound is reached -/

private structure Waiting (f : Nat → T) (j : Nat) (s : Sys T) : Prop where
  store : s.store = []
  here : ∀ t < j, s.pc t = .pushChunk (f t)
  rest : ∀ t, j ≤ t → s.pc t = .idle
  log : s.log = []

private theorem waiting (m : Mode) (f : Nat → T) (j : Nat) :
    ∃ b : Sys T, AddWalk m ⟨Intern.new, fun _ => .idle, []⟩ b ∧ Waiting f j b := by
  induction j with
  | zero => exact ⟨_, .refl _, rfl, by simp, fun _ _ => rfl, rfl⟩
  | succ j ih =>
    obtain ⟨b, hw, h⟩ := ih
    have hr : Roomy b := by
      intro i x hx
      rw [h.store] at hx
      simp [at_] at hx
    have h1 : AddWalk m b ⟨b.store, Function.update b.pc j (.scan (f j) 0), b.log⟩ :=
      (SysSteps.refl b).tail hr (.start b j (f j) trivial (by rw [h.rest j (Nat.le_refl j)]; rfl))
    have h2 := walk_run (m := m) (a := ⟨b.store, Function.update b.pc j (.scan (f j) 0), b.log⟩) hr j
      (st' := b.store) (pc' := .pushChunk (f j)) (by
        change addStep m _ b.store (Function.update b.pc j (.scan (f j) 0) j) = _
        rw [Function.update_self, h.store]
        rfl)
    simp only [APC.ev, List.append_nil, Function.update_idem] at h2
    refine ⟨_, walk_trans hw (walk_trans h1 h2), h.store, fun t ht => ?_, fun t ht => ?_, h.log⟩
    · by_cases e : t = j
      · subst e; exact Function.update_self ..
      · change Function.update b.pc j (.pushChunk (f j)) t = _
        rw [Function.update_of_ne e]
        exact h.here t (by omega)
    · change Function.update b.pc j (.pushChunk (f j)) t = _
      rw [Function.update_of_ne (by omega)]
      exact h.rest t (by omega)

private structure Pushed (f : Nat → T) (k j : Nat) (s : Sys T) : Prop where
  wf : WF s.store
  len : s.store.length = j
  small : ∀ i x, at_ s.store i = some x → x.refs ≤ 1
  before : ∀ t < j, s.pc t = .done (f t) (32 * t)
  after : ∀ t, j ≤ t → t < k → s.pc t = .pushChunk (f t)
  log : s.log = (List.range j).map fun t => .add (f t) (32 * t)

private theorem small_roomy {s : Sys T} (h : ∀ i x, at_ s.store i = some x → x.refs ≤ 1) : Roomy s := by
  intro i x hx
  have := h i x hx
  have : (1 : Nat) < 2 ^ 64 - 1 := by decide
  omega

/-- C198 fails for an interner made without capacity as badly as it can: `k` threads that add at the same time, be it
all the same value, may each allocate a chunk, and get the ids `0`, `32`, …, `32 * (k - 1)`. -/
theorem C198_new_violated (m : Mode) (k : Nat) (f : Nat → T) :
    ∃ b : Sys T, SysSteps m (fun _ _ => True) (fun _ _ => True) exactLen Roomy
        ⟨Intern.new, fun _ => .idle, []⟩ b ∧ b.store.length = k ∧
      (∀ t < k, b.pc t = .done (f t) (32 * t)) ∧ b.log = (List.range k).map fun t => .add (f t) (32 * t) := by
  obtain ⟨a, hw, h⟩ := waiting m f k
  have main : ∀ j ≤ k, ∃ b : Sys T, AddWalk m ⟨Intern.new, fun _ => .idle, []⟩ b ∧ Pushed f k j b := by
    intro j
    induction j with
    | zero =>
      refine fun _ => ⟨a, hw, ?_, by rw [h.store]; rfl, fun i x hx => ?_, by simp, fun t _ ht => h.here t ht, by simp [h.log]⟩
      · rw [h.store]
        intro c hc
        simp at hc
      · rw [h.store] at hx
        simp [at_] at hx
    | succ j ih =>
      intro hj
      obtain ⟨b, hw, h⟩ := ih (by omega)
      have small1 : ∀ i x, at_ (b.store ++ [newChunk]) i = some x → x.refs ≤ 1 := by
        intro i x hx
        rw [at_append] at hx
        split at hx
        · exact h.small i x hx
        · split at hx
          · cases hx; simp [newUninit]
          · simp at hx
      have here1 : at_ (b.store ++ [newChunk]) (j * 32) = some newUninit := by
        rw [at_append, h.len, if_neg (by omega), if_pos (by omega)]
      have w1 := wf_append h.wf
      have h1 := walk_run (m := m) (small_roomy h.small) j (st' := b.store ++ [newChunk])
        (pc' := .incrNew (f j) (j + 1)) (by rw [h.after j (Nat.le_refl j) (by omega), h.len]; rfl)
      simp only [APC.ev, List.append_nil] at h1
      have h2 := walk_run (m := m) (a := ⟨b.store ++ [newChunk], Function.update b.pc j (.incrNew (f j) (j + 1)), b.log⟩)
        (small_roomy small1) j (st' := setSlot (b.store ++ [newChunk]) (offsetToIdx (j * 32)) ⟨1, none⟩)
        (pc' := .setNew (f j) (j + 1)) (by
          change addStep m _ _ (Function.update b.pc j (.incrNew (f j) (j + 1)) j) = _
          rw [Function.update_self]
          simp only [addStep, Nat.add_sub_cancel]
          rw [incrAt_ok here1 (by simp [newUninit, usizeSize])]
          rfl)
      simp only [APC.ev, List.append_nil, Function.update_idem] at h2
      have at2 : ∀ i, at_ (setSlot (b.store ++ [newChunk]) (offsetToIdx (j * 32)) ⟨1, none⟩) i =
          if i = j * 32 then some ⟨1, none⟩ else at_ (b.store ++ [newChunk]) i :=
        fun i => at_setSlot _ _ _ ⟨_, here1⟩
      have small2 : ∀ i x, at_ (setSlot (b.store ++ [newChunk]) (offsetToIdx (j * 32)) ⟨1, none⟩) i = some x →
          x.refs ≤ 1 := by
        intro i x hx
        rw [at2] at hx
        split at hx
        · cases hx; exact Nat.le_refl 1
        · exact small1 i x hx
      have here2 := at2 (j * 32)
      rw [if_pos rfl] at here2
      have w2 := wf_setSlot w1 (offsetToIdx (j * 32)) (⟨1, none⟩ : Slot T)
      have h3 := walk_run (m := m)
        (a := ⟨setSlot (b.store ++ [newChunk]) (offsetToIdx (j * 32)) ⟨1, none⟩,
          Function.update b.pc j (.setNew (f j) (j + 1)), b.log⟩)
        (small_roomy small2) j
        (st' := setSlot (setSlot (b.store ++ [newChunk]) (offsetToIdx (j * 32)) ⟨1, none⟩) (offsetToIdx (j * 32))
          ⟨1, some (f j)⟩)
        (pc' := .done (f j) (j * 32)) (by
          change addStep m _ _ (Function.update b.pc j (.setNew (f j) (j + 1)) j) = _
          rw [Function.update_self]
          simp only [addStep, Nat.add_sub_cancel]
          rw [setAt_ok here2])
      simp only [Function.update_idem] at h3
      have w3 := wf_setSlot w2.1 (offsetToIdx (j * 32)) (⟨1, some (f j)⟩ : Slot T)
      refine ⟨_, walk_trans hw (walk_trans h1 (walk_trans h2 h3)), w3.1, ?_, fun i x hx => ?_, fun t ht => ?_,
        fun t ht ht' => ?_, ?_⟩
      · exact w3.2.trans (w2.2.trans (by simp [h.len]))
      · change at_ (setSlot _ (offsetToIdx (j * 32)) _) i = some x at hx
        rw [at_setSlot _ _ _ ⟨_, here2⟩] at hx
        split at hx
        · cases hx; exact Nat.le_refl 1
        · exact small2 i x hx
      · by_cases e : t = j
        · subst e
          change Function.update b.pc t (.done (f t) (t * 32)) t = _
          rw [Function.update_self, Nat.mul_comm]
        · change Function.update b.pc j (.done (f j) (j * 32)) t = _
          rw [Function.update_of_ne e]
          exact h.before t (by omega)
      · change Function.update b.pc j (.done (f j) (j * 32)) t = _
        rw [Function.update_of_ne (by omega)]
        exact h.after t (by omega) ht'
      · rw [List.range_succ, List.map_append, ← h.log, Nat.mul_comm j 32]
        rfl
  obtain ⟨b, hb, h⟩ := main k (Nat.le_refl k)
  exact ⟨b, hb, h.len, h.before, h.log⟩

/-- Three threads that add 7 to a new interner may get the ids 0, 32 and 64. -/
example : ∃ b : Sys Nat, SysSteps .debug (fun _ _ => True) (fun _ _ => True) exactLen Roomy
    ⟨Intern.new, fun _ => .idle, []⟩ b ∧ b.log = [.add 7 0, .add 7 32, .add 7 64] := by
  obtain ⟨b, h, _, _, hl⟩ := C198_new_violated (T := Nat) .debug 3 fun _ => 7
  exact ⟨b, h, hl⟩

/-- Two calls that meet, from an empty interner: both the bound on the chunks and the one on the ids are reached. -/
example : ∃ s : Sys Nat, Calls .debug (fun _ _ => True) maybeStale ⟨Intern.new, fun _ => .idle, []⟩ 2 s ∧
    s.store.length = 2 := by
  have c1 := Calls.start (m := .debug) (I := fun _ _ => True) (R := maybeStale) 0 7
    (Calls.refl (a := (⟨Intern.new, fun _ => .idle, []⟩ : Sys Nat))) rfl
  have c2 := c1.start 1 7 rfl
  have c3 := c2.other (.run _ 0 1 _ _ ⟨by decide, by decide⟩ rfl)
  have c4 := c3.other (.run _ 1 1 _ _ ⟨by decide, by decide⟩ rfl)
  have c5 := c4.other (.run _ 0 1 _ _ ⟨by decide, by decide⟩ rfl)
  have c6 := c5.other (.run _ 1 2 _ _ ⟨by decide, by decide⟩ rfl)
  exact ⟨_, c6, rfl⟩

end Verif
