import Mathlib.Data.Finset.Card
import Verif.Props.InternMeet

/-!
# How large the ids of an interner shared between threads get (C198)

The crate's own test (`intern.rs` L213-226) lets a hundred threads add ten different values to an interner with
capacity for ten, and asserts that every id is below ten. The schedule decides: ids are below the number of calls of
`add`, not below the number of different values, and every id below the number of calls may occur.
-/

set_option linter.unusedSectionVars false

namespace Verif

open Intern

variable {T : Type} [DecidableEq T]

/-- Runs in which `n` calls of `add` were begun. -/
inductive Intern.Calls (m : Mode) (I : Nat → Nat → Prop) (R : Nat → Nat → Prop) (a : Sys T) : Nat → Sys T → Prop
  | refl : Calls m I R a 0 a
  /-- thread `t` calls `add(v)` -/
  | start {n : Nat} {b : Sys T} (t : Nat) (v : T) : Calls m I R a n b → (b.pc t).ready = true →
      Calls m I R a (n + 1) ⟨b.store, Function.update b.pc t (.scan v 0), b.log⟩
  /-- any other step -/
  | other {n : Nat} {b c : Sys T} : Calls m I R a n b → SysStep m (fun _ _ => False) I R b c → Calls m I R a n c

/-! ## The bound -/

/-- The thread has not counted its reference yet. -/
private def pending : APC T → Bool
  | .scan .. | .load .. | .check .. | .incrExists .. | .incrDead .. => true
  | _ => false

/-- The first `u` slots have been used; where a thread can be then. -/
private def Within (u : Nat) : APC T → Prop
  | .scan _ i | .load _ i | .incrDead _ i => i ≤ u
  | .check _ i count => i ≤ u ∧ (count ≠ 0 → i < u)
  | .incrExists _ i | .setDead _ i | .done _ i => i < u
  | .idle | .panicked => True
  | .pushChunk _ | .incrNew .. | .setNew .. => False

private theorem Within.mono {u u' : Nat} (h : u ≤ u') {p : APC T} (hp : Within u p) : Within u' p := by
  cases p <;> simp only [Within] at hp ⊢ <;> omega

private structure Inv (c n u : Nat) (P : Finset Nat) (s : Sys T) : Prop where
  wf : WF s.store
  len : s.store.length = (c + 31) / 32
  fresh : ∀ i x, at_ s.store i = some x → u ≤ i → x = newUninit
  pos : ∀ t, Within u (s.pc t)
  pend : ∀ t, pending (s.pc t) = true → t ∈ P
  card : u + P.card ≤ n
  ids : ∀ i, (∃ v, Ev.add v i ∈ s.log) ∨ Ev.incr i ∈ s.log → i < u

/-- A step of thread `t` that changes no slot from `u` on. -/
private theorem Inv.keep {c n u : Nat} {P : Finset Nat} {s : Sys T} (h : Inv c n u P s) (t : Nat) (p : APC T)
    (hp : Within u p) (hq : pending p = true → t ∈ P) (l : List (Ev T))
    (hl : ∀ i, (∃ v, Ev.add v i ∈ l) ∨ Ev.incr i ∈ l → i < u) :
    Inv c n u P ⟨s.store, Function.update s.pc t p, l⟩ := by
  refine ⟨h.wf, h.len, h.fresh, fun t' => ?_, fun t' ht' => ?_, h.card, hl⟩
  · by_cases e : t' = t
    · subst e; simpa using hp
    · simpa [Function.update_of_ne e] using h.pos t'
  · by_cases e : t' = t
    · subst e; simp only [Function.update_self] at ht'; exact hq ht'
    · simp only [Function.update_of_ne e] at ht'; exact h.pend t' ht'

private theorem Inv.set {c n u : Nat} {P : Finset Nat} {s : Sys T} (h : Inv c n u P s) {i : Nat} (hi : i < u)
    (y : Slot T) : Inv c n u P ⟨setSlot s.store (offsetToIdx i) y, s.pc, s.log⟩ := by
  refine ⟨(wf_setSlot h.wf _ _).1, by rw [← h.len]; exact (wf_setSlot h.wf _ _).2, fun j x hx hj => ?_, h.pos, h.pend,
    h.card, h.ids⟩
  change at_ (setSlot s.store (offsetToIdx i) y) j = some x at hx
  have hj' := (at_isSome (wf_setSlot h.wf _ _).1 j).mp ⟨x, hx⟩
  rw [(wf_setSlot h.wf _ _).2] at hj'
  rw [at_setSlot _ _ _ ((at_isSome h.wf i).mpr (by omega)), if_neg (by omega)] at hx
  exact h.fresh j x hx hj

/-- Thread `t` counts its reference to the first slot never used. -/
private theorem Inv.claim {c n u : Nat} {P : Finset Nat} {s : Sys T} (h : Inv c n u P s) (y : Slot T) (t : Nat)
    (ht : t ∈ P) (v : T) :
    Inv c n (u + 1) (P.erase t) ⟨setSlot s.store (offsetToIdx u) y, Function.update s.pc t (.setDead v u), s.log⟩ := by
  refine ⟨(wf_setSlot h.wf _ _).1, by rw [← h.len]; exact (wf_setSlot h.wf _ _).2, fun j x hx hj => ?_, fun t' => ?_,
    fun t' ht' => ?_, ?_, fun i hi => by have := h.ids i hi; omega⟩
  · change at_ (setSlot s.store (offsetToIdx u) y) j = some x at hx
    have hj' := (at_isSome (wf_setSlot h.wf _ _).1 j).mp ⟨x, hx⟩
    rw [(wf_setSlot h.wf _ _).2] at hj'
    rw [at_setSlot _ _ _ ((at_isSome h.wf u).mpr (by omega)), if_neg (by omega)] at hx
    exact h.fresh j x hx (by omega)
  · by_cases e : t' = t
    · subst e
      simp [Within]
    · simpa [Function.update_of_ne e] using (h.pos t').mono (Nat.le_succ u)
  · by_cases e : t' = t
    · subst e
      simp [pending] at ht'
    · simp only [Function.update_of_ne e] at ht'
      exact Finset.mem_erase.mpr ⟨e, h.pend t' ht'⟩
  · have := Finset.card_erase_add_one ht
    have := h.card
    omega

private theorem incrAt_cases (m : Mode) (st : Store T) (i : Nat) (next : APC T) :
    incrAt m st i next = (st, .panicked) ∨ ∃ y, incrAt m st i next = (setSlot st (offsetToIdx i) y, next) := by
  unfold incrAt incr
  cases slot st (offsetToIdx i) with
  | ok x =>
    cases e : incrInner m x with
    | ok y => exact .inr ⟨y, by simp only [Res.bind, e]⟩
    | panic => exact .inl (by simp only [Res.bind, e])
    | hang => exact .inl (by simp only [Res.bind, e])
  | panic => exact .inl (by simp only [Res.bind])
  | hang => exact .inl (by simp only [Res.bind])

private theorem Inv.step {m : Mode} {I : Nat → Nat → Prop} {R : Nat → Nat → Prop} {c n u : Nat} {P : Finset Nat}
    {s s' : Sys T} (hn : n ≤ 32 * ((c + 31) / 32)) (h : Inv c n u P s)
    (hs : SysStep m (fun _ _ => False) I R s s') : ∃ u' P', Inv c n u' P' s' := by
  have held : ∀ i, lost i s.log < gained i s.log → i < u := by
    intro i hi
    have hp : 0 < gained i s.log := by omega
    unfold gained at hp
    obtain ⟨e, he, hm⟩ := List.countP_pos_iff.mp hp
    cases e with
    | add v id => simp only [beq_iff_eq] at hm; subst hm; exact h.ids _ (.inl ⟨v, he⟩)
    | incr id => simp only [beq_iff_eq] at hm; subst hm; exact h.ids _ (.inr he)
    | decr id => simp at hm
  cases hs with
  | start t v hv hr => exact hv.elim
  | clone t i hI hr hh =>
    have hi := held i hh
    have hids : ∀ j, (∃ v, Ev.add v j ∈ s.log ++ [.incr i]) ∨ Ev.incr j ∈ s.log ++ [.incr i] → j < u := by
      intro j hj
      simp only [List.mem_append, List.mem_singleton, reduceCtorEq, or_false, Ev.incr.injEq] at hj
      rcases hj with hj | hj | hj
      · exact h.ids j (.inl hj)
      · exact h.ids j (.inr hj)
      · omega
    refine ⟨u, P, ?_⟩
    rcases incrAt_cases m s.store i (s.pc t) with e | ⟨y, e⟩ <;> rw [e]
    · exact h.keep t .panicked trivial (by simp [pending]) _ hids
    · exact (h.set hi y).keep t (s.pc t) (h.pos t) (h.pend t) _ hids
  | drop t i hI hr hh =>
    have hi := held i hh
    have hids : ∀ j, (∃ v, Ev.add v j ∈ s.log ++ [.decr i]) ∨ Ev.incr j ∈ s.log ++ [.decr i] → j < u := by
      intro j hj
      simp only [List.mem_append, List.mem_singleton, reduceCtorEq, or_false] at hj
      exact h.ids j hj
    refine ⟨u, P, ?_⟩
    have hc : decrAt s.store i (s.pc t) = (s.store, .panicked) ∨
        ∃ y, decrAt s.store i (s.pc t) = (setSlot s.store (offsetToIdx i) y, s.pc t) := by
      unfold decrAt decr
      cases slot s.store (offsetToIdx i) with
      | ok x => exact .inr ⟨_, rfl⟩
      | panic => exact .inl rfl
      | hang => exact .inl rfl
    rcases hc with e | ⟨y, e⟩ <;> rw [e]
    · exact h.keep t .panicked trivial (by simp [pending]) _ hids
    · exact (h.set hi y).keep t (s.pc t) (h.pos t) (h.pend t) _ hids
  | run t ret st' pc' hr ha =>
    have hp := h.pos t
    have hq := h.pend t
    have quiet : ∀ p : APC T, p.ev = [] → ∀ j, (∃ v, Ev.add v j ∈ s.log ++ p.ev) ∨ Ev.incr j ∈ s.log ++ p.ev → j < u := by
      intro p hp j hj
      rw [hp, List.append_nil] at hj
      exact h.ids j hj
    have loud : ∀ (v : T) (i : Nat), i < u → ∀ j, (∃ w, Ev.add w j ∈ s.log ++ (APC.done v i).ev) ∨
        Ev.incr j ∈ s.log ++ (APC.done v i).ev → j < u := by
      intro v i hi j hj
      simp only [APC.ev, List.mem_append, List.mem_singleton, reduceCtorEq, or_false, Ev.add.injEq] at hj
      rcases hj with ⟨w, hj | hj⟩ | hj
      · exact h.ids j (.inl ⟨w, hj⟩)
      · omega
      · exact h.ids j (.inr hj)
    cases hpc : s.pc t with
    | idle | done | panicked => rw [hpc] at ha; simp [addStep] at ha
    | pushChunk | incrNew | setNew => rw [hpc] at hp; exact hp.elim
    | scan v i =>
      rw [hpc] at ha hp hq
      have ht := hq rfl
      have hcard := h.card
      have hpos := Finset.card_pos.mpr ⟨t, ht⟩
      simp only [Within] at hp
      obtain ⟨x, hx⟩ := (at_isSome h.wf i).mpr (by rw [h.len]; omega)
      simp only [addStep, slot_eq, hx, Res.ofOption, Option.some.injEq, Prod.mk.injEq] at ha
      obtain ⟨rfl, rfl⟩ := ha
      exact ⟨u, P, h.keep t (.load v i) hp (fun _ => ht) _ (quiet _ rfl)⟩
    | load v i =>
      rw [hpc] at ha hp hq
      have ht := hq rfl
      have hcard := h.card
      have hpos := Finset.card_pos.mpr ⟨t, ht⟩
      simp only [Within] at hp
      obtain ⟨x, hx⟩ := (at_isSome h.wf i).mpr (by rw [h.len]; omega)
      simp only [addStep, slot_eq, hx, Res.ofOption, Option.some.injEq, Prod.mk.injEq] at ha
      obtain ⟨rfl, rfl⟩ := ha
      refine ⟨u, P, h.keep t (.check v i x.refs) ⟨hp, fun hne => ?_⟩ (fun _ => ht) _ (quiet _ rfl)⟩
      by_contra hge
      exact hne (by rw [h.fresh i x hx (by omega)]; rfl)
    | check v i count =>
      rw [hpc] at ha hp hq
      have ht := hq rfl
      have hcard := h.card
      have hpos := Finset.card_pos.mpr ⟨t, ht⟩
      simp only [Within] at hp
      obtain ⟨x, hx⟩ := (at_isSome h.wf i).mpr (by rw [h.len]; omega)
      simp only [addStep, slot_eq, hx, Res.ofOption] at ha
      split at ha
      · rename_i hv
        simp only [Option.some.injEq, Prod.mk.injEq] at ha
        obtain ⟨rfl, rfl⟩ := ha
        refine ⟨u, P, h.keep t (.incrExists v i) ?_ (fun _ => ht) _ (quiet _ rfl)⟩
        change i < u
        by_contra hge
        rw [h.fresh i x hx (by omega)] at hv
        simp [newUninit] at hv
      · split at ha
        · simp only [Option.some.injEq, Prod.mk.injEq] at ha
          obtain ⟨rfl, rfl⟩ := ha
          exact ⟨u, P, h.keep t (.incrDead v i) hp.1 (fun _ => ht) _ (quiet _ rfl)⟩
        · rename_i h0
          simp only [Option.some.injEq, Prod.mk.injEq] at ha
          obtain ⟨rfl, rfl⟩ := ha
          exact ⟨u, P, h.keep t (.scan v (i + 1)) (hp.2 h0) (fun _ => ht) _ (quiet _ rfl)⟩
    | incrExists v i =>
      rw [hpc] at ha hp hq
      simp only [Within] at hp
      simp only [addStep, Option.some.injEq] at ha
      refine ⟨u, P, ?_⟩
      rcases incrAt_cases m s.store i (.done v i) with e | ⟨y, e⟩ <;> rw [e] at ha <;>
        simp only [Prod.mk.injEq] at ha <;> obtain ⟨rfl, rfl⟩ := ha
      · exact h.keep t .panicked trivial (by simp [pending]) _ (quiet _ rfl)
      · exact (h.set hp y).keep t (.done v i) hp (by simp [pending]) _ (loud v i hp)
    | incrDead v i =>
      rw [hpc] at ha hp hq
      have ht := hq rfl
      simp only [Within] at hp
      simp only [addStep, Option.some.injEq] at ha
      rcases incrAt_cases m s.store i (.setDead v i) with e | ⟨y, e⟩ <;> rw [e] at ha <;>
        simp only [Prod.mk.injEq] at ha <;> obtain ⟨rfl, rfl⟩ := ha
      · exact ⟨u, P, h.keep t .panicked trivial (by simp [pending]) _ (quiet _ rfl)⟩
      · simp only [APC.ev, List.append_nil]
        rcases Nat.lt_or_ge i u with hi | hi
        · exact ⟨u, P, (h.set hi y).keep t (.setDead v i) hi (by simp [pending]) _ h.ids⟩
        · obtain rfl : i = u := by omega
          exact ⟨_, _, h.claim y t ht v⟩
    | setDead v i =>
      rw [hpc] at ha hp
      simp only [Within] at hp
      simp only [addStep, Option.some.injEq] at ha
      refine ⟨u, P, ?_⟩
      have hc : setAt s.store i v (.done v i) = (s.store, .panicked) ∨
          ∃ y, setAt s.store i v (.done v i) = (setSlot s.store (offsetToIdx i) y, .done v i) := by
        unfold setAt
        cases slot s.store (offsetToIdx i) with
        | ok x => exact .inr ⟨_, rfl⟩
        | panic => exact .inl rfl
        | hang => exact .inl rfl
      rcases hc with e | ⟨y, e⟩ <;> rw [e] at ha <;>
        simp only [Prod.mk.injEq] at ha <;> obtain ⟨rfl, rfl⟩ := ha
      · exact h.keep t .panicked trivial (by simp [pending]) _ (quiet _ rfl)
      · exact (h.set hp y).keep t (.done v i) hp (by simp [pending]) _ (loud v i hp)

private theorem Inv.calls {m : Mode} {I : Nat → Nat → Prop} {R : Nat → Nat → Prop} {c n : Nat} {s : Sys T}
    (h : Calls m I R ⟨withCapacity c, fun _ => .idle, []⟩ n s) (hn : n ≤ 32 * ((c + 31) / 32)) :
    ∃ u P, Inv c n u P s := by
  induction h with
  | refl =>
    exact ⟨0, ∅, wf_withCapacity c, by simp [withCapacity, chunkSize], fun i x hx _ => at_withCapacity c i x hx,
      fun _ => trivial, by simp [pending], by simp, by simp⟩
  | @start n b t v _ hr ih =>
    obtain ⟨u, P, h⟩ := ih (by omega)
    refine ⟨u, insert t P, ?_⟩
    have h' : Inv c (n + 1) u (insert t P) b :=
      ⟨h.wf, h.len, h.fresh, h.pos, fun t' ht' => Finset.mem_insert_of_mem (h.pend t' ht'), by
        have := Finset.card_insert_le t P
        have := h.card
        omega, h.ids⟩
    exact h'.keep t (.scan v 0) (Nat.zero_le u) (fun _ => Finset.mem_insert_self t P) _ h.ids
  | other _ hs ih =>
    obtain ⟨u, P, h⟩ := ih hn
    exact h.step hn hs

/-- C198: what holds. If an interner is made with capacity for `c` values and `add` is called at most `c` times,
whatever the schedule and whatever the threads clone and drop meanwhile, no chunk is allocated and every id that is
returned is below the number of calls. (The claim is about the number of different values.) -/
theorem C198_calls_partial (m : Mode) (I : Nat → Nat → Prop) (R : Nat → Nat → Prop) (c n : Nat) (hn : n ≤ c)
    (s : Sys T) (h : Calls m I R ⟨withCapacity c, fun _ => .idle, []⟩ n s) :
    s.store.length = (c + 31) / 32 ∧ ∀ v i, Ev.add v i ∈ s.log → i < n := by
  obtain ⟨u, P, h⟩ := Inv.calls h (by omega)
  refine ⟨h.len, fun v i hi => ?_⟩
  have := h.ids i (.inl ⟨v, hi⟩)
  have := h.card
  omega

/-! ## Every id below the number of calls occurs -/

private structure Claimed (c : Nat) (f : Nat → T) (j : Nat) (s : Sys T) : Prop where
  wf : WF s.store
  len : s.store.length = (c + 31) / 32
  used : ∀ i < j, at_ s.store i = some ⟨1, none⟩
  fresh : ∀ i x, at_ s.store i = some x → j ≤ i → x = newUninit
  here : ∀ t < j, s.pc t = .setDead (f t) t
  rest : ∀ t, j ≤ t → s.pc t = .idle
  log : s.log = []

private theorem Claimed.roomy {c : Nat} {f : Nat → T} {j : Nat} {s : Sys T} (h : Claimed c f j s) : Roomy s := by
  intro i x hx
  rcases Nat.lt_or_ge i j with hi | hi
  · rw [h.used i hi] at hx
    cases hx
    norm_num
  · rw [h.fresh i x hx hi]
    simp [newUninit]

private theorem claimed (m : Mode) (c : Nat) (f : Nat → T) (j : Nat) (hj : j ≤ 32 * ((c + 31) / 32)) :
    ∃ b : Sys T, AddWalk m ⟨withCapacity c, fun _ => .idle, []⟩ b ∧ Claimed c f j b := by
  induction j with
  | zero =>
    exact ⟨_, .refl _, wf_withCapacity c, by simp [withCapacity, chunkSize], by simp,
      fun i x hx _ => at_withCapacity c i x hx, by simp, fun _ _ => rfl, rfl⟩
  | succ j ih =>
    obtain ⟨b, hw, h⟩ := ih (by omega)
    obtain ⟨x, hx⟩ := (at_isSome h.wf j).mpr (by rw [h.len]; omega)
    have hx0 := h.fresh j x hx (Nat.le_refl j)
    subst hx0
    have h1 := walk_claim (m := m) h.roomy j (f j) (by rw [h.rest j (Nat.le_refl j)]; rfl) j
      (fun i hi => ⟨_, h.used i hi, by simp, by simp⟩) hx rfl (by simp [newUninit])
    have h2 := walk_incr (m := m) (a := ⟨b.store, Function.update b.pc j (.incrDead (f j) j), b.log⟩) h.roomy j (f j) j
      (Function.update_self ..) hx
    simp only [Function.update_idem] at h2
    refine ⟨_, walk_trans hw (walk_trans h1 h2), (wf_setSlot h.wf _ _).1,
      by rw [← h.len]; exact (wf_setSlot h.wf _ _).2, fun i hi => ?_, fun i y hy hi => ?_, fun t ht => ?_,
      fun t ht => ?_, h.log⟩
    · change at_ (setSlot b.store (offsetToIdx j) _) i = _
      rw [at_setSlot _ _ _ ⟨_, hx⟩]
      split
      · rfl
      · exact h.used i (by omega)
    · change at_ (setSlot b.store (offsetToIdx j) _) i = _ at hy
      rw [at_setSlot _ _ _ ⟨_, hx⟩, if_neg (by omega)] at hy
      exact h.fresh i y hy (by omega)
    · by_cases e : t = j
      · subst e; exact Function.update_self ..
      · change Function.update b.pc j (.setDead (f j) j) t = _
        rw [Function.update_of_ne e]
        exact h.here t (by omega)
    · change Function.update b.pc j (.setDead (f j) j) t = _
      rw [Function.update_of_ne (by omega)]
      exact h.rest t (by omega)

private structure Written (f : Nat → T) (k j : Nat) (s : Sys T) : Prop where
  roomy : Roomy s
  used : ∀ i < k, ∃ x, at_ s.store i = some x ∧ x.refs < 2 ^ 64 - 1
  before : ∀ t < j, s.pc t = .done (f t) t
  after : ∀ t, j ≤ t → t < k → s.pc t = .setDead (f t) t
  log : s.log = (List.range j).map fun t => .add (f t) t

/-- C198 fails: `k` threads that add at the same time, whatever values, may get the ids `0`, …, `k - 1`, as long as the
slots suffice. So ten values added by eleven threads to an interner with capacity for ten may get the id `10`. -/
theorem C198_ids_violated (m : Mode) (c k : Nat) (hk : k ≤ 32 * ((c + 31) / 32)) (f : Nat → T) :
    ∃ b : Sys T, SysSteps m (fun _ _ => True) (fun _ _ => True) exactLen Roomy
        ⟨withCapacity c, fun _ => .idle, []⟩ b ∧
      (∀ t < k, b.pc t = .done (f t) t) ∧ b.log = (List.range k).map fun t => .add (f t) t := by
  obtain ⟨a, hw, h⟩ := claimed m c f k hk
  have main : ∀ j ≤ k, ∃ b : Sys T, AddWalk m ⟨withCapacity c, fun _ => .idle, []⟩ b ∧ Written f k j b := by
    intro j
    induction j with
    | zero =>
      exact fun _ => ⟨a, hw, h.roomy, fun i hi => ⟨_, h.used i hi, by norm_num⟩, by simp, fun t _ ht => h.here t ht,
        by simp [h.log]⟩
    | succ j ih =>
      intro hj
      obtain ⟨b, hw, h⟩ := ih (by omega)
      obtain ⟨x, hx, hx1⟩ := h.used j (by omega)
      have h1 := walk_set (m := m) h.roomy j (f j) j (h.after j (Nat.le_refl j) (by omega)) hx
      refine ⟨_, walk_trans hw h1, roomy_set (pc := b.pc) (l := b.log) h.roomy hx (by simpa using hx1) _ _,
        fun i hi => ?_, fun t ht => ?_, fun t ht ht' => ?_, ?_⟩
      · change ∃ x, at_ (setSlot b.store (offsetToIdx j) _) i = some x ∧ _
        rw [at_setSlot _ _ _ ⟨_, hx⟩]
        split
        · exact ⟨_, rfl, hx1⟩
        · exact h.used i hi
      · by_cases e : t = j
        · subst e; exact Function.update_self ..
        · change Function.update b.pc j (.done (f j) j) t = _
          rw [Function.update_of_ne e]
          exact h.before t (by omega)
      · change Function.update b.pc j (.done (f j) j) t = _
        rw [Function.update_of_ne (by omega)]
        exact h.after t (by omega) ht'
      · rw [List.range_succ, List.map_append, ← h.log]
        rfl
  obtain ⟨b, hb, h⟩ := main k (Nat.le_refl k)
  exact ⟨b, hb, h.before, h.log⟩

/-! ## One thread -/

/-- The different values of a list, in the order in which they first occur. -/
def Intern.firsts (vs : List T) : List T := vs.foldl (fun l v => if v ∈ l then l else l ++ [v]) []

/-- One thread adds the values in turn, and keeps all ids. -/
def Intern.addAll (m : Mode) (st : Store T) : List T → Res (Store T × List Nat)
  | [] => .ok (st, [])
  | v :: vs => (add m st v).bind fun r => (addAll m r.1 vs).bind fun q => .ok (q.1, r.2 :: q.2)

theorem Intern.firsts_snoc (vs : List T) (v : T) :
    firsts (vs ++ [v]) = if v ∈ firsts vs then firsts vs else firsts vs ++ [v] := by
  unfold firsts
  rw [List.foldl_append]
  rfl

theorem Intern.firsts_prefix (vs ws : List T) : firsts vs <+: firsts (vs ++ ws) := by
  induction ws using List.reverseRecOn with
  | nil => simp
  | append_singleton ws w ih =>
    rw [← List.append_assoc, firsts_snoc]
    split
    · exact ih
    · exact ih.trans (List.prefix_append _ _)

theorem Intern.mem_firsts (vs : List T) (v : T) : v ∈ firsts vs ↔ v ∈ vs := by
  induction vs using List.reverseRecOn with
  | nil => simp [firsts]
  | append_singleton ws w ih =>
    rw [firsts_snoc, List.mem_append, List.mem_singleton]
    split
    · rename_i h
      constructor
      · exact fun h' => .inl (ih.mp h')
      · rintro (h' | rfl)
        · exact ih.mpr h'
        · exact h
    · rw [List.mem_append, ih, List.mem_singleton]

theorem Intern.nodup_firsts (vs : List T) : (firsts vs).Nodup := by
  induction vs using List.reverseRecOn with
  | nil => simp [firsts]
  | append_singleton ws w ih =>
    rw [firsts_snoc]
    split
    · exact ih
    · rename_i h
      exact List.nodup_append.mpr ⟨ih, by simp, by
        intro a ha b hb
        rw [List.mem_singleton.mp hb]
        rintro rfl
        exact h ha⟩

/-- The slots after the values `us` were added. -/
private structure Filled (c : Nat) (us : List T) (st : Store T) : Prop where
  wf : WF st
  used : ∀ i (hi : i < (firsts us).length), ∃ x, at_ st i = some x ∧ x.val = some (firsts us)[i] ∧ 1 ≤ x.refs ∧
    x.refs ≤ us.length
  fresh : ∀ i x, at_ st i = some x → (firsts us).length ≤ i → x = newUninit
  len : st.length = max ((c + 31) / 32) (((firsts us).length + 31) / 32)

private theorem Filled.add {c : Nat} {us : List T} {st : Store T} (h : Filled c us st) (m : Mode) (v : T)
    (hb : us.length < 2 ^ 64 - 1) :
    ∃ st', Intern.add m st v = .ok (st', (firsts (us ++ [v])).idxOf v) ∧ Filled c (us ++ [v]) st' := by
  have hbound : ∀ i s, at_ st i = some s → s.refs < usizeSize - 1 := by
    intro i x hx
    rcases Nat.lt_or_ge i (firsts us).length with hi | hi
    · obtain ⟨y, h1, _, _, h2⟩ := h.used i hi
      rw [h1] at hx
      cases hx
      unfold usizeSize
      omega
    · rw [h.fresh i x hx hi]
      simp [newUninit, usizeSize]
  obtain ⟨st', id, e, hwf, hcase⟩ := add_spec h.wf m v hbound
  have hnd := nodup_firsts us
  have hlen := h.len
  by_cases hv : v ∈ firsts us
  · have hf : firsts (us ++ [v]) = firsts us := by rw [firsts_snoc, if_pos hv]
    have hlt := List.idxOf_lt_length_iff.mpr hv
    obtain ⟨y, y1, y2, y3, y4⟩ := h.used _ hlt
    rw [List.getElem_idxOf hlt] at y2
    rcases hcase with ⟨x, g1, g2, g3, g4, g5⟩ | ⟨_, g2, _⟩
    · have hid : id = (firsts us).idxOf v := by
        rcases Nat.lt_trichotomy id ((firsts us).idxOf v) with hi | hi | hi
        · exfalso
          obtain ⟨z, z1, z2, z3, _⟩ := h.used id (by omega)
          rw [z1] at g1
          cases g1
          rcases g2 with g2 | g2
          · rw [z2, Option.some.injEq] at g2
            have := List.Nodup.idxOf_getElem hnd id (by omega)
            rw [g2] at this
            omega
          · omega
        · exact hi
        · exact absurd y2 (g4 _ hi y y1).1
      subst hid
      rw [y1] at g1
      cases g1
      refine ⟨st', by rw [hf]; exact e, hwf, fun i hi => ?_, fun i x hx hi => ?_, by rw [hf, g3]; exact h.len⟩
      · simp only [hf] at hi ⊢
        rw [g5]
        split
        · rename_i e
          subst e
          refine ⟨_, rfl, by simp, by simp, ?_⟩
          simp only [List.length_append, List.length_singleton]
          omega
        · obtain ⟨z, z1, z2, z3, z4⟩ := h.used i hi
          exact ⟨z, z1, z2, z3, by simp; omega⟩
      · rw [hf] at hi
        rw [g5, if_neg (by omega)] at hx
        exact h.fresh i x hx hi
    · exact absurd y2 (g2 _ y y1).1
  · have hf : firsts (us ++ [v]) = firsts us ++ [v] := by rw [firsts_snoc, if_neg hv]
    have hx : (firsts us ++ [v]).idxOf v = (firsts us).length := by
      rw [List.idxOf_append_of_notMem hv]; simp
    have key : id = (firsts us).length ∧
        (∀ j x, j ≠ id → at_ st' j = some x → at_ st j = some x ∨ x = newUninit) ∧
        at_ st' id = some ⟨1, some v⟩ ∧ (∀ j x, j ≠ id → at_ st j = some x → at_ st' j = some x) ∧
        st'.length = max ((c + 31) / 32) (((firsts us).length + 1 + 31) / 32) := by
      rcases hcase with ⟨x, g1, g2, g3, g4, g5⟩ | ⟨g1, g2, g3, g4⟩
      · have hlt := (at_isSome h.wf id).mp ⟨x, g1⟩
        have hid : id = (firsts us).length := by
          rcases Nat.lt_trichotomy id (firsts us).length with hi | hi | hi
          · exfalso
            obtain ⟨z, z1, z2, z3, _⟩ := h.used id hi
            rw [z1] at g1
            cases g1
            rcases g2 with g2 | g2
            · rw [z2, Option.some.injEq] at g2
              exact hv (g2 ▸ List.getElem_mem hi)
            · omega
          · exact hi
          · exfalso
            obtain ⟨y, hy⟩ := (at_isSome h.wf (firsts us).length).mpr (by omega)
            have := (g4 _ hi y hy).2
            rw [h.fresh _ y hy (Nat.le_refl _)] at this
            exact this rfl
        have hx0 := h.fresh id x g1 (by omega)
        refine ⟨hid, fun j y hj hy => .inl (by rw [g5, if_neg hj] at hy; exact hy), ?_, fun j y hj hy => by rw [g5, if_neg hj]; exact hy,
          by omega⟩
        rw [g5, if_pos rfl, hx0]
        rfl
      · have hid : id = (firsts us).length := by
          rcases Nat.lt_or_ge (firsts us).length (32 * st.length) with hi | hi
          · exfalso
            obtain ⟨y, hy⟩ := (at_isSome h.wf (firsts us).length).mpr hi
            have := (g2 _ y hy).2
            rw [h.fresh _ y hy (Nat.le_refl _)] at this
            exact this rfl
          · omega
        refine ⟨hid, fun j y hj hy => ?_, by rw [g4, if_pos rfl], fun j y hj hy => ?_, by omega⟩
        · rw [g4, if_neg hj, at_append] at hy
          split at hy
          · exact .inl hy
          · split at hy
            · exact .inr (Option.some.inj hy).symm
            · cases hy
        · rw [g4, if_neg hj, at_append, if_pos ((at_isSome h.wf j).mp ⟨y, hy⟩)]
          exact hy
    obtain ⟨hid, k1, k2, k3, k4⟩ := key
    refine ⟨st', by rw [hf, hx, ← hid]; exact e, hwf, fun i hi => ?_, fun i x hx hi => ?_, ?_⟩
    · simp only [hf] at hi ⊢
      rw [List.length_append, List.length_singleton] at hi
      by_cases e : i = id
      · subst e
        refine ⟨_, k2, ?_, by simp, by simp⟩
        rw [List.getElem_append_right (by omega)]
        simp
      · have hi' : i < (firsts us).length := by omega
        obtain ⟨z, z1, z2, z3, z4⟩ := h.used i hi'
        refine ⟨z, k3 i z e z1, ?_, z3, by simp; omega⟩
        rw [List.getElem_append_left hi']
        exact z2
    · rw [hf, List.length_append, List.length_singleton] at hi
      rcases k1 i x (by omega) hx with h' | h'
      · exact h.fresh i x h' (by omega)
      · exact h'
    · rw [hf, List.length_append, List.length_singleton]
      exact k4

private theorem addAll_filled (m : Mode) (c : Nat) (vs : List T) : ∀ (us : List T) (st : Store T), Filled c us st →
    us.length + vs.length < 2 ^ 64 →
    ∃ st', Intern.addAll m st vs = .ok (st', vs.map fun v => (firsts (us ++ vs)).idxOf v) ∧
      Filled c (us ++ vs) st' := by
  induction vs with
  | nil =>
    intro us st h _
    exact ⟨st, rfl, by simpa using h⟩
  | cons v vs ih =>
    intro us st h hb
    rw [List.length_cons] at hb
    obtain ⟨st1, e1, h1⟩ := h.add m v (by omega)
    obtain ⟨st2, e2, h2⟩ := ih (us ++ [v]) st1 h1 (by simp; omega)
    have eq : us ++ [v] ++ vs = us ++ v :: vs := by simp
    rw [eq] at e2 h2
    refine ⟨st2, ?_, h2⟩
    rw [Intern.addAll, e1]
    simp only [Res.bind, e2, List.map_cons]
    obtain ⟨l, hl⟩ := firsts_prefix (us ++ [v]) vs
    rw [eq] at hl
    have hm : v ∈ firsts (us ++ [v]) := (mem_firsts _ _).mpr (by simp)
    rw [← hl, List.idxOf_append_of_mem hm]

/-- C198: what holds for one thread that keeps what it adds. The id of a value is the number of different values added
before it, and chunks are allocated for the capacity asked for or the number of different values, whichever is
greater. (The claim is also about values that are dropped, and about several threads.) -/
theorem C198_alone_partial (m : Mode) (c : Nat) (vs : List T) (hb : vs.length < 2 ^ 64) :
    ∃ st', addAll m (withCapacity c) vs = .ok (st', vs.map fun v => (firsts vs).idxOf v) ∧
      (∀ v ∈ vs, (firsts vs).idxOf v < (firsts vs).length) ∧
      st'.length = max ((c + 31) / 32) (((firsts vs).length + 31) / 32) := by
  have h0 : Filled c ([] : List T) (withCapacity c) :=
    ⟨wf_withCapacity c, by simp [firsts], fun i x hx _ => at_withCapacity c i x hx, by
      simp [firsts, withCapacity, chunkSize]⟩
  obtain ⟨st', e, h⟩ := addAll_filled m c vs [] _ h0 (by simpa using hb)
  refine ⟨st', by simpa using e, fun v hv => List.idxOf_lt_length_iff.mpr ((mem_firsts vs v).mpr hv), h.len⟩

/-- C198 fails for one thread that drops: with two different values, the third id. -/
theorem C198_dropped_violated (m : Mode) :
    ((add m (withCapacity 2) 5).bind fun a => (add m a.1 6).bind fun b => (decr b.1 a.2).bind fun st =>
      (add m st 6).bind fun c => (add m c.1 5).bind fun d => .ok [a.2, b.2, c.2, d.2]) = .ok [0, 1, 0, 2] := by
  cases m <;> decide +kernel

-- the crate's own test: thread `t` adds `t % 10` to `with_capacity(10)`; the eleventh thread may get the id 10
example : ∃ b : Sys Nat, SysSteps .release (fun _ _ => True) (fun _ _ => True) exactLen Roomy
    ⟨withCapacity 10, fun _ => .idle, []⟩ b ∧ Ev.add 0 10 ∈ b.log := by
  obtain ⟨b, h1, _, h2⟩ := C198_ids_violated .release 10 11 (by decide) (fun t => t % 10)
  exact ⟨b, h1, by rw [h2]; decide⟩

-- three different values
example : ((addAll .debug (withCapacity 0) [5, 6, 5, 7, 6]).bind fun r => .ok (r.1.length, r.2)) =
    .ok (1, [0, 1, 0, 2, 1]) := by decide +kernel

-- hypotheses met: two calls of one thread, the second after the first has returned
example : ∃ s : Sys Nat, Calls .release (fun _ _ => True) exactLen ⟨withCapacity 2, fun _ => .idle, []⟩ 2 s ∧
    s.log = [.add 5 0] := by
  refine ⟨_, .start 1 5 (.other (.other (.other (.other (.other (.start 0 5 .refl rfl)
    (.run _ 0 2 _ _ rfl rfl)) (.run _ 0 2 _ _ rfl rfl)) (.run _ 0 2 _ _ rfl rfl)) (.run _ 0 2 _ _ rfl rfl))
    (.run _ 0 2 _ _ rfl rfl)) rfl, ?_⟩
  rfl

end Verif
