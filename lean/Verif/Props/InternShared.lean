import Verif.Lemmas.InternShared

/-!
# C133: adding, cloning and dropping interned values on several threads
-/

set_option linter.unusedSectionVars false

namespace Verif

open Intern

variable {T : Type} [DecidableEq T]

/-! ## Violation -/

/-- What a thread is told to do in the schedule below. -/
inductive InternAct where
  | start (t : Nat) (v : Nat)
  | run (t : Nat)
  | clone (t i : Nat)
  | drop (t i : Nat)

/-- No count is near overflow. -/
def Roomy (s : Sys T) : Prop := ∀ i x, at_ s.store i = some x → x.refs < 2 ^ 64 - 1

def roomy (s : Sys T) : Bool := s.store.all fun c => c.all fun x => x.refs < 2 ^ 64 - 1

theorem roomy_spec {s : Sys T} (h : roomy s = true) : Roomy s := by
  intro i x hx
  unfold at_ at hx
  rw [Option.bind_eq_some_iff] at hx
  obtain ⟨c, hc, hx⟩ := hx
  have := List.all_eq_true.mp (List.all_eq_true.mp h c (List.mem_of_getElem? hc)) x
    (List.mem_of_getElem? hx)
  simpa using this

def internAct (s : Sys Nat) : InternAct → Option (Sys Nat)
  | .start t v =>
    if (s.pc t).ready = true then some ⟨s.store, Function.update s.pc t (.scan v 0), s.log⟩ else none
  | .run t =>
    (addStep .debug (s.store.length + 1) s.store (s.pc t)).map fun x =>
      ⟨x.1, Function.update s.pc t x.2, s.log ++ x.2.ev⟩
  | .clone t i =>
    if (s.pc t).ready = true ∧ lost i s.log < gained i s.log then
      some ⟨(incrAt .debug s.store i (s.pc t)).1,
        Function.update s.pc t (incrAt .debug s.store i (s.pc t)).2, s.log ++ [.incr i]⟩
    else none
  | .drop t i =>
    if (s.pc t).ready = true ∧ lost i s.log < gained i s.log then
      some ⟨(decrAt s.store i (s.pc t)).1,
        Function.update s.pc t (decrAt s.store i (s.pc t)).2, s.log ++ [.decr i]⟩
    else none

theorem internAct_step {s s' : Sys Nat} {a : InternAct} (h : internAct s a = some s') :
    SysStep .debug (fun _ _ => True) (fun _ _ => True) exactLen s s' := by
  cases a with
  | start t v =>
    unfold internAct at h
    dsimp only at h
    split at h
    · rename_i hr
      cases h
      exact .start s t v trivial hr
    · cases h
  | run t =>
    unfold internAct at h
    dsimp only at h
    rw [Option.map_eq_some_iff] at h
    obtain ⟨⟨st', pc'⟩, h1, rfl⟩ := h
    exact .run s t _ st' pc' rfl h1
  | clone t i =>
    unfold internAct at h
    dsimp only at h
    split at h
    · rename_i hr
      cases h
      exact .clone s t i trivial hr.1 hr.2
    · cases h
  | drop t i =>
    unfold internAct at h
    dsimp only at h
    split at h
    · rename_i hr
      cases h
      exact .drop s t i trivial hr.1 hr.2
    · cases h

def internActs (s : Sys Nat) : List InternAct → Option (Sys Nat)
  | [] => some s
  | a :: l => if roomy s then (internAct s a).bind fun s' => internActs s' l else none

theorem internActs_steps (l : List InternAct) (s0 s s' : Sys Nat)
    (h0 : SysSteps .debug (fun _ _ => True) (fun _ _ => True) exactLen Roomy s0 s)
    (h : internActs s l = some s') :
    SysSteps .debug (fun _ _ => True) (fun _ _ => True) exactLen Roomy s0 s' := by
  induction l generalizing s with
  | nil => cases h; exact h0
  | cons a l ih =>
    unfold internActs at h
    split at h
    · rename_i hr
      rw [Option.bind_eq_some_iff] at h
      obtain ⟨s1, h1, h2⟩ := h
      exact ih s1 (h0.tail (roomy_spec hr) (internAct_step h1)) h2
    · cases h

/-- Thread 0 adds 5. Thread 1 adds 5 and finds it. Before thread 1 counts its reference, thread 0
drops its own and thread 2 adds 7, which goes to the slot that is now free. -/
def revived : Option (Sys Nat) :=
  internActs ⟨withCapacity 1, fun _ => .idle, []⟩
    [.start 0 5, .run 0, .run 0, .run 0, .run 0, .run 0, .start 1 5, .run 1, .run 1, .run 1,
      .drop 0 0, .start 2 7, .run 2, .run 2, .run 2, .run 2, .run 2, .run 1]

/-- C133, violated by the code: a thread that adds a value another thread is dropping may be left with
a third thread's value. Here thread 1 has added 5, holds its id, and reads 7. -/
theorem C133_concurrent_drop_violated :
    ¬ ∀ (m : Mode) (s : Sys Nat),
      SysSteps m (fun _ _ => True) (fun _ _ => True) exactLen Roomy
        ⟨withCapacity 1, fun _ => .idle, []⟩ s →
      ∀ i l1 v l2, s.log = l1 ++ .add v i :: l2 →
        (∀ p, p <+: l2 → lost i (l1 ++ .add v i :: p) < gained i (l1 ++ .add v i :: p)) →
        get s.store i = .ok v := by
  intro h
  obtain ⟨s, hs⟩ : ∃ s, revived = some s := Option.isSome_iff_exists.mp (by decide +kernel)
  have hlog : s.log = [.add 5 0, .decr 0, .add 7 0, .add 5 0] := by
    have : revived.map (fun s => s.log) = some [.add 5 0, .decr 0, .add 7 0, .add 5 0] := by
      decide +kernel
    rw [hs] at this
    exact Option.some.inj this
  have hget : get s.store 0 = .ok 7 := by
    have : revived.map (fun s => get s.store 0) = some (.ok 7) := by decide +kernel
    rw [hs] at this
    exact Option.some.inj this
  have := h .debug s (internActs_steps _ _ _ s (.refl _) hs) 0 [.add 5 0, .decr 0, .add 7 0] 5 []
    (by rw [hlog]; rfl) (fun p hp => by rw [List.prefix_nil.mp hp]; decide)
  rw [hget] at this
  cases this

/-! ## What holds -/

/-- C133, if threads inside `add` do not meet at a slot: at no time are two of them at the same slot (one has seen it free,
has found its value there, or is counting or writing it), unless both have found their value there. Any number of threads search,
push and write other slots at the same time, the others clone and drop references as they please, and references may be passed
between threads. Then, in every interleaving: an id reads as the value it was added for as long as, since that add, some
reference to it has been held; the count of a held id is the number of references held, and of every id
if no thread is inside `add`; nothing panics (while no count reaches `2^64 - 1`). Reading and writing a value are single steps,
and so is pushing a chunk: `push` returns the exact length, as it does if no two threads push at the same time
(`C133_push_partial` has it in two steps). Missing: two threads at the same slot. -/
theorem C133_apart_partial (m : Mode) (n : Nat) (s : Sys T)
    (hr : SysSteps m (fun _ _ => True) (fun _ _ => True) exactLen
      (fun s => (∀ t t' i, t ≠ t' → (s.pc t).target = some i → (s.pc t').target = some i →
        (s.pc t).found = true ∧ (s.pc t').found = true) ∧ Roomy s)
      ⟨withCapacity n, fun _ => .idle, []⟩ s) :
    (∀ i l1 v l2, s.log = l1 ++ .add v i :: l2 →
      (∀ p, p <+: l2 → lost i (l1 ++ .add v i :: p) < gained i (l1 ++ .add v i :: p)) →
      get s.store i = .ok v) ∧
    (∀ i, lost i s.log < gained i s.log →
      refcount s.store i = .ok (gained i s.log - lost i s.log)) ∧
    ((∀ t, (s.pc t).ready = true) → ∀ i r, refcount s.store i = .ok r →
      r + lost i s.log = gained i s.log) ∧
    (∀ t, s.pc t ≠ .panicked) := by
  have h : ShareInv s := by
    induction hr with
    | refl =>
      refine ⟨wf_withCapacity n, fun _ => Nat.le_refl _, fun i hi => absurd hi (Nat.lt_irrefl 0), ?_,
        ?_, fun _ => trivial⟩
      · intro i x hx _
        rw [at_withCapacity n i x hx]
        rfl
      · intro i l1 v l2 hl
        cases l1 <;> cases hl
    | tail _ hb hstep ih => exact share_step ih hb.1 hb.2 hstep
  have hnc : ∀ i, lost i s.log < gained i s.log → ∀ t, ¬ claims i (s.pc t) := by
    intro i hi t hc
    have := h.threads t
    cases hp : s.pc t <;> rw [hp] at this hc <;> simp only [claims] at hc
    · subst hc
      obtain ⟨_, _, _, h1⟩ := this
      omega
    · subst hc
      obtain ⟨_, _, _, h1⟩ := this
      omega
  refine ⟨?_, ?_, ?_, ?_⟩
  · intro i l1 v l2 hl hh
    obtain ⟨x, hx, hv⟩ := h.vals i l1 v l2 hl hh
    have hheld := hh l2 (List.prefix_refl _)
    rw [← hl] at hheld
    have hc := h.count i x hx (hnc i hheld)
    unfold Intern.get tryGet
    rw [slot_eq, hx]
    simp only [Res.ofOption, Res.bind]
    rw [if_neg (by omega), hv]
  · intro i hi
    obtain ⟨x, hx⟩ := h.ids i (by omega)
    have hc := h.count i x hx (hnc i hi)
    unfold refcount
    rw [slot_eq, hx]
    simp only [Res.ofOption, Res.bind, Res.ok.injEq]
    omega
  · intro hall i r hi
    unfold refcount at hi
    rw [slot_eq] at hi
    cases hx : at_ s.store i with
    | none => rw [hx] at hi; cases hi
    | some x =>
      rw [hx] at hi
      cases hi
      exact h.count i x hx (fun t => (ready_ok s (hall t)).2 i)
  · intro t hp
    have := h.threads t
    rw [hp] at this
    exact this

theorem Intern.SysSteps.weaken {m : Mode} {V : Nat → T → Prop} {I : Nat → Nat → Prop} {R : Nat → Nat → Prop}
    {B B' : Sys T → Prop} {a b : Sys T} (hB : ∀ s, B s → B' s) (h : SysSteps m V I R B a b) :
    SysSteps m V I R B' a b := by
  induction h with
  | refl => exact .refl _
  | tail _ hb hs ih => exact ih.tail (hB _ hb) hs

theorem Intern.target_ready {p : APC T} {i : Nat} (h : p.target = some i) : p.ready = false := by
  cases p <;> first | rfl | cases h

/-- C133, if only one thread at a time is inside `add`; then no value is read while it is written, either. The others clone and drop references as they
please, also while the adding thread runs, and references may be passed between threads. Then, in every interleaving:
an id reads as the value it was added for as long as, since that add, some reference to it has been held; the
count of a held id is the number of references held, and of every id if no thread is inside `add`;
nothing panics (while no count reaches `2^64 - 1`). Missing: two threads inside `add`. -/
theorem C133_one_adder_partial (m : Mode) (n : Nat) (s : Sys T)
    (hr : SysSteps m (fun _ _ => True) (fun _ _ => True) exactLen
      (fun s => (∀ t t', (s.pc t).ready = false → (s.pc t').ready = false → t = t') ∧ Roomy s)
      ⟨withCapacity n, fun _ => .idle, []⟩ s) :
    (∀ i l1 v l2, s.log = l1 ++ .add v i :: l2 →
      (∀ p, p <+: l2 → lost i (l1 ++ .add v i :: p) < gained i (l1 ++ .add v i :: p)) →
      get s.store i = .ok v) ∧
    (∀ i, lost i s.log < gained i s.log →
      refcount s.store i = .ok (gained i s.log - lost i s.log)) ∧
    ((∀ t, (s.pc t).ready = true) → ∀ i r, refcount s.store i = .ok r →
      r + lost i s.log = gained i s.log) ∧
    (∀ t, s.pc t ≠ .panicked) :=
  C133_apart_partial m n s (hr.weaken fun _ hb => ⟨fun t t' _ hne h h' =>
    absurd (hb.1 t t' (target_ready h) (target_ready h')) hne, hb.2⟩)

/-- Thread 1 adds 5 while thread 0 drops its reference to the same value, after cloning it. -/
def shared : Option (Sys Nat) :=
  internActs ⟨withCapacity 1, fun _ => .idle, []⟩
    [.start 0 5, .run 0, .run 0, .run 0, .run 0, .run 0, .start 1 5, .run 1, .clone 0 0, .run 1,
      .drop 0 0, .run 1, .drop 2 0, .run 1]

def InternAct.thread : InternAct → Nat
  | .start t _ | .run t | .clone t _ | .drop t _ => t

/-- Of the first three threads, at most one is inside `add`. -/
def oneOfThree (s : Sys Nat) : Bool :=
  (List.range 3).all fun t => (List.range 3).all fun t' =>
    (s.pc t).ready || (s.pc t').ready || t == t'

/-- Of the first three threads, no two are at the same slot, unless both have found their value there. -/
def apartOfThree (s : Sys Nat) : Bool :=
  (List.range 3).all fun t => (List.range 3).all fun t' =>
    t == t' || (s.pc t).target.isNone || (s.pc t).target != (s.pc t').target ||
      ((s.pc t).found && (s.pc t').found)

/-- Before each step of the schedule, `chk` holds, and only the first three threads act. -/
def throughout (chk : Sys Nat → Bool) (s : Sys Nat) : List InternAct → Bool
  | [] => true
  | a :: l => chk s && decide (a.thread < 3) &&
    match internAct s a with
    | some s' => throughout chk s' l
    | none => true

theorem throughout_steps {chk : Sys Nat → Bool} {B : Sys Nat → Prop}
    (hB : ∀ s : Sys Nat, (∀ t, 3 ≤ t → s.pc t = .idle) → chk s = true → B s)
    (l : List InternAct) (s0 s s' : Sys Nat) (hi : ∀ t, 3 ≤ t → s.pc t = .idle)
    (hc : throughout chk s l = true)
    (h0 : SysSteps .debug (fun _ _ => True) (fun _ _ => True) exactLen (fun s => B s ∧ Roomy s) s0 s)
    (h : internActs s l = some s') :
    SysSteps .debug (fun _ _ => True) (fun _ _ => True) exactLen (fun s => B s ∧ Roomy s) s0 s' := by
  induction l generalizing s with
  | nil => cases h; exact h0
  | cons a l ih =>
    unfold internActs at h
    unfold throughout at hc
    split at h
    · rename_i hr
      rw [Option.bind_eq_some_iff] at h
      obtain ⟨s1, h1, h2⟩ := h
      rw [h1] at hc
      simp only [Bool.and_eq_true, decide_eq_true_eq] at hc
      obtain ⟨⟨hone, ha⟩, hc⟩ := hc
      refine ih s1 ?_ hc (h0.tail ⟨hB s hi hone, roomy_spec hr⟩ (internAct_step h1)) h2
      intro t ht
      have hne : t ≠ a.thread := by omega
      cases a <;> simp only [internAct, InternAct.thread] at h1 hne
      · split at h1
        · cases h1; dsimp only; rw [Function.update_of_ne hne]; exact hi t ht
        · cases h1
      · rw [Option.map_eq_some_iff] at h1
        obtain ⟨x, _, rfl⟩ := h1
        dsimp only; rw [Function.update_of_ne hne]; exact hi t ht
      · split at h1
        · cases h1; dsimp only; rw [Function.update_of_ne hne]; exact hi t ht
        · cases h1
      · split at h1
        · cases h1; dsimp only; rw [Function.update_of_ne hne]; exact hi t ht
        · cases h1
    · cases h

theorem oneOfThree_spec (s : Sys Nat) (hi : ∀ t, 3 ≤ t → s.pc t = .idle) (hc : oneOfThree s = true) :
    ∀ t t', (s.pc t).ready = false → (s.pc t').ready = false → t = t' := by
  intro t t' ht ht'
  have hlt : ∀ t, (s.pc t).ready = false → t < 3 := by
    intro t ht
    by_contra hge
    rw [hi t (by omega)] at ht
    cases ht
  have := List.all_eq_true.mp (List.all_eq_true.mp hc t (List.mem_range.mpr (hlt t ht))) t'
    (List.mem_range.mpr (hlt t' ht'))
  rw [ht, ht'] at this
  simpa using this

theorem apartOfThree_spec (s : Sys Nat) (hi : ∀ t, 3 ≤ t → s.pc t = .idle)
    (hc : apartOfThree s = true) :
    ∀ t t' i, t ≠ t' → (s.pc t).target = some i → (s.pc t').target = some i →
      (s.pc t).found = true ∧ (s.pc t').found = true := by
  intro t t' i hne ht ht'
  have hlt : ∀ t, (s.pc t).target = some i → t < 3 := by
    intro t ht
    by_contra hge
    rw [hi t (by omega)] at ht
    cases ht
  have := List.all_eq_true.mp (List.all_eq_true.mp hc t (List.mem_range.mpr (hlt t ht))) t'
    (List.mem_range.mpr (hlt t' ht'))
  rw [ht, ht'] at this
  simpa [hne] using this

-- a run in which another thread drops the last reference in the middle of an add; the slot is revived
example : ∃ s, SysSteps .debug (fun _ _ => True) (fun _ _ => True) exactLen
      (fun s => (∀ t t', (s.pc t).ready = false → (s.pc t').ready = false → t = t') ∧ Roomy s)
      ⟨withCapacity 1, fun _ => .idle, []⟩ s ∧
    s.log = [.add 5 0, .incr 0, .decr 0, .decr 0, .add 5 0] ∧ get s.store 0 = .ok 5 ∧
    refcount s.store 0 = .ok 1 := by
  obtain ⟨s, hs⟩ : ∃ s, shared = some s := Option.isSome_iff_exists.mp (by decide +kernel)
  have h : shared.map (fun s => (s.log, get s.store 0, refcount s.store 0)) =
    some ([.add 5 0, .incr 0, .decr 0, .decr 0, .add 5 0], .ok 5, .ok 1) := by decide +kernel
  rw [hs] at h
  simp only [Option.map_some, Option.some.injEq, Prod.mk.injEq] at h
  refine ⟨s, throughout_steps oneOfThree_spec _ _ _ s (fun _ _ => rfl) ?_ (.refl _) hs, h⟩
  decide +kernel

/-- Threads 0 and 1 add 5 and 7 at the same time: thread 0 takes slot 0 while thread 1 waits to read its
count. Then threads 0 and 2 add 7 at the same time, both find it and both count. -/
def together : Option (Sys Nat) :=
  internActs ⟨withCapacity 1, fun _ => .idle, []⟩
    ([.start 0 5, .start 1 7, .run 0, .run 1, .run 0, .run 0, .run 0, .run 1, .run 0, .run 1] ++
      [.run 1, .run 1, .run 1, .run 1, .run 1, .start 0 7, .start 2 7] ++
      (List.replicate 7 [InternAct.run 0, .run 2]).flatten)

-- two threads inside `add` at the same time, at different slots, and at the same slot which both have found
example : ∃ s, SysSteps .debug (fun _ _ => True) (fun _ _ => True) exactLen
      (fun s => (∀ t t' i, t ≠ t' → (s.pc t).target = some i → (s.pc t').target = some i →
        (s.pc t).found = true ∧ (s.pc t').found = true) ∧ Roomy s)
      ⟨withCapacity 1, fun _ => .idle, []⟩ s ∧
    s.log = [.add 5 0, .add 7 1, .add 7 1, .add 7 1] ∧ get s.store 0 = .ok 5 ∧ get s.store 1 = .ok 7 ∧
    refcount s.store 1 = .ok 3 := by
  obtain ⟨s, hs⟩ : ∃ s, together = some s := Option.isSome_iff_exists.mp (by decide +kernel)
  have h : together.map (fun s => (s.log, get s.store 0, get s.store 1, refcount s.store 1)) =
    some ([.add 5 0, .add 7 1, .add 7 1, .add 7 1], .ok 5, .ok 7, .ok 3) := by decide +kernel
  rw [hs] at h
  simp only [Option.map_some, Option.some.injEq, Prod.mk.injEq] at h
  refine ⟨s, throughout_steps apartOfThree_spec _ _ _ s (fun _ _ => rfl) ?_ (.refl _) hs, h⟩
  decide +kernel

end Verif
