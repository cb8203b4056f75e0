import Verif.Lemmas.Linked

/-!
# C61, C62: the shared append-only list under every interleaving
-/

namespace Verif

open Linked

variable {T : Type}

/-- Following `next` from the given pointer visits exactly these nodes and then null. A cyclic or
unterminated list has no such description. -/
inductive Walk (next : Nat → Option Nat) : Option Nat → List Nat → Prop
  | nil : Walk next none []
  | cons (n : Nat) (L : List Nat) : Walk next (next n) L → Walk next (some n) (n :: L)

/-- The list consists of exactly these nodes. -/
def Contents (m : Mem T) (L : List Nat) : Prop := Walk m.next m.head L

theorem Walk.unique {next : Nat → Option Nat} {p : Option Nat} {L L' : List Nat}
    (h : Walk next p L) (h' : Walk next p L') : L = L' := by
  induction h generalizing L' with
  | nil => cases h'; rfl
  | cons n L _ ih => cases h' with
    | cons _ L2 h2 => rw [ih h2]

theorem Linked.Chained.contents {m : Mem T} {L : List Nat} (h : Chained m L) : Contents m L := by
  have key : ∀ k, k ≤ L.length → Walk m.next L[L.length - k]? (L.drop (L.length - k)) := by
    intro k
    induction k with
    | zero => intro _; simpa using Walk.nil
    | succ k ih =>
      intro hk
      have hlt : L.length - (k + 1) < L.length := by omega
      rw [List.getElem?_eq_getElem hlt, List.drop_eq_getElem_cons hlt]
      apply Walk.cons
      rw [h.next _ _ (List.getElem?_eq_getElem hlt)]
      have := ih (by omega)
      rwa [show L.length - k = L.length - (k + 1) + 1 by omega] at this
  have := key L.length (Nat.le_refl _)
  rw [Nat.sub_self] at this
  unfold Contents
  rw [h.head]
  simpa using this

/-! ## C61 -/

/-- C61, at every moment: the list is a finite chain without repetition, every completed push's
node is on it exactly once, no null pointer is followed, and a finished `get(i)` that found
something found the element at index `i`. -/
theorem C61_list_intact (s : State T) (hr : Steps init s) :
    ∃ L, Contents s.mem L ∧ L.Nodup ∧
      (∀ t new ret r, s.pc t = .done new ret r → L.count new = 1) ∧
      (∀ t idx n, s.pc t = .got idx (some n) → L[idx]? = some n) ∧
      (∀ n ∈ L, ∃ v, s.mem.val n = some v) ∧
      (∀ t, s.pc t ≠ .crash) := by
  obtain ⟨L, h, _⟩ := inv_steps inv_init hr
  refine ⟨L, h.toChained.contents, h.nodup, ?_, ?_, fun n hn => h.vals n (h.lt n hn), ?_⟩
  · intro t new ret r hpc
    have := h.ok t
    rw [hpc] at this
    exact List.count_eq_one_of_mem h.nodup (List.mem_of_getElem? this.2)
  · intro t idx n hpc
    have := h.ok t
    rwa [hpc] at this
  · intro t hpc
    have := h.ok t
    rwa [hpc] at this

/-- C61, over time: whatever all threads do, what was on the list stays at its index, with its
value. -/
theorem C61_append_only (s s' : State T) (hr : Steps init s) (hs : Steps s s') (L L' : List Nat)
    (hL : Contents s.mem L) (hL' : Contents s'.mem L') :
    L <+: L' ∧ L.map s.mem.val <+: L'.map s'.mem.val := by
  obtain ⟨K, h, _⟩ := inv_steps inv_init hr
  obtain ⟨K', h', hp, hv, _⟩ := inv_steps h hs
  have e := h.toChained.contents.unique hL
  have e' := h'.toChained.contents.unique hL'
  subst e e'
  refine ⟨hp, ?_⟩
  rw [List.map_congr_left (g := s'.mem.val) (fun n hn => (hv n (h.lt n hn)).symm)]
  exact hp.map _

/-- C61, one push: the element that a call of `push(v)` adds is `v`, and it is on the list exactly
once as soon as the call has completed (here: as long as the caller made no further call). -/
theorem C61_push_lands (s s' : State T) (hr : Steps init s) (t : Nat) (v : T)
    (hready : (s.pc t).ready = true)
    (hs : Steps ⟨newNode s.mem v, Function.update s.pc t (.casHead s.mem.alloc)⟩ s')
    (ret r : Nat) (hdone : s'.pc t = .done s.mem.alloc ret r) (L' : List Nat)
    (hL' : Contents s'.mem L') :
    L'.count s.mem.alloc = 1 ∧ s'.mem.val s.mem.alloc = some v := by
  obtain ⟨K, h, _⟩ := inv_steps inv_init hr
  obtain ⟨K1, h1, _⟩ := inv_step h (.push s t v hready)
  obtain ⟨K', h', hp, hv, _⟩ := inv_steps h1 hs
  have e' := h'.toChained.contents.unique hL'
  subst e'
  constructor
  · have := h'.ok t
    rw [hdone] at this
    exact List.count_eq_one_of_mem h'.nodup (List.mem_of_getElem? this.2)
  · rw [hv _ (by dsimp only [newNode]; omega)]
    dsimp only [newNode]
    rw [Function.update_self]

/-- C61, a failing lookup: when a `get(i)` returns `None`, the list has at most `i` elements at
that moment. -/
theorem C61_get_none (s : State T) (hr : Steps init s) (t idx : Nat) (m' : Mem T)
    (hstep : Linked.step s.mem (s.pc t) = some (m', .got idx none)) (L : List Nat)
    (hL : Contents s.mem L) : L.length ≤ idx := by
  obtain ⟨K, h, _⟩ := inv_steps inv_init hr
  have e := h.toChained.contents.unique hL
  subst e
  have hok := h.ok t
  have hloop : ∀ i k c, getLoop i k c ≠ .got idx none := by
    intro i k c; unfold getLoop; split <;> simp
  cases hpc : s.pc t <;> rw [hpc] at hstep hok <;> simp only [Linked.step] at hstep
  case getHead i =>
    cases hh : s.mem.head <;> rw [hh] at hstep
    · simp only [Option.some.injEq, Prod.mk.injEq, PC.got.injEq, and_true] at hstep
      have := h.head
      rw [hh] at this
      have : K = [] := by simpa using this.symm
      simp [this]
    · simp only [Option.some.injEq, Prod.mk.injEq] at hstep
      exact absurd hstep.2 (hloop _ _ _)
  case getLoad i k cur =>
    cases hh : s.mem.next cur <;> rw [hh] at hstep
    · simp only [Option.some.injEq, Prod.mk.injEq, PC.got.injEq, and_true] at hstep
      have := h.toChained.next_none hok.2 hh
      have := hok.1
      omega
    · simp at hstep
  case getNext i k cur =>
    cases hh : s.mem.next cur <;> rw [hh] at hstep
    · simp at hstep
    · simp only [Option.some.injEq, Prod.mk.injEq] at hstep
      exact absurd hstep.2 (hloop _ _ _)
  all_goals first
    | (cases hh : s.mem.head <;> rw [hh] at hstep <;> simp at hstep)
    | (rename_i a b c; cases hh : s.mem.next b <;> rw [hh] at hstep <;> simp at hstep)
    | (rename_i a b c d; cases hh : s.mem.next b <;> rw [hh] at hstep <;> simp at hstep)
    | simp at hstep

/-! ## Concrete schedules -/

/-- Commands of a schedule. -/
inductive Act (T : Type) where
  | push (t : Nat) (v : T)
  | get (t idx : Nat)
  | run (t : Nat)

/-- Run one command. -/
def act (s : State T) : Act T → Option (State T)
  | .push t v =>
    if (s.pc t).ready then
      some ⟨newNode s.mem v, Function.update s.pc t (.casHead s.mem.alloc)⟩ else none
  | .get t idx =>
    if (s.pc t).ready then some ⟨s.mem, Function.update s.pc t (.getHead idx)⟩ else none
  | .run t => (Linked.step s.mem (s.pc t)).map fun x => ⟨x.1, Function.update s.pc t x.2⟩

/-- Run a schedule. -/
def runs (s : State T) : List (Act T) → Option (State T)
  | [] => some s
  | a :: as => (act s a).bind fun s => runs s as

theorem act_step {s s' : State T} {a : Act T} (h : act s a = some s') : Step s s' := by
  cases a with
  | push t v =>
    simp only [act, Option.ite_none_right_eq_some, Option.some.injEq] at h
    rw [← h.2]; exact .push s t v h.1
  | get t idx =>
    simp only [act, Option.ite_none_right_eq_some, Option.some.injEq] at h
    rw [← h.2]; exact .get s t idx h.1
  | run t =>
    simp only [act, Option.map_eq_some_iff] at h
    obtain ⟨⟨m', pc'⟩, h1, rfl⟩ := h
    exact .run s t m' pc' h1

theorem runs_steps {s0 s s' : State T} (as : List (Act T)) (h0 : Steps s0 s)
    (h : runs s as = some s') : Steps s0 s' := by
  induction as generalizing s with
  | nil => cases h; exact h0
  | cons a as ih =>
    simp only [runs, Option.bind_eq_some_iff] at h
    obtain ⟨s1, h1, h2⟩ := h
    exact ih (h0.tail (act_step h1)) h2

/-- Three pushes: the first completes; the other two both reach the exchange on the first node;
thread 1 wins, thread 2 has to move on by one node. -/
def contended : List (Act Nat) :=
  [.push 0 10, .run 0, .push 1 20, .run 1, .run 1, .run 1, .push 2 30, .run 2, .run 2, .run 2,
   .run 1, .run 2, .run 2, .run 2, .run 2]

-- the schedule is complete: all three pushes have returned
example : (runs init contended).map (fun s => (s.pc 0, s.pc 1, s.pc 2))
    = some (.done 0 1 0, .done 1 2 0, .done 2 2 1) := by decide

-- the list is then 10, 20, 30
example : (runs init contended).map (fun s =>
    [s.mem.head, s.mem.next 0, s.mem.next 1, s.mem.next 2,
      s.mem.val 0, s.mem.val 1, s.mem.val 2])
    = some [some 0, some 1, some 2, none, some 10, some 20, some 30] := by decide

/-! ## C62 -/

/-- C62, violated by the code: of two contending pushes the losing one returns the length it saw
before losing, so its element is not at index `result - 1`. -/
theorem C62_push_length_violated :
    ¬ ∀ (s : State Nat), Steps init s → ∀ t new ret r, s.pc t = .done new ret r →
      ∀ L, Contents s.mem L → L[ret - 1]? = some new := by
  intro h
  obtain ⟨s, hs⟩ : ∃ s, runs init contended = some s :=
    Option.isSome_iff_exists.mp (by decide)
  have hpc : s.pc 2 = .done 2 2 1 := by
    have : (runs init contended).map (fun s => s.pc 2) = some (.done 2 2 1) := by decide
    rw [hs] at this
    exact Option.some.inj this
  have hn : s.mem.head = some 0 ∧ s.mem.next 0 = some 1 ∧ s.mem.next 1 = some 2 ∧
      s.mem.next 2 = none := by
    have : (runs init contended).map (fun s => (s.mem.head, s.mem.next 0, s.mem.next 1,
      s.mem.next 2)) = some (some 0, some 1, some 2, none) := by decide
    rw [hs] at this
    simpa using this
  obtain ⟨n0, n1, n2, n3⟩ := hn
  have hL : Contents s.mem [0, 1, 2] := by
    unfold Contents
    rw [n0]
    apply Walk.cons; rw [n1]
    apply Walk.cons; rw [n2]
    apply Walk.cons; rw [n3]
    exact Walk.nil
  have := h s (runs_steps contended (.refl _) hs) 2 2 2 1 hpc [0, 1, 2] hL
  revert this
  decide

/-- C62, what does hold under every interleaving: the element is `r` places after the returned
position, where `r` counts how often the push lost an exchange and moved on. So a push that never
loses returns its position, and the result is never too large. Missing: pushes that lose. -/
theorem C62_push_length_partial (s : State T) (hr : Steps init s) (t new ret r : Nat)
    (hdone : s.pc t = .done new ret r) (L : List Nat) (hL : Contents s.mem L) :
    1 ≤ ret ∧ L[ret - 1 + r]? = some new ∧ (r = 0 → L[ret - 1]? = some new) ∧
      ret ≤ L.length := by
  obtain ⟨K, h, _⟩ := inv_steps inv_init hr
  have e := h.toChained.contents.unique hL
  subst e
  have := h.ok t
  rw [hdone] at this
  obtain ⟨h1, h2⟩ := this
  have h3 : K[ret - 1 + r]? = some new := by rw [← h2]; congr 1; omega
  have h4 := (List.getElem?_eq_some_iff.mp h3).1
  exact ⟨h1, h3, fun e => by rwa [e, Nat.add_zero] at h3, by omega⟩

end Verif
