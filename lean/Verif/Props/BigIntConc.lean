import Verif.Lemmas.BigIntConc
import Verif.Spec.BigInt

/-!
# C148: `BigInt`s on several threads

`BigConc.Steps` (`Model/BigIntConc`) interleaves any number of threads that create, combine, clone,
negate and drop `BigInt`s.
-/

namespace Verif

open BInt Intern BigWord BigConc

/-! ## Violation -/

/-- The steps of a schedule in which nothing is dropped or negated. -/
def concRun (s : Conc) : List (Nat × Act) → Option Conc
  | [] => some s
  | x :: l =>
    if (s.store.all fun c => c.all fun x => x.refs < 2 ^ 64 - 1) ∧ 32 * s.store.length < 2 ^ 62 then
      (BigConc.step .debug (fun _ => false) s x.1 x.2).bind fun s' => concRun s' l
    else none

theorem concRun_steps (l : List (Nat × Act)) (s0 s s' : Conc) (h0 : Steps .debug Small s0 s)
    (h : concRun s l = some s') : Steps .debug Small s0 s' := by
  induction l generalizing s with
  | nil => cases h; exact h0
  | cons x l ih =>
    unfold concRun at h
    split at h
    · rename_i hr
      rw [Option.bind_eq_some_iff] at h
      obtain ⟨s1, h1, h2⟩ := h
      refine ih s1 (h0.tail x.1 x.2 (fun _ => false) (fun k hk => by cases hk) ⟨?_, hr.2⟩ h1) h2
      intro i y hy
      unfold at_ at hy
      rw [Option.bind_eq_some_iff] at hy
      obtain ⟨c, hc, hy⟩ := hy
      have := List.all_eq_true.mp (List.all_eq_true.mp hr.1 c (List.mem_of_getElem? hc)) y
        (List.mem_of_getElem? hy)
      simpa using this
    · cases h

/-- A number with two limbs exists. Then thread 0 makes `2^64 + 5` and thread 1 makes `2^64 + 7`, in lockstep. -/
def lockstep : Option Conc :=
  concRun init ([(0, .make [1, 1] false), (0, .run), (0, .run), (0, .run), (0, .run),
    (0, .make [5, 1] false), (1, .make [7, 1] false)] ++
    ((List.replicate 8 [(0, Act.run), (1, .run)]).flatten))

/-- C148, violated by the code: of two numbers made at the same time on two threads, one reads as the
other. -/
theorem C148_violated :
    ¬ ∀ (m : Mode) (s : Conc), Steps m Small init s →
      ∀ (k w : Nat) (x : BInt), s.vars[k]? = some (some (w, .ok x)) → view s.store w = .ok x := by
  intro h
  obtain ⟨s, hs⟩ : ∃ s, lockstep = some s := Option.isSome_iff_exists.mp (by decide +kernel)
  have h1 : s.vars[1]? = some (some (4, .ok ⟨false, .slice [5, 1]⟩)) := by
    have : lockstep.bind (fun s => s.vars[1]?) = some (some (4, .ok ⟨false, .slice [5, 1]⟩)) := by
      decide +kernel
    rw [hs] at this
    exact this
  have h2 : view s.store 4 = .ok ⟨false, .slice [7, 1]⟩ := by
    have : lockstep.map (fun s => view s.store 4) = some (.ok ⟨false, .slice [7, 1]⟩) := by decide +kernel
    rw [hs] at this
    exact Option.some.inj this
  have := h .debug s (concRun_steps _ _ _ s (.refl _) hs) 1 4 _ h1
  rw [h2] at this
  cases this

/-! ## What holds -/

/-- C148, if threads storing results of 62 bits or more do not meet at a slot of the interner: at no time are two of them at the same
slot (one has seen it free, has found its limbs there, or is counting or writing it), unless both have found
their limbs there. Under every interleaving, every `BigInt` reads as the number that a single thread would have computed
from its operands, is well stored, and a thread panics or hangs only if the computation on the numbers
does (while no count reaches `2^64 - 1` and ids fit in 62 bits). Reading and writing limbs are single steps, and so is pushing
a chunk (`C148_push_partial` has it in two steps). Missing: two threads at the same slot. -/
theorem C148_apart_partial (m : Mode) (s : Conc)
    (hr : Steps m (fun s => (∀ t t' n n' p p' w w' i, t ≠ t' →
        s.pc t = .adding n p w → s.pc t' = .adding n' p' w' → p.target = some i → p'.target = some i →
        p.found = true ∧ p'.found = true) ∧
      (∀ i x, at_ s.store i = some x → x.refs < 2 ^ 64 - 1) ∧ 32 * s.store.length < 2 ^ 62) init s) :
    (∀ (k w : Nat) (u : Res BInt), s.vars[k]? = some (some (w, u)) →
      view s.store w = u ∧ ∃ x, u = .ok x ∧ Rep x) ∧
    (∀ t want, s.pc t = .stopped false want → want = .panic) ∧
    (∀ t want, s.pc t = .stopped true want → want = .hang) := by
  obtain ⟨q, h⟩ := steps_sim (m := m) (c := s) hr
  refine ⟨fun k w u hk => ?_, fun t want ht => ?_, fun t want ht => ?_⟩
  · have hv := h.vars k w u hk
    refine ⟨h.view hv, ?_⟩
    obtain ⟨x, e, h1, _⟩ := hv
    exact ⟨x, e, h1⟩
  · have := h.threads t
    rw [ht] at this
    exact this
  · have := h.threads t
    rw [ht] at this
    exact this

theorem BigConc.Steps.weaken {m : Mode} {B B' : Conc → Prop} {a b : Conc} (hB : ∀ s, B s → B' s)
    (h : Steps m B a b) : Steps m B' a b := by
  induction h with
  | refl => exact .refl _
  | tail t x free hfree _ hb hs ih => exact ih.tail t x free hfree (hB _ hb) hs

/-- C148, if only one thread at a time is inside the interner's `add`, i.e. is storing a result of 62 bits or more. Under
every interleaving, every `BigInt` reads as the number that a single thread would have computed from its operands, is well
stored, and a thread panics or hangs only if the computation on the numbers does (while no count
reaches `2^64 - 1` and ids fit in 62 bits). Missing: two threads storing large results at the same time. -/
theorem C148_one_adder_partial (m : Mode) (s : Conc)
    (hr : Steps m (fun s => (∀ t t' n n' p p' w w', s.pc t = .adding n p w → s.pc t' = .adding n' p' w' → t = t') ∧
      (∀ i x, at_ s.store i = some x → x.refs < 2 ^ 64 - 1) ∧ 32 * s.store.length < 2 ^ 62) init s) :
    (∀ (k w : Nat) (u : Res BInt), s.vars[k]? = some (some (w, u)) →
      view s.store w = u ∧ ∃ x, u = .ok x ∧ Rep x) ∧
    (∀ t want, s.pc t = .stopped false want → want = .panic) ∧
    (∀ t want, s.pc t = .stopped true want → want = .hang) :=
  C148_apart_partial m s (hr.weaken fun _ hb => ⟨fun t t' _ _ _ _ _ _ _ hne h h' _ _ =>
    absurd (hb.1 t t' _ _ _ _ _ _ h h') hne, hb.2⟩)

/-- Two threads, one after the other inside `add`: thread 0 makes `2^64 + 1`, thread 1 clones it
while thread 0 adds it to itself. -/
example : (concRun init [(0, .make [1, 1] false), (0, .run), (0, .run), (0, .run), (0, .run),
    (0, .op addRaw 0 0), (1, .clone 0), (0, .run), (1, .clone 1), (0, .run), (0, .run), (0, .run), (0, .run), (0, .run),
    (0, .run), (0, .run), (0, .run), (0, .run)]).map
      (fun s => (s.vars.map fun o => o.map fun x => (x.1, view s.store x.1))) =
    some [some (0, .ok ⟨false, .slice [1, 1]⟩), some (0, .ok ⟨false, .slice [1, 1]⟩),
      some (0, .ok ⟨false, .slice [1, 1]⟩), some (4, .ok ⟨false, .slice [2, 2]⟩)] := by
  decide +kernel

/-- A run that meets the hypotheses: thread 0 makes 5, thread 1 negates it and drops it. -/
example : ∃ s, Steps .debug (fun s =>
      (∀ t t' n n' p p' w w', s.pc t = .adding n p w → s.pc t' = .adding n' p' w' → t = t') ∧
      (∀ i x, at_ s.store i = some x → x.refs < 2 ^ 64 - 1) ∧ 32 * s.store.length < 2 ^ 62) init s ∧
    s.vars = [none] := by
  have idle : ∀ t, Function.update (fun _ => TPC.idle) 0 TPC.idle t = TPC.idle := fun t => by
    rw [Function.update_apply]; split <;> rfl
  have h1 := (Steps.refl (m := .debug) (B := fun s =>
      (∀ t t' n n' p p' w w', s.pc t = .adding n p w → s.pc t' = .adding n' p' w' → t = t') ∧
      (∀ i x, at_ s.store i = some x → x.refs < 2 ^ 64 - 1) ∧ 32 * s.store.length < 2 ^ 62) init).tail 0
    (.make [5] false) (fun _ => false) (fun _ h => nomatch h)
    ⟨fun _ _ _ _ _ _ _ _ h => (nomatch h), fun i x h => (nomatch h), by decide⟩ rfl
  have h2 := h1.tail 1 (.neg 0) (fun _ => true) (fun _ _ t => congrArg (TPC.borrows · _) (idle t))
    ⟨fun t _ _ _ _ _ _ _ h => (nomatch (idle t).symm.trans h), fun i x h => (nomatch h), by decide⟩ rfl
  exact ⟨_, h2.tail 1 (.drop 0) (fun _ => true) (fun _ _ t => congrArg (TPC.borrows · _) (idle t))
    ⟨fun t _ _ _ _ _ _ _ h => (nomatch (idle t).symm.trans h), fun i x h => (nomatch h), by decide⟩ rfl, rfl⟩

/-! A run that meets the hypotheses -/

private theorem cont_pc {α : Type} {s : Conc} {t t' : Nat} (hne : t' ≠ t) {want : Res BInt} {r : Res α}
    {k : α → Conc} (hk : ∀ a, (k a).pc t' = s.pc t') : (s.cont t want r k).pc t' = s.pc t' := by
  unfold Conc.cont
  cases r with
  | ok a => exact hk a
  | panic => exact Function.update_of_ne hne _ _
  | hang => exact Function.update_of_ne hne _ _

private theorem newSlice_pc {s : Conc} {t t' : Nat} (hne : t' ≠ t) {l : List (BitVec 64)} {neg : Bool}
    {want : Res BInt} : (s.newSlice t l neg want).pc t' = s.pc t' := by
  unfold Conc.newSlice
  refine cont_pc hne fun v => ?_
  split
  · exact cont_pc hne fun w => Function.update_of_ne hne _ _
  · exact Function.update_of_ne hne _ _

/-- In `make` and `run`, only the thread itself goes on. -/
private theorem step_pc {m : Mode} {free : Nat → Bool} {s s' : Conc} {t t' : Nat} (hne : t' ≠ t) {x : Act}
    (hx : x = .run ∨ ∃ l neg, x = .make l neg) (h : BigConc.step m free s t x = some s') :
    s'.pc t' = s.pc t' := by
  rcases hx with rfl | ⟨l, neg, rfl⟩
  · unfold BigConc.step at h
    dsimp only at h
    split at h
    · split at h
      · rw [← Option.some.inj h]
        exact cont_pc hne fun _ => Function.update_of_ne hne _ _
      · cases h
    · split at h
      · rw [← Option.some.inj h]
        exact cont_pc hne fun _ => cont_pc hne fun _ => newSlice_pc hne
      · cases h
    · rw [Option.map_eq_some_iff] at h
      obtain ⟨y, -, rfl⟩ := h
      unfold Conc.added
      split
      · exact cont_pc hne fun _ => Function.update_of_ne hne _ _
      · exact Function.update_of_ne hne _ _
      · exact Function.update_of_ne hne _ _
    · cases h
  · unfold BigConc.step at h
    dsimp only at h
    split at h
    · rw [← Option.some.inj h]
      exact newSlice_pc hne
    · cases h

/-- The slot a thread is at, and whether it has found its limbs there. -/
def BigConc.TPC.at' : TPC → Option Nat × Bool
  | .adding _ p _ => (p.target, p.found)
  | _ => (none, false)

/-- Threads 0 and 1 are not at the same slot. -/
def twoApart (s : Conc) : Bool :=
  (s.pc 0).at'.1.isNone || (s.pc 0).at'.1 != (s.pc 1).at'.1 || ((s.pc 0).at'.2 && (s.pc 1).at'.2)

def twoApartRun (s : Conc) : List (Nat × Act) → Option Conc
  | [] => some s
  | x :: l =>
    if twoApart s ∧ (s.store.all fun c => c.all fun x => x.refs < 2 ^ 64 - 1) ∧
        32 * s.store.length < 2 ^ 62 ∧ x.1 < 2 then
      (BigConc.step .debug (fun _ => false) s x.1 x.2).bind fun s' => twoApartRun s' l
    else none

def BigConc.Act.plain : Act → Bool
  | .run | .make .. => true
  | _ => false

theorem twoApartRun_steps (l : List (Nat × Act)) (s0 s s' : Conc)
    (hl : (l.all fun x => x.2.plain) = true) (hi : ∀ t, 2 ≤ t → s.pc t = .idle)
    (h0 : Steps .debug (fun s => ApartThreads s ∧ Small s) s0 s) (h : twoApartRun s l = some s') :
    Steps .debug (fun s => ApartThreads s ∧ Small s) s0 s' := by
  induction l generalizing s with
  | nil => cases h; exact h0
  | cons x l ih =>
    unfold twoApartRun at h
    split at h
    · rename_i hr
      obtain ⟨ha, hr1, hr2, hx⟩ := hr
      rw [Option.bind_eq_some_iff] at h
      obtain ⟨s1, h1, h2⟩ := h
      rw [List.all_cons, Bool.and_eq_true] at hl
      have hp : x.2 = .run ∨ ∃ l neg, x.2 = .make l neg := by
        have := hl.1
        cases hx : x.2 <;> rw [hx] at this <;> first | exact .inl rfl | exact .inr ⟨_, _, rfl⟩ | cases this
      refine ih s1 hl.2 (fun t ht => ?_)
        (h0.tail x.1 x.2 (fun _ => false) (fun k hk => by cases hk) ⟨?_, ?_, hr2⟩ h1) h2
      · rw [step_pc (by omega) hp h1]
        exact hi t ht
      · intro t t' n n' p p' w w' i hne e e' ht ht'
        have hlt : ∀ t n p w, s.pc t = .adding n p w → t = 0 ∨ t = 1 := by
          intro t n p w e
          by_contra hge
          rw [hi t (by omega)] at e
          cases e
        rcases hlt t _ _ _ e with rfl | rfl <;> rcases hlt t' _ _ _ e' with rfl | rfl
        · exact absurd rfl hne
        · unfold twoApart at ha
          rw [e, e'] at ha
          simpa [TPC.at', ht, ht'] using ha
        · unfold twoApart at ha
          rw [e, e'] at ha
          have : p'.found = true ∧ p.found = true := by simpa [TPC.at', ht, ht'] using ha
          exact this.symm
        · exact absurd rfl hne
      · intro i y hy
        unfold at_ at hy
        rw [Option.bind_eq_some_iff] at hy
        obtain ⟨c, hc, hy⟩ := hy
        have := List.all_eq_true.mp (List.all_eq_true.mp hr1 c (List.mem_of_getElem? hc)) y
          (List.mem_of_getElem? hy)
        simpa using this
    · cases h

/-- Threads 0 and 1 make `2^64 + 5` and `2^64 + 7` in lockstep, in an empty interner: each pushes its own chunk. Then both make
`2^64 + 5`: both find it. -/
def lockstepApart : List (Nat × Act) :=
  [(0, .make [5, 1] false), (1, .make [7, 1] false)] ++
    (List.replicate 4 [(0, Act.run), (1, .run)]).flatten ++
    [(0, .make [5, 1] false), (1, .make [5, 1] true)] ++ (List.replicate 4 [(0, Act.run), (1, .run)]).flatten

-- two threads inside `add` at the same time, twice
example : ∃ s, Steps .debug (fun s => (∀ t t' n n' p p' w w' i, t ≠ t' →
        s.pc t = .adding n p w → s.pc t' = .adding n' p' w' → p.target = some i → p'.target = some i →
        p.found = true ∧ p'.found = true) ∧
      (∀ i x, at_ s.store i = some x → x.refs < 2 ^ 64 - 1) ∧ 32 * s.store.length < 2 ^ 62) init s ∧
    s.vars = [some (0, .ok ⟨false, .slice [5, 1]⟩), some (128, .ok ⟨false, .slice [7, 1]⟩),
      some (0, .ok ⟨false, .slice [5, 1]⟩), some (1, .ok ⟨true, .slice [5, 1]⟩)] := by
  obtain ⟨s, hs⟩ : ∃ s, twoApartRun init lockstepApart = some s :=
    Option.isSome_iff_exists.mp (by decide +kernel)
  refine ⟨s, twoApartRun_steps lockstepApart _ _ s (by decide +kernel) (fun _ _ => rfl) (.refl _) hs, ?_⟩
  have : (twoApartRun init lockstepApart).map (fun s => s.vars) = some
        [some (0, .ok ⟨false, .slice [5, 1]⟩), some (128, .ok ⟨false, .slice [7, 1]⟩),
          some (0, .ok ⟨false, .slice [5, 1]⟩), some (1, .ok ⟨true, .slice [5, 1]⟩)] := by
      decide +kernel
  rw [hs] at this
  exact Option.some.inj this

end Verif
