import Verif.Props.Linked

/-!
# What the steps of `push` do to the list (C62)

Of all the accesses of a `push`, two matter to others: that at which it has counted the elements, and that at
which its own appears. `Model/InternPush` has these two.
-/

namespace Verif

open Linked

variable {T : Type}

/-- C62, step by step: a thread inside `push` leaves the list alone until the step with which it returns, which
appends its element; it returns 1 if the list was empty, and otherwise one more than it has counted, which was
the length of the list at the step at which it saw the end. Missing: that no other thread appends
in between. -/
theorem C62_counted_partial (s : State T) (hr : Steps init s) (t : Nat) (hpush : (s.pc t).owner ≠ none)
    (m' : Mem T) (p' : PC) (hstep : step s.mem (s.pc t) = some (m', p')) (L : List Nat) (hL : Contents s.mem L) :
    (∃ new ret r, p' = .done new ret r ∧ Contents m' (L ++ [new]) ∧
      ((L = [] ∧ ret = 1) ∨ (L ≠ [] ∧ ∃ tail len, s.pc t = .setNext new tail len r ∧ ret = len + 1))) ∨
    (p'.owner = (s.pc t).owner ∧ Contents m' L ∧
      ∀ new tail len r, p' = .setNext new tail len r →
        (∃ cur, s.pc t = .tailLoad new cur len ∧ len = L.length) ∨
        (∃ tail' r', s.pc t = .failLoad new tail' len r' ∨ s.pc t = .failNext new tail' len r')) := by
  obtain ⟨K, h, _⟩ := inv_steps inv_init hr
  have e := h.toChained.contents.unique hL
  subst e
  have hok := h.ok t
  have hfin : ∀ new ret r, p' = .done new ret r → (s.pc t).owner = some new → Contents m' (K ++ [new]) := by
    intro new ret r hp ho
    obtain ⟨K', h', hK, _⟩ := inv_step h (.run s t m' p' hstep)
    have hmem : new ∈ K' := by
      have := h'.ok t
      dsimp only at this
      rw [Function.update_self, hp] at this
      exact List.mem_of_getElem? this.2
    have hnot := (h.priv t new ho).2
    rcases hK with rfl | ⟨x, rfl⟩
    · exact absurd hmem hnot
    · rw [List.mem_append, List.mem_singleton] at hmem
      rcases hmem with hm | rfl
      · exact absurd hm hnot
      · exact h'.toChained.contents
  revert hstep hok hpush hfin
  generalize s.pc t = p
  intro hpush hstep hok hfin
  have hne : ∀ {i n : Nat}, K[i]? = some n → K ≠ [] := by
    rintro i n hi rfl
    cases hi
  cases p with
  | casHead new =>
    simp only [step] at hstep
    cases hh : s.mem.head with
    | none =>
      rw [hh] at hstep
      cases hstep
      refine .inl ⟨new, 1, 0, rfl, hfin new 1 0 rfl rfl, .inl ⟨?_, rfl⟩⟩
      have := h.head
      rw [hh] at this
      exact List.eq_nil_of_length_eq_zero (by have := List.getElem?_eq_none_iff.mp this.symm; omega)
    | some c => rw [hh] at hstep; cases hstep; exact .inr ⟨rfl, hL, nofun⟩
  | tailHead new =>
    simp only [step] at hstep
    cases hh : s.mem.head with
    | none =>
      have := h.head
      rw [hh] at this
      have := List.getElem?_eq_none_iff.mp this.symm
      have hok : 0 < K.length := hok
      omega
    | some c => rw [hh] at hstep; cases hstep; exact .inr ⟨rfl, hL, nofun⟩
  | tailLoad new cur len =>
    obtain ⟨h1, h2⟩ := hok
    simp only [step] at hstep
    cases hn : s.mem.next cur with
    | none =>
      rw [hn] at hstep; cases hstep
      refine .inr ⟨rfl, hL, ?_⟩
      intro new' tail' len' r' he
      cases he
      exact .inl ⟨_, rfl, by have := h.toChained.next_none h2 hn; omega⟩
    | some c => rw [hn] at hstep; cases hstep; exact .inr ⟨rfl, hL, nofun⟩
  | tailNext new cur len =>
    obtain ⟨h1, h2, h3⟩ := hok
    simp only [step] at hstep
    cases hn : s.mem.next cur with
    | none => have := h.toChained.next_none h2 hn; omega
    | some c => rw [hn] at hstep; cases hstep; exact .inr ⟨rfl, hL, nofun⟩
  | setNext new tail len r =>
    obtain ⟨h1, h2⟩ := hok
    simp only [step] at hstep
    cases hn : s.mem.next tail with
    | none =>
      rw [hn] at hstep; cases hstep
      exact .inl ⟨new, len + 1, r, rfl, hfin _ _ _ rfl rfl, .inr ⟨hne h2, tail, len, rfl, rfl⟩⟩
    | some c => rw [hn] at hstep; cases hstep; exact .inr ⟨rfl, hL, nofun⟩
  | failLoad new tail len r =>
    obtain ⟨h1, h2, h3⟩ := hok
    simp only [step] at hstep
    cases hn : s.mem.next tail with
    | none => have := h.toChained.next_none h2 hn; omega
    | some c => rw [hn] at hstep; cases hstep; exact .inr ⟨rfl, hL, nofun⟩
  | failNext new tail len r =>
    obtain ⟨h1, h2, h3⟩ := hok
    simp only [step] at hstep
    cases hn : s.mem.next tail with
    | none => have := h.toChained.next_none h2 hn; omega
    | some c =>
      rw [hn] at hstep; cases hstep
      refine .inr ⟨rfl, hL, ?_⟩
      intro new' tail' len' r' he
      cases he
      exact .inr ⟨_, _, .inr rfl⟩
  | idle => exact absurd rfl hpush
  | done => exact absurd rfl hpush
  | getHead => exact absurd rfl hpush
  | getLoad => exact absurd rfl hpush
  | getNext => exact absurd rfl hpush
  | got => exact absurd rfl hpush
  | crash => exact absurd rfl hpush

-- thread 2 of `contended` has counted one element, thread 1 has appended since; thread 2 returns 2
example : (runs init (contended.take 10)).map (fun s => s.pc 2) = some (.setNext 2 0 1 0) ∧
    (runs init (contended.take 11)).map (fun s => s.pc 1) = some (.done 1 2 0) ∧
    (runs init contended).map (fun s => s.pc 2) = some (.done 2 2 1) := by decide

end Verif
