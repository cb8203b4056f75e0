import Verif.Props.LinkedIter

/-!
# C179: dropping the shared list when destructors panic
-/

namespace Verif

open Linked

variable {T : Type}

/-- The destructor of the element in node `n` panics. -/
def Panics (bad : T → Bool) (m : Mem T) (n : Nat) : Prop := ∃ v, m.val n = some v ∧ bad v = true

private theorem any_iff (bad : T → Bool) (m : Mem T) (n : Nat) :
    (m.val n).any bad = true ↔ Panics bad m n := by
  unfold Panics
  cases m.val n <;> simp

private theorem dropPanics_ok {bad : T → Bool} {m : Mem T} {p : Option Nat} {L : List Nat}
    (h : Walk m.next p L) (fuel : Nat) (hf : L.length ≤ fuel) (freed : List Nat)
    (hn : (freed ++ L).Nodup) :
    ((∀ n ∈ L, ¬ Panics bad m n) → dropLoopPanics bad m fuel p freed = .ok (freed ++ L)) ∧
    ∀ A n B, L = A ++ n :: B → (∀ a ∈ A, ¬ Panics bad m a) → Panics bad m n →
      dropLoopPanics bad m fuel p freed = .panic (freed ++ A ++ [n]) := by
  induction h generalizing fuel freed with
  | nil => exact ⟨fun _ => by cases fuel <;> simp [dropLoopPanics], fun A n B e => by simp at e⟩
  | cons n L _ ih =>
    cases fuel with
    | zero => simp at hf
    | succ fuel =>
      have hmem : n ∉ freed := fun hm => (List.nodup_append.mp hn).2.2 n hm n (by simp) rfl
      obtain ⟨i1, i2⟩ := ih fuel (by simpa using hf) (freed ++ [n]) (by simpa using hn)
      refine ⟨fun hg => ?_, fun A x B e hA hx => ?_⟩
      · have h0 : ¬ (m.val n).any bad = true := fun h => hg n (by simp) ((any_iff bad m n).mp h)
        rw [dropLoopPanics, if_neg hmem, if_neg h0, i1 fun k hk => hg k (by simp [hk])]
        simp
      · rw [dropLoopPanics, if_neg hmem]
        cases A with
        | nil =>
          simp only [List.nil_append, List.cons.injEq] at e
          obtain ⟨rfl, _⟩ := e
          rw [if_pos ((any_iff bad m n).mpr hx)]
          simp
        | cons a A =>
          simp only [List.cons_append, List.cons.injEq] at e
          obtain ⟨rfl, e⟩ := e
          have h0 : ¬ (m.val n).any bad = true := fun h => hA n (by simp) ((any_iff bad m n).mp h)
          rw [if_neg h0, i2 A x B e (fun k hk => hA k (by simp [hk])) hx]
          simp

/-- C179, exactly: after any concurrent history with all calls completed, the nodes up to and including the first
whose destructor panics are freed, each once, and the panic goes on; those behind it are never freed. If no
destructor panics, all are freed. Missing, because false: that the others are freed too. -/
theorem C179_exact_partial (bad : T → Bool) (s : State T) (hr : Steps init s)
    (hq : ∀ t, (s.pc t).owner = none) :
    ∃ L, Contents s.mem L ∧ L.Nodup ∧ (∀ n, n ∈ L ↔ n < s.mem.alloc) ∧ ∀ fuel, s.mem.alloc ≤ fuel →
      ((∀ n ∈ L, ¬ Panics bad s.mem n) → dropPanics bad fuel s.mem = .ok L) ∧
      ∀ A n B, L = A ++ n :: B → (∀ a ∈ A, ¬ Panics bad s.mem a) → Panics bad s.mem n →
        dropPanics bad fuel s.mem = .panic (A ++ [n]) ∧ ∀ x, x ∈ L → (x ∈ A ++ [n] ↔ x ∉ B) := by
  obtain ⟨L, _, hc, hn, hmem⟩ := C109_drop s hr hq
  have hlen : L.length ≤ s.mem.alloc := by
    have := hn.length_le_of_subset (l₂ := List.range s.mem.alloc)
      (fun n h => List.mem_range.mpr ((hmem n).mp h))
    simpa using this
  refine ⟨L, hc, hn, hmem, fun fuel hf => ?_⟩
  obtain ⟨h1, h2⟩ := dropPanics_ok (bad := bad) hc fuel (Nat.le_trans hlen hf) [] (by simpa using hn)
  refine ⟨fun hg => by simpa [dropPanics] using h1 hg, fun A n B e hA hx => ?_⟩
  refine ⟨by simpa [dropPanics] using h2 A n B e hA hx, fun x hxL => ?_⟩
  subst e
  have hd := (List.nodup_append.mp hn)
  have hd2 := List.nodup_cons.mp hd.2.1
  constructor
  · intro h hB
    rcases List.mem_append.mp h with h | h
    · exact hd.2.2 x h x (by simp [hB]) rfl
    · rw [List.mem_singleton] at h
      subst h
      exact hd2.1 hB
  · intro hB
    rcases List.mem_append.mp hxL with h | h
    · simp [h]
    · rcases List.mem_cons.mp h with h | h
      · simp [h]
      · exact absurd h hB

/-- C179 is violated: of three elements, 10, 20 and 30, the destructor of 20 panics, and 30 is never freed. -/
theorem C179_violated : (runs init contended).map (fun s => dropPanics (· == 20) 3 s.mem) =
    some (.panic [0, 1]) ∧ (runs init contended).map (fun s => s.mem.val 2) = some (some 30) := by
  decide

end Verif
