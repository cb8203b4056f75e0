import Mathlib.Tactic.Ring
import Mathlib.Data.List.Basic
import Verif.Model.Intern

/-!
# Lemmas about the interner

`at_ st i` is slot number `i`, counting through all chunks.
-/

set_option linter.unusedSectionVars false

namespace Verif

namespace Intern

variable {T : Type} [DecidableEq T]

/-- Slot number `i`. -/
def at_ (st : Store T) (i : Nat) : Option (Slot T) := st[i / 32]?.bind fun c => c[i % 32]?

/-- All chunks have 32 slots. -/
def WF (st : Store T) : Prop := ∀ c ∈ st, c.length = 32

theorem slot_eq (st : Store T) (i : Nat) : slot st (offsetToIdx i) = Res.ofOption (at_ st i) := by
  unfold slot at_ offsetToIdx
  cases h : st[i / 32]? <;> simp [Res.ofOption, Res.bind]

theorem slot_eq' (st : Store T) (a b : Nat) (hb : b < 32) :
    slot st (a, b) = Res.ofOption (at_ st (a * 32 + b)) := by
  rw [← slot_eq]
  unfold offsetToIdx
  congr 2 <;> omega

theorem at_isSome {st : Store T} (h : WF st) (i : Nat) :
    (∃ s, at_ st i = some s) ↔ i < 32 * st.length := by
  unfold at_
  constructor
  · rintro ⟨s, hs⟩
    cases hc : st[i / 32]? with
    | none => rw [hc] at hs; cases hs
    | some c =>
      have := (List.getElem?_eq_some_iff.mp hc).1
      omega
  · intro hi
    have hlt : i / 32 < st.length := by omega
    have hc := h st[i / 32] (List.getElem_mem hlt)
    refine ⟨st[i / 32][i % 32], ?_⟩
    simp [hlt, hc, Nat.mod_lt]

theorem at_none {st : Store T} (h : WF st) (i : Nat) :
    at_ st i = none ↔ 32 * st.length ≤ i := by
  have := at_isSome h i
  cases hc : at_ st i with
  | none =>
    simp only [true_iff]
    by_contra hlt
    obtain ⟨s, hs⟩ := this.mpr (by omega)
    rw [hc] at hs; cases hs
  | some s =>
    have := this.mp ⟨s, hc⟩
    simp only [reduceCtorEq, false_iff]
    omega

theorem at_setSlot {st : Store T} (i j : Nat) (s : Slot T) (hi : ∃ s, at_ st i = some s) :
    at_ (setSlot st (offsetToIdx i) s) j = if j = i then some s else at_ st j := by
  obtain ⟨s0, hs0⟩ := hi
  unfold at_ at hs0
  unfold at_ setSlot offsetToIdx
  cases hc : st[i / 32]? with
  | none => rw [hc] at hs0; cases hs0
  | some c =>
    rw [hc] at hs0
    simp only [Option.bind_some] at hs0
    have hlt : i % 32 < c.length := (List.getElem?_eq_some_iff.mp hs0).1
    rw [List.getElem?_modify]
    by_cases hq : i / 32 = j / 32
    · rw [← hq, hc]
      simp only [if_true, Option.map_eq_map, Option.map_some, Option.bind_some]
      rw [List.getElem?_set]
      by_cases hr : i % 32 = j % 32
      · rw [if_pos hr, if_pos hlt, if_pos (by omega)]
      · rw [if_neg hr, if_neg (by rintro rfl; exact hr rfl)]
    · simp only [if_neg hq, Option.map_eq_map]
      rw [if_neg (by rintro rfl; exact hq rfl)]
      cases st[j / 32]? <;> rfl

theorem at_setSlot' {st : Store T} (a b j : Nat) (hb : b < 32) (s : Slot T)
    (hi : ∃ s, at_ st (a * 32 + b) = some s) :
    at_ (setSlot st (a, b) s) j = if j = a * 32 + b then some s else at_ st j := by
  rw [← at_setSlot _ _ _ hi]
  unfold offsetToIdx
  congr 3 <;> omega

theorem wf_setSlot {st : Store T} (h : WF st) (loc : Nat × Nat) (s : Slot T) :
    WF (setSlot st loc s) ∧ (setSlot st loc s).length = st.length := by
  unfold setSlot
  refine ⟨?_, by simp⟩
  intro c hc
  obtain ⟨n, hn⟩ := List.getElem?_of_mem hc
  rw [List.getElem?_modify] at hn
  cases h1 : st[n]? with
  | none => rw [h1] at hn; simp at hn
  | some c' =>
    rw [h1] at hn
    have := h c' (List.mem_of_getElem? h1)
    simp only [Option.map_eq_map, Option.map_some, Option.some.injEq] at hn
    rw [← hn]
    split
    · simpa using this
    · simpa using this

theorem wf_append {st : Store T} (h : WF st) : WF (st ++ [newChunk]) := by
  intro c hc
  rcases List.mem_append.mp hc with h1 | h1
  · exact h c h1
  · rw [List.mem_singleton.mp h1]
    simp [newChunk, chunkSize]

theorem at_append {st : Store T} (j : Nat) :
    at_ (st ++ [newChunk]) j = if j < 32 * st.length then at_ st j
      else if j < 32 * st.length + 32 then some newUninit else none := by
  unfold at_
  by_cases h1 : j < 32 * st.length
  · rw [if_pos h1, List.getElem?_append_left (by omega)]
  · rw [if_neg h1, List.getElem?_append_right (by omega)]
    by_cases h2 : j < 32 * st.length + 32
    · rw [if_pos h2, show j / 32 - st.length = 0 by omega]
      simp only [List.getElem?_cons_zero, Option.bind_some]
      unfold newChunk
      rw [List.getElem?_replicate, if_pos (show j % 32 < chunkSize from Nat.mod_lt _ (by decide))]
    · rw [if_neg h2]
      rw [List.getElem?_eq_none (by simp; omega)]
      rfl

/-- A slot that `find` walks past. -/
def Skips (v : T) (s : Slot T) : Prop := s.val ≠ some v ∧ s.refs ≠ 0

theorem findSlots_spec (v : T) (idx k : Nat) (c : List (Slot T)) :
    (findSlots v idx k c = none ∧ ∀ s ∈ c, Skips v s) ∨
    (∃ n s, c[n]? = some s ∧ (∀ m < n, ∀ s', c[m]? = some s' → Skips v s') ∧
      ((s.val = some v ∧ findSlots v idx k c = some (.exists_ (idx, k + n))) ∨
       (s.val ≠ some v ∧ s.refs = 0 ∧ findSlots v idx k c = some (.dead (idx, k + n))))) := by
  induction c generalizing k with
  | nil => exact .inl ⟨rfl, by simp⟩
  | cons s rest ih =>
    rw [findSlots]
    by_cases hv : s.val = some v
    · rw [if_pos hv]
      exact .inr ⟨0, s, rfl, by simp, .inl ⟨hv, rfl⟩⟩
    · rw [if_neg hv]
      by_cases hz : s.refs = 0
      · rw [if_pos hz]
        exact .inr ⟨0, s, rfl, by simp, .inr ⟨hv, hz, rfl⟩⟩
      · rw [if_neg hz]
        rcases ih (k + 1) with ⟨h1, h2⟩ | ⟨n, s', h1, h2, h3⟩
        · refine .inl ⟨h1, ?_⟩
          intro s' hs'
          rcases List.mem_cons.mp hs' with rfl | h
          · exact ⟨hv, hz⟩
          · exact h2 s' h
        · refine .inr ⟨n + 1, s', by simpa using h1, ?_, ?_⟩
          · intro m hm s'' hs''
            cases m with
            | zero =>
              simp only [List.getElem?_cons_zero, Option.some.injEq] at hs''
              subst hs''
              exact ⟨hv, hz⟩
            | succ m => exact h2 m (by omega) s'' (by simpa using hs'')
          · rw [show k + (n + 1) = k + 1 + n by ring]
            exact h3

theorem findChunks_spec (v : T) (idx : Nat) (st : Store T) :
    (findChunks v idx st = .none ∧ ∀ c ∈ st, ∀ s ∈ c, Skips v s) ∨
    (∃ a c b s, st[a]? = some c ∧ c[b]? = some s ∧
      (∀ a' < a, ∀ c', st[a']? = some c' → ∀ s ∈ c', Skips v s) ∧
      (∀ b' < b, ∀ s', c[b']? = some s' → Skips v s') ∧
      ((s.val = some v ∧ findChunks v idx st = .exists_ (idx + a, b)) ∨
       (s.val ≠ some v ∧ s.refs = 0 ∧ findChunks v idx st = .dead (idx + a, b)))) := by
  induction st generalizing idx with
  | nil => exact .inl ⟨rfl, by simp⟩
  | cons c rest ih =>
    rw [findChunks]
    rcases findSlots_spec v idx 0 c with ⟨h1, h2⟩ | ⟨n, s, h1, h2, h3⟩
    · rw [h1]
      simp only
      rcases ih (idx + 1) with ⟨g1, g2⟩ | ⟨a, c', b, s, g1, g2, g3, g4, g5⟩
      · refine .inl ⟨g1, ?_⟩
        intro c' hc'
        rcases List.mem_cons.mp hc' with rfl | h
        · exact h2
        · exact g2 c' h
      · refine .inr ⟨a + 1, c', b, s, by simpa using g1, g2, ?_, g4, ?_⟩
        · intro a' ha' c'' hc''
          cases a' with
          | zero =>
            simp only [List.getElem?_cons_zero, Option.some.injEq] at hc''
            subst hc''
            exact h2
          | succ a' => exact g3 a' (by omega) c'' (by simpa using hc'')
        · rw [show idx + (a + 1) = idx + 1 + a by ring]
          exact g5
    · refine .inr ⟨0, c, n, s, rfl, h1, by simp, h2, ?_⟩
      rw [Nat.zero_add] at h3
      rcases h3 with ⟨h4, h5⟩ | ⟨h4, h5, h6⟩
      · exact .inl ⟨h4, by rw [h5]; rfl⟩
      · exact .inr ⟨h4, h5, by rw [h6]; rfl⟩

/-- `find`, in terms of slot numbers. -/
theorem find_spec {st : Store T} (h : WF st) (v : T) :
    (find st v = .none ∧ ∀ i s, at_ st i = some s → Skips v s) ∨
    (∃ a b s, b < 32 ∧ at_ st (a * 32 + b) = some s ∧
      (∀ j < a * 32 + b, ∀ s', at_ st j = some s' → Skips v s') ∧
      ((s.val = some v ∧ find st v = .exists_ (a, b)) ∨
       (s.val ≠ some v ∧ s.refs = 0 ∧ find st v = .dead (a, b)))) := by
  unfold find
  rcases findChunks_spec v 0 st with ⟨h1, h2⟩ | ⟨a, c, b, s, g1, g2, g3, g4, g5⟩
  · refine .inl ⟨h1, ?_⟩
    intro i s hs
    unfold at_ at hs
    cases hc : st[i / 32]? with
    | none => rw [hc] at hs; cases hs
    | some c =>
      rw [hc] at hs
      exact h2 c (List.mem_of_getElem? hc) s (List.mem_of_getElem? hs)
  · have hb : b < 32 := by
      have := (List.getElem?_eq_some_iff.mp g2).1
      rwa [h c (List.mem_of_getElem? g1)] at this
    refine .inr ⟨a, b, s, hb, ?_, ?_, ?_⟩
    · unfold at_
      rw [show (a * 32 + b) / 32 = a by omega, show (a * 32 + b) % 32 = b by omega, g1]
      exact g2
    · intro j hj s' hs'
      unfold at_ at hs'
      cases hc : st[j / 32]? with
      | none => rw [hc] at hs'; cases hs'
      | some c' =>
        rw [hc] at hs'
        simp only [Option.bind_some] at hs'
        by_cases hq : j / 32 = a
        · rw [hq, g1, Option.some.injEq] at hc
          subst hc
          exact g4 _ (by omega) s' hs'
        · exact g3 _ (by omega) c' hc s' (List.mem_of_getElem? hs')
    · simpa using g5

/-- `add`, in terms of slot numbers: the slot `id` gets one more reference and holds `v`; other
slots are unchanged, except that a new chunk of empty slots may appear at the end. -/
theorem add_spec {st : Store T} (h : WF st) (m : Mode) (v : T)
    (hb : ∀ i s, at_ st i = some s → s.refs < usizeSize - 1) :
    ∃ st' id, add m st v = .ok (st', id) ∧ WF st' ∧
      ((∃ s, at_ st id = some s ∧ (s.val = some v ∨ s.refs = 0) ∧ st'.length = st.length ∧
        (∀ j < id, ∀ s', at_ st j = some s' → Skips v s') ∧
        ∀ j, at_ st' j = if j = id then some ⟨s.refs + 1, some v⟩ else at_ st j) ∨
       (id = 32 * st.length ∧ (∀ i s, at_ st i = some s → Skips v s) ∧
        st'.length = st.length + 1 ∧
        ∀ j, at_ st' j = if j = id then some ⟨1, some v⟩ else at_ (st ++ [newChunk]) j)) := by
  unfold add
  have hincr : ∀ s : Slot T, s.refs < usizeSize - 1 →
      incrInner m s = .ok { s with refs := s.refs + 1 } := by
    intro s hs
    unfold incrInner
    rw [if_neg (by omega)]
  rcases find_spec h v with ⟨h1, h2⟩ | ⟨a, b, s, hb32, g1, g2, g3⟩
  · rw [h1]
    simp only [List.length_append, List.length_singleton, Nat.add_sub_cancel]
    rw [slot_eq' _ _ _ (by omega), at_append]
    rw [if_neg (by omega), if_pos (by omega)]
    simp only [Res.ofOption, Res.bind]
    rw [hincr _ (by unfold newUninit usizeSize; simp)]
    have hsome : ∃ s, at_ (st ++ [newChunk]) (st.length * 32 + 0) = some s := by
      rw [at_append, if_neg (by omega), if_pos (by omega)]; exact ⟨_, rfl⟩
    refine ⟨_, _, rfl, (wf_setSlot (wf_append h) _ _).1, .inr ⟨by omega, h2, ?_, ?_⟩⟩
    · rw [(wf_setSlot (wf_append h) _ _).2]; simp
    · intro j
      rw [at_setSlot' _ _ _ (by omega) _ hsome]
      simp only [newUninit, Nat.zero_add, Nat.add_zero]
  · have hs := hb _ s g1
    have hsome : ∃ s, at_ st (a * 32 + b) = some s := ⟨s, g1⟩
    rcases g3 with ⟨g4, g5⟩ | ⟨g4, g5, g6⟩
    · rw [g5]
      simp only
      rw [slot_eq' _ _ _ hb32, g1]
      simp only [Res.ofOption, Res.bind]
      rw [hincr s hs]
      refine ⟨_, _, rfl, (wf_setSlot h _ _).1, .inl ⟨s, g1, .inl g4, (wf_setSlot h _ _).2, g2, ?_⟩⟩
      intro j
      rw [at_setSlot' _ _ _ hb32 _ hsome, g4]
    · rw [g6]
      simp only
      rw [slot_eq' _ _ _ hb32, g1]
      simp only [Res.ofOption, Res.bind]
      rw [hincr s hs]
      refine ⟨_, _, rfl, (wf_setSlot h _ _).1, .inl ⟨s, g1, .inr g5, (wf_setSlot h _ _).2, g2, ?_⟩⟩
      intro j
      rw [at_setSlot' _ _ _ hb32 _ hsome]

theorem wf_withCapacity (n : Nat) : WF (withCapacity n : Store T) := by
  intro c hc
  unfold withCapacity at hc
  rw [(List.mem_replicate.mp hc).2]
  simp [newChunk, chunkSize]

theorem at_withCapacity (n i : Nat) (s : Slot T) (h : at_ (withCapacity n) i = some s) :
    s = newUninit := by
  unfold at_ at h
  cases hc : (withCapacity n : Store T)[i / 32]? with
  | none => rw [hc] at h; cases h
  | some c =>
    rw [hc] at h
    have := List.mem_of_getElem? hc
    unfold withCapacity at this
    rw [(List.mem_replicate.mp this).2] at h
    exact (List.mem_replicate.mp (List.mem_of_getElem? h)).2

end Intern

end Verif
