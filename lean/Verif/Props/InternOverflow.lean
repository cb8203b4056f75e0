import Verif.Model.InternRef
import Verif.Props.Intern

/-!
# Too many references to one value (C161)
-/

namespace Verif

open Intern
open InternRef (incrLeaves)

variable {T : Type} [DecidableEq T]

/-- What `incr` leaves behind is what it returns, if it returns. -/
theorem incrLeaves_of_ok (m : Mode) {st st' : Store T} {i : Nat} (h : Intern.incr m st i = .ok st')
    (hb : ∀ k, refcount st i = .ok k → k < 2 ^ 64) : incrLeaves st i = .ok st' := by
  unfold Intern.incr at h
  unfold refcount at hb
  unfold incrLeaves
  rw [slot_eq] at h hb ⊢
  cases hs : at_ st i with
  | none => rw [hs] at h; cases h
  | some s =>
    rw [hs] at h hb
    simp only [Res.ofOption, Res.bind] at h hb ⊢
    have hk : s.refs < 2 ^ 64 := hb s.refs rfl
    unfold incrInner at h
    by_cases h1 : s.refs = usizeSize - 1
    · rw [if_pos h1] at h
      cases m with
      | debug => cases h
      | release =>
        simp only at h
        rw [h1, show (usizeSize - 1 + 1) % usizeSize = 0 from by decide]
        exact h
    · rw [if_neg h1] at h
      simp only at h
      rw [Nat.mod_eq_of_lt (by unfold usizeSize at h1 ⊢; omega)]
      exact h

private theorem reach_count (m : Mode) (v : T) (k : Nat) (hk : k < 2 ^ 64 - 1) :
    ∃ c : Client T, Reachable m 0 c ∧ c.refs = Function.update (fun _ => 0) 0 (k + 1) ∧
      c.ids = [0] ∧ get c.store 0 = .ok v ∧ c.store.length = 1 := by
  induction k with
  | zero =>
    have hadd : add m (withCapacity 0 : Store T) v =
        .ok ([⟨1, some v⟩ :: List.replicate 31 newUninit], 0) := by
      cases m <;> rfl
    refine ⟨_, .call .start (.add _ v _ 0 ?_ hadd), ?_, rfl, rfl, rfl⟩
    · intro i; change 0 < 2 ^ 64 - 1; decide
    · rfl
  | succ k ih =>
    obtain ⟨c, h1, h2, h3, h4, h5⟩ := ih (by omega)
    have hc := reachable_inv h1
    obtain ⟨s, u, k1, k2⟩ := hc.given 0 (by rw [h3]; exact List.mem_cons_self ..)
    have hs : s.refs = k + 1 := by rw [hc.count 0 s k1, h2, Function.update_self]
    have hinc : Intern.incr m c.store 0 =
        .ok (setSlot c.store (offsetToIdx 0) { s with refs := s.refs + 1 }) := by
      unfold Intern.incr
      rw [slot_eq, k1]
      simp only [Res.ofOption, Res.bind, incrInner]
      rw [if_neg (by unfold usizeSize; omega)]
    have hb : c.refs 0 < 2 ^ 64 - 1 := by rw [h2, Function.update_self]; omega
    refine ⟨_, .call h1 (.incr c 0 _ (by rw [h3]; exact List.mem_cons_self ..) hb hinc), ?_, h3, ?_, ?_⟩
    · change Function.update c.refs 0 (c.refs 0 + 1) = _
      rw [h2, Function.update_self, Function.update_idem]
    · have h6 : get (setSlot c.store (offsetToIdx 0) { s with refs := s.refs + 1 }) 0 = .ok u := by
        unfold Intern.get tryGet
        rw [slot_eq, at_setSlot _ _ _ ⟨s, k1⟩, if_pos rfl]
        simp only [Res.ofOption, Res.bind]
        rw [if_neg (by omega), k2]
      have h7 : get c.store 0 = .ok u := by
        unfold Intern.get tryGet
        rw [slot_eq, k1]
        simp only [Res.ofOption, Res.bind]
        rw [if_neg (by omega), k2]
      change get (setSlot c.store (offsetToIdx 0) { s with refs := s.refs + 1 }) 0 = .ok v
      rw [h6, ← h7, h4]
    · rw [← h5]; exact (wf_setSlot hc.wf _ _).2

/-- C161, exactly, for an id with as many references as the counter can count, in any state: asking for
one more panics in a debug build and succeeds in a release build, and in both the value counts as released
afterwards, although all those references are outstanding. -/
theorem C161_exact_partial (n : Nat) (m : Mode) (c : Client T) (hr : Reachable m n c) (i : Nat)
    (hi : c.refs i = 2 ^ 64 - 1) :
    ∃ st', incrLeaves c.store i = .ok st' ∧
      Intern.incr m c.store i = (match m with | .debug => .panic | .release => .ok st') ∧
      refcount st' i = .ok 0 ∧ tryGet st' i = .ok none ∧ get st' i = .panic ∧
      (∀ v, get c.store i ≠ .ok v → (∀ j < i, 1 ≤ c.refs j ∧ get c.store j ≠ .ok v) →
        (∀ j, c.refs j < 2 ^ 64 - 1 ∨ j = i) →
        ∃ st2, add m st' v = .ok (st2, i) ∧ get st2 i = .ok v) := by
  have hc := reachable_inv hr
  obtain ⟨s, u, k1, k2⟩ := hc.given i (hc.owned i (by omega))
  have hs : s.refs = 2 ^ 64 - 1 := by rw [hc.count i s k1, hi]
  have h0 : (s.refs + 1) % usizeSize = 0 := by rw [hs]; decide
  have hat : ∀ j, at_ (setSlot c.store (offsetToIdx i) (⟨0, s.val⟩ : Slot T)) j =
      if j = i then some ⟨0, s.val⟩ else at_ c.store j := fun j => at_setSlot _ _ _ ⟨s, k1⟩
  refine ⟨setSlot c.store (offsetToIdx i) ⟨0, s.val⟩, ?_, ?_, ?_, ?_, ?_, ?_⟩
  · unfold incrLeaves
    rw [slot_eq, k1]
    simp only [Res.ofOption, Res.bind, h0]
  · unfold Intern.incr
    rw [slot_eq, k1]
    simp only [Res.ofOption, Res.bind, incrInner]
    rw [if_pos (by rw [hs]; rfl)]
    cases m <;> rfl
  · unfold refcount
    rw [slot_eq, hat, if_pos rfl]; rfl
  · unfold tryGet
    rw [slot_eq, hat, if_pos rfl]; rfl
  · unfold Intern.get tryGet
    rw [slot_eq, hat, if_pos rfl]; rfl
  · intro v hv hlt hb
    have hwf := (wf_setSlot hc.wf (offsetToIdx i) (⟨0, s.val⟩ : Slot T)).1
    have hsm : ∀ j s', at_ (setSlot c.store (offsetToIdx i) (⟨0, s.val⟩ : Slot T)) j = some s' →
        s'.refs < usizeSize - 1 := by
      intro j s' hs'
      rw [hat] at hs'
      split at hs'
      · rw [Option.some.injEq] at hs'; rw [← hs']; unfold usizeSize; simp
      · rename_i hne
        rw [hc.count j s' hs']
        exact (hb j).resolve_right hne
    obtain ⟨st2, id, a1, -, a3⟩ := add_spec hwf m v hsm
    have hi0 : at_ (setSlot c.store (offsetToIdx i) (⟨0, s.val⟩ : Slot T)) i = some ⟨0, s.val⟩ := by
      rw [hat, if_pos rfl]
    have hskip : ∀ j < i, ∀ s', at_ (setSlot c.store (offsetToIdx i) (⟨0, s.val⟩ : Slot T)) j = some s' →
        Skips v s' := by
      intro j hj s' hs'
      rw [hat, if_neg (by omega)] at hs'
      obtain ⟨l1, l2⟩ := hlt j hj
      have hr' := hc.count j s' hs'
      refine ⟨fun hcv => l2 ?_, by omega⟩
      unfold Intern.get tryGet
      rw [slot_eq, hs']
      simp only [Res.ofOption, Res.bind]
      rw [if_neg (by omega), hcv]
    have hid : id = i ∧ get st2 id = .ok v := by
      rcases a3 with ⟨s', b1, b2, -, b4, b5⟩ | ⟨-, b2, -⟩
      · refine ⟨?_, ?_⟩
        · rcases Nat.lt_trichotomy id i with hl | he | hg
          · have := hskip id hl s' b1
            rcases b2 with b2 | b2
            · exact absurd b2 this.1
            · exact absurd b2 this.2
          · exact he
          · exact absurd rfl (b4 i hg _ hi0).2
        · unfold Intern.get tryGet
          rw [slot_eq, b5, if_pos rfl]
          simp only [Res.ofOption, Res.bind]
          rw [if_neg (by omega)]
      · exact absurd rfl (b2 i _ hi0).2
    obtain ⟨rfl, hg⟩ := hid
    exact ⟨st2, a1, hg⟩

/-- C161, the part that holds: as long as an id has fewer references than that, one more is counted in
both builds. -/
theorem C161_below_partial (n : Nat) (m : Mode) (c : Client T) (hr : Reachable m n c) (i : Nat)
    (h1 : 1 ≤ c.refs i) (hi : c.refs i < 2 ^ 64 - 1) :
    ∃ st', Intern.incr m c.store i = .ok st' ∧ refcount st' i = .ok (c.refs i + 1) ∧
      ∃ v, get c.store i = .ok v ∧ get st' i = .ok v := by
  have hc := reachable_inv hr
  obtain ⟨s, u, k1, k2⟩ := hc.given i (hc.owned i h1)
  have hs : s.refs = c.refs i := hc.count i s k1
  refine ⟨setSlot c.store (offsetToIdx i) { s with refs := s.refs + 1 }, ?_, ?_, u, ?_, ?_⟩
  · unfold Intern.incr
    rw [slot_eq, k1]
    simp only [Res.ofOption, Res.bind, incrInner]
    rw [if_neg (by unfold usizeSize; omega)]
  · unfold refcount
    rw [slot_eq, at_setSlot _ _ _ ⟨s, k1⟩, if_pos rfl, ← hs]; rfl
  · unfold Intern.get tryGet
    rw [slot_eq, k1]
    simp only [Res.ofOption, Res.bind]
    rw [if_neg (by omega), k2]
  · unfold Intern.get tryGet
    rw [slot_eq, at_setSlot _ _ _ ⟨s, k1⟩, if_pos rfl]
    simp only [Res.ofOption, Res.bind]
    rw [if_neg (by omega), k2]

/-- C161 fails for every value and in both builds: with 2^64 - 1 references to it outstanding, one more
makes the next value added take its place, under an id that all of them use. -/
theorem C161_violated (m : Mode) (v v' : T) (hv : v ≠ v') :
    ∃ (c : Client T) (st1 st2 : Store T), Reachable m 0 c ∧ c.refs 0 = 2 ^ 64 - 1 ∧
      get c.store 0 = .ok v ∧ incrLeaves c.store 0 = .ok st1 ∧ get st1 0 = .panic ∧
      add m st1 v' = .ok (st2, 0) ∧ get st2 0 = .ok v' := by
  obtain ⟨c, h1, h2, h3, h4, h5⟩ := reach_count m v (2 ^ 64 - 2) (by decide)
  have h6 : c.refs 0 = 2 ^ 64 - 1 := by rw [h2, Function.update_self]; decide
  obtain ⟨st1, e1, -, -, -, e5, e6⟩ := C161_exact_partial 0 m c h1 0 h6
  obtain ⟨st2, f1, f2⟩ := e6 v' (by rw [h4]; simpa using hv) (fun j hj => absurd hj (by omega)) (by
    intro j
    by_cases hj : j = 0
    · exact .inr hj
    · left; rw [h2, Function.update_of_ne hj]; decide)
  exact ⟨c, st1, st2, h1, h6, h4, e1, e5, f1, f2⟩

-- three references are far below the bound
example : ∃ c : Client Nat, Reachable .debug 0 c ∧ 1 ≤ c.refs 0 ∧ c.refs 0 < 2 ^ 64 - 1 ∧
    get c.store 0 = .ok 7 := by
  obtain ⟨c, h1, h2, -, h4, -⟩ := reach_count .debug 7 2 (by decide)
  refine ⟨c, h1, ?_, ?_, h4⟩ <;> rw [h2, Function.update_self] <;> decide

end Verif
