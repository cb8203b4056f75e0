import Verif.Lemmas.InternProg
import Verif.Spec.Tidy

/-!
# Lemmas about programs that drop what they own
-/

namespace Verif

namespace InternProg

open InternWeak

variable {T R : Type} [DecidableEq T]

/-- The names in use. -/
def used (a : Thread (Handle T) T R) (x : Nat) : Prop := a.env x ≠ none

/-- Every handle has a name in the thread that owns it, and nobody borrows from themselves. -/
structure Named (s : Sys T R) : Prop where
  tidy : ∀ t, (s.th t).prog.Tidy (used (s.th t))
  named : ∀ h ∈ s.base.handles, ∃ x, (s.th h.owner).env x = some h
  loans : ∀ h b, (h, b) ∈ s.base.loans → h.owner ≠ b

omit [DecidableEq T] in
theorem used_bind (a : Thread (Handle T) T R) (x : Nat) (h : Handle T) (p : Prog T R) :
    used (a.bind x h p) = fun z => z = x ∨ used a z := by
  funext z
  unfold used Thread.bind
  by_cases e : z = x
  · subst e; simp only [Function.update_self]; simp
  · simp only [Function.update_of_ne e, e, false_or]

omit [DecidableEq T] in
theorem used_unbind (a : Thread (Handle T) T R) (x : Nat) (p : Prog T R) :
    used (a.unbind x p) = fun z => z ≠ x ∧ used a z := by
  funext z
  unfold used Thread.unbind
  by_cases e : z = x
  · subst e; simp only [Function.update_self]; simp
  · simp only [Function.update_of_ne e]; simp [e]

omit [DecidableEq T] in
theorem bind_keeps {a : Thread (Handle T) T R} {x z : Nat} {h h' : Handle T} {p : Prog T R} (hx : ¬ used a x)
    (e : a.env z = some h') : (a.bind x h p).env z = some h' := by
  unfold Thread.bind
  have : z ≠ x := by rintro rfl; exact hx (by unfold used; rw [e]; nofun)
  simp only [Function.update_of_ne this]
  exact e

omit [DecidableEq T] in
theorem bind_self {a : Thread (Handle T) T R} {x : Nat} {h : Handle T} {p : Prog T R} :
    (a.bind x h p).env x = some h := Function.update_self _ _ _

omit [DecidableEq T] in
theorem unbind_keeps {a : Thread (Handle T) T R} {x z : Nat} {h h' : Handle T} {p : Prog T R}
    (hx : a.env x = some h) (ne : h' ≠ h) (e : a.env z = some h') : (a.unbind x p).env z = some h' := by
  unfold Thread.unbind
  have : z ≠ x := by rintro rfl; rw [hx] at e; cases e; exact ne rfl
  simp only [Function.update_of_ne this]
  exact e

omit [DecidableEq T] in
theorem put_th (s : Sys T R) (b : State T) (t : Nat) (a : Thread (Handle T) T R) (t' : Nat) :
    (s.put b t a).th t' = if t' = t then a else s.th t' := by
  unfold Sys.put
  by_cases e : t' = t
  · subst e; simp
  · simp [e]

theorem named_move {s s' : Sys T R} (g : Good s) (n : Named s) (hm : Move s s') : Named s' := by
  have inv := inv_steps g.steps
  have mem : ∀ {t x h}, (s.th t).env x = some h → h ∈ s.base.handles := fun e => (g.use _ _ _ e).mem inv
  have keys := keys_steps g.steps
  cases hm with
  | add b t x v p hp hr hl hb => subst hb; exact ⟨n.tidy, n.named, n.loans⟩
  | get t x h k hp hr he => exact ⟨n.tidy, n.named, n.loans⟩
  | peek t x k h p m hp hr he hm => exact ⟨n.tidy, n.named, n.loans⟩
  | sync t t' => exact ⟨n.tidy, n.named, n.loans⟩
  | run b t hr =>
    have hnr : (s.base.pc t).ready = false := by
      cases hr <;> (rename_i hp; simp_all [PC.ready])
    have hloans : b.loans = s.base.loans := by cases hr <;> rfl
    have hat := g.at_ t
    have ht := n.tidy t
    unfold At at hat
    unfold Sys.after
    split
    · rename_i v x p h rest hp hpc hh
      rw [hp] at hat ht
      simp only at hat
      rw [hnr] at hat
      have ha := hat.resolve_left nofun
      rcases run_adds hr ha with ⟨h1, _⟩ | ⟨_, h0, h1, h2, h3, h4⟩
      · rw [hpc] at h1; cases h1
      · have e0 : h = h0 := by rw [hh] at h1; exact (List.cons.inj h1).1
        subst e0
        refine ⟨fun t' => ?_, fun h' hm => ?_, fun h' b' hm => n.loans h' b' (hloans ▸ hm)⟩
        · rw [put_th]
          split
          · rw [used_bind]; exact ht.2
          · exact n.tidy t'
        · rw [show (s.put b t ((s.th t).bind x h p)).base.handles = b.handles from rfl, h1] at hm
          rw [put_th]
          rcases List.mem_cons.mp hm with e | hm
          · refine ⟨x, ?_⟩
            rw [e, if_pos h3]
            exact bind_self
          · obtain ⟨z, hz⟩ := n.named h' hm
            refine ⟨z, ?_⟩
            split
            · rename_i e
              exact bind_keeps ht.1 (e ▸ hz)
            · exact hz
    · rename_i x k h v hp hpc
      rw [hp] at hat ht
      simp only at hat
      rw [hnr] at hat
      obtain ⟨h', he, hg⟩ := hat.resolve_left nofun
      obtain ⟨h1, h2⟩ := run_gets g.steps hr hg
      refine ⟨fun t' => ?_, fun h' hm => ?_, fun h' b' hm => n.loans h' b' (hloans ▸ hm)⟩
      · rw [put_th]
        split
        · exact ht v
        · exact n.tidy t'
      · obtain ⟨z, hz⟩ := n.named h' (h1 ▸ hm)
        refine ⟨z, ?_⟩
        rw [put_th]
        split
        · rename_i e
          exact e ▸ hz
        · exact hz
    · rename_i n2 n1
      have hh : b.handles = s.base.handles := by
        split at hat
        · rename_i v x p hp
          rw [hnr] at hat
          rcases run_adds hr (hat.resolve_left nofun) with ⟨_, h1⟩ | ⟨h0, h, h1, _⟩
          · exact h1
          · exact absurd h1 (n1 _ _ _ _ _ hp h0)
        · rename_i x k hp
          rw [hnr] at hat
          obtain ⟨h', he, hg⟩ := hat.resolve_left nofun
          exact (run_gets g.steps hr hg).1
        · rw [hnr] at hat; cases hat
      exact ⟨n.tidy, fun h' hm => n.named h' (hh ▸ hm), fun h' b' hm => n.loans h' b' (hloans ▸ hm)⟩
  | clone b t x y h p hp hr he hb =>
    subst hb
    have ht := n.tidy t
    rw [hp] at ht
    refine ⟨fun t' => ?_, fun h' hm => ?_, n.loans⟩
    · rw [put_th]
      split
      · rw [used_bind]; exact ht.2
      · exact n.tidy t'
    · rw [put_th]
      rcases List.mem_cons.mp hm with e | hm
      · refine ⟨y, ?_⟩
        rw [e, if_pos rfl]
        exact bind_self
      · obtain ⟨z, hz⟩ := n.named h' hm
        refine ⟨z, ?_⟩
        split
        · rename_i e
          exact bind_keeps ht.1 (e ▸ hz)
        · exact hz
  | drop b t x h p hp hr he ho hn hb =>
    subst hb
    have ht := n.tidy t
    rw [hp] at ht
    refine ⟨fun t' => ?_, fun h' hm => ?_, n.loans⟩
    · rw [put_th]
      split
      · rw [used_unbind]; exact ht
      · exact n.tidy t'
    · obtain ⟨ne, hm⟩ := (List.Nodup.mem_erase_iff keys.nodup).mp hm
      obtain ⟨z, hz⟩ := n.named h' hm
      refine ⟨z, ?_⟩
      rw [put_th]
      split
      · rename_i e
        exact unbind_keeps he ne (e ▸ hz)
      · exact hz
  | send b t t' x y h p p' hp hp' hr he ho hn hb =>
    subst hb
    have htt : t ≠ t' := by rintro rfl; rw [hp] at hp'; cases hp'
    have ht := n.tidy t
    rw [hp] at ht
    have ht' := n.tidy t'
    rw [hp'] at ht'
    refine ⟨fun t2 => ?_, fun h' hm => ?_, n.loans⟩
    · rw [put_th]
      split
      · rw [used_bind]; exact ht'.2
      · rw [put_th]
        split
        · rw [used_unbind]; exact ht
        · exact n.tidy t2
    · rw [put_th]
      rcases List.mem_cons.mp hm with e | hm
      · refine ⟨y, ?_⟩
        rw [e, if_pos rfl]
        exact bind_self
      · obtain ⟨ne, hm⟩ := (List.Nodup.mem_erase_iff keys.nodup).mp hm
        obtain ⟨z, hz⟩ := n.named h' hm
        refine ⟨z, ?_⟩
        split
        · rename_i e
          exact bind_keeps ht'.1 (e ▸ hz)
        · rw [put_th]
          split
          · rename_i e
            exact unbind_keeps he ne (e ▸ hz)
          · exact hz
  | lend b t t' x y h p p' hp hp' he ho hn hb =>
    subst hb
    have htt : t ≠ t' := by rintro rfl; rw [hp] at hp'; cases hp'
    have ht := n.tidy t
    rw [hp] at ht
    have ht' := n.tidy t'
    rw [hp'] at ht'
    refine ⟨fun t2 => ?_, fun h' hm => ?_, fun h' b' hm => ?_⟩
    · rw [put_th]
      split
      · rw [used_bind]; exact ht'.2
      · rw [put_th]
        split
        · exact ht
        · exact n.tidy t2
    · obtain ⟨z, hz⟩ := n.named h' hm
      refine ⟨z, ?_⟩
      rw [put_th]
      split
      · rename_i e
        exact bind_keeps ht'.1 (e ▸ hz)
      · rw [put_th]
        split
        · rename_i e
          exact e ▸ hz
        · exact hz
    · rcases List.mem_cons.mp hm with e | hm
      · cases e
        rw [ho]; exact htt
      · exact n.loans h' b' hm
  | giveBack b t y h p hp hr he hl hb =>
    subst hb
    have ht := n.tidy t
    rw [hp] at ht
    refine ⟨fun t' => ?_, fun h' hm => ?_, fun h' b' hm => n.loans h' b' (List.mem_of_mem_erase hm)⟩
    · rw [put_th]
      split
      · rw [used_unbind]; exact ht
      · exact n.tidy t'
    · obtain ⟨z, hz⟩ := n.named h' hm
      refine ⟨z, ?_⟩
      rw [put_th]
      split
      · rename_i e
        refine unbind_keeps he ?_ (e ▸ hz)
        rintro rfl
        exact n.loans h' t hl e
      · exact hz

end InternProg

end Verif
