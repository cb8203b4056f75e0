import Verif.Props.InternShared
import Verif.Props.InternConc

/-!
# Two threads that add at the same time may always meet (C60, C133)

The violations of C60 and C133 are not confined to one history: after every history that leaves a slot free, any two
threads that are not inside a call can be scheduled such that both get this slot.
-/

set_option linter.unusedSectionVars false

namespace Verif

open Intern

variable {T : Type} [DecidableEq T]

/-- Everything is allowed, `push` is exact, and no count is near overflow. -/
abbrev AddWalk (m : Mode) : Sys T → Sys T → Prop :=
  SysSteps m (fun _ _ => True) (fun _ _ => True) exactLen Roomy

theorem walk_trans {m : Mode} {a b c : Sys T} (h1 : AddWalk m a b) (h2 : AddWalk m b c) : AddWalk m a c := by
  induction h2 with
  | refl => exact h1
  | tail _ hb hs ih => exact ih.tail hb hs

/-- A step of a thread inside `add` that leaves the log as it is, or ends the call. -/
theorem walk_run {m : Mode} {a : Sys T} (hr : Roomy a) (t : Nat) {st' : Store T} {pc' : APC T}
    (h : addStep m (a.store.length + 1) a.store (a.pc t) = some (st', pc')) :
    AddWalk m a ⟨st', Function.update a.pc t pc', a.log ++ pc'.ev⟩ :=
  (SysSteps.refl a).tail hr (.run a t _ st' pc' rfl h)

theorem walk_load {m : Mode} {a : Sys T} (hr : Roomy a) (t k : Nat) (v : T) {s : Slot T}
    (hpc : a.pc t = .scan v k) (hs : at_ a.store k = some s) :
    AddWalk m a ⟨a.store, Function.update a.pc t (.check v k s.refs), a.log⟩ := by
  have hslot : slot a.store (offsetToIdx k) = .ok s := by rw [slot_eq, hs]; rfl
  have h1 := walk_run (m := m) hr t (st' := a.store) (pc' := .load v k) (by rw [hpc]; simp only [addStep, hslot])
  simp only [APC.ev, List.append_nil] at h1
  have h2 := walk_run (m := m) (a := ⟨a.store, Function.update a.pc t (.load v k), a.log⟩) hr t
    (st' := a.store) (pc' := .check v k s.refs) (by
      change addStep m _ a.store (Function.update a.pc t (.load v k) t) = _
      rw [Function.update_self]; simp only [addStep, hslot])
  simp only [APC.ev, List.append_nil, Function.update_idem] at h2
  exact walk_trans h1 h2

/-- From the beginning of the call to the first free slot. -/
theorem walk_scan {m : Mode} {a : Sys T} (hr : Roomy a) (t : Nat) (v : T) (hpc : a.pc t = .scan v 0)
    (k : Nat) (h : ∀ j < k, ∃ s, at_ a.store j = some s ∧ Skips v s) :
    AddWalk m a ⟨a.store, Function.update a.pc t (.scan v k), a.log⟩ := by
  induction k with
  | zero =>
    rw [← hpc, Function.update_eq_self]
    exact .refl a
  | succ k ih =>
    have h1 := ih fun j hj => h j (by omega)
    obtain ⟨s, hs, h3, h4⟩ := h k (by omega)
    have hslot : slot a.store (offsetToIdx k) = .ok s := by rw [slot_eq, hs]; rfl
    have h5 := walk_load (m := m) (a := ⟨a.store, Function.update a.pc t (.scan v k), a.log⟩) hr t k v
      (Function.update_self ..) hs
    simp only [Function.update_idem] at h5
    have h6 := walk_run (m := m) (a := ⟨a.store, Function.update a.pc t (.check v k s.refs), a.log⟩) hr t
      (st' := a.store) (pc' := .scan v (k + 1)) (by
        change addStep m _ a.store (Function.update a.pc t (.check v k s.refs) t) = _
        rw [Function.update_self]
        simp only [addStep, hslot]
        rw [if_neg h3, if_neg h4])
    simp only [APC.ev, List.append_nil, Function.update_idem] at h6
    exact walk_trans (walk_trans h1 h5) h6

/-- A thread starts adding `v` and has seen that slot `i` is free. -/
theorem walk_claim {m : Mode} {a : Sys T} (hr : Roomy a) (t : Nat) (v : T) (hpc : (a.pc t).ready = true)
    (i : Nat) (h : ∀ j < i, ∃ s, at_ a.store j = some s ∧ Skips v s) {x : Slot T} (hx : at_ a.store i = some x)
    (h0 : x.refs = 0) (hv : x.val ≠ some v) :
    AddWalk m a ⟨a.store, Function.update a.pc t (.incrDead v i), a.log⟩ := by
  have h1 : AddWalk m a ⟨a.store, Function.update a.pc t (.scan v 0), a.log⟩ :=
    (SysSteps.refl a).tail hr (.start a t v trivial hpc)
  have h2 := walk_scan (m := m) (a := ⟨a.store, Function.update a.pc t (.scan v 0), a.log⟩) hr t v
    (Function.update_self ..) i h
  simp only [Function.update_idem] at h2
  have h3 := walk_load (m := m) (a := ⟨a.store, Function.update a.pc t (.scan v i), a.log⟩) hr t i v
    (Function.update_self ..) hx
  simp only [Function.update_idem] at h3
  have hslot : slot a.store (offsetToIdx i) = .ok x := by rw [slot_eq, hx]; rfl
  have h4 := walk_run (m := m) (a := ⟨a.store, Function.update a.pc t (.check v i x.refs), a.log⟩) hr t
    (st' := a.store) (pc' := .incrDead v i) (by
      change addStep m _ a.store (Function.update a.pc t (.check v i x.refs) t) = _
      rw [Function.update_self]
      simp only [addStep, hslot]
      rw [if_neg hv, if_pos h0])
  simp only [APC.ev, List.append_nil, Function.update_idem] at h4
  exact walk_trans (walk_trans (walk_trans h1 h2) h3) h4

theorem roomy_set {st : Store T} {pc : Nat → APC T} {l : List (Ev T)} (hr : Roomy ⟨st, pc, l⟩) {i : Nat}
    {x y : Slot T} (hx : at_ st i = some x) (hy : y.refs < 2 ^ 64 - 1) (pc' : Nat → APC T) (l' : List (Ev T)) :
    Roomy ⟨setSlot st (offsetToIdx i) y, pc', l'⟩ := by
  intro j z hz
  change at_ (setSlot st (offsetToIdx i) y) j = some z at hz
  rw [at_setSlot _ _ _ ⟨x, hx⟩] at hz
  split at hz
  · cases hz; exact hy
  · exact hr j z hz

theorem walk_incr {m : Mode} {a : Sys T} (hr : Roomy a) (t : Nat) (v : T) (i : Nat)
    (hpc : a.pc t = .incrDead v i) {x : Slot T} (hx : at_ a.store i = some x) :
    AddWalk m a ⟨setSlot a.store (offsetToIdx i) { x with refs := x.refs + 1 },
      Function.update a.pc t (.setDead v i), a.log⟩ := by
  have hslot : slot a.store (offsetToIdx i) = .ok x := by rw [slot_eq, hx]; rfl
  have hb := hr i x hx
  have h := walk_run (m := m) hr t (st' := setSlot a.store (offsetToIdx i) { x with refs := x.refs + 1 })
    (pc' := .setDead v i) (by
      rw [hpc]
      simp only [addStep, incrAt, incr, hslot, Res.bind]
      unfold incrInner
      rw [if_neg (by unfold usizeSize; omega)])
  simpa only [APC.ev, List.append_nil] using h

theorem walk_set {m : Mode} {a : Sys T} (hr : Roomy a) (t : Nat) (v : T) (i : Nat)
    (hpc : a.pc t = .setDead v i) {x : Slot T} (hx : at_ a.store i = some x) :
    AddWalk m a ⟨setSlot a.store (offsetToIdx i) { x with val := some v },
      Function.update a.pc t (.done v i), a.log ++ [.add v i]⟩ := by
  have hslot : slot a.store (offsetToIdx i) = .ok x := by rw [slot_eq, hx]; rfl
  exact walk_run (m := m) hr t (st' := setSlot a.store (offsetToIdx i) { x with val := some v })
    (pc' := .done v i) (by rw [hpc]; simp only [addStep, setAt, hslot])

/-- C60 and C133 fail after every history: let `i` be the first id without references. If two threads that are not
inside a call add values that are not stored up to there, both may get the id `i`, and hold it, and it then reads as
the value of the second. -/
theorem C60_meet_violated (m : Mode) (a : Sys T) (hr : Roomy a) (t t' : Nat) (ht : t ≠ t')
    (h1 : (a.pc t).ready = true) (h2 : (a.pc t').ready = true) (v u : T) (i : Nat)
    (hfree : ∃ x, at_ a.store i = some x ∧ x.refs = 0 ∧ x.val ≠ some v ∧ x.val ≠ some u)
    (hused : ∀ j < i, ∃ y, at_ a.store j = some y ∧ y.refs ≠ 0 ∧ y.val ≠ some v ∧ y.val ≠ some u) :
    ∃ b : Sys T, SysSteps m (fun _ _ => True) (fun _ _ => True) exactLen Roomy a b ∧
      b.pc t = .done v i ∧ b.pc t' = .done u i ∧ b.log = a.log ++ [.add v i, .add u i] ∧
      get b.store i = .ok u := by
  obtain ⟨x, hx, hx0, hxv, hxu⟩ := hfree
  have k1 := walk_claim (m := m) hr t v h1 i
    (fun j hj => by obtain ⟨y, y1, y2, y3, _⟩ := hused j hj; exact ⟨y, y1, y3, y2⟩) hx hx0 hxv
  have k2 := walk_claim (m := m) (a := ⟨a.store, Function.update a.pc t (.incrDead v i), a.log⟩) hr t' u
    (by
      change ((Function.update a.pc t (.incrDead v i)) t').ready = true
      rw [Function.update_of_ne ht.symm]; exact h2) i
    (fun j hj => by obtain ⟨y, y1, y2, _, y3⟩ := hused j hj; exact ⟨y, y1, y3, y2⟩) hx hx0 hxu
  dsimp only at k2
  have k3 := walk_incr (m := m)
    (a := ⟨a.store, Function.update (Function.update a.pc t (.incrDead v i)) t' (.incrDead u i), a.log⟩) hr t v i
    (by
      change Function.update (Function.update a.pc t (.incrDead v i)) t' (.incrDead u i) t = _
      rw [Function.update_of_ne ht, Function.update_self]) hx
  have at1 : ∀ (st : Store T) (z y : Slot T), at_ st i = some z → at_ (setSlot st (offsetToIdx i) y) i = some y :=
    fun st z y hz => by rw [at_setSlot _ _ _ ⟨z, hz⟩, if_pos rfl]
  dsimp only at k3
  have r3 := roomy_set (pc := a.pc) (l := a.log) (st := a.store) hr hx
    (y := { x with refs := x.refs + 1 }) (by dsimp only; omega)
  have a3 := at1 a.store x { x with refs := x.refs + 1 } hx
  have k4 := walk_incr (m := m) (r3 _ a.log) t' u i
    (a := ⟨setSlot a.store (offsetToIdx i) { x with refs := x.refs + 1 },
      Function.update (Function.update (Function.update a.pc t (.incrDead v i)) t' (.incrDead u i)) t (.setDead v i),
      a.log⟩)
    (by
      change Function.update (Function.update (Function.update a.pc t (.incrDead v i)) t' (.incrDead u i)) t
        (.setDead v i) t' = _
      rw [Function.update_of_ne ht.symm, Function.update_self]) a3
  dsimp only at k4
  generalize hp4 : Function.update (Function.update (Function.update (Function.update a.pc t (.incrDead v i)) t'
    (.incrDead u i)) t (.setDead v i)) t' (.setDead u i) = p4 at k4
  have q4 : p4 t = .setDead v i ∧ p4 t' = .setDead u i := by
    rw [← hp4]
    exact ⟨by rw [Function.update_of_ne ht, Function.update_self], Function.update_self ..⟩
  generalize hs3 : setSlot a.store (offsetToIdx i) { x with refs := x.refs + 1 } = s3 at k3 k4 a3 r3
  have r4 := roomy_set (r3 a.pc a.log) a3 (y := ⟨x.refs + 1 + 1, x.val⟩) (by dsimp only; omega)
  have a4 := at1 s3 _ ⟨x.refs + 1 + 1, x.val⟩ a3
  generalize hs4 : setSlot s3 (offsetToIdx i) ⟨x.refs + 1 + 1, x.val⟩ = s4 at k4 a4 r4
  have k5 := walk_set (m := m) (a := ⟨s4, p4, a.log⟩) (r4 _ _) t v i q4.1 a4
  dsimp only at k5
  have r5 := roomy_set (r4 a.pc a.log) a4 (y := ⟨x.refs + 1 + 1, some v⟩) (by dsimp only; omega)
  have a5 := at1 s4 _ ⟨x.refs + 1 + 1, some v⟩ a4
  generalize hs5 : setSlot s4 (offsetToIdx i) ⟨x.refs + 1 + 1, some v⟩ = s5 at k5 a5 r5
  have k6 := walk_set (m := m) (a := ⟨s5, Function.update p4 t (.done v i), a.log ++ [.add v i]⟩) (r5 _ _) t' u i
    (by
      change Function.update p4 t (.done v i) t' = _
      rw [Function.update_of_ne ht.symm]; exact q4.2) a5
  dsimp only at k6
  refine ⟨_, walk_trans (walk_trans (walk_trans (walk_trans (walk_trans k1 k2) k3) k4) k5) k6, ?_, ?_, ?_, ?_⟩
  · change Function.update (Function.update p4 t (.done v i)) t' (.done u i) t = _
    rw [Function.update_of_ne ht, Function.update_self]
  · exact Function.update_self ..
  · simp
  · change Intern.get (setSlot s5 (offsetToIdx i) ⟨x.refs + 1 + 1, some u⟩) i = _
    unfold Intern.get tryGet
    rw [slot_eq, at1 s5 _ ⟨x.refs + 1 + 1, some u⟩ a5]
    simp only [Res.ofOption, Res.bind]
    rw [if_neg (by omega)]

-- in a new interner the first id is free
example (t t' : Nat) (ht : t ≠ t') : ∃ b : Sys Nat,
    SysSteps .release (fun _ _ => True) (fun _ _ => True) exactLen Roomy ⟨withCapacity 1, fun _ => .idle, []⟩ b ∧
      b.pc t = .done 5 0 ∧ b.pc t' = .done 7 0 ∧ get b.store 0 = .ok 7 := by
  obtain ⟨b, h1, h2, h3, _, h4⟩ := C60_meet_violated .release (⟨withCapacity 1, fun _ => .idle, []⟩ : Sys Nat)
    (roomy_spec (by decide +kernel)) t t' ht rfl rfl 5 7 0 ⟨newUninit, by decide +kernel, rfl, nofun, nofun⟩
    (fun j hj => absurd hj (Nat.not_lt_zero j))
  exact ⟨b, h1, h2, h3, h4⟩

end Verif
