import Verif.Model.InternTurns
import Verif.Props.InternClock

/-!
# C185: additions that do not overlap, without a lock
-/

namespace Verif

open InternWeak InternTurns

variable {T : Type} [DecidableEq T]

theorem InternTurns.Knows.join {w v : View} (h : Knows w v) : w.join v = w := by
  obtain ⟨wt, ws⟩ := w
  unfold View.join
  congr 1
  · funext i
    exact Nat.max_eq_left (h.1 i)
  · funext a
    exact propext ⟨fun k => k.elim id (h.2 a), .inl⟩

/-- Who knows everything may as well take the lock. -/
theorem InternTurns.Steps.locked {s : State T} (hs : InternTurns.Steps true init s) : InternWeak.Steps init s := by
  induction hs with
  | refl => exact .refl _
  | @tail b c _ hstep ih =>
    cases hstep with
    | add t v h hl hg =>
      have := ih.tail (.add b t v h hl)
      have e : (({ b with holder := some t } : State T).learn t b.lock) = { b with holder := some t } := by
        unfold State.learn State.setView
        dsimp only
        rw [(hg rfl).join, Function.update_eq_self]
      rwa [e] at this
    | other _ h _ => exact ih.tail h

/-- C185, how it fails: a thread calls `add` while nobody else is inside it, and the first slot has been written
by a call that the thread does not know of; then it may read the slot's value in a race with the write, unless
every value of the count which it can load tells it of the write. -/
theorem C185_race (s : State T) (t k w : Nat) (u : T) (m : Msg) (hr : (s.pc t).ready = true)
    (hn : s.holder = none) (hz : 0 < s.size) (hm : Readable s t 0 k m) (hw : w ∈ (s.slots 0).writes)
    (hv : ¬ (s.view t).seen w) (hmw : ¬ m.view.seen w) :
    ∃ s' : State T, InternTurns.Steps false s s' ∧ s'.pc t = .check u 0 m.count ∧ s'.handles = s.handles ∧
      Racy s' := by
  have b1 := (InternTurns.Steps.refl (guard := false) s).tail (.add s t u hr hn nofun)
  have b2 := b1.tail (.other _ _ (.run _ _ t (.scan u 0 (Function.update_self ..))) fun _ => .inl rfl)
  have e : (if 0 < (({ s with holder := some t } : State T).goto t (.scan u 0)).size
      then PC.load u 0 else PC.pushChunk u) = PC.load u 0 := if_pos hz
  rw [e] at b2
  have b3 := b2.tail (.other _ _ (.run _ _ t (.load u 0 k m (Function.update_self ..) hm)) fun _ => .inl rfl)
  refine ⟨_, b3, Function.update_self .., rfl, t, ?_⟩
  rw [show ∀ (a : State T) (p : PC T), (a.goto t p).pc t = p from fun _ _ => Function.update_self ..]
  refine ⟨w, hw, ?_⟩
  rw [show ∀ (a : State T) (p : PC T) (x : View), ((a.setView t x).goto t p).view t = x from
    fun _ _ _ => Function.update_self ..]
  exact fun h => h.elim hv hmw

/-- The state that is reached. -/
private abbrev final {s s' : State T} (_ : InternTurns.Steps false s s') : State T := s'

/-- C185 fails, whatever the two values are: thread 0 adds a value; after `add` has returned, thread 1 adds a
value. Thread 1 reads what thread 0 has written without synchronisation: the count, from which it could learn of
the write, was set before it. -/
theorem C185_violated (v u : T) : ∃ s s' : State T, InternTurns.Steps false init s ∧ s.holder = none ∧
    s.pc 0 = .idle ∧ s.handles = [⟨1, 0, 0, v⟩] ∧ InternTurns.Steps false s s' ∧ s'.pc 1 = .check u 0 1 ∧
    s'.handles = s.handles ∧ Racy s' := by
  have a1 := InternTurns.Steps.tail (.refl (guard := false) (init : State T)) (.add _ 0 v rfl rfl nofun)
  have a2 := a1.tail (.other _ _ (.run _ _ 0 (.scan v 0 rfl)) fun _ => .inl rfl)
  have a3 := a2.tail (.other _ _ (.run _ _ 0 (.pushChunk v rfl)) fun _ => .inl rfl)
  have a4 := a3.tail (.other _ _ (.run _ _ 0 (.claim v 0 rfl)) fun _ => .inl rfl)
  have a5 := a4.tail (.other _ _ (.run _ _ 0 (.write v 0 rfl)) fun _ => .inr rfl)
  obtain ⟨s', h1, h2, h3, h4⟩ := C185_race (final a5) 1 1 0 u _ rfl rfl (by decide : 0 < 32)
    (show Readable _ 1 0 1 _ from ⟨rfl, Nat.zero_le _⟩) List.mem_cons_self (fun h => h)
    (fun h => h.elim id id)
  exact ⟨_, s', a5, rfl, rfl, rfl, h1, h2, h3, h4⟩

/-- C185, if each thread that calls `add` has synchronised with the thread that called it last (by whatever means:
a lock, a channel, the start or the end of a thread, a handle passed on): no data race, no `get` fails, and all
references show the values of their handles. Missing: threads that only happen not to call `add` at the same time. -/
theorem C185_synchronised_partial (s : State T) (hs : InternTurns.Steps true init s) :
    ¬ Racy s ∧ (∀ t, s.pc t ≠ .panicked ∧ s.pc t ≠ .undefined) ∧
    ∀ t h x, s.pc t = .got h x → x = h.val :=
  ⟨(C155_no_race s hs.locked).1, (C155_no_race s hs.locked).2, C155_reads s hs.locked⟩

/-- Thread 0 adds 7 and gives the handle to thread 1, which so knows of the addition, and adds 7 and 9. -/
example : ∃ s : State Nat, InternTurns.Steps true init s ∧ s.holder = none ∧
    s.handles.map (fun h => (h.owner, h.id, h.val)) = [(1, 0, 7), (1, 0, 7)] := by
  have a1 := InternTurns.Steps.tail (.refl (guard := true) (init : State Nat))
    (.add _ 0 7 rfl rfl fun _ => ⟨fun _ => Nat.le_refl _, fun _ h => h⟩)
  have a2 := a1.tail (.other _ _ (.run _ _ 0 (.scan 7 0 rfl)) nofun)
  have a3 := a2.tail (.other _ _ (.run _ _ 0 (.pushChunk 7 rfl)) nofun)
  have a4 := a3.tail (.other _ _ (.run _ _ 0 (.claim 7 0 rfl)) nofun)
  have a5 := a4.tail (.other _ _ (.run _ _ 0 (.write 7 0 rfl)) nofun)
  have a6 := a5.tail (.other _ _ (.give _ 0 1 ⟨1, 0, 0, 7⟩ rfl ⟨List.mem_cons_self, rfl⟩ nofun) nofun)
  have a7 := a6.tail (.add _ 1 7 rfl rfl fun _ => ⟨fun _ => Nat.le_max_right _ _, fun _ h => .inr h⟩)
  have a8 := a7.tail (.other _ _ (.run _ _ 1 (.scan 7 0 rfl)) nofun)
  have a9 := a8.tail (.other _ _ (.run _ _ 1 (.load 7 0 1 _ rfl ⟨rfl, Nat.le_refl _⟩)) nofun)
  have a10 := a9.tail (.other _ _ (.run _ _ 1 (.check 7 0 1 rfl)) nofun)
  exact ⟨_, a10.tail (.other _ _ (.run _ _ 1 (.incrExists 7 0 rfl)) nofun), rfl, rfl⟩

end Verif
