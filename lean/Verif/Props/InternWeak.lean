import Verif.Lemmas.InternWeak

/-!
# C155: sharing interned values between threads, when additions take turns
-/

namespace Verif

open InternWeak

variable {T : Type} [DecidableEq T]

/-- No thread ever accesses a value while another may be writing it, and no `get` of a handle that
its thread owns or has borrowed fails. -/
theorem C155_no_race (s : State T) (hs : Steps init s) :
    ¬ Racy s ∧ ∀ t, s.pc t ≠ .panicked ∧ s.pc t ≠ .undefined := by
  have h := inv_steps hs
  refine ⟨not_racy h, fun t => ⟨fun e => ?_, fun e => ?_⟩⟩
  · have := h.fine t
    rw [e] at this; exact this
  · have := h.fine t
    rw [e] at this; exact this

/-- Each `get` returns the value that was added for the handle, and the reference keeps showing it. -/
theorem C155_reads (s : State T) (hs : Steps init s) (t : Nat) (h : Handle T) (x : T)
    (hp : s.pc t = .got h x) : x = h.val := by
  have := (inv_steps hs).fine t
  rw [hp] at this
  exact this

/-- While nobody is adding, the count of each slot is the number of handles there are to it. -/
theorem C155_counts (s : State T) (hs : Steps init s) (hn : s.holder = none) (i : Nat) :
    (s.slots i).cur.count = (s.handles.filter fun h => h.id = i).length := by
  have := (inv_steps hs).cnt i
  unfold pend at this
  rw [hn] at this
  rw [this, ← List.countP_eq_length_filter]
  rfl

/-- No count that a thread can read through a handle that it owns or has borrowed is zero: a drop always takes
one off the count, whichever counts its attempts see. -/
theorem C155_drops (s : State T) (hs : Steps init s) (t : Nat) (h : Handle T) (hu : Usable s t h) (k : Nat)
    (m : Msg) (hm : Readable s t h.id k m) : m.count ≠ 0 := by
  have hi := inv_steps hs
  obtain ⟨h1, h2⟩ := hm
  rcases Nat.lt_or_ge k (s.slots h.id).old.length with hk | hk
  · rw [List.getElem?_append_left hk] at h1
    exact hi.live t h hu k m h2 h1
  · rw [List.getElem?_append_right hk] at h1
    have := hi.pos (Usable.mem hi hu)
    rcases e : k - (s.slots h.id).old.length with _ | n
    · rw [e] at h1
      cases h1
      exact this
    · rw [e] at h1
      cases h1

/-- Handles with the same id are handles for the same value. -/
theorem C155_ids (s : State T) (hs : Steps init s) (h h' : Handle T) (hh : h ∈ s.handles)
    (hh' : h' ∈ s.handles) (e : h.id = h'.id) : h.val = h'.val := by
  have a := ((inv_steps hs).vals h hh).1
  have b := ((inv_steps hs).vals h' hh').1
  rw [e, b] at a
  exact (Option.some.inj a).symm

/-- Thread 0 adds 7 and gives it to thread 1, which reads it and drops it; thread 2 adds 9, which
takes the slot over, and reads it. -/
example : ∃ s : State Nat, Steps init s ∧ s.pc 2 = .got ⟨5, 2, 0, 9⟩ 9 ∧ s.holder = none ∧
    (s.slots 0).cur.count = 1 ∧ (s.slots 0).writes = [4, 0] ∧ (s.slots 0).reads = [6, 3, 2] := by
  have a1 := Steps.tail (Steps.refl (init : State Nat)) (.add _ 0 7 rfl rfl)
  have a2 := a1.tail (.run _ _ 0 (.scan 7 0 rfl))
  have a3 := a2.tail (.run _ _ 0 (.pushChunk 7 rfl))
  have a4 := a3.tail (.run _ _ 0 (.claim 7 0 rfl))
  have a5 := a4.tail (.run _ _ 0 (.write 7 0 rfl))
  have a6 := a5.tail (.give _ 0 1 ⟨1, 0, 0, 7⟩ rfl ⟨List.mem_cons_self, rfl⟩ nofun)
  have a7 := a6.tail (.get _ 1 ⟨1, 1, 0, 7⟩ rfl (.inl ⟨List.mem_cons_self, rfl⟩))
  have a8 := a7.tail (.run _ _ 1 (.getLoad ⟨1, 1, 0, 7⟩ 1 _ rfl ⟨rfl, Nat.le_refl _⟩))
  have a9 := a8.tail (.run _ _ 1 (.getVal ⟨1, 1, 0, 7⟩ rfl))
  have a10 := a9.tail (.drop _ 1 ⟨1, 1, 0, 7⟩ rfl ⟨List.mem_cons_self, rfl⟩ nofun)
  have a11 := a10.tail (.add _ 2 9 rfl rfl)
  have a12 := a11.tail (.run _ _ 2 (.scan 9 0 rfl))
  have a13 := a12.tail (.run _ _ 2 (.load 9 0 2 _ rfl ⟨rfl, Nat.le_succ 1⟩))
  have a14 := a13.tail (.run _ _ 2 (.check 9 0 0 rfl))
  have a15 := a14.tail (.run _ _ 2 (.claim 9 0 rfl))
  have a16 := a15.tail (.run _ _ 2 (.write 9 0 rfl))
  have a17 := a16.tail (.get _ 2 ⟨5, 2, 0, 9⟩ rfl (.inl ⟨List.mem_cons_self, rfl⟩))
  have a18 := a17.tail (.run _ _ 2 (.getLoad ⟨5, 2, 0, 9⟩ 3 _ rfl ⟨rfl, Nat.le_refl _⟩))
  exact ⟨_, a18.tail (.run _ _ 2 (.getVal ⟨5, 2, 0, 9⟩ rfl)), rfl, rfl, rfl, rfl, rfl⟩

/-- Thread 0 lends its handle to thread 1, which clones and reads it; thread 0 adds the value again:
one slot counts three handles. -/
example : ∃ s : State Nat, Steps init s ∧ s.pc 1 = .got ⟨1, 0, 0, 7⟩ 7 ∧ s.holder = none ∧
    s.handles = [⟨5, 0, 0, 7⟩, ⟨2, 1, 0, 7⟩, ⟨1, 0, 0, 7⟩] ∧ s.loans = [(⟨1, 0, 0, 7⟩, 1)] ∧
    (s.slots 0).cur.count = 3 := by
  have a1 := Steps.tail (Steps.refl (init : State Nat)) (.add _ 0 7 rfl rfl)
  have a2 := a1.tail (.run _ _ 0 (.scan 7 0 rfl))
  have a3 := a2.tail (.run _ _ 0 (.pushChunk 7 rfl))
  have a4 := a3.tail (.run _ _ 0 (.claim 7 0 rfl))
  have a5 := a4.tail (.run _ _ 0 (.write 7 0 rfl))
  have a6 := a5.tail (.lend _ 0 1 ⟨1, 0, 0, 7⟩ ⟨List.mem_cons_self, rfl⟩)
  have a7 := a6.tail (.clone _ 1 ⟨1, 0, 0, 7⟩ rfl (.inr List.mem_cons_self))
  have a8 := a7.tail (.get _ 1 ⟨1, 0, 0, 7⟩ rfl (.inr List.mem_cons_self))
  have a9 := a8.tail (.run _ _ 1 (.getLoad ⟨1, 0, 0, 7⟩ 2 _ rfl ⟨rfl, Nat.le_refl _⟩))
  have a10 := a9.tail (.run _ _ 1 (.getVal ⟨1, 0, 0, 7⟩ rfl))
  have a11 := a10.tail (.add _ 0 7 rfl rfl)
  have a12 := a11.tail (.run _ _ 0 (.scan 7 0 rfl))
  have a13 := a12.tail (.run _ _ 0 (.load 7 0 1 _ rfl ⟨rfl, Nat.le_refl _⟩))
  have a14 := a13.tail (.run _ _ 0 (.check 7 0 1 rfl))
  exact ⟨_, a14.tail (.run _ _ 0 (.incrExists 7 0 rfl)), rfl, rfl, rfl, rfl, rfl⟩

/-- Thread 0 clones its handle and lends the first one to thread 1, which clones it too. Thread 0 drops its
clone: the load of `fetch_update` may still see the count 2 that it wrote last, an exchange then fails and sees
the count 3. -/
example : ∃ s : State Nat, Steps init s ∧ s.handles = [⟨3, 1, 0, 7⟩, ⟨1, 0, 0, 7⟩] ∧
    (s.slots 0).cur.count = 2 ∧ (s.slots 0).old.map (·.count) = [0, 1, 2, 3] := by
  have a1 := Steps.tail (Steps.refl (init : State Nat)) (.add _ 0 7 rfl rfl)
  have a2 := a1.tail (.run _ _ 0 (.scan 7 0 rfl))
  have a3 := a2.tail (.run _ _ 0 (.pushChunk 7 rfl))
  have a4 := a3.tail (.run _ _ 0 (.claim 7 0 rfl))
  have a5 := a4.tail (.run _ _ 0 (.write 7 0 rfl))
  have a6 := a5.tail (.clone _ 0 ⟨1, 0, 0, 7⟩ rfl (.inl ⟨List.mem_cons_self, rfl⟩))
  have a7 := a6.tail (.lend _ 0 1 ⟨1, 0, 0, 7⟩ ⟨List.mem_cons_of_mem _ List.mem_cons_self, rfl⟩)
  have a8 := a7.tail (.clone _ 1 ⟨1, 0, 0, 7⟩ rfl (.inr List.mem_cons_self))
  have a9 := a8.tail (.peek _ 0 ⟨2, 0, 0, 7⟩ .acquire 2 _ rfl
    (.inl ⟨List.mem_cons_of_mem _ List.mem_cons_self, rfl⟩) ⟨rfl, Nat.le_refl _⟩)
  have a10 := a9.tail (.peek _ 0 ⟨2, 0, 0, 7⟩ .acquire 3 _ rfl
    (.inl ⟨List.mem_cons_of_mem _ List.mem_cons_self, rfl⟩) ⟨rfl, Nat.le_succ _⟩)
  exact ⟨_, a10.tail (.drop _ 0 ⟨2, 0, 0, 7⟩ rfl ⟨List.mem_cons_of_mem _ List.mem_cons_self, rfl⟩
    (fun b hb => absurd (List.mem_singleton.mp (show (_, b) ∈ [_] from hb)) (by simp))), rfl, rfl, rfl⟩

end Verif
