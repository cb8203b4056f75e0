import Verif.Props.InternSteps

/-!
# C155: accesses can be told apart

What C155 says of races depends on the numbers that the model gives to accesses: they are all different, and
no thread knows of one that has not been made.
-/

namespace Verif

namespace InternWeak

variable {T : Type}

/-- The accesses to a slot. -/
def accs (s : State T) (i : Nat) : List Nat := (s.slots i).reads ++ (s.slots i).writes

/-- Only accesses that have been made are known. -/
def Made (s : State T) (v : View) : Prop := ∀ a, v.seen a → a < s.clock

structure Clock (s : State T) : Prop where
  view : ∀ t, Made s (s.view t)
  lock : Made s s.lock
  msg : ∀ i, ∀ m ∈ (s.slots i).old ++ [(s.slots i).cur], Made s m.view
  acc : ∀ i, ∀ a ∈ accs s i, a < s.clock
  nodup : ∀ i, (accs s i).Nodup
  apart : ∀ i j a, i ≠ j → a ∈ accs s i → a ∉ accs s j

theorem Made.join {s : State T} {v w : View} (h : Made s v) (h' : Made s w) : Made s (v.join w) :=
  fun a ha => ha.elim (h a) (h' a)

theorem Made.mono {s s' : State T} {v : View} (h : Made s v) (hs : s.clock ≤ s'.clock) : Made s' v :=
  fun a ha => Nat.lt_of_lt_of_le (h a ha) hs

/-- Steps without accesses to values. -/
theorem Clock.keep {s s' : State T} (h : Clock s) (hc : s.clock ≤ s'.clock)
    (ha : ∀ i, accs s' i = accs s i) (hv : ∀ t, Made s' (s'.view t)) (hl : Made s' s'.lock)
    (hm : ∀ i, ∀ m ∈ (s'.slots i).old ++ [(s'.slots i).cur],
      m ∈ (s.slots i).old ++ [(s.slots i).cur] ∨ Made s' m.view) : Clock s' := by
  refine ⟨hv, hl, fun i m hi => ?_, fun i a hi => ?_, fun i => ?_, fun i j a hij hi => ?_⟩
  · rcases hm i m hi with h1 | h1
    · exact (h.msg i m h1).mono hc
    · exact h1
  · rw [ha i] at hi
    exact Nat.lt_of_lt_of_le (h.acc i a hi) hc
  · rw [ha i]; exact h.nodup i
  · rw [ha i] at hi; rw [ha j]
    exact h.apart i j a hij hi

theorem Clock.update {s s' : State T} (h : Clock s) (hc : s.clock ≤ s'.clock) {t : Nat} {w : View}
    (hw : Made s' w) (t' : Nat) : Made s' (Function.update s.view t w t') := by
  by_cases e : t' = t
  · subst e; rw [Function.update_self]; exact hw
  · rw [Function.update_of_ne e]; exact (h.view t').mono hc

theorem Clock.afterRead {s : State T} (h : Clock s) (t i : Nat) (o : LinkedWeak.Ord) (k : Nat) (m : Msg)
    (hm : m ∈ (s.slots i).old ++ [(s.slots i).cur]) : Made s (s.afterRead t i o k m) := by
  have hm := h.msg i m hm
  unfold State.afterRead
  split
  · exact (h.view t).join hm
  · exact h.view t

theorem Clock.goto {s : State T} (h : Clock s) (t : Nat) (p : PC T) : Clock (s.goto t p) :=
  h.keep (Nat.le_refl _) (fun _ => rfl) h.view h.lock (fun _ _ hm => .inl hm)

theorem Clock.setView {s : State T} (h : Clock s) (t : Nat) {w : View} (hw : Made s w) :
    Clock (s.setView t w) :=
  h.keep (Nat.le_refl _) (fun _ => rfl) (h.update (s' := s.setView t w) (Nat.le_refl _) hw) h.lock
    (fun _ _ hm => .inl hm)

theorem Clock.finish {s : State T} (h : Clock s) (t i : Nat) (v : T) : Clock (s.finish t i v) :=
  h.keep (Nat.le_succ _) (fun _ => rfl) (fun t' => (h.view t').mono (Nat.le_succ _))
    ((h.view t).mono (Nat.le_succ _)) (fun _ _ hm => .inl hm)

theorem Clock.rmw {s : State T} (h : Clock s) (t i : Nat) (o : LinkedWeak.Ord) (f : Nat → Nat) :
    Clock (s.rmw t i o f) := by
  have hv : Made s
      ((s.afterRead t i o (s.slots i).old.length (s.slots i).cur).reach i ((s.slots i).old.length + 1)) :=
    h.afterRead t i o (s.slots i).old.length (s.slots i).cur (by simp)
  refine h.keep (Nat.le_refl _) (fun j => ?_) (h.update (s' := s.rmw t i o f) (Nat.le_refl _) hv) h.lock
    (fun j m hj => ?_)
  · unfold accs
    dsimp only [State.rmw]
    by_cases e : j = i
    · subst e; rw [Function.update_self]
    · rw [Function.update_of_ne e]
  · by_cases e : j = i
    · subst e
      dsimp only [State.rmw] at hj
      rw [Function.update_self] at hj
      simp only [List.mem_append, List.mem_singleton] at hj
      rcases hj with (hj | hj) | hj
      · exact .inl (by simp [hj])
      · exact .inl (by simp [hj])
      · right
        subst hj
        dsimp only
        split
        · exact hv
        · exact h.msg j _ (by simp)
    · dsimp only [State.rmw] at hj
      rw [Function.update_of_ne e] at hj
      exact .inl hj

/-- An access to slot `i`, with the next number. -/
theorem Clock.access {s s' : State T} (h : Clock s) (t i : Nat) (hc : s'.clock = s.clock + 1)
    (hi : (accs s' i).Perm (s.clock :: accs s i)) (hj : ∀ j, j ≠ i → accs s' j = accs s j)
    (hv : s'.view = Function.update s.view t ((s.view t).see s.clock)) (hl : s'.lock = s.lock)
    (hm : ∀ i, (s'.slots i).old = (s.slots i).old ∧ (s'.slots i).cur = (s.slots i).cur) : Clock s' := by
  have le : s.clock ≤ s'.clock := by omega
  have ne : ∀ j, s.clock ∉ accs s j := fun j hj => Nat.lt_irrefl _ (h.acc j _ hj)
  refine ⟨fun t' => ?_, ?_, fun j m hm' => ?_, fun j a ha => ?_, fun j => ?_, fun j k a hjk ha => ?_⟩
  · rw [hv]
    refine h.update (s' := s') le (fun a ha => ?_) t'
    rcases ha with rfl | ha
    · omega
    · exact Nat.lt_of_lt_of_le (h.view t a ha) le
  · rw [hl]; exact h.lock.mono le
  · rw [(hm j).1, (hm j).2] at hm'
    exact (h.msg j m hm').mono le
  · by_cases e : j = i
    · subst e
      rcases List.mem_cons.mp (hi.mem_iff.mp ha) with rfl | ha
      · omega
      · exact Nat.lt_of_lt_of_le (h.acc j a ha) le
    · rw [hj j e] at ha
      exact Nat.lt_of_lt_of_le (h.acc j a ha) le
  · by_cases e : j = i
    · subst e
      exact hi.nodup_iff.mpr (List.nodup_cons.mpr ⟨ne j, h.nodup j⟩)
    · rw [hj j e]; exact h.nodup j
  · by_cases e : j = i
    · subst e
      rw [hj k (Ne.symm hjk)]
      rcases List.mem_cons.mp (hi.mem_iff.mp ha) with rfl | ha
      · exact ne k
      · exact h.apart j k a hjk ha
    · rw [hj j e] at ha
      by_cases e' : k = i
      · subst e'
        intro hk
        rcases List.mem_cons.mp (hi.mem_iff.mp hk) with rfl | hk
        · exact ne j ha
        · exact h.apart j k a hjk ha hk
      · rw [hj k e']
        exact h.apart j k a hjk ha

theorem Clock.readVal {s : State T} (h : Clock s) (t i : Nat) : Clock (s.readVal t i) := by
  refine h.access t i rfl ?_ (fun j hj => ?_) rfl rfl (fun j => ?_)
  · unfold accs
    dsimp only [State.readVal]
    rw [Function.update_self]
    exact List.Perm.refl _
  · unfold accs
    dsimp only [State.readVal]
    rw [Function.update_of_ne hj]
  · dsimp only [State.readVal]
    by_cases e : j = i
    · subst e; rw [Function.update_self]; exact ⟨rfl, rfl⟩
    · rw [Function.update_of_ne e]; exact ⟨rfl, rfl⟩

theorem Clock.writeVal {s : State T} (h : Clock s) (t i : Nat) (x : T) : Clock (s.writeVal t i x) := by
  refine h.access t i rfl ?_ (fun j hj => ?_) rfl rfl (fun j => ?_)
  · unfold accs
    dsimp only [State.writeVal]
    rw [Function.update_self]
    exact List.perm_middle
  · unfold accs
    dsimp only [State.writeVal]
    rw [Function.update_of_ne hj]
  · dsimp only [State.writeVal]
    by_cases e : j = i
    · subst e; rw [Function.update_self]; exact ⟨rfl, rfl⟩
    · rw [Function.update_of_ne e]; exact ⟨rfl, rfl⟩

variable [DecidableEq T]

theorem clock_steps {s : State T} (hs : Steps init s) : Clock s := by
  induction hs with
  | refl =>
    refine ⟨fun t a h => absurd h id, fun a h => absurd h id, fun i m hm a h => ?_, fun i a h => ?_,
      fun i => List.nodup_nil, fun i j a _ h => ?_⟩
    · simp only [init, Slot.new, List.nil_append, List.mem_singleton] at hm
      subst hm
      exact absurd h id
    · simp [accs, init, Slot.new] at h
    · simp [accs, init, Slot.new] at h
  | @tail b _ _ hstep ih =>
    cases hstep with
    | add t v hr hl =>
      exact ih.keep (Nat.le_refl _) (fun _ => rfl)
        (ih.update (s' := State.goto _ t (.scan v 0)) (Nat.le_refl _) ((ih.view t).join ih.lock)) ih.lock
        (fun _ _ hm => .inl hm)
    | run _ t hrun =>
      cases hrun with
      | scan v i hp => exact ih.goto t _
      | load v i k m hp hm =>
        exact (ih.setView t (ih.afterRead t i _ k m (List.mem_of_getElem? hm.1))).goto t _
      | check v i c hp => exact (ih.readVal t i).goto t _
      | incrExists v i hp => exact (ih.rmw t i _ _).finish t i v
      | pushChunk v hp =>
        exact ih.keep (Nat.le_refl _) (fun _ => rfl) ih.view ih.lock (fun _ _ hm => .inl hm)
      | claim v i hp => exact (ih.rmw t i _ _).goto t _
      | write v i hp => exact (ih.writeVal t i v).finish t i v
      | getLoad h k m hp hm =>
        exact (ih.setView t (ih.afterRead t h.id _ k m (List.mem_of_getElem? hm.1))).goto t _
      | getVal h hp => exact (ih.readVal t h.id).goto t _
    | get t h hr hu => exact ih.goto t _
    | look t h x hp hu => exact (ih.readVal t h.id).goto t _
    | clone t h hr hu =>
      have := ih.rmw t h.id .acqRel (· + 1)
      exact this.keep (Nat.le_succ _) (fun _ => rfl) (fun t' => (this.view t').mono (Nat.le_succ _))
        (this.lock.mono (Nat.le_succ _)) (fun _ _ hm => .inl hm)
    | drop t h hr hu hn =>
      have := ih.rmw t h.id .acqRel (· - 1)
      exact this.keep (Nat.le_refl _) (fun _ => rfl) this.view this.lock (fun _ _ hm => .inl hm)
    | give t t' h hr hu hn =>
      exact ih.keep (Nat.le_refl _) (fun _ => rfl)
        (ih.update (s' := State.learn b t' (b.view t)) (Nat.le_refl _) ((ih.view t').join (ih.view t))) ih.lock
        (fun _ _ hm => .inl hm)
    | lend t t' h hu =>
      exact ih.keep (Nat.le_refl _) (fun _ => rfl)
        (ih.update (s' := State.learn b t' (b.view t)) (Nat.le_refl _) ((ih.view t').join (ih.view t))) ih.lock
        (fun _ _ hm => .inl hm)
    | giveBack t' h hr hu =>
      exact ih.keep (Nat.le_refl _) (fun _ => rfl)
        (ih.update (s' := State.learn b h.owner (b.view t')) (Nat.le_refl _) ((ih.view h.owner).join (ih.view t')))
        ih.lock (fun _ _ hm => .inl hm)
    | peek t h o k m hr hu hm => exact ih.setView t (ih.afterRead t h.id o k m (List.mem_of_getElem? hm.1))
    | sync t t' => exact ih.setView t' ((ih.view t').join (ih.view t))

end InternWeak

open InternWeak

variable {T : Type} [DecidableEq T]

/-- C155, what `Racy` rests on: no two accesses to values have the same number, and no thread knows of an access
that has not been made. -/
theorem C155_accesses (s : State T) (hs : Steps init s) :
    (∀ i, ((s.slots i).reads ++ (s.slots i).writes).Nodup) ∧
    (∀ i j a, i ≠ j → a ∈ (s.slots i).reads ++ (s.slots i).writes →
      a ∉ (s.slots j).reads ++ (s.slots j).writes) ∧
    (∀ i, ∀ a ∈ (s.slots i).reads ++ (s.slots i).writes, a < s.clock) ∧
    ∀ t a, (s.view t).seen a → a < s.clock :=
  have h := clock_steps hs
  ⟨h.nodup, h.apart, h.acc, h.view⟩

/-- Thread 0 adds 7 and reads it: the accesses have the numbers 0 and 2 (1 is the handle's), of which thread 1
knows nothing. -/
example : ∃ s : State Nat, Steps init s ∧ (s.slots 0).writes = [0] ∧ (s.slots 0).reads = [2] ∧ s.clock = 3 ∧
    (s.view 0).seen 2 ∧ ¬ (s.view 1).seen 2 := by
  have a1 := Steps.tail (Steps.refl (init : State Nat)) (.add _ 0 7 rfl rfl)
  have a2 := a1.tail (.run _ _ 0 (.scan 7 0 rfl))
  have a3 := a2.tail (.run _ _ 0 (.pushChunk 7 rfl))
  have a4 := a3.tail (.run _ _ 0 (.claim 7 0 rfl))
  have a5 := a4.tail (.run _ _ 0 (.write 7 0 rfl))
  have a6 := a5.tail (.get _ 0 ⟨1, 0, 0, 7⟩ rfl (.inl ⟨List.mem_cons_self, rfl⟩))
  have a7 := a6.tail (.run _ _ 0 (.getLoad ⟨1, 0, 0, 7⟩ 1 _ rfl ⟨rfl, Nat.le_refl _⟩))
  exact ⟨_, a7.tail (.run _ _ 0 (.getVal ⟨1, 0, 0, 7⟩ rfl)), rfl, rfl, rfl, .inl rfl, fun h => h⟩

end Verif
