import Verif.Props.InternWeak

/-!
# C184: calls on a shared interner return

How many steps a call can take, whatever the other threads do in the meantime and whatever stale counts
its loads return, when calls of `add` take turns (C155).
-/

namespace Verif

namespace InternWeak

variable {T : Type}

/-! ## Nobody knows of counts that are still to come -/

/-- The view knows no more entries of the counts than there are. -/
def Past (s : State T) (v : View) : Prop := ∀ i, v.ts i ≤ (s.slots i).old.length

structure Pasts (s : State T) : Prop where
  view : ∀ t, Past s (s.view t)
  lock : Past s s.lock
  msg : ∀ i, ∀ m ∈ (s.slots i).old ++ [(s.slots i).cur], Past s m.view

theorem Past.join {s : State T} {v w : View} (h : Past s v) (h' : Past s w) : Past s (v.join w) :=
  fun i => Nat.max_le.mpr ⟨h i, h' i⟩

theorem Past.reach {s : State T} {v : View} (h : Past s v) {i k : Nat} (hk : k ≤ (s.slots i).old.length) :
    Past s (v.reach i k) := by
  intro j
  dsimp only [View.reach]
  by_cases e : j = i
  · subst e; rw [Function.update_self]; exact Nat.max_le.mpr ⟨h j, hk⟩
  · rw [Function.update_of_ne e]; exact h j

theorem Past.mono {s s' : State T} {v : View} (h : Past s v)
    (hs : ∀ i, (s.slots i).old.length ≤ (s'.slots i).old.length) : Past s' v :=
  fun i => Nat.le_trans (h i) (hs i)

/-- Steps that leave all counts alone. -/
theorem Pasts.keep {s s' : State T} (h : Pasts s)
    (hs : ∀ i, (s'.slots i).old = (s.slots i).old ∧ (s'.slots i).cur = (s.slots i).cur)
    (hv : ∀ t, Past s (s'.view t)) (hl : Past s s'.lock) : Pasts s' := by
  have hm : ∀ i, (s.slots i).old.length ≤ (s'.slots i).old.length := fun i => Nat.le_of_eq (by rw [(hs i).1])
  refine ⟨fun t => (hv t).mono hm, hl.mono hm, fun i m hi => ?_⟩
  rw [(hs i).1, (hs i).2] at hi
  exact (h.msg i m hi).mono hm

theorem Pasts.update {s : State T} (h : Pasts s) {t : Nat} {w : View} (hw : Past s w) (t' : Nat) :
    Past s (Function.update s.view t w t') := by
  by_cases e : t' = t
  · subst e; rw [Function.update_self]; exact hw
  · rw [Function.update_of_ne e]; exact h.view t'

theorem Pasts.afterRead {s : State T} (h : Pasts s) (t i : Nat) (o : LinkedWeak.Ord) (k : Nat) (m : Msg)
    (hk : ((s.slots i).old ++ [(s.slots i).cur])[k]? = some m) : Past s (s.afterRead t i o k m) := by
  have hlt := (List.getElem?_eq_some_iff.mp hk).1
  have hm := h.msg i m (List.mem_of_getElem? hk)
  rw [List.length_append, List.length_singleton] at hlt
  unfold State.afterRead
  split
  · exact ((h.view t).join hm).reach (by omega)
  · exact (h.view t).reach (by omega)

theorem Pasts.readVal {s : State T} (h : Pasts s) (t i : Nat) : Pasts (s.readVal t i) := by
  refine h.keep (fun j => ?_) (h.update (w := (s.view t).see s.clock) (h.view t)) h.lock
  dsimp only [State.readVal]
  by_cases e : j = i
  · subst e; rw [Function.update_self]; exact ⟨rfl, rfl⟩
  · rw [Function.update_of_ne e]; exact ⟨rfl, rfl⟩

theorem Pasts.writeVal {s : State T} (h : Pasts s) (t i : Nat) (x : T) : Pasts (s.writeVal t i x) := by
  refine h.keep (fun j => ?_) (h.update (w := (s.view t).see s.clock) (h.view t)) h.lock
  dsimp only [State.writeVal]
  by_cases e : j = i
  · subst e; rw [Function.update_self]; exact ⟨rfl, rfl⟩
  · rw [Function.update_of_ne e]; exact ⟨rfl, rfl⟩

theorem Pasts.goto {s : State T} (h : Pasts s) (t : Nat) (p : PC T) : Pasts (s.goto t p) :=
  h.keep (fun _ => ⟨rfl, rfl⟩) h.view h.lock

theorem Pasts.setView {s : State T} (h : Pasts s) (t : Nat) {w : View} (hw : Past s w) :
    Pasts (s.setView t w) := h.keep (fun _ => ⟨rfl, rfl⟩) (h.update hw) h.lock

theorem Pasts.finish {s : State T} (h : Pasts s) (t i : Nat) (v : T) : Pasts (s.finish t i v) :=
  h.keep (fun _ => ⟨rfl, rfl⟩) h.view (h.view t)

theorem Pasts.rmw {s : State T} (h : Pasts s) (t i : Nat) (o : LinkedWeak.Ord) (f : Nat → Nat) :
    Pasts (s.rmw t i o f) := by
  have hm : ∀ j, (s.slots j).old.length ≤ ((s.rmw t i o f).slots j).old.length := by
    intro j
    dsimp only [State.rmw]
    by_cases e : j = i
    · subst e; rw [Function.update_self]; simp
    · rw [Function.update_of_ne e]; exact Nat.le_refl _
  have hlen : ((s.rmw t i o f).slots i).old.length = (s.slots i).old.length + 1 := by
    dsimp only [State.rmw]; rw [Function.update_self]; simp
  have hv : Past (s.rmw t i o f)
      ((s.afterRead t i o (s.slots i).old.length (s.slots i).cur).reach i ((s.slots i).old.length + 1)) :=
    ((h.afterRead t i o _ _ (by simp)).mono hm).reach (Nat.le_of_eq hlen.symm)
  refine ⟨fun t' => ?_, h.lock.mono hm, fun j m hj => ?_⟩
  · show Past _ (Function.update s.view t _ t')
    by_cases e : t' = t
    · subst e; rw [Function.update_self]; exact hv
    · rw [Function.update_of_ne e]; exact (h.view t').mono hm
  · by_cases e : j = i
    · subst e
      dsimp only [State.rmw] at hj
      rw [Function.update_self] at hj
      simp only [List.mem_append, List.mem_singleton] at hj
      rcases hj with (hj | hj) | hj
      · exact (h.msg j m (by simp [hj])).mono hm
      · exact (h.msg j m (by simp [hj])).mono hm
      · subst hj
        dsimp only
        split
        · exact hv
        · exact (h.msg j _ (by simp)).mono hm
    · dsimp only [State.rmw] at hj
      rw [Function.update_of_ne e] at hj
      exact (h.msg j m hj).mono hm

variable [DecidableEq T]

theorem pasts_steps {s : State T} (hs : Steps init s) : Pasts s := by
  induction hs with
  | refl =>
    refine ⟨fun t i => Nat.le_refl _, fun i => Nat.le_refl _, fun i m hm j => ?_⟩
    simp only [init, Slot.new, List.nil_append, List.mem_singleton] at hm
    subst hm
    exact Nat.le_refl _
  | tail _ hstep ih =>
    cases hstep with
    | add t v hr hl =>
      exact ih.keep (fun _ => ⟨rfl, rfl⟩) (ih.update ((ih.view t).join ih.lock)) ih.lock
    | run _ t hrun =>
      cases hrun with
      | scan v i hp => exact ih.goto t _
      | load v i k m hp hm => exact (ih.setView t (ih.afterRead t i _ k m hm.1)).goto t _
      | check v i c hp => exact (ih.readVal t i).goto t _
      | incrExists v i hp => exact (ih.rmw t i _ _).finish t i v
      | pushChunk v hp => exact ih.keep (fun _ => ⟨rfl, rfl⟩) ih.view ih.lock
      | claim v i hp => exact (ih.rmw t i _ _).goto t _
      | write v i hp => exact (ih.writeVal t i v).finish t i v
      | getLoad h k m hp hm => exact (ih.setView t (ih.afterRead t h.id _ k m hm.1)).goto t _
      | getVal h hp => exact (ih.readVal t h.id).goto t _
    | get t h hr hu => exact ih.goto t _
    | look t h x hp hu => exact (ih.readVal t h.id).goto t _
    | clone t h hr hu =>
      have := ih.rmw t h.id .acqRel (· + 1)
      exact this.keep (fun _ => ⟨rfl, rfl⟩) this.view this.lock
    | drop t h hr hu hn =>
      have := ih.rmw t h.id .acqRel (· - 1)
      exact this.keep (fun _ => ⟨rfl, rfl⟩) this.view this.lock
    | give t t' h hr hu hn =>
      exact ih.keep (fun _ => ⟨rfl, rfl⟩) (ih.update ((ih.view t').join (ih.view t))) ih.lock
    | lend t t' h hu =>
      exact ih.keep (fun _ => ⟨rfl, rfl⟩) (ih.update ((ih.view t').join (ih.view t))) ih.lock
    | giveBack t' h hr hu =>
      exact ih.keep (fun _ => ⟨rfl, rfl⟩) (ih.update ((ih.view h.owner).join (ih.view t'))) ih.lock
    | peek t h o k m hr hu hm => exact ih.setView t (ih.afterRead t h.id o k m hm.1)
    | sync t t' => exact ih.setView t' ((ih.view t').join (ih.view t))

/-! ## Steps of one call -/

/-- From one state to the other thread `t` takes `n` steps, all of the call it is in, while other threads
do anything. -/
inductive During (t : Nat) : Nat → State T → State T → Prop
  | refl (s : State T) : During t 0 s s
  | own {n : Nat} {a b c : State T} (h : During t n a b) (hr : Run b t c) : During t (n + 1) a c
  | other {n : Nat} {a b c : State T} (h : During t n a b) (hs : Step b c) (hp : c.pc t = b.pc t) :
      During t n a c

/-- The same, while no other thread does anything. -/
inductive Alone (t : Nat) : Nat → State T → State T → Prop
  | refl (s : State T) : Alone t 0 s s
  | own {n : Nat} {a b c : State T} (h : Alone t n a b) (hr : Run b t c) : Alone t (n + 1) a c

theorem Steps.trans {a b c : State T} (h : Steps a b) (h' : Steps b c) : Steps a c := by
  induction h' with
  | refl => exact h
  | tail _ hs ih => exact ih.tail hs

theorem During.steps {t n : Nat} {a b : State T} (h : During t n a b) : Steps a b := by
  induction h with
  | refl => exact .refl _
  | own _ hr ih => exact ih.tail (.run _ _ t hr)
  | other _ hs _ ih => exact ih.tail hs

theorem Alone.during {t n : Nat} {a b : State T} (h : Alone t n a b) : During t n a b := by
  induction h with
  | refl => exact .refl _
  | own _ hr ih => exact ih.own hr

/-- The value a thread is adding. -/
def PC.adds : PC T → Option T
  | .scan v _ | .load v _ | .check v _ _ | .incrExists v _ | .pushChunk v | .claim v _ | .write v _ => some v
  | _ => none

/-- How many steps a thread still has before it at most. -/
def left (size : Nat) : PC T → Nat
  | .scan _ i => 3 * (size - i) + 4
  | .load _ i => 3 * (size - i) + 3
  | .check _ i _ => 3 * (size - i) + 2
  | .incrExists .. | .write .. | .getVal _ => 1
  | .pushChunk _ => 3
  | .claim .. | .getLoad _ => 2
  | _ => 0

omit [DecidableEq T] in
theorem left_ready {size : Nat} {p : PC T} (h : p.ready = true) : left size p = 0 := by
  cases p <;> simp_all [PC.ready, left]

theorem run_left {s s' : State T} {t : Nat} (h : Inv s) (hr : Run s t s') :
    left s'.size (s'.pc t) + 1 ≤ left s.size (s.pc t) := by
  cases hr with
  | scan v i hp =>
    simp only [State.goto, Function.update_self]
    rw [hp]
    split <;> simp only [left] <;> omega
  | load v i k m hp hm =>
    simp only [State.goto, State.setView, Function.update_self]
    rw [hp]
    simp only [left]; omega
  | check v i c hp =>
    have := h.bnd t i (by rw [hp]; rfl)
    simp only [State.goto, State.readVal, Function.update_self]
    rw [hp]
    split
    · simp only [left]; omega
    · split <;> simp only [left] <;> omega
  | incrExists v i hp =>
    simp only [State.finish, Function.update_self]
    rw [hp]; simp [left]
  | pushChunk v hp =>
    simp only [State.goto, Function.update_self]
    rw [hp]; simp [left]
  | claim v i hp =>
    simp only [State.goto, Function.update_self]
    rw [hp]; simp [left]
  | write v i hp =>
    simp only [State.finish, Function.update_self]
    rw [hp]; simp [left]
  | getLoad x k m hp hm =>
    simp only [State.goto, Function.update_self]
    rw [hp]
    split <;> simp [left]
  | getVal x hp =>
    simp only [State.goto, Function.update_self]
    rw [hp]
    split <;> simp [left]

/-- While a thread is inside `add`, no other changes the number of slots. -/
theorem size_kept {s s' : State T} {t : Nat} (h : Inv s) (hs : Step s s') (hp : s'.pc t = s.pc t)
    (ha : (s.pc t).adding = true) : s'.size = s.size := by
  cases hs with
  | run _ t' hr =>
    cases hr with
    | pushChunk v hp' =>
      have e := h.alone ha (t' := t') (by rw [hp']; rfl)
      subst e
      simp only [State.goto, Function.update_self, hp'] at hp
      cases hp
    | _ => rfl
  | _ => rfl

theorem During.left {t n : Nat} {a b : State T} (h : During t n a b) (hr : Steps init a) :
    InternWeak.left b.size (b.pc t) + n ≤ InternWeak.left a.size (a.pc t) := by
  induction h with
  | refl => exact Nat.le_refl _
  | own h hrun ih =>
    have := run_left (inv_steps (hr.trans h.steps)) hrun
    have := ih hr
    omega
  | @other n a b c h hs hp ih =>
    have i := ih hr
    rw [hp]
    by_cases ha : (b.pc t).adding = true
    · rwa [size_kept (inv_steps (hr.trans h.steps)) hs hp ha]
    · have : InternWeak.left c.size (b.pc t) = InternWeak.left b.size (b.pc t) := by
        revert ha
        generalize b.pc t = p
        cases p <;> simp [PC.adding, InternWeak.left]
      rwa [this]

end InternWeak

open InternWeak

variable {T : Type} [DecidableEq T]

/-- C184: a call is never stuck. Whatever has happened, a thread inside a call has a next step. -/
theorem C184_never_stuck (s : State T) (hs : Steps init s) (t : Nat) (hc : (s.pc t).ready = false) :
    ∃ s', Run s t s' := by
  have h := inv_steps hs
  have hp := pasts_steps hs
  have rd : ∀ i, Readable s t i (s.slots i).old.length (s.slots i).cur :=
    fun i => ⟨by simp, hp.view t i⟩
  have hf := h.fine t
  rcases e : s.pc t with _ | ⟨v, i⟩ | ⟨v, i⟩ | ⟨v, i, c⟩ | ⟨v, i⟩ | v | ⟨v, i⟩ | ⟨v, i⟩ | x | x | _ | _ | _
  · rw [e] at hc; cases hc
  · exact ⟨_, .scan v i e⟩
  · exact ⟨_, .load v i _ _ e (rd i)⟩
  · exact ⟨_, .check v i c e⟩
  · exact ⟨_, .incrExists v i e⟩
  · exact ⟨_, .pushChunk v e⟩
  · exact ⟨_, .claim v i e⟩
  · exact ⟨_, .write v i e⟩
  · exact ⟨_, .getLoad x _ _ e (rd x.id)⟩
  · exact ⟨_, .getVal x e⟩
  · rw [e] at hc; cases hc
  · rw [e] at hf; exact absurd hf id
  · rw [e] at hf; exact absurd hf id

/-- C184: `add` takes at most three steps for each slot there is when it is called and four more, and `get`
at most two, whatever other threads do. -/
theorem C184_wait_free (s s' : State T) (hs : Steps init s) (t n : Nat) (hr : (s.pc t).ready = true) :
    (∀ v, s.holder = none →
      During t n ((({ s with holder := some t } : State T).learn t s.lock).goto t (.scan v 0)) s' →
      n ≤ 3 * s.size + 4) ∧
    (∀ h, Usable s t h → During t n (s.goto t (.getLoad h)) s' → n ≤ 2) := by
  refine ⟨fun v hl hd => ?_, fun h hu hd => ?_⟩
  · have := hd.left (hs.tail (.add s t v hr hl))
    simp only [State.goto, Function.update_self, State.learn, State.setView] at this
    change _ ≤ 3 * (s.size - 0) + 4 at this
    omega
  · have := hd.left (hs.tail (.get s t h hr hu))
    simp only [State.goto, Function.update_self] at this
    change _ ≤ 2 at this
    omega

/-- C184: a thread left alone returns from its call. -/
theorem C184_returns (s : State T) (hs : Steps init s) (t : Nat) :
    ∃ n s', Alone t n s s' ∧ (s'.pc t).ready = true := by
  have key : ∀ (k n : Nat) (b : State T), Alone t n s b → left b.size (b.pc t) ≤ k →
      ∃ n s', Alone t n s s' ∧ (s'.pc t).ready = true := by
    intro k
    induction k with
    | zero =>
      intro n b hb hk
      by_cases hre : (b.pc t).ready = true
      · exact ⟨n, b, hb, hre⟩
      · have hb' := hs.trans hb.during.steps
        obtain ⟨c, hc⟩ := C184_never_stuck b hb' t (by simpa using hre)
        have := run_left (inv_steps hb') hc
        omega
    | succ k ih =>
      intro n b hb hk
      by_cases hre : (b.pc t).ready = true
      · exact ⟨n, b, hb, hre⟩
      · have hb' := hs.trans hb.during.steps
        obtain ⟨c, hc⟩ := C184_never_stuck b hb' t (by simpa using hre)
        have := run_left (inv_steps hb') hc
        exact ih (n + 1) c (hb.own hc) (by omega)
  exact key _ 0 s (.refl s) (Nat.le_refl _)

/-- C184: when `add(v)` has returned, it has made a handle for `v` that belongs to the thread, to a slot that
holds `v`, and the turn is over. -/
theorem C184_add_returns (s s' : State T) (hs : Steps init s) (t n : Nat) (v : T)
    (hr : (s.pc t).ready = true) (hl : s.holder = none)
    (hd : During t n ((({ s with holder := some t } : State T).learn t s.lock).goto t (.scan v 0)) s')
    (hdone : (s'.pc t).ready = true) :
    ∃ b, Steps s b ∧ Steps b s' ∧ b.holder = none ∧
      ∃ h rest, b.handles = h :: rest ∧ h.owner = t ∧ h.val = v ∧ (b.slots h.id).val = some v := by
  have h0 : Steps s ((({ s with holder := some t } : State T).learn t s.lock).goto t (.scan v 0)) :=
    (Steps.refl s).tail (.add s t v hr hl)
  have e0 : (((({ s with holder := some t } : State T).learn t s.lock).goto t (.scan v 0)).pc t).adds =
      some v := by
    simp only [State.goto, Function.update_self]; rfl
  revert h0 e0 hd
  generalize ((({ s with holder := some t } : State T).learn t s.lock).goto t (.scan v 0)) = a
  intro hd h0 e0
  have key : (s'.pc t).adds = some v ∨ ∃ b, Steps s b ∧ Steps b s' ∧ b.holder = none ∧
      ∃ h rest, b.handles = h :: rest ∧ h.owner = t ∧ h.val = v ∧ (b.slots h.id).val = some v := by
    clear hdone
    induction hd with
    | refl => exact .inl e0
    | @own n a b c h hrun ih =>
      rcases ih h0 e0 with ia | ⟨d, d1, d2, d3⟩
      · have hb := inv_steps (hs.trans (h0.trans h.steps))
        have hsc : Steps s c := (h0.trans h.steps).tail (.run _ _ t hrun)
        have hc := inv_steps (hs.trans hsc)
        have fin : ∀ (x : State T) (j : Nat) (w : T), c = x.finish t j w → w = v →
            ∃ b, Steps s b ∧ Steps b c ∧ b.holder = none ∧
              ∃ h rest, b.handles = h :: rest ∧ h.owner = t ∧ h.val = v ∧
                (b.slots h.id).val = some v := by
          intro x j w e ew
          subst ew
          refine ⟨c, hsc, .refl c, by rw [e]; rfl, ⟨x.clock, t, j, w⟩, x.handles, by rw [e]; rfl, rfl, rfl, ?_⟩
          exact (hc.vals ⟨x.clock, t, j, w⟩ (by rw [e]; exact List.mem_cons_self)).1
        cases hrun with
        | scan w i hp =>
          rw [hp] at ia; cases ia
          left; simp only [State.goto, Function.update_self]; split <;> rfl
        | load w i k m hp hm =>
          rw [hp] at ia; cases ia
          left; simp only [State.goto, Function.update_self]; rfl
        | check w i k hp =>
          rw [hp] at ia; cases ia
          left; simp only [State.goto, Function.update_self]
          split
          · rfl
          · split <;> rfl
        | incrExists w i hp => rw [hp] at ia; cases ia; exact .inr (fin _ _ _ rfl rfl)
        | pushChunk w hp =>
          rw [hp] at ia; cases ia
          left; simp only [State.goto, Function.update_self]; rfl
        | claim w i hp =>
          rw [hp] at ia; cases ia
          left; simp only [State.goto, Function.update_self]; rfl
        | write w i hp => rw [hp] at ia; cases ia; exact .inr (fin _ _ _ rfl rfl)
        | getLoad x k m hp hm => rw [hp] at ia; cases ia
        | getVal x hp => rw [hp] at ia; cases ia
      · exact .inr ⟨d, d1, d2.tail (.run _ _ t hrun), d3⟩
    | other h hstep hp ih =>
      rcases ih h0 e0 with ia | ⟨d, d1, d2, d3⟩
      · exact .inl (by rw [hp]; exact ia)
      · exact .inr ⟨d, d1, d2.tail hstep, d3⟩
  rcases key with k | k
  · revert k hdone
    generalize s'.pc t = p
    cases p <;> simp [PC.adds, PC.ready]
  · exact k

/-- Thread 0 adds 7 to the empty interner: four steps. -/
example : ∃ s' : State Nat, During 0 4
      (((({ (init : State Nat) with holder := some 0 } : State Nat).learn 0 (init : State Nat).lock)).goto 0 (.scan 7 0)) s' ∧
    (s'.pc 0).ready = true ∧ s'.handles = [⟨1, 0, 0, 7⟩] := by
  have a1 := During.own (During.refl (t := 0)
    (((({ (init : State Nat) with holder := some 0 } : State Nat).learn 0 (init : State Nat).lock)).goto 0 (.scan 7 0)))
    (.scan 7 0 rfl)
  have a2 := a1.own (.pushChunk 7 rfl)
  have a3 := a2.own (.claim 7 0 rfl)
  exact ⟨_, a3.own (.write 7 0 rfl), rfl, rfl⟩

end Verif
