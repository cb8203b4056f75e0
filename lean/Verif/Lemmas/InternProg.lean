import Verif.Model.InternProg
import Verif.Props.InternSteps

/-!
# Lemmas about programs that share interned values
-/

namespace Verif

namespace InternProg

open InternWeak

variable {T R : Type} [DecidableEq T]

/-! ## Handles are told apart -/

/-- No two handles have the same key, and none has one that is still to come. -/
structure Keys (s : State T) : Prop where
  lt : ∀ h ∈ s.handles, h.key < s.clock
  eq : ∀ h ∈ s.handles, ∀ h' ∈ s.handles, h.key = h'.key → h = h'
  nodup : s.handles.Nodup

omit [DecidableEq T] in
theorem Keys.keep {s s' : State T} (h : Keys s) (hh : s'.handles = s.handles) (hc : s.clock ≤ s'.clock) :
    Keys s' := by
  refine ⟨fun x hx => ?_, fun x hx y hy => ?_, by rw [hh]; exact h.nodup⟩
  · exact Nat.lt_of_lt_of_le (h.lt x (hh ▸ hx)) hc
  · exact h.eq x (hh ▸ hx) y (hh ▸ hy)

omit [DecidableEq T] in
theorem Keys.cons {s s' : State T} (h : Keys s) (x : Handle T) (hx : x.key = s.clock)
    (hh : s'.handles = x :: s.handles) (hc : s.clock < s'.clock) : Keys s' := by
  have ne : ∀ y ∈ s.handles, x.key ≠ y.key := fun y hy e => by
    have := h.lt y hy
    omega
  refine ⟨fun y hy => ?_, fun y hy z hz e => ?_, ?_⟩
  · rw [hh] at hy
    rcases List.mem_cons.mp hy with rfl | hy
    · omega
    · have := h.lt y hy
      omega
  · rw [hh] at hy hz
    rcases List.mem_cons.mp hy with h1 | h1 <;> rcases List.mem_cons.mp hz with h2 | h2
    · rw [h1, h2]
    · exact absurd (h1 ▸ e) (ne z h2)
    · exact absurd (h2 ▸ e.symm) (ne y h1)
    · exact h.eq y h1 z h2 e
  · rw [hh, List.nodup_cons]
    exact ⟨fun hm => ne x hm rfl, h.nodup⟩

theorem Keys.erase {s s' : State T} (h : Keys s) (x : Handle T) (hh : s'.handles = s.handles.erase x)
    (hc : s.clock ≤ s'.clock) : Keys s' := by
  refine ⟨fun y hy => ?_, fun y hy z hz => ?_, by rw [hh]; exact h.nodup.erase x⟩
  · exact Nat.lt_of_lt_of_le (h.lt y (List.mem_of_mem_erase (hh ▸ hy))) hc
  · exact h.eq y (List.mem_of_mem_erase (hh ▸ hy)) z (List.mem_of_mem_erase (hh ▸ hz))

theorem Keys.give {s s' : State T} (h : Keys s) (x x' : Handle T) (hx : x ∈ s.handles) (hk : x'.key = x.key)
    (hh : s'.handles = x' :: s.handles.erase x) (hc : s.clock ≤ s'.clock) : Keys s' := by
  have ne : ∀ y ∈ s.handles.erase x, x'.key ≠ y.key := fun y hy e => by
    have := h.eq x hx y (List.mem_of_mem_erase hy) (hk ▸ e)
    subst this
    exact ((List.Nodup.mem_erase_iff h.nodup).mp hy).1 rfl
  refine ⟨fun y hy => ?_, fun y hy z hz e => ?_, ?_⟩
  · rw [hh] at hy
    rcases List.mem_cons.mp hy with rfl | hy
    · rw [hk]
      exact Nat.lt_of_lt_of_le (h.lt x hx) hc
    · exact Nat.lt_of_lt_of_le (h.lt y (List.mem_of_mem_erase hy)) hc
  · rw [hh] at hy hz
    rcases List.mem_cons.mp hy with h1 | h1 <;> rcases List.mem_cons.mp hz with h2 | h2
    · rw [h1, h2]
    · exact absurd (h1 ▸ e) (ne z h2)
    · exact absurd (h2 ▸ e.symm) (ne y h1)
    · exact h.eq y (List.mem_of_mem_erase h1) z (List.mem_of_mem_erase h2) e
  · rw [hh, List.nodup_cons]
    exact ⟨fun hm => ne x' hm rfl, h.nodup.erase x⟩

theorem keys_steps {s : State T} (hs : Steps init s) : Keys s := by
  generalize hi : (init : State T) = a at hs
  induction hs with
  | refl => rw [← hi]; exact ⟨nofun, nofun, List.nodup_nil⟩
  | tail _ hstep ih =>
    cases hstep with
    | run _ t hrun =>
      cases hrun with
      | scan | load | pushChunk | claim | getLoad => exact ih.keep rfl (Nat.le_refl _)
      | check | getVal => exact ih.keep rfl (Nat.le_succ _)
      | incrExists v i hp => exact ih.cons _ rfl rfl (Nat.lt_succ_self _)
      | write v i hp =>
        refine Keys.cons (s := State.writeVal _ t i v) ?_ _ rfl rfl (Nat.lt_succ_self _)
        exact ih.keep rfl (Nat.le_succ _)
    | look => exact ih.keep rfl (Nat.le_succ _)
    | clone t h => exact ih.cons _ rfl rfl (Nat.lt_succ_self _)
    | drop t h => exact ih.erase h rfl (Nat.le_refl _)
    | give t t' h hr hu => exact ih.give h { h with owner := t' } hu.1 rfl rfl (Nat.le_refl _)
    | _ => exact ih.keep rfl (Nat.le_refl _)

/-! ## Steps inside a call -/

theorem run_usable {s s' : State T} {t t' : Nat} {h : Handle T} (hr : Run s t s') (hu : Usable s t' h) :
    Usable s' t' h := by
  have grow : ∀ {a b : State T}, (∀ x ∈ a.handles, x ∈ b.handles) → b.loans = a.loans → Usable a t' h →
      Usable b t' h := by
    rintro a b h1 h2 (⟨k1, k2⟩ | k)
    · exact .inl ⟨h1 _ k1, k2⟩
    · exact .inr (h2 ▸ k)
  cases hr with
  | incrExists | write => exact grow (fun x hx => List.mem_cons_of_mem _ hx) rfl hu
  | _ => exact hu

theorem run_other {s s' : State T} {t t' : Nat} (hr : Run s t s') (hn : t' ≠ t) : s'.pc t' = s.pc t' := by
  cases hr <;> exact Function.update_of_ne hn _ _

/-- A step inside `add(v)`: still inside, or done, with a new handle. -/
theorem run_adds {s s' : State T} {t : Nat} {v : T} (hr : Run s t s') (ha : (s.pc t).adds = some v) :
    ((s'.pc t).adds = some v ∧ s'.handles = s.handles) ∨
      (s'.pc t = .idle ∧ ∃ h, s'.handles = h :: s.handles ∧ s.clock ≤ h.key ∧ h.owner = t ∧ h.val = v) := by
  cases hr with
  | scan w i hp =>
    rw [hp] at ha; cases ha
    left
    refine ⟨?_, rfl⟩
    simp only [State.goto, Function.update_self]; split <;> rfl
  | load w i k m hp hm =>
    rw [hp] at ha; cases ha
    left
    refine ⟨?_, rfl⟩
    simp only [State.goto, Function.update_self]; rfl
  | check w i k hp =>
    rw [hp] at ha; cases ha
    left
    refine ⟨?_, rfl⟩
    simp only [State.goto, Function.update_self]
    split
    · rfl
    · split <;> rfl
  | incrExists w i hp =>
    rw [hp] at ha; cases ha
    right
    exact ⟨by simp only [State.finish, Function.update_self], _, rfl, Nat.le_refl _, rfl, rfl⟩
  | pushChunk w hp =>
    rw [hp] at ha; cases ha
    left
    refine ⟨?_, rfl⟩
    simp only [State.goto, Function.update_self]; rfl
  | claim w i hp =>
    rw [hp] at ha; cases ha
    left
    refine ⟨?_, rfl⟩
    simp only [State.goto, Function.update_self]; rfl
  | write w i hp =>
    rw [hp] at ha; cases ha
    right
    exact ⟨by simp only [State.finish, Function.update_self], _, rfl, Nat.le_succ _, rfl, rfl⟩
  | getLoad x k m hp hm => rw [hp] at ha; cases ha
  | getVal x hp => rw [hp] at ha; cases ha

/-- A step inside `get(h)`. -/
theorem run_gets {s s' : State T} {t : Nat} {h : Handle T} (hs : Steps init s) (hr : Run s t s')
    (hg : s.pc t = .getLoad h ∨ s.pc t = .getVal h) :
    s'.handles = s.handles ∧ (s'.pc t = .getVal h ∨ s'.pc t = .got h h.val) := by
  have hs' := hs.tail (.run _ _ t hr)
  have hf := (inv_steps hs').fine t
  cases hr with
  | getLoad x k m hp hm =>
    have : x = h := by rcases hg with e | e <;> rw [hp] at e <;> cases e; rfl
    subst this
    refine ⟨rfl, .inl ?_⟩
    simp only [State.goto, Function.update_self] at hf ⊢
    split at hf
    · rw [if_pos (by assumption)]
    · exact absurd hf id
  | getVal x hp =>
    have : x = h := by rcases hg with e | e <;> rw [hp] at e <;> cases e; rfl
    subst this
    refine ⟨rfl, .inr ?_⟩
    simp only [State.goto, Function.update_self] at hf ⊢
    cases hv : (s.slots x.id).val with
    | none => simp only [hv] at hf; exact absurd hf id
    | some y => simp only [hv] at hf ⊢; rw [show y = x.val from hf]
  | scan v i hp => rcases hg with e | e <;> rw [hp] at e <;> cases e
  | load v i k m hp => rcases hg with e | e <;> rw [hp] at e <;> cases e
  | check v i k hp => rcases hg with e | e <;> rw [hp] at e <;> cases e
  | incrExists v i hp => rcases hg with e | e <;> rw [hp] at e <;> cases e
  | pushChunk v hp => rcases hg with e | e <;> rw [hp] at e <;> cases e
  | claim v i hp => rcases hg with e | e <;> rw [hp] at e <;> cases e
  | write v i hp => rcases hg with e | e <;> rw [hp] at e <;> cases e

/-! ## The programs -/

/-- What a thread that has `a` still to do may be doing. -/
def At (a : Thread (Handle T) T R) (p : PC T) : Prop :=
  match a.prog with
  | .add v _ _ => p.ready = true ∨ p.adds = some v
  | .get x _ => p.ready = true ∨ ∃ h, a.env x = some h ∧ (p = .getLoad h ∨ p = .getVal h)
  | _ => p.ready = true

omit [DecidableEq T] in
theorem At.of_ready {a : Thread (Handle T) T R} {p : PC T} (h : p.ready = true) : At a p := by
  unfold At
  split
  · exact .inl h
  · exact .inl h
  · exact h

/-- What holds of the names: they stand for handles that the thread may use, no two for the same; and a thread
is inside a call only when that is what comes next. -/
structure Good (s : Sys T R) : Prop where
  steps : Steps init s.base
  use : ∀ t x h, (s.th t).env x = some h → Usable s.base t h
  inj : ∀ t x y h, (s.th t).env x = some h → (s.th t).env y = some h → x = y
  at_ : ∀ t, At (s.th t) (s.base.pc t)

omit [DecidableEq T] in
theorem env_bind {a : Thread (Handle T) T R} {y z : Nat} {h h' : Handle T} {p : Prog T R}
    (e : (a.bind y h p).env z = some h') : (z = y ∧ h' = h) ∨ (z ≠ y ∧ a.env z = some h') := by
  unfold Thread.bind at e
  by_cases k : z = y
  · subst k
    simp only [Function.update_self] at e
    cases e
    exact .inl ⟨rfl, rfl⟩
  · simp only [Function.update_of_ne k] at e
    exact .inr ⟨k, e⟩

omit [DecidableEq T] in
theorem env_unbind {a : Thread (Handle T) T R} {y z : Nat} {h' : Handle T} {p : Prog T R}
    (e : (a.unbind y p).env z = some h') : z ≠ y ∧ a.env z = some h' := by
  unfold Thread.unbind at e
  by_cases k : z = y
  · subst k
    simp only [Function.update_self] at e
    cases e
  · simp only [Function.update_of_ne k] at e
    exact ⟨k, e⟩

omit [DecidableEq T] in
theorem inj_bind {a : Thread (Handle T) T R} {y : Nat} {h : Handle T} {p : Prog T R}
    (hi : ∀ x y h, a.env x = some h → a.env y = some h → x = y) (hf : ∀ z, a.env z ≠ some h)
    (x z : Nat) (h' : Handle T) (e1 : (a.bind y h p).env x = some h') (e2 : (a.bind y h p).env z = some h') :
    x = z := by
  rcases env_bind e1 with ⟨h1, h2⟩ | ⟨h1, h2⟩ <;> rcases env_bind e2 with ⟨h3, h4⟩ | ⟨h3, h4⟩
  · rw [h1, h3]
  · exact absurd (h2 ▸ h4) (hf z)
  · exact absurd (h4 ▸ h2) (hf x)
  · exact hi x z h' h2 h4

omit [DecidableEq T] in
theorem inj_unbind {a : Thread (Handle T) T R} {y : Nat} {p : Prog T R}
    (hi : ∀ x y h, a.env x = some h → a.env y = some h → x = y)
    (x z : Nat) (h' : Handle T) (e1 : (a.unbind y p).env x = some h') (e2 : (a.unbind y p).env z = some h') :
    x = z := hi x z h' (env_unbind e1).2 (env_unbind e2).2

omit [DecidableEq T] in
/-- One thread and the interner change. -/
theorem Good.put' {s : Sys T R} {b : State T} {t : Nat} {a : Thread (Handle T) T R}
    (P : Nat → Thread (Handle T) T R → Prop) (hold : ∀ t', t' ≠ t → P t' (s.th t')) (hnew : P t a) (t' : Nat) :
    P t' ((s.put b t a).th t') := by
  unfold Sys.put
  by_cases e : t' = t
  · subst e
    simp only [Function.update_self]
    exact hnew
  · simp only [Function.update_of_ne e]
    exact hold t' e

theorem Good.put {s : Sys T R} (g : Good s) {b : State T} {t : Nat} {a : Thread (Handle T) T R}
    (hb : Step s.base b) (hu : ∀ t' x h, t' ≠ t → (s.th t').env x = some h → Usable b t' h)
    (hp : ∀ t', t' ≠ t → b.pc t' = s.base.pc t') (hua : ∀ x h, a.env x = some h → Usable b t h)
    (hia : ∀ x y h, a.env x = some h → a.env y = some h → x = y) (ha : At a (b.pc t)) : Good (s.put b t a) where
  steps := g.steps.tail hb
  use := Good.put' (fun t' a => ∀ x h, a.env x = some h → Usable b t' h) (fun t' e x h => hu t' x h e) hua
  inj := Good.put' (fun _ a => ∀ x y h, a.env x = some h → a.env y = some h → x = y) (fun t' _ => g.inj t') hia
  at_ := Good.put' (fun t' a => At a (b.pc t')) (fun t' e => by rw [hp t' e]; exact g.at_ t') ha

/-- Two threads and the interner change. -/
theorem Good.put2 {s : Sys T R} (g : Good s) {b : State T} {t t' : Nat} {a a' : Thread (Handle T) T R}
    (hb : Step s.base b) (hu : ∀ t2 x h, t2 ≠ t → t2 ≠ t' → (s.th t2).env x = some h → Usable b t2 h)
    (hp : ∀ t2, b.pc t2 = s.base.pc t2) (hua : ∀ x h, a.env x = some h → Usable b t h)
    (hua' : ∀ x h, a'.env x = some h → Usable b t' h)
    (hia : ∀ x y h, a.env x = some h → a.env y = some h → x = y)
    (hia' : ∀ x y h, a'.env x = some h → a'.env y = some h → x = y) (ha : At a (b.pc t)) (ha' : At a' (b.pc t')) :
    Good ((s.put b t a).put b t' a') where
  steps := g.steps.tail hb
  use := Good.put' (fun t' a => ∀ x h, a.env x = some h → Usable b t' h)
    (fun t2 e => Good.put' (s := s) (b := b) (fun t2 a => t2 ≠ t' → ∀ x h, a.env x = some h → Usable b t2 h)
      (fun t2 e e' x h => hu t2 x h e e') (fun _ => hua) t2 e) hua'
  inj := Good.put' (fun _ a => ∀ x y h, a.env x = some h → a.env y = some h → x = y)
    (fun t2 _ => Good.put' (fun _ a => ∀ x y h, a.env x = some h → a.env y = some h → x = y)
      (fun t2 _ => g.inj t2) hia t2) hia'
  at_ := Good.put' (fun t' a => At a (b.pc t'))
    (fun t2 _ => Good.put' (fun t' a => At a (b.pc t')) (fun t2 _ => by rw [hp t2]; exact g.at_ t2) ha t2) ha'

/-- Only the interner changes, and only as far as thread `t` is concerned. -/
theorem Good.base {s : Sys T R} (g : Good s) {b : State T} {t : Nat} (hb : Step s.base b)
    (hh : ∀ t' h, Usable s.base t' h → Usable b t' h) (hp : ∀ t', t' ≠ t → b.pc t' = s.base.pc t')
    (ha : At (s.th t) (b.pc t)) : Good { s with base := b } where
  steps := g.steps.tail hb
  use t' x h e := hh t' h (g.use t' x h e)
  inj := g.inj
  at_ t' := by
    by_cases e : t' = t
    · subst e; exact ha
    · change At (s.th t') (b.pc t')
      rw [hp t' e]; exact g.at_ t'

/-! ## Every step is one on values -/

/-- A thread, when each name stands for the value. -/
def values (a : Thread (Handle T) T R) : Thread T T R := ⟨a.prog, fun x => (a.env x).map (·.val)⟩

omit [DecidableEq T] in
theorem values_put (s : Sys T R) (b : State T) (t : Nat) (a : Thread (Handle T) T R) :
    (s.put b t a).values = Function.update s.values t (values a) := by
  funext t'
  unfold Sys.values Sys.put values
  by_cases e : t' = t
  · subst e; simp only [Function.update_self]
  · simp only [Function.update_of_ne e]

omit [DecidableEq T] in
theorem values_bind (a : Thread (Handle T) T R) (x : Nat) (h : Handle T) (p : Prog T R) :
    values (a.bind x h p) = (values a).bind x h.val p := by
  unfold values Thread.bind
  congr 1
  funext z
  by_cases e : z = x
  · subst e; simp only [Function.update_self]; rfl
  · simp only [Function.update_of_ne e]

omit [DecidableEq T] in
theorem values_unbind (a : Thread (Handle T) T R) (x : Nat) (p : Prog T R) :
    values (a.unbind x p) = (values a).unbind x p := by
  unfold values Thread.unbind
  congr 1
  funext z
  by_cases e : z = x
  · subst e; simp only [Function.update_self]; rfl
  · simp only [Function.update_of_ne e]

omit [DecidableEq T] in
theorem values_env {s : Sys T R} {t x : Nat} {h : Handle T} (e : (s.th t).env x = some h) :
    (s.values t).env x = some h.val := by
  unfold Sys.values
  simp only [e]; rfl

theorem good_move {s s' : Sys T R} (g : Good s) (hm : Move s s') :
    Good s' ∧ (s'.values = s.values ∨ Pure.Move s.values s'.values) := by
  have keys := keys_steps g.steps
  have inv := inv_steps g.steps
  have mem : ∀ {t x h}, (s.th t).env x = some h → h ∈ s.base.handles := fun e => (g.use _ _ _ e).mem inv
  cases hm with
  | add b t x v p hp hr hl hb =>
    refine ⟨?_, .inl rfl⟩
    subst hb
    refine g.base (t := t) (.add _ t v hr hl) (fun _ _ h => h) (fun t' e => Function.update_of_ne e _ _) ?_
    unfold At
    rw [hp]
    right
    simp only [State.goto, Function.update_self]; rfl
  | get t x h k hp hr he =>
    refine ⟨?_, .inl rfl⟩
    refine g.base (t := t) (.get _ t h hr (g.use t x h he)) (fun _ _ h => h)
      (fun t' e => Function.update_of_ne e _ _) ?_
    unfold At
    rw [hp]
    right
    exact ⟨h, he, .inl (by simp only [State.goto, Function.update_self])⟩
  | run b t hr =>
    have hother : ∀ t', t' ≠ t → b.pc t' = s.base.pc t' := fun t' e => run_other hr e
    have hstep : Step s.base b := .run _ _ t hr
    have hnr : (s.base.pc t).ready = false := by
      cases hr <;> (rename_i hp; simp_all [PC.ready])
    have hat := g.at_ t
    unfold At at hat
    unfold Sys.after
    split
    · rename_i v x p h rest hp hpc hh
      rw [hp] at hat
      simp only at hat
      rw [hnr] at hat
      have ha := hat.resolve_left nofun
      rcases run_adds hr ha with ⟨h1, _⟩ | ⟨_, h0, h1, h2, h3, h4⟩
      · rw [hpc] at h1; cases h1
      · have e0 : h = h0 := by rw [hh] at h1; exact (List.cons.inj h1).1
        subst e0
        have fresh : ∀ t' z, (s.th t').env z ≠ some h := fun t' z e => by
          have := keys.lt h (mem e)
          omega
        refine ⟨g.put hstep (fun t' x h _ e => run_usable hr (g.use t' x h e)) hother ?_
          (inj_bind (g.inj t) (fresh t)) (At.of_ready (by rw [hpc]; rfl)), .inr ?_⟩
        · intro z h' e
          rcases env_bind e with ⟨_, e2⟩ | ⟨_, e2⟩
          · subst e2
            exact .inl ⟨by rw [h1]; exact List.mem_cons_self, h3⟩
          · exact run_usable hr (g.use t z h' e2)
        · rw [values_put, values_bind, h4]
          exact .add s.values t x v p hp
    · rename_i x k h v hp hpc
      rw [hp] at hat
      simp only at hat
      rw [hnr] at hat
      obtain ⟨h', he, hg⟩ := hat.resolve_left nofun
      obtain ⟨h1, h2⟩ := run_gets g.steps hr hg
      have h2 := h2.resolve_left (by rw [hpc]; nofun)
      rw [hpc] at h2
      cases h2
      refine ⟨g.put hstep (fun t' x h _ e => run_usable hr (g.use t' x h e)) hother
        (fun z h' e => run_usable hr (g.use t z h' e)) (g.inj t) (At.of_ready (by rw [hpc]; rfl)), .inr ?_⟩
      rw [values_put]
      exact .get s.values t x _ k hp (values_env he)
    · rename_i n2 n1
      refine ⟨g.base (t := t) hstep (fun _ _ h => run_usable hr h) hother ?_, .inl rfl⟩
      unfold At
      split
      · rename_i v x p hp
        rw [hp] at hat
        simp only at hat
        rw [hnr] at hat
        rcases run_adds hr (hat.resolve_left nofun) with ⟨h1, _⟩ | ⟨h0, h, h1, _⟩
        · exact .inr h1
        · exact absurd h1 (n1 _ _ _ _ _ hp h0)
      · rename_i x k hp
        rw [hp] at hat
        simp only at hat
        rw [hnr] at hat
        obtain ⟨h', he, hg⟩ := hat.resolve_left nofun
        obtain ⟨_, h2⟩ := run_gets g.steps hr hg
        rcases h2 with h2 | h2
        · exact .inr ⟨h', he, .inr h2⟩
        · exact absurd h2 (n2 _ _ _ _ hp)
      · rename_i n3 n4
        exfalso
        split at hat
        · rename_i v x p hp; exact n3 v x p hp
        · rename_i x k hp; exact n4 x k hp
        · rw [hnr] at hat; cases hat
  | clone b t x y h p hp hr he hb =>
    subst hb
    have fresh : ∀ t' z, (s.th t').env z ≠ some ⟨s.base.clock, t, h.id, h.val⟩ := fun t' z e => by
      have := keys.lt _ (mem e)
      exact absurd this (Nat.lt_irrefl _)
    have grow : ∀ t' h', Usable s.base t' h' → Usable { s.base.rmw t h.id .acqRel (· + 1) with
        handles := ⟨s.base.clock, t, h.id, h.val⟩ :: s.base.handles, clock := s.base.clock + 1 } t' h' := by
      rintro t' h' (⟨k1, k2⟩ | k)
      · exact .inl ⟨List.mem_cons_of_mem _ k1, k2⟩
      · exact .inr k
    refine ⟨g.put (.clone _ t h hr (g.use t x h he)) (fun t' x h _ e => grow _ _ (g.use t' x h e))
      (fun _ _ => rfl) ?_ (inj_bind (g.inj t) (fresh t)) (At.of_ready hr), .inr ?_⟩
    · intro z h' e
      rcases env_bind e with ⟨_, e2⟩ | ⟨_, e2⟩
      · subst e2
        exact .inl ⟨List.mem_cons_self, rfl⟩
      · exact grow _ _ (g.use t z h' e2)
    · rw [values_put, values_bind]
      exact .clone s.values t x y h.val p hp (values_env he)
  | peek t x k h p m hp hr he hm =>
    refine ⟨g.base (t := t) (.peek _ t h .acquire k m hr (g.use t x h he) hm) (fun _ _ h => h)
      (fun _ _ => rfl) (At.of_ready hr), .inl rfl⟩
  | drop b t x h p hp hr he ho hn hb =>
    subst hb
    have keep : ∀ t' h', Usable s.base t' h' → h' ≠ h →
        Usable { s.base.rmw t h.id .acqRel (· - 1) with handles := s.base.handles.erase h } t' h' := by
      rintro t' h' (⟨k1, k2⟩ | k) ne
      · exact .inl ⟨(List.mem_erase_of_ne ne).mpr k1, k2⟩
      · exact .inr k
    refine ⟨g.put (.drop _ t h hr ⟨mem he, ho⟩ hn) ?_ (fun _ _ => rfl) ?_ (inj_unbind (g.inj t))
      (At.of_ready hr), .inr ?_⟩
    · intro t' z h' ne e
      refine keep t' h' (g.use t' z h' e) ?_
      rintro rfl
      rcases g.use t' z h' e with ⟨_, k2⟩ | k
      · exact ne (k2.symm.trans ho)
      · exact hn t' k
    · intro z h' e
      obtain ⟨ne, e⟩ := env_unbind e
      refine keep t h' (g.use t z h' e) ?_
      rintro rfl
      exact ne (g.inj t z x h' e he)
    · rw [values_put, values_unbind]
      exact .drop s.values t x _ p hp (values_env he)
  | send b t t' x y h p p' hp hp' hr he ho hn hb =>
    subst hb
    have ht : t ≠ t' := by rintro rfl; rw [hp] at hp'; cases hp'
    have keep : ∀ t2 h', Usable s.base t2 h' → h' ≠ h → Usable { s.base.learn t' (s.base.view t) with
        handles := { h with owner := t' } :: s.base.handles.erase h } t2 h' := by
      rintro t2 h' (⟨k1, k2⟩ | k) ne
      · exact .inl ⟨List.mem_cons_of_mem _ ((List.mem_erase_of_ne ne).mpr k1), k2⟩
      · exact .inr k
    have other : ∀ t2 z h', t2 ≠ t → (s.th t2).env z = some h' → h' ≠ h := by
      rintro t2 z h' ne e rfl
      rcases g.use t2 z h' e with ⟨_, k2⟩ | k
      · exact ne (k2.symm.trans ho)
      · exact hn t2 k
    have fresh : ∀ z, (s.th t').env z ≠ some { h with owner := t' } := fun z e => by
      have := keys.eq _ (mem e) h (mem he) rfl
      have := congrArg Handle.owner this
      exact ht (ho.symm.trans this.symm)
    refine ⟨g.put2 (.give _ t t' h hr ⟨mem he, ho⟩ hn) ?_ (fun _ => rfl) ?_ ?_ (inj_unbind (g.inj t))
      (inj_bind (g.inj t') fresh) (At.of_ready hr) (At.of_ready ?_), .inr ?_⟩
    · intro t2 z h' n1 _ e
      exact keep t2 h' (g.use t2 z h' e) (other t2 z h' n1 e)
    · intro z h' e
      obtain ⟨ne, e⟩ := env_unbind e
      refine keep t h' (g.use t z h' e) ?_
      rintro rfl
      exact ne (g.inj t z x h' e he)
    · intro z h' e
      rcases env_bind e with ⟨_, e2⟩ | ⟨_, e2⟩
      · subst e2
        exact .inl ⟨List.mem_cons_self, rfl⟩
      · exact keep t' h' (g.use t' z h' e2) (other t' z h' ht.symm e2)
    · have := g.at_ t'
      unfold At at this
      rw [hp'] at this
      exact this
    · rw [values_put, values_put, values_bind, values_unbind]
      exact .send s.values t t' x y h.val p p' hp hp' (values_env he)
  | lend b t t' x y h p p' hp hp' he ho hn hb =>
    subst hb
    have ht : t ≠ t' := by rintro rfl; rw [hp] at hp'; cases hp'
    have keep : ∀ t2 h', Usable s.base t2 h' → Usable { s.base.learn t' (s.base.view t) with
        loans := (h, t') :: s.base.loans } t2 h' := by
      rintro t2 h' (⟨k1, k2⟩ | k)
      · exact .inl ⟨k1, k2⟩
      · exact .inr (List.mem_cons_of_mem _ k)
    have fresh : ∀ z, (s.th t').env z ≠ some h := fun z e => by
      rcases g.use t' z h e with ⟨_, k2⟩ | k
      · exact ht (ho.symm.trans k2)
      · exact hn k
    have rdy : ∀ {t2}, ((∃ z t3 q, (s.th t2).prog = .lend z t3 q) ∨ ∃ z q, (s.th t2).prog = .recv z q) →
        (s.base.pc t2).ready = true := by
      intro t2 k
      have := g.at_ t2
      unfold At at this
      rcases k with ⟨z, t3, q, k⟩ | ⟨z, q, k⟩ <;> rw [k] at this <;> exact this
    refine ⟨g.put2 (.lend _ t t' h ⟨mem he, ho⟩) ?_ (fun _ => rfl) ?_ ?_ (g.inj t) (inj_bind (g.inj t') fresh)
      (At.of_ready (rdy (.inl ⟨_, _, _, hp⟩))) (At.of_ready (rdy (.inr ⟨_, _, hp'⟩))), .inr ?_⟩
    · intro t2 z h' _ _ e
      exact keep t2 h' (g.use t2 z h' e)
    · intro z h' e
      exact keep t h' (g.use t z h' e)
    · intro z h' e
      rcases env_bind e with ⟨_, e2⟩ | ⟨_, e2⟩
      · subst e2
        exact .inr List.mem_cons_self
      · exact keep t' h' (g.use t' z h' e2)
    · rw [values_put, values_put, values_bind]
      exact .lend s.values t t' x y _ p p' hp hp' (values_env he)
  | giveBack b t y h p hp hr he hl hb =>
    subst hb
    have keep : ∀ t' h', Usable s.base t' h' → (h', t') ≠ (h, t) →
        Usable { s.base.learn h.owner (s.base.view t) with loans := s.base.loans.erase (h, t) } t' h' := by
      rintro t' h' (⟨k1, k2⟩ | k) ne
      · exact .inl ⟨k1, k2⟩
      · exact .inr ((List.mem_erase_of_ne ne).mpr k)
    refine ⟨g.put (.giveBack _ t h hr hl) ?_ (fun _ _ => rfl) ?_ (inj_unbind (g.inj t))
      (At.of_ready hr), .inr ?_⟩
    · intro t' z h' ne e
      exact keep t' h' (g.use t' z h' e) (fun k => ne (congrArg Prod.snd k))
    · intro z h' e
      obtain ⟨ne, e⟩ := env_unbind e
      refine keep t h' (g.use t z h' e) ?_
      intro k
      have := congrArg Prod.fst k
      dsimp only at this
      subst this
      exact ne (g.inj t z y h' e he)
    · rw [values_put, values_unbind]
      exact .giveBack s.values t y _ p hp (values_env he)
  | sync t t' =>
    refine ⟨?_, .inl rfl⟩
    exact g.base (t := t) (.sync _ t t') (fun _ _ h => h) (fun _ _ => rfl) (g.at_ t)

end InternProg

end Verif
