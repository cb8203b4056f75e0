import Verif.Lemmas.InternTidy
import Verif.Props.InternWeak

/-!
# C186: programs that share interned values behave as if they passed the values themselves around
-/

namespace Verif

open InternWeak InternProg

variable {T R : Type} [DecidableEq T]

/-! ## Specification -/

/-- What a program computes from the values of its names, unless it awaits more from other threads. -/
def progEval : Prog T R → (Nat → Option T) → Option R
  | .ret r, _ => some r
  | .add v x p, e => progEval p (Function.update e x (some v))
  | .get x k, e => (e x).bind fun v => progEval (k v) e
  | .clone x y p, e => (e x).bind fun v => progEval p (Function.update e y (some v))
  | .drop x p, e => progEval p (Function.update e x none)
  | .send x _ p, e => progEval p (Function.update e x none)
  | .lend _ _ p, e => progEval p e
  | .giveBack y p, e => progEval p (Function.update e y none)
  | .recv .., _ => none

/-! ## Theorems -/

theorem InternProg.good_moves {p : Nat → Prog T R} {s : Sys T R} (hs : Moves (start p) s) :
    Good s ∧ Pure.Moves (Pure.start p) s.values := by
  generalize hi : start p = a at hs
  induction hs with
  | refl =>
    subst hi
    exact ⟨⟨.refl _, nofun, nofun, fun _ => At.of_ready rfl⟩, .refl _⟩
  | tail _ hm ih =>
    obtain ⟨g, hp⟩ := ih
    obtain ⟨g', h | h⟩ := good_move g hm
    · exact ⟨g', by rw [h]; exact hp⟩
    · exact ⟨g', hp.tail h⟩

theorem InternProg.moves_values {p : Nat → Prog T R} {s s' : Sys T R} (hs : Moves (start p) s) (hs' : Moves s s') :
    Pure.Moves s.values s'.values := by
  have g := (good_moves hs).1
  suffices Good s' ∧ Pure.Moves s.values s'.values from this.2
  induction hs' with
  | refl => exact ⟨g, .refl _⟩
  | tail _ hm ih =>
    obtain ⟨g, hp⟩ := ih
    obtain ⟨g', h | h⟩ := good_move g hm
    · exact ⟨g', by rw [h]; exact hp⟩
    · exact ⟨g', hp.tail h⟩

/-- C186: whatever the threads do, they have got as far as the same programs can get without an interner, when each
name stands for the value itself; in particular, with the same results. -/
theorem C186_refines (p : Nat → Prog T R) (s : Sys T R) (hs : Moves (start p) s) :
    Pure.Moves (Pure.start p) s.values := (good_moves hs).2

/-- C186: from whatever state, a thread that receives nothing more computes what its program computes from the values
of its names alone, whatever other threads do. -/
theorem C186_result (p : Nat → Prog T R) (s s' : Sys T R) (hs : Moves (start p) s) (hs' : Moves s s') (t : Nat)
    (r : R) (hr : progEval (s.values t).prog (s.values t).env = some r) :
    progEval (s'.values t).prog (s'.values t).env = some r ∧ ∀ r', (s'.th t).prog = .ret r' → r' = r := by
  have key : progEval (s'.values t).prog (s'.values t).env = some r := by
    have h := moves_values hs hs'
    generalize s'.values = a at h
    generalize hi : s.values = a0 at h hr
    induction h with
    | refl => exact hr
    | @tail b c _ hm ih =>
      have upd : ∀ (t' : Nat) (a' : Thread T T R), (t' = t → progEval a'.prog a'.env = some r) →
          ∀ d : Nat → Thread T T R, (t' ≠ t → progEval (d t).prog (d t).env = some r) →
          progEval (Function.update d t' a' t).prog (Function.update d t' a' t).env = some r := by
        intro t' a' h d hd
        by_cases e : t = t'
        · subst e; rw [Function.update_self]; exact h rfl
        · rw [Function.update_of_ne e]; exact hd (fun k => e k.symm)
      cases hm with
      | add t' x v q hp =>
        refine upd t' _ ?_ _ (fun _ => ih)
        rintro rfl
        rw [hp] at ih
        exact ih
      | get t' x v k hp he =>
        refine upd t' _ ?_ _ (fun _ => ih)
        rintro rfl
        rw [hp, progEval, he] at ih
        exact ih
      | clone t' x y v q hp he =>
        refine upd t' _ ?_ _ (fun _ => ih)
        rintro rfl
        rw [hp, progEval, he] at ih
        exact ih
      | drop t' x v q hp he =>
        refine upd t' _ ?_ _ (fun _ => ih)
        rintro rfl
        rw [hp] at ih
        exact ih
      | send t1 t2 x y v q q' hp hp' he =>
        refine upd t2 _ ?_ _ (fun _ => upd t1 _ ?_ _ (fun _ => ih))
        · rintro rfl; rw [hp'] at ih; cases ih
        · rintro rfl; rw [hp] at ih; exact ih
      | lend t1 t2 x y v q q' hp hp' he =>
        refine upd t2 _ ?_ _ (fun _ => upd t1 _ ?_ _ (fun _ => ih))
        · rintro rfl; rw [hp'] at ih; cases ih
        · rintro rfl; rw [hp] at ih; exact ih
      | giveBack t' y v q hp he =>
        refine upd t' _ ?_ _ (fun _ => ih)
        rintro rfl; rw [hp] at ih; exact ih
  refine ⟨key, fun r' h => ?_⟩
  have e : (s'.values t).prog = .ret r' := h
  rw [e] at key
  exact Option.some.inj key

/-- C186: no thread accesses a value that another may be writing, none panics, each name stands for a handle
that its thread may use and whose slot holds the value; and a thread inside a call has a next step, as has the
thread that holds the lock while another waits for it. -/
theorem C186_safe (p : Nat → Prog T R) (s : Sys T R) (hs : Moves (start p) s) :
    ¬ Racy s.base ∧ (∀ t, s.base.pc t ≠ .panicked ∧ s.base.pc t ≠ .undefined) ∧
    (∀ t x h, (s.th t).env x = some h → Usable s.base t h ∧ (s.base.slots h.id).val = some h.val) ∧
    (∀ t, (s.base.pc t).ready = false → ∃ b, Run s.base t b ∧ Move s (s.after t b)) ∧
    ∀ t', s.base.holder = some t' → ∃ b, Run s.base t' b ∧ Move s (s.after t' b) := by
  obtain ⟨g, -⟩ := good_moves hs
  have inv := inv_steps g.steps
  have run : ∀ t, (s.base.pc t).ready = false → ∃ b, Run s.base t b ∧ Move s (s.after t b) := fun t ht => by
    obtain ⟨b, hb⟩ := C184_never_stuck s.base g.steps t ht
    exact ⟨b, hb, .run s b t hb⟩
  refine ⟨(C155_no_race _ g.steps).1, (C155_no_race _ g.steps).2, fun t x h e => ?_, run, fun t' h => run t' ?_⟩
  · exact ⟨g.use t x h e, (inv.vals h ((g.use t x h e).mem inv)).1⟩
  · have := (inv.hold t').mpr h
    revert this
    generalize s.base.pc t' = q
    cases q <;> simp [PC.adding, PC.ready]

/-- C186: if each program drops, sends or gives back what it has and calls nothing by a name in use, then every handle
has a name in the thread that owns it, so that, while nobody is adding, a slot is free if and only if no thread has a name for a
handle to it; and when all programs are done, all slots are free. -/
theorem C186_released (p : Nat → Prog T R) (hp : ∀ t, (p t).Tidy fun _ => False) (s : Sys T R)
    (hs : Moves (start p) s) :
    (∀ h ∈ s.base.handles, ∃ x, (s.th h.owner).env x = some h) ∧
    (s.base.holder = none → ∀ i, (s.base.slots i).cur.count = 0 ↔ ∀ t x h, (s.th t).env x = some h → h.id ≠ i) ∧
    ((∀ t, ∃ r, (s.th t).prog = .ret r) → ∀ i, (s.base.slots i).cur.count = 0) := by
  obtain ⟨g, n⟩ : Good s ∧ Named s := by
    generalize hi : start p = a at hs
    induction hs with
    | refl =>
      subst hi
      refine ⟨⟨.refl _, nofun, nofun, fun _ => At.of_ready rfl⟩, fun t => ?_, nofun, nofun⟩
      have := hp t
      rwa [show (fun _ => False) = used ((start p).th t) from by funext x; simp [used, start]] at this
    | tail _ hm ih => exact ⟨(good_move ih.1 hm).1, named_move ih.1 ih.2 hm⟩
  have inv := inv_steps g.steps
  have free : s.base.holder = none →
      ∀ i, (s.base.slots i).cur.count = 0 ↔ ∀ t x h, (s.th t).env x = some h → h.id ≠ i := by
    intro hn i
    rw [C155_counts _ g.steps hn, List.length_eq_zero_iff, List.filter_eq_nil_iff]
    constructor
    · intro h t x k e
      simpa using h k ((g.use t x k e).mem inv)
    · intro h k hk
      obtain ⟨x, e⟩ := n.named k hk
      simpa using h _ x k e
  refine ⟨n.named, free, fun hd i => (free ?_ i).mpr fun t x h e => ?_⟩
  · cases hh : s.base.holder with
    | none => rfl
    | some t =>
      obtain ⟨r, hr⟩ := hd t
      have h1 := (inv.hold t).mpr hh
      have h2 := g.at_ t
      unfold At at h2
      rw [hr] at h2
      revert h1 h2
      generalize s.base.pc t = q
      cases q <;> simp [PC.adding, PC.ready]
  · obtain ⟨r, hr⟩ := hd t
    have := n.tidy t
    rw [hr] at this
    exact absurd e (by simpa [used] using congrArg (· = some h) (not_not.mp (this x)))

/-! ## Examples -/

/-- Thread 0 adds 7 and sends it to thread 1, which reads it, adds one more than it, reads that, and returns
both. -/
def passOn : Nat → Prog Nat (Nat × Nat)
  | 0 => .add 7 0 (.send 0 1 (.ret (0, 0)))
  | 1 => .recv 5 (.get 5 fun a => .add (a + 1) 6 (.drop 5 (.get 6 fun b => .ret (a, b))))
  | _ => .ret (0, 0)

example : ∃ s : Sys Nat (Nat × Nat), Moves (start passOn) s ∧ (s.th 1).prog = .ret (7, 8) ∧
    (s.base.slots 0).cur.count = 0 ∧ (s.base.slots 1).cur.count = 1 := by
  have a1 := Moves.tail (Moves.refl (start passOn)) (.add _ _ 0 0 7 _ rfl rfl rfl rfl)
  have a2 := a1.tail (.run _ _ 0 (.scan 7 0 rfl))
  have a3 := a2.tail (.run _ _ 0 (.pushChunk 7 rfl))
  have a4 := a3.tail (.run _ _ 0 (.claim 7 0 rfl))
  have a5 := a4.tail (.run _ _ 0 (.write 7 0 rfl))
  have a6 := a5.tail (.send _ _ 0 1 0 5 ⟨1, 0, 0, 7⟩ _ _ rfl rfl rfl rfl rfl nofun rfl)
  have a7 := a6.tail (.get _ 1 5 ⟨1, 1, 0, 7⟩ _ rfl rfl rfl)
  have a8 := a7.tail (.run _ _ 1 (.getLoad ⟨1, 1, 0, 7⟩ 1 _ rfl ⟨rfl, Nat.le_refl _⟩))
  have a9 := a8.tail (.run _ _ 1 (.getVal ⟨1, 1, 0, 7⟩ rfl))
  have a10 := a9.tail (.add _ _ 1 6 8 _ rfl rfl rfl rfl)
  have a11 := a10.tail (.run _ _ 1 (.scan 8 0 rfl))
  have a12 := a11.tail (.run _ _ 1 (.load 8 0 1 _ rfl ⟨rfl, Nat.le_refl _⟩))
  have a13 := a12.tail (.run _ _ 1 (.check 8 0 1 rfl))
  have a14 := a13.tail (.run _ _ 1 (.scan 8 1 rfl))
  have a15 := a14.tail (.run _ _ 1 (.load 8 1 0 _ rfl ⟨rfl, Nat.le_refl _⟩))
  have a16 := a15.tail (.run _ _ 1 (.check 8 1 0 rfl))
  have a17 := a16.tail (.run _ _ 1 (.claim 8 1 rfl))
  have a18 := a17.tail (.run _ _ 1 (.write 8 1 rfl))
  have a19 := a18.tail (.drop _ _ 1 5 ⟨1, 1, 0, 7⟩ _ rfl rfl rfl rfl nofun rfl)
  have a20 := a19.tail (.get _ 1 6 ⟨6, 1, 1, 8⟩ _ rfl rfl rfl)
  have a21 := a20.tail (.run _ _ 1 (.getLoad ⟨6, 1, 1, 8⟩ 1 _ rfl ⟨rfl, Nat.le_refl _⟩))
  exact ⟨_, a21.tail (.run _ _ 1 (.getVal ⟨6, 1, 1, 8⟩ rfl)), rfl, rfl, rfl⟩

/-- Programs that drop what they have: one adds 7 and sends it, the other reads it, and drops it. -/
example : ∀ t : Nat, Prog.Tidy (T := Nat) (R := Nat)
    (if t = 0 then .add 7 0 (.send 0 1 (.ret 0)) else if t = 1 then .recv 5 (.get 5 fun a => .drop 5 (.ret a))
      else .ret 0) fun _ => False := by
  intro t
  split
  · simp [Prog.Tidy]
  · split <;> simp [Prog.Tidy]

/-- A program that receives nothing, and what it computes. -/
example : progEval (.add 7 0 (.clone 0 1 (.drop 0 (.get 1 fun a => .ret (a + 1)))) : Prog Nat Nat)
    (fun _ => none) = some 8 := rfl

end Verif
