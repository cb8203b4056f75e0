import Verif.Model.LinkedElems

/-!
# C163: sharing a list between threads is sound whatever its elements
-/

namespace Verif

open LinkedElems

/-- `Sync` by the rules of the language, with a list sharable just if its elements may be sent and shared
(the bounds that `linked.rs` L150-153 leave out). -/
def Sharable : Ty → Prop
  | .plain | .atomic => True
  | .cell _ | .rc _ => False
  | .arc t | .list t => Sharable t
  | .pair a b => Sharable a ∧ Sharable b

/-- `Send` and `Sync` by the rules of `std`, and with bounds on the elements for a list. -/
def bounded : Ty → Bool × Bool
  | .plain | .atomic => (true, true)
  | .cell t => ((bounded t).1, false)
  | .rc _ => (false, false)
  | .arc t =>
    ((bounded t).1 && (bounded t).2, (bounded t).1 && (bounded t).2)
  | .pair a b =>
    ((bounded a).1 && (bounded b).1, (bounded a).2 && (bounded b).2)
  | .list t => ((bounded t).1, (bounded t).1 && (bounded t).2)

/-- No list inside. -/
def NoList : Ty → Prop
  | .plain | .atomic => True
  | .cell t | .rc t | .arc t => NoList t
  | .pair a b => NoList a ∧ NoList b
  | .list _ => False

theorem sharable_of_no_write : ∀ {T : Ty}, (∀ p, ¬ Shared T p .write) → Sharable T
  | .plain, _ | .atomic, _ => trivial
  | .cell t, h => h _ (.cellSet t)
  | .rc t, h => h _ (.rcClone t)
  | .arc t, h => sharable_of_no_write (T := t) fun _ hp => h _ (.arcDeref hp)
  | .list t, h => sharable_of_no_write (T := t) fun _ hp => h _ (.elem 0 hp)
  | .pair a b, h => ⟨sharable_of_no_write (T := a) fun _ hp => h _ (.fst hp),
      sharable_of_no_write (T := b) fun _ hp => h _ (.snd hp)⟩

theorem no_conflict {T : Ty} (hT : Sharable T) {p : List Nat} {a b : Acc} (ha : Shared T p a)
    (hb : Shared T p b) : a.conflict b = false := by
  induction ha generalizing b with
  | plain => cases hb; rfl
  | atomic => cases hb; rfl
  | cellGet | cellSet | rcClone => exact hT.elim
  | rcDeref _ _ => exact hT.elim
  | arcClone => cases hb; rfl
  | arcDeref _ ih => cases hb with | arcDeref h => exact ih hT h
  | fst _ ih => cases hb with | fst h => exact ih hT.1 h
  | snd _ ih => cases hb with | snd h => exact ih hT.2 h
  | elem i _ ih => cases hb with | elem _ h => exact ih hT h

theorem exec_acc {T : Ty} {tr : List Ev} (h : Exec T tr) {k t i : Nat} {p : List Nat} {a : Acc}
    (hk : tr[k]? = some (.acc t i p a)) : Shared T p a := by
  induction h with
  | nil => simp at hk
  | @snoc tr e hx hn ih =>
    rcases Nat.lt_trichotomy k tr.length with hlt | rfl | hgt
    · rw [List.getElem?_append_left hlt] at hk
      exact ih hk
    · simp at hk
      subst hk
      exact hn.2
    · rw [List.getElem?_eq_none (by simp; omega)] at hk
      cases hk

theorem HB.lt {tr : List Ev} {p q : Nat} (h : HB tr p q) : p < q := by
  induction h with
  | thread h => exact h
  | released h => exact h
  | trans _ _ h1 h2 => omega

/-- Two threads each write to element 0, having got it from the list. -/
def racyRun (l : List Nat) : List Ev :=
  [.push 0 0, .see 0 0, .see 1 0, .acc 0 0 l .write, .acc 1 0 l .write]

theorem racyRun_exec {T : Ty} {l : List Nat} (h : Shared T l .write) : Exec T (racyRun l) :=
  .snoc (tr := [.push 0 0, .see 0 0, .see 1 0, .acc 0 0 l .write])
    (.snoc (tr := [.push 0 0, .see 0 0, .see 1 0])
      (.snoc (tr := [.push 0 0, .see 0 0])
        (.snoc (tr := [.push 0 0])
          (.snoc (tr := []) .nil rfl) (by simp [Next, pushes])) (by simp [Next, pushes])) ⟨by simp, h⟩)
    ⟨by simp, h⟩

/-- The first write happens before nothing in that execution. -/
theorem racyRun_race (l : List Nat) : Race (racyRun l) := by
  refine ⟨3, 4, 0, 1, 0, l, .write, .write, by omega, rfl, rfl, by decide, rfl, ?_⟩
  have key : ∀ p q, HB (racyRun l) p q → p = 3 → False := by
    intro p q h
    induction h with
    | @thread p q a b t hlt ha hb h1 h2 =>
      rintro rfl
      have hq : q = 4 := by
        have := (List.getElem?_eq_some_iff.mp hb).1
        simp [racyRun] at this
        omega
      subst hq
      simp [racyRun] at ha hb
      subst ha hb
      simp [Ev.before, Ev.after] at h1 h2
      omega
    | released hlt ha hb hr =>
      rintro rfl
      simp [racyRun] at ha
      subst ha
      exact hr
    | trans _ _ ih _ => exact ih
  exact fun h => key 3 4 h rfl

/-- C163 for which elements sharing is sound: no execution of safe code on a shared list has a data race
exactly when the elements may be shared by the rules of the language. -/
theorem C163_exact_partial (T : Ty) : (∀ tr, Exec T tr → ¬ Race tr) ↔ Sharable T := by
  constructor
  · intro h
    apply sharable_of_no_write
    intro p hp
    exact h _ (racyRun_exec hp) (racyRun_race p)
  · rintro hT tr hx ⟨p, q, t, u, i, l, a, b, -, ha, hb, -, hc, -⟩
    rw [no_conflict hT (exec_acc hx ha) (exec_acc hx hb)] at hc
    cases hc

example : Sharable (.pair .plain (.arc .atomic)) := ⟨trivial, trivial⟩

/-- C163 fails: the compiler accepts a list of any elements as sharable between threads, so of `Cell`s, on
which two threads can then race. -/
theorem C163_violated :
    (∀ T, sendSync (.list T) = (true, true)) ∧
    Exec (.cell .plain) (racyRun []) ∧ Race (racyRun []) :=
  ⟨fun _ => rfl, racyRun_exec (.cellSet _), racyRun_race _⟩

/-- C163: with the bounds that are left out (`T: Send` for sending, `T: Send + Sync` for sharing), the
compiler accepts a type as sharable exactly when it may be shared; as the code is, it accepts all that may
be shared, and judges types without lists rightly. -/
theorem C163_bounds_partial (T : Ty) :
    ((bounded T).2 = true ↔ Sharable T) ∧
    (Sharable T → (sendSync T).2 = true) ∧
    (NoList T → ((sendSync T).2 = true ↔ Sharable T)) := by
  have key : (Sharable T → (bounded T).1 = true ∧ (bounded T).2 = true) ∧
      ((bounded T).2 = true → Sharable T) ∧
      (Sharable T → (sendSync T).1 = true ∧ (sendSync T).2 = true) ∧
      (NoList T → bounded T = sendSync T) := by
    induction T with
    | plain => simp [sendSync, bounded, Sharable]
    | atomic => simp [sendSync, bounded, Sharable]
    | cell t ih => simp [sendSync, bounded, Sharable, NoList]; intro h; rw [ih.2.2.2 h]
    | rc t ih => simp [sendSync, bounded, Sharable]
    | arc t ih =>
      simp only [sendSync, bounded, Sharable, NoList, Bool.and_eq_true]
      exact ⟨fun h => ⟨ih.1 h, ih.1 h⟩, fun h => ih.2.1 h.2, fun h => ⟨ih.2.2.1 h, ih.2.2.1 h⟩,
        fun h => by rw [ih.2.2.2 h]⟩
    | pair a b iha ihb =>
      simp only [sendSync, bounded, Sharable, NoList, Bool.and_eq_true]
      exact ⟨fun h => ⟨⟨(iha.1 h.1).1, (ihb.1 h.2).1⟩, (iha.1 h.1).2, (ihb.1 h.2).2⟩,
        fun h => ⟨iha.2.1 h.1, ihb.2.1 h.2⟩,
        fun h => ⟨⟨(iha.2.2.1 h.1).1, (ihb.2.2.1 h.2).1⟩, (iha.2.2.1 h.1).2, (ihb.2.2.1 h.2).2⟩,
        fun h => by rw [iha.2.2.2 h.1, ihb.2.2.2 h.2]⟩
    | list t ih =>
      simp only [sendSync, bounded, Sharable, NoList, Bool.and_eq_true]
      exact ⟨fun h => ⟨(ih.1 h).1, ih.1 h⟩, fun h => ih.2.1 h.2, fun _ => ⟨trivial, trivial⟩,
        fun h => h.elim⟩
  exact ⟨⟨key.2.1, fun h => (key.1 h).2⟩, fun h => (key.2.2.1 h).2,
    fun hn => by rw [← key.2.2.2 hn]; exact ⟨key.2.1, fun h => (key.1 h).2⟩⟩

example : NoList (.arc (.pair .plain (.cell .plain))) ∧
    (sendSync (.arc (.pair .plain (.cell .plain)))).2 = false := ⟨⟨trivial, trivial⟩, rfl⟩

/-- C163, handing over: what a thread did to an element before it pushed another one happens before what
any thread does after it got that one (or a later one) from the list. -/
theorem C163_handover_partial (tr : List Ev) (p q r s t u i i' j k : Nat) (l l' : List Nat) (a b : Acc)
    (hpq : p < q) (hqr : q < r) (hrs : r < s) (hjk : j ≤ k)
    (hp : tr[p]? = some (.acc t i l a)) (hq : tr[q]? = some (.push t j))
    (hr : tr[r]? = some (.see u k)) (hs : tr[s]? = some (.acc u i' l' b)) : HB tr p s :=
  ((HB.thread (t := t) hpq hp hq (by simp [Ev.before]) (by simp [Ev.after])).trans
    (HB.released hqr hq hr hjk)).trans
    (HB.thread (t := u) hrs hr hs (by simp [Ev.before]) (by simp [Ev.after]))

example : HB [.push 0 0, .see 0 0, .acc 0 0 [] .write, .push 0 1, .see 1 1, .see 1 0, .acc 1 0 [] .write]
    2 6 :=
  C163_handover_partial _ 2 3 4 6 0 1 0 0 1 1 [] [] .write .write (by omega) (by omega) (by omega)
    (by omega) rfl rfl rfl rfl

end Verif
