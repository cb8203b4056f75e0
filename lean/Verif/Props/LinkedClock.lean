import Verif.Props.LinkedSteps

/-!
# C153: what threads know has happened

What C153 says of races depends on the views: no thread knows of a node that has not been made, or of a pointer
that has not been set.
-/

namespace Verif

namespace LinkedWeak

variable {T : Type}

/-- Only nodes that have been made and pointers that have been set are known. -/
def Made (m : Mem T) (v : View) : Prop :=
  (∀ n, v.nodes n → n < m.alloc) ∧ ∀ l, v.locs l → m.cell l ≠ none

/-- The memory grows. -/
structure Grows (m m' : Mem T) : Prop where
  alloc : m.alloc ≤ m'.alloc
  cell : ∀ l, m.cell l ≠ none → m'.cell l ≠ none

theorem Grows.refl (m : Mem T) : Grows m m := ⟨Nat.le_refl _, fun _ h => h⟩

theorem Made.mono {m m' : Mem T} {v : View} (h : Made m v) (g : Grows m m') : Made m' v :=
  ⟨fun n hn => Nat.lt_of_lt_of_le (h.1 n hn) g.alloc, fun l hl => g.cell l (h.2 l hl)⟩

theorem Made.join {m : Mem T} {v w : View} (h : Made m v) (h' : Made m w) : Made m (v.join w) :=
  ⟨fun n hn => hn.elim (h.1 n) (h'.1 n), fun l hl => hl.elim (h.2 l) (h'.2 l)⟩

theorem Made.see {m : Mem T} {v : View} (h : Made m v) {l : Loc} (hl : m.cell l ≠ none) : Made m (v.see l) :=
  ⟨h.1, fun x hx => by
    rcases hx with rfl | hx
    · exact hl
    · exact h.2 x hx⟩

theorem Made.empty (m : Mem T) : Made m View.empty := ⟨fun _ h => absurd h id, fun _ h => absurd h id⟩

/-- All messages are fine. -/
def Sent (m : Mem T) : Prop := ∀ l msg, m.cell l = some msg → Made m msg.view

theorem Made.read {m : Mem T} {v : View} (h : Made m v) (hs : Sent m) {l : Loc} {msg : Msg} (o : Ord)
    (e : m.cell l = some msg) : Made m (v.read o l msg) := by
  have hl : m.cell l ≠ none := by rw [e]; exact Option.some_ne_none _
  unfold View.read
  split
  · exact (h.join (hs l msg e)).see hl
  · exact h.see hl

theorem Made.load {m : Mem T} {v v' : View} (h : Made m v) (hs : Sent m) {l : Loc} {o : Ord} {r : Option Nat}
    (hl : Load m v l o r v') : Made m v' := by
  cases hl with
  | null _ => exact h
  | set msg e => exact h.read hs o e

theorem grows_write (m : Mem T) (l : Loc) (msg : Msg) : Grows m (m.write l msg) := by
  refine ⟨Nat.le_refl _, fun x hx => ?_⟩
  unfold Mem.write
  by_cases e : x = l
  · subst e; dsimp only; rw [Function.update_self]; exact Option.some_ne_none _
  · dsimp only; rw [Function.update_of_ne e]; exact hx

theorem made_cas {m m' : Mem T} {v v' : View} (h : Made m v) (hs : Sent m) {l : Loc} {new : Nat} {ok err : Ord}
    {b : Bool} (hc : Cas m v l new ok err m' v' b) : Grows m m' ∧ Made m' v' ∧ Sent m' := by
  cases hc with
  | ok _ =>
    have g := grows_write m l ⟨new, (if ok.releases then v else View.empty).see l⟩
    have hl : (m.write l ⟨new, (if ok.releases then v else View.empty).see l⟩).cell l ≠ none := by
      unfold Mem.write; dsimp only; rw [Function.update_self]; exact Option.some_ne_none _
    refine ⟨g, (h.mono g).see hl, fun x msg hx => ?_⟩
    by_cases e : x = l
    · subst e
      unfold Mem.write at hx
      dsimp only at hx
      rw [Function.update_self] at hx
      obtain rfl := Option.some.inj hx
      have hw : Made m (if ok.releases then v else View.empty) := by
        split
        · exact h
        · exact Made.empty _
      exact (hw.mono g).see hl
    · unfold Mem.write at hx
      dsimp only at hx
      rw [Function.update_of_ne e] at hx
      exact (hs x msg hx).mono g
  | err msg e => exact ⟨.refl _, h.read hs err e, hs⟩

theorem made_run {m m' : Mem T} {v v' : View} {p p' : PC} (h : Made m v) (hs : Sent m)
    (hr : Run m v p m' v' p') : Grows m m' ∧ Made m' v' ∧ Sent m' := by
  cases hr with
  | casHead hc | setNext hc => exact made_cas h hs hc
  | tailHead hl | tailLoad hl | tailNext hl | failLoad hl | failNext hl | getHead hl | getLoad hl
  | getNext hl | iterLoad hl | lenHead hl | lenLoad hl | lenNext hl | emptyHead hl =>
    exact ⟨.refl _, h.load hs hl, hs⟩
  | getVal | iterVal => exact ⟨.refl _, h, hs⟩

theorem grows_newNode (m : Mem T) (x : T) (h : m.cell (.next m.alloc) = none) : Grows m (newNode m x) := by
  refine ⟨Nat.le_succ _, fun l hl => ?_⟩
  unfold newNode
  by_cases e : l = .next m.alloc
  · subst e; exact absurd h hl
  · dsimp only; rw [Function.update_of_ne e]; exact hl

/-- What is known of all views. -/
def Clock (s : State T) : Prop := (∀ t, Made s.mem (s.view t)) ∧ Sent s.mem

theorem made_steps {s : State T} (hr : Steps true init s) : Clock s := by
  induction hr with
  | refl => exact ⟨fun _ => Made.empty _, fun l msg h => by simp [init] at h⟩
  | @tail b _ hb hstep ih =>
    obtain ⟨hv, hs⟩ := ih
    have up : ∀ (m' : Mem T) (t : Nat) (w : View), Grows b.mem m' → Made m' w → Sent m' →
        (∀ t', Made m' (Function.update b.view t w t')) ∧ Sent m' := by
      intro m' t w g hw hm
      refine ⟨fun t' => ?_, hm⟩
      by_cases e : t' = t
      · subst e; rw [Function.update_self]; exact hw
      · rw [Function.update_of_ne e]; exact (hv t').mono g
    cases hstep with
    | push t x hready =>
      obtain ⟨L, inv, _⟩ := inv_steps inv_init hb
      have g := grows_newNode b.mem x (inv.fresh _ (Nat.le_refl _))
      refine up _ t _ g ⟨fun n hn => ?_, ((hv t).mono g).2⟩ (fun l msg hl => ?_)
      · rcases hn with rfl | hn
        · exact Nat.lt_succ_self _
        · exact ((hv t).mono g).1 n hn
      · unfold newNode at hl
        dsimp only at hl
        by_cases e : l = .next b.mem.alloc
        · subst e; rw [Function.update_self] at hl; cases hl
        · rw [Function.update_of_ne e] at hl
          exact (hs l msg hl).mono g
    | get | iter | next | isEmpty | len => exact ⟨hv, hs⟩
    | run t m' v' pc' hrun =>
      obtain ⟨g, h1, h2⟩ := made_run (hv t) hs hrun
      exact up _ t _ g h1 h2
    | sync t t' => exact up _ t' _ (.refl _) ((hv t').join (hv t)) hs

end LinkedWeak

open LinkedWeak

variable {T : Type}

/-- C153, what `Racy` rests on: a thread knows of no node that has not been made, and of no pointer that has not
been set; nor does it learn of one from another thread's writes. -/
theorem C153_views (s : State T) (hr : Steps true init s) :
    (∀ t n, (s.view t).nodes n → n < s.mem.alloc) ∧
    (∀ t l, (s.view t).locs l → ∃ msg, s.mem.cell l = some msg) ∧
    (∀ l msg, s.mem.cell l = some msg → ∀ n, msg.view.nodes n → n < s.mem.alloc) :=
  have h := made_steps hr
  ⟨fun t => (h.1 t).1, fun t l hl => Option.ne_none_iff_exists'.mp ((h.1 t).2 l hl), fun l msg e => (h.2 l msg e).1⟩

/-- Of two threads, one has made a node that the other does not know of. -/
example : ∃ s : State Nat, Steps true init s ∧ (s.view 0).nodes 0 ∧ ¬ (s.view 1).nodes 0 :=
  ⟨_, (Steps.refl _).tail (.push _ 0 7 rfl), .inl rfl, fun h => h⟩

end Verif
