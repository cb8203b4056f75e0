import Verif.Model.LinkedSend
import Verif.Props.LinkedElems

/-!
# C172: moving a list to another thread is sound whatever its elements
-/

namespace Verif

open LinkedElems (Ty Acc Shared sendSync)
open LinkedSend

/-- `Send` by the rules of the language, with a list sendable just if its elements are (the bound that
`linked.rs` L150-151 leave out). -/
def Sendable : Ty → Prop
  | .plain | .atomic => True
  | .cell t | .list t => Sendable t
  | .rc _ => False
  | .arc t => Sharable t
  | .pair a b => Sendable a ∧ Sendable b

theorem sendable_of_no_write : ∀ {T : Ty}, (∀ p, ¬ Common T p .write) → Sendable T
  | .plain, _ | .atomic, _ => trivial
  | .cell t, h => sendable_of_no_write (T := t) fun _ hp => h _ (.cell hp)
  | .rc t, h => h _ (.rcCount t)
  | .arc t, h => sharable_of_no_write (T := t) fun _ hp => h _ (.arcDeref hp)
  | .list t, h => sendable_of_no_write (T := t) fun _ hp => h _ (.elem 0 hp)
  | .pair a b, h => ⟨sendable_of_no_write (T := a) fun _ hp => h _ (.fst hp),
      sendable_of_no_write (T := b) fun _ hp => h _ (.snd hp)⟩

theorem common_no_conflict {T : Ty} (hT : Sendable T) {p : List Nat} {a b : Acc} (ha : Common T p a)
    (hb : Common T p b) : a.conflict b = false := by
  induction ha generalizing b with
  | cell _ ih => cases hb with | cell h => exact ih hT h
  | rcCount => exact hT.elim
  | rcDeref _ => exact hT.elim
  | arcCount => cases hb; rfl
  | arcDeref h => cases hb with | arcDeref h' => exact no_conflict hT h h'
  | fst _ ih => cases hb with | fst h => exact ih hT.1 h
  | snd _ ih => cases hb with | snd h => exact ih hT.2 h
  | elem i _ ih => cases hb with | elem _ h => exact ih hT h

theorem send_allowed {T : Ty} {tr : List Ev} (h : Exec T tr) {k : Nat} {e : Ev}
    (hk : tr[k]? = some e) : Next T (tr.take k) e := by
  induction h with
  | nil => simp at hk
  | @snoc tr f hx hn ih =>
    rcases Nat.lt_trichotomy k tr.length with hlt | rfl | hgt
    · rw [List.getElem?_append_left hlt] at hk
      rw [List.take_append_of_le_length (Nat.le_of_lt hlt)]
      exact ih hk
    · simp at hk
      subst hk
      simpa using hn
    · rw [List.getElem?_eq_none (by simp; omega)] at hk
      cases hk

theorem owner_snoc (tr : List Ev) (e : Ev) :
    owner (tr ++ [e]) = match e with | .move _ u => u | _ => owner tr := by
  unfold owner
  rw [List.foldl_append]
  rfl

theorem send_hb_snoc {tr : List Ev} {p q : Nat} (e : Ev) (h : HB tr p q) : HB (tr ++ [e]) p q := by
  have ext : ∀ {k : Nat} {x : Ev}, tr[k]? = some x → (tr ++ [e])[k]? = some x := by
    intro k x hk
    rw [List.getElem?_append_left (List.getElem?_eq_some_iff.mp hk).1, hk]
  induction h with
  | thread h ha hb h1 => exact .thread h (ext ha) (ext hb) h1
  | trans _ _ i1 i2 => exact .trans i1 i2

/-- An access by the thread that has the list happens before something of the thread that has it now. -/
theorem handed_on {T : Ty} {tr : List Ev} (h : Exec T tr) {p t i : Nat} {l : Option (List Nat)} {a : Acc}
    (hp : tr[p]? = some (.elem t i l a)) :
    ∃ r e, tr[r]? = some e ∧ owner tr ∈ e.before ∧ p ≤ r ∧ (r = p ∨ HB tr p r) := by
  induction h with
  | nil => simp at hp
  | @snoc tr f hx hn ih =>
    by_cases hlt : p < tr.length
    · rw [List.getElem?_append_left hlt] at hp
      obtain ⟨r, e, h1, h2, h3, h4⟩ := ih hp
      have hr := (List.getElem?_eq_some_iff.mp h1).1
      have old : (∀ u v, f ≠ .move u v) →
          ∃ r e, (tr ++ [f])[r]? = some e ∧ owner (tr ++ [f]) ∈ e.before ∧ p ≤ r ∧
            (r = p ∨ HB (tr ++ [f]) p r) := by
        intro hf
        refine ⟨r, e, by rw [List.getElem?_append_left hr, h1], ?_, h3, h4.imp id (send_hb_snoc f)⟩
        rw [owner_snoc]
        cases f with
        | move u v => exact absurd rfl (hf u v)
        | _ => exact h2
      cases f with
      | move u v =>
        have e1 : (tr ++ [Ev.move u v])[tr.length]? = some (.move u v) := by simp
        have hu : u = owner tr := hn
        have edge : HB (tr ++ [.move u v]) r tr.length :=
          .thread hr (by rw [List.getElem?_append_left hr, h1]) e1 (by simpa [Ev.after, hu] using h2)
        refine ⟨tr.length, _, e1, by rw [owner_snoc]; simp [Ev.before], by omega, .inr ?_⟩
        rcases h4 with rfl | h4
        · exact edge
        · exact (send_hb_snoc _ h4).trans edge
      | push _ _ => exact old (by intros; simp)
      | elem _ _ _ _ => exact old (by intros; simp)
      | kept _ _ _ _ => exact old (by intros; simp)
    · have hl := (List.getElem?_eq_some_iff.mp hp).1
      rw [List.length_append, List.length_singleton] at hl
      have e : p = tr.length := by omega
      subst e
      simp at hp
      subst hp
      refine ⟨tr.length, _, by simp; rfl, ?_, Nat.le_refl _, .inl rfl⟩
      rw [owner_snoc]
      simp [Ev.before, hn.1]

theorem send_hb_take {tr : List Ev} {n p q : Nat} (h : HB (tr.take n) p q) : HB tr p q := by
  have ext : ∀ {k : Nat} {x : Ev}, (tr.take n)[k]? = some x → tr[k]? = some x := by
    intro k x hk
    rw [List.getElem?_take] at hk
    split at hk
    · exact hk
    · cases hk
  induction h with
  | thread h ha hb h1 => exact .thread h (ext ha) (ext hb) h1
  | trans _ _ i1 i2 => exact .trans i1 i2

theorem exec_take {T : Ty} {tr : List Ev} (h : Exec T tr) (n : Nat) : Exec T (tr.take n) := by
  induction h with
  | nil => simpa using Exec.nil
  | @snoc tr e hx hn ih =>
    by_cases hlt : n ≤ tr.length
    · rw [List.take_append_of_le_length hlt]; exact ih
    · rw [List.take_of_length_le (by simp; omega)]; exact .snoc hx hn

/-- C172, the thread that has the list: all that is done to the elements through the list happens in
sequence, in whichever threads it was done; so what only the elements have is never raced for. -/
theorem C172_in_sequence (T : Ty) (tr : List Ev) (h : Exec T tr) (p q t u i j : Nat)
    (l k : Option (List Nat)) (a b : Acc) (hpq : p < q) (hp : tr[p]? = some (.elem t i l a))
    (hq : tr[q]? = some (.elem u j k b)) : HB tr p q := by
  have hx := exec_take h q
  have hp' : (tr.take q)[p]? = some (.elem t i l a) := by
    rw [List.getElem?_take, if_pos hpq]; exact hp
  obtain ⟨r, e, h1, h2, h3, h4⟩ := handed_on hx hp'
  have hu : u = owner (tr.take q) := (send_allowed h hq).1
  have hr : r < q := by
    have := (List.getElem?_eq_some_iff.mp h1).1
    rw [List.length_take] at this
    omega
  have h1' : tr[r]? = some e := by
    rw [List.getElem?_take, if_pos hr] at h1; exact h1
  have edge : HB tr r q := .thread hr h1' hq (by simpa [Ev.after, hu] using h2)
  rcases h4 with rfl | h4
  · exact edge
  · exact (send_hb_take h4).trans edge

/-- Thread 0 makes an element, keeps a clone and moves the list to thread 1; both use the memory the
two have in common. -/
def sentRun (l : List Nat) : List Ev :=
  [.push 0 0, .move 0 1, .elem 1 0 (some l) .write, .kept 0 0 l .write]

theorem sentRun_exec {T : Ty} {l : List Nat} (h : Common T l .write) : Exec T (sentRun l) :=
  .snoc (tr := [.push 0 0, .move 0 1, .elem 1 0 (some l) .write])
    (.snoc (tr := [.push 0 0, .move 0 1])
      (.snoc (tr := [.push 0 0])
        (.snoc (tr := []) .nil ⟨rfl, by simp⟩) rfl)
      ⟨rfl, ⟨0, by simp⟩, fun p e => by cases e; exact h⟩)
    ⟨by simp, h⟩

theorem sentRun_race (l : List Nat) : Race (sentRun l) := by
  refine ⟨2, 3, _, _, 0, some l, .write, .write, by omega, rfl, rfl, rfl, rfl, rfl, ?_⟩
  have key : ∀ p q, HB (sentRun l) p q → p = 2 → False := by
    intro p q h
    induction h with
    | @thread p q a b hlt ha hb h1 =>
      rintro rfl
      have hq : q = 3 := by
        have := (List.getElem?_eq_some_iff.mp hb).1
        simp [sentRun] at this
        omega
      subst hq
      simp [sentRun] at ha hb
      subst ha hb
      simp [Ev.before, Ev.after] at h1
    | trans _ _ ih _ => exact ih
  exact fun h => key 2 3 h rfl

/-- C172 for which elements moving is sound: no execution of safe code that moves a list between threads
has a data race exactly when the elements may be sent by the rules of the language. -/
theorem C172_exact_partial (T : Ty) : (∀ tr, Exec T tr → ¬ Race tr) ↔ Sendable T := by
  constructor
  · intro h
    apply sendable_of_no_write
    intro p hp
    exact h _ (sentRun_exec hp) (sentRun_race p)
  · rintro hT tr hx ⟨p, q, e, f, i, l, a, b, hpq, he, hf, ae, af, hc, hnot⟩
    have ne := send_allowed hx he
    have nf := send_allowed hx hf
    have clash : ∀ m, Common T m a → Common T m b → False := by
      intro m h1 h2
      rw [common_no_conflict hT h1 h2] at hc
      cases hc
    cases e with
    | push _ _ => cases ae
    | move _ _ => cases ae
    | elem t i' l' a' =>
      cases ae
      cases f with
      | push _ _ => cases af
      | move _ _ => cases af
      | elem u j k b' =>
        cases af
        exact hnot (C172_in_sequence T tr hx _ _ _ _ _ _ _ _ _ _ hpq he hf)
      | kept u j k b' =>
        cases af
        exact clash _ (ne.2.2 _ rfl) nf.2
    | kept t i' l' a' =>
      cases ae
      cases f with
      | push _ _ => cases af
      | move _ _ => cases af
      | elem u j k b' =>
        cases af
        exact clash _ ne.2 (nf.2.2 _ rfl)
      | kept u j k b' =>
        cases af
        exact clash _ ne.2 nf.2

/-- C172 fails: the compiler lets a list of any elements be sent, so of `Rc`s, the count of which two
threads can then change at the same time (one dropping the list, the other its own clone). -/
theorem C172_violated :
    (∀ T, (sendSync (.list T)).1 = true) ∧
    Exec (.rc .plain) (sentRun []) ∧ Race (sentRun []) :=
  ⟨fun _ => rfl, sentRun_exec (.rcCount _), sentRun_race _⟩

theorem Sharable.sendable {T : Ty} (h : Sharable T) : Sendable T := by
  induction T with
  | plain | atomic => trivial
  | cell t _ => exact h.elim
  | rc t _ => exact h
  | arc t _ => exact h
  | list t ih => exact ih h
  | pair a b iha ihb => exact ⟨iha h.1, ihb h.2⟩

theorem bounded_noList : ∀ {T : Ty}, NoList T → bounded T = sendSync T
  | .plain, _ | .atomic, _ | .rc _, _ => rfl
  | .cell t, h => by simp only [bounded, sendSync]; rw [bounded_noList (T := t) h]
  | .arc t, h => by simp only [bounded, sendSync]; rw [bounded_noList (T := t) h]
  | .pair a b, h => by
    simp only [bounded, sendSync]; rw [bounded_noList (T := a) h.1, bounded_noList (T := b) h.2]
  | .list _, h => h.elim

/-- C172: with the bound that is left out (`T: Send`), the compiler accepts a type exactly when it may be
sent; as the code is, it accepts all that may be sent, and judges types without lists rightly. -/
theorem C172_bounds_partial (T : Ty) :
    ((bounded T).1 = true ↔ Sendable T) ∧
    (Sendable T → (sendSync T).1 = true) ∧
    (NoList T → ((sendSync T).1 = true ↔ Sendable T)) := by
  have key : ((bounded T).1 = true ↔ Sendable T) ∧ (Sendable T → (sendSync T).1 = true) := by
    induction T with
    | plain | atomic => simp [bounded, sendSync, Sendable]
    | cell t ih => simpa [bounded, sendSync, Sendable] using ih
    | rc t ih => simp [bounded, sendSync, Sendable]
    | arc t ih =>
      have h := C163_bounds_partial t
      simp only [bounded, sendSync, Sendable, Bool.and_eq_true]
      exact ⟨⟨fun x => h.1.mp x.2, fun x => ⟨ih.1.mpr x.sendable, h.1.mpr x⟩⟩,
        fun x => ⟨ih.2 x.sendable, h.2.1 x⟩⟩
    | pair a b iha ihb =>
      simp only [bounded, sendSync, Sendable, Bool.and_eq_true]
      exact ⟨⟨fun x => ⟨iha.1.mp x.1, ihb.1.mp x.2⟩, fun x => ⟨iha.1.mpr x.1, ihb.1.mpr x.2⟩⟩,
        fun x => ⟨iha.2 x.1, ihb.2 x.2⟩⟩
    | list t ih =>
      simp only [bounded, sendSync, Sendable]
      exact ⟨ih.1, fun _ => trivial⟩
  have same : NoList T → bounded T = sendSync T := bounded_noList
  exact ⟨key.1, key.2, fun hn => by rw [← same hn]; exact key.1⟩

-- a list of `Cell`s may be moved (not shared), of `Arc<Cell>` it may not
example : Sendable (.list (.cell .plain)) ∧ ¬ Sharable (.list (.cell .plain)) ∧
    ¬ Sendable (.list (.arc (.cell .plain))) := ⟨trivial, id, id⟩

-- an execution with two moves, in which what only the element has is written by both owners
example : Exec (.cell .plain)
    [.push 0 0, .elem 0 0 none .write, .move 0 1, .elem 1 0 none .write, .move 1 0] :=
  .snoc (tr := [.push 0 0, .elem 0 0 none .write, .move 0 1, .elem 1 0 none .write])
    (.snoc (tr := [.push 0 0, .elem 0 0 none .write, .move 0 1])
      (.snoc (tr := [.push 0 0, .elem 0 0 none .write])
        (.snoc (tr := [.push 0 0]) (.snoc (tr := []) .nil ⟨rfl, by simp⟩)
          ⟨rfl, ⟨0, by simp⟩, fun p e => by cases e⟩) rfl)
      ⟨rfl, ⟨0, by simp⟩, fun p e => by cases e⟩) rfl

end Verif
