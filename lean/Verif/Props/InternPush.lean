import Verif.Model.InternPush
import Verif.Props.InternShared
import Verif.Props.BigIntConc

/-!
# Threads that push chunks at the same time (C133, C148)

If two threads push at the same time, one of them returns a length that is out of date (C62), and writes its value over
the other's. This needs no two threads at the same slot at the same time.
-/

set_option linter.unusedSectionVars false

namespace Verif

open Intern

variable {T : Type} [DecidableEq T]

/-- No two threads are at the same slot, unless both have found their value there. -/
def Intern.Apart (s : Sys T) : Prop :=
  ∀ t t' i, t ≠ t' → (s.pc t).target = some i → (s.pc t').target = some i →
    (s.pc t).found = true ∧ (s.pc t').found = true

/-- At most one thread has counted the chunks and not appended its own. -/
def OnePush (seen : Nat → Option Nat) : Prop := ∀ t t', seen t ≠ none → seen t' ≠ none → t = t'

/-! ## What holds -/

private theorem psteps_exact {m : Mode} {B : Sys T → Prop} {a : Sys T} {s : PSys T}
    (h : Intern.PSteps m (fun s => B s.sys ∧ OnePush s.seen) ⟨a, fun _ => none⟩ s) :
    SysSteps m (fun _ _ => True) (fun _ _ => True) exactLen B a s.sys ∧
    ∀ t len, s.seen t = some len → 1 ≤ len ∧ len = s.sys.store.length := by
  induction h with
  | refl => exact ⟨.refl _, nofun⟩
  | tail _ hb hs ih =>
    obtain ⟨i1, i2⟩ := ih
    cases hs with
    | count t v h h0 hn =>
      refine ⟨i1, fun t' len h' => ?_⟩
      change Function.update (β := fun _ => Option Nat) _ t _ t' = some len at h'
      by_cases he : t' = t
      · subst he
        rw [Function.update_self, Option.some.injEq] at h'
        exact ⟨by rw [← h']; exact List.length_pos_iff.mpr h0, h'.symm⟩
      · rw [Function.update_of_ne he] at h'
        exact i2 t' len h'
    | push t v len h hs =>
      obtain ⟨_, e⟩ := i2 t len hs
      constructor
      · have hstep := SysStep.run (m := m) (V := fun _ _ => True) (I := fun _ _ => True) (R := exactLen) _ t
          (len + 1) _ (.incrNew v (len + 1)) (by rw [e]; rfl) (by rw [h]; rfl)
        have := i1.tail hb.1 hstep
        simpa only [APC.ev, List.append_nil] using this
      · intro t' len' h'
        change Function.update (β := fun _ => Option Nat) _ t none t' = some len' at h'
        by_cases he : t' = t
        · subst he; rw [Function.update_self] at h'; cases h'
        · rw [Function.update_of_ne he] at h'
          exact absurd (hb.2 t' t (by rw [h']; nofun) (by rw [hs]; nofun)) he
    | other s' h hl =>
      refine ⟨i1.tail hb.1 h, fun t len h' => ?_⟩
      obtain ⟨k1, k2⟩ := i2 t len h'
      rcases hl with hl | hl
      · rw [hl] at k2; simp at k2; omega
      · exact ⟨k1, k2.trans hl.symm⟩

/-- C133, with pushes as they are: if at no time two threads are at the same slot, unless both have found their value
there, and at no time two threads are pushing a chunk, then, in every interleaving: an id reads as the value it was
added for as long as, since that add, some reference to it has been held; the count of a held id is the number of references
held, and of every id if no thread is inside `add`; nothing panics (while no count reaches `2^64 - 1`).
Missing: two threads at the same slot, or pushing at the same time. -/
theorem C133_push_partial (m : Mode) (n : Nat) (s : PSys T)
    (hr : Intern.PSteps m (fun s => (Apart s.sys ∧ Roomy s.sys) ∧ OnePush s.seen)
      ⟨⟨withCapacity n, fun _ => .idle, []⟩, fun _ => none⟩ s) :
    (∀ i l1 v l2, s.sys.log = l1 ++ .add v i :: l2 →
      (∀ p, p <+: l2 → lost i (l1 ++ .add v i :: p) < gained i (l1 ++ .add v i :: p)) →
      get s.sys.store i = .ok v) ∧
    (∀ i, lost i s.sys.log < gained i s.sys.log →
      refcount s.sys.store i = .ok (gained i s.sys.log - lost i s.sys.log)) ∧
    ((∀ t, (s.sys.pc t).ready = true) → ∀ i r, refcount s.sys.store i = .ok r →
      r + lost i s.sys.log = gained i s.sys.log) ∧
    (∀ t, s.sys.pc t ≠ .panicked) :=
  C133_apart_partial m n s.sys (psteps_exact (B := fun s => Apart s ∧ Roomy s) hr).1

open BigConc in
private theorem pconc_exact {m : Mode} {B : Conc → Prop} {a : Conc} {s : PConc}
    (h : BigConc.PSteps m (fun s => B s.conc ∧ OnePush s.seen) ⟨a, fun _ => none⟩ s) :
    BigConc.Steps m B a s.conc ∧ ∀ t len, s.seen t = some len → 1 ≤ len ∧ len = s.conc.store.length := by
  induction h with
  | refl => exact ⟨.refl _, nofun⟩
  | tail _ hb hs ih =>
    obtain ⟨i1, i2⟩ := ih
    cases hs with
    | count t neg v want h h0 hn =>
      refine ⟨i1, fun t' len h' => ?_⟩
      change Function.update (β := fun _ => Option Nat) _ t _ t' = some len at h'
      by_cases he : t' = t
      · subst he
        rw [Function.update_self, Option.some.injEq] at h'
        exact ⟨by rw [← h']; exact List.length_pos_iff.mpr h0, h'.symm⟩
      · rw [Function.update_of_ne he] at h'
        exact i2 t' len h'
    | push t neg v want len h hs =>
      obtain ⟨_, e⟩ := i2 t len hs
      constructor
      · refine i1.tail t .run (fun _ => false) (fun _ h => by cases h) hb.1 ?_
        simp only [step]
        rw [h, e]
        rfl
      · intro t' len' h'
        change Function.update (β := fun _ => Option Nat) _ t none t' = some len' at h'
        by_cases he : t' = t
        · subst he; rw [Function.update_self] at h'; cases h'
        · rw [Function.update_of_ne he] at h'
          exact absurd (hb.2 t' t (by rw [h']; nofun) (by rw [hs]; nofun)) he
    | other c t x free hfree h hl =>
      refine ⟨i1.tail t x free hfree hb.1 h, fun t len h' => ?_⟩
      obtain ⟨k1, k2⟩ := i2 t len h'
      rcases hl with hl | hl
      · rw [hl] at k2; simp at k2; omega
      · exact ⟨k1, k2.trans hl.symm⟩

open BInt BigConc BigWord in
/-- C148, with pushes as they are: if at no time two threads that store results of 62 bits or more are at the same slot of
the interner, unless both have found their limbs there, and at no time two of them are pushing a chunk, then, under every
interleaving, every `BigInt` reads as the number that a single thread would have computed from its operands, is well
stored, and a thread panics or hangs only if the computation on the numbers does (while no count reaches
`2^64 - 1` and ids fit in 62 bits). Missing: two threads at the same slot, or pushing at the same time. -/
theorem C148_push_partial (m : Mode) (s : PConc)
    (hr : BigConc.PSteps m (fun s => ((∀ t t' n n' p p' w w' i, t ≠ t' →
        s.conc.pc t = .adding n p w → s.conc.pc t' = .adding n' p' w' → p.target = some i → p'.target = some i →
        p.found = true ∧ p'.found = true) ∧
      (∀ i x, at_ s.conc.store i = some x → x.refs < 2 ^ 64 - 1) ∧ 32 * s.conc.store.length < 2 ^ 62) ∧
      OnePush s.seen) ⟨BigConc.init, fun _ => none⟩ s) :
    (∀ (k w : Nat) (u : Res BInt), s.conc.vars[k]? = some (some (w, u)) →
      view s.conc.store w = u ∧ ∃ x, u = .ok x ∧ Rep x) ∧
    (∀ t want, s.conc.pc t = .stopped false want → want = .panic) ∧
    (∀ t want, s.conc.pc t = .stopped true want → want = .hang) :=
  C148_apart_partial m s.conc (pconc_exact (B := fun s => (∀ t t' n n' p p' w w' i, t ≠ t' →
        s.pc t = .adding n p w → s.pc t' = .adding n' p' w' → p.target = some i → p'.target = some i →
        p.found = true ∧ p'.found = true) ∧
      (∀ i x, at_ s.store i = some x → x.refs < 2 ^ 64 - 1) ∧ 32 * s.store.length < 2 ^ 62) hr).1

/-! ## Violation -/

/-- No two threads ever meet at a slot, and no count is near overflow. -/
private abbrev PWalk (m : Mode) : PSys T → PSys T → Prop :=
  Intern.PSteps m fun s => Apart s.sys ∧ Roomy s.sys

private theorem pwalk_trans {m : Mode} {a b c : PSys T} (h1 : PWalk m a b) (h2 : PWalk m b c) : PWalk m a c := by
  induction h2 with
  | refl => exact h1
  | tail _ hb hs ih => exact ih.tail hb hs

/-- Only thread `t` may be at a slot. -/
private def Alone (t : Nat) (s : Sys T) : Prop := ∀ t', t' ≠ t → (s.pc t').target = none

private theorem alone_apart {t : Nat} {s : Sys T} (h : Alone t s) : Apart s := by
  intro t1 t2 i hne h1 h2
  by_cases he : t1 = t
  · rw [h t2 (fun h => hne (he.trans h.symm))] at h2; cases h2
  · rw [h t1 he] at h1; cases h1

private theorem alone_update {t : Nat} {s : Sys T} (h : Alone t s) (st : Store T) (p : APC T) (l : List (Ev T)) :
    Alone t ⟨st, Function.update s.pc t p, l⟩ := by
  intro t' ht'
  change (Function.update s.pc t p t').target = none
  rw [Function.update_of_ne ht']
  exact h t' ht'

private theorem set_length (st : Store T) (loc : Nat × Nat) (y : Slot T) : (setSlot st loc y).length = st.length := by
  unfold setSlot; simp

private theorem pwalk_run {m : Mode} {st : Store T} {pc : Nat → APC T} {l : List (Ev T)} {seen : Nat → Option Nat}
    {t : Nat} (hq : Alone t ⟨st, pc, l⟩) (hr : Roomy ⟨st, pc, l⟩) {st' : Store T} {pc' : APC T}
    (h : addStep m (st.length + 1) st (pc t) = some (st', pc')) (hl : st'.length = st.length) :
    PWalk m ⟨⟨st, pc, l⟩, seen⟩ ⟨⟨st', Function.update pc t pc', l ++ pc'.ev⟩, seen⟩ :=
  (Intern.PSteps.refl _).tail ⟨alone_apart hq, hr⟩
    (.other ⟨⟨st, pc, l⟩, seen⟩ _ (.run ⟨st, pc, l⟩ t _ st' pc' rfl h) (.inr hl))

private theorem pwalk_scan {m : Mode} {st : Store T} {pc : Nat → APC T} {l : List (Ev T)} {seen : Nat → Option Nat}
    {t : Nat} (hq : Alone t ⟨st, pc, l⟩) (hr : Roomy ⟨st, pc, l⟩) (v : T) (hpc : pc t = .scan v 0) (k : Nat)
    (h : ∀ j < k, ∃ s, at_ st j = some s ∧ Skips v s) :
    PWalk m ⟨⟨st, pc, l⟩, seen⟩ ⟨⟨st, Function.update pc t (.scan v k), l⟩, seen⟩ := by
  induction k with
  | zero =>
    rw [← hpc, Function.update_eq_self]
    exact .refl _
  | succ k ih =>
    have h1 := ih fun j hj => h j (by omega)
    obtain ⟨s, hs, h3, h4⟩ := h k (by omega)
    have hslot : slot st (offsetToIdx k) = .ok s := by rw [slot_eq, hs]; rfl
    have h5 := pwalk_run (m := m) (seen := seen) (alone_update hq st (.scan v k) l) hr (st' := st)
      (pc' := .load v k) (by rw [Function.update_self]; simp only [addStep, hslot]) rfl
    simp only [APC.ev, List.append_nil, Function.update_idem] at h5
    have h6 := pwalk_run (m := m) (seen := seen) (alone_update hq st (.load v k) l) hr (st' := st)
      (pc' := .check v k s.refs) (by rw [Function.update_self]; simp only [addStep, hslot]) rfl
    simp only [APC.ev, List.append_nil, Function.update_idem] at h6
    have h7 := pwalk_run (m := m) (seen := seen) (alone_update hq st (.check v k s.refs) l) hr (st' := st)
      (pc' := .scan v (k + 1)) (by
        rw [Function.update_self]; simp only [addStep, hslot]; rw [if_neg h3, if_neg h4]) rfl
    simp only [APC.ev, List.append_nil, Function.update_idem] at h7
    exact pwalk_trans (pwalk_trans (pwalk_trans h1 h5) h6) h7

/-- A thread has found no place for `v`, and counted the chunks. -/
private theorem pwalk_count {m : Mode} {st : Store T} {pc : Nat → APC T} {l : List (Ev T)} {seen : Nat → Option Nat}
    {t : Nat} (hq : Alone t ⟨st, pc, l⟩) (hr : Roomy ⟨st, pc, l⟩) (hwf : WF st) (v : T) (hpc : (pc t).ready = true)
    (h : ∀ j s, at_ st j = some s → Skips v s) (h0 : st ≠ []) (hs : seen t = none) :
    PWalk m ⟨⟨st, pc, l⟩, seen⟩
      ⟨⟨st, Function.update pc t (.pushChunk v), l⟩, Function.update seen t (some st.length)⟩ := by
  have h1 : PWalk m ⟨⟨st, pc, l⟩, seen⟩ ⟨⟨st, Function.update pc t (.scan v 0), l⟩, seen⟩ :=
    (Intern.PSteps.refl _).tail ⟨alone_apart hq, hr⟩
      (.other ⟨⟨st, pc, l⟩, seen⟩ _ (.start ⟨st, pc, l⟩ t v trivial hpc) (.inr rfl))
  have h2 := pwalk_scan (m := m) (seen := seen) (alone_update hq st (.scan v 0) l) hr v (Function.update_self ..)
    (32 * st.length) (fun j hj => by
      obtain ⟨s, hs⟩ := (at_isSome hwf j).mpr hj
      exact ⟨s, hs, h j s hs⟩)
  simp only [Function.update_idem] at h2
  have hnone : slot st (offsetToIdx (32 * st.length)) = .panic := by
    rw [slot_eq, (at_none hwf _).mpr (Nat.le_refl _)]; rfl
  have h3 := pwalk_run (m := m) (seen := seen) (alone_update hq st (.scan v (32 * st.length)) l) hr (st' := st)
    (pc' := .pushChunk v) (by rw [Function.update_self]; simp only [addStep, hnone]) rfl
  simp only [APC.ev, List.append_nil, Function.update_idem] at h3
  refine pwalk_trans (pwalk_trans (pwalk_trans h1 h2) h3) ?_
  exact (Intern.PSteps.refl _).tail ⟨alone_apart (alone_update hq st (.pushChunk v) l), hr⟩
    (.count ⟨⟨st, Function.update pc t (.pushChunk v), l⟩, seen⟩ t v (Function.update_self ..) h0 hs)

/-- A thread that has counted `k` chunks appends its own and writes to the first slot of chunk `k`. -/
private theorem pwalk_write {m : Mode} {st : Store T} {pc : Nat → APC T} {l : List (Ev T)} {seen : Nat → Option Nat}
    {t : Nat} (hq : Alone t ⟨st, pc, l⟩) (hr : Roomy ⟨st, pc, l⟩) (v : T) (k : Nat) (hpc : pc t = .pushChunk v)
    (hs : seen t = some k) {x : Slot T} (hx : at_ (st ++ [newChunk]) (k * 32) = some x) (hx1 : x.refs ≤ 1)
    (hr' : ∀ pc l, Roomy ⟨st ++ [newChunk], pc, l⟩) :
    ∃ st2, PWalk m ⟨⟨st, pc, l⟩, seen⟩
      ⟨⟨st2, Function.update pc t (.done v (k * 32)), l ++ [.add v (k * 32)]⟩, Function.update seen t none⟩ ∧
      st2.length = st.length + 1 ∧
      ∀ j, at_ st2 j = if j = k * 32 then some ⟨x.refs + 1, some v⟩ else at_ (st ++ [newChunk]) j := by
  have h1 : PWalk m ⟨⟨st, pc, l⟩, seen⟩
      ⟨⟨st ++ [newChunk], Function.update pc t (.incrNew v (k + 1)), l⟩, Function.update seen t none⟩ :=
    (Intern.PSteps.refl _).tail ⟨alone_apart hq, hr⟩ (.push ⟨⟨st, pc, l⟩, seen⟩ t v k hpc hs)
  have hslot : slot (st ++ [newChunk]) (offsetToIdx (k * 32)) = .ok x := by rw [slot_eq, hx]; rfl
  have h2 := pwalk_run (m := m) (seen := Function.update seen t none)
    (alone_update hq (st ++ [newChunk]) (.incrNew v (k + 1)) l) (hr' _ _)
    (st' := setSlot (st ++ [newChunk]) (offsetToIdx (k * 32)) { x with refs := x.refs + 1 })
    (pc' := .setNew v (k + 1)) (by
      rw [Function.update_self]
      simp only [addStep, incrAt, incr, Nat.add_sub_cancel, hslot, Res.bind]
      unfold incrInner
      rw [if_neg (by unfold usizeSize; omega)]) (set_length ..)
  simp only [APC.ev, List.append_nil, Function.update_idem] at h2
  have hx2 : at_ (setSlot (st ++ [newChunk]) (offsetToIdx (k * 32)) { x with refs := x.refs + 1 }) (k * 32) =
      some { x with refs := x.refs + 1 } := by rw [at_setSlot _ _ _ ⟨x, hx⟩, if_pos rfl]
  have hslot2 : slot (setSlot (st ++ [newChunk]) (offsetToIdx (k * 32)) { x with refs := x.refs + 1 })
      (offsetToIdx (k * 32)) = .ok { x with refs := x.refs + 1 } := by rw [slot_eq, hx2]; rfl
  have hr2 : Roomy (⟨setSlot (st ++ [newChunk]) (offsetToIdx (k * 32)) { x with refs := x.refs + 1 },
      Function.update pc t (.setNew v (k + 1)), l⟩ : Sys T) := by
    intro j z hz
    change at_ (setSlot _ _ _) j = some z at hz
    rw [at_setSlot _ _ _ ⟨x, hx⟩] at hz
    split at hz
    · cases hz; dsimp only; omega
    · exact hr' pc l j z hz
  have h3 := pwalk_run (m := m) (seen := Function.update seen t none)
    (alone_update hq (setSlot (st ++ [newChunk]) (offsetToIdx (k * 32)) { x with refs := x.refs + 1 })
      (.setNew v (k + 1)) l) hr2
    (st' := setSlot (setSlot (st ++ [newChunk]) (offsetToIdx (k * 32)) { x with refs := x.refs + 1 })
      (offsetToIdx (k * 32)) ⟨x.refs + 1, some v⟩)
    (pc' := .done v (k * 32)) (by
      rw [Function.update_self]
      simp only [addStep, setAt, Nat.add_sub_cancel, hslot2]) (set_length ..)
  simp only [APC.ev, Function.update_idem] at h3
  refine ⟨_, pwalk_trans (pwalk_trans h1 h2) h3, ?_, fun j => ?_⟩
  · rw [set_length, set_length]; simp
  · rw [at_setSlot _ _ _ ⟨_, hx2⟩]
    split
    · rfl
    · rename_i hne
      rw [at_setSlot _ _ _ ⟨x, hx⟩, if_neg hne]

/-- C133 fails if two threads push at the same time, though no two threads are ever at the same slot at the same
time: let all slots be in use, with one chunk or more, and let two threads add new values. Both may get the same id,
and it reads as the second value. -/
theorem C133_push_violated (m : Mode) (a : PSys T) (hr : Roomy a.sys) (hwf : WF a.sys.store) (h0 : a.sys.store ≠ [])
    (hready : ∀ t, (a.sys.pc t).ready = true) (hseen : ∀ t, a.seen t = none) (t t' : Nat) (ht : t ≠ t') (v u : T)
    (hfull : ∀ j s, at_ a.sys.store j = some s → s.refs ≠ 0 ∧ s.val ≠ some v ∧ s.val ≠ some u) :
    ∃ b : PSys T, Intern.PSteps m (fun s => Apart s.sys ∧ Roomy s.sys) a b ∧
      b.sys.pc t = .done v (a.sys.store.length * 32) ∧ b.sys.pc t' = .done u (a.sys.store.length * 32) ∧
      b.sys.log = a.sys.log ++ [.add v (a.sys.store.length * 32), .add u (a.sys.store.length * 32)] ∧
      get b.sys.store (a.sys.store.length * 32) = .ok u := by
  obtain ⟨⟨st, pc, l⟩, seen⟩ := a
  dsimp only at hr hwf h0 hready hseen hfull ⊢
  have tready : ∀ {p : APC T}, p.ready = true → p.target = none := by
    intro p hp
    cases hc : p.target with
    | none => rfl
    | some i => rw [target_ready hc] at hp; cases hp
  have q0 : ∀ t, Alone t (⟨st, pc, l⟩ : Sys T) := fun t t1 _ => tready (hready t1)
  have k1 := pwalk_count (m := m) (q0 t) hr hwf v (hready t)
    (fun j s hj => ⟨(hfull j s hj).2.1, (hfull j s hj).1⟩) h0 (hseen t)
  have q1 : Alone t' (⟨st, Function.update pc t (.pushChunk v), l⟩ : Sys T) := by
    intro t1 ht1
    change (Function.update pc t (.pushChunk v) t1).target = none
    by_cases he : t1 = t
    · rw [he, Function.update_self]; rfl
    · rw [Function.update_of_ne he]; exact tready (hready t1)
  have k2 := pwalk_count (m := m) (seen := Function.update seen t (some st.length)) q1 hr hwf u
    (by rw [Function.update_of_ne ht.symm]; exact hready t')
    (fun j s hj => ⟨(hfull j s hj).2.2, (hfull j s hj).1⟩) h0
    (by rw [Function.update_of_ne ht.symm]; exact hseen t')
  generalize hp2 : Function.update (Function.update pc t (.pushChunk v)) t' (.pushChunk u) = p2 at k2
  generalize hs2 : Function.update (Function.update seen t (some st.length)) t' (some st.length) = s2 at k2
  have p2t : p2 t = .pushChunk v := by rw [← hp2, Function.update_of_ne ht, Function.update_self]
  have p2t' : p2 t' = .pushChunk u := by rw [← hp2, Function.update_self]
  have s2t : s2 t = some st.length := by rw [← hs2, Function.update_of_ne ht, Function.update_self]
  have s2t' : s2 t' = some st.length := by rw [← hs2, Function.update_self]
  have p2o : ∀ t1, (p2 t1).target = none := by
    intro t1
    by_cases h1 : t1 = t'
    · rw [h1, p2t']; rfl
    · by_cases h2 : t1 = t
      · rw [h2, p2t]; rfl
      · rw [← hp2, Function.update_of_ne h1, Function.update_of_ne h2]; exact tready (hready t1)
  have hnew : at_ (st ++ [newChunk]) (st.length * 32) = some newUninit := by
    rw [at_append, if_neg (by omega), if_pos (by omega)]
  have roomyApp : ∀ (st : Store T), (∀ i x, at_ st i = some x → x.refs < 2 ^ 64 - 1) → ∀ pc l,
      Roomy (⟨st ++ [newChunk], pc, l⟩ : Sys T) := by
    intro st hst pc l j z hz
    change at_ (st ++ [newChunk]) j = some z at hz
    rw [at_append] at hz
    split at hz
    · exact hst j z hz
    · split at hz
      · cases hz; unfold newUninit; norm_num
      · cases hz
  obtain ⟨st3, k3, l3, e3⟩ := pwalk_write (m := m) (seen := s2) (l := l) (t := t) (fun t1 _ => p2o t1) hr v st.length
    p2t s2t hnew (by unfold newUninit; norm_num) (roomyApp st hr)
  have r3 : ∀ i x, at_ st3 i = some x → x.refs < 2 ^ 64 - 1 := by
    intro i x hx
    rw [e3] at hx
    split at hx
    · cases hx; unfold newUninit; norm_num
    · exact roomyApp st hr pc l i x hx
  have hx4 : at_ (st3 ++ [newChunk]) (st.length * 32) = some ⟨(newUninit : Slot T).refs + 1, some v⟩ := by
    rw [at_append, if_pos (by omega), e3, if_pos rfl]
  obtain ⟨st4, k4, _, e4⟩ := pwalk_write (m := m) (seen := Function.update s2 t none)
    (pc := Function.update p2 t (.done v (st.length * 32))) (l := l ++ [.add v (st.length * 32)]) (t := t')
    (by
      intro t1 _
      change (Function.update p2 t (.done v (st.length * 32)) t1).target = none
      by_cases he : t1 = t
      · rw [he, Function.update_self]; rfl
      · rw [Function.update_of_ne he]; exact p2o t1) r3 u st.length
    (by rw [Function.update_of_ne ht.symm]; exact p2t') (by rw [Function.update_of_ne ht.symm]; exact s2t') hx4
    (by unfold newUninit; norm_num) (roomyApp st3 r3)
  refine ⟨_, pwalk_trans (pwalk_trans (pwalk_trans k1 k2) k3) k4, ?_, ?_, ?_, ?_⟩
  · change Function.update (Function.update p2 t _) t' _ t = _
    rw [Function.update_of_ne ht, Function.update_self]
  · exact Function.update_self ..
  · simp
  · change Intern.get st4 (st.length * 32) = _
    unfold Intern.get tryGet
    rw [slot_eq, e4, if_pos rfl]
    simp only [Res.ofOption, Res.bind]
    rw [if_neg (by omega)]

/-! ## Runs that meet the hypotheses

Every run of the model with pushes in one step is one of this model, in which each thread appends right after counting. -/

private theorem incr_length {m : Mode} {st st' : Store T} {i : Nat} (h : Intern.incr m st i = .ok st') :
    st'.length = st.length := by
  unfold Intern.incr at h
  cases h1 : slot st (offsetToIdx i) with
  | ok s =>
    rw [h1] at h
    cases h2 : incrInner m s with
    | ok x =>
      simp only [Res.bind, h2, Res.ok.injEq] at h
      rw [← h]; exact set_length ..
    | panic => simp only [Res.bind, h2] at h; cases h
    | hang => simp only [Res.bind, h2] at h; cases h
  | panic => rw [h1] at h; cases h
  | hang => rw [h1] at h; cases h

private theorem decr_length {st st' : Store T} {i : Nat} (h : Intern.decr st i = .ok st') :
    st'.length = st.length := by
  unfold Intern.decr at h
  cases h1 : slot st (offsetToIdx i) with
  | ok s =>
    rw [h1] at h
    simp only [Res.bind, Res.ok.injEq] at h
    rw [← h]; exact set_length ..
  | panic => rw [h1] at h; cases h
  | hang => rw [h1] at h; cases h

private theorem incrAt_length (m : Mode) (st : Store T) (i : Nat) (p : APC T) :
    (incrAt m st i p).1.length = st.length := by
  unfold incrAt
  split
  · rename_i h; exact incr_length h
  · rfl

private theorem decrAt_length (st : Store T) (i : Nat) (p : APC T) : (decrAt st i p).1.length = st.length := by
  unfold decrAt
  split
  · rename_i h; exact decr_length h
  · rfl

private theorem setAt_length (st : Store T) (i : Nat) (v : T) (p : APC T) :
    (setAt st i v p).1.length = st.length := by
  unfold setAt
  split
  · exact set_length ..
  · rfl

private theorem addStep_length {m : Mode} {ret : Nat} {st st' : Store T} {p p' : APC T}
    (h : addStep m ret st p = some (st', p')) (hp : ∀ v, p ≠ .pushChunk v) : st'.length = st.length := by
  cases p with
  | scan v i => simp only [addStep] at h; split at h <;> (cases h; rfl)
  | load v i => simp only [addStep] at h; split at h <;> (cases h; rfl)
  | check v i c =>
    simp only [addStep] at h
    split at h
    · split at h
      · cases h; rfl
      · split at h <;> (cases h; rfl)
    · cases h; rfl
  | incrExists v i =>
    have := congrArg Prod.fst (Option.some.inj h); change _ = st' at this; rw [← this]; exact incrAt_length ..
  | incrDead v i =>
    have := congrArg Prod.fst (Option.some.inj h); change _ = st' at this; rw [← this]; exact incrAt_length ..
  | setDead v i =>
    have := congrArg Prod.fst (Option.some.inj h); change _ = st' at this; rw [← this]; exact setAt_length ..
  | pushChunk v => exact absurd rfl (hp v)
  | incrNew v i =>
    have := congrArg Prod.fst (Option.some.inj h); change _ = st' at this; rw [← this]; exact incrAt_length ..
  | setNew v i =>
    have := congrArg Prod.fst (Option.some.inj h); change _ = st' at this; rw [← this]; exact setAt_length ..
  | idle => cases h
  | done v i => cases h
  | panicked => cases h

private theorem onePush_none : OnePush fun _ => none := fun _ _ h => absurd rfl h

private theorem onePush_one (t : Nat) (o : Option Nat) : OnePush (Function.update (fun _ => none) t o) := by
  have : ∀ t1, Function.update (fun _ => none) t o t1 ≠ none → t1 = t := by
    intro t1 h1
    by_contra hc
    rw [Function.update_of_ne hc] at h1
    exact h1 rfl
  intro t1 t2 h1 h2
  rw [this t1 h1, this t2 h2]

private theorem update_back (t : Nat) (o : Option Nat) :
    Function.update (Function.update (fun _ => none) t o) t none = (fun _ => none : Nat → Option Nat) := by
  rw [Function.update_idem]
  exact Function.update_eq_self t (fun _ => none)

/-- One thread after the other pushing. -/
theorem Intern.steps_push {m : Mode} {B : Sys T → Prop} {a s : Sys T}
    (h : SysSteps m (fun _ _ => True) (fun _ _ => True) exactLen B a s) :
    Intern.PSteps m (fun s => B s.sys ∧ OnePush s.seen) ⟨a, fun _ => none⟩ ⟨s, fun _ => none⟩ := by
  induction h with
  | refl => exact .refl _
  | @tail b c _ hb hs ih =>
    by_cases hl : b.store = [] ∨ c.store.length = b.store.length
    · exact ih.tail ⟨hb, onePush_none⟩ (.other ⟨b, fun _ => none⟩ c hs hl)
    · obtain ⟨h0, hl⟩ := not_or.mp hl
      cases hs with
      | start => exact absurd rfl hl
      | clone => exact absurd (incrAt_length ..) hl
      | drop => exact absurd (decrAt_length ..) hl
      | run t ret st' pc' hret h =>
        by_cases hp : ∃ v, b.pc t = .pushChunk v
        · obtain ⟨v, hp⟩ := hp
          rw [hp] at h
          cases h
          have h1 := ih.tail ⟨hb, onePush_none⟩ (.count ⟨b, fun _ => none⟩ t v hp h0 rfl)
          have h2 := h1.tail ⟨hb, onePush_one t _⟩ (.push _ t v b.store.length hp (Function.update_self ..))
          dsimp only at h2
          rw [update_back] at h2
          have e : ret = b.store.length + 1 := hret
          simpa only [APC.ev, List.append_nil, e] using h2
        · exact absurd (addStep_length h fun v hv => hp ⟨v, hv⟩) hl

-- two threads inside `add` at the same time, at different slots, and at the same slot which both have found
example : ∃ s : PSys Nat, Intern.PSteps .debug (fun s => (Apart s.sys ∧ Roomy s.sys) ∧ OnePush s.seen)
      ⟨⟨withCapacity 1, fun _ => .idle, []⟩, fun _ => none⟩ s ∧
    s.sys.log = [.add 5 0, .add 7 1, .add 7 1, .add 7 1] := by
  obtain ⟨s, hs⟩ : ∃ s, together = some s := Option.isSome_iff_exists.mp (by decide +kernel)
  have h : together.map (fun s => s.log) = some [.add 5 0, .add 7 1, .add 7 1, .add 7 1] := by decide +kernel
  rw [hs] at h
  refine ⟨⟨s, fun _ => none⟩, steps_push (B := fun s => Apart s ∧ Roomy s)
    (throughout_steps apartOfThree_spec _ _ _ s (fun _ _ => rfl) ?_ (.refl _) hs), Option.some.inj h⟩
  decide +kernel

/-- 32 values in use. -/
def fullChunk : Store Nat := [(List.range 32).map fun k => ⟨1, some k⟩]

private theorem fullChunk_at {j : Nat} {s : Slot Nat} (h : at_ fullChunk j = some s) :
    ∃ k < 32, s = ⟨1, some k⟩ := by
  unfold at_ at h
  rw [Option.bind_eq_some_iff] at h
  obtain ⟨c, hc, hs⟩ := h
  have hc := List.mem_of_getElem? hc
  rw [fullChunk, List.mem_singleton] at hc
  have hs := List.mem_of_getElem? hs
  rw [hc, List.mem_map] at hs
  obtain ⟨k, hk, rfl⟩ := hs
  exact ⟨k, List.mem_range.mp hk, rfl⟩

-- with 32 values in use, two threads add 100 and 200: both get id 32, which reads 200
example : ∃ b : PSys Nat, Intern.PSteps .release (fun s => Apart s.sys ∧ Roomy s.sys)
      ⟨⟨fullChunk, fun _ => .idle, []⟩, fun _ => none⟩ b ∧
    b.sys.pc 0 = .done 100 32 ∧ b.sys.pc 1 = .done 200 32 ∧ get b.sys.store 32 = .ok 200 := by
  obtain ⟨b, h1, h2, h3, _, h5⟩ := C133_push_violated .release (⟨⟨fullChunk, fun _ => .idle, []⟩, fun _ => none⟩ : PSys Nat)
    (fun i x h => by obtain ⟨k, _, rfl⟩ := fullChunk_at h; norm_num) (by intro c hc; simp [fullChunk] at hc; simp [hc])
    (by simp [fullChunk]) (fun _ => rfl) (fun _ => rfl) 0 1 (by decide) 100 200
    (fun j s h => by obtain ⟨k, hk, rfl⟩ := fullChunk_at h; simp; omega)
  exact ⟨b, h1, h2, h3, h5⟩

section BigInt

open BInt BigConc BigWord

private theorem cont_store {α : Type} {s : Conc} {t : Nat} {want : Res BInt} {r : Res α} {k : α → Conc}
    (hk : ∀ a, r = .ok a → (k a).store.length = s.store.length) :
    (s.cont t want r k).store.length = s.store.length := by
  unfold Conc.cont
  cases r with
  | ok a => exact hk a rfl
  | panic => rfl
  | hang => rfl

private theorem newSlice_store {s : Conc} {t : Nat} {l : List (BitVec 64)} {neg : Bool} {want : Res BInt} :
    (s.newSlice t l neg want).store.length = s.store.length := by
  unfold Conc.newSlice
  refine cont_store fun v _ => ?_
  split
  · exact cont_store fun w _ => rfl
  · rfl

private theorem added_store {s : Conc} {t : Nat} {neg : Bool} {want : Res BInt} {p : APC (List (BitVec 64))} :
    (s.added t neg want p).store.length = s.store.length := by
  unfold Conc.added
  split
  · exact cont_store fun w _ => rfl
  · rfl
  · rfl

private theorem step_store {m : Mode} {free : Nat → Bool} {s c : Conc} {t : Nat} {x : Act}
    (h : BigConc.step m free s t x = some c)
    (hp : ∀ neg v want, s.pc t = .adding neg (.pushChunk v) want → x ≠ .run) :
    c.store.length = s.store.length := by
  cases x with
  | make l neg =>
    simp only [BigConc.step] at h
    split at h
    · rw [← Option.some.inj h]; exact newSlice_store
    · cases h
  | op f j k =>
    simp only [BigConc.step] at h
    split at h
    · rw [← Option.some.inj h]; rfl
    · cases h
  | run =>
    simp only [BigConc.step] at h
    split at h
    · split at h
      · rw [← Option.some.inj h]; exact cont_store fun _ _ => rfl
      · cases h
    · split at h
      · rw [← Option.some.inj h]
        exact cont_store fun _ _ => cont_store fun _ _ => newSlice_store
      · cases h
    · rename_i neg p want hpc
      rw [Option.map_eq_some_iff] at h
      obtain ⟨⟨st', p'⟩, h1, rfl⟩ := h
      refine added_store.trans (addStep_length h1 fun v hv => ?_)
      exact hp neg v want (hv ▸ hpc) rfl
    · cases h
  | clone k =>
    simp only [BigConc.step] at h
    split at h
    · rw [← Option.some.inj h]
      refine cont_store fun y hy => ?_
      change y.1.length = _
      unfold BigWord.clone at hy
      split at hy
      · cases hy; rfl
      · rename_i a _ _ _ _
        cases h2 : Intern.incr m s.store (offset a) with
        | ok st =>
          rw [h2] at hy
          simp only [Res.bind, Res.ok.injEq] at hy
          rw [← hy]; exact incr_length h2
        | panic => rw [h2] at hy; cases hy
        | hang => rw [h2] at hy; cases hy
    · cases h
  | drop k =>
    simp only [BigConc.step] at h
    split at h
    · split at h
      · rw [← Option.some.inj h]
        refine cont_store fun y hy => ?_
        change y.length = _
        unfold BigWord.drop at hy
        split at hy
        · cases hy; rfl
        · exact decr_length hy
      · cases h
    · cases h
  | neg k =>
    simp only [BigConc.step] at h
    split at h
    · split at h
      · rw [← Option.some.inj h]
      · cases h
    · cases h

/-- One thread after the other pushing. -/
theorem BigConc.steps_push {m : Mode} {B : Conc → Prop} {a s : Conc} (h : BigConc.Steps m B a s) :
    BigConc.PSteps m (fun s => B s.conc ∧ OnePush s.seen) ⟨a, fun _ => none⟩ ⟨s, fun _ => none⟩ := by
  induction h with
  | refl => exact .refl _
  | @tail b c t x free hfree _ hb hs ih =>
    by_cases hl : b.store = [] ∨ c.store.length = b.store.length
    · exact ih.tail ⟨hb, onePush_none⟩ (.other ⟨b, fun _ => none⟩ c t x free hfree hs hl)
    · obtain ⟨h0, hl⟩ := not_or.mp hl
      by_cases hp : ∃ neg v want, b.pc t = .adding neg (.pushChunk v) want ∧ x = .run
      · obtain ⟨neg, v, want, hp, rfl⟩ := hp
        simp only [BigConc.step] at hs
        rw [hp] at hs
        cases hs
        have h1 := ih.tail ⟨hb, onePush_none⟩ (.count ⟨b, fun _ => none⟩ t neg v want hp h0 rfl)
        have h2 := h1.tail ⟨hb, onePush_one t _⟩ (.push _ t neg v want b.store.length hp (Function.update_self ..))
        dsimp only at h2
        rw [update_back] at h2
        exact h2
      · exact absurd (step_store hs fun neg v want h1 h2 => hp ⟨neg, v, want, h1, h2⟩) hl

-- two threads store large results at the same time, and push one after the other
example : ∃ s : PConc, BigConc.PSteps .debug (fun s => ((∀ t t' n n' p p' w w' i, t ≠ t' →
        s.conc.pc t = .adding n p w → s.conc.pc t' = .adding n' p' w' → p.target = some i → p'.target = some i →
        p.found = true ∧ p'.found = true) ∧
      (∀ i x, at_ s.conc.store i = some x → x.refs < 2 ^ 64 - 1) ∧ 32 * s.conc.store.length < 2 ^ 62) ∧
      OnePush s.seen) ⟨BigConc.init, fun _ => none⟩ s ∧
    s.conc.vars = [some (0, .ok ⟨false, .slice [5, 1]⟩), some (128, .ok ⟨false, .slice [7, 1]⟩),
      some (0, .ok ⟨false, .slice [5, 1]⟩), some (1, .ok ⟨true, .slice [5, 1]⟩)] := by
  obtain ⟨s, hs⟩ : ∃ s, twoApartRun init lockstepApart = some s :=
    Option.isSome_iff_exists.mp (by decide +kernel)
  refine ⟨⟨s, fun _ => none⟩, BigConc.steps_push (B := fun s => (∀ t t' n n' p p' w w' i, t ≠ t' →
        s.pc t = .adding n p w → s.pc t' = .adding n' p' w' → p.target = some i → p'.target = some i →
        p.found = true ∧ p'.found = true) ∧
      (∀ i x, at_ s.store i = some x → x.refs < 2 ^ 64 - 1) ∧ 32 * s.store.length < 2 ^ 62)
    (twoApartRun_steps lockstepApart _ _ s (by decide +kernel) (fun _ _ => rfl) (.refl _) hs), ?_⟩
  have : (twoApartRun init lockstepApart).map (fun s => s.vars) = some
        [some (0, .ok ⟨false, .slice [5, 1]⟩), some (128, .ok ⟨false, .slice [7, 1]⟩),
          some (0, .ok ⟨false, .slice [5, 1]⟩), some (1, .ok ⟨true, .slice [5, 1]⟩)] := by
      decide +kernel
  rw [hs] at this
  exact Option.some.inj this

end BigInt

end Verif
