import Verif.Model.BigIntOwn
import Verif.Lemmas.InternMemory
import Verif.Props.BigIntHandle
import Verif.Lemmas.Programs

/-!
# Reasoning about code that owns `BigInt` words
-/

namespace Verif

open BInt Intern BigWord

namespace BigOwn

open Act

/-- The words `L`, and no others, are alive: the store counts exactly them. It has grown to the size
that `N` words need. -/
def Own (N : Nat) (st : IntStore) (L : List Nat) : Prop :=
  ∃ live, WInv ⟨st, live⟩ ∧ (live.filterMap id).Perm L ∧ 32 * st.length ≤ N + 32 ∧ N ≤ 2 ^ 61

variable {N : Nat}

theorem countP_isSome (live : List (Option Nat)) :
    live.countP Option.isSome = (live.filterMap id).length := by
  induction live with
  | nil => rfl
  | cons o live ih => cases o <;> simp [ih]

theorem Own.perm {st : IntStore} {L L' : List Nat} (h : Own N st L) (hp : L.Perm L') : Own N st L' := by
  obtain ⟨live, h1, h2, h3, h4⟩ := h
  exact ⟨live, h1, h2.trans hp, h3, h4⟩

theorem own_new (hN : N ≤ 2 ^ 61) : Own N Intern.new [] :=
  ⟨[], reachable_winv (m := .debug) .start, by simp, by simp [Intern.new, Intern.withCapacity], hN⟩

theorem mem_live {live : List (Option Nat)} {L : List Nat} (hp : (live.filterMap id).Perm L) {a : Nat}
    (ha : a ∈ L) : ∃ k : Nat, live[k]? = some (some a) := by
  have : a ∈ live.filterMap id := hp.mem_iff.mpr ha
  rw [List.mem_filterMap] at this
  obtain ⟨o, h1, h2⟩ := this
  rw [id] at h2
  subst h2
  exact List.mem_iff_getElem?.mp h1

theorem perm_set {live : List (Option Nat)} {k a : Nat} (hk : live[k]? = some (some a)) :
    (live.filterMap id).Perm (a :: (live.set k none).filterMap id) := by
  induction live generalizing k with
  | nil => simp at hk
  | cons o live ih =>
    cases k with
    | zero =>
      simp only [List.getElem?_cons_zero, Option.some.injEq] at hk
      subst hk
      simp
    | succ k =>
      rw [List.getElem?_cons_succ] at hk
      cases o with
      | none => simpa using ih hk
      | some b =>
        simp only [List.set_cons_succ]
        have h := ih hk
        have e : ∀ l : List (Option Nat), (some b :: l).filterMap id = b :: l.filterMap id :=
          fun l => rfl
        rw [e, e]
        exact (List.Perm.cons b h).trans (List.Perm.swap _ _ _)

/-- What the words stand for, in a store that counts them. -/
theorem Own.word {st : IntStore} {L : List Nat} (h : Own N st L) {a : Nat} (ha : a ∈ L) :
    a < 2 ^ 64 ∧ ∃ b, view st a = .ok b ∧ Rep b := by
  obtain ⟨live, h1, h2, h3, h4⟩ := h
  obtain ⟨k, hk⟩ := mem_live h2 ha
  exact h1.words a (List.mem_of_getElem? hk)

theorem Own.count {st : IntStore} {L : List Nat} (h : Own N st L) (i : Nat)
    (s : Slot (List (BitVec 64))) (hs : at_ st i = some s) :
    s.refs = L.countP fun w => !BigWord.inline (tag w) && decide (offset w = i) := by
  obtain ⟨live, h1, h2, h3, h4⟩ := h
  obtain ⟨ids, hc⟩ := h1.client
  rw [hc.count i s hs, ← h2.countP_eq]
  show List.countP (refersTo i) live = _
  clear * -
  induction live with
  | nil => rfl
  | cons o live ih =>
    cases o with
    | none => simpa [refersTo] using ih
    | some w =>
      have e : ∀ l : List (Option Nat), (some w :: l).filterMap id = w :: l.filterMap id :=
        fun l => rfl
      rw [e, List.countP_cons, List.countP_cons, ih]
      congr 1

/-! ## What code does -/

/-- How a result of the code on words is related to the result of the computation with values: the
words in it, and when they stand for the right values. -/
structure Kind (α β : Type) where
  words : α → List Nat
  rel : (Nat → Res BInt) → α → β → Prop
  stable : ∀ v v' a b, (∀ w ∈ words a, v' w = v w) → rel v a b → rel v' a b

/-- A word stands for the value. -/
def word : Kind Nat BInt where
  words w := [w]
  rel v w b := v w = .ok b
  stable v v' a b h hr := by rw [h a (by simp)]; exact hr

/-- The same result. -/
def same (α : Type) : Kind α α where
  words _ := []
  rel _ a b := a = b
  stable _ _ _ _ _ h := h

/-- The same error, or a word that stands for the value. -/
def wordOr (ε : Type) : Kind (Except ε Nat) (Except ε BInt) where
  words
    | .ok w => [w]
    | .error _ => []
  rel v
    | .ok w, .ok b => v w = .ok b
    | .error e, .error e' => e = e'
    | _, _ => False
  stable v v' a b h hr := by
    cases a with
    | error e => cases b <;> exact hr
    | ok w =>
      cases b with
      | error e => exact hr
      | ok b =>
        dsimp only at hr ⊢
        rw [h w (by simp)]; exact hr

variable {α β γ δ : Type}

/-- The outcome `r` in the store `st'` is that of the computation `g`. If it is a value, exactly the
words in it and `L` are alive; if it is a panic, exactly those of `P`. They read as in `st`. -/
def Ends (N : Nat) (st st' : IntStore) (L P : List Nat) (k : Kind α β) : Res α → Res β → Prop
  | .ok a, .ok b => Own N st' (k.words a ++ L) ∧ (∀ w ∈ L, view st' w = view st w) ∧
      k.rel (view st') a b
  | .panic, .panic => Own N st' P ∧ ∀ w ∈ P, view st' w = view st w
  | .hang, .hang => True
  | _, _ => False

/-- How the code `x` run from `st` ends. -/
def Spec (N : Nat) (x : Act α) (st : IntStore) (g : Res β) (L P : List Nat) (k : Kind α β) : Prop :=
  Ends N st (x st).2 L P k (x st).1 g

theorem Spec.perm {x : Act α} {st : IntStore} {g : Res β} {L L' P P' : List Nat} {k : Kind α β}
    (h : Spec N x st g L P k) (hL : L.Perm L') (hP : P.Perm P') : Spec N x st g L' P' k := by
  unfold Spec at *
  generalize x st = p at *
  obtain ⟨r, st'⟩ := p
  cases r <;> cases g <;> simp only [Ends] at h ⊢
  · exact ⟨h.1.perm (List.Perm.append_left _ hL), fun w hw => h.2.1 w (hL.mem_iff.mpr hw), h.2.2⟩
  · exact ⟨h.1.perm hP, fun w hw => h.2 w (hP.mem_iff.mpr hw)⟩

theorem Spec.bind {x : Act α} {f : α → Act γ} {st : IntStore} {g : Res β} {h : β → Res δ}
    {A L P : List Nat} {k : Kind α β} {k' : Kind γ δ}
    (hx : Spec N x st g A P k) (hLA : ∀ w ∈ L, w ∈ A) (hPA : ∀ w ∈ P, w ∈ A)
    (hf : ∀ st' a b, Own N st' (k.words a ++ A) → (∀ w ∈ A, view st' w = view st w) →
      k.rel (view st') a b → Spec N (f a) st' (h b) L P k') :
    Spec N (x.bind f) st (g.bind h) L P k' := by
  unfold Spec at hx
  have e : (x.bind f) st = match x st with
    | (.ok a, st) => f a st
    | (.panic, st) => (.panic, st)
    | (.hang, st) => (.hang, st) := rfl
  unfold Spec
  rw [e]
  generalize x st = p at *
  obtain ⟨r, st'⟩ := p
  cases r with
  | ok a =>
    cases g with
    | ok b =>
      simp only [Ends] at hx
      have := hf st' a b hx.1 hx.2.1 hx.2.2
      unfold Spec at this
      simp only [Res.bind]
      generalize f a st' = p at *
      obtain ⟨r, st2⟩ := p
      generalize h b = gb at *
      cases r <;> cases gb <;> simp only [Ends] at this ⊢
      · exact ⟨this.1, fun w hw => by rw [this.2.1 w hw, hx.2.1 w (hLA w hw)], this.2.2⟩
      · exact ⟨this.1, fun w hw => by rw [this.2 w hw, hx.2.1 w (hPA w hw)]⟩
    | panic => exact hx.elim
    | hang => exact hx.elim
  | panic => cases g <;> simp only [Ends] at hx ⊢ <;> exact hx
  | hang => cases g <;> simp only [Ends] at hx ⊢ <;> exact hx

theorem Spec.pur {st : IntStore} {L : List Nat} (h : Own N st L) (r : Res α) :
    Spec N (Act.pur r) st r L L (same α) := by
  unfold Spec Act.pur
  cases r <;> simp [Ends, same, h]

theorem Spec.pur_word {st : IntStore} {w : Nat} {L : List Nat} (P : List Nat) (h : Own N st (w :: L))
    {b : BInt} (hb : view st w = .ok b) : Spec N (Act.pur (.ok w)) st (.ok b) L P word :=
  ⟨h, fun _ _ => rfl, hb⟩

theorem Spec.hang {st : IntStore} {L P : List Nat} {k : Kind α β} :
    Spec N (Act.pur .hang) st .hang L P k := trivial

theorem Spec.read {st : IntStore} {L : List Nat} (h : Own N st L) {f : IntStore → Res α} {r : Res α}
    (hf : f st = r) : Spec N (Act.read f) st r L L (same α) := by
  subst hf
  unfold Spec Act.read
  cases f st <;> simp [Ends, same, h]

theorem drop_own {st : IntStore} {w : Nat} {L : List Nat} (h : Own N st (w :: L)) :
    ∃ st', BigWord.drop st w = .ok st' ∧ Own N st' L ∧ ∀ c ∈ L, view st' c = view st c := by
  obtain ⟨live, h1, h2, h3, h4⟩ := h
  obtain ⟨k, hk⟩ := mem_live h2 (a := w) (by simp)
  have hok : ∃ st', BigWord.drop st w = .ok st' := by
    unfold BigWord.drop
    by_cases hi : BigWord.inline (tag w) = true
    · rw [if_pos hi]; exact ⟨_, rfl⟩
    · rw [if_neg hi]
      have hi : BigWord.inline (tag w) = false := by simpa using hi
      obtain ⟨ids, hc⟩ := h1.client
      obtain ⟨s, v, h1, h2⟩ := hc.given _ (hc.owned _ (refsOf_pos hk hi))
      unfold Intern.decr
      rw [slot_eq, h1]
      exact ⟨_, rfl⟩
  obtain ⟨st', e⟩ := hok
  obtain ⟨g1, g2⟩ := drop_inv .debug h1 hk e
  have hp : ((live.set k none).filterMap id).Perm L :=
    List.Perm.cons_inv ((perm_set hk).symm.trans h2)
  refine ⟨st', e, ⟨_, g1, hp, ?_⟩, ?_⟩
  · rcases step_length h1 (WStep.drop (m := .debug) ⟨st, live⟩ k w st' hk e) with h | ⟨h, h'⟩
    · dsimp only at h; omega
    · exfalso
      have e1 : (BigWord.drop st w) = .ok st' := e
      unfold BigWord.drop at e1
      by_cases hi : BigWord.inline (tag w) = true
      · rw [if_pos hi, Res.ok.injEq] at e1
        subst e1; dsimp only at h; omega
      · rw [if_neg hi] at e1
        unfold Intern.decr at e1
        obtain ⟨s, _, e2⟩ := Res.bind_eq_ok' e1
        rw [Res.ok.injEq] at e2
        have : st'.length = st.length := by rw [← e2]; simp [setSlot]
        dsimp only at h; omega
  · intro c hc
    obtain ⟨j, hj⟩ := mem_live hp hc
    exact g2 j c hj

theorem call_ok {f : IntStore → Res (IntStore × α)} {st st' : IntStore} {a : α}
    (h : f st = .ok (st', a)) : Act.call f st = (.ok a, st') := by
  unfold Act.call
  rw [h]

theorem dropWord_ok {st st' : IntStore} {w : Nat} (h : BigWord.drop st w = .ok st') :
    (dropWord w) st = (.ok (), st') := by
  unfold dropWord
  exact call_ok (by rw [h]; rfl)

theorem Spec.drop {st : IntStore} {w : Nat} {L : List Nat} (P : List Nat) (h : Own N st (w :: L)) :
    Spec N (dropWord w) st (.ok ()) L P (same Unit) := by
  obtain ⟨st', h1, h2, h3⟩ := drop_own h
  unfold Spec
  rw [dropWord_ok h1]
  exact ⟨by simpa [same] using h2, h3, rfl⟩

theorem Spec.owning {x : Act α} {st : IntStore} {g : Res β} {w : Nat} {L P : List Nat}
    {k : Kind α β} (h : Spec N x st g (w :: L) (w :: P) k) : Spec N (Act.owning w x) st g L P k := by
  unfold Spec Act.owning at *
  generalize x st = p at *
  obtain ⟨r, st1⟩ := p
  cases r with
  | ok a =>
    cases g with
    | ok b =>
      simp only [Ends] at h ⊢
      obtain ⟨st2, h1, h2, h3⟩ := drop_own (h.1.perm (L' := w :: (k.words a ++ L))
        List.perm_middle)
      have e : (dropWord w).bind (fun _ => Act.pur (.ok a)) st1 = (.ok a, st2) := by
        unfold Act.bind Act.pur
        rw [dropWord_ok h1]
      rw [e]
      refine ⟨h2, ?_, ?_⟩
      · intro c hc
        rw [h3 c (List.mem_append_right _ hc), h.2.1 c (by simp [hc])]
      · exact k.stable _ _ _ _ (fun c hc => h3 c (List.mem_append_left _ hc)) h.2.2
    | panic => exact h.elim
    | hang => exact h.elim
  | panic =>
    cases g with
    | panic =>
      simp only [Ends] at h ⊢
      obtain ⟨st2, h1, h2, h3⟩ := drop_own h.1
      have e : ((dropWord w) st1).2 = st2 := by
        rw [dropWord_ok h1]
      rw [e]
      exact ⟨h2, fun c hc => by rw [h3 c hc, h.2 c (by simp [hc])]⟩
    | ok b => exact h.elim
    | hang => exact h.elim
  | hang => cases g <;> simp only [Ends] at h ⊢ <;> exact h

theorem Spec.guarding {x : Act α} {st : IntStore} {g : Res β} {w : Nat} {L P : List Nat}
    {k : Kind α β} (h : Spec N x st g L (w :: P) k) : Spec N (Act.guarding w x) st g L P k := by
  unfold Spec Act.guarding at *
  generalize x st = p at *
  obtain ⟨r, st1⟩ := p
  cases r with
  | ok a => cases g <;> simp only [Ends] at h ⊢ <;> exact h
  | panic =>
    cases g with
    | panic =>
      simp only [Ends] at h ⊢
      obtain ⟨st2, h1, h2, h3⟩ := drop_own h.1
      have e : ((dropWord w) st1).2 = st2 := by
        rw [dropWord_ok h1]
      rw [e]
      exact ⟨h2, fun c hc => by rw [h3 c hc, h.2 c (by simp [hc])]⟩
    | ok b => exact h.elim
    | hang => exact h.elim
  | hang => cases g <;> simp only [Ends] at h ⊢ <;> exact h

theorem bound_own {live : List (Option Nat)} {L : List Nat} (hp : (live.filterMap id).Perm L)
    (hb : L.length < N) (hN : N ≤ 2 ^ 61) : live.countP Option.isSome < 2 ^ 64 - 1 := by
  rw [countP_isSome, hp.length_eq]
  omega

theorem Spec.clone (m : Mode) {st : IntStore} {a : Nat} {L : List Nat} (h : Own N st L) (ha : a ∈ L)
    (hb : L.length < N) {b : BInt} (hv : view st a = .ok b) :
    Spec N (BigOwn.clone m a) st (.ok b) L L word := by
  obtain ⟨live, h1, h2, h3, h4⟩ := h
  obtain ⟨k, hk⟩ := mem_live h2 ha
  have hbd := bound_own h2 hb h4
  have hok : ∃ st', BigWord.clone m st a = .ok (st', a) ∧ st'.length = st.length := by
    unfold BigWord.clone
    by_cases hi : BigWord.inline (tag a) = true
    · rw [if_pos hi]; exact ⟨_, rfl, rfl⟩
    · rw [if_neg hi]
      have hi : BigWord.inline (tag a) = false := by simpa using hi
      obtain ⟨ids, hc⟩ := h1.client
      obtain ⟨s, v, g1, g2⟩ := hc.given _ (hc.owned _ (refsOf_pos hk hi))
      have := hc.bound (bound_of (x := ⟨st, live⟩) hbd) _ _ g1
      unfold Intern.incr
      rw [slot_eq, g1]
      simp only [Res.ofOption, Res.bind]
      unfold incrInner
      rw [if_neg (by omega)]
      exact ⟨_, rfl, by simp [setSlot]⟩
  obtain ⟨st', e, e'⟩ := hok
  obtain ⟨_, g2, g3⟩ := clone_inv h1 hbd hk e
  unfold Spec BigOwn.clone
  rw [call_ok e]
  refine ⟨⟨_, g2, ?_, by rw [e']; exact h3, h4⟩, ?_, ?_⟩
  · simp only [List.filterMap_append, word]
    exact List.perm_append_comm.trans (List.Perm.append_left _ h2)
  · intro c hc
    obtain ⟨j, hj⟩ := mem_live h2 hc
    exact g3 j c hj
  · show view st' a = .ok b
    rw [g3 k a hk]; exact hv

theorem newSlice_run {m : Mode} {st st' : IntStore} {s : List (BitVec 64)} {neg : Bool} {w : Nat}
    (h : BigWord.newSlice m st s neg = .ok (st', w)) :
    (newSlice m s neg) st = (.ok w, st') := by
  unfold BigWord.newSlice at h
  obtain ⟨v, h1, h2⟩ := Res.bind_eq_ok' h
  have e : (newSlice m s neg) st = (if v.length = 1 ∧ (v.getD 0 0).toNat ≤ inlineMax
      then Act.pur (BigWord.newInline (v.getD 0 0) neg) else newIntern m v neg) st := by
    unfold newSlice Act.bind Act.pur
    rw [h1]
  rw [e]
  by_cases hc : v.length = 1 ∧ (v.getD 0 0).toNat ≤ inlineMax
  · rw [if_pos hc] at h2 ⊢
    obtain ⟨w', h3, h4⟩ := Res.bind_eq_ok' h2
    rw [Res.ok.injEq, Prod.mk.injEq] at h4
    obtain ⟨rfl, rfl⟩ := h4
    unfold Act.pur
    rw [h3]
  · rw [if_neg hc] at h2 ⊢
    unfold BigWord.newIntern at h2
    obtain ⟨⟨st2, id⟩, h3, h4⟩ := Res.bind_eq_ok' h2
    obtain ⟨w', h5, h6⟩ := Res.bind_eq_ok' h4
    rw [Res.ok.injEq, Prod.mk.injEq] at h6
    obtain ⟨rfl, rfl⟩ := h6
    unfold newIntern Act.bind Act.pur
    rw [call_ok h3]
    simp only
    rw [h5]

theorem Spec.newSlice (m : Mode) {st : IntStore} {L : List Nat} (h : Own N st L)
    (hb : L.length < N) (s : List (BitVec 64)) (neg : Bool) :
    Spec N (BigOwn.newSlice m s neg) st (BInt.newSlice s neg) L L word := by
  by_cases hs : s = []
  · subst hs
    have e1 : BInt.newSlice [] neg = .panic := by unfold BInt.newSlice; rw [shrink_nil]; rfl
    have e2 : (BigOwn.newSlice m [] neg) st = (.panic, st) := by
      unfold BigOwn.newSlice Act.bind Act.pur; rw [shrink_nil]
    unfold Spec
    rw [e1, e2]
    exact ⟨h, fun _ _ => rfl⟩
  · obtain ⟨live, h1, h2, h3, h4⟩ := h
    have hbd := bound_own h2 hb h4
    have hok : ∃ st' w, BigWord.newSlice m st s neg = .ok (st', w) := by
      obtain ⟨t, t1, _⟩ := shrink_ok s hs
      unfold BigWord.newSlice
      rw [t1]
      simp only [Res.bind]
      by_cases hc : t.length = 1 ∧ (t.getD 0 0).toNat ≤ inlineMax
      · rw [if_pos hc]
        unfold BigWord.newInline BigWord.new
        rw [if_pos hc.2]
        exact ⟨_, _, rfl⟩
      · rw [if_neg hc]
        obtain ⟨ids, hcl⟩ := h1.client
        obtain ⟨st', id, g1, _, g2⟩ := add_spec hcl.wf m t
          (hcl.bound (bound_of (x := ⟨st, live⟩) hbd))
        have hid : id ≤ inlineMax := by
          rw [inlineMax_eq]
          rcases g2 with ⟨s', g3, _⟩ | ⟨g3, _⟩
          · have := (at_isSome hcl.wf id).mp ⟨s', g3⟩
            dsimp only at this; omega
          · dsimp only at g3; omega
        unfold BigWord.newIntern BigWord.new
        rw [g1]
        simp only [Res.bind]
        rw [if_pos hid]
        exact ⟨_, _, rfl⟩
    obtain ⟨st', w, e⟩ := hok
    obtain ⟨g1, g2, b, g3, g4⟩ := make_inv h1 hbd e
    have hlen := make_length h1 hbd e
    unfold Spec
    rw [newSlice_run e, g3]
    refine ⟨⟨_, g1, ?_, ?_, h4⟩, ?_, g4⟩
    · simp only [List.filterMap_append, word]
      exact List.perm_append_comm.trans (List.Perm.append_left _ h2)
    · rcases hlen with h | ⟨h, h'⟩
      · dsimp only at h; rw [h]; exact h3
      · rw [countP_isSome, List.filterMap_append, List.length_append, h2.length_eq] at h'
        simp at h' h
        dsimp only
        omega
    · intro c hc
      obtain ⟨j, hj⟩ := mem_live h2 hc
      exact g2 j c hj

end BigOwn

end Verif
