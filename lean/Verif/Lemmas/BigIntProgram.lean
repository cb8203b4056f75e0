import Verif.Lemmas.BigIntOwnOps

/-!
# Programs on words do what programs on values do
-/

namespace Verif

open BInt Intern BigWord

namespace BigOwn

open Act

variable {α β : Type} {N : Nat}

/-- A variable that holds a word, and one that holds the value that the word stands for. -/
def VarRel (st : IntStore) : Option Nat → Option BInt → Prop
  | some w, some x => view st w = .ok x
  | none, none => True
  | _, _ => False

/-- The words in the variables stand for the values. -/
def Reads (st : IntStore) (ws : List (Option Nat)) (xs : List (Option BInt)) : Prop :=
  ws.length = xs.length ∧ ∀ (i : Nat) o o', ws[i]? = some o → xs[i]? = some o' → VarRel st o o'

theorem Reads.var {st : IntStore} {ws : List (Option Nat)} {xs : List (Option BInt)}
    (h : Reads st ws xs) (j : Nat) :
    (BigOwn.var ws j = none ∧ BigOwn.var xs j = none) ∨ ∃ a x, BigOwn.var ws j = some a ∧
      BigOwn.var xs j = some x ∧ view st a = .ok x ∧ ws[j]? = some (some a) := by
  unfold BigOwn.var
  by_cases hj : j < ws.length
  · have hj' : j < xs.length := by rw [← h.1]; exact hj
    have e1 := List.getElem?_eq_getElem hj
    have e2 := List.getElem?_eq_getElem hj'
    have := h.2 j _ _ e1 e2
    rw [e1, e2]
    generalize ws[j] = o at *
    generalize xs[j] = o' at *
    cases o with
    | none =>
      cases o' with
      | none => exact .inl ⟨rfl, rfl⟩
      | some x => exact this.elim
    | some a =>
      cases o' with
      | none => exact this.elim
      | some x => exact .inr ⟨a, x, rfl, rfl, this, rfl⟩
  · have hj' : ¬ j < xs.length := by rw [← h.1]; exact hj
    rw [List.getElem?_eq_none (by omega), List.getElem?_eq_none (by omega)]
    exact .inl ⟨rfl, rfl⟩

theorem Reads.set {st : IntStore} {ws : List (Option Nat)} {xs : List (Option BInt)}
    (h : Reads st ws xs) (j : Nat) {o : Option Nat} {o' : Option BInt} (ho : VarRel st o o') :
    Reads st (ws.set j o) (xs.set j o') := by
  refine ⟨by simpa using h.1, ?_⟩
  intro i p p' hp hp'
  rw [List.getElem?_set] at hp hp'
  by_cases hij : j = i
  · rw [if_pos hij] at hp hp'
    split at hp
    · split at hp'
      · simp only [Option.some.injEq] at hp hp'
        subst hp hp'; exact ho
      · cases hp'
    · cases hp
  · rw [if_neg hij] at hp hp'
    exact h.2 i p p' hp hp'

theorem Reads.append {st : IntStore} {ws : List (Option Nat)} {xs : List (Option BInt)}
    (h : Reads st ws xs) {o : Option Nat} {o' : Option BInt} (ho : VarRel st o o') :
    Reads st (ws ++ [o]) (xs ++ [o']) := by
  refine ⟨by simpa using h.1, ?_⟩
  intro i p p' hp hp'
  by_cases hi : i < ws.length
  · rw [List.getElem?_append_left hi] at hp
    rw [List.getElem?_append_left (by rw [← h.1]; exact hi)] at hp'
    exact h.2 i p p' hp hp'
  · rw [List.getElem?_append_right (by omega)] at hp
    rw [List.getElem?_append_right (by rw [← h.1]; omega), ← h.1] at hp'
    generalize i - ws.length = n at *
    cases n with
    | zero =>
      simp only [List.getElem?_cons_zero, Option.some.injEq] at hp hp'
      subst hp hp'; exact ho
    | succ n => simp at hp

theorem Reads.left {st : IntStore} {ws : List (Option Nat)} {xs : List (Option BInt)}
    (h : Reads st ws xs) (c : Call) : Reads st (c.left ws) (c.left xs) := by
  unfold Call.left
  induction c.moves generalizing ws xs with
  | nil => exact h
  | cons j js ih => exact ih (h.set j trivial)

theorem Reads.keep {st st' : IntStore} {ws : List (Option Nat)} {xs : List (Option BInt)}
    (h : Reads st ws xs) (hk : ∀ w ∈ ws.filterMap id, view st' w = view st w) : Reads st' ws xs := by
  refine ⟨h.1, ?_⟩
  intro i o o' ho ho'
  have := h.2 i o o' ho ho'
  cases o with
  | none => cases o' <;> exact this
  | some w =>
    cases o' with
    | none => exact this
    | some x =>
      show view st' w = .ok x
      rw [hk w (List.mem_filterMap.mpr ⟨_, List.mem_of_getElem? ho, rfl⟩)]
      exact this

/-- Results of calls. -/
def result : Kind (Option Nat × Shown) (Option BInt × Shown) where
  words r := r.1.toList
  rel v r r' := r.2 = r'.2 ∧ match r.1, r'.1 with
    | some w, some b => v w = .ok b
    | none, none => True
    | _, _ => False
  stable v v' a b h hr := by
    obtain ⟨o, s⟩ := a
    obtain ⟨o', s'⟩ := b
    refine ⟨hr.1, ?_⟩
    have hr := hr.2
    cases o with
    | none => cases o' <;> exact hr
    | some w =>
      cases o' with
      | none => exact hr
      | some b =>
        dsimp only at hr ⊢
        rw [h w (by simp)]; exact hr

theorem Spec.give {x : Act Nat} {st : IntStore} {g : Res BInt} {L P : List Nat}
    (h : Spec N x st g L P word) : Spec N (BigOwn.give x) st (giveV g) L P result := by
  unfold Spec BigOwn.give giveV Act.bind at *
  generalize x st = p at *
  obtain ⟨r, st'⟩ := p
  cases r <;> cases g <;> simp only [Ends] at h ⊢
  · exact ⟨h.1, h.2.1, rfl, h.2.2⟩
  · exact h
  · trivial

theorem Spec.tell {x : Act α} {st : IntStore} {g : Res α} {L P : List Nat} (f : α → Shown)
    (h : Spec N x st g L P (same α)) : Spec N (BigOwn.tell f x) st (tellV f g) L P result := by
  unfold Spec BigOwn.tell tellV Act.bind at *
  generalize x st = p at *
  obtain ⟨r, st'⟩ := p
  cases r <;> cases g <;> simp only [Ends] at h ⊢
  · refine ⟨h.1, h.2.1, ?_, trivial⟩
    have := h.2.2
    simp only [same] at this
    rw [this]
  · exact h
  · trivial

theorem take_one {st : IntStore} {ws : List (Option Nat)} (h : Own N st (ws.filterMap id))
    (hN : (ws.filterMap id).length + 8 < N) {j a : Nat} (hj : ws[j]? = some (some a)) :
    Own N st (a :: (ws.set j none).filterMap id) ∧ ((ws.set j none).filterMap id).length + 8 < N := by
  have hp := perm_set hj
  refine ⟨h.perm hp, ?_⟩
  have := hp.length_eq
  rw [List.length_cons] at this
  omega

theorem set_other {ws : List (Option Nat)} {j k b : Nat} (hjk : j ≠ k) (hk : ws[k]? = some (some b)) :
    (ws.set j none)[k]? = some (some b) := by
  rw [List.getElem?_set_ne hjk]; exact hk

theorem mem_vars {ws : List (Option Nat)} {k b : Nat} (hk : ws[k]? = some (some b)) :
    b ∈ ws.filterMap id := List.mem_filterMap.mpr ⟨_, List.mem_of_getElem? hk, rfl⟩

/-- The variables that stay when the call returns, its result aside. -/
def Call.kept (c : Call) (ws : List (Option Nat)) : List (Option Nat) :=
  match c.target with
  | some j => (c.left ws).set j none
  | none => c.left ws

theorem eq_own {st : IntStore} {L : List Nat} (h : Own N st L) {a b : Nat} (ha : a ∈ L) (hb : b ∈ L)
    {x y : BInt} (hx : view st a = .ok x) (hy : view st b = .ok y) :
    BigWord.eq st a b = .ok (BInt.eq x y) := by
  have ⟨_, x', ex, rx⟩ := h.word ha
  have ⟨_, y', ey, ry⟩ := h.word hb
  rw [hx, Res.ok.injEq] at ex
  rw [hy, Res.ok.injEq] at ey
  subst ex ey
  obtain ⟨live, h1, h2, h3, h4⟩ := h
  obtain ⟨j, hj⟩ := mem_live h2 ha
  obtain ⟨k, hk⟩ := mem_live h2 hb
  obtain ⟨r, e, hr⟩ := eq_words h1 (List.mem_of_getElem? hj) (List.mem_of_getElem? hk) hx hy
  dsimp only at e
  rw [e]
  have key : BInt.eq x y = true ↔ x = y := by
    unfold BInt.eq
    by_cases h : x = y
    · simp [h]
    · rw [if_neg h]
      constructor
      · intro he
        split at he
        · rename_i hc
          have hl : x.limbs = y.limbs := by simpa using he
          exact Rep.ext rx ry hc.1 (by rw [hl])
        · cases he
      · intro he; exact (h he).elim
  congr 1
  exact Bool.eq_iff_iff.mpr (hr.trans key.symm)

set_option maxHeartbeats 1000000 in
/-- Every call on words is sound. -/
theorem call_sim (m : Mode) (c : Call) {st : IntStore} {ws : List (Option Nat)}
    {xs : List (Option BInt)} (hr : Reads st ws xs) (h : Own N st (ws.filterMap id))
    (hN : (ws.filterMap id).length + 8 < N) :
    (c.run m ws = none ∧ c.runValue m xs = none) ∨
    ∃ act g, c.run m ws = some act ∧ c.runValue m xs = some g ∧
      (∀ j, c.target = some j → j < ws.length ∧ ∃ x, act = give x) ∧
      Spec N act st g ((c.kept ws).filterMap id) ((c.left ws).filterMap id) result := by
  have none1 : ∀ {γ δ : Type} {j : Nat} {f : Nat → γ} {f' : BInt → δ},
      BigOwn.var ws j = none → BigOwn.var xs j = none →
      (BigOwn.var ws j).map f = none ∧ (BigOwn.var xs j).map f' = none := by
    intro γ δ j f f' e1 e2; rw [e1, e2]; exact ⟨rfl, rfl⟩
  have noT : ∀ {act : Act (Option Nat × Shown)}, c.target = none →
      ∀ j, c.target = some j → j < ws.length ∧ ∃ x, act = BigOwn.give x := by
    intro act e j hj; rw [e] at hj; cases hj
  cases c with
  | ofPrim p =>
    exact .inr ⟨_, _, rfl, rfl, noT rfl, Spec.give (Spec.fromPrim m h (by omega) p)⟩
  | parse s radix =>
    refine .inr ⟨_, _, rfl, rfl, noT rfl, ?_⟩
    have hs := Spec.fromStrRadix m s radix h (by omega)
    refine Spec.bind hs (fun _ h => h) (fun _ h => h) ?_
    intro st' r r' h1 h2 h3
    cases r with
    | ok w =>
      cases r' with
      | ok x => exact ⟨h1, fun _ _ => rfl, rfl, h3⟩
      | error e => exact h3.elim
    | error e =>
      cases r' with
      | ok x => exact h3.elim
      | error e' =>
        have h3 : e = e' := h3
        subst h3
        exact ⟨h1, fun _ _ => rfl, rfl, trivial⟩
  | clone j =>
    rcases hr.var j with ⟨e1, e2⟩ | ⟨a, x, e1, e2, hv, hj⟩
    · exact .inl (none1 e1 e2)
    · refine .inr ⟨give (BigOwn.clone m a), giveV (.ok x), by simp only [Call.run, e1]; rfl,
        by simp only [Call.runValue, e2]; rfl, noT rfl, ?_⟩
      exact Spec.give (Spec.clone m h (mem_vars hj) (by omega) hv)
  | drop j =>
    rcases hr.var j with ⟨e1, e2⟩ | ⟨a, x, e1, e2, hv, hj⟩
    · exact .inl (none1 e1 e2)
    · obtain ⟨h1, hN1⟩ := take_one h hN hj
      refine .inr ⟨tell (fun _ => .nothing) (dropWord a), tellV (fun _ => .nothing) (.ok ()),
        by simp only [Call.run, e1]; rfl, by simp only [Call.runValue, e2]; rfl, noT rfl, ?_⟩
      exact Spec.tell _ (Spec.drop _ h1)
  | op o vj vk j k =>
    by_cases hc : j = k ∧ (vj = true ∨ vk = true)
    · exact .inl ⟨by simp only [Call.run, if_pos hc], by simp only [Call.runValue, if_pos hc]⟩
    · rcases hr.var j with ⟨e1, e2⟩ | ⟨a, x, e1, e2, hv, hj⟩
      · exact .inl ⟨by simp only [Call.run, if_neg hc, e1]; rfl,
          by simp only [Call.runValue, if_neg hc, e2]; rfl⟩
      · rcases hr.var k with ⟨f1, f2⟩ | ⟨b, y, f1, f2, hw, hk⟩
        · exact .inl ⟨by simp only [Call.run, if_neg hc, e1, f1]; rfl,
            by simp only [Call.runValue, if_neg hc, e2, f2]; rfl⟩
        · refine .inr ⟨give (BigOwn.op m o vj vk a b), giveV (o.value m x y),
            by simp only [Call.run, if_neg hc, e1, f1]; rfl,
            by simp only [Call.runValue, if_neg hc, e2, f2]; rfl, noT rfl, Spec.give ?_⟩
          refine Spec.op m o vj vk h (by omega) ?_ (mem_vars hk) hv hw
          show (ws.filterMap id).Perm (taken vk b ++ (taken vj a ++ List.filterMap id
            (((if vj = true then [j] else []) ++ (if vk = true then [k] else [])).foldl
              (fun vars j => vars.set j none) ws)))
          cases vj <;> cases vk
          · exact List.Perm.refl _
          · exact perm_set hk
          · exact perm_set hj
          · have hjk : j ≠ k := fun e => hc ⟨e, .inl rfl⟩
            exact (perm_set hj).trans ((List.Perm.cons a (perm_set (set_other hjk hk))).trans
              (List.Perm.swap _ _ _))
  | opPrim o j p =>
    rcases hr.var j with ⟨e1, e2⟩ | ⟨a, x, e1, e2, hv, hj⟩
    · exact .inl (none1 e1 e2)
    · obtain ⟨h1, hN1⟩ := take_one h hN hj
      refine .inr ⟨_, _, by simp only [Call.run, e1]; rfl, by simp only [Call.runValue, e2]; rfl,
        noT rfl, ?_⟩
      exact Spec.give (Spec.opPrim m o p h1 (by omega) hv)
  | assign o vk j k =>
    by_cases hc : j = k
    · exact .inl ⟨by simp only [Call.run, if_pos hc], by simp only [Call.runValue, if_pos hc]⟩
    · rcases hr.var j with ⟨e1, e2⟩ | ⟨a, x, e1, e2, hv, hj⟩
      · exact .inl ⟨by simp only [Call.run, if_neg hc, e1]; rfl,
          by simp only [Call.runValue, if_neg hc, e2]; rfl⟩
      · rcases hr.var k with ⟨f1, f2⟩ | ⟨b, y, f1, f2, hw, hk⟩
        · exact .inl ⟨by simp only [Call.run, if_neg hc, e1, f1]; rfl,
            by simp only [Call.runValue, if_neg hc, e2, f2]; rfl⟩
        · refine .inr ⟨give (BigOwn.assign m o vk a b), giveV (o.value m x y),
            by simp only [Call.run, if_neg hc, e1, f1]; rfl,
            by simp only [Call.runValue, if_neg hc, e2, f2]; rfl, fun j' e => by cases e; exact ⟨(List.getElem?_eq_some_iff.mp hj).1, _, rfl⟩,
            Spec.give ?_⟩
          cases vk
          · obtain ⟨h1, hN1⟩ := take_one h hN hj
            exact (Spec.assign m o false (L := (ws.set j none).filterMap id) h1 (by omega)
              ((perm_set hj).mem_iff.mp (mem_vars hk)) hv hw).perm (List.Perm.refl _)
              (perm_set hj).symm
          · obtain ⟨h1, hN1⟩ := take_one h hN hk
            have hj' := set_other (Ne.symm hc) hj
            have hp := perm_set hj'
            have h2 : Own N st (a :: (taken true b ++ ((ws.set k none).set j none).filterMap id)) :=
              h1.perm ((List.Perm.cons b hp).trans (List.Perm.swap _ _ _))
            have := hp.length_eq
            rw [List.length_cons] at this
            exact (Spec.assign m o true h2 (by omega) (by simp [taken]) hv hw).perm
              (List.Perm.refl _) hp.symm
  | assignPrim o j p =>
    rcases hr.var j with ⟨e1, e2⟩ | ⟨a, x, e1, e2, hv, hj⟩
    · exact .inl (none1 e1 e2)
    · obtain ⟨h1, hN1⟩ := take_one h hN hj
      refine .inr ⟨give (BigOwn.assignPrim m o a p), _, by simp only [Call.run, e1]; rfl,
        by simp only [Call.runValue, e2]; rfl, fun j' e => by cases e; exact ⟨(List.getElem?_eq_some_iff.mp hj).1, _, rfl⟩, ?_⟩
      exact Spec.give ((Spec.assignPrim m o p h1 (by omega) hv).perm (List.Perm.refl _)
        (perm_set hj).symm)
  | not j =>
    rcases hr.var j with ⟨e1, e2⟩ | ⟨a, x, e1, e2, hv, hj⟩
    · exact .inl (none1 e1 e2)
    · obtain ⟨h1, hN1⟩ := take_one h hN hj
      refine .inr ⟨_, _, by simp only [Call.run, e1]; rfl, by simp only [Call.runValue, e2]; rfl,
        noT rfl, ?_⟩
      exact Spec.give (Spec.not m h1 (by omega) hv)
  | neg j =>
    rcases hr.var j with ⟨e1, e2⟩ | ⟨a, x, e1, e2, hv, hj⟩
    · exact .inl (none1 e1 e2)
    · obtain ⟨h1, hN1⟩ := take_one h hN hj
      refine .inr ⟨_, _, by simp only [Call.run, e1]; rfl, by simp only [Call.runValue, e2]; rfl,
        noT rfl, ?_⟩
      exact Spec.give (Spec.neg _ h1 hv)
  | negRef j =>
    rcases hr.var j with ⟨e1, e2⟩ | ⟨a, x, e1, e2, hv, hj⟩
    · exact .inl (none1 e1 e2)
    · refine .inr ⟨_, _, by simp only [Call.run, e1]; rfl, by simp only [Call.runValue, e2]; rfl,
        noT rfl, ?_⟩
      exact Spec.give (Spec.negRef m h (mem_vars hj) (by omega) hv)
  | abs j =>
    rcases hr.var j with ⟨e1, e2⟩ | ⟨a, x, e1, e2, hv, hj⟩
    · exact .inl (none1 e1 e2)
    · obtain ⟨h1, hN1⟩ := take_one h hN hj
      refine .inr ⟨_, _, by simp only [Call.run, e1]; rfl, by simp only [Call.runValue, e2]; rfl,
        noT rfl, ?_⟩
      exact Spec.give (Spec.abs _ h1 hv)
  | pow fuel j k =>
    by_cases hc : j = k
    · exact .inl ⟨by simp only [Call.run, if_pos hc], by simp only [Call.runValue, if_pos hc]⟩
    · rcases hr.var j with ⟨e1, e2⟩ | ⟨a, x, e1, e2, hv, hj⟩
      · exact .inl ⟨by simp only [Call.run, if_neg hc, e1]; rfl,
          by simp only [Call.runValue, if_neg hc, e2]; rfl⟩
      · rcases hr.var k with ⟨f1, f2⟩ | ⟨b, y, f1, f2, hw, hk⟩
        · exact .inl ⟨by simp only [Call.run, if_neg hc, e1, f1]; rfl,
            by simp only [Call.runValue, if_neg hc, e2, f2]; rfl⟩
        · refine .inr ⟨give (BigOwn.pow m fuel a b), giveV (BInt.pow m fuel x y),
            by simp only [Call.run, if_neg hc, e1, f1]; rfl,
            by simp only [Call.runValue, if_neg hc, e2, f2]; rfl, noT rfl, Spec.give ?_⟩
          obtain ⟨h1, hN1⟩ := take_one h hN hj
          have hp := perm_set (set_other hc hk)
          have := hp.length_eq
          rw [List.length_cons] at this
          exact Spec.pow m fuel (L := ((ws.set j none).set k none).filterMap id)
            (h1.perm (List.Perm.cons a hp)) (by omega) hv hw
  | eq j k =>
    rcases hr.var j with ⟨e1, e2⟩ | ⟨a, x, e1, e2, hv, hj⟩
    · exact .inl ⟨by simp only [Call.run, e1]; rfl, by simp only [Call.runValue, e2]; rfl⟩
    · rcases hr.var k with ⟨f1, f2⟩ | ⟨b, y, f1, f2, hw, hk⟩
      · exact .inl ⟨by simp only [Call.run, e1, f1]; rfl,
          by simp only [Call.runValue, e2, f2]; rfl⟩
      · refine .inr ⟨_, _, by simp only [Call.run, e1, f1]; rfl,
          by simp only [Call.runValue, e2, f2]; rfl, noT rfl, ?_⟩
        exact Spec.tell _ (Spec.read h (eq_own h (mem_vars hj) (mem_vars hk) hv hw))
  | cmp j k =>
    rcases hr.var j with ⟨e1, e2⟩ | ⟨a, x, e1, e2, hv, hj⟩
    · exact .inl ⟨by simp only [Call.run, e1]; rfl, by simp only [Call.runValue, e2]; rfl⟩
    · rcases hr.var k with ⟨f1, f2⟩ | ⟨b, y, f1, f2, hw, hk⟩
      · exact .inl ⟨by simp only [Call.run, e1, f1]; rfl,
          by simp only [Call.runValue, e2, f2]; rfl⟩
      · refine .inr ⟨_, _, by simp only [Call.run, e1, f1]; rfl,
          by simp only [Call.runValue, e2, f2]; rfl, noT rfl, ?_⟩
        exact Spec.tell _ (Spec.cmp h hv hw)
  | eqPrim j p =>
    rcases hr.var j with ⟨e1, e2⟩ | ⟨a, x, e1, e2, hv, hj⟩
    · exact .inl (none1 e1 e2)
    · refine .inr ⟨_, _, by simp only [Call.run, e1]; rfl, by simp only [Call.runValue, e2]; rfl,
        noT rfl, ?_⟩
      have hs := Spec.eqPrim m h p hv
      cases p <;> exact Spec.tell _ hs
  | cmpPrim j p =>
    rcases hr.var j with ⟨e1, e2⟩ | ⟨a, x, e1, e2, hv, hj⟩
    · exact .inl (none1 e1 e2)
    · refine .inr ⟨_, _, by simp only [Call.run, e1]; rfl, by simp only [Call.runValue, e2]; rfl,
        noT rfl, ?_⟩
      exact Spec.tell _ (Spec.cmpPrim m h (by omega) p (mem_vars hj) hv)
  | tryU t v j =>
    rcases hr.var j with ⟨e1, e2⟩ | ⟨a, x, e1, e2, hv, hj⟩
    · exact .inl (none1 e1 e2)
    · refine .inr ⟨_, _, by simp only [Call.run, e1]; rfl, by simp only [Call.runValue, e2]; rfl,
        noT rfl, Spec.tell _ (Spec.moved ?_)⟩
      have hs := Spec.tryU (t := t + 1) (by omega) m h (by omega) (mem_vars hj) hv
      cases v
      · exact hs
      · exact hs.perm (perm_set hj) (perm_set hj)
  | tryS t v j =>
    rcases hr.var j with ⟨e1, e2⟩ | ⟨a, x, e1, e2, hv, hj⟩
    · exact .inl (none1 e1 e2)
    · refine .inr ⟨_, _, by simp only [Call.run, e1]; rfl, by simp only [Call.runValue, e2]; rfl,
        noT rfl, Spec.tell _ (Spec.moved ?_)⟩
      have hs := Spec.tryS (t := t + 1) (by omega) m h (by omega) (mem_vars hj) hv
      cases v
      · exact hs
      · exact hs.perm (perm_set hj) (perm_set hj)
  | saturateU t j =>
    rcases hr.var j with ⟨e1, e2⟩ | ⟨a, x, e1, e2, hv, hj⟩
    · exact .inl (none1 e1 e2)
    · refine .inr ⟨_, _, by simp only [Call.run, e1]; rfl, by simp only [Call.runValue, e2]; rfl,
        noT rfl, Spec.tell _ ?_⟩
      obtain ⟨h1, hN1⟩ := take_one h hN hj
      exact Spec.map (Spec.owning (Spec.tryU (t := t + 1) (by omega) m h1
        (by rw [List.length_cons]; omega) (by simp) hv)) (fun _ h => h) _
  | saturateS t j =>
    rcases hr.var j with ⟨e1, e2⟩ | ⟨a, x, e1, e2, hv, hj⟩
    · exact .inl (none1 e1 e2)
    · refine .inr ⟨_, _, by simp only [Call.run, e1]; rfl, by simp only [Call.runValue, e2]; rfl,
        noT rfl, Spec.tell _ ?_⟩
      obtain ⟨h1, hN1⟩ := take_one h hN hj
      exact Spec.map (Spec.owning (Spec.tryS (t := t + 1) (by omega) m h1
        (by rw [List.length_cons]; omega) (by simp) hv)) (fun _ h => h) _
  | truncateU t j =>
    rcases hr.var j with ⟨e1, e2⟩ | ⟨a, x, e1, e2, hv, hj⟩
    · exact .inl (none1 e1 e2)
    · refine .inr ⟨_, _, by simp only [Call.run, e1]; rfl, by simp only [Call.runValue, e2]; rfl,
        noT rfl, Spec.tell _ ?_⟩
      obtain ⟨h1, hN1⟩ := take_one h hN hj
      exact Spec.owning (Spec.bind_value hv (Spec.pur h1 _))
  | truncateS t j =>
    rcases hr.var j with ⟨e1, e2⟩ | ⟨a, x, e1, e2, hv, hj⟩
    · exact .inl (none1 e1 e2)
    · refine .inr ⟨_, _, by simp only [Call.run, e1]; rfl, by simp only [Call.runValue, e2]; rfl,
        noT rfl, Spec.tell _ ?_⟩
      obtain ⟨h1, hN1⟩ := take_one h hN hj
      exact Spec.owning (Spec.bind_value hv (Spec.pur h1 _))
  | format fuel base pre chars j =>
    rcases hr.var j with ⟨e1, e2⟩ | ⟨a, x, e1, e2, hv, hj⟩
    · exact .inl (none1 e1 e2)
    · refine .inr ⟨_, _, by simp only [Call.run, e1]; rfl, by simp only [Call.runValue, e2]; rfl,
        noT rfl, Spec.tell _ ?_⟩
      exact Spec.format m fuel base pre chars h (mem_vars hj) (by omega) hv
  | binary j =>
    rcases hr.var j with ⟨e1, e2⟩ | ⟨a, x, e1, e2, hv, hj⟩
    · exact .inl (none1 e1 e2)
    · refine .inr ⟨_, _, by simp only [Call.run, e1]; rfl, by simp only [Call.runValue, e2]; rfl,
        noT rfl, Spec.tell _ ?_⟩
      exact Spec.bind_value hv (Spec.pur h _)

theorem give_some {x : Act Nat} {st st' : IntStore} {r : Option Nat × Shown}
    (h : give x st = (.ok r, st')) : ∃ w, r.1 = some w := by
  unfold give Act.bind at h
  generalize x st = p at *
  obtain ⟨q, st1⟩ := p
  cases q with
  | ok w =>
    simp only [Act.pur, Prod.mk.injEq, Res.ok.injEq] at h
    exact ⟨w, by rw [← h.1]⟩
  | panic => simp at h
  | hang => simp at h

theorem left_length {α : Type} (c : Call) (ws : List (Option α)) :
    (c.left ws).length = ws.length := by
  unfold Call.left
  induction c.moves generalizing ws with
  | nil => rfl
  | cons j js ih => rw [List.foldl_cons, ih]; simp

theorem Reads.alive {st : IntStore} {ws : List (Option Nat)} {xs : List (Option BInt)}
    (h : Reads st ws xs) : (ws.filterMap id).length = xs.countP Option.isSome := by
  induction ws generalizing xs with
  | nil =>
    have := h.1
    cases xs with
    | nil => rfl
    | cons x xs => simp at this
  | cons o ws ih =>
    cases xs with
    | nil => have := h.1; simp at this
    | cons o' xs =>
      have h' : Reads st ws xs := ⟨by simpa using h.1, fun i p p' hp hp' =>
        h.2 (i + 1) p p' (by simpa using hp) (by simpa using hp')⟩
      have ho := h.2 0 o o' rfl rfl
      have := ih h'
      cases o with
      | none =>
        cases o' with
        | none => simpa using this
        | some x => exact ho.elim
      | some w =>
        cases o' with
        | none => exact ho.elim
        | some x =>
          have e : (some w :: ws).filterMap id = w :: ws.filterMap id := rfl
          rw [e, List.length_cons, this]; simp

/-- Every program on words does what it does on values. -/
theorem run_sim (m : Mode) {n : Nat} (hn : n + 9 ≤ N) (prog : List Call) : ∀ {st : IntStore} {ws : List (Option Nat)}
    {xs : List (Option BInt)}, Reads st ws xs → Own N st (ws.filterMap id) →
    AtMost m n prog xs →
    (runWords m prog st ws = none ∧ runValues m prog xs = none) ∨
    ∃ out st' ws' xs', runWords m prog st ws = some (out, st', ws') ∧
      runValues m prog xs = some (out, xs') ∧ Reads st' ws' xs' ∧ Own N st' (ws'.filterMap id) := by
  induction prog with
  | nil => intro st ws xs hr h _; exact .inr ⟨_, _, _, _, rfl, rfl, hr, h⟩
  | cons c cs ih =>
    intro st ws xs hr h hlen
    have hN : (ws.filterMap id).length + 8 < N := by
      rw [hr.alive]
      have := hlen [] (List.nil_prefix) [] xs rfl
      omega
    unfold runWords runValues
    rcases call_sim m c hr h hN with ⟨e1, e2⟩ | ⟨act, g, e1, e2, ht, hs⟩
    · rw [e1, e2]; exact .inl ⟨rfl, rfl⟩
    · rw [e1, e2]
      simp only [Option.bind_some]
      unfold Spec at hs
      cases hp : act st with
      | mk q st' =>
        rw [hp] at hs
        cases q with
        | ok r =>
          cases g with
          | ok r' =>
            obtain ⟨w, s⟩ := r
            obtain ⟨x, s'⟩ := r'
            obtain ⟨h1, h2, h3, h4⟩ := hs
            have h3 : s = s' := h3
            subst h3
            simp only
            have key : Reads st' (c.after ws w) (c.after xs x) ∧
                Own N st' ((c.after ws w).filterMap id) := by
              cases w with
              | none =>
                cases x with
                | some x => exact h4.elim
                | none =>
                  have htn : c.target = none := by
                    cases hc : c.target with
                    | none => rfl
                    | some j =>
                      obtain ⟨_, y, rfl⟩ := ht j hc
                      obtain ⟨w, hw⟩ := give_some hp
                      cases hw
                  have hk : c.kept ws = c.left ws := by unfold Call.kept; rw [htn]
                  rw [hk] at h1 h2
                  exact ⟨(hr.left c).keep h2, h1⟩
              | some w =>
                cases x with
                | none => exact h4.elim
                | some x =>
                  have h4 : view st' w = .ok x := h4
                  have h1 : Own N st' (w :: (c.kept ws).filterMap id) := h1
                  unfold Call.after
                  cases hc : c.target with
                  | none =>
                    have hk : c.kept ws = c.left ws := by unfold Call.kept; rw [hc]
                    rw [hk] at h1 h2
                    simp only
                    refine ⟨((hr.left c).keep h2).append h4, ?_⟩
                    rw [List.filterMap_append]
                    exact h1.perm (List.perm_append_comm (l₁ := [w]))
                  | some j =>
                    have hk : c.kept ws = (c.left ws).set j none := by unfold Call.kept; rw [hc]
                    rw [hk] at h1 h2
                    simp only
                    have e : (c.left ws).set j (some w) = ((c.left ws).set j none).set j (some w) := by
                      rw [List.set_set]
                    have e' : (c.left xs).set j (some x)
                        = ((c.left xs).set j none).set j (some x) := by
                      rw [List.set_set]
                    have hj : j < (c.left ws).length := by rw [left_length]; exact (ht j hc).1
                    constructor
                    · rw [e, e']
                      exact (((hr.left c).set j (o := none) (o' := none) trivial).keep h2).set j h4
                    · refine h1.perm ?_
                      have h6 : ((c.left ws).set j (some w))[j]? = some (some w) :=
                        List.getElem?_set_self hj
                      have := perm_set h6
                      rw [List.set_set] at this
                      exact this.symm
            rcases ih key.1 key.2 (fun p hp out xs' e => hlen (c :: p)
              (List.cons_prefix_cons.mpr ⟨rfl, hp⟩) (some s :: out) xs' (by
                unfold runValues; rw [e2]; simp only [Option.bind_some]; rw [e]; rfl)) with
              ⟨i1, i2⟩ | ⟨out, st2, ws2, xs2, i1, i2, i3, i4⟩
            · rw [i1, i2]; exact .inl ⟨rfl, rfl⟩
            · rw [i1, i2]; exact .inr ⟨_, _, _, _, rfl, rfl, i3, i4⟩
          | panic => exact hs.elim
          | hang => exact hs.elim
        | panic =>
          cases g with
          | panic =>
            obtain ⟨h1, h2⟩ := hs
            simp only
            rcases ih ((hr.left c).keep h2) h1 (fun p hp out xs' e => hlen (c :: p)
              (List.cons_prefix_cons.mpr ⟨rfl, hp⟩) (none :: out) xs' (by
                unfold runValues; rw [e2]; simp only [Option.bind_some]; rw [e]; rfl)) with
              ⟨i1, i2⟩ | ⟨out, st2, ws2, xs2, i1, i2, i3, i4⟩
            · rw [i1, i2]; exact .inl ⟨rfl, rfl⟩
            · rw [i1, i2]; exact .inr ⟨_, _, _, _, rfl, rfl, i3, i4⟩
          | ok r' => exact hs.elim
          | hang => exact hs.elim
        | hang =>
          cases g with
          | hang => exact .inl ⟨rfl, rfl⟩
          | ok r' => exact hs.elim
          | panic => exact hs.elim

end BigOwn

end Verif
