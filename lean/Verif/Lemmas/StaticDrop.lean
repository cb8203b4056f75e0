import Verif.Model.StaticDrop
import Mathlib.Tactic.Common

/-!
# Accounting for the resources of a pipeline
-/

namespace Verif

namespace StaticDrop

variable {W V V' : Type}

/-- The resources of a value returned. -/
def Out.own {α : Type} (f : α → List Tok) : Out α → List Tok
  | .ret a => f a
  | _ => []

/-- What a closure gets and creates it returns or drops, like every function without leaks; if it
panics, it has dropped everything. -/
def Effect.Fair (e : Effect W V) (input : List Tok) : Prop :=
  ∀ t, input.count t + e.created.count t = ((e.out.map Item.own).getD []).count t + e.dropped.count t

/-- An iterator of length `N` polled in order, before the poll of index `k` of which `tail k` is held. -/
def Good (N : Nat) (tail : Nat → List Tok) (it : SIter W V) : Prop :=
  ∃ Inv : Nat → it.St → Prop, Inv 0 it.st ∧
    (∀ k s, Inv k s → ∀ t, (it.held s).count t = (tail k).count t) ∧
    ∀ k s w, k < N → Inv k s → ∃ o s' w', it.idx s k w = (o, s', w') ∧ o ≠ .ub ∧
      (∀ t, (it.held s).count t + w'.created.count t + w.dropped.count t =
        (it.held s').count t + (o.own Item.own).count t + w'.dropped.count t + w.created.count t) ∧
      (∀ a, o = .ret a → Inv (k + 1) s') ∧
      (∀ t, (tail (k + 1)).count t ≤ (it.held s').count t ∧
        (it.held s').count t ≤ (it.held s).count t)

theorem count_owned_drop {l : List (Item V)} {k : Nat} (h : k < l.length) (t : Tok) :
    (owned (l.drop k)).count t = l[k].own.count t + (owned (l.drop (k + 1))).count t := by
  rw [List.drop_eq_getElem_cons h]
  simp only [owned, List.map_cons, List.flatten_cons, List.count_append]

theorem slots_state (l : List (Item V)) (k : Nat) :
    slots (List.replicate k none ++ (l.drop k).map some) = owned (l.drop k) := by
  have h1 : ∀ l : List (Item V), slots (l.map some) = owned l := by
    intro l
    induction l with
    | nil => rfl
    | cons a l ih => simp [slots, owned, ih]
  induction k with
  | zero => simp [h1]
  | succ k ih =>
    have h2 : ∀ (n : Nat) (s : List (Option (Item V))), slots (List.replicate n none ++ s) = slots s := by
      intro n s
      induction n with
      | zero => rfl
      | succ n ih => simp [List.replicate_succ, slots, ih]
    rw [h2, h1]

theorem good_array (l : List (Item V)) :
    Good l.length (fun k => owned (l.drop k)) (intoIter (W := W) l) := by
  refine ⟨fun k s => s = List.replicate k none ++ (l.drop k).map some, by simp [intoIter], ?_, ?_⟩
  · rintro k s rfl t
    exact congrArg _ (slots_state l k)
  · rintro k s w hk rfl
    have e : (List.replicate k none ++ (l.drop k).map some)[k]? = some (some l[k]) := by
      rw [List.getElem?_append_right (by simp)]
      simp [hk]
    have e2 : (List.replicate k none ++ (l.drop k).map some).set k none =
        List.replicate (k + 1) none ++ (l.drop (k + 1)).map some := by
      rw [List.set_append_right _ _ (by simp), List.drop_eq_getElem_cons hk, List.length_replicate,
        Nat.sub_self, List.map_cons, List.set_cons_zero, List.replicate_succ', List.append_assoc]
      rfl
    refine ⟨.ret l[k], List.replicate (k + 1) none ++ (l.drop (k + 1)).map some, w, ?_, by simp, ?_,
      fun _ _ => rfl, ?_⟩
    · show (match (List.replicate k none ++ (l.drop k).map some)[k]? with
        | some (some a) => (Out.ret a, (List.replicate k none ++ (l.drop k).map some).set k none, w)
        | _ => (.ub, _, w)) = _
      rw [e, e2]; rfl
    · intro t
      have q1 : ((intoIter (W := W) l).held (List.replicate k none ++ (l.drop k).map some)).count t =
          (owned (l.drop k)).count t := congrArg _ (slots_state l k)
      have q2 : ((intoIter (W := W) l).held
          (List.replicate (k + 1) none ++ (l.drop (k + 1)).map some)).count t =
          (owned (l.drop (k + 1))).count t := congrArg _ (slots_state l (k + 1))
      rw [count_owned_drop hk t] at q1
      have q3 : (Out.own Item.own (Out.ret l[k])).count t = l[k].own.count t := rfl
      omega
    · intro t
      have q1 : ((intoIter (W := W) l).held (List.replicate k none ++ (l.drop k).map some)).count t =
          (owned (l.drop k)).count t := congrArg _ (slots_state l k)
      have q2 : ((intoIter (W := W) l).held
          (List.replicate (k + 1) none ++ (l.drop (k + 1)).map some)).count t =
          (owned (l.drop (k + 1))).count t := congrArg _ (slots_state l (k + 1))
      rw [count_owned_drop hk t] at q1
      dsimp only
      omega

theorem good_refs (l : List V) : Good l.length (fun _ => []) (refIter (W := W) l) := by
  refine ⟨fun _ _ => True, trivial, fun _ _ _ _ => rfl, ?_⟩
  intro k s w hk _
  refine ⟨.ret ⟨l[k], []⟩, (), w, ?_, by simp, ?_, fun _ _ => trivial, fun t => ?_⟩
  · show (match l[k]? with
      | some a => ((Out.ret ⟨a, []⟩ : Out (Item V)), (), w)
      | none => (.ub, (), w)) = _
    rw [List.getElem?_eq_getElem hk]; rfl
  · intro t
    show ([] : List Tok).count t + _ + _ = ([] : List Tok).count t + _ + _ + _
    simp [Out.own]; omega
  · show _ ≤ ([] : List Tok).count t ∧ ([] : List Tok).count t ≤ ([] : List Tok).count t
    simp

theorem good_map {N : Nat} {tail : Nat → List Tok} {it : SIter W V} (h : Good N tail it)
    (f : Item V → W → Effect W V') (hf : ∀ a w, (f a w).Fair a.own) : Good N tail (map it f) := by
  obtain ⟨Inv, h0, h1, h2⟩ := h
  refine ⟨Inv, h0, h1, fun k s w hk hs => ?_⟩
  obtain ⟨o, s', w', e, hu, hc, hi, hl⟩ := h2 k s w hk hs
  cases o with
  | ub => exact absurd rfl hu
  | panic =>
    refine ⟨.panic, s', w', ?_, by simp, ?_, fun a ha => by simp at ha, hl⟩
    · simp only [map, e]
    · exact hc
  | ret a =>
    have hfa := hf a w'.env
    unfold Effect.Fair at hfa
    have hA : ∀ t, (w'.after (f a w'.env)).created.count t = w'.created.count t +
        (f a w'.env).created.count t := by intro t; simp [World.after]
    have hD : ∀ t, (w'.after (f a w'.env)).dropped.count t = w'.dropped.count t +
        (f a w'.env).dropped.count t := by intro t; simp [World.after]
    simp only [Out.own] at hc
    cases hb : (f a w'.env).out with
    | none =>
      refine ⟨.panic, s', w'.after (f a w'.env), ?_, by simp, ?_, fun a ha => by simp at ha, hl⟩
      · simp only [map, e, hb]
      · intro t
        have := hc t
        have h4 := hfa t
        rw [hb] at h4
        simp only [Option.map_none, Option.getD_none, List.count_nil] at h4
        show (it.held s).count t + _ + _ = (it.held s').count t + _ + _ + _
        rw [hA, hD]
        simp only [Out.own, List.count_nil]
        omega
    | some b =>
      refine ⟨.ret b, s', w'.after (f a w'.env), ?_, by simp, ?_, fun _ _ => hi a rfl, hl⟩
      · simp only [map, e, hb]
      · intro t
        have := hc t
        have h4 := hfa t
        rw [hb] at h4
        simp only [Option.map_some, Option.getD_some] at h4
        show (it.held s).count t + _ + _ = (it.held s').count t + _ + _ + _
        rw [hA, hD]
        simp only [Out.own]
        omega

theorem good_enumerate {N : Nat} {tail : Nat → List Tok} {it : SIter W V} (h : Good N tail it) :
    Good N tail (enumerate it) := by
  obtain ⟨Inv, h0, h1, h2⟩ := h
  refine ⟨Inv, h0, h1, fun k s w hk hs => ?_⟩
  obtain ⟨o, s', w', e, hu, hc, hi, hl⟩ := h2 k s w hk hs
  cases o with
  | ub => exact absurd rfl hu
  | panic =>
    refine ⟨.panic, s', w', ?_, by simp, ?_, fun a ha => by simp at ha, hl⟩
    · simp only [enumerate, e]
    · exact hc
  | ret a =>
    refine ⟨.ret ⟨(k, a.val), a.own⟩, s', w', ?_, by simp, ?_, fun _ _ => hi a rfl, hl⟩
    · simp only [enumerate, e]
    · exact hc

/-- A pair of iterators polled one after the other, whatever is made of the two elements. -/
def pair {U : Type} (mk : V → V' → U) (l : SIter W V) (r : SIter W V') : SIter W U where
  St := l.St × r.St
  st := (l.st, r.st)
  idx s i w :=
    match l.idx s.1 i w with
    | (.ret a, s₁, w) =>
      match r.idx s.2 i w with
      | (.ret b, s₂, w) => (.ret ⟨mk a.val b.val, a.own ++ b.own⟩, (s₁, s₂), w)
      | (.panic, s₂, w) => (.panic, (s₁, s₂), w.drop a.own)
      | (.ub, s₂, w) => (.ub, (s₁, s₂), w)
    | (.panic, s₁, w) => (.panic, (s₁, s.2), w)
    | (.ub, s₁, w) => (.ub, (s₁, s.2), w)
  held s := l.held s.1 ++ r.held s.2

theorem good_pair {U : Type} {N : Nat} {tl tr : Nat → List Tok} {l : SIter W V} {r : SIter W V'}
    (hl : Good N tl l) (hr : Good N tr r) (mk : V → V' → U) :
    Good N (fun k => tl k ++ tr k) (pair mk l r) := by
  obtain ⟨I, a0, a1, a2⟩ := hl
  obtain ⟨J, b0, b1, b2⟩ := hr
  refine ⟨fun k s => I k s.1 ∧ J k s.2, ⟨a0, b0⟩, fun k s hs t => ?_, ?_⟩
  · simp only [pair, List.count_append, a1 k _ hs.1 t, b1 k _ hs.2 t]
  · rintro k ⟨s, u⟩ w hk ⟨hs, hu⟩
    obtain ⟨o, s', w', e, hub, hc, hi, hll⟩ := a2 k s w hk hs
    have htr : ∀ t, (tr (k + 1)).count t ≤ (r.held u).count t := by
      intro t
      obtain ⟨_, _, _, _, _, _, _, hq⟩ := b2 k u w hk hu
      have := hq t
      omega
    cases o with
    | ub => exact absurd rfl hub
    | panic =>
      refine ⟨.panic, (s', u), w', by simp only [pair, e], by simp, ?_, fun a ha => by simp at ha, ?_⟩
      · intro t
        have := hc t
        simp only [pair, Out.own, List.count_nil, List.count_append] at this ⊢
        omega
      · intro t
        have := hll t
        have := htr t
        simp only [pair, List.count_append]
        omega
    | ret a =>
      obtain ⟨p, u', x', g, gub, gc, gi, gll⟩ := b2 k u w' hk hu
      cases p with
      | ub => exact absurd rfl gub
      | panic =>
        refine ⟨.panic, (s', u'), x'.drop a.own, by simp only [pair, e, g], by simp, ?_,
          fun a ha => by simp at ha, ?_⟩
        · intro t
          have h1 := hc t
          have h2 := gc t
          simp only [pair, Out.own, List.count_nil, List.count_append, World.drop] at h1 h2 ⊢
          omega
        · intro t
          have := hll t
          have := gll t
          simp only [pair, List.count_append]
          omega
      | ret b =>
        refine ⟨.ret ⟨mk a.val b.val, a.own ++ b.own⟩, (s', u'), x', by simp only [pair, e, g], by simp, ?_,
          fun _ _ => ⟨hi a rfl, gi b rfl⟩, ?_⟩
        · intro t
          have h1 := hc t
          have h2 := gc t
          simp only [pair, Out.own, List.count_append] at h1 h2 ⊢
          omega
        · intro t
          have := hll t
          have := gll t
          simp only [pair, List.count_append]
          omega

theorem good_zip {N : Nat} {tl tr : Nat → List Tok} {l : SIter W V} {r : SIter W V'}
    (hl : Good N tl l) (hr : Good N tr r) : Good N (fun k => tl k ++ tr k) (zip l r) :=
  good_pair hl hr Prod.mk

theorem good_zipCons {N : Nat} {tl tr : Nat → List Tok} {l : SIter W V} {r : SIter W (List V)}
    (hl : Good N tl l) (hr : Good N tr r) : Good N (fun k => tl k ++ tr k) (zipCons l r) := by
  have e : zipCons l r = pair (fun a b => a :: b) l r := by
    unfold zipCons pair
    congr 1
    funext s i w
    rcases l.idx s.1 i w with ⟨_ | _ | _, s₁, w₁⟩
    · dsimp only
      rcases r.idx s.2 i w₁ with ⟨_ | _ | _, s₂, w₂⟩ <;> rfl
    · rfl
    · rfl
  rw [e]
  exact good_pair hl hr _

theorem good_zipNil (N : Nat) : Good N (fun _ => []) (zipNil (W := W) (V := V)) := by
  refine ⟨fun _ _ => True, trivial, fun _ _ _ _ => rfl, ?_⟩
  intro k s w hk _
  refine ⟨.ret ⟨[], []⟩, (), w, rfl, by simp, ?_, fun _ _ => trivial, fun t => ?_⟩
  · intro t
    show ([] : List Tok).count t + _ + _ = ([] : List Tok).count t + _ + _ + _
    simp [Out.own]; omega
  · show _ ≤ ([] : List Tok).count t ∧ ([] : List Tok).count t ≤ ([] : List Tok).count t
    simp

/-! ### The consumers -/

/-- What is known of the end of a consumer that began with `tail k`, having the resources `acc` in
hand: everything is accounted for, and if it was left early, during the poll of `j`, what is leaked
besides `buf` is between `tail (j + 1)` and `tail j`. -/
structure Ends {α : Type} (N : Nat) (tail : Nat → List Tok) (k : Nat) (acc : List Tok) (w : World W)
    (f : α → List Tok) (r : End W α) : Prop where
  defined : r.out ≠ .ub
  account : ∀ t, acc.count t + (tail k).count t + r.world.created.count t + w.dropped.count t =
    (r.out.own f).count t + r.world.dropped.count t + r.leaked.count t + w.created.count t

theorem range'_succ_cons {N k : Nat} (h : k < N) :
    List.range' k (N - k) = k :: List.range' (k + 1) (N - (k + 1)) := by
  have : N - k = (N - (k + 1)) + 1 := by omega
  rw [this, List.range'_succ]

theorem collectArrayFrom_spec {N : Nat} {tail : Nat → List Tok} {it : SIter W V} {Inv : Nat → it.St → Prop}
    (h1 : ∀ k s, Inv k s → ∀ t, (it.held s).count t = (tail k).count t)
    (h2 : ∀ k s w, k < N → Inv k s → ∃ o s' w', it.idx s k w = (o, s', w') ∧ o ≠ .ub ∧
      (∀ t, (it.held s).count t + w'.created.count t + w.dropped.count t =
        (it.held s').count t + (o.own Item.own).count t + w'.dropped.count t + w.created.count t) ∧
      (∀ a, o = .ret a → Inv (k + 1) s') ∧
      (∀ t, (tail (k + 1)).count t ≤ (it.held s').count t ∧
        (it.held s').count t ≤ (it.held s).count t))
    (n : Nat) : ∀ (k : Nat) (hk : k + n = N) (acc : List (Item V)) (s : it.St) (w : World W)
    (hs : Inv k s),
    Ends N tail k (owned acc) w owned (collectArrayFrom it (List.range' k (N - k)) acc s w) ∧
    ((∃ l, (collectArrayFrom it (List.range' k (N - k)) acc s w).out = .ret l ∧
      l.length = acc.length + n ∧
      ∀ t, (collectArrayFrom it (List.range' k (N - k)) acc s w).leaked.count t = (tail N).count t) ∨
    ((collectArrayFrom it (List.range' k (N - k)) acc s w).out = .panic ∧ ∃ j, k ≤ j ∧ j < N ∧
      ∀ t, (tail (j + 1)).count t ≤
          (collectArrayFrom it (List.range' k (N - k)) acc s w).leaked.count t ∧
        (collectArrayFrom it (List.range' k (N - k)) acc s w).leaked.count t ≤ (tail j).count t)) := by
  induction n with
  | zero =>
    intro k hk acc s w hs
    have e : N - k = 0 := by omega
    rw [e]
    refine ⟨⟨by simp [collectArrayFrom], fun t => ?_⟩, Or.inl ⟨acc, rfl, by simp, fun t => ?_⟩⟩
    · have := h1 k s hs t
      simp only [List.range'_zero, collectArrayFrom, Out.own]
      omega
    · have := h1 k s hs t
      have hkN : k = N := by omega
      subst hkN
      exact this
  | succ n ih =>
    intro k hk acc s w hs
    rw [range'_succ_cons (by omega)]
    obtain ⟨o, s', w', e, hu, hc, hi, hl⟩ := h2 k s w (by omega) hs
    cases o with
    | ub => exact absurd rfl hu
    | panic =>
      have e' : collectArrayFrom it (k :: List.range' (k + 1) (N - (k + 1))) acc s w =
          ⟨.panic, it.held s', w'.drop (owned acc)⟩ := by
        simp only [collectArrayFrom, e]
      rw [e']
      refine ⟨⟨by simp, fun t => ?_⟩, Or.inr ⟨rfl, k, Nat.le_refl _, by omega, fun t => ?_⟩⟩
      · have h3 := h1 k s hs t
        have h4 := hc t
        simp only [Out.own, List.count_nil, World.drop, List.count_append] at h4 ⊢
        omega
      · have h3 := h1 k s hs t
        have h4 := hl t
        dsimp only
        omega
    | ret a =>
      have e' : collectArrayFrom it (k :: List.range' (k + 1) (N - (k + 1))) acc s w =
          collectArrayFrom it (List.range' (k + 1) (N - (k + 1))) (acc ++ [a]) s' w' := by
        simp only [collectArrayFrom, e]
      rw [e']
      obtain ⟨g1, g2⟩ := ih (k + 1) (by omega) (acc ++ [a]) s' w' (hi a rfl)
      refine ⟨⟨g1.defined, fun t => ?_⟩, ?_⟩
      · have h3 := h1 k s hs t
        have h5 := h1 (k + 1) s' (hi a rfl) t
        have h4 := hc t
        have h6 := g1.account t
        simp only [owned, List.map_append, List.flatten_append, List.count_append, Out.own,
          List.map_cons, List.map_nil, List.flatten_cons, List.flatten_nil, List.append_nil] at h4 h6 ⊢
        omega
      · rcases g2 with ⟨l, q1, q2, q3⟩ | ⟨q1, j, q2, q3, q4⟩
        · exact Or.inl ⟨l, q1, by simp at q2; omega, q3⟩
        · exact Or.inr ⟨q1, j, by omega, q3, q4⟩

theorem collectTryFrom_spec {X O : Type} (cls : V → X ⊕ O) {N : Nat} {tail : Nat → List Tok}
    {it : SIter W V} {Inv : Nat → it.St → Prop}
    (h1 : ∀ k s, Inv k s → ∀ t, (it.held s).count t = (tail k).count t)
    (h2 : ∀ k s w, k < N → Inv k s → ∃ o s' w', it.idx s k w = (o, s', w') ∧ o ≠ .ub ∧
      (∀ t, (it.held s).count t + w'.created.count t + w.dropped.count t =
        (it.held s').count t + (o.own Item.own).count t + w'.dropped.count t + w.created.count t) ∧
      (∀ a, o = .ret a → Inv (k + 1) s') ∧
      (∀ t, (tail (k + 1)).count t ≤ (it.held s').count t ∧
        (it.held s').count t ≤ (it.held s).count t))
    (n : Nat) : ∀ (k : Nat) (hk : k + n = N) (acc : List (Item X)) (s : it.St) (w : World W)
    (hs : Inv k s),
    Ends N tail k (owned acc) w (Sum.elim owned Item.own)
      (collectTryFrom cls it (List.range' k (N - k)) acc s w) ∧
    ((∃ l, (collectTryFrom cls it (List.range' k (N - k)) acc s w).out = .ret (.inl l) ∧
      l.length = acc.length + n ∧
      ∀ t, (collectTryFrom cls it (List.range' k (N - k)) acc s w).leaked.count t = (tail N).count t) ∨
    ((∀ l, (collectTryFrom cls it (List.range' k (N - k)) acc s w).out ≠ .ret (.inl l)) ∧
      ∃ j, k ≤ j ∧ j < N ∧ ∀ t, (tail (j + 1)).count t ≤
          (collectTryFrom cls it (List.range' k (N - k)) acc s w).leaked.count t)) := by
  induction n with
  | zero =>
    intro k hk acc s w hs
    have e : N - k = 0 := by omega
    rw [e]
    refine ⟨⟨by simp [collectTryFrom], fun t => ?_⟩, Or.inl ⟨acc, rfl, by simp, fun t => ?_⟩⟩
    · have := h1 k s hs t
      simp only [List.range'_zero, collectTryFrom, Out.own, Sum.elim_inl]
      omega
    · have := h1 k s hs t
      have hkN : k = N := by omega
      subst hkN
      exact this
  | succ n ih =>
    intro k hk acc s w hs
    rw [range'_succ_cons (by omega)]
    obtain ⟨o, s', w', e, hu, hc, hi, hl⟩ := h2 k s w (by omega) hs
    cases o with
    | ub => exact absurd rfl hu
    | panic =>
      have e' : collectTryFrom cls it (k :: List.range' (k + 1) (N - (k + 1))) acc s w =
          ⟨.panic, owned acc ++ it.held s', w'⟩ := by
        simp only [collectTryFrom, e]
      rw [e']
      refine ⟨⟨by simp, fun t => ?_⟩, Or.inr ⟨by simp, k, Nat.le_refl _, by omega, fun t => ?_⟩⟩
      · have h3 := h1 k s hs t
        have h4 := hc t
        simp only [Out.own, List.count_nil, List.count_append] at h4 ⊢
        omega
      · have h4 := hl t
        simp only [List.count_append]
        omega
    | ret a =>
      cases hcl : cls a.val with
      | inr o =>
        have e' : collectTryFrom cls it (k :: List.range' (k + 1) (N - (k + 1))) acc s w =
            ⟨.ret (.inr ⟨o, a.own⟩), owned acc ++ it.held s', w'⟩ := by
          simp only [collectTryFrom, e, hcl]
        rw [e']
        refine ⟨⟨by simp, fun t => ?_⟩, Or.inr ⟨by simp, k, Nat.le_refl _, by omega, fun t => ?_⟩⟩
        · have h3 := h1 k s hs t
          have h4 := hc t
          simp only [Out.own, Sum.elim_inr, List.count_append] at h4 ⊢
          omega
        · have h4 := hl t
          simp only [List.count_append]
          omega
      | inl x =>
        have e' : collectTryFrom cls it (k :: List.range' (k + 1) (N - (k + 1))) acc s w =
            collectTryFrom cls it (List.range' (k + 1) (N - (k + 1))) (acc ++ [⟨x, a.own⟩]) s' w' := by
          simp only [collectTryFrom, e, hcl]
        rw [e']
        obtain ⟨g1, g2⟩ := ih (k + 1) (by omega) (acc ++ [⟨x, a.own⟩]) s' w' (hi a rfl)
        refine ⟨⟨g1.defined, fun t => ?_⟩, ?_⟩
        · have h3 := h1 k s hs t
          have h5 := h1 (k + 1) s' (hi a rfl) t
          have h4 := hc t
          have h6 := g1.account t
          simp only [owned, List.map_append, List.flatten_append, List.count_append, Out.own,
            List.map_cons, List.map_nil, List.flatten_cons, List.flatten_nil, List.append_nil] at h4 h6 ⊢
          omega
        · rcases g2 with ⟨l, q1, q2, q3⟩ | ⟨q1, j, q2, q3, q4⟩
          · exact Or.inl ⟨l, q1, by simp at q2; omega, q3⟩
          · exact Or.inr ⟨q1, j, by omega, q3, q4⟩

theorem tryFoldFrom_spec {G E : Type} (f : Item G → Item V → W → Effect W (G ⊕ E))
    (hf : ∀ g a w, (f g a w).Fair (g.own ++ a.own)) {N : Nat} {tail : Nat → List Tok}
    {it : SIter W V} {Inv : Nat → it.St → Prop}
    (h1 : ∀ k s, Inv k s → ∀ t, (it.held s).count t = (tail k).count t)
    (h2 : ∀ k s w, k < N → Inv k s → ∃ o s' w', it.idx s k w = (o, s', w') ∧ o ≠ .ub ∧
      (∀ t, (it.held s).count t + w'.created.count t + w.dropped.count t =
        (it.held s').count t + (o.own Item.own).count t + w'.dropped.count t + w.created.count t) ∧
      (∀ a, o = .ret a → Inv (k + 1) s') ∧
      (∀ t, (tail (k + 1)).count t ≤ (it.held s').count t ∧
        (it.held s').count t ≤ (it.held s).count t))
    (n : Nat) : ∀ (k : Nat) (hk : k + n = N) (acc : Item G) (s : it.St) (w : World W)
    (hs : Inv k s),
    Ends N tail k acc.own w (Sum.elim Item.own Item.own)
      (tryFoldFrom it f (List.range' k (N - k)) acc s w) ∧
    ((∃ g, (tryFoldFrom it f (List.range' k (N - k)) acc s w).out = .ret (.inl g) ∧
      ∀ t, (tryFoldFrom it f (List.range' k (N - k)) acc s w).leaked.count t = (tail N).count t) ∨
    ((∀ g, (tryFoldFrom it f (List.range' k (N - k)) acc s w).out ≠ .ret (.inl g)) ∧
      ∃ j, k ≤ j ∧ j < N ∧ ∀ t, (tail (j + 1)).count t ≤
          (tryFoldFrom it f (List.range' k (N - k)) acc s w).leaked.count t ∧
        (tryFoldFrom it f (List.range' k (N - k)) acc s w).leaked.count t ≤ (tail j).count t)) := by
  induction n with
  | zero =>
    intro k hk acc s w hs
    have e : N - k = 0 := by omega
    rw [e]
    refine ⟨⟨by simp [tryFoldFrom], fun t => ?_⟩, Or.inl ⟨acc, rfl, fun t => ?_⟩⟩
    · have := h1 k s hs t
      simp only [List.range'_zero, tryFoldFrom, Out.own, Sum.elim_inl]
      omega
    · have := h1 k s hs t
      have hkN : k = N := by omega
      subst hkN
      exact this
  | succ n ih =>
    intro k hk acc s w hs
    rw [range'_succ_cons (by omega)]
    obtain ⟨o, s', w', e, hu, hc, hi, hl⟩ := h2 k s w (by omega) hs
    have hA : ∀ a t, (w'.after (f acc a w'.env)).created.count t = w'.created.count t +
        (f acc a w'.env).created.count t := by intro a t; simp [World.after]
    have hD : ∀ a t, (w'.after (f acc a w'.env)).dropped.count t = w'.dropped.count t +
        (f acc a w'.env).dropped.count t := by intro a t; simp [World.after]
    cases o with
    | ub => exact absurd rfl hu
    | panic =>
      have e' : tryFoldFrom it f (k :: List.range' (k + 1) (N - (k + 1))) acc s w =
          ⟨.panic, it.held s', w'.drop acc.own⟩ := by
        simp only [tryFoldFrom, e]
      rw [e']
      refine ⟨⟨by simp, fun t => ?_⟩, Or.inr ⟨by simp, k, Nat.le_refl _, by omega, fun t => ?_⟩⟩
      · have h3 := h1 k s hs t
        have h4 := hc t
        simp only [Out.own, List.count_nil, World.drop, List.count_append] at h4 ⊢
        omega
      · have h3 := h1 k s hs t
        have h4 := hl t
        dsimp only
        omega
    | ret a =>
      have hfa := hf acc a w'.env
      unfold Effect.Fair at hfa
      match hb : (f acc a w'.env).out with
      | none =>
        have e' : tryFoldFrom it f (k :: List.range' (k + 1) (N - (k + 1))) acc s w =
            ⟨.panic, it.held s', w'.after (f acc a w'.env)⟩ := by
          simp only [tryFoldFrom, e, hb]
        rw [e']
        refine ⟨⟨by simp, fun t => ?_⟩, Or.inr ⟨by simp, k, Nat.le_refl _, by omega, fun t => ?_⟩⟩
        · have h3 := h1 k s hs t
          have h4 := hc t
          have h5 := hfa t
          rw [hb] at h5
          dsimp only
          rw [hA, hD]
          simp only [Out.own, List.count_nil, List.count_append, Option.map_none,
            Option.getD_none] at h4 h5 ⊢
          omega
        · have h3 := h1 k s hs t
          have h4 := hl t
          dsimp only
          omega
      | some ⟨.inr x, own⟩ =>
        have e' : tryFoldFrom it f (k :: List.range' (k + 1) (N - (k + 1))) acc s w =
            ⟨.ret (.inr ⟨x, own⟩), it.held s', w'.after (f acc a w'.env)⟩ := by
          simp only [tryFoldFrom, e, hb]
        rw [e']
        refine ⟨⟨by simp, fun t => ?_⟩, Or.inr ⟨by simp, k, Nat.le_refl _, by omega, fun t => ?_⟩⟩
        · have h3 := h1 k s hs t
          have h4 := hc t
          have h5 := hfa t
          rw [hb] at h5
          dsimp only
          rw [hA, hD]
          simp only [Out.own, List.count_append, Option.map_some, Option.getD_some,
            Sum.elim_inr] at h4 h5 ⊢
          omega
        · have h3 := h1 k s hs t
          have h4 := hl t
          dsimp only
          omega
      | some ⟨.inl x, own⟩ =>
        have e' : tryFoldFrom it f (k :: List.range' (k + 1) (N - (k + 1))) acc s w =
            tryFoldFrom it f (List.range' (k + 1) (N - (k + 1))) ⟨x, own⟩ s'
              (w'.after (f acc a w'.env)) := by
          simp only [tryFoldFrom, e, hb]
        rw [e']
        obtain ⟨g1, g2⟩ := ih (k + 1) (by omega) ⟨x, own⟩ s' (w'.after (f acc a w'.env)) (hi a rfl)
        refine ⟨⟨g1.defined, fun t => ?_⟩, ?_⟩
        · have h3 := h1 k s hs t
          have h7 := h1 (k + 1) s' (hi a rfl) t
          have h4 := hc t
          have h5 := hfa t
          have h6 := g1.account t
          rw [hb] at h5
          rw [hA, hD] at h6
          simp only [Out.own, List.count_append, Option.map_some, Option.getD_some] at h4 h5 h6 ⊢
          omega
        · rcases g2 with ⟨l, q1, q3⟩ | ⟨q1, j, q2, q3, q4⟩
          · exact Or.inl ⟨l, q1, q3⟩
          · exact Or.inr ⟨q1, j, by omega, q3, q4⟩

end StaticDrop

end Verif
