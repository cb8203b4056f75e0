import Verif.Lemmas.BigIntOwn
import Verif.Model.BigIntProgram

/-!
# What each `BigInt` function does to the store
-/

namespace Verif

open BInt Intern BigWord

namespace BigOwn

open Act

variable {α β γ δ : Type} {N : Nat}

/-- Sequencing after code that has to return. -/
theorem Spec.seq {x : Act α} {f : α → Act γ} {st : IntStore} {b : β} {g : Res δ}
    {A L P Q : List Nat} {k : Kind α β} {k' : Kind γ δ}
    (hx : Spec N x st (.ok b) A Q k) (hLA : ∀ w ∈ L, w ∈ A) (hPA : ∀ w ∈ P, w ∈ A)
    (hf : ∀ st' a, Own N st' (k.words a ++ A) → (∀ w ∈ A, view st' w = view st w) →
      k.rel (view st') a b → Spec N (f a) st' g L P k') :
    Spec N (x.bind f) st g L P k' := by
  unfold Spec at hx
  have e : (x.bind f) st = match x st with
    | (.ok a, st) => f a st
    | (.panic, st) => (.panic, st)
    | (.hang, st) => (.hang, st) := rfl
  unfold Spec
  rw [e]
  generalize x st = p at *
  obtain ⟨r, st'⟩ := p
  cases r with
  | ok a =>
    simp only [Ends] at hx
    have := hf st' a hx.1 hx.2.1 hx.2.2
    unfold Spec at this
    simp only
    generalize f a st' = p at *
    obtain ⟨r, st2⟩ := p
    cases r <;> cases g <;> simp only [Ends] at this ⊢
    · exact ⟨this.1, fun w hw => by rw [this.2.1 w hw, hx.2.1 w (hLA w hw)], this.2.2⟩
    · exact ⟨this.1, fun w hw => by rw [this.2 w hw, hx.2.1 w (hPA w hw)]⟩
  | panic => exact hx.elim
  | hang => exact hx.elim

theorem Spec.bind_pur {r : Res α} {f : α → Act γ} {st : IntStore} {h : α → Res δ}
    {L P : List Nat} {k : Kind γ δ} (hP : Own N st P)
    (hf : ∀ a, r = .ok a → Spec N (f a) st (h a) L P k) :
    Spec N ((Act.pur r).bind f) st (r.bind h) L P k := by
  cases r with
  | ok a => exact hf a rfl
  | panic => exact ⟨hP, fun _ _ => rfl⟩
  | hang => trivial

theorem Spec.bind_value {a : Nat} {b : BInt} {f : BInt → Act γ} {st : IntStore} {g : Res δ}
    {L P : List Nat} {k : Kind γ δ} (hv : view st a = .ok b) (hf : Spec N (f b) st g L P k) :
    Spec N ((value a).bind f) st g L P k := by
  have e1 : value a st = (.ok b, st) := by
    show (view st a, st) = _
    rw [hv]
  have e : ((value a).bind f) st = f b st := by
    unfold Act.bind
    rw [e1]
  unfold Spec at *
  rw [e]
  exact hf

theorem Spec.fromPrim (m : Mode) {st : IntStore} {L : List Nat} (h : Own N st L)
    (hb : L.length < N) (p : Prim) : Spec N (BigOwn.fromPrim m p) st p.value L L word := by
  cases p with
  | u t v => exact Spec.bind_pur h fun a _ => Spec.newSlice m h hb a _
  | s t v => exact Spec.bind_pur h fun a _ => Spec.newSlice m h hb a _

theorem Spec.cmp {st : IntStore} {L : List Nat} (h : Own N st L) {a b : Nat} {x y : BInt}
    (ha : view st a = .ok x) (hb : view st b = .ok y) :
    Spec N (Act.read fun st => BigWord.cmp st a b) st (.ok (BInt.cmp x y)) L L (same Ordering) :=
  Spec.read h (C47_cmp_words_partial ⟨st, []⟩ a b x y ha hb)

theorem Spec.cmpPrim (m : Mode) {st : IntStore} {L : List Nat} (h : Own N st L)
    (hb : L.length < N) (p : Prim) {a : Nat} (ha : a ∈ L) {x : BInt} (hv : view st a = .ok x) :
    Spec N (BigOwn.cmpPrim m a p) st (p.value.bind fun y => .ok (BInt.cmp x y)) L L
      (same Ordering) := by
  refine Spec.bind (Spec.fromPrim m h hb p) (fun _ h => h) (fun _ h => h) ?_
  intro st' w y h1 h2 h3
  exact Spec.owning (Spec.cmp h1 (by rw [h2 a ha]; exact hv) h3)

theorem Spec.eqPrim (m : Mode) {st : IntStore} {L : List Nat} (h : Own N st L) (p : Prim) {a : Nat}
    {x : BInt} (hv : view st a = .ok x) :
    Spec N (BigOwn.eqPrim m a p) st (match p with
      | .u t v => BInt.eqU t x v
      | .s t v => BInt.eqS t m x v) L L (same Bool) := by
  cases p with
  | u t v => exact Spec.bind_value hv (Spec.pur h _)
  | s t v => exact Spec.bind_value hv (Spec.pur h _)

theorem Spec.tryU {t : Nat} (ht : 0 < t) (m : Mode) {st : IntStore} {L : List Nat} (h : Own N st L)
    (hb : L.length < N) {a : Nat} (ha : a ∈ L) {x : BInt} (hv : view st a = .ok x) :
    Spec N (BigOwn.tryU t m a) st (BInt.tryIntoU t m x) L L (same _) := by
  obtain ⟨mx, e1, _⟩ := fromU_spec ht (BitVec.allOnes t)
  obtain ⟨mn, e2, _⟩ := fromU_spec ht (0 : BitVec t)
  unfold BInt.tryIntoU BigOwn.tryU
  rw [e1, e2]
  simp only [Res.bind]
  have c1 := Spec.cmpPrim m h hb (.u t (BitVec.allOnes t)) ha hv
  have e1' : (Prim.u t (BitVec.allOnes t)).value = .ok mx := e1
  rw [e1'] at c1
  refine Spec.seq c1 (fun _ h => h) (fun _ h => h) ?_
  intro st1 c h1 k1 r1
  have r1 : c = BInt.cmp x mx := r1
  subst r1
  have h1 : Own N st1 L := h1
  by_cases hc : BInt.cmp x mx = .gt
  · rw [if_pos hc, if_pos hc]
    exact Spec.pur h1 _
  · rw [if_neg hc, if_neg hc]
    have hv1 : view st1 a = .ok x := by rw [k1 a ha]; exact hv
    have c2 := Spec.cmpPrim m h1 hb (.u t 0) ha hv1
    have e2' : (Prim.u t 0).value = .ok mn := e2
    rw [e2'] at c2
    refine Spec.seq c2 (fun _ h => h) (fun _ h => h) ?_
    intro st2 c h2 k2 r2
    have r2 : c = BInt.cmp x mn := r2
    subst r2
    have h2 : Own N st2 L := h2
    by_cases hc : BInt.cmp x mn = .lt
    · rw [if_pos hc, if_pos hc]
      exact Spec.pur h2 _
    · rw [if_neg hc, if_neg hc]
      exact Spec.bind_value (by rw [k2 a ha]; exact hv1) (Spec.pur h2 _)

theorem Spec.tryS {t : Nat} (ht : 0 < t) (m : Mode) {st : IntStore} {L : List Nat} (h : Own N st L)
    (hb : L.length < N) {a : Nat} (ha : a ∈ L) {x : BInt} (hv : view st a = .ok x) :
    Spec N (BigOwn.tryS t m a) st (BInt.tryIntoS t m x) L L (same _) := by
  obtain ⟨mx, e1, _⟩ := fromS_spec ht (BitVec.intMax t)
  obtain ⟨mn, e2, _⟩ := fromS_spec ht (BitVec.intMin t)
  unfold BInt.tryIntoS BigOwn.tryS
  rw [e1, e2]
  simp only [Res.bind]
  have c1 := Spec.cmpPrim m h hb (.s t (BitVec.intMax t)) ha hv
  have e1' : (Prim.s t (BitVec.intMax t)).value = .ok mx := e1
  rw [e1'] at c1
  refine Spec.seq c1 (fun _ h => h) (fun _ h => h) ?_
  intro st1 c h1 k1 r1
  have r1 : c = BInt.cmp x mx := r1
  subst r1
  have h1 : Own N st1 L := h1
  by_cases hc : BInt.cmp x mx = .gt
  · rw [if_pos hc, if_pos hc]
    exact Spec.pur h1 _
  · rw [if_neg hc, if_neg hc]
    have hv1 : view st1 a = .ok x := by rw [k1 a ha]; exact hv
    have c2 := Spec.cmpPrim m h1 hb (.s t (BitVec.intMin t)) ha hv1
    have e2' : (Prim.s t (BitVec.intMin t)).value = .ok mn := e2
    rw [e2'] at c2
    refine Spec.seq c2 (fun _ h => h) (fun _ h => h) ?_
    intro st2 c h2 k2 r2
    have r2 : c = BInt.cmp x mn := r2
    subst r2
    have h2 : Own N st2 L := h2
    by_cases hc : BInt.cmp x mn = .lt
    · rw [if_pos hc, if_pos hc]
      exact Spec.pur h2 _
    · rw [if_neg hc, if_neg hc]
      exact Spec.bind_value (by rw [k2 a ha]; exact hv1) (Spec.pur h2 _)

/-- The word itself, if it is moved. -/
def taken (v : Bool) (a : Nat) : List Nat := if v then [a] else []

theorem Spec.moved {v : Bool} {a : Nat} {f : Act α} {st : IntStore} {g : Res β} {L P : List Nat}
    {k : Kind α β} (h : Spec N f st g (taken v a ++ L) (taken v a ++ P) k) :
    Spec N (BigOwn.moved v a f) st g L P k := by
  cases v with
  | false => exact h
  | true => exact Spec.owning h

theorem Spec.map {x : Act α} {st : IntStore} {g : Res α} {L P : List Nat} (hx : Spec N x st g L P (same α))
    (hPL : ∀ w ∈ P, w ∈ L) (f : α → β) :
    Spec N (x.bind fun a => Act.pur (.ok (f a))) st (g.bind fun a => .ok (f a)) L P (same β) := by
  refine Spec.bind hx (fun _ h => h) hPL ?_
  intro st' a b h1 h2 h3
  have h3 : a = b := h3
  subst h3
  exact ⟨h1, fun _ _ => rfl, rfl⟩

theorem Spec.shiftAmount (m : Mode) {st : IntStore} {L : List Nat} (h : Own N st L)
    (hb : L.length < N) {a : Nat} (ha : a ∈ L) {x : BInt} (hv : view st a = .ok x) :
    Spec N (BigOwn.shiftAmount m a) st (BInt.shiftAmount m x) L L (same Nat) := by
  refine Spec.bind (Spec.tryU (by norm_num) m h hb ha hv) (fun _ h => h) (fun _ h => h) ?_
  intro st' r r' h1 h2 h3
  have h3 : r = r' := h3
  subst h3
  have h1 : Own N st' L := h1
  cases r with
  | ok k => exact Spec.pur h1 _
  | error e => exact Spec.pur h1 _

theorem Res.bind_assoc {x : Res α} {f : α → Res β} {g : β → Res γ} :
    (x.bind f).bind g = x.bind fun a => (f a).bind g := by cases x <;> rfl

theorem Spec.opRef (m : Mode) (o : Op) {st : IntStore} {L : List Nat} (h : Own N st L)
    (hb : L.length < N) {a b : Nat} (hbm : b ∈ L) {x y : BInt}
    (hx : view st a = .ok x) (hy : view st b = .ok y) :
    Spec N (BigOwn.opRef m o a b) st (o.value m x y) L L word := by
  have shift : ∀ (f : List (BitVec 64) → Nat → Res (List (BitVec 64))),
      Spec N ((value a).bind fun x => (BigOwn.shiftAmount m b).bind fun k =>
        (Act.pur (f x.limbs k)).bind fun out => BigOwn.newSlice m out x.isNegative) st
      (BInt.finish ((BInt.shiftAmount m y).bind fun k => (f x.limbs k).bind fun out =>
        .ok (out, x.isNegative))) L L word := by
    intro f
    unfold BInt.finish
    rw [Res.bind_assoc]
    refine Spec.bind_value hx (Spec.bind (Spec.shiftAmount m h hb hbm hy) (fun _ h => h)
      (fun _ h => h) ?_)
    intro st' k k' h1 h2 h3
    have h3 : k = k' := h3
    subst h3
    have h1 : Own N st' L := h1
    rw [Res.bind_assoc]
    exact Spec.bind_pur h1 fun out _ => Spec.newSlice m h1 hb out _
  have other : ∀ (f : BInt → BInt → Res (List (BitVec 64) × Bool)),
      Spec N ((value a).bind fun x => (value b).bind fun y => (Act.pur (f x y)).bind fun r =>
        BigOwn.newSlice m r.1 r.2) st (BInt.finish (f x y)) L L word := by
    intro f
    exact Spec.bind_value hx (Spec.bind_value hy
      (Spec.bind_pur h fun r _ => Spec.newSlice m h hb r.1 r.2))
  cases o with
  | shl => exact shift _
  | shr => exact shift _
  | add => exact other _
  | mul => exact other _
  | sub => exact other _
  | div => exact other _
  | rem => exact other _
  | bitand => exact other _
  | bitor => exact other _
  | bitxor => exact other _

theorem Spec.op (m : Mode) (o : Op) (va vb : Bool) {st : IntStore} {M L : List Nat} (h : Own N st M)
    (hb : M.length < N) {a b : Nat} (hp : M.Perm (taken vb b ++ (taken va a ++ L))) (hbm : b ∈ M)
    {x y : BInt} (hx : view st a = .ok x) (hy : view st b = .ok y) :
    Spec N (BigOwn.op m o va vb a b) st (o.value m x y) L L word :=
  Spec.moved (Spec.moved ((Spec.opRef m o h hb hbm hx hy).perm hp hp))

theorem Spec.opPrim (m : Mode) (o : Op) (p : Prim) {st : IntStore} {a : Nat} {L : List Nat}
    (h : Own N st (a :: L)) (hb : L.length + 2 < N) {x : BInt} (hx : view st a = .ok x) :
    Spec N (BigOwn.opPrim m o a p) st (p.value.bind fun y => o.value m x y) L L word := by
  refine Spec.bind (A := a :: L) (Spec.guarding (Spec.fromPrim m h (by simp; omega) p))
    (fun _ h => by simp [h]) (fun _ h => by simp [h]) ?_
  intro st' w y h1 h2 h3
  exact Spec.op m o true true (M := w :: a :: L) h1 (by simp; omega) (List.Perm.refl _) (by simp)
    (by rw [h2 a (by simp)]; exact hx) h3

/-- The end of an assignment: the old value goes. -/
theorem Spec.replace {x : Act Nat} {st : IntStore} {g : Res BInt} {a : Nat} {L : List Nat}
    (hx : Spec N x st g (a :: L) (a :: L) word) :
    Spec N (x.bind fun w => (dropWord a).bind fun _ => Act.pur (.ok w)) st g L (a :: L) word := by
  have e : g = g.bind fun b => .ok b := by cases g <;> rfl
  rw [e]
  refine Spec.bind hx (fun _ h => by simp [h]) (fun _ h => h) ?_
  intro st' w b h1 h2 h3
  have h1 : Own N st' (w :: a :: L) := h1
  obtain ⟨st2, e1, e2, e3⟩ := drop_own (h1.perm (List.Perm.swap _ _ _))
  have e4 : (dropWord a).bind (fun _ => Act.pur (.ok w)) st' = (.ok w, st2) := by
    unfold Act.bind Act.pur
    rw [dropWord_ok e1]
  unfold Spec
  rw [e4]
  exact ⟨e2, fun c hc => e3 c (by simp [hc]), by
    show view st2 w = .ok b
    rw [e3 w (by simp)]; exact h3⟩

theorem Spec.assign (m : Mode) (o : Op) (vb : Bool) {st : IntStore} {a b : Nat} {L : List Nat}
    (h : Own N st (a :: (taken vb b ++ L))) (hb : L.length + 2 < N)
    (hbm : b ∈ a :: (taken vb b ++ L)) {x y : BInt} (hx : view st a = .ok x)
    (hy : view st b = .ok y) :
    Spec N (BigOwn.assign m o vb a b) st (o.value m x y) L (a :: L) word := by
  have hlen : (a :: (taken vb b ++ L)).length < N := by
    cases vb <;> simp [taken] <;> omega
  refine Spec.moved ((Spec.replace (Spec.opRef m o h hlen hbm hx hy)).perm (List.Perm.refl _) ?_)
  exact List.perm_middle.symm

theorem Spec.assignPrim (m : Mode) (o : Op) (p : Prim) {st : IntStore} {a : Nat} {L : List Nat}
    (h : Own N st (a :: L)) (hb : L.length + 2 < N) {x : BInt} (hx : view st a = .ok x) :
    Spec N (BigOwn.assignPrim m o a p) st (p.value.bind fun y => o.value m x y) L (a :: L) word := by
  refine Spec.bind (A := a :: L) (Spec.fromPrim m h (by simp; omega) p)
    (fun _ h => by simp [h]) (fun _ h => h) ?_
  intro st' w y h1 h2 h3
  exact Spec.replace (Spec.op m o false true (M := w :: a :: L) h1 (by simp; omega)
    (List.Perm.refl _) (by simp) (by rw [h2 a (by simp)]; exact hx) h3)

theorem Spec.not (m : Mode) {st : IntStore} {a : Nat} {L : List Nat} (h : Own N st (a :: L))
    (hb : L.length + 1 < N) {x : BInt} (hx : view st a = .ok x) :
    Spec N (BigOwn.not m a) st (BInt.not x) L L word :=
  Spec.owning (Spec.bind_value hx (Spec.bind_pur h fun (r : List (BitVec 64) × Bool) _ =>
    Spec.newSlice m h (by simpa using hb) r.1 r.2))

theorem perm_set_some {live : List (Option Nat)} {k a c : Nat} (hk : live[k]? = some (some a)) :
    ((live.set k (some c)).filterMap id).Perm (c :: (live.set k none).filterMap id) := by
  have h : (live.set k (some c))[k]? = some (some c) := by
    rw [List.getElem?_set_self (List.getElem?_eq_some_iff.mp hk).1]
  have := perm_set h
  rwa [List.set_set] at this

theorem own_neg {st : IntStore} {a : Nat} {L : List Nat} (h : Own N st (a :: L)) :
    Own N st (invertNeg a :: L) := by
  obtain ⟨live, h1, h2, h3, h4⟩ := h
  obtain ⟨k, hk⟩ := mem_live h2 (a := a) (by simp)
  obtain ⟨g1, _⟩ := step_inv h1 (WStep.neg (m := .debug) ⟨st, live⟩ k a hk)
  exact ⟨_, g1, (perm_set_some hk).trans
    (List.Perm.cons _ (List.Perm.cons_inv ((perm_set hk).symm.trans h2))), h3, h4⟩

theorem Spec.neg {st : IntStore} {a : Nat} {L : List Nat} (P : List Nat) (h : Own N st (a :: L))
    {x : BInt} (hx : view st a = .ok x) : Spec N (BigOwn.neg a) st (.ok x.neg') L P word :=
  Spec.pur_word P (own_neg h) (view_invertNeg st a x hx)

theorem Spec.negRef (m : Mode) {st : IntStore} {a : Nat} {L : List Nat} (h : Own N st L) (ha : a ∈ L)
    (hb : L.length < N) {x : BInt} (hx : view st a = .ok x) :
    Spec N (BigOwn.negRef m a) st (.ok x.neg') L L word := by
  refine Spec.seq (Spec.clone m h ha hb hx) (fun _ h => h) (fun _ h => h) ?_
  intro st' w h1 h2 h3
  exact Spec.pur_word L (own_neg h1) (view_invertNeg st' w x h3)

theorem view_neg {st : IntStore} {a : Nat} {x : BInt} (hx : view st a = .ok x) :
    negative (tag a) = x.isNegative := by
  unfold view at hx
  obtain ⟨z, _, h2⟩ := Res.bind_eq_ok' hx
  rw [Res.ok.injEq] at h2
  subst h2
  rfl

theorem Spec.abs {st : IntStore} {a : Nat} {L : List Nat} (P : List Nat) (h : Own N st (a :: L))
    {x : BInt} (hx : view st a = .ok x) : Spec N (BigOwn.abs a) st (.ok x.abs) L P word := by
  unfold BigOwn.abs BInt.abs
  rw [view_neg hx]
  cases hn : x.isNegative
  · simp only [Bool.false_eq_true, if_false]
    exact Spec.pur_word P h hx
  · simp only [if_true]
    exact Spec.neg P h hx

theorem Spec.powLoop (m : Mode) {self : Nat} {s : BInt} {L : List Nat} (hs : self ∈ L)
    (hb : L.length + 5 < N) (fuel : Nat) :
    ∀ {st : IntStore} {rhs out : Nat} {x y : BInt}, Own N st (rhs :: out :: L) →
      view st self = .ok s → view st rhs = .ok x → view st out = .ok y →
      Spec N (BigOwn.powLoop m self fuel rhs out) st (BInt.powLoop s fuel x y) L L word := by
  induction fuel with
  | zero => intro st rhs out x y _ _ _ _; exact Spec.hang
  | succ fuel ih =>
    intro st rhs out x y h hvs hvx hvy
    unfold BigOwn.powLoop BInt.powLoop
    have hc := Spec.guarding (Spec.guarding ((Spec.cmpPrim m h (by simp; omega) (.s 32 1)
      (by simp) hvx).perm (List.Perm.refl _) (List.Perm.swap _ _ _)))
    refine Spec.bind hc (fun _ h => by simp [h]) (fun _ h => by simp [h]) ?_
    intro st1 c c' h1 k1 r1
    have r1 : c = c' := r1
    subst r1
    have h1 : Own N st1 (rhs :: out :: L) := h1
    have hvs1 : view st1 self = .ok s := by rw [k1 self (by simp [hs])]; exact hvs
    have hvx1 : view st1 rhs = .ok x := by rw [k1 rhs (by simp)]; exact hvx
    have hvy1 : view st1 out = .ok y := by rw [k1 out (by simp)]; exact hvy
    by_cases hg : c = .gt
    · rw [if_pos hg, if_pos hg]
      -- `out *= self.clone()`
      have hmul : Spec N (Act.guarding rhs (Act.guarding out ((BigOwn.clone m self).bind fun t =>
          BigOwn.assign m .mul true out t))) st1 (BInt.mul y s) (rhs :: L) L word := by
        refine Spec.guarding (Spec.guarding ?_)
        refine Spec.seq (Spec.clone m h1 (by simp [hs]) (by simp; omega) hvs1)
          (fun w hw => by simp only [List.mem_cons] at hw ⊢; tauto)
          (fun w hw => by simp only [List.mem_cons] at hw ⊢; tauto) ?_
        intro st2 t h2 k2 r2
        have h2 : Own N st2 (t :: rhs :: out :: L) := h2
        have hp : (t :: rhs :: out :: L).Perm (out :: (taken true t ++ (rhs :: L))) := by
          show (t :: rhs :: out :: L).Perm (out :: t :: rhs :: L)
          exact (List.Perm.cons t (List.Perm.swap _ _ _)).trans (List.Perm.swap _ _ _)
        exact (Spec.assign m .mul true (h2.perm hp) (by simp; omega) (by simp [taken])
          (by rw [k2 out (by simp)]; exact hvy1) r2)
      refine Spec.bind hmul (fun w hw => by simp [hw]) (fun w hw => by simp [hw]) ?_
      intro st2 out2 y2 h2 k2 r2
      have h2 : Own N st2 (out2 :: rhs :: L) := h2
      -- `rhs -= 1`
      have hsub : Spec N (Act.guarding rhs (Act.guarding out2 (BigOwn.assignPrim m .sub rhs
          (.s 32 1)))) st2 ((fromS 32 1).bind fun z => BInt.sub x z) (out2 :: L) L word := by
        refine Spec.guarding (Spec.guarding ?_)
        exact (Spec.assignPrim m .sub (.s 32 1) (h2.perm (List.Perm.swap _ _ _)) (by simp; omega)
          (by rw [k2 rhs (by simp)]; exact hvx1)).perm (List.Perm.refl _) (List.Perm.swap _ _ _)
      rw [← Res.bind_assoc]
      refine Spec.bind hsub (fun w hw => by simp [hw]) (fun w hw => by simp [hw]) ?_
      intro st3 rhs3 x3 h3 k3 r3
      refine ih h3 ?_ r3 ?_
      · rw [k3 self (by simp [hs]), k2 self (by simp [hs])]; exact hvs1
      · rw [k3 out2 (by simp)]; exact r2
    · rw [if_neg hg, if_neg hg]
      refine Spec.seq (Spec.drop [] h1) (fun w hw => by simp [hw]) (fun w hw => by simp [hw]) ?_
      intro st2 _ h2 k2 _
      exact Spec.pur_word L h2 (by rw [k2 out (by simp)]; exact hvy1)

theorem Spec.pow (m : Mode) (fuel : Nat) {st : IntStore} {self rhs : Nat} {L : List Nat}
    (h : Own N st (self :: rhs :: L)) (hb : L.length + 6 < N) {x y : BInt}
    (hx : view st self = .ok x) (hy : view st rhs = .ok y) :
    Spec N (BigOwn.pow m fuel self rhs) st (BInt.pow m fuel x y) L L word := by
  refine Spec.owning ?_
  have h' : Own N st (rhs :: self :: L) := h.perm (List.Perm.swap _ _ _)
  refine Spec.bind (Spec.guarding (Spec.eqPrim m h' (.s 32 0) hy)) (fun w hw => by simp at hw; simp [hw])
    (fun w hw => by simp at hw; simp [hw]) ?_
  intro st1 z z' h1 k1 r1
  have r1 : z = z' := r1
  subst r1
  have h1 : Own N st1 (rhs :: self :: L) := h1
  have hx1 : view st1 self = .ok x := by rw [k1 self (by simp)]; exact hx
  have hy1 : view st1 rhs = .ok y := by rw [k1 rhs (by simp)]; exact hy
  cases z with
  | true =>
    simp only [if_true]
    exact Spec.owning (Spec.fromPrim m (L := rhs :: self :: L) h1 (by simp; omega) (.s 32 1))
  | false =>
    simp only [Bool.false_eq_true, if_false]
    refine Spec.seq (Spec.guarding (P := self :: L) (Spec.clone m (L := rhs :: self :: L) h1 (by simp)
        (by simp; omega) hx1)) (fun w hw => by simp at hw; simp [hw]) (fun w hw => by simp at hw; simp [hw]) ?_
    intro st2 out h2 k2 r2
    exact Spec.powLoop m (by simp) (by simp; omega) fuel
      (h2.perm (List.Perm.swap rhs out (self :: L)))
      (by rw [k2 self (by simp)]; exact hx1) (by rw [k2 rhs (by simp)]; exact hy1) r2

theorem Spec.digitLoop (m : Mode) (base : BitVec 64) {L : List Nat} (hb : L.length + 5 < N)
    (fuel : Nat) : ∀ {st : IntStore} {scratch : Nat} {x : BInt} (digits : List (BitVec 8)),
      Own N st (scratch :: L) → view st scratch = .ok x →
      Spec N (BigOwn.digitLoop m base fuel scratch digits) st (BInt.digitLoop m base fuel x digits) L L
        (same _) := by
  induction fuel with
  | zero => intro st scratch x digits _ _; exact Spec.hang
  | succ fuel ih =>
    intro st scratch x digits h hv
    unfold BigOwn.digitLoop BInt.digitLoop
    have hc := Spec.guarding (Spec.cmpPrim m h (by simp; omega) (.s 32 0) (by simp) hv)
    refine Spec.bind hc (fun _ h => by simp [h]) (fun _ h => by simp [h]) ?_
    intro st1 c c' h1 k1 r1
    have r1 : c = c' := r1
    subst r1
    have h1 : Own N st1 (scratch :: L) := h1
    have hv1 : view st1 scratch = .ok x := by rw [k1 scratch (by simp)]; exact hv
    by_cases hg : c = .gt
    · rw [if_pos hg, if_pos hg]
      obtain ⟨b, eb, _⟩ := fromU_spec (by norm_num) base
      have eb' : (Prim.u 64 base).value = .ok b := eb
      rw [eb]
      -- the digit
      have hd : Spec N (Act.guarding scratch ((BigOwn.clone m scratch).bind fun t =>
          (BigOwn.opPrim m .rem t (.u 64 base)).bind fun r => (BigOwn.tryUVal 8 m r).bind fun d =>
          Act.pur (match d with
            | .ok d => .ok d
            | .error _ => .panic))) st1
          ((BInt.rem m x b).bind fun r => (tryIntoU 8 m r).bind fun d => match d with
            | .ok d => .ok d
            | .error _ => .panic) (scratch :: L) L (same (BitVec 8)) := by
        refine Spec.guarding ?_
        refine Spec.seq (Spec.clone m h1 (by simp) (by simp; omega) hv1) (fun _ h => h)
          (fun _ h => h) ?_
        intro st2 t h2 k2 r2
        have hop := Spec.opPrim m .rem (.u 64 base) h2 (by simp; omega) r2
        rw [eb'] at hop
        refine Spec.bind hop (fun _ h => h) (fun _ h => h) ?_
        intro st3 r r' h3 k3 r3
        refine Spec.bind (Spec.owning (Spec.tryU (by norm_num) m h3 (by simp [word]; omega)
          (by simp [word]) r3)) (fun _ h => h) (fun _ h => h) ?_
        intro st4 d d' h4 k4 r4
        have r4 : d = d' := r4
        subst r4
        have h4 : Own N st4 (scratch :: L) := h4
        cases d with
        | ok d => exact Spec.pur h4 _
        | error e => exact Spec.pur h4 _
      have e : ((BInt.rem m x b).bind fun r => (tryIntoU 8 m r).bind fun d => match d with
            | .error _ => .panic
            | .ok d => (BInt.div m x b).bind fun scratch =>
                BInt.digitLoop m base fuel scratch (digits ++ [d]))
          = (((BInt.rem m x b).bind fun r => (tryIntoU 8 m r).bind fun d => match d with
            | .ok d => .ok d
            | .error _ => .panic).bind fun d => (BInt.div m x b).bind fun scratch =>
                BInt.digitLoop m base fuel scratch (digits ++ [d])) := by
        rw [Res.bind_assoc]
        congr 1
        funext r
        rw [Res.bind_assoc]
        congr 1
        funext d
        cases d <;> rfl
      show Spec N _ st1 ((BInt.rem m x b).bind fun r => (tryIntoU 8 m r).bind fun d => match d with
            | .error _ => .panic
            | .ok d => (BInt.div m x b).bind fun scratch =>
                BInt.digitLoop m base fuel scratch (digits ++ [d])) L L (same _)
      rw [e]
      refine Spec.bind hd (fun _ h => by simp [h]) (fun _ h => by simp [h]) ?_
      intro st2 d d' h2 k2 r2
      have r2 : d = d' := r2
      subst r2
      have h2 : Own N st2 (scratch :: L) := h2
      have hdiv := Spec.guarding (Spec.assignPrim m .div (.u 64 base) h2 (by omega)
        (by rw [k2 scratch (by simp)]; exact hv1))
      rw [eb'] at hdiv
      refine Spec.bind hdiv (fun _ h => h) (fun _ h => h) ?_
      intro st3 s3 x3 h3 k3 r3
      exact ih _ h3 r3
    · rw [if_neg hg, if_neg hg]
      refine Spec.seq (Spec.drop [] h1) (fun w hw => hw) (fun w hw => hw) ?_
      intro st2 _ h2 k2 _
      exact Spec.pur h2 _

theorem Spec.writeBase (m : Mode) (fuel : Nat) (base : BitVec 64) (chars : List Char) {st : IntStore}
    {a : Nat} {L : List Nat} (h : Own N st L) (ha : a ∈ L) (hb : L.length + 5 < N) {x : BInt}
    (hx : view st a = .ok x) :
    Spec N (BigOwn.writeBase m fuel base chars a) st (BInt.writeBase m fuel base chars x) L L
      (same _) := by
  unfold BigOwn.writeBase BInt.writeBase
  refine Spec.seq (Spec.clone m h ha (by omega) hx) (fun _ h => h) (fun _ h => h) ?_
  intro st1 s h1 k1 r1
  refine Spec.bind (Spec.digitLoop m base hb fuel [] h1 r1) (fun _ h => h) (fun _ h => h) ?_
  intro st2 d d' h2 k2 r2
  have r2 : d = d' := r2
  subst r2
  exact Spec.pur h2 _

theorem Spec.format (m : Mode) (fuel : Nat) (base : BitVec 64) (pre chars : List Char) {st : IntStore}
    {a : Nat} {L : List Nat} (h : Own N st L) (ha : a ∈ L) (hb : L.length + 5 < N) {x : BInt}
    (hx : view st a = .ok x) :
    Spec N (BigOwn.format m fuel base pre chars a) st ((BInt.writeBase m fuel base chars x).bind fun cs =>
      .ok (signChars x ++ pre ++ cs)) L L (same _) :=
  Spec.bind_value hx (Spec.map (Spec.writeBase m fuel base chars h ha hb hx) (fun _ h => h) _)

theorem Spec.parseLoop (m : Mode) (radix : BitVec 32) {L : List Nat} (hb : L.length + 5 < N)
    (cs : List Char) : ∀ {st : IntStore} {out : Nat} {x : BInt}, Own N st (out :: L) →
      view st out = .ok x → Spec N (BigOwn.parseLoop m radix cs out) st (BInt.parseLoop radix cs x) L L
        (wordOr ParseError) := by
  induction cs with
  | nil => intro st out x h hv; exact ⟨h, fun _ _ => rfl, hv⟩
  | cons c cs ih =>
    intro st out x h hv
    unfold BigOwn.parseLoop BInt.parseLoop
    cases valFromChar c radix.toNat with
    | error e =>
      refine Spec.owning ?_
      exact ⟨h, fun _ _ => rfl, rfl⟩
    | ok d =>
      simp only
      rw [← Res.bind_assoc]
      refine Spec.bind (Spec.opPrim m .mul (.u 32 radix) h (by omega) hv) (fun _ h => h)
        (fun _ h => h) ?_
      intro st1 w1 x1 h1 k1 r1
      rw [← Res.bind_assoc]
      refine Spec.bind (Spec.opPrim m .add (L := L) (.u 32 (BitVec.ofNat 32 d)) h1 (by omega) r1)
        (fun _ h => h) (fun _ h => h) ?_
      intro st2 w2 x2 h2 k2 r2
      exact ih h2 r2

theorem view_zero (st : IntStore) : view st 2 = .ok BInt.zero := by
  rw [view_inline st (by decide)]; rfl

theorem own_zero {st : IntStore} {L : List Nat} (h : Own N st L) : Own N st (2 :: L) := by
  obtain ⟨live, h1, h2, h3, h4⟩ := h
  obtain ⟨ids, hc⟩ := h1.client
  refine ⟨live ++ [some 2], ⟨⟨ids, ?_⟩, ?_⟩, ?_, h3, h4⟩
  · dsimp only
    rw [refsOf_append_inline live (by decide)]; exact hc
  · intro a ha
    rcases List.mem_append.mp ha with ha | ha
    · exact h1.words a ha
    · have : a = 2 := by simpa using ha
      subst this
      exact ⟨by norm_num, _, view_zero st, by decide⟩
  · simp only [List.filterMap_append]
    exact List.perm_append_comm.trans (List.Perm.append_left _ h2)

theorem Spec.fromStrRadix (m : Mode) (s : List Char) (radix : BitVec 32) {st : IntStore} {L : List Nat}
    (h : Own N st L) (hb : L.length + 5 < N) :
    Spec N (BigOwn.fromStrRadix m s radix) st (BInt.fromStrRadix s radix) L L (wordOr ParseError) := by
  exact Spec.parseLoop m radix hb s (own_zero h) (view_zero st)

end BigOwn

end Verif
