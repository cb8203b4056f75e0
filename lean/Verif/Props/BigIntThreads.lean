import Verif.Model.BigIntThreads
import Verif.Props.InternProg

/-!
# C187: `BigInt`s on several threads, when storing takes turns
-/

namespace Verif

open InternProg BigThreads

/-! ## Specification -/

/-- What a program computes from the numbers its names stand for, each operation as in `Verif.Model.BigInt`.
`none` if it uses a name that stands for nothing, or awaits more from other threads. -/
def bigEval {R : Type} : BProg R → (Nat → Option BInt) → Option (Res R)
  | .ret r, _ => some (.ok r)
  | .make l neg x p, e =>
    match BInt.newSlice l neg with
    | .ok c => bigEval p (Function.update e x (some c))
    | .panic => some .panic
    | .hang => some .hang
  | .op f x y z p, e =>
    (e x).bind fun a => (e y).bind fun b =>
      match BInt.finish (f a b) with
      | .ok c => bigEval p (Function.update e z (some c))
      | .panic => some .panic
      | .hang => some .hang
  | .look x k, e => (e x).bind fun a => bigEval (k a) e
  | .clone x y p, e => (e x).bind fun a => bigEval p (Function.update e y (some a))
  | .drop x p, e => (e x).bind fun _ => bigEval p (Function.update e x none)
  | .neg x p, e => (e x).bind fun a => bigEval p (Function.update e x (some (BInt.neg' a)))
  | .send x _ p, e => (e x).bind fun _ => bigEval p (Function.update e x none)
  | .lend x _ p, e => (e x).bind fun _ => bigEval p e
  | .recv .., _ => none

/-- The number a name stands for: the word says which, or where its limbs are. -/
def wordNum (w : Nat → Option Word) (v : Nat → Option Limbs) (x : Nat) : Option BInt :=
  (w x).bind fun u => match u.inline with
    | some i => some ⟨u.neg, .inline i⟩
    | none => (v x).map fun l => ⟨u.neg, .slice l⟩

/-- A program that calls nothing by a name in use, and drops and sends only what it owns (`u`; `l` are the names of
what it has borrowed). -/
def BProgOk {R : Type} : BProg R → (u l : Nat → Prop) → Prop
  | .ret _, _, _ => True
  | .make _ _ x p, u, l => ¬ u x ∧ ¬ l x ∧ BProgOk p (fun z => z = x ∨ u z) l
  | .op _ _ _ z p, u, l => ¬ u z ∧ ¬ l z ∧ BProgOk p (fun y => y = z ∨ u y) l
  | .look _ k, u, l => ∀ a, BProgOk (k a) u l
  | .clone _ y p, u, l => ¬ u y ∧ ¬ l y ∧ BProgOk p (fun z => z = y ∨ u z) l
  | .drop x p, u, l => ¬ l x ∧ BProgOk p (fun z => z ≠ x ∧ u z) l
  | .neg _ p, u, l => BProgOk p u l
  | .send x _ p, u, l => ¬ l x ∧ BProgOk p (fun z => z ≠ x ∧ u z) l
  | .lend _ _ p, u, l => BProgOk p u l
  | .recv true _ y p, u, l => ¬ u y ∧ ¬ l y ∧ BProgOk p (fun z => z = y ∨ u z) l
  | .recv false _ y p, u, l => ¬ u y ∧ ¬ l y ∧ BProgOk p u (fun z => z = y ∨ l z)

/-! ## Theorems -/

/-! ### What is computed -/

theorem wordNum_inline {w : Nat → Option Word} {v : Nat → Option Limbs} (x : Nat) (n : Bool) (i : BitVec 64) :
    wordNum (Function.update w x (some ⟨n, some i⟩)) v =
      Function.update (wordNum w v) x (some ⟨n, .inline i⟩) := by
  funext z
  unfold wordNum
  by_cases e : z = x
  · subst e; simp only [Function.update_self]; rfl
  · simp only [Function.update_of_ne e]

theorem wordNum_stored {w : Nat → Option Word} {v : Nat → Option Limbs} (x : Nat) (n : Bool) (l : Limbs) :
    wordNum (Function.update w x (some ⟨n, none⟩)) (Function.update v x (some l)) =
      Function.update (wordNum w v) x (some ⟨n, .slice l⟩) := by
  funext z
  unfold wordNum
  by_cases e : z = x
  · subst e; simp only [Function.update_self]; rfl
  · simp only [Function.update_of_ne e]

theorem wordNum_none {w : Nat → Option Word} {v v' : Nat → Option Limbs} (x : Nat)
    (hv : ∀ z, z ≠ x → v' z = v z) :
    wordNum (Function.update w x none) v' = Function.update (wordNum w v) x none := by
  funext z
  unfold wordNum
  by_cases e : z = x
  · subst e; simp only [Function.update_self]; rfl
  · simp only [Function.update_of_ne e, hv z e]

theorem leave_eval {R : Type} (e : Scope) (v : Nat → Option Limbs) (r : Res R) :
    progEval (e.leave r) v = some r := by
  have back : ∀ (l : List Nat) (v : Nat → Option Limbs),
      progEval (l.foldr .giveBack (.ret r) : Prog Limbs (Res R)) v = some r := by
    intro l
    induction l with
    | nil => intro v; rfl
    | cons x l ih => intro v; exact ih _
  unfold Scope.leave
  generalize e.own = o
  induction o generalizing v with
  | nil => exact back _ v
  | cons x o ih => exact ih _

theorem newSlice_eval {R : Type} (l : Limbs) (neg : Bool) (w : Scope) (v : Nat → Option Limbs)
    (x : Nat) (k : Scope → Prog Limbs (Res R)) (q : (Nat → Option BInt) → Option (Res R))
    (h : ∀ (w' : Scope) v' r, q (wordNum w'.word v') = some r → progEval (k w') v' = some r) (r : Res R)
    (hr : (match BInt.newSlice l neg with
      | .ok c => q (Function.update (wordNum w.word v) x (some c))
      | .panic => some .panic
      | .hang => some .hang) = some r) : progEval (newSlice l neg w x k) v = some r := by
  unfold BigThreads.newSlice
  unfold BInt.newSlice at hr
  cases e : shrink l with
  | panic => rw [e] at hr; cases hr; exact leave_eval _ _ _
  | hang => rw [e] at hr; cases hr; exact leave_eval _ _ _
  | ok u =>
    rw [e] at hr
    simp only [Res.bind] at hr ⊢
    split
    · rename_i hc
      rw [if_pos hc, BInt.newInline, if_pos hc.2] at hr
      refine h _ _ _ ?_
      unfold Scope.bind
      rw [wordNum_inline]
      exact hr
    · rename_i hc
      rw [if_neg hc] at hr
      refine h _ _ _ ?_
      unfold Scope.bind
      rw [wordNum_stored]
      exact hr

theorem read_eval {R : Type} (w : Scope) (v : Nat → Option Limbs) (x : Nat)
    (k : BInt → Prog Limbs (Res R)) (a : BInt) (ha : wordNum w.word v x = some a) :
    progEval (BigThreads.read w x k) v = progEval (k a) v := by
  unfold wordNum at ha
  unfold BigThreads.read
  cases e : w.word x with
  | none => rw [e] at ha; cases ha
  | some u =>
    obtain ⟨n, i⟩ := u
    rw [e] at ha
    cases i with
    | some i => cases ha; rfl
    | none =>
      cases hv : v x with
      | none => rw [hv] at ha; cases ha
      | some l =>
        rw [hv] at ha
        cases ha
        simp only [progEval, hv]; rfl

/-- The program over the interner computes what the operations on numbers compute. -/
theorem code_eval {R : Type} (p : BProg R) (w : Scope) (v : Nat → Option Limbs) (r : Res R)
    (hr : bigEval p (wordNum w.word v) = some r) : progEval (code p w) v = some r := by
  induction p generalizing w v r with
  | ret r' => cases hr; exact leave_eval _ _ _
  | make l neg x p ih => exact newSlice_eval l neg w v x _ _ (fun w' v' r h => ih w' v' r h) r hr
  | op f x y z p ih =>
    unfold bigEval at hr
    obtain ⟨a, ha, hr⟩ := Option.bind_eq_some_iff.mp hr
    obtain ⟨b, hb, hr⟩ := Option.bind_eq_some_iff.mp hr
    unfold code
    rw [read_eval w v x _ a ha, read_eval w v y _ b hb]
    unfold BInt.finish at hr
    cases e : f a b with
    | panic => rw [e] at hr; cases hr; exact leave_eval _ _ _
    | hang => rw [e] at hr; cases hr; exact leave_eval _ _ _
    | ok c =>
      rw [e] at hr
      exact newSlice_eval c.1 c.2 w v z _ _ (fun w' v' r h => ih w' v' r h) r hr
  | look x k ih =>
    obtain ⟨a, ha, hr⟩ := Option.bind_eq_some_iff.mp hr
    unfold code
    rw [read_eval w v x _ a ha]
    exact ih a w v r hr
  | clone x y p ih =>
    obtain ⟨a, ha, hr⟩ := Option.bind_eq_some_iff.mp hr
    unfold code
    unfold wordNum at ha
    cases e : w.word x with
    | none => rw [e] at ha; cases ha
    | some u =>
      obtain ⟨n, i⟩ := u
      rw [e] at ha
      cases i with
      | some i =>
        cases ha
        refine ih _ _ _ ?_
        unfold Scope.bind
        rw [wordNum_inline]; exact hr
      | none =>
        cases hv : v x with
        | none => rw [hv] at ha; cases ha
        | some l =>
          rw [hv] at ha
          cases ha
          simp only [progEval, hv]
          refine ih _ _ _ ?_
          unfold Scope.bind
          rw [wordNum_stored]; exact hr
  | drop x p ih =>
    obtain ⟨a, ha, hr⟩ := Option.bind_eq_some_iff.mp hr
    unfold code
    unfold wordNum at ha
    cases e : w.word x with
    | none => rw [e] at ha; cases ha
    | some u =>
      obtain ⟨n, i⟩ := u
      cases i with
      | some i =>
        refine ih _ _ _ ?_
        unfold Scope.unbind
        rw [wordNum_none x (fun _ _ => rfl)]; exact hr
      | none =>
        refine ih _ _ _ ?_
        unfold Scope.unbind
        rw [wordNum_none x (fun z hz => Function.update_of_ne hz _ _)]; exact hr
  | neg x p ih =>
    obtain ⟨a, ha, hr⟩ := Option.bind_eq_some_iff.mp hr
    unfold code
    cases e : w.word x with
    | none => unfold wordNum at ha; rw [e] at ha; cases ha
    | some u =>
      obtain ⟨n, i⟩ := u
      refine ih _ _ _ ?_
      rw [show wordNum (Function.update w.word x (some ⟨!n, i⟩)) v =
        Function.update (wordNum w.word v) x (some (BInt.neg' a)) from ?_]
      · exact hr
      · funext z
        by_cases ez : z = x
        · subst ez
          unfold wordNum at ha ⊢
          rw [e] at ha
          simp only [Function.update_self]
          cases i with
          | some i => cases ha; rfl
          | none =>
            cases hv : v z with
            | none => rw [hv] at ha; cases ha
            | some l => rw [hv] at ha; cases ha; rfl
        · unfold wordNum
          simp only [Function.update_of_ne ez]
  | send x t p ih =>
    obtain ⟨a, ha, hr⟩ := Option.bind_eq_some_iff.mp hr
    unfold code
    unfold wordNum at ha
    cases e : w.word x with
    | none => rw [e] at ha; cases ha
    | some u =>
      obtain ⟨n, i⟩ := u
      cases i with
      | some i =>
        refine ih _ _ _ ?_
        unfold Scope.unbind
        rw [wordNum_none x (fun _ _ => rfl)]; exact hr
      | none =>
        refine ih _ _ _ ?_
        unfold Scope.unbind
        rw [wordNum_none x (fun z hz => Function.update_of_ne hz _ _)]; exact hr
  | lend x t p ih =>
    obtain ⟨a, ha, hr⟩ := Option.bind_eq_some_iff.mp hr
    unfold code
    unfold wordNum at ha
    cases e : w.word x with
    | none => rw [e] at ha; cases ha
    | some u =>
      obtain ⟨n, i⟩ := u
      cases i with
      | some i => exact ih _ _ _ hr
      | none => exact ih _ _ _ hr
  | recv own u y p ih => cases hr

/-! ### What is left -/

/-- The names whose limbs are owned or borrowed are known, and differ. -/
structure ScopeOk (e : Scope) : Prop where
  own : ∀ x ∈ e.own, ∃ n, e.word x = some ⟨n, none⟩
  lent : ∀ x ∈ e.lent, ∃ n, e.word x = some ⟨n, none⟩
  disj : ∀ x ∈ e.own, x ∉ e.lent
  nodup : e.own.Nodup
  nodup' : e.lent.Nodup

/-- The names the interner knows of. -/
def stored (e : Scope) (x : Nat) : Prop := x ∈ e.own ∨ x ∈ e.lent

theorem leave_tidy {R : Type} {e : Scope} (r : Res R) : (e.leave r).Tidy (stored e) := by
  have back : ∀ (l : List Nat) (u : Nat → Prop), (∀ x, u x → x ∈ l) →
      (l.foldr .giveBack (.ret r) : Prog Limbs (Res R)).Tidy u := by
    intro l
    induction l with
    | nil => intro u hu x hx; exact absurd (hu x hx) List.not_mem_nil
    | cons y l ih =>
      intro u hu
      refine ih _ fun x hx => ?_
      exact (List.mem_cons.mp (hu x hx.2)).resolve_left hx.1
  have key : ∀ (o : List Nat) (u : Nat → Prop), (∀ x, u x → x ∈ o ∨ x ∈ e.lent) →
      (o.foldr .drop (e.lent.foldr .giveBack (.ret r)) : Prog Limbs (Res R)).Tidy u := by
    intro o
    induction o with
    | nil => intro u hu; exact back _ _ fun x hx => (hu x hx).resolve_left List.not_mem_nil
    | cons y o ih =>
      intro u hu
      refine ih _ fun x hx => ?_
      rcases hu x hx.2 with h | h
      · exact .inl ((List.mem_cons.mp h).resolve_left hx.1)
      · exact .inr h
  exact key _ _ fun x hx => hx

theorem ScopeOk.not_own {e : Scope} (h : ScopeOk e) {x : Nat} (hx : e.word x = none) : x ∉ e.own := fun k => by
  obtain ⟨n, k⟩ := h.own x k
  rw [hx] at k
  cases k

theorem ScopeOk.not_lent {e : Scope} (h : ScopeOk e) {x : Nat} (hx : e.word x = none) : x ∉ e.lent := fun k => by
  obtain ⟨n, k⟩ := h.lent x k
  rw [hx] at k
  cases k

theorem ScopeOk.bind {e : Scope} (h : ScopeOk e) {x : Nat} (hx : e.word x = none) (w : Word) :
    ScopeOk (e.bind x w) := by
  have no : x ∉ e.own := h.not_own hx
  have nl : x ∉ e.lent := h.not_lent hx
  have upd : ∀ z, (∃ n, e.word z = some ⟨n, none⟩) → ∃ n, (e.bind x w).word z = some ⟨n, none⟩ := by
    rintro z ⟨n, hz⟩
    refine ⟨n, ?_⟩
    unfold Scope.bind
    have k : z ≠ x := by rintro rfl; rw [hx] at hz; cases hz
    simpa [k] using hz
  obtain ⟨n, i⟩ := w
  cases i with
  | some i => exact ⟨fun z hz => upd z (h.own z hz), fun z hz => upd z (h.lent z hz), h.disj, h.nodup, h.nodup'⟩
  | none =>
    have self : ∃ m, (e.bind x ⟨n, none⟩).word x = some ⟨m, none⟩ := ⟨n, by unfold Scope.bind; simp⟩
    refine ⟨fun z hz => ?_, fun z hz => upd z (h.lent z hz), fun z hz => ?_,
      List.nodup_cons.mpr ⟨no, h.nodup⟩, h.nodup'⟩
    · rcases List.mem_cons.mp (show z ∈ x :: e.own from hz) with rfl | k
      · exact self
      · exact upd z (h.own z k)
    · rcases List.mem_cons.mp (show z ∈ x :: e.own from hz) with rfl | k
      · exact nl
      · exact h.disj z k

theorem ScopeOk.borrow {e : Scope} (h : ScopeOk e) {x : Nat} (hx : e.word x = none) (w : Word) :
    ScopeOk (e.borrow x w) := by
  have no : x ∉ e.own := h.not_own hx
  have nl : x ∉ e.lent := h.not_lent hx
  have upd : ∀ z, (∃ n, e.word z = some ⟨n, none⟩) → ∃ n, (e.borrow x w).word z = some ⟨n, none⟩ := by
    rintro z ⟨n, hz⟩
    refine ⟨n, ?_⟩
    unfold Scope.borrow
    have k : z ≠ x := by rintro rfl; rw [hx] at hz; cases hz
    simpa [k] using hz
  obtain ⟨n, i⟩ := w
  cases i with
  | some i => exact ⟨fun z hz => upd z (h.own z hz), fun z hz => upd z (h.lent z hz), h.disj, h.nodup, h.nodup'⟩
  | none =>
    have self : ∃ m, (e.borrow x ⟨n, none⟩).word x = some ⟨m, none⟩ := ⟨n, by unfold Scope.borrow; simp⟩
    refine ⟨fun z hz => upd z (h.own z hz), fun z hz => ?_, fun z hz k => ?_, h.nodup,
      List.nodup_cons.mpr ⟨nl, h.nodup'⟩⟩
    · rcases List.mem_cons.mp (show z ∈ x :: e.lent from hz) with rfl | k
      · exact self
      · exact upd z (h.lent z k)
    · rcases List.mem_cons.mp (show z ∈ x :: e.lent from k) with rfl | k
      · exact no hz
      · exact h.disj z hz k

theorem ScopeOk.unbind {e : Scope} (h : ScopeOk e) {x : Nat} (hx : x ∉ e.lent) : ScopeOk (e.unbind x) := by
  have upd : ∀ z, z ≠ x → (∃ n, e.word z = some ⟨n, none⟩) → ∃ n, (e.unbind x).word z = some ⟨n, none⟩ := by
    rintro z k ⟨n, hz⟩
    refine ⟨n, ?_⟩
    unfold Scope.unbind
    simpa [k] using hz
  refine ⟨fun z hz => ?_, fun z hz => ?_, fun z hz => ?_, h.nodup.erase x, h.nodup'⟩
  · obtain ⟨k1, k2⟩ := (List.Nodup.mem_erase_iff h.nodup).mp hz
    exact upd z k1 (h.own z k2)
  · exact upd z (by rintro rfl; exact hx hz) (h.lent z hz)
  · exact h.disj z (List.mem_of_mem_erase hz)

theorem stored_inline {e : Scope} (h : ScopeOk e) {x : Nat} {n : Bool} {v : BitVec 64}
    (hx : e.word x = some ⟨n, some v⟩) : stored (e.unbind x) = stored e := by
  have no : x ∉ e.own := fun k => by
    obtain ⟨m, k⟩ := h.own x k
    rw [hx] at k
    cases k
  unfold stored Scope.unbind
  dsimp only
  rw [List.erase_of_not_mem no]

theorem stored_bind (e : Scope) (x : Nat) (n : Bool) :
    stored (e.bind x ⟨n, none⟩) = fun z => z = x ∨ stored e z := by
  funext z
  unfold stored Scope.bind
  simp [or_assoc]

theorem stored_borrow (e : Scope) (x : Nat) (n : Bool) :
    stored (e.borrow x ⟨n, none⟩) = fun z => z = x ∨ stored e z := by
  funext z
  unfold stored Scope.borrow
  simp [or_left_comm]

theorem stored_unbind {e : Scope} (h : ScopeOk e) {x : Nat} (hx : x ∉ e.lent) :
    stored (e.unbind x) = fun z => z ≠ x ∧ stored e z := by
  funext z
  unfold stored Scope.unbind
  dsimp only
  rw [List.Nodup.mem_erase_iff h.nodup, eq_iff_iff]
  constructor
  · rintro (⟨k1, k2⟩ | k)
    · exact ⟨k1, .inl k2⟩
    · exact ⟨by rintro rfl; exact hx k, .inr k⟩
  · rintro ⟨k1, k2 | k2⟩
    · exact .inl ⟨k1, k2⟩
    · exact .inr k2

theorem read_tidy {R : Type} {e : Scope} (x : Nat) (k : BInt → Prog Limbs (Res R))
    (h : ∀ a, (k a).Tidy (stored e)) : (BigThreads.read e x k).Tidy (stored e) := by
  unfold BigThreads.read
  split
  · exact leave_tidy _
  · exact h _
  · exact fun l => h _

theorem newSlice_tidy {R : Type} {e : Scope} (he : ScopeOk e) (l : Limbs) (neg : Bool) {x : Nat}
    (hx : e.word x = none) (k : Scope → Prog Limbs (Res R))
    (h : ∀ w, (k (e.bind x w)).Tidy (stored (e.bind x w))) : (newSlice l neg e x k).Tidy (stored e) := by
  unfold BigThreads.newSlice
  split
  · exact leave_tidy _
  · exact leave_tidy _
  · split
    · exact h ⟨_, some _⟩
    · refine ⟨fun k => k.elim (he.not_own hx) (he.not_lent hx), ?_⟩
      have := h ⟨neg, none⟩
      rwa [stored_bind] at this

/-- The program over the interner drops what it owns and gives back what it has borrowed. -/
theorem code_tidy {R : Type} (p : BProg R) (e : Scope) (he : ScopeOk e) (u l : Nat → Prop)
    (hu : ∀ x, e.word x ≠ none → u x ∨ l x) (hl : ∀ x ∈ e.lent, l x) (hp : BProgOk p u l) :
    (code p e).Tidy (stored e) := by
  have new : ∀ {e : Scope} {u l : Nat → Prop} {x : Nat}, (∀ x, e.word x ≠ none → u x ∨ l x) → ¬ u x → ¬ l x →
      e.word x = none := by
    intro e u l x hu h1 h2
    by_contra h
    exact (hu x h).elim h1 h2
  have bound : ∀ {e : Scope} {u l : Nat → Prop} {x : Nat} (w : Word), (∀ x, e.word x ≠ none → u x ∨ l x) →
      ∀ z, (e.bind x w).word z ≠ none → (z = x ∨ u z) ∨ l z := by
    intro e u l x w hu z hz
    by_cases k : z = x
    · exact .inl (.inl k)
    · unfold Scope.bind at hz
      simp only [Function.update_of_ne k] at hz
      exact (hu z hz).imp .inr id
  have gone : ∀ {e : Scope} {u l : Nat → Prop} {x : Nat}, (∀ x, e.word x ≠ none → u x ∨ l x) →
      ∀ z, (e.unbind x).word z ≠ none → (z ≠ x ∧ u z) ∨ l z := by
    intro e u l x hu z hz
    unfold Scope.unbind at hz
    by_cases k : z = x
    · subst k; simp at hz
    · simp only [Function.update_of_ne k] at hz
      exact (hu z hz).imp (⟨k, ·⟩) id
  induction p generalizing e u l with
  | ret r => exact leave_tidy _
  | make v neg x p ih =>
    obtain ⟨h1, h2, h3⟩ := hp
    have hx := new hu h1 h2
    exact newSlice_tidy he v neg hx _ fun w => ih _ (he.bind hx w) _ l (bound w hu) hl h3
  | op f x y z p ih =>
    obtain ⟨h1, h2, h3⟩ := hp
    have hz := new hu h1 h2
    unfold code
    refine read_tidy x _ fun a => read_tidy y _ fun b => ?_
    split
    · exact leave_tidy _
    · exact leave_tidy _
    · exact newSlice_tidy he _ _ hz _ fun w => ih _ (he.bind hz w) _ l (bound w hu) hl h3
  | look x k ih =>
    unfold code
    exact read_tidy x _ fun a => ih a e he u l hu hl (hp a)
  | clone x y p ih =>
    obtain ⟨h1, h2, h3⟩ := hp
    have hy := new hu h1 h2
    have hc := fun w => ih _ (he.bind hy w) _ l (bound w hu) hl h3
    unfold code
    split
    · exact leave_tidy _
    · exact hc ⟨_, some _⟩
    · rename_i n _
      refine ⟨fun k => k.elim (he.not_own hy) (he.not_lent hy), ?_⟩
      have := hc ⟨n, none⟩
      rwa [stored_bind] at this
  | drop x p ih =>
    obtain ⟨h1, h2⟩ := hp
    have hx : x ∉ e.lent := fun k => h1 (hl x k)
    have hc := ih _ (he.unbind hx) _ l (gone hu) hl h2
    unfold code
    split
    · exact leave_tidy _
    · rename_i n v hw
      rw [stored_inline he hw] at hc
      exact hc
    · rw [stored_unbind he hx] at hc
      exact hc
  | neg x p ih =>
    unfold code
    split
    · exact leave_tidy _
    · rename_i w hw
      have keep : ∀ z, (∃ n, e.word z = some ⟨n, none⟩) →
          ∃ n, Function.update e.word x (some ⟨!w.neg, w.inline⟩) z = some ⟨n, none⟩ := by
        rintro z ⟨n, hz⟩
        by_cases k : z = x
        · subst k
          rw [hw] at hz
          cases hz
          exact ⟨!n, by simp⟩
        · exact ⟨n, by simpa [k] using hz⟩
      refine ih _ ⟨fun z hz => keep z (he.own z hz), fun z hz => keep z (he.lent z hz), he.disj, he.nodup,
        he.nodup'⟩ u l ?_ hl hp
      · intro z hz
        refine hu z ?_
        by_cases k : z = x
        · subst k; rw [hw]; nofun
        · simpa [k] using hz
  | send x t p ih =>
    obtain ⟨h1, h2⟩ := hp
    have hx : x ∉ e.lent := fun k => h1 (hl x k)
    have hc := ih _ (he.unbind hx) _ l (gone hu) hl h2
    unfold code
    split
    · exact leave_tidy _
    · rename_i n v hw
      rw [stored_inline he hw] at hc
      exact hc
    · rw [stored_unbind he hx] at hc
      exact hc
  | lend x t p ih =>
    have hc := ih e he u l hu hl hp
    unfold code
    split
    · exact leave_tidy _
    · exact hc
    · exact hc
  | recv own w y p ih =>
    obtain ⟨n, i⟩ := w
    have hy : e.word y = none := by cases own <;> exact new hu hp.1 hp.2.1
    have fresh : ¬ stored e y := fun k => k.elim (he.not_own hy) (he.not_lent hy)
    unfold code
    cases own with
    | true =>
      have hc := ih _ (he.bind hy ⟨n, i⟩) _ l (bound ⟨n, i⟩ hu) hl hp.2.2
      cases i with
      | some i => exact hc
      | none =>
        rw [stored_bind] at hc
        exact ⟨fresh, hc⟩
    | false =>
      have hc := ih _ (he.borrow hy ⟨n, i⟩) u (fun z => z = y ∨ l z) ?_ ?_ hp.2.2
      · cases i with
        | some i => exact hc
        | none =>
          rw [stored_borrow] at hc
          exact ⟨fresh, hc⟩
      · intro z hz
        by_cases k : z = y
        · exact .inr (.inl k)
        · unfold Scope.borrow at hz
          simp only [Function.update_of_ne k] at hz
          exact (hu z hz).imp id .inr
      · intro z hz
        cases i with
        | some i => exact .inr (hl z hz)
        | none => exact (List.mem_cons.mp (show z ∈ y :: e.lent from hz)).imp id (hl z)

/-! ### The property -/

/-- C187: threads run programs on `BigInt`s, and any other programs that use the same interner. A thread that has nothing to
wait for computes, from the numbers its names stand for, what it would compute alone, whatever other threads do; it panics or
hangs only if the operations on the numbers do, and no thread accesses limbs that another may be writing. -/
theorem C187_result {R : Type} (p : Nat → Prog Limbs (Res R)) (s s' : Sys Limbs (Res R)) (hs : Moves (start p) s)
    (hs' : Moves s s') (t : Nat) (q : BProg R) (e : Scope) (hq : (s.th t).prog = code q e) (r : Res R)
    (hr : bigEval q (wordNum e.word (s.values t).env) = some r) :
    (∀ r', (s'.th t).prog = .ret r' → r' = r) ∧ s'.base.pc t ≠ .panicked ∧ s'.base.pc t ≠ .undefined ∧
      ¬ InternWeak.Racy s'.base := by
  have h := code_eval q e (s.values t).env r hr
  have k : (s.values t).prog = code q e := hq
  have tr : Moves (start p) s' := by
    clear hr h
    induction hs' with
    | refl => exact hs
    | tail _ hm ih => exact ih.tail hm
  have safe := C186_safe p s' tr
  exact ⟨(C186_result p s s' hs hs' t r (by rw [k]; exact h)).2, (safe.2.1 t).1, (safe.2.1 t).2, safe.1⟩

/-- C187: when all threads are done, whether they have panicked or not, nothing is stored any more. -/
theorem C187_released {R : Type} (q : Nat → BProg R) (hq : ∀ t, BProgOk (q t) (fun _ => False) fun _ => False)
    (s : Sys Limbs (Res R)) (hs : Moves (start fun t => code (q t) .empty) s)
    (hd : ∀ t, ∃ r, (s.th t).prog = .ret r) (i : Nat) : (s.base.slots i).cur.count = 0 := by
  refine (C186_released _ (fun t => ?_) s hs).2.2 hd i
  have := code_tidy (q t) .empty ⟨nofun, nofun, nofun, List.nodup_nil, List.nodup_nil⟩ _ _
    (fun x hx => absurd rfl hx) nofun (hq t)
  rwa [show stored .empty = fun _ => False from by funext x; simp [stored, Scope.empty]] at this

/-! ## Examples -/

/-- Thread 0 makes `2^64`, negates it and lends it to thread 1, which squares it. -/
def squares : Nat → BProg BInt
  | 0 => .make [0, 1] false 0 (.neg 0 (.lend 0 1 (.ret BInt.zero)))
  | 1 => .recv false ⟨true, none⟩ 5 (.op BInt.mulRaw 5 5 6 (.look 6 fun a => .ret a))
  | _ => .ret BInt.zero

/-- What thread 1 does once it has the number. -/
def squareIt : BProg BInt := .op BInt.mulRaw 5 5 6 (.look 6 fun a => .ret a)

/-- What thread 1 has then. -/
def squareScope : Scope := Scope.empty.borrow 5 ⟨true, none⟩

/-- A state that meets the hypotheses: thread 1 has borrowed `-2^64`, and will get `2^128`. -/
example : ∃ s : Sys Limbs (Res BInt), Moves (start fun t => code (squares t) .empty) s ∧
    (s.th 1).prog = code squareIt squareScope ∧
    wordNum squareScope.word (s.values 1).env 5 = some ⟨true, .slice [0, 1]⟩ ∧
    bigEval squareIt (wordNum squareScope.word (s.values 1).env) = some (.ok ⟨false, .slice [0, 0, 1]⟩) := by
  have a1 := Moves.tail (Moves.refl (start fun t => code (squares t) .empty))
    (.add _ _ 0 0 [0, 1] _ rfl rfl rfl rfl)
  have a2 := a1.tail (.run _ _ 0 (.scan [0, 1] 0 rfl))
  have a3 := a2.tail (.run _ _ 0 (.pushChunk [0, 1] rfl))
  have a4 := a3.tail (.run _ _ 0 (.claim [0, 1] 0 rfl))
  have a5 := a4.tail (.run _ _ 0 (.write [0, 1] 0 rfl))
  have a6 := a5.tail (.lend _ _ 0 1 0 5 ⟨1, 0, 0, [0, 1]⟩ _ _ rfl rfl rfl rfl nofun rfl)
  exact ⟨_, a6, rfl, rfl, by decide +kernel⟩

/-- These programs drop and send only what they own. -/
example : ∀ t, BProgOk (squares t) (fun _ => False) fun _ => False
  | 0 => ⟨nofun, nofun, trivial⟩
  | 1 => ⟨nofun, nofun, nofun, by simp, fun _ => trivial⟩
  | _ + 2 => trivial

/-- Thread 0 makes `2^64` and sends it to thread 1, which returns it. -/
def handOver : Nat → BProg BInt
  | 0 => .make [0, 1] false 0 (.send 0 1 (.ret BInt.zero))
  | 1 => .recv true ⟨false, none⟩ 5 (.look 5 fun a => .ret a)
  | _ => .ret BInt.zero

/-- All threads are done, and thread 1 has the number. -/
example : ∃ s : Sys Limbs (Res BInt), Moves (start fun t => code (handOver t) .empty) s ∧
    (∀ t, ∃ r, (s.th t).prog = .ret r) ∧ (s.th 1).prog = .ret (.ok ⟨false, .slice [0, 1]⟩) := by
  have a1 := Moves.tail (Moves.refl (start fun t => code (handOver t) .empty))
    (.add _ _ 0 0 [0, 1] _ rfl rfl rfl rfl)
  have a2 := a1.tail (.run _ _ 0 (.scan [0, 1] 0 rfl))
  have a3 := a2.tail (.run _ _ 0 (.pushChunk [0, 1] rfl))
  have a4 := a3.tail (.run _ _ 0 (.claim [0, 1] 0 rfl))
  have a5 := a4.tail (.run _ _ 0 (.write [0, 1] 0 rfl))
  have a6 := a5.tail (.send _ _ 0 1 0 5 ⟨1, 0, 0, [0, 1]⟩ _ _ rfl rfl rfl rfl rfl nofun rfl)
  have a7 := a6.tail (.get _ 1 5 ⟨1, 1, 0, [0, 1]⟩ _ rfl rfl rfl)
  have a8 := a7.tail (.run _ _ 1 (.getLoad ⟨1, 1, 0, [0, 1]⟩ 1 _ rfl ⟨rfl, Nat.le_refl _⟩))
  have a9 := a8.tail (.run _ _ 1 (.getVal ⟨1, 1, 0, [0, 1]⟩ rfl))
  have a10 := a9.tail (.drop _ _ 1 5 ⟨1, 1, 0, [0, 1]⟩ _ rfl rfl rfl rfl nofun rfl)
  refine ⟨_, a10, fun t => ?_, rfl⟩
  match t with
  | 0 => exact ⟨_, rfl⟩
  | 1 => exact ⟨_, rfl⟩
  | _ + 2 => exact ⟨_, rfl⟩

/-- A program that makes, clones, negates and drops numbers, inline and stored ones. -/
example : bigEval (.make [5] true 0 (.make [0, 1] false 1 (.clone 1 2 (.neg 2 (.drop 1
    (.op BInt.addRaw 0 2 3 (.look 3 fun a => .ret a)))))) : BProg BInt) (fun _ => none) =
    some (.ok ⟨true, .slice [5, 1]⟩) := by decide +kernel

end Verif
