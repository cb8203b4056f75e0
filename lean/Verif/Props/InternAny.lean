import Verif.Model.InternAny
import Mathlib.Data.List.Count

/-!
# C178: interned values that run code of their own
-/

namespace Verif

namespace InternAny

open InternRef (Out)

variable {σ κ T : Type}

/-- The program never adds a value; it may clone, drop and read handles. -/
def Prog.NoAdd {α : Type} : Prog σ κ T α → Prop
  | .ret _ => True
  | .panic => True
  | .read k => ∀ s, (k s).NoAdd
  | .write _ p => p.NoAdd
  | .call c k => (∀ x, c ≠ .add x) ∧ ∀ r, (k r).NoAdd

/-- Comparisons, conversions and destructors never add a value. They may otherwise use the interner, keep state,
answer anything and panic. -/
structure User.NoAdd (u : User σ κ T) : Prop where
  eq : ∀ k v, (u.eq k v).NoAdd
  into : ∀ k, (u.into k).NoAdd
  drop : ∀ v, (u.drop v).NoAdd

/-- The world can be reached: by a program that runs on a new interner and returns or panics. -/
def Reached (u : User σ κ T) (w : World σ T) : Prop :=
  ∃ (n : Nat) (α : Type) (p : Prog σ κ T α) (s : σ) (o : Out α), run u n α p (World.new T s) = (o, w) ∧
    ((∃ a, o = .of (.ok a)) ∨ o = .of .panic)

/-- `v` is a value that may stand for the key `k`: a comparison has answered that they are equal, or the
conversion of `k` has returned `v`. -/
def StandsFor (u : User σ κ T) (k : κ) (v : T) : Prop :=
  (∃ n w w', run u n Bool (u.eq k v) w = (.of (.ok true), w')) ∨
  ∃ n w w', run u n T (u.into k) w = (.of (.ok v), w')

/-! ## Helper lemmas -/

/-- The outcome is not undefined behaviour, and `P` holds of what was returned (`none` for a panic) and of the
world afterwards. -/
private def Safe {α : Type} (P : Option α → World σ T → Prop) : Out α × World σ T → Prop
  | (.of (.ok a), w) => P (some a) w
  | (.of .panic, w) => P none w
  | (.of .hang, _) => True
  | (.ub, _) => False

private def refsAt (w : World σ T) (i : Nat) : Nat := ((w.slots[i]?).map Slot.refs).getD 0
private def valAt (w : World σ T) (i : Nat) : Option T := (w.slots[i]?).bind Slot.val
private def isAt (i : Nat) (o : Option (Nat × T)) : Bool := o.any fun h => h.1 == i
private def cnt (w : World σ T) (i : Nat) : Nat := w.handles.countP (isAt i)

private structure Inv (w : World σ T) : Prop where
  val : ∀ h, some h ∈ w.handles → valAt w h.1 = some h.2 ∧ h.1 ∉ w.frozen
  cnt : ∀ i, cnt w i ≤ refsAt w i

private structure Keeps (w w' : World σ T) : Prop where
  len : w'.slots.length = w.slots.length
  val : ∀ i, valAt w' i = valAt w i
  bal : ∀ i, refsAt w' i + cnt w i = refsAt w i + cnt w' i
  hs : ∀ h, some h ∈ w'.handles → some h ∈ w.handles
  reads : w'.reads = w.reads
  frozen : w'.frozen = w.frozen

private theorem Keeps.refl (w : World σ T) : Keeps w w :=
  ⟨rfl, fun _ => rfl, fun _ => rfl, fun _ h => h, rfl, rfl⟩

private theorem Keeps.trans {a b c : World σ T} (h1 : Keeps a b) (h2 : Keeps b c) : Keeps a c :=
  ⟨h2.len.trans h1.len, fun i => (h2.val i).trans (h1.val i),
    fun i => by have := h1.bal i; have := h2.bal i; omega,
    fun h hh => h1.hs h (h2.hs h hh), h2.reads.trans h1.reads, h2.frozen.trans h1.frozen⟩

private theorem Keeps.inv {w w' : World σ T} (hk : Keeps w w') (hi : Inv w) : Inv w' := by
  refine ⟨fun h hh => ?_, fun i => ?_⟩
  · obtain ⟨h1, h2⟩ := hi.val h (hk.hs h hh)
    exact ⟨(hk.val _).trans h1, hk.frozen ▸ h2⟩
  · have := hk.bal i; have := hi.cnt i; omega

private theorem cnt_zero {w : World σ T} {i : Nat} : cnt w i = 0 ↔ ∀ h, some h ∈ w.handles → h.1 ≠ i := by
  unfold cnt
  rw [List.countP_eq_zero]
  constructor
  · intro h x hx e
    exact h _ hx (by simp [isAt, e])
  · rintro h (_ | x) hx
    · simp [isAt]
    · simpa [isAt] using h x hx

private theorem Keeps.zero {w w' : World σ T} (hk : Keeps w w') {i : Nat} (h : cnt w i = 0) : cnt w' i = 0 :=
  cnt_zero.mpr fun x hx => cnt_zero.mp h x (hk.hs x hx)

private theorem lt_of_valAt {w : World σ T} {i : Nat} {v : T} (h : valAt w i = some v) : i < w.slots.length := by
  by_contra hn
  unfold valAt at h
  rw [List.getElem?_eq_none (by omega)] at h
  cases h

private theorem refsAt_modify (w : World σ T) (f : Nat → Nat) (i j : Nat) (hi : i < w.slots.length)
    (s : List (Slot T)) (hs : s = w.slots.modify i fun s => { s with refs := f s.refs }) :
    ((s[j]?).map Slot.refs).getD 0 = if j = i then f (refsAt w i) else refsAt w j := by
  subst hs
  unfold refsAt
  rw [List.getElem?_modify]
  by_cases e : j = i
  · subst e
    rw [if_pos rfl, List.getElem?_eq_getElem hi]
    simp
  · rw [if_neg e]
    have e' : ¬ i = j := fun h => e h.symm
    cases w.slots[j]? <;> simp [e']

private theorem valAt_modify (w : World σ T) (f : Nat → Nat) (i j : Nat) :
    ((w.slots.modify i fun s => { s with refs := f s.refs })[j]?).bind Slot.val = valAt w j := by
  unfold valAt
  rw [List.getElem?_modify]
  cases w.slots[j]? with
  | none => rfl
  | some s => by_cases e : i = j <;> simp [e]

private theorem call_add (u : User σ κ T) (rec : Runner σ κ T) (n : Nat) (k : κ) (w : World σ T) :
    call u rec n (.add k) w = match add u rec n k w with
    | (.of (.ok i), w) =>
      match (w.slots[i]?).bind Slot.val with
      | some v => (.of (.ok (.handle w.handles.length)), { w with handles := w.handles ++ [some (i, v)] })
      | none => (.of .panic, w)
    | (.of .panic, w) => (.of .panic, w)
    | (.of .hang, w) => (.of .hang, w)
    | (.ub, w) => (.ub, w) := rfl

private theorem call_clone (u : User σ κ T) (rec : Runner σ κ T) (n j : Nat) (w : World σ T) :
    call u rec n (.clone j) w = match w.handles[j]? with
    | some (some h) =>
      (.of (.ok (.handle w.handles.length)), incr h.1 { w with handles := w.handles ++ [some h] })
    | _ => (.of .panic, w) := rfl

private theorem call_drop (u : User σ κ T) (rec : Runner σ κ T) (n j : Nat) (w : World σ T) :
    call u rec n (.drop j) w = match w.handles[j]? with
    | some (some h) => (.of (.ok .done), decr h.1 { w with handles := w.handles.set j none })
    | _ => (.of .panic, w) := rfl

private theorem call_get (u : User σ κ T) (rec : Runner σ κ T) (n j : Nat) (w : World σ T) :
    call u rec n (.get j) w = match w.handles[j]? with
    | some (some h) =>
      match get h.1 w with
      | .of (.ok v) => (.of (.ok (.value v)), w)
      | .of .panic => (.of .panic, w)
      | .of .hang => (.of .hang, w)
      | .ub => (.ub, w)
    | _ => (.of .panic, w) := rfl

private theorem noAdd_call (u : User σ κ T) (rec : Runner σ κ T) (n : Nat) (c : Call κ)
    (hc : ∀ x, c ≠ .add x) (w : World σ T) (hi : Inv w) :
    Safe (fun _ w' => Keeps w w') (call u rec n c w) := by
  cases c with
  | add k => exact absurd rfl (hc k)
  | clone j =>
    rw [call_clone]
    rcases hj : w.handles[j]? with _ | _ | h
    · exact Keeps.refl w
    · exact Keeps.refl w
    · have hm : some h ∈ w.handles := List.mem_of_getElem? hj
      have hl := lt_of_valAt (hi.val h hm).1
      refine ⟨List.length_modify .., fun i => valAt_modify w _ _ _, fun i => ?_, fun x hx => ?_, rfl, rfl⟩
      · have e1 : refsAt (incr h.1 { w with handles := w.handles ++ [some h] }) i = _ :=
          refsAt_modify w (· + 1) h.1 i hl _ rfl
        have e2 : cnt (incr h.1 { w with handles := w.handles ++ [some h] }) i =
            cnt w i + if i = h.1 then 1 else 0 := by
          change List.countP (isAt i) (w.handles ++ [some h]) = _
          rw [List.countP_append]
          unfold cnt
          congr 1
          by_cases e : i = h.1 <;> simp [isAt, e]
          exact fun e' => e e'.symm
        rw [e1, e2]
        by_cases e : i = h.1
        · rw [if_pos e, if_pos e, e]; omega
        · rw [if_neg e, if_neg e]; omega
      · rcases List.mem_append.mp hx with h1 | h1
        · exact h1
        · rw [List.mem_singleton] at h1
          rw [h1]; exact hm
  | drop j =>
    rw [call_drop]
    rcases hj : w.handles[j]? with _ | _ | h
    · exact Keeps.refl w
    · exact Keeps.refl w
    · have hm : some h ∈ w.handles := List.mem_of_getElem? hj
      have hl := lt_of_valAt (hi.val h hm).1
      refine ⟨List.length_modify .., fun i => valAt_modify w (· - 1) h.1 i, fun i => ?_, fun x hx => ?_, rfl, rfl⟩
      · have e1 : refsAt (decr h.1 { w with handles := w.handles.set j none }) i = _ :=
          refsAt_modify w (· - 1) h.1 i hl _ rfl
        have hlt : j < w.handles.length := by
          by_contra hn
          rw [List.getElem?_eq_none (by omega)] at hj
          cases hj
        have hg : w.handles[j] = some h := by
          rw [List.getElem?_eq_getElem hlt] at hj
          exact Option.some.inj hj
        have hpos : ∀ i, i = h.1 → 0 < cnt w i := by
          intro i e
          rcases Nat.eq_zero_or_pos (cnt w i) with h0 | h0
          · exact absurd e.symm (cnt_zero.mp h0 h hm)
          · exact h0
        have e2 : cnt (decr h.1 { w with handles := w.handles.set j none }) i + (if i = h.1 then 1 else 0) =
            cnt w i := by
          change List.countP (isAt i) (w.handles.set j none) + _ = _
          rw [List.countP_set hlt, hg]
          have := hpos i
          unfold cnt at this ⊢
          by_cases e : i = h.1
          · have h0 := this e
            subst e
            have e3 : isAt h.1 (some h) = true := by simp [isAt]
            have e4 : isAt h.1 (none : Option (Nat × T)) = false := rfl
            rw [e3, e4, if_pos rfl, if_pos rfl]
            simp
            omega
          · have e' : ¬ h.1 = i := fun x => e x.symm
            simp [isAt, e, e']
        rw [e1]
        have h3 := hi.cnt i
        by_cases e : i = h.1
        · have := hpos i e
          rw [if_pos e] at e2 ⊢
          subst e
          omega
        · rw [if_neg e] at e2 ⊢
          omega
      · rcases List.mem_or_eq_of_mem_set hx with h1 | h1
        · exact h1
        · cases h1
  | get j =>
    rw [call_get]
    rcases hj : w.handles[j]? with _ | _ | h
    · exact Keeps.refl w
    · exact Keeps.refl w
    · have hm : some h ∈ w.handles := List.mem_of_getElem? hj
      obtain ⟨h1, h2⟩ := hi.val h hm
      simp only
      unfold valAt at h1
      unfold get
      cases hs : w.slots[h.1]? with
      | none => exact Keeps.refl w
      | some s =>
        rw [hs] at h1
        simp only [Option.bind_some] at h1
        simp only [if_neg h2, h1]
        by_cases e : s.refs = 0
        · rw [if_pos e]; exact Keeps.refl w
        · rw [if_neg e]; exact Keeps.refl w

private theorem noAdd_run (u : User σ κ T) (n : Nat) : ∀ (α : Type) (p : Prog σ κ T α) (w : World σ T),
    p.NoAdd → Inv w → Safe (fun _ w' => Keeps w w') (run u n α p w) := by
  induction n with
  | zero => intro α p w _ _; exact trivial
  | succ n ih =>
    intro α p w hp hi
    cases p with
    | ret a => exact Keeps.refl w
    | panic => exact Keeps.refl w
    | read k => exact ih α _ w (hp _) hi
    | write s p =>
      have h := ih α p { w with user := s } hp ⟨hi.val, hi.cnt⟩
      change Safe _ (run u n α p { w with user := s })
      generalize run u n α p { w with user := s } = r at h
      obtain ⟨o, w'⟩ := r
      rcases o with _ | o
      · exact h
      · cases o with
        | ok a => exact ⟨h.len, h.val, h.bal, h.hs, h.reads, h.frozen⟩
        | panic => exact ⟨h.len, h.val, h.bal, h.hs, h.reads, h.frozen⟩
        | hang => exact trivial
    | call c k =>
      have h := noAdd_call u (run u n) n c hp.1 w hi
      have e : run u (n + 1) α (.call c k) w =
        match call u (run u n) n c w with
        | (.of (.ok r), w) => run u n α (k (some r)) w
        | (.of .panic, w) => run u n α (k none) w
        | (.of .hang, w) => (.of .hang, w)
        | (.ub, w) => (.ub, w) := rfl
      rw [e]
      generalize call u (run u n) n c w = r at h ⊢
      obtain ⟨o, w'⟩ := r
      have key : Keeps w w' → ∀ r, Safe (fun _ w'' => Keeps w w'') (run u n α (k r) w') := by
        intro hk r
        have h2 := ih α (k r) w' (hp.2 r) (hk.inv hi)
        generalize run u n α (k r) w' = r2 at h2
        obtain ⟨o2, w2⟩ := r2
        rcases o2 with _ | o2
        · exact h2
        · cases o2 with
          | ok a => exact hk.trans h2
          | panic => exact hk.trans h2
          | hang => exact trivial
      rcases o with _ | o
      · exact h
      · cases o with
        | ok a => exact key h _
        | panic => exact key h _
        | hang => exact trivial

private theorem erase_reads {w w' : World σ T} {i : Nat} (h : Keeps { w with reads := i :: w.reads } w') :
    Keeps w { w' with reads := w'.reads.erase i } :=
  ⟨h.len, h.val, h.bal, h.hs, by
    change w'.reads.erase i = w.reads
    rw [h.reads]
    exact List.erase_cons_head .., h.frozen⟩

private theorem find_safe (u : User σ κ T) (hu : u.NoAdd) (m : Nat) (k : κ) (n : Nat) :
    ∀ (i : Nat) (w : World σ T), Inv w → w.frozen = [] →
    Safe (fun (o : Option Found) w' => Keeps w w' ∧ match o with
      | some (.exists_ i) => ∃ v, valAt w' i = some v ∧ StandsFor u k v
      | some (.dead i) => i < w'.slots.length ∧ cnt w' i = 0
      | _ => True) (find u (run u m) k n i w) := by
  induction n with
  | zero => intro i w _ _; exact trivial
  | succ n ih =>
    intro i w hi hf
    have next : ∀ w', Keeps w w' → Safe (fun (o : Option Found) w'' => Keeps w w'' ∧ match o with
        | some (.exists_ i) => ∃ v, valAt w'' i = some v ∧ StandsFor u k v
        | some (.dead i) => i < w''.slots.length ∧ cnt w'' i = 0
        | _ => True) (find u (run u m) k n (i + 1) w') := by
      intro w' hk
      have h2 := ih (i + 1) w' (hk.inv hi) (hk.frozen.trans hf)
      generalize find u (run u m) k n (i + 1) w' = r at h2 ⊢
      obtain ⟨o, w2⟩ := r
      rcases o with _ | o
      · exact h2
      · cases o with
        | ok a => exact ⟨hk.trans h2.1, h2.2⟩
        | panic => exact ⟨hk.trans h2.1, h2.2⟩
        | hang => exact trivial
    have zero : ∀ s, w.slots[i]? = some s → s.refs = 0 → cnt w i = 0 := by
      intro s hs h0
      have := hi.cnt i
      unfold refsAt at this
      rw [hs] at this
      simp [h0] at this
      exact this
    unfold find
    cases hs : w.slots[i]? with
    | none => exact ⟨Keeps.refl w, trivial⟩
    | some s =>
      have hlt : i < w.slots.length := by
        by_contra hn
        rw [List.getElem?_eq_none (by omega)] at hs
        cases hs
      simp only
      rw [if_neg (by rw [hf]; simp)]
      cases hv : s.val with
      | none =>
        simp only
        by_cases h0 : s.refs = 0
        · rw [if_pos h0]
          exact ⟨Keeps.refl w, hlt, zero s hs h0⟩
        · rw [if_neg h0]
          exact next w (Keeps.refl w)
      | some v =>
        simp only
        have h := noAdd_run u m Bool (u.eq k v) { w with reads := i :: w.reads } (hu.eq k v) ⟨hi.val, hi.cnt⟩
        cases hr : run u m Bool (u.eq k v) { w with reads := i :: w.reads } with
        | mk o w' =>
          rw [hr] at h
          rcases o with _ | o
          · exact h
          · cases o with
            | panic => exact ⟨erase_reads h, trivial⟩
            | hang => exact trivial
            | ok b =>
              have hk := erase_reads h
              simp only
              cases b with
              | true =>
                rw [if_pos rfl]
                refine ⟨hk, v, ?_, Or.inl ⟨m, _, _, hr⟩⟩
                rw [hk.val i]
                unfold valAt
                rw [hs]; exact hv
              | false =>
                simp only [Bool.false_eq_true, if_false]
                by_cases h0 : s.refs = 0
                · rw [if_pos h0]
                  exact ⟨hk, by rw [hk.len]; exact hlt, hk.zero (zero s hs h0)⟩
                · rw [if_neg h0]
                  exact next _ hk

/-- What `add` leaves: the invariant, no borrow, and room for a handle. -/
private structure Made (u : User σ κ T) (k : κ) (w w' : World σ T) (i : Nat) : Prop where
  inv : Inv w'
  hs : ∀ h, some h ∈ w'.handles → some h ∈ w.handles
  val : ∃ v, valAt w' i = some v ∧ StandsFor u k v
  room : cnt w' i < refsAt w' i

private def Top (w : World σ T) : Prop := Inv w ∧ w.reads = [] ∧ w.frozen = []

private theorem put_inv {w w' : World σ T} (i : Nat) (v : T) (hi : Inv w) (hz : cnt w i = 0)
    (e1 : w'.slots = w.slots.modify i fun s => { s with val := some v }) (e2 : w'.handles = w.handles)
    (e3 : ∀ j, j ≠ i → j ∉ w.frozen → j ∉ w'.frozen) :
    Inv w' ∧ (∀ j, refsAt w' j = refsAt w j) ∧ (i < w.slots.length → valAt w' i = some v) ∧
      cnt w' i = 0 := by
  have hr : ∀ j, refsAt w' j = refsAt w j := by
    intro j
    unfold refsAt
    rw [e1, List.getElem?_modify]
    cases w.slots[j]? with
    | none => rfl
    | some s => by_cases e : i = j <;> simp [e]
  have hv : ∀ j, j ≠ i → valAt w' j = valAt w j := by
    intro j e
    unfold valAt
    rw [e1, List.getElem?_modify]
    have e' : ¬ i = j := fun h => e h.symm
    cases w.slots[j]? <;> simp [e']
  have hc : ∀ j, cnt w' j = cnt w j := fun j => by unfold cnt; rw [e2]
  refine ⟨⟨fun h hh => ?_, fun j => ?_⟩, hr, fun hl => ?_, (hc i).trans hz⟩
  · rw [e2] at hh
    have hne := cnt_zero.mp hz h hh
    rw [hv _ hne]
    exact ⟨(hi.val h hh).1, e3 _ hne (hi.val h hh).2⟩
  · rw [hc, hr]; exact hi.cnt j
  · unfold valAt
    rw [e1, List.getElem?_modify, List.getElem?_eq_getElem hl]
    simp

private theorem make_safe (u : User σ κ T) (hu : u.NoAdd) (m : Nat) (k : κ) (i : Nat) (w : World σ T)
    (ht : Top w) (hl : i < w.slots.length) (hz : cnt w i = 0) :
    Safe (fun o w' => Top w' ∧ (∀ h, some h ∈ w'.handles → some h ∈ w.handles) ∧
      ∀ j, o = some j → Made u k w w' j) (make u (run u m) k i w) := by
  obtain ⟨hi, hr, hf⟩ := ht
  have hrefs : ∀ j, refsAt (incr i w) j = if j = i then refsAt w i + 1 else refsAt w j := fun j =>
    refsAt_modify w (· + 1) i j hl _ rfl
  have h0 : Inv (incr i w) := by
    refine ⟨fun h hh => ?_, fun j => ?_⟩
    · exact ⟨(valAt_modify w (· + 1) i h.1).trans (hi.val h hh).1, (hi.val h hh).2⟩
    · rw [hrefs]
      have := hi.cnt j
      change cnt w j ≤ _
      by_cases e : j = i
      · rw [if_pos e]; subst e; omega
      · rw [if_neg e]; exact this
  have h1 := noAdd_run u m T (u.into k) (incr i w) (hu.into k) h0
  unfold make
  cases hrun : run u m T (u.into k) (incr i w) with
  | mk o w1 =>
    rw [hrun] at h1
    rcases o with _ | o
    · exact h1
    · cases o with
      | hang => exact trivial
      | panic => exact ⟨⟨h1.inv h0, h1.reads.trans hr, h1.frozen.trans hf⟩, h1.hs, fun j e => by cases e⟩
      | ok v =>
        have i1 := h1.inv h0
        have hz1 : cnt w1 i = 0 := h1.zero hz
        have hl1 : i < w1.slots.length := by
          rw [h1.len]; change i < (w.slots.modify i _).length; rw [List.length_modify]; exact hl
        have hr1 : 1 ≤ refsAt w1 i := by
          have := h1.bal i
          rw [hrefs, if_pos rfl, hz1] at this
          change _ + cnt w i = _ at this
          omega
        have r1 : w1.reads = [] := h1.reads.trans hr
        have f1 : w1.frozen = [] := h1.frozen.trans hf
        have hcame : StandsFor u k v := Or.inr ⟨m, _, _, hrun⟩
        simp only
        unfold setVal
        rw [if_neg (by rw [r1, f1]; simp)]
        have fin : ∀ (w2 w3 : World σ T), Inv w2 → cnt w2 i = 0 → 1 ≤ refsAt w2 i → i < w2.slots.length →
            (∀ h, some h ∈ w2.handles → some h ∈ w.handles) →
            w3.slots = w2.slots.modify i (fun s => { s with val := some v }) → w3.handles = w2.handles →
            (∀ j, j ≠ i → j ∉ w2.frozen → j ∉ w3.frozen) → w3.reads = [] → w3.frozen = [] →
            Top w3 ∧ (∀ h, some h ∈ w3.handles → some h ∈ w.handles) ∧ Made u k w w3 i := by
          intro w2 w3 a1 a2 a3 a4 a5 e1 e2 e3 e4 e5
          obtain ⟨b1, b2, b3, b4⟩ := put_inv i v a1 a2 e1 e2 e3
          refine ⟨⟨b1, e4, e5⟩, by rw [e2]; exact a5, b1, by rw [e2]; exact a5, ⟨v, b3 a4, hcame⟩, ?_⟩
          rw [b4, b2]; exact a3
        cases hold : (w1.slots[i]?).bind Slot.val with
        | none =>
          obtain ⟨c1, c2, c3⟩ := fin w1
            { w1 with slots := w1.slots.modify i fun s => { s with val := some v } } i1 hz1 hr1 hl1 h1.hs rfl rfl
            (by intro j _ h; exact h) r1 f1
          refine ⟨c1, c2, fun j e => ?_⟩
          cases e
          exact c3
        | some old =>
          simp only
          have i1' : Inv { w1 with frozen := i :: w1.frozen } := by
            refine ⟨fun h hh => ⟨(i1.val h hh).1, ?_⟩, i1.cnt⟩
            change h.1 ∉ i :: w1.frozen
            rw [f1, List.mem_singleton]
            exact cnt_zero.mp hz1 h hh
          have h2 := noAdd_run u m Unit (u.drop old) { w1 with frozen := i :: w1.frozen } (hu.drop old) i1'
          cases hd : run u m Unit (u.drop old) { w1 with frozen := i :: w1.frozen } with
          | mk o2 w2 =>
            rw [hd] at h2
            have key : Keeps { w1 with frozen := i :: w1.frozen } w2 → _ := fun hk =>
              fin w2 { w2 with
                frozen := w2.frozen.erase i
                slots := w2.slots.modify i fun s => { s with val := some v } }
                (hk.inv i1') (hk.zero hz1)
                (by have := hk.bal i
                    rw [hk.zero hz1] at this
                    change _ + cnt w1 i = refsAt w1 i + _ at this
                    omega)
                (by rw [hk.len]; exact hl1) (fun h hh => h1.hs h (hk.hs h hh)) rfl rfl
                (by intro j _ h hc; exact h (List.mem_of_mem_erase hc))
                (hk.reads.trans r1)
                (by change w2.frozen.erase i = []
                    rw [hk.frozen]; exact (List.erase_cons_head ..).trans f1)
            rcases o2 with _ | o2
            · exact h2
            · cases o2 with
              | hang => exact trivial
              | ok a =>
                obtain ⟨c1, c2, c3⟩ := key h2
                refine ⟨c1, c2, fun j e => ?_⟩
                cases e
                exact c3
              | panic =>
                obtain ⟨c1, c2, c3⟩ := key h2
                exact ⟨c1, c2, fun j e => by cases e⟩

private theorem add_safe (u : User σ κ T) (hu : u.NoAdd) (m n : Nat) (k : κ) (w : World σ T) (ht : Top w) :
    Safe (fun o w' => Top w' ∧ (∀ h, some h ∈ w'.handles → some h ∈ w.handles) ∧
      ∀ j, o = some j → Made u k w w' j) (add u (run u m) n k w) := by
  have h := find_safe u hu m k n 0 w ht.1 ht.2.2
  unfold add
  cases hfind : find u (run u m) k n 0 w with
  | mk o w1 =>
    rw [hfind] at h
    have mk : ∀ (hk : Keeps w w1) (w2 : World σ T) (i : Nat), Top w2 → i < w2.slots.length → cnt w2 i = 0 →
        w2.handles = w1.handles →
        Safe (fun o w' => Top w' ∧ (∀ h, some h ∈ w'.handles → some h ∈ w.handles) ∧
          ∀ j, o = some j → Made u k w w' j) (make u (run u m) k i w2) := by
      intro hk w2 i t2 l2 z2 e2
      have h3 := make_safe u hu m k i w2 t2 l2 z2
      have sub : ∀ h, some h ∈ w2.handles → some h ∈ w.handles := fun h hh => hk.hs h (e2 ▸ hh)
      generalize make u (run u m) k i w2 = r at h3 ⊢
      obtain ⟨o3, w3⟩ := r
      rcases o3 with _ | o3
      · exact h3
      · cases o3 with
        | hang => exact trivial
        | panic => exact ⟨h3.1, fun h hh => sub h (h3.2.1 h hh), fun j e => by cases e⟩
        | ok a =>
          refine ⟨h3.1, fun h hh => sub h (h3.2.1 h hh), fun j e => ?_⟩
          have := h3.2.2 j e
          exact ⟨this.inv, fun h hh => sub h (this.hs h hh), this.val, this.room⟩
    rcases o with _ | o
    · exact h
    · cases o with
      | hang => exact trivial
      | panic =>
        obtain ⟨hk, _⟩ := h
        exact ⟨⟨hk.inv ht.1, hk.reads.trans ht.2.1, hk.frozen.trans ht.2.2⟩, hk.hs, fun j e => by cases e⟩
      | ok x =>
        obtain ⟨hk, hx⟩ := h
        have t1 : Top w1 := ⟨hk.inv ht.1, hk.reads.trans ht.2.1, hk.frozen.trans ht.2.2⟩
        cases x with
        | exists_ i =>
          obtain ⟨v, hv, hcame⟩ := hx
          have hl := lt_of_valAt hv
          have hrefs : ∀ j, refsAt (incr i w1) j = if j = i then refsAt w1 i + 1 else refsAt w1 j := fun j =>
            refsAt_modify w1 (· + 1) i j hl _ rfl
          have inv : Inv (incr i w1) := by
            refine ⟨fun h hh => ?_, fun j => ?_⟩
            · exact ⟨(valAt_modify w1 (· + 1) i h.1).trans (t1.1.val h hh).1, (t1.1.val h hh).2⟩
            · rw [hrefs]
              have := t1.1.cnt j
              change cnt w1 j ≤ _
              by_cases e : j = i
              · rw [if_pos e]; subst e; omega
              · rw [if_neg e]; exact this
          refine ⟨⟨inv, t1.2⟩, hk.hs, fun j e => ?_⟩
          cases e
          refine ⟨inv, hk.hs, ⟨v, (valAt_modify w1 (· + 1) i i).trans hv, hcame⟩, ?_⟩
          rw [hrefs, if_pos rfl]
          have := t1.1.cnt i
          change cnt w1 i < _
          omega
        | dead i => exact mk hk w1 i t1 hx.1 hx.2 rfl
        | none =>
          have hsame : ∀ j, refsAt { w1 with slots := w1.slots ++ List.replicate chunkSize ⟨0, none⟩ } j =
              refsAt w1 j ∧
              valAt { w1 with slots := w1.slots ++ List.replicate chunkSize ⟨0, none⟩ } j = valAt w1 j := by
            intro j
            unfold refsAt valAt
            simp only
            by_cases hj : j < w1.slots.length
            · rw [List.getElem?_append_left hj]
              exact ⟨rfl, rfl⟩
            · rw [List.getElem?_append_right (by omega), List.getElem?_eq_none (l := w1.slots) (by omega),
                List.getElem?_replicate]
              by_cases hb : j - w1.slots.length < chunkSize <;> simp [hb]
          refine mk hk _ _ ⟨⟨fun h hh => ?_, fun j => ?_⟩, t1.2⟩ ?_ ?_ rfl
          · rw [(hsame _).2]; exact t1.1.val h hh
          · rw [(hsame _).1]; exact t1.1.cnt j
          · change w1.slots.length < (w1.slots ++ List.replicate chunkSize _).length
            rw [List.length_append, List.length_replicate]
            unfold chunkSize
            omega
          · change cnt w1 w1.slots.length = 0
            have h1 := t1.1.cnt w1.slots.length
            unfold refsAt at h1
            rw [List.getElem?_eq_none (Nat.le_refl _)] at h1
            simpa using h1

private theorem call_safe (u : User σ κ T) (hu : u.NoAdd) (m n : Nat) (c : Call κ) (w : World σ T)
    (ht : Top w) : Safe (fun _ w' => Top w') (call u (run u m) n c w) := by
  by_cases hc : ∀ x, c ≠ .add x
  · have h := noAdd_call u (run u m) n c hc w ht.1
    generalize call u (run u m) n c w = r at h ⊢
    obtain ⟨o, w'⟩ := r
    rcases o with _ | o
    · exact h
    · cases o with
      | hang => exact trivial
      | panic => exact ⟨h.inv ht.1, h.reads.trans ht.2.1, h.frozen.trans ht.2.2⟩
      | ok a => exact ⟨h.inv ht.1, h.reads.trans ht.2.1, h.frozen.trans ht.2.2⟩
  · push_neg at hc
    obtain ⟨k, rfl⟩ := hc
    have h := add_safe u hu m n k w ht
    rw [call_add]
    generalize add u (run u m) n k w = r at h ⊢
    obtain ⟨o, w'⟩ := r
    rcases o with _ | o
    · exact h
    · cases o with
      | hang => exact trivial
      | panic => exact h.1
      | ok i =>
        obtain ⟨t1, _, hm⟩ := h
        have hm := hm i rfl
        obtain ⟨v, hv, _⟩ := hm.val
        have hv' := hv
        unfold valAt at hv
        simp only [hv]
        refine ⟨⟨fun h hh => ?_, fun j => ?_⟩, t1.2⟩
        · rcases List.mem_append.mp hh with h1 | h1
          · exact t1.1.val h h1
          · rw [List.mem_singleton, Option.some.injEq] at h1
            subst h1
            refine ⟨hv', ?_⟩
            change i ∉ w'.frozen
            rw [t1.2.2]
            simp
        · change List.countP (isAt j) (w'.handles ++ [some (i, v)]) ≤ refsAt w' j
          rw [List.countP_append]
          have h1 := t1.1.cnt j
          have h2 := hm.room
          unfold cnt at h1 h2
          by_cases e : i = j
          · subst e
            simp [isAt] at h1 h2 ⊢
            omega
          · simp [isAt, e] at h1 ⊢
            exact h1

private theorem run_safe (u : User σ κ T) (hu : u.NoAdd) (n : Nat) :
    ∀ (α : Type) (p : Prog σ κ T α) (w : World σ T), Top w → Safe (fun _ w' => Top w') (run u n α p w) := by
  induction n with
  | zero => intro α p w _; exact trivial
  | succ n ih =>
    intro α p w ht
    cases p with
    | ret a => exact ht
    | panic => exact ht
    | read k => exact ih α _ w ht
    | write s p => exact ih α p { w with user := s } ⟨⟨ht.1.val, ht.1.cnt⟩, ht.2⟩
    | call c k =>
      have h := call_safe u hu n n c w ht
      have e : run u (n + 1) α (.call c k) w =
        match call u (run u n) n c w with
        | (.of (.ok r), w) => run u n α (k (some r)) w
        | (.of .panic, w) => run u n α (k none) w
        | (.of .hang, w) => (.of .hang, w)
        | (.ub, w) => (.ub, w) := rfl
      rw [e]
      generalize call u (run u n) n c w = r at h ⊢
      obtain ⟨o, w'⟩ := r
      rcases o with _ | o
      · exact h
      · cases o with
        | ok a => exact ih α _ w' h
        | panic => exact ih α _ w' h
        | hang => exact trivial

private theorem top_new (s : σ) : Top (World.new T s) := by
  refine ⟨⟨?_, ?_⟩, rfl, rfl⟩
  · intro h hh
    exact absurd hh (List.not_mem_nil)
  · intro i
    exact Nat.zero_le _

private theorem reached_top (u : User σ κ T) (hu : u.NoAdd) {w : World σ T} (hw : Reached u w) : Top w := by
  obtain ⟨n, α, p, s, o, h, ho⟩ := hw
  have := run_safe u hu n α p _ (top_new s)
  rw [h] at this
  rcases ho with ⟨a, rfl⟩ | rfl
  · exact this
  · exact this

/-! ## C178 -/

/-- C178, the part that holds: if comparisons, conversions and destructors never add values themselves, then,
whatever they answer and do otherwise and wherever they panic, no program has undefined behaviour, and a handle
always reads the value it stood for when it was made. Missing, because false: the same if they add values. -/
theorem C178_handles_partial (u : User σ κ T) (hu : u.NoAdd) (n : Nat) (α : Type) (p : Prog σ κ T α) (s : σ) :
    (run u n α p (World.new T s)).1 ≠ .ub ∧
    ∀ w, Reached u w → ∀ (j : Nat) (h : Nat × T), w.handles[j]? = some (some h) → ∀ rec n,
      call u rec n (.get j) w = (.of (.ok (.value h.2)), w) := by
  constructor
  · have := run_safe u hu n α p _ (top_new s)
    intro e
    generalize run u n α p (World.new T s) = r at this e
    obtain ⟨o, w⟩ := r
    simp only at e
    subst e
    exact this
  · intro w hw j h hj rec n
    have ht := reached_top u hu hw
    have hm : some h ∈ w.handles := List.mem_of_getElem? hj
    obtain ⟨h1, h2⟩ := ht.1.val h hm
    have h3 := ht.1.cnt h.1
    have h4 : 0 < cnt w h.1 := by
      rcases Nat.eq_zero_or_pos (cnt w h.1) with h0 | h0
      · exact absurd rfl (cnt_zero.mp h0 h hm)
      · exact h0
    rw [call_get]
    unfold get
    unfold valAt at h1
    unfold refsAt at h3
    simp only [hj]
    cases hs : w.slots[h.1]? with
    | none => rw [hs] at h1; cases h1
    | some x =>
      rw [hs] at h1 h3
      simp only [Option.bind_some] at h1
      simp only [Option.map_some, Option.getD_some] at h3
      have h0 : x.refs ≠ 0 := by omega
      simp only [if_neg h0, if_neg h2, h1]

/-- C178, adding: under the same condition the handle that `add` returns stands for a value that compared equal
to the key or is what the key was converted to; all other handles stay as they are, or have been dropped by the
code that was called. -/
theorem C178_add_partial (u : User σ κ T) (hu : u.NoAdd) (w : World σ T) (hw : Reached u w) (n m : Nat) (k : κ) :
    ∀ (r : Reply T) (w' : World σ T), call u (run u n) m (.add k) w = (.of (.ok r), w') →
      ∃ i v, r = .handle (w'.handles.length - 1) ∧ w'.handles.getLast? = some (some (i, v)) ∧
        StandsFor u k v ∧ ∀ h, some h ∈ w'.handles → some h ∈ w.handles ∨ h = (i, v) := by
  intro r w' hr
  have h := add_safe u hu n m k w (reached_top u hu hw)
  rw [call_add] at hr
  generalize add u (run u n) m k w = q at h hr
  obtain ⟨o, w1⟩ := q
  rcases o with _ | o
  · simp at hr
  · cases o with
    | hang => simp at hr
    | panic => simp at hr
    | ok i =>
      obtain ⟨_, hs, hm⟩ := h
      obtain ⟨v, hv, hst⟩ := (hm i rfl).val
      unfold valAt at hv
      simp only [hv, Prod.mk.injEq, Out.of.injEq, Res.ok.injEq] at hr
      obtain ⟨rfl, rfl⟩ := hr
      refine ⟨i, v, by simp, by simp, hst, fun h hh => ?_⟩
      rcases List.mem_append.mp hh with h1 | h1
      · exact Or.inl (hs h h1)
      · rw [List.mem_singleton, Option.some.injEq] at h1
        exact Or.inr h1

/-! ### Violations -/

/-- Numbers as keys and values; only the code for 7 calls the interner. -/
def plain : User (List Nat) Nat Nat where
  eq k v := .ret (k == v)
  into k := .ret k
  drop _ := .ret ()

/-- The conversion of 7 adds 1 (and keeps the handle). -/
def converting : User (List Nat) Nat Nat where
  eq k v := .ret (k == v)
  into k := if k = 7 then .call (.add 1) fun _ => .ret 7 else .ret k
  drop _ := .ret ()

/-- Comparing 7 with a value adds 1 (and keeps the handle). -/
def comparing : User (List Nat) Nat Nat where
  eq k v := if k = 7 then .call (.add 1) fun _ => .ret (k == v) else .ret (k == v)
  into k := .ret k
  drop _ := .ret ()

/-- Comparing 7 with a value drops handle 0 and adds 5. -/
def dropping : User (List Nat) Nat Nat where
  eq k v := if k = 7 then .call (.drop 0) fun _ => .call (.add 5) fun _ => .ret (k == v) else .ret (k == v)
  into k := .ret k
  drop _ := .ret ()

/-- Destroying 1 adds 5. -/
def destroying : User (List Nat) Nat Nat where
  eq k v := .ret (k == v)
  into k := .ret k
  drop v := if v = 1 then .call (.add 5) fun _ => .ret () else .ret ()

/-- Adds 1, drops it, adds 7, and reads the handle that was made while adding 7. -/
def reuse : Prog (List Nat) Nat Nat (Option (Reply Nat)) :=
  .call (.add 1) fun _ => .call (.drop 0) fun _ => .call (.add 7) fun _ => .call (.get 1) fun r => .ret r

/-- C178 is violated if the code called by `add` adds values. If the conversion of 7 adds 1, or comparing 7
does, while 1 is in a slot without references, the handle for 1 then reads 7. If comparing 7 drops the handle of
the value it is compared with and adds another, or the destructor of an overwritten value adds one, the behaviour
is undefined. -/
theorem C178_violated :
    (∃ w, run converting 9 _ reuse (World.new Nat []) = (.of (.ok (some (.value 7))), w) ∧
      w.handles[1]? = some (some (0, 1))) ∧
    (∃ w, run comparing 9 _ reuse (World.new Nat []) = (.of (.ok (some (.value 7))), w) ∧
      w.handles[1]? = some (some (0, 1))) ∧
    (run dropping 9 Unit (.call (.add 1) fun _ => .call (.add 7) fun _ => .ret ()) (World.new Nat [])).1 = .ub ∧
    (run destroying 9 Unit (.call (.add 1) fun _ => .call (.drop 0) fun _ => .call (.add 7) fun _ => .ret ())
      (World.new Nat [])).1 = .ub := by
  refine ⟨⟨_, rfl, rfl⟩, ⟨_, rfl, rfl⟩, rfl, rfl⟩

/-- The condition holds of ordinary numbers, and of values whose comparison reads and clones handles and then
panics, or is never true (as for floating-point NaN). -/
example : plain.NoAdd ∧
    (⟨fun _ _ => .ret false, fun k => .ret k, fun _ => .ret ()⟩ : User Unit Nat Nat).NoAdd ∧
    (⟨fun _ _ => .call (.get 0) fun _ => .call (.clone 0) fun _ => .panic, fun k => .ret k, fun _ => .ret ()⟩ :
      User Unit Nat Nat).NoAdd := by
  refine ⟨⟨?_, ?_, ?_⟩, ⟨?_, ?_, ?_⟩, ⟨?_, ?_, ?_⟩⟩ <;> intros <;> simp [plain, Prog.NoAdd]

/-- For 7 and values without code of their own, handle 1 is that of 7; `never` adds the same value twice. -/
example : (∃ w, run plain 9 _ reuse (World.new Nat []) = (.of (.ok (some (.value 7))), w) ∧
      w.handles[1]? = some (some (0, 7))) ∧
    ∃ w, run (⟨fun _ _ => .ret false, fun k => .ret k, fun _ => .ret ()⟩ : User Unit Nat Nat) 9 Unit
      (.call (.add 3) fun _ => .call (.add 3) fun _ => .ret ()) (World.new Nat ()) = (.of (.ok ()), w) ∧
      w.handles = [some (0, 3), some (1, 3)] :=
  ⟨⟨_, rfl, rfl⟩, ⟨_, rfl, rfl⟩⟩

end InternAny

end Verif
