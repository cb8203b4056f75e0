import Verif.Lemmas.BigIntWorld
import Verif.Props.InternShared
import Verif.Model.BigIntConc

/-!
# Lemmas on `BigInt`s on several threads: simulation by the threads of `Model/InternConc`
-/

namespace Verif

open BInt Intern BigWord

namespace BigConc

/-- The number of variables whose word refers to slot `i`. -/
def refs (vars : List (Option (Nat × Res BInt))) (i : Nat) : Nat :=
  vars.countP fun o => refersTo i (o.map Prod.fst)

theorem refs_append (vars : List (Option (Nat × Res BInt))) (w i : Nat) (u : Res BInt) :
    refs (vars ++ [some (w, u)]) i = refs vars i + (refersTo i (some w)).toNat := by
  unfold refs
  rw [List.countP_append]
  cases h : refersTo i (some w) <;> simp [h]

theorem refs_pos {vars : List (Option (Nat × Res BInt))} {k w : Nat} {u : Res BInt}
    (h : vars[k]? = some (some (w, u))) (hi : BigWord.inline (tag w) = false) : 1 ≤ refs vars (offset w) := by
  unfold refs
  rw [Nat.one_le_iff_ne_zero, ← Nat.pos_iff_ne_zero, List.countP_pos_iff]
  exact ⟨some (w, u), List.mem_of_getElem? h, by simp [refersTo_interned hi]⟩

/-- A thread inside `add` is adding `v`. -/
def carries (v : List (BitVec 64)) : APC (List (BitVec 64)) → Prop
  | .idle | .panicked => False
  | .scan u _ | .load u _ | .check u _ _ | .incrExists u _ | .incrDead u _ | .setDead u _ | .pushChunk u
  | .incrNew u _ | .setNew u _ | .done u _ => u = v

theorem carries_step {m : Mode} {ret : Nat} {st st' : IntStore} {p p' : APC (List (BitVec 64))}
    {v : List (BitVec 64)} (h : carries v p) (hs : addStep m ret st p = some (st', p')) :
    carries v p' ∨ p' = .panicked := by
  have hincr : ∀ i next, carries v next → incrAt m st i next = (st', p') → carries v p' ∨ p' = .panicked := by
    intro i next hn e
    unfold incrAt at e
    split at e <;> cases e
    · exact .inl hn
    · exact .inr rfl
  have hset : ∀ i u next, carries v next → setAt st i u next = (st', p') → carries v p' ∨ p' = .panicked := by
    intro i u next hn e
    unfold setAt at e
    split at e <;> cases e
    · exact .inl hn
    · exact .inr rfl
  cases p <;> simp only [addStep, carries] at hs h
  case scan u i =>
    split at hs <;> (cases hs; exact .inl h)
  case load u i =>
    split at hs <;> cases hs
    · exact .inl h
    · exact .inr rfl
  case check u i count =>
    split at hs
    · split at hs
      · cases hs; exact .inl h
      · split at hs <;> (cases hs; exact .inl h)
    · cases hs; exact .inr rfl
  case incrExists u i => exact hincr _ _ (by exact h) (Option.some.inj hs)
  case incrDead u i => exact hincr _ _ (by exact h) (Option.some.inj hs)
  case setDead u i => exact hset _ _ _ (by exact h) (Option.some.inj hs)
  case pushChunk u => cases hs; exact .inl h
  case incrNew u len => exact hincr _ _ (by exact h) (Option.some.inj hs)
  case setNew u len => exact hset _ _ _ (by exact h) (Option.some.inj hs)
  case done => cases hs

theorem setSlot_length (st : IntStore) (loc : Nat × Nat) (s : Slot (List (BitVec 64))) :
    (setSlot st loc s).length = st.length := by
  unfold setSlot; simp

/-- The step that ends `add` does not change the number of chunks. -/
theorem done_length {m : Mode} {ret : Nat} {st st' : IntStore} {p : APC (List (BitVec 64))}
    {v : List (BitVec 64)} {id : Nat} (hs : addStep m ret st p = some (st', .done v id)) :
    st'.length = st.length := by
  have hincr : ∀ i next, (incrAt m st i next).1.length = st.length := by
    intro i next
    unfold incrAt
    split
    · rename_i st1 h
      unfold incr at h
      cases hsl : slot st (offsetToIdx i) with
      | ok x =>
        rw [hsl] at h
        simp only [Res.bind] at h
        cases hi : incrInner m x with
        | ok y => rw [hi] at h; cases h; exact setSlot_length _ _ _
        | panic => rw [hi] at h; cases h
        | hang => rw [hi] at h; cases h
      | panic => rw [hsl] at h; cases h
      | hang => rw [hsl] at h; cases h
    · rfl
  have hset : ∀ i u next, (setAt st i u next).1.length = st.length := by
    intro i u next
    unfold setAt
    split
    · exact setSlot_length _ _ _
    · rfl
  cases p <;> simp only [addStep] at hs
  case scan u i => split at hs <;> cases hs
  case load u i => split at hs <;> cases hs
  case check u i count =>
    split at hs
    · split at hs
      · cases hs
      · split at hs <;> cases hs
    · cases hs
  case incrExists u i => exact (congrArg (fun x => x.1.length) (Option.some.inj hs)).symm.trans (hincr _ _)
  case incrDead u i => exact (congrArg (fun x => x.1.length) (Option.some.inj hs)).symm.trans (hincr _ _)
  case setDead u i => exact (congrArg (fun x => x.1.length) (Option.some.inj hs)).symm.trans (hset _ _ _)
  case pushChunk u => cases hs
  case incrNew u len => exact (congrArg (fun x => x.1.length) (Option.some.inj hs)).symm.trans (hincr _ _)
  case setNew u len => exact (congrArg (fun x => x.1.length) (Option.some.inj hs)).symm.trans (hset _ _ _)
  all_goals cases hs

/-- A variable: its word stands for the well stored number beside it, which, if it is interned, was added and is
held since. -/
def VarOk (log : List (Ev (List (BitVec 64)))) (w : Nat) (u : Res BInt) : Prop :=
  ∃ x, u = .ok x ∧ Rep x ∧ negative (tag w) = x.neg ∧
    ((BigWord.inline (tag w) = true ∧ x.mag = .inline (BitVec.ofNat 64 (offset w))) ∨
     (BigWord.inline (tag w) = false ∧ ∃ v, x.mag = .slice v ∧
       ∃ l1 l2, log = l1 ++ .add v (offset w) :: l2 ∧ HeldSince l1 v (offset w) l2))

/-- A thread: what it wants is what comes of the operands, or of the limbs it is adding. -/
def ThreadOk (vars : List (Option (Nat × Res BInt))) : TPC → Prop
  | .idle => True
  | .left f j k want => ∃ a u b v, vars[j]? = some (some (a, u)) ∧ vars[k]? = some (some (b, v)) ∧
      want = u.bind fun x => v.bind fun y => BInt.finish (f x y)
  | .right f x _ k want => ∃ b v, vars[k]? = some (some (b, v)) ∧ want = v.bind fun y => BInt.finish (f x y)
  | .adding neg p want => ∃ v, carries v p ∧ want = .ok ⟨neg, .slice v⟩ ∧ Rep ⟨neg, .slice v⟩
  | .stopped hung want => want = if hung then .hang else .panic

/-- What the same thread does in `Model/InternConc`. -/
def PcOk : TPC → APC (List (BitVec 64)) → Prop
  | .adding _ p _, q => q = p ∧ p.ready = false
  | _, q => q.ready = true

/-- No two threads inside `add` are at the same slot, unless both have found their limbs there. -/
def ApartThreads (c : Conc) : Prop :=
  ∀ t t' n n' p p' w w' i, t ≠ t' → c.pc t = .adding n p w → c.pc t' = .adding n' p' w' →
    p.target = some i → p'.target = some i → p.found = true ∧ p'.found = true

/-- No count is near overflow, and ids fit in 62 bits. -/
def Small (c : Conc) : Prop :=
  (∀ i x, at_ c.store i = some x → x.refs < 2 ^ 64 - 1) ∧ 32 * c.store.length < 2 ^ 62

structure Sim (m : Mode) (c : Conc) (s : Sys (List (BitVec 64))) : Prop where
  steps : SysSteps m (fun _ _ => True) (fun _ _ => True) exactLen
    (fun s => (∀ t t' i, t ≠ t' → (s.pc t).target = some i → (s.pc t').target = some i →
      (s.pc t).found = true ∧ (s.pc t').found = true) ∧ Roomy s)
    ⟨withCapacity 0, fun _ => .idle, []⟩ s
  store : s.store = c.store
  pcs : ∀ t, PcOk (c.pc t) (s.pc t)
  count : ∀ i, refs c.vars i + lost i s.log = gained i s.log
  vars : ∀ (k w : Nat) (u : Res BInt), c.vars[k]? = some (some (w, u)) → VarOk s.log w u
  threads : ∀ t, ThreadOk c.vars (c.pc t)

theorem Sim.get {m : Mode} {c : Conc} {s : Sys (List (BitVec 64))} (h : Sim m c s) {l1 l2 v i}
    (hl : s.log = l1 ++ .add v i :: l2) (hh : HeldSince l1 v i l2) : Intern.get c.store i = .ok v := by
  rw [← h.store]
  exact (C133_apart_partial m 0 s h.steps).1 i l1 v l2 hl hh

theorem Sim.view {m : Mode} {c : Conc} {s : Sys (List (BitVec 64))} (h : Sim m c s) {w : Nat} {u : Res BInt}
    (hv : VarOk s.log w u) : BigWord.view c.store w = u := by
  obtain ⟨x, rfl, _, h2, h3⟩ := hv
  unfold BigWord.view BigWord.mag
  obtain ⟨n, mg⟩ := x
  dsimp only at h2 h3
  rcases h3 with ⟨h3, h4⟩ | ⟨h3, v, h4, l1, l2, h5, h6⟩
  · rw [if_pos h3]
    simp only [Res.bind, h2, h4]
  · rw [if_neg (by simp [h3]), h.get h5 h6]
    simp only [Res.bind, h2, h4]

theorem Sim.bound {m : Mode} {c : Conc} {s : Sys (List (BitVec 64))} (h : Sim m c s) (h1 : ApartThreads c)
    (h2 : Small c) :
    (∀ t t' i, t ≠ t' → (s.pc t).target = some i → (s.pc t').target = some i →
      (s.pc t).found = true ∧ (s.pc t').found = true) ∧ Roomy s := by
  constructor
  · intro t t' i hne ht ht'
    have key : ∀ t, (s.pc t).target = some i → PcOk (c.pc t) (s.pc t) →
        ∃ n w, c.pc t = .adding n (s.pc t) w := by
      intro t ht hp
      cases hc : c.pc t <;> rw [hc] at hp <;> simp only [PcOk] at hp
      case adding n p w => rw [hp.1]; exact ⟨n, w, rfl⟩
      all_goals rw [target_ready ht] at hp; cases hp
    obtain ⟨n, w, e⟩ := key t ht (h.pcs t)
    obtain ⟨n', w', e'⟩ := key t' ht' (h.pcs t')
    exact h1 t t' _ _ _ _ _ _ i hne e e' ht ht'
  · intro i x hx
    rw [h.store] at hx
    exact h2.1 i x hx

/-- Logging an event that leaves a reference keeps what was held. -/
theorem VarOk.log {log : List (Ev (List (BitVec 64)))} {w : Nat} {u : Res BInt} (h : VarOk log w u)
    (e : Ev (List (BitVec 64)))
    (hheld : BigWord.inline (tag w) = false → lost (offset w) (log ++ [e]) < gained (offset w) (log ++ [e])) :
    VarOk (log ++ [e]) w u := by
  obtain ⟨x, h0, h1, h2, h3⟩ := h
  refine ⟨x, h0, h1, h2, ?_⟩
  rcases h3 with h3 | ⟨h3, v, h4, l1, l2, h5, h6⟩
  · exact .inl h3
  · refine .inr ⟨h3, v, h4, l1, l2 ++ [e], by rw [h5]; simp, ?_⟩
    intro p hp
    rcases List.prefix_concat_iff.mp hp with rfl | hp
    · have := hheld h3
      rw [h5] at this
      simpa using this
    · exact h6 p hp

theorem getElem?_append_some {α : Type} {l : List α} {k : Nat} {x : α} (h : l[k]? = some x) (y : α) :
    (l ++ [y])[k]? = some x := by
  rw [List.getElem?_append_left (List.getElem?_eq_some_iff.mp h).1]
  exact h

theorem ThreadOk.append {vars : List (Option (Nat × Res BInt))} {p : TPC} (h : ThreadOk vars p)
    (o : Option (Nat × Res BInt)) : ThreadOk (vars ++ [o]) p := by
  cases p with
  | left f j k want =>
    obtain ⟨a, u, b, v, h1, h2, h3⟩ := h
    exact ⟨a, u, b, v, getElem?_append_some h1 _, getElem?_append_some h2 _, h3⟩
  | right f x j k want =>
    obtain ⟨b, v, h1, h2⟩ := h
    exact ⟨b, v, getElem?_append_some h1 _, h2⟩
  | _ => exact h

theorem ThreadOk.set {vars : List (Option (Nat × Res BInt))} {p : TPC} (h : ThreadOk vars p) {i : Nat}
    (hb : p.borrows i = false) (o : Option (Nat × Res BInt)) : ThreadOk (vars.set i o) p := by
  cases p with
  | left f j k want =>
    obtain ⟨a, u, b, v, h1, h2, h3⟩ := h
    simp only [TPC.borrows, decide_eq_false_iff_not, not_or] at hb
    exact ⟨a, u, b, v, by rw [List.getElem?_set_ne hb.1]; exact h1,
      by rw [List.getElem?_set_ne hb.2]; exact h2, h3⟩
  | right f x j k want =>
    obtain ⟨b, v, h1, h2⟩ := h
    simp only [TPC.borrows, decide_eq_false_iff_not, not_or] at hb
    exact ⟨b, v, by rw [List.getElem?_set_ne hb.2]; exact h1, h2⟩
  | _ => exact h

section

variable {m : Mode} {c : Conc} {s : Sys (List (BitVec 64))}

theorem Sim.goto (h : Sim m c s) {t : Nat} (ht : (s.pc t).ready = true) {p : TPC}
    (hp : PcOk p (s.pc t)) (hk : ThreadOk c.vars p) : Sim m (c.goto t p) s := by
  refine ⟨h.steps, h.store, fun t' => ?_, h.count, h.vars, fun t' => ?_⟩
  · unfold Conc.goto
    dsimp only
    by_cases e : t' = t
    · subst e; rw [Function.update_self]; exact hp
    · rw [Function.update_of_ne e]; exact h.pcs t'
  · unfold Conc.goto
    dsimp only
    by_cases e : t' = t
    · subst e; rw [Function.update_self]; exact hk
    · rw [Function.update_of_ne e]; exact h.threads t'

/-- A thread that is not adding goes on with the outcome of a computation that gives what it wants. -/
theorem Sim.cont {α : Type} (h : Sim m c s) {t : Nat} (ht : (s.pc t).ready = true) {want : Res BInt}
    {r : Res α} {g : α → Res BInt} (hw : want = r.bind g) {k : α → Conc}
    (hk : ∀ a, r = .ok a → want = g a → ∃ s, Sim m (k a) s) : ∃ s, Sim m (c.cont t want r k) s := by
  unfold Conc.cont
  cases r with
  | ok a => exact hk a rfl hw
  | panic => exact ⟨s, h.goto ht ht hw⟩
  | hang => exact ⟨s, h.goto ht ht hw⟩

/-- A new variable. -/
theorem Sim.giveAfter (h : Sim m c s) {t : Nat} {w : Nat} {u : Res BInt}
    {s' : Sys (List (BitVec 64))} {st' : IntStore}
    (hsteps : SysSteps m (fun _ _ => True) (fun _ _ => True) exactLen
      (fun s => (∀ t t' i, t ≠ t' → (s.pc t).target = some i → (s.pc t').target = some i →
      (s.pc t).found = true ∧ (s.pc t').found = true) ∧ Roomy s)
      ⟨withCapacity 0, fun _ => .idle, []⟩ s')
    (hstore : s'.store = st') (hpc : ∀ t', t' ≠ t → s'.pc t' = s.pc t') (hpt : (s'.pc t).ready = true)
    (hcount : ∀ i, refs c.vars i + (refersTo i (some w)).toNat + lost i s'.log = gained i s'.log)
    (hlog : s'.log = s.log ∨ ∃ e, s'.log = s.log ++ [e])
    (hv : VarOk s'.log w u) : Sim m (({ c with store := st' } : Conc).give t w u) s' := by
  have hc : ∀ i, refs (c.vars ++ [some (w, u)]) i + lost i s'.log = gained i s'.log := by
    intro i
    rw [refs_append]
    exact hcount i
  refine ⟨hsteps, hstore, fun t' => ?_, hc, ?_, ?_⟩
  · unfold Conc.give Conc.goto
    dsimp only
    by_cases e : t' = t
    · subst e; rw [Function.update_self]; exact hpt
    · rw [Function.update_of_ne e, hpc t' e]; exact h.pcs t'
  · intro k a v hk
    unfold Conc.give at hk
    dsimp only at hk
    by_cases hlt : k < c.vars.length
    · rw [List.getElem?_append_left hlt] at hk
      have h1 := h.vars k a v hk
      rcases hlog with e | ⟨e, he⟩
      · rw [e]; exact h1
      · rw [he]
        refine h1.log e fun hi => ?_
        have := hcount (offset a)
        have := refs_pos hk hi
        rw [he] at *
        omega
    · rw [List.getElem?_append_right (by omega)] at hk
      obtain ⟨_, hk⟩ := List.getElem?_eq_some_iff.mp hk
      simp only [List.getElem_singleton, Option.some.injEq, Prod.mk.injEq] at hk
      obtain ⟨rfl, rfl⟩ := hk
      exact hv
  · intro t'
    unfold Conc.give Conc.goto
    dsimp only
    by_cases e : t' = t
    · subst e; rw [Function.update_self]; trivial
    · rw [Function.update_of_ne e]; exact (h.threads t').append _

theorem Sim.newSlice (h : Sim m c s) (h1 : ApartThreads c) (h2 : Small c) {t : Nat} (ht : (s.pc t).ready = true)
    {l : List (BitVec 64)} {neg : Bool} {want : Res BInt} (hw : want = BInt.newSlice l neg) :
    ∃ s, Sim m (c.newSlice t l neg want) s := by
  unfold Conc.newSlice
  unfold BInt.newSlice at hw
  refine h.cont ht hw fun v hv hw => ?_
  have hl : l ≠ [] := by rintro rfl; rw [shrink_nil] at hv; cases hv
  obtain ⟨b, hb, hb', -, -⟩ := newSlice_spec l hl neg
  by_cases hc : v.length = 1 ∧ (v.getD 0 0).toNat ≤ inlineMax
  · rw [if_pos hc] at hw ⊢
    obtain ⟨w, hw1⟩ : ∃ w, BigWord.newInline (v.getD 0 0) neg = .ok w := by
      unfold BigWord.newInline BigWord.new
      rw [if_pos hc.2]
      exact ⟨_, rfl⟩
    rw [hw1]
    have hns : BigWord.newSlice m c.store l neg = .ok (c.store, w) := by
      unfold BigWord.newSlice
      rw [hv]
      simp only [Res.bind]
      rw [if_pos hc, hw1]
    obtain ⟨b', g1, g2, -, g4, g5⟩ := newSlice_cases hns
    have hwant : want = .ok b' := by
      rw [← g1, hw]
      unfold BInt.newSlice
      rw [hv]
      simp only [Res.bind]
      rw [if_pos hc]
    have hinl : BigWord.inline (tag w) = true := by
      rcases g5 with ⟨g5, _⟩ | ⟨g5, v', g6, _⟩
      · exact g5
      · exfalso
        rw [hwant] at hw
        unfold BInt.newInline at hw
        split at hw <;> cases hw
        cases g6
    refine ⟨s, h.giveAfter (t := t) (st' := c.store) h.steps h.store (fun _ _ => rfl) ht (fun i => ?_) (.inl rfl) ⟨b', hwant, g2, g4, ?_⟩⟩
    · rw [refersTo_inline hinl]
      exact h.count i
    · rcases g5 with ⟨g5, _, g6⟩ | ⟨g5, _⟩
      · exact .inl ⟨g5, g6⟩
      · rw [hinl] at g5; cases g5
  · rw [if_neg hc] at hw ⊢
    have hwant : want = .ok ⟨neg, .slice v⟩ := hw
    have hrep : Rep ⟨neg, .slice v⟩ := by
      have : BInt.newSlice l neg = .ok ⟨neg, .slice v⟩ := by
        unfold BInt.newSlice
        rw [hv]
        simp only [Res.bind]
        rw [if_neg hc]
        rfl
      rw [this, Res.ok.injEq] at hb
      subst hb
      exact hb'.1
    refine ⟨⟨s.store, Function.update s.pc t (.scan v 0), s.log⟩,
      h.steps.tail (h.bound h1 h2) (.start s t v trivial ht), h.store, fun t' => ?_, h.count, h.vars, fun t' => ?_⟩
    · unfold Conc.goto
      dsimp only
      by_cases e : t' = t
      · subst e; rw [Function.update_self, Function.update_self]; exact ⟨rfl, rfl⟩
      · rw [Function.update_of_ne e, Function.update_of_ne e]; exact h.pcs t'
    · unfold Conc.goto
      dsimp only
      by_cases e : t' = t
      · subst e; rw [Function.update_self]; exact ⟨v, rfl, hwant, hrep⟩
      · rw [Function.update_of_ne e]; exact h.threads t'

theorem at_of_get {st : IntStore} {i : Nat} {v : List (BitVec 64)} (h : Intern.get st i = .ok v) :
    ∃ x, at_ st i = some x := by
  cases ha : at_ st i with
  | some x => exact ⟨x, rfl⟩
  | none =>
    unfold Intern.get Intern.tryGet at h
    rw [slot_eq, ha] at h
    cases h

theorem at_lt {st : IntStore} {i : Nat} {x : Slot (List (BitVec 64))} (h : at_ st i = some x) :
    i < 32 * st.length := by
  unfold at_ at h
  rw [Option.bind_eq_some_iff] at h
  obtain ⟨l, h1, _⟩ := h
  have := (List.getElem?_eq_some_iff.mp h1).1
  omega

theorem Sim.run (h : Sim m c s) (h1 : ApartThreads c) (h2 : Small c) {t : Nat} {neg : Bool}
    {p p' : APC (List (BitVec 64))} {want : Res BInt} (ht : c.pc t = .adding neg p want) {st' : IntStore}
    (hs : addStep m (c.store.length + 1) c.store p = some (st', p')) :
    ∃ s, Sim m (({ c with store := st' } : Conc).added t neg want p') s := by
  have hpc := h.pcs t
  have hth := h.threads t
  rw [ht] at hpc hth
  obtain ⟨hp, -⟩ := hpc
  obtain ⟨v, hv, hw, hrep⟩ := hth
  have hsteps := h.steps.tail (h.bound h1 h2) (.run s t (c.store.length + 1) st' p'
    (by unfold exactLen; rw [h.store]) (by rw [h.store, hp]; exact hs))
  obtain ⟨hget, -, -, hpan⟩ := C133_apart_partial m 0 _ hsteps
  have hnp : p' ≠ .panicked := by
    have := hpan t
    dsimp only at this
    rwa [Function.update_self] at this
  have hv' := (carries_step hv hs).resolve_right hnp
  have hother : ∀ t', t' ≠ t → (Function.update s.pc t p') t' = s.pc t' :=
    fun t' e => Function.update_of_ne e _ _
  by_cases hd : ∃ u id, p' = .done u id
  · obtain ⟨u, id, rfl⟩ := hd
    obtain rfl : u = v := hv'
    have hid : id ≤ inlineMax := by
      obtain ⟨x, hx⟩ := at_of_get (hget id s.log u [] rfl (fun q hq => by
        rw [List.prefix_nil.mp hq]
        rw [gained_append, lost_append]
        have := h.count id
        simp only [if_true]
        omega))
      have := at_lt hx
      have := done_length hs
      have := h2.2
      dsimp only at *
      rw [inlineMax_eq]
      omega
    unfold Conc.added
    dsimp only
    unfold BigWord.new
    rw [if_pos hid]
    have htag : (if neg = true then tagNeg else tagNone) < 4 := by split <;> decide
    obtain ⟨o1, o2⟩ := offset_new id _ htag
    have hinl : BigWord.inline (tag (id * 4 + if neg = true then tagNeg else tagNone)) = false := by
      rw [o2]; cases neg <;> rfl
    have hcnt : ∀ i, refs c.vars i +
        (refersTo i (some (id * 4 + if neg = true then tagNeg else tagNone))).toNat +
        lost i (s.log ++ [.add u id]) = gained i (s.log ++ [.add u id]) := by
      intro i
      rw [gained_append, lost_append, refersTo_interned hinl, o1]
      have := h.count i
      simp only
      by_cases e : id = i
      · simp only [e, if_true, decide_true, Bool.toNat_true]; omega
      · simp only [e, if_false, decide_false, Bool.toNat_false]; omega
    refine ⟨_, h.giveAfter hsteps rfl (fun t' e => hother t' e)
      (by dsimp only; rw [Function.update_self]; rfl) hcnt (.inr ⟨_, rfl⟩)
      ⟨⟨neg, .slice u⟩, hw, hrep, ?_, .inr ⟨hinl, u, rfl, s.log, [], ?_, ?_⟩⟩⟩
    · rw [o2]; cases neg <;> rfl
    · rw [o1]; rfl
    · intro q hq
      rw [List.prefix_nil.mp hq, o1, gained_append, lost_append]
      have := h.count id
      simp only [if_true]
      omega
  · have hready : p'.ready = false := by
      cases p' <;> first | rfl | exact hv'.elim | exact absurd ⟨_, _, rfl⟩ hd
    have hev : p'.ev = [] := by
      cases p' <;> first | rfl | exact absurd ⟨_, _, rfl⟩ hd
    have hadd : ({ c with store := st' } : Conc).added t neg want p' =
        ({ c with store := st' } : Conc).goto t (.adding neg p' want) := by
      cases p' <;> first | rfl | exact absurd ⟨_, _, rfl⟩ hd | exact absurd rfl hnp
    rw [hadd]
    rw [hev, List.append_nil] at hsteps
    refine ⟨_, hsteps, rfl, fun t' => ?_, h.count, h.vars, fun t' => ?_⟩
    · unfold Conc.goto
      dsimp only
      by_cases e : t' = t
      · subst e; rw [Function.update_self, Function.update_self]; exact ⟨rfl, hready⟩
      · rw [Function.update_of_ne e, Function.update_of_ne e]; exact h.pcs t'
    · unfold Conc.goto
      dsimp only
      by_cases e : t' = t
      · subst e; rw [Function.update_self]; exact ⟨v, hv', hw, hrep⟩
      · rw [Function.update_of_ne e]; exact h.threads t'

theorem VarOk.get {w : Nat} {u : Res BInt} (h : Sim m c s) (hv : VarOk s.log w u)
    (hi : BigWord.inline (tag w) = false) : ∃ x, at_ c.store (offset w) = some x := by
  obtain ⟨x, -, -, -, h3⟩ := hv
  rcases h3 with ⟨h3, _⟩ | ⟨_, v, _, l1, l2, h5, h6⟩
  · rw [hi] at h3; cases h3
  · exact at_of_get (h.get h5 h6)

theorem Sim.clone (h : Sim m c s) (h1 : ApartThreads c) (h2 : Small c) {t k w : Nat} {u : Res BInt}
    (ht : (s.pc t).ready = true) (hk : c.vars[k]? = some (some (w, u))) :
    ∃ s, Sim m (c.cont t u (BigWord.clone m c.store w) fun x =>
      ({ c with store := x.1 } : Conc).give t x.2 u) s := by
  have hv := h.vars k w u hk
  unfold BigWord.clone
  by_cases hi : BigWord.inline (tag w) = true
  · rw [if_pos hi]
    exact ⟨s, h.giveAfter (t := t) h.steps h.store (fun _ _ => rfl) ht
      (fun i => by rw [refersTo_inline hi]; exact h.count i) (.inl rfl) hv⟩
  · rw [if_neg hi]
    have hi : BigWord.inline (tag w) = false := by simpa using hi
    obtain ⟨x, hx⟩ := VarOk.get h hv hi
    have hb := h2.1 _ _ hx
    have hheld : lost (offset w) s.log < gained (offset w) s.log := by
      have := h.count (offset w)
      have := refs_pos hk hi
      omega
    rw [incr_ok hx hb]
    have hsteps := h.steps.tail (h.bound h1 h2) (.clone s t (offset w) trivial ht hheld)
    rw [h.store, incrAt_ok hx hb] at hsteps
    have hcnt : ∀ i, refs c.vars i + (refersTo i (some w)).toNat + lost i (s.log ++ [.incr (offset w)]) =
        gained i (s.log ++ [.incr (offset w)]) := by
      intro i
      rw [gained_append, lost_append, refersTo_interned hi]
      have := h.count i
      simp only
      by_cases e : offset w = i
      · simp only [e, if_true, decide_true, Bool.toNat_true]; omega
      · simp only [e, if_false, decide_false, Bool.toNat_false]; omega
    refine ⟨_, h.giveAfter (t := t) hsteps rfl (fun t' e => Function.update_of_ne e _ _)
      (by dsimp only; rw [Function.update_self]; exact ht) hcnt (.inr ⟨_, rfl⟩) (hv.log _ fun _ => ?_)⟩
    have := hcnt (offset w)
    rw [refersTo_interned hi] at this
    have := refs_pos hk hi
    omega

theorem Sim.drop (h : Sim m c s) (h1 : ApartThreads c) (h2 : Small c) {t k w : Nat} {u : Res BInt}
    (ht : (s.pc t).ready = true) (hk : c.vars[k]? = some (some (w, u)))
    (hfree : ∀ t', (c.pc t').borrows k = false) :
    ∃ s, Sim m (c.cont t u (BigWord.drop c.store w) fun st =>
      { c with store := st, vars := c.vars.set k none }) s := by
  have hv := h.vars k w u hk
  have hset : ∀ (i a : Nat) (r : Res BInt), (c.vars.set k none)[i]? = some (some (a, r)) →
      c.vars[i]? = some (some (a, r)) := by
    intro i a r hi
    by_cases e : k = i
    · subst e
      rw [List.getElem?_set] at hi
      split at hi
      · split at hi <;> cases hi
      · exact hi
    · rwa [List.getElem?_set_ne e] at hi
  have hrefs : ∀ i, refs (c.vars.set k none) i + (refersTo i (some w)).toNat = refs c.vars i := by
    intro i
    have := countP_set (fun o : Option (Nat × Res BInt) => refersTo i (o.map Prod.fst)) c.vars k
      (some (w, u)) none hk
    unfold refs
    simpa [refersTo] using this
  unfold BigWord.drop
  by_cases hi : BigWord.inline (tag w) = true
  · rw [if_pos hi]
    refine ⟨s, h.steps, h.store, h.pcs, fun i => ?_, fun i a r hir => h.vars i a r (hset i a r hir),
      fun t' => (h.threads t').set (hfree t') none⟩
    have := hrefs i
    rw [refersTo_inline hi] at this
    have := h.count i
    simp only [Bool.toNat_false] at *
    show refs (c.vars.set k none) i + _ = _
    omega
  · rw [if_neg hi]
    have hi : BigWord.inline (tag w) = false := by simpa using hi
    obtain ⟨x, hx⟩ := VarOk.get h hv hi
    have hheld : lost (offset w) s.log < gained (offset w) s.log := by
      have := h.count (offset w)
      have := refs_pos hk hi
      omega
    rw [decr_ok hx]
    have hsteps := h.steps.tail (h.bound h1 h2) (.drop s t (offset w) trivial ht hheld)
    rw [h.store, decrAt_ok hx] at hsteps
    dsimp only at hsteps
    rw [Function.update_eq_self] at hsteps
    have hcnt : ∀ i, refs (c.vars.set k none) i + lost i (s.log ++ [.decr (offset w)]) =
        gained i (s.log ++ [.decr (offset w)]) := by
      intro i
      rw [gained_append, lost_append]
      have h3 := h.count i
      have h4 := hrefs i
      rw [refersTo_interned hi] at h4
      simp only at h4 ⊢
      by_cases e : offset w = i
      · simp only [e, if_true, decide_true, Bool.toNat_true] at h4 ⊢; omega
      · simp only [e, if_false, decide_false, Bool.toNat_false] at h4 ⊢; omega
    refine ⟨_, hsteps, rfl, h.pcs, hcnt, fun i a r hir => ?_, fun t' => (h.threads t').set (hfree t') none⟩
    refine (h.vars i a r (hset i a r hir)).log _ fun hai => ?_
    have := hcnt (offset a)
    have : 1 ≤ refs (c.vars.set k none) (offset a) := refs_pos hir hai
    omega

theorem Sim.neg (h : Sim m c s) {k w : Nat} {u : Res BInt} (hk : c.vars[k]? = some (some (w, u)))
    (hfree : ∀ t', (c.pc t').borrows k = false) :
    Sim m { c with vars := c.vars.set k (some (invertNeg w, u.bind fun x => .ok (BInt.neg' x))) } s := by
  refine ⟨h.steps, h.store, h.pcs, fun i => ?_, fun i a r hi => ?_, fun t' => (h.threads t').set (hfree t') _⟩
  · have := countP_set (fun o : Option (Nat × Res BInt) => refersTo i (o.map Prod.fst)) c.vars k
      (some (w, u)) (some (invertNeg w, u.bind fun x => .ok (BInt.neg' x))) hk
    simp only [Option.map_some, refersTo_invertNeg] at this
    have := h.count i
    unfold refs at *
    dsimp only
    omega
  · by_cases e : k = i
    · subst e
      dsimp only at hi
      rw [List.getElem?_set, if_pos rfl, if_pos (List.getElem?_eq_some_iff.mp hk).1] at hi
      simp only [Option.some.injEq, Prod.mk.injEq] at hi
      obtain ⟨rfl, rfl⟩ := hi
      obtain ⟨x, rfl, g1, g2, g3⟩ := h.vars _ _ _ hk
      obtain ⟨o1, o2, o3⟩ := invertNeg_spec w
      refine ⟨x.neg', rfl, g1, ?_, ?_⟩
      · rw [o3, g2]; rfl
      · rw [o1, o2]; exact g3
    · dsimp only at hi
      rw [List.getElem?_set_ne e] at hi
      exact h.vars i a r hi

theorem Sim.step (h : Sim m c s) (h1 : ApartThreads c) (h2 : Small c) {t : Nat} {x : Act} {free : Nat → Bool}
    (hfree : ∀ k, free k = true → ∀ t', (c.pc t').borrows k = false) {c' : Conc}
    (hs : BigConc.step m free c t x = some c') : ∃ s', Sim m c' s' := by
  have hpc := h.pcs t
  have hth := h.threads t
  cases x with
  | make l neg =>
    unfold BigConc.step at hs
    dsimp only at hs
    cases hp : c.pc t <;> rw [hp] at hs hpc <;> cases hs
    exact h.newSlice h1 h2 hpc rfl
  | op f j k =>
    unfold BigConc.step at hs
    dsimp only at hs
    split at hs
    · rename_i a u b v e1 e2 e3
      cases hs
      rw [e1] at hpc
      exact ⟨s, h.goto hpc hpc ⟨_, _, _, _, e2, e3, rfl⟩⟩
    · cases hs
  | run =>
    unfold BigConc.step at hs
    dsimp only at hs
    split at hs
    · rename_i f j k want e
      rw [e] at hpc hth
      obtain ⟨a, u, b, v, g1, g2, g3⟩ := hth
      rw [g1] at hs
      cases hs
      rw [h.view (h.vars _ _ _ g1)]
      exact h.cont hpc g3 fun y _ hy => ⟨s, h.goto hpc hpc ⟨b, v, g2, hy⟩⟩
    · rename_i f y j k want e
      rw [e] at hpc hth
      obtain ⟨b, v, g2, g3⟩ := hth
      rw [g2] at hs
      cases hs
      rw [h.view (h.vars _ _ _ g2)]
      refine h.cont hpc g3 fun z _ hz => ?_
      exact h.cont hpc hz fun r _ hr => h.newSlice h1 h2 hpc hr
    · rename_i neg p want e
      rw [Option.map_eq_some_iff] at hs
      obtain ⟨⟨st', p'⟩, g1, rfl⟩ := hs
      exact h.run h1 h2 e g1
    · cases hs
  | clone k =>
    unfold BigConc.step at hs
    dsimp only at hs
    split at hs
    · rename_i a u e1 e2
      cases hs
      rw [e1] at hpc
      exact h.clone h1 h2 hpc e2
    · cases hs
  | drop k =>
    unfold BigConc.step at hs
    dsimp only at hs
    split at hs
    · rename_i a u e1 e2
      split at hs
      · rename_i hf
        cases hs
        rw [e1] at hpc
        exact h.drop h1 h2 hpc e2 (hfree k hf)
      · cases hs
    · cases hs
  | neg k =>
    unfold BigConc.step at hs
    dsimp only at hs
    split at hs
    · rename_i a u e1 e2
      split at hs
      · rename_i hf
        cases hs
        exact ⟨s, h.neg e2 (hfree k hf)⟩
      · cases hs
    · cases hs

theorem sim_init : Sim m init ⟨withCapacity 0, fun _ => .idle, []⟩ :=
  ⟨.refl _, rfl, fun _ => rfl, fun _ => rfl, fun k w u h => by simp [init] at h, fun _ => trivial⟩

theorem steps_sim (hr : Steps m (fun c => ApartThreads c ∧ Small c) init c) : ∃ s, Sim m c s := by
  induction hr with
  | refl => exact ⟨_, sim_init⟩
  | tail t x free hfree _ hb hs ih =>
    obtain ⟨s, h⟩ := ih
    exact h.step hb.1 hb.2 hfree hs

end

end BigConc

end Verif
