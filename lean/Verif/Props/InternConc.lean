import Verif.Lemmas.InternConc

/-!
# C60: concurrent `add`
-/

set_option linter.unusedSectionVars false

namespace Verif

open Intern

variable {T : Type} [DecidableEq T]

/-! ## Violation -/

/-- Two threads add 5 and 7 to an empty store with one chunk. Both find slot 0 free before either
has claimed it. -/
def racing : Option (Sys Nat) :=
  let run (s : Option (Sys Nat)) (t : Nat) : Option (Sys Nat) :=
    s.bind fun s => (addStep .debug 1 s.store (s.pc t)).map fun x =>
      ⟨x.1, Function.update s.pc t x.2, s.log ++ x.2.ev⟩
  let s0 : Sys Nat := ⟨withCapacity 1, fun _ => .idle, []⟩
  let s1 : Sys Nat := ⟨s0.store, Function.update s0.pc 0 (.scan 5 0), []⟩
  let s2 : Sys Nat := ⟨s1.store, Function.update s1.pc 1 (.scan 7 0), []⟩
  [0, 0, 0, 1, 1, 1, 0, 1, 0, 1].foldl run (some s2)

theorem sys_run {m : Mode} {V : Nat → T → Prop} {I : Nat → Nat → Prop} {s0 : Sys T} (run : Option (Sys T) → Nat → Option (Sys T))
    (hrun : ∀ o t, run o t = o.bind fun s => (addStep m 1 s.store (s.pc t)).map fun x =>
      ⟨x.1, Function.update s.pc t x.2, s.log ++ x.2.ev⟩) (ts : List Nat) (o : Option (Sys T))
    (ho : ∀ s, o = some s → SysSteps m V I maybeStale (fun _ => True) s0 s) (s : Sys T) (h : ts.foldl run o = some s) :
    SysSteps m V I maybeStale (fun _ => True) s0 s := by
  induction ts generalizing o with
  | nil => exact ho s h
  | cons t ts ih =>
    refine ih (run o t) ?_ h
    intro s1 h1
    rw [hrun, Option.bind_eq_some_iff] at h1
    obtain ⟨s2, h2, h3⟩ := h1
    rw [Option.map_eq_some_iff] at h3
    obtain ⟨⟨st', pc'⟩, h4, rfl⟩ := h3
    exact (ho s2 h2).tail trivial (.run s2 t 1 st' pc' ⟨Nat.le_refl _, by omega⟩ h4)

/-- C60, violated by the code: two concurrent adds that pick the same free slot get the same id for
different values. -/
theorem C60_concurrent_add_violated :
    ¬ ∀ (m : Mode) (s : Sys Nat),
      SysSteps m (fun _ _ => True) (fun _ _ => True) maybeStale (fun _ => True)
        ⟨withCapacity 1, fun _ => .idle, []⟩ s →
      ∀ t v id, s.pc t = .done v id → get s.store id = .ok v := by
  intro h
  obtain ⟨s, hs⟩ : ∃ s, racing = some s := Option.isSome_iff_exists.mp (by decide +kernel)
  have hpc : s.pc 0 = .done 5 0 := by
    have : racing.map (fun s => s.pc 0) = some (.done 5 0) := by decide +kernel
    rw [hs] at this
    exact Option.some.inj this
  have hget : get s.store 0 = .ok 7 := by
    have : racing.map (fun s => get s.store 0) = some (.ok 7) := by decide +kernel
    rw [hs] at this
    exact Option.some.inj this
  have hsteps : SysSteps .debug (fun _ _ => True) (fun _ _ => True) maybeStale (fun _ => True)
      ⟨withCapacity 1, fun _ => .idle, []⟩ s := by
    unfold racing at hs
    refine sys_run _ (fun _ _ => rfl) _ _ ?_ s hs
    intro s1 h1
    cases h1
    exact ((SysSteps.refl _).tail trivial (.start _ 0 5 trivial rfl)).tail trivial (.start _ 1 7 trivial rfl)
  have := h .debug s hsteps 0 5 0 hpc
  rw [hget] at this
  cases this

/-! ## What holds -/

theorem Intern.Solo.to {m : Mode} {x y z : Store T × APC T} (h : Solo m x y)
    (h2 : addStep m (y.1.length + 1) y.1 y.2 = some z) : Solo m x z := .tail h h2

theorem solo_scan {m : Mode} {st : Store T} {v : T} (k : Nat)
    (h : ∀ j < k, ∃ s, at_ st j = some s ∧ Skips v s) : Solo m (st, .scan v 0) (st, .scan v k) := by
  induction k with
  | zero => exact .refl _
  | succ k ih =>
    obtain ⟨s, h1, h2⟩ := h k (by omega)
    have h3 := ih (fun j hj => h j (by omega))
    have hs : slot st (offsetToIdx k) = .ok s := by rw [slot_eq, h1]; rfl
    have h4 : Solo m (st, .scan v 0) (st, .load v k) := h3.to (by simp only [addStep, hs])
    have h5 : Solo m (st, .scan v 0) (st, .check v k s.refs) := h4.to (by simp only [addStep, hs])
    exact h5.to (by simp only [addStep, hs]; rw [if_neg h2.1, if_neg h2.2])

/-- C60, calls that do not overlap: a thread running alone through the steps of `add(v)` does what
the sequential `add` does (to which C56-C59 apply). -/
theorem C60_alone_partial (m : Mode) (st : Store T) (hwf : WF st) (v : T)
    (hb : ∀ i s, at_ st i = some s → s.refs < 2 ^ 64 - 1) :
    ∃ st' id, add m st v = .ok (st', id) ∧ Solo m (st, .scan v 0) (st', .done v id) := by
  have hidx : ∀ a b, b < 32 → offsetToIdx (a * 32 + b) = (a, b) := by
    intro a b hb
    unfold offsetToIdx
    congr 1 <;> omega
  unfold add
  rcases find_spec hwf v with ⟨h1, h2⟩ | ⟨a, b, s, h1, h2, h3, h4⟩
  · rw [h1]
    simp only
    have hscan := solo_scan (m := m) (st := st) (v := v) (32 * st.length) (fun j hj => by
      obtain ⟨s, hs⟩ := (at_isSome hwf j).mpr hj
      exact ⟨s, hs, h2 j s hs⟩)
    have hnone : slot st (offsetToIdx (32 * st.length)) = .panic := by
      rw [slot_eq, (at_none hwf _).mpr (Nat.le_refl _)]; rfl
    have s1 : Solo m (st, .scan v 0) (st, .pushChunk v) := hscan.to (by simp only [addStep, hnone])
    have s2 : Solo m (st, .scan v 0) (st ++ [newChunk], .incrNew v (st.length + 1)) := s1.to rfl
    have hat : at_ (st ++ [newChunk]) (st.length * 32) = some newUninit := by
      rw [at_append, if_neg (by omega), if_pos (by omega)]
    have s3 := s2.to (z := (setSlot (st ++ [newChunk]) (offsetToIdx (st.length * 32)) ⟨1, none⟩,
      .setNew v (st.length + 1))) (by
        simp only [addStep, Nat.add_sub_cancel]
        rw [incrAt_ok hat (show 0 < usizeSize - 1 by decide)]
        rfl)
    have hat2 := at_setSlot (st.length * 32) (st.length * 32) ⟨1, none⟩ ⟨_, hat⟩
    rw [if_pos rfl] at hat2
    have s4 := s3.to (z := (setSlot (st ++ [newChunk]) (offsetToIdx (st.length * 32)) ⟨1, some v⟩,
      .done v (st.length * 32))) (by
        simp only [addStep, Nat.add_sub_cancel]
        rw [setAt_ok hat2, setSlot_setSlot])
    have e : offsetToIdx (st.length * 32) = (st.length, 0) := hidx st.length 0 (by omega)
    rw [e] at s4
    refine ⟨_, _, ?_, s4⟩
    have hslot : slot (st ++ [newChunk]) (st.length, 0) = .ok newUninit := by
      rw [← e, slot_eq, hat]; rfl
    simp only [List.length_append, List.length_singleton, Nat.add_sub_cancel]
    rw [hslot]
    rfl
  · have hscan := solo_scan (m := m) (st := st) (v := v) (a * 32 + b) (fun j hj => by
      have hlt := (at_isSome hwf _).mp ⟨s, h2⟩
      obtain ⟨s', hs'⟩ := (at_isSome hwf j).mpr (by omega)
      exact ⟨s', hs', h3 j hj s' hs'⟩)
    have hs : slot st (offsetToIdx (a * 32 + b)) = .ok s := by rw [slot_eq, h2]; rfl
    have hs' : slot st (a, b) = .ok s := by rw [← hidx a b h1]; exact hs
    have s1 := hscan.to (z := (st, .load v (a * 32 + b))) (by simp only [addStep, hs])
    have s2 := s1.to (z := (st, .check v (a * 32 + b) s.refs)) (by simp only [addStep, hs])
    have hbs : s.refs < usizeSize - 1 := hb _ s h2
    have hinc : incrInner m s = .ok { s with refs := s.refs + 1 } := by
      unfold incrInner; rw [if_neg (by omega)]
    rcases h4 with ⟨h5, h6⟩ | ⟨h5, h6, h7⟩
    · rw [h6]
      simp only
      rw [hs']
      simp only [Res.bind, hinc]
      refine ⟨_, _, rfl, ?_⟩
      have s3 := s2.to (z := (st, .incrExists v (a * 32 + b))) (by
        simp only [addStep, hs]; rw [if_pos h5])
      refine s3.to ?_
      simp only [addStep]
      rw [incrAt_ok h2 hbs, hidx a b h1]
    · rw [h7]
      simp only
      rw [hs']
      simp only [Res.bind, hinc]
      refine ⟨_, _, rfl, ?_⟩
      have s3 := s2.to (z := (st, .incrDead v (a * 32 + b))) (by
        simp only [addStep, hs]; rw [if_neg h5, if_pos h6])
      have s4 := s3.to (z := (setSlot st (offsetToIdx (a * 32 + b)) { s with refs := s.refs + 1 },
        .setDead v (a * 32 + b))) (by simp only [addStep]; rw [incrAt_ok h2 hbs])
      refine s4.to ?_
      have hat2 := at_setSlot (a * 32 + b) (a * 32 + b) { s with refs := s.refs + 1 } ⟨_, h2⟩
      rw [if_pos rfl] at hat2
      simp only [addStep]
      rw [setAt_ok hat2, setSlot_setSlot, hidx a b h1]

example : ∃ st', add .debug (withCapacity 1 : Store Nat) 5 = .ok (st', 0) ∧
    Solo .debug (withCapacity 1, .scan 5 0) (st', .done 5 0) := by
  obtain ⟨st', id, h1, h2⟩ := C60_alone_partial .debug (withCapacity 1 : Store Nat)
    (wf_withCapacity 1) 5 (fun i s h => by rw [at_withCapacity 1 i s h]; decide)
  have : id = 0 := by
    have h3 : ∃ st, add .debug (withCapacity 1 : Store Nat) 5 = .ok (st, 0) := ⟨_, rfl⟩
    obtain ⟨st, h3⟩ := h3
    rw [h1] at h3
    simp only [Res.ok.injEq, Prod.mk.injEq] at h3
    exact h3.2
  subst this
  exact ⟨st', h1, h2⟩

/-- The finished operations, replayed one after the other. -/
inductive SeqRun (m : Mode) (st0 : Store T) : List (Ev T) → Store T → Prop
  | nil : SeqRun m st0 [] st0
  | add {l : List (Ev T)} {s s' : Store T} {v : T} {id : Nat} : SeqRun m st0 l s →
      Intern.add m s v = .ok (s', id) → SeqRun m st0 (l ++ [.add v id]) s'
  | incr {l : List (Ev T)} {s s' : Store T} {id : Nat} : SeqRun m st0 l s →
      Intern.incr m s id = .ok s' → SeqRun m st0 (l ++ [.incr id]) s'
  | decr {l : List (Ev T)} {s s' : Store T} {id : Nat} : SeqRun m st0 l s →
      Intern.decr s id = .ok s' → SeqRun m st0 (l ++ [.decr id]) s'

/-- The invariant: `q` is the store of the sequential run so far. -/
structure LinInv (m : Mode) (st0 : Store T) (k w : Nat) (s : Sys T) (q : Store T) : Prop where
  seq : SeqRun m st0 s.log q
  wf : WF q
  low : ∀ i < k, ∀ x, at_ st0 i = some x → ∃ y, at_ q i = some y ∧ y.val = x.val ∧
    y.refs + lost i s.log = x.refs + gained i s.log
  bal : ∀ i, lost i s.log ≤ gained i s.log
  ids : ∀ i, 0 < gained i s.log → i < 32 * q.length
  readers : ∀ t, t ≠ w → ReaderOk st0 k (s.pc t)
  writer : WriterOk q s.store (s.pc w)

/-- A change of the count of slot `i`, logged as event `e`. -/
theorem lin_count {m : Mode} {st0 : Store T} {k w : Nat} {s : Sys T} {q : Store T}
    (h : LinInv m st0 k w s q) {i : Nat} {y : Slot T} (hy : at_ q i = some y) {r : Nat} {e : Ev T}
    {pc' : Nat → APC T}
    (hseq : SeqRun m st0 (s.log ++ [e]) (setSlot q (offsetToIdx i) ⟨r, y.val⟩))
    (hg : ∀ j, j ≠ i → gained j (s.log ++ [e]) = gained j s.log ∧
      lost j (s.log ++ [e]) = lost j s.log)
    (hi : r + lost i (s.log ++ [e]) + gained i s.log = y.refs + lost i s.log + gained i (s.log ++ [e]) ∨ k ≤ i)
    (hbal : lost i (s.log ++ [e]) ≤ gained i (s.log ++ [e]))
    (hrd : ∀ t, t ≠ w → ReaderOk st0 k (pc' t))
    {st' : Store T} (hw : WriterOk (setSlot q (offsetToIdx i) ⟨r, y.val⟩) st' (pc' w)) :
    LinInv m st0 k w ⟨st', pc', s.log ++ [e]⟩ (setSlot q (offsetToIdx i) ⟨r, y.val⟩) := by
  have hlt := (at_isSome h.wf i).mp ⟨y, hy⟩
  refine ⟨hseq, (wf_setSlot h.wf _ _).1, ?_, ?_, ?_, hrd, hw⟩
  · intro j hj x hx
    obtain ⟨z, h1, h2, h3⟩ := h.low j hj x hx
    rw [at_setSlot _ _ _ ⟨y, hy⟩]
    by_cases hji : j = i
    · subst hji
      rw [if_pos rfl]
      rw [hy] at h1
      cases h1
      refine ⟨_, rfl, h2, ?_⟩
      dsimp only
      omega
    · rw [if_neg hji]
      refine ⟨z, h1, h2, ?_⟩
      dsimp only
      rw [(hg j hji).1, (hg j hji).2]
      exact h3
  · intro j
    by_cases hji : j = i
    · subst hji; exact hbal
    · dsimp only
      rw [(hg j hji).1, (hg j hji).2]
      exact h.bal j
  · intro j hj
    rw [(wf_setSlot h.wf _ _).2]
    by_cases hji : j = i
    · subst hji; exact hlt
    · dsimp only at hj
      rw [(hg j hji).1] at hj
      exact h.ids j hj

/-- One step keeps the invariant, for some sequential store. -/
theorem lin_step {m : Mode} {st0 : Store T} {k w : Nat} (hwf : WF st0) (hk : k ≤ 32 * st0.length)
    (hlive : ∀ i < k, ∀ x, at_ st0 i = some x → 1 ≤ x.refs)
    {V : Nat → T → Prop} {I : Nat → Nat → Prop}
    (hV : ∀ t v, t ≠ w → V t v → ∃ i x, i < k ∧ at_ st0 i = some x ∧ x.val = some v)
    (hI : ∀ t i, t ≠ w → I t i → i < k)
    {s s' : Sys T} {q : Store T} (h : LinInv m st0 k w s q)
    (hb : ∀ i x, at_ s.store i = some x → x.refs < 2 ^ 64 - 1)
    (hs : SysStep m V I exactLen s s') : ∃ q', LinInv m st0 k w s' q' := by
  have hlow : ∀ i < k, ∃ x y, at_ st0 i = some x ∧ at_ q i = some y ∧ y.val = x.val ∧
      y.refs + lost i s.log = x.refs + gained i s.log ∧ 1 ≤ y.refs ∧ 1 ≤ x.refs ∧
      at_ s.store i = some y := by
    intro i hi
    obtain ⟨x, hx⟩ := (at_isSome hwf i).mpr (by omega)
    obtain ⟨y, h1, h2, h3⟩ := h.low i hi x hx
    have h4 := hlive i hi x hx
    have h5 := h.bal i
    exact ⟨x, y, hx, h1, h2, h3, by omega, h4, writer_at h.wf h.writer h1 (by omega)⟩
  have updR : ∀ (p : APC T) (t : Nat), (t ≠ w → ReaderOk st0 k p) →
      ∀ t', t' ≠ w → ReaderOk st0 k (Function.update s.pc t p t') := by
    intro p t hp t' ht'
    by_cases ht : t' = t
    · subst ht; rw [Function.update_self]; exact hp ht'
    · rw [Function.update_of_ne ht]; exact h.readers t' ht'
  have hready : (s.pc w).ready = true → s.store = q := by
    intro hr
    have := h.writer
    cases hpc : s.pc w <;> rw [hpc] at hr this <;> first | exact this | cases hr
  -- a step that touches neither store nor log
  have silent : ∀ (t : Nat) (p : APC T), (t ≠ w → ReaderOk st0 k p) →
      (t = w → WriterOk q s.store p) →
      LinInv m st0 k w ⟨s.store, Function.update s.pc t p, s.log⟩ q := by
    intro t p h1 h2
    refine ⟨h.seq, h.wf, h.low, h.bal, h.ids, updR p t h1, ?_⟩
    dsimp only
    by_cases ht : w = t
    · rw [ht, Function.update_self]; exact h2 ht.symm
    · rw [Function.update_of_ne ht]; exact h.writer
  -- the writer after a change of a live slot by somebody else
  have others : ∀ (t i : Nat) (p : APC T) (y : Slot T) (r : Nat), t ≠ w → at_ q i = some y →
      y.refs ≠ 0 → r ≠ 0 → WriterOk (setSlot q (offsetToIdx i) ⟨r, y.val⟩)
        (setSlot s.store (offsetToIdx i) ⟨r, y.val⟩) (Function.update s.pc t p w) := by
    intro t i p y r ht hy hy0 hr
    rw [Function.update_of_ne (Ne.symm ht)]
    exact writer_live h.wf h.writer hy hy0 hr
  cases hs with
  | start t v hv hrdy =>
    refine ⟨q, silent t _ ?_ ?_⟩
    · intro ht
      obtain ⟨i, x, h1, h2, h3⟩ := hV t v ht hv
      exact ⟨fun j hj => absurd hj (Nat.not_lt_zero _), i, x, Nat.zero_le _, h1, h2, h3⟩
    · intro ht
      subst ht
      exact ⟨hready hrdy, fun j hj => absurd hj (Nat.not_lt_zero _)⟩
  | clone t i hi hrdy held =>
    have hil : i < 32 * q.length := h.ids i (by omega)
    obtain ⟨y, hy⟩ := (at_isSome h.wf i).mpr hil
    have hg : ∀ j, j ≠ i → gained j (s.log ++ [.incr i]) = gained j s.log ∧
        lost j (s.log ++ [.incr i]) = lost j s.log := by
      intro j hj
      rw [gained_append, lost_append]
      simp [Ne.symm hj]
    have hgi : gained i (s.log ++ [.incr i]) = gained i s.log + 1 := by rw [gained_append]; simp
    have hli : lost i (s.log ++ [.incr i]) = lost i s.log := by rw [lost_append]; rfl
    by_cases ht : t = w
    · subst ht
      have hst := hready hrdy
      have hbd := hb i y (by rw [hst]; exact hy)
      have hw := h.writer
      refine ⟨setSlot q (offsetToIdx i) { y with refs := y.refs + 1 }, ?_⟩
      rw [incrAt_ok (s := y) (by rw [hst]; exact hy) hbd]
      dsimp only
      refine lin_count h hy (.incr h.seq (incr_ok hy hbd)) hg (Or.inl ?_) ?_
        (updR _ t (fun hne => absurd rfl hne)) ?_
      · rw [hgi, hli]; omega
      · rw [hgi, hli]; omega
      · rw [Function.update_self, hst]
        cases hpc : s.pc t <;> rw [hpc] at hrdy <;> first | rfl | cases hrdy
    · have hik := hI t i ht hi
      obtain ⟨x, y', _, h2, _, h4, h5, _, h7⟩ := hlow i hik
      rw [hy] at h2
      cases h2
      have hbd := hb i y h7
      refine ⟨setSlot q (offsetToIdx i) { y with refs := y.refs + 1 }, ?_⟩
      rw [incrAt_ok h7 hbd]
      dsimp only
      refine lin_count h hy (.incr h.seq (incr_ok hy hbd)) hg (Or.inl ?_) ?_
        (updR _ t (fun hne => h.readers t hne)) ?_
      · rw [hgi, hli]; omega
      · rw [hgi, hli]; omega
      · exact others t i _ y (y.refs + 1) ht hy (by omega) (by omega)
  | drop t i hi hrdy held =>
    have hil : i < 32 * q.length := h.ids i (by omega)
    obtain ⟨y, hy⟩ := (at_isSome h.wf i).mpr hil
    have hg : ∀ j, j ≠ i → gained j (s.log ++ [.decr i]) = gained j s.log ∧
        lost j (s.log ++ [.decr i]) = lost j s.log := by
      intro j hj
      rw [gained_append, lost_append]
      simp [Ne.symm hj]
    have hgi : gained i (s.log ++ [.decr i]) = gained i s.log := by rw [gained_append]; rfl
    have hli : lost i (s.log ++ [.decr i]) = lost i s.log + 1 := by rw [lost_append]; simp
    have hcount : y.refs - 1 + lost i (s.log ++ [.decr i]) + gained i s.log =
        y.refs + lost i s.log + gained i (s.log ++ [.decr i]) ∨ k ≤ i := by
      rcases Nat.lt_or_ge i k with hik | hik
      · obtain ⟨x, y', _, h2, _, h4, h5, _⟩ := hlow i hik
        rw [hy] at h2
        cases h2
        left
        rw [hgi, hli]; omega
      · exact Or.inr hik
    by_cases ht : t = w
    · subst ht
      have hst := hready hrdy
      refine ⟨setSlot q (offsetToIdx i) { y with refs := y.refs - 1 }, ?_⟩
      rw [decrAt_ok (s := y) (by rw [hst]; exact hy)]
      dsimp only
      refine lin_count h hy (.decr h.seq (decr_ok hy)) hg hcount ?_
        (updR _ t (fun hne => absurd rfl hne)) ?_
      · rw [hgi, hli]; omega
      · rw [Function.update_self, hst]
        cases hpc : s.pc t <;> rw [hpc] at hrdy <;> first | rfl | cases hrdy
    · have hik := hI t i ht hi
      obtain ⟨x, y', _, h2, _, h4, h5, h6, h7⟩ := hlow i hik
      rw [hy] at h2
      cases h2
      refine ⟨setSlot q (offsetToIdx i) { y with refs := y.refs - 1 }, ?_⟩
      rw [decrAt_ok h7]
      dsimp only
      refine lin_count h hy (.decr h.seq (decr_ok hy)) hg hcount ?_
        (updR _ t (fun hne => h.readers t hne)) ?_
      · rw [hgi, hli]; omega
      · exact others t i _ y (y.refs - 1) ht hy (by omega) (by omega)
  | run t ret st' pc' hret hstep =>
    have hgadd : ∀ (v : T) (i j : Nat), j ≠ i → gained j (s.log ++ [.add v i]) = gained j s.log ∧
        lost j (s.log ++ [.add v i]) = lost j s.log := by
      intro v i j hj
      rw [gained_append, lost_append]
      simp [Ne.symm hj]
    have hgi : ∀ (v : T) i, gained i (s.log ++ [.add v i]) = gained i s.log + 1 := by
      intro v i; rw [gained_append]; simp
    have hli : ∀ (v : T) i, lost i (s.log ++ [.add v i]) = lost i s.log := by
      intro v i; rw [lost_append]; rfl
    have bal := h.bal
    by_cases ht : t = w
    · subst ht
      have hw := h.writer
      have rd : ∀ p : APC T, t ≠ t → ReaderOk st0 k p := fun p hne => absurd rfl hne
      cases hpc : s.pc t with
      | idle => rw [hpc] at hstep; cases hstep
      | done => rw [hpc] at hstep; cases hstep
      | panicked => rw [hpc] at hstep; cases hstep
      | scan v i =>
        rw [hpc] at hstep hw
        obtain ⟨h1, h2⟩ := hw
        simp only [addStep] at hstep
        rw [slot_eq, h1] at hstep
        rcases Nat.lt_or_ge i (32 * q.length) with hi | hi
        · obtain ⟨x, hx⟩ := (at_isSome h.wf i).mpr hi
          rw [hx] at hstep
          simp only [Res.ofOption, Option.some.injEq, Prod.mk.injEq] at hstep
          obtain ⟨rfl, rfl⟩ := hstep
          refine ⟨q, ?_⟩
          have := silent t (.load v i) (rd _) (fun _ => ⟨h1, h2, hi⟩)
          simpa [APC.ev, h1] using this
        · rw [(at_none h.wf i).mpr hi] at hstep
          simp only [Res.ofOption, Option.some.injEq, Prod.mk.injEq] at hstep
          obtain ⟨rfl, rfl⟩ := hstep
          refine ⟨q, ?_⟩
          have := silent t (.pushChunk v) (rd _) (fun _ => ⟨h1, fun j hj => h2 j (by omega)⟩)
          simpa [APC.ev, h1] using this
      | load v i =>
        rw [hpc] at hstep hw
        obtain ⟨h1, h2, h3⟩ := hw
        obtain ⟨x, hx⟩ := (at_isSome h.wf i).mpr h3
        simp only [addStep] at hstep
        rw [slot_eq, h1, hx] at hstep
        simp only [Res.ofOption, Option.some.injEq, Prod.mk.injEq] at hstep
        obtain ⟨rfl, rfl⟩ := hstep
        refine ⟨q, ?_⟩
        have := silent t (.check v i x.refs) (rd _) (fun _ => ⟨h1, h2, x, hx, Iff.rfl⟩)
        simpa [APC.ev, h1] using this
      | check v i c =>
        rw [hpc] at hstep hw
        obtain ⟨h1, h2, x, hx, h4⟩ := hw
        simp only [addStep] at hstep
        rw [slot_eq, h1, hx] at hstep
        simp only [Res.ofOption] at hstep
        by_cases hv : x.val = some v
        · rw [if_pos hv, Option.some.injEq, Prod.mk.injEq] at hstep
          obtain ⟨rfl, rfl⟩ := hstep
          refine ⟨q, ?_⟩
          have := silent t (.incrExists v i) (rd _) (fun _ => ⟨h1, h2, x, hx, hv⟩)
          simpa [APC.ev, h1] using this
        · rw [if_neg hv] at hstep
          by_cases hc : c = 0
          · rw [if_pos hc, Option.some.injEq, Prod.mk.injEq] at hstep
            obtain ⟨rfl, rfl⟩ := hstep
            refine ⟨q, ?_⟩
            have := silent t (.incrDead v i) (rd _) (fun _ => ⟨h1, h2, x, hx, hv, h4.mp hc⟩)
            simpa [APC.ev, h1] using this
          · rw [if_neg hc, Option.some.injEq, Prod.mk.injEq] at hstep
            obtain ⟨rfl, rfl⟩ := hstep
            refine ⟨q, ?_⟩
            have := silent t (.scan v (i + 1)) (rd _) (fun _ => ⟨h1, fun j hj z hz => by
              rcases Nat.lt_or_ge j i with hji | hji
              · exact h2 j hji z hz
              · have : j = i := by omega
                subst this
                rw [hx] at hz
                cases hz
                exact ⟨hv, fun h0 => hc (h4.mpr h0)⟩⟩)
            simpa [APC.ev, h1] using this
      | incrExists v i =>
        rw [hpc] at hstep hw
        obtain ⟨h1, h2, x, hx, h4⟩ := hw
        have hbd := hb i x (by rw [h1]; exact hx)
        simp only [addStep, Option.some.injEq] at hstep
        rw [h1, incrAt_ok hx hbd, Prod.mk.injEq] at hstep
        obtain ⟨rfl, rfl⟩ := hstep
        refine ⟨_, lin_count h hx (.add h.seq (add_exists h.wf hx h4 h2 hbd)) (hgadd v i)
          (Or.inl ?_) ?_ (updR _ t (rd _)) ?_⟩
        · rw [hgi, hli]; omega
        · rw [hgi, hli]; have := bal i; omega
        · rw [Function.update_self]; exact rfl
      | incrDead v i =>
        rw [hpc] at hstep hw
        obtain ⟨h1, h2, x, hx, h4, h5⟩ := hw
        have hbd := hb i x (by rw [h1]; exact hx)
        simp only [addStep, Option.some.injEq] at hstep
        rw [h1, incrAt_ok hx hbd, Prod.mk.injEq] at hstep
        obtain ⟨rfl, rfl⟩ := hstep
        refine ⟨q, ?_⟩
        simp only [APC.ev, List.append_nil]
        refine ⟨h.seq, h.wf, h.low, h.bal, h.ids, updR _ t (rd _), ?_⟩
        dsimp only
        rw [Function.update_self]
        exact ⟨h2, x, hx, h4, h5, by rw [h5]⟩
      | setDead v i =>
        rw [hpc] at hstep hw
        obtain ⟨h2, x, hx, h4, h5, h6⟩ := hw
        have hat : at_ s.store i = some ⟨1, x.val⟩ := by
          rw [h6, at_setSlot _ _ _ ⟨x, hx⟩, if_pos rfl]
        simp only [addStep, Option.some.injEq] at hstep
        rw [setAt_ok hat, Prod.mk.injEq] at hstep
        obtain ⟨rfl, rfl⟩ := hstep
        have hik : k ≤ i := by
          rcases Nat.lt_or_ge i k with hik | hik
          · obtain ⟨_, y, _, e1, _, _, e2, _⟩ := hlow i hik
            rw [hx] at e1
            cases e1
            omega
          · exact hik
        have hlt := (at_isSome h.wf i).mp ⟨x, hx⟩
        refine ⟨setSlot q (offsetToIdx i) ⟨1, some v⟩, ?_⟩
        simp only [APC.ev]
        refine ⟨.add h.seq (add_dead h.wf hx h4 h5 h2), (wf_setSlot h.wf _ _).1, ?_, ?_, ?_,
          updR _ t (rd _), ?_⟩
        · intro j hj z hz
          obtain ⟨y, e1, e2, e3⟩ := h.low j hj z hz
          rw [at_setSlot _ _ _ ⟨x, hx⟩, if_neg (by omega)]
          refine ⟨y, e1, e2, ?_⟩
          dsimp only
          rw [(hgadd v i j (by omega)).1, (hgadd v i j (by omega)).2]
          exact e3
        · intro j
          dsimp only
          by_cases hji : j = i
          · subst hji; rw [hgi, hli]; have := bal j; omega
          · rw [(hgadd v i j hji).1, (hgadd v i j hji).2]; exact bal j
        · intro j hj
          dsimp only at hj
          rw [(wf_setSlot h.wf _ _).2]
          by_cases hji : j = i
          · subst hji; exact hlt
          · rw [(hgadd v i j hji).1] at hj; exact h.ids j hj
        · dsimp only
          rw [Function.update_self]
          show _ = _
          rw [h6, setSlot_setSlot]
      | pushChunk v =>
        rw [hpc] at hstep hw
        obtain ⟨h1, h2⟩ := hw
        simp only [addStep, Option.some.injEq, Prod.mk.injEq] at hstep
        obtain ⟨rfl, rfl⟩ := hstep
        refine ⟨q, ?_⟩
        simp only [APC.ev, List.append_nil]
        refine ⟨h.seq, h.wf, h.low, h.bal, h.ids, updR _ t (rd _), ?_⟩
        dsimp only
        rw [Function.update_self]
        exact ⟨by rw [h1], by rw [show ret = s.store.length + 1 from hret, h1], h2⟩
      | incrNew v len =>
        rw [hpc] at hstep hw
        obtain ⟨h1, h2, h3⟩ := hw
        have hat : at_ s.store (q.length * 32) = some newUninit := by
          rw [h1, at_append, if_neg (by omega), if_pos (by omega)]
        simp only [addStep, Option.some.injEq] at hstep
        rw [h2, Nat.add_sub_cancel, incrAt_ok hat (hb _ _ hat), Prod.mk.injEq] at hstep
        obtain ⟨rfl, rfl⟩ := hstep
        refine ⟨q, ?_⟩
        simp only [APC.ev, List.append_nil]
        refine ⟨h.seq, h.wf, h.low, h.bal, h.ids, updR _ t (rd _), ?_⟩
        dsimp only
        rw [Function.update_self]
        exact ⟨by rw [h1]; rfl, rfl, h3⟩
      | setNew v len =>
        rw [hpc] at hstep hw
        obtain ⟨h1, h2, h3⟩ := hw
        have hnew : at_ (q ++ [newChunk]) (q.length * 32) = some newUninit := by
          rw [at_append, if_neg (by omega), if_pos (by omega)]
        have hat : at_ s.store (q.length * 32) = some ⟨1, none⟩ := by
          rw [h1, at_setSlot _ _ _ ⟨_, hnew⟩, if_pos rfl]
        simp only [addStep, Option.some.injEq] at hstep
        rw [h2, Nat.add_sub_cancel, setAt_ok hat, Prod.mk.injEq] at hstep
        obtain ⟨rfl, rfl⟩ := hstep
        have hlen : (setSlot (q ++ [newChunk]) (offsetToIdx (q.length * 32)) ⟨1, some v⟩).length =
            q.length + 1 := by
          rw [(wf_setSlot (wf_append h.wf) _ _).2, List.length_append]; rfl
        refine ⟨_, .add h.seq (add_new h.wf h3), (wf_setSlot (wf_append h.wf) _ _).1, ?_, ?_, ?_,
          updR _ t (rd _), ?_⟩
        · intro j hj z hz
          obtain ⟨y, e1, e2, e3⟩ := h.low j hj z hz
          have hjl := (at_isSome h.wf j).mp ⟨y, e1⟩
          rw [at_setSlot _ _ _ ⟨_, hnew⟩, if_neg (by omega), at_append, if_pos hjl]
          refine ⟨y, e1, e2, ?_⟩
          simp only [APC.ev]
          rw [(hgadd v _ j (by omega)).1, (hgadd v _ j (by omega)).2]
          exact e3
        · intro j
          simp only [APC.ev]
          by_cases hji : j = q.length * 32
          · rw [hji, hgi, hli]; have := bal (q.length * 32); omega
          · rw [(hgadd v _ j hji).1, (hgadd v _ j hji).2]; exact bal j
        · intro j hj
          simp only [APC.ev] at hj
          rw [hlen]
          by_cases hji : j = q.length * 32
          · omega
          · rw [(hgadd v _ j hji).1] at hj; have := h.ids j hj; omega
        · dsimp only
          rw [Function.update_self]
          show _ = _
          rw [h1, setSlot_setSlot]
    · have hok := h.readers t ht
      have wr : ∀ p : APC T, t = w → WriterOk q s.store p := fun p he => absurd he ht
      cases hpc : s.pc t with
      | idle => rw [hpc] at hstep; cases hstep
      | done => rw [hpc] at hstep; cases hstep
      | panicked => rw [hpc] at hstep; cases hstep
      | incrDead => rw [hpc] at hok; exact hok.elim
      | setDead => rw [hpc] at hok; exact hok.elim
      | pushChunk => rw [hpc] at hok; exact hok.elim
      | incrNew => rw [hpc] at hok; exact hok.elim
      | setNew => rw [hpc] at hok; exact hok.elim
      | scan v i =>
        rw [hpc] at hstep hok
        obtain ⟨h0, j, x, h1, h2, h3, h4⟩ := hok
        obtain ⟨_, y, _, _, _, _, _, _, hy⟩ := hlow i (by omega)
        simp only [addStep] at hstep
        rw [slot_eq, hy] at hstep
        simp only [Res.ofOption, Option.some.injEq, Prod.mk.injEq] at hstep
        obtain ⟨rfl, rfl⟩ := hstep
        refine ⟨q, ?_⟩
        have := silent t (.load v i) (fun _ => ⟨h0, j, x, h1, h2, h3, h4⟩) (wr _)
        simpa [APC.ev] using this
      | load v i =>
        rw [hpc] at hstep hok
        obtain ⟨h0, j, x, h1, h2, h3, h4⟩ := hok
        obtain ⟨_, y, _, _, _, _, hy1, _, hy⟩ := hlow i (by omega)
        simp only [addStep] at hstep
        rw [slot_eq, hy] at hstep
        simp only [Res.ofOption, Option.some.injEq, Prod.mk.injEq] at hstep
        obtain ⟨rfl, rfl⟩ := hstep
        refine ⟨q, ?_⟩
        have := silent t (.check v i y.refs) (fun _ => ⟨hy1, h0, j, x, h1, h2, h3, h4⟩) (wr _)
        simpa [APC.ev] using this
      | check v i c =>
        rw [hpc] at hstep hok
        obtain ⟨hc, h0, j, x, h1, h2, h3, h4⟩ := hok
        obtain ⟨x0, y, hx0, _, hyv, _, hy1, _, hy⟩ := hlow i (by omega)
        simp only [addStep] at hstep
        rw [slot_eq, hy] at hstep
        simp only [Res.ofOption] at hstep
        by_cases hv : y.val = some v
        · rw [if_pos hv, Option.some.injEq, Prod.mk.injEq] at hstep
          obtain ⟨rfl, rfl⟩ := hstep
          refine ⟨q, ?_⟩
          have := silent t (.incrExists v i)
            (fun _ => ⟨h0, by omega, x0, hx0, hyv ▸ hv⟩) (wr _)
          simpa [APC.ev] using this
        · rw [if_neg hv, if_neg (by omega), Option.some.injEq, Prod.mk.injEq] at hstep
          obtain ⟨rfl, rfl⟩ := hstep
          refine ⟨q, ?_⟩
          have := silent t (.scan v (i + 1)) (fun _ => ⟨fun j' hj' z hz => by
              rcases Nat.lt_or_ge j' i with hji | hji
              · exact h0 j' hji z hz
              · have : j' = i := by omega
                subst this
                rw [hx0] at hz
                cases hz
                exact hyv ▸ hv, j, x, by
              rcases Nat.lt_or_ge i j with hij | hij
              · exact hij
              · have : i = j := by omega
                subst this
                rw [hx0] at h3
                cases h3
                exact absurd (hyv.trans h4) hv, h2, h3, h4⟩) (wr _)
          simpa [APC.ev] using this
      | incrExists v i =>
        rw [hpc] at hstep hok
        obtain ⟨h0, hik, x, hx, hxv⟩ := hok
        obtain ⟨x0, y, hx0, hyq, hyv, hyc, hy1, _, hy⟩ := hlow i hik
        rw [hx] at hx0
        cases hx0
        have hbd := hb i y hy
        simp only [addStep, Option.some.injEq] at hstep
        rw [incrAt_ok hy hbd, Prod.mk.injEq] at hstep
        obtain ⟨rfl, rfl⟩ := hstep
        have hbefore : ∀ j < i, ∀ z, at_ q j = some z → Skips v z := by
          intro j hj z hz
          obtain ⟨x1, y1, e1, e2, e3, _, e4, _⟩ := hlow j (by omega)
          rw [e2] at hz
          cases hz
          exact ⟨by rw [e3]; exact h0 j hj x1 e1, by omega⟩
        refine ⟨_, lin_count h hyq (.add h.seq (add_exists h.wf hyq (hyv.trans hxv) hbefore hbd))
          (hgadd v i) (Or.inl ?_) ?_ (updR (.done v i) t (fun _ => ⟨hik, x, hx, hxv⟩)) ?_⟩
        · rw [hgi, hli]; omega
        · rw [hgi, hli]; have := bal i; omega
        · exact others t i _ y (y.refs + 1) ht hyq (by omega) (by omega)

/-- C60, one writer among readers. Suppose the first `k` slots are in use, all threads but `w` add
only values found there and clone and drop only ids below `k`, while `w` adds anything. Then under
every interleaving of any number of threads the finished operations, replayed one after the other
in the order in which they ended, give the same ids and the same store (up to the slot that `w` is
claiming at the moment); each `add(v)` of another thread returned an id of `v`; the counts of the
first `k` slots are exact; nothing panics (while no count reaches `2^64 - 1`). Missing: two threads
that may claim a free slot or a new chunk at the same time. -/
theorem C60_one_writer_partial (m : Mode) (st0 : Store T) (hwf : WF st0) (k w : Nat)
    (hk : k ≤ 32 * st0.length) (hlive : ∀ i < k, ∀ x, at_ st0 i = some x → 1 ≤ x.refs)
    (V : Nat → T → Prop) (I : Nat → Nat → Prop)
    (hV : ∀ t v, t ≠ w → V t v → ∃ i x, i < k ∧ at_ st0 i = some x ∧ x.val = some v)
    (hI : ∀ t i, t ≠ w → I t i → i < k) (s : Sys T)
    (hr : SysSteps m V I exactLen (fun s => ∀ i x, at_ s.store i = some x → x.refs < 2 ^ 64 - 1)
      ⟨st0, fun _ => .idle, []⟩ s) :
    (∃ q, SeqRun m st0 s.log q ∧ ((s.pc w).ready = true → s.store = q)) ∧
    (∀ t v id, t ≠ w → s.pc t = .done v id → get s.store id = .ok v) ∧
    (∀ i < k, ∀ x, at_ st0 i = some x → ∃ y, at_ s.store i = some y ∧ y.val = x.val ∧
      y.refs + lost i s.log = x.refs + gained i s.log) ∧
    (∀ t, s.pc t ≠ .panicked) := by
  have main : ∃ q, LinInv m st0 k w s q := by
    induction hr with
    | refl =>
      refine ⟨st0, .nil, hwf, fun i _ x hx => ⟨x, hx, rfl, rfl⟩, fun _ => Nat.le_refl _,
        fun i hi => absurd hi (Nat.lt_irrefl 0), fun _ _ => trivial, rfl⟩
    | tail _ hb hstep ih =>
      obtain ⟨q, hq⟩ := ih
      exact lin_step hwf hk hlive hV hI hq hb hstep
  obtain ⟨q, h⟩ := main
  have hst : ∀ i < k, ∀ x, at_ st0 i = some x → ∃ y, at_ s.store i = some y ∧ y.val = x.val ∧
      y.refs + lost i s.log = x.refs + gained i s.log ∧ y.refs ≠ 0 := by
    intro i hi x hx
    obtain ⟨y, h1, h2, h3⟩ := h.low i hi x hx
    have h4 := hlive i hi x hx
    have h5 := h.bal i
    exact ⟨y, writer_at h.wf h.writer h1 (by omega), h2, h3, by omega⟩
  refine ⟨⟨q, h.seq, ?_⟩, ?_, ?_, ?_⟩
  · intro hrdy
    have := h.writer
    cases hpc : s.pc w <;> rw [hpc] at hrdy this <;> first | exact this | cases hrdy
  · intro t v id ht hpc
    have := h.readers t ht
    rw [hpc] at this
    obtain ⟨h1, x, h2, h3⟩ := this
    obtain ⟨y, g1, g2, _, g4⟩ := hst id h1 x h2
    unfold Intern.get tryGet
    rw [slot_eq, g1]
    simp only [Res.ofOption, Res.bind, g2, h3]
    rw [if_neg g4]
  · intro i hi x hx
    obtain ⟨y, g1, g2, g3, _⟩ := hst i hi x hx
    exact ⟨y, g1, g2, g3⟩
  · intro t hpc
    by_cases ht : t = w
    · subst ht
      have := h.writer
      rw [hpc] at this
      exact this
    · have := h.readers t ht
      rw [hpc] at this
      exact this

/-- C60, adds of values that are already there: if all threads keep to the values and ids of the
first `k` slots, then every finished `add(v)` returned an id of `v` and all counts there are exact, under every
interleaving. -/
theorem C60_present_values_partial (m : Mode) (st0 : Store T) (hwf : WF st0) (k : Nat)
    (hk : k ≤ 32 * st0.length) (hlive : ∀ i < k, ∀ x, at_ st0 i = some x → 1 ≤ x.refs)
    (V : Nat → T → Prop) (I : Nat → Nat → Prop)
    (hV : ∀ t v, V t v → ∃ i x, i < k ∧ at_ st0 i = some x ∧ x.val = some v)
    (hI : ∀ t i, I t i → i < k) (s : Sys T)
    (hr : SysSteps m V I exactLen (fun s => ∀ i x, at_ s.store i = some x → x.refs < 2 ^ 64 - 1)
      ⟨st0, fun _ => .idle, []⟩ s) :
    (∀ t v id, s.pc t = .done v id → get s.store id = .ok v) ∧
    (∀ t, (s.pc t).ready = true → SeqRun m st0 s.log s.store) ∧
    (∀ i < k, ∀ x, at_ st0 i = some x → ∃ y, at_ s.store i = some y ∧ y.val = x.val ∧
      y.refs + lost i s.log = x.refs + gained i s.log) ∧
    (∀ t, s.pc t ≠ .panicked) := by
  have h := fun w => C60_one_writer_partial m st0 hwf k w hk hlive V I (fun t v _ => hV t v)
    (fun t i _ => hI t i) s hr
  refine ⟨fun t v id hpc => (h (t + 1)).2.1 t v id (by omega) hpc, fun t ht => ?_, (h 0).2.2⟩
  obtain ⟨q, h1, h2⟩ := (h t).1
  rw [h2 ht]
  exact h1

-- hypotheses met with `k = 32`: one full chunk holding 0..31, readers add values from it
example : let st0 : Store Nat := [(List.range 32).map fun i => ⟨1, some i⟩]
    WF st0 ∧ (∀ i s, at_ st0 i = some s → 1 ≤ s.refs) ∧
    ∀ v, v < 32 → ∃ i s, at_ st0 i = some s ∧ s.val = some v := by
  refine ⟨?_, ?_, ?_⟩
  · intro c hc
    rw [List.mem_singleton.mp hc]
    simp
  · intro i s hs
    unfold at_ at hs
    rcases Nat.eq_zero_or_pos (i / 32) with h | h
    · rw [h] at hs
      simp only [List.getElem?_cons_zero, Option.bind_some, List.getElem?_map,
        Option.map_eq_some_iff] at hs
      obtain ⟨_, _, rfl⟩ := hs
      exact Nat.le_refl _
    · obtain ⟨k, hk⟩ : ∃ k, i / 32 = k + 1 := ⟨i / 32 - 1, by omega⟩
      rw [hk] at hs
      simp at hs
  · intro v hv
    refine ⟨v, ⟨1, some v⟩, ?_, rfl⟩
    unfold at_
    rw [show v / 32 = 0 by omega, show v % 32 = v by omega]
    simp only [List.getElem?_cons_zero, Option.bind_some, List.getElem?_map]
    rw [List.getElem?_range hv]
    rfl

end Verif
