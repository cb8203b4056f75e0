import Verif.Lemmas.LinkedWeak
import Verif.Props.Linked

/-!
# C153, C154: the shared append-only list under release/acquire memory orderings
-/

namespace Verif

open LinkedWeak

variable {T : Type}

/-- Following the pointers that have been set visits exactly these nodes and then null. -/
def WeakContents (m : Mem T) (L : List Nat) : Prop :=
  Walk (fun n => (m.cell (.next n)).map Msg.ptr) ((m.cell .head).map Msg.ptr) L

/-- The result of a finished call shows the thread that the list has an element at this index. -/
inductive Observed : PC → Nat → Prop
  | push (new ret r : Nat) (h : 1 ≤ ret) : Observed (.done new ret r) (ret + r - 1)
  | get (i n : Nat) : Observed (.got i (some n)) i
  | iter (c : Loc) (l : List Nat) (i : Nat) (h : i < l.length) : Observed (.iter c l) i
  | iterEnd (c : Loc) (l : List Nat) (i : Nat) (h : i < l.length) : Observed (.iterEnd c l) i
  | len (k i : Nat) (h : i < k) : Observed (.lenDone k) i
  | nonempty : Observed (.emptyDone false) 0

/-- The result of a finished call shows the thread no element at this index. -/
inductive Missed : PC → Nat → Prop
  | get (i : Nat) : Missed (.got i none) i
  | iterEnd (c : Loc) (l : List Nat) : Missed (.iterEnd c l) l.length
  | len (k : Nat) : Missed (.lenDone k) k
  | empty : Missed (.emptyDone true) 0

theorem LinkedWeak.Chained.contents {m : Mem T} {L : List Nat} (h : Chained m L) :
    WeakContents m L := by
  have key : ∀ k, k ≤ L.length →
      Walk (fun n => (m.cell (.next n)).map Msg.ptr) L[L.length - k]? (L.drop (L.length - k)) := by
    intro k
    induction k with
    | zero => intro _; simpa using Walk.nil
    | succ k ih =>
      intro hk
      have hlt : L.length - (k + 1) < L.length := by omega
      have e := List.getElem?_eq_getElem hlt
      rw [e, List.drop_eq_getElem_cons hlt]
      apply Walk.cons
      rw [← loc_succ e, h.cell _ hlt]
      have := ih (by omega)
      rwa [show L.length - k = L.length - (k + 1) + 1 by omega] at this
  have := key L.length (Nat.le_refl _)
  rw [Nat.sub_self] at this
  unfold WeakContents
  have h0 := h.cell 0 (Nat.zero_le _)
  simp only [loc] at h0
  rw [h0]
  simpa using this

theorem observed_at {L : List Nat} {v : View} (hv : VOk L v) (hn : L.Nodup) {p : PC}
    (h : PCok L v p) {i : Nat} (ho : Observed p i) : ∃ n, At L v i n := by
  cases ho with
  | push new ret r _ => exact ⟨new, h.2⟩
  | get i n => exact ⟨n, h⟩
  | iter c l i hi => exact ⟨_, h.known i _ (List.getElem?_eq_getElem hi)⟩
  | iterEnd c l i hi => exact ⟨_, h.known i _ (List.getElem?_eq_getElem hi)⟩
  | len k i hi =>
    rcases h with rfl | ⟨c, hc⟩
    · omega
    · obtain ⟨d, hd, _⟩ := hc.below hv hn (show i ≤ k - 1 by omega)
      exact ⟨d, hd⟩
  | nonempty => exact h rfl

/-- C153, no data race: under the orderings of the code, whatever threads push, look up, iterate
and test for emptiness in any interleaving and with any staleness the orderings allow, no thread
accesses a node before its initialisation is visible to it, and none follows a null pointer. (`len`
is only called by threads that have seen the first element; see below.) -/
theorem C153_no_race (s : State T) (hr : Steps true init s) :
    ¬ Racy s ∧ ∀ t, s.pc t ≠ .crash := by
  obtain ⟨L, h, _⟩ := inv_steps inv_init hr
  refine ⟨?_, fun t hpc => ?_⟩
  · rintro ⟨t, n, ha, hn⟩
    exact hn (access_known h.nodup (h.view t) (h.ok t) ha)
  · have := h.ok t
    rwa [hpc] at this

/-- C153, at every moment: the list is a finite chain without repetition; every completed push has
its node on it exactly once; `get(i)` finds the `i`-th element; an iterator has returned the first
elements in order; `len` is not too large. -/
theorem C153_list_intact (s : State T) (hr : Steps true init s) :
    ∃ L, WeakContents s.mem L ∧ L.Nodup ∧
      (∀ t new ret r, s.pc t = .done new ret r → L.count new = 1 ∧ L[ret + r - 1]? = some new) ∧
      (∀ t idx n, s.pc t = .got idx (some n) → L[idx]? = some n) ∧
      (∀ t c l, (s.pc t).iterator = some (c, l) → l <+: L) ∧
      (∀ t k, s.pc t = .lenDone k → k ≤ L.length) ∧
      (∀ t, s.pc t = .emptyDone false → L ≠ []) ∧
      (∀ n ∈ L, ∃ v, s.mem.val n = some v) := by
  obtain ⟨L, h, _⟩ := inv_steps inv_init hr
  refine ⟨L, h.toChained.contents, h.nodup, ?_, ?_, ?_, ?_, ?_, fun n hn => h.vals n (h.lt n hn)⟩
  · intro t new ret r hpc
    have := h.ok t
    rw [hpc] at this
    exact ⟨List.count_eq_one_of_mem h.nodup (List.mem_of_getElem? this.2.1), this.2.1⟩
  · intro t idx n hpc
    have := h.ok t
    rw [hpc] at this
    exact this.1
  · intro t c l hi
    exact (iterator_ok (h.ok t) hi).pre
  · intro t k hpc
    have := h.ok t
    rw [hpc] at this
    rcases this with rfl | ⟨c, hc⟩
    · exact Nat.zero_le _
    · have := hc.lt; omega
  · intro t hpc
    have := h.ok t
    rw [hpc] at this
    obtain ⟨c, hc⟩ := this rfl
    rintro rfl
    exact absurd hc.lt (Nat.not_lt_zero _)

/-- C153, over time: what is on the list stays at its index, with its value. -/
theorem C153_append_only (s s' : State T) (hr : Steps true init s) (hs : Steps true s s')
    (L L' : List Nat) (hL : WeakContents s.mem L) (hL' : WeakContents s'.mem L') :
    L <+: L' ∧ L.map s.mem.val <+: L'.map s'.mem.val := by
  obtain ⟨K, h, _⟩ := inv_steps inv_init hr
  obtain ⟨K', h', hp, hv, _⟩ := inv_steps h hs
  have e := h.toChained.contents.unique hL
  have e' := h'.toChained.contents.unique hL'
  subst e e'
  refine ⟨hp, ?_⟩
  rw [List.map_congr_left (g := s'.mem.val) (fun n hn => (hv n (h.lt n hn)).symm)]
  exact hp.map _

/-- C153, one push: the element that `push(x)` adds is `x`. -/
theorem C153_push_lands (s s' : State T) (hr : Steps true init s) (t : Nat) (x : T)
    (hready : (s.pc t).ready = true)
    (hs : Steps true ⟨newNode s.mem x, Function.update s.pc t (.casHead s.mem.alloc),
        Function.update s.view t ((s.view t).own s.mem.alloc)⟩ s')
    (ret r : Nat) (hdone : s'.pc t = .done s.mem.alloc ret r) (L' : List Nat)
    (hL' : WeakContents s'.mem L') :
    L'.count s.mem.alloc = 1 ∧ s'.mem.val s.mem.alloc = some x := by
  obtain ⟨K, h, _⟩ := inv_steps inv_init hr
  have h1 := (after_push h t x hready).inv
  obtain ⟨K', h', hp, hv, _⟩ := inv_steps h1 hs
  have e' := h'.toChained.contents.unique hL'
  subst e'
  constructor
  · have := h'.ok t
    rw [hdone] at this
    exact List.count_eq_one_of_mem h'.nodup (List.mem_of_getElem? this.2.1)
  · rw [hv _ (by dsimp only [newNode]; omega)]
    dsimp only [newNode]
    rw [Function.update_self]

/-- A finished run that misses an index did not have the pointer to it in its view. -/
theorem missed_run {m m' : Mem T} {L : List Nat} {v v' : View} {q p : PC} (hch : Chained m L)
    (hv : VOk L v) (hq : PCok L v q) (hr : Run m v q m' v' p) {i n : Nat} (hi : At L v i n)
    {j : Nat} (hm : Missed p j) : i < j := by
  have key : ∀ k, k ≤ L.length → ¬ v.locs (loc L k) → i < k := by
    intro k hk hnot
    by_contra hlt
    obtain ⟨c, hc, _⟩ := hi.below hv hch.nodup (Nat.le_of_not_lt hlt)
    exact hnot hc.2
  have nogl : ∀ a b c, ¬ Missed (getLoop a b c) j := by
    intro a b c hx
    unfold getLoop at hx
    split at hx <;> cases hx
  cases hr with
  | casHead hc => split at hm <;> cases hm
  | setNext hc => split at hm <;> cases hm
  | tailHead hl => split at hm <;> cases hm
  | tailLoad hl => split at hm <;> cases hm
  | tailNext hl => split at hm <;> cases hm
  | failLoad hl => split at hm <;> cases hm
  | failNext hl => split at hm <;> cases hm
  | getNext hl => split at hm <;> first | exact absurd hm (nogl _ _ _) | cases hm
  | getVal => cases hm
  | iterVal => cases hm
  | lenNext hl => split at hm <;> cases hm
  | getHead hl =>
    cases hl with
    | null hnot =>
      cases hm
      exact Nat.lt_of_lt_of_le (key 0 (Nat.zero_le _) hnot) (Nat.zero_le _)
    | set msg _ => exact absurd hm (nogl _ _ _)
  | getLoad hl =>
    cases hl with
    | null hnot =>
      cases hm
      rw [← loc_succ hq.2.1] at hnot
      have := key _ hq.2.lt hnot
      have := hq.1
      omega
    | set msg _ => cases hm
  | iterLoad hl =>
    cases hl with
    | null hnot =>
      cases hm
      rw [hq.cur] at hnot
      exact key _ hq.pre.length_le hnot
    | set msg _ => cases hm
  | lenHead hl =>
    cases hl with
    | null hnot => cases hm; exact key 0 (Nat.zero_le _) hnot
    | set msg _ => cases hm
  | lenLoad hl =>
    cases hl with
    | null hnot =>
      cases hm
      rw [← loc_succ hq.2.1] at hnot
      have := key _ hq.2.lt hnot
      have := hq.1
      omega
    | set msg _ => cases hm
  | emptyHead hl =>
    cases hl with
    | null hnot => cases hm; exact key 0 (Nat.zero_le _) hnot
    | set msg _ => cases hm

theorem missed_steps {s s' : State T} {L : List Nat} (h : Inv s L) (hs : Steps true s s') (t i n : Nat)
    (hi : At L (s.view t) i n) (h0 : ∀ j, Missed (s.pc t) j → i < j) :
    ∀ j, Missed (s'.pc t) j → i < j := by
  induction hs with
  | refl => exact h0
  | @tail b c hab hstep ih =>
    obtain ⟨L1, i1, i2, _, _, i5⟩ := inv_steps h hab
    have hi1 : At L1 (b.view t) i n := by
      have hx := hi.lt
      obtain ⟨w, rfl⟩ := i2
      refine ⟨by rw [List.getElem?_append_left hx]; exact hi.1, ?_⟩
      have e : loc (L ++ w) i = loc L i := by
        cases i with
        | zero => rfl
        | succ i => simp only [loc, List.getD]; rw [List.getElem?_append_left (by omega)]
      rw [e]
      exact (i5 t).locs _ hi.2
    intro j hj
    have other : ∀ (u : Nat) (p : PC), (Function.update b.pc u p) t = c.pc t →
        (∀ j, Missed p j → i < j) → i < j := by
      intro u p e hp
      rw [← e] at hj
      by_cases hu : t = u
      · subst hu; rw [Function.update_self] at hj; exact hp j hj
      · rw [Function.update_of_ne hu] at hj; exact ih j hj
    cases hstep with
    | push u x hr => exact other u _ rfl (fun j hx => by cases hx)
    | get u x hr => exact other u _ rfl (fun j hx => by cases hx)
    | iter u hr => exact other u _ rfl (fun j hx => by cases hx)
    | next u c l hr => exact other u _ rfl (fun j hx => by cases hx)
    | isEmpty u hr => exact other u _ rfl (fun j hx => by cases hx)
    | len u hr hg => exact other u _ rfl (fun j hx => by cases hx)
    | sync u u' => exact ih j hj
    | run u m' v' p hr =>
      by_cases hu : u = t
      · subst hu
        exact other u p rfl fun j hx =>
          missed_run i1.toChained (i1.view u) (i1.ok u) hr hi1 hx
      · refine ih j ?_
        dsimp only at hj
        rwa [Function.update_of_ne (Ne.symm hu)] at hj

theorem LinkedWeak.Steps.trans {g : Bool} {a b c : State T} (h : Steps g a b) (h' : Steps g b c) :
    Steps g a c := by
  induction h' with
  | refl => exact h
  | tail _ hs ih => exact ih.tail hs

/-- C153, what a thread has seen it keeps seeing: after a result that shows an element at index `i`
(its own completed push, a successful `get`, an element from an iterator, `len`, `is_empty`), no
later result in the same thread shows the list without an element at `i` or before. -/
theorem C153_keeps_seeing (s s' : State T) (hr : Steps true init s) (hs : Steps true s s')
    (t i j : Nat) (ho : Observed (s.pc t) i) (hm : Missed (s'.pc t) j) : i < j := by
  obtain ⟨L, h, _⟩ := inv_steps inv_init hr
  obtain ⟨n, hn⟩ := observed_at (h.view t) h.nodup (h.ok t) ho
  refine missed_steps h hs t i n hn ?_ j hm
  intro j hj
  revert ho hj
  generalize s.pc t = p
  intro ho hj
  cases ho <;> cases hj <;> assumption

/-- C153, what one thread has seen another sees once they have synchronised (a thread spawned or
joined, a lock, a channel): no result the other thread obtains afterwards shows the list without
an element at `i` or before. -/
theorem C153_seen_after_sync (s s' : State T) (hr : Steps true init s) (t t' i j : Nat)
    (ho : Observed (s.pc t) i) (hfresh : ∀ k, ¬ Missed (s.pc t') k)
    (hs : Steps true { s with view := Function.update s.view t' ((s.view t').join (s.view t)) } s')
    (hm : Missed (s'.pc t') j) : i < j := by
  obtain ⟨L, h, _⟩ := inv_steps inv_init hr
  obtain ⟨n, hn⟩ := observed_at (h.view t) h.nodup (h.ok t) ho
  have h1 := inv_pc h t' (s.pc t') _ ((h.view t').join (h.view t)) (VLe.join_left _ _)
      ((h.ok t').mono (VLe.join_left _ _)) (.inl rfl)
  rw [Function.update_eq_self] at h1
  refine missed_steps h1 hs t' i n ⟨hn.1, ?_⟩ (fun k hk => absurd hk (hfresh k)) j hm
  dsimp only
  rw [Function.update_self]
  exact .inr hn.2

/-! ## What the orderings do not give -/

/-- Thread 0 pushes `7` onto the empty list; thread 1 does what `p` says. -/
def pushed (p : PC) (v : View) : State Nat :=
  ⟨(newNode init.mem 7).write .head ⟨0, (View.empty.own 0).see .head⟩,
    Function.update (Function.update (Function.update (init : State Nat).pc 0 (.casHead 0)) 0
      (.done 0 1 0)) 1 p,
    Function.update (Function.update (Function.update (init : State Nat).view 0 (View.empty.own 0)) 0
      ((View.empty.own 0).see .head)) 1 v⟩

theorem pushed_reachable (g : Bool) : Steps g init (pushed .idle .empty) := by
  have h := ((Steps.refl (guard := g) (init : State Nat)).tail (.push init 0 7 rfl)).tail
    (.run _ 0 _ _ _ (.casHead (.ok rfl)))
  have e : ∀ (f : Nat → PC) (g : Nat → View) , f 1 = .idle → g 1 = .empty →
      f = Function.update f 1 .idle ∧ g = Function.update g 1 .empty := by
    intro f g h1 h2
    exact ⟨by rw [← h1, Function.update_eq_self], by rw [← h2, Function.update_eq_self]⟩
  unfold pushed
  obtain ⟨e1, e2⟩ := e (Function.update (Function.update (init : State Nat).pc 0 (.casHead 0)) 0
      (.done 0 1 0)) (Function.update (Function.update (init : State Nat).view 0 (View.empty.own 0)) 0
      ((View.empty.own 0).see .head)) rfl rfl
  rw [← e1, ← e2]
  exact h

/-- C154, violated by the code: `len` starts from a relaxed load of the head pointer, so a thread
that has not synchronised with the list before reads the next pointer of a node whose
initialisation it need not see. -/
theorem C154_len_violated :
    ¬ ∀ (s : State Nat), Steps false init s → ¬ Racy s := by
  intro h
  have h1 := (pushed_reachable false).tail (.len _ 1 rfl (fun e => by cases e))
  have h2 := h1.tail (.run _ 1 _ _ _ (.lenHead (.set _ rfl)))
  refine h _ h2 ⟨1, 0, rfl, ?_⟩
  simp [pushed, View.read, Ord.acquires, View.see, View.empty]

/-- C154, what does hold: a thread that has once seen an element, by any of its results, has the
first node in its view from then on, so that it may call `len` (`C153_no_race` covers such calls).
Missing: threads that call `len` before anything else. -/
theorem C154_len_partial (s s' : State T) (hr : Steps true init s) (hs : Steps true s s') (t i : Nat)
    (ho : Observed (s.pc t) i) : KnowsHead s'.mem (s'.view t) ∧
      ((s'.pc t).ready = true → Steps true init { s' with pc := Function.update s'.pc t .lenHead }) := by
  obtain ⟨L, h, _⟩ := inv_steps inv_init hr
  obtain ⟨L', h', hp, _, _, hv⟩ := inv_steps h hs
  obtain ⟨n, hn⟩ := observed_at (h.view t) h.nodup (h.ok t) ho
  obtain ⟨c, hc, hk⟩ := hn.below (h.view t) h.nodup (Nat.zero_le i)
  obtain ⟨w, rfl⟩ := hp
  have e := h'.toChained.cell 0 (Nat.zero_le _)
  rw [List.getElem?_append_left hc.lt, hc.1, Option.map_eq_some_iff] at e
  obtain ⟨msg, e1, e2⟩ := e
  have kn : KnowsHead s'.mem (s'.view t) := ⟨msg, e1, e2 ▸ (hv t).nodes c hk⟩
  exact ⟨kn, fun hready => (hr.trans hs).tail (.len s' t hready (fun _ => kn))⟩

/-- All nodes in views exist. -/
private def NodesExist (s : State T) : Prop :=
  (∀ t n, (s.view t).nodes n → n < s.mem.alloc) ∧
  ∀ l msg, s.mem.cell l = some msg → ∀ n, msg.view.nodes n → n < s.mem.alloc

private theorem read_exist {v : View} {o : Ord} {l : Loc} {msg : Msg} {a : Nat} (hv : ∀ n, v.nodes n → n < a)
    (hm : ∀ n, msg.view.nodes n → n < a) : ∀ n, (v.read o l msg).nodes n → n < a := by
  intro n
  unfold View.read
  split
  · rintro (h | h)
    · exact hv n h
    · exact hm n h
  · exact hv n

private theorem load_exist {m : Mem T} {v v' : View} {l : Loc} {o : Ord} {r : Option Nat} (h : Load m v l o r v')
    (hv : ∀ n, v.nodes n → n < m.alloc)
    (hm : ∀ l msg, m.cell l = some msg → ∀ n, msg.view.nodes n → n < m.alloc) :
    ∀ n, v'.nodes n → n < m.alloc := by
  cases h with
  | null => exact hv
  | set msg e => exact read_exist hv (hm _ _ e)

private theorem cas_exist {m m' : Mem T} {v v' : View} {l : Loc} {new : Nat} {o o' : Ord} {b : Bool}
    (h : Cas m v l new o o' m' v' b) (hv : ∀ n, v.nodes n → n < m.alloc)
    (hm : ∀ l msg, m.cell l = some msg → ∀ n, msg.view.nodes n → n < m.alloc) :
    m'.alloc = m.alloc ∧ (∀ n, v'.nodes n → n < m.alloc) ∧
      ∀ l msg, m'.cell l = some msg → ∀ n, msg.view.nodes n → n < m.alloc := by
  cases h with
  | ok e =>
    refine ⟨rfl, hv, fun l' msg e n hn => ?_⟩
    unfold Mem.write at e
    dsimp only at e
    by_cases el : l' = l
    · subst el
      rw [Function.update_self] at e
      injection e with e
      subst e
      revert hn
      show (View.see _ _).nodes n → _
      split
      · exact hv n
      · exact False.elim
    · rw [Function.update_of_ne el] at e
      exact hm _ _ e n hn
  | err msg e => exact ⟨rfl, read_exist hv (hm _ _ e), hm⟩

private theorem run_exist {m m' : Mem T} {v v' : View} {p p' : PC} (h : Run m v p m' v' p')
    (hv : ∀ n, v.nodes n → n < m.alloc)
    (hm : ∀ l msg, m.cell l = some msg → ∀ n, msg.view.nodes n → n < m.alloc) :
    m'.alloc = m.alloc ∧ (∀ n, v'.nodes n → n < m.alloc) ∧
      ∀ l msg, m'.cell l = some msg → ∀ n, msg.view.nodes n → n < m.alloc := by
  cases h with
  | casHead h => exact cas_exist h hv hm
  | setNext h => exact cas_exist h hv hm
  | getVal => exact ⟨rfl, hv, hm⟩
  | iterVal => exact ⟨rfl, hv, hm⟩
  | tailHead h => exact ⟨rfl, load_exist h hv hm, hm⟩
  | tailLoad h => exact ⟨rfl, load_exist h hv hm, hm⟩
  | tailNext h => exact ⟨rfl, load_exist h hv hm, hm⟩
  | failLoad h => exact ⟨rfl, load_exist h hv hm, hm⟩
  | failNext h => exact ⟨rfl, load_exist h hv hm, hm⟩
  | getHead h => exact ⟨rfl, load_exist h hv hm, hm⟩
  | getLoad h => exact ⟨rfl, load_exist h hv hm, hm⟩
  | getNext h => exact ⟨rfl, load_exist h hv hm, hm⟩
  | iterLoad h => exact ⟨rfl, load_exist h hv hm, hm⟩
  | lenHead h => exact ⟨rfl, load_exist h hv hm, hm⟩
  | lenLoad h => exact ⟨rfl, load_exist h hv hm, hm⟩
  | lenNext h => exact ⟨rfl, load_exist h hv hm, hm⟩
  | emptyHead h => exact ⟨rfl, load_exist h hv hm, hm⟩

private theorem nodes_exist {g : Bool} {s : State T} (hr : Steps g init s) : NodesExist s := by
  induction hr with
  | refl => exact ⟨fun _ _ h => h.elim, fun _ _ h => by cases h⟩
  | tail _ hs ih =>
    obtain ⟨h1, h2⟩ := ih
    have upd : ∀ {s : State T} {t : Nat} {v : View} {a : Nat}, (∀ t n, (s.view t).nodes n → n < a) →
        (∀ n, v.nodes n → n < a) → ∀ t' n, (Function.update s.view t v t').nodes n → n < a := by
      intro s t v a h h' t' n
      by_cases e : t' = t
      · subst e; rw [Function.update_self]; exact h' n
      · rw [Function.update_of_ne e]; exact h t' n
    cases hs with
    | push t x hp =>
      rename_i b _
      refine ⟨upd (fun t n h => Nat.lt_succ_of_lt (h1 t n h)) ?_, fun l msg e n hn => ?_⟩
      · rintro n (rfl | h)
        · exact Nat.lt_succ_self _
        · exact Nat.lt_succ_of_lt (h1 t n h)
      · change Function.update _ _ _ l = _ at e
        by_cases el : l = .next b.mem.alloc
        · subst el
          rw [Function.update_self] at e
          cases e
        · rw [Function.update_of_ne el] at e
          exact Nat.lt_succ_of_lt (h2 _ _ e n hn)
    | get | iter | next | isEmpty | len => exact ⟨h1, h2⟩
    | run t m' v' pc' h =>
      obtain ⟨e, e1, e2⟩ := run_exist h (h1 t) h2
      unfold NodesExist
      dsimp only
      rw [e]
      exact ⟨upd h1 e1, e2⟩
    | sync t t' =>
      refine ⟨upd h1 ?_, h2⟩
      rintro n (h | h)
      · exact h1 _ n h
      · exact h1 _ n h

/-- Some thread has not done anything yet. -/
private theorem idle_thread {g : Bool} {s : State T} (hr : Steps g init s) : ∃ N, ∀ u, N ≤ u → s.pc u = .idle := by
  induction hr with
  | refl => exact ⟨0, fun _ _ => rfl⟩
  | tail _ hs ih =>
    obtain ⟨N, hN⟩ := ih
    have upd : ∀ {s : State T} {t : Nat} {p : PC}, (∀ u, N ≤ u → s.pc u = .idle) →
        ∃ N, ∀ u, N ≤ u → Function.update s.pc t p u = .idle := by
      intro s t p h
      refine ⟨max N (t + 1), fun u hu => ?_⟩
      rw [Function.update_of_ne (by omega)]
      exact h u (by omega)
    cases hs with
    | push | get | iter | next | isEmpty | len | run => exact upd hN
    | sync => exact ⟨N, hN⟩

/-- C154, exactly when: a thread that calls `len` may come to read a node whose initialisation is not visible to
it if and only if it did not have the first node in its view, even if the list was still empty. (Other threads keep to the
rule.) Missing, because false: that it never does. -/
theorem C154_exact_partial (x : T) (s : State T) (hr : Steps true init s) (t : Nat) (h : (s.pc t).ready = true) :
    (∃ s', Steps true { s with pc := Function.update s.pc t .lenHead } s' ∧ Racy s') ↔
      ¬ KnowsHead s.mem (s.view t) := by
  constructor
  · rintro ⟨s', h1, h2⟩ hk
    exact (C153_no_race s' ((hr.tail (.len s t h fun _ => hk)).trans h1)).1 h2
  · intro hk
    cases hc : s.mem.cell .head with
    | some msg =>
      refine ⟨_, (Steps.refl _).tail (.run _ t s.mem ((s.view t).read .relaxed .head msg) (.lenLoad msg.ptr 1) ?_),
        t, msg.ptr, ?_, ?_⟩
      · dsimp only
        rw [Function.update_self]
        exact .lenHead (.set msg hc)
      · dsimp only
        rw [Function.update_self]
        rfl
      · dsimp only
        rw [Function.update_self]
        exact fun e => hk ⟨msg, hc, e⟩
    | none =>
      obtain ⟨N, hN⟩ := idle_thread hr
      have hu : s.pc (max N (t + 1)) = .idle := hN _ (by omega)
      generalize eu : max N (t + 1) = u at hu
      have hne : u ≠ t := by omega
      let msg : Msg := ⟨s.mem.alloc, ((s.view u).own s.mem.alloc).see .head⟩
      refine ⟨⟨(newNode s.mem x).write .head msg,
        Function.update (Function.update (Function.update (Function.update s.pc t .lenHead) u (.casHead s.mem.alloc)) u
          (.done s.mem.alloc 1 0)) t (.lenLoad s.mem.alloc 1),
        Function.update (Function.update (Function.update s.view u ((s.view u).own s.mem.alloc)) u
          (((s.view u).own s.mem.alloc).see .head)) t ((s.view t).see .head)⟩, ?_, t, s.mem.alloc, ?_, ?_⟩
      · refine (((Steps.refl _).tail (.push _ u x ?_)).tail (.run _ u ((newNode s.mem x).write .head msg)
          (((s.view u).own s.mem.alloc).see .head) (.done s.mem.alloc 1 0) ?_)).tail ?_
        · dsimp only
          rw [Function.update_of_ne hne, hu]
          rfl
        · dsimp only
          rw [Function.update_self, Function.update_self]
          refine Run.casHead (b := true) (.ok ?_)
          show Function.update s.mem.cell (.next s.mem.alloc) none .head = _
          rw [Function.update_of_ne (by simp)]
          exact hc
        · refine .run ⟨_, _, _⟩ t _ _ _ ?_
          dsimp only
          have e1 : ∀ p q : PC, Function.update (Function.update (Function.update s.pc t .lenHead) u p) u q t = .lenHead := by
            intro p q
            rw [Function.update_of_ne hne.symm, Function.update_of_ne hne.symm, Function.update_self]
          have e2 : ∀ p q : View, Function.update (Function.update s.view u p) u q t = s.view t := by
            intro p q
            rw [Function.update_of_ne hne.symm, Function.update_of_ne hne.symm]
          rw [e1, e2]
          refine Run.lenHead (r := some s.mem.alloc) (Load.set msg ?_)
          show Function.update (newNode s.mem x).cell .head (some msg) .head = _
          rw [Function.update_self]
      · dsimp only
        rw [Function.update_self]
        rfl
      · dsimp only
        rw [Function.update_self]
        exact fun e => Nat.lt_irrefl _ ((nodes_exist hr).1 t _ e)

-- thread 1 calls `len` on the list that is still empty, and thread 2 pushes
example : ∃ s' : State Nat, Steps true { (init : State Nat) with pc := Function.update (init : State Nat).pc 1 .lenHead } s' ∧ Racy s' :=
  (C154_exact_partial 7 init (.refl _) 1 rfl).2 fun ⟨_, h, _⟩ => by cases h

/-- C153, limits: a lookup may miss an element whose push has already returned in another thread,
if nothing has told the thread so; under sequential consistency it cannot (`C61_get_none`). -/
theorem C153_miss_may_be_stale :
    ∃ (s : State Nat), Steps true init s ∧ s.pc 0 = .done 0 1 0 ∧ s.pc 1 = .got 0 none ∧
      WeakContents s.mem [0] := by
  have h1 := (pushed_reachable true).tail (.get _ 1 0 rfl)
  have h2 := h1.tail (.run _ 1 _ _ _ (.getHead (.null id)))
  refine ⟨_, h2, rfl, rfl, ?_⟩
  exact Walk.cons 0 [] Walk.nil

-- non-trivial cases: thread 1, not having synchronised, reads the pushed element with `get`
example : ∃ (s : State Nat), Steps true init s ∧ s.pc 0 = .done 0 1 0 ∧ s.pc 1 = .got 0 (some 0) ∧
    s.mem.val 0 = some 7 ∧ Observed (s.pc 1) 0 := by
  have h1 := (pushed_reachable true).tail (.get _ 1 0 rfl)
  have h2 := h1.tail (.run _ 1 _ _ _ (.getHead (.set _ rfl)))
  have h3 := h2.tail (.run _ 1 _ _ _ .getVal)
  exact ⟨_, h3, rfl, rfl, rfl, .get 0 0⟩

-- and pushes a second element behind it, walking over the first
example : ∃ (s : State Nat), Steps true init s ∧ s.pc 1 = .done 1 2 0 ∧ WeakContents s.mem [0, 1] := by
  have h1 := (pushed_reachable true).tail (.push _ 1 8 rfl)
  have h2 := h1.tail (.run _ 1 _ _ _ (.casHead (.err _ rfl)))
  have h3 := h2.tail (.run _ 1 _ _ _ (.tailHead (.set _ rfl)))
  have h4 := h3.tail (.run _ 1 _ _ _ (.tailLoad (.null ?_)))
  have h5 := h4.tail (.run _ 1 _ _ _ (.setNext (.ok rfl)))
  · exact ⟨_, h5, rfl, Walk.cons 0 [1] (Walk.cons 1 [] Walk.nil)⟩
  · simp [pushed, View.read, Ord.acquires, View.see, View.empty, View.join, View.own]

-- the hypotheses of `C153_keeps_seeing`: thread 0 after its push
example : Steps true init (pushed .idle .empty) ∧ Observed ((pushed .idle .empty).pc 0) 0 :=
  ⟨pushed_reachable true, .push 0 1 0 (Nat.le_refl 1)⟩

end Verif
