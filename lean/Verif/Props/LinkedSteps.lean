import Verif.Props.LinkedWeak

/-!
# C183: calls on the shared list return

How many steps a call can take, whatever the other threads do in the meantime and whatever stale
values its loads return.
-/

namespace Verif

open LinkedWeak

variable {T : Type}

namespace LinkedWeak

/-- From one state to the other thread `t` takes `n` steps, all of the call it is in, while other threads
do anything. -/
inductive During (t : Nat) : Nat → State T → State T → Prop
  | refl (s : State T) : During t 0 s s
  | own {n : Nat} {a b : State T} {m' : Mem T} {v' : View} {p : PC} (h : During t n a b)
      (hr : Run b.mem (b.view t) (b.pc t) m' v' p) :
      During t (n + 1) a ⟨m', Function.update b.pc t p, Function.update b.view t v'⟩
  | other {n : Nat} {a b c : State T} (h : During t n a b) (hs : Step true b c)
      (hp : c.pc t = b.pc t) : During t n a c

/-- The same, while no other thread does anything. -/
inductive Alone (t : Nat) : Nat → State T → State T → Prop
  | refl (s : State T) : Alone t 0 s s
  | own {n : Nat} {a b : State T} {m' : Mem T} {v' : View} {p : PC} (h : Alone t n a b)
      (hr : Run b.mem (b.view t) (b.pc t) m' v' p) :
      Alone t (n + 1) a ⟨m', Function.update b.pc t p, Function.update b.view t v'⟩

theorem During.steps {t n : Nat} {a b : State T} (h : During t n a b) : Steps true a b := by
  induction h with
  | refl => exact .refl _
  | own _ hr ih => exact ih.tail (.run _ t _ _ _ hr)
  | other _ hs _ ih => exact ih.tail hs

theorem Alone.during {t n : Nat} {a b : State T} (h : Alone t n a b) : During t n a b := by
  induction h with
  | refl => exact .refl _
  | own _ hr ih => exact ih.own hr

/-- How many steps a call has taken at most when it is here. -/
def PC.spent : PC → Nat
  | .idle | .casHead _ | .getHead _ | .iterLoad .. | .lenHead | .emptyHead | .crash => 0
  | .tailHead _ => 1
  | .tailLoad _ _ len => 2 * len
  | .tailNext _ _ len => 2 * len + 1
  | .setNext _ _ len r => 2 * len + 3 * r + 1
  | .failLoad _ _ len r => 2 * len + 3 * r + 2
  | .failNext _ _ len r => 2 * len + 3 * r + 3
  | .done _ ret r => if ret ≤ 1 then 1 else 2 * ret + 3 * r
  | .getLoad _ k _ => 2 * k + 1
  | .getNext _ k _ => 2 * k + 2
  | .getVal idx _ => 2 * idx + 1
  | .got idx _ => 2 * idx + 2
  | .iterVal .. | .iterEnd .. => 1
  | .iter .. => 2
  | .lenLoad _ len => 2 * len - 1
  | .lenNext _ len => 2 * len
  | .lenDone len => 2 * len + 1
  | .emptyDone _ => 1

/-- How many steps the call may take if the list has `k` elements. -/
def PC.bound (k : Nat) : PC → Nat
  | .casHead _ | .tailHead _ | .tailLoad .. | .tailNext .. | .setNext .. | .failLoad .. | .failNext ..
  | .done .. => 3 * k
  | .getHead idx | .getLoad idx _ _ | .getNext idx _ _ | .getVal idx _ | .got idx _ => 2 * idx + 2
  | .iterLoad .. | .iterVal .. | .iter .. | .iterEnd .. => 2
  | .lenHead | .lenLoad .. | .lenNext .. | .lenDone .. => 2 * k + 1
  | .emptyHead | .emptyDone .. => 1
  | .idle | .crash => 0

theorem run_spent {m m' : Mem T} {v v' : View} {p p' : PC} {L : List Nat} (h : Run m v p m' v' p')
    (hok : PCok L v p) (hc : p' ≠ .crash) :
    p.spent + 1 ≤ p'.spent ∧ ∀ k, p'.bound k = p.bound k := by
  have gl : ∀ idx k cur, k ≤ idx → (PC.spent (getLoop idx k cur) = 2 * k + 1) ∧
      ∀ n, (getLoop idx k cur).bound n = 2 * idx + 2 := by
    intro idx k cur hk
    unfold getLoop
    split
    · rename_i e; subst e; exact ⟨rfl, fun _ => rfl⟩
    · exact ⟨rfl, fun _ => rfl⟩
  cases h with
  | casHead h => split <;> exact ⟨by simp [PC.spent], fun _ => rfl⟩
  | @tailHead _ r _ h => cases r with
    | none => exact absurd rfl hc
    | some c => exact ⟨by simp [PC.spent], fun _ => rfl⟩
  | @tailLoad _ _ _ r _ h => cases r <;> exact ⟨by simp [PC.spent], fun _ => rfl⟩
  | @tailNext _ _ _ r _ h => cases r with
    | none => exact absurd rfl hc
    | some c => exact ⟨by simp only [PC.spent]; omega, fun _ => rfl⟩
  | @setNext _ _ len k _ _ b h =>
    have := hok.1
    split
    · refine ⟨?_, fun _ => rfl⟩
      simp only [PC.spent]
      rw [if_neg (by omega)]
      omega
    · exact ⟨by simp only [PC.spent]; omega, fun _ => rfl⟩
  | @failLoad new tl len k r _ h => cases r with
    | none =>
      cases h with
      | null hn =>
        obtain ⟨h1, h2, c, h3⟩ := hok
        refine absurd h3.2 ?_
        have e : loc L (len + k) = .next tl := by
          have := loc_succ h2.1
          rwa [show len + k - 1 + 1 = len + k by omega] at this
        rw [e]
        exact hn
    | some c => exact ⟨by simp [PC.spent], fun _ => rfl⟩
  | @failNext _ _ _ _ r _ h => cases r with
    | none => exact absurd rfl hc
    | some c => exact ⟨by simp only [PC.spent]; omega, fun _ => rfl⟩
  | @getHead idx r _ h => cases r with
    | none => exact ⟨by simp [PC.spent], fun _ => rfl⟩
    | some c =>
      obtain ⟨a, b⟩ := gl idx 0 c (Nat.zero_le _)
      exact ⟨by dsimp only; rw [a]; simp [PC.spent], fun n => b n⟩
  | @getLoad idx k cur r _ h =>
    have := hok.1
    cases r with
    | none => exact ⟨by simp only [PC.spent]; omega, fun _ => rfl⟩
    | some c => exact ⟨by simp [PC.spent], fun _ => rfl⟩
  | @getNext idx k cur r _ h =>
    have := hok.1
    cases r with
    | none => exact absurd rfl hc
    | some c =>
      obtain ⟨a, b⟩ := gl idx (k + 1) c this
      exact ⟨by dsimp only; rw [a]; simp only [PC.spent]; omega, fun n => b n⟩
  | getVal => exact ⟨by simp [PC.spent], fun _ => rfl⟩
  | @iterLoad _ _ r _ h => cases r <;> exact ⟨by simp [PC.spent], fun _ => rfl⟩
  | iterVal => exact ⟨by simp [PC.spent], fun _ => rfl⟩
  | @lenHead r _ h => cases r <;> exact ⟨by simp [PC.spent], fun _ => rfl⟩
  | @lenLoad _ len r _ h =>
    have := hok.1
    cases r <;> exact ⟨by simp only [PC.spent]; omega, fun _ => rfl⟩
  | @lenNext _ len r _ h => cases r with
    | none => exact absurd rfl hc
    | some c => exact ⟨by simp only [PC.spent]; omega, fun _ => rfl⟩
  | emptyHead h => exact ⟨by simp [PC.spent], fun _ => rfl⟩

/-- The bound is kept at every moment. -/
theorem spent_le {L : List Nat} {v : View} {p : PC} (h : PCok L v p) : p.spent ≤ p.bound L.length := by
  cases p with
  | tailHead n => obtain ⟨c, hc⟩ := h; have := hc.lt; simp only [PC.spent, PC.bound]; omega
  | tailLoad _ _ len => have := h.2.lt; have := h.1; simp only [PC.spent, PC.bound]; omega
  | tailNext _ _ len =>
    obtain ⟨h1, _, c, hc⟩ := h; have := hc.lt; simp only [PC.spent, PC.bound]; omega
  | setNext _ _ len r => have := h.2.lt; have := h.1; simp only [PC.spent, PC.bound]; omega
  | failLoad _ _ len r =>
    obtain ⟨h1, _, c, hc⟩ := h; have := hc.lt; simp only [PC.spent, PC.bound]; omega
  | failNext _ _ len r =>
    obtain ⟨h1, _, c, hc⟩ := h; have := hc.lt; simp only [PC.spent, PC.bound]; omega
  | done _ ret r =>
    have := h.2.lt; have := h.1; simp only [PC.spent, PC.bound]; split <;> omega
  | getLoad idx k _ => have := h.1; simp only [PC.spent, PC.bound]; omega
  | getNext idx k _ => have := h.1; simp only [PC.spent, PC.bound]; omega
  | lenLoad _ len => have := h.2.lt; have := h.1; simp only [PC.spent, PC.bound]; omega
  | lenNext _ len =>
    obtain ⟨h1, _, c, hc⟩ := h; have := hc.lt; simp only [PC.spent, PC.bound]; omega
  | lenDone k =>
    simp only [PC.spent, PC.bound]
    rcases h with rfl | ⟨c, hc⟩
    · omega
    · have := hc.lt; omega
  | _ => simp [PC.spent, PC.bound]

theorem During.bound {t n : Nat} {a b : State T} (h : During t n a b) (hr : Steps true init a) {L : List Nat}
    (hL : WeakContents b.mem L) :
    (a.pc t).spent + n ≤ (b.pc t).spent ∧ (b.pc t).spent ≤ (b.pc t).bound L.length ∧
      ∀ k, (b.pc t).bound k = (a.pc t).bound k := by
  have key : (a.pc t).spent + n ≤ (b.pc t).spent ∧ ∀ k, (b.pc t).bound k = (a.pc t).bound k := by
    clear hL
    induction h with
    | refl => exact ⟨Nat.le_refl _, fun _ => rfl⟩
    | @own n a b m' v' p h hrun ih =>
      obtain ⟨K, hK, _⟩ := inv_steps inv_init (hr.trans h.steps)
      obtain ⟨K', hK'⟩ := h.steps |>.tail (.run _ t _ _ _ hrun) |> hr.trans |> inv_steps inv_init
      obtain ⟨i1, i2⟩ := ih hr
      have hc : p ≠ .crash := by
        intro e
        have := hK'.1.ok t
        simp only [Function.update_self] at this
        rw [e] at this
        exact this
      obtain ⟨r1, r2⟩ := run_spent hrun (hK.ok t) hc
      simp only [Function.update_self]
      exact ⟨by omega, fun k => (r2 k).trans (i2 k)⟩
    | other h hs hp ih =>
      rw [hp]
      exact ih hr
  obtain ⟨K, hK, _⟩ := inv_steps inv_init (hr.trans h.steps)
  have e := hK.toChained.contents.unique hL
  subst e
  exact ⟨key.1, spent_le (hK.ok t), key.2⟩

theorem PC.bound_mono (p : PC) {a b : Nat} (h : a ≤ b) : p.bound a ≤ p.bound b := by
  cases p <;> simp only [PC.bound] <;> omega

theorem run_alloc {m m' : Mem T} {v v' : View} {p p' : PC} (h : Run m v p m' v' p') :
    m'.alloc = m.alloc := by
  cases h with
  | casHead h => cases h <;> rfl
  | setNext h => cases h <;> rfl
  | _ => rfl

/-- A step of a thread uses up some of what it may take. -/
theorem step_facts {t : Nat} {b : State T} {m' : Mem T} {v' : View} {p : PC} (hr : Steps true init b)
    (hrun : Run b.mem (b.view t) (b.pc t) m' v' p) :
    (b.pc t).spent < p.spent ∧ p.spent ≤ p.bound m'.alloc ∧
      p.bound m'.alloc = (b.pc t).bound b.mem.alloc := by
  obtain ⟨L, h, _⟩ := inv_steps inv_init hr
  obtain ⟨L', h', _⟩ := inv_steps inv_init (hr.tail (.run _ t _ _ _ hrun))
  have hok := h'.ok t
  simp only [Function.update_self] at hok
  have hc : p ≠ .crash := fun e => by rw [e] at hok; exact hok
  obtain ⟨r1, r2⟩ := run_spent hrun (h.ok t) hc
  have ha := run_alloc hrun
  have hlen : L'.length ≤ m'.alloc := by
    have := h'.nodup.length_le_of_subset (l₂ := List.range m'.alloc)
      (fun n hn => List.mem_range.mpr (h'.lt n hn))
    rwa [List.length_range] at this
  refine ⟨r1, Nat.le_trans (spent_le hok) (PC.bound_mono p hlen), ?_⟩
  rw [r2, ha]

end LinkedWeak

/-- C183: a call is never stuck. Whatever has happened, a thread inside a call has a next step (it waits for
no other thread). -/
theorem C183_never_stuck (s : State T) (hr : Steps true init s) (t : Nat) (hc : (s.pc t).ready = false) :
    ∃ m' v' p, Run s.mem (s.view t) (s.pc t) m' v' p := by
  obtain ⟨L, h, _⟩ := inv_steps inv_init hr
  have hok := h.ok t
  have hv := h.view t
  have hch := h.toChained
  revert hc hok hv
  generalize s.pc t = p, s.view t = v
  intro hc hok hv
  have load : ∀ (l : Loc) (o : Ord), ∃ r v', Load s.mem v l o r v' := by
    intro l o
    by_cases hl : v.locs l
    · obtain ⟨i, e, k⟩ := hv l hl
      obtain ⟨_, n, hn, _⟩ := k i (Nat.le_refl _)
      have hi := (List.getElem?_eq_some_iff.mp hn).1
      have e' := hch.cell i (Nat.le_of_lt hi)
      rw [hn, ← e, Option.map_eq_some_iff] at e'
      obtain ⟨msg, e1, _⟩ := e'
      exact ⟨_, _, .set msg e1⟩
    · exact ⟨_, _, .null hl⟩
  have cas : ∀ (l : Loc) (new : Nat), ∃ m' v' b, Cas s.mem v l new .acqRel .acquire m' v' b := by
    intro l new
    rcases e : s.mem.cell l with _ | msg
    · exact ⟨_, _, _, .ok e⟩
    · exact ⟨_, _, _, .err msg e⟩
  cases p with
  | casHead new => obtain ⟨_, _, _, h⟩ := cas .head new; exact ⟨_, _, _, .casHead h⟩
  | setNext new tl len r => obtain ⟨_, _, _, h⟩ := cas (.next tl) new; exact ⟨_, _, _, .setNext h⟩
  | tailHead new => obtain ⟨_, _, h⟩ := load .head .relaxed; exact ⟨_, _, _, .tailHead h⟩
  | tailLoad _ cur _ => obtain ⟨_, _, h⟩ := load (.next cur) .acquire; exact ⟨_, _, _, .tailLoad h⟩
  | tailNext _ cur _ => obtain ⟨_, _, h⟩ := load (.next cur) .relaxed; exact ⟨_, _, _, .tailNext h⟩
  | failLoad _ tl _ _ => obtain ⟨_, _, h⟩ := load (.next tl) .acquire; exact ⟨_, _, _, .failLoad h⟩
  | failNext _ tl _ _ => obtain ⟨_, _, h⟩ := load (.next tl) .relaxed; exact ⟨_, _, _, .failNext h⟩
  | getHead _ => obtain ⟨_, _, h⟩ := load .head .acquire; exact ⟨_, _, _, .getHead h⟩
  | getLoad _ _ cur => obtain ⟨_, _, h⟩ := load (.next cur) .acquire; exact ⟨_, _, _, .getLoad h⟩
  | getNext _ _ cur => obtain ⟨_, _, h⟩ := load (.next cur) .relaxed; exact ⟨_, _, _, .getNext h⟩
  | getVal _ _ => exact ⟨_, _, _, .getVal⟩
  | iterLoad c _ => obtain ⟨_, _, h⟩ := load c .acquire; exact ⟨_, _, _, .iterLoad h⟩
  | iterVal _ _ => exact ⟨_, _, _, .iterVal⟩
  | lenHead => obtain ⟨_, _, h⟩ := load .head .relaxed; exact ⟨_, _, _, .lenHead h⟩
  | lenLoad cur _ => obtain ⟨_, _, h⟩ := load (.next cur) .acquire; exact ⟨_, _, _, .lenLoad h⟩
  | lenNext cur _ => obtain ⟨_, _, h⟩ := load (.next cur) .relaxed; exact ⟨_, _, _, .lenNext h⟩
  | emptyHead => obtain ⟨_, _, h⟩ := load .head .acquire; exact ⟨_, _, _, .emptyHead h⟩
  | crash => exact absurd hok id
  | _ => exact absurd hc (by simp [PC.ready])

/-- C183, lookups, iteration and the test for emptiness take a number of steps that other threads have no
influence on: `get(i)` at most `2 i + 2`, `next` at most 2, `is_empty` 1. -/
theorem C183_wait_free (s s' : State T) (hr : Steps true init s) (t n : Nat) :
    (∀ idx, (s.pc t).ready = true →
      During t n { s with pc := Function.update s.pc t (.getHead idx) } s' → n ≤ 2 * idx + 2) ∧
    (∀ c l, (s.pc t).iterator = some (c, l) →
      During t n { s with pc := Function.update s.pc t (.iterLoad c l) } s' → n ≤ 2) ∧
    ((s.pc t).ready = true →
      During t n { s with pc := Function.update s.pc t .emptyHead } s' → n ≤ 1) := by
  have key : ∀ (p : PC), Steps true init { s with pc := Function.update s.pc t p } →
      During t n { s with pc := Function.update s.pc t p } s' → ∃ k, p.spent + n ≤ p.bound k := by
    intro p h0 hd
    obtain ⟨L, hL, _⟩ := inv_steps inv_init (h0.trans hd.steps)
    obtain ⟨a, b, c⟩ := hd.bound h0 hL.toChained.contents
    simp only [Function.update_self] at a c
    exact ⟨L.length, by rw [← c]; omega⟩
  refine ⟨fun idx hre hd => ?_, fun c l hi hd => ?_, fun hre hd => ?_⟩
  · obtain ⟨k, h⟩ := key _ (hr.tail (.get s t idx hre)) hd
    simpa [PC.spent, PC.bound] using h
  · obtain ⟨k, h⟩ := key _ (hr.tail (.next s t c l hi)) hd
    simpa [PC.spent, PC.bound] using h
  · obtain ⟨k, h⟩ := key _ (hr.tail (.isEmpty s t hre)) hd
    simpa [PC.spent, PC.bound] using h

/-- C183: `push` has taken at most three steps for each element that is on the list by then, and `len` at
most two and one more: only pushes that succeed delay them. -/
theorem C183_lock_free (s s' : State T) (hr : Steps true init s) (t n : Nat) (L : List Nat)
    (hL : WeakContents s'.mem L) (hready : (s.pc t).ready = true) :
    (∀ x, During t n ⟨newNode s.mem x, Function.update s.pc t (.casHead s.mem.alloc),
        Function.update s.view t ((s.view t).own s.mem.alloc)⟩ s' → n ≤ 3 * L.length) ∧
    (KnowsHead s.mem (s.view t) →
      During t n { s with pc := Function.update s.pc t .lenHead } s' → n ≤ 2 * L.length + 1) := by
  refine ⟨fun x hd => ?_, fun hk hd => ?_⟩
  · obtain ⟨a, b, c⟩ := hd.bound (hr.tail (.push s t x hready)) hL
    simp only [Function.update_self] at a c
    have e := c L.length
    rw [e] at b
    change 0 + n ≤ _ at a
    change _ ≤ 3 * L.length at b
    omega
  · obtain ⟨a, b, c⟩ := hd.bound (hr.tail (.len s t hready (fun _ => hk))) hL
    simp only [Function.update_self] at a c
    have e := c L.length
    rw [e] at b
    change 0 + n ≤ _ at a
    change _ ≤ 2 * L.length + 1 at b
    omega

/-- C183: a thread left alone returns from its call. -/
theorem C183_returns (s : State T) (hr : Steps true init s) (t : Nat) :
    ∃ n s', Alone t n s s' ∧ (s'.pc t).ready = true := by
  have key : ∀ (k n : Nat) (b : State T), Alone t n s b →
      (b.pc t).bound b.mem.alloc - (b.pc t).spent ≤ k →
      ∃ n s', Alone t n s s' ∧ (s'.pc t).ready = true := by
    intro k
    induction k with
    | zero =>
      intro n b hb hk
      by_cases hre : (b.pc t).ready = true
      · exact ⟨n, b, hb, hre⟩
      · have hb' := hr.trans hb.during.steps
        obtain ⟨m', v', p, hrun⟩ := C183_never_stuck b hb' t (by simpa using hre)
        obtain ⟨e1, e2, e3⟩ := step_facts hb' hrun
        omega
    | succ k ih =>
      intro n b hb hk
      by_cases hre : (b.pc t).ready = true
      · exact ⟨n, b, hb, hre⟩
      · have hb' := hr.trans hb.during.steps
        obtain ⟨m', v', p, hrun⟩ := C183_never_stuck b hb' t (by simpa using hre)
        obtain ⟨e1, e2, e3⟩ := step_facts hb' hrun
        refine ih (n + 1) _ (hb.own hrun) ?_
        simp only [Function.update_self]
        omega
  exact key _ 0 s (.refl s) (Nat.le_refl _)

/-- Thread 1 pushes behind the element that thread 0 has pushed: four steps while the list has one element,
then two. Had thread 0 pushed in the meantime, it would have been three more. -/
example : ∃ s' : State Nat, During 1 4 ⟨newNode (pushed .idle .empty).mem 8,
      Function.update (pushed .idle .empty).pc 1 (.casHead 1),
      Function.update (pushed .idle .empty).view 1 (View.empty.own 1)⟩ s' ∧
    s'.pc 1 = .done 1 2 0 ∧ WeakContents s'.mem [0, 1] := by
  have h2 := (During.refl (t := 1) (⟨newNode (pushed .idle .empty).mem 8,
      Function.update (pushed .idle .empty).pc 1 (.casHead 1),
      Function.update (pushed .idle .empty).view 1 (View.empty.own 1)⟩ : State Nat)).own
    (.casHead (.err _ rfl))
  have h3 := h2.own (.tailHead (.set _ rfl))
  have h4 := h3.own (.tailLoad (.null ?_))
  have h5 := h4.own (.setNext (.ok rfl))
  · exact ⟨_, h5, rfl, Walk.cons 0 [1] (Walk.cons 1 [] Walk.nil)⟩
  · simp [pushed, View.read, Ord.acquires, View.see, View.empty, View.join, View.own]

end Verif
