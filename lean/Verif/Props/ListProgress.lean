import Verif.Props.LinkedWeak

/-!
# C170: every call on the shared list comes to an end
-/

namespace Verif

open LinkedWeak

variable {T : Type}

/-- Thread `t` takes `n` steps of its own while all other threads do anything, and starts no other
call meanwhile. -/
inductive During (t : Nat) (s : State T) : Nat → State T → Prop
  | start : During t s 0 s
  | own {n : Nat} {s' : State T} {m : Mem T} {v : View} {p : PC} : During t s n s' →
      Run s'.mem (s'.view t) (s'.pc t) m v p →
      During t s (n + 1) ⟨m, Function.update s'.pc t p, Function.update s'.view t v⟩
  | other {n : Nat} {s' s'' : State T} : During t s n s' → Step true s' s'' → s''.pc t = s'.pc t →
      During t s n s''

/-- The calls, for counting the steps spent in them. -/
inductive ListCall where
  | push | get (idx : Nat) | next | isEmpty | len

/-- How many steps a thread has spent in a call, by where it is, with `N` elements on the list. -/
def Spent (N n : Nat) : ListCall → PC → Prop
  | .push, .casHead _ => n = 0
  | .push, .tailHead _ => n = 1
  | .push, .tailLoad _ _ len => n = 2 * len
  | .push, .tailNext _ _ len => n = 2 * len + 1
  | .push, .setNext _ _ len r => n = 2 * len + 1 + 3 * r
  | .push, .failLoad _ _ len r => n = 2 * len + 2 + 3 * r
  | .push, .failNext _ _ len r => n = 2 * len + 3 + 3 * r
  | .push, .done _ ret r => n ≤ 2 * ret + 3 * r
  | .get i, .getHead idx => idx = i ∧ n = 0
  | .get i, .getLoad idx k _ => idx = i ∧ n = 2 * k + 1
  | .get i, .getNext idx k _ => idx = i ∧ n = 2 * k + 2
  | .get i, .getVal idx _ => idx = i ∧ n = 2 * i + 1
  | .get i, .got idx none => idx = i ∧ n ≤ 2 * i + 1 ∧ n ≤ 2 * N + 1
  | .get i, .got idx (some _) => idx = i ∧ n = 2 * i + 2
  | .next, .iterLoad _ _ => n = 0
  | .next, .iterVal _ _ => n = 1
  | .next, .iter _ _ => n ≤ 2
  | .next, .iterEnd _ _ => n ≤ 2
  | .isEmpty, .emptyHead => n = 0
  | .isEmpty, .emptyDone _ => n = 1
  | .len, .lenHead => n = 0
  | .len, .lenLoad _ len => n = 2 * len - 1
  | .len, .lenNext _ len => n = 2 * len
  | .len, .lenDone len => n ≤ 2 * len + 1
  | _, _ => False

theorem Spent.mono {N N' n : Nat} {c : ListCall} {p : PC} (h : Spent N n c p) (hN : N ≤ N') :
    Spent N' n c p := by
  cases c with
  | get i =>
    cases p with
    | got idx r =>
      cases r with
      | none => exact ⟨h.1, h.2.1, by have := h.2.2; omega⟩
      | some _ => exact h
    | _ => exact h
  | _ => cases p <;> exact h

theorem spent_getLoop {N n idx k cur : Nat} (h : n = 2 * k + 1) :
    Spent N n (.get idx) (getLoop idx k cur) := by
  unfold getLoop
  split
  · rename_i e; subst e; exact ⟨rfl, h⟩
  · exact ⟨rfl, h⟩

/-- A step in a call adds one to the steps spent in it. -/
theorem spent_run {m m' : Mem T} {L : List Nat} {v v' : View} {q p : PC} {n : Nat} {c : ListCall}
    (hch : Chained m L) (hv : VOk L v) (hq : PCok L v q) (hr : Run m v q m' v' p)
    (hs : Spent L.length n c q) : Spent L.length (n + 1) c p := by
  have known : ∀ {i d : Nat} {l : Loc} {o : Ord} {r : Option Nat} {w : View}, At L v i d →
      loc L i = l → Load m v l o r w → r = some d := by
    intro i d l o r w hd e hl
    rw [← e] at hl
    exact (load_known hch hv hd hl).2.2.1
  cases hr with
  | casHead hc =>
    cases c <;> try exact absurd hs id
    split
    · have : n = 0 := hs
      show n + 1 ≤ 2 * 1 + 3 * 0
      omega
    · exact congrArg (· + 1) hs
  | tailHead hl =>
    cases c <;> try exact absurd hs id
    obtain ⟨d, hd⟩ := hq
    have := known hd rfl hl
    subst this
    have : n = 1 := hs
    show n + 1 = 2 * 1
    omega
  | @tailLoad new cur len r v' hl =>
    cases c <;> try exact absurd hs id
    have : n = 2 * len := hs
    cases r with
    | none => show n + 1 = 2 * len + 1 + 3 * 0; omega
    | some d => show n + 1 = 2 * len + 1; omega
  | @tailNext new cur len r v' hl =>
    cases c <;> try exact absurd hs id
    obtain ⟨k1, k2, d, hd⟩ := hq
    have := known hd (by rw [← loc_succ k2.1]; congr 1; omega) hl
    subst this
    have : n = 2 * len + 1 := hs
    show n + 1 = 2 * (len + 1)
    omega
  | @setNext new tl len k m' v' b hc =>
    cases c <;> try exact absurd hs id
    have : n = 2 * len + 1 + 3 * k := hs
    split
    · show n + 1 ≤ 2 * (len + 1) + 3 * k; omega
    · show n + 1 = 2 * len + 2 + 3 * k; omega
  | @failLoad new tl len k r v' hl =>
    cases c <;> try exact absurd hs id
    obtain ⟨k1, k2, d, hd⟩ := hq
    have := known hd (by rw [← loc_succ k2.1]; congr 1; omega) hl
    subst this
    have : n = 2 * len + 2 + 3 * k := hs
    show n + 1 = 2 * len + 3 + 3 * k
    omega
  | @failNext new tl len k r v' hl =>
    cases c <;> try exact absurd hs id
    obtain ⟨k1, k2, d, hd⟩ := hq
    have := known hd (by rw [← loc_succ k2.1]; congr 1; omega) hl
    subst this
    have : n = 2 * len + 3 + 3 * k := hs
    show n + 1 = 2 * len + 1 + 3 * (k + 1)
    omega
  | @getHead idx r v' hl =>
    cases c <;> try exact absurd hs id
    obtain ⟨rfl, rfl⟩ := hs
    cases r with
    | none => exact ⟨rfl, by omega, by omega⟩
    | some d => exact spent_getLoop rfl
  | @getLoad idx k cur r v' hl =>
    cases c <;> try exact absurd hs id
    obtain ⟨rfl, rfl⟩ := hs
    obtain ⟨k1, k2⟩ := hq
    have := k2.lt
    cases r with
    | none => exact ⟨rfl, by omega, by omega⟩
    | some d => exact ⟨rfl, rfl⟩
  | @getNext idx k cur r v' hl =>
    cases c <;> try exact absurd hs id
    obtain ⟨rfl, rfl⟩ := hs
    obtain ⟨k1, k2, d, hd⟩ := hq
    have := known hd (loc_succ k2.1) hl
    subst this
    exact spent_getLoop (by omega)
  | getVal =>
    cases c <;> try exact absurd hs id
    obtain ⟨rfl, rfl⟩ := hs
    exact ⟨rfl, rfl⟩
  | @iterLoad cur seen r v' hl =>
    cases c <;> try exact absurd hs id
    have : n = 0 := hs
    cases r with
    | none => show n + 1 ≤ 2; omega
    | some d => show n + 1 = 1; omega
  | iterVal =>
    cases c <;> try exact absurd hs id
    have : n = 1 := hs
    show n + 1 ≤ 2
    omega
  | @lenHead r v' hl =>
    cases c <;> try exact absurd hs id
    have : n = 0 := hs
    cases r with
    | none => show n + 1 ≤ 2 * 0 + 1; omega
    | some d => show n + 1 = 2 * 1 - 1; omega
  | @lenLoad cur len r v' hl =>
    cases c <;> try exact absurd hs id
    have : n = 2 * len - 1 := hs
    have := hq.1
    cases r with
    | none => show n + 1 ≤ 2 * len + 1; omega
    | some d => show n + 1 = 2 * len; omega
  | @lenNext cur len r v' hl =>
    cases c <;> try exact absurd hs id
    obtain ⟨k1, k2, d, hd⟩ := hq
    have := known hd (by rw [← loc_succ k2.1]; congr 1; omega) hl
    subst this
    have : n = 2 * len := hs
    show n + 1 = 2 * (len + 1) - 1
    omega
  | emptyHead hl =>
    cases c <;> try exact absurd hs id
    exact congrArg (· + 1) hs

theorem spent_during {s s' : State T} {L : List Nat} (h : Inv s L) {t n : Nat} {c : ListCall}
    (hs : Spent L.length 0 c (s.pc t)) (hd : During t s n s') :
    ∃ L', Inv s' L' ∧ L <+: L' ∧ Spent L'.length n c (s'.pc t) := by
  have len : ∀ {K K' : List Nat}, (K' = K ∨ ∃ x, K' = K ++ [x]) → K.length ≤ K'.length ∧ K <+: K' := by
    rintro K K' (rfl | ⟨x, rfl⟩)
    · exact ⟨Nat.le_refl _, List.prefix_refl _⟩
    · exact ⟨by simp, List.prefix_append _ _⟩
  induction hd with
  | start => exact ⟨L, h, List.prefix_refl _, hs⟩
  | own _ hr ih =>
    obtain ⟨K, i1, i2, i3⟩ := ih
    obtain ⟨K', j⟩ := after_run i1 t hr
    have := spent_run i1.toChained (i1.view t) (i1.ok t) hr i3
    refine ⟨K', j.inv, i2.trans (len j.grow).2, ?_⟩
    dsimp only
    rw [Function.update_self]
    exact this.mono (len j.grow).1
  | other _ hst e ih =>
    obtain ⟨K, i1, i2, i3⟩ := ih
    obtain ⟨K', j⟩ := inv_step i1 hst
    exact ⟨K', j.inv, i2.trans (len j.grow).2, by rw [e]; exact i3.mono (len j.grow).1⟩

/-- The bound on the steps of a call, with `N` elements on the list. -/
def stepBound (N : Nat) : ListCall → Nat
  | .push => 3 * N
  | .get i => min (2 * i + 2) (2 * N + 1)
  | .next => 2
  | .isEmpty => 1
  | .len => 2 * N + 1

theorem Spent.bound {L : List Nat} {v : View} {n : Nat} {c : ListCall} {p : PC}
    (hok : PCok L v p) (hs : Spent L.length n c p) : n ≤ stepBound L.length c := by
  cases c with
  | push =>
    cases p <;> try exact absurd hs id
    all_goals simp only [Spent] at hs
    all_goals simp only [stepBound]
    case casHead => omega
    case tailHead => obtain ⟨d, hd⟩ := hok; have := hd.lt; omega
    case tailLoad => have := hok.1; have := hok.2.lt; omega
    case tailNext => obtain ⟨h1, h2, d, hd⟩ := hok; have := hd.lt; omega
    case setNext => have := hok.1; have := hok.2.lt; omega
    case failLoad => obtain ⟨h1, h2, d, hd⟩ := hok; have := hd.lt; omega
    case failNext => obtain ⟨h1, h2, d, hd⟩ := hok; have := hd.lt; omega
    case done => have := hok.1; have := hok.2.lt; omega
  | get i =>
    cases p <;> try exact absurd hs id
    case got idx r =>
      cases r with
      | none =>
        obtain ⟨rfl, h1, h2⟩ := hs
        simp only [stepBound]; omega
      | some d =>
        obtain ⟨rfl, rfl⟩ := hs
        have := At.lt hok
        simp only [stepBound]; omega
    all_goals
      obtain ⟨rfl, rfl⟩ := hs
      simp only [stepBound]
    case getHead => omega
    case getLoad => have := hok.1; have := hok.2.lt; omega
    case getNext => obtain ⟨h1, h2, d, hd⟩ := hok; have := hd.lt; omega
    case getVal => have := At.lt hok; omega
  | next =>
    cases p <;> try exact absurd hs id
    all_goals simp only [Spent] at hs
    all_goals simp only [stepBound]
    all_goals omega
  | isEmpty =>
    cases p <;> try exact absurd hs id
    all_goals simp only [Spent] at hs
    all_goals simp only [stepBound]
    all_goals omega
  | len =>
    cases p <;> try exact absurd hs id
    all_goals simp only [Spent] at hs
    all_goals simp only [stepBound]
    case lenHead => omega
    case lenLoad => have := hok.1; have := hok.2.lt; omega
    case lenNext => obtain ⟨h1, h2, d, hd⟩ := hok; have := hd.lt; omega
    case lenDone k =>
      rcases hok with rfl | ⟨d, hd⟩
      · omega
      · have := hd.lt; omega

theorem can_load {m : Mem T} {L : List Nat} (h : Chained m L) {v : View} (hv : VOk L v) (l : Loc)
    (o : Ord) : ∃ r w, Load m v l o r w := by
  cases hc : m.cell l with
  | some msg => exact ⟨_, _, .set msg hc⟩
  | none =>
    refine ⟨_, _, .null fun hl => ?_⟩
    obtain ⟨i, rfl, k⟩ := hv l hl
    obtain ⟨_, c, hi, _⟩ := k i (Nat.le_refl i)
    have := h.cell i (Nat.le_of_lt (List.getElem?_eq_some_iff.mp hi).1)
    rw [hc, hi] at this
    cases this

theorem can_cas (m : Mem T) (v : View) (l : Loc) (new : Nat) (ok err : Ord) :
    ∃ m' w b, Cas m v l new ok err m' w b := by
  cases hc : m.cell l with
  | some msg => exact ⟨_, _, _, .err msg hc⟩
  | none => exact ⟨_, _, _, .ok hc⟩

theorem can_run {s : State T} {L : List Nat} (h : Inv s L) (t : Nat) (hn : (s.pc t).ready = false) :
    ∃ m v p, Run s.mem (s.view t) (s.pc t) m v p := by
  have hok := h.ok t
  have ld := can_load h.toChained (h.view t)
  have cs := fun l new => can_cas s.mem (s.view t) l new .acqRel .acquire
  revert hn hok
  generalize s.pc t = q
  intro hn hok
  cases q <;> try cases hn
  case casHead new => obtain ⟨_, _, _, c⟩ := cs .head new; exact ⟨_, _, _, .casHead c⟩
  case setNext new tl len r => obtain ⟨_, _, _, c⟩ := cs (.next tl) new; exact ⟨_, _, _, .setNext c⟩
  case tailHead => obtain ⟨_, _, l⟩ := ld .head .relaxed; exact ⟨_, _, _, .tailHead l⟩
  case tailLoad cur len => obtain ⟨_, _, l⟩ := ld (.next cur) .acquire; exact ⟨_, _, _, .tailLoad l⟩
  case tailNext cur len => obtain ⟨_, _, l⟩ := ld (.next cur) .relaxed; exact ⟨_, _, _, .tailNext l⟩
  case failLoad tl len r => obtain ⟨_, _, l⟩ := ld (.next tl) .acquire; exact ⟨_, _, _, .failLoad l⟩
  case failNext tl len r => obtain ⟨_, _, l⟩ := ld (.next tl) .relaxed; exact ⟨_, _, _, .failNext l⟩
  case getHead => obtain ⟨_, _, l⟩ := ld .head .acquire; exact ⟨_, _, _, .getHead l⟩
  case getLoad k cur => obtain ⟨_, _, l⟩ := ld (.next cur) .acquire; exact ⟨_, _, _, .getLoad l⟩
  case getNext k cur => obtain ⟨_, _, l⟩ := ld (.next cur) .relaxed; exact ⟨_, _, _, .getNext l⟩
  case getVal => exact ⟨_, _, _, .getVal⟩
  case iterLoad cur seen => obtain ⟨_, _, l⟩ := ld cur .acquire; exact ⟨_, _, _, .iterLoad l⟩
  case iterVal => exact ⟨_, _, _, .iterVal⟩
  case lenHead => obtain ⟨_, _, l⟩ := ld .head .relaxed; exact ⟨_, _, _, .lenHead l⟩
  case lenLoad cur len => obtain ⟨_, _, l⟩ := ld (.next cur) .acquire; exact ⟨_, _, _, .lenLoad l⟩
  case lenNext cur len => obtain ⟨_, _, l⟩ := ld (.next cur) .relaxed; exact ⟨_, _, _, .lenNext l⟩
  case emptyHead => obtain ⟨_, _, l⟩ := ld .head .acquire; exact ⟨_, _, _, .emptyHead l⟩
  case crash => exact absurd hok id

/-- The program counters at which a call has just started. -/
def Starts : ListCall → PC → Prop
  | .push, p => ∃ new, p = .casHead new
  | .get i, p => p = .getHead i
  | .next, p => ∃ c l, p = .iterLoad c l
  | .isEmpty, p => p = .emptyHead
  | .len, p => p = .lenHead

theorem Starts.spent {N : Nat} {c : ListCall} {p : PC} (h : Starts c p) : Spent N 0 c p := by
  cases c with
  | push => obtain ⟨_, rfl⟩ := h; exact rfl
  | get i => subst h; exact ⟨rfl, rfl⟩
  | next => obtain ⟨_, _, rfl⟩ := h; exact rfl
  | isEmpty => subst h; exact rfl
  | len => subst h; exact rfl

/-- C170, bounded calls: however the threads are interleaved and however stale their loads are, from
its start a push has taken at most three steps for every element now on the list, a `get(i)` at most
`2i + 2` and at most two for every element and one more, `len` two for every element and one more,
a `next` of an iterator two, `is_empty` one. So a call in progress for long means that the list has
grown long: no call runs for ever while the others only read. -/
theorem C170_bounded (s s' : State T) (hr : Steps true init s) (t n : Nat) (c : ListCall)
    (hc : Starts c (s.pc t)) (hd : During t s n s') (L : List Nat) (hL : WeakContents s'.mem L) :
    n ≤ (match c with
      | .push => 3 * L.length
      | .get i => min (2 * i + 2) (2 * L.length + 1)
      | .next => 2
      | .isEmpty => 1
      | .len => 2 * L.length + 1) := by
  obtain ⟨K, h, _⟩ := inv_steps inv_init hr
  obtain ⟨K', h', _, hs⟩ := spent_during h hc.spent hd
  have := h'.toChained.contents.unique hL
  subst this
  have := hs.bound (h'.ok t)
  cases c <;> exact this

/-- C170, never stuck: a thread inside a call can always take its next step, whatever the others
have done or left undone (there is nothing to wait for). -/
theorem C170_not_stuck (s : State T) (hr : Steps true init s) (t : Nat)
    (hn : (s.pc t).ready = false) :
    ∃ m v p, Run s.mem (s.view t) (s.pc t) m v p ∧
      Steps true init ⟨m, Function.update s.pc t p, Function.update s.view t v⟩ := by
  obtain ⟨K, h, _⟩ := inv_steps inv_init hr
  obtain ⟨m, v, p, hrun⟩ := can_run h t hn
  exact ⟨m, v, p, hrun, hr.tail (.run s t m v p hrun)⟩

theorem During.steps {t n : Nat} {s s' : State T} (hr : Steps true init s) (hd : During t s n s') :
    Steps true init s' := by
  induction hd with
  | start => exact hr
  | own _ h ih => exact ih.tail (.run _ t _ _ _ h)
  | other _ h _ ih => exact ih.tail h

theorem During.begin (t : Nat) {s : State T} (_ : Steps true init s) : During t s 0 s := .start

/-- Thread `t` takes `n` steps and no other thread takes any. -/
inductive Alone (t : Nat) (s : State T) : Nat → State T → Prop
  | start : Alone t s 0 s
  | own {n : Nat} {s' : State T} {m : Mem T} {v : View} {p : PC} : Alone t s n s' →
      Run s'.mem (s'.view t) (s'.pc t) m v p →
      Alone t s (n + 1) ⟨m, Function.update s'.pc t p, Function.update s'.view t v⟩

theorem run_quiet {m m' : Mem T} {v v' : View} {q p : PC} (hr : Run m v q m' v' p)
    (hp : p.ready = false) : m' = m := by
  cases hr with
  | casHead hc =>
    cases hc with
    | ok _ => cases hp
    | err _ _ => rfl
  | setNext hc =>
    cases hc with
    | ok _ => cases hp
    | err _ _ => rfl
  | _ => rfl

theorem During.alone {t n k : Nat} {s s' s'' : State T} (hd : During t s n s')
    (ha : Alone t s' k s'') : During t s (n + k) s'' := by
  induction ha with
  | start => exact hd
  | own _ hr ih => exact .own ih hr

theorem run_inside {m m' : Mem T} {v v' : View} {q p : PC} (hr : Run m v q m' v' p) :
    q.ready = false := by
  cases hr <;> rfl

theorem alone_quiet {t k : Nat} {s s' : State T} (ha : Alone t s k s')
    (hn : (s'.pc t).ready = false) : s'.mem = s.mem := by
  induction ha with
  | start => rfl
  | own _ hr ih =>
    dsimp only at hn ⊢
    rw [Function.update_self] at hn
    rw [run_quiet hr hn, ih (run_inside hr)]

/-- C170, left alone: at any point of a call, if the others pause, the thread reaches the end of the
call; and until then it takes no more steps than the bound says for the list as it is. -/
theorem C170_finishes_alone (s s' : State T) (hr : Steps true init s) (t n : Nat) (c : ListCall)
    (hc : Starts c (s.pc t)) (hd : During t s n s') (L : List Nat) (hL : WeakContents s'.mem L) :
    (∃ k s'', Alone t s' k s'' ∧ (s''.pc t).ready = true) ∧
    ∀ k s'', Alone t s' k s'' → n + k ≤ stepBound L.length c + 1 := by
  have upper : ∀ k s'', Alone t s' k s'' → (s''.pc t).ready = false →
      n + k ≤ stepBound L.length c := by
    intro k s'' ha hn
    have e := alone_quiet ha hn
    have := C170_bounded s s'' hr t _ c hc (hd.alone ha) L (e ▸ hL)
    cases c <;> exact this
  refine ⟨?_, fun k s'' ha => ?_⟩
  · by_contra hno
    have go : ∀ k, ∃ s'', Alone t s' k s'' := by
      intro k
      induction k with
      | zero => exact ⟨s', .start⟩
      | succ k ih =>
        obtain ⟨s1, ha⟩ := ih
        have hn : (s1.pc t).ready = false := by
          rw [← Bool.not_eq_true]; exact fun e => hno ⟨k, s1, ha, e⟩
        obtain ⟨m, v, p, h, _⟩ := C170_not_stuck s1 ((hd.alone ha).steps hr) t hn
        exact ⟨_, .own ha h⟩
    obtain ⟨s1, ha⟩ := go (stepBound L.length c + 1)
    have hn : (s1.pc t).ready = false := by
      rw [← Bool.not_eq_true]; exact fun e => hno ⟨_, s1, ha, e⟩
    have := upper _ s1 ha hn
    omega
  · cases ha with
    | start => have := upper 0 s' .start; by_cases e : (s'.pc t).ready = false
               · have := this e; omega
               · have := C170_bounded s s' hr t _ c hc hd L hL
                 have : n ≤ stepBound L.length c := by cases c <;> exact this
                 omega
    | own ha h => have := upper _ _ ha (run_inside h); omega

-- a non-trivial case: thread 1 pushes behind the element of thread 0, in four steps of its own
example : ∃ (s s' : State Nat), Steps true init s ∧ Starts .push (s.pc 1) ∧ During 1 s 4 s' ∧
    WeakContents s'.mem [0, 1] ∧ (s'.pc 1).ready = true := by
  have h1 := (pushed_reachable true).tail (.push _ 1 8 rfl)
  have d2 := (During.begin 1 h1).own (.casHead (.err _ rfl))
  have d3 := During.own d2 (.tailHead (.set _ rfl))
  have d4 := During.own d3 (.tailLoad (.null ?_))
  have d5 := During.own d4 (.setNext (.ok rfl))
  · exact ⟨_, _, h1, ⟨1, rfl⟩, d5, Walk.cons 0 [1] (Walk.cons 1 [] Walk.nil), rfl⟩
  · simp [pushed, View.read, Ord.acquires, View.see, View.empty, View.join, View.own]

end Verif
