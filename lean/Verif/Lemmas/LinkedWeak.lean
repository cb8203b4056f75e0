import Mathlib.Data.List.Nodup
import Verif.Model.LinkedWeak

/-!
# Helper lemmas: the invariant of the shared list under its memory orderings
-/

namespace Verif

namespace LinkedWeak

variable {T : Type}

/-- The pointer that leads to the `i`-th node of the chain `L`. -/
def loc (L : List Nat) : Nat → Loc
  | 0 => .head
  | i + 1 => .next (L.getD i 0)

theorem loc_succ {L : List Nat} {i n : Nat} (h : L[i]? = some n) : loc L (i + 1) = .next n := by
  simp [loc, List.getD, h]

theorem loc_append {L : List Nat} (x : Nat) {i : Nat} (h : i ≤ L.length) :
    loc (L ++ [x]) i = loc L i := by
  cases i with
  | zero => rfl
  | succ i => simp only [loc, List.getD]; rw [List.getElem?_append_left (by omega)]

theorem loc_inj {L : List Nat} (hn : L.Nodup) {i j : Nat} (hi : i ≤ L.length) (hj : j ≤ L.length)
    (h : loc L i = loc L j) : i = j := by
  cases i with
  | zero => cases j with
    | zero => rfl
    | succ j => cases h
  | succ i => cases j with
    | zero => cases h
    | succ j =>
      have a : L[i]? = some L[i] := List.getElem?_eq_getElem (by omega)
      have b : L[j]? = some L[j] := List.getElem?_eq_getElem (by omega)
      rw [loc_succ a, loc_succ b] at h
      have e : L[i]? = L[j]? := by rw [a, b]; exact congrArg some (Loc.next.inj h)
      have := (List.getElem?_inj (by omega) hn).mp e
      omega

/-- One view includes the other. -/
structure VLe (v w : View) : Prop where
  nodes : ∀ n, v.nodes n → w.nodes n
  locs : ∀ l, v.locs l → w.locs l

theorem VLe.refl (v : View) : VLe v v := ⟨fun _ h => h, fun _ h => h⟩

theorem VLe.trans {u v w : View} (h : VLe u v) (h' : VLe v w) : VLe u w :=
  ⟨fun n x => h'.nodes n (h.nodes n x), fun l x => h'.locs l (h.locs l x)⟩

theorem VLe.see (v : View) (l : Loc) : VLe v (v.see l) := ⟨fun _ h => h, fun _ h => .inr h⟩

theorem VLe.join_left (v w : View) : VLe v (v.join w) := ⟨fun _ h => .inl h, fun _ h => .inl h⟩

theorem VLe.read (v : View) (o : Ord) (l : Loc) (msg : Msg) : VLe v (v.read o l msg) := by
  unfold View.read
  split
  · exact (VLe.join_left v msg.view).trans (VLe.see _ l)
  · exact VLe.see v l

/-- A view knows only pointers of the chain, with each the ones before, and the nodes they lead
to. -/
def VOk (L : List Nat) (v : View) : Prop :=
  ∀ l, v.locs l → ∃ i, l = loc L i ∧
    ∀ j, j ≤ i → v.locs (loc L j) ∧ ∃ n, L[j]? = some n ∧ v.nodes n

theorem VOk.empty (L : List Nat) : VOk L View.empty := fun _ h => absurd h id

theorem VOk.join {L : List Nat} {v w : View} (h : VOk L v) (h' : VOk L w) : VOk L (v.join w) := by
  intro l hl
  rcases hl with hl | hl
  · obtain ⟨i, e, k⟩ := h l hl
    refine ⟨i, e, fun j hj => ?_⟩
    obtain ⟨a, n, b, c⟩ := k j hj
    exact ⟨.inl a, n, b, .inl c⟩
  · obtain ⟨i, e, k⟩ := h' l hl
    refine ⟨i, e, fun j hj => ?_⟩
    obtain ⟨a, n, b, c⟩ := k j hj
    exact ⟨.inr a, n, b, .inr c⟩

theorem VOk.own {L : List Nat} {v : View} (h : VOk L v) (x : Nat) : VOk L (v.own x) := by
  intro l hl
  obtain ⟨i, e, k⟩ := h l hl
  refine ⟨i, e, fun j hj => ?_⟩
  obtain ⟨a, n, b, c⟩ := k j hj
  exact ⟨a, n, b, .inr c⟩

theorem VOk.append {L : List Nat} {v : View} (h : VOk L v) (x : Nat) : VOk (L ++ [x]) v := by
  intro l hl
  obtain ⟨i, e, k⟩ := h l hl
  have hi : ∀ j, j ≤ i → j < L.length := by
    intro j hj
    obtain ⟨_, n, b, _⟩ := k j hj
    exact (List.getElem?_eq_some_iff.mp b).1
  refine ⟨i, by rw [loc_append x (Nat.le_of_lt (hi i (Nat.le_refl i))), e], fun j hj => ?_⟩
  obtain ⟨a, n, b, c⟩ := k j hj
  rw [loc_append x (Nat.le_of_lt (hi j hj))]
  exact ⟨a, n, by rw [List.getElem?_append_left (hi j hj), b], c⟩

/-- Seeing the pointer at position `i`, those before and its node being known. -/
theorem VOk.see {L : List Nat} {v : View} (h : VOk L v) {i n : Nat} (hi : L[i]? = some n)
    (hv : v.nodes n) (hp : i = 0 ∨ v.locs (loc L (i - 1))) (hn : L.Nodup) :
    VOk L (v.see (loc L i)) := by
  have hil := (List.getElem?_eq_some_iff.mp hi).1
  intro l hl
  rcases hl with rfl | hl
  · refine ⟨i, rfl, fun j hj => ?_⟩
    by_cases e : j = i
    · subst e; exact ⟨.inl rfl, n, hi, hv⟩
    · rcases hp with rfl | hp
      · omega
      · obtain ⟨i', e', k⟩ := h _ hp
        have hil' : i' < L.length := by
          obtain ⟨_, _, b, _⟩ := k i' (Nat.le_refl _)
          exact (List.getElem?_eq_some_iff.mp b).1
        have := loc_inj hn (by omega) (by omega) e'
        obtain ⟨a, b⟩ := k j (by omega)
        exact ⟨.inr a, b⟩
  · obtain ⟨i', e, k⟩ := h l hl
    exact ⟨i', e, fun j hj => ⟨.inr (k j hj).1, (k j hj).2⟩⟩

/-- The `i`-th node is `n` and the view knows the pointer to it. -/
def At (L : List Nat) (v : View) (i n : Nat) : Prop := L[i]? = some n ∧ v.locs (loc L i)

theorem At.lt {L : List Nat} {v : View} {i n : Nat} (h : At L v i n) : i < L.length :=
  (List.getElem?_eq_some_iff.mp h.1).1

theorem At.mono {L : List Nat} {v w : View} {i n : Nat} (h : At L v i n) (hv : VLe v w) :
    At L w i n := ⟨h.1, hv.locs _ h.2⟩

theorem At.append {L : List Nat} {v : View} {i n : Nat} (h : At L v i n) (x : Nat) :
    At (L ++ [x]) v i n := by
  refine ⟨?_, ?_⟩
  · rw [List.getElem?_append_left h.lt, h.1]
  · rw [loc_append x (Nat.le_of_lt h.lt)]; exact h.2

theorem At.below {L : List Nat} {v : View} {i n : Nat} (h : At L v i n) (hv : VOk L v)
    (hn : L.Nodup) {j : Nat} (hj : j ≤ i) : ∃ c, At L v j c ∧ v.nodes c := by
  obtain ⟨i', e, k⟩ := hv _ h.2
  have hil' : i' < L.length := by
    obtain ⟨_, _, b, _⟩ := k i' (Nat.le_refl _)
    exact (List.getElem?_eq_some_iff.mp b).1
  have := loc_inj hn (Nat.le_of_lt h.lt) (by omega) e
  obtain ⟨a, c, b, d⟩ := k j (by omega)
  exact ⟨c, ⟨b, a⟩, d⟩

theorem At.node {L : List Nat} {v : View} {i n : Nat} (h : At L v i n) (hv : VOk L v)
    (hn : L.Nodup) : v.nodes n := by
  obtain ⟨c, a, b⟩ := h.below hv hn (Nat.le_refl i)
  have := a.1
  rw [h.1] at this
  cases this
  exact b

theorem At.unique {L : List Nat} {v w : View} {i n k : Nat} (h : At L v i n) (h' : At L w i k) :
    n = k := by
  have := h'.1
  rw [h.1] at this
  exact Option.some.inj this

/-- What is known of an iterator. -/
structure ItOk (L : List Nat) (v : View) (c : Loc) (seen : List Nat) : Prop where
  pre : seen <+: L
  cur : c = loc L seen.length
  known : ∀ i n, seen[i]? = some n → At L v i n

/-- What is known of the pointers a thread holds, relative to the nodes `L` linked so far and the
view of the thread. -/
def PCok (L : List Nat) (v : View) : PC → Prop
  | .idle | .casHead _ | .getHead _ | .emptyHead => True
  | .tailHead _ => ∃ c, At L v 0 c
  | .tailLoad _ cur len => 1 ≤ len ∧ At L v (len - 1) cur
  | .tailNext _ cur len => 1 ≤ len ∧ At L v (len - 1) cur ∧ ∃ c, At L v len c
  | .setNext _ tl len r => 1 ≤ len ∧ At L v (len + r - 1) tl
  | .failLoad _ tl len r => 1 ≤ len ∧ At L v (len + r - 1) tl ∧ ∃ c, At L v (len + r) c
  | .failNext _ tl len r => 1 ≤ len ∧ At L v (len + r - 1) tl ∧ ∃ c, At L v (len + r) c
  | .done new ret r => 1 ≤ ret ∧ At L v (ret + r - 1) new
  | .getLoad idx k cur => k < idx ∧ At L v k cur
  | .getNext idx k cur => k < idx ∧ At L v k cur ∧ ∃ c, At L v (k + 1) c
  | .getVal idx cur => At L v idx cur
  | .got _ none => True
  | .got idx (some n) => At L v idx n
  | .iter c seen | .iterLoad c seen | .iterEnd c seen => ItOk L v c seen
  | .iterVal p seen => ItOk L v (loc L seen.length) seen ∧ At L v seen.length p
  | .lenHead => ∃ n, L[0]? = some n ∧ v.nodes n
  | .lenLoad cur len => 1 ≤ len ∧ At L v (len - 1) cur
  | .lenNext cur len => 1 ≤ len ∧ At L v (len - 1) cur ∧ ∃ c, At L v len c
  | .lenDone k => k = 0 ∨ ∃ c, At L v (k - 1) c
  | .emptyDone b => b = false → ∃ c, At L v 0 c
  | .crash => False

theorem ItOk.mono {L : List Nat} {v w : View} {c : Loc} {seen : List Nat} (h : ItOk L v c seen)
    (hv : VLe v w) : ItOk L w c seen := ⟨h.pre, h.cur, fun i n hi => (h.known i n hi).mono hv⟩

theorem ItOk.append {L : List Nat} {v : View} {c : Loc} {seen : List Nat} (h : ItOk L v c seen)
    (x : Nat) : ItOk (L ++ [x]) v c seen :=
  ⟨h.pre.trans (List.prefix_append _ _), by rw [loc_append x h.pre.length_le]; exact h.cur,
    fun i n hi => (h.known i n hi).append x⟩

theorem PCok.mono {L : List Nat} {v w : View} {p : PC} (h : PCok L v p) (hv : VLe v w) :
    PCok L w p := by
  have ex : ∀ i, (∃ c, At L v i c) → ∃ c, At L w i c := fun i ⟨c, hc⟩ => ⟨c, hc.mono hv⟩
  cases p with
  | got idx res => cases res with
    | none => trivial
    | some n => exact At.mono h hv
  | lenHead => obtain ⟨n, a, b⟩ := h; exact ⟨n, a, hv.nodes n b⟩
  | lenDone k => exact h.imp id (ex _)
  | emptyDone b => exact fun e => ex _ (h e)
  | tailHead _ => exact ex _ h
  | getVal idx cur => exact At.mono h hv
  | iter c seen => exact ItOk.mono h hv
  | iterLoad c seen => exact ItOk.mono h hv
  | iterEnd c seen => exact ItOk.mono h hv
  | iterVal c seen => exact ⟨h.1.mono hv, h.2.mono hv⟩
  | _ =>
    simp only [PCok] at h ⊢ <;>
    first
      | trivial
      | exact h
      | exact ⟨h.1, h.2.mono hv⟩
      | exact ⟨h.1, h.2.1.mono hv, ex _ h.2.2⟩

theorem PCok.append {L : List Nat} {v : View} (x : Nat) {p : PC} (h : PCok L v p) :
    PCok (L ++ [x]) v p := by
  have ex : ∀ i, (∃ c, At L v i c) → ∃ c, At (L ++ [x]) v i c := fun i ⟨c, hc⟩ => ⟨c, hc.append x⟩
  cases p with
  | got idx res => cases res with
    | none => trivial
    | some n => exact At.append h x
  | lenHead =>
    obtain ⟨n, a, b⟩ := h
    exact ⟨n, by rw [List.getElem?_append_left (List.getElem?_eq_some_iff.mp a).1, a], b⟩
  | lenDone k => exact h.imp id (ex _)
  | emptyDone b => exact fun e => ex _ (h e)
  | tailHead _ => exact ex _ h
  | getVal idx cur => exact At.append h x
  | iter c seen => exact ItOk.append h x
  | iterLoad c seen => exact ItOk.append h x
  | iterEnd c seen => exact ItOk.append h x
  | iterVal c seen =>
    obtain ⟨h1, h2⟩ := h
    refine ⟨?_, h2.append x⟩
    rw [loc_append x (Nat.le_of_lt h2.lt)]
    exact h1.append x
  | _ =>
    simp only [PCok] at h ⊢ <;>
    first
      | trivial
      | exact h
      | exact ⟨h.1, h.2.append x⟩
      | exact ⟨h.1, h.2.1.append x, ex _ h.2.2⟩

/-- The memory is the chain `L`, and what was released with a pointer leads up to it. -/
structure Chained (m : Mem T) (L : List Nat) : Prop where
  cell : ∀ i, i ≤ L.length → (m.cell (loc L i)).map Msg.ptr = L[i]?
  msg : ∀ l msg, m.cell l = some msg → VOk L msg.view ∧ msg.view.locs l
  off : ∀ l, (∀ i, i ≤ L.length → l ≠ loc L i) → m.cell l = none
  nodup : L.Nodup
  lt : ∀ n ∈ L, n < m.alloc

structure Inv (s : State T) (L : List Nat) : Prop extends Chained s.mem L where
  view : ∀ t, VOk L (s.view t)
  ok : ∀ t, PCok L (s.view t) (s.pc t)
  priv : ∀ t n, (s.pc t).owner = some n → n < s.mem.alloc ∧ n ∉ L ∧ (s.view t).nodes n
  own : ∀ t t' n, t ≠ t' → (s.pc t).owner = some n → (s.pc t').owner ≠ some n
  vals : ∀ n, n < s.mem.alloc → ∃ v, s.mem.val n = some v
  fresh : ∀ n, s.mem.alloc ≤ n → s.mem.cell (.next n) = none

theorem inv_init : Inv (init : State T) [] := by
  refine ⟨⟨?_, ?_, fun _ _ => rfl, List.nodup_nil, by simp⟩, fun _ => VOk.empty _, fun _ => trivial,
    ?_, ?_, ?_, fun _ _ => rfl⟩
  · intro i hi; simp [init]
  · intro l msg h; cases h
  · intro t n h; cases h
  · intro t t' n _ h; cases h
  · intro n h; exact absurd h (Nat.not_lt_zero n)

theorem ready_owner {p : PC} (h : p.ready = true) : p.owner = none := by
  cases p <;> simp_all [PC.ready, PC.owner]

theorem Chained.some {m : Mem T} {L : List Nat} (h : Chained m L) {i : Nat} (hi : i ≤ L.length)
    {msg : Msg} (hm : m.cell (loc L i) = some msg) : At L msg.view i msg.ptr := by
  have := h.cell i hi
  rw [hm] at this
  exact ⟨this.symm, (h.msg _ msg hm).2⟩

theorem Chained.none {m : Mem T} {L : List Nat} (h : Chained m L) {i : Nat} (hi : i ≤ L.length)
    (hm : m.cell (loc L i) = none) : i = L.length := by
  have := h.cell i hi
  rw [hm] at this
  have := List.getElem?_eq_none_iff.mp this.symm
  omega

/-- Reading a pointer of the chain with an acquiring load. -/
theorem read_acquire {m : Mem T} {L : List Nat} (h : Chained m L) {v : View} (hv : VOk L v) {i : Nat}
    (hi : i ≤ L.length) {msg : Msg} (hm : m.cell (loc L i) = some msg) (o : Ord)
    (ho : o.acquires = true) :
    VOk L (v.read o (loc L i) msg) ∧ At L (v.read o (loc L i) msg) i msg.ptr := by
  have a := h.some hi hm
  have ok := (h.msg _ msg hm).1
  have b := hv.join ok
  unfold View.read
  rw [if_pos ho]
  refine ⟨b.see a.1 (.inr (a.node ok h.nodup)) ?_ h.nodup, a.1, .inl rfl⟩
  by_cases e : i = 0
  · exact .inl e
  · obtain ⟨c, hc, _⟩ := a.below ok h.nodup (Nat.sub_le i 1)
    exact .inr (.inr hc.2)

/-- Reading with any ordering a pointer whose node is known. -/
theorem read_any {m : Mem T} {L : List Nat} (h : Chained m L) {v : View} (hv : VOk L v) {i : Nat}
    (hi : i ≤ L.length) {msg : Msg} (hm : m.cell (loc L i) = some msg) (o : Ord)
    (hn : v.nodes msg.ptr) (hp : i = 0 ∨ v.locs (loc L (i - 1))) :
    VOk L (v.read o (loc L i) msg) ∧ At L (v.read o (loc L i) msg) i msg.ptr := by
  have a := h.some hi hm
  by_cases ho : o.acquires = true
  · exact read_acquire h hv hi hm o ho
  · unfold View.read
    rw [if_neg ho]
    exact ⟨hv.see a.1 hn hp h.nodup, a.1, .inl rfl⟩

/-- An acquiring load of a pointer of the chain. -/
theorem load_acquire {m : Mem T} {L : List Nat} (h : Chained m L) {v v' : View} (hv : VOk L v)
    {i : Nat} (hi : i ≤ L.length) {o : Ord} (ho : o.acquires = true) {r : Option Nat}
    (hl : Load m v (loc L i) o r v') :
    VOk L v' ∧ VLe v v' ∧ (∀ p, r = some p → At L v' i p) ∧ (r = none → ¬ v.locs (loc L i)) := by
  cases hl with
  | null hn => exact ⟨hv, VLe.refl v, fun p hp => (by cases hp), fun _ => hn⟩
  | set msg hm =>
    obtain ⟨a, b⟩ := read_acquire h hv hi hm o ho
    exact ⟨a, VLe.read _ _ _ _, fun p hp => (by cases hp; exact b), fun e => (by cases e)⟩

/-- A load with any ordering of a pointer already known. -/
theorem load_known {m : Mem T} {L : List Nat} (h : Chained m L) {v v' : View} (hv : VOk L v)
    {i c : Nat} (hc : At L v i c) {o : Ord} {r : Option Nat}
    (hl : Load m v (loc L i) o r v') :
    VOk L v' ∧ VLe v v' ∧ r = some c ∧ At L v' i c := by
  cases hl with
  | null hn => exact absurd hc.2 hn
  | set msg hm =>
    have hi := Nat.le_of_lt hc.lt
    have e : msg.ptr = c := (h.some hi hm).unique hc
    have hp : i = 0 ∨ v.locs (loc L (i - 1)) := by
      obtain ⟨d, hd, _⟩ := hc.below hv h.nodup (Nat.sub_le i 1)
      exact .inr hd.2
    obtain ⟨a, b⟩ := read_any h hv hi hm o (e ▸ hc.node hv h.nodup) hp
    exact ⟨a, VLe.read _ _ _ _, by rw [e], e ▸ b⟩

/-- Changing only the program counter and the view of one thread. -/
theorem inv_pc {s : State T} {L : List Nat} (h : Inv s L) (t : Nat) (p : PC) (v : View)
    (hv : VOk L v) (hle : VLe (s.view t) v) (hok : PCok L v p)
    (hown : p.owner = (s.pc t).owner ∨ p.owner = none) :
    Inv ⟨s.mem, Function.update s.pc t p, Function.update s.view t v⟩ L := by
  have sub : ∀ t' n, ((Function.update s.pc t p) t').owner = some n → (s.pc t').owner = some n := by
    intro t' n hn
    by_cases ht : t' = t
    · subst ht
      rw [Function.update_self] at hn
      rcases hown with e | e
      · rw [← e]; exact hn
      · rw [e] at hn; cases hn
    · rw [Function.update_of_ne ht] at hn; exact hn
  refine ⟨h.toChained, fun t' => ?_, fun t' => ?_, fun t' n hn => ?_, ?_, h.vals, h.fresh⟩
  · by_cases ht : t' = t
    · subst ht; dsimp only; rw [Function.update_self]; exact hv
    · dsimp only; rw [Function.update_of_ne ht]; exact h.view t'
  · by_cases ht : t' = t
    · subst ht; dsimp only; rw [Function.update_self, Function.update_self]; exact hok
    · dsimp only; rw [Function.update_of_ne ht, Function.update_of_ne ht]; exact h.ok t'
  · obtain ⟨a, b, c⟩ := h.priv t' n (sub t' n hn)
    refine ⟨a, b, ?_⟩
    by_cases ht : t' = t
    · subst ht; dsimp only; rw [Function.update_self]; exact hle.nodes n c
    · dsimp only; rw [Function.update_of_ne ht]; exact c
  · intro t1 t2 n hne h1 h2
    exact h.own t1 t2 n hne (sub t1 n h1) (sub t2 n h2)

/-- Linking the node of thread `t` at the end of the chain, releasing its view. -/
theorem inv_link {s : State T} {L : List Nat} (h : Inv s L) (t new : Nat) (p : PC)
    (hnew : (s.pc t).owner = some new) (hp : p.owner = none)
    (hlast : L.length = 0 ∨ (s.view t).locs (loc L (L.length - 1)))
    (hok : PCok (L ++ [new]) ((s.view t).see (loc L L.length)) p) :
    Inv ⟨s.mem.write (loc L L.length) ⟨new, (s.view t).see (loc L L.length)⟩,
      Function.update s.pc t p, Function.update s.view t ((s.view t).see (loc L L.length))⟩
      (L ++ [new]) := by
  obtain ⟨hlt, hnot, hknow⟩ := h.priv t new hnew
  have hnd : (L ++ [new]).Nodup := by
    rw [List.nodup_append]
    refine ⟨h.nodup, by simp, ?_⟩
    intro a ha b hb
    rw [List.mem_singleton] at hb
    rintro rfl
    exact hnot (hb ▸ ha)
  have hlen : (L ++ [new]).length = L.length + 1 := by simp
  have hnewAt : (L ++ [new])[L.length]? = some new := by simp
  have hvok : VOk (L ++ [new]) ((s.view t).see (loc L L.length)) := by
    have a := ((h.view t).append new).see (i := L.length) hnewAt hknow ?_ hnd
    · rwa [loc_append new (Nat.le_refl _)] at a
    · rw [loc_append new (Nat.sub_le _ _)]; exact hlast
  have sub : ∀ t' n, ((Function.update s.pc t p) t').owner = some n →
      t' ≠ t ∧ (s.pc t').owner = some n := by
    intro t' n hn
    by_cases ht : t' = t
    · subst ht
      rw [Function.update_self, hp] at hn; cases hn
    · rw [Function.update_of_ne ht] at hn; exact ⟨ht, hn⟩
  have hnext : ∀ i, i ≤ L.length → loc L i ≠ .next new := by
    intro i hi e
    cases i with
    | zero => cases e
    | succ i =>
      have a : L[i]? = some L[i] := List.getElem?_eq_getElem (by omega)
      rw [loc_succ a] at e
      exact hnot ((Loc.next.inj e) ▸ List.getElem_mem _)
  refine ⟨⟨?_, ?_, ?_, hnd, ?_⟩, ?_, ?_, ?_, ?_, ?_, ?_⟩
  · intro i hi
    rw [hlen] at hi
    dsimp only [Mem.write]
    by_cases e : i = L.length
    · subst e
      rw [loc_append new (Nat.le_refl _), Function.update_self, hnewAt]; rfl
    · by_cases e2 : i = L.length + 1
      · subst e2
        rw [loc_succ hnewAt, Function.update_of_ne (Ne.symm (hnext _ (Nat.le_refl _))),
          h.off _ (fun i hi => Ne.symm (hnext i hi))]
        simp
      · rw [loc_append new (by omega), Function.update_of_ne, h.cell i (by omega),
          List.getElem?_append_left (by omega)]
        intro e3
        exact e (loc_inj h.nodup (by omega) (Nat.le_refl _) e3)
  · intro l msg hm
    dsimp only [Mem.write] at hm
    by_cases e : l = loc L L.length
    · rw [e, Function.update_self] at hm
      cases hm
      exact ⟨hvok, .inl e⟩
    · rw [Function.update_of_ne e] at hm
      obtain ⟨a, b⟩ := h.msg l msg hm
      exact ⟨a.append new, b⟩
  · intro l hl
    dsimp only [Mem.write]
    have key : ∀ i, i ≤ L.length → l ≠ loc L i := by
      intro i hi
      have := hl i (by omega)
      rwa [loc_append new hi] at this
    rw [Function.update_of_ne (key _ (Nat.le_refl _)), h.off l key]
  · intro n hn
    dsimp only [Mem.write]
    rw [List.mem_append, List.mem_singleton] at hn
    rcases hn with hn | rfl
    · exact h.lt n hn
    · exact hlt
  · intro t'
    by_cases ht : t' = t
    · subst ht; dsimp only; rw [Function.update_self]; exact hvok
    · dsimp only; rw [Function.update_of_ne ht]; exact (h.view t').append new
  · intro t'
    by_cases ht : t' = t
    · subst ht; dsimp only; rw [Function.update_self, Function.update_self]; exact hok
    · dsimp only; rw [Function.update_of_ne ht, Function.update_of_ne ht]; exact (h.ok t').append new
  · intro t' n hn
    obtain ⟨ht, ho⟩ := sub t' n hn
    obtain ⟨g1, g2, g3⟩ := h.priv t' n ho
    refine ⟨g1, ?_, by dsimp only; rw [Function.update_of_ne ht]; exact g3⟩
    rw [List.mem_append, List.mem_singleton, not_or]
    refine ⟨g2, ?_⟩
    rintro rfl
    exact h.own t' t n ht ho hnew
  · intro t1 t2 n hne h1 h2
    exact h.own t1 t2 n hne (sub t1 n h1).2 (sub t2 n h2).2
  · exact h.vals
  · intro n hn
    dsimp only [Mem.write] at hn ⊢
    rw [Function.update_of_ne, h.fresh n hn]
    intro e
    cases hL : L.length with
    | zero => rw [hL] at e; cases e
    | succ i =>
      have a : L[i]? = some L[i] := List.getElem?_eq_getElem (by omega)
      rw [hL, loc_succ a] at e
      have := h.lt _ (List.getElem_mem (by omega : i < L.length))
      have := Loc.next.inj e
      omega

theorem getLoop_ok {L : List Nat} {v : View} {idx k cur : Nat} (hk : k ≤ idx) (h : At L v k cur) :
    PCok L v (getLoop idx k cur) ∧ (getLoop idx k cur).owner = none := by
  unfold getLoop
  split
  · rename_i e; subst e; exact ⟨h, rfl⟩
  · exact ⟨⟨by omega, h⟩, rfl⟩

/-- What a step does to the chain, the values and the views. -/
structure After (s s' : State T) (L L' : List Nat) : Prop where
  inv : Inv s' L'
  grow : L' = L ∨ ∃ x, L' = L ++ [x]
  vals : ∀ n, n < s.mem.alloc → s'.mem.val n = s.mem.val n
  alloc : s.mem.alloc ≤ s'.mem.alloc
  views : ∀ t, VLe (s.view t) (s'.view t)

theorem VLe.update {view : Nat → View} {t : Nat} {v : View} (h : VLe (view t) v) (t' : Nat) :
    VLe (view t') (Function.update view t v t') := by
  by_cases e : t' = t
  · subst e; rw [Function.update_self]; exact h
  · rw [Function.update_of_ne e]; exact VLe.refl _

/-- A call or a load: the chain stays. -/
theorem after_pc {s : State T} {L : List Nat} (h : Inv s L) (t : Nat) (p : PC) (v : View)
    (hv : VOk L v) (hle : VLe (s.view t) v) (hok : PCok L v p)
    (hown : p.owner = (s.pc t).owner ∨ p.owner = none) :
    After s ⟨s.mem, Function.update s.pc t p, Function.update s.view t v⟩ L L :=
  ⟨inv_pc h t p v hv hle hok hown, .inl rfl, fun _ _ => rfl, Nat.le_refl _, hle.update⟩

theorem after_call {s : State T} {L : List Nat} (h : Inv s L) (t : Nat) (p : PC)
    (hok : PCok L (s.view t) p) (hown : p.owner = none) :
    After s { s with pc := Function.update s.pc t p } L L := by
  have := after_pc h t p (s.view t) (h.view t) (VLe.refl _) hok (.inr hown)
  rwa [Function.update_eq_self] at this

/-- Linking: the chain grows by one node. -/
theorem after_link {s : State T} {L : List Nat} (h : Inv s L) (t new : Nat) (p : PC)
    (hnew : (s.pc t).owner = some new) (hp : p.owner = none)
    (hlast : L.length = 0 ∨ (s.view t).locs (loc L (L.length - 1)))
    (hok : PCok (L ++ [new]) ((s.view t).see (loc L L.length)) p) :
    After s ⟨s.mem.write (loc L L.length) ⟨new, (s.view t).see (loc L L.length)⟩,
      Function.update s.pc t p, Function.update s.view t ((s.view t).see (loc L L.length))⟩
      L (L ++ [new]) :=
  ⟨inv_link h t new p hnew hp hlast hok, .inr ⟨new, rfl⟩, fun _ _ => rfl, Nat.le_refl _,
    (VLe.see _ _).update⟩

theorem after_push {s : State T} {L : List Nat} (h : Inv s L) (t : Nat) (x : T)
    (hr : (s.pc t).ready = true) :
    After s ⟨newNode s.mem x, Function.update s.pc t (.casHead s.mem.alloc),
        Function.update s.view t ((s.view t).own s.mem.alloc)⟩ L L := by
  have hle : VLe (s.view t) ((s.view t).own s.mem.alloc) := ⟨fun _ h => .inr h, fun _ h => h⟩
  have hcell : (newNode s.mem x).cell = s.mem.cell := by
    funext l
    dsimp only [newNode]
    by_cases e : l = .next s.mem.alloc
    · rw [e, Function.update_self, h.fresh _ (Nat.le_refl _)]
    · rw [Function.update_of_ne e]
  have hnot : s.mem.alloc ∉ L := fun hm => absurd (h.lt _ hm) (Nat.lt_irrefl _)
  refine ⟨⟨⟨?_, ?_, ?_, h.nodup, ?_⟩, ?_, ?_, ?_, ?_, ?_, ?_⟩, .inl rfl, ?_, ?_, hle.update⟩
  · dsimp only; rw [hcell]; exact h.cell
  · dsimp only; rw [hcell]; exact h.msg
  · dsimp only; rw [hcell]; exact h.off
  · intro n hn
    have := h.lt n hn
    dsimp only [newNode]; omega
  · intro t'
    dsimp only
    by_cases ht : t' = t
    · subst ht; rw [Function.update_self]; exact (h.view t').own _
    · rw [Function.update_of_ne ht]; exact h.view t'
  · intro t'
    dsimp only
    by_cases ht : t' = t
    · subst ht; rw [Function.update_self, Function.update_self]; trivial
    · rw [Function.update_of_ne ht, Function.update_of_ne ht]; exact h.ok t'
  · intro t' n hn
    dsimp only [newNode] at hn ⊢
    by_cases ht : t' = t
    · subst ht
      rw [Function.update_self] at hn
      simp only [PC.owner, Option.some.injEq] at hn
      subst hn
      rw [Function.update_self]
      exact ⟨Nat.lt_succ_self _, hnot, .inl rfl⟩
    · rw [Function.update_of_ne ht] at hn
      have := h.priv t' n hn
      rw [Function.update_of_ne ht]
      exact ⟨by omega, this.2⟩
  · intro t1 t2 n hne h1 h2
    dsimp only at h1 h2
    by_cases e1 : t1 = t
    · subst e1
      rw [Function.update_self] at h1
      rw [Function.update_of_ne (Ne.symm hne)] at h2
      simp only [PC.owner, Option.some.injEq] at h1
      have := (h.priv t2 n h2).1
      omega
    · rw [Function.update_of_ne e1] at h1
      by_cases e2 : t2 = t
      · subst e2
        rw [Function.update_self] at h2
        simp only [PC.owner, Option.some.injEq] at h2
        have := (h.priv t1 n h1).1
        omega
      · rw [Function.update_of_ne e2] at h2
        exact h.own t1 t2 n hne h1 h2
  · intro n hn
    dsimp only [newNode] at hn ⊢
    by_cases hne : n = s.mem.alloc
    · rw [hne, Function.update_self]; exact ⟨x, rfl⟩
    · rw [Function.update_of_ne hne]; exact h.vals n (by omega)
  · intro n hn
    have e : s.mem.alloc + 1 ≤ n := hn
    dsimp only; rw [hcell]; exact h.fresh n (by omega)
  · intro n hn
    dsimp only [newNode]
    rw [Function.update_of_ne (by omega)]
  · dsimp only [newNode]; omega

theorem after_run {s : State T} {L : List Nat} (h : Inv s L) (t : Nat) {m' : Mem T} {v' : View}
    {p : PC} (hr : Run s.mem (s.view t) (s.pc t) m' v' p) :
    ∃ L', After s ⟨m', Function.update s.pc t p, Function.update s.view t v'⟩ L L' := by
  have hok := h.ok t
  have hv := h.view t
  have stay : ∀ p v, VOk L v → VLe (s.view t) v → PCok L v p →
      (p.owner = (s.pc t).owner ∨ p.owner = none) →
      ∃ L', After s ⟨s.mem, Function.update s.pc t p, Function.update s.view t v⟩ L L' :=
    fun p v h1 h2 h3 h4 => ⟨L, after_pc h t p v h1 h2 h3 h4⟩
  have link := fun new p => after_link h t new p
  have hch := h.toChained
  revert hr hok hv stay link
  generalize s.pc t = q, s.view t = v
  intro hr hok hv stay link
  -- the pointer after a known node is the next pointer of the chain
  have nx : ∀ {i c}, At L v i c → loc L (i + 1) = .next c ∧ i + 1 ≤ L.length :=
    fun hc => ⟨loc_succ hc.1, hc.lt⟩
  cases hr with
  | @casHead new m' v' b hc =>
    cases hc with
    | ok hn =>
      have e := hch.none (i := 0) (Nat.zero_le _) hn
      have := link new (.done new 1 0) rfl rfl (.inl e.symm)
      rw [← e] at this
      refine ⟨_, this ⟨Nat.le_refl _, ?_, .inl rfl⟩⟩
      have hL : L = [] := List.eq_nil_of_length_eq_zero e.symm
      simp [hL]
    | err msg hm =>
      obtain ⟨a, b⟩ := read_acquire hch hv (i := 0) (Nat.zero_le _) hm .acquire rfl
      exact stay _ _ a (VLe.read _ _ _ _) ⟨_, b⟩ (.inl rfl)
  | @tailHead new r v' hl =>
    obtain ⟨c, hc⟩ := hok
    obtain ⟨a, b, rfl, d⟩ := load_known hch hv hc (o := .relaxed) hl
    exact stay _ _ a b ⟨Nat.le_refl _, d⟩ (.inl rfl)
  | @tailLoad new cur len r v' hl =>
    obtain ⟨k1, k2⟩ := hok
    obtain ⟨e, hi⟩ := nx k2
    rw [← e] at hl
    obtain ⟨a, b, c, d⟩ := load_acquire hch hv hi (o := .acquire) rfl hl
    rw [show len - 1 + 1 = len by omega] at c
    cases r with
    | none => exact stay _ _ a b ⟨k1, k2.mono b⟩ (.inl rfl)
    | some p => exact stay _ _ a b ⟨k1, k2.mono b, p, c p rfl⟩ (.inl rfl)
  | @tailNext new cur len r v' hl =>
    obtain ⟨k1, k2, c, k3⟩ := hok
    obtain ⟨e, hi⟩ := nx k2
    rw [← e] at hl
    rw [show len = len - 1 + 1 by omega] at k3
    obtain ⟨a, b, rfl, d⟩ := load_known hch hv k3 (o := .relaxed) hl
    refine stay _ _ a b ⟨by omega, ?_⟩ (.inl rfl)
    rwa [show len + 1 - 1 = len - 1 + 1 by omega]
  | @setNext new tl len k m' v' b hc =>
    obtain ⟨k1, k2⟩ := hok
    obtain ⟨e, hi⟩ := nx k2
    rw [← e] at hc
    cases hc with
    | ok hn =>
      have e := hch.none hi hn
      have := link new (.done new (len + 1) k) rfl rfl (.inr (by rw [← e]; exact k2.2))
      rw [← e] at this
      refine ⟨_, this ⟨by omega, ?_⟩⟩
      rw [show len + 1 + k - 1 = len + k - 1 + 1 by omega]
      refine ⟨?_, ?_⟩
      · rw [e]; simp
      · rw [loc_append new hi]; exact .inl rfl
    | err msg hm =>
      obtain ⟨a, b⟩ := read_acquire hch hv hi hm .acquire rfl
      refine stay _ _ a (VLe.read _ _ _ _) ⟨k1, k2.mono (VLe.read _ _ _ _), msg.ptr, ?_⟩ (.inl rfl)
      rwa [show len + k = len + k - 1 + 1 by omega]
  | @failLoad new tl len k r v' hl =>
    obtain ⟨k1, k2, c, k3⟩ := hok
    obtain ⟨e, hi⟩ := nx k2
    rw [← e] at hl
    rw [show len + k = len + k - 1 + 1 by omega] at k3
    obtain ⟨a, b, rfl, d⟩ := load_known hch hv k3 (o := .acquire) hl
    refine stay _ _ a b ⟨k1, k2.mono b, c, ?_⟩ (.inl rfl)
    rwa [show len + k = len + k - 1 + 1 by omega]
  | @failNext new tl len k r v' hl =>
    obtain ⟨k1, k2, c, k3⟩ := hok
    obtain ⟨e, hi⟩ := nx k2
    rw [← e] at hl
    rw [show len + k = len + k - 1 + 1 by omega] at k3
    obtain ⟨a, b, rfl, d⟩ := load_known hch hv k3 (o := .relaxed) hl
    refine stay _ _ a b ⟨k1, ?_⟩ (.inl rfl)
    rwa [show len + (k + 1) - 1 = len + k - 1 + 1 by omega]
  | @getHead idx r v' hl =>
    obtain ⟨a, b, c, d⟩ := load_acquire hch hv (i := 0) (Nat.zero_le _) (o := .acquire) rfl hl
    cases r with
    | none => exact stay _ _ a b trivial (.inr rfl)
    | some p =>
      have := getLoop_ok (Nat.zero_le idx) (c p rfl)
      exact stay _ _ a b this.1 (.inr this.2)
  | @getLoad idx k cur r v' hl =>
    obtain ⟨k1, k2⟩ := hok
    obtain ⟨e, hi⟩ := nx k2
    rw [← e] at hl
    obtain ⟨a, b, c, d⟩ := load_acquire hch hv hi (o := .acquire) rfl hl
    cases r with
    | none => exact stay _ _ a b trivial (.inr rfl)
    | some p => exact stay _ _ a b ⟨k1, k2.mono b, p, c p rfl⟩ (.inr rfl)
  | @getNext idx k cur r v' hl =>
    obtain ⟨k1, k2, c, k3⟩ := hok
    obtain ⟨e, hi⟩ := nx k2
    rw [← e] at hl
    obtain ⟨a, b, rfl, d⟩ := load_known hch hv k3 (o := .relaxed) hl
    have := getLoop_ok (Nat.succ_le_of_lt k1) d
    exact stay _ _ a b this.1 (.inr this.2)
  | @getVal idx cur => exact stay _ _ hv (VLe.refl _) hok (.inr rfl)
  | @iterLoad cur seen r v' hl =>
    obtain ⟨h1, h2, h3⟩ := hok
    subst h2
    obtain ⟨a, b, c, d⟩ := load_acquire hch hv h1.length_le (o := .acquire) rfl hl
    have it : ItOk L v' (loc L seen.length) seen := ⟨h1, rfl, fun i n hi => (h3 i n hi).mono b⟩
    cases r with
    | none => exact stay _ _ a b it (.inr rfl)
    | some p => exact stay _ _ a b ⟨it, c p rfl⟩ (.inr rfl)
  | @iterVal ptr seen =>
    obtain ⟨⟨h1, _, h3⟩, h4⟩ := hok
    refine stay _ _ hv (VLe.refl _) ⟨?_, ?_, ?_⟩ (.inr rfl)
    · rw [List.prefix_iff_eq_take] at h1 ⊢
      have hl := h4.lt
      rw [List.length_append, List.length_singleton, List.take_add_one, h4.1, ← h1]
      rfl
    · rw [List.length_append, List.length_singleton, loc_succ h4.1]
    · intro i n hi
      by_cases e : i < seen.length
      · rw [List.getElem?_append_left e] at hi; exact h3 i n hi
      · rw [List.getElem?_append_right (by omega)] at hi
        have e2 := (List.getElem?_eq_some_iff.mp hi).1
        simp only [List.length_singleton] at e2
        have e3 : i = seen.length := by omega
        subst e3
        simp only [Nat.sub_self, List.getElem?_cons_zero, Option.some.injEq] at hi
        exact hi ▸ h4
  | @lenHead r v' hl =>
    obtain ⟨n, h1, h2⟩ := hok
    cases hl with
    | null hn => exact stay _ _ hv (VLe.refl _) (.inl rfl) (.inr rfl)
    | set msg hm =>
      have e := (hch.some (i := 0) (Nat.zero_le _) hm).1
      rw [h1] at e
      obtain ⟨a, b⟩ := read_any hch hv (i := 0) (Nat.zero_le _) hm .relaxed
        ((Option.some.inj e) ▸ h2) (.inl rfl)
      exact stay _ _ a (VLe.read _ _ _ _) ⟨Nat.le_refl _, b⟩ (.inr rfl)
  | @lenLoad cur len r v' hl =>
    obtain ⟨k1, k2⟩ := hok
    obtain ⟨e, hi⟩ := nx k2
    rw [← e] at hl
    obtain ⟨a, b, c, d⟩ := load_acquire hch hv hi (o := .acquire) rfl hl
    rw [show len - 1 + 1 = len by omega] at c
    cases r with
    | none => exact stay _ _ a b (.inr ⟨cur, k2.mono b⟩) (.inr rfl)
    | some p => exact stay _ _ a b ⟨k1, k2.mono b, p, c p rfl⟩ (.inr rfl)
  | @lenNext cur len r v' hl =>
    obtain ⟨k1, k2, c, k3⟩ := hok
    obtain ⟨e, hi⟩ := nx k2
    rw [← e] at hl
    rw [show len = len - 1 + 1 by omega] at k3
    obtain ⟨a, b, rfl, d⟩ := load_known hch hv k3 (o := .relaxed) hl
    refine stay _ _ a b ⟨by omega, ?_⟩ (.inr rfl)
    rwa [show len + 1 - 1 = len - 1 + 1 by omega]
  | @emptyHead r v' hl =>
    obtain ⟨a, b, c, d⟩ := load_acquire hch hv (i := 0) (Nat.zero_le _) (o := .acquire) rfl hl
    cases r with
    | none => exact stay _ _ a b (fun e => by cases e) (.inr rfl)
    | some p => exact stay _ _ a b (fun _ => ⟨p, c p rfl⟩) (.inr rfl)

theorem iterator_ok {L : List Nat} {v : View} {p : PC} {c : Loc} {l : List Nat} (h : PCok L v p)
    (hp : p.iterator = some (c, l)) : ItOk L v c l := by
  cases p <;> simp only [PC.iterator, Option.some.injEq, Prod.mk.injEq, reduceCtorEq] at hp
  all_goals
    obtain ⟨rfl, rfl⟩ := hp
    exact h

theorem inv_step {s s' : State T} {L : List Nat} (h : Inv s L) (hs : Step true s s') :
    ∃ L', After s s' L L' := by
  cases hs with
  | push t x hr => exact ⟨L, after_push h t x hr⟩
  | get t idx hr => exact ⟨L, after_call h t _ trivial rfl⟩
  | iter t hr =>
    exact ⟨L, after_call h t _ ⟨List.nil_prefix, rfl, fun i n hi => by simp at hi⟩ rfl⟩
  | next t c l hr => exact ⟨L, after_call h t _ (iterator_ok (h.ok t) hr) rfl⟩
  | isEmpty t hr => exact ⟨L, after_call h t _ trivial rfl⟩
  | len t hr hg =>
    obtain ⟨msg, h1, h2⟩ := hg rfl
    exact ⟨L, after_call h t _
      ⟨msg.ptr, (h.toChained.some (i := 0) (Nat.zero_le _) h1).1, h2⟩ rfl⟩
  | run t m' v' p hr => exact after_run h t hr
  | sync t t' =>
    have := after_pc h t' (s.pc t') _ ((h.view t').join (h.view t)) (VLe.join_left _ _)
      ((h.ok t').mono (VLe.join_left _ _)) (.inl rfl)
    rw [Function.update_eq_self] at this
    exact ⟨L, this⟩

theorem inv_steps {s s' : State T} {L : List Nat} (h : Inv s L) (hs : Steps true s s') :
    ∃ L', Inv s' L' ∧ L <+: L' ∧ (∀ n, n < s.mem.alloc → s'.mem.val n = s.mem.val n) ∧
      s.mem.alloc ≤ s'.mem.alloc ∧ ∀ t, VLe (s.view t) (s'.view t) := by
  induction hs with
  | refl => exact ⟨L, h, List.prefix_refl L, fun _ _ => rfl, Nat.le_refl _, fun _ => VLe.refl _⟩
  | tail _ hstep ih =>
    obtain ⟨L1, i1, i2, i3, i4, i5⟩ := ih
    obtain ⟨L2, j⟩ := inv_step i1 hstep
    refine ⟨L2, j.inv, ?_, fun n hn => ?_, Nat.le_trans i4 j.alloc, fun t => (i5 t).trans (j.views t)⟩
    · rcases j.grow with rfl | ⟨x, rfl⟩
      · exact i2
      · exact i2.trans (List.prefix_append _ _)
    · rw [j.vals n (by omega), i3 n hn]

/-- A node about to be accessed is in the view of the thread. -/
theorem access_known {L : List Nat} {v : View} (hn : L.Nodup) (hv : VOk L v) {p : PC}
    (h : PCok L v p) {n : Nat} (ha : p.access = some n) : v.nodes n := by
  cases p with
  | iterLoad c seen =>
    obtain ⟨h1, h2, h3⟩ := h
    subst h2
    simp only [PC.access] at ha
    cases hs : seen.length with
    | zero => rw [hs] at ha; cases ha
    | succ i =>
      have hi : i < seen.length := by omega
      have hx := h3 i seen[i] (List.getElem?_eq_getElem hi)
      rw [hs, loc_succ hx.1] at ha
      cases ha
      exact hx.node hv hn
  | _ =>
    simp only [PC.access, Option.some.injEq, reduceCtorEq] at ha <;>
    first
      | (subst ha; exact At.node h.2 hv hn)
      | (subst ha; exact At.node h.2.1 hv hn)
      | (subst ha; exact At.node h hv hn)

end LinkedWeak

end Verif
