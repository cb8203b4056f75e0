import Mathlib.Data.List.Nodup
import Verif.Model.Linked

/-!
# Helper lemmas: the invariant of the shared list
-/

namespace Verif

namespace Linked

variable {T : Type}

/-- What is known of the pointers a thread holds, relative to the nodes `L` linked so far. -/
def PCok (L : List Nat) : PC → Prop
  | .idle | .casHead _ | .getHead _ => True
  | .tailHead _ => 0 < L.length
  | .tailLoad _ cur len => 1 ≤ len ∧ L[len - 1]? = some cur
  | .tailNext _ cur len => 1 ≤ len ∧ L[len - 1]? = some cur ∧ len < L.length
  | .setNext _ tl len r => 1 ≤ len ∧ L[len + r - 1]? = some tl
  | .failLoad _ tl len r => 1 ≤ len ∧ L[len + r - 1]? = some tl ∧ len + r < L.length
  | .failNext _ tl len r => 1 ≤ len ∧ L[len + r - 1]? = some tl ∧ len + r < L.length
  | .done new ret r => 1 ≤ ret ∧ L[ret + r - 1]? = some new
  | .getLoad idx k cur => k < idx ∧ L[k]? = some cur
  | .getNext idx k cur => k < idx ∧ L[k]? = some cur ∧ k + 1 < L.length
  | .got _ none => True
  | .got idx (some n) => L[idx]? = some n
  | .crash => False

/-- The memory is the chain `L`. -/
structure Chained (m : Mem T) (L : List Nat) : Prop where
  head : m.head = L[0]?
  next : ∀ i n, L[i]? = some n → m.next n = L[i + 1]?
  nodup : L.Nodup
  lt : ∀ n ∈ L, n < m.alloc
  off : ∀ n, n ∉ L → m.next n = none

structure Inv (s : State T) (L : List Nat) : Prop extends Chained s.mem L where
  ok : ∀ t, PCok L (s.pc t)
  priv : ∀ t n, (s.pc t).owner = some n → n < s.mem.alloc ∧ n ∉ L
  own : ∀ t t' n, t ≠ t' → (s.pc t).owner = some n → (s.pc t').owner ≠ some n
  vals : ∀ n, n < s.mem.alloc → ∃ v, s.mem.val n = some v

theorem getElem?_append_of_some {L : List Nat} (x : Nat) {i n : Nat} (h : L[i]? = some n) :
    (L ++ [x])[i]? = some n := by
  have hi := (List.getElem?_eq_some_iff.mp h).1
  rw [List.getElem?_append_left hi, h]

theorem PCok.mono {L : List Nat} (x : Nat) {p : PC} (h : PCok L p) : PCok (L ++ [x]) p := by
  have key : ∀ i n, L[i]? = some n → (L ++ [x])[i]? = some n :=
    fun i n h => getElem?_append_of_some x h
  cases p with
  | got idx res => cases res with
    | none => trivial
    | some n => exact key _ _ h
  | _ =>
    simp only [PCok, List.length_append, List.length_singleton] at h ⊢ <;>
    first
      | trivial
      | exact h
      | omega
      | exact ⟨h.1, key _ _ h.2⟩
      | exact ⟨h.1, key _ _ h.2.1, by omega⟩

theorem inv_init : Inv (init : State T) [] := by
  refine ⟨⟨rfl, by simp, List.nodup_nil, by simp, fun _ _ => rfl⟩, fun _ => trivial, ?_, ?_, ?_⟩
  · intro t n h; cases h
  · intro t t' n _ h; cases h
  · intro n h; exact absurd h (Nat.not_lt_zero n)

theorem ready_owner {p : PC} (h : p.ready = true) : p.owner = none := by
  cases p <;> simp_all [PC.ready, PC.owner]

/-- Changing only the program counter of one thread, to one that owns what it owned or nothing. -/
theorem inv_pc {s : State T} {L : List Nat} (h : Inv s L) (t : Nat) (p : PC) (hok : PCok L p)
    (hown : p.owner = (s.pc t).owner ∨ p.owner = none) :
    Inv ⟨s.mem, Function.update s.pc t p⟩ L := by
  have sub : ∀ t' n, ((Function.update s.pc t p) t').owner = some n → (s.pc t').owner = some n := by
    intro t' n hn
    by_cases ht : t' = t
    · subst ht
      rw [Function.update_self] at hn
      rcases hown with e | e
      · rw [← e]; exact hn
      · rw [e] at hn; cases hn
    · rw [Function.update_of_ne ht] at hn; exact hn
  refine ⟨h.toChained, fun t' => ?_, fun t' n hn => h.priv t' n (sub t' n hn), ?_, h.vals⟩
  · by_cases ht : t' = t
    · subst ht; dsimp only; rw [Function.update_self]; exact hok
    · dsimp only; rw [Function.update_of_ne ht]; exact h.ok t'
  · intro t1 t2 n hne h1 h2
    exact h.own t1 t2 n hne (sub t1 n h1) (sub t2 n h2)

/-- Linking the node of thread `t` at the end of the chain. -/
theorem inv_link {s : State T} {L : List Nat} (h : Inv s L) (t new : Nat) (m' : Mem T) (p : PC)
    (hnew : (s.pc t).owner = some new) (hp : p.owner = none) (hok : PCok (L ++ [new]) p)
    (halloc : m'.alloc = s.mem.alloc) (hval : m'.val = s.mem.val)
    (hhead : m'.head = (L ++ [new])[0]?)
    (hnext : ∀ n, m'.next n = if L.getLast? = some n then some new else s.mem.next n) :
    Inv ⟨m', Function.update s.pc t p⟩ (L ++ [new]) := by
  obtain ⟨hlt, hnot⟩ := h.priv t new hnew
  have sub : ∀ t' n, ((Function.update s.pc t p) t').owner = some n →
      t' ≠ t ∧ (s.pc t').owner = some n := by
    intro t' n hn
    by_cases ht : t' = t
    · subst ht
      rw [Function.update_self, hp] at hn; cases hn
    · rw [Function.update_of_ne ht] at hn; exact ⟨ht, hn⟩
  refine ⟨⟨hhead, ?_, ?_, ?_, ?_⟩, ?_, ?_, ?_, ?_⟩
  · intro i n hi
    rw [hnext]
    by_cases hlast : i = L.length
    · subst hlast
      have : n = new := by simpa using hi.symm
      subst this
      rw [if_neg (fun e => hnot (List.mem_of_getLast? e)), h.off n hnot]
      simp
    · have hi2 : i < L.length := by
        have := (List.getElem?_eq_some_iff.mp hi).1
        simp at this; omega
      rw [List.getElem?_append_left hi2] at hi
      by_cases hl2 : i + 1 = L.length
      · rw [if_pos, hl2]
        · simp
        · rw [List.getLast?_eq_getElem?, ← hi]; congr 1; omega
      · rw [if_neg, h.next i n hi, List.getElem?_append_left (by omega)]
        intro e
        rw [List.getLast?_eq_getElem?, ← hi] at e
        have := (List.getElem?_inj (by omega) h.nodup).mp e
        omega
  · rw [List.nodup_append]
    refine ⟨h.nodup, by simp, ?_⟩
    intro a ha b hb
    rw [List.mem_singleton] at hb
    rintro rfl
    exact hnot (hb ▸ ha)
  · intro n hn
    dsimp only
    rw [halloc]
    rw [List.mem_append, List.mem_singleton] at hn
    rcases hn with hn | rfl
    · exact h.lt n hn
    · exact hlt
  · intro n hn
    rw [List.mem_append, not_or] at hn
    dsimp only
    rw [hnext, if_neg (fun e => hn.1 (List.mem_of_getLast? e)), h.off n hn.1]
  · intro t'
    by_cases ht : t' = t
    · subst ht; dsimp only; rw [Function.update_self]; exact hok
    · dsimp only; rw [Function.update_of_ne ht]; exact (h.ok t').mono new
  · intro t' n hn
    obtain ⟨ht, hn⟩ := sub t' n hn
    obtain ⟨g1, g2⟩ := h.priv t' n hn
    refine ⟨by dsimp only; rw [halloc]; exact g1, ?_⟩
    rw [List.mem_append, List.mem_singleton, not_or]
    refine ⟨g2, ?_⟩
    rintro rfl
    exact h.own t' t n ht hn hnew
  · intro t1 t2 n hne h1 h2
    exact h.own t1 t2 n hne (sub t1 n h1).2 (sub t2 n h2).2
  · intro n hn
    dsimp only at hn ⊢
    rw [halloc] at hn
    rw [hval]
    exact h.vals n hn

/-- The next pointer of the node at a position is null exactly at the last position. -/
theorem Chained.next_none {m : Mem T} {L : List Nat} (h : Chained m L) {i n : Nat}
    (hi : L[i]? = some n) (hn : m.next n = none) : i + 1 = L.length := by
  have hl := (List.getElem?_eq_some_iff.mp hi).1
  rw [h.next i n hi, List.getElem?_eq_none_iff] at hn
  omega

theorem Chained.next_some {m : Mem T} {L : List Nat} (h : Chained m L) {i n k : Nat}
    (hi : L[i]? = some n) (hn : m.next n = some k) : L[i + 1]? = some k ∧ i + 1 < L.length := by
  rw [h.next i n hi] at hn
  exact ⟨hn, (List.getElem?_eq_some_iff.mp hn).1⟩

theorem getLoop_ok {L : List Nat} {idx k cur : Nat} (hk : k ≤ idx) (h : L[k]? = some cur) :
    PCok L (getLoop idx k cur) ∧ (getLoop idx k cur).owner = none := by
  unfold getLoop
  split
  · rename_i e; subst e; exact ⟨h, rfl⟩
  · exact ⟨⟨by omega, h⟩, rfl⟩

/-- A step either leaves the chain alone or appends one node; and it never invalidates the
invariant. -/
theorem inv_step {s s' : State T} {L : List Nat} (h : Inv s L) (hs : Step s s') :
    ∃ L', Inv s' L' ∧ (L' = L ∨ ∃ x, L' = L ++ [x]) ∧
      (∀ n, n < s.mem.alloc → s'.mem.val n = s.mem.val n) ∧ s.mem.alloc ≤ s'.mem.alloc := by
  cases hs with
  | push t v hr =>
    have hnot : s.mem.alloc ∉ L := fun hm => absurd (h.lt _ hm) (Nat.lt_irrefl _)
    refine ⟨L, ⟨⟨h.head, ?_, h.nodup, ?_, ?_⟩, ?_, ?_, ?_, ?_⟩, .inl rfl, ?_, ?_⟩
    · intro i n hi
      have hne : n ≠ s.mem.alloc := by
        rintro rfl; exact hnot (List.mem_of_getElem? hi)
      dsimp only [newNode]
      rw [Function.update_of_ne hne]
      exact h.next i n hi
    · intro n hn
      have := h.lt n hn
      dsimp only [newNode]; omega
    · intro n hn
      dsimp only [newNode]
      by_cases hne : n = s.mem.alloc
      · rw [hne, Function.update_self]
      · rw [Function.update_of_ne hne]; exact h.off n hn
    · intro t'
      dsimp only
      by_cases ht : t' = t
      · subst ht; rw [Function.update_self]; trivial
      · rw [Function.update_of_ne ht]; exact h.ok t'
    · intro t' n hn
      dsimp only [newNode] at hn ⊢
      by_cases ht : t' = t
      · subst ht
        rw [Function.update_self] at hn
        simp only [PC.owner, Option.some.injEq] at hn
        subst hn
        exact ⟨Nat.lt_succ_self _, hnot⟩
      · rw [Function.update_of_ne ht] at hn
        have := h.priv t' n hn
        exact ⟨by omega, this.2⟩
    · intro t1 t2 n hne h1 h2
      dsimp only at h1 h2
      by_cases e1 : t1 = t
      · subst e1
        rw [Function.update_self] at h1
        rw [Function.update_of_ne (Ne.symm hne)] at h2
        simp only [PC.owner, Option.some.injEq] at h1
        have := (h.priv t2 n h2).1
        omega
      · rw [Function.update_of_ne e1] at h1
        by_cases e2 : t2 = t
        · subst e2
          rw [Function.update_self] at h2
          simp only [PC.owner, Option.some.injEq] at h2
          have := (h.priv t1 n h1).1
          omega
        · rw [Function.update_of_ne e2] at h2
          exact h.own t1 t2 n hne h1 h2
    · intro n hn
      dsimp only [newNode] at hn ⊢
      by_cases hne : n = s.mem.alloc
      · rw [hne, Function.update_self]; exact ⟨v, rfl⟩
      · rw [Function.update_of_ne hne]; exact h.vals n (by omega)
    · intro n hn
      dsimp only [newNode]
      rw [Function.update_of_ne (by omega)]
    · dsimp only [newNode]; omega
  | get t idx hr =>
    exact ⟨L, inv_pc h t _ trivial (.inr rfl), .inl rfl, fun _ _ => rfl, Nat.le_refl _⟩
  | run t m' pc' hrun =>
    have hok := h.ok t
    have stay : ∀ p, PCok L p → (p.owner = (s.pc t).owner ∨ p.owner = none) →
        ∃ L', Inv ⟨s.mem, Function.update s.pc t p⟩ L' ∧ (L' = L ∨ ∃ x, L' = L ++ [x]) ∧
        (∀ n, n < s.mem.alloc → s.mem.val n = s.mem.val n) ∧ s.mem.alloc ≤ s.mem.alloc :=
      fun p h1 h2 => ⟨L, inv_pc h t p h1 h2, .inl rfl, fun _ _ => rfl, Nat.le_refl _⟩
    cases hpc : s.pc t with
    | idle => rw [hpc] at hrun; cases hrun
    | done new ret r => rw [hpc] at hrun; cases hrun
    | got idx res => rw [hpc] at hrun; cases hrun
    | crash => rw [hpc] at hrun; cases hrun
    | casHead new =>
      rw [hpc] at hrun hok stay
      cases hh : s.mem.head with
      | none =>
        simp only [step, hh, Option.some.injEq, Prod.mk.injEq] at hrun
        obtain ⟨rfl, rfl⟩ := hrun
        have hL : L = [] := by
          have := h.head
          rw [hh] at this
          simpa using this.symm
        subst hL
        refine ⟨[] ++ [new], inv_link h t new _ _ (by rw [hpc]; rfl) rfl ?_ rfl rfl ?_ ?_,
          .inr ⟨new, rfl⟩, fun _ _ => rfl, Nat.le_refl _⟩
        · simp [PCok]
        · simp
        · intro n; simp
      | some n =>
        simp only [step, hh, Option.some.injEq, Prod.mk.injEq] at hrun
        obtain ⟨rfl, rfl⟩ := hrun
        refine stay _ ?_ (.inl rfl)
        have := h.head
        rw [hh] at this
        exact (List.getElem?_eq_some_iff.mp this.symm).1
    | tailHead new =>
      rw [hpc] at hrun hok stay
      have hh : s.mem.head = some L[0] := by
        rw [h.head]; exact List.getElem?_eq_getElem hok
      simp only [step, hh, Option.some.injEq, Prod.mk.injEq] at hrun
      obtain ⟨rfl, rfl⟩ := hrun
      exact stay _ ⟨Nat.le_refl _, List.getElem?_eq_getElem hok⟩ (.inl rfl)
    | tailLoad new cur len =>
      rw [hpc] at hrun hok stay
      obtain ⟨k1, k2⟩ := hok
      cases hn : s.mem.next cur with
      | none =>
        simp only [step, hn, Option.some.injEq, Prod.mk.injEq] at hrun
        obtain ⟨rfl, rfl⟩ := hrun
        exact stay _ ⟨k1, k2⟩ (.inl rfl)
      | some c =>
        simp only [step, hn, Option.some.injEq, Prod.mk.injEq] at hrun
        obtain ⟨rfl, rfl⟩ := hrun
        have := h.toChained.next_some k2 hn
        exact stay _ ⟨k1, k2, by omega⟩ (.inl rfl)
    | tailNext new cur len =>
      rw [hpc] at hrun hok stay
      obtain ⟨k1, k2, k3⟩ := hok
      cases hn : s.mem.next cur with
      | none => have := h.toChained.next_none k2 hn; omega
      | some c =>
        simp only [step, hn, Option.some.injEq, Prod.mk.injEq] at hrun
        obtain ⟨rfl, rfl⟩ := hrun
        have := h.toChained.next_some k2 hn
        refine stay _ ⟨by omega, ?_⟩ (.inl rfl)
        rw [← this.1]; congr 1; omega
    | setNext new tl len r =>
      rw [hpc] at hrun hok stay
      obtain ⟨k1, k2⟩ := hok
      cases hn : s.mem.next tl with
      | none =>
        simp only [step, hn, Option.some.injEq, Prod.mk.injEq] at hrun
        obtain ⟨rfl, rfl⟩ := hrun
        have hlast := h.toChained.next_none k2 hn
        have hlen : len + r = L.length := by omega
        refine ⟨L ++ [new], inv_link h t new _ _ (by rw [hpc]; rfl) rfl ?_ rfl rfl ?_ ?_,
          .inr ⟨new, rfl⟩, fun _ _ => rfl, Nat.le_refl _⟩
        · refine ⟨by omega, ?_⟩
          rw [show len + 1 + r - 1 = L.length by omega]
          simp
        · rw [List.getElem?_append_left (by omega)]; exact h.head
        · intro n
          have e : L.getLast? = some tl := by
            rw [List.getLast?_eq_getElem?, ← k2, hlen]
          rw [e]
          by_cases hnt : n = tl
          · subst hnt; simp
          · dsimp only
            rw [Function.update_of_ne hnt, if_neg]
            simpa using fun e => hnt e.symm
      | some c =>
        simp only [step, hn, Option.some.injEq, Prod.mk.injEq] at hrun
        obtain ⟨rfl, rfl⟩ := hrun
        have := h.toChained.next_some k2 hn
        exact stay _ ⟨k1, k2, by omega⟩ (.inl rfl)
    | failLoad new tl len r =>
      rw [hpc] at hrun hok stay
      obtain ⟨k1, k2, k3⟩ := hok
      cases hn : s.mem.next tl with
      | none => have := h.toChained.next_none k2 hn; omega
      | some c =>
        simp only [step, hn, Option.some.injEq, Prod.mk.injEq] at hrun
        obtain ⟨rfl, rfl⟩ := hrun
        exact stay _ ⟨k1, k2, k3⟩ (.inl rfl)
    | failNext new tl len r =>
      rw [hpc] at hrun hok stay
      obtain ⟨k1, k2, k3⟩ := hok
      cases hn : s.mem.next tl with
      | none => have := h.toChained.next_none k2 hn; omega
      | some c =>
        simp only [step, hn, Option.some.injEq, Prod.mk.injEq] at hrun
        obtain ⟨rfl, rfl⟩ := hrun
        have := h.toChained.next_some k2 hn
        refine stay _ ⟨k1, ?_⟩ (.inl rfl)
        rw [← this.1]; congr 1; omega
    | getHead idx =>
      rw [hpc] at hrun hok stay
      cases hh : s.mem.head with
      | none =>
        simp only [step, hh, Option.some.injEq, Prod.mk.injEq] at hrun
        obtain ⟨rfl, rfl⟩ := hrun
        exact stay _ trivial (.inr rfl)
      | some c =>
        simp only [step, hh, Option.some.injEq, Prod.mk.injEq] at hrun
        obtain ⟨rfl, rfl⟩ := hrun
        have := getLoop_ok (L := L) (idx := idx) (k := 0) (cur := c) (by omega)
          (by rw [← h.head, hh])
        exact stay _ this.1 (.inr this.2)
    | getLoad idx k cur =>
      rw [hpc] at hrun hok stay
      obtain ⟨k1, k2⟩ := hok
      cases hn : s.mem.next cur with
      | none =>
        simp only [step, hn, Option.some.injEq, Prod.mk.injEq] at hrun
        obtain ⟨rfl, rfl⟩ := hrun
        exact stay _ trivial (.inr rfl)
      | some c =>
        simp only [step, hn, Option.some.injEq, Prod.mk.injEq] at hrun
        obtain ⟨rfl, rfl⟩ := hrun
        have := h.toChained.next_some k2 hn
        exact stay _ ⟨k1, k2, this.2⟩ (.inr rfl)
    | getNext idx k cur =>
      rw [hpc] at hrun hok stay
      obtain ⟨k1, k2, k3⟩ := hok
      cases hn : s.mem.next cur with
      | none => have := h.toChained.next_none k2 hn; omega
      | some c =>
        simp only [step, hn, Option.some.injEq, Prod.mk.injEq] at hrun
        obtain ⟨rfl, rfl⟩ := hrun
        have hx := h.toChained.next_some k2 hn
        have := getLoop_ok (L := L) (idx := idx) (k := k + 1) (cur := c) (by omega) hx.1
        exact stay _ this.1 (.inr this.2)

theorem inv_steps {s s' : State T} {L : List Nat} (h : Inv s L) (hs : Steps s s') :
    ∃ L', Inv s' L' ∧ L <+: L' ∧ (∀ n, n < s.mem.alloc → s'.mem.val n = s.mem.val n) ∧
      s.mem.alloc ≤ s'.mem.alloc := by
  induction hs with
  | refl => exact ⟨L, h, List.prefix_refl L, fun _ _ => rfl, Nat.le_refl _⟩
  | tail _ hstep ih =>
    obtain ⟨L1, i1, i2, i3, i4⟩ := ih
    obtain ⟨L2, j1, j2, j3, j4⟩ := inv_step i1 hstep
    refine ⟨L2, j1, ?_, fun n hn => ?_, by omega⟩
    · rcases j2 with rfl | ⟨x, rfl⟩
      · exact i2
      · exact i2.trans (List.prefix_append _ _)
    · rw [j3 n (by omega), i3 n hn]

end Linked

end Verif
