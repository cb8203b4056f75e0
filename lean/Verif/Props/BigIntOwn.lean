import Verif.Lemmas.BigIntProgram

/-!
# C174: programs computing with `BigInt`s — results and resources

`runWords` runs a program on tagged words over the global store, with every clone, temporary, drop and
unwinding that the code performs; `runValues` runs the same program on plain values. The theorems
start with the empty store and no variables, take any program with at most `n ≤ 2^60` variables alive at
a time, and let it catch every panic.
-/

namespace Verif

open BInt Intern BigWord

namespace BigOwn

/-- The number of variables that hold a `BigInt` stored in slot `i`. -/
def holders (ws : List (Option Nat)) (i : Nat) : Nat :=
  (ws.filterMap id).countP fun w => !BigWord.inline (tag w) && decide (offset w = i)

theorem refcount_at {st : IntStore} {i n : Nat} (h : Intern.refcount st i = .ok n) :
    ∃ s, at_ st i = some s ∧ s.refs = n := by
  unfold Intern.refcount at h
  rw [slot_eq] at h
  cases hs : at_ st i with
  | none => rw [hs] at h; simp [Res.ofOption, Res.bind] at h
  | some s => rw [hs] at h; exact ⟨s, rfl, by simpa [Res.ofOption, Res.bind] using h⟩

theorem reads_nil (st : IntStore) : Reads st [] [] := ⟨rfl, fun i o o' h => by simp at h⟩

/-- C174: sharing, temporaries and reference counts never show. A program gets from every call what
it would get if each `BigInt` held its number itself — result, refusal or panic — and at the end the
same variables are alive, and stand for the same numbers. -/
theorem C174_results (m : Mode) (n : Nat) (hn : n ≤ 2 ^ 60) (prog : List Call)
    (hlive : AtMost m n prog []) :
    match runWords m prog Intern.new [], runValues m prog [] with
    | none, none => True
    | some (out, st, ws), some (out', xs) => out = out' ∧ ws.length = xs.length ∧
        ∀ k : Nat, match ws[k]?.join, xs[k]?.join with
          | some w, some x => BigWord.view st w = .ok x
          | none, none => True
          | _, _ => False
    | _, _ => False := by
  rcases run_sim m (N := n + 9) (by omega) prog (reads_nil Intern.new) (own_new (by omega)) hlive with
    ⟨e1, e2⟩ | ⟨out, st, ws, xs, e1, e2, h1, h2⟩
  · rw [e1, e2]; trivial
  · rw [e1, e2]
    refine ⟨rfl, h1.1, fun k => ?_⟩
    rcases h1.var k with ⟨a1, a2⟩ | ⟨a, x, a1, a2, a3, _⟩
    · unfold BigOwn.var at a1 a2
      rw [a1, a2]; trivial
    · unfold BigOwn.var at a1 a2
      rw [a1, a2]; exact a3

/-- C174: after any program, wherever calls in it have panicked, the reference count of every slot of
the store is the number of variables that use it: what the calls made on the way is released, and
nothing else. -/
theorem C174_counts (m : Mode) (n : Nat) (hn : n ≤ 2 ^ 60) (prog : List Call)
    (hlive : AtMost m n prog [])
    (out : List (Option Shown)) (st : IntStore) (ws : List (Option Nat))
    (h : runWords m prog Intern.new [] = some (out, st, ws)) (i c : Nat)
    (hi : Intern.refcount st i = .ok c) : c = holders ws i := by
  rcases run_sim m (N := n + 9) (by omega) prog (reads_nil Intern.new) (own_new (by omega)) hlive with
    ⟨e1, e2⟩ | ⟨out', st', ws', xs, e1, e2, h1, h2⟩
  · rw [e1] at h; cases h
  · rw [e1] at h
    simp only [Option.some.injEq, Prod.mk.injEq] at h
    obtain ⟨rfl, rfl, rfl⟩ := h
    obtain ⟨s, hs, rfl⟩ := refcount_at hi
    exact h2.count i s hs

/-- C174: when all its `BigInt`s are gone, a program has left nothing behind. -/
theorem C174_nothing_left (m : Mode) (n : Nat) (hn : n ≤ 2 ^ 60) (prog : List Call)
    (hlive : AtMost m n prog [])
    (out : List (Option Shown)) (st : IntStore) (ws : List (Option Nat))
    (h : runWords m prog Intern.new [] = some (out, st, ws)) (hgone : ∀ o ∈ ws, o = none) (i c : Nat)
    (hi : Intern.refcount st i = .ok c) : c = 0 := by
  rw [C174_counts m n hn prog hlive out st ws h i c hi]
  have e : ws.filterMap id = [] := by
    rw [List.filterMap_eq_nil_iff]
    intro o ho
    rw [hgone o ho]; rfl
  unfold holders
  rw [e]; rfl

/-- C174: the store stays small: it has room for the `n` `BigInt`s of the program, nine temporaries and
one chunk, however many numbers the calls have made on the way — a `BigInt` may be printed or raised
to a power any number of times. -/
theorem C174_slots (m : Mode) (n : Nat) (hn : n ≤ 2 ^ 60) (prog : List Call)
    (hlive : AtMost m n prog []) (out : List (Option Shown)) (st : IntStore)
    (ws : List (Option Nat)) (h : runWords m prog Intern.new [] = some (out, st, ws)) :
    32 * st.length ≤ n + 9 + 32 := by
  rcases run_sim m (N := n + 9) (by omega) prog (reads_nil Intern.new) (own_new (by omega)) hlive with
    ⟨e1, e2⟩ | ⟨out', st', ws', xs, e1, e2, h1, h2⟩
  · rw [e1] at h; cases h
  · rw [e1] at h
    simp only [Option.some.injEq, Prod.mk.injEq] at h
    obtain ⟨rfl, rfl, rfl⟩ := h
    obtain ⟨live, _, _, g3, _⟩ := h2
    exact g3

theorem after_length {α : Type} (c : Call) (ws : List (Option α)) (r : Option α) :
    (c.after ws r).length ≤ ws.length + 1 := by
  unfold Call.after
  have := left_length c ws
  cases r with
  | none => simp only; omega
  | some w =>
    simp only
    split
    · rw [List.length_set]; omega
    · rw [List.length_append]; simp; omega

/-- The hypothesis of the theorems holds for every program of at most `n` calls. -/
theorem atMost_length (m : Mode) (n : Nat) (prog : List Call) (hp : prog.length ≤ n) :
    AtMost m n prog [] := by
  have key : ∀ (p : List Call) (xs : List (Option BInt)) out xs',
      runValues m p xs = some (out, xs') → xs'.length ≤ xs.length + p.length := by
    intro p
    induction p with
    | nil =>
      intro xs out xs' h
      simp only [runValues, Option.some.injEq, Prod.mk.injEq] at h
      rw [← h.2]; simp
    | cons c cs ih =>
      intro xs out xs' h
      unfold runValues at h
      cases hg : c.runValue m xs with
      | none => rw [hg] at h; cases h
      | some g =>
        rw [hg] at h
        simp only [Option.bind_some] at h
        cases g with
        | ok r =>
          obtain ⟨⟨o, x⟩, h1, h2⟩ := Option.map_eq_some_iff.mp h
          have := ih _ _ _ h1
          have := after_length c xs r.1
          simp only [Prod.mk.injEq] at h2
          rw [List.length_cons, ← h2.2]
          omega
        | panic =>
          obtain ⟨⟨o, x⟩, h1, h2⟩ := Option.map_eq_some_iff.mp h
          have := ih _ _ _ h1
          rw [left_length] at this
          simp only [Prod.mk.injEq] at h2
          rw [List.length_cons, ← h2.2]
          omega
        | hang => cases h
  intro p hpre out xs' h
  have h1 := key p [] out xs' h
  have h2 := hpre.length_le
  have h3 : xs'.countP Option.isSome ≤ xs'.length := List.countP_le_length
  simp only [List.length_nil] at h1
  omega

/-- A program: `a = u64::MAX`, `b = 3`, `c = a.pow(b)`, `c + &c`, a shift by `-1` of a clone of `c`,
which panics, a conversion to `i8` by value, `c += 1`, `c` printed in base 16, a refused string. -/
def demo : List Call :=
  [.ofPrim (.u 64 (BitVec.allOnes 64)), .ofPrim (.s 8 3), .pow 5 0 1, .op .add false false 2 2,
   .clone 2, .opPrim .shl 4 (.s 8 (-1)), .tryS 7 true 3, .assignPrim .add 2 (.u 8 1),
   .format 60 16 ['0', 'x'] lowerHexChars 2, .parse ['9', '9', 'x'] 10]

example (m : Mode) : AtMost m 10 demo [] := atMost_length m 10 demo (by decide)

/-- It ends with one variable, `c`, which is in the store once; slots used on the way are free. -/
example : (runWords .debug demo Intern.new []).map (fun x =>
    (x.1.map Option.isSome, x.2.2, x.2.1.map fun c => c.map Slot.refs))
    = some ([true, true, true, true, true, false, true, true, true, true],
        [none, none, some 0, none, none],
        [[1, 0, 0, 0, 0, 0, 0, 0, 0, 0, 0, 0, 0, 0, 0, 0, 0, 0, 0, 0, 0, 0, 0, 0, 0, 0, 0, 0, 0, 0, 0,
          0]]) := by
  decide +kernel

end BigOwn

end Verif
