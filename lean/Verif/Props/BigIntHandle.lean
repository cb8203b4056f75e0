import Verif.Lemmas.BigIntWorld
import Verif.Lemmas.BigIntOps
import Verif.Lemmas.BigIntText
import Verif.Lemmas.BigIntSigned

/-!
# C55 and the word-level part of C46: `BigInt` words over the interner

`World` and `WStep` (`Lemmas/BigIntWorld.lean`) are programs working on any number of `BigInt`s.
`view st a` is the number read from the word `a`; the theorems on `BInt` of `Props/BigInt.lean` apply
to it through `C55_ops`.
-/

namespace Verif

open BInt Intern BigWord

/-- Every step keeps the invariant and the reading of all words that stay alive. -/
theorem step_inv {m : Mode} {x y : World} (hx : WInv x) (h : WStep m x y) :
    WInv y ∧ ∀ k a : Nat, x.live[k]? = some (some a) → y.live[k]? = some (some a) →
      view y.store a = view x.store a := by
  cases h with
  | make s neg st w hb h =>
    obtain ⟨h1, h2, _⟩ := make_inv hx hb h
    exact ⟨h1, fun k a hk _ => h2 k a hk⟩
  | op f j k a b st w hb hj hk h =>
    unfold BigWord.binop at h
    obtain ⟨_, x1, e1, _⟩ := hx.words a (List.mem_of_getElem? hj)
    obtain ⟨_, y1, e2, _⟩ := hx.words b (List.mem_of_getElem? hk)
    rw [e1, e2] at h
    simp only [Res.bind] at h
    cases hf : f x1 y1 with
    | ok r =>
      rw [hf] at h
      obtain ⟨h1, h2, _⟩ := make_inv hx hb h
      exact ⟨h1, fun k a hk _ => h2 k a hk⟩
    | panic => rw [hf] at h; cases h
    | hang => rw [hf] at h; cases h
  | clone k a st w hb hk h =>
    obtain ⟨_, h1, h2⟩ := clone_inv hx hb hk h
    exact ⟨h1, fun k a hk _ => h2 k a hk⟩
  | drop k a st hk h =>
    obtain ⟨h1, h2⟩ := drop_inv m hx hk h
    exact ⟨h1, fun k a _ hk => h2 k a hk⟩
  | neg k a hk =>
    refine ⟨⟨?_, ?_⟩, fun _ _ _ _ => rfl⟩
    · dsimp only
      rw [refsOf_neg _ hk]
      exact hx.client
    · intro c hc
      obtain ⟨j, hj⟩ := List.mem_iff_getElem?.mp hc
      dsimp only at hj
      rw [List.getElem?_set] at hj
      by_cases hjk : k = j
      · subst hjk
        rw [if_pos rfl, if_pos (List.getElem?_eq_some_iff.mp hk).1, Option.some.injEq,
          Option.some.injEq] at hj
        subst hj
        obtain ⟨h1, b, h2, h3⟩ := hx.words a (List.mem_of_getElem? hk)
        refine ⟨?_, _, view_invertNeg _ _ _ h2, h3⟩
        unfold invertNeg
        exact Nat.xor_lt_two_pow h1 (by norm_num)
      · rw [if_neg hjk] at hj
        exact hx.words c (List.mem_of_getElem? hj)

theorem reachable_winv {m : Mode} {x : World} (h : WReachable m x) : WInv x := by
  induction h with
  | start =>
    refine ⟨⟨[], ?_⟩, fun a ha => by simp at ha⟩
    have := reachable_inv (T := List (BitVec 64)) (Reachable.start (m := m) (n := 0))
    exact this
  | step _ h ih => exact (step_inv ih h).1

/-! ## C55 -/

/-- C55: in every reachable state, every live `BigInt` can be read, and reads as a well stored
number. -/
theorem C55_readable (m : Mode) (x : World) (hr : WReachable m x) (k a : Nat)
    (hk : x.live[k]? = some (some a)) : ∃ b, view x.store a = .ok b ∧ Rep b :=
  ((reachable_winv hr).words a (List.mem_of_getElem? hk)).2

/-- C55: whatever happens to other `BigInt`s, a live `BigInt` keeps reading as the same number. -/
theorem C55_stable (m : Mode) (x y : World) (hr : WReachable m x) (k a : Nat)
    (h : WKeeps m k a x y) : view y.store a = view x.store a := by
  have main : WInv y ∧ y.live[k]? = some (some a) ∧ view y.store a = view x.store a := by
    induction h with
    | refl h => exact ⟨reachable_winv hr, h, rfl⟩
    | step _ hs hz ih =>
      obtain ⟨h1, h2, h3⟩ := ih
      obtain ⟨g1, g2⟩ := step_inv h1 hs
      exact ⟨g1, hz, by rw [g2 k a h2 hz, h3]⟩
  exact main.2.2

/-- C55: `clone` does not panic, and the clone reads as the same number as the original, which does
not change. -/
theorem C55_clone (m : Mode) (x : World) (hr : WReachable m x)
    (hb : x.live.countP Option.isSome < 2 ^ 64 - 1) (k a : Nat)
    (hk : x.live[k]? = some (some a)) (b : BInt) (hv : view x.store a = .ok b) :
    ∃ st w, BigWord.clone m x.store a = .ok (st, w) ∧ view st w = .ok b ∧ view st a = .ok b := by
  have hx := reachable_winv hr
  have hok : ∃ st w, BigWord.clone m x.store a = .ok (st, w) := by
    unfold BigWord.clone
    by_cases hi : BigWord.inline (tag a) = true
    · rw [if_pos hi]; exact ⟨_, _, rfl⟩
    · rw [if_neg hi]
      have hi : BigWord.inline (tag a) = false := by simpa using hi
      obtain ⟨ids, hc⟩ := hx.client
      obtain ⟨s, v, h1, h2⟩ := hc.given _ (hc.owned _ (refsOf_pos hk hi))
      unfold Intern.incr
      rw [slot_eq, h1]
      simp only [Res.ofOption, Res.bind]
      unfold incrInner
      have := hc.bound (bound_of hb) _ _ h1
      rw [if_neg (by omega)]
      exact ⟨_, _, rfl⟩
  obtain ⟨st, w, h⟩ := hok
  obtain ⟨rfl, _, h2⟩ := clone_inv hx hb hk h
  exact ⟨st, w, h, by rw [h2 k w hk, hv], by rw [h2 k w hk, hv]⟩

/-- C55: dropping a live `BigInt` does not panic. -/
theorem C55_drop (m : Mode) (x : World) (hr : WReachable m x) (k a : Nat)
    (hk : x.live[k]? = some (some a)) : ∃ st, BigWord.drop x.store a = .ok st := by
  unfold BigWord.drop
  by_cases hi : BigWord.inline (tag a) = true
  · rw [if_pos hi]; exact ⟨_, rfl⟩
  · rw [if_neg hi]
    have hi : BigWord.inline (tag a) = false := by simpa using hi
    obtain ⟨ids, hc⟩ := (reachable_winv hr).client
    obtain ⟨s, v, h1, h2⟩ := hc.given _ (hc.owned _ (refsOf_pos hk hi))
    unfold Intern.decr
    rw [slot_eq, h1]
    exact ⟨_, rfl⟩

/-- C55: `-x` reads as the negated number, and changes no other `BigInt`. -/
theorem C55_neg (m : Mode) (x : World) (hr : WReachable m x) (k a : Nat)
    (hk : x.live[k]? = some (some a)) :
    ∃ b, view x.store a = .ok b ∧ ∃ b', view x.store (invertNeg a) = .ok b' ∧ ival b' = -ival b := by
  obtain ⟨b, h1, _⟩ := C55_readable m x hr k a hk
  refine ⟨b, h1, _, view_invertNeg _ _ _ h1, ?_⟩
  unfold ival BInt.neg'
  cases b.neg <;> simp <;> rfl

/-- C55: an operator on live `BigInt`s reads the numbers that they stand for, and the word that it
returns stands for the result computed from them; the operands do not change. It panics or hangs
only if the computation on the numbers does, as long as the store is small enough for an offset to
fit in a word. -/
theorem C55_ops (m : Mode) (f : BInt → BInt → Res (List (BitVec 64) × Bool)) (x : World)
    (hr : WReachable m x) (hb : x.live.countP Option.isSome < 2 ^ 64 - 1)
    (hsmall : 32 * x.store.length < 2 ^ 62) (j k a b : Nat)
    (hj : x.live[j]? = some (some a)) (hk : x.live[k]? = some (some b))
    (u v : BInt) (hu : view x.store a = .ok u) (hv : view x.store b = .ok v) :
    match BInt.finish (f u v) with
    | .ok r => ∃ st w, BigWord.binop f m x.store a b = .ok (st, w) ∧ view st w = .ok r ∧
        view st a = .ok u ∧ view st b = .ok v
    | .panic => BigWord.binop f m x.store a b = .panic
    | .hang => BigWord.binop f m x.store a b = .hang := by
  have hx := reachable_winv hr
  unfold BigWord.binop BInt.finish
  rw [hu, hv]
  simp only [Res.bind]
  cases hf : f u v with
  | panic => rfl
  | hang => rfl
  | ok r =>
    obtain ⟨s, neg⟩ := r
    simp only
    by_cases hs : s = []
    · subst hs
      have e1 : BInt.newSlice [] neg = .panic := by unfold BInt.newSlice; rw [shrink_nil]; rfl
      rw [e1]
      simp only
      unfold BigWord.newSlice; rw [shrink_nil]; rfl
    · obtain ⟨r, h1, h2, _⟩ := newSlice_spec s hs neg
      rw [h1]
      simp only
      have hok : ∃ st w, BigWord.newSlice m x.store s neg = .ok (st, w) := by
        obtain ⟨t, t1, _⟩ := shrink_ok s hs
        unfold BigWord.newSlice
        rw [t1]
        simp only [Res.bind]
        by_cases hc : t.length = 1 ∧ (t.getD 0 0).toNat ≤ inlineMax
        · rw [if_pos hc]
          unfold BigWord.newInline BigWord.new
          rw [if_pos hc.2]
          exact ⟨_, _, rfl⟩
        · rw [if_neg hc]
          obtain ⟨ids, hcl⟩ := hx.client
          obtain ⟨st', id, g1, _, g2⟩ := add_spec hcl.wf m t (hcl.bound (bound_of hb))
          have hid : id ≤ inlineMax := by
            rw [inlineMax_eq]
            rcases g2 with ⟨s', g3, _⟩ | ⟨g3, _⟩
            · have := (at_isSome hcl.wf id).mp ⟨s', g3⟩
              dsimp only at this; omega
            · dsimp only at g3; omega
          unfold BigWord.newIntern BigWord.new
          rw [g1]
          simp only [Res.bind]
          rw [if_pos hid]
          exact ⟨_, _, rfl⟩
      obtain ⟨st, w, h⟩ := hok
      obtain ⟨_, g2, r', g3, g4⟩ := make_inv hx hb h
      rw [h1, Res.ok.injEq] at g3
      subst g3
      exact ⟨st, w, h, g4, by rw [g2 j a hj, hu], by rw [g2 k b hk, hv]⟩

/-! ## C46, C47 on words -/

/-- `==` on words, in any store that counts the live words. -/
theorem eq_words {x : World} (hx : WInv x) {a b : Nat} (hj : some a ∈ x.live) (hk : some b ∈ x.live)
    {u v : BInt} (hu : view x.store a = .ok u) (hv : view x.store b = .ok v) :
    ∃ r, BigWord.eq x.store a b = .ok r ∧ (r = true ↔ u = v) := by
  obtain ⟨ha, u', hu', hru⟩ := hx.words a hj
  obtain ⟨hb, v', hv', hrv⟩ := hx.words b hk
  rw [hu, Res.ok.injEq] at hu'
  rw [hv, Res.ok.injEq] at hv'
  subst hu' hv'
  have hneg : ∀ (c : Nat) (y : BInt), view x.store c = .ok y → y.neg = negative (tag c) ∧
      BigWord.mag x.store c = .ok y.mag := by
    intro c y hy
    unfold view at hy
    cases hm : BigWord.mag x.store c with
    | ok z => rw [hm] at hy; simp only [Res.bind, Res.ok.injEq] at hy; subst hy; exact ⟨rfl, rfl⟩
    | panic => rw [hm] at hy; cases hy
    | hang => rw [hm] at hy; cases hy
  obtain ⟨nu, mu⟩ := hneg a u hu
  obtain ⟨nv, mv⟩ := hneg b v hv
  unfold BigWord.eq
  by_cases hab : a = b
  · subst hab
    rw [if_pos rfl]
    rw [hu, Res.ok.injEq] at hv
    exact ⟨true, rfl, by simp [hv]⟩
  · rw [if_neg hab]
    by_cases hc : tag a = tag b ∧ ¬ BigWord.inline (tag a) = true
    · rw [if_pos hc, mu, mv]
      simp only [Res.bind]
      refine ⟨_, rfl, ?_⟩
      rw [decide_eq_true_eq]
      show u.limbs = v.limbs ↔ u = v
      constructor
      · intro h
        exact Rep.ext hru hrv (by rw [nu, nv, hc.1]) (by rw [h])
      · intro h; rw [h]
    · rw [if_neg hc]
      refine ⟨false, rfl, ?_⟩
      simp only [Bool.false_eq_true, false_iff]
      intro huv
      subst huv
      apply hab
      have hmag : BigWord.inline (tag a) = BigWord.inline (tag b) := by
        unfold BigWord.mag at mu mv
        cases h1 : BigWord.inline (tag a) <;> cases h2 : BigWord.inline (tag b) <;>
          rw [h1] at mu <;> rw [h2] at mv <;>
          simp only [Bool.false_eq_true, if_false, if_true] at mu mv
        · exfalso
          rw [Res.ok.injEq] at mv
          rw [← mv] at mu
          cases hg : Intern.get x.store (offset a) <;> rw [hg] at mu <;> simp [Res.bind] at mu
        · exfalso
          rw [Res.ok.injEq] at mu
          rw [← mu] at mv
          cases hg : Intern.get x.store (offset b) <;> rw [hg] at mv <;> simp [Res.bind] at mv
      have htag : tag a = tag b := tag_eq hmag (by rw [← nu, ← nv])
      apply word_eq _ htag
      have hin : BigWord.inline (tag a) = true := by
        by_contra hni
        exact hc ⟨htag, hni⟩
      unfold BigWord.mag at mu mv
      rw [if_pos hin, Res.ok.injEq] at mu
      rw [if_pos (hmag ▸ hin), Res.ok.injEq, ← mu, Mag.inline.injEq] at mv
      have := congrArg BitVec.toNat mv
      rw [BitVec.toNat_ofNat, BitVec.toNat_ofNat] at this
      have h1 : offset a < 2 ^ 64 := lt_of_le_of_lt (Nat.div_le_self _ _) ha
      have h2 : offset b < 2 ^ 64 := lt_of_le_of_lt (Nat.div_le_self _ _) hb
      rw [Nat.mod_eq_of_lt h1, Nat.mod_eq_of_lt h2] at this
      exact this.symm

/-- C46: `==` on words is the equality of the numbers that they stand for (`BInt.eq`, see
`C46_eq_partial`), whether they are stored inline, in the same slot or in different slots. -/
theorem C46_eq_words_partial (m : Mode) (x : World) (hr : WReachable m x) (j k a b : Nat)
    (hj : x.live[j]? = some (some a)) (hk : x.live[k]? = some (some b))
    (u v : BInt) (hu : view x.store a = .ok u) (hv : view x.store b = .ok v) :
    ∃ r, BigWord.eq x.store a b = .ok r ∧ (r = true ↔ u.neg = v.neg ∧
      (ival u).natAbs = (ival v).natAbs) := by
  have hx := reachable_winv hr
  obtain ⟨ha, u', hu', hru⟩ := hx.words a (List.mem_of_getElem? hj)
  obtain ⟨hb, v', hv', hrv⟩ := hx.words b (List.mem_of_getElem? hk)
  rw [hu, Res.ok.injEq] at hu'
  rw [hv, Res.ok.injEq] at hv'
  subst hu' hv'
  rw [natAbs_ival, natAbs_ival]
  have hext : u.neg = v.neg ∧ val u.limbs = val v.limbs ↔ u = v :=
    ⟨fun h => Rep.ext hru hrv h.1 h.2, fun h => by rw [h]; exact ⟨rfl, rfl⟩⟩
  rw [hext]
  exact eq_words hx (List.mem_of_getElem? hj) (List.mem_of_getElem? hk) hu hv

/-- C47: ordering on words is the ordering `BInt.cmp` of the numbers that they stand for (see
`C47_cmp_partial`). -/
theorem C47_cmp_words_partial (x : World) (a b : Nat) (u v : BInt) (hu : view x.store a = .ok u) (hv : view x.store b = .ok v) :
    BigWord.cmp x.store a b = .ok (BInt.cmp u v) := by
  have hneg : ∀ (c : Nat) (y : BInt), view x.store c = .ok y → y.neg = negative (tag c) ∧
      BigWord.mag x.store c = .ok y.mag := by
    intro c y hy
    unfold view at hy
    cases hm : BigWord.mag x.store c with
    | ok z => rw [hm] at hy; simp only [Res.bind, Res.ok.injEq] at hy; subst hy; exact ⟨rfl, rfl⟩
    | panic => rw [hm] at hy; cases hy
    | hang => rw [hm] at hy; cases hy
  obtain ⟨nu, mu⟩ := hneg a u hu
  obtain ⟨nv, mv⟩ := hneg b v hv
  unfold BigWord.cmp
  by_cases hab : a = b
  · subst hab
    rw [if_pos rfl]
    rw [hu, Res.ok.injEq] at hv
    subst hv
    rw [cmp_eq_self]
  · rw [if_neg hab, mu, mv, ← nu, ← nv]
    simp only [Res.bind]
    obtain ⟨n1, m1⟩ := u
    obtain ⟨n2, m2⟩ := v
    unfold BInt.cmp BInt.isNegative BInt.isPositive
    by_cases huv : (⟨n1, m1⟩ : BInt) = ⟨n2, m2⟩
    · cases huv
      rw [if_pos rfl]
      have hz := (zipCmp_eq (BInt.limbs ⟨false, m1⟩) _ rfl).mpr rfl
      cases n1 <;> simp [hz]
    · rw [if_neg huv]
      cases n1 <;> cases n2 <;> simp [BInt.limbs]
      rfl

/-! ## Non-trivial cases -/

section Examples

def e64 : List (BitVec 64) := [0, 1]
def e65 : List (BitVec 64) := [0, 2]

/- Two large numbers, the first dropped, then the second created again: it lands in the freed slot
0 while it also lives in slot 1, so equal values sit in different slots; they still compare equal,
and the untouched one reads as before. -/
def exGet (r : Res (IntStore × Nat)) : IntStore × Nat :=
  match r with
  | .ok p => p
  | _ => ([], 0)
def ex1 := exGet (BigWord.newSlice .debug Intern.new e64 false)
def ex2 := exGet (BigWord.newSlice .debug ex1.1 e65 false)
def ex3 : IntStore := match BigWord.drop ex2.1 0 with | .ok s => s | _ => []
def ex4 := exGet (BigWord.newSlice .debug ex3 e65 false)
def exWorld : World := ⟨ex4.1, [none, some ex2.2, some ex4.2]⟩

theorem exWorld_reachable : WReachable .debug exWorld := by
  have r1 : WReachable .debug ⟨ex1.1, [some ex1.2]⟩ :=
    .step .start (.make ⟨Intern.new, []⟩ e64 false ex1.1 ex1.2 (by decide) (by decide +kernel))
  have r2 : WReachable .debug ⟨ex2.1, [some ex1.2, some ex2.2]⟩ :=
    .step r1 (.make _ e65 false ex2.1 ex2.2 (by decide) (by decide +kernel))
  have r3 : WReachable .debug ⟨ex3, [none, some ex2.2]⟩ :=
    .step r2 (.drop _ 0 ex1.2 ex3 rfl (by decide +kernel))
  exact .step r3 (.make _ e65 false ex4.1 ex4.2 (by decide) (by decide +kernel))

example : exWorld.live = [none, some 4, some 0] := by decide +kernel
example : BigWord.eq exWorld.store 4 0 = .ok true := by decide +kernel
example : view exWorld.store 4 = .ok ⟨false, .slice e65⟩ := by decide +kernel
example : view exWorld.store 0 = .ok ⟨false, .slice e65⟩ := by decide +kernel
example : exWorld.live.countP Option.isSome < 2 ^ 64 - 1 ∧ 32 * exWorld.store.length < 2 ^ 62 := by
  decide +kernel
example : (match BigWord.binop BInt.addRaw .debug exWorld.store 4 0 with
    | .ok (st, w) => view st w
    | _ => .panic) = .ok ⟨false, .slice [0, 4]⟩ := by decide +kernel
example : (match BigWord.clone .debug exWorld.store 4 with
    | .ok (st, w) => view st w
    | _ => .panic) = .ok ⟨false, .slice e65⟩ := by decide +kernel

end Examples

end Verif
