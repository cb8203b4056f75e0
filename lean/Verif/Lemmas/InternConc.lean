import Verif.Lemmas.Intern
import Verif.Model.InternConc

/-!
# Lemmas on concurrent `add`: one writer among readers
-/

set_option linter.unusedSectionVars false

namespace Verif

open Intern

variable {T : Type} [DecidableEq T]

theorem incrAt_ok {m : Mode} {st : Store T} {i : Nat} {s : Slot T} (hs : at_ st i = some s)
    (hb : s.refs < usizeSize - 1) (next : APC T) :
    incrAt m st i next = (setSlot st (offsetToIdx i) { s with refs := s.refs + 1 }, next) := by
  unfold incrAt incr
  rw [slot_eq, hs]
  simp only [Res.ofOption, Res.bind, incrInner]
  rw [if_neg (by omega)]

theorem incr_ok {m : Mode} {st : Store T} {i : Nat} {s : Slot T} (hs : at_ st i = some s)
    (hb : s.refs < usizeSize - 1) :
    incr m st i = .ok (setSlot st (offsetToIdx i) { s with refs := s.refs + 1 }) := by
  unfold incr
  rw [slot_eq, hs]
  simp only [Res.ofOption, Res.bind, incrInner]
  rw [if_neg (by omega)]

theorem decr_ok {st : Store T} {i : Nat} {s : Slot T} (hs : at_ st i = some s) :
    decr st i = .ok (setSlot st (offsetToIdx i) { s with refs := s.refs - 1 }) := by
  unfold decr
  rw [slot_eq, hs]
  rfl

theorem decrAt_ok {st : Store T} {i : Nat} {s : Slot T} (hs : at_ st i = some s) (next : APC T) :
    decrAt st i next = (setSlot st (offsetToIdx i) { s with refs := s.refs - 1 }, next) := by
  unfold decrAt
  rw [decr_ok hs]

theorem setAt_ok {st : Store T} {i : Nat} {s : Slot T} (hs : at_ st i = some s) (v : T)
    (next : APC T) :
    setAt st i v next = (setSlot st (offsetToIdx i) { s with val := some v }, next) := by
  unfold setAt
  rw [slot_eq, hs]
  rfl

theorem setSlot_setSlot (st : Store T) (loc : Nat × Nat) (s s' : Slot T) :
    setSlot (setSlot st loc s) loc s' = setSlot st loc s' := by
  unfold setSlot
  rw [List.modify_modify_eq]
  congr 1
  funext c
  simp

theorem store_ext {a b : Store T} (ha : WF a) (hb : WF b) (hl : a.length = b.length)
    (h : ∀ i, at_ a i = at_ b i) : a = b := by
  apply List.ext_getElem hl
  intro i h1 h2
  have wa := ha _ (List.getElem_mem h1)
  have wb := hb _ (List.getElem_mem h2)
  apply List.ext_getElem (wa.trans wb.symm)
  intro j g1 g2
  have := h (32 * i + j)
  unfold at_ at this
  rw [show (32 * i + j) / 32 = i by omega, show (32 * i + j) % 32 = j by omega,
    List.getElem?_eq_getElem h1, List.getElem?_eq_getElem h2] at this
  simp only [Option.bind_some] at this
  rw [List.getElem?_eq_getElem g1, List.getElem?_eq_getElem g2] at this
  exact Option.some.inj this

theorem setSlot_comm {st : Store T} (h : WF st) {i j : Nat} (hij : i ≠ j) (s s' : Slot T)
    (hi : ∃ x, at_ st i = some x) (hj : ∃ x, at_ st j = some x) :
    setSlot (setSlot st (offsetToIdx i) s) (offsetToIdx j) s' =
      setSlot (setSlot st (offsetToIdx j) s') (offsetToIdx i) s := by
  have w1 := wf_setSlot h (offsetToIdx i) s
  have w2 := wf_setSlot h (offsetToIdx j) s'
  have w3 := wf_setSlot w1.1 (offsetToIdx j) s'
  have w4 := wf_setSlot w2.1 (offsetToIdx i) s
  refine store_ext w3.1 w4.1 (by rw [w3.2, w4.2, w1.2, w2.2]) fun k => ?_
  have e1 : ∃ x, at_ (setSlot st (offsetToIdx i) s) j = some x := by
    rw [at_setSlot _ _ _ hi, if_neg (Ne.symm hij)]; exact hj
  have e2 : ∃ x, at_ (setSlot st (offsetToIdx j) s') i = some x := by
    rw [at_setSlot _ _ _ hj, if_neg hij]; exact hi
  rw [at_setSlot _ _ _ e1, at_setSlot _ _ _ e2, at_setSlot _ _ _ hi, at_setSlot _ _ _ hj]
  by_cases h1 : k = j
  · rw [if_pos h1, if_neg (by omega), if_pos h1]
  · rw [if_neg h1, if_neg h1]

theorem setSlot_append {st : Store T} {i : Nat} (hi : ∃ x, at_ st i = some x) (h : WF st)
    (s : Slot T) :
    setSlot (st ++ [newChunk]) (offsetToIdx i) s = setSlot st (offsetToIdx i) s ++ [newChunk] := by
  have hlt := (at_isSome h i).mp hi
  unfold setSlot offsetToIdx
  dsimp only
  apply List.ext_getElem?
  intro k
  rw [List.getElem?_modify, List.getElem?_append, List.getElem?_append, List.length_modify,
    List.getElem?_modify]
  by_cases hk : k < st.length
  · rw [if_pos hk, if_pos hk]
  · rw [if_neg hk, if_neg hk]
    have hne : ¬ i / 32 = k := by omega
    simp only [hne, if_false]
    cases ([newChunk] : Store T)[k - st.length]? <;> rfl

theorem add_exists {m : Mode} {q : Store T} (hwf : WF q) {i : Nat} {x : Slot T} {v : T}
    (hx : at_ q i = some x) (hv : x.val = some v)
    (hs : ∀ j < i, ∀ y, at_ q j = some y → Skips v y) (hb : x.refs < usizeSize - 1) :
    add m q v = .ok (setSlot q (offsetToIdx i) { x with refs := x.refs + 1 }, i) := by
  rcases find_spec hwf v with ⟨_, h2⟩ | ⟨a, b, s, h1, h2, h3, h4⟩
  · exact absurd hv (h2 i x hx).1
  · have hi : a * 32 + b = i := by
      rcases Nat.lt_trichotomy (a * 32 + b) i with h | h | h
      · have := hs _ h s h2
        rcases h4 with ⟨h5, _⟩ | ⟨_, h5, _⟩
        · exact absurd h5 this.1
        · exact absurd h5 this.2
      · exact h
      · exact absurd hv (h3 i h x hx).1
    have hsx : s = x := by rw [hi, hx] at h2; exact (Option.some.inj h2).symm
    subst hsx
    have hloc : offsetToIdx i = (a, b) := by
      unfold offsetToIdx; congr 1 <;> omega
    rcases h4 with ⟨_, h6⟩ | ⟨h5, _⟩
    · unfold add
      rw [h6]
      dsimp only
      rw [slot_eq' _ _ _ h1, h2]
      simp only [Res.ofOption, Res.bind, incrInner]
      rw [if_neg (by omega), hloc, hi]
    · exact absurd hv h5

theorem add_dead {m : Mode} {q : Store T} (hwf : WF q) {i : Nat} {x : Slot T} {v : T}
    (hx : at_ q i = some x) (hv : x.val ≠ some v) (hr : x.refs = 0)
    (hs : ∀ j < i, ∀ y, at_ q j = some y → Skips v y) :
    add m q v = .ok (setSlot q (offsetToIdx i) ⟨1, some v⟩, i) := by
  rcases find_spec hwf v with ⟨_, h2⟩ | ⟨a, b, s, h1, h2, h3, h4⟩
  · exact absurd hr (h2 i x hx).2
  · have hi : a * 32 + b = i := by
      rcases Nat.lt_trichotomy (a * 32 + b) i with h | h | h
      · have := hs _ h s h2
        rcases h4 with ⟨h5, _⟩ | ⟨_, h5, _⟩
        · exact absurd h5 this.1
        · exact absurd h5 this.2
      · exact h
      · exact absurd hr (h3 i h x hx).2
    have hsx : s = x := by rw [hi, hx] at h2; exact (Option.some.inj h2).symm
    subst hsx
    have hloc : offsetToIdx i = (a, b) := by
      unfold offsetToIdx; congr 1 <;> omega
    rcases h4 with ⟨h5, _⟩ | ⟨_, _, h6⟩
    · exact absurd h5 hv
    · unfold add
      rw [h6]
      dsimp only
      rw [slot_eq' _ _ _ h1, h2]
      simp only [Res.ofOption, Res.bind, incrInner]
      rw [if_neg (by rw [hr]; decide), hloc, hi, hr]

theorem add_new {m : Mode} {q : Store T} (hwf : WF q) {v : T}
    (hs : ∀ j < 32 * q.length, ∀ y, at_ q j = some y → Skips v y) :
    add m q v = .ok (setSlot (q ++ [newChunk]) (offsetToIdx (q.length * 32)) ⟨1, some v⟩,
      q.length * 32) := by
  rcases find_spec hwf v with ⟨h1, _⟩ | ⟨a, b, s, h1, h2, h3, h4⟩
  · have hloc : offsetToIdx (q.length * 32) = (q.length, 0) := by
      unfold offsetToIdx; congr 1 <;> omega
    have hat : at_ (q ++ [newChunk]) (q.length * 32) = some newUninit := by
      rw [at_append, if_neg (by omega), if_pos (by omega)]
    have hslot : slot (q ++ [newChunk]) (q.length, 0) = .ok newUninit := by
      rw [← hloc, slot_eq, hat]; rfl
    unfold add
    rw [h1]
    simp only [List.length_append, List.length_singleton, Nat.add_sub_cancel]
    rw [hslot, hloc]
    rfl
  · have hlt := (at_isSome hwf _).mp ⟨s, h2⟩
    have := hs _ hlt s h2
    rcases h4 with ⟨h5, _⟩ | ⟨_, h5, _⟩
    · exact absurd h5 this.1
    · exact absurd h5 this.2

/-! ## The invariant -/

/-- No slot before `i` stops a search for `v`. -/
def Before (v : T) (i : Nat) (q : Store T) : Prop := ∀ j < i, ∀ y, at_ q j = some y → Skips v y

/-- What a reader knows: its value is in the prefix of length `k`, not before where it is looking. -/
def ReaderOk (st0 : Store T) (k : Nat) : APC T → Prop
  | .idle => True
  | .scan v i | .load v i => (∀ j < i, ∀ y, at_ st0 j = some y → y.val ≠ some v) ∧
      ∃ j y, i ≤ j ∧ j < k ∧ at_ st0 j = some y ∧ y.val = some v
  | .check v i count => 1 ≤ count ∧ (∀ j < i, ∀ y, at_ st0 j = some y → y.val ≠ some v) ∧
      ∃ j y, i ≤ j ∧ j < k ∧ at_ st0 j = some y ∧ y.val = some v
  | .incrExists v i => (∀ j < i, ∀ y, at_ st0 j = some y → y.val ≠ some v) ∧
      i < k ∧ ∃ y, at_ st0 i = some y ∧ y.val = some v
  | .done v i => i < k ∧ ∃ y, at_ st0 i = some y ∧ y.val = some v
  | _ => False

/-- What the writer knows about the store `q` of the sequential run, and how the shared store `st`
differs from it in the middle of claiming a slot. -/
def WriterOk (q st : Store T) : APC T → Prop
  | .idle | .done .. => st = q
  | .scan v i => st = q ∧ Before v i q
  | .load v i => st = q ∧ Before v i q ∧ i < 32 * q.length
  | .check v i c => st = q ∧ Before v i q ∧ ∃ x, at_ q i = some x ∧ (c = 0 ↔ x.refs = 0)
  | .incrExists v i => st = q ∧ Before v i q ∧ ∃ x, at_ q i = some x ∧ x.val = some v
  | .incrDead v i => st = q ∧ Before v i q ∧ ∃ x, at_ q i = some x ∧ x.val ≠ some v ∧ x.refs = 0
  | .setDead v i => Before v i q ∧ ∃ x, at_ q i = some x ∧ x.val ≠ some v ∧ x.refs = 0 ∧
      st = setSlot q (offsetToIdx i) ⟨1, x.val⟩
  | .pushChunk v => st = q ∧ Before v (32 * q.length) q
  | .incrNew v len => st = q ++ [newChunk] ∧ len = q.length + 1 ∧ Before v (32 * q.length) q
  | .setNew v len => st = setSlot (q ++ [newChunk]) (offsetToIdx (q.length * 32)) ⟨1, none⟩ ∧
      len = q.length + 1 ∧ Before v (32 * q.length) q
  | .panicked => False

/-- In all those cases the live slots are shared as they are. -/
theorem writer_at {q st : Store T} (hq : WF q) {pc : APC T} (h : WriterOk q st pc) {j : Nat}
    {y : Slot T} (hy : at_ q j = some y) (hr : y.refs ≠ 0) : at_ st j = some y := by
  have hlt := (at_isSome hq j).mp ⟨y, hy⟩
  have hap : at_ (q ++ [newChunk]) j = some y := by rw [at_append, if_pos hlt]; exact hy
  cases pc with
  | idle => rw [show st = q from h]; exact hy
  | done => rw [show st = q from h]; exact hy
  | scan => rw [h.1]; exact hy
  | load => rw [h.1]; exact hy
  | check => rw [h.1]; exact hy
  | incrExists => rw [h.1]; exact hy
  | incrDead => rw [h.1]; exact hy
  | pushChunk => rw [h.1]; exact hy
  | setDead v i =>
    obtain ⟨_, x, h1, _, h2, h3⟩ := h
    rw [h3, at_setSlot _ _ _ ⟨x, h1⟩, if_neg]
    · exact hy
    · rintro rfl
      rw [h1] at hy
      cases hy
      exact hr h2
  | incrNew => rw [h.1]; exact hap
  | setNew =>
    rw [h.1, at_setSlot _ _ _ ⟨newUninit, by rw [at_append, if_neg (by omega), if_pos (by omega)]⟩,
      if_neg (by omega)]
    exact hap
  | panicked => exact h.elim

theorem before_live {q : Store T} {v : T} {i j : Nat} {y : Slot T} (hy : at_ q j = some y)
    {r : Nat} (hr' : r ≠ 0) (h : Before v i q) :
    Before v i (setSlot q (offsetToIdx j) ⟨r, y.val⟩) := by
  intro k hk z hz
  rw [at_setSlot _ _ _ ⟨y, hy⟩] at hz
  by_cases hkj : k = j
  · rw [if_pos hkj] at hz
    cases hz
    subst hkj
    exact ⟨(h k hk y hy).1, hr'⟩
  · rw [if_neg hkj] at hz
    exact h k hk z hz

/-- Changing the count of a live slot, without killing it, does not disturb the writer. -/
theorem writer_live {q st : Store T} (hq : WF q) {pc : APC T} (h : WriterOk q st pc) {j : Nat}
    {y : Slot T} (hy : at_ q j = some y) (hr : y.refs ≠ 0) {r : Nat} (hr' : r ≠ 0) :
    WriterOk (setSlot q (offsetToIdx j) ⟨r, y.val⟩) (setSlot st (offsetToIdx j) ⟨r, y.val⟩) pc := by
  have hlt := (at_isSome hq j).mp ⟨y, hy⟩
  have hlen := (wf_setSlot hq (offsetToIdx j) ⟨r, y.val⟩).2
  have hbf : ∀ {v i}, Before v i q → Before v i (setSlot q (offsetToIdx j) ⟨r, y.val⟩) :=
    fun h => before_live hy hr' h
  have hat := fun k => at_setSlot (st := q) j k ⟨r, y.val⟩ ⟨y, hy⟩
  cases pc with
  | idle => exact congrArg (fun s => setSlot s _ _) (show st = q from h)
  | done => exact congrArg (fun s => setSlot s _ _) (show st = q from h)
  | scan => exact ⟨by rw [h.1], hbf h.2⟩
  | load => exact ⟨by rw [h.1], hbf h.2.1, by rw [hlen]; exact h.2.2⟩
  | check v i c =>
    obtain ⟨h1, h2, x, h3, h4⟩ := h
    refine ⟨by rw [h1], hbf h2, ?_⟩
    rw [hat]
    by_cases hij : i = j
    · subst hij
      rw [if_pos rfl]
      rw [hy] at h3
      cases h3
      exact ⟨_, rfl, by simp only [hr', iff_false]; simpa [hr] using h4⟩
    · rw [if_neg hij]; exact ⟨x, h3, h4⟩
  | incrExists v i =>
    obtain ⟨h1, h2, x, h3, h4⟩ := h
    refine ⟨by rw [h1], hbf h2, ?_⟩
    rw [hat]
    by_cases hij : i = j
    · subst hij
      rw [if_pos rfl]
      rw [hy] at h3
      cases h3
      exact ⟨_, rfl, h4⟩
    · rw [if_neg hij]; exact ⟨x, h3, h4⟩
  | incrDead v i =>
    obtain ⟨h1, h2, x, h3, h4, h5⟩ := h
    refine ⟨by rw [h1], hbf h2, x, ?_, h4, h5⟩
    rw [hat, if_neg]
    · exact h3
    · rintro rfl
      rw [hy] at h3
      cases h3
      exact hr h5
  | setDead v i =>
    obtain ⟨h2, x, h3, h4, h5, h6⟩ := h
    have hij : i ≠ j := by
      rintro rfl
      rw [hy] at h3
      cases h3
      exact hr h5
    refine ⟨hbf h2, x, ?_, h4, h5, ?_⟩
    · rw [hat, if_neg hij]; exact h3
    · rw [h6, setSlot_comm hq hij _ _ ⟨x, h3⟩ ⟨y, hy⟩]
  | pushChunk => exact ⟨by rw [h.1], by rw [hlen]; exact hbf h.2⟩
  | incrNew =>
    refine ⟨?_, by rw [hlen]; exact h.2.1, by rw [hlen]; exact hbf h.2.2⟩
    rw [h.1, setSlot_append ⟨y, hy⟩ hq]
  | setNew =>
    refine ⟨?_, by rw [hlen]; exact h.2.1, by rw [hlen]; exact hbf h.2.2⟩
    rw [h.1, hlen, ← setSlot_append ⟨y, hy⟩ hq]
    have e1 : at_ (q ++ [newChunk]) j = some y := by rw [at_append, if_pos hlt]; exact hy
    rw [setSlot_comm (wf_append hq) (by omega) _ _
      ⟨newUninit, by rw [at_append, if_neg (by omega), if_pos (by omega)]⟩ ⟨y, e1⟩]
  | panicked => exact h.elim

theorem gained_append (i : Nat) (l : List (Ev T)) (e : Ev T) :
    gained i (l ++ [e]) = gained i l + (match e with
      | .add _ id => if id = i then 1 else 0
      | .incr id => if id = i then 1 else 0
      | .decr _ => 0) := by
  unfold gained
  rw [List.countP_append]
  congr 1
  cases e <;> simp [List.countP_cons]

theorem lost_append (i : Nat) (l : List (Ev T)) (e : Ev T) :
    lost i (l ++ [e]) = lost i l + (match e with
      | .decr id => if id = i then 1 else 0
      | _ => 0) := by
  unfold lost
  rw [List.countP_append]
  congr 1
  cases e <;> simp [List.countP_cons]

end Verif
