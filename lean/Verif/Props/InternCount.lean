import Verif.Props.Intern
import Verif.Model.InternCount

/-!
# Too many references to one value, on any target (C161)
-/

set_option linter.unusedSectionVars false

namespace Verif

open Intern

variable {T : Type} [DecidableEq T]

private theorem inner_eq (m : Mode) {w : Nat} (hw : w ≤ 64) {s : Slot T} (h : s.refs < 2 ^ w - 1) :
    incrInnerW m w s = incrInner m s := by
  have : 2 ^ w ≤ 2 ^ 64 := Nat.pow_le_pow_right (by decide) hw
  unfold incrInnerW incrInner usizeSize
  rw [if_neg (by omega), if_neg (by omega)]

/-- C161, the width of the counts: on a target where `usize` has `w` bits, as long as every count is below `2^w - 1`,
adding a value and asking for a reference do what they do with 64 bits, so that what is proved about these (C56 to C59,
C124, C161) holds there too. -/
theorem C161_width_partial (m : Mode) (w : Nat) (h1 : 1 < w) (hw : w ≤ 64) (st : Store T)
    (hb : ∀ loc s, slot st loc = .ok s → s.refs < 2 ^ w - 1) :
    (∀ v, addW m w st v = add m st v) ∧ ∀ i, incrW m w st i = Intern.incr m st i := by
  have at_loc : ∀ (loc : Nat × Nat) (k : Slot T → Res (Store T × Nat)),
      ((slot st loc).bind fun s => (incrInnerW m w s).bind k) = (slot st loc).bind fun s => (incrInner m s).bind k := by
    intro loc k
    cases h : slot st loc with
    | ok s => simp only [Res.bind]; rw [inner_eq m hw (hb loc s h)]
    | panic => rfl
    | hang => rfl
  refine ⟨fun v => ?_, fun i => ?_⟩
  · unfold addW add
    cases find st v with
    | exists_ loc => exact at_loc loc _
    | dead loc => exact at_loc loc _
    | none =>
      have hn : slot (st ++ [(newChunk : List (Slot T))]) ((st ++ [(newChunk : List (Slot T))]).length - 1, 0) =
          .ok newUninit := by
        simp [slot, Res.ofOption, Res.bind, newChunk, chunkSize]
      dsimp only
      rw [hn]
      simp only [Res.bind]
      rw [inner_eq m hw]
      have : 2 ^ 1 < 2 ^ w := Nat.pow_lt_pow_right (by decide) h1
      simp only [newUninit]
      omega
  · unfold incrW Intern.incr
    cases h : slot st (offsetToIdx i) with
    | ok s => simp only [Res.bind]; rw [inner_eq m hw (hb _ s h)]
    | panic => rfl
    | hang => rfl

/-- An interner with one value, counted `k` times. -/
private def one (k : Nat) (v : T) : Store T := [⟨k, some v⟩ :: List.replicate 31 newUninit]

private theorem slot_one (k : Nat) (v : T) : slot (one k v) (offsetToIdx 0) = .ok ⟨k, some v⟩ := rfl

private theorem set_one (k k' : Nat) (v v' : T) :
    setSlot (one k v) (offsetToIdx 0) ⟨k', some v'⟩ = one k' v' := rfl

private theorem add_new (m : Mode) {w : Nat} (hw : 1 < w) (v : T) : addW m w Intern.new v = .ok (one 1 v, 0) := by
  have : 2 ^ 1 < 2 ^ w := Nat.pow_lt_pow_right (by decide) hw
  have hn : incrInnerW m w (newUninit : Slot T) = .ok ⟨1, none⟩ := by
    unfold incrInnerW newUninit
    rw [if_neg (by simp only; omega)]
  change ((Res.ok newUninit).bind fun s => (incrInnerW m w s).bind fun s =>
    .ok (setSlot [newChunk] (0, 0) { s with val := some v }, 0)) = _
  simp only [Res.bind, hn]
  rfl

private theorem get_one {k : Nat} (hk : 1 ≤ k) (v : T) : Intern.get (one k v) 0 = .ok v := by
  unfold Intern.get tryGet
  rw [slot_one]
  simp only [Res.bind]
  rw [if_neg (by omega)]
  rfl

private theorem incrs_one (m : Mode) {w : Nat} (v : T) (n : Nat) (hn : n < 2 ^ w - 1) :
    incrsW m w (one 1 v) 0 n = .ok (one (n + 1) v) := by
  induction n with
  | zero => rfl
  | succ n ih =>
    rw [incrsW, ih (by omega)]
    simp only [Res.bind]
    unfold incrW
    rw [slot_one]
    simp only [Res.bind, incrInnerW]
    rw [if_neg (by omega)]
    exact congrArg Res.ok (set_one _ _ v v)

/-- C161 fails with as many references as the counter of the target has values, so on a 32-bit target with `2^32`: after
a value was added, `2^w - 2` further references to it are counted, and it is kept; one more panics in debug builds and
succeeds in release builds, and in both the next value added takes its place, under the id all the references use. -/
theorem C161_width_violated (m : Mode) (w : Nat) (hw : 1 < w) (v v' : T) (hv : v ≠ v') :
    ∃ st0 st st1 st2 : Store T, addW m w Intern.new v = .ok (st0, 0) ∧
      incrsW m w st0 0 (2 ^ w - 2) = .ok st ∧ refcount st 0 = .ok (2 ^ w - 1) ∧ Intern.get st 0 = .ok v ∧
      incrW m w st 0 = (match m with | .debug => .panic | .release => .ok st1) ∧
      incrLeavesW w st 0 = .ok st1 ∧ tryGet st1 0 = .ok none ∧
      addW m w st1 v' = .ok (st2, 0) ∧ Intern.get st2 0 = .ok v' := by
  have h4 : 2 ^ 1 < 2 ^ w := Nat.pow_lt_pow_right (by decide) hw
  have hk : 2 ^ w - 2 + 1 = 2 ^ w - 1 := by omega
  refine ⟨one 1 v, one (2 ^ w - 1) v, one 0 v, one 1 v', add_new m hw v, ?_, rfl, get_one (by omega) v, ?_, ?_, rfl, ?_,
    get_one (Nat.le_refl 1) v'⟩
  · rw [incrs_one m v _ (by omega), hk]
  · unfold incrW
    rw [slot_one]
    simp only [Res.bind, incrInnerW, if_true]
    cases m <;> rfl
  · unfold incrLeavesW
    rw [slot_one]
    have : (2 ^ w - 1 + 1) % 2 ^ w = 0 := by rw [Nat.sub_add_cancel (by omega), Nat.mod_self]
    simp only [Res.bind, this]
    rfl
  · have hf : find (one 0 v) v' = .dead (0, 0) := by
      simp only [find, one, findChunks, findSlots]
      rw [if_neg (by simpa using hv)]
      rfl
    unfold addW
    rw [hf]
    have hs : slot (one 0 v) (0, 0) = .ok ⟨0, some v⟩ := rfl
    dsimp only
    rw [hs]
    simp only [Res.bind, incrInnerW]
    rw [if_neg (by omega)]
    rfl

/-- Counts of 16 bits: 65535 references to 5 and one more, and the id reads as 6. -/
example : ∃ st1 st2 : Store Nat, incrLeavesW 16 (one (2 ^ 16 - 1) 5) 0 = .ok st1 ∧ addW .release 16 st1 6 = .ok (st2, 0) ∧
    Intern.get st2 0 = .ok 6 := ⟨one 0 5, one 1 6, rfl, rfl, rfl⟩

/-- Two references to 5 are far below what 16 bits can count. -/
private theorem few : ∀ loc s, slot (one 2 5 : Store Nat) loc = .ok s → s.refs < 2 ^ 16 - 1 := by
  intro loc s h
  have key : ∀ c ∈ (one 2 5 : Store Nat), ∀ x ∈ c, x.refs < 2 ^ 16 - 1 := by
    simp [one, newUninit]
  unfold slot at h
  cases hc : (one 2 5 : Store Nat)[loc.1]? with
  | none => rw [hc] at h; cases h
  | some c =>
    rw [hc] at h
    simp only [Res.ofOption, Res.bind] at h
    cases hx : c[loc.2]? with
    | none => rw [hx] at h; cases h
    | some x =>
      rw [hx] at h
      obtain rfl : x = s := Res.ok.inj h
      exact key c (List.mem_of_getElem? hc) x (List.mem_of_getElem? hx)

example : addW .debug 16 (one 2 5) 5 = .ok (one 3 5, 0) ∧ addW .debug 16 (one 2 5) 5 = add .debug (one 2 5) 5 :=
  ⟨rfl, (C161_width_partial .debug 16 (by decide) (by decide) _ few).1 5⟩

/-! ## Whole histories -/

/-- One call where `usize` has `w` bits: as `Call`, with fewer than `2^w - 1` references to one id at a time. -/
inductive CallW (m : Mode) (w : Nat) : Client T → Client T → Prop
  | add (c : Client T) (v : T) (st' : Store T) (id : Nat)
      (hbound : ∀ i, c.refs i < 2 ^ w - 1) (h : addW m w c.store v = .ok (st', id)) :
      CallW m w c ⟨st', Function.update c.refs id (c.refs id + 1), id :: c.ids⟩
  | incr (c : Client T) (i : Nat) (st' : Store T) (hi : i ∈ c.ids)
      (hbound : c.refs i < 2 ^ w - 1) (h : incrW m w c.store i = .ok st') :
      CallW m w c ⟨st', Function.update c.refs i (c.refs i + 1), c.ids⟩
  | decr (c : Client T) (i : Nat) (st' : Store T) (hown : 1 ≤ c.refs i)
      (h : decr c.store i = .ok st') :
      CallW m w c ⟨st', Function.update c.refs i (c.refs i - 1), c.ids⟩

/-- The states reachable there from a new interner. -/
inductive ReachableW (m : Mode) (w n : Nat) : Client T → Prop
  | start : ReachableW m w n ⟨withCapacity n, fun _ => 0, []⟩
  | call {c c' : Client T} : ReachableW m w n c → CallW m w c c' → ReachableW m w n c'

/-- Sequences of calls there after each of which at least one reference to `id` is outstanding. -/
inductive HoldingW (m : Mode) (w id : Nat) : Client T → Client T → Prop
  | refl (c : Client T) : HoldingW m w id c c
  | call {a b c : Client T} : HoldingW m w id a b → CallW m w b c → 1 ≤ c.refs id → HoldingW m w id a c

private theorem slot_at {st : Store T} (h : WF st) {loc : Nat × Nat} {s : Slot T} (hs : slot st loc = .ok s) :
    at_ st (loc.1 * 32 + loc.2) = some s := by
  have h2 : loc.2 < 32 := by
    unfold slot at hs
    cases hc : st[loc.1]? with
    | none => rw [hc] at hs; cases hs
    | some c =>
      rw [hc] at hs
      simp only [Res.ofOption, Res.bind] at hs
      cases hx : c[loc.2]? with
      | none => rw [hx] at hs; cases hs
      | some x =>
        have := (List.getElem?_eq_some_iff.1 hx).1
        rwa [h c (List.mem_of_getElem? hc)] at this
  have e := slot_eq' st loc.1 loc.2 h2
  rw [show ((loc.1, loc.2) : Nat × Nat) = loc from rfl, hs] at e
  cases ha : at_ st (loc.1 * 32 + loc.2) with
  | none => rw [ha] at e; cases e
  | some x => rw [ha] at e; exact congrArg some (Res.ok.inj e).symm

private theorem call_of {m : Mode} {w : Nat} (h1 : 1 < w) (hw : w ≤ 64) {c c' : Client T} (hc : ClientInv c)
    (h : CallW m w c c') : Call m c c' := by
  have hp : 2 ^ w ≤ 2 ^ 64 := Nat.pow_le_pow_right (by decide) hw
  have hp1 : 2 ^ 1 < 2 ^ w := Nat.pow_lt_pow_right (by decide) h1
  cases h with
  | add v st' id hb h =>
    have := (C161_width_partial m w h1 hw c.store fun loc s hs => by
      rw [hc.count _ s (slot_at hc.wf hs)]; exact hb _).1 v
    exact .add c v st' id (fun i => by have := hb i; omega) (this ▸ h)
  | incr i st' hi hb h =>
    refine .incr c i st' hi (by omega) ?_
    rw [← h]
    unfold incrW Intern.incr
    cases hs : slot c.store (offsetToIdx i) with
    | ok s =>
      simp only [Res.bind]
      rw [inner_eq m hw]
      rw [slot_eq] at hs
      cases ha : at_ c.store i with
      | none => rw [ha] at hs; cases hs
      | some x =>
        rw [ha] at hs
        obtain rfl : x = s := Res.ok.inj hs
        rw [hc.count i x ha]; exact hb
    | panic => rfl
    | hang => rfl
  | decr i st' ho h => exact .decr c i st' ho h

private theorem reach_of {m : Mode} {w n : Nat} (h1 : 1 < w) (hw : w ≤ 64) {c : Client T}
    (h : ReachableW m w n c) : Reachable m n c := by
  induction h with
  | start => exact .start
  | call _ hc ih => exact .call ih (call_of h1 hw (reachable_inv ih) hc)

private theorem holding_of {m : Mode} {w id : Nat} (h1 : 1 < w) (hw : w ≤ 64) {c c' : Client T} (hc : ClientInv c)
    (h : HoldingW m w id c c') : ClientInv c' ∧ Holding m id c c' := by
  induction h with
  | refl => exact ⟨hc, .refl c⟩
  | call _ hs hp ih =>
    have := call_of h1 hw ih.1 hs
    exact ⟨(call_inv ih.1 this).1, .call ih.2 this hp⟩

/-- C161, whole histories on any target: as long as fewer than `2^w - 1` references to any one value exist at a time,
every id counts exactly the references to it that are outstanding, adding never fails, and the value added is what its
id returns as long as one reference is outstanding. -/
theorem C161_width_history_partial (m : Mode) (w n : Nat) (h1 : 1 < w) (hw : w ≤ 64) (c : Client T)
    (hr : ReachableW m w n c) :
    (∀ i ∈ c.ids, refcount c.store i = .ok (c.refs i)) ∧
    (∀ v, (∀ i, c.refs i < 2 ^ w - 1) → ∃ st' id, addW m w c.store v = .ok (st', id) ∧
      ∀ c', HoldingW m w id ⟨st', Function.update c.refs id (c.refs id + 1), id :: c.ids⟩ c' →
        Intern.get c'.store id = .ok v) := by
  have hinv := reachable_inv (reach_of h1 hw hr)
  refine ⟨fun i hi => ?_, fun v hi => ?_⟩
  · obtain ⟨s, v, g1, -⟩ := hinv.given i hi
    unfold refcount
    rw [slot_eq, g1]
    exact congrArg Res.ok (hinv.count i s g1)
  · have hp : 2 ^ w ≤ 2 ^ 64 := Nat.pow_le_pow_right (by decide) hw
    have hb : ∀ i, c.refs i < 2 ^ 64 - 1 := fun i => by have := hi i; omega
    obtain ⟨⟨st', id⟩, ha⟩ := (C56_no_panic m n c (reach_of h1 hw hr) hb).1 v
    have e := (C161_width_partial m w h1 hw c.store fun loc s hs => by
      rw [hinv.count _ s (slot_at hinv.wf hs)]; exact hi _).1 v
    refine ⟨st', id, e.trans ha, fun c' h => ?_⟩
    exact C56_get_returns_added m n c (reach_of h1 hw hr) v st' id hb ha c'
      (holding_of h1 hw (call_inv hinv (.add c v st' id hb ha)).1 h).2

/-- With 32 bits: a value added twice, released once and kept. -/
example : ∃ c : Client Nat, ReachableW .debug 32 0 c ∧ c.refs 0 = 1 ∧ Intern.get c.store 0 = .ok 5 := by
  refine ⟨⟨one 1 5, _, _⟩, .call (.call (.call .start (.add _ 5 (one 1 5) 0 (fun _ => by change 0 < _; decide) (by rfl)))
    (.incr _ 0 (one 2 5) (by simp) (by simp) (by rfl))) (.decr _ 0 (one 1 5) (by simp) (by rfl)), by simp, by rfl⟩

end Verif
