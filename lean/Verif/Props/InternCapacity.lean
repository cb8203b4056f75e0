import Verif.Model.InternCapacity
import Verif.Props.InternIds

/-!
# The capacity an interner is made with (C199)
-/

set_option linter.unusedSectionVars false

namespace Verif

open Intern

variable {T : Type} [DecidableEq T]

/-- The interner has room for `n` different values: one thread that adds values of which at most `n` are different, as
often as it likes (below `2^64` times), gets an id for each, without a further allocation. -/
def Intern.RoomFor (m : Mode) (n : Nat) (st : Store T) : Prop :=
  ∀ vs : List T, vs.length < 2 ^ 64 → (firsts vs).length ≤ n →
    ∃ st' ids, addAll m st vs = .ok (st', ids) ∧ st'.length = st.length

private theorem pushFresh_eq (st : Store T) (n : Nat) : pushFresh st n = st ++ List.replicate n newChunk := by
  induction n generalizing st with
  | zero => simp [pushFresh]
  | succ n ih =>
    rw [pushFresh, ih, List.append_assoc]
    rfl

private theorem pushFresh_new (n c : Nat) (h : n = (c + 31) / 32) :
    pushFresh (Intern.new : Store T) n = withCapacity c := by
  rw [pushFresh_eq, h]
  rfl

private theorem roomFor_withCapacity (m : Mode) (c : Nat) : RoomFor m c (withCapacity c : Store T) := by
  intro vs hb hn
  obtain ⟨st', e, _, hl⟩ := C198_alone_partial m c vs hb
  refine ⟨st', _, e, ?_⟩
  rw [hl]
  simp only [withCapacity, chunkSize, List.length_replicate]
  omega

private theorem pow_ge {w : Nat} (hw : 6 ≤ w) : 64 ≤ 2 ^ w ∧ 2 ^ w % 32 = 0 := by
  obtain ⟨k, rfl⟩ := Nat.exists_eq_add_of_le hw
  have : 0 < 2 ^ k := Nat.two_pow_pos k
  rw [Nat.pow_add]
  omega

private theorem at_exact (m : Mode) {w c : Nat} (hw : 6 ≤ w) (hc : c < 2 ^ w) :
    (withCapacityAt m w c : Res (Store T)) =
      if c < 2 ^ w - 32 then .ok (withCapacity c)
      else match m with
        | .debug => .panic
        | .release => if c = 2 ^ w - 32 then .ok (withCapacity c) else .ok Intern.new := by
  obtain ⟨h1, h2⟩ := pow_ge hw
  unfold withCapacityAt usizeAdd chunkSize
  by_cases hlt : c < 2 ^ w - 32
  · rw [if_pos (by omega), if_pos hlt]
    simp only [Res.bind]
    rw [if_neg (by omega), pushFresh_new _ c (by omega)]
  · rw [if_neg (by omega), if_neg hlt]
    cases m with
    | debug => rfl
    | release =>
      have hm : (c + 32) % 2 ^ w = c + 32 - 2 ^ w := by
        rw [Nat.mod_eq_sub_mod (by omega), Nat.mod_eq_of_lt (by omega)]
      simp only [Res.bind, hm]
      by_cases he : c = 2 ^ w - 32
      · rw [if_pos (by omega), if_pos he, pushFresh_new _ c (by omega)]
      · rw [if_neg (by omega), if_neg he]
        have : (c + 32 - 2 ^ w - 1) / 32 = 0 := by omega
        rw [this]
        rfl

/-- C199: what holds. On a target where `usize` has `w` bits, an interner made with a capacity below `2^w - 32` has room
for as many different values, and fewer than 32 slots more than asked for. (The claim is about every capacity.) -/
theorem C199_capacity_partial (m : Mode) (w c : Nat) (hw : 6 ≤ w) (hc : c < 2 ^ w - 32) :
    ∃ st : Store T, withCapacityAt m w c = .ok st ∧ RoomFor m c st ∧ 32 * st.length < c + 32 := by
  refine ⟨withCapacity c, by rw [at_exact m hw (by omega), if_pos hc], roomFor_withCapacity m c, ?_⟩
  simp only [withCapacity, chunkSize, List.length_replicate]
  omega

/-- C199 fails for greater capacities: above `2^w - 32`, `with_capacity` panics in debug builds, and in release builds
it makes an interner without a single slot. -/
theorem C199_capacity_violated (w c : Nat) (hw : 6 ≤ w) (h1 : 2 ^ w - 32 < c) (h2 : c < 2 ^ w) :
    (withCapacityAt .debug w c : Res (Store T)) = .panic ∧
      (withCapacityAt .release w c : Res (Store T)) = .ok Intern.new ∧
      ∀ v : T, ∃ st' i, add .release Intern.new v = .ok (st', i) ∧ st'.length = 1 := by
  refine ⟨?_, ?_, fun v => ?_⟩
  · rw [at_exact _ hw h2, if_neg (by omega)]
  · rw [at_exact _ hw h2, if_neg (by omega)]
    exact if_neg (by omega)
  · obtain ⟨st', e, _, hl⟩ := C198_alone_partial .release 0 [v] (by simp)
    have hn : (withCapacity 0 : Store T) = Intern.new := rfl
    rw [hn] at e
    unfold addAll at e
    cases ha : add .release Intern.new v with
    | ok r =>
      rw [ha] at e
      simp only [Res.bind, addAll, Res.ok.injEq, Prod.mk.injEq] at e
      refine ⟨r.1, r.2, rfl, ?_⟩
      rw [e.1, hl]
      simp [firsts]
    | panic => rw [ha] at e; simp [Res.bind] at e
    | hang => rw [ha] at e; simp [Res.bind] at e

/-- C199: exactly when it holds: up to `2^w - 33`, and in release builds also for `2^w - 32`, where two overflows cancel. -/
theorem C199_capacity_exact (m : Mode) (w c : Nat) (hw : 6 ≤ w) (hc : c < 2 ^ w) :
    (∃ st : Store T, withCapacityAt m w c = .ok st ∧ c ≤ 32 * st.length ∧ RoomFor m c st) ↔
      c < 2 ^ w - 32 ∨ (m = .release ∧ c = 2 ^ w - 32) := by
  obtain ⟨h1, h2⟩ := pow_ge hw
  have room : c ≤ 32 * (withCapacity c : Store T).length := by
    simp only [withCapacity, chunkSize, List.length_replicate]
    omega
  rw [at_exact m hw hc]
  constructor
  · rintro ⟨st, e, hl, _⟩
    by_cases hlt : c < 2 ^ w - 32
    · exact .inl hlt
    · rw [if_neg hlt] at e
      cases m with
      | debug => cases e
      | release =>
        by_cases he : c = 2 ^ w - 32
        · exact .inr ⟨rfl, he⟩
        · simp only [if_neg he, Res.ok.injEq] at e
          rw [← e] at hl
          simp only [Intern.new, List.length_nil] at hl
          omega
  · rintro (hlt | ⟨rfl, he⟩)
    · exact ⟨_, if_pos hlt, room, roomFor_withCapacity m c⟩
    · refine ⟨withCapacity c, ?_, room, roomFor_withCapacity _ c⟩
      rw [if_neg (by omega)]
      exact if_pos he

/-- `with_capacity(40)` on a 32-bit target makes two chunks, enough for 40 values. -/
example : ∃ st : Store Nat, withCapacityAt .debug 32 40 = .ok st ∧ st.length = 2 := ⟨_, rfl, by decide⟩

example : ∃ st : Store Nat, withCapacityAt .debug 32 40 = .ok st ∧ RoomFor .debug 40 st ∧ 32 * st.length < 40 + 32 :=
  C199_capacity_partial .debug 32 40 (by decide) (by decide)

/-- `with_capacity(usize::MAX)` on a 64-bit target. -/
example : (withCapacityAt .release 64 (2 ^ 64 - 1) : Res (Store Nat)) = .ok Intern.new :=
  (C199_capacity_violated 64 (2 ^ 64 - 1) (by decide) (by decide) (by decide)).2.1

end Verif
