import Verif.Model.PrimBytes
import Verif.Lemmas.Conv
import Verif.Lemmas.UInt

/-!
# Byte conversions of primitive integers (C120)
-/

namespace Verif

private theorem toBe_eq (size : Nat) (v : BitVec (8 * size)) :
    Prim.toBeBytes size v = (leBytes size v).reverse := by
  unfold Prim.toBeBytes leBytes
  apply List.ext_getElem (by simp)
  intro i h1 h2
  simp only [List.length_map, List.length_range] at h1
  simp only [List.getElem_map, List.getElem_range, List.getElem_reverse, List.length_map,
    List.length_range]

private theorem fromBe_eq (size : Nat) (b : Bytes) :
    Prim.fromBeBytes size b = ofLeBytes size b.reverse := by
  unfold Prim.fromBeBytes ofLeBytes
  rw [List.foldr_reverse]

/-- C120, the bytes are the digits: the little-endian bytes are the base-256 digits of the number,
least significant first; the big-endian bytes are the same in reverse; the native ones are one of
the two. -/
theorem C120_digits (size : Nat) (v : BitVec (8 * size)) (little : Bool) :
    (Prim.toLeBytes size v).length = size ∧ val (Prim.toLeBytes size v) = v.toNat ∧
    Prim.toBeBytes size v = (Prim.toLeBytes size v).reverse ∧
    (∀ b : Bytes, b.length = size → (Prim.fromLeBytes size b).toNat = val b ∧
      (Prim.fromBeBytes size b).toNat = val b.reverse) ∧
    Prim.toNeBytes little size v
      = if little then Prim.toLeBytes size v else Prim.toBeBytes size v := by
  refine ⟨leBytes_length size v, val_leBytes size v, toBe_eq size v, fun b hb => ?_, rfl⟩
  subst hb
  have h : ∀ c : Bytes, c.length = b.length → (ofLeBytes b.length c).toNat = val c := by
    intro c hc
    rw [ofLeBytes_toNat]
    refine Nat.mod_eq_of_lt ?_
    have := val_lt c
    unfold modulus at this
    rwa [hc] at this
  exact ⟨h b rfl, by rw [fromBe_eq]; exact h _ (by simp)⟩

/-- C120, round trips in all three byte orders. -/
theorem C120_round_trip (size : Nat) (little : Bool) :
    (∀ v : BitVec (8 * size),
      Prim.fromLeBytes size (Prim.toLeBytes size v) = v ∧
      Prim.fromBeBytes size (Prim.toBeBytes size v) = v ∧
      Prim.fromNeBytes little size (Prim.toNeBytes little size v) = v) ∧
    (∀ b : Bytes, b.length = size →
      Prim.toLeBytes size (Prim.fromLeBytes size b) = b ∧
      Prim.toBeBytes size (Prim.fromBeBytes size b) = b ∧
      Prim.toNeBytes little size (Prim.fromNeBytes little size b) = b) := by
  have b1 : ∀ v : BitVec (8 * size), Prim.fromBeBytes size (Prim.toBeBytes size v) = v := by
    intro v; rw [fromBe_eq, toBe_eq, List.reverse_reverse, ofLeBytes_leBytes]
  have b2 : ∀ b : Bytes, b.length = size →
      Prim.toBeBytes size (Prim.fromBeBytes size b) = b := by
    intro b hb
    have := leBytes_ofLeBytes b.reverse
    rw [List.length_reverse, hb] at this
    rw [fromBe_eq, toBe_eq, this, List.reverse_reverse]
  have l2 : ∀ b : Bytes, b.length = size →
      Prim.toLeBytes size (Prim.fromLeBytes size b) = b := by
    rintro b rfl; exact leBytes_ofLeBytes b
  refine ⟨fun v => ⟨ofLeBytes_leBytes size v, b1 v, ?_⟩, fun b hb => ⟨l2 b hb, b2 b hb, ?_⟩⟩
  · cases little
    · exact b1 v
    · exact ofLeBytes_leBytes size v
  · cases little
    · exact b2 b hb
    · exact l2 b hb

/-- C120, agreement with `U<N>`: carrying a primitive into `U<SIZE>` (or back) through bytes, in any
byte order, is the same as converting it. -/
theorem C120_agrees (size : Nat) (little : Bool) (v : BitVec (8 * size)) (a : Bytes) :
    UN.fromLeBytes (Prim.toLeBytes size v) = UN.fromPrim size v ∧
    UN.fromBeBytes (Prim.toBeBytes size v) = UN.fromPrim size v ∧
    UN.fromNeBytes little (Prim.toNeBytes little size v) = UN.fromPrim size v ∧
    Prim.fromLeBytes size (UN.toLeBytes a) = UN.asPrim size a ∧
    Prim.fromBeBytes size (UN.toBeBytes a) = UN.asPrim size a ∧
    Prim.fromNeBytes little size (UN.toNeBytes little a) = UN.asPrim size a := by
  have h1 : UN.fromBeBytes (Prim.toBeBytes size v) = UN.fromPrim size v := by
    unfold UN.fromBeBytes; rw [constReverse_eq, toBe_eq, List.reverse_reverse]; rfl
  have h2 : Prim.fromBeBytes size (UN.toBeBytes a) = UN.asPrim size a := by
    unfold UN.toBeBytes; rw [constReverse_eq, fromBe_eq, List.reverse_reverse]; rfl
  refine ⟨rfl, h1, ?_, rfl, h2, ?_⟩ <;> cases little
  · exact h1
  · rfl
  · exact h2
  · rfl

example : Prim.toLeBytes 4 0x12345678#32 = [0x78#8, 0x56#8, 0x34#8, 0x12#8] ∧
    Prim.toBeBytes 4 0x12345678#32 = [0x12#8, 0x34#8, 0x56#8, 0x78#8] ∧
    Prim.fromBeBytes 4 [0x12#8, 0x34#8, 0x56#8, 0x78#8] = 0x12345678#32 := by decide

end Verif
