import Verif.Model.Bitwise

/-!
# The unit tests of `crates/bits`, run on the model

Every assertion of the repository's own tests, evaluated by the kernel on the model (debug profile,
as `cargo test` builds). They are tests of the model, not proofs of properties: they guard against
transcription errors. Two tests repeat others on `Vec` instead of a slice and are not repeated.
-/

namespace Verif.UnitTests

/-- `[x, y, …]` as limbs of `w` bits. -/
abbrev L (w : Nat) (l : List Nat) : List (BitVec w) := l.map (BitVec.ofNat w)

/-! ## `utils.rs` L90-168 -/

-- `test_shrink_slice`, `test_shrink_vec` (the width does not matter; `i32` in the test)
example : shrink (L 32 [0]) = .ok (L 32 [0]) := by decide +kernel
example : shrink (L 32 [0, 0]) = .ok (L 32 [0]) := by decide +kernel
example : shrink (L 32 [0, 0, 0]) = .ok (L 32 [0]) := by decide +kernel
example : shrink (L 32 [0, 1]) = .ok (L 32 [0, 1]) := by decide +kernel
example : shrink (L 32 [0, 1, 1]) = .ok (L 32 [0, 1, 1]) := by decide +kernel
example : shrink (L 32 [1]) = .ok (L 32 [1]) := by decide +kernel
example : shrink (L 32 [1, 1]) = .ok (L 32 [1, 1]) := by decide +kernel
example : shrink (L 32 [1, 1, 1]) = .ok (L 32 [1, 1, 1]) := by decide +kernel
example : shrink (L 32 [1, 0]) = .ok (L 32 [1]) := by decide +kernel
example : shrink (L 32 [1, 0, 0]) = .ok (L 32 [1]) := by decide +kernel
example : shrink (L 32 [1, 0, 1]) = .ok (L 32 [1, 0, 1]) := by decide +kernel

-- `test_int_arr`
example : intToArr 16 64 1 0 = .ok (L 64 [0]) := by decide +kernel
example : intToArr 16 64 1 1 = .ok (L 64 [1]) := by decide +kernel
example : intToArr 16 64 1 (BitVec.allOnes 16) = .ok (L 64 [65535]) := by decide +kernel
example : intToArr 128 64 2 0 = .ok (L 64 [0, 0]) := by decide +kernel
example : intToArr 128 64 2 1 = .ok (L 64 [1, 0]) := by decide +kernel
example : intToArr 128 64 2 (BitVec.ofNat 128 (2 ^ 64)) = .ok (L 64 [0, 1]) := by decide +kernel
example : intToArr 128 64 2 (BitVec.allOnes 128) = .ok [BitVec.allOnes 64, BitVec.allOnes 64] := by
  decide +kernel
example : intToArr 128 8 16 0x0102030405060708090A0B0C0D0E0F00 =
    .ok (L 8 [0, 15, 14, 13, 12, 11, 10, 9, 8, 7, 6, 5, 4, 3, 2, 1]) := by decide +kernel

-- `test_arr_int`
example : arrToInt 64 8 .debug (L 64 [0]) = .ok (some 0) := by decide +kernel
example : arrToInt 64 8 .debug (L 64 [1]) = .ok (some 1) := by decide +kernel
example : arrToInt 64 8 .debug [BitVec.allOnes 64] = .ok none := by decide +kernel
example : arrToInt 64 128 .debug (L 64 [0]) = .ok (some 0) := by decide +kernel
example : arrToInt 64 128 .debug (L 64 [1]) = .ok (some 1) := by decide +kernel
example : arrToInt 64 128 .debug [BitVec.allOnes 64] = .ok (some (BitVec.ofNat 128 (2 ^ 64 - 1))) := by
  decide +kernel
example : arrToInt 8 64 .debug (L 8 [0, 1, 2, 3]) = .ok (some 0x03020100) := by decide +kernel
example : arrToInt 8 64 .debug [BitVec.allOnes 8] = .ok (some 255) := by decide +kernel

/-! ## `bit_slice.rs` L232-274 -/

-- `test_idx`
example : ∀ i < 8, ∀ j < 8, BitSlice.idxBit 8 (i * 8 + j) = (i, j) := by decide +kernel
-- `test_get_bit`
example : ∀ idx < 32, BitSlice.getBit (L 16 [0b1010101010101010, 0b1010101010101010]) idx =
    .ok (decide (idx % 2 ≠ 0)) := by decide +kernel
-- `test_set_bit`
example : ((BitSlice.setBit (L 16 [0b1010101010101010, 0b1010101010101010]) 0 true).bind fun s =>
    BitSlice.setBit s 31 false) = .ok (L 16 [0b1010101010101011, 0b0010101010101010]) := by
  decide +kernel
-- `test_extend`
example : BitSlice.extend (L 8 [0]) 1 0 = L 8 [0] := by decide +kernel
example : BitSlice.extend (L 8 [0]) 2 1 = L 8 [0, 1] := by decide +kernel
example : BitSlice.extend (L 8 [0, 1]) 1 0 = L 8 [0, 1] := by decide +kernel

/-! ## `algos/element/add.rs` L94-120 -/

example : ElementAdd.add (L 32 [0]) (L 32 [0]) = .ok (L 32 [0]) := by decide +kernel
example : ElementAdd.add (L 32 [0]) (L 32 [1]) = .ok (L 32 [1]) := by decide +kernel
example : ElementAdd.add (L 32 [1]) (L 32 [0]) = .ok (L 32 [1]) := by decide +kernel
example : ElementAdd.add (L 32 [1]) (L 32 [1]) = .ok (L 32 [2]) := by decide +kernel
example : ElementAdd.add (L 32 [0]) (L 32 [0, 1]) = .ok (L 32 [0, 1]) := by decide +kernel
example : ElementAdd.add (L 32 [1]) (L 32 [0, 1]) = .ok (L 32 [1, 1]) := by decide +kernel
example : ElementAdd.add [BitVec.allOnes 32] (L 32 [1]) = .ok (L 32 [0, 1]) := by decide +kernel

/-! ## `algos/element/sub.rs` L117-143 -/

example : ElementSub.sub (L 32 [0]) (L 32 [0]) = .ok (L 32 [0], false) := by decide +kernel
example : ElementSub.sub (L 32 [1]) (L 32 [0]) = .ok (L 32 [1], false) := by decide +kernel
example : ElementSub.sub (L 32 [0]) (L 32 [1]) = .ok (L 32 [1], true) := by decide +kernel
example : ElementSub.sub (L 32 [1]) (L 32 [1]) = .ok (L 32 [0], false) := by decide +kernel
example : ElementSub.sub (L 32 [0, 1]) (L 32 [1]) = .ok ([BitVec.allOnes 32], false) := by
  decide +kernel
example : ElementSub.sub (L 32 [0, 1]) (L 32 [0, 1]) = .ok (L 32 [0], false) := by decide +kernel
example : ElementSub.sub (L 32 [1, 1]) (L 32 [1]) = .ok (L 32 [0, 1], false) := by decide +kernel
example : ElementSub.sub (L 32 [1, 1]) (L 32 [0, 1]) = .ok (L 32 [1], false) := by decide +kernel

/-! ## `algos/element/cmp.rs` L34-62 -/

example : elementCmp (L 32 [0]) (L 32 [0, 1]) = .lt := by decide +kernel
example : elementCmp (L 32 [0, 1]) (L 32 [0]) = .gt := by decide +kernel
example : elementCmp (L 32 [0, 0]) (L 32 [0]) = .eq := by decide +kernel
example : elementCmp (L 32 [0]) (L 32 [0, 0]) = .eq := by decide +kernel
example : elementCmp (L 32 [0]) (L 32 [0]) = .eq := by decide +kernel
example : elementCmp (L 32 [1, 2, 3, 4]) (L 32 [1, 2, 3, 4]) = .eq := by decide +kernel
example : elementCmp (L 32 [1]) (L 32 [2]) = .lt := by decide +kernel
example : elementCmp (L 32 [0, 2]) (L 32 [0, 1]) = .gt := by decide +kernel

/-! ## `algos/element/div.rs` L116-153 (one test; the other is commented out) -/

example : ((ElementDiv.divLong .debug 100 (L 32 [10]) (L 32 [2])).bind fun x => .ok x.2) =
    .ok (L 32 [0]) := by decide +kernel
example : ((ElementDiv.divLong .debug 100 (L 32 [17]) (L 32 [11])).bind fun x => .ok x.2) =
    .ok (L 32 [6]) := by decide +kernel

/-! ## `algos/element/shl.rs` L92-133 -/

example : ElementShl.shl (L 8 [0]) 1 = .ok (L 8 [0]) := by decide +kernel
example : ElementShl.shl (L 8 [0b01]) 1 = .ok (L 8 [0b10]) := by decide +kernel
example : ElementShl.shl (L 8 [0b0101]) 1 = .ok (L 8 [0b1010]) := by decide +kernel
example : ElementShl.shl (L 16 [0b1010101010101010, 0b1010101010101010]) 1 =
    .ok (L 16 [0b0101010101010100, 0b0101010101010101, 0b1]) := by decide +kernel
example : ElementShl.shl (L 8 [0b1]) 8 = .ok (L 8 [0b0, 0b1]) := by decide +kernel
example : ElementShl.shlWrapping .debug (L 8 [0]) 1 = .ok (L 8 [0]) := by decide +kernel
example : ElementShl.shlWrapping .debug (L 8 [0b01]) 1 = .ok (L 8 [0b10]) := by decide +kernel
example : ElementShl.shlWrapping .debug (L 8 [0b0101]) 1 = .ok (L 8 [0b1010]) := by decide +kernel
example : ElementShl.shlWrapping .debug (L 16 [0b1010101010101010, 0b1010101010101010]) 1 =
    .ok (L 16 [0b0101010101010100, 0b0101010101010101]) := by decide +kernel
example : ElementShl.shlWrapping .debug (L 8 [0b10000000, 0b10000000]) 1 = .ok (L 8 [0b0, 0b1]) := by
  decide +kernel
example : ElementShl.shlWrapping .debug (L 8 [0b1, 0b0]) 8 = .ok (L 8 [0b0, 0b1]) := by decide +kernel

/-! ## `algos/element/mul.rs` L116-165 -/

example : ElementMul.mul (L 8 [0]) (L 8 [1]) = .ok (L 8 [0]) := by decide +kernel
example : ElementMul.mul (L 8 [1]) (L 8 [1]) = .ok (L 8 [1]) := by decide +kernel
example : ElementMul.mul (L 8 [1]) (L 8 [2]) = .ok (L 8 [2]) := by decide +kernel
example : ElementMul.mul (L 8 [2]) (L 8 [2]) = .ok (L 8 [4]) := by decide +kernel
example : ElementMul.mulWrapping (L 8 [0]) (L 8 [1]) = L 8 [0] := by decide +kernel
example : ElementMul.mulWrapping (L 8 [1]) (L 8 [1]) = L 8 [1] := by decide +kernel
example : ElementMul.mulWrapping (L 8 [1]) (L 8 [2]) = L 8 [2] := by decide +kernel
example : ElementMul.mulWrapping (L 8 [2]) (L 8 [2]) = L 8 [4] := by decide +kernel

/-! ## `algos/bitwise/div.rs` L143-229 -/

/-- `div_long(a, b).0` and `.1` in the debug profile. -/
abbrev quo (a b : List Nat) : Res (List (BitVec 8)) :=
  (BitwiseDiv.divLong .debug (L 8 a) (L 8 b)).bind fun x => .ok x.1
abbrev rmd (a b : List Nat) : Res (List (BitVec 8)) :=
  (BitwiseDiv.divLong .debug (L 8 a) (L 8 b)).bind fun x => .ok x.2

example : quo [0b10] [0b01] = .ok (L 8 [0b10]) := by decide +kernel
example : quo [0b10] [0b10] = .ok (L 8 [0b01]) := by decide +kernel
example : quo [0, 1] [0b10] = .ok (L 8 [0b10000000, 0]) := by decide +kernel
example : quo [0, 0, 0, 1] [0b10] = .ok (L 8 [0, 0, 0b10000000, 0]) := by decide +kernel
example : ∀ i < 4, rmd [i] [0b10] = .ok (L 8 [i % 2]) := by decide +kernel
example : ∀ i < 6, rmd [i] [0b11] = .ok (L 8 [i % 3]) := by decide +kernel
example : rmd [1, 0b111] [0b10] = .ok (L 8 [1, 0]) := by decide +kernel
example : BitwiseDiv.divLongWrapping .debug (L 8 [0b10]) (L 8 [1]) (L 8 [0]) = .ok (L 8 [0b10]) := by
  decide +kernel
example : BitwiseDiv.divLongWrapping .debug (L 8 [0b10]) (L 8 [0b10]) (L 8 [0]) = .ok (L 8 [1]) := by
  decide +kernel
example : BitwiseDiv.divLongWrapping .debug (L 8 [0, 1]) (L 8 [0b10]) (L 8 [0, 0]) =
    .ok (L 8 [0b10000000, 0]) := by decide +kernel
example : BitwiseDiv.divLongWrapping .debug (L 8 [0, 0, 0, 1]) (L 8 [0b10]) (L 8 [0, 0, 0, 0]) =
    .ok (L 8 [0, 0, 0b10000000, 0]) := by decide +kernel

/-! ## `algos/bitwise/{shr,shl,mul}.rs` L24-39, L23-38, L32-58 -/

example : bitwiseShr (L 16 [0b1010101010101010, 0b1010101010101010]) 1 =
    .ok (L 16 [0b0101010101010101, 0b0101010101010101]) := by decide +kernel
example : bitwiseShr (L 8 [0, 0b11111111]) 8 = .ok (L 8 [0b11111111]) := by decide +kernel
example : bitwiseShl (L 16 [0b1010101010101010, 0b1010101010101010]) 1 =
    L 16 [0b0101010101010100, 0b0101010101010101, 0b1] := by decide +kernel
example : bitwiseShl (L 8 [0b11111111]) 8 = L 8 [0, 0b11111111] := by decide +kernel
example : bitwiseMul (L 8 [0]) (L 8 [1]) = .ok (L 8 [0]) := by decide +kernel
example : bitwiseMul (L 8 [1]) (L 8 [1]) = .ok (L 8 [1]) := by decide +kernel
example : bitwiseMul (L 8 [1]) (L 8 [2]) = .ok (L 8 [2]) := by decide +kernel
example : bitwiseMul (L 8 [2]) (L 8 [2]) = .ok (L 8 [4]) := by decide +kernel

end Verif.UnitTests
