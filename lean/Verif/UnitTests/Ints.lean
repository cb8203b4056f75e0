import Verif.Model.BigInt
import Verif.Model.IInt
import Verif.UnitTests.Bits

/-!
# The unit tests of `crates/ints`, run on the model

Every assertion of the tests of `u.rs`, `i.rs` and `big_int.rs` (debug profile). `tests.rs` is not
compiled by the crate (`lib.rs` L15-16 comment it out) and is not repeated.
-/

namespace Verif.UnitTests

/-! ## `u.rs` L641-680 -/

-- `test_one`
example : UN.one 1 = L 8 [1] := by decide +kernel
example : UN.one 2 = L 8 [1, 0] := by decide +kernel
example : UN.one 4 = L 8 [1, 0, 0, 0] := by decide +kernel
example : UN.isOne (UN.one 4) = .ok true := by decide +kernel
-- `test_cmp`
example : UN.eq (UN.one 3) (UN.one 3) = true := by decide +kernel
example : UN.eq (UN.one 3) (L 8 [2, 0, 0]) = false := by decide +kernel
example : UN.eq (L 8 [2, 0, 0]) (L 8 [2, 0, 0]) = true := by decide +kernel
-- `test_add`
example : UN.add .debug (UN.one 3) (UN.one 3) = .ok (L 8 [2, 0, 0]) := by decide +kernel
-- `test_div`
example : UN.div .debug (L 8 [4, 0, 0]) (L 8 [2, 0, 0]) = .ok (L 8 [2, 0, 0]) := by decide +kernel
example : UN.div .debug (L 8 [10, 0, 0]) (L 8 [2, 0, 0]) = .ok (L 8 [5, 0, 0]) := by decide +kernel

/-! ## `i.rs` L331-436 -/

abbrev one : Bytes := IN.one 3
abbrev zer : Bytes := IN.zero 3
abbrev neg1 : Bytes := IN.neg one
abbrev two : Bytes := IN.add one one
abbrev neg2 : Bytes := IN.neg two

-- `test_one`
example : IN.one 1 = L 8 [1] := by decide +kernel
example : IN.one 2 = L 8 [1, 0] := by decide +kernel
example : IN.one 4 = L 8 [1, 0, 0, 0] := by decide +kernel
example : IN.isOne (IN.one 4) = .ok true := by decide +kernel
-- `test_cmp` (derived equality)
example : one = one ∧ one ≠ L 8 [2, 0, 0] ∧ L 8 [2, 0, 0] = L 8 [2, 0, 0] := by decide +kernel
-- `test_ord`
example : IN.cmp neg1 neg2 = .ok .gt := by decide +kernel
example : IN.cmp neg1 zer = .ok .lt := by decide +kernel
example : IN.cmp neg1 one = .ok .lt := by decide +kernel
example : IN.cmp neg1 two = .ok .lt := by decide +kernel
example : IN.cmp zer neg2 = .ok .gt := by decide +kernel
example : IN.cmp zer neg1 = .ok .gt := by decide +kernel
example : IN.cmp zer one = .ok .lt := by decide +kernel
example : IN.cmp zer two = .ok .lt := by decide +kernel
example : IN.cmp one neg2 = .ok .gt := by decide +kernel
example : IN.cmp one neg1 = .ok .gt := by decide +kernel
example : IN.cmp one zer = .ok .gt := by decide +kernel
example : IN.cmp one two = .ok .lt := by decide +kernel
-- `test_neg`
example : IN.neg one = IN.maxNegative 3 := by decide +kernel
example : IN.neg (IN.maxNegative 3) = one := by decide +kernel
example : IN.neg zer = zer := by decide +kernel
-- `test_add`, `test_sub` (which repeats additions)
example : IN.add one one = L 8 [2, 0, 0] := by decide +kernel
example : IN.add one zer = one := by decide +kernel
example : IN.add zer zer = zer := by decide +kernel
example : IN.add neg1 one = zer := by decide +kernel
example : IN.add neg1 zer = neg1 := by decide +kernel
example : IN.add neg1 neg1 = L 8 [0xFE, 0xFF, 0xFF] := by decide +kernel
-- `test_mul`
example : IN.mul zer zer = zer := by decide +kernel
example : IN.mul one one = one := by decide +kernel
example : IN.mul one two = L 8 [2, 0, 0] := by decide +kernel
example : IN.mul one zer = zer := by decide +kernel
example : IN.mul neg1 one = neg1 := by decide +kernel
example : IN.mul neg1 zer = zer := by decide +kernel
example : IN.mul neg1 two = L 8 [0xFE, 0xFF, 0xFF] := by decide +kernel

/-! ## `big_int.rs` L725-911 -/

/-- `BigInt::from(x)` of an `i32`, a `u64`/`usize` and a `u128`. -/
abbrev i (x : Int) : Res BInt := BInt.fromS 32 (BitVec.ofInt 32 x)
abbrev u (x : Nat) : Res BInt := BInt.fromU 64 (BitVec.ofNat 64 x)
abbrev w (x : Nat) : Res BInt := BInt.fromU 128 (BitVec.ofNat 128 x)
/-- An operator on the results of two expressions. -/
abbrev op (f : BInt → BInt → Res BInt) (a b : Res BInt) : Res BInt := a.bind fun a => b.bind (f a)
/-- `assert_eq!(a, b)`: neither side panics, and `==` holds. -/
abbrev same (a b : Res BInt) : Prop :=
  (a.bind fun a => b.bind fun b => .ok (BInt.eq a b)) = .ok true
abbrev differ (a b : Res BInt) : Prop :=
  (a.bind fun a => b.bind fun b => .ok (BInt.eq a b)) = .ok false
abbrev max64 : Nat := 2 ^ 64 - 1

-- `test_new`
example : ((BInt.newSlice (L 64 [0]) false).bind fun b => .ok b.isInline) = .ok true := by
  decide +kernel
example : ((BInt.newSlice (L 64 [max64 / 4]) false).bind fun b => .ok b.isInline) = .ok true := by
  decide +kernel
example : ((BInt.newSlice (L 64 [max64 / 4 + 1]) false).bind fun b => .ok b.isInline) = .ok false := by
  decide +kernel
example : ((BInt.newSlice (L 64 [0, 1]) false).bind fun b => .ok b.isInline) = .ok false := by
  decide +kernel
-- `test_no_neg_zero`
example : same (BInt.newSlice (L 64 [0]) true) (i 0) := by decide +kernel
-- `test_print`
example : ((i 1).bind (BInt.display .debug 30)) = .ok ['1'] := by decide +kernel
example : ((i 10).bind (BInt.display .debug 30)) = .ok ['1', '0'] := by decide +kernel
example : ((i 111).bind (BInt.display .debug 30)) = .ok ['1', '1', '1'] := by decide +kernel
example : ((w 18446744073709551616).bind (BInt.display .debug 30)) =
    .ok "18446744073709551616".toList := by decide +kernel
-- `test_from_str`
example : ((BInt.fromStrRadix ['1', '2', '3'] 10).bind fun r => (i 123).bind fun e =>
    .ok (match r with | .ok b => BInt.eq b e | .error _ => false)) = .ok true := by decide +kernel
example : ((BInt.fromStrRadix ['F', 'F'] 16).bind fun r => (i 255).bind fun e =>
    .ok (match r with | .ok b => BInt.eq b e | .error _ => false)) = .ok true := by decide +kernel
-- `test_add`
example : same (op BInt.add (i 1) (i 1)) (i 2) := by decide +kernel
example : same (op BInt.add (i (-10)) (i 5)) (i (-5)) := by decide +kernel
example : same (op BInt.add (i (-10)) (i 15)) (i 5) := by decide +kernel
example : same (op BInt.add (i 5) (i (-10))) (i (-5)) := by decide +kernel
example : same (op BInt.add (i 15) (i (-10))) (i 5) := by decide +kernel
example : same (op BInt.add (i (-1)) (i (-1))) (i (-2)) := by decide +kernel
example : same (op BInt.add (i (-1)) (i 1)) (i 0) := by decide +kernel
example : same (op BInt.add (i 1) (i (-1))) (i 0) := by decide +kernel
example : same (op BInt.add (u max64) (u max64)) (w (max64 * 2)) := by decide +kernel
-- `test_sub`
example : same (op BInt.sub (i 1) (i 1)) (i 0) := by decide +kernel
example : same (op BInt.sub (i 2) (i 1)) (i 1) := by decide +kernel
example : same (op BInt.sub (i (-1)) (i 1)) (i (-2)) := by decide +kernel
example : same (op BInt.sub (i (-1)) (i (-1))) (i 0) := by decide +kernel
-- `test_mul`
example : same (op BInt.mul (i 0) (i 1)) (i 0) := by decide +kernel
example : same (op BInt.mul (i 1) (i 1)) (i 1) := by decide +kernel
example : same (op BInt.mul (i 2) (i 1)) (i 2) := by decide +kernel
example : same (op BInt.mul (i 2) (i 2)) (i 4) := by decide +kernel
example : same (op BInt.mul (i (-1)) (i 1)) (i (-1)) := by decide +kernel
example : same (op BInt.mul (i 1) (i (-1))) (i (-1)) := by decide +kernel
example : same (op BInt.mul (i (-1)) (i (-1))) (i 1) := by decide +kernel
-- `test_div`
example : same (op (BInt.div .debug) (i 2) (i 2)) (i 1) := by decide +kernel
example : same (op (BInt.div .debug) (i (-2)) (i 2)) (i (-1)) := by decide +kernel
example : same (op (BInt.div .debug) (i 2) (i (-2))) (i (-1)) := by decide +kernel
example : same (op (BInt.div .debug) (i (-2)) (i (-2))) (i 1) := by decide +kernel
example : same (op (BInt.div .debug) (i 1) (i 3)) (i 0) := by decide +kernel
example : same (op (BInt.div .debug) (BInt.newSlice (L 64 [0, 0, 1]) false)
    (BInt.newSlice (L 64 [2]) false)) (BInt.newSlice (L 64 [0, max64 / 2 + 1]) false) := by
  decide +kernel
-- `test_rem`
example : same (op (BInt.rem .debug) (i 1) (i 2)) (i 1) := by decide +kernel
example : same (op (BInt.rem .debug) (i 2) (i 2)) (i 0) := by decide +kernel
example : same (op (BInt.rem .debug) (i 3) (i 2)) (i 1) := by decide +kernel
example : same (op (BInt.rem .debug) (i 4) (i 2)) (i 0) := by decide +kernel
example : same (op (BInt.rem .debug) (u max64) (i 10)) (i 5) := by decide +kernel
-- `test_shl`
example : same (op (BInt.shl .debug) (i 1) (i 1)) (i 2) := by decide +kernel
example : same (op (BInt.shl .debug) (i 2) (i 1)) (i 4) := by decide +kernel
example : same (op (BInt.shl .debug) (i 3) (i 1)) (i 6) := by decide +kernel
example : same (op (BInt.shl .debug) (u max64) (i 1)) (w (max64 * 2)) := by decide +kernel
-- `test_pow`
example : same (op (BInt.pow .debug 10) (i 1) (i 2)) (i 1) := by decide +kernel
example : same (op (BInt.pow .debug 10) (i 2) (i 2)) (i 4) := by decide +kernel
-- `test_eq`
example : differ (i 0) (i 1) := by decide +kernel
example : same (i 0) (op (BInt.rem .debug) (i 4) (i 2)) := by decide +kernel
example : ((i 0).bind fun a => BInt.eqS 32 .debug a 0) = .ok true := by decide +kernel
example : ((i 1).bind fun a => BInt.eqS 32 .debug a 1) = .ok true := by decide +kernel
example : ((i 0).bind fun a => BInt.eqS 32 .debug a 1) = .ok false := by decide +kernel
example : ((i 1).bind fun a => BInt.eqS 32 .debug a 0) = .ok false := by decide +kernel
-- `test_cmp`
abbrev ord (a b : Res BInt) : Res Ordering := a.bind fun a => b.bind fun b => .ok (BInt.cmp a b)
example : ord (i 0) (i 1) = .ok .lt := by decide +kernel
example : ord (i 0) (i (-1)) = .ok .gt := by decide +kernel
example : ord (i 1) (i (-1)) = .ok .gt := by decide +kernel
example : ord (i (-1)) (i 1) = .ok .lt := by decide +kernel
example : ((i 0).bind fun a => BInt.cmpS 32 a 1) = .ok .lt := by decide +kernel
example : ((i 0).bind fun a => BInt.cmpS 32 a (-1)) = .ok .gt := by decide +kernel
example : ((i 1).bind fun a => BInt.cmpS 32 a 0) = .ok .gt := by decide +kernel
example : ((i (-1)).bind fun a => BInt.cmpS 32 a 0) = .ok .lt := by decide +kernel

end Verif.UnitTests
