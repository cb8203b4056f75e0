import Verif.Model.Rat
import Verif.Model.Fixed
import Verif.Model.StaticIter
import Verif.Model.BiVec
import Verif.Model.Intern
import Mathlib.Algebra.Order.Ring.Rat

/-!
# The unit tests of the other crates, run on the model

Every assertion of the tests of `crates/reals`, `traits`, `static-iter`, `compounds` and of the
single-threaded tests of `utils` (debug profile, 64-bit pointers). Floating-point matrices are taken
over `ℚ`, so `-4.454545454545454` is `-49/11`. The tests that start threads are not repeated: see the
theorems on all interleavings (C57-C62, C108, C109).
-/

namespace Verif.UnitTests

abbrev i32 : Prim := ⟨true, 32⟩

/-! ## `reals/src/rat.rs` L277-300 -/

abbrev rat (a b : Int) : Res RatM := RatM.newUnwrap i32 a b

-- `test_add`
example : ((rat 1 2).bind fun a => (rat 3 4).bind fun b => RatM.add .debug i32 a b) = rat 5 4 := by
  decide +kernel
-- `test_round`
example : (rat 3 7).bind (RatM.round .debug i32) = .ok RatM.zero := by decide +kernel
example : (rat 4 7).bind (RatM.round .debug i32) = .ok RatM.one := by decide +kernel
example : (rat 10 7).bind (RatM.round .debug i32) = .ok RatM.one := by decide +kernel
example : (rat 11 7).bind (RatM.round .debug i32) = RatM.add .debug i32 RatM.one RatM.one := by
  decide +kernel

/-! ## `reals/src/fixed.rs` L272-327 -/

-- `test_debug`
example : Fixed.debug .debug i32 1 0b01 = .ok ['.', '5'] := by decide +kernel
example : Fixed.debug .debug i32 1 0b10 = .ok ['1', '.', '0'] := by decide +kernel
example : Fixed.debug .debug i32 1 0b11 = .ok ['1', '.', '5'] := by decide +kernel
-- `fixed_floor`
example : (Fixed.fromVal .debug i32 1 2).bind (Fixed.floor .debug i32 1) =
    Fixed.fromVal .debug i32 1 2 := by decide +kernel
example : Fixed.floor .debug i32 1 0b11 = Fixed.fromVal .debug i32 1 1 := by decide +kernel
example : Fixed.floor .debug i32 1 (-0b11) = Fixed.fromVal .debug i32 1 (-2) := by decide +kernel
example : Fixed.floor .debug i32 2 (-0b110) = Fixed.fromVal .debug i32 2 (-2) := by decide +kernel
-- `fixed_ceil`
example : (Fixed.fromVal .debug i32 1 2).bind (Fixed.ceil .debug i32 1) =
    Fixed.fromVal .debug i32 1 2 := by decide +kernel
example : Fixed.ceil .debug i32 1 0b11 = Fixed.fromVal .debug i32 1 2 := by decide +kernel
example : Fixed.ceil .debug i32 1 (-0b11) = Fixed.fromVal .debug i32 1 (-1) := by decide +kernel
example : Fixed.ceil .debug i32 2 (-0b110) = Fixed.fromVal .debug i32 2 (-1) := by decide +kernel
-- `fixed_trunc`
example : (Fixed.fromVal .debug i32 1 2).bind (Fixed.trunc .debug i32 1) =
    Fixed.fromVal .debug i32 1 2 := by decide +kernel
example : Fixed.trunc .debug i32 1 0b11 = Fixed.fromVal .debug i32 1 1 := by decide +kernel
example : Fixed.trunc .debug i32 1 (-0b11) = Fixed.fromVal .debug i32 1 (-1) := by decide +kernel
example : Fixed.trunc .debug i32 2 (-0b110) = Fixed.fromVal .debug i32 2 (-1) := by decide +kernel
-- `fixed_fract`
example : (Fixed.fromVal .debug i32 1 2).bind (Fixed.fract .debug i32 1) =
    Fixed.fromVal .debug i32 1 0 := by decide +kernel
example : Fixed.fract .debug i32 1 0b11 = .ok 0b01 := by decide +kernel
example : Fixed.fract .debug i32 1 (-0b11) = .ok (-0b01) := by decide +kernel
example : Fixed.fract .debug i32 2 (-0b110) = .ok (-0b010) := by decide +kernel

/-! ## `traits/src/__impl.rs` L957-970 -/

example : Prim.gcd i32 0 0 = .ok 0 := by decide +kernel
example : Prim.gcd i32 48 18 = .ok 6 := by decide +kernel
example : Prim.gcd i32 18 48 = .ok 6 := by decide +kernel

/-! ## `static-iter/src/lib.rs` L244-300 -/

open StaticIter

/-- `u32::checked_add(1)`. -/
abbrev inc (x : Nat) : Option Nat := if x + 1 < 2 ^ 32 then some (x + 1) else none

-- `test_zip_add`
example : collectArray 4 (map (zip (intoIter [1, 2, 3, 4]) (intoIter [5, 6, 7, 8]))
    fun p w => (p.1 + p.2, w)) () = some ([6, 8, 10, 12], ()) := by decide +kernel
-- `test_option_collect`
example : collect 4 (map (intoIter [1, 2, 3, 4]) fun l w => (inc l, w)) (optionColl (arrayColl Nat 4))
    () = some (some [2, 3, 4, 5], ()) := by decide +kernel
example : collect 4 (map (intoIter [2 ^ 32 - 2, 2 ^ 32 - 1, 0, 1]) fun l w => (inc l, w))
    (optionColl (arrayColl Nat 4)) () = some (none, ()) := by decide +kernel
-- `test_option_option_collect`
example : collect 4 (map (intoIter [1, 2, 3, 4]) fun l w => (some (inc l), w))
    (optionColl (optionColl (arrayColl Nat 4))) () = some (some (some [2, 3, 4, 5]), ()) := by
  decide +kernel
example : collect 4 (map (intoIter [2 ^ 32 - 2, 2 ^ 32 - 1, 0, 1]) fun l w => (some (inc l), w))
    (optionColl (optionColl (arrayColl Nat 4))) () = some (some none, ()) := by decide +kernel
example : collect 4 (map (intoIter [2 ^ 32 - 2, 2 ^ 32 - 1, 0, 1]) fun _ w => ((none : Option Nat), w))
    (optionColl (arrayColl Nat 4)) () = some (none, ()) := by decide +kernel

/-! ## `compounds/src/matrix/dynamic.rs` L82-146 -/

abbrev grid : List (List Int) := [[1, 2, 3, 4], [5, 6, 7, 8], [9, 10, 11, 12], [13, 14, 15, 16]]
abbrev dyn {α : Type} (R C : Nat) (l : List (List α)) : Res (DynMat α) := DynMat.ofArray .debug 64 R C l

-- `test_index`
example : ((dyn 4 4 grid).bind fun a => DynMat.get .debug 64 a 0 0) = .ok 1 := by decide +kernel
example : ((dyn 4 4 grid).bind fun a => DynMat.get .debug 64 a 0 1) = .ok 2 := by decide +kernel
example : ((dyn 4 4 grid).bind fun a => DynMat.get .debug 64 a 0 2) = .ok 3 := by decide +kernel
example : ((dyn 4 4 grid).bind fun a => DynMat.get .debug 64 a 0 3) = .ok 4 := by decide +kernel
example : ((dyn 4 4 grid).bind fun a => DynMat.get .debug 64 a 2 0) = .ok 9 := by decide +kernel
example : ((dyn 4 4 grid).bind fun a => DynMat.get .debug 64 a 3 0) = .ok 13 := by decide +kernel
example : ((dyn 4 4 grid).bind fun a => DynMat.get .debug 64 a 3 3) = .ok 16 := by decide +kernel
-- `test_swap_row`
example : ((dyn 4 4 grid).bind fun a => DynMat.swapRows .debug 64 a 0 2) =
    dyn 4 4 [[9, 10, 11, 12], [5, 6, 7, 8], [1, 2, 3, 4], [13, 14, 15, 16]] := by decide +kernel
-- `test_row_reduce`
abbrev tall : List (List ℚ) := [[1, 0, 4, 2], [1, 2, 6, 2], [2, 0, 8, 8], [2, 1, 9, 4]]
abbrev ech : List (List ℚ) := [[1, 0, 4, 2], [0, 1, 1, 0], [0, 0, 0, 4], [0, 0, 0, 0]]
example : (dyn 4 4 tall).bind (DynMat.rowReduce .debug 64) = dyn 4 4 ech := by decide +kernel

/-! ## `compounds/src/matrix/static.rs` L197-245 -/

-- `test_mul`
example : Mat.mul 2 3 2 [[1, 2, 3], [4, 5, 6]] [[7, 8], [9, 10], [11, 12]] =
    .ok [[58, 64], [139, (154 : Int)]] := by decide +kernel
-- `test_row_reduce`
example : Mat.rowReduce 4 4 tall = .ok ech := by decide +kernel
example : Mat.rowReduce 3 3 [[2, -3, 1], [2, 0, -1], [1, 4, (5 : ℚ)]] =
    .ok [[1, 4, 5], [0, -11, -9], [0, 0, -49 / 11]] := by decide +kernel
-- `test_determinant`
example : Mat.determinant 2 [[1, 2], [3, (4 : ℚ)]] = .ok (-2) := by decide +kernel
example : Mat.determinant 3 [[2, -3, 1], [2, 0, -1], [1, 4, (5 : ℚ)]] = .ok 49 := by decide +kernel

/-! ## `compounds/src/bivec.rs` L66-86 -/

-- `test_choose`
example : BiVec.choose .debug 64 1 2 = .ok 0 := by decide +kernel
example : BiVec.choose .debug 64 2 2 = .ok 1 := by decide +kernel
example : BiVec.choose .debug 64 3 2 = .ok 3 := by decide +kernel
example : BiVec.choose .debug 64 4 2 = .ok 6 := by decide +kernel
example : BiVec.choose .debug 64 25 2 = .ok 300 := by decide +kernel
example : BiVec.choose .debug 64 23 17 = .ok 100947 := by decide +kernel
example : BiVec.choose .debug 64 1000000000 2 = .ok 499999999500000000 := by decide +kernel
-- `test_bivec`
example : BiVec.new .debug 64 2 [0, 0] [0, (0 : ℚ)] = .ok [0] := by decide +kernel

/-! ## `utils/src/intern.rs` L226-271 -/

open Intern

-- `test_add`
example : ((add .debug (new : Store Int) 0).bind fun r1 => (add .debug r1.1 0).bind fun r2 =>
    (add .debug r2.1 1).bind fun r3 => (add .debug r3.1 1).bind fun r4 =>
    .ok (decide (r1.2 = r2.2) && decide (r3.2 = r4.2) && decide (r1.2 ≠ r3.2))) = .ok true := by
  decide +kernel
-- `test_dead_live`
example : ((add .debug (new : Store Int) 0).bind fun r1 => (refcount r1.1 r1.2).bind fun c1 =>
    (decr r1.1 r1.2).bind fun s => (refcount s r1.2).bind fun c2 => (add .debug s 0).bind fun r2 =>
    (refcount r2.1 r2.2).bind fun c3 => .ok (c1, c2, decide (r1.2 = r2.2), c3)) =
    .ok (1, 0, true, 1) := by decide +kernel
-- `test_no_dead`
example : ((add .debug (new : Store Int) (-1)).bind fun r1 => (decr r1.1 r1.2).bind fun s =>
    tryGet s r1.2) = .ok none := by decide +kernel

end Verif.UnitTests
