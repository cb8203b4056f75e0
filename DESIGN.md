# Design: a machine-checked model of CraftSpider/numeric

The library (`/repo`) is read as text only. This directory models its logic in
Lean 4 and proves the properties in `properties.jsonl` about the model. The
first version of this file was written before the proofs; sections 3 to 5 are
kept current as the model grows.

## 1. Trusted base

* The Lean 4 kernel (4.33.0) and the definitions of Mathlib that occur in
  theorem statements (`Matrix.det`, `Nat.choose`, `Nat.gcd`, `Int.tdiv`,
  `Int.testBit`, `ℚ`, ...).
* Axioms: at most `propext`, `Classical.choice`, `Quot.sound`. No `sorry`, no
  added axioms, no `native_decide`/`bv_decide`. Section 5 lists them per theorem.
* That the model below is a faithful reading of the Rust text. Every model
  definition carries a comment with the file and lines it was written from.
* The meaning of Rust's primitive integers: fixed-width two's complement,
  `overflowing_add` etc. as documented by core. A limb is `BitVec w`, with `w`
  an arbitrary positive width, so one theorem covers u8, u16, ..., usize.

### Modelled

| crate | files | Lean modules |
|---|---|---|
| bits | `bit_slice.rs`, `bit_slice/iter.rs`, `utils.rs`, `algos/element/*`, `algos/bitwise/*` | `Model/Slice`, `Model/Element`, `Model/Bitwise`; over any container: `Model/Container` |
| ints | `u.rs`, `i.rs`, `*/rand_impl.rs`, `big_int.rs`, `big_int/macros.rs` | `Model/UInt`, `Model/IInt`, `Model/Rand`, `Model/BigInt`, `Model/BigIntHandle`, `Model/BigIntConc`, `Model/BigIntOwn`, `Model/BigIntProgram`, `Model/BigIntMixed`, `Model/BigIntThreads`, `Model/Approx`; on targets of other widths: `Model/BigIntWord`, `Model/UIntPtr` |
| utils | `intern.rs`, `linked.rs` (as transition systems) | `Model/Intern`, `Model/InternRef`, `Model/InternConc`, `Model/InternPush`, `Model/InternWeak`, `Model/InternTurns`, `Model/InternProg`, `Model/InternAny`, `Model/InternCapacity`, `Model/InternCount`, `Model/Linked`, `Model/LinkedIter`, `Model/LinkedWeak`, `Model/LinkedElems`, `Model/LinkedSend` |
| reals | `fixed.rs`, `rat.rs`, `p.rs`, `f.rs` (byte conversions) | `Model/Fixed`, `Model/FixedInts`, `Model/Rat`, `Model/RatInts`, `Model/SignedInts`, `Model/Posit` |
| traits | `__impl.rs` integer impls, float impls, `bytes.rs`, `ops/widening.rs`, `__impl/nz.rs` | `Model/Prim`, `Model/Float`, `Model/FloatSign`, `Model/FloatRem`, `Model/PrimBytes`, `Model/Element` (widening) |
| compounds | `complex.rs`, `vector.rs`, `matrix.rs`, `matrix/*`, `bivec.rs` | `Model/Complex`, `Model/Vector`, `Model/Matrix`, `Model/BiVec`; over the libraries' numbers: `Model/Checked`, `Model/CheckedNum`; over each other: `Model/Nested`; derived equality and hashes: `Model/Equality` |
| static-iter | iterator protocol, adapters and collectors; ownership under panics; `codegen.rs` | `Model/StaticIter`, `Model/StaticDrop`, `Model/StaticCodegen` |
| several | `Display`, `LowerHex`, `UpperHex` and `Debug`, written and derived; `Default` | `Model/Fmt`, `Model/FmtDebug`, `Model/FmtDebugHex`, `Model/Default` |
| all | panics, loops that do not end, build profiles | `Model/Base` |

### Not modelled
* Of f32/f64: NaN payloads, `log` and the values of `powf`, `sin`, `cos` and `tan`, which are
  parameters of the functions computed from them (`root`, `cbrt`, `csc`, `sec`, `cot`). The operators, `sqrt`,
  comparisons, casts and rounding functions, which the trait impls forward to core, are modelled by
  IEEE 754 (round to nearest even, subnormals, overflow) in `Model/Float`; a comparison with NaN in the pivot
  search panics as in the code. `Model/Float` leaves out the sign of zero, `Model/FloatSign` has it: C191 proves that
  the former is the latter up to that sign, except in quotients by `-0.0`. `reals/src/f.rs` has no arithmetic.
* Order, sum and difference of posits are `todo!()` upstream (C122).
* `Debug` of the error types (there is no `Display` for them).
* Raw memory: allocation failure, `unsafe` layout, `MaybeUninit`. What is modelled is
  the index, initialisation and ownership logic that those rely on.
* Hardware memory orderings: concurrency is modelled as interleaving of atomic
  steps under sequential consistency, except for C153 to C155 and C183 to C185, where the orderings of the shared list and the interner count
  (`Model/LinkedWeak`: views, stale loads; no load buffering).
* `usize` overflow of lengths and bit indices (a slice with 2^58 limbs), except
  where the code computes with `usize` values that can underflow or overflow for
  small inputs (`shr`, `inner_shr_wrap_and_mask`, `choose_n`), where it is explicit.
* The `std` feature glue, operator forwarding macros for
  `&T` (they only clone/deref).
* The `todo!()` functions of ElementDiv, `I<N>`, `Rat` and `Fixed` are
  modelled as the panics they are (C21, C137, C138).
* The compound types are modelled over any component type, and most theorems are over total
  component arithmetic (a ring or a field). Overflow of integer components is covered for
  the operators, scalar, cross and matrix products (C123). Elimination and determinants need
  `RealSigned`, which only f32 and f64 implement. Rounding of f32/f64 components is covered for the same
  (C126, C127), complex quotients (C128) and determinants (C129).

## 2. Modelling conventions

* A limb slice or vector is a `List (BitVec w)`, least significant first.
* Outcomes are explicit: `Res α = ok a | panic | hang`. Debug-only panics depend on a
  `Mode` parameter (`debug`/`release`); in release, `usize` underflow wraps mod 2^64.
* `usize` has 64 bits, except that conversions of primitives (`Model/Prim`) and `BigInt`
  (`Model/BigIntWord`, C196) and `U<N>`, `I<N>` (`Model/UIntPtr`, C197) are also modelled for 16 and 32.
* A `for` loop is a structural recursion over the same index sequence with the
  same loop-carried variables. `while` loops that can diverge use fuel and an
  explicit `hang` outcome, or are defined by well-founded recursion.
* Primitive integers in the generic code (`Fixed`, `Rat`, trait impls) are `Int`s with
  a descriptor `Prim` of width and signedness; `arith` is the checked or wrapping
  result, depending on the mode.
* Specification functions are separate from the model: `val` (numeric value of a
  limb list), `sval` (signed), `ival` (BigInt), `fval`, `qval` (rationals denoted),
  `Nat`/`Int`/`ℚ` arithmetic, `Nat.testBit`, Mathlib's `Matrix` etc.
* Each property theorem lives in `Verif/Props/*.lean`, away from helper lemmas,
  with an `example` next to it giving a concrete nontrivial instance.
* Where the code violates the property: a theorem `Cxx_..._violated` proves the
  negation with a concrete witness, and `Cxx_..._partial` proves what does hold.
* Fidelity: `Verif/UnitTests/*.lean` evaluate every assertion of the repository's own
  single-threaded unit tests on the model, in the kernel; all of them hold. They are
  tests of the transcription, not proofs of properties.
* Mutation tests: `seeded/LOG.jsonl` records edits of the model that break a claim,
  each with a Lean witness of the wrong result, and the theorems that then fail.

## 3. Properties, models and proofs

| id | model | proof |
|---|---|---|
| C01, C02, C04 | element add/sub loops with their carry variables | loop invariant `value of processed prefix + carry·B^i = sum of prefixes` |
| C03, C17 | sub with the negate step | invariant as above, then bit-level description of the negate step; violated (see 4) |
| C05, C31, C39, C47, C113 | LSB-first scan | equality proved; order violated; `…_exact_partial` (`Props/Order.lean`) identify the order realised (big-endian reading of the limbs; for BigInt length first), and C113 shows it is a total order consistent with `==` |
| C37, C41 | decimal printing; signed division | exact outcome for all values in `Props/IntExact.lean` |
| C06, C07, C33, C92 | limbwise maps | `Nat.testBit`/`Int.testBit` extensionality |
| C08-C11, C34 | shift loops with masks, usize index arithmetic with Mode | per-limb description (`digit`) then `Nat` shift/testBit extensionality; C11 and C34 in addition exactly, by value (`staleShr`: the quotient plus the left-over bits of the top limb) |
| C12-C14 | double loop with `add_item` | value accounting modulo `B^len`; C14 violated. `C14/C28/C29/C35_…_exact_partial` (`Props/MulExact.lean`) show that the flag is raised iff adding one of the rows to the register carries (`RowCarries`, plain arithmetic), and derive what `checked_mul`, debug `*`, `saturating_mul` and `pow` do for all operands |
| C15 | generic double-width and u128 half-splitting versions | integer identity |
| C16, C18, C19 | bit loops on `get_bit`/`set_bit` | bit-level invariants |
| C20, C21, C30, C44 | long division loops using the (broken) comparison | invariant `num prefix = q·d + r`, for the inputs on which the comparison is right; violated in general. `C20/C30/C44_…_exact_partial` characterise the outcome for all operands: the quotient is right iff every low-limb-first comparison happens to be right (`ComparesRight`), division by zero gives all ones, and `q·d + r` is always the numerator modulo the register; `…_bits_partial` give every bit of the quotient (`LowQuot`, met by one pair of numbers only). C21: exact termination condition, the exact limb-wise result for one-limb divisors, and for divisors of several limbs every quotient limb up to one (only the lowest divisor limb counts) with `q·d + r` the numerator modulo the register |
| C22-C25 | `shrink`, bit access, iterator, conversions | induction on lists |
| C26-C37, C93 | `U<N>` = limb list of length N over `BitVec 8` | from the slice theorems |
| C38-C41, C92, C93 | `I<N>` same representation, signed value | two's complement lemma |
| C42-C54, C94-C97 | BigInt as (sign, limb list) over `BitVec 64`; `Rep` for storable, `Canon` for shrunk values without -0 | from the slice theorems |
| C45, C49-C51, C53, C54, C97, C110, C112 | as above | `…_exact_partial` in `Props/BigIntExact.lean`: outcome for the operands outside the partial theorems (negative amounts panic, `i128` targets, equality with primitives, negative printing, negative exponents, -0 on the left of bit operators, mixed operators and addition laws for both signs) |
| C67-C70 | as below | `…_exact_partial` in `Props/RatExact.lean`: the gcd is the last remainder of truncating division (`lastRem`, `signedGcd` in `Spec/Euclid.lean`), from which the stored fraction, equality and rounding follow for all inputs |
| C55 | BigInt handles over the interner state machine | invariant by induction on operations |
| C56-C59 | sequential interner state machine | invariant by induction on operations |
| C60 | interleaved `find`/`set_val` steps | violated: explicit schedule, and one for every history that leaves a slot free (`Props/InternMeet`, also for C133); with one writer among readers linearizable (simulation by the sequential interner) |
| C61, C62 | heap of nodes with CAS steps, per-thread program counters | invariant by induction on steps; C62 violated: explicit schedule |
| C63-C66, C90, C98-C100 | Fixed over ℤ raw values, overflow by `arith` | arithmetic in ℚ; C64, C66 violated |
| C67-C69, C98-C100 | Rat over ℤ with overflow by `arith` | field arithmetic in ℚ; C67-C69 violated in part |
| C70-C75, C87-C89, C98-C101 | primitive impls over bounded ℤ | arithmetic; violations listed below |
| C102-C104 | posit decoding of the 2022 standard; byte lists | injectivity of the encoding; violations listed below |
| C107 | `approx_float` over integral floats with IEEE rounding | error analysis in ℚ; sign and NaN violated |
| C108, C109 | iterator, `len` and `drop` beside any number of pushing threads | the invariant of C61 extended to readers; every node on the list or owned by a push |
| C49, C95, C97, C112 | as above | `Props/NegZero.lean`: the one stored value that is not canonical, negative zero |
| C110-C112 | operators with primitives; laws as seen by `==` | from C42-C46, C49 and uniqueness of canonical forms; violations inherited from C43, C44 |
| C105, C106 | formatting loops of Fixed; numerals with a point | digit lists; violations listed below |
| C76-C78 | records/functions over a field | `ring`, `field_simp` |
| C24, C25, C71, C82, C83, C87, C88, C102 | as in their rows | `…_exact_partial` in `Props/AccessExact.lean`, `PrimExact.lean`, `DynMatrixExact.lean`, `PositExact.lean`: exactly when the answer is right, and what it is otherwise |
| C116 | all model functions with a `Mode` | calculus `SameResult` closed under sequencing, branching, loops (`Lemmas/Profile.lean`); shifts of `U<N>` exactly |
| C117 | `Spec/Programs` (`Prog.run`: all operators of `Model/BigInt`) | induction over expressions; every operator ends in `new_slice` |
| C118 | `Expr.run` with the operators of `Model/UInt`, `Model/IInt` | induction over expressions from C26, C27, C28, C38 |
| C119 | `Prog.run`, `Expr.run` | violated, witness; inductive relation `Exact` (side conditions on integers) and induction over it |
| C120 | `Model/PrimBytes` | digits of a number, list reversal |
| C121 | `Model/Prim` (`zero`, `one`, `isZero`, `isOne`, `arith`, `checked…`) | neutrality as independent specification |
| C122 | `Model/Posit` (`cmp`, `add`, `sub`) | all panic, for all operands; equality is C103 |
| C123 | the compound models at component type `Model/Checked` (`Chk`: value or panic) | tracking relation between machine and exact computation, preserved by every operator; debug panics by induction on the summands |
| C124 | `Model/Intern`, `Model/BigIntHandle` with a bound on the live ids in every state | a chunk is appended only when every slot of the store is referenced; induction over the calls; slots in use are counted against live `BigInt`s |
| C125 | expressions over `Model/Rat` and `Model/Fixed` (`Spec/RealPrograms`) | induction over the expression from the single operations (C63, C65, C67, C90, C116); reduction never enlarges numerator or denominator |
| C114, C115 | vector accessors; determinant of static matrices | case analysis; from C79, C80 and Mathlib's determinant |
| C79-C83 | row lists; elimination loop with swaps | refinement to Mathlib `Matrix`; determinant and solution set invariant under row operations |
| C84 | binomial loop, double loop over pairs | induction |
| C85, C86, C91 | static iterators as state machines with a poll trace and moved-out marks | induction on the length |
| C126, C127 | the compound models at component type `Model/Float` (`Flt`: NaN, infinity or rational) | error of one rounding, induction over the terms; integers below `2^prec` are floats |
| C128 | complex division at component type `Flt` | error propagation through sum of squares and quotient; violated, witness `2^600` |
| C129 | determinant of static matrices at component type `Flt` | triangular: elimination changes nothing, error of a product; all: factors of a nearby matrix (C152), and a determinant changes with its entries at most as the permanent of magnitudes; violated, witnesses |
| C130-C132 | `Model/Float` (`ofInt`, `toInt`, queries, bounds, rounding), `Model/Fixed`, `Model/Rat` | nearest-float lemmas; exact characterisation where the code deviates |
| C134-C136 | `Model/CheckedNum` (a component is the outcome of a computation with `RatM`, `UN`, `IN` or `BInt`), `Model/Vector`, `Model/Matrix`, `Model/Complex` | relations between component types respected by the operations (`Lemmas/Compound`), instantiated with programs of fractions (C125), residues modulo 256^N, and exact integers; C136 violated as C43 is |
| C137, C138 | `Model/IInt`, `Model/Rat`, `Model/Fixed`: `todo!()` is `panic` | by definition; distances by induction over the components |
| C139 | `Model/CheckedNum` at `Fixed.ops`, `Model/Vector`, `Model/Matrix`, `Model/Complex` | transferred from C123 (raw values are machine integers), scaled by `2^N` |
| C140 | `Model/Float` (`sqrt`), `Model/Complex` (`abs`) | integer square root of the scaled number; error of the square (C126) carried through the root |
| C141-C143 | `Model/FixedInts`: `fixed.rs` over any `Integral`, with the operators of `U`, `I`, `BigInt` | from the exact theorems on those operators (C27, C30, C31, C34; C38; C43-C47, C54, C97); `FixedOf.prim`: at primitives it is `Model/Fixed` |
| C144 | `Model/Matrix` at component type `Flt`, incomparable pivots panic | a bound on the entries after each pivot, for two, three, or any number of rows with room; violated, witness with `2^600` |
| C145, C146 | `Model/Float` (`root`, `cbrt`, `csc`, `sec`, `cot` with `powf`, `sin`, `cos`, `tan` as parameters) | logarithm bounds in ℝ and one rounding (C126); assumptions on `powf` are satisfiable (`powfOk_exists`) |
| C147 | `Model/Rand` on the words of the generator | counting preimages by induction over the bytes |
| C133 | `SysStep` of `Model/InternConc`: adds, clones and drops of any number of threads, with a log of finished operations | violated: explicit schedule (a dropped slot is reused between `find` and `incr`); invariant over all interleavings in which no two threads inside `add` are at the same slot, unless both have found their value there; `Model/InternPush` has `push` in two steps, counting and appending (`C62_counted_partial` justifies this from the list of C61): violated if two threads push at the same time (`C133_push_violated`, whenever all slots are in use), otherwise as before (`C133_push_partial`) |
| C148 | `Model/BigIntConc`: threads whose steps are the reads of operands, the steps of the interner's `add` (C133), clones, drops and negations; each variable carries the number a single thread would have computed | violated: two threads in lockstep; otherwise a simulation by the interner's transition system of C133; with `push` in two steps in `C148_push_partial` |
| C149 | `Model/Matrix` (`Mat`) | row by row, `List.ofFn` |
| C150 | `Model/Nested`: the operators of `Complex` and of square matrices as operators of entries | `Complex` over a commutative ring is one (C76), so C79 applies; machine integers and blocks by relations respected by `+` and `*` |
| C151 | `Model/Matrix` (elimination, determinant) at floats | simulation of exact elimination (`Spec/Elimination`) step by step; total unimodularity is preserved by pivoting |
| C152 | `Model/Matrix` (elimination, determinant) at floats | backward error analysis (`Spec/FloatFactors`): invariant relating the current matrix, the multipliers used and the reordered original, with errors measured by the computed results; a step that returns finite entries started from finite ones |
| C153 | `Model/LinkedWeak` (push, get, iterator, is_empty with their orderings) | invariant: every view, of threads and released with pointers, knows an initial part of the chain and its nodes; each program counter comes with the position it knows |
| C154 | `Model/LinkedWeak` (len) | two-thread witness; knowledge of the first node persists |
| C155 | `Model/InternWeak` (add, get, incr, decr with their orderings; values as plain memory with numbered accesses; handles owned, lent, passed on) | invariant: who may use a handle knows every write of its slot and no zero count from before; every access is known to the adders, or released with the newest count, or known to a user of a handle |
| C156 | `Model/StaticDrop` (elements own tokens; created and dropped tokens noted; panics unwind) | every poll conserves the count of each token; induction over the loop of each consumer; leak witnesses evaluated |
| C157 | `Model/RatInts` (`Rat<T>` for any operators of `T`; for primitives it is `Model/Rat`, proved) | the laws of `Spec/IntLaws` assumed of `T`; primitives in debug builds and unbounded integers shown to satisfy them |
| C158 | `Model/FixedInts` (`Fixed<T, N>` for any operators of `T`) | likewise; primitives shown to satisfy the laws in both build modes |
| C159 | `Model/Nested` (`Complex` entries in `Model/Matrix`, `Model/Vector`) at component type `Flt` | error of a complex product (C126), induction over the terms with errors relative to the magnitudes (`Lemmas/FloatNested`) |
| C160 | `Model/InternRef`: the interner of `Model/Intern` with the references in use and undefined behaviour as an outcome (reading an absent value, overwriting a value in use), conversions that panic | violated for ids that `add` has not returned and for references kept past the last count; otherwise invariant by induction on the calls. `Props/InternRefExact`: which calls are undefined, in terms of what the caller has been told, by an invariant over all calls |
| C161 | `Model/Intern`, `incrLeaves` of `Model/InternRef` (the store after `incr`, also if it panics) | violated: the count wraps around; exact description at the limit, counts right below it; the state at the limit is reachable by induction; with counts of `w` bits (`Model/InternCount`, `Props/InternCount`) the same, and agreement with 64 bits below the limit, call by call and for whole histories (induction over calls) |
| C162 | `Model/Element` | invariant of the loops with the limbs above the left operand kept apart |
| C163 | `Model/LinkedElems`: element types with the accesses a shared reference allows, the compiler's `Send`/`Sync` with the impls of `linked.rs`, executions as lists of events with happens-before | violated; induction on the type (which accesses conflict) and a two-thread execution for every other type |
| C164 | `FixedOf` of `Model/FixedInts` | from `Computes` (`Spec/IntLaws`: what a type of integers has to satisfy); violated for every such type |
| C165 | `RatOf` of `Model/RatInts` | from `Checks` (`Spec/IntLaws`); exact results, violated for every type without bounds |
| C166 | `FixedOf`, `RatOf` of `Model/SignedInts` | from `Signs` (`Spec/IntLaws`); exact conditions, violated for every type that has -1 and 2 |
| C167 | `FixedOf`, `RatOf` of `Model/SignedInts`, `I<M>` | from `Bounds` (`Spec/IntLaws`); cases on the signs of the fraction; violated for every two's complement type |
| C168 | `RatM.debug` of `Model/Rat` | `quotientVal` (`Spec/Decimal`) reads the text back; digits contain no space |
| C169 | `Model/StaticCodegen`: the pipelines of `Model/StaticIter` with a world that notes panics | induction on the indices, from C85 |
| C170 | `Model/LinkedWeak` (all calls) | the steps spent in a call are a function of the program counter, which the positions known from C153 bound by the length of the list |
| C171 | `Model/InternConc` (`addStep`) | the steps spent are a function of the program counter; slots only get more |
| C172 | `Model/LinkedSend`: what an element can have in common with a clone (by type), executions in which the list is moved between threads, happens-before by program order and moves | violated; induction on the type and on the execution (accesses by successive owners are ordered), a two-thread execution for every other type |
| C173 | `Model/Container`: in-place shifts and bitwise addition over any implementation of `BitSliceExt` (methods with state, panics, explicit undefined behaviour) | violated; loop invariants for containers that keep their size, a simulation to the list models for containers that are a place for limbs |
| C174 | `Model/BigIntOwn`: every function of `BigInt` on words over the store, with its clones, temporaries, moved operands, drops and the drops of an unwinding panic; `Model/BigIntProgram`: programs over variables, with panics caught. Simplified: one thread; a count that wraps (2^64 references) and a panic while unwinding are not followed; the scratch number of a printing loop is dropped before its digits are written | for every function: outcome as on values, and the store owns exactly what was alive before plus the result (rules for scopes, as in a Hoare logic with an unwinding exit); induction over programs |
| C175 | `Model/Fmt`: the printing functions on a formatter with options and a writer; `Spec/Fmt`: `stdInt`, the core library's `pad_integral` | violated; every function writes the text of its model on values, whatever the options; length and membership of characters for the exact condition |
| C176 | `Model/Fmt`: the writer is any function of what it has been given, `?` passes refusals on. Simplified: `{}` of a primitive integer hands over sign and digits separately, other pieces as in the code | a composition rule for sequencing, loops by induction |
| C177 | `Model/Fmt` (derived `Debug` of `I`, default options) | a reader of numbers in texts (`Spec/Fmt`), induction over the bytes |
| C178 | `Model/InternAny`: comparisons, conversions and destructors are programs with state that may panic and call the interner again; undefined behaviour explicit. Simplified: chunks are one list of slots, counts do not wrap, recursion bounded by fuel | violated, witnesses evaluated; a rule for programs that do not add (values and free counts unchanged), invariant over all programs |
| C179 | `Model/LinkedIter` (`dropPanics`) | violated; the walk of C109 up to the first panic |
| C180 | `Model/FmtDebug`: the core library's `pad_integral`, `debug_list`, `debug_tuple`, `debug_struct` and `PadAdapter` as the strings they hand over, with all options; components are primitive integers | a reader of signed integers in texts (`Spec/Fmt`); indentation only adds spaces at the start of lines, which the reader skips; layout by induction |
| C181 | `Model/Equality`: derived `==` and `Hash`, those of slices and arrays as in the core library; `==` of the components is any function | induction over the components; bytes of a primitive integer determine it (C120) |
| C182 | `Model/Default` | by evaluation; C77, C79, C102 for what zero means |
| C183 | `Model/LinkedWeak` | the program counter bounds the steps taken from above, the invariant of C153 bounds it by the length; progress from the invariant |
| C184 | `Model/InternWeak` | a measure that each own step lowers and no other step changes; progress: no view knows of counts still to come |
| C185 | `Model/InternTurns` (as `Model/InternWeak`, `add` without the lock) | violated: explicit runs for any two values; with synchronisation, simulation by the model with the lock |
| C186 | `Model/InternProg`: programs of threads over `Model/InternWeak`, names stand for handles; and the same programs with names standing for values | simulation: one step over the interner is one or no step over values, from the invariant of C155; determinacy by induction; every handle keeps a name in the thread that owns it (`Spec/Tidy`) |
| C187 | `Model/BigIntThreads`: programs over `BigInt`s as the programs over the interner that the code makes of them. Simplified: the assertion that ids fit 62 bits is left out; comparisons read the numbers; a panic ends the thread, which drops what it owns | the translation computes what the operations on numbers compute (induction over programs), then C186 |
| C188 | `Model/Float`, `Model/Vector`, `Model/Matrix`, `Model/Complex` | violated by complex products; cases, induction over the components; values in Mathlib's extended reals |
| C189 | `Model/Matrix` | the reduced matrix is a row echelon form (C81): its nonzero rows are independent; elimination finds nothing to do in it; determinant by C80; rank and solutions as in Mathlib |
| C190 | `Model/Vector`, `Model/Float` | `powf(x, 2)` is any function with a bounded relative error; errors of differences, squares and sum are composed (C126), then carried through the root (C140); special values by cases |
| C191 | `Model/FloatSign`: floats with the sign of zero, by the rules of IEEE 754; `Model/Vector`, `Model/Complex`, `Model/Matrix` over them | violated by quotients; forgetting the sign is a homomorphism to `Model/Float`; elimination commutes with every map of components that respects zero, order and quotients by what is not zero |
| C192 | `Model/Float`, `Model/Vector`, `Model/Matrix`, `Model/Complex` | rounding to nearest is monotone (two numbers in the wrong order would both be nearest only if the exact ones were in that order, too), special values by cases; sums by induction, products through the relation "not negative and `<=`", which `+` and `*` respect |
| C193 | `Model/FloatRem`: `%` of `core`; `Model/Vector` | the exact remainder is a multiple of the smaller of the two units and not larger than either operand, hence representable; uniqueness by arithmetic; signs of zero by `Model/FloatSign` |
| C194 | `Model/Float`, `Model/FloatSign`, `Model/Vector`, `Model/Matrix`, `Model/Complex` | rounding commutes with negation and, in range, with powers of two; small sums are multiples of the smallest float, hence exact; Sterbenz as a case of C193 |
| C195 | `Model/UInt`, `Model/IInt`, `Spec/DropIn` (expressions; primitives as in the Rust reference) | each operator refines the primitive on literals, by C27–C34; induction over the expression. `Props/DropInExact`: the outcomes of all expressions, as a relation on numbers, from the exact results of C27–C34, C38, C41, C92 |
| C196 | `Model/BigIntWord` (all of `BigInt` with `usize` of any width), `Spec/BigExpr` (programs) | each operation determined by sign and magnitude, then simulation between two widths by induction over the program; `C196_at_64` shows that the model with 64 bits is the case `w = 64`; the operations that differ are characterised on each target in `Props/BigIntWordExact`, over the words of the number (`Spec/Words`), and `approx_float` in `Props/ApproxWord` |
| C197 | `Model/UIntPtr` (the operations of `U<N>` and `I<N>` that use `usize`, with `p` bits) | each operation equals the one with 64 bits for values of `N` bytes, then induction over the expression (`Props/UIntPtr`); `C197_at_64` shows that the models of `U<N>` and `I<N>` are the case `p = 64`, so what is proved about the operators with 64 bits holds on every target |
| C198 | `Model/InternConc` (`addStep`, `SysStep`), `Model/Intern` (`add`) | invariant over all interleavings: the slots ever used are the first `u`, and `u` plus the threads that have not counted their reference yet is at most the number of calls; for one thread the store is determined by the list of different values; the bound is attained by `k` threads that all count before any writes (`Props/InternIds`); threads that take turns: invariant over all interleavings with clones (`Props/InternIdsTurns`); without capacity: chunks plus threads that may still push are at most chunks before plus calls, reached by `k` threads that all find nothing before any pushes (`Props/InternIdsGrow`) |
| C199 | `Model/InternCapacity` (`withCapacityAt`, with `usize` of `w` bits and the overflow of both build profiles) | the result is computed in each range of the capacity and compared with `withCapacity`; the room is that of `C198_alone_partial` (`Props/InternCapacity`) |
| C200 | `Model/FmtDebugHex`: as for C180, with `LowerHex` and `UpperHex` of the core library for the components | the text of a component is that of `stdInt` with the digits of the two's complement; a reader that keeps the hexadecimal digits; texts separated by commas are told apart by induction (`Props/FmtDebugHex`) |

No property is left out as inexpressible; for C60, C133 and C148 only the
sequentially consistent logic is expressed (no weak memory; for the list see C153, for
additions that take turns C155 and C185), for C83 only
index arithmetic (no provenance).

## 4. Disagreements between code and property

Listed by property; each has a `_violated` theorem.

* C03/C17/C43: `ElementSub::sub`/`BitwiseSub::sub` negate a borrowed result by
  flipping bit 0 and complementing. That is right only for odd differences; even
  differences come out 2 too small (`1-3` gives magnitude 0). So BigInt `1 - 3 = 0`.
* C05/C31/C39/C47: comparison scans from the least significant limb, so for
  several limbs the order is wrong (`[1,0]` vs `[0,1]`).
* C09: `shl_wrapping` masks the amount with `2^floor(log2 bits) - 1`, which is not
  reduction modulo the bit length when that is not a power of two (3 bytes: 24 bits).
* C10: `shr` by a limb or more underflows `usize` (debug panic).
* C11: `inner_shr_wrap_and_mask` keeps the old high bits of the top limb (`0x80u8 >> 1 = 0xC0`),
  and shifting by exactly the bit length underflows.
* C14/C28/C29: `mul_overflowing` misses partial products that fall completely out of range
  (`16*16` in one byte is "Some(0)"); for one limb the flag is never raised.
* C16: `BitwiseAdd::add_in_place` always panics (its loop writes one bit past the end).
* C20/C30/C44: BitwiseDiv is wrong for divisors of several limbs (768/513 gives 511) and for
  divisors above half a limb against longer numerators (256/255 gives 0), has no result when the
  divisor is longer than the numerator, and divides by zero without a panic (BigInt: `2^64 - 1`).
* C21: ElementDiv is wrong for numerators of several limbs (868/7 gives 14), and need not
  terminate (1/256). Its in-place forms are `todo!()`. A divisor written with more limbs panics.
* C23: `set_push` past the end grows to `idx` limbs and then drops the value.
* C24: `BitIter::len` subtracts the total index from the bits of the current limb.
* C25: an array with a spare high limb cannot be read back.
* C34: debug `<<` by exactly 8N does not panic; the release masks and `>>` as in C09, C11.
* C35: `U::pow(0, 0) = 0`; every nontrivial power panics for N >= 9.
* C36: `U<N>::from_checked(uM)` truncates for N < size and panics for N > size; casting to a
  narrower primitive panics.
* C37: Display of a multi-byte `U<N>` fails (division by a shorter slice panics, wrong comparison).
* C40: `I::abs` clears the sign bit instead of negating.
* C41: `I` division and remainder use the wrong `abs` (C40), and the sign "signs differ".
* C44: the remainder of BigInt takes the sign "signs differ".
* C46/C48: `-0` is a distinct negative zero.
* C49/C50: conversions to signed types drop the sign (`-5` becomes `Ok(5)`, MIN is "above",
  `2^127` becomes `Ok(i128::MIN)`); `BigInt == unsigned` ignores the sign; `== MIN` panics in
  debug builds.
* C51: negative numbers display as "-0" (loop condition `scratch > 0`).
* C58: a value live in a later slot is duplicated when an earlier slot is dead.
* C60: two adds that pick the same dead slot race.
* C133: an add that has found its value in a slot counts its reference only later; if the slot is
  dropped and reused by a third thread in between, the id refers to the wrong value. Two threads that push
  a chunk at the same time may get one id, because of the stale length of C62.
* C62: the returned length can be stale under contention.
* C64: multiplication/division are on raw values; `one()` is then not neutral.
* C65: `ceil` panics in debug builds when 1 is not representable (signed, N = bits - 1). Types with N >= bits
  are accepted; `floor` then panics, or rounds at the wrong place in release builds
  (`C65_wide_exact_partial`).
* C66: the rounding threshold is 0 or 1 raw, so `round` goes up for every positive fraction.
* C67: `Rat::new(-128_i8, 5)` panics (gcd takes MIN / -1 steps).
* C68: fractions whose numerator divides the denominator (or conversely) are not reduced
  (`2/4`), and the sign is not moved to the numerator.
* C69: `floor` truncates, `ceil` of an integer adds 1, `round` is wrong for negative numbers. The
  documentation of `Real` (`class.rs`) itself says floor rounds toward 0, ceil away from 0
  and trunc toward negative infinity, while f32/f64 and Fixed floor toward negative infinity; the
  property uses the mathematical functions.
* C70: `gcd` can be negative, and panics for MIN and -1.
* C71: saturating `isize` to `i16`/`i32` truncates, and `isize` to `i8` is missing from the tables.
* C73: generic `wrapping_add` subtracts. C75: `is_one` is always true.
* C79: the product of matrices with no columns/rows in between panics (`C79_mul_empty`).
* C81: rows and columns are exchanged for rectangular matrices: static ones panic unless they are empty
  or have one column beginning with a nonzero entry, which are returned unreduced
  (`C81_rect_exact_partial`).
* C82: the column index is not checked, so it reads other rows; `new` and `swap_rows` overflow in release builds, where `swap_rows` may then exchange two rows though one of the numbers given is out of range.
* C83: bounds test uses `>` instead of `>=`.
* C87/C88: exponents and shift amounts are cut to `u32`.
* C91: elements behind the first failure are leaked, and so are the ones collected before it
  (`C91_leak_exact_partial`).
* C94: truncating casts of BigInt clamp the magnitude (256 to u8 is 255, -1 to u8 is 1, -128 to
  i8 is -127), and `-2^127` to i128 panics in debug builds.
* C95: 128-bit `partial_cmp` compares limbs from the least significant one; `==` and
  `partial_cmp` with unsigned types disagree on negative numbers.
* C96: negative zero prints as `-0b0...`.
* C97: `!` complements the limbs of the magnitude and keeps the sign; `!!x` may lose limbs.
* C98: `0.is_positive()` is false although the documentation says `>= 0`; `Rat` looks only at
  the numerator.
* C99: `2/2` is not `is_one`; `Fixed::one()` is -1 for signed types with N = bits - 1.
* C102: negating a posit flips its sign bit, where the standard takes the two's complement of the
  pattern: zero becomes NaR, 2 becomes -1/2.
* C105: `{:?}` of `Fixed` prints nothing for zero and negative numbers, drops the point and leading
  zeros below 1/10, and overflows when `10^N` does.
* C106: `{:b}` of `Fixed` prints the raw value of the integer part, and the fraction without leading
  zeros.
* C107: `approx_float` ignores the sign (-5 becomes 5.0) and returns NaN when a limb from the
  sixteenth up is zero (`2^1088`), as the code multiplies zero by infinity.
* C110, C112: consequences of C43 and C44: `1 + (-3)` is 0 but `(-3) + 1` is -2, `0 + (-4)` is -2,
  `(1 - 3) + 3` is 3; `7 % (-2i8)` is -1.
* C116: `U<1>`: `1 << 8` is 0 in debug and 1 in release builds; `U<3>`: `1 << 17` is 2^17 and 2.
* C119: compound BigInt expressions inherit C43: `(1 - 3) + 2` is 2.
* C122: `cmp`, `+` and `-` of posits are `todo!()`, so `<` and sorting panic.
* C128: dividing complex numbers of magnitude `2^600` gives NaN or 0, as the squares overflow; division by
  a real number squares it as well.
* C129: `row_reduce` takes the smallest nonzero entry for its pivot, so the determinant of
  `[[2^-60,1,1],[1,1,2],[1,2,1]]` comes out as 0 instead of about 2; that of the integer matrix
  of the repository's test is not an integer.
* C130: `u128::MAX` as `f32` is infinity; floats are truncated to integers (2.75 to 2), NaN becomes 0.
* C131: `min_positive` is the smallest normal float, not the smallest above 0.
* C136: see C43; `(1 1) · (1 -3)ᵗ` over BigInt is 0, and the real part of `(1 + i)(1 + 3i)` is 0.
* C136: the matrix `(0 -2)` over BigInt times the identity matrix is not `(0 -2)`, as `0 + (-2)` is 0.
* C137: `<<`, `>>`, `pow`, `checked_*` and `saturating_*` of `I<N>` are `todo!()`.
* C138: comparing, `%`, `pow`, `trunc`, `fract`, `log`, `sqrt`, `root` and `cbrt` of `Rat`, `pow` and `log` (hence `root`, `cbrt`) of `Fixed` are `todo!()`; so
  `sqrt` of `Fixed`, vector distances and absolute values of complex numbers over both panic.
* C139: see C64; the scalar product of `(1)` and `(1)` over `Fixed<i8, 2>` is 4.
* C140: in f64 the absolute value of `2^600` is infinity and that of `2^-600` is 0, because the square is rounded first.
* C141: over `U<2>` with 8 fractional bits `fract` of 1/256 is 255 + 1/256; over `U<3>` in release builds with 17
  fractional bits `one` is 2/2^17; 1 < 1/256 over `U<2>`; 1.25 rounds to 2. (The stale bits of `>>`, C34, are
  shifted out again by `floor`.)
* C142: over `I<M>`, `one`, `from_val`, `is_one`, `floor`, `ceil`, `trunc`, `fract` and `round` always panic (C137).
* C141: over `U<M>` with seven fractional bits or more, `round` compares the fraction with what dividing one by two gives by the
  long division of C30, which is all ones (or all ones from bit 7): it is nearly always `floor`. With all bits fractional the number two
  does not exist: debug builds panic, release builds give `floor`.
* C143: over `BigInt`, `floor` of -1.5 is -1, `ceil` of it 0; `ceil` of the whole number 2^62 with two fractional bits is 2^62 + 1,
  because `!mask` has only as many limbs as the mask; with 64 fractional bits `floor` panics in debug builds and the
  `fract` of 1.5 is 2.5 in both.
* C144: elimination of `[[2^-600, 0, 1], [2^600, 1, 1], [2^600, 1, 2]]` over f64 computes inf - inf and panics comparing the NaN.
* C145: `cbrt` and `root` are `powf(1/n)`: NaN for all negative numbers, and the cube root of `2^1023` is more than 100
  floats below `2^341`, however accurate `powf` is.
* C132: see C69; the floor of -1.5 is -2 for f64 and Fixed, -1 for Rat.
* C148: see C60; when one thread stores `2^64 + 5` and another `2^64 + 7` at the same time, both may read as `2^64 + 7`.
* C152: entries below a pivot are computed like all others and not set to zero; `row_reduce` of
  `[[3, 1, 2], [7, 3, 5], [10, 2, 1]]` over f32 has `-2^-24` below the second pivot.
* C154: `UnsyncLinked::len` loads the head pointer with `Relaxed` and then dereferences it. In a thread
  that has not synchronised with the list this is a data race with `Node::new` (`C154_len_violated`);
  `push` uses the same load after a failed exchange with `Acquire`, where it is fine (C153).
* `UnsyncLinked<T>` is `Send` and `Sync` for every `T` (`linked.rs` L150-153, no bounds on `T`), so that safe code
  can share values that are not `Sync` between threads. This is outside of the model, which has values without
  interior mutability.
* C156: if a closure panics, the elements not yet polled stay in `MaybeUninit` slots and are leaked; collecting into
  `Option` or `Result` leaks also the elements already stored (C91 is the same without a panic). Nothing is dropped twice.
* C158: `round` of `Fixed<T, N>` is wrong whatever `T` is: one half is computed as the raw quotient of one and two,
  which is 0, so that every number which is not whole is rounded up.
* C160: the methods of the interner are safe functions, but `incr` makes a slot without a value look alive, so that `get`
  unwraps an absent value unchecked; and a reference returned by `get` lives as long as the interner is borrowed, while
  `decr` and `add` (also `&self`) may overwrite the value it refers to.
* C161: the 2^64-th reference (the 2^32-th on a 32-bit target, within reach of safe code that forgets clones) wraps the count to 0; `debug_assert_ne!` comes after `fetch_add`, so a debug build panics
  but leaves the value released all the same.
* C162: `add_overflowing` and `add_checked` report overflow of the longer operand: adding `[1, 1]` to `[255]` (8-bit limbs)
  leaves `[0]` and reports no overflow.
* C163: `unsafe impl<T> Send/Sync for UnsyncLinked<T>` (`linked.rs` L150-153) have no bounds on `T`, so safe code can share a
  list or interner of `Cell`s and race on them (and send one of `Rc`s). With the bounds, `Interner<T>` would not be `Sync` of
  its own, as it contains `UnsafeCell`s.
* C164: the wrong scale of `*` and `/` (C64) is not a matter of the backing type.
* C165: nor is it that `Rat::ceil` of a whole number is one too large (C69).
* C166: the sign of a fraction is taken from its numerator alone, whatever the type of integers (C98); `is_one` is false for 2/2.
* C167: `Rat<T>::min_positive` is 1/MAX and `max_negative` -1/MAX, though -1/MIN is a smaller positive and 1/MIN a greater
  negative number (`Rat::new(1, MIN)` makes the latter, if `T` has a gcd).
* C168: fractions that `Rat::new` does not reduce (C68) also print differently.
* C172: `unsafe impl<T> Send for UnsyncLinked<T>` (`linked.rs` L151) has no bound on `T`: a list of `Rc`s can be moved to another
  thread and dropped there while the first drops its own clone.
* C173: `inner_shl_wrap_and_mask` and `inner_shr_wrap_and_mask` (`shl.rs` L53, `shr.rs` L50) rely for safety on `get_opt` and
  `slice` of a trait that is safe to implement, and on the length not changing while limbs are written.
* C49, C95, C112: negative zero (C48) is refused by every unsigned type as too small, compares below the primitive 0, and `-0 + 4` is 2.
* C175: `fmt` of `U` and `BigInt` writes to the formatter directly (`u.rs` L94-119 and L233, `big_int.rs` L208-320) and never uses `pad_integral`: all
  options are ignored, `{:x}` prints `0x` also without `#`, and `{:b}` prints leading zeros.
* C178: `add` loads a count, then compares, then counts, then converts, then overwrites (`intern.rs` L101-106, L151-158): code called in
  between that adds a value can take the same slot. `set_val` drops the old value in place (L48), so its destructor must not look at the slots.
* C179: `Drop` of `UnsyncLinked` (`linked.rs` L139-148) has no guard: a destructor that panics leaks all elements behind it.
* C185: thread 0 adds a value, and when that has returned, thread 1 adds one: thread 1 reads the value that thread 0 wrote without anything ordering the write before the read, because `incr_inner` releases the count before `set_val`. A lock around `add` avoids it (C155); writing the value first would not, since `find` also reads values of slots whose (possibly stale) count is 0.
* C188: `(∞ + 0i)·(1 + 0i)` is `∞ + NaN i`, of absolute value NaN: `Mul for Complex` (`complex.rs` L97-110) multiplies infinite parts by zero parts. Factors with both parts nonzero keep the absolute value infinite.
* C190: in f64 the distance of `(2^600, 0)` from `(0, 0)` is infinity and that of `(2^-600, 0)` is 0, because the squares are rounded first.
* C191: `1.0 / 0.0` and `1.0 / -0.0` are different infinities though the divisors compare equal (IEEE 754); `csc` and `cot` inherit it. Divisions inside `Complex`, `row_reduce` and `determinant` are not affected.
* C195: in `U<1>`, `0x80 >> 1` is 0xC0; in `U<2>`, `256 / 255` is 0; in `I<1>`, `-1 / 1` is -127; debug builds of `U<1>` compute `16 * 16` as 0 where `u8` panics. Consequences of C28, C30, C34 and C41.
* C196: with 32 bits, `2^32 + 5 > 2^33 + 3`, `5 / 2^32` panics, `(3 * 2^32) / (2^33 + 1)` is 8589934591, `!0` is `2^32 - 1`, `2^32 >> 32` panics in debug builds, `2^63` converts to `i64::MIN`, 5 has 32 binary digits and `2^32` approximates to 4294967295.0; with 64 bits the results differ. The order, division and `>>` go wrong with 64 bits too, but for numbers of more than 64 bits.
* C197: `U<4>::from(1) << U<4>::from(1)`, `2.pow(3)` in `U<3>` and printing a `U<3>` zero panic where `usize` has 16 bits: `usize::from_checked` and `U::from_checked(usize)` panic when `N` exceeds the bytes of `usize`. With 32 bits the same happens from `U<5>` on, with 64 from `U<9>` on. `U<0> << 0x8000` in release builds panics with more than 16 bits only.
* C198: `test_multi_thread` (`intern.rs` L213-226) lets 100 threads add ten values to `with_capacity(10)` and asserts ids below 10; there is a schedule in which the eleventh thread gets the id 10 (the search does not see a value between `incr_inner` and `set_val`). One thread that adds 5 and 6, drops 5, adds 6 and then 5 gets the ids 0, 1, 0, 2. `k` threads that add one value to a new interner may allocate `k` chunks and get the ids 0, 32, …, 32(k - 1).
* C199: `(capacity + CHUNK_SIZE - 1) / 32` (`intern.rs` L86) overflows from `usize::MAX - 31` on: debug builds panic; in release builds `with_capacity(usize::MAX)` makes no slot at all.

## 5. Theorems, status and axioms

Axioms: p = `propext`, c = `Classical.choice`, q = `Quot.sound`, - = none. Names are in namespace `Verif`.

| id | status | theorems (axioms) | note |
|---|---|---|---|
| C01 | proved | `C01_add_exact` (cqp) | All widths w>0, all slices. |
| C02 | proved | `C02_add_in_place` (cqp) | All widths w>0, len(right) <= len(left). |
| C03 | partial | `C03_sub_partial` (cqp), `C03_sub_violated` (qp) | Code violates the property: on a borrow with an even difference the magnitude is 2 too small. Sign flag, normalisation and all other magnitudes proved. |
| C04 | proved | `C04_sub_in_place` (cqp) | All widths w>0, len(right) <= len(left). |
| C05 | partial | `C05_cmp_partial` (cqp), `C05_cmp_violated` (p), `C05_cmp_exact_partial` (cqp) | Code violates the property: least significant differing limb decides; exact order (big-endian reading) proved. Equality and single-differing-limb order proved, general behaviour characterised. |
| C06 | proved | `C06_bit_ops` (cqp) |  |
| C07 | proved | `C07_not` (cqp) |  |
| C08 | proved | `C08_shl_exact` (cqp) |  |
| C09 | partial | `C09_shl_checked` (cqp), `C09_shl_wrapping_partial` (cqp), `C09_shl_wrapping_violated` (qp), `C09_C11_empty_exact_partial` (cqp) | shl_checked fully proved. shl_wrapping violates the property for bit lengths that are no power of two; proved for powers of two and characterised in general. |
| C10 | partial | `C10_shr_release` (cqp), `C10_shr_debug_partial` (cqp), `C10_shr_violated` (qp) | Release builds fully proved. Debug builds panic for every amount of at least one limb (violation). |
| C11 | partial | `C11_shr_in_place_partial` (cqp), `C11_shr_in_place_panics` (cqp), `C11_shr_in_place_violated` (qp), `C11_shr_exact_partial` (cqp), `C09_C11_empty_exact_partial` (cqp) | Code violates the property: high bits of the top kept limb are not cleared, and a shift by exactly the bit length panics in debug builds. |
| C12 | proved | `C12_mul_exact` (cqp) |  |
| C13 | proved | `C13_mul_in_place` (cqp) |  |
| C14 | partial | `C14_mul_flag_partial` (cqp), `C14_mul_flag_exact_partial` (cqp), `C14_mul_flag_violated` (p) | Code violates the property: overflow out of the slice by out-of-range partial products is not reported (never, for one limb). Soundness of the flag and the exact condition for raising it proved. |
| C15 | proved | `C15_widening_mul` (cqp) |  |
| C16 | partial | `C16_add_in_place_violated` (cqp), `C16_add_in_place_panics` (cqp), `C16_bitwise_add_partial` (cqp) | growing form proved exact; the in-place form panics on every input |
| C17 | proved | `C17_sub_agree` (cqp) |  |
| C18 | proved | `C18_bitwise_shifts` (cqp) |  |
| C19 | proved | `C19_bitwise_mul` (cqp) |  |
| C20 | partial | `C20_bitwise_div_violated` (qp), `C20_bitwise_div_limb_violated` (qp), `C20_bitwise_div_longer_violated` (cqp), `C20_bitwise_div_partial` (cqp), `C20_bitwise_div_exact_partial` (cqp), `C20_bitwise_div_bits_partial` (cqp), `lowQuot_unique` (cqp) | code violates the full claim for divisors above half a limb; proved below that, and the exact set of operands with a right quotient is characterised, as is every bit of the others |
| C21 | partial | `C21_element_div_violated` (qp), `C21_element_div_hangs_violated` (cqp), `C21_in_place_violated` (-), `C21_element_div_partial` (cqp), `C21_element_div_terminates_partial` (cqp), `C21_element_div_limbwise_partial` (cqp), `C21_element_div_digits_partial` (cqp), `C21_element_div_exact_partial` (cqp), `C21_element_div_longer_violated` (cqp) | code violates the full claim (wrong results and non-termination); proved when the divisor fits a limb and divides every limb above the lowest; exact termination condition, exact (limb-wise) result for one-limb divisors, and the exact quotient limbs for longer divisors proved |
| C22 | proved | `C22_shrink_canonical` (cqp), `C22_shrink_shortest` (cqp) |  |
| C23 | partial | `C23_set_push_violated` (p), `C23_bit_access_partial` (cqp), `C23_set_push_lost` (qp) | all single-bit accessors proved; set_push at or past the end loses the value |
| C24 | partial | `C24_len_violated` (qp), `C24_len_release_violated` (qp), `C24_bit_iter_partial` (cqp), `C24_len_exact_partial` (cqp), `C24_len_right_exact_partial` (cqp) | items proved; len is wrong after the first limb |
| C25 | partial | `C25_round_trip_violated` (p), `C25_conversions_partial` (cqp), `C25_read_exact_partial` (cqp), `C25_round_trip_exact_partial` (cqp), `C25_no_limbs_partial` (p) | round trip fails when the array has spare high limbs; everything else proved |
| C26 | proved | `C26_ring_ops` (cqp), `C26_ring_laws` (cqp) | all N; release `*`; wrapping_add/sub |
| C27 | proved | `C27_checked_add_sub` (cqp) |  |
| C28 | partial | `C28_checked_mul_partial` (cqp), `C28_checked_mul_exact_partial` (cqp), `C28_checked_mul_violated` (p), `C28_checked_mul_two_violated` (p) | code misses overflows: U<1> 16*16 is Some(0); exactness of fitting products and soundness of None proved; exact condition for a reported overflow proved |
| C29 | partial | `C29_saturating_partial` (cqp), `C29_saturating_mul_exact_partial` (cqp), `C29_saturating_mul_violated` (p) | saturating_mul inherits missed overflows; add/sub proved for all operands |
| C30 | partial | `C30_div_partial` (cqp), `C30_div_one_byte_partial` (cqp), `C30_div_violated` (qp), `C30_div_zero_violated` (qp), `C30_div_exact_partial` (cqp), `C30_div_bits_partial` (cqp) | divisors above 128 with wider dividend wrong; zero divisor does not panic |
| C31 | partial | `C31_order_partial` (cqp), `C31_order_violated` (p), `C31_order_exact_partial` (cqp) | exact order proved; comparison is least-significant-byte first; equality and one-byte differences proved |
| C32 | proved | `C32_bytes_round_trip` (qp), `beVal_reverse` (qp) |  |
| C33 | proved | `C33_bit_ops` (cqp), `C33_boolean_algebra` (cqp) |  |
| C34 | partial | `C34_shifts_exact_partial` (cqp), `C34_shifts_partial` (cqp), `C34_shl_release_violated` (qp), `C34_shr_violated` (qp), `C34_shl_debug_violated` (qp) | violated by code in three ways; exact conditions proved |
| C35 | partial | `C35_pow_partial` (cqp), `C35_pow_exact_partial` (cqp), `C35_pow_violated` (p), `C35_pow_wide_violated` (p) | 0^0 = 0 and N >= 9 panics in the code; rest proved for N <= 8; the outcome for every base, exponent, width and profile is characterised exactly |
| C36 | partial | `C36_casts_partial` (cqp), `C36_to_prim_violated` (qp), `C36_from_prim_violated` (p), `C36_from_prim_wide_violated` (qp) | code panics when sizes differ the wrong way and truncates silently; complete description of the actual behaviour proved |
| C37 | partial | `C37_display_partial` (cqp), `C37_display_violated` (qp), `C37_display_exact_partial` (cqp) | exact outcome for every N proved; U<1> proved for all values; U<2> and larger panic on nonzero values |
| C38 | proved | `C38_twos_complement` (cqp), `C38_exact_when_it_fits` (cqp) |  |
| C39 | partial | `C39_order_partial` (cqp), `C39_order_violated` (qp), `C39_order_exact_partial` (cqp) | exact order proved; same-sign comparison is least-significant-byte first in the code |
| C40 | partial | `C40_sign_bounds_partial` (cqp), `C40_abs_violated` (qp) | abs of negative values only clears the sign bit; everything else proved |
| C41 | partial | `C41_div_partial` (cqp), `C41_div_violated` (cqp), `C41_rem_violated` (qp), `C41_div_exact_partial` (cqp), `C41_div_bits_partial` (cqp) | exact outcome proved for all operands; negative operands wrong in the code |
| C42 | proved | `C42_mul_exact` (cqp), `C42_canonical` (cqp) |  |
| C43 | partial | `C43_add_violated` (qp), `C43_sub_violated` (qp), `C43_add_partial` (cqp), `C43_sub_partial` (cqp) | even results with a borrow are off by two in the code; all other operands proved |
| C44 | partial | `C44_rem_sign_violated` (qp), `C44_div_zero_violated` (qp), `C44_div_large_violated` (qp), `C44_div_longer_violated` (cqp), `C44_div_rem_partial` (cqp), `C44_div_exact_partial` (cqp), `C44_div_bits_partial` (cqp) | code violates the full claim in four ways; proved for divisors up to 2^63 in magnitude |
| C45 | partial | `C45_shr_violated` (qp), `C45_shl_neg_zero_violated` (qp), `C45_shl_partial` (cqp), `C45_shr_partial` (cqp), `C45_shift_exact_partial` (cqp) | debug `>>` by 64 or more panics; `<<` proved for every canonical amount |
| C46 | partial | `C46_eq_violated` (-), `C46_eq_partial` (cqp), `C46_eq_words_partial` (cqp) | negative zero differs from zero; proved for canonical values |
| C47 | partial | `C47_cmp_violated` (p), `C47_cmp_partial` (cqp), `C47_cmp_consistent_partial` (cqp), `C47_cmp_words_partial` (p), `C47_cmp_exact_partial` (cqp) | exact order proved; comparison is least-significant-limb first in the code |
| C48 | partial | `C48_neg_zero_violated` (-), `C48_neg_partial` (cqp) | negating zero gives a negative zero; everything else proved |
| C49 | partial | `C49_from` (cqp), `C49_try_into_unsigned` (cqp), `C49_try_into_signed_violated` (p), `C49_try_into_min_violated` (qp), `C49_try_into_i128_violated` (p), `C49_saturate_signed_violated` (p), `C49_try_into_signed_partial` (cqp), `C49_negative_partial` (cqp), `C49_i128_exact_partial` (cqp), `C49_signed_exact_partial` (cqp), `C49_try_into_neg_zero_violated` (p), `C49_neg_zero_exact_partial` (p) | conversion from primitives proved, and to unsigned types but for negative zero, which is refused; the code loses the sign for signed targets |
| C50 | partial | `C50_eq_unsigned_violated` (p), `C50_eq_min_violated` (p), `C50_eq_neg_zero_violated` (p), `C50_eq_partial` (cqp), `C50_eq_exact_partial` (cqp) | the code ignores the sign against unsigned types and panics on MIN in debug builds |
| C51 | partial | `C51_display_violated` (qp), `C51_print_partial` (cqp), `C51_parse` (cqp), `C51_round_trip_partial` (cqp), `C51_print_exact_partial` (cqp) | negative values print as -0; printing of nonnegative values, parsing and round trip proved |
| C52 | proved | `C52_parse_errors` (cqp), `C52_split` (qp) |  |
| C53 | partial | `C53_pow_neg_zero_violated` (qp), `C53_pow_partial` (cqp), `C53_pow_exact_partial` (cqp) | wrong only for the exponent negative zero |
| C54 | partial | `C54_bit_ops_neg_zero_violated` (qp), `C54_bit_ops_partial` (cqp), `C54_bit_ops_exact_partial` (cqp) | wrong only for a negative-zero left operand |
| C55 | proved | `C55_readable` (cqp), `C55_stable` (cqp), `C55_clone` (cqp), `C55_drop` (cqp), `C55_neg` (cqp), `C55_ops` (cqp) | single-threaded; fewer than 2^64 - 1 BigInts alive |
| C56 | proved | `C56_get_returns_added` (cqp), `C56_no_panic` (cqp) | single-threaded; concurrency is C60 |
| C57 | proved | `C57_refcounts` (cqp) |  |
| C58 | partial | `C58_dedup_exact_partial` (cqp), `C58_dedup_partial` (cqp), `C58_dedup_violated` (cqp) | an earlier free slot is taken although the value is live in a later slot |
| C59 | proved | `C59_dense_slots` (cqp) |  |
| C60 | partial | `C60_concurrent_add_violated` (qp), `C60_meet_violated` (cqp), `C60_alone_partial` (cqp), `C60_one_writer_partial` (cqp), `C60_present_values_partial` (cqp) | two adds race for the same free slot, possibly after every history that leaves one; proved for non-overlapping adds, and linearizable for one writer among threads that use values already present |
| C61 | proved | `C61_list_intact` (cqp), `C61_append_only` (cqp), `C61_push_lands` (cqp), `C61_get_none` (cqp) | sequentially consistent interleavings of any number of threads; no weak memory |
| C62 | partial | `C62_push_length_violated` (qp), `C62_push_length_partial` (cqp), `C62_counted_partial` (cqp) | the loser of an exchange returns a stale length; exact offset proved, and that the result is one more than the length of the list when the push saw its end |
| C63 | proved | `C63_exact` (cqp), `C63_order` (cqp), `C63_out_of_range` (cqp) |  |
| C64 | partial | `C64_mul_violated` (cqp), `C64_one_violated` (cqp), `C64_mul_partial` (cqp), `C64_mul_exact_partial` (cqp) | the code multiplies raw values without rescaling; exact scale error proved, right for N = 0 |
| C65 | partial | `C65_ceil_violated` (cqp), `C65_floor` (cqp), `C65_trunc_fract` (cqp), `C65_ceil_partial` (cqp), `C65_is_whole_partial` (cqp), `C65_ceil_exact_partial` (cqp), `C65_wide_exact_partial` (cqp) | floor, trunc, fract proved; ceil when 1 is representable, debug builds of the code panic otherwise |
| C66 | partial | `C66_round_violated` (cqp), `C66_round_partial` (cqp), `C66_round_exact_partial` (cqp) | the code always rounds up |
| C67 | partial | `C67_new_violated` (p), `C67_new_partial` (cqp), `C67_debug_exact` (cqp), `C67_no_overflow_partial` (cqp), `C67_new_exact_partial` (cqp), `C67_release_exact_partial` (cqp), `C67_debug_exact_partial` (cqp) | exact whenever a result is returned; some fractions with MIN panic; what happens on overflow is characterised in both builds |
| C68 | partial | `C68_eq_violated` (cqp), `C68_eq_partial` (cqp), `C68_stored_exact_partial` (cqp), `C68_eq_exact_partial` (cqp) | fractions in which one part divides the other are not reduced, signs not canonical |
| C69 | partial | `C69_real_violated` (cqp), `C69_floor_partial` (cqp), `C69_ceil_partial` (cqp), `C69_round_partial` (cqp), `C69_floor_exact_partial` (cqp), `C69_ceil_exact_partial` (cqp), `C69_ceil_release_exact_partial` (cqp), `C69_round_exact_partial` (cqp) | wrong for negative numbers, ceil also for integers |
| C70 | partial | `C70_gcd_sign_violated` (-), `C70_gcd_panic_violated` (cqp), `C70_gcd_partial` (cqp), `C70_gcd_exact_partial` (cqp) | the code returns negative gcds and panics on (MIN, -1); proved up to sign, and fully for unsigned types |
| C71 | partial | `C71_saturating_violated` (qp), `C71_saturating_partial` (cqp), `C71_saturating_exact_partial` (cqp), `C71_saturating_16_partial` (cqp), `C71_every_pair_partial` (-) | isize to narrower signed types truncates, and to i8 there is no cast; all other pairs proved for every pointer width |
| C72 | proved | `C72_checked` (cqp), `C72_truncating` (cqp) |  |
| C73 | partial | `C73_wrapping_add_violated` (cqp), `C73_wrapping_add_partial` (cqp) | the code subtracts |
| C74 | proved | `C74_factorial` (cqp) |  |
| C75 | partial | `C75_is_one_violated` (p), `C75_is_one_partial` (-) | the code accepts every value |
| C76 | proved | `Complex.C76_ring` (qp), `Complex.C76_complex` (p), `Complex.C76_scalar` (cqp), `Complex.C76_abs_squared` (qp), `Complex.C76_identities` (p), `Complex.C76_abs_squared_pos` (cqp), `Complex.C76_div` (cqp) | over exact component types |
| C77 | proved | `Vect.C77_ops` (cqp), `Vect.C77_ops_ref` (cqp), `Vect.C77_assign` (qp), `Vect.C77_scalar` (qp), `Vect.C77_checked` (cqp), `Vect.C77_others` (cqp) | over total component arithmetic |
| C78 | proved | `Vect.C78_dot` (cqp), `Vect.C78_dot_bilinear` (cqp), `Vect.C78_cross` (cqp), `Vect.C78_distance` (cqp), `Vect.C78_distance_zero` (cqp) | over exact component types |
| C79 | proved | `C79_ops` (cqp), `C79_mul` (cqp), `C79_identities` (qp), `C79_mul_assoc` (cqp), `C79_mul_laws` (cqp), `C79_add_mul` (cqp), `C79_transpose` (cqp), `C79_is_zero_one` (cqp), `C79_mul_empty` (cqp) |  |
| C80 | proved | `C80_determinant` (cqp), `C80_leibniz` (cqp) |  |
| C81 | partial | `C81_square_partial` (cqp), `C81_solutions` (cqp), `C81_dyn_square_partial` (cqp), `C81_wide_violated` (cqp), `C81_tall_violated` (cqp), `C81_dyn_violated` (cqp), `C81_rect_exact_partial` (cqp), `C81_dyn_wide_exact_partial` (cqp), `C81_dyn_tall_partial` (cqp), `C81_dyn_tall_violated` (cqp), `C81_dyn_column_exact_partial` (cqp) | the code exchanges the numbers of rows and columns; proved for square matrices |
| C82 | partial | `C82_new` (qp), `C82_new_violated` (p), `C82_index` (qp), `C82_write` (qp), `C82_row_out_of_range_partial` (qp), `C82_column_violated` (qp), `C82_swap_rows` (cqp), `C82_of_array` (qp), `C82_index_exact_partial` (qp), `C82_carry_exact_partial` (qp), `C82_write_exact_partial` (qp), `C82_swap_out_of_range_partial` (qp), `C82_swap_out_of_range_violated` (p) | column indices out of range read other rows, and new and swap_rows overflow in release builds |
| C83 | partial | `C83_views` (qp), `C83_index_partial` (qp), `C83_index_violated` (qp), `C83_column_violated` (p), `C83_assign` (qp), `C83_index_exact_partial` (qp), `C83_panics_exact_partial` (qp) | the code accepts a row index equal to the number of rows, and reads out of bounds |
| C84 | proved | `BiVec.C84_choose` (cqp), `BiVec.C84_choose_checked` (cqp), `BiVec.C84_wedge` (cqp), `BiVec.C84_antisymmetric` (cqp) |  |
| C85 | proved | `C85_collect` (cqp), `C85_pointwise` (cqp), `C85_zip_map` (cqp), `C85_zip_all` (cqp), `C85_fold` (cqp), `C85_any_all` (cqp), `C85_any_all_pure` (cqp), `C85_polls` (cqp) | closures that panic are in C156 |
| C86 | proved | `C86_collect` (cqp), `C86_first_failure` (cqp), `C86_one_layer` (cqp) | any nesting of Option and Result |
| C87 | partial | `C87_pow_violated` (cqp), `C87_pow_partial` (cqp), `C87_pow_exact_partial` (cqp), `C87_pow_release_exact_partial` (cqp) | wrong only for base 0 with exponents that are multiples of 2^32 |
| C88 | partial | `C88_checked_shift_violated` (cqp), `C88_checked_shift_partial` (cqp), `C88_checked_shift_exact_partial` (cqp) | amounts are cut to 32 bits; proved for amounts below 2^32 in magnitude |
| C89 | proved | `C89_wrapping` (cqp), `C89_checked` (cqp) |  |
| C90 | proved | `C90_rem` (cqp) |  |
| C91 | partial | `C91_leak_violated` (p), `C91_moved_once_partial` (cqp), `StaticIter.C91_leak_exact_partial` (cqp) | elements behind the first failure are leaked by the code; complete collections proved |
| C92 | proved | `C92_bit_ops` (cqp), `C92_boolean_algebra` (cqp), `C92_not_unique` (cqp) |  |
| C93 | proved | `C93_unsigned` (cqp), `C93_signed` (cqp) |  |
| C94 | partial | `C94_truncate_unsigned_violated` (p), `C94_truncate_negative_violated` (p), `C94_truncate_signed_violated` (p), `C94_truncate_i128_min_violated` (p), `C94_truncate_unsigned_partial` (cqp), `C94_truncate_signed_partial` (cqp), `C94_truncate_i128_partial` (cqp) | the code clamps magnitudes instead of truncating; exact description proved, right for values in range but MIN |
| C95 | partial | `C95_cmp_violated` (p), `C95_cmp_signed_violated` (p), `C95_eq_cmp_violated` (p), `C95_cmp_unsigned_partial` (cqp), `C95_cmp_signed_partial` (cqp), `C95_eq_cmp_partial` (cqp), `C95_cmp_exact_partial` (cqp), `C95_neg_zero_violated` (p), `C95_neg_zero_exact_partial` (cqp) | wrong when both numbers have two limbs (128-bit types); == with unsigned types ignores the sign; negative zero compares below 0 |
| C96 | partial | `C96_binary_neg_zero_violated` (qp), `C96_binary_partial` (cqp), `C96_binary_exact_partial` (cqp) | wrong only for negative zero, which prints a minus sign |
| C97 | partial | `C97_not_violated` (qp), `C97_not_not_violated` (qp), `C97_not_partial` (cqp), `C97_not_not_exact_partial` (cqp), `C97_neg_zero_exact_partial` (qp) | the code complements the limbs of the magnitude; exact description proved |
| C98 | partial | `C98_zero_violated` (cqp), `C98_rat_sign_violated` (cqp), `C98_prim_partial` (cqp), `C98_fixed_partial` (cqp), `C98_rat_partial` (cqp), `C98_nonzero` (cqp), `C98_signs_exact_partial` (cqp) | 0.is_positive() is false in the code; fractions with negative denominators have the wrong sign |
| C99 | partial | `C99_rat_one_violated` (cqp), `C99_fixed_one_violated` (cqp), `C99_fixed_partial` (cqp), `C99_rat_partial` (cqp), `C99_one_exact_partial` (cqp) | 2/2 is not one; one() of Fixed is -1 when all bits but the sign are fractional |
| C100 | proved | `C100_prim` (cqp), `C100_fixed` (cqp), `C100_rat` (cqp) |  |
| C101 | proved | `C101_overflowing` (cqp), `C101_zero_counts` (cqp) |  |
| C102 | partial | `C102_queries_partial` (cqp), `C102_neg_violated` (cqp), `C102_neg_partial` (cqp), `C102_neg_exact_partial` (cqp) | neg flips the sign bit only: it exchanges zero and NaR and negates only 1 and -1; queries proved |
| C103 | proved | `C103_eq` (cqp) |  |
| C104 | proved | `C104_bytes` (p) |  |
| C105 | partial | `C105_debug_violated` (cqp), `C105_debug_partial` (cqp), `C105_debug_exact_partial` (cqp) | zero, negative numbers and positive numbers below 1/10 print wrongly, and 10^N may overflow; exact description proved |
| C106 | partial | `C106_binary_violated` (cqp), `C106_binary_partial` (cqp), `C106_binary_exact_partial` (cqp) | right only without fractional bits, for 0 and for numbers in [1/2, 1); exact condition and exact text proved |
| C107 | partial | `C107_sign_violated` (p), `C107_nan_violated` (p), `C107_approx_partial` (cqp), `C107_huge_partial` (cqp) | the sign is lost, and from 2^1088 on a zero limb gives NaN; error bound and exact condition for NaN proved for the absolute value |
| C108 | proved | `C108_iter` (cqp), `C108_iter_end` (cqp), `C108_len` (cqp), `C108_is_empty` (p) | atomic steps under sequential consistency |
| C109 | proved | `C109_drop` (cqp) | atomic steps under sequential consistency |
| C110 | partial | `C110_add_violated` (qp), `C110_rem_violated` (qp), `C110_mixed_partial` (cqp), `C110_mixed_exact_partial` (cqp) | inherits the wrong sums of C43 and the wrong sign of remainders by negative numbers of C44 |
| C111 | proved | `C111_mul_laws` (cqp) |  |
| C112 | partial | `C112_add_comm_violated` (qp), `C112_sub_add_violated` (qp), `C112_zero_add_violated` (qp), `C112_add_laws_partial` (cqp), `C112_add_laws_exact_partial` (cqp), `C112_sub_add_exact_partial` (cqp), `C112_add_flags_exact_partial` (cqp) | sums of numbers of different sign may be wrong (C43): not commutative, zero on the left not neutral; proved for one sign |
| C113 | proved | `C113_slice_order` (cqp), `C113_u_order` (cqp), `C113_i_order` (cqp), `C113_big_int_order` (cqp), `C113_fixed_order` (cqp) |  |
| C114 | proved | `Vect.C114_index` (qp), `Vect.C114_names` (p), `Vect.C114_rebuild` (p), `Vect.C114_default` (qp) |  |
| C115 | proved | `C115_det_mul` (cqp), `C115_det_rows` (cqp) |  |
| C116 | partial | `C116_slices` (qp), `C116_fixed_width_partial` (qp), `C116_big_int` (qp), `C116_interner` (qp), `C116_prim_fixed` (qp), `C116_rational` (q), `C116_matrices` (qp), `C116_u_shift_violated` (qp), `C116_u_shifts_exact_partial` (cqp) | violated by << and >> of U<N> only, for which the exact condition is proved; all other operations proved |
| C117 | proved | `BInt.C117_stored` (cqp), `BInt.C117_equal` (cqp) |  |
| C118 | proved | `C118_wrapping` (cqp), `C118_identities` (cqp), `C118_exact` (cqp), `C118_sums` (cqp), `C118_signed` (cqp) | detection of overflow in products is C28 |
| C119 | partial | `BInt.C119_violated` (qp), `BInt.C119_sums_products_partial` (cqp), `BInt.C119_exact_partial` (cqp), `BInt.C119_division_region_partial` (cqp) | violated as single operations are (C43-C45, C48); exact for sums and products of nonnegative numbers, and for all expressions each of whose operations stays in its exact region |
| C120 | proved | `C120_digits` (cqp), `C120_round_trip` (cqp), `C120_agrees` (qp) | the core library functions forwarded to are modelled by their documentation |
| C121 | proved | `Prim.C121_identities` (cqp) |  |
| C122 | partial | `C122_violated` (-) | violated by all operands: order, sum and difference are todo!() and panic; nothing remains to be proved of it, equality is C103 |
| C123 | proved | `C123_fixed` (-), `C123_vector_ops` (cqp), `C123_dot` (cqp), `C123_sum` (cqp), `C123_cross` (cqp), `C123_complex` (cqp), `C123_matrix_mul` (cqp), `C123_matrix_add` (cqp), `C123_one` (cqp) |  |
| C124 | proved | `C124_interner` (cqp), `C124_big_int` (cqp), `C124_no_leak` (cqp) | memory is counted in chunks of the store; freeing by the allocator is not modelled |
| C125 | proved | `RatM.C125_rat_debug` (cqp), `RatM.C125_rat_release` (q), `RatM.C125_rat_total` (cqp), `RatM.C125_rat_ends` (cqp), `Fixed.C125_fixed_debug` (cqp), `Fixed.C125_fixed_release` (qp), `Fixed.C125_fixed_total` (cqp), `Fixed.C125_fixed_ends` (p), `Fixed.C125_fixed_wrapping` (cqp) | abs of Rat and * and / of Fixed are left out, they are not exact (C98, C64) |
| C126 | proved | `C126_dot` (cqp), `C126_sum` (cqp), `C126_matrix_mul` (cqp), `C126_cross` (cqp), `C126_complex_mul` (cqp), `C126_abs_squared` (cqp), `C126_det2` (cqp), `C126_product` (cqp), `C126_wedge` (cqp), `f32_ok` (-), `f64_ok` (-) | the sign of zero is not modelled, no statement depends on it (C191) |
| C127 | proved | `C127_dot` (cqp), `C127_sum` (cqp), `C127_matrix_mul` (cqp), `C127_cross` (cqp), `C127_complex_mul` (cqp), `C127_abs_squared` (cqp), `C127_det2` (cqp), `C127_wedge` (cqp) |  |
| C128 | partial | `C128_complex_div_partial` (cqp), `C128_scalar_div_partial` (cqp), `C128_scalar_range_exact_partial` (cqp), `C128_complex_range_partial` (cqp), `C128_complex_under_partial` (cqp), `C128_scalar_under_partial` (cqp), `C128_violated` (cqp) | the square of the divisor overflows or underflows: NaN, 0 or infinity for representable quotients; accurate otherwise; if the square of the divisor overflows or vanishes, division by a real number is characterised exactly, and by a complex number always gives 0 or NaN, respectively infinities or NaN; in between, where products underflow gradually, an error bound that grows with the underflow relative to the square of the divisor |
| C129 | partial | `C129_triangular_partial` (cqp), `C129_error_partial` (cqp), `C129_violated` (cqp), `C129_violated_integers` (cqp) | elimination pivots on the smallest entry; proved for triangular matrices, two rows are C126 and C127; for all others an error bound in terms of the magnitudes of the computed factors, which small pivots make large |
| C130 | partial | `C130_to_float_partial` (cqp), `C130_ties` (cqp), `C130_range` (cqp), `C130_exact` (cqp), `C130_u128_f32_exact_partial` (cqp), `C130_to_int_exact_partial` (cqp), `C130_violated` (cqp) | u128 to f32 overflows to infinity near the top, floats to integers are truncated; both characterised exactly |
| C131 | partial | `C131_queries` (cqp), `C131_bounds` (cqp), `C131_min_positive_exact_partial` (cqp), `C131_violated` (cqp) | min_positive and max_negative ignore subnormals |
| C132 | partial | `C132_float` (cqp), `C132_special` (cqp), `C132_round_ties` (cqp), `C132_float_partial` (cqp), `C132_fixed_partial` (cqp), `C132_float_exact_partial` (cqp), `C132_fixed_exact_partial` (cqp), `C132_rat_partial` (cqp), `C132_violated` (cqp) | floats and Fixed contradict the documentation for negative numbers, as their floor and Rat's contradict each other |
| C133 | partial | `C133_concurrent_drop_violated` (qp), `C60_meet_violated` (cqp), `C133_push_violated` (cqp), `C133_one_adder_partial` (cqp), `C133_apart_partial` (cqp), `C133_push_partial` (cqp) | adding a value that another thread drops may yield a third thread's value; whenever all slots are in use, two threads that add new values may get one id though they are never at a slot at the same time, because push may return a stale length; proved for any number of threads inside add as long as no two are at the same slot at the same time, unless both have found their value there, and no two push a chunk at the same time |
| C134 | proved | `RatM.C134_vector_ops` (cqp), `RatM.C134_dot` (cqp), `RatM.C134_sum` (cqp), `RatM.C134_product` (cqp), `RatM.C134_cross` (cqp), `RatM.C134_complex` (cqp), `RatM.C134_matrix_mul` (cqp), `RatM.C134_matrix_add` (cqp), `RatM.C134_dot_total` (cqp), `RatM.C134_matrix_total` (cqp) |  |
| C135 | proved | `C135_unsigned_matrix` (cqp), `C135_signed_matrix` (cqp), `C135_unsigned_complex` (cqp), `C135_signed_complex` (cqp), `C135_matrix_exact` (cqp), `C135_complex_exact` (cqp), `C135_vector_ops` (cqp), `C135_identity` (cqp) | whether debug builds detect overflow of U<N> products is C28 |
| C136 | partial | `BInt.C136_violated` (qp), `BInt.C136_matrix_exact_partial` (cqp), `BInt.C136_matrix_partial` (cqp), `BInt.C136_complex_partial` (cqp), `BInt.C136_complex_flags_exact_partial` (cqp), `BInt.C136_vector_ops` (cqp), `BInt.C136_identity_violated` (qp) | inherits the wrong sums and differences of C43; always returned and canonical, each entry is given exactly (the products added up with the sums of C43), off by an even number of at most two per addition, exact under a condition on each addition; negative zeros included |
| C137 | partial | `C137_violated` (-) | violated by all operands: todo!() in the code |
| C138 | partial | `C138_rat_violated` (-), `C138_fixed_violated` (-), `C138_distance_violated` (p), `C138_complex_abs_violated` (-), `C138_distance_partial` (p) | violated by all operands: todo!() in the code; only distances of vectors without components are computed |
| C139 | partial | `Fixed.C139_violated` (cqp), `Fixed.C139_sum` (cqp), `Fixed.C139_dot_partial` (cqp), `Fixed.C139_matrix_partial` (cqp), `Fixed.C139_matrix_add` (cqp), `Fixed.C139_complex_partial` (cqp), `Fixed.C139_product_partial` (cqp) | products of Fixed are not rescaled (C64): results that multiply once are 2^N times too large, otherwise exact, with exact conditions for the panics |
| C140 | partial | `C140_sqrt` (cqp), `C140_sqrt_special` (cqp), `C140_abs_partial` (cqp), `C140_exact` (cqp), `C140_range_exact_partial` (cqp), `C140_abs_error_partial` (cqp), `C140_violated` (cqp) | the square of the absolute value must neither overflow nor underflow; proved exactly when the result is infinite or 0, and an error bound for all finite results, in which underflow adds a small absolute error |
| C141 | partial | `C141_one_partial` (cqp), `C141_floor_partial` (cqp), `C141_ceil_partial` (cqp), `C141_fract_partial` (cqp), `C141_fract_exact_partial` (cqp), `C141_fract_bits_partial` (cqp), `C141_round_partial` (cqp), `C141_add_sub` (cqp), `C141_release_exact_partial` (cqp), `C141_round_small_exact_partial` (cqp), `C141_round_wide_exact_partial` (cqp), `C141_round_bits_partial` (cqp), `C141_ceil_release_partial` (cqp), `C141_add_sub_release` (cqp), `C141_trunc_exact_partial` (cqp), `C141_release_reduced_partial` (cqp), `C141_round_top_violated` (cqp), `C141_fract_violated` (cqp), `C141_one_violated` (cqp), `C141_round_violated` (cqp), `C141_cmp_violated` (cqp), `FixedOf.prim` (cqp) | every function is characterised for every N: fract and trunc are right up to 7 fractional bits (then the remainder is wrong by a whole number), round is ceil up to 6 fractional bits, nearly always floor from 7, and panics or is floor with all bits fractional, comparison is by the lowest byte, release builds reduce N modulo a power of two |
| C142 | partial | `C142_violated` (qp), `C142_add_sub_partial` (cqp) | shifts of I<M> are todo!(): everything except sums and differences panics |
| C143 | partial | `BInt.C143_one` (cqp), `BInt.C143_floor_partial` (cqp), `BInt.C143_trunc_fract_partial` (cqp), `BInt.C143_ceil_exact_partial` (cqp), `BInt.C143_round_exact_partial` (cqp), `BInt.C143_add_sub_partial` (cqp), `BInt.C143_fract_wide_exact_partial` (cqp), `BInt.C143_round_wide_exact_partial` (cqp), `BInt.C143_fract_bits_partial` (cqp), `BInt.C143_round_bits_partial` (cqp), `BInt.C143_wide_debug_violated` (cqp), `BInt.C143_floor_violated` (cqp), `BInt.C143_wide_violated` (cqp), `BInt.C143_ceil_violated` (qp), `BInt.C143_round_violated` (qp), `BInt.C143_sub_violated` (qp), `BInt.C143_fract_violated` (qp) | with fewer than 64 fractional bits everything is characterised exactly: floor truncates, ceil adds one to large whole numbers and to negative zero, round rounds away; with 64 or more, in debug builds floor, ceil and round panic, in release builds floor and ceil are as before; fract, trunc and round panic for numbers with fewer limbs than one, otherwise fract is right modulo the number one in magnitude (exactly: the remainder of the broken division) and round is floor or ceil (exact condition proved); sums are exact iff stated |
| C144 | partial | `C144_violated` (cqp), `C144_two_partial` (cqp), `C144_three_partial` (cqp), `C144_rows_partial` (cqp), `C144_nan` (cqp), `C144_two_exact_partial` (cqp) | a finite 3 by 3 matrix on which elimination computes a NaN and the pivot search panics; proved for up to two rows (there exactly, also with NaN), and for three rows if the nonzero magnitudes are between 2^q and 2^p with p-q <= emax and 2p-q < emax, and for any number of rows if the magnitudes leave room for all but the last two pivots, e.g. up to five rows of integers below 2^53 in f64 |
| C145 | partial | `powfOk_exists` (cqp), `C145_root_partial` (cqp), `C145_cbrt_partial` (cqp), `C145_negative_violated` (cqp), `C145_precision_violated` (cqp) | roots of negative numbers are NaN, and rounding 1/3 costs up to 149 or 1074 units; proved with that bound for nonnegative numbers, powf being a parameter of given accuracy |
| C146 | proved | `C146_reciprocal` (cqp) | sin, cos and tan are parameters |
| C147 | proved | `C147_sample` (cqp), `C147_signed` (cqp), `C147_fill` (cqp) | uniformity relative to the words the generator returns; the array distribution and fill of rand 0.9 are modelled by their documentation |
| C148 | partial | `C148_violated` (qp), `C148_one_adder_partial` (cqp), `C148_apart_partial` (cqp), `C148_push_partial` (cqp) | two threads storing numbers of two limbs in lockstep get the same number; proved for all interleavings in which no two threads inside the store's add are at the same slot, unless both have found their limbs there, and no two push a chunk at the same time; sequentially consistent atomics |
| C149 | proved | `C149_index` (p), `C149_write` (qp), `C149_swap_rows` (cqp), `C149_diag` (qp) |  |
| C150 | proved | `Complex.C150_complex` (cqp), `Complex.C150_complex_laws` (cqp), `Complex.C150_complex_numbers` (cqp), `C150_complex_ints` (cqp), `C150_blocks` (cqp) |  |
| C151 | proved | `C151_row_reduce` (cqp), `C151_dyn_row_reduce` (cqp), `C151_determinant` (cqp), `C151_totally_unimodular` (cqp) |  |
| C152 | proved | `C152_row_reduce` (cqp), `C152_dyn_row_reduce` (cqp), `C152_determinant` (cqp), `C152_not_echelon` (cqp) |  |
| C153 | proved | `C153_no_race` (cqp), `C153_list_intact` (cqp), `C153_append_only` (cqp), `C153_push_lands` (cqp), `C153_keeps_seeing` (cqp), `C153_seen_after_sync` (cqp), `C153_views` (cqp), `C153_miss_may_be_stale` (cqp) | len only where C154 allows it; view-based release/acquire model, no load buffering |
| C154 | partial | `C154_len_violated` (cqp), `C154_len_partial` (cqp), `C154_exact_partial` (cqp) | a thread calling len before it has seen any element races with the push; proved for threads that have seen an element; C154_exact_partial: a call may race exactly if the thread does not have the first node in its view |
| C155 | proved | `C155_no_race` (cqp), `C155_reads` (cqp), `C155_counts` (cqp), `C155_drops` (cqp), `C155_ids` (cqp), `C155_accesses` (qp) | additions one at a time is part of the property (C60, C133 for what happens otherwise); passing a handle to a thread synchronises with it; counts do not overflow; the chunks are visible by C153 |
| C156 | partial | `StaticDrop.C156_collect_partial` (cqp), `StaticDrop.C156_collect_try_partial` (cqp), `StaticDrop.C156_fold_partial` (cqp), `StaticDrop.C156_no_double_drop` (qp), `StaticDrop.C156_map_exact_partial` (cqp), `StaticDrop.C156_map_try_exact_partial` (qp), `StaticDrop.C156_leak_violated` (p) | elements not yet polled are leaked, and those already stored when collecting into Option or Result; proved: nothing is dropped twice or both dropped and returned, complete runs leak nothing, and which elements are leaked |
| C157 | proved | `C157_exact` (cqp), `C157_total` (cqp), `C157_prim_debug` (cqp), `RatOf.prim` (cqp) |  |
| C158 | partial | `C158_arith` (cqp), `C158_floor_ceil` (cqp), `C158_trunc_fract` (cqp), `C158_round_exact_partial` (cqp), `C158_round_violated` (cqp), `C158_prim` (cqp), `FixedOf.prim` (cqp) | round computes one half as one / two, which is 0, and so rounds up for every integer type |
| C159 | proved | `C159_matrix_mul` (cqp), `C159_dot` (cqp), `C159_integers` (cqp) | the sign of zero is not modelled, no statement depends on it (C191) |
| C160 | partial | `InternRef.C160_exact_partial` (cqp), `InternRef.C160_careful_partial` (cqp), `InternRef.C160_unknown_id_violated` (cqp), `InternRef.C160_overwritten_violated` (cqp), `InternRef.C160_violated` (qp) | exactly the undefined calls are determined, after any calls; violated by safe calls: incr of an id that add has not returned, then get; decr to zero while a reference is kept, then add of another value; proved when ids come from add, the last count is not given back while a reference is in use, and no count is at its maximum. Values whose comparison or conversion calls the interner again are C178 |
| C161 | partial | `C161_below_partial` (cqp), `C161_exact_partial` (cqp), `C161_violated` (cqp), `C161_width_partial` (cqp), `C161_width_history_partial` (cqp), `C161_width_violated` (cqp), `incrLeaves_of_ok` (qp) | violated: the counter wraps around to 0 (before the debug assertion fails, too), so that the value counts as released and its slot is reused; proved below 2^64 - 1 references. Where usize has w bits, 2^w references suffice (C161_width_violated: 2^32 on a 32-bit target); below 2^w - 1 add and incr do the same there as with 64 bits |
| C162 | partial | `C162_add_exact_partial` (cqp), `C162_sub_exact` (cqp), `C162_add_violated` (p) | subtraction and all values proved; violated by the flag of addition, which is about the longer operand, so that add_checked returns a wrapped sum as exact (exact condition proved) |
| C163 | partial | `C163_exact_partial` (qp), `C163_violated` (qp), `C163_bounds_partial` (p), `C163_handover_partial` (p) | violated: Send and Sync are implemented without bounds on the elements, so that two threads can set a Cell they got from a shared list; proved exactly for elements that are Sync, and that the missing bounds are the right ones. For sending a list (dropping Rc elements in another thread) see C172 |
| C164 | partial | `C164_rem` (cqp), `C164_mul_div_exact_partial` (cqp), `C164_whole_partial` (cqp), `C164_mul_violated` (cqp), `C164_div_violated` (cqp) | remainder proved; violated by * and /, which do not correct the scale: too large or too small by 2^N for every integer type (exact results proved) |
| C165 | partial | `C165_identities` (cqp), `C165_ceil_exact_partial` (cqp), `C165_round_exact_partial` (cqp), `C165_round_partial` (cqp), `C165_ceil_violated` (cqp), `C165_round_violated` (cqp) | violated: ceil is always one more than the number truncated, also for whole and negative numbers, and round is wrong for negative numbers and negative denominators; exact results proved |
| C166 | partial | `C166_fixed` (cqp), `C166_rat_exact_partial` (cqp), `C166_rat_violated` (cqp), `unbounded_signs` (p) | proved for fixed-point numbers; violated by fractions: the sign of the denominator is ignored, and 2/2 is not one, for every type of integers (exact conditions proved) |
| C167 | partial | `C167_fixed` (cqp), `C167_rat_exact_partial` (cqp), `C167_rat_violated` (cqp), `C167_signed` (cqp), `C167_signed_violated` (cqp) | proved for fixed-point numbers; for fractions violated by 1/MIN, -1/MIN and MIN/-1 and by nothing else (exact conditions proved) |
| C168 | partial | `C168_debug_partial` (cqp), `C168_violated` (cqp) | the text denotes the number; violated: 1/2 and 2/4 have different texts, which are equal exactly for == fractions. Flags have no effect (C175) |
| C169 | proved | `StaticIter.C169_elementwise` (cqp), `StaticIter.C169_zip_many` (cqp) |  |
| C170 | proved | `C170_bounded` (cqp), `C170_not_stuck` (cqp), `C170_finishes_alone` (cqp) |  |
| C171 | proved | `C171_bounded` (cqp), `C171_not_stuck` (qp) |  |
| C172 | partial | `C172_in_sequence` (qp), `C172_exact_partial` (qp), `C172_violated` (qp), `C172_bounds_partial` (p) | violated: Send is implemented without a bound on the elements, so that two threads can change the count of an Rc at once; proved exactly for elements that are Send, and that the missing bound is the right one. What is done through the list itself is always in sequence |
| C173 | partial | `Container.C173_shifts_partial` (qp), `Container.C173_bitwise_add` (qp), `Container.C173_place_partial` (qp), `Container.C173_own_containers` (qp), `Container.C173_own_add` (qp), `Container.C173_exact_partial` (cqp), `Container.C173_violated` (qp) | violated: a safe container that shows its limbs without leading zeros, or answers None for zero limbs, makes the in-place shifts unwrap None unchecked; proved for bitwise addition with any container, for the shifts with containers that keep their size (in particular the library's own), and the exact condition for containers that answer None on fixed indices |
| C174 | proved | `BigOwn.C174_results` (cqp), `BigOwn.C174_counts` (cqp), `BigOwn.C174_nothing_left` (cqp), `BigOwn.C174_slots` (cqp) | the results compared with are those of the functions on plain values, whose own errors are in C42-C54, C94-C97 |
| C175 | partial | `C175_ignored_partial` (qp), `C175_exact_partial` (cqp), `C175_violated` (qp) | violated: every option is ignored, the prefix of hexadecimal and binary texts is always written, binary texts have leading zeros; proved that the text never depends on the options (nor do those of fractions and fixed-point numbers), and exactly which options are honoured for the values that print rightly at all (C37, C51) |
| C176 | proved | `C176_delivers` (qp) | the text is that of the printing functions on values, whose own errors are in C37, C51, C58, C168; derived texts with other than default options are C180 |
| C177 | proved | `C177_tells` (cqp), `C177_default` (cqp) | for the default options; others are C180 |
| C178 | partial | `InternAny.C178_handles_partial` (cqp), `InternAny.C178_add_partial` (cqp), `InternAny.C178_violated` (qp) | violated if the code that add calls adds values itself: the slot it works on is taken by both, a compared value is overwritten, or a value being destroyed is looked at; proved if that code does anything else (no laws of equality needed). Counts that wrap around are C161, references that are kept are C160 |
| C179 | partial | `C179_exact_partial` (cqp), `C179_violated` (qp) | violated: the loop is left with the first panic and all later elements leak; proved that exactly those up to the first panic are freed, each once. Atomic steps under sequential consistency |
| C180 | proved | `C180_tells` (cqp), `C180_injective` (cqp), `C180_layout` (cqp), `C180_matrix_layout` (cqp), `C180_matrix_block` (cqp), `C180_delivers` (p) | components are primitive integers; x? and X? are C200. Padding with digits or minus signs, which the statement leaves out, makes different values print alike |
| C181 | proved | `C181_componentwise` (cqp), `C181_lawful` (cqp), `C181_values` (cqp), `C181_big_int` (cqp), `C181_floats` (cqp), `C181_hash` (cqp) | == of the components is taken as it is; where it is not by value (C46, C68) neither is that of compounds |
| C182 | proved | `C182_numbers` (cqp), `C182_reals` (cqp), `C182_components` (qp), `C182_zero` (cqp) |  |
| C183 | proved | `C183_never_stuck` (cqp), `C183_wait_free` (cqp), `C183_lock_free` (cqp), `C183_returns` (cqp) | a step is one access to shared memory; view-based release/acquire model of C153; a compare-exchange is one step and fails only if the pointer is set (compare_exchange, not the weak form); len only where C154 allows it |
| C184 | proved | `C184_never_stuck` (cqp), `C184_wait_free` (cqp), `C184_returns` (cqp), `C184_add_returns` (cqp) | model of C155; drop is left out of the bound, as fetch_update is a loop that other updates of the count (or a spurious failure of the exchange) repeat: its failed attempts are steps `peek`, the last one is `drop`, finding a slot by number is one step (C183 for the list of chunks), counts do not overflow |
| C185 | partial | `C185_violated` (p), `C185_race` (p), `C185_synchronised_partial` (cqp) | violated: the count is released before the value is written, so that a later addition in another thread reads the value without knowing of the write; proved if each thread that adds has synchronised, by whatever means, with the one that added last |
| C186 | proved | `C186_refines` (cqp), `C186_result` (cqp), `C186_safe` (cqp), `C186_released` (cqp) | model of C155: add calls take turns (otherwise C60, C133, C185), counts do not overflow (C161); programs do not depend on the numbers of ids, only owners lend, a thread borrows an id once at a time, one that awaits ids from others receives them from whoever sends |
| C187 | proved | `C187_result` (cqp), `C187_released` (cqp), `code_eval` (qp), `code_tidy` (cqp) | programs over BigInts are translated to programs over the interner, for which C186 holds; the results compared with are those of the functions on plain values, whose own errors are in C42-C54, C94-C97. Fewer than 2^62 ids |
| C188 | partial | `C188_violated` (cqp), `C188_operators` (cqp), `C188_divide` (cqp), `C188_by_zero` (cqp), `C188_less` (cqp), `C188_sum` (cqp), `C188_dot` (cqp), `C188_matrix_mul` (cqp), `C188_complex_abs` (cqp), `C188_complex_mul_partial` (cqp) | violated by products of complex numbers: infinity times 1 (both complex) has a NaN part; proved for scalars, and exactly for which finite factors it holds. The sign of zero is not modelled (C191) |
| C189 | proved | `C189_rank` (cqp), `C189_dyn_rank` (cqp), `C189_determinant` (cqp) | square matrices only; for others row_reduce fails in the ways stated in C81 |
| C190 | partial | `C190_violated` (cqp), `C190_squared` (cqp), `C190_distance_partial` (cqp), `C190_distance_error_partial` (cqp), `C190_symmetric` (cqp), `C190_zero` (cqp), `C190_exact` (cqp), `C190_special` (cqp) | violated: the squares over- and underflow though the distance is representable; proved where the sum of squares is in range, and with an absolute error of about its root otherwise. The precision of powf is a parameter, as core leaves it open; a function that multiplies is one that meets the assumption (squareOk_mul) |
| C191 | partial | `C191_violated` (cqp), `C191_operators` (cqp), `C191_functions` (cqp), `C191_divide_exact_partial` (cqp), `C191_model` (cqp), `C191_complex` (cqp), `C191_vectors` (cqp), `C191_distances` (cqp), `C191_matrices` (cqp), `C191_elimination` (cqp), `C191_dynamic` (cqp) | violated by division: 1 / 0 and 1 / -0 differ, hence also csc and cot of the two zeros; exactly which quotients is proved. Everything else in full; distances for every powf(x, 2) that does not distinguish the zeros; row_reduce of dynamic matrices if square (C81). C191_model: the model without signs of zero, used elsewhere, is exact up to the sign |
| C192 | proved | `C192_add` (cqp), `C192_mul` (cqp), `C192_div` (cqp), `C192_sqrt` (cqp), `C192_vectors` (cqp), `C192_products` (cqp), `C192_matrices` (cqp), `C192_distances` (cqp), `C192_distances_finite` (cqp), `C192_complex` (cqp), `C192_integers` (cqp), `C192_limits` (cqp), `squareMono_mul` (cqp) | distances for every powf(x, 2) that is monotone in the magnitude, as multiplying is (squareMono_mul); the rounding, sqrt and casts of core are modelled |
| C193 | proved | `C193_exact` (cqp), `C193_special` (cqp), `C193_signs` (cqp), `C193_again` (cqp), `C193_vectors` (cqp), `C193_scalar` (cqp), `C193_zeros` (cqp), `C193_naive` (cqp) | % of core is modelled as the exact remainder, rounded like any other result; that the rounding changes nothing is proved |
| C194 | proved | `C194_operators` (cqp), `C194_differences` (cqp), `C194_identities` (cqp), `C194_itself` (cqp), `C194_sterbenz` (cqp), `C194_scale` (cqp), `C194_scale_sum` (cqp), `C194_complex` (cqp), `C194_dot` (cqp), `C194_cross` (cqp), `C194_transpose` (cqp), `C194_limits` (cqp) | the operators of core are modelled as correctly rounded; C194_limits: associativity, distributivity and cancelling are not claimed, and do not hold |
| C195 | partial | `C195_release_partial` (cqp), `C195_debug_partial` (cqp), `C195_signed_partial` (cqp), `C195_exact_partial` (cqp), `C195_signed_exact_partial` (cqp), `C195_violated` (qp) | the outcomes of all expressions over U and I of every size are determined exactly, as numbers (C195_exact_partial, C195_signed_exact_partial); violated by division, right shifts and missed overflows of products (C28, C30, C34, C41, C137); proved for all expressions that divide by literals up to 128 and shift right by whole bytes; for I without division and shifts |
| C196 | partial | `WInt.C196_program_partial` (cqp), `WInt.C196_equality` (cqp), `WInt.C196_div_partial` (cqp), `WInt.C196_cmp_partial` (cqp), `WInt.C196_shl_partial` (cqp), `WInt.C196_cmp_violated` (p), `WInt.C196_not_violated` (qp), `WInt.C196_div_violated` (qp), `WInt.C196_quotient_violated` (qp), `WInt.C196_shr_violated` (qp), `WInt.C196_try_into_signed_violated` (p), `WInt.C196_binary_violated` (qp), `WInt.C196_approx_violated` (p), `BInt.C196_at_64` (qp), `WInt.C196_cmp_exact_partial` (cqp), `WInt.C196_not_exact_partial` (cqp), `WInt.C196_shr_exact_partial` (cqp), `WInt.C196_div_exact_partial` (cqp), `WInt.C196_convert_exact_partial` (cqp), `WInt.C196_convert_partial` (cqp), `WInt.C196_binary_exact_partial` (cqp), `WInt.C196_approx_exact_partial` (cqp) | violated by the order, !, /, >>, conversions to signed types, binary text and approx_float; proved for all programs without these (and with << by literals below 2^16, >> by literals below 16), equality, unsigned conversions, i8 and i16, decimal and hexadecimal text; what the order, !, /, >>, binary text and conversions to types no wider than a word compute on each target is proved exactly; approx_float with 16 and 32 bits approximates the number with its words read to the base 2^w - 1 (proved up to 2^1023, if powi is correctly rounded) |
| C197 | partial | `C197_operators_partial` (cqp), `C197_usize_partial` (cqp), `C197_usize_exact_partial` (cqp), `C197_violated` (qp), `C197_at_64` (qp) | violated by shifts by a U<N>, pow and Display, which panic where usize has fewer than N bytes, and by U<0>; exactly when is proved. All other operators are proved the same for every expression, for types whose bits usize can count and of fewer than 2^60 bytes |
| C198 | partial | `C198_calls_partial` (cqp), `C198_alone_partial` (cqp), `C198_turns_partial` (cqp), `C198_chunks_partial` (cqp), `C198_ids_violated` (cqp), `C198_dropped_violated` (p), `C198_new_violated` (cqp) | violated by threads that add at the same time (any k of them may get the ids 0 to k - 1, even for one value) and by one thread that drops values (two values, id 2). Proved: ids stay below the number of calls of add, whatever the schedule, clones and drops, and no chunk is allocated then; for one thread that keeps its values the ids are exactly the numbers of different values before, and likewise for any number of threads that take turns to add and drop nothing (clones at any time). Beyond the capacity: n calls allocate at most n chunks, ids are at most 32 * (L + n - 1) with L chunks before, under any schedule and with stale lengths from push; threads adding one value to a new interner reach this bound. Sequentially consistent steps; a push of a chunk is one step |
| C199 | partial | `C199_capacity_partial` (cqp), `C199_capacity_exact` (cqp), `C199_capacity_violated` (cqp) | violated for capacities above 2^w - 32 (w bits in a usize): with_capacity panics in debug builds and makes an interner without a slot in release builds. Proved for all smaller ones, with the exact characterisation (in release builds 2^w - 32 works too, where two overflows cancel). Room is stated for one thread that keeps its values (C198 has the rest); memory is unlimited in the model |
| C200 | proved | `C200_tells` (cqp), `C200_layout` (cqp), `C200_block` (cqp), `C200_injective` (cqp), `C200_delivers` (p) | components are primitive integers, given by their width; the formatting helpers of the core library are modelled, as for C180 |
