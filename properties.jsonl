{"id": "C01", "title": "Growing slice addition is exact and normalised", "statement": "ElementAdd::add(l, r) returns a limb vector whose numeric value (little-endian limbs, base 2^BIT_LEN) is exactly value(l)+value(r), for operands of different lengths, and the returned vector has no superfluous high zero limb (it is a single limb or its last limb is nonzero).", "quantifier": "For every limb width, every pair of limb slices of any (possibly different, possibly zero) lengths and contents.", "why_tests_cant": "Carry chains can be arbitrarily long and lengths are unbounded; tests only try one or two limbs of u32.", "anchors": ["crates/bits/src/algos/element/add.rs: ElementAdd::add", "crates/bits/src/utils.rs: IntSlice::shrink"]}
{"id": "C02", "title": "In-place addition wraps modulo the left width and the carry flag is exact", "statement": "For a right operand no longer than the left one, ElementAdd::add_overflowing leaves in `left` the value (l+r) mod 2^(bits of left), keeps its length, and returns true exactly when l+r does not fit; add_checked returns None exactly in that case and add_wrapping returns the same slice.", "quantifier": "For every limb width and every pair of slices with len(right) <= len(left).", "why_tests_cant": "The flag depends on a carry surviving the whole slice; no finite set of slices shows that it never lies.", "anchors": ["crates/bits/src/algos/element/add.rs: ElementAdd::add_overflowing, add_checked, add_wrapping"]}
{"id": "C03", "title": "Growing slice subtraction returns sign and absolute difference", "statement": "ElementSub::sub(l, r) returns (m, neg) where neg is true exactly when value(l) < value(r) and value(m) = |value(l) - value(r)|, with m normalised.", "quantifier": "For every limb width and every pair of slices that are not both empty.", "why_tests_cant": "The negate step depends on the low bits of an arbitrary-length difference; the only negative test in the repository is 0-1.", "anchors": ["crates/bits/src/algos/element/sub.rs: ElementSub::sub", "crates/bits/src/algos/element/neg.rs: ElementNot::not"]}
{"id": "C04", "title": "In-place subtraction wraps modulo the left width and the borrow flag is exact", "statement": "For a right operand no longer than the left one, ElementSub::sub_overflowing leaves (l-r) mod 2^(bits of left) in `left`, keeps its length and returns true exactly when l < r; sub_checked returns None exactly then; sub_wrapping returns the same slice.", "quantifier": "For every limb width and every pair of slices with len(right) <= len(left).", "why_tests_cant": "Borrow chains of arbitrary length; the repository has no test for the in-place forms.", "anchors": ["crates/bits/src/algos/element/sub.rs: ElementSub::sub_overflowing, sub_checked, sub_wrapping"]}
{"id": "C05", "title": "Slice comparison orders by numeric value", "statement": "ElementCmp::cmp(l, r) is Less / Equal / Greater exactly when value(l) is less than / equal to / greater than value(r), also when the lengths differ.", "quantifier": "For every limb width and every pair of limb slices.", "why_tests_cant": "Which limb decides depends on all limbs; the test table never has two differing limbs that disagree.", "anchors": ["crates/bits/src/algos/element/cmp.rs: ElementCmp::cmp"]}
{"id": "C06", "title": "Slice bitwise and/or/xor act on the numeric value", "statement": "ElementBitand/ElementBitor/ElementBitxor return a vector of the longer length whose value is the bitwise and/or/xor of the two values, the shorter operand being zero-extended.", "quantifier": "For every limb width and every pair of slices of any lengths.", "why_tests_cant": "Lengths and contents are unbounded; no tests exist for these functions.", "anchors": ["crates/bits/src/algos/element/bitand.rs: ElementBitand::bitand", "crates/bits/src/algos/element/bitor.rs: ElementBitor::bitor", "crates/bits/src/algos/element/bitxor.rs: ElementBitxor::bitxor"]}
{"id": "C07", "title": "Slice complement is reflection at all ones", "statement": "ElementNot::not keeps the length, maps a slice of value v to value 2^bits - 1 - v, and applied twice restores the slice.", "quantifier": "For every limb width and slice.", "why_tests_cant": "Quantifies over all slices.", "anchors": ["crates/bits/src/algos/element/neg.rs: ElementNot::not"]}
{"id": "C08", "title": "Growing left shift multiplies by a power of two", "statement": "ElementShl::shl(l, k) never loses bits: the result is a normalised vector of value value(l) * 2^k.", "quantifier": "For every limb width, every nonempty or empty slice and every shift amount k.", "why_tests_cant": "Shift amounts cross limb boundaries in unboundedly many ways; each element is split between two output limbs with a mask.", "anchors": ["crates/bits/src/algos/element/shl.rs: ElementShl::shl"]}
{"id": "C09", "title": "In-place left shifts: checked shift is exact modulo the width, wrapping shift reduces the amount by the width", "statement": "ElementShl::shl_checked(l, k) is None exactly when k > bit length and otherwise leaves l*2^k mod 2^bits in place; shl_wrapping(l, k) shifts by k modulo the bit length of the slice ('masking the shift value').", "quantifier": "For every limb width, every nonempty slice and every k.", "why_tests_cant": "Depends on the bit length being or not being a power of two and on in-place overwrite order over arbitrary lengths.", "anchors": ["crates/bits/src/algos/element/shl.rs: ElementShl::inner_shl_wrap_and_mask, shl_checked, shl_wrapping"]}
{"id": "C10", "title": "Growing right shift is floor division by a power of two", "statement": "ElementShr::shr(l, k) returns the normalised vector of value floor(value(l) / 2^k) without panicking, in debug and in release builds.", "quantifier": "For every limb width, every nonempty slice and every usize k.", "why_tests_cant": "Index arithmetic under/overflows only for shifts of at least one limb; there are no tests at all for this function.", "anchors": ["crates/bits/src/algos/element/shr.rs: ElementShr::shr"]}
{"id": "C11", "title": "In-place right shifts are floor division by a power of two", "statement": "ElementShr::shr_checked(l, k) is None exactly when k > bit length and otherwise leaves floor(l / 2^k) in place; shr_wrapping does the same for the masked amount; neither panics.", "quantifier": "For every limb width, every nonempty slice and every k.", "why_tests_cant": "The top limb is the only one with no neighbour above; no tests exist.", "anchors": ["crates/bits/src/algos/element/shr.rs: ElementShr::inner_shr_wrap_and_mask, shr_checked, shr_wrapping"]}
{"id": "C12", "title": "Growing slice multiplication is exact and normalised", "statement": "ElementMul::mul(l, r) returns a normalised vector of value value(l)*value(r).", "quantifier": "For every limb width and every pair of nonempty slices of any lengths.", "why_tests_cant": "Double carry propagation (widening product carry and accumulator carry) over arbitrary lengths.", "anchors": ["crates/bits/src/algos/element/mul.rs: ElementMul::mul, add_item", "crates/traits/src/ops/widening.rs: WideningMul"]}
{"id": "C13", "title": "In-place multiplication wraps modulo the left width", "statement": "ElementMul::mul_overflowing and mul_wrapping leave in `left` the value l*r mod 2^(bits of left) and keep its length, although the operand is overwritten while it is being read.", "quantifier": "For every limb width and every pair of slices of any lengths.", "why_tests_cant": "In-place read/overwrite order for arbitrary lengths cannot be sampled.", "anchors": ["crates/bits/src/algos/element/mul.rs: ElementMul::mul_overflowing, mul_wrapping, add_item"]}
{"id": "C14", "title": "In-place multiplication reports overflow exactly", "statement": "The flag returned by ElementMul::mul_overflowing is true exactly when value(l)*value(r) >= 2^(bits of left); hence mul_checked returns None exactly on overflow.", "quantifier": "For every limb width and every pair of slices of equal length.", "why_tests_cant": "Overflow can be caused by any partial product; the repository only tests non-overflowing products.", "anchors": ["crates/bits/src/algos/element/mul.rs: ElementMul::mul_overflowing, mul_checked, add_item"]}
{"id": "C15", "title": "Widening multiply-add is exact", "statement": "WideningMul::widening_mul(a, b, c) returns (low, high) with low + high*2^BITS = a*b + c, including the hand-written u128 implementation that splits into halves.", "quantifier": "For all operands of every unsigned width.", "why_tests_cant": "2^384 inputs for u128; carries into the high word occur only on rare operands.", "anchors": ["crates/traits/src/ops/widening.rs: WideningMul for u8..u128, usize"]}
{"id": "C16", "title": "Bitwise addition is exact", "statement": "BitwiseAdd::add(l, r) has value value(l)+value(r), growing by one limb only when needed, and BitwiseAdd::add_in_place stores the sum in the left slice.", "quantifier": "For every limb width and pair of slices.", "why_tests_cant": "Bit-level carry chain over arbitrary lengths.", "anchors": ["crates/bits/src/algos/bitwise/add.rs: BitwiseAdd::add, add_in_place"]}
{"id": "C17", "title": "Bitwise and element-wise subtraction agree", "statement": "BitwiseSub::sub and ElementSub::sub return the same flag and vectors of the same value for the same operands; when no borrow occurs that value is l-r.", "quantifier": "For every limb width and every pair of slices not both empty.", "why_tests_cant": "Two independent loops (per bit, per limb) compared over all inputs.", "anchors": ["crates/bits/src/algos/bitwise/sub.rs: BitwiseSub::sub", "crates/bits/src/algos/element/sub.rs: ElementSub::sub"]}
{"id": "C18", "title": "Bitwise shifts are exact", "statement": "BitwiseShl::shl(l,k) has value l*2^k and BitwiseShr::shr(l,k) is the normalised vector of value floor(l/2^k).", "quantifier": "For every limb width, slice (nonempty for shr) and k.", "why_tests_cant": "All slices and shift amounts.", "anchors": ["crates/bits/src/algos/bitwise/shl.rs: BitwiseShl::shl", "crates/bits/src/algos/bitwise/shr.rs: BitwiseShr::shr"]}
{"id": "C19", "title": "Bitwise multiplication is exact", "statement": "BitwiseMul::mul(l, r) has value value(l)*value(r).", "quantifier": "For every limb width and every pair of nonempty slices.", "why_tests_cant": "Loop over all bits with growing operands.", "anchors": ["crates/bits/src/algos/bitwise/mul.rs: BitwiseMul::mul"]}
{"id": "C20", "title": "Long division satisfies the division identity", "statement": "BitwiseDiv::div_long(n, d) returns (q, r) with n = q*d + r and r < d for every nonzero d, and the in-place forms div_long_* / rem_long_* return the same quotient and remainder.", "quantifier": "For every limb width and every numerator and nonzero divisor slice.", "why_tests_cant": "The comparison inside the loop sees remainders of every size; tests only use one-limb divisors below 4.", "anchors": ["crates/bits/src/algos/bitwise/div.rs: BitwiseDiv::div_long, div_long_overflowing, rem_long_overflowing", "crates/bits/src/algos/element/cmp.rs: ElementCmp::cmp"]}
{"id": "C21", "title": "Element-wise long division satisfies the division identity", "statement": "ElementDiv::div_long(n, d) terminates for every nonzero d and returns normalised (q, r) with n = q*d + r and r < d; the in-place forms div_long_overflowing, div_long_checked and div_long_wrapping return the same quotient.", "quantifier": "For every limb width, numerator and nonzero divisor.", "why_tests_cant": "Inner subtraction loop of data-dependent length; the repository comments out its own multi-limb tests as too slow.", "anchors": ["crates/bits/src/algos/element/div.rs: ElementDiv::div_long, div_long_overflowing, div_long_checked, div_long_wrapping"]}
{"id": "C22", "title": "Normalisation keeps the value and is canonical", "statement": "IntSlice::shrink keeps the numeric value, never yields an empty slice from a nonempty one, is idempotent, and two slices have equal value exactly when their shrunk forms are equal limb by limb.", "quantifier": "For every limb width and nonempty slice.", "why_tests_cant": "Canonicity is a statement about all pairs of slices.", "anchors": ["crates/bits/src/utils.rs: IntSlice::shrink (slice and Vec)"]}
{"id": "C23", "title": "Bit access is a lawful lens on the numeric value", "statement": "get_bit(i) is bit i of the numeric value; set_bit(i,b) changes exactly that bit; out-of-range reads and writes are reported (None / panic) or ignored (set_bit_ignore) without touching the slice; set_bit_push and set_push store the value at any index, growing with zeros.", "quantifier": "For every limb width, slice, index and bit.", "why_tests_cant": "All indices and lengths; set_push and set_bit_push have no tests.", "anchors": ["crates/bits/src/bit_slice.rs: BitSliceExt::get_bit, get_bit_opt, set_bit, set_bit_opt, set_bit_ignore, BitVecExt::set_push, set_bit_push, extend"]}
{"id": "C24", "title": "Bit iteration yields every bit once, in order, with an exact length", "statement": "iter_bits yields bits 0,1,2,... of the value in order and then None forever, and ExactSizeIterator::len equals the number of bits still to come at every point of the iteration.", "quantifier": "For every limb width and slice and every number of calls to next.", "why_tests_cant": "len is only right for some positions; no tests.", "anchors": ["crates/bits/src/bit_slice/iter.rs: BitIter::next, len, size_hint"]}
{"id": "C25", "title": "Integers survive conversion to limbs and back", "statement": "int_to_arr::<T,U,N>(v) has value v when N limbs of U suffice; arr_to_int::<U,T> of a normalised slice is Some(v) exactly when its value v fits T (and None otherwise); hence arr_to_int(int_to_arr(v)) = Some(v).", "quantifier": "For every pair of unsigned widths where one divides the other, every value and sufficient N.", "why_tests_cant": "All width pairs and values.", "anchors": ["crates/bits/src/utils.rs: int_to_arr, arr_to_int"]}
{"id": "C26", "title": "U<N> wrapping arithmetic is the ring of integers modulo 256^N", "statement": "wrapping_add, wrapping_sub and (release-mode) multiplication on U<N> compute addition, subtraction and multiplication modulo 256^N, with zero() and one() as neutral elements; so all commutative-ring identities hold.", "quantifier": "For every N and all operands.", "why_tests_cant": "Universal algebraic laws over 256^N values and all N.", "anchors": ["crates/ints/src/u.rs: WrappingAdd, WrappingSub, Mul for U, Zero, One"]}
{"id": "C27", "title": "U<N> checked addition and subtraction succeed exactly in range", "statement": "checked_add / checked_sub are Some of the exact result exactly when it lies in 0..256^N; in debug builds `+` and `-` panic exactly otherwise and in release builds wrap.", "quantifier": "For every N, all operands, both build modes.", "why_tests_cant": "All operands; tests only add 1+1.", "anchors": ["crates/ints/src/u.rs: CheckedAdd, CheckedSub, Add, Sub for U"]}
{"id": "C28", "title": "U<N> checked multiplication detects overflow", "statement": "checked_mul is Some of the exact product exactly when the product is below 256^N, None otherwise; debug `*` panics exactly when it does not fit.", "quantifier": "For every N and all operands.", "why_tests_cant": "Overflow positions vary; no multiplication tests exist for U.", "anchors": ["crates/ints/src/u.rs: CheckedMul, Mul for U"]}
{"id": "C29", "title": "U<N> saturating arithmetic clamps", "statement": "saturating_add, saturating_sub and saturating_mul return the exact result clamped to 0..=256^N-1.", "quantifier": "For every N and all operands.", "why_tests_cant": "All operands; untested.", "anchors": ["crates/ints/src/u.rs: SaturatingAdd, SaturatingSub, SaturatingMul, Bounded"]}
{"id": "C30", "title": "U<N> division and remainder satisfy a = (a/b)*b + a%b with a%b < b", "statement": "For nonzero b, `/` and `%` on U<N> are Euclidean quotient and remainder; dividing by zero panics, and checked_div returns None for zero.", "quantifier": "For every N and all operands.", "why_tests_cant": "Tests only divide small numbers by 2.", "anchors": ["crates/ints/src/u.rs: Div, Rem, CheckedDiv for U"]}
{"id": "C31", "title": "U<N> is ordered by numeric value", "statement": "Ord/PartialOrd on U<N> agree with the numeric order and with Eq.", "quantifier": "For every N and all operands.", "why_tests_cant": "Needs multi-byte operands whose low and high bytes disagree.", "anchors": ["crates/ints/src/u.rs: Ord, PartialOrd, PartialEq for U"]}
{"id": "C32", "title": "U<N> byte conversions round-trip", "statement": "from_X_bytes(to_X_bytes(x)) = x and back for little, big and native endian; to_be_bytes is the reverse of to_le_bytes; the numeric value of from_be_bytes is the big-endian reading.", "quantifier": "For every N, value and endianness.", "why_tests_cant": "All N (odd and even lengths of the in-place reversal).", "anchors": ["crates/ints/src/u.rs: from_le_bytes, from_be_bytes, from_ne_bytes, to_le_bytes, to_be_bytes, to_ne_bytes", "crates/bits/src/utils.rs: const_reverse"]}
{"id": "C33", "title": "U<N> bit operators act bitwise on the value and obey Boolean algebra", "statement": "&, |, ^ and ! on U<N> are bitwise on the numeric value (modulo 256^N for !), so De Morgan, involution and absorption hold.", "quantifier": "For every N and all operands.", "why_tests_cant": "Universal laws.", "anchors": ["crates/ints/src/u.rs: Not, BitAnd, BitOr, BitXor for U"]}
{"id": "C34", "title": "U<N> shifts match primitive integers", "statement": "x << k is x*2^k mod 256^N and x >> k is floor(x/2^k) for k < 8N; debug builds panic for larger k, release builds use k mod 8N.", "quantifier": "For every N >= 1, x, k and both build modes.", "why_tests_cant": "All k and N, including N that is not a power of two.", "anchors": ["crates/ints/src/u.rs: Shl, Shr, Shl<usize>, Shr<usize> for U", "crates/bits/src/algos/element/shl.rs", "crates/bits/src/algos/element/shr.rs"]}
{"id": "C35", "title": "U<N> pow is repeated multiplication", "statement": "pow(b, e) equals b multiplied e times (1 for e = 0, also for b = 0), modulo 256^N in release builds.", "quantifier": "For every N, base and exponent.", "why_tests_cant": "All bases/exponents; untested.", "anchors": ["crates/ints/src/u.rs: Pow, Product for U"]}
{"id": "C36", "title": "U<N> casts to and from primitive integers are range-checked", "statement": "uM::from_checked(U<N>) and U<N>::from_checked(uM) return Some of the same number exactly when it fits the target and None otherwise; saturate_from clamps; truncate_from reduces modulo the target width.", "quantifier": "For every N, every primitive width M and value.", "why_tests_cant": "Depends on the relation of N to the primitive size; untested.", "anchors": ["crates/ints/src/u.rs: impl_unsign_cast!"]}
{"id": "C37", "title": "U<N> Display prints the decimal digits of the value", "statement": "Formatting a U<N> yields its canonical decimal representation.", "quantifier": "For every N and value.", "why_tests_cant": "All N and values; untested.", "anchors": ["crates/ints/src/u.rs: write_base, Display for U"]}
{"id": "C38", "title": "I<N> add, sub, mul and neg are two's complement arithmetic", "statement": "The signed value of a+b, a-b, a*b and -a is the integer result wrapped into [-2^(8N-1), 2^(8N-1)); in particular it is exact whenever it fits.", "quantifier": "For every N >= 1 and all operands.", "why_tests_cant": "All operands and N.", "anchors": ["crates/ints/src/i.rs: Add, Sub, Mul, Neg for I"]}
{"id": "C39", "title": "I<N> is ordered by signed value", "statement": "Ord on I<N> agrees with the order of the signed values.", "quantifier": "For every N >= 1 and all operands.", "why_tests_cant": "Tests only use values that differ in the lowest byte.", "anchors": ["crates/ints/src/i.rs: Ord, PartialOrd for I, Signed::is_negative"]}
{"id": "C40", "title": "I<N> sign queries and bounds", "statement": "is_negative(x) holds exactly when the signed value is < 0 and is_positive exactly when >= 0; min_value and max_value are -2^(8N-1) and 2^(8N-1)-1 and bound every value; max_negative is -1 and min_positive is 1; abs(x) is |x| whenever |x| is representable.", "quantifier": "For every N >= 1 and all values.", "why_tests_cant": "All values; abs is untested.", "anchors": ["crates/ints/src/i.rs: Signed, Bounded, BoundedSigned for I"]}
{"id": "C41", "title": "I<N> division truncates toward zero and remainder takes the sign of the dividend", "statement": "For b != 0 (and no overflow) a/b is the quotient truncated toward zero and a = (a/b)*b + a%b.", "quantifier": "For every N >= 1 and all operands.", "why_tests_cant": "Sign combinations times multi-byte operands; untested.", "anchors": ["crates/ints/src/i.rs: Div, Rem for I"]}
{"id": "C42", "title": "BigInt multiplication is exact integer multiplication", "statement": "a * b denotes the product of the integers denoted by a and b, and the result is stored canonically (inline exactly when it is below 2^62, limbs normalised, zero never negative).", "quantifier": "For all BigInts.", "why_tests_cant": "Unbounded integers.", "anchors": ["crates/ints/src/big_int.rs: Mul for BigInt, new_slice, new_inline"]}
{"id": "C43", "title": "BigInt addition and subtraction are exact", "statement": "a + b and a - b denote the sum and difference of the integers denoted by a and b.", "quantifier": "For all BigInts.", "why_tests_cant": "Depends on sign combination and on the parity of the difference; tests happen to use odd differences.", "anchors": ["crates/ints/src/big_int.rs: Add, Sub for BigInt", "crates/bits/src/algos/element/sub.rs: ElementSub::sub"]}
{"id": "C44", "title": "BigInt division and remainder satisfy the truncated division identity", "statement": "For b != 0, a / b truncates toward zero, a % b has the sign of a, and a = (a/b)*b + a%b; dividing by zero panics.", "quantifier": "For all BigInts a and nonzero b.", "why_tests_cant": "Sign combinations and multi-limb divisors.", "anchors": ["crates/ints/src/big_int.rs: Div, Rem for BigInt", "crates/bits/src/algos/bitwise/div.rs: BitwiseDiv::div_long"]}
{"id": "C45", "title": "BigInt shifts multiply and floor-divide the magnitude by powers of two", "statement": "a << k denotes a*2^k and a >> k shifts the magnitude right by k, keeping the sign, for every k that fits usize.", "quantifier": "For all BigInts and all nonnegative k.", "why_tests_cant": "All shift amounts; the only test is << 1.", "anchors": ["crates/ints/src/big_int.rs: Shl, Shr for BigInt"]}
{"id": "C46", "title": "BigInt equality is equality of integers", "statement": "a == b exactly when they denote the same integer, whatever the history that produced them (inline, interned at the same or at different slots).", "quantifier": "For all pairs of BigInts reachable through the public API.", "why_tests_cant": "Two equal large values may sit in different interner slots depending on the whole allocation history.", "anchors": ["crates/ints/src/big_int.rs: PartialEq for BigInt, Neg for BigInt", "crates/utils/src/intern.rs: Interner::add"]}
{"id": "C47", "title": "BigInt comparison is the order of the integers", "statement": "cmp(a, b) agrees with the order of the denoted integers.", "quantifier": "For all pairs of BigInts.", "why_tests_cant": "Needs multi-limb values whose low limbs disagree with the high limbs.", "anchors": ["crates/ints/src/big_int.rs: Ord for BigInt"]}
{"id": "C48", "title": "BigInt negation and sign queries", "statement": "-a denotes the negated integer and -(-a) = a; abs is the absolute value; is_negative(a) exactly when a < 0, is_positive exactly when a >= 0, is_zero exactly when a denotes 0; there is no negative zero.", "quantifier": "For all BigInts.", "why_tests_cant": "Tests check new_slice([0], true) only.", "anchors": ["crates/ints/src/big_int.rs: Neg, Signed, Zero for BigInt, TaggedOffset::invert_neg"]}
{"id": "C49", "title": "Primitive integers convert into BigInt and back without loss", "statement": "BigInt::from(x) denotes x for every primitive x; T::try_from(&b) is Ok(x) exactly when b denotes a value x representable in T, otherwise an error naming the violated side; saturate_from clamps.", "quantifier": "For every primitive integer type and every value / BigInt.", "why_tests_cant": "All widths and signs, including values one past the bounds.", "anchors": ["crates/ints/src/big_int/macros.rs: impl_for_int!", "crates/ints/src/big_int.rs: arr_size", "crates/bits/src/utils.rs: int_to_arr, arr_to_int"]}
{"id": "C50", "title": "Comparing a BigInt with a primitive integer is numeric", "statement": "BigInt == x holds exactly when the BigInt denotes x, for every primitive signed or unsigned x, and never panics.", "quantifier": "For all BigInts and all primitive values.", "why_tests_cant": "Negative BigInts against unsigned values, and MIN values, are corner cases.", "anchors": ["crates/ints/src/big_int/macros.rs: PartialEq<$signed>, PartialEq<$unsigned> for BigInt"]}
{"id": "C51", "title": "BigInt printing and parsing are inverse", "statement": "Formatting a BigInt in decimal (or hex) prints its canonical digits with a leading '-' for negatives; from_str_radix parses any nonempty digit string in any case for radix 2..=36 to the integer it represents, and parsing the printed digits of a nonnegative value gives it back.", "quantifier": "For all BigInts, digit strings and radices.", "why_tests_cant": "Unbounded values and strings.", "anchors": ["crates/ints/src/big_int.rs: write_base, Display, UpperHex, LowerHex, from_str_radix, RadixChars::val_from_char"]}
{"id": "C52", "title": "BigInt parsing rejects exactly the malformed inputs", "statement": "from_str_radix fails with InvalidChar(c) where c is the first character that is not a digit of the radix, with InvalidRadix for radix > 36 (nonempty input), and succeeds otherwise.", "quantifier": "For all strings and radices.", "why_tests_cant": "All strings.", "anchors": ["crates/ints/src/big_int.rs: from_str_radix, RadixChars::val_from_char"]}
{"id": "C53", "title": "BigInt pow is repeated multiplication", "statement": "pow(a, e) denotes a^e for every e >= 0 (with a^0 = 1).", "quantifier": "For all BigInts a and nonnegative e.", "why_tests_cant": "Loop length is data dependent.", "anchors": ["crates/ints/src/big_int.rs: Pow for BigInt"]}
{"id": "C54", "title": "BigInt bitwise operators act on magnitudes", "statement": "For nonnegative BigInts, &, | and ^ denote the bitwise operation on the integers and the result is canonical.", "quantifier": "For all pairs of nonnegative BigInts.", "why_tests_cant": "Untested; operands of different limb counts.", "anchors": ["crates/ints/src/big_int.rs: BitAnd, BitOr, BitXor for BigInt"]}
{"id": "C55", "title": "A live BigInt never changes value", "statement": "While a BigInt is alive, no sequence of creations, clones, drops or arithmetic on other BigInts changes the integer it denotes or makes reading it panic; clone denotes the same integer.", "quantifier": "For every sequence of operations on any number of BigInts (single-threaded).", "why_tests_cant": "Depends on whole histories of slot reuse in the global interner.", "anchors": ["crates/ints/src/big_int.rs: new_intern, Clone, Drop, val", "crates/utils/src/intern.rs: Interner"]}
{"id": "C56", "title": "Interner returns what was added for as long as it is referenced", "statement": "After id = add(v), get(id) returns v until add's reference and all incr references have been released by decr, whatever other values are added, revived or released in between.", "quantifier": "For every sequence of add/incr/decr/get by callers that only release references they own and keep fewer than 2^64 - 1 references to one value.", "why_tests_cant": "Slot reuse depends on the full operation history.", "anchors": ["crates/utils/src/intern.rs: Interner::add, find, get, try_get, incr, decr"]}
{"id": "C57", "title": "Interner reference counts are exact", "statement": "refcount(id) equals the number of add/incr calls minus decr calls that named the slot (while callers only release what they own); try_get is None exactly at zero; decr at zero does nothing.", "quantifier": "For every operation sequence that keeps fewer than 2^64 - 1 references to one value (C161 is about more).", "why_tests_cant": "Whole histories.", "anchors": ["crates/utils/src/intern.rs: Interner::refcount, incr, decr, try_get"]}
{"id": "C58", "title": "Interner deduplicates live values", "statement": "While a value is live, adding an equal value returns the same id, so equal live values have equal ids and distinct live values distinct ids.", "quantifier": "For every operation sequence that keeps fewer than 2^64 - 1 references to one value (C161 is about more).", "why_tests_cant": "Requires a history in which an earlier slot died in between.", "anchors": ["crates/utils/src/intern.rs: Interner::find, add"]}
{"id": "C59", "title": "Interner fills slots densely", "statement": "A new chunk is only allocated when every existing slot is live, a new id is always the first free slot, and with_capacity(n) guarantees that the first n live values need no further chunk.", "quantifier": "For every operation sequence that keeps fewer than 2^64 - 1 references to one value (C161 is about more), and capacities below 2^64 - 32 (C199 is about greater ones).", "why_tests_cant": "All histories and capacities.", "anchors": ["crates/utils/src/intern.rs: Interner::with_capacity, find, add, CHUNK_SIZE"]}
{"id": "C60", "title": "Concurrent add is linearizable", "statement": "If several threads call add concurrently, each caller's id refers to the value it added.", "quantifier": "For every interleaving of the atomic steps of concurrent adds.", "why_tests_cant": "Interleavings cannot be enumerated by running threads.", "anchors": ["crates/utils/src/intern.rs: Interner::find, add (TODO at set_val)"]}
{"id": "C61", "title": "Concurrent pushes onto the shared list are never lost and never reordered", "statement": "Under every interleaving of concurrent pushes each completed push's element is in the list exactly once, elements once visible at an index stay at that index, and the list never becomes cyclic.", "quantifier": "For every number of threads and every interleaving of their atomic steps (sequentially consistent).", "why_tests_cant": "Interleavings are unbounded.", "anchors": ["crates/utils/src/linked.rs: UnsyncLinked::push, tail, get, iter, Node::set_next"]}
{"id": "C62", "title": "push returns the new length of the list", "statement": "The number returned by push is the 1-based position of the pushed element, so that index (result-1) is that element.", "quantifier": "For every interleaving of concurrent pushes.", "why_tests_cant": "The wrong answer needs a race in a two-instruction window.", "anchors": ["crates/utils/src/linked.rs: UnsyncLinked::push", "crates/utils/src/intern.rs: Interner::add (Find::None)"]}
{"id": "C63", "title": "Fixed-point addition, subtraction and negation are exact", "statement": "With value(x) = raw/2^N, value(a+b) = value(a)+value(b), similarly for - and unary -, from_val(n) has value n, and comparison and equality are those of the values.", "quantifier": "For every N and all raw integers whose results are in range.", "why_tests_cant": "All N and raw values.", "anchors": ["crates/reals/src/fixed.rs: Add, Sub, Neg, PartialOrd, from_val, from_raw"]}
{"id": "C64", "title": "Fixed-point multiplication and division respect the scale", "statement": "value(a*b) is value(a)*value(b) up to one unit of precision and one() is neutral for multiplication.", "quantifier": "For every N and all in-range operands.", "why_tests_cant": "All N; untested.", "anchors": ["crates/reals/src/fixed.rs: Mul, Div, One for Fixed"]}
{"id": "C65", "title": "Fixed-point floor, ceil, trunc and fract are the real functions", "statement": "floor/ceil give the greatest integer <= / least integer >= the value, trunc drops the fraction toward zero, and x = trunc(x) + fract(x) with |fract(x)| < 1 of the sign of x.", "quantifier": "For every N and every raw value whose result is in range.", "why_tests_cant": "All raw values of both signs and all N.", "anchors": ["crates/reals/src/fixed.rs: Real::floor, ceil, trunc, fract, is_whole, mask"]}
{"id": "C66", "title": "Fixed-point round gives a nearest integer", "statement": "round(x) is an integer at distance at most 1/2 from x.", "quantifier": "For every N and raw value.", "why_tests_cant": "Untested.", "anchors": ["crates/reals/src/fixed.rs: Real::round"]}
{"id": "C67", "title": "Rational arithmetic is exact", "statement": "Rat::new(n,d) is None exactly for d = 0; +, -, *, / and unary - on Rat denote the rational operations whenever no integer overflow occurs, and / panics exactly when dividing by a zero rational.", "quantifier": "For all numerators/denominators.", "why_tests_cant": "All pairs of fractions.", "anchors": ["crates/reals/src/rat.rs: Rat::new, reduce, Add, Sub, Mul, Div, Neg"]}
{"id": "C68", "title": "Equal rationals compare equal", "statement": "Rat values built by Rat::new or arithmetic are equal (==) exactly when they denote the same rational number, i.e. they are stored in lowest terms with a canonical sign.", "quantifier": "For all fractions.", "why_tests_cant": "Needs a pair where the numerator divides the denominator with a common factor.", "anchors": ["crates/reals/src/rat.rs: Rat::reduce, PartialEq (derived)"]}
{"id": "C69", "title": "Rational floor, ceil and round are the real functions", "statement": "floor/ceil give the greatest integer <= / least integer >= the value and round a nearest integer.", "quantifier": "For all rationals with positive denominator.", "why_tests_cant": "Integers and negative values are corner cases not covered by tests.", "anchors": ["crates/reals/src/rat.rs: Real::floor, ceil, round for Rat"]}
{"id": "C70", "title": "gcd is the greatest common divisor", "statement": "Gcd::gcd(a, b) divides both, every common divisor divides it, it is 0 only for (0,0), and it is nonnegative.", "quantifier": "For all operands of every primitive integer type.", "why_tests_cant": "All pairs; three test pairs.", "anchors": ["crates/traits/src/__impl.rs: Gcd for ints, minmax"]}
{"id": "C71", "title": "Saturating casts between primitive integers clamp", "statement": "T::saturate_from(x) is the value of T closest to x.", "quantifier": "For every pair of primitive integer types for which it is implemented, and every value.", "why_tests_cant": "144 type pairs and up to 2^128 values.", "anchors": ["crates/traits/src/__impl.rs: saturate_uint_impl!, saturate_sint_impl!"]}
{"id": "C72", "title": "Checked and truncating casts between primitive integers", "statement": "T::from_checked(x) is Some(x) exactly when x is representable in T; T::truncate_from(x) is the unique value of T congruent to x modulo 2^bits(T).", "quantifier": "For every pair of primitive integer types and value.", "why_tests_cant": "All pairs and values.", "anchors": ["crates/traits/src/__impl.rs: checked_impl!, truncating_as!"]}
{"id": "C73", "title": "Generic wrapping addition wraps", "statement": "WrappingAdd::wrapping_add on a primitive integer is addition modulo 2^bits.", "quantifier": "For every primitive type and all operands.", "why_tests_cant": "Untested; the inherent method of the same name hides the trait method in ordinary test code.", "anchors": ["crates/traits/src/__impl.rs: WrappingAdd for ints"]}
{"id": "C74", "title": "factorial multiplies 1..n", "statement": "Factorial::factorial(n) is n! whenever n! fits the type, and panics in debug builds otherwise.", "quantifier": "For all n and every unsigned primitive type (the only implementors).", "why_tests_cant": "All n.", "anchors": ["crates/traits/src/__impl.rs: Factorial for uints"]}
{"id": "C75", "title": "one() is the only one of the nonzero types", "statement": "For NonZero integer types is_one(x) holds exactly when x = 1.", "quantifier": "For all values of all NonZero types.", "why_tests_cant": "Untested.", "anchors": ["crates/traits/src/__impl/nz.rs: impl_nz! One::is_one"]}
{"id": "C76", "title": "Complex numbers form a field", "statement": "Over an exact field of reals, Complex add/sub/mul satisfy the commutative ring laws, abs_squared is multiplicative, and (a/b)*b = a for b != 0; scalar operations agree with embedding the scalar by from_real.", "quantifier": "For all complex numbers over any (ordered) field.", "why_tests_cant": "Universal algebraic identities.", "anchors": ["crates/compounds/src/complex.rs: Complex Add, Sub, Mul, Div, abs_squared"]}
{"id": "C77", "title": "Vector arithmetic is componentwise and checked variants are all-or-nothing", "statement": "Each component of a op b (vector or scalar rhs, also the assigning forms) is the operation on the components; checked_add/checked_sub are Some exactly when every component succeeds, and then componentwise.", "quantifier": "For every dimension and all vectors.", "why_tests_cant": "All dimensions.", "anchors": ["crates/compounds/src/vector.rs: ops_impl!, assign_ops_impl!, CheckedAdd, CheckedSub"]}
{"id": "C78", "title": "Dot, cross and distance identities", "statement": "dot_product is bilinear and symmetric; cross(a,b) is orthogonal to a and b, anticommutative, satisfies Lagrange's identity |a x b|^2 = |a|^2|b|^2 - (a.b)^2; distance_squared is symmetric, zero exactly for equal vectors, and equals dot(a-b,a-b).", "quantifier": "For all vectors over an exact ordered field.", "why_tests_cant": "Universal identities.", "anchors": ["crates/compounds/src/vector.rs: dot_product, cross, distance_squared"]}
{"id": "C79", "title": "Matrix algebra laws", "statement": "Matrix multiplication is associative, distributes over addition, has one() as identity and zero() as absorbing element; transpose is an involution and reverses products; from_columns is the transpose of from_rows.", "quantifier": "For all matrices of all compatible positive dimensions over a commutative ring.", "why_tests_cant": "All dimensions and entries.", "anchors": ["crates/compounds/src/matrix/static.rs: Matrix Add, Sub, Mul, transpose, from_rows, from_columns, Zero, One"]}
{"id": "C80", "title": "determinant is the determinant", "statement": "determinant(m) equals the Leibniz determinant over an exact ordered field, for every size N >= 1.", "quantifier": "For all N and all N x N matrices.", "why_tests_cant": "All N, all pivot patterns (zero columns, row swaps).", "anchors": ["crates/compounds/src/matrix/static.rs: determinant", "crates/compounds/src/matrix/macros.rs: gauss_elim!"]}
{"id": "C81", "title": "row_reduce yields a row-equivalent echelon form", "statement": "row_reduce(m) is in row echelon form and spans the same row space (same solutions) as m, for rectangular matrices too, without panicking.", "quantifier": "For all dimensions and entries over an exact ordered field.", "why_tests_cant": "Only square matrices are tested.", "anchors": ["crates/compounds/src/matrix/macros.rs: gauss_elim!, row_reduce!", "crates/compounds/src/matrix/static.rs", "crates/compounds/src/matrix/dynamic.rs"]}
{"id": "C82", "title": "Dynamic matrices behave like rectangular arrays", "statement": "DynMatrix::new accepts exactly data of length rows*cols; m[(i,j)] is the row-major entry for in-range indices and panics otherwise; writing one entry changes no other; swap_rows exchanges two rows and is an involution, and panics for a row that does not exist.", "quantifier": "For all dimensions, contents and indices.", "why_tests_cant": "Out-of-range column indices silently alias other rows; tests use in-range indices.", "anchors": ["crates/compounds/src/matrix/dynamic.rs: DynMatrix"]}
{"id": "C83", "title": "Matrix views only read inside the matrix", "statement": "Indexing a MatrixRef/MatrixMut either returns the matrix entry at that position or panics; no index reads memory outside the matrix.", "quantifier": "For all dimensions and index pairs.", "why_tests_cant": "Out-of-bounds reads may go unnoticed at run time; there are no tests.", "anchors": ["crates/compounds/src/matrix/refs.rs: ref_common!, MatrixMut::index_mut"]}
{"id": "C84", "title": "Binomial coefficient and bivector components", "statement": "choose_n(n, r) is the binomial coefficient whenever the intermediate products fit usize, the wedge product of two DIM-vectors has exactly C(DIM,2) components a_i*b_j - a_j*b_i in lexicographic order of i<j, so its internal consistency assertion never fires; wedge is antisymmetric.", "quantifier": "For all n, r and all vectors of every dimension.", "why_tests_cant": "All n, r, DIM.", "anchors": ["crates/compounds/src/bivec.rs: choose_n, BiVector::new"]}
{"id": "C85", "title": "Static iterator pipelines compute the pointwise result, visiting each index once in order", "statement": "collect() of any composition of map, zip, enumerate and zip_all over arrays gives at index i the composed function of the i-th elements; the underlying iterator is polled exactly once for each index 0..N in increasing order (its documented safety contract), also with stateful closures; fold/any/all/sum/product agree with the list operations.", "quantifier": "For all array lengths, element values and (stateful) closures.", "why_tests_cant": "All N and closures; the unsafe contract cannot be observed by tests.", "anchors": ["crates/static-iter/src/lib.rs: FromStaticIter, StaticIter", "crates/static-iter/src/adapter.rs: Map, Zip, Enumerate", "crates/static-iter/src/zip_all.rs: zip_all", "crates/static-iter/src/array.rs: IntoIter"]}
{"id": "C86", "title": "Fallible collection stops at the first failure", "statement": "Collecting into Option/Result yields Some/Ok of the whole array exactly when every element is Some/Ok, otherwise the first None/Err, and elements after the first failure are not polled; nested Option<Option<_>> behaves as two layers.", "quantifier": "For all lengths and element sequences.", "why_tests_cant": "All lengths and failure positions.", "anchors": ["crates/static-iter/src/lib.rs: FromStaticIter for Option and Result"]}
{"id": "C87", "title": "Generic powers of primitive integers are exact", "statement": "Pow::pow(a, e) on primitive integers is a^e whenever a^e fits the type, and panics in debug builds when it does not; the exponent has the same type as the base.", "quantifier": "For every primitive type, all bases and all nonnegative exponents.", "why_tests_cant": "Exponents beyond u32 only exist in 64 and 128 bit types.", "anchors": ["crates/traits/src/__impl.rs: Pow for ints"]}
{"id": "C88", "title": "Checked shifts of primitive integers", "statement": "checked_shl(a, k) and checked_shr(a, k) are None exactly when k is not in 0..bits, and otherwise Some of the shifted value modulo 2^bits (arithmetic shift right for signed types).", "quantifier": "For every primitive type, all values and all shift amounts of the same type.", "why_tests_cant": "Amounts beyond 2^32 and negative amounts are not tested.", "anchors": ["crates/traits/src/__impl.rs: CheckedShl, CheckedShr for ints"]}
{"id": "C89", "title": "Generic wrapping and checked operations agree with exact arithmetic", "statement": "wrapping_sub, wrapping_mul give the representative modulo 2^bits of the exact result; checked_add, checked_sub, checked_mul are Some of the exact result exactly when it is representable; checked_div is None exactly for a zero divisor or MIN / -1 and otherwise gives the truncated quotient.", "quantifier": "For every primitive type and all operands.", "why_tests_cant": "All operands of all types; the impls delegate by macro, so a slip affects every type at once.", "anchors": ["crates/traits/src/__impl.rs: WrappingSub, WrappingMul, CheckedAdd, CheckedSub, CheckedMul, CheckedDiv, CheckedRem for ints"]}
{"id": "C90", "title": "Fixed-point remainder is exact", "statement": "a % b = a - trunc(a / b) * b on the values denoted, of absolute value below |b| and of the sign of a; a % 0 panics.", "quantifier": "For every N and all raw values, except MIN % -1 which panics as for the primitive types.", "why_tests_cant": "All raw values and scales; sign conventions only show on negative operands.", "anchors": ["crates/reals/src/fixed.rs: Rem for Fixed"]}
{"id": "C91", "title": "Elements moved into an array iterator are neither duplicated nor lost", "statement": "Every element of an array turned into a static iterator is moved out at most once, and is either handed to the consumer or dropped when the iteration ends, whether the collection completes or stops at a failure.", "quantifier": "For all array lengths, element values and closures.", "why_tests_cant": "Leaks and double moves are invisible to value-based tests.", "anchors": ["crates/static-iter/src/array.rs: IntoIter", "crates/static-iter/src/lib.rs: FromStaticIter::from_static_iter"]}
{"id": "C92", "title": "I<N> bit operators act on the two's complement expansion", "statement": "a & b, a | b and a ^ b act on every bit of the infinite two's complement expansions of the signed values, !a = -a - 1, and De Morgan, absorption and involution hold.", "quantifier": "For every N >= 1 and all values.", "why_tests_cant": "All widths and values; sign extension only shows on negative operands.", "anchors": ["crates/ints/src/i.rs: BitAnd, BitOr, BitXor, Not for I"]}
{"id": "C93", "title": "Zero, one and bounds of the fixed-width integers", "statement": "is_zero and is_one hold exactly for the values 0 and 1 of U<N> and I<N>, zero() and one() denote 0 and 1, and U<N> min_value and max_value are 0 and 256^N - 1.", "quantifier": "For every N >= 1 and all values.", "why_tests_cant": "All widths and values.", "anchors": ["crates/ints/src/u.rs: Zero, One, Bounded for U", "crates/ints/src/i.rs: Zero, One for I"]}
{"id": "C94", "title": "Truncating casts of BigInt keep the low bits", "statement": "Truncating a BigInt to a primitive integer gives the number congruent to it modulo 2^bits, as truncating casts between the other integer types do; in particular values in range are unchanged.", "quantifier": "For all BigInts and every primitive target type.", "why_tests_cant": "Unbounded values, all widths; the ends of the ranges are the interesting cases.", "anchors": ["crates/ints/src/big_int.rs: TruncatingCast for BigInt", "crates/ints/src/big_int/macros.rs: impl_from"]}
{"id": "C95", "title": "BigInt order against primitive integers", "statement": "partial_cmp of a BigInt with a primitive integer is the order of the integers, and it says Equal exactly when == holds.", "quantifier": "For all BigInts and all values of every primitive type.", "why_tests_cant": "Unbounded values; errors only show for 128-bit operands and negative numbers.", "anchors": ["crates/ints/src/big_int.rs: PartialOrd", "crates/ints/src/big_int/macros.rs: impl_cmp"]}
{"id": "C96", "title": "Binary formatting of BigInt denotes the number", "statement": "{:b} prints a minus sign exactly for negative numbers, the prefix 0b and binary digits of the magnitude, and parsing the digits in radix 2 gives the magnitude back.", "quantifier": "For all BigInts.", "why_tests_cant": "Unbounded values.", "anchors": ["crates/ints/src/big_int.rs: Binary for BigInt"]}
{"id": "C97", "title": "Complement of BigInt", "statement": "!x = -x - 1 and !!x = x, as for the two's complement integers.", "quantifier": "For all BigInts.", "why_tests_cant": "Unbounded values.", "anchors": ["crates/ints/src/big_int.rs: Not for BigInt"]}
{"id": "C98", "title": "abs, is_positive and is_negative follow the documentation", "statement": "is_positive holds exactly for values >= 0, is_negative exactly for values < 0 (as the trait documents), and abs is the absolute value.", "quantifier": "For all values of the signed primitive integers, NonZero types, Fixed and Rat (abs of MIN excluded).", "why_tests_cant": "All values, scales and representations of fractions.", "anchors": ["crates/traits/src/class.rs: Signed", "crates/traits/src/__impl.rs: Signed for ints", "crates/traits/src/__impl/nz.rs: Signed", "crates/reals/src/fixed.rs: Signed for Fixed", "crates/reals/src/rat.rs: Signed for Rat"]}
{"id": "C99", "title": "Zero and one of fixed-point and rational numbers", "statement": "is_zero and is_one hold exactly for the representations of the values 0 and 1, and zero() and one() denote them.", "quantifier": "For every scale N for which 1 is representable, all raw values, and all fractions.", "why_tests_cant": "All scales; several fractions represent one.", "anchors": ["crates/reals/src/fixed.rs: Zero, One for Fixed", "crates/reals/src/rat.rs: Zero, One for Rat"]}
{"id": "C100", "title": "Bounds are the extreme values", "statement": "min_value and max_value are representable and bound all values; min_positive is the least positive and max_negative the greatest negative value, for the types that have them (NonZero types and Fixed).", "quantifier": "For all values of the primitive integers, NonZero types, Fixed (all scales) and Rat over primitive integers (which has no min_positive; C167 is about fractions over types that do).", "why_tests_cant": "All values and scales.", "anchors": ["crates/traits/src/__impl.rs: Bounded for ints", "crates/traits/src/__impl/nz.rs: Bounded, BoundedSigned", "crates/reals/src/fixed.rs: Bounded, BoundedSigned for Fixed", "crates/reals/src/rat.rs: Bounded for Rat"]}
{"id": "C101", "title": "Overflow flags and zero counts of the primitive integers", "statement": "overflowing_add, overflowing_sub and overflowing_mul return the representative modulo 2^bits and a flag that is set exactly when it differs from the exact result; leading_zeros and trailing_zeros, returned in the type itself, count exactly the zero bits before the first one bit.", "quantifier": "For every primitive type and all operands.", "why_tests_cant": "All operands of all types.", "anchors": ["crates/traits/src/__impl.rs: OverflowingAdd, OverflowingSub, OverflowingMul, Integral for ints"]}
{"id": "C102", "title": "Posit queries and negation follow the posit standard", "statement": "is_nar holds exactly for NaR, is_negative exactly for numbers below zero (and NaR), new() is zero; -x denotes the negated number, and zero and NaR are their own negatives.", "quantifier": "For every size N >= 1 and all bit patterns, read as the 2022 Posit Standard that the type claims to conform to.", "why_tests_cant": "All patterns of all sizes; the value depends on a variable-length encoding.", "anchors": ["crates/reals/src/p.rs: P::new, is_negative, is_nar, Neg for P"]}
{"id": "C103", "title": "Equal posits are equal numbers", "statement": "Two posits of the same size compare equal exactly when they denote the same real number (or are both NaR): no number has two representations.", "quantifier": "For every size N >= 1 and all pairs of bit patterns.", "why_tests_cant": "All pairs of patterns of all sizes.", "anchors": ["crates/reals/src/p.rs: PartialEq for P"]}
{"id": "C104", "title": "F<N> byte and bit conversions round-trip", "statement": "Little-endian, big-endian and native byte conversions and to_bits/from_bits of F<N> are inverse to each other, and all of them describe the same bit pattern.", "quantifier": "For every size N, all patterns, both byte orders of the target.", "why_tests_cant": "All patterns; a test runs on a machine of one byte order.", "anchors": ["crates/reals/src/f.rs: to_bits, from_bits, from_le_bytes, from_be_bytes, from_ne_bytes, to_le_bytes, to_be_bytes, to_ne_bytes"]}
{"id": "C105", "title": "Debug text of a fixed-point number denotes the number", "statement": "{:?} of a Fixed prints a decimal numeral that denotes exactly the number.", "quantifier": "For every primitive type, every scale N and all values.", "why_tests_cant": "All values and scales.", "anchors": ["crates/reals/src/fixed.rs: Debug for Fixed"]}
{"id": "C106", "title": "Binary text of a fixed-point number denotes the number", "statement": "{:b} of a nonnegative Fixed prints a binary numeral with a point that denotes the number.", "quantifier": "For every primitive type, every scale N and all nonnegative values.", "why_tests_cant": "All values and scales.", "anchors": ["crates/reals/src/fixed.rs: Binary for Fixed"]}
{"id": "C107", "title": "approx_float approximates the number", "statement": "approx_float returns a float of the sign of the number; it is exact up to 2^53, finite and within one part in 2^48 of the number whenever that is below 2^1024 by more than one part in 2^48, and an infinity of the right sign from 2^1024 on.", "quantifier": "For every BigInt.", "why_tests_cant": "All numbers of any length; the error accumulates over the limbs.", "anchors": ["crates/ints/src/big_int.rs: BigInt::approx_float"]}
{"id": "C108", "title": "Iterating over and measuring the shared list is consistent", "statement": "While other threads push, an iterator yields the elements of the list from the first, in order, none twice; next() yields the element following the ones yielded, and returns None only when all elements then on the list have been yielded, among them all that were there at the start. len() returns the length that the list has at one moment during the call, and is_empty() is true just if the list is empty.", "quantifier": "For every number of threads, every interleaving, every moment at which the iteration starts.", "why_tests_cant": "All interleavings with concurrent pushes.", "anchors": ["crates/utils/src/linked.rs: UnsyncLinked::iter, Iter::next, len, tail, is_empty"]}
{"id": "C109", "title": "Dropping the shared list frees every element exactly once", "statement": "After any concurrent use, dropping the list terminates and frees each element ever pushed exactly once, never touching an element after freeing it.", "quantifier": "For every number of threads and every history in which all calls have completed.", "why_tests_cant": "All interleavings; leaks and double frees need not show up in a test.", "anchors": ["crates/utils/src/linked.rs: Drop for UnsyncLinked, push"]}
{"id": "C110", "title": "BigInt operators with primitive right operands are exact", "statement": "a + x, a - x, a * x, a / x, a % x, a << x for a BigInt a and a primitive x give the exact integer result (truncated quotient, remainder with the sign of the dividend), and a op= x stores the same; a negative shift amount panics.", "quantifier": "For every BigInt and every value of every primitive type.", "why_tests_cant": "All numbers of any length and all primitive values.", "anchors": ["crates/ints/src/big_int/macros.rs: impl_ops_for_int, impl_assign_for_int", "crates/ints/src/big_int.rs: impl_assign_op"]}
{"id": "C111", "title": "BigInt multiplication is a commutative monoid under ==", "statement": "a*b == b*a, (a*b)*c == a*(b*c), a*0 == 0, a*1 == a unless a is a negated zero, and a*b is zero only if a or b is.", "quantifier": "For all triples of BigInts, of any length and sign.", "why_tests_cant": "All triples of numbers of any length.", "anchors": ["crates/ints/src/big_int.rs: Mul, PartialEq, One, Zero for BigInt"]}
{"id": "C112", "title": "BigInt addition is an abelian group under ==, and multiplication distributes", "statement": "a+b == b+a, (a+b)+c == a+(b+c), 0+a == a, (a-b)+b == a, e*(a+b) == e*a + e*b.", "quantifier": "For all BigInts, of any length and sign.", "why_tests_cant": "All triples of numbers of any length.", "anchors": ["crates/ints/src/big_int.rs: Add, Sub, Mul, PartialEq for BigInt"]}
{"id": "C113", "title": "The comparisons are total orders consistent with equality", "statement": "For element slices, U<N>, I<N>, BigInt and Fixed, the comparison, whatever order it realises, is total, antisymmetric (swapping the operands reverses the answer), transitive, never panics, and answers Equal just when the values are equal: numerically equal for slices (with leading zeros ignored), U<N>, I<N>, Fixed, and == for BigInt. So sorting, binary search and ordered maps work consistently.", "quantifier": "For all triples of values of each type; slices and BigInts of any lengths.", "why_tests_cant": "All triples of values of any length.", "anchors": ["crates/bits/src/algos/element/cmp.rs: ElementCmp::cmp", "crates/ints/src/u.rs: PartialOrd, Ord for U", "crates/ints/src/i.rs: PartialOrd, Ord for I", "crates/ints/src/big_int.rs: PartialOrd, Ord, PartialEq for BigInt", "crates/reals/src/fixed.rs: PartialOrd, Ord for Fixed"]}
{"id": "C114", "title": "Vector components by name and by index", "statement": "v[i] is component i of a vector and panics exactly when i >= N; assigning to v[i] (or through index_mut) changes this component only. x, y, z, w are components 0 to 3, in the order in which from_xy, from_xyz, from_xyzw take them; set_x and assignment through x_mut (and the same for y, z, w) change only the component named. Default gives the default in every component.", "quantifier": "For all dimensions, indices and component types.", "why_tests_cant": "All dimensions and all indices; a test of one component does not see that another was changed.", "anchors": ["crates/compounds/src/vector.rs: Index, IndexMut, Default for Vector; from_xy, from_xyz, from_xyzw, x, y, z, w, x_mut, set_x, ..."]}
{"id": "C115", "title": "Laws of the determinant", "statement": "Over an exact field: det(A*B) = det(A)*det(B), det(transpose A) = det(A), det(identity) = 1; swap_rows of two different rows negates the determinant; two equal rows or a zero row make it 0. None of these panics.", "quantifier": "For all square matrices of every size over every ordered field with exact arithmetic.", "why_tests_cant": "All matrices of all sizes.", "anchors": ["crates/compounds/src/matrix/static.rs: Matrix::determinant, transpose, swap_rows, Mul, One", "crates/compounds/src/matrix/macros.rs: gauss_elim"]}
{"id": "C116", "title": "Release builds compute what debug builds compute", "statement": "The overflow checks and assertions of debug builds only turn results into panics: every call that returns a value in a debug build returns the same value (and leaves the same state) in a release build.", "quantifier": "For all operations with build-dependent behaviour: slice shifts, division and conversions, U<N>, I<N>, BigInt, interner, generic integer operations, Fixed, Rat, dynamic matrices and views, bivectors; for all operands.", "why_tests_cant": "Tests run in one profile, on finitely many operands.", "anchors": ["crates/ints/src/u.rs: cfg!(debug_assertions)", "crates/bits/src/algos/*", "crates/ints/src/big_int.rs", "crates/reals/src/*", "crates/compounds/src/*", "crates/utils/src/intern.rs"]}
{"id": "C117", "title": "Every BigInt a program can compute is well stored", "statement": "Whatever sequence of conversions, parsing, arithmetic, bit operations, shifts, powers, negation and abs produced it, a BigInt is stored inline exactly if its magnitude is below 2^62 and otherwise without superfluous high limbs. A negative zero can only come from negating zero, as last operation (or as the base of a power). So results of computations that do not end in a negation are == exactly when they are the same integer.", "quantifier": "For all expressions over BigInt of any shape and nesting depth, in both build profiles.", "why_tests_cant": "All expressions; tests check single operations on chosen operands.", "anchors": ["crates/ints/src/big_int.rs: From, FromStrRadix, Neg, Signed, Add, Sub, Mul, Div, Rem, BitAnd, BitOr, BitXor, Not, Shl, Shr, Pow for BigInt, new_slice"]}
{"id": "C118", "title": "Compound expressions over U<N> and I<N> mean the integer expression modulo 256^N", "statement": "In release builds an expression over +, -, * has as result the exact integer value reduced modulo 256^N, so algebraically equal expressions give identical results. In debug builds, and in release builds, the result is the exact value if the values of all subexpressions fit; without multiplication debug builds panic in all other cases. I<N> expressions always return the value reduced to the symmetric range; only the final value must fit for it to be exact.", "quantifier": "For all N and all expressions of any shape and depth.", "why_tests_cant": "All expressions, all operands, all widths.", "anchors": ["crates/ints/src/u.rs: Add, Sub, Mul for U", "crates/ints/src/i.rs: Add, Sub, Mul for I"]}
{"id": "C119", "title": "Compound BigInt computations are exact", "statement": "A computation over BigInt (conversions, parsing, + - * / % & | ^ << >> pow, negation, abs, nested to any depth) returns the integer the expression stands for.", "quantifier": "For all expressions over BigInt; numbers of any length.", "why_tests_cant": "All expressions and numbers of any length; errors of one operation can be hidden or amplified by another.", "anchors": ["crates/ints/src/big_int.rs: operators of BigInt, FromStrRadix, Pow, From"]}
{"id": "C120", "title": "Byte conversions of primitive integers", "statement": "to_le_bytes gives the base-256 digits of the bit pattern, least significant first, to_be_bytes the reverse, to_ne_bytes one of the two by target; from_*_bytes inverts to_*_bytes and conversely; going to or from U<SIZE> through bytes in any byte order is the same as converting directly.", "quantifier": "For all sizes, values and byte arrays, both target byte orders.", "why_tests_cant": "All values of up to 128 bits; the big-endian target cannot be run in the test suite.", "anchors": ["crates/traits/src/bytes.rs: ConvertBytes", "crates/traits/src/__impl.rs: impl_bytes!", "crates/ints/src/u.rs: from_le_bytes, from_be_bytes, from_ne_bytes, to_*_bytes"]}
{"id": "C121", "title": "Zero and one of the primitive integers are the identities", "statement": "zero() and one() are neutral for + and *, without overflow in any build; zero() absorbs; is_zero and is_one hold exactly for the values that are neutral for addition and for multiplication.", "quantifier": "For every primitive integer type and all values.", "why_tests_cant": "All values of all types.", "anchors": ["crates/traits/src/__impl.rs: Zero, One for ints", "crates/traits/src/identity.rs: Zero, One"]}
{"id": "C122", "title": "Posit order and arithmetic follow the standard", "statement": "Comparing two posits gives the order of the numbers they stand for; sums and differences are the exact result rounded to a posit.", "quantifier": "For all posit formats and all bit patterns.", "why_tests_cant": "All pairs of patterns of all formats.", "anchors": ["crates/reals/src/p.rs: PartialOrd, Ord, Add, Sub for P"]}
{"id": "C123", "title": "Vectors, matrices and complex numbers of machine integers", "statement": "With components of a primitive integer type (or Fixed numbers, by raw value) the componentwise operators give what the operator of the component type gives, and every scalar product, sum, cross product, complex product and matrix product entry is, in release builds, the exact integer result reduced to the type, and in debug builds the exact result or a panic. Scalar products, sums and matrix products panic in debug builds exactly if one of the products or one of the partial sums, from the left, is out of range.", "quantifier": "For all primitive integer types, both build profiles, all dimensions and all components.", "why_tests_cant": "All component values and dimensions; overflow of intermediate results depends on several components at once.", "anchors": ["crates/compounds/src/vector.rs: Add, Sub, Mul, Div, Rem for Vector, dot_product, sum, cross", "crates/compounds/src/complex.rs: Add, Sub, Mul for Complex, abs_squared", "crates/compounds/src/matrix/static.rs: Add, Sub, Mul for Matrix"]}
{"id": "C124", "title": "The interner needs no more memory than its live values", "statement": "However many values are added and released, the interner never holds more chunks of 32 slots than were reserved at the start or than the largest number of values that were live at the same time needs. A program that never has more than K BigInts at the same time never needs more than K slots rounded up to a whole chunk. When all BigInts are dropped no slot is referenced, and the next number that needs a slot gets the first one.", "quantifier": "For all sequences of calls of any length, all capacities and all numbers of live values; both build profiles.", "why_tests_cant": "Unbounded sequences: a leak of one slot in rare circumstances shows only in long runs.", "anchors": ["crates/utils/src/intern.rs: add, incr, decr, with_capacity", "crates/ints/src/big_int.rs: Drop, Clone, new_slice"]}
{"id": "C125", "title": "Whole computations with rational and fixed-point numbers are exact or panic", "statement": "In debug builds, a Rat expression over fractions, + - * / and negation, nested to any depth, returns exactly the rational number it stands for or panics, and it panics if something is divided by zero. The same holds for Fixed expressions over + - %, negation, abs, floor, trunc and fract: no rounding. Release builds return the same whenever the debug build returns something. Both profiles return a result if no numerator or denominator of an unreduced computation, respectively no intermediate fixed-point result, leaves the type (unsigned rationals: if nothing is subtracted or negated; fixed-point: without %). Fixed sums and differences in release builds are the exact number reduced into the type, whatever overflows on the way.", "quantifier": "For all expressions of any shape and depth, all primitive integer types, all numbers of fractional bits, both build profiles.", "why_tests_cant": "All expressions and operands; whether an intermediate product overflows depends on how far earlier results were reduced.", "anchors": ["crates/reals/src/rat.rs: new, Add, Sub, Mul, Div, Neg for Rat", "crates/reals/src/fixed.rs: from_val, from_raw, Add, Sub, Rem, Neg, abs, floor, trunc, fract"]}
{"id": "C126", "title": "Sums of products of floats are as accurate as floating point allows", "statement": "With f32 or f64 components, every scalar product, sum, matrix product entry, cross product component, wedge product component, complex product, abs_squared and 2x2 determinant, if finite, differs from the exact real result by at most ((1+u)^n - 1) times the sum of the magnitudes of its n terms, plus n(1+u)^(n-1) halves of the smallest float (not for sums), where u is half the distance from 1 to the next float. The result is finite unless the sum of the magnitudes, enlarged by that much, exceeds the largest float. The product of the n components of a vector has relative error at most (1+u)^(n-1) - 1 if no partial product underflows.", "quantifier": "For all formats of IEEE 754 shape, f32 and f64 among them, all dimensions and all finite components, rounding to nearest with ties to even, subnormals and overflow included.", "why_tests_cant": "Error bounds for all inputs of all lengths; tests compare a few values with a tolerance.", "anchors": ["crates/compounds/src/vector.rs: dot_product, sum, product, cross", "crates/compounds/src/bivec.rs: BiVector::new", "crates/compounds/src/complex.rs: Mul for Complex, abs_squared", "crates/compounds/src/matrix/static.rs: Mul for Matrix, determinant", "crates/traits/src/__impl.rs: impl_float!"]}
{"id": "C127", "title": "Float computations on moderate integers are exact", "statement": "If the components are integers and the magnitudes of the terms of a scalar product, sum, matrix product entry, cross or wedge product component, complex product, abs_squared or 2x2 determinant add up to at most 2^24 (f32) or 2^53 (f64), the result is the exact integer.", "quantifier": "For all formats, all dimensions and all integer components within the bound.", "why_tests_cant": "All integer inputs up to the bound.", "anchors": ["crates/compounds/src/vector.rs: dot_product, sum, cross", "crates/compounds/src/complex.rs: Mul for Complex", "crates/compounds/src/matrix/static.rs: Mul for Matrix, determinant"]}
{"id": "C128", "title": "Quotients of complex floats are accurate", "statement": "The quotient of two complex numbers with f32 or f64 components, the divisor not zero, is finite if the exact quotient is in range, and each component differs from the exact one by a small multiple of u times the magnitude of the terms that make it up. The same holds for division by a real number.", "quantifier": "For all finite components.", "why_tests_cant": "All component values; intermediate squares overflow or underflow for large and small numbers only.", "anchors": ["crates/compounds/src/complex.rs: Div for Complex"]}
{"id": "C129", "title": "Determinants of float matrices are accurate", "statement": "The determinant of a square f32 or f64 matrix is close to the exact determinant: exact for small integers, otherwise within a modest multiple of u times the products of the entries.", "quantifier": "For all sizes and all matrices of finite floats.", "why_tests_cant": "All matrices; the error depends on the pivots that elimination happens to choose.", "anchors": ["crates/compounds/src/matrix/static.rs: determinant, row_reduce, row_echelon"]}
{"id": "C130", "title": "Casts between integers and floats give the nearest value", "statement": "saturate of an integer to a float gives the finite float nearest to it (of two equally near the one with even significand), and the integer itself if that is a float; saturate of a float to an integer type gives the value of the type nearest to it, the bounds for infinities.", "quantifier": "For all primitive integer types, both float types and all values.", "why_tests_cant": "All values up to 128 bits and all floats.", "anchors": ["crates/traits/src/cast.rs: FromSaturating", "crates/traits/src/__impl.rs: FromSaturating between ints and floats"]}
{"id": "C131", "title": "Sign queries and bounds of floats", "statement": "is_zero, is_one, is_negative (below 0), is_positive (0 or more) and abs say what the number is, and NaN is none of these; max_value and min_value are the largest and smallest finite floats; min_positive is the smallest float above 0 and max_negative the largest below.", "quantifier": "For both float types and all values.", "why_tests_cant": "Bounds are claims about all floats.", "anchors": ["crates/traits/src/__impl.rs: impl_float!", "crates/traits/src/class.rs: Signed, Bounded, BoundedSigned"]}
{"id": "C132", "title": "Rounding functions go the documented way for every real type", "statement": "floor rounds toward 0, ceil away from 0, trunc toward negative infinity, each to an integer less than 1 away, for floats, fixed-point numbers and fractions alike. For floats the results of floor, ceil, trunc and round are floats again, round gives a nearest integer, and fract is x minus trunc without rounding.", "quantifier": "For all floats, Fixed and Rat types, all values that have a representable result.", "why_tests_cant": "All values of all types, generic code cannot be tested against all implementors.", "anchors": ["crates/traits/src/class.rs: Real", "crates/traits/src/__impl.rs: Real for floats", "crates/reals/src/fixed.rs: floor, ceil, trunc", "crates/reals/src/rat.rs: floor"]}
{"id": "C133", "title": "Interned values held by a thread survive what other threads do", "statement": "While threads add values, clone the references they hold and drop them, an id reads as the value it was added for as long as some reference to it has been held since; the reference count is the number of references held; nothing panics.", "quantifier": "For every number of threads, every history and every interleaving of the atomic steps.", "why_tests_cant": "Interleavings of drops with the steps of an add cannot be enumerated by running threads.", "anchors": ["crates/utils/src/intern.rs: Interner::add, find, incr, decr, get, refcount"]}
{"id": "C134", "title": "Vectors, matrices and complex numbers of fractions are exact or panic", "statement": "With Rat components, every component of +, -, * and / of vectors, dot_product, sum, product, cross, matrix +, - and *, and complex +, -, *, / and abs_squared is the exact rational result in lowest terms, or the computation panics on overflow in debug builds; division by zero panics. For dot_product and matrix products of fractions with numerators up to A and denominators up to B, nothing overflows if max(n A^2, 1) B^(2n) fits, n being the number of terms.", "quantifier": "For all primitive component types of at least 2 bits, all dimensions, all component values, in both build modes (in release builds the result is exact if the debug build does not panic).", "why_tests_cant": "The size of numerators and denominators grows along the computation; tests see a few small vectors.", "anchors": ["crates/compounds/src/vector.rs: dot_product, sum, product, cross", "crates/compounds/src/complex.rs", "crates/compounds/src/matrix/static.rs: Add, Sub, Mul for Matrix", "crates/reals/src/rat.rs"]}
{"id": "C135", "title": "Matrices and complex numbers of U<N> and I<N> wrap around like their components", "statement": "With U<N> in release builds and I<N> in both, every entry of a matrix product and every component of complex +, -, * and of cross is the exact integer modulo 256^N (two's complement for I<N>), whatever overflows on the way. With U<N> in debug builds an entry of a matrix product that fits is exact and nothing panics on the way to it; likewise for complex products whose terms and parts fit.", "quantifier": "For all N, all dimensions and all component values.", "why_tests_cant": "Intermediate overflow may cancel in the end; all values of all widths.", "anchors": ["crates/compounds/src/matrix/static.rs: Mul for Matrix", "crates/compounds/src/complex.rs", "crates/compounds/src/vector.rs: cross", "crates/ints/src/u.rs", "crates/ints/src/"]}
{"id": "C136", "title": "Matrices and complex numbers of BigInt are exact", "statement": "With BigInt components, every entry of a matrix product and every component of complex +, -, * and of cross is the exact integer.", "quantifier": "For all dimensions and all values.", "why_tests_cant": "All values of all sizes.", "anchors": ["crates/compounds/src/matrix/static.rs: Mul for Matrix", "crates/compounds/src/complex.rs", "crates/compounds/src/vector.rs: cross", "crates/ints/src/big_int.rs"]}
{"id": "C137", "title": "I<N> has working shifts, powers, checked and saturating arithmetic", "statement": "The shift operators, pow, checked_add, checked_sub, checked_mul, checked_div and the saturating operations of I<N> return the value their trait documents.", "quantifier": "For all N and all operands.", "why_tests_cant": "All values of all widths, and no test calls them.", "anchors": ["crates/ints/src/i.rs: Shl, Shr, Pow, Checked*, Saturating* for I"]}
{"id": "C138", "title": "Fractions and fixed-point numbers have order, remainder, powers, roots and vector distances", "statement": "Comparing, %, pow, trunc, fract, log, sqrt, root and cbrt of Rat, pow, log, sqrt, root and cbrt of Fixed, distance_squared and distance of vectors of either, and abs of complex numbers of either return a value whenever the mathematical result is representable.", "quantifier": "For all component types, all operands and all dimensions.", "why_tests_cant": "All values and types, and no test calls them.", "anchors": ["crates/reals/src/rat.rs: PartialOrd, Rem, Pow, Real for Rat", "crates/reals/src/fixed.rs: Pow, Real for Fixed", "crates/compounds/src/vector.rs: distance_squared, distance", "crates/compounds/src/complex.rs: abs"]}
{"id": "C139", "title": "Vectors, matrices and complex numbers of fixed-point numbers", "statement": "With Fixed components, sum, scalar and matrix products, cross, complex +, -, * and abs_squared, and matrix + and - give the exact number if it is representable and so is every intermediate result; on overflow debug builds panic, and if they do not, release builds give the same.", "quantifier": "For all primitive backing types, all numbers of fractional bits, all dimensions and all components.", "why_tests_cant": "All values, formats and dimensions; a test with whole numbers and no fractional bits passes.", "anchors": ["crates/compounds/src/vector.rs: dot_product, sum, product, cross", "crates/compounds/src/complex.rs", "crates/compounds/src/matrix/static.rs: Add, Sub, Mul for Matrix", "crates/reals/src/fixed.rs"]}
{"id": "C140", "title": "Absolute values of complex floats are accurate", "statement": "abs of a complex number of floats is within four units in the last place (relative error 4u, u being 2^-24 for f32 and 2^-53 for f64) of the exact absolute value whenever that is a normal float, and exact for integers whose absolute value is an integer with square at most 2^24 or 2^53; sqrt gives the float nearest to the exact root, NaN for negative numbers.", "quantifier": "For all finite components, f32 and f64.", "why_tests_cant": "Real-number accuracy over all pairs of floats, including the ends of the exponent range.", "anchors": ["crates/compounds/src/complex.rs: abs, abs_squared", "crates/traits/src/__impl.rs: Real::sqrt for f32, f64"]}
{"id": "C141", "title": "Fixed-point numbers backed by U<M> compute and round exactly", "statement": "With a U<M> as backing integer and N < 8M fractional bits: one is 1, from_val(v) is v if representable, + and - are exact if representable and panic in debug builds otherwise, comparison is that of the numbers, floor and trunc give the greatest integer not above the number, ceil the least not below it if representable, fract the rest, round an integer at distance at most one half.", "quantifier": "For all M, all N < 8M, all values, both build modes.", "why_tests_cant": "All values of all widths and formats; the repository's tests only use i32.", "anchors": ["crates/reals/src/fixed.rs", "crates/ints/src/u.rs: Shl<usize>, Shr<usize>, Rem, Ord for U"]}
{"id": "C142", "title": "Fixed-point numbers backed by I<M> compute and round exactly", "statement": "With an I<M> as backing integer and N < 8M - 1 fractional bits: one is 1, from_val(v) is v if representable, + and - are exact if representable, and floor, ceil, trunc, fract and round return what they do for primitive backing integers.", "quantifier": "For all M, all N < 8M - 1, all values, both build modes.", "why_tests_cant": "All values of all widths and formats, and no test uses such a type.", "anchors": ["crates/reals/src/fixed.rs", "crates/ints/src/i.rs: Shl<usize>, Shr<usize> for I"]}
{"id": "C143", "title": "Fixed-point numbers backed by BigInt compute and round exactly", "statement": "With BigInt as backing integer: one is 1, from_val(v) is v, + and - are exact, floor is the greatest integer not above the number, ceil the least not below it, trunc drops the fraction and fract is what it drops, round gives an integer at distance at most one half. Nothing panics.", "quantifier": "For all numbers of fractional bits, all values, both build modes.", "why_tests_cant": "All values of all sizes: the deviations need negative numbers or numbers of more than one limb.", "anchors": ["crates/reals/src/fixed.rs", "crates/ints/src/big_int.rs: Shl, Shr, BitAnd, Not, Rem for BigInt"]}
{"id": "C144", "title": "Row reduction and determinants of square matrices of floats return", "statement": "row_reduce and determinant of a square matrix of finite floats return a matrix and a number; they never panic.", "quantifier": "For all sizes, all finite entries, f32 and f64.", "why_tests_cant": "All matrices of all sizes: the panic needs magnitudes whose quotient and product leave the exponent range, so that a NaN arises on the way.", "anchors": ["crates/compounds/src/matrix/macros.rs: row_reduce", "crates/compounds/src/matrix/static.rs: determinant"]}
{"id": "C145", "title": "Roots and cube roots of floats are accurate", "statement": "For finite floats, cbrt(x) and, for odd n, x.root(n) give the real root for either sign, x.root(n) for even n the positive root of a positive number and NaN for a negative one; the result is within a few units in the last place of the exact root, provided powf is as accurate.", "quantifier": "For all finite x, all whole n >= 2 that the format represents, f32 and f64, all accurate implementations of powf.", "why_tests_cant": "Real-number accuracy over all floats: the loss grows with the exponent and is invisible near one; no test takes the root of a negative number.", "anchors": ["crates/traits/src/class.rs: Real::root, Real::cbrt", "crates/traits/src/__impl.rs: Real for f32, f64"]}
{"id": "C146", "title": "csc, sec and cot are the reciprocals of sin, cos and tan", "statement": "csc(x), sec(x) and cot(x) of a float are the floats nearest to the reciprocals of what sin(x), cos(x) and tan(x) return; the reciprocal of zero is infinite, of an infinity zero, of NaN NaN.", "quantifier": "For all floats and all values sin, cos and tan may return.", "why_tests_cant": "All floats; accuracy statement over the reals.", "anchors": ["crates/traits/src/__impl.rs: Trig::csc, sec, cot for f32, f64", "crates/traits/src/ops.rs: Trig"]}
{"id": "C147", "title": "Random U<N> and I<N> are uniformly distributed", "statement": "A random U<N> or I<N> takes each of its 256^N values with equal probability: each arises from equally many of the results the random number generator may return. Filling one from random bytes gives each value for exactly one choice of bytes.", "quantifier": "For all N and all values.", "why_tests_cant": "A distribution over 256^N values cannot be seen from samples.", "anchors": ["crates/ints/src/u/rand_impl.rs: Fill, Distribution for U", "crates/ints/src/i/rand_impl.rs: Fill, Distribution for I"]}
{"id": "C148", "title": "BigInts on several threads do not disturb each other", "statement": "BigInt is Send and Sync, and all threads share one store of large numbers. Every BigInt that a thread computes has the value of the same computation done by a single thread, and keeps it for its lifetime, however other threads create, combine, clone, negate and drop BigInts meanwhile; no computation panics because of other threads.", "quantifier": "For every number of threads, every program of each and every interleaving of their atomic steps.", "why_tests_cant": "The wrong outcome needs two threads inside the store at the same time; a test sees a few of the unboundedly many schedules.", "anchors": ["crates/ints/src/big_int.rs: INT_STORE, BigInt, static_assertions Send and Sync, Clone, Drop, Neg", "crates/utils/src/intern.rs: Interner::add, Interned clone and drop"]}
{"id": "C149", "title": "Fixed-size matrices behave like rectangular arrays", "statement": "For a Matrix<T, R, C>, m[(i,j)] is the entry in row i and column j and panics if there is none; assigning to it changes exactly that entry; swap_rows exchanges two rows, leaves the others alone, undoes itself and panics for a row that does not exist; diag lists the entries on the diagonal.", "quantifier": "For all element types, sizes, contents and indices, in range or not.", "why_tests_cant": "Tests use a few in-range indices of a few sizes.", "anchors": ["crates/compounds/src/matrix/static.rs: Index, IndexMut, Matrix::swap_rows, SquareMatrix::diag"]}
{"id": "C150", "title": "Matrices of complex numbers and matrices of matrices", "statement": "With Complex entries, the product of matrices A1 + A2*i and B1 + B2*i is (A1*B1 - A2*B2) + (A1*B2 + A2*B1)*i and sums are taken of both parts, so that all laws of matrix algebra hold; over the reals it is the product of matrices over the complex numbers. With parts of a primitive integer type, the parts of every entry are exact modulo the type in release builds, and exact or a panic in debug builds. The product of matrices of square matrices is the product of the large matrices cut into these blocks.", "quantifier": "For all sizes, entries and commutative coefficient rings (any ring for blocks), and all primitive integer types.", "why_tests_cant": "Unit tests do not nest compound types, and cannot cover all sizes.", "anchors": ["crates/compounds/src/matrix/static.rs: Add, Sub, Mul, Zero, One for Matrix", "crates/compounds/src/complex.rs: Add, Sub, Mul, Zero, One for Complex"]}
{"id": "C151", "title": "Elimination on float matrices is exact when nothing needs rounding", "statement": "If every quotient, product and difference which Gaussian elimination with the smallest nonzero pivot computes in exact arithmetic is itself a float, then row_reduce of a float matrix, fixed-size or dynamic, returns exactly the matrix of exact elimination, and the determinant of a 3 by 3 or larger matrix is exact if the products of the diagonal are floats. In particular row_reduce and determinant are exact for totally unimodular matrices, such as incidence matrices of directed graphs, of any size.", "quantifier": "For all float formats, sizes and matrices meeting the condition; all sizes and totally unimodular matrices.", "why_tests_cant": "Rounding depends on every intermediate entry; tests use small examples.", "anchors": ["crates/compounds/src/matrix/macros.rs: row_reduce", "crates/compounds/src/matrix/static.rs: SquareMatrix::determinant"]}
{"id": "C152", "title": "Elimination on float matrices computes the factors of a nearby matrix", "statement": "If all entries row_reduce returns for a square f32 or f64 matrix A are finite, there are a reordering of the rows of A, a unit lower triangular L and an echelon form U such that entry (i,j) of the reordered A differs from that of L*U by at most ((1+u)^i - 1) times the sum of the magnitudes of the terms of the product, plus (1+u)^i times the possible underflows, and the returned matrix is U, except that it may have rounding errors of at most about 2u times these magnitudes in places where U is zero. For three or more rows, a finite determinant is that of the matrix nearby, up to a relative error of (1+u)^(n-1) - 1, if no partial product of the diagonal underflows. Even small integer matrices have results that are not in echelon form.", "quantifier": "For all formats of IEEE 754 shape, all sizes, all matrices of finite floats, fixed-size and dynamic.", "why_tests_cant": "The errors depend on all intermediate results; a bound for all matrices cannot be observed.", "anchors": ["crates/compounds/src/matrix/macros.rs: gauss_elim, row_reduce", "crates/compounds/src/matrix/static.rs: SquareMatrix::determinant"]}
{"id": "C153", "title": "The shared list is free of data races and coherent under its memory orderings", "statement": "With the orderings the code uses (acquire loads and acquire-release exchanges, relaxed second loads), when threads push, look up, iterate and test for emptiness concurrently, no thread reads a node before its initialisation is visible to it and none follows a null pointer. The list stays a chain without repetition, each completed push is on it once with its value, get(i) finds the i-th element, iterators return the elements in order. A thread that has seen an element at an index, by its own push or by any other result, never afterwards misses an index up to it; nor does a thread that has synchronised with it. A lookup in an unsynchronised thread may miss elements already pushed.", "quantifier": "For all numbers of threads, all programs of calls, all interleavings, and all stale values the orderings allow loads to return.", "why_tests_cant": "Hardware the tests run on shows few of the allowed reorderings, and a test observes a single schedule.", "anchors": ["crates/utils/src/linked.rs: Node::set_next, Node::get_next_opt, UnsyncLinked::push, UnsyncLinked::get, UnsyncLinked::is_empty, Iter::next"]}
{"id": "C154", "title": "The length of the shared list can be taken by any thread", "statement": "Any thread may call len at any time without a data race, whether it has used the list before or not: it reads no node whose initialisation is not visible to it.", "quantifier": "For all numbers of threads, all interleavings, and all stale values the orderings allow.", "why_tests_cant": "The race does not show on common hardware.", "anchors": ["crates/utils/src/linked.rs: UnsyncLinked::len, UnsyncLinked::tail"]}
{"id": "C155", "title": "Interned values can be shared between threads if additions take turns", "statement": "With the orderings the code uses, when calls of add are made one at a time (under a lock, or by one thread) while any threads concurrently get, clone, drop, lend and pass on handles, there is no data race on a stored value, even when slots are reused; get on a handle the thread owns or borrows does not fail and returns the value that was added, and the returned reference keeps showing it as long as there is the handle; the count of a slot is the number of handles to it whenever no add is running, and no drop finds a count of zero, however stale the count it reads; handles with the same id were added for the same value.", "quantifier": "For all numbers of threads, all programs of calls, all interleavings, and all stale counts the orderings allow loads to return.", "why_tests_cant": "Hardware the tests run on shows few of the allowed reorderings, and a test observes a single schedule.", "anchors": ["crates/utils/src/intern.rs: Interner::add, Interner::get, Interner::try_get, Interner::incr, Interner::decr, Interner::find, Interner::incr_inner, Interner::decr_inner"]}
{"id": "C156", "title": "A panicking closure neither drops elements twice nor loses them", "statement": "If a closure of a static iterator pipeline panics, or collecting stops at a failure, every element that went into the pipeline, and everything the closures made of them, is dropped exactly once or returned: nothing is dropped twice, nothing is both dropped and returned, nothing is lost.", "quantifier": "For all pipelines of map, zip, enumerate and zip_all over arrays and references, all lengths, all closures that do not leak themselves and all points at which they panic; collect into arrays and into nested Option and Result, fold, try_fold, any, all, sum and product.", "why_tests_cant": "Double drops and leaks on unwinding show only for particular panic points and element types; the slots are MaybeUninit, which the compiler does not check.", "anchors": ["crates/static-iter/src/array.rs: IntoIter", "crates/static-iter/src/lib.rs: from_static_iter, FromStaticIter for Option<C>, Result<C, E>, try_fold", "crates/static-iter/src/adapter.rs: Map, Zip", "crates/static-iter/src/zip_all.rs: ArrayZipIter"]}
{"id": "C157", "title": "Fractions over any type of integers are exact", "statement": "Rat<T> works for any integer type T, also one that a user of the library defines. If the operators of T and its gcd (of either sign) return nothing but exact results, so do new, +, -, *, / and negation of Rat<T>, and floor rounds toward zero; new is None exactly for a zero denominator. If the operators of T always return, because T has no bounds, then those of Rat<T> always return, except that dividing by zero panics.", "quantifier": "For all types T whose operators are exact when they return, all operands.", "why_tests_cant": "Tests instantiate Rat with a few primitive types; the claim is about every implementation of the traits.", "anchors": ["crates/reals/src/rat.rs: Rat::new, Rat::reduce, Add, Sub, Mul, Div, Neg, Real::floor"]}
{"id": "C158", "title": "Fixed-point numbers over any type of integers compute and round exactly", "statement": "Fixed<T, N> works for any integer type T. If the operators of T return the exact result whenever T can represent it, then with 2^N representable: one is 1, from_val(v) is v, + and - are exact if representable, comparisons are those of the numbers, floor is the greatest integer below and ceil the least above if representable, trunc drops the fraction toward zero and fract is what it drops, round gives an integer at distance at most one half.", "quantifier": "For all types T whose operators are exact whenever the result is representable, all N with 2^N representable, all values.", "why_tests_cant": "Tests instantiate Fixed with a few primitive types; the claim is about every implementation of the traits.", "anchors": ["crates/reals/src/fixed.rs: Fixed::from_val, One::one, Add, Sub, PartialEq, Ord, Real::floor, ceil, round, trunc, fract"]}
{"id": "C159", "title": "Products of complex float matrices and vectors are as accurate as floating point allows", "statement": "With Complex<f32> or Complex<f64> entries, the real and the imaginary part of every entry of a product of matrices with inner dimension n, and of a scalar product of vectors with n components, if finite, differ from the exact result by at most ((1+u)^(n+1) - 1) times the sum of the magnitudes of the 2n real products that make it up, plus 2n(1+u)^n halves of the smallest float, where u is half the distance from 1 to the next float. They are finite unless the sum of the magnitudes, enlarged by that much, exceeds the largest float. Matrices of Gaussian integers are multiplied without error if these sums are at most 2^24 for f32, 2^53 for f64. The scalar product does not conjugate.", "quantifier": "For all formats of IEEE 754 shape, f32 and f64 among them, all dimensions with n positive (any n for vectors) and all finite entries, rounding to nearest with ties to even, subnormals and overflow included.", "why_tests_cant": "Rounding errors depend on all the entries; a test compares a few products with expected values, and two errors may cancel.", "anchors": ["crates/compounds/src/complex.rs: Add, Mul", "crates/compounds/src/matrix/static.rs: Mul", "crates/compounds/src/vector.rs: dot_product"]}
{"id": "C160", "title": "Safe code that uses the interner has no undefined behaviour", "statement": "Whatever methods of an interner are called in one thread, with whatever ids and values, panics of conversions included: a reference returned by get or try_get refers to a value that was added, and the value does not change while the reference is in use.", "quantifier": "For all element types, all starting capacities, all sequences of calls (add, also with a conversion that panics, incr, decr, get, try_get) with all ids, and all periods for which the returned references are kept, in both build modes.", "why_tests_cant": "Undefined behaviour is not visible in the result of a test, and it depends on ids that were never returned and on how long references are kept, which tests do not vary.", "anchors": ["crates/utils/src/intern.rs: Interner::with_capacity, Interner::add, Interner::incr, Interner::decr, Interner::try_get, Interner::get, Interned::val, Interned::set_val, Interned::val_opt"]}
{"id": "C161", "title": "A value in the interner is not lost through too many references", "statement": "A value is kept for as long as references to it are outstanding, however many there are: asking for one reference more than can be counted fails without affecting the others.", "quantifier": "For every element type, every state of the interner reached by add, incr and decr, every id, in both build modes, on targets of any pointer width.", "why_tests_cant": "On a 64-bit machine it takes 2^64 references to one value, more than any test can create.", "anchors": ["crates/utils/src/intern.rs: Interner::incr_inner, Interner::incr, Interner::add, Interner::refcount, Interner::try_get, Interner::get"]}
{"id": "C162", "title": "In-place addition and subtraction of slices accept a right operand of any length", "statement": "ElementAdd::add_overflowing and ElementSub::sub_overflowing leave in the left slice the sum or difference modulo its own size and keep its length, also if the right slice is longer; the flag is true exactly when the exact result is not representable in the left slice, and the checked forms return None exactly then.", "quantifier": "For every limb width and every pair of slices of any lengths.", "why_tests_cant": "Tests use slices of equal length or a few values; the flag depends on all limbs of both.", "anchors": ["crates/bits/src/algos/element/add.rs: ElementAdd::add_overflowing, add_checked, add_wrapping", "crates/bits/src/algos/element/sub.rs: ElementSub::sub_overflowing, sub_checked, sub_wrapping"]}
{"id": "C163", "title": "Sharing a list between threads is sound whatever its elements", "statement": "If the compiler lets safe code share a list (or an interner) between threads, then the references to elements that get, indexing and iteration hand out cannot lead to a data race on an element. What a thread did to an element before it pushed another one happens before what any thread does after getting that one.", "quantifier": "For all element types built from plain values, Cell, atomics, Rc, Arc, pairs and lists, any number of threads, all executions of safe code.", "why_tests_cant": "A data race is not visible in the result of a test, and whether code compiles for every element type is not something a test of some element types can tell.", "anchors": ["crates/utils/src/linked.rs: unsafe impl Send for UnsyncLinked, unsafe impl Sync for UnsyncLinked, UnsyncLinked::get, Index::index, UnsyncLinked::push, Iter::next", "crates/utils/src/intern.rs: Interner"]}
{"id": "C164", "title": "Fixed-point multiplication, division and remainder over any type of integers", "statement": "Fixed<T, N> works for any integer type T. If the operators of T return the exact result whenever T can represent it, then x * y is within a unit of precision of the exact product, x / y within a unit of the exact quotient, and x % y is x - trunc(x / y) * y, smaller than y and of the sign of x, whenever the results are representable.", "quantifier": "For all types T whose operators are exact whenever the result is representable, all N and all values.", "why_tests_cant": "Tests instantiate Fixed with a few primitive types; the claim is about every implementation of the traits.", "anchors": ["crates/reals/src/fixed.rs: Mul, Div, Rem, One::one"]}
{"id": "C165", "title": "Rounding fractions up and to the nearest integer over any type of integers", "statement": "Rat<T> works for any integer type T. If the operators of T and its gcd (of either sign) return nothing but exact results, then zero and one are 0 and 1, ceil returns the least integer above the number, and round an integer at distance at most one half.", "quantifier": "For all types T whose operators are exact when they return, all fractions.", "why_tests_cant": "Tests instantiate Rat with a few primitive types and round a few numbers; the claim is about every implementation of the traits and all signs of numerator and denominator.", "anchors": ["crates/reals/src/rat.rs: Zero::zero, One::one, Real::ceil, Real::round"]}
{"id": "C166", "title": "Signs and identities of fixed-point numbers and fractions over any type of integers", "statement": "Fixed<T, N> and Rat<T> work for any integer type T. If the operators, negation, abs and the sign queries of T are right, then is_zero and is_one answer whether the number is 0 or 1, is_positive whether it is >= 0, is_negative whether it is < 0, and negation and abs are exact whenever representable.", "quantifier": "For all types T whose operators are exact whenever the result is representable, all N and all values.", "why_tests_cant": "Tests instantiate the types with a few primitives; the claim is about every implementation of the traits and all signs of numerator and denominator.", "anchors": ["crates/reals/src/fixed.rs: Zero::is_zero, One::is_one, Neg, Signed::abs, Signed::is_positive, Signed::is_negative", "crates/reals/src/rat.rs: Default::default, Zero::is_zero, One::is_one, Signed::abs, Signed::is_positive, Signed::is_negative"]}
{"id": "C167", "title": "Bounds of fixed-point numbers and fractions over any type of integers", "statement": "If min_value, max_value, min_positive and max_negative of an integer type T are its extreme values, then so are those of Fixed<T, N> and Rat<T>: no value is below min_value or above max_value, no positive value below min_positive and no negative value above max_negative.", "quantifier": "For all types T of the integers between two bounds, with as many numbers below 0 as above or one more; all N and all values, in particular T = I<M> for all M > 0.", "why_tests_cant": "Which fraction is least depends on all pairs of integers of the type.", "anchors": ["crates/reals/src/fixed.rs: Bounded::min_value, Bounded::max_value, BoundedSigned::min_positive, BoundedSigned::max_negative", "crates/reals/src/rat.rs: Bounded::min_value, Bounded::max_value, BoundedSigned::min_positive, BoundedSigned::max_negative", "crates/ints/src/i.rs: Bounded, BoundedSigned"]}
{"id": "C168", "title": "Printing a fraction writes the number", "statement": "The debug text of a fraction is two decimal numerals with ' / ' between them, whose quotient is the number, and fractions of the same number have the same text.", "quantifier": "For all fractions over all primitive integer types.", "why_tests_cant": "Tests print a few fractions; that texts of different fractions differ is a claim about all pairs.", "anchors": ["crates/reals/src/rat.rs: fmt::Debug::fmt, PartialEq, Rat::new"]}
{"id": "C169", "title": "The array functions over i32 work elementwise", "statement": "zip_add, zip_mul, map_neg and zip_many return the array of sums, products, negatives and products of four (taken from the left). If one of the numbers computed is not an i32, debug builds panic; release builds return an array with every element reduced modulo 2^32.", "quantifier": "For all array lengths, all arrays, in both build modes.", "why_tests_cant": "Overflow depends on the values at every index; tests use a few arrays of small numbers.", "anchors": ["crates/static-iter/src/codegen.rs: zip_add, zip_mul, map_neg, zip_many"]}
{"id": "C170", "title": "Calls on the shared list end", "statement": "A push, a lookup, a step of an iterator, the length and the test for emptiness need no waiting: a thread inside such a call can always go on. From its start a push takes at most three memory accesses for every element now on the list, get(i) at most 2i + 2 and at most two for every element and one more, the length at most two for every element and one more, a step of an iterator two, the test for emptiness one. If the other threads pause at any point, the call ends.", "quantifier": "For all numbers of threads, all their calls, all interleavings and all staleness the memory orderings allow (the length called by threads that have seen an element).", "why_tests_cant": "A loop that retries for ever, or a wait for a thread that has been paused, needs a particular interleaving; tests see a few and cannot tell slow from stuck.", "anchors": ["crates/utils/src/linked.rs: UnsyncLinked::push, UnsyncLinked::tail, UnsyncLinked::len, UnsyncLinked::get, UnsyncLinked::is_empty, Iter::next"]}
{"id": "C171", "title": "Adding to the interner ends", "statement": "A call that adds a value looks at every slot at most once, whatever other threads add, clone and drop meanwhile: from its start it takes at most three accesses for every slot now allocated and two more, and it never waits for another thread.", "quantifier": "For all stores, values, numbers of threads and interleavings (under sequential consistency; allocating a chunk counts as one access).", "why_tests_cant": "Other threads may change the slots behind and ahead of the search at any moment; tests see a few interleavings.", "anchors": ["crates/utils/src/intern.rs: Interner::add, Interner::find, Interner::incr_inner"]}
{"id": "C172", "title": "Moving a list to another thread is sound", "statement": "Safe code that moves an UnsyncLinked<T> between threads, using and dropping its elements in whichever thread has it, has no data race, whatever T the compiler accepts: neither on what only the elements own, nor on what they have in common with clones their makers kept (reference counts and what lies behind them).", "quantifier": "For all element types built from plain data, cells, atomics, Rc, Arc, pairs and lists; all executions and all numbers of moves.", "why_tests_cant": "A data race is undefined behaviour whether or not it shows; tests run a few types and interleavings, and a lost update of a reference count shows only much later.", "anchors": ["crates/utils/src/linked.rs: unsafe impl Send for UnsyncLinked, UnsyncLinked::push, UnsyncLinked::get, Drop::drop"]}
{"id": "C173", "title": "The slice algorithms have no undefined behaviour with any container", "statement": "The algorithms on slices of bits are provided for every type that implements BitSliceExt, a trait that is safe to implement: whatever the methods of such a type return, and whenever they panic, in-place shifts and bitwise addition either return or panic, and never reach undefined behaviour.", "quantifier": "For all implementations of the trait (any state, interior mutability, any overridden methods), all shift amounts and both build profiles.", "why_tests_cant": "Undefined behaviour shows only with containers other than the three the crate implements the trait for, and a test with such a container need not show it.", "anchors": ["crates/bits/src/bit_slice.rs: BitSliceExt", "crates/bits/src/algos/element/shl.rs: inner_shl_wrap_and_mask, shl_checked, shl_wrapping", "crates/bits/src/algos/element/shr.rs: inner_shr_wrap_and_mask, shr_checked, shr_wrapping", "crates/bits/src/algos/bitwise/add.rs: BitwiseAdd::add, BitwiseAdd::add_in_place"]}
{"id": "C174", "title": "Computing with big integers leaves nothing behind", "statement": "A program that calls any functions of BigInt - conversions, operators by value, by reference, assigning and with primitive operands, powers, comparisons, printing and parsing, clones and drops - and catches every panic gets from each call what it would get if every BigInt held its number itself. Afterwards the reference count of every stored number is the number of live BigInts that use it: temporaries, old values and moved operands are released, also when the call panics. When all BigInts are gone nothing is referenced, and the store never has more slots than the largest number of BigInts alive at a time and a constant.", "quantifier": "For all programs of any length (at most 2^60 BigInts alive at a time), single-threaded, in both build modes.", "why_tests_cant": "A leaked or doubly released reference shows only much later, as a store that grows or a number that changes; tests do not look at counts, least of all after a panic half way through a call.", "anchors": ["crates/ints/src/big_int.rs: BigInt, Drop::drop, Clone::clone, pow, from_str_radix, write_base", "crates/ints/src/big_int/macros.rs: impl_for_int, impl_ops_for_int, impl_assign_for_int, impl_op"]}
{"id": "C175", "title": "Format options are honoured", "statement": "Printing a U or a BigInt with a width, a fill character, an alignment, +, 0 or # (and in hexadecimal and binary the prefix only with #) gives the text a primitive integer of the same value gives with these options.", "quantifier": "For all values and all combinations of format options.", "why_tests_cant": "Options combine with each other and with the length and the sign of the text; tests check a few format strings.", "anchors": ["crates/ints/src/u.rs: Display::fmt, Debug::fmt, write_base", "crates/ints/src/big_int.rs: Display::fmt, Debug::fmt, UpperHex::fmt, LowerHex::fmt, Binary::fmt, write_base"]}
{"id": "C176", "title": "A writer that fails stops printing", "statement": "Printing to a writer that refuses what it is given at some point returns an error at once: nothing more is written, what was accepted before is the beginning of the text, and nothing is lost or written twice. If the writer accepts everything, the whole text is written and Ok is returned.", "quantifier": "For all values, all printing functions of U, I, BigInt, fixed-point numbers and fractions, and all writers (refusing at any point, by any rule).", "why_tests_cant": "A writer can fail at every piece of the text; format! never fails, and tests print to strings.", "anchors": ["crates/ints/src/u.rs: Display::fmt, Debug::fmt, write_base", "crates/ints/src/i.rs: I", "crates/ints/src/big_int.rs: Display::fmt, Debug::fmt, UpperHex::fmt, LowerHex::fmt, Binary::fmt, write_base", "crates/reals/src/fixed.rs: Debug::fmt, Binary::fmt", "crates/reals/src/rat.rs: Debug::fmt"]}
{"id": "C177", "title": "The debug text of an I tells its number", "statement": "The numbers in the text {:?} gives for an I<N>, read from left to right, are the base-256 digits of its representation, the least significant first: two I<N> have the same text exactly if they are equal.", "quantifier": "For all sizes and all values.", "why_tests_cant": "Different values could share a text at any size; tests look at few.", "anchors": ["crates/ints/src/i.rs: I"]}
{"id": "C178", "title": "Interned values may run code of their own", "statement": "Comparing a key with an interned value, converting a key and destroying an overwritten value call code the interner does not know. Whatever this code does - answer anything, keep state, panic, use the interner through handles of its own, add further values - there is no undefined behaviour, and a handle (an id that add returned and that is counted) always reads the value it stood for when add returned it: one that compared equal to the key, or the converted key.", "quantifier": "For all implementations of comparison, conversion and destructor, all programs that use the interner through handles, single-threaded.", "why_tests_cant": "What goes wrong needs a value whose own code calls back at one particular moment; tests intern integers.", "anchors": ["crates/utils/src/intern.rs: Interner::add, Interner::find, Interner::try_get, Interner::get, Interned::set_val, Interned::val_opt"]}
{"id": "C179", "title": "A panicking destructor does not stop the list being dropped", "statement": "If the destructor of an element panics while the shared list is dropped, all other elements are dropped all the same, each once, as for the collections of the standard library; then the panic goes on.", "quantifier": "For all lists made by any number of threads in any interleaving, and any set of elements whose destructors panic.", "why_tests_cant": "Elements that are never dropped do not show; tests have no destructors that panic.", "anchors": ["crates/utils/src/linked.rs: Drop::drop"]}
{"id": "C180", "title": "Debug texts of vectors and matrices show their components, with all options", "statement": "The debug text of an I, a Vector, a Matrix or a DynMatrix, printed with whatever width, alignment, fill character (no digit or minus sign), +, 0 and # (x? and X? are C200), contains exactly these integers, from left to right: the bytes, the components, the entries row by row, or the entries followed by the numbers of rows and columns. So values with the same text are equal. Each component has the text that the options ask for; with # every component is on a line of its own, indented by its depth, otherwise all are on one. A writer that refuses some piece is given nothing after it.", "quantifier": "For all dimensions, all components of primitive integer types, all combinations of options and all writers.", "why_tests_cant": "Options, signs and nested line breaks combine; tests compare few texts, mostly with {:?}.", "anchors": ["crates/ints/src/i.rs: I", "crates/compounds/src/vector.rs: Vector", "crates/compounds/src/matrix/static.rs: Matrix", "crates/compounds/src/matrix/dynamic.rs: DynMatrix"]}
{"id": "C181", "title": "Compounds are equal exactly if their components are, and equal vectors have equal hashes", "statement": "== of vectors, matrices, dynamic matrices and complex numbers holds exactly if it holds for all corresponding components (and, for dynamic matrices, the numbers of rows and columns agree), so it is an equivalence if that of the components is, and equality of values if that of the components is; a vector of floats is equal to itself exactly if it contains no NaN. Equal vectors hand the same input to every hasher, and different vectors of primitive integers hand over different input.", "quantifier": "For all dimensions, all components and all component types.", "why_tests_cant": "A component that is not compared, or compared with the wrong one, is met only by values that differ just there; tests compare few values, mostly equal ones.", "anchors": ["crates/compounds/src/vector.rs: Vector", "crates/compounds/src/matrix/static.rs: Matrix", "crates/compounds/src/matrix/dynamic.rs: DynMatrix", "crates/compounds/src/complex.rs: Complex"]}
{"id": "C182", "title": "Default values are zero", "statement": "The default value of U, BigInt, Fixed, Rat and P denotes 0, the one of Rat being the fraction 0/1 and the one of BigInt needing no storage; every component of a default Vector, Matrix or Complex is the default of the component type, so that it is zero, and neutral for addition on both sides, if that is.", "quantifier": "For all widths, dimensions, integer types and component types.", "why_tests_cant": "Tests compare few defaults of few sizes.", "anchors": ["crates/ints/src/u.rs: U::default", "crates/ints/src/big_int.rs: BigInt::default", "crates/reals/src/fixed.rs: Fixed::default", "crates/reals/src/rat.rs: Rat::default", "crates/reals/src/p.rs: P::default", "crates/compounds/src/vector.rs: Vector::default", "crates/compounds/src/matrix/static.rs: Matrix::default", "crates/compounds/src/complex.rs: Complex"]}
{"id": "C183", "title": "Calls on the shared list return, whatever other threads do", "statement": "No call on the shared list waits for another thread: in every state a thread inside a call has a next step, and left alone it returns. Lookups, iteration and the test for emptiness take a number of steps that other threads cannot increase: get(i) at most 2 i + 2, next at most 2, is_empty 1. A push has at no time taken more than three steps for each element then on the list, and len two and one more, so that only elements actually added by others delay them.", "quantifier": "For all numbers of threads, all programs of calls, all interleavings, and all stale values the orderings allow loads to return.", "why_tests_cant": "A call that never returns needs other threads to interfere at the right moments again and again; tests run few threads for a short time.", "anchors": ["crates/utils/src/linked.rs: UnsyncLinked::push, UnsyncLinked::tail, UnsyncLinked::get, UnsyncLinked::len, UnsyncLinked::is_empty, Iter::next"]}
{"id": "C184", "title": "Additions and lookups on a shared interner return, whatever other threads do", "statement": "When calls of add are made one at a time, every call of add and get on the interner returns: a thread inside a call always has a next step, add takes at most three steps for each slot there is when it is called and four more, and get two, however the other threads get, clone, drop and pass on handles in the meantime. When add(v) has returned, the thread has a new handle for v, to a slot that holds v.", "quantifier": "For all numbers of threads, all programs of calls, all interleavings, and all stale counts the orderings allow loads to return.", "why_tests_cant": "Interference would have to come at particular moments; tests run few threads for a short time.", "anchors": ["crates/utils/src/intern.rs: Interner::add, Interner::find, Interner::get, Interner::try_get"]}
{"id": "C185", "title": "Additions to a shared interner that never overlap do not race", "statement": "If each call of add begins only after every earlier one has returned, no thread reads a value while another thread's write of it is unsynchronised, so that large numbers can be created in several threads at different times; gets of handles keep showing the values that were added.", "quantifier": "For all numbers of threads, all programs of calls in which additions do not overlap in time, all interleavings, and all stale counts the orderings allow loads to return.", "why_tests_cant": "The calls do not even overlap, so a test always passes: the race is that nothing orders the write of the value before the later read. It shows on other hardware, or after a compiler has moved the write.", "anchors": ["crates/utils/src/intern.rs: Interner::add, Interner::find, Interner::incr_inner, Interned::set_val, Interned::val_opt", "crates/ints/src/big_int.rs: BigInt::new_slice"]}
{"id": "C186", "title": "Programs that share interned values behave as if they passed the values around", "statement": "Threads run programs that add values, look them up through their ids, clone, drop, send, lend and give back ids, and go on depending on what they read. When calls of add take turns by means of a lock, whatever the threads do they could also have done if each id were the value it was added for; so what a thread computes from the ids it has got depends on the values they were added for alone. No thread panics or reads a value that another is writing, and a thread inside a call, or one that others wait for, can always go on. If the programs drop, send or give back what they have, a slot is free whenever no thread has an id of it, and all are free in the end.", "quantifier": "For all numbers of threads, all programs, all types of values with lawful equality, all interleavings, and all stale counts the orderings allow loads to return.", "why_tests_cant": "Slots are reused and ids passed on in orders that depend on timing and hardware; tests run few programs in few orders on one machine.", "anchors": ["crates/utils/src/intern.rs: Interner::add, Interner::get, Interner::incr, Interner::decr"]}
{"id": "C187", "title": "Threads compute with shared BigInts what each would compute alone", "statement": "When threads take turns, by means of a lock, in storing numbers, a thread that makes, clones, negates, drops, reads and combines BigInts, some of which other threads sent or lent to it, computes exactly what the same operations give on the plain numbers, panics only where they do, and never reads limbs that another thread is writing, whatever programs the other threads run on the same store in the meantime. When all threads have returned or panicked, none of the limbs they stored is kept.", "quantifier": "For all numbers of threads, all programs, all binary operators, all numbers, all interleavings, and all stale counts the orderings allow loads to return.", "why_tests_cant": "Whether a number is inline or stored, where it is stored and which slots are free depends on everything other threads do; tests run few threads with few numbers.", "anchors": ["crates/ints/src/big_int.rs: BigInt::val, BigInt::new_slice, BigInt::new_intern, BigInt::clone, BigInt::drop, Neg for BigInt", "crates/utils/src/intern.rs: Interner::add, Interner::get"]}
{"id": "C188", "title": "Infinite and NaN components show in the results", "statement": "Sums, products and quotients of floats with infinite operands are those of the extended reals, NaN where these are indeterminate or an operand is NaN, and < compares as there. Dividing by a zero gives NaN for zero and an infinity for other numbers. The sum of a float vector is NaN if a component is, and otherwise, with infinite components, the infinity they agree on, NaN if they do not, as long as no partial sum of the finite ones overflows. Scalar products and entries of matrix products are NaN if a factor is or an infinite factor meets a zero, and never finite if a factor is infinite. A complex number with an infinite part has infinite absolute value, and so has its product with a nonzero scalar or a nonzero complex number.", "quantifier": "For f32 and f64, all components, all dimensions.", "why_tests_cant": "Infinities arise from overflow in the middle of computations; tests use finite components.", "anchors": ["crates/compounds/src/vector.rs: Vector::sum, Vector::dot_product", "crates/compounds/src/matrix/static.rs: Mul for Matrix", "crates/compounds/src/complex.rs: Complex::abs, Mul for Complex", "crates/traits/src/__impl.rs: impls for f32, f64"]}
{"id": "C189", "title": "Row reduction tells the rank, and the determinant whether equations have one solution", "statement": "The number of nonzero rows of row_reduce(m) is the rank of m, and reducing again changes nothing. The determinant is not zero exactly if the rows of m are linearly independent, exactly if no row of row_reduce(m) is zero, and exactly if m x = b has one and only one solution x for every b.", "quantifier": "For all square matrices over an exact ordered field, static and dynamic, of all sizes.", "why_tests_cant": "Tests reduce a few small matrices of full rank; the elimination branches on which entries are zero, and deficient ranks take other branches.", "anchors": ["crates/compounds/src/matrix/macros.rs: gauss_elim", "crates/compounds/src/matrix/static.rs: Matrix::row_reduce, Matrix::determinant", "crates/compounds/src/matrix/dynamic.rs: Matrix::row_reduce"]}
{"id": "C190", "title": "Distances of float vectors are accurate", "statement": "For vectors of n finite floats: distance_squared is, if finite, within (1+u)^(n+1)(1+e) - 1 times the exact sum of squared differences (plus n underflows), and finite if that much does not exceed the largest number; distance has a relative error of at most that of n + 3 roundings and of powf whenever the exact distance is representable. Both are the same in both directions, never negative, 0 between a vector and itself, and exact for whole numbers. A NaN, or two infinities of the same sign at the same place, make the distance NaN; otherwise an infinity makes it infinite.", "quantifier": "For all binary formats, all lengths n, all vectors of floats, and all functions powf whose squares have relative error at most e up to underflow.", "why_tests_cant": "Tests compare one or two distances of small numbers; error bounds, overflow of the squares and special values need all lengths and all floats.", "anchors": ["crates/compounds/src/vector.rs: Vector::distance_squared, Vector::distance", "crates/traits/src/__impl.rs: impls for f32, f64"]}
{"id": "C191", "title": "Floats that compare equal give results that compare equal", "statement": "Replacing 0.0 by -0.0 among the operands changes no result but the sign of a zero: sums, differences, products, comparisons and the functions of the traits give values that compare equal (or are both NaN), and so do sum, product, dot_product, cross, distances, complex arithmetic including division, sums and products of matrices, row_reduce and determinant, which also return or panic alike. Quotients too, unless a zero is divided by.", "quantifier": "For all binary formats, all floats including signed zeros, infinities and NaN, and all lengths and sizes.", "why_tests_cant": "Tests do not use -0.0; whether a zero is divided by somewhere inside an elimination depends on all entries.", "anchors": ["crates/traits/src/__impl.rs: impls for f32, f64", "crates/compounds/src/vector.rs: impl Vector", "crates/compounds/src/complex.rs: impl Complex", "crates/compounds/src/matrix/macros.rs: gauss_elim", "crates/compounds/src/matrix/static.rs: Matrix::row_reduce, Matrix::determinant, Mul for Matrix", "crates/compounds/src/matrix/dynamic.rs: DynMatrix::row_reduce"]}
{"id": "C192", "title": "Computations with floats are monotone", "statement": "Larger operands never give a smaller result, in spite of rounding. If a <= a' and b <= b', then a + b <= a' + b', a - b' <= a' - b and -a' <= -a; for numbers that are not negative also a * b <= a' * b', a / b' <= a' / b (b positive) and sqrt(a) <= sqrt(a'). The same for sum of vectors with components that are <= pairwise, for product, dot_product and products of matrices without negative entries, for abs and abs_squared of complex numbers with parts of smaller magnitude, for distances of vectors that are not further apart in any component, for floor, ceil, trunc and round, and for conversions from and to integers. A result may be NaN only if opposite infinities are added, infinities divided, or zero and infinity multiplied.", "quantifier": "For all binary formats, all floats including infinities, and all lengths and sizes.", "why_tests_cant": "Tests compare single results; an order that rounding breaks for a single pair of the 2^128 pairs of operands goes unnoticed.", "anchors": ["crates/traits/src/__impl.rs: impls for f32, f64", "crates/compounds/src/vector.rs: Vector::sum, Vector::product, Vector::dot_product, Vector::distance, Vector::distance_squared", "crates/compounds/src/complex.rs: Complex::abs, Complex::abs_squared", "crates/compounds/src/matrix/static.rs: Mul for Matrix"]}
{"id": "C193", "title": "Remainders of floats are exact", "statement": "a % b of finite floats, b not zero, is the one number r with the sign of a (or zero) that is smaller than b in magnitude and differs from a by a whole multiple of b, without any rounding; a zero result has the sign of a, and the sign of b does not matter. (a % b) % b = a % b. A finite number is its own remainder by an infinity; an infinite dividend, the divisor zero and NaN give NaN. So for every component of % and %= of vectors, by vectors and by scalars.", "quantifier": "For all binary formats, all floats, all lengths.", "why_tests_cant": "Tests use small numbers, where any formula is exact: a - b * trunc(a / b) computed with floats even gets the sign wrong for others.", "anchors": ["crates/traits/src/ops/core.rs: NumOps", "crates/compounds/src/vector.rs: Rem for Vector, RemAssign for Vector"]}
{"id": "C194", "title": "Laws of algebra that survive the rounding of floats", "statement": "Exactly, including the sign of a zero: a + b = b + a, a * b = b * a, (-a) * b = -(a * b), (-a) / b = a / (-b) = -(a / b), and so z + w = w + z and z * w = w * z for complex numbers, dot_product(a, b) = dot_product(b, a), A + B = B + A for matrices, and the transposed product of matrices is the product of the transposed in the other order. Up to the sign of a zero: -(a + b) = (-a) + (-b), a - b = -(b - a), cross(a, b) = -cross(b, a), a + 0 = a * 1 = a / 1 = a. For finite floats a - b is 0 only if a = b, negative only if a < b, and exact if they differ by a factor of at most 2. Scaling by a power of two commutes with sums (also of all components of a vector) unless it overflows, and with products and quotients unless they over- or underflow.", "quantifier": "For all binary formats, all floats including infinities and NaN, and all lengths and sizes.", "why_tests_cant": "Tests check results for a few numbers, most of them integers, for which all laws hold; which of them rounding leaves intact needs all floats.", "anchors": ["crates/traits/src/__impl.rs: impls for f32, f64", "crates/compounds/src/vector.rs: Vector::sum, Vector::dot_product, Vector::cross", "crates/compounds/src/complex.rs: Add for Complex, Mul for Complex", "crates/compounds/src/matrix/static.rs: Add for Matrix, Mul for Matrix, Matrix::transpose"]}
{"id": "C195", "title": "U<N> and I<N> can stand in for the primitive of the same width", "statement": "An expression over +, -, *, /, %, &, |, ^, !, << and >> gives the same bits whether its literals are u8, u16, u32, u64 or u128, or U of the same number of bytes made from them with from_uX; and it panics for one exactly if it panics for the other, in debug and in release builds. Likewise for the signed primitives and I with the same bytes.", "quantifier": "For all expressions of any depth, all literals and shift amounts, the five widths and both build profiles.", "why_tests_cant": "The unit tests check single operators on small operands, for which carries between bytes, wrapping, and the interplay of several operators play no part.", "anchors": ["crates/ints/src/u.rs: Add, Sub, Mul, Div, Rem, Not, BitAnd, BitOr, BitXor, Shl, Shr for U, U::from_u8, U::from_u16, U::from_u32, U::from_u64, U::from_u128", "crates/ints/src/i.rs: Add, Sub, Mul, Div, Rem, Not, BitAnd, BitOr, BitXor, Shl, Shr for I"]}
{"id": "C196", "title": "BigInt programs mean the same on 16-, 32- and 64-bit targets", "statement": "Numbers of unlimited size have no width, so it must not be observable how many bits usize has. An expression over BigInt made from primitive integers or text with +, -, *, /, unary -, abs, pow, &, |, ^, ! and shifts gives the same integer on every target, or panics on every target; and comparing, converting, printing or approximating the result gives the same there.", "quantifier": "For all expressions of any depth, all literals and texts, both build profiles, and any two of the pointer widths 16, 32 and 64.", "why_tests_cant": "The unit tests run on one machine, of 64 bits, with numbers of one word.", "anchors": ["crates/ints/src/big_int.rs: BigInt, Add, Sub, Mul, Div, Neg, BitAnd, BitOr, BitXor, Not, Shl, Shr for BigInt, PartialEq, Ord, Display, LowerHex, UpperHex, Binary for BigInt, FromStrRadix for BigInt, Pow for BigInt, ApproxFloat for BigInt, IntoInt"]}
{"id": "C197", "title": "U<N> and I<N> mean the same on 16-, 32- and 64-bit targets", "statement": "A U<N> or I<N> has N bytes on every machine, so what is computed with it must not depend on the width of usize. Every expression over the operators of these types (with shifts by a usize or by a U<N>), pow and Display give the same result, or the same panic, on every target.", "quantifier": "For all N whose bits can be counted in a usize, all expressions of any depth, all values, both build profiles, and any two of the pointer widths 16, 32 and 64.", "why_tests_cant": "The unit tests run on one machine, of 64 bits, mostly with types of one or two bytes.", "anchors": ["crates/ints/src/u.rs: Div, Rem, Shl, Shr for U, Pow for U, Display for U, write_base", "crates/ints/src/i.rs: Div, Rem for I", "crates/bits/src/algos/element/shl.rs: shl_wrapping", "crates/bits/src/algos/element/shr.rs: inner_shr_wrap_and_mask, shr_checked, shr_wrapping", "crates/bits/src/algos/bitwise/div.rs: div_long_overflowing, rem_long_overflowing"]}
{"id": "C198", "title": "Ids of interned values stay below the number of different values", "statement": "If all values ever added to an interner are among n different ones, every id it returns is below n, so that an interner made with capacity for n never allocates again, whatever is cloned and dropped and however many threads add.", "quantifier": "For all values, capacities, histories of calls, numbers of threads and interleavings.", "why_tests_cant": "The crate's own test asserts it for one hundred threads and ten values, but whether that test passes depends on the schedule; ids beyond the bound need threads that meet inside the search, or a value dropped and another added at the right moment.", "anchors": ["crates/utils/src/intern.rs: Interner::add, Interner::find, Interner::with_capacity, tests::test_multi_thread"]}
{"id": "C199", "title": "An interner made with a capacity has room for as many values", "statement": "Interner::with_capacity(n) gives an interner to which n different values can be added without another allocation, with fewer than 32 slots too many, for every n a usize can hold (given the memory).", "quantifier": "For all capacities, all pointer widths and both build profiles.", "why_tests_cant": "A test can only ask for capacities that fit into memory; what the arithmetic does near usize::MAX cannot be tried on a 64-bit machine without knowing that it overflows, and then differs between build profiles.", "anchors": ["crates/utils/src/intern.rs: Interner::with_capacity, Interner::add, CHUNK_SIZE"]}
{"id": "C200", "title": "Debug texts in hexadecimal show the two's complement of every component", "statement": "Printed with {:x?} or {:X?}, the debug text of an I, a Vector, a Matrix or a DynMatrix has in place of each byte, component, entry and dimension the hexadecimal digits of its two's complement, in the case asked for, with +, 0, width, alignment and fill as asked for. Without # all are on one line, in the layout of {:?}; with # those of an I or a Vector are on lines of their own, with the prefix 0x. The hexadecimal digits in the text of a component form the component modulo 2 to the width of its type, unless the fill character is one of them; so two values of I, or two vectors of one integer type, with the same text are equal (without #, and not filled with commas). A writer that refuses some piece is given nothing after it.", "quantifier": "For all dimensions, all components of primitive integer types of any width, all further options as described, and all writers.", "why_tests_cant": "Negative components, padding and prefixes combine; the repository prints nothing this way in its tests, and a few texts say nothing about the other values.", "anchors": ["crates/ints/src/i.rs: I", "crates/compounds/src/vector.rs: Vector", "crates/compounds/src/matrix/static.rs: Matrix", "crates/compounds/src/matrix/dynamic.rs: DynMatrix"]}
