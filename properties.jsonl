{"id": "C01", "title": "zero, ones, from_u64, from_bool build the named value", "statement": "For every non-zero width w: zero(w) is the bit-vector 0, ones(w) is 2^w-1, from_u64(v,w) is v when v < 2^w, from_bool/tru/fals are the 1-bit values. When v does not fit, a debug build of from_u64 panics and a release build returns v mod 2^w. Every result has exactly ceil(w/64) words and no set bit at or above position w.", "quantifier": "all widths, all u64 values, both build modes", "why_tests_cant": "2^width values for each of up to 2^32-1 widths; word-boundary cases (multiples of 64) are rarely sampled", "anchors": ["src/bv/owned.rs: BitVecValue::{zero,ones,from_u64,from_bool,tru,fals}", "src/bv/ops.rs: BitVecMutOps::{clear,assign_ones,assign_from_u64,mask_msb}"]}
{"id": "C02", "title": "from_i64 is two's complement sign extension", "statement": "For every width w >= 1 and i64 v, from_i64(v,w) represents v mod 2^w in two's complement in release builds; a debug build returns the same value when -2^(w-1) <= v < 2^(w-1) and panics otherwise.", "quantifier": "all widths, all i64 values, both build modes", "why_tests_cant": "2^width values for each of up to 2^32-1 widths; word-boundary cases (multiples of 64) are rarely sampled", "anchors": ["src/bv/owned.rs: from_i64", "src/bv/ops.rs: assign_from_i64", "src/bv/arithmetic.rs: sign_extend"]}
{"id": "C03", "title": "to_u64 is exact", "statement": "to_u64 returns Some(x) exactly when the unsigned value is below 2^64, and then x is the value; otherwise it returns None.", "quantifier": "all canonical values of all widths", "why_tests_cant": "2^width values for each of up to 2^32-1 widths; word-boundary cases (multiples of 64) are rarely sampled", "anchors": ["src/bv/ops.rs: to_u64"]}
{"id": "C04", "title": "to_i64 is exact", "statement": "to_i64 returns Some(x) exactly when the two's complement value is within the i64 range, and then x is that value; otherwise None.", "quantifier": "all canonical values of all widths >= 0", "why_tests_cant": "2^width values for each of up to 2^32-1 widths; word-boundary cases (multiples of 64) are rarely sampled", "anchors": ["src/bv/ops.rs: to_i64"]}
{"id": "C05", "title": "u64 and i64 round trips", "statement": "to_u64(from_u64(v,w)) = Some(v) whenever v fits into w bits, and to_i64(from_i64(v,w)) = Some(v) whenever v fits into w bits as a two's complement number.", "quantifier": "all widths >= 1 and all fitting values", "why_tests_cant": "2^width values for each of up to 2^32-1 widths; word-boundary cases (multiples of 64) are rarely sampled", "anchors": ["src/bv/owned.rs: from_u64, from_i64", "src/bv/ops.rs: to_u64, to_i64", "tests/value.rs"]}
{"id": "C06", "title": "add is addition modulo 2^w", "statement": "add of two values of equal width w>=1 does not panic and returns the canonical value (a+b) mod 2^w, for any number of words.", "quantifier": "all equal-width pairs, all widths >= 1, both modes", "why_tests_cant": "2^width values for each of up to 2^32-1 widths; word-boundary cases (multiples of 64) are rarely sampled; carry chains across many words", "anchors": ["src/bv/arithmetic.rs: adc, add", "src/bv/ops.rs: BitVecOps::add", "src/bv/owned.rs: impl Add"]}
{"id": "C07", "title": "sub is subtraction modulo 2^w", "statement": "sub of two values of equal width w>=1 returns the canonical value (a-b) mod 2^w.", "quantifier": "all equal-width pairs, all widths >= 1, both modes", "why_tests_cant": "2^width values for each of up to 2^32-1 widths; word-boundary cases (multiples of 64) are rarely sampled; borrow chains across many words", "anchors": ["src/bv/arithmetic.rs: sub", "src/bv/ops.rs: BitVecOps::sub", "src/bv/owned.rs: impl Sub"]}
{"id": "C08", "title": "negate is two's complement negation", "statement": "negate of a value of width w>=1 returns the canonical value (-a) mod 2^w, so a + (-a) = 0 and negate is an involution.", "quantifier": "all values of all widths >= 1, both modes", "why_tests_cant": "2^width values for each of up to 2^32-1 widths; word-boundary cases (multiples of 64) are rarely sampled", "anchors": ["src/bv/arithmetic.rs: negate, negate_in_place", "src/bv/ops.rs: BitVecOps::negate"]}
{"id": "C09", "title": "mul is multiplication modulo 2^w", "statement": "mul of two values of equal width w>=1 returns the canonical value (a*b) mod 2^w.", "quantifier": "all equal-width pairs, all widths >= 1", "why_tests_cant": "2^width values for each of up to 2^32-1 widths; word-boundary cases (multiples of 64) are rarely sampled; the project's own property test for mul is ignored", "anchors": ["src/bv/arithmetic.rs: mul", "src/bv/ops.rs: BitVecOps::mul"]}
{"id": "C10", "title": "and, or, xor act bit by bit", "statement": "For equal widths, bit i of and/or/xor is the and/or/xor of bit i of the operands, for every i, and the result is canonical.", "quantifier": "all equal-width pairs, all widths, all bit positions", "why_tests_cant": "2^width values for each of up to 2^32-1 widths; word-boundary cases (multiples of 64) are rarely sampled", "anchors": ["src/bv/arithmetic.rs: bitwise_bin_op, and, or, xor", "src/bv/ops.rs: and, or, xor"]}
{"id": "C11", "title": "not complements exactly the w value bits", "statement": "not flips every bit below the width, leaves the unused bits of the top word zero, and not(not(a)) = a.", "quantifier": "all values of all widths >= 1", "why_tests_cant": "2^width values for each of up to 2^32-1 widths; word-boundary cases (multiples of 64) are rarely sampled", "anchors": ["src/bv/arithmetic.rs: not, bitwise_un_op", "src/bv/ops.rs: not"]}
{"id": "C12", "title": "shift_left is logical left shift with saturation of the amount", "statement": "shift_left(a,b) returns the canonical value (a * 2^b) mod 2^w, which is 0 when b >= w, where b is the full unsigned value of the second operand.", "quantifier": "all equal-width pairs, all widths >= 1, every shift amount including multiples of 64", "why_tests_cant": "2^width values for each of up to 2^32-1 widths; word-boundary cases (multiples of 64) are rarely sampled", "anchors": ["src/bv/arithmetic.rs: shift_left, get_shift_amount", "src/bv/ops.rs: shift_left"]}
{"id": "C13", "title": "shift_right is logical right shift", "statement": "shift_right(a,b) returns the canonical value floor(a / 2^b), which is 0 when b >= w, for the full unsigned value of b.", "quantifier": "all equal-width pairs, all widths >= 1", "why_tests_cant": "2^width values for each of up to 2^32-1 widths; word-boundary cases (multiples of 64) are rarely sampled", "anchors": ["src/bv/arithmetic.rs: shift_right, get_shift_amount, slice", "src/bv/ops.rs: shift_right"]}
{"id": "C14", "title": "arithmetic_shift_right replicates the sign bit", "statement": "arithmetic_shift_right(a,b) returns the canonical two's complement value floor(signed(a) / 2^b); for b >= w that is all zeros or all ones depending on the sign.", "quantifier": "all equal-width pairs, all widths >= 1", "why_tests_cant": "2^width values for each of up to 2^32-1 widths; word-boundary cases (multiples of 64) are rarely sampled", "anchors": ["src/bv/arithmetic.rs: arithmetic_shift_right", "src/bv/ops.rs: arithmetic_shift_right"]}
{"id": "C15", "title": "equality is equality of width and value", "statement": "For equal widths is_equal is true exactly when the values are equal and is_not_equal is its negation; the == operators on owned and borrowed values are true exactly when width and value are equal, and owned/borrowed comparison agree.", "quantifier": "all pairs of canonical values, all widths", "why_tests_cant": "2^width values for each of up to 2^32-1 widths; word-boundary cases (multiples of 64) are rarely sampled", "anchors": ["src/bv/arithmetic.rs: cmp_equal", "src/bv/ops.rs: is_equal, is_not_equal", "src/bv/owned.rs: impl PartialEq", "src/bv/borrowed.rs: impl PartialEq"]}
{"id": "C16", "title": "is_greater and is_less are the unsigned strict order", "statement": "For equal widths is_greater(a,b) iff unsigned(a) > unsigned(b), and is_less(a,b) iff unsigned(a) < unsigned(b).", "quantifier": "all equal-width pairs, all widths", "why_tests_cant": "2^width values for each of up to 2^32-1 widths; word-boundary cases (multiples of 64) are rarely sampled", "anchors": ["src/bv/arithmetic.rs: cmp_greater, is_greater_and_not_less", "src/bv/ops.rs: is_greater, is_less"]}
{"id": "C17", "title": "is_greater_or_equal and is_less_or_equal are the unsigned order", "statement": "For equal widths is_greater_or_equal(a,b) iff unsigned(a) >= unsigned(b), and is_less_or_equal(a,b) iff unsigned(a) <= unsigned(b).", "quantifier": "all equal-width pairs, all widths", "why_tests_cant": "2^width values for each of up to 2^32-1 widths; word-boundary cases (multiples of 64) are rarely sampled; only equal multi-word operands distinguish the strict from the non-strict comparison", "anchors": ["src/bv/arithmetic.rs: cmp_greater_equal", "src/bv/ops.rs: is_greater_or_equal, is_less_or_equal"]}
{"id": "C18", "title": "signed comparisons are the two's complement order", "statement": "For equal widths >= 1, is_greater_signed, is_greater_or_equal_signed, is_less_signed and is_less_or_equal_signed are >, >=, <, <= on the two's complement values.", "quantifier": "all equal-width pairs, all widths >= 1", "why_tests_cant": "2^width values for each of up to 2^32-1 widths; word-boundary cases (multiples of 64) are rarely sampled; the code itself carries a TODO asking whether the both-negative case works", "anchors": ["src/bv/arithmetic.rs: cmp_greater_signed, cmp_greater_equal_signed, is_neg", "src/bv/ops.rs: is_*_signed"]}
{"id": "C19", "title": "slice extracts exactly the requested bits", "statement": "For lsb <= msb < width, slice(msb,lsb) returns the canonical value of width msb-lsb+1 whose bit i is bit lsb+i of the source.", "quantifier": "all values, all widths, all in-range msb/lsb", "why_tests_cant": "2^width values for each of up to 2^32-1 widths; word-boundary cases (multiples of 64) are rarely sampled and all pairs of offsets", "anchors": ["src/bv/arithmetic.rs: slice", "src/bv/ops.rs: slice"]}
{"id": "C20", "title": "slice rejects an out-of-range msb", "statement": "A debug build of slice panics whenever msb >= width (no bit of the result may come from outside the value).", "quantifier": "all values, all widths, all msb >= width", "why_tests_cant": "needs all widths and positions; only one boundary position distinguishes < from <=", "anchors": ["src/bv/ops.rs: slice (debug_assert)", "src/bv/arithmetic.rs: slice"]}
{"id": "C21", "title": "concat places the left operand above the right operand", "statement": "concat(a,b) has width wa+wb and value a * 2^wb + b, canonical, for operands of any widths whose sum is a legal width.", "quantifier": "all pairs of values and widths", "why_tests_cant": "2^width values for each of up to 2^32-1 widths; word-boundary cases (multiples of 64) are rarely sampled for both operands", "anchors": ["src/bv/arithmetic.rs: concat", "src/bv/ops.rs: concat"]}
{"id": "C22", "title": "zero_extend preserves the unsigned value", "statement": "zero_extend(by) has width w+by and the same unsigned value.", "quantifier": "all values, all widths, all extension amounts with w+by < 2^32", "why_tests_cant": "2^width values for each of up to 2^32-1 widths; word-boundary cases (multiples of 64) are rarely sampled", "anchors": ["src/bv/arithmetic.rs: zero_extend", "src/bv/ops.rs: zero_extend"]}
{"id": "C23", "title": "sign_extend preserves the signed value", "statement": "sign_extend(by) has width w+by and the same two's complement value, for w >= 1.", "quantifier": "all values, all widths >= 1, all extension amounts with w+by < 2^32", "why_tests_cant": "2^width values for each of up to 2^32-1 widths; word-boundary cases (multiples of 64) are rarely sampled", "anchors": ["src/bv/arithmetic.rs: sign_extend", "src/bv/ops.rs: sign_extend"]}
{"id": "C24", "title": "single-bit access", "statement": "is_bit_set(pos) is bit pos; set_bit(pos)/clear_bit(pos) change bit pos to 1/0 and no other bit; for every pos < width, and keep the value canonical.", "quantifier": "all values, all widths, all positions below the width", "why_tests_cant": "2^width values for each of up to 2^32-1 widths; word-boundary cases (multiples of 64) are rarely sampled", "anchors": ["src/bv/arithmetic.rs: is_bit_set, set_bit, clear_bit", "src/bv/ops.rs: is_bit_set, set_bit, clear_bit"]}
{"id": "C25", "title": "predicates and bool conversion", "statement": "is_zero iff value is 0; is_negative iff the sign bit is set (w>=1); is_tru / is_fals iff the value is the 1-bit 1 / 0; to_bool is Some(bit) iff width is 1.", "quantifier": "all canonical values of all widths", "why_tests_cant": "2^width values for each of up to 2^32-1 widths; word-boundary cases (multiples of 64) are rarely sampled", "anchors": ["src/bv/ops.rs: is_zero, is_negative, is_tru, is_fals, to_bool"]}
{"id": "C26", "title": "in-place assignment overwrites everything", "statement": "assign(v) makes the destination equal to v; clear makes it zero; assign_ones makes it all ones; assign_from_u64 / assign_from_i64 make it equal to the constructed value; none depends on the previous contents.", "quantifier": "all previous contents, all values, all widths >= 1", "why_tests_cant": "needs all previous contents", "anchors": ["src/bv/ops.rs: BitVecMutOps::{assign,clear,assign_ones,assign_from_u64,assign_from_i64}"]}
{"id": "C27", "title": "operation results are always canonical (closure over arbitrary computations)", "statement": "Starting from canonical values, any finite composition of the value-producing operations (add, sub, mul, negate, not, and, or, xor, shifts, slice, concat, extensions) yields a canonical value equal to the mathematical bit-vector result of the same expression.", "quantifier": "all expressions (arbitrary depth and shape) over all operations and leaf values", "why_tests_cant": "unbounded expression depth; a non-canonical intermediate only shows up in a later comparison", "anchors": ["src/bv/ops.rs: BitVecOps", "src/bv/arithmetic.rs"]}
{"id": "C28", "title": "debug and release builds agree", "statement": "For every API call and any input whatsoever, if the debug build returns (does not panic) then the release build returns the identical result.", "quantifier": "all operations, all inputs (canonical or not), both modes", "why_tests_cant": "tests run in one build mode and cannot enumerate all inputs", "anchors": ["src/bv/ops.rs", "src/bv/arithmetic.rs", "src/bv/owned.rs", "src/bv/io/strings.rs", "src/bv/io/bytes.rs", "src/bv/io/bigint.rs", "src/bv/indexed.rs", "src/array/owned.rs"]}
{"id": "C29", "title": "debug builds reject mixed-width binary operations", "statement": "In a debug build every binary operation or comparison (add, sub, mul, shifts, and/or/xor, is_equal, is_greater..., assign) on operands of different widths panics instead of returning a value.", "quantifier": "all pairs of values of different widths", "why_tests_cant": "needs all pairs of widths", "anchors": ["src/bv/ops.rs: debug_assert_eq in declare_arith_bin_fn, declare_bit_arith_bin_fn, is_greater, is_equal, assign"]}
{"id": "C30", "title": "to_bit_str prints the w bits most significant first", "statement": "to_bit_str returns exactly width characters; character k from the left is '1' iff bit width-1-k is set; width 0 gives the empty string.", "quantifier": "all canonical values of all widths", "why_tests_cant": "2^width values for each of up to 2^32-1 widths; word-boundary cases (multiples of 64) are rarely sampled", "anchors": ["src/bv/io/strings.rs: to_bit_str, to_bit_str_internal", "src/bv/ops.rs: to_bit_str"]}
{"id": "C31", "title": "to_hex_str prints ceil(w/4) hexadecimal digits of the value", "statement": "to_hex_str returns exactly ceil(width/4) lower-case hex digits whose base-16 value is the unsigned value.", "quantifier": "all canonical values of all widths", "why_tests_cant": "2^width values for each of up to 2^32-1 widths; word-boundary cases (multiples of 64) are rarely sampled", "anchors": ["src/bv/io/strings.rs: to_hex_str, to_hex_str_internal", "src/bv/ops.rs: to_hex_str"]}
{"id": "C32", "title": "to_dec_str prints the decimal value without leading zeros", "statement": "to_dec_str returns the decimal representation of the unsigned value without leading zeros.", "quantifier": "all canonical values of all widths", "why_tests_cant": "2^width values for each of up to 2^32-1 widths; word-boundary cases (multiples of 64) are rarely sampled", "anchors": ["src/bv/io/strings.rs: to_dec_str, words_used, words_to_u128, to_dec_str_wide", "src/bv/ops.rs: to_dec_str"]}
{"id": "C33", "title": "to_bit_str_signed prints the two's complement value in binary", "statement": "to_bit_str_signed returns an optional '-' followed by binary digits denoting the magnitude of the two's complement value, '-' present iff the value is negative.", "quantifier": "all canonical values of all widths >= 1", "why_tests_cant": "2^width values for each of up to 2^32-1 widths; word-boundary cases (multiples of 64) are rarely sampled; widths 1 and 64k+1 and the minimum value are the exceptional points", "anchors": ["src/bv/io/strings.rs: to_bit_str_signed", "src/bv/ops.rs: to_bit_str_signed"]}
{"id": "C34", "title": "to_hex_str_signed prints the two's complement value in hexadecimal", "statement": "to_hex_str_signed returns an optional '-' followed by hex digits denoting the magnitude of the two's complement value, '-' present iff the value is negative.", "quantifier": "all canonical values of all widths >= 1", "why_tests_cant": "2^width values for each of up to 2^32-1 widths; word-boundary cases (multiples of 64) are rarely sampled; the minimum value is the exceptional point", "anchors": ["src/bv/io/strings.rs: to_hex_str_signed, select_words_for_width", "src/bv/ops.rs: to_hex_str_signed"]}
{"id": "C35", "title": "from_bit_str accepts exactly signed binary numerals and computes their value", "statement": "from_bit_str(s) succeeds exactly for the empty string and strings made of an optional '-', an optional '+' and at least one binary digit, and then yields the canonical value whose width is the number of characters after a leading sign, plus one for a minus sign, equal to the (negated) numeral modulo 2^width; all other strings give the InvalidDigit error (a lone '+' gives ExceedsWidth), and it never panics. Longer strings are accepted only as values of that width modulo 2^32.", "quantifier": "all strings (byte sequences) whose resulting width is below 2^32 (the range of the width type)", "why_tests_cant": "infinitely many strings; multi-word strings use a different parser", "anchors": ["src/bv/owned.rs: from_bit_str", "src/bv/io/strings.rs: from_str_radix, parse_base_2, determine_width_from_str_radix"]}
{"id": "C36", "title": "from_hex_str accepts exactly signed hexadecimal numerals and computes their value", "statement": "from_hex_str(s) succeeds exactly for the empty string and strings made of an optional '-', an optional '+' and at least one hex digit (upper or lower case), and then yields the canonical value whose width is 4 per character after a leading sign, plus one for a minus sign, equal to the (negated) numeral modulo 2^width; all other strings give the InvalidDigit error (a lone '+' gives ExceedsWidth), and it never panics. Longer strings are accepted only as values of that width modulo 2^32.", "quantifier": "all strings (byte sequences) whose resulting width is below 2^32 (the range of the width type)", "why_tests_cant": "infinitely many strings; multi-word strings use a different parser", "anchors": ["src/bv/owned.rs: from_hex_str", "src/bv/io/strings.rs: from_str_radix, parse_base_16, hex_digit_value"]}
{"id": "C37", "title": "from_str_radix returns a value of the requested width or ExceedsWidth", "statement": "from_str_radix(s,radix,w) on a well-formed numeral either returns the canonical value of width w equal to the numeral, or the ExceedsWidth error when the numeral does not fit into w bits; it never returns a value that is out of range for its width.", "quantifier": "all strings, radixes and widths", "why_tests_cant": "infinitely many strings and widths; the code has a TODO where the width check should be", "anchors": ["src/bv/owned.rs: from_str_radix", "src/bv/io/strings.rs: from_str_radix"]}
{"id": "C38", "title": "binary and hexadecimal strings round trip", "statement": "from_bit_str(to_bit_str(v)) = v for every width; from_hex_str(to_hex_str(v)) has the same unsigned value, and equals v when width is a multiple of 4 (for w <= 2^32-4, so that the width of the string is a legal width); from_str_radix(to_dec_str(v),10,w) = v for 1 <= w <= 128.", "quantifier": "all canonical values of all widths", "why_tests_cant": "2^width values for each of up to 2^32-1 widths; word-boundary cases (multiples of 64) are rarely sampled", "anchors": ["src/bv/io/strings.rs", "src/bv/owned.rs: from_bit_str, from_hex_str, from_str_radix", "src/bv/ops.rs: to_bit_str, to_hex_str, to_dec_str"]}
{"id": "C39", "title": "assign_from_str_radix does not depend on the previous value", "statement": "When assign_from_str_radix returns Ok for a non-empty string, the destination equals the value from_str_radix would construct, whatever it held before.", "quantifier": "all previous contents, strings, radixes, widths", "why_tests_cant": "needs all previous contents; wide values use a different code path", "anchors": ["src/bv/ops.rs: assign_from_str_radix", "src/bv/io/strings.rs: from_str_radix, parse_base_2, parse_base_16"]}
{"id": "C40", "title": "to_bytes_le / from_bytes_le are little endian and inverse", "statement": "to_bytes_le returns ceil(w/8) bytes whose little-endian value is the unsigned value; from_bytes_le(bytes,w) is the canonical value of the little-endian number modulo 2^w for any byte sequence of at most 8*ceil(w/64) bytes, and panics for longer ones (width 0 ignores the bytes); from_bytes_le(to_bytes_le(v),w) = v.", "quantifier": "all values, all byte sequences, all widths", "why_tests_cant": "2^width values for each of up to 2^32-1 widths; word-boundary cases (multiples of 64) are rarely sampled", "anchors": ["src/bv/io/bytes.rs: to_bytes_le, from_bytes_le", "src/bv/owned.rs: from_bytes_le", "src/bv/ops.rs: to_bytes_le"]}
{"id": "C41", "title": "big unsigned integer conversion", "statement": "to_big_uint returns the unsigned value; from_big_uint(n,w) is the canonical value n mod 2^w; From<&BigUint> picks the minimal width and is inverted by to_big_uint (for numbers below 2^(2^32-64)).", "quantifier": "all naturals, all widths", "why_tests_cant": "unbounded naturals", "anchors": ["src/bv/io/bigint.rs: to_big_uint, from_big_uint, iter_to_word, count_big_uint_bits", "src/bv/owned.rs: From<&BigUint>"]}
{"id": "C42", "title": "big signed integer conversion", "statement": "to_big_int returns the two's complement value; from_big_int(z,w) is the canonical value z mod 2^w (w>=1); From<&BigInt> is inverted by to_big_int (for magnitudes below 2^(2^32-64)).", "quantifier": "all integers, all widths", "why_tests_cant": "unbounded integers", "anchors": ["src/bv/io/bigint.rs: to_big_int, from_big_int, get_sign, count_big_int_bits", "src/bv/owned.rs: From<&BigInt>"]}
{"id": "C43", "title": "fixed-point conversion", "statement": "to_unsigned_fixed_point(f) is Some(value / 2^f) when the unsigned value fits in 64 bits; to_signed_fixed_point(f) is Some(signed value / 2^f) when it returns Some, for every f <= width.", "quantifier": "all values, widths and fraction widths f <= width", "why_tests_cant": "2^width values for each of up to 2^32-1 widths; word-boundary cases (multiples of 64) are rarely sampled and all fraction widths", "anchors": ["src/bv/ops.rs: to_signed_fixed_point, to_unsigned_fixed_point"]}
{"id": "C44", "title": "get_ref returns exactly the addressed words", "statement": "get_ref(index) on a word slice returns the value of the index's width stored at words index .. index+ceil(width/64), for single and paired indices, and panics iff the range is out of bounds.", "quantifier": "all backing slices, all indices", "why_tests_cant": "all layouts of all sizes", "anchors": ["src/bv/indexed.rs: IndexToRef, BitVecValueIndex::to_range"]}
{"id": "C45", "title": "get_mut_ref never aliases and writes only its own range", "statement": "get_mut_ref((a,b)) and ((a,b,c)) return the addressed ranges exactly when the ranges are in bounds and the mutable one lies apart from the others (one range ends before the other starts), panic otherwise, and writing through the mutable reference changes only the words of a.", "quantifier": "all backing slices, all index pairs and triples", "why_tests_cant": "all layouts of all sizes", "anchors": ["src/bv/indexed.rs: split_borrow_1, split_borrow_2, move_range, IndexToMutRef"]}
{"id": "C46", "title": "interned values can be read back forever", "statement": "After any sequence of get_index calls, every index returned so far, looked up in words(), yields the value that was interned.", "quantifier": "all histories of get_index calls on canonical values of width >= 1 (total words below 2^32)", "why_tests_cant": "unbounded histories", "anchors": ["src/bv/indexed.rs: ValueInterner::{new,get_index,words}"]}
{"id": "C47", "title": "interner indices identify values", "statement": "In any history two get_index calls return the same index if and only if the interned values have the same width and the same value.", "quantifier": "all histories of get_index calls on canonical values of width >= 1 (total words below 2^32)", "why_tests_cant": "unbounded histories", "anchors": ["src/bv/indexed.rs: ValueInterner::get_index"]}
{"id": "C48", "title": "interner is_zero / is_one recognise zero and one", "statement": "For an index returned by get_index, is_zero is true iff the interned value is 0 and is_one is true iff it is 1.", "quantifier": "all histories, all values, all widths >= 1", "why_tests_cant": "unbounded histories and widths", "anchors": ["src/bv/indexed.rs: ValueInterner::{is_zero,is_one}"]}
{"id": "C49", "title": "dense arrays behave like functions from index to data", "statement": "For a dense array, select(i) after any sequence of store and clear operations returns the last value stored at i since the last clear, or the initial default / zero.", "quantifier": "all histories of store/clear, all index and data widths that fit in memory", "why_tests_cant": "unbounded histories; four storage representations", "anchors": ["src/array/owned.rs: DenseArrayValue::{new,select_usize,select,store,clear}", "src/array/ops.rs"]}
{"id": "C50", "title": "sparse arrays behave like functions from index to data", "statement": "For a sparse array of any index and data width, select(i) after any sequence of store and clear operations returns the last value stored at i since the last clear, or the default / zero.", "quantifier": "all histories of store/clear, all index and data widths", "why_tests_cant": "unbounded histories; three storage representations", "anchors": ["src/array/owned.rs: SparseArrayValue::{new,select,store,clear}", "src/bv/borrowed.rs: impl Borrow"]}
{"id": "C51", "title": "dense and sparse arrays are observationally equivalent", "statement": "A dense and a sparse array created with the same index width and default and subjected to the same sequence of stores and clears return the same value for every select.", "quantifier": "all histories, index widths, data widths", "why_tests_cant": "unbounded histories", "anchors": ["src/array/owned.rs: ArrayValue"]}
{"id": "C52", "title": "make_dense preserves contents", "statement": "make_dense does not change the result of any select, and makes is_dense true.", "quantifier": "all sparse arrays reachable by any history, all hash iteration orders, both build modes", "why_tests_cant": "unbounded histories, non-deterministic hash order", "anchors": ["src/array/owned.rs: make_dense, From<&SparseArrayValue> for DenseArrayValue"]}
{"id": "C53", "title": "dense to sparse conversion preserves contents", "statement": "Converting an ArrayValue into a SparseArrayValue preserves every select result.", "quantifier": "all dense arrays reachable by any history, all hash iteration orders", "why_tests_cant": "unbounded histories, all element values, non-deterministic hash order", "anchors": ["src/array/owned.rs: From<ArrayValue> for SparseArrayValue, From<&DenseArrayValue> for SparseArrayValue"]}
{"id": "C54", "title": "dense array equality is extensional", "statement": "For two dense arrays of the same type is_equal returns Some(true) iff all selects agree, Some(false) otherwise; for different types it returns None and == returns false.", "quantifier": "all pairs of reachable dense arrays", "why_tests_cant": "unbounded histories", "anchors": ["src/array/owned.rs: DenseArrayValue::is_equal, ArrayValue::is_equal, impl PartialEq"]}
{"id": "C55", "title": "sparse array equality is extensional", "statement": "For two sparse arrays of the same type is_equal returns Some(true) iff all selects agree.", "quantifier": "all pairs of reachable sparse arrays", "why_tests_cant": "unbounded histories; differing defaults matter only when every index is overwritten", "anchors": ["src/array/owned.rs: SparseArrayValue::is_equal"]}
{"id": "C56", "title": "mixed array equality is extensional", "statement": "For a dense and a sparse array of the same type is_equal (in either argument order) returns Some(true) iff all selects agree.", "quantifier": "all pairs of reachable arrays, hash orders, build modes", "why_tests_cant": "unbounded histories, non-deterministic hash order", "anchors": ["src/array/owned.rs: is_equal_mixed"]}
{"id": "C57", "title": "sparse arrays never store the default and list exactly the non-default entries", "statement": "non_default_entries yields exactly one pair per index whose element differs from the default, with the element's value, in some order, and nothing else.", "quantifier": "all reachable sparse arrays, all hash orders", "why_tests_cant": "unbounded histories", "anchors": ["src/array/owned.rs: non_default_entries, SparseArrayEntryIter::next, store_u64_u64, store_u64_big"]}
{"id": "C58", "title": "arrays from slices", "statement": "Converting a slice of bool/u8/u64 of length n gives an array whose index width is the least k with 2^k >= n, whose element i is the slice element for i < n and zero for n <= i < 2^k.", "quantifier": "all slices of all lengths", "why_tests_cant": "all lengths and contents", "anchors": ["src/array/owned.rs: From<&[bool]>, From<&[u8]>, From<&[u64]>, index_width_from_len"]}
{"id": "C59", "title": "dense array size guard", "statement": "In a debug build creating a dense array succeeds only if its element storage takes at most 1 GiB.", "quantifier": "all index and data widths", "why_tests_cant": "allocating gigabyte arrays in tests is infeasible", "anchors": ["src/array/owned.rs: approx_dense_storage_size, DENSE_ARRAY_MAX_BYTES, DenseArrayValue::new"]}
{"id": "C60", "title": "Eq, Ord and Hash of owned values are consistent", "statement": "The derived total order is a total order whose equality coincides with ==, equal values produce the same hash input, and an owned value and its borrowed view produce the same hash input.", "quantifier": "all pairs/triples of values", "why_tests_cant": "all pairs of values", "anchors": ["src/bv/owned.rs: derive(Hash, Ord, PartialOrd), impl PartialEq", "src/bv/borrowed.rs: derive(Hash)"]}
{"id": "C61", "title": "structural laws of slicing and concatenation", "statement": "concat(slice(v,w-1,k), slice(v,k-1,0)) = v for 0<k<w; slicing concat(a,b) gives back a and b; slicing an extension gives back the value; slice of slice composes; concat is associative.", "quantifier": "all values of widths >= 1 and cut positions (results below 2^32 bits)", "why_tests_cant": "2^width values for each of up to 2^32-1 widths; word-boundary cases (multiples of 64) are rarely sampled", "anchors": ["src/bv/ops.rs: slice, concat, zero_extend, sign_extend"]}
{"id": "C62", "title": "Value wrapper conversion", "statement": "Converting a Value to ArrayValue or BitVecValue succeeds exactly when it wraps that kind, and returns the wrapped value unchanged.", "quantifier": "all values", "why_tests_cant": "all values", "anchors": ["src/lib.rs: Value, TryFrom"]}
{"id": "C63", "title": "debug output shows the bits", "statement": "Debug-formatting an owned, borrowed or mutably borrowed bit-vector returns the type's name followed by exactly width binary digits in parentheses, most significant first.", "quantifier": "all canonical values of all widths", "why_tests_cant": "2^width values for each of up to 2^32-1 widths; word-boundary cases (multiples of 64) are rarely sampled", "anchors": ["src/bv/owned.rs: impl Debug", "src/bv/borrowed.rs: impl Debug"]}
{"id": "C64", "title": "mask", "statement": "mask(bits) has exactly the lowest `bits` bits set for 1 <= bits <= 64; mask(0) is the full word (the mask of the last word of a value whose width is a multiple of 64); larger arguments panic in both build modes.", "quantifier": "all bit counts", "why_tests_cant": "every u32 argument", "anchors": ["src/bv/arithmetic.rs: mask"]}
{"id": "C65", "title": "additive group laws", "statement": "At the level of returned values: add is commutative and associative with zero as neutral element, a+b-b = a, a-b = a+(-b), and -a = !a + 1.", "quantifier": "all values of all widths >= 1", "why_tests_cant": "2^width values for each of up to 2^32-1 widths; word-boundary cases (multiples of 64) are rarely sampled", "anchors": ["src/bv/ops.rs: add, sub, negate, not"]}
{"id": "C66", "title": "multiplicative ring laws", "statement": "For widths 1 to 64 mul is commutative, associative, has one as neutral element and distributes over add.", "quantifier": "all values of widths 1 to 64", "why_tests_cant": "2^width values for each of up to 2^32-1 widths; word-boundary cases (multiples of 64) are rarely sampled", "anchors": ["src/bv/ops.rs: mul, add"]}
{"id": "C67", "title": "Boolean algebra laws", "statement": "and, or and xor are commutative and associative; and distributes over or and xor, and or over and; De Morgan's laws, absorption, complement laws and xor cancellation hold for the returned values.", "quantifier": "all values of all widths (>= 1 for the laws involving not)", "why_tests_cant": "2^width values for each of up to 2^32-1 widths; word-boundary cases (multiples of 64) are rarely sampled", "anchors": ["src/bv/ops.rs: and, or, xor, not"]}
{"id": "C68", "title": "order laws", "statement": "Exactly one of a<b, a=b, a>b holds, for the unsigned and the signed comparisons; both orders are transitive; the value with the highest differing bit set is the greater one.", "quantifier": "all pairs and triples of values of all widths (>= 1 for the signed orders and transitivity)", "why_tests_cant": "2^width values for each of up to 2^32-1 widths; word-boundary cases (multiples of 64) are rarely sampled", "anchors": ["src/bv/ops.rs: is_less, is_less_or_equal, is_greater, is_greater_or_equal, is_*_signed, is_equal"]}
{"id": "C69", "title": "shift laws", "statement": "Shifting right by zero gives the value back; two right shifts by amounts whose sum does not overflow compose to one shift by the sum; a right shift by less than the width is a slice followed by zero (arithmetic: sign) extension.", "quantifier": "all values of widths >= 1 and amounts", "why_tests_cant": "2^width values for each of up to 2^32-1 widths; word-boundary cases (multiples of 64) are rarely sampled", "anchors": ["src/bv/ops.rs: shift_right, slice, zero_extend"]}
{"id": "C70", "title": "values in one word buffer behave like independent variables", "statement": "For any program of assignments between values that live at disjoint positions in one word buffer: no instruction panics, each value ends up with the mathematical result of the program, and words outside of the values never change.", "quantifier": "all layouts, all programs of any length, all initial contents, both build modes", "why_tests_cant": "unbounded programs over unbounded layouts", "anchors": ["src/bv/indexed.rs: BitVecValueIndex, IndexToRef, IndexToMutRef", "src/bv/ops.rs: BitVecOps, BitVecMutOps"]}
{"id": "C71", "title": "all representations of a value show the same number", "statement": "The binary, hexadecimal and decimal strings, the bytes, the big integer and the machine integer of a value denote the same number; the signed conversions differ from it by 2^width exactly if the sign bit is set; all constructors build the same value from the same number.", "quantifier": "all values of all widths >= 1, both build modes (decimal text below 2^128, the other limit of to_dec_str)", "why_tests_cant": "2^width values for each of up to 2^32-1 widths; word-boundary cases (multiples of 64) are rarely sampled", "anchors": ["src/bv/ops.rs: to_bit_str, to_hex_str, to_dec_str, to_bytes_le, to_big_uint, to_big_int, to_u64, to_i64", "src/bv/owned.rs: from_u64, from_i64, from_bytes_le, from_big_uint, from_big_int, from_str_radix"]}
{"id": "C72", "title": "arrays behave like functions after any history", "statement": "After any history of creations, stores, clears and conversions between representations an array shows exactly the function the history describes: reads return the last write, writes to other indices do not interfere, the last write wins, independent writes commute, writing back what was read changes nothing.", "quantifier": "all histories mixing both representations, all hash orders, both build modes", "why_tests_cant": "unbounded histories, non-deterministic hash order", "anchors": ["src/array/owned.rs: ArrayValue"]}
{"id": "C73", "title": "array equality is an equivalence relation", "statement": "== on arrays is reflexive, symmetric and transitive, relates only arrays with equal elements, and is preserved by equal stores.", "quantifier": "all triples of reachable arrays in any mix of representations", "why_tests_cant": "unbounded histories, all combinations of representations", "anchors": ["src/array/owned.rs: impl PartialEq for ArrayValue, is_equal, is_equal_mixed"]}
{"id": "C74", "title": "a failed parse leaves the destination unchanged", "statement": "If assign_from_str_radix returns an error, the destination still has the value it had before the call.", "quantifier": "all destinations, all strings, all radixes, both build modes", "why_tests_cant": "all malformed strings times all previous contents", "anchors": ["src/bv/ops.rs: assign_from_str_radix", "src/bv/io/strings.rs: from_str_radix, parse_base_2, parse_base_16"]}
{"id": "C75", "title": "printing a parsed numeral gives the numeral back", "statement": "Parsing a binary or hexadecimal numeral with the width it determines and printing the value, signed if the numeral has a minus sign, gives the digits back, leading zeros included, in lower case, with the minus sign if the number is not 0.", "quantifier": "all numerals of any length with and without sign, both build modes", "why_tests_cant": "numerals of all lengths; the repository's own property tests generate at most 32 digits", "anchors": ["src/bv/ops.rs: to_bit_str, to_bit_str_signed, to_hex_str, to_hex_str_signed", "src/bv/owned.rs: from_bit_str, from_hex_str", "src/bv/io/strings.rs: from_str_radix, determine_width_from_str_radix"]}
{"id": "C76", "title": "operations act on the binary text", "statement": "With text = to_bit_str: text(concat a b) = text a followed by text b; text(slice v msb lsb) is the corresponding substring; zero_extend puts zeros and sign_extend copies of the first character in front; right shifts drop characters at the end and put zeros (copies of the first character) in front; left shifts drop characters in front and put zeros at the end; not, and, or, xor act character by character; is_bit_set reads the character counted from the end; is_equal is equality of the texts, is_less and is_greater are dictionary order, the signed is_less and is_greater too after flipping the first character.", "quantifier": "all values of all widths >= 1, all amounts and positions, both build modes", "why_tests_cant": "2^width values for each of up to 2^32-1 widths; word-boundary cases (multiples of 64) are rarely sampled", "anchors": ["src/bv/ops.rs: to_bit_str, concat, slice, zero_extend, sign_extend, shift_left, shift_right, arithmetic_shift_right, not, and, or, xor, is_bit_set, is_greater, is_less"]}
{"id": "C77", "title": "stray bits above the width do not matter", "statement": "A value whose top word has bits set above its width (as shift_left, unchecked parsing or a hand-built reference produces) gives the same results as the value without these bits, and the results have no such bits.", "quantifier": "all values of all widths with any bits above the width, all operations, both build modes", "why_tests_cant": "every combination of value, width and stray bits", "anchors": ["src/bv/ops.rs: BitVecOps", "src/bv/indexed.rs: get_ref", "src/bv/arithmetic.rs: shift_left"]}
{"id": "C78", "title": "Converting to a sparse array picks a most frequent element as default", "statement": "`SparseArrayValue::from(&dense)` uses as default an element that occurs in the array at least as often as every other element, so that no other choice of default would have to store fewer entries.", "quantifier": "all dense arrays that can be built through the API, all index and data widths, all hash iteration orders, both build modes", "why_tests_cant": "every array content, also with more than a million different elements", "anchors": ["src/array/owned.rs: From<&DenseArrayValue> for SparseArrayValue", "src/array/owned.rs: MAX_HASH_TABLE_SIZE_FOR_DEFAULT_SEARCH"]}
{"id": "C79", "title": "Array operations do not depend on hash iteration order", "statement": "`select`, `store`, `make_dense`, `is_equal`, `==` and the conversion to a sparse array have the same observable result whatever order the hash tables are iterated in: running the same program twice gives equal arrays and equal answers, and entry listings differ only in their order.", "quantifier": "all pairs of hash iteration orders, all arrays that can be built through the API, both build modes", "why_tests_cant": "std's hash tables use a random seed per process; a test sees one order per run", "anchors": ["src/array/owned.rs: From<&DenseArrayValue> for SparseArrayValue", "src/array/owned.rs: From<&SparseArrayValue> for DenseArrayValue", "src/array/owned.rs: is_equal_mixed", "src/array/owned.rs: non_default_entries"]}
{"id": "C80", "title": "The interner stores every number once, in order of first use", "statement": "After any history of get_index calls the slice returned by words() consists of the numbers 0 to 7 followed by the word sequences of the different interned values in the order in which they were first interned. Interning more values only appends to it; interning a value whose words are already there leaves the interner unchanged and returns the same position. The Debug text reports the number of different one-word and multi-word entries.", "quantifier": "all histories of get_index calls on canonical values of width >= 1, of any length, both build modes", "why_tests_cant": "unbounded histories", "anchors": ["src/bv/indexed.rs: ValueInterner::{get_index,words}", "src/bv/indexed.rs: impl Debug for ValueInterner"]}
{"id": "C81", "title": "Interner indices stay valid however many values are interned", "statement": "After any history of get_index calls, however long, every index that was returned reads back the value that was interned.", "quantifier": "all histories of get_index calls on canonical values of width >= 1, with no bound on their length or total size", "why_tests_cant": "the failing histories have more than 2^32 words", "anchors": ["src/bv/indexed.rs: ValueInterner::get_index", "src/bv/indexed.rs: WordIndex"]}
{"id": "C82", "title": "Operations work on values of zero bits", "statement": "The value of zero bits, which From<&BigUint> returns for the number zero and from_bit_str for the empty string, can be used like other values: arithmetic, shifts and bit operations return the value of zero bits, it equals itself, is >= and <= itself, not > or < itself, and not negative.", "quantifier": "all operations of the library on values of width 0, both build modes", "why_tests_cant": "the boundary case is reachable through conversions whose width depends on run-time data", "anchors": ["src/bv/ops.rs: BitVecOps", "src/bv/owned.rs: From<&BigUint>, from_bit_str, zero", "src/bv/arithmetic.rs: add, sub, mul, negate, not"]}
{"id": "C83", "title": "Serialised values are read back unchanged", "statement": "With the feature serde1, a bit-vector or dense array that is serialised and deserialised is the same value, whatever order a format stores struct fields in; a sparse array comes back equal to the original, with the same default and the same elements, whatever order its hash table was written in.", "quantifier": "all bit-vector values of all widths, all arrays that can be built through the API, all hash orders, all field orders, both build modes", "why_tests_cant": "no test of the repository covers serialisation; every content and every hash order", "anchors": ["src/bv/owned.rs: derive(Serialize, Deserialize) for BitVecValue", "src/array/owned.rs: derive(Serialize, Deserialize) for ArrayValue, DenseArrayValue, SparseArrayValue"]}
{"id": "C84", "title": "Deserialising never yields a malformed value", "statement": "Whatever document is deserialised as a bit-vector, the result is an error or a value in normal form: as many words as the width needs and no bits above the width.", "quantifier": "all documents", "why_tests_cant": "documents come from outside of the program", "anchors": ["src/bv/owned.rs: derive(Deserialize) for BitVecValue"]}
{"id": "C85", "title": "A deserialised array is well-formed", "statement": "Whatever document is deserialised as an array, the result is an error or an array that can be read at every index of its declared index width and shows elements of its declared data width.", "quantifier": "all documents, all hash orders, both build modes", "why_tests_cant": "documents come from outside of the program", "anchors": ["src/array/owned.rs: derive(Deserialize) for ArrayValue, DenseArrayValue, SparseArrayValue, DenseArrayImpl, SparseArrayImpl"]}
{"id": "C86", "title": "The outcome of a computation is determined by the bits it starts from", "statement": "For every computation built from the operations of the library, the result - also when values with bits above their width are involved, and when it is not the mathematically right one - is a fixed function of the words of the values it starts from: an independent calculation on natural numbers predicts the words of the result or the panic, the same in debug and release builds.", "quantifier": "all computations of any size from values with the right number of words (any bits), legal slices and widths below 2^32, both build modes", "why_tests_cant": "unbounded compositions of operations on values of every width", "anchors": ["src/bv/ops.rs: BitVecOps", "src/bv/arithmetic.rs: all functions"]}
{"id": "C87", "title": "What the observers report depends only on the width and the words", "statement": "Every way of looking at a value - to_u64, to_i64, to_bool, is_tru, is_fals, is_zero, is_negative, is_bit_set, the comparisons, the texts, bytes, big integers and fixed-point numbers - reports a fixed function of the width and of the number held in the words, stated separately for each; mask_msb always restores normal form, and a value is in normal form exactly if to_big_uint agrees with the bits that to_bit_str prints.", "quantifier": "all values with the right number of words, with any bits above the width, both build modes", "why_tests_cant": "values with stray bits arise from shifts by multiples of 64 and from caller-filled buffers; every width", "anchors": ["src/bv/ops.rs: BitVecOps", "src/bv/io/strings.rs: to_*", "src/bv/io/bytes.rs: to_bytes_le", "src/bv/io/bigint.rs: to_big_uint, to_big_int"]}
{"id": "C88", "title": "The outcome of every in-place parse is predictable", "statement": "For every destination, string and radix, assign_from_str_radix reports a fixed result and leaves fixed contents: a specification on numbers says whether it succeeds, fails or panics and which bits the destination holds afterwards, also after a failure half way and for destinations with stray bits. It agrees with from_str_radix whenever the digits reach every non-zero word of the destination.", "quantifier": "all widths below 2^32, all previous contents of the destination, all strings (digit counts below 2^32, 2^30 hexadecimal digits, above 128 bits), all radices, both build modes", "why_tests_cant": "every string, every previous content of the destination and every width", "anchors": ["src/bv/ops.rs: BitVecMutOps::assign_from_str_radix", "src/bv/io/strings.rs: from_str_radix, parse_base_2, parse_base_16"]}
{"id": "C89", "title": "Arrays are predictable on indices and data with arbitrary bits", "statement": "For indices, data and defaults whose words are arbitrary (also with bits set beyond the width), a memory of numbers predicts every array: which creations panic, which cell a store reaches and what it keeps, what a select after any history returns or that it panics, and when two arrays compare equal. In particular a store followed by a select of the same index reads back the kept number, and dense and sparse arrays differ in exactly the predicted way.", "quantifier": "all dense arrays that fit the address space and all sparse arrays with an index of up to 64 bits, all data widths, all contents of the words of default, indices and data (word offsets below 2^64), all histories of stores and clears, both build modes", "why_tests_cant": "every history of stores and clears, every index and every word", "anchors": ["src/array/owned.rs: ArrayValue, DenseArrayValue, SparseArrayValue", "src/array/ops.rs: ArrayOps, ArrayMutOps"]}
{"id": "C90", "title": "Every program over values in one word buffer is predictable", "statement": "Take variables at index ranges of one word slice, where the ranges may overlap each other or leave the slice, and a program of any length whose steps read operands through get_ref, apply an operation, comparison, slice, extension or choice and write the result through get_mut_ref, or work in place (constants, single bits, parsing a text, masking). Reading the whole slice as one number, that number after the program, or the fact that the program panics, is a function of the number before it; and a program that finishes in a debug build leaves the same slice in a release build.", "quantifier": "all slices of words with any contents, all numbers, widths and positions of variables (positive widths), all programs of any length whose operand widths match, all constants, bit positions, texts and radixes, both build modes", "why_tests_cant": "every contents of the buffer, every layout with every kind of overlap and programs of every length", "anchors": ["src/bv/indexed.rs: IndexToRef, IndexToMutRef, split_borrow_1", "src/bv/ops.rs: BitVecOps, BitVecMutOps", "src/bv/owned.rs: assign_from_str_radix"]}
{"id": "C91", "title": "Conversions between array kinds are predictable for arbitrary words", "statement": "Take a new array of either kind and any history of store, clear, make_dense and conversion into SparseArrayValue, where indices and elements are words with arbitrary contents (stray bits above the width included). Whether the history panics, which kind of array results and what every later select gives are described by a specification on cells holding natural numbers: which cells make_dense writes and when it panics, which default the conversion to a sparse array may pick, which cells it keeps and when it panics. Comparing two such arrays of equal or different kinds gives what the specification says about their cells. Except for one-bit data, the cells after make_dense do not depend on the order of the hash map.", "quantifier": "both kinds, all index and data widths of an addressable dense array (one-bit data with fewer than 32 index bits), all initial words, histories of any length with any words whose positions do not wrap around, all hash map orders, both build modes", "why_tests_cant": "every history of stores and conversions with every pattern of stray bits and every order of the hash map", "anchors": ["src/array/owned.rs: ArrayValue::{make_dense, is_equal}, From<&SparseArrayValue> for DenseArrayValue, From<&DenseArrayValue> for SparseArrayValue, From<ArrayValue> for SparseArrayValue, is_equal_mixed"]}
{"id": "C92", "title": "What a release build does with operands of different widths", "statement": "In a debug build operations on operands of different widths panic. In a release build they do not: for any two positive widths and any words, add, sub, mul, and, or, xor, the three shifts, assign and all comparisons give a result that is a function of the two widths and the numbers in the words (mul panics above 64 bits and assign panics if the numbers of words differ, nothing else panics). The result has the width of the left operand; of operands in normal form it is in normal form unless or, xor or assign meets a right operand that does not fit, or shift_left shifts by a multiple of 64. If both operands have the same number of words, the right operand is taken as a value of the left operand's width.", "quantifier": "all pairs of positive widths below 2^32, all contents of the words, all ten operations and all comparisons, release builds", "why_tests_cant": "every pair of widths, with every pattern of words", "anchors": ["src/bv/ops.rs: declare_arith_bin_fn, declare_bit_arith_bin_fn, is_equal, is_greater, is_greater_signed, assign", "src/bv/arithmetic.rs: add, sub, mul, cmp_equal, is_greater_and_not_less, is_neg"]}
{"id": "C93", "title": "What array operations do with values of the wrong width in a release build", "statement": "In a release build, select and store do not check the widths of the index and the data. For an array whose index has 1 to 64 bits, an index of any width acts like the index of the right width with the same number, and panics if the number is 2^64 or more. Data of any width acts like data of the right width with the same number if the array is dense or its data has up to 64 bits, with these exceptions: a dense array of one-bit data takes everything that is not one bit wide for 0; data of up to 64 bits panics if the number is 2^64 or more; a dense array with wider data panics unless the number of words is right. A sparse array with data of more than 64 bits keeps the value with its own width and returns it so from select, except that a store is dropped in favour of the default if the two agree in the words that both have.", "quantifier": "for every index width from 1 to 64, data width, new array of either kind, history of stores and clears with indices and data of any widths and any words, and final index of any width", "why_tests_cant": "Unit tests run in debug builds, where these calls panic. In release builds the outcome depends on the representation, the widths and the numbers, and a wrong-width value inside a sparse array shows up in a later select.", "anchors": ["src/array/owned.rs: ArrayValue, DenseArrayValue, SparseArrayValue", "src/array/ops.rs: ArrayOps, ArrayMutOps"]}
{"id": "C94", "title": "A dense array of wide data is a memory of words", "statement": "A dense array with data of more than 64 bits behaves like a memory of 64-bit words in which every element takes ceil(data width / 64) consecutive words. An index that holds the number I reaches the words from ceil(dw/64)*I on; a release build computes this position modulo 2^64, so an index with bits above its width can reach the end of one element and the beginning of the next. An access panics exactly if the number of the index is 2^64 or more, the words do not all exist, the data has another number of words, or, in a debug build, a width is wrong. A store changes exactly the reached words, a select returns exactly these words, clear makes all words zero, and two such arrays of the same shape are equal exactly if all their words are.", "quantifier": "for every index width and data width above 64 of an addressable dense array, default with any words, history of any length of stores and clears with indices and data of any widths and any words, and final index, both build modes", "why_tests_cant": "every history with every pattern of words; positions that wrap around need indices near 2^64", "anchors": ["src/array/owned.rs: DenseArrayValue::{new, select, store, clear, is_equal}", "src/array/ops.rs: ArrayOps, ArrayMutOps"]}
{"id": "C95", "title": "Every result has exactly the words its width needs, even from malformed operands", "statement": "Whatever widths and words the operands have, including values with too many or too few words such as deserialisation can produce, every bit-vector value returned by an operation, constructor, parser, conversion, dense array read or buffer view has exactly ceil(w/64) words for its width w. Two-operand operations return the width of the left operand; concat and the extensions return the 32-bit sum of the widths; slice returns msb-lsb+1. Operations that work in place change neither the width nor the number of words of their target, writes through a buffer reference do not change the length of the buffer, and store and clear of a dense array change neither its widths nor its storage size.", "quantifier": "for every operand of any width with any list of words, every argument, both build modes; whenever the operation returns", "why_tests_cant": "operands with arbitrary word lists cannot be enumerated; a single missed path would let a malformed value spread", "anchors": ["src/bv/ops.rs: BitVecOps, BitVecMutOps", "src/bv/owned.rs: BitVecValue constructors, value_vec_zeros", "src/bv/arithmetic.rs: all functions writing to dst", "src/bv/io/strings.rs: from_str_radix", "src/bv/io/bytes.rs: from_bytes_le", "src/bv/io/bigint.rs: iter_to_word", "src/bv/indexed.rs: IndexToRef, IndexToMutRef", "src/array/owned.rs: DenseArrayValue::{select, store, clear}"]}
{"id": "C96", "title": "Narrowing and widening commute with the operations", "statement": "Cutting values to their low k bits commutes with add, sub, mul (up to 64 bits), negate, not, and, or, xor: the low bits of the result are the result of the same operation on the low bits of the operands. Zero and sign extension commute with and, or, xor, and sign extension with not. After extending by at least one bit, add is the exact sum of the unsigned numbers (zero extension) and add, sub and negate are the exact operations on the signed numbers (sign extension). Extending in two steps is extending once, and a zero extension is a concatenation with zero bits.", "quantifier": "for all canonical operands, all positive widths, all numbers of kept or added bits with total width below 2^32, both build modes", "why_tests_cant": "relates calls at two unbounded widths; carries cross the cut", "anchors": ["src/bv/ops.rs: slice, zero_extend, sign_extend, concat, add, sub, mul, negate, not, and, or, xor", "src/bv/arithmetic.rs: slice, zero_extend, sign_extend, concat, add, sub, mul, negate, not, bitwise_bin_op"]}
{"id": "C97", "title": "Comparisons agree with subtraction, sign and equality with zero", "statement": "is_less is the borrow of the subtraction: bit w of the difference of the operands zero-extended by one bit. is_less_signed is the sign of the difference of the operands sign-extended by one bit. is_equal holds exactly if the exclusive or is zero, and exactly if the difference is zero. is_greater_signed is is_greater after flipping both sign bits. is_negative is the top bit and is is_less_signed with zero.", "quantifier": "for all pairs of canonical values of the same positive width (below 2^32 - 1 bits), both build modes", "why_tests_cant": "connects the word-by-word comparison loops with the carry chain of subtraction for unboundedly many words", "anchors": ["src/bv/ops.rs: is_less, is_less_signed, is_equal, is_greater_signed, is_negative, is_bit_set, set_bit, is_zero", "src/bv/arithmetic.rs: is_greater_and_not_less, cmp_greater_signed, sub, is_neg"]}
{"id": "C98", "title": "Sparse arrays with more than 64 index bits are predictable", "statement": "A sparse array with an index of more than 64 bits keeps a default and the stored values, each under the width and the words of its index. new_sparse always returns. Storing something that differs from the default always works. Storing the default never changes anything, and always panics if the index is stored. A history in which that never happens returns for some behaviour of the hash table. Reading a stored index always panics; reading any other index gives the default or panics, and gives the default if nothing is stored. default and non_default_entries always return and list exactly what is stored, every index once. is_equal of two such arrays always returns, and says whether they hold the same.", "quantifier": "for all index widths above 64 bits, all data widths below 2^32, all defaults, all histories of store and clear with indices and data of arbitrary words (in a release build also of arbitrary width), all behaviours of the hash table, both build modes", "why_tests_cant": "arbitrary histories, arbitrary words and arbitrary hash table behaviour; which comparisons a hash table makes depends on random seeds that a test cannot control", "anchors": ["src/array/owned.rs: SparseArrayValue::new, select, store, clear, is_equal, default, non_default_entries", "src/bv/borrowed.rs: Borrow<BitVecValueRef> for BitVecValue"]}
{"id": "C99", "title": "Laws of left shifts", "statement": "Shifting left by one is adding the value to itself. Up to 64 bits, shifting left by k is multiplying with the value whose only set bit is k. For every width, shifting left and back right by k < w gives the zero extension (arithmetic right shift: sign extension) of the low w-k bits, even when the left shift leaves bits above the width. Shifting right and back left clears the low k bits. After mask_msb a left shift by k is the low w-k bits with k zeros appended (without mask_msb if k is no multiple of 64), and two left shifts are one shift by the sum of the amounts.", "quantifier": "all canonical values of all widths >= 1, all amounts below the width (composition: all amounts whose sum does not overflow), both build modes", "why_tests_cant": "links the word-shuffling loops of four operations for every width and amount; word-aligned amounts take a different path", "anchors": ["src/bv/arithmetic.rs: shift_left, shift_right, arithmetic_shift_right, mul, concat, slice", "src/bv/ops.rs: shift_left, shift_right, arithmetic_shift_right, mul, add, mask_msb, set_bit"]}
{"id": "C100", "title": "Which operations preserve or reverse the order", "statement": "Zero extension of both operands keeps is_equal and is_greater, and with at least one extra bit is_greater_signed of the results is is_greater of the operands. Sign extension keeps is_equal, is_greater and is_greater_signed. Concatenations compare like dictionary words: by the left parts, and by the right parts (unsigned) if the left ones are equal; in the signed order the left parts are compared as signed numbers. not of both operands reverses both orders. Adding, subtracting or xor-ing the same value, not and negate on both sides keep is_equal.", "quantifier": "all pairs of canonical values of the same width >= 1, all extension and concatenation widths with a total below 2^32, both build modes", "why_tests_cant": "relates comparisons across widths and word counts; a bug may need particular bits in particular words", "anchors": ["src/bv/ops.rs: is_equal, is_greater, is_greater_signed, is_less, is_less_signed, zero_extend, sign_extend, concat, not, negate, add, sub, xor", "src/bv/arithmetic.rs: cmp_greater, cmp_greater_signed, cmp_equal"]}
{"id": "C101", "title": "Programs with registers, memories and loops compute what they mean", "statement": "A program that keeps its registers in one word buffer and its memories in array values, and that combines bit-vector operations on registers, select and store between registers and memories, clear, copies of memories with conversion between dense and sparse, comparison of memories, branches and loops on one-bit registers, never panics in a debug or a release build. It executes exactly as many commands as the same program over mathematical variables and functions, so it terminates exactly if that one does, and then every register and every memory holds exactly the value that the mathematical program computes. The order in which hash maps are iterated does not matter, and words of the buffer that belong to no register are untouched.", "quantifier": "all numbers and layouts of registers, all numbers, shapes and kinds of memories, all programs whose commands fit the widths and stay within the supported operations, all initial contents, all numbers of executed commands, all hash orders, both build modes", "why_tests_cant": "Programs with loops can run for any number of steps, over any number of registers and memories of any width; a unit test fixes one program and one start state.", "anchors": ["src/bv/indexed.rs: get_ref, get_mut_ref, assign", "src/array/owned.rs: select, store, clear, make_dense, is_equal, From<ArrayValue> for SparseArrayValue", "src/array/ops.rs: ArrayOps, ArrayMutOps", "src/bv/ops.rs: BitVecOps, BitVecMutOps"]}
{"id": "C102", "title": "Printed values sort like the values", "statement": "Two values of one width compare as unsigned numbers exactly as their binary strings, and as their hexadecimal strings, compare in dictionary order, and they are equal exactly when the strings are. The same holds for their little-endian bytes read from the last to the first. Decimal strings, whenever they are produced, are ordered by length first and in dictionary order within a length, even for values of different widths; dictionary order alone is wrong for them.", "quantifier": "for all widths including zero, all pairs of values, both build modes, and for decimal all pairs of values of any two widths for which the text is produced", "why_tests_cant": "Sorting logs, waveforms or map keys by their text relies on padding, on letter case and on digit order for all values at once; a test compares a few pairs.", "anchors": ["src/bv/io/strings.rs: to_bit_str", "src/bv/io/strings.rs: to_hex_str", "src/bv/io/strings.rs: to_dec_str", "src/bv/io/bytes.rs: to_bytes_le", "src/bv/arithmetic.rs: cmp_greater", "src/bv/ops.rs: is_less", "src/bv/ops.rs: is_equal"]}
{"id": "C103", "title": "Slices, extensions and concatenations with any arguments", "statement": "For every value, clean or carrying stray bits, and every argument, the outcome of slice, zero_extend, sign_extend and concat is the one given by a closed formula: either a panic or a value of a stated width holding a stated number. This includes positions above the width, positions in the wrong order, operands of width zero and sums of widths at or above 2^32, where a debug build panics and a release build computes the width modulo 2^32 and may return a value.", "quantifier": "for all values of all widths below 2^32 with any word contents, all positions, all amounts below 2^32, all pairs of widths, both build modes", "why_tests_cant": "The arguments that matter lie at 2^32 or beyond the width; a test would need half a gigabyte per value and cannot cover the wrap-around for all widths.", "anchors": ["src/bv/ops.rs: slice", "src/bv/ops.rs: zero_extend", "src/bv/ops.rs: sign_extend", "src/bv/ops.rs: concat", "src/bv/arithmetic.rs: slice", "src/bv/arithmetic.rs: zero_extend", "src/bv/arithmetic.rs: sign_extend", "src/bv/arithmetic.rs: concat", "src/bv/arithmetic.rs: mask_msb"]}
{"id": "C104", "title": "Every computation is predictable, legal or not", "statement": "For every expression built from any operations of the library on any values - with operands of different widths, widths of zero, widths that wrap at 2^32, slices outside the operand or with swapped positions, bits above the width - a calculation on widths and natural numbers says whether evaluating it panics and otherwise gives the width and the words of the result, in debug builds and in release builds. Expressions with the same prediction evaluate to the same value.", "quantifier": "for all expressions of any size over any values whose word count fits their width (widths below 2^32 including 0, arbitrary words), all 32-bit arguments, both build modes", "why_tests_cant": "Ill-formed calls only matter in combination: a wrapped width or a stray bit from one operation changes what a later one does; tests do not enumerate expressions.", "anchors": ["src/bv/ops.rs: BitVecOps", "src/bv/ops.rs: BitVecMutOps", "src/bv/ops.rs: declare_arith_bin_fn", "src/bv/ops.rs: declare_bit_arith_bin_fn", "src/bv/arithmetic.rs: get_shift_amount", "src/bv/arithmetic.rs: is_neg", "src/bv/arithmetic.rs: is_greater_and_not_less", "src/bv/owned.rs: PartialEq for BitVecValue", "src/bv/borrowed.rs: PartialEq for BitVecValueRef"]}
{"id": "C105", "title": "Values with a wrong number of words behave predictably", "statement": "A value read from a malformed document may have any number of words, whatever its width. For every expression built from any operations of the library on such values, a calculation on widths, word counts and natural numbers says whether evaluating it panics and otherwise gives the width, the word count and the words of the result, in debug builds and in release builds. No input makes an operation do anything else. On values with the right number of words the calculation is that of C104.", "quantifier": "for all expressions of any size over all values (any width below 2^32, any number of words including none, arbitrary words), all 32-bit arguments, both build modes", "why_tests_cant": "Deserialisation does not check the number of words; tests only use values the constructors build, and there are infinitely many mismatches of width and word count.", "anchors": ["src/bv/ops.rs: BitVecOps", "src/bv/ops.rs: BitVecMutOps", "src/bv/ops.rs: declare_arith_bin_fn", "src/bv/ops.rs: declare_bit_arith_bin_fn", "src/bv/arithmetic.rs: mask_msb", "src/bv/arithmetic.rs: is_neg", "src/bv/arithmetic.rs: concat", "src/bv/arithmetic.rs: sign_extend", "src/bv/arithmetic.rs: is_greater_and_not_less", "src/bv/owned.rs: BitVecValue", "src/bv/owned.rs: PartialEq for BitVecValue"]}
{"id": "C106", "title": "Observers of values with a wrong number of words", "statement": "For a value of any width with any number of words, as a malformed document may contain, every conversion to machine integers, texts, bytes, large integers and fixed point gives a result that depends only on the width, the number of words and the number the words hold, or panics; a table says which. The same table says what assigning a machine integer to such a value leaves in it. The table is that of the library in debug builds and in release builds.", "quantifier": "for all values (any width, any number of words including none, arbitrary words), all fraction widths, all 64-bit integers, both build modes", "why_tests_cant": "Deserialisation does not check the number of words; tests only observe values the constructors build.", "anchors": ["src/bv/ops.rs: to_u64", "src/bv/ops.rs: to_i64", "src/bv/ops.rs: to_bool", "src/bv/ops.rs: to_bit_str_signed", "src/bv/ops.rs: to_hex_str_signed", "src/bv/ops.rs: to_dec_str", "src/bv/ops.rs: to_signed_fixed_point", "src/bv/ops.rs: assign_from_u64", "src/bv/ops.rs: assign_from_i64", "src/bv/io/strings.rs: to_bit_str_internal", "src/bv/io/strings.rs: to_hex_str_internal", "src/bv/io/bytes.rs: to_bytes_le", "src/bv/io/bigint.rs: to_big_int"]}
{"id": "C107", "title": "Parsing into values with a wrong number of words", "statement": "For a destination of any width with any number of words, as a malformed document may contain, and for any string and radix, a table says what in-place parsing reports (success, invalid digit, too large, or a panic) and which number the words of the destination hold afterwards; its width and number of words stay. The table is that of the library in debug builds and in release builds, and for destinations of the right size it is the one of C88.", "quantifier": "for all destinations (any width, any number of words including none, arbitrary words), all strings (digit counts that fit into 32 bits), all radices, both build modes", "why_tests_cant": "Deserialisation does not check the number of words; the number of words selects the parsing algorithm, and tests only parse into values the constructors build.", "anchors": ["src/bv/ops.rs: assign_from_str_radix", "src/bv/io/strings.rs: from_str_radix", "src/bv/io/strings.rs: parse_base_2", "src/bv/io/strings.rs: parse_base_16", "src/bv/arithmetic.rs: negate_in_place"]}
{"id": "C108", "title": "Debug texts tell values apart", "statement": "Two bit-vectors have the same Debug text only if they have the same width and the same number, and the text says whether it belongs to a value, a reference or a mutable reference. Two buffer indices have the same text only if they are the same index. The two parse errors have different texts. The text of an array shows only whether the array is dense; a wrapped value prints what it wraps, and an array never prints like a bit-vector. The alternate form tells apart exactly what the ordinary form does: it only puts what is inside on padded lines of its own.", "quantifier": "for all pairs of values of any widths, all pairs of indices, all arrays, all wrapped values", "why_tests_cant": "Logs are compared by text; that no two different values collide is a statement about all pairs.", "anchors": ["src/bv/owned.rs: Debug for BitVecValue", "src/bv/borrowed.rs: Debug for BitVecValueRef", "src/bv/borrowed.rs: Debug for BitVecValueMutRef", "src/bv/indexed.rs: BitVecValueIndex", "src/array/owned.rs: Debug for ArrayValue", "src/array/owned.rs: Debug for DenseArrayValue", "src/array/owned.rs: Debug for SparseArrayValue", "src/bv/io/strings.rs: ParseIntError", "src/lib.rs: Value"]}
{"id": "C109", "title": "32-bit and 64-bit targets give the same results", "statement": "Compiled for a target with 32-bit pointers (such as wasm32) the library gives the same results as on a 64-bit target: sign extension, concatenation, assignment from a signed integer, signed texts, parsing of any text into any destination, references into a word buffer, and dense and sparse arrays that are created, read, written, converted and compared in programs of any length. Each either returns the same on both or panics on both, as long as a dense array has an index of fewer than 32 bits and data of fewer than 2^32 words, which is all that a 32-bit address space can hold. With a 32-bit index the targets differ.", "quantifier": "for both pointer sizes, both build modes, all values of any width and shape (signed texts: widths below 2^32 - 1), all parsed texts shorter than 2^32 bytes, all buffers and indices, all reachable arrays and all programs on them", "why_tests_cant": "No test suite runs on every target, and the differences would sit in overflows at sizes that no test allocates.", "anchors": ["src/bv/arithmetic.rs: sign_extend", "src/bv/arithmetic.rs: concat", "src/bv/ops.rs: assign_from_i64", "src/bv/io/strings.rs: to_bit_str_signed", "src/bv/io/strings.rs: to_hex_str_signed", "src/bv/io/strings.rs: parse_base_2", "src/bv/io/strings.rs: parse_base_16", "src/bv/indexed.rs: to_range", "src/bv/indexed.rs: split_borrow_1", "src/bv/indexed.rs: split_borrow_2", "src/array/ops.rs: num_elements", "src/array/owned.rs: index_width_from_len", "src/array/owned.rs: approx_dense_storage_size", "src/array/owned.rs: DenseArrayValue::new", "src/array/owned.rs: select_usize", "src/array/owned.rs: store"]}
{"id": "C110", "title": "Arrays are predictable whatever values they are given", "statement": "A dense array, or a sparse array with an index of up to 64 bits, does something predictable with any default, any indices and any data: of any width, with any number of words (even none) and any contents, such as deserialization produces. From the width, the number of words and the number of each value one can tell whether creating the array panics, whether each store panics, what every later select returns, which default a sparse array reports, and whether two such arrays of the same kind and widths are equal or cannot be compared. Some of this is surprising: a dense array with wide data repeats all words of a default with too many, so that its elements mix parts of two copies, and a sparse one drops data that agrees with a default that has too few.", "quantifier": "for both representations, both build modes, all index widths (up to 64 bits for sparse arrays), all values with any 32-bit width and any list of words as default, index and data, and all histories of stores and clears", "why_tests_cant": "A test would need a malformed value, and the combinations of word counts, widths, index widths and build modes with histories of any length are unbounded.", "anchors": ["src/array/ops.rs: select", "src/array/ops.rs: store", "src/array/ops.rs: clear", "src/array/owned.rs: new_dense", "src/array/owned.rs: new_sparse", "src/array/owned.rs: DenseArrayValue::new", "src/array/owned.rs: SparseArrayValue::new", "src/array/owned.rs: select_usize", "src/array/owned.rs: is_equal", "src/array/owned.rs: default"]}
{"id": "C111", "title": "Array conversions and comparisons are predictable whatever values the arrays hold", "statement": "Create an array of either kind with an index of up to 64 bits and any default, then store any data at any indices, clear it, make it dense and convert it to a sparse array, in any order. From the width, the number of words and the number of each value one can tell whether a step panics, whether the array ends up dense or sparse, what every select returns, whether it equals another such array of either kind, and what non_default_entries lists. Only two things stay open, and only in the ways C78 and C79 describe: which of several equally frequent elements becomes the default, and the order of the entries; the order never decides whether making an array dense panics. Some of this is surprising: a default with too few words gives a dense array with too few cells, so that its last elements cannot be read and it cannot be converted back.", "quantifier": "for both representations, both build modes, all index widths up to 64 bits, all values with any 32-bit width and any list of words as default, index and data, all histories of stores, clears and conversions, and all orders in which a hash map may give its entries", "why_tests_cant": "A test would need malformed values, and histories that mix conversions with stores of any word counts are unbounded; the order of a hash map is random in every run.", "anchors": ["src/array/owned.rs: make_dense", "src/array/owned.rs: From<&SparseArrayValue> for DenseArrayValue", "src/array/owned.rs: From<&DenseArrayValue> for SparseArrayValue", "src/array/owned.rs: is_equal_mixed", "src/array/owned.rs: non_default_entries", "src/array/ops.rs: store", "src/array/ops.rs: select"]}
{"id": "C112", "title": "Every program over values and arrays is predictable, legal or not", "statement": "Take a program with registers that hold values, array variables, jumps, branches, loops, parsing with error handling and output of binary texts, which may call any operation, comparison, question or assignment of the library on values of any width with any number of words and any contents, and create, copy, read, write, clear, convert and compare arrays of any widths. A calculation on widths, word counts and numbers says whether it panics within a number of steps, what it has printed, where it stands, what every register holds, which arrays are dense and what every select would return. Only the order in which hash tables list entries, the choice between equally frequent elements (C78, C79) and, for sparse arrays with more than 64 index bits, the stored indices that are compared (C114) stay open, and nothing stays open if the program does not convert or compare arrays and creates no sparse array with more than 64 index bits. Nothing is said from the point on where a dense array would not fit into the address space. A program that runs without a panic in a debug build does exactly the same in a release build.", "quantifier": "for all programs (digit counts of parsed texts fit into 32 bits), all numbers of executed steps, all initial values of registers with any 32-bit width and any list of words, all behaviours of hash tables at every step, both build modes", "why_tests_cant": "The interplay of operations that leave stray bits, values with wrong word counts, arrays that keep them and control flow that depends on them has infinitely many histories; tests see a few, and none with malformed values.", "anchors": ["src/bv/ops.rs: BitVecOps", "src/bv/ops.rs: BitVecMutOps", "src/array/owned.rs: ArrayValue", "src/array/ops.rs: ArrayOps", "src/array/ops.rs: ArrayMutOps", "src/bv/io/strings.rs: ParseIntError"]}
{"id": "C113", "title": "The interner is predictable for any values, not only for well-formed ones", "statement": "Intern any list of values in a new interner, whatever their widths, numbers of words and contents. A release build always succeeds; a debug build panics exactly if some value with one word has more than 64 bits or some value with another number of words has at most 64 bits. If it succeeds, the word store is the eight constants followed by the distinct word lists of the values in the order of their first appearance, and every index and the debug text follow from that. As long as the store has fewer than 2^32 words: an index reads back as the interned value exactly if that value has the number of words its width needs; with more words the excess is cut off, with fewer words the read takes the words stored next or panics at the end of the store; two values that have words share an index exactly if they are identical; an index is reported as zero or one exactly if the value is the single word 0 or 1.", "quantifier": "for all lists of values with any widths and any lists of words, of any length, both build modes", "why_tests_cant": "Values with stray bits or a wrong number of words come from other calls of the API, and whether an index then reads back as what was interned depends on everything interned before and after; a test sees a few histories only.", "anchors": ["src/bv/indexed.rs: ValueInterner", "src/bv/indexed.rs: BitVecValueIndex", "src/bv/indexed.rs: IndexToRef"]}
{"id": "C114", "title": "Sparse arrays with a long index are predictable for any values, up to the indices that the hash table compares", "statement": "Take a sparse array with more than 64 index bits, a default and a history of stores, clears and conversions, with indices, data and default of any widths and any words. The array is created. The history panics for every behaviour of the hash table exactly if it makes the array dense, stores the default over a stored value, or (debug build) stores something whose widths or number of words do not fit the array. It returns for every behaviour of the hash table exactly if, in addition, it never stores the default while anything is stored and (debug build) never stores under an index while an index with another number of words is stored. If it returns, the array lists exactly the predicted default and entries; reading a stored index panics, reading another index gives the default or panics, and surely gives the default only if nothing is stored; comparing two such arrays gives the right answer whenever it returns, and it is exactly known when it must and when it can panic; comparing with a dense array of the same widths panics.", "quantifier": "for all index widths above 64, data widths, defaults, histories of any length over values with any widths and words, both build modes, all iteration orders and all choices of compared indices", "why_tests_cant": "Whether an operation panics depends on which stored indices share hash bits with the looked-up one; the hash function is seeded at random, so a test that passes once says nothing about the next run.", "anchors": ["src/array/owned.rs: SparseArrayValue", "src/array/owned.rs: ArrayValue"]}
{"id": "C115", "title": "Arrays of either kind with more than 64 index bits are predictable for any values, including conversions", "statement": "Take an array of either kind with more than 64 index bits, any default and a history of stores, clears, `make_dense` and conversions to sparse arrays, with values of any widths and words. A dense one exists only in a release build, where the index width counts modulo 64. Converting it to a sparse array works exactly if all its elements are the same, can be counted (C53) and can be read; the result is a new sparse array whose default is that element, with all indices of the index width. The history panics for every behaviour of hash tables exactly if some operation must panic, and returns for every behaviour exactly if no operation can panic. After a history that returned, reads, listed entries and comparisons are as predicted: dense arrays are compared by what they hold, sparse arrays as in C114, and comparing a dense with a sparse array panics.", "quantifier": "for both kinds, all index widths above 64, data widths, defaults (dense arrays fit into the address space), histories of any length over values with any widths and words, both build modes, all iteration orders and all choices of compared indices", "why_tests_cant": "The number of elements depends on the index width modulo 64, on the build mode and on which of four storage forms is used; the conversion picks a default by counting and iterating over a randomly ordered hash map. Tests use small index widths.", "anchors": ["src/array/owned.rs: DenseArrayValue", "src/array/owned.rs: SparseArrayValue", "src/array/owned.rs: ArrayValue"]}
{"id": "C116", "title": "The predictions of programs are exact: whatever they leave open can happen", "statement": "C112 predicts what a program over any values and arrays can do, and leaves something open only where the behaviour of hash tables matters: the order in which they visit entries, and the stored indices that a lookup compares. Every outcome that it leaves open occurs for some behaviour of the hash tables. So a program whose dense arrays fit into the address space can panic exactly if the specification allows a panic, and it runs without a panic whatever the hash tables do exactly if the specification allows none. In particular, each of the equally frequent elements can become the default of a converted array, entries can be written to a dense array in every order, and every panic of an array with more than 64 index bits that is predicted as possible is possible.", "quantifier": "for all programs with any number of steps (constants have 32-bit widths, digit counts of parsed texts fit into 32 bits), initial values of any widths and words, both build modes, and every predicted outcome", "why_tests_cant": "It says that something can happen, for some seed of a randomly seeded hash map. A test would have to find the seed; with this, the absence of a panic can be decided without hash tables.", "anchors": ["src/array/owned.rs: DenseArrayValue", "src/array/owned.rs: SparseArrayValue", "src/array/owned.rs: ArrayValue", "src/bv/owned.rs"]}
{"id": "C117", "title": "Arrays read from any accepted document are predictable", "statement": "A document that is accepted as an array can combine any index width, any data width and any storage: bytes for data of 4 bits, too few cells, entries beyond the index width, explicit entries that equal the default, words that do not belong to the width. What such an array does is predicted from its account: the two widths and what the storage holds. This covers reading any index, every history of stores and clears, comparing two such arrays (both dense or both sparse), the default and the list of entries. Each operation returns or panics only as predicted, and where the behaviour of hash tables leaves several outcomes open, each of them occurs for some behaviour. What a history leaves could again have been read from a document. Two consequences: arrays that read the same at every index can compare as different, because an explicit entry that equals the default counts as an entry; and the comparison of two sparse arrays with wide data can return or panic depending on the order of the entries.", "quantifier": "for all documents that are accepted as arrays (words of a dense array with more than 64 data bits: fewer than 2^60), all indices and data of any width and any words, all histories, both build modes, all behaviours of hash tables, and every predicted outcome", "why_tests_cant": "Reading an array does not check that the storage belongs to the widths, so the state space is much larger than the one that constructors reach; there are unboundedly many combinations, and the hash seed adds more.", "anchors": ["src/array/owned.rs: ArrayValue, DenseArrayValue, SparseArrayValue (Deserialize)", "src/array/owned.rs: DenseArrayValue::select, DenseArrayValue::store", "src/array/owned.rs: SparseArrayValue::select, SparseArrayValue::store, SparseArrayValue::clear", "src/array/owned.rs: is_equal, default, non_default_entries"]}
{"id": "C118", "title": "Conversions of arrays read from any accepted document are predictable", "statement": "An array that was read from an accepted document can combine any widths with any storage. What converting it does is predicted from its account: the two widths and what the storage holds. Making it dense reads the default, creates a dense array for the width of that default, and writes the entries in some order; entries beyond the last element panic, numbers are cut to bytes, and a debug build refuses what does not fit. Converting it to a sparse array counts elements to elect a default (for words: all words that are there; otherwise as many as the index width says; bytes of 8 or more panic while counting) and copies elements (for bytes: all bytes that are there), so that entries can appear that no index reaches; numbers panic where wide values should be kept, and any element panics where the index has more than 64 bits, unless it is the default. Every history of stores, clears and conversions, and every comparison of a sparse with a dense array in either order, returns or panics only as predicted. Where the behaviour of hash tables leaves several outcomes open, each of them occurs for some behaviour. What a history leaves could again have been read from a document.", "quantifier": "for all documents that are accepted as arrays and whose cells fit into the address space (2^64 bytes or words, 2^60 words of wide data, also for the results of making a wide array dense), all histories with indices and data of any width and any words, both build modes, all behaviours of hash tables, and every predicted outcome", "why_tests_cant": "Conversions are mixed with other operations in arbitrary histories, on storage that constructors never produce, and the elected default and the order of the entries depend on the hash seed.", "anchors": ["src/array/owned.rs: From<&SparseArrayValue> for DenseArrayValue", "src/array/owned.rs: From<&DenseArrayValue> for SparseArrayValue", "src/array/owned.rs: make_dense, is_equal, is_equal_mixed", "src/array/owned.rs: ArrayValue, DenseArrayValue, SparseArrayValue (Deserialize)"]}
{"id": "C119", "title": "Every program that reads documents is predictable, and the predictions are exact", "statement": "Take a program as in C112 (registers, array variables, jumps, branches, loops, parsing, output; any operation on any values, and arrays that are created, copied, read, written, cleared, converted and compared), which may also read values and arrays from documents, go on elsewhere if a document is rejected, write values and arrays to documents and read them again, read the default of a sparse array, and print all entries that a sparse array lists. A calculation on widths, word counts, numbers and the contents of array storage says whether it panics within a number of steps, what it has printed, where it stands, and what every register and every array holds. What it leaves open depends on hash tables only, and each of the outcomes that are left open occurs for some behaviour of the hash tables. So such a program can panic exactly if the calculation says so, and it can reach exactly the states that the calculation says. Writing an array to a document and reading it again is the same as copying it, whatever the order of its entries in the document, except that a debug build can panic as C129 says. Nothing is said from the point on where a dense array would not fit into the address space. A program that runs without a panic in a debug build does exactly the same in a release build.", "quantifier": "for all programs (digit counts of parsed texts fit into 32 bits), all documents in them, all numbers of executed steps, all initial registers with any 32-bit width and any list of words, all initial arrays that any document can be read as, all behaviours of hash tables at every step, both build modes, and every predicted outcome", "why_tests_cant": "Documents bring in values and arrays that no constructor makes, and programs combine them with arrays that the library makes; the combinations and histories are unbounded, and the outcome can depend on hash seeds.", "anchors": ["src/array/owned.rs: ArrayValue, DenseArrayValue, SparseArrayValue (Serialize, Deserialize)", "src/bv/owned.rs: BitVecValue (Serialize, Deserialize)", "src/array/owned.rs: default, non_default_entries, is_equal, make_dense", "src/bv/ops.rs: BitVecOps, BitVecMutOps", "src/array/ops.rs: ArrayOps, ArrayMutOps"]}
{"id": "C120", "title": "The entries of a sparse array can be read call by call", "statement": "Take the iterator that `non_default_entries` returns, and call `next` any number of times. For an array that was made by the interface, with an index of at least one bit, the calls give the entries one after another: each index whose element is not the default once, with its element, and afterwards `None` for ever. For any sparse array at all, call by call is the same as the whole listing: if the whole listing can be obtained, the calls give its pairs in order and then `None` for ever; if obtaining it panics, the calls give some pairs and then panic in the same way. For every array that a document is read as, a calculation on the contents says what each call gives. A call that panics, because the index or the element is too big for its width, uses up just that one entry: if the panic is caught, later calls give the other entries. Only the order of the entries is left open, and each order occurs for some hash table.", "quantifier": "for all sparse arrays (made by the interface with any history of operations, read from any document, or arbitrary), all numbers of calls, all behaviours of hash tables, both build modes", "why_tests_cant": "The number of entries, the histories and the orders are unbounded, and orders depend on hash seeds; a test that collects everything does not see what single calls do after a panic or after the end.", "anchors": ["src/array/owned.rs: SparseArrayValue::non_default_entries, SparseArrayEntryIter, SparseArrayIterImpl, Iterator::next"]}
{"id": "C121", "title": "What is there after a panic that is caught", "statement": "If a call that takes `&mut self` panics and the panic is caught, the object can still be used. Then, for every array (dense or sparse, whatever it holds) and every interner, the object is as it was before the call: `store`, `clear`, `make_dense` and `get_index` change all or nothing. For every value with any width and any number of words: `assign`, `set_bit`, `clear_bit` and `mask_msb` leave it as it was, and for `assign_ones`, `assign_from_u64`, `assign_from_i64` and `assign_from_str_radix` there is a formula for the number left behind, from the width, the number of words and the argument. If the value has as many words as its width calls for: a panicking parse or fill leaves it as it was; a number that a debug build refuses because it does not fit has nevertheless been assigned, just as a release build assigns it.", "quantifier": "for all values (any width, any number of words, any contents), all arrays, all interners, all arguments (digit counts of parsed texts fit into 32 bits), all behaviours of hash tables, both build modes", "why_tests_cant": "Each function has several places where it can panic, after different parts of the work; which one is reached depends on widths, word counts, digits and the build mode. Tests check that a panic happens, not what it leaves behind.", "anchors": ["src/bv/ops.rs: BitVecMutOps", "src/bv/arithmetic.rs: mask_msb, sign_extend, negate_in_place, set_bit, clear_bit", "src/bv/io/strings.rs: from_str_radix, parse_base_2, parse_base_16", "src/array/owned.rs: DenseArrayValue::store, SparseArrayValue::store, ArrayValue::make_dense", "src/bv/indexed.rs: ValueInterner::get_index"]}
{"id": "C122", "title": "Every program that catches panics is predictable, and the predictions are exact", "statement": "Take a program over values and arrays as in C119 (all operations, loops, any documents, legal or not), in which commands may name a handler: if the command panics, the panic is caught and the program goes on at the handler with whatever the panic left. Then a calculation that only uses widths, word counts and numbers of the registers and the contents of the arrays says what the program can do: whether it panics for good, and what output, registers and arrays there are afterwards, through any number of caught panics. Everything the calculation leaves open (orders and collisions of hash tables) does occur. A caught panic never changes an array, and of the registers only the one that a number or a numeral was being assigned to. Without handlers this is C119; with handlers everywhere nothing panics.", "quantifier": "for all programs with handlers (digit counts of parsed texts fit into 32 bits), all numbers of steps, all register contents (any width and word count), all arrays from all documents, all behaviours of hash tables, both build modes", "why_tests_cant": "The number of programs and of histories with panics at different points is unbounded, and what a panic leaves behind matters only for what happens later; tests with should_panic end at the panic.", "anchors": ["src/bv/ops.rs: BitVecOps, BitVecMutOps", "src/array/owned.rs: ArrayValue, DenseArrayValue, SparseArrayValue", "src/array/ops.rs: ArrayOps, ArrayMutOps"]}
{"id": "C123", "title": "Values in one word buffer behave like values in separate variables, even through caught panics", "statement": "Take values that are stored in one word buffer at places that do not overlap. A client that reads them with get_ref, changes them through get_mut_ref with any of the operations that work in place (clear, assign_ones, mask_msb, set_bit, clear_bit, assign_from_u64, assign_from_i64, assign_from_str_radix, assign), or assigns to one of them anything calculated from one or two others through get_mut_ref on pairs and triples, catches panics or not, and lets everything it does depend on what it has seen, sees exactly what it would see if each value were in a variable of its own: the same answers, the same panics, the same values. Afterwards the buffer holds the contents of the variables, and no other word in it has changed. In particular a panic in the middle of an operation does not touch a neighbour: the buffer keeps its length and every word outside of the range of the value; the value itself keeps its size and is as before, or, if a number too large was assigned, is what a release build assigns. If the range is not in the buffer, nothing changes.", "quantifier": "for all buffers, all places that do not overlap (any widths, also zero), all contents, all adaptive clients of any length, all subsets of panics that are caught, all calculations, both build modes", "why_tests_cant": "The clients adapt to what they see, so there are infinitely many, and a word written too far in the moment of a panic would be seen only much later in a different value.", "anchors": ["src/bv/indexed.rs: get_ref, get_mut_ref, split_borrow_1, split_borrow_2", "src/bv/borrowed.rs: BitVecValueMutRef", "src/bv/ops.rs: BitVecMutOps"]}
{"id": "C124", "title": "Debug assertions and overflow checks can be switched one by one without changing a result", "statement": "Cargo profiles switch debug assertions and overflow checks separately. In a build with any setting of the two switches, every call that returns also returns, with the same result, in every build that checks less. The same holds for programs of any number of calls, each depending in any way on the results so far. So what the debug build returns is what every build returns, and what any build returns is what the release build returns; with both switches on and with both off a call does exactly what it does in the debug and in the release build. The debug assertions alone are enough to reject operands of different widths and array accesses with an index or data of the wrong width. Neither switch subsumes the other: to_unsigned_fixed_point with 64 fractional bits is stopped by overflow checks only, and from_u64 with a number too large for the width by debug assertions only. Overflow checks play no role while an array is read from a document.", "quantifier": "for all settings of the two switches, all calls of the public API and all programs of such calls, all arguments (well-formed or not), all hash tables", "why_tests_cant": "Tests run with one profile, usually the default debug profile, and on finitely many arguments; the project that uses the library chooses the profile.", "anchors": ["src/bv/arithmetic.rs: sub, add, mul, slice, sign_extend, mask_msb", "src/bv/ops.rs: BitVecOps, BitVecMutOps", "src/bv/owned.rs: from_u64, from_i64, PartialEq", "src/array/owned.rs: ArrayValue"]}
{"id": "C125", "title": "No client can tell an interner from a table of values", "statement": "A client that interns values with get_index, and at any time reads an index back with get_ref on the words of the interner, compares two indices with ==, asks for the width of an index or for is_zero and is_one, and lets everything it does depend on the answers, gets exactly the answers it would get if each index was the interned value itself: reading gives the value, two indices are equal exactly if the values are, is_zero and is_one hold for 0 and 1 of at most 64 bits. It never panics.", "quantifier": "for all adaptive clients of any length, all values of at least one bit with the right number of words (also with stray bits above the width), as long as the different values take less than 2^32 words, both build modes", "why_tests_cant": "What a client does next depends on the answers, so there are infinitely many histories, and an index that goes stale when the interner grows shows up only much later.", "anchors": ["src/bv/indexed.rs: ValueInterner, get_index, is_zero, is_one, words, BitVecValueIndex, get_ref"]}
{"id": "C126", "title": "Values and arrays survive formats whose map keys are text", "statement": "With the feature serde1, every bit-vector and every array can be written in a format like JSON, in which the keys of maps are text, and is read back from there: a bit-vector and a dense array unchanged, a sparse array as an equal one with the same default and the same elements.", "quantifier": "for all bit-vectors, all arrays that can be built through the API, all hash orders, both build modes; for documents from elsewhere all documents", "why_tests_cant": "Whether an array can be written depends on the width of its index and on whether an element differs from the default, and no test covers serialisation at all.", "anchors": ["src/bv/owned.rs: derive(Serialize, Deserialize) for BitVecValue", "src/array/owned.rs: derive(Serialize, Deserialize) for ArrayValue, DenseArrayValue, SparseArrayValue, SparseArrayImpl::BigBig"]}
{"id": "C127", "title": "The randomised tests of the repository pass on all their arguments", "statement": "Every randomised test of the repository passes on every argument that its generator describes: on texts and numbers of any length, not only on the short ones that a run of the tests draws, and in debug and release builds.", "quantifier": "for all 28 randomised tests, all arguments matching the pattern or range of their generators that fit into a value of less than 2^32 bits, both build modes", "why_tests_cant": "The generators draw texts of at most 32 digits for each repetition, so that no run of the tests reaches values of several words through them; three tests that always pass in practice fail on longer arguments.", "anchors": ["src/bv/arithmetic.rs: mod tests (test_is_neg, test_concat, test_slice, test_shift_*, test_zero_extend, test_sign_extend, test_add, test_sub, test_mul, test_cmp_*)", "src/bv/io/strings.rs: mod tests (test_from_to_bit_str, test_from_to_hex_str, test_to_from_decimal_str)", "src/bv/io/bytes.rs: test_from_to_bytes_le", "src/bv/io/bigint.rs: test_from_to_big_int, test_from_to_big_uint", "src/bv/borrowed.rs: test_is_neg", "src/bv/indexed.rs: prop_test_interner", "tests/value.rs: i64_roundtrip, u64_roundtrip, i32_to_ibig"]}
{"id": "C128", "title": "Sorting bit-vectors and searching in sorted bit-vectors", "statement": "Values are ordered by width, and values of the same width by the number one gets by reading their 64-bit words in the opposite order; this is the order of their numbers exactly for widths up to 64. Sorting a sequence of values has exactly one result, whatever the algorithm. A binary search in a sorted sequence finds a value exactly if it occurs, and otherwise the place where inserting it keeps the sequence sorted.", "quantifier": "for all pairs of values of all widths, all sequences of values and all values searched for", "why_tests_cant": "The order differs from the numerical order only for values of several words, and sorting and searching combine arbitrarily many comparisons.", "anchors": ["src/bv/owned.rs: derive(Ord, PartialOrd) on BitVecValue, note on its meaning (line 13)"]}
{"id": "C129", "title": "Reading an array from a document never panics", "statement": "Whatever document is deserialised as an array, the result is an error or an array, not a panic; a document that was written for an array that the library made is always read, in every build. Debug and release builds read the same.", "quantifier": "all documents (with fields in any order, duplicate, missing and unknown fields), all behaviours of hash tables, both build modes", "why_tests_cant": "Whether a panic occurs depends on the document, on hash seeds and on the order in which a document lists errors and indices; documents come from outside of the program.", "anchors": ["src/array/owned.rs: derive(Deserialize) for ArrayValue, SparseArrayValue, SparseArrayImpl", "src/bv/owned.rs: impl PartialEq for BitVecValue"]}
{"id": "C130", "title": "Sorting the entries of a sparse array gives a predictable list", "statement": "As the documentation of `non_default_entries` advises, collect the entries in a vector and sort it. The result does not depend on the order of the hash table, the build or the sorting method: for two sparse arrays with the same default, however they were made, the sorted entries are the same exactly if the contents are the same. The entries then come in the order of their indices: for indices of up to 64 bits these are increasing numbers, for wider indices it is the order of C128, which is not increasing for some array of every such width.", "quantifier": "all sparse arrays, all histories of two arrays, all hash orders, both build modes, all widths of indices and elements", "why_tests_cant": "Hash tables list their entries in a new order in every run, and a test only sees a few orders and a few histories; that wide indices do not come in increasing order shows up only with particular entries.", "anchors": ["src/array/owned.rs: SparseArrayValue::non_default_entries", "src/bv/owned.rs: derive(PartialOrd, Ord) for BitVecValue"]}
{"id": "C131", "title": "Printed values are read back at their own width", "statement": "Give the printed text of a value and its width w to from_str_radix: from to_bit_str (radix 2) and from to_hex_str (radix 16, also if w is no multiple of 4) this returns the identical value for every width; from to_dec_str (radix 10) it does for w <= 128, while for w > 128 it panics on every text to_dec_str returns, however small the value.", "quantifier": "all canonical values; all widths for binary, widths 1 to 2^32-64 for hexadecimal, all widths for decimal; any combination of builds", "why_tests_cant": "Needs every value of every width; the printing code and three different parsers (up to 128 bits, binary, hexadecimal) have to agree at every word boundary.", "anchors": ["src/bv/io/strings.rs: to_bit_str, to_hex_str, to_dec_str, from_str_radix", "src/bv/owned.rs: from_str_radix"]}
{"id": "C132", "title": "Values printed with a sign are read back at their own width", "statement": "from_str_radix(to_bit_str_signed(v), 2, w) = v and from_str_radix(to_hex_str_signed(v), 16, w) = v for every value v of width w.", "quantifier": "all canonical values, widths 1 to 2^32-64, any combination of builds", "why_tests_cant": "The text is printed by one piece of code and read by others; the cases that go wrong are one value per width and a few widths.", "anchors": ["src/bv/io/strings.rs: to_bit_str_signed, to_hex_str_signed, from_str_radix", "src/bv/owned.rs: from_str_radix"]}
{"id": "C133", "title": "Wide values can be computed from their parts", "statement": "Slicing (any legal msb and lsb) and concatenating commute with and, or, xor and not. add of two concatenations is the concatenation of the sums of the parts, with one added to the high sum exactly if is_less(low sum, low operand); sub is the concatenation of the differences, with one taken from the high one exactly if is_less of the low parts; negate negates the low part and negates the high part if the low part is zero, else complements it. is_less(a+b, a) and is_less(a+b, b) hold exactly if the unsigned sum does not fit. The signed sum does not fit exactly if both operands have one sign (is_negative) and the sum the other; the signed difference exactly if the operands have different signs and the difference does not have that of the first.", "quantifier": "all values of all widths >= 1 and, for concatenations, total widths below 2^32; both build modes", "why_tests_cant": "Relates calls at three widths for all values; carries between parts that do not end at word boundaries are rarely sampled.", "anchors": ["src/bv/arithmetic.rs: add, sub, negate, slice, concat, and, or, xor, not", "src/bv/ops.rs: BitVecOps::add, sub, negate, slice, concat, is_less, is_negative"]}
{"id": "C134", "title": "Two shifts and an or rotate a value", "statement": "For 0 < k < w, or(shift_left(v,k), shift_right(v,w-k)) is the rotated value: concat(slice(v,w-1-k,0), slice(v,w-1,w-k)).", "quantifier": "all canonical values of all widths, all amounts, both build modes", "why_tests_cant": "Goes wrong only for amounts that are multiples of 64 and values with certain bits set.", "anchors": ["src/bv/arithmetic.rs: shift_left, shift_right, or, slice, concat", "src/bv/ops.rs: BitVecOps::shift_left, shift_right, or, slice, concat"]}
{"id": "C135", "title": "Multiplication and division with the operations that exist at every width", "statement": "The shift-and-add loop over is_bit_set and add computes the product modulo 2^w at every width, also above 64 bits where mul is not implemented; up to 64 bits it returns what mul returns. The long-division loop over slice, concat, zero_extend, is_less, sub and set_bit computes quotient and remainder; for the divisor zero it gives all ones and the dividend, as SMT-LIB prescribes. Quotient times divisor plus remainder is the dividend and the remainder is_less than the divisor.", "quantifier": "all pairs of values of all widths >= 1 (division: w+1 < 2^32), both build modes", "why_tests_cant": "The loops run once per bit and feed each result into the next call; an error in any operation at any width shows only after some of the steps.", "anchors": ["src/bv/arithmetic.rs: add, sub, slice, concat, zero_extend, is_bit_set, set_bit, mul", "src/bv/ops.rs: BitVecOps::add, sub, mul, slice, concat, zero_extend, is_bit_set, is_less; BitVecMutOps::set_bit"]}
{"id": "C136", "title": "Parsing texts with more digits than a 32-bit counter can count", "statement": "Parsing has a fixed outcome for every text, also for those with 2^32 or more binary or 2^30 or more hexadecimal digits, where the digit count kept by the parser wraps around above 128 bits. Such a text is never accepted. The digits the count stands for are read as if they were the whole numeral; a bad one is reported and leaves the destination as for that shorter numeral. If they are all good, a debug build panics, and a release build reports a bad digit among those of one more word and otherwise panics. In particular a well-formed numeral of that length panics, except that a binary one is reported as too large if the remainder of its length modulo 2^32 exceeds the width.", "quantifier": "all texts below 2^63 bytes (the most a string can have), all radices, all widths, destinations with any contents and any number of words below 2^32, both build modes", "why_tests_cant": "A text that reaches the case has more than four billion digits; no test feeds it, and the behaviour depends on the length modulo 2^32 and on the build mode.", "anchors": ["src/bv/io/strings.rs: from_str_radix, parse_base_2, parse_base_16", "src/bv/owned.rs: BitVecValue::from_str_radix", "src/bv/ops.rs: BitVecMutOps::assign_from_str_radix"]}
{"id": "C137", "title": "What a panic leaves when a text has more digits than a 32-bit counter can count", "statement": "If assign_from_str_radix panics and the panic is caught, what is left in the destination is fixed for every text. For a destination with as many words as its width calls for, it is unchanged, unless it has more than 128 bits and the text has 2^32 or more binary or 2^30 or more hexadecimal digits. Then the digits that the wrapped count stands for have been read into it; a debug build has in binary not yet written the lowest word, and has not changed anything if the count overflows or is 0. So such a panic can change a value.", "quantifier": "all texts below 2^63 bytes (the most a string can have), all radices, destinations of any width, with any contents and any number of words below 2^32, both build modes", "why_tests_cant": "It takes a text of more than four billion digits and a panic that is caught; what is left depends on the length modulo 2^32 and on the build mode.", "anchors": ["src/bv/io/strings.rs: from_str_radix, parse_base_2, parse_base_16", "src/bv/ops.rs: BitVecMutOps::assign_from_str_radix"]}
{"id": "C138", "title": "Operations act on the bytes and on the hexadecimal text", "statement": "With bytes = to_bytes_le and text = to_hex_str: concat puts the bytes of the low operand before those of the high one and the text of the high operand before that of the low one, if the low operand has whole bytes (digits); a slice between byte (digit) boundaries, or up to the top of the value, has the corresponding part of the bytes (of the text); zero_extend appends zero bytes and puts zeros in front of the text; sign_extend by whole bytes (digits) does so with 0xff (f) for negative values; shifts by whole bytes (digits) drop bytes (digits) at one end and put zeros at the other; not, and, or, xor act byte by byte and digit by digit. The hexadecimal text has two digits for each byte, the last byte first, and each of its digits stands for four digits of the binary text, up to leading zeros.", "quantifier": "all values of all widths >= 1 (left shifts, not and sign_extend: widths that are multiples of 8 or 4), all positions and amounts that are multiples of 8 or 4, both build modes", "why_tests_cant": "Bytes and digits cross the boundaries of the 64-bit words for most widths and positions; left shifts by multiples of 64 leave bits above the width, which must not show.", "anchors": ["src/bv/io/bytes.rs: to_bytes_le", "src/bv/io/strings.rs: to_hex_str, to_bit_str", "src/bv/ops.rs: BitVecOps::concat, slice, zero_extend, sign_extend, shift_right, shift_left, not, and, or, xor"]}
{"id": "C139", "title": "Values can be read in parts and at several widths", "statement": "Reading two binary (hexadecimal) texts and concatenating the values gives the value of the texts written one after the other; the same holds for byte strings, where the first one is the low part. Zeros in front of a text extend the value with zeros. A number (natural number, integer, byte string) read at a smaller width is the low slice of the number read at a larger width. A natural number (big, 64-bit, bytes) that fits, read at a larger width, is the zero extension of the value read at the smaller width; an integer (big or 64-bit) that fits is the sign extension.", "quantifier": "all digit strings and byte strings with fewer than 2^32 bits, all numbers, all pairs of widths >= 1, both build modes", "why_tests_cant": "Parts and widths meet the boundaries of the 64-bit words in unboundedly many ways, and the parsers, the byte reader and the big-integer reader are separate loops.", "anchors": ["src/bv/owned.rs: from_bit_str, from_hex_str", "src/bv/io/bytes.rs: from_bytes_le", "src/bv/io/bigint.rs: from_big_uint, from_big_int", "src/bv/owned.rs: from_u64, from_i64", "src/bv/ops.rs: BitVecOps::concat, slice, zero_extend, sign_extend"]}
{"id": "C140", "title": "Fields packed into a word are read back, and writing one leaves the others", "statement": "Concatenating any number of values and slicing the result at the corresponding positions gives the values back; slicing a value into adjacent fields and concatenating them gives the value back. Writing a field into a value with the usual sequence of calls (mask from ones, zero_extend and shift_left, not, and, then or with the extended and shifted field) succeeds; afterwards the field's slice is the field and every slice outside it is unchanged.", "quantifier": "all lists of values of widths >= 1 with a total below 2^32, all lists of widths >= 1, all fields and positions inside the value, both build modes", "why_tests_cant": "The number, widths and positions of fields are unbounded; the last one goes through shift_left, which is wrong for multiples of 64 when bits are shifted out (C12).", "anchors": ["src/bv/ops.rs: BitVecOps::concat, slice, zero_extend, shift_left, not, and, or", "src/bv/owned.rs: ones, from_u64"]}
{"id": "C141", "title": "An array works as a memory for values wider than its cells", "statement": "Writing values one after the other to consecutive addresses of an array (store, then add one to the address) and reading that many cells from the same address gives them back, and every other cell is unchanged; addresses wrap around. A value cut by slice into cells and written that way is given back by reading the cells and concatenating them, most significant part first or last; values at disjoint addresses, of any size and order of parts, are unchanged. What is read depends on the elements only, not on whether the array is dense or sparse or how it was made. Reading with the opposite order gives the parts in reverse.", "quantifier": "all arrays reached by any history of creations, stores, clears and conversions, with an index width of at least 1, except the shapes that cannot be read (C49, C50); all addresses, all values, all numbers of cells up to the size of the array, both orders, both build modes, all hash-table behaviours", "why_tests_cant": "The access crosses cells, wraps around at the end of the array and combines address arithmetic, slicing and stores; no test covers all addresses, widths and earlier histories.", "anchors": ["src/array/ops.rs: ArrayOps::select, ArrayMutOps::store", "src/array/owned.rs: select, store", "src/bv/ops.rs: BitVecOps::slice, concat, add", "src/bv/owned.rs: from_u64"]}
{"id": "C142", "title": "Signed division with the operations that exist at every width", "statement": "Long division of the magnitudes (is_negative, negate, then the loop of C135) with the signs put back is signed division: the quotient rounds towards zero (wrapping only for the most negative number divided by -1) and the remainder has the sign of the dividend; dividing by zero gives -1, or 1 for a negative dividend, and the dividend, as SMT-LIB prescribes. Correcting a non-zero remainder whose sign differs from the divisor's (sub one from the quotient, add the divisor to the remainder) gives division that rounds down. Its quotient by 2^k is what arithmetic_shift_right by k returns.", "quantifier": "all widths >= 1 below 2^32 - 1, all operands, both build modes; powers of two that are positive at the width", "why_tests_cant": "Signs, the most negative number and the top word interact at every width; a test tries a few operands.", "anchors": ["src/bv/ops.rs: BitVecOps::{is_negative, negate, sub, add, arithmetic_shift_right, slice, concat, zero_extend, is_less}, BitVecMutOps::set_bit", "src/bv/owned.rs: zero, from_u64"]}
{"id": "C143", "title": "Every term of the SMT-LIB theories of bit-vectors and arrays can be computed", "statement": "An evaluator for SMT-LIB terms that uses the calls of the library and goes around the calls that are wrong or missing computes every term: bvnot, bvneg, bvand, bvor, bvxor, bvadd, bvsub, bvmul (double and add), bvudiv, bvurem, bvsdiv, bvsrem, bvsmod (long division, also by zero), bvshl (shift_left followed by slice), bvlshr, bvashr, =, bvult, bvule (not is_greater), bvslt, bvsle, concat, extract, zero_extend, sign_extend, rotations, repeat, ite, constant arrays, store, select, and equality of arrays (element by element). No call panics, the result stands for the value SMT-LIB gives the term, and the result for a bit-vector does not depend on the build mode, on the hash order, or on whether an array in a variable is dense or sparse.", "quantifier": "all well-sorted terms of any size over bit-vectors of at least one bit and fewer than 2^32 - 1 and arrays with an index of at most 64 bits; all values of the variables, where arrays may have any history; every hash order; both build modes", "why_tests_cant": "Terms are unbounded and each result feeds the next call; a value that is right but stored with a stray bit breaks a later comparison, so testing operators one by one does not settle whole terms.", "anchors": ["src/bv/ops.rs: BitVecOps", "src/bv/owned.rs: BitVecValue", "src/array/owned.rs: ArrayValue::{new_sparse}", "src/array/ops.rs: ArrayOps::select, ArrayMutOps::store"]}
{"id": "C144", "title": "Simulating a clocked system gives the values of its only run", "statement": "The library is written for simulators of synchronous hardware. A simulator that keeps registers and memories as library values, evaluates all next-state terms (C143) in the old state, then replaces all registers at once and reads the next inputs, never panics, and the outputs it reports at every tick are those of the run that the equations define. Every system with distinct registers has exactly one run for given inputs. The reports do not depend on the build mode, on the hash order, or on whether memories given as inputs are dense or sparse.", "quantifier": "all systems with any number of registers, memories and outputs, with legal next-state terms of any size; any number of ticks; all input sequences; every hash order; both build modes", "why_tests_cant": "The state after n ticks is the result of an unbounded chain of calls on values that the library itself produced; a test runs one design for a few ticks.", "anchors": ["src/bv/ops.rs: BitVecOps", "src/bv/owned.rs: BitVecValue", "src/array/owned.rs: ArrayValue::{new_sparse}", "src/array/ops.rs: ArrayOps::select, ArrayMutOps::store"]}
{"id": "C145", "title": "Overflow can be detected and avoided with the operations that exist", "statement": "The library wraps silently. The usual tests on its results detect overflow exactly: an unsigned sum overflows iff it is_less than an operand; an unsigned difference iff the first operand is_less than the second; a signed sum iff its sign differs from both operands, a signed difference iff the operands differ in sign and the result differs from the first; a negation iff operand and result are both negative; an unsigned product iff the product at twice the width has a nonzero upper half; a signed product iff the product at twice the width is not the sign extension of its lower half. With these tests addition and subtraction saturate: unsigned results are min(x + y, 2^w - 1) and max(x - y, 0), signed results are x + y and x - y moved to the nearest number of w bits.", "quantifier": "all widths of at least one bit (for products, twice the width below 2^32) and all pairs of values; both build modes", "why_tests_cant": "The tests matter at the ends of the ranges and at word boundaries of every width; samples of operands rarely overflow at all.", "anchors": ["src/bv/ops.rs: BitVecOps::{add, sub, negate, xor, and, is_less, is_negative, zero_extend, sign_extend, slice, is_equal}", "src/bv/ops.rs: BitVecMutOps::set_bit"]}
{"id": "C146", "title": "Bits can be counted, found and mirrored", "statement": "The usual bit tricks work on library values. Looking at every position with is_bit_set counts the ones; replacing a by a & (a - 1) until it is zero counts them too, in as many steps. a & (a - 1) is a without its lowest one, a & -a is the lowest one alone, and a is a power of two iff it is not zero and a & (a - 1) is. Scanning down finds the highest one at the binary logarithm of the value, scanning up finds the lowest one at the largest power of two that divides it, and both report nothing exactly for zero. Setting the mirrored position of every one reverses the bits.", "quantifier": "all widths (at least one bit where a subtraction or a negation is involved) and all values; both build modes", "why_tests_cant": "The tricks depend on borrows and carries that run through all words, and on every position including those at word boundaries; tests look at a few values.", "anchors": ["src/bv/ops.rs: BitVecOps::{is_bit_set, sub, negate, and, is_zero}", "src/bv/ops.rs: BitVecMutOps::set_bit", "src/bv/owned.rs: BitVecValue::{zero, from_u64}"]}
{"id": "C147", "title": "Ranges of cells can be filled, copied and moved", "statement": "An array used as a memory supports the usual block operations, by loops over load, store and add. Filling n cells from an address on leaves exactly those cells with the value and all others as they were. Copying n cells from another array, dense or sparse, leaves those cells equal to the source range and all others as they were. Within one array the ranges may overlap: going upwards is right unless the destination begins inside the source after its first cell, going downwards is right unless the source begins inside the destination after its first cell, and choosing the direction by comparing the addresses is right always, if both ranges end within the array. Otherwise addresses wrap around.", "quantifier": "all index widths from 1 to 64 (dense arrays up to their limit), all data widths, dense and sparse arrays and mixtures, all contents and histories, all addresses, all block lengths up to the number of cells; both build modes", "why_tests_cant": "Whether a cell is overwritten before it is read depends on the distance of the ranges, the length and the wrap around; tests try a few of each.", "anchors": ["src/array/owned.rs: ArrayValue::{select, store}", "src/bv/ops.rs: BitVecOps::{add, is_less}", "src/bv/owned.rs: BitVecValue::from_u64"]}
{"id": "C148", "title": "An array and two pointers are a queue", "statement": "A first-in first-out queue built as in hardware, from an array of 2^iw cells and a read and a write pointer of iw + 1 bits that are only ever incremented, answers every sequence of push, pop and length requests as a list bounded by 2^iw values does: a push is refused exactly if 2^iw values are waiting, a pop gives the oldest value that is waiting or reports that there is none, the length is the number of waiting values. The pointers may wrap around any number of times and the array may hold anything at the start.", "quantifier": "all index widths from 1 to 64 (dense arrays up to their limit), all data widths, dense and sparse arrays with any contents and history, all sequences of requests with all values; both build modes", "why_tests_cant": "Whether a full queue is told from an empty one, and whether an old value is overwritten, shows after long histories in which the pointers wrap around; tests run a few short ones.", "anchors": ["src/array/owned.rs: ArrayValue::{select, store}", "src/bv/ops.rs: BitVecOps::{add, sub, slice, is_equal, is_bit_set}", "src/bv/owned.rs: BitVecValue::{zero, from_u64}"]}
{"id": "C149", "title": "Arithmetic and bitwise operations are tied together", "statement": "The identities that rewriters and bit tricks rely on hold for the returned values. a + b is (a ^ b) + 2(a & b) and (a | b) + (a & b); a | b is (a ^ b) + (a & b); values without a common one are added by or and by xor; a - b is (a ^ b) - 2(!a & b) and !(!a + b); !a is -a - 1. (a & b) + ((a ^ b) >> 1) is the average rounded down and (a | b) - ((a ^ b) >> 1) the average rounded up, even if the sum does not fit. (a ^ s) - s, where s is a shifted right arithmetically by w - 1, is the absolute value as an unsigned number. (a & s) | (b & !s), where s is a sign-extended condition bit, is a if the bit is one and b otherwise. a ^ (a >> 1) is a code in which the codes of a and a + 1 differ in exactly one bit, wrap around included, and repeating r = g ^ (r >> 1) decodes it.", "quantifier": "all widths from 1 bit, all values; both build modes", "why_tests_cant": "Each identity mixes operations with and without carries between words, so that a mistake in one of them shows only for particular values and widths; tests try a few.", "anchors": ["src/bv/ops.rs: BitVecOps::{add, sub, and, or, xor, not, negate, shift_right, arithmetic_shift_right, sign_extend}", "src/bv/owned.rs: BitVecValue::from_u64"]}
{"id": "C150", "title": "Decimal text can be printed and read at every width", "statement": "to_dec_str panics for numbers of more than 128 bits, and parsing in base 10 panics for widths of more than 128 bits (C32, C37). With the operations that exist both can be done: dividing by ten until the quotient is zero and collecting the remainders gives the decimal numeral without leading zeros, the same text as to_dec_str wherever that returns one. Multiplying by ten with additions and adding the next digit reads every decimal numeral, modulo 2^w, and rejects every text that is none. A printed value is read back unchanged.", "quantifier": "all widths below 2^32 - 5 (at least one bit to print, at least four to read), all values, all texts; both build modes, also different ones for printing and reading", "why_tests_cant": "The loops run through values of all widths and depend on every digit position; tests look at a few numbers.", "anchors": ["src/bv/ops.rs: BitVecOps::{slice, concat, zero_extend, is_less, sub, add, to_u64, is_zero, to_dec_str}", "src/bv/ops.rs: BitVecMutOps::set_bit", "src/bv/owned.rs: BitVecValue::{zero, from_u64}"]}
{"id": "C151", "title": "Fixed-point arithmetic is exact", "statement": "The numbers that to_signed_fixed_point reads from values of w bits with f fraction bits are exactly the multiples of 2^-f from -2^(w-1-f) up to, but without, 2^(w-1-f). On these numbers add, sub and negate are exact whenever the result is such a number again, and is_less_signed is the order of the rational numbers. Sign extension, and appending zero bits together with as many fraction bits, keep the number. An arithmetic right shift by k, read with k fraction bits fewer, rounds towards minus infinity. The product of two numbers sign-extended to double width, read with the fraction bits of both, is the exact product.", "quantifier": "all widths from 1 to 64 (all results at most 64 bits wide), all fraction widths up to the width and below 64, all values; both build modes", "why_tests_cant": "Exactness is a statement about all pairs of numbers and all splits of the width into integer and fraction bits.", "anchors": ["src/bv/ops.rs: BitVecOps::{to_signed_fixed_point, add, sub, negate, mul, is_less_signed, sign_extend, concat, arithmetic_shift_right}", "src/bv/owned.rs: BitVecValue::zero"]}
{"id": "C152", "title": "Unsigned fixed-point arithmetic is exact", "statement": "The numbers that to_unsigned_fixed_point reads from values of w bits with f fraction bits are exactly the fractions n / 2^f with n below 2^w and below 2^64. On these numbers add is exact whenever the sum is such a number again, sub whenever the difference is not negative, and is_less is the order of the rational numbers. Zero extension, and appending zero bits together with as many fraction bits, keep the number. A right shift by k, read with k fraction bits fewer, rounds down. The product of two numbers zero-extended to double width (at most 64 bits), read with the fraction bits of both, is the exact product.", "quantifier": "all widths from 1 bit to below 2^32 (up to 64 bits for the product), all fraction widths up to the width and below 64, all values; both build modes", "why_tests_cant": "Exactness is a statement about all pairs of numbers and all splits of the width into integer and fraction bits.", "anchors": ["src/bv/ops.rs: BitVecOps::{to_unsigned_fixed_point, add, sub, mul, is_less, zero_extend, concat, shift_right}", "src/bv/owned.rs: BitVecValue::zero"]}
{"id": "C153", "title": "Greatest common divisors, modular powers and square roots at every width", "statement": "With the operations that exist at every width, the usual programs compute what they should. Euclid's algorithm on two values of w bits ends after at most 2w + 1 rounds with their greatest common divisor. The remainder of the product taken at double width is the product modulo any number but zero, and repeated squaring gives powers modulo any number greater than one. Trying the bits of the root from the top gives the greatest number whose square is at most the value.", "quantifier": "all widths from 1 bit to below 2^31 (2^32 - 1 for the greatest common divisor), all values; both build modes", "why_tests_cant": "The loops depend on every bit of their operands and on termination for all of them; tests look at a few numbers.", "anchors": ["src/bv/ops.rs: BitVecOps::{slice, concat, zero_extend, is_less, sub, add, is_bit_set, is_zero}", "src/bv/ops.rs: BitVecMutOps::set_bit", "src/bv/owned.rs: BitVecValue::zero"]}
{"id": "C154", "title": "A cache built out of arrays is not noticed", "statement": "A direct-mapped write-back cache as hardware builds it, with arrays of the library for the tags, the flags, the data and the memory behind it, and with slices and concatenations for the addresses: it starts with no line in use. Whatever is read and written afterwards, in any order and however often lines are replaced, every read gives what the memory without a cache would give, nothing panics, and when all lines are written back at the end, the memory holds exactly what was written.", "quantifier": "all index and tag widths from 1 bit with at most 64 bits together, all data widths, dense arrays (up to their limit) and sparse arrays with any contents and history, all sequences of reads and writes, all hash functions; both build modes", "why_tests_cant": "Whether a written line gets lost depends on the history of replacements; tests follow a few histories.", "anchors": ["src/array/ops.rs: ArrayOps::select", "src/array/ops.rs: ArrayMutOps::store", "src/bv/ops.rs: BitVecOps::{slice, concat, is_equal, is_zero}", "src/bv/owned.rs: BitVecValue::{tru, fals, from_u64}"]}
{"id": "C155", "title": "A cyclic redundancy check leaves the remainder and detects bursts", "statement": "A cyclic redundancy check written with is_negative, add, set_bit and xor, one step for each bit of the message, with a generator of any width: the register, started at zero, ends as the remainder of the message on division by the generator, as polynomials over the field with two elements. The registers of two messages of the same length combine by xor as the messages do. If the lowest bit of the generator is set, two messages that differ only inside a stretch of neighbouring bits no longer than the register leave different registers, from any starting value. Neither condition can be dropped: an error one bit longer, or a generator with the lowest bit clear, can go unnoticed.", "quantifier": "all register widths from 1 bit, all generators and starting values, all messages of any length and all bursts in them; both build modes", "why_tests_cant": "The guarantee is about every message and every error pattern; tests compare check values of a few texts.", "anchors": ["src/bv/ops.rs: BitVecOps::{add, xor, is_negative, is_equal}", "src/bv/ops.rs: BitVecMutOps::set_bit"]}
{"id": "C156", "title": "A range of cells can be sorted and searched", "statement": "Insertion sort over a range of cells of an array, written with select, is_greater and store, with addresses that may wrap around: afterwards the cells of the range are in ascending order, they are the cells that were there before in another order, every other cell is untouched, and nothing panics. Binary search in a sorted range, written with select and is_less, ends with the number of cells that are less than the value: every cell before that place is less, every cell from there on is not.", "quantifier": "all index widths from 1 to 64 bits and data widths from 1 bit, dense arrays (of bits: up to 31 index bits) and sparse arrays of any contents, all starts and lengths of the range up to the whole array, all values, all hash functions; both build modes", "why_tests_cant": "Whether a range is sorted depends on every comparison and exchange of every content; tests sort a few.", "anchors": ["src/array/ops.rs: ArrayOps::select", "src/array/ops.rs: ArrayMutOps::store", "src/bv/ops.rs: BitVecOps::{is_greater, is_less, add}", "src/bv/owned.rs: BitVecValue::from_u64"]}
{"id": "C157", "title": "A Hamming code corrects one wrong bit and detects two", "statement": "Words that carry their own check bits, written with is_bit_set, set_bit, clear_bit, xor, from_u64, is_zero and to_u64: bit i counts as number i + 1, and the bits whose number is a power of two are check bits. Setting the check bits leaves all other bits as they are. If then any single bit changes, a check bit or another, correction returns exactly the value that was protected, and without a change it returns it too. If two bits change, the word is no longer reported as intact. Nothing panics in these cases. Three changed bits can go unnoticed.", "quantifier": "all word widths and all numbers of check bits that are enough for the width and fit into it (2^(r-1) \u2264 width < 2^r), all values, all single and double errors; both build modes", "why_tests_cant": "The guarantee is about every value and every position of the error; tests try a few words.", "anchors": ["src/bv/ops.rs: BitVecOps::{is_bit_set, xor, is_zero, to_u64}", "src/bv/ops.rs: BitVecMutOps::{set_bit, clear_bit}", "src/bv/owned.rs: BitVecValue::{from_u64, zero}"]}
{"id": "C158", "title": "Long numbers in memory are added and subtracted cell by cell", "statement": "Numbers spread over several cells of an array, lowest digit first, and the school algorithm written with select, add, is_less and store, with a carry between the cells and addresses that may wrap around: afterwards the cells together with the outgoing carry are the sum of both numbers and the incoming carry, all other cells are untouched, and nothing panics. The same holds for the difference with a borrow. The result does not depend on the representations of the two arrays.", "quantifier": "all index widths from 1 to 64 bits and digit widths from 1 bit, dense arrays (of bits: up to 31 index bits) and sparse arrays of any contents, all addresses and numbers of digits up to the whole array, all carries, all hash functions; both build modes", "why_tests_cant": "Whether a carry gets lost depends on all digits of both numbers; tests add a few.", "anchors": ["src/array/ops.rs: ArrayOps::select", "src/array/ops.rs: ArrayMutOps::store", "src/bv/ops.rs: BitVecOps::{add, sub, is_less}", "src/bv/owned.rs: BitVecValue::from_u64"]}
{"id": "C159", "title": "Expressions translated for a stack machine keep their value", "statement": "A stack machine with an array of the library as its stack, an array for the variables and a value as stack pointer, whose instructions push, load, and call not, negate, add, sub, and, or, xor, shift_right and arithmetic_shift_right: running the code of any expression, from any stack pointer, leaves the value of the expression in the next cell of the stack and moves the pointer on by one. The cells beyond those the expression needs are untouched, and nothing panics. If the stack has fewer cells than the expression needs, the result can be wrong.", "quantifier": "all expressions of any size, all widths of values, variable numbers and stack pointers up to 64 bits for the addresses, dense arrays (of bits: up to 31 index bits) and sparse arrays of any contents, all hash functions; both build modes", "why_tests_cant": "There are infinitely many expressions; tests translate a few.", "anchors": ["src/array/ops.rs: ArrayOps::select", "src/array/ops.rs: ArrayMutOps::store", "src/bv/ops.rs: BitVecOps::{not, negate, add, sub, and, or, xor, shift_right, arithmetic_shift_right}", "src/bv/owned.rs: BitVecValue::from_u64"]}
{"id": "C160", "title": "Bit-vectors are sets of small numbers", "statement": "Bit-vectors as sets of the numbers below their width, with set_bit and clear_bit to insert and remove, zero and ones for the empty and the full set, or, and, not for union, intersection, difference and complement, and is_bit_set, is_zero, is_equal and counted bits for questions: every sequence of commands and questions about any number of set variables, from any starting sets, gives the answers that the sets give, and nothing panics. A number that is not below the width is not always refused: it can leave a set that is not empty but has no member.", "quantifier": "all widths from 1 bit, all sequences of commands and questions of any length that mention numbers below the width, all starting sets; both build modes", "why_tests_cant": "The answers depend on the whole history of the sets; tests follow a few histories.", "anchors": ["src/bv/ops.rs: BitVecOps::{or, and, not, is_bit_set, is_zero, is_equal}", "src/bv/ops.rs: BitVecMutOps::{set_bit, clear_bit}", "src/bv/owned.rs: BitVecValue::{zero, ones}"]}
{"id": "C161", "title": "A hash table made of arrays is a map", "statement": "A hash table with linear probing that is built out of three array values (flags, keys, values), with select to look, is_equal to compare keys, add to move to the next cell and store to write: started empty, it answers every sequence of put and get requests as a map does that has room for as many different keys as the table has cells. A get finds the last value put for the key and nothing else, a put is refused only when the key is new and every cell is taken, and nothing panics. The hash function can be any computation that depends on the key alone, for example a slice of its lowest bits, and collisions do not matter.", "quantifier": "all index widths from 1 bit, all key and value widths, all hash functions, all representations of the three arrays, all starting keys and values, all sequences of requests of any length; both build modes and all hash environments", "why_tests_cant": "What a lookup sees depends on the whole history of insertions and collisions; tests follow a few histories.", "anchors": ["src/array/ops.rs: ArrayOps::select, ArrayMutOps::store", "src/bv/ops.rs: BitVecOps::{is_equal, is_zero, add, slice}", "src/bv/owned.rs: BitVecValue::{tru, from_u64}"]}
{"id": "C162", "title": "Circuits of single-bit gates compute what the operations compute", "statement": "Circuits built out of operations on single bits (slice takes a bit, and, or, xor and not are the gates, concat puts the bits together): a ripple-carry adder gives exactly the value that add gives and its carry tells whether the sum of the two numbers needs another bit; a subtractor gives exactly the value that sub gives and its last carry tells whether the first number is at least the second; a comparator gives the answer of is_equal; a barrel shifter made of multiplexers shifts by any amount; an array multiplier gives the product. All of this holds at every width, also where shift_left, mul or is_greater_or_equal do not give the right result, and nothing panics.", "quantifier": "all widths from 1 bit, all operands, all shift amounts; both build modes", "why_tests_cant": "A carry can travel through any number of bits; tests try a few operands at a few widths.", "anchors": ["src/bv/ops.rs: BitVecOps::{slice, concat, sign_extend, and, or, xor, not, add, sub, is_equal, to_bool}", "src/bv/owned.rs: BitVecValue::{zero, tru, fals}"]}
{"id": "C163", "title": "Long multiplication of numbers that fill many cells of an array", "statement": "Take two numbers that are kept as digits in consecutive cells of arrays, the first in n cells and the second in k cells, and multiply them the way it is done on paper: for each digit of the second number, add its product with every digit of the first to the result and carry the upper half on, using zero_extend, doubling and adding, slice, select and store. Afterwards the n + k cells of the result hold exactly the number that was in its first n cells plus the product of the two numbers, all other cells are unchanged, and nothing panics. This holds for digits of any width (mul itself stops at 64 bits), wherever the numbers start and also where they wrap around the end of the array.", "quantifier": "all index widths, digit widths below 2^31, arrays, positions and numbers of digits with n + k at most the number of cells; both build modes and all hash functions", "why_tests_cant": "The carry passes through any number of digits; tests try a few numbers of a few digits.", "anchors": ["src/array/ops.rs: ArrayOps::select", "src/array/ops.rs: ArrayMutOps::store", "src/bv/ops.rs: BitVecOps::{zero_extend, slice, add, is_bit_set}"]}
{"id": "C164", "title": "Long numbers are divided by a digit and written to any base", "statement": "Take a number that is kept as digits in n consecutive cells of an array and divide it the way it is done on paper by one digit that is not zero: from the last cell down, put the remainder so far before the next digit with concat, divide by repeated comparison and subtraction, store the quotient with store and pass the remainder on. Afterwards the cells hold exactly the quotient of the number by the digit, the remainder that comes out is exactly the remainder of the number, and all other cells are unchanged. Doing this again and again gives the digits of the number to any base that fits a cell, the lowest one first, for example its decimal digits; the cells keep the part of the number above the digits taken. Nothing panics, for digits of any width, wherever the number starts and also where it wraps around the end of the array.", "quantifier": "all index widths, digit widths below 2^31 - 1, arrays, positions, numbers of cells up to the size of the array, divisors other than zero and numbers of digits taken; both build modes and all hash functions", "why_tests_cant": "A remainder passes through any number of cells; tests try a few numbers of a few digits.", "anchors": ["src/array/ops.rs: ArrayOps::select", "src/array/ops.rs: ArrayMutOps::store", "src/bv/ops.rs: BitVecOps::{concat, zero_extend, slice, is_less, sub}", "src/bv/ops.rs: BitVecMutOps::set_bit"]}
{"id": "C165", "title": "Linked lists in an array can be reversed, joined and counted", "statement": "Let the cells of an array hold addresses of cells, with zero as the end of a list. The cells of a list that ends are all different. Reversing a list in place with three pointers (select and store) leaves a list of the same cells in the opposite order, the other cells are unchanged, and reversing it again gives back every cell and the start. Putting a list after another one that shares no cell with it leaves the joined list and changes one cell only, the last one of the first list. Counting gives the length of a list, and counting for as many turns as the array has cells finds out exactly whether a list ends or runs in a circle. Nothing panics.", "quantifier": "all address widths from 1 to 64 (dense arrays up to their limit), dense and sparse arrays with any contents and history, all lists; both build modes and all hash functions", "why_tests_cant": "Lists have any length and any order of cells in memory, and a store through one pointer must not disturb the rest of the list; tests try a few lists.", "anchors": ["src/array/ops.rs: ArrayOps::select", "src/array/ops.rs: ArrayMutOps::store", "src/bv/ops.rs: BitVecOps::is_equal", "src/bv/owned.rs: BitVecValue::zero"]}
{"id": "C166", "title": "Searching the states of a system finds exactly the states that can be reached", "statement": "Let an array hold the transitions of a system: the cell whose index is a state with an input behind it holds the next state. A search that takes a state from a list, looks it up in a second array of single bits, and, if it is new, marks it there and puts its next states for all inputs on the list (from_u64, concat, select, store, is_equal) always ends, after at most as many turns as there are starts and transitions and one more. Afterwards a state is marked exactly if the system can get to it from one of the starts with some sequence of inputs. In other words, a property of states holds in every marked state whenever it holds at the starts and is kept by all transitions, and the marked states are the smallest set of this kind. Nothing panics.", "quantifier": "all widths of states and inputs from 1 bit with at most 64 bits together (dense arrays up to their limit), all transitions, all lists of starts, dense and sparse arrays with any history; both build modes and all hash functions", "why_tests_cant": "The claim is about all paths of any length through any system; tests try a few small systems.", "anchors": ["src/array/ops.rs: ArrayOps::select", "src/array/ops.rs: ArrayMutOps::store", "src/bv/ops.rs: BitVecOps::{concat, is_equal}", "src/bv/owned.rs: BitVecValue::{from_u64, tru}"]}
{"id": "C167", "title": "An array works as a memory from which cells are taken and to which they are given back", "statement": "Let the free cells of an array be linked with each other, and let a client take cells, give cells back, and write to and read from the cells it has, in any order (select, store, is_equal). A cell that is taken is never one that the client already has; there is one whenever the client does not have all cells; and reading a cell gives what the client wrote to it last, whatever was done with other cells in between. Linking every cell of an array to the next one (from_u64, add, store) makes all cells free but the cell zero. Nothing panics.", "quantifier": "all address widths from 1 to 64 (dense arrays up to their limit), dense and sparse arrays with any contents and history, all sequences of requests; both build modes and all hash functions", "why_tests_cant": "The claim is about every history of requests; tests try a few short ones.", "anchors": ["src/array/ops.rs: ArrayOps::select", "src/array/ops.rs: ArrayMutOps::store", "src/bv/ops.rs: BitVecOps::{is_equal, add}", "src/bv/owned.rs: BitVecValue::{zero, from_u64}"]}
{"id": "C168", "title": "Values with unknown bits can be computed with, and no known bit is lost", "statement": "Let a pair of bit-vectors stand for all values that agree with the first outside the ones of the second (the unknown bits). From the pairs of the operands, a few calls of and, or, xor, not and add compute a pair for not, and, or, xor, add and sub such that every result on values of the operands is a value of the resulting pair, and a bit of the resulting pair is unknown only if two such results differ in it: the pair is the best one there is, also for add and sub, where an unknown carry can reach many bits. For not, the values of the result are exactly the complements of the values of the operand. Nothing panics.", "quantifier": "all widths from 1 bit, all pairs with zeros in the first part where the second has ones; both build modes", "why_tests_cant": "A pair stands for exponentially many values, and a carry can reach any number of bits; tests try a few values.", "anchors": ["src/bv/ops.rs: BitVecOps::{and, or, xor, not, add, sub}"]}
{"id": "C169", "title": "Terms can be computed on values with unknown bits", "statement": "Take any term built from variables, constants, not, and, or, xor, add, sub, concat, slice, zero_extend, sign_extend and the choice between two terms by a bit. Computing it with the library gives its value. Computing it on pairs of bit-vectors, where the second part of a pair marks the unknown bits, gives a pair that is right for every assignment of values to the variables: every bit that is known in the result has that value under each assignment that agrees with the known bits of the variables. If no bit of the result is unknown, computing the term on any such assignment returns exactly the first part of the pair. Nothing panics.", "quantifier": "all terms of any size with widths from 1 bit to less than 2^32, all pairs for the variables, all assignments that agree with them; both build modes", "why_tests_cant": "The claim is about all terms and, for each, exponentially many assignments; tests try a few.", "anchors": ["src/bv/ops.rs: BitVecOps::{and, or, xor, not, add, sub, concat, slice, zero_extend, sign_extend, is_equal}", "src/bv/owned.rs: BitVecValue::{zero, tru}"]}
{"id": "C170", "title": "Sums of ranges of cells kept in an array are right after any additions", "statement": "A client keeps sums of ranges in an array instead of the numbers themselves: the cell p holds the sum of the p & -p numbers up to the p-th. Adding x to the p-th number is the loop `while p != 0 { sums[p] += x; p += p & -p }`; reading the sum of the numbers from the first to the p-th is the loop `while p != 0 { acc += sums[p]; p -= p & -p }`. With indices of w bits both loops end within w rounds without panic. Each addition keeps every cell the sum it has to be, and reading gives the sum of the numbers from the first to the p-th, modulo the data width. So after any additions, starting from an array of zeros, reading up to p gives the sum of everything that was added to the numbers one to p.", "quantifier": "all arrays with index width 1 to 64 and data width 1 to 2^32-1, sparse or dense; all sequences of additions of any length, all indices; both build modes", "why_tests_cant": "The claim needs every index and every history of additions; the loops rely on negate, and, add and sub being exact at the top of the index range, where the index wraps to zero.", "anchors": ["src/bv/ops.rs: BitVecOps::{negate, and, add, sub, is_equal}", "src/array/ops.rs: ArrayOps::select", "src/array/ops.rs: ArrayMutOps::store", "src/bv/owned.rs: BitVecValue::zero"]}
{"id": "C171", "title": "An array can be written in nested transactions that are taken back exactly", "statement": "Beside an array a client keeps a journal in two more arrays: the cells that were written and what they held before, with a counter for its end that may wrap. A transaction can be started at any time, also inside another one. Giving up the innermost transaction goes back through the journal to where it was started; keeping it leaves its writes to the transaction around it. As long as fewer than 2^k writes of open transactions are in the journal, k being the width of the counter, every read at any time returns what it would if starting a transaction made a copy of the whole array and giving it up brought that copy back. Nothing panics and going back always ends.", "quantifier": "all sequences of requests of any length, with transactions nested to any depth; all arrays with index width up to 64 and data width 1 to 2^32-1, sparse or dense; counters of 1 to 64 bits starting anywhere; both build modes", "why_tests_cant": "The claim is about all histories: overlapping writes in nested transactions, partly kept and partly given up, with the counter wrapping at any point.", "anchors": ["src/bv/ops.rs: BitVecOps::{add, sub, is_equal}", "src/array/ops.rs: ArrayOps::select", "src/array/ops.rs: ArrayMutOps::store", "src/bv/owned.rs: BitVecValue::from_u64"]}
{"id": "C172", "title": "An array keeps a partition of its cells under joins", "statement": "A client writes its own address into each cell of an array. The cell that stands for the set of p is found by `while a[p] != p { p = a[p] }`; two sets are joined by writing the cell of one into the cell of the other. After joining any list of pairs, two addresses have the same cell exactly if they are equal or are linked by a chain of pairs in either direction. With less than n joins the search ends within n rounds, and nothing panics.", "quantifier": "all arrays with index and data width w, 1 to 64 bits, sparse or dense, with any contents before; all lists of pairs, all addresses; both build modes", "why_tests_cant": "The claim ranges over all lists of joins and all addresses, and no cycle may ever arise in the array.", "anchors": ["src/bv/ops.rs: BitVecOps::is_equal", "src/array/ops.rs: ArrayOps::select", "src/array/ops.rs: ArrayMutOps::store", "src/bv/owned.rs: BitVecValue::from_u64"]}
