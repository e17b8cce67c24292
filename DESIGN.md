# Formal model of ekiwi/baa in Lean 4

## 1. Layout

| Path | Contents |
|---|---|
| `lean/Verif/Model/Basic.lean` | `Res`, `Mode`, checked arithmetic, slice access, `mask` |
| `lean/Verif/Model/Arith.lean` | src/bv/arithmetic.rs |
| `lean/Verif/Model/Strings.lean` | src/bv/io/strings.rs |
| `lean/Verif/Model/BytesBig.lean` | src/bv/io/bytes.rs, src/bv/io/bigint.rs |
| `lean/Verif/Model/Ops.lean` | src/bv/ops.rs, src/bv/owned.rs, src/bv/borrowed.rs |
| `lean/Verif/Model/HMap.lean` | `std::collections::HashMap` |
| `lean/Verif/Model/Indexed.lean` | src/bv/indexed.rs |
| `lean/Verif/Model/Array.lean` | src/array/*.rs, src/lib.rs |
| `lean/Verif/Model/Serde.lean` | the derived serde implementations, on documents of a self-describing format |
| `lean/Verif/Model/Loading.lean` | reading arrays in document order, with the comparisons of `HashMap::insert` |
| `lean/Verif/Model/DebugText.lean` | the `Debug` texts of indices, arrays, wrapped values and errors |
| `lean/Verif/Model/Target.lean` | the functions that compute with `usize`, for 32-bit and 64-bit pointers |
| `lean/Verif/Model/Profiles.lean` | the functions that depend on overflow checks or debug assertions, with the two switches as parameters |
| `lean/Verif/Model/Entries.lean` | the entry iterator, call by call |
| `lean/Verif/Model/Unwind.lean` | functions with `&mut self` as programs whose state survives a panic |
| `lean/Verif/Model/Buffers.lean` | mutable references into one buffer of words, through panics |
| `lean/Verif/Model/Json.lean` | documents whose map keys are text |
| `lean/Verif/Spec.lean` | specification of bit-vector values: `Denotes`, `encode`, numerals |
| `lean/Verif/SpecIndexed.lean` | specification of the shared word store and the interner |
| `lean/Verif/SpecArray.lean` | specification of arrays: `Reads`, `Reachable`, `update`, `storageBytes` |
| `lean/Verif/SpecSerde.lean` | specification of serialised documents: what is written for a value |
| `lean/Verif/Spec/Expressions.lean`, `Operands.lean` | specification: expressions, values with arbitrary words, operands of any widths |
| `lean/Verif/Spec/Text.lean` | specification: outcomes of parsing, operations and order on texts |
| `lean/Verif/Spec/Arrays.lean`, `Histories.lean` | specification: laws of arrays; arrays as memories of numbers, and what a history does with them |
| `lean/Verif/Spec/Programs.lean` | specification: programs over a word buffer and memories, what they call and what they mean |
| `lean/Verif/Spec/LongTables.lean` | specification: sparse arrays with a long index, on any values |
| `lean/Verif/Spec/LongArrays.lean` | specification: arrays of both kinds with a long index, on any values |
| `lean/Verif/Spec/Devices.lean` | specification: programs over any values and arrays, on what is known about each |
| `lean/Verif/Spec/Interner.lean`, `Calls.lean` | specification: histories of the interner; lists of all calls, for statements about every call |
| `lean/Verif/Spec/Documents.lean`, `DocumentsConv.lean`, `Archives.lean` | specification: arrays read from documents, their conversions, programs that read documents |
| `lean/Verif/Spec/Steps.lean`, `Unwind.lean`, `Rescue.lean`, `Neighbours.lean` | specification: listing entries call by call; what a panic leaves behind; programs that catch panics |
| `lean/Verif/Spec/Profiles.lean`, `Json.lean`, `Loading.lean`, `InternerClient.lean` | specification: build profiles; text keys; panics while reading; clients of the interner |
| `lean/Verif/Spec/Order.lean`, `Tests.lean` | specification: sorting and searching; the repository's randomised tests as programs |
| `lean/Verif/Spec/Algorithms.lean` | specification: multiplication and division as loops over other operations |
| `lean/Verif/Spec/HugeText.lean` | specification: parsing texts with too many digits for the 32-bit count |
| `lean/Verif/Spec/HugeLeft.lean` | specification: what a panic on such a text leaves |
| `lean/Verif/Spec/Chunks.lean`, `Fields.lean`, `Memory.lean` | specification: bytes and hexadecimal digits as groups of bits; values packed into one; values in consecutive cells of an array |
| `lean/Verif/Spec/SignedDivision.lean` | specification: signed division built out of the operations |
| `lean/Verif/Spec/Smt.lean`, `Simulation.lean` | specification: terms of bit-vectors and arrays, their meaning and an evaluator; clocked systems and their runs |
| `lean/Verif/Spec/Overflow.lean`, `BitScan.lean`, `Tricks.lean`, `Blocks.lean`, `Queue.lean`, `Cache.lean`, `Decimal.lean`, `FixedPoint.lean`, `Numbers.lean`, `Checksum.lean`, `Sorting.lean`, `Hamming.lean`, `Limbs.lean`, `StackMachine.lean`, `BitSets.lean`, `HashTable.lean`, `Circuits.lean`, `LongProducts.lean`, `LongQuotients.lean`, `Links.lean`, `Reachability.lean`, `Allocator.lean`, `UnknownBits.lean`, `UnknownTerms.lean`, `PrefixSums.lean`, `Journal.lean`, `DisjointSets.lean` | specification: overflow tests and saturation; counting, finding and mirroring bits; identities between calls; ranges of array cells; queues; caches; decimal text at every width; fixed-point numbers; greatest common divisors, modular powers and square roots |
| `lean/Verif/SpecMalformed.lean`, `SpecObserve.lean`, `SpecParse.lean`, `SpecAnyArray.lean`, `SpecAnyConv.lean` | tables for values of any width with any number of words: operations, observers, parsing, arrays, array conversions |
| `lean/Verif/Proofs/*.lean` | helper lemmas (`Modes.lean` is generated: one mode-agreement lemma per function) |
| `lean/Verif/Props/*.lean` | the property theorems `C01_…` … and their non-vacuity examples |
| `lean/Verif/Conformance.lean` | the concrete test vectors of the repository's own unit tests and the arguments saved in `proptest-regressions`, replayed in the model |
| `seeded/LOG.jsonl` | wrong programs and the theorems that reject them |

All model functions carry a citation of the file and lines in `/repo`.

The statements of the claimed theorems mention only definitions from `Model/`, `Spec*.lean` and `Spec/`, apart from the propositions
`Cxx_statement`, which stand next to their refutations. To judge what is claimed, `Proofs/` and the proofs in `Props/` need not be read.

## 2. Modelling decisions

* `Word = u64` is `BitVec 64`; `u8` is `BitVec 8`; `&[Word]`, `Vec<Word>`, `SmallVec<[Word;2]>` are `List (BitVec 64)`.
* `WidthInt = u32` and `usize` values are `Nat`; every `+`, `-`, `*` on them that can overflow or underflow goes
  through a checked operation that panics in a debug build and wraps in a release build. The fact that a value is a
  `u32` is a hypothesis `< 2^32`.
* `Mode = debug | release` is an argument of every modelled function: `debug_assert!` and overflow checks are
  active only in `debug`. Profiles that switch the two separately are in `Model/Profiles.lean` (C124).
* A panic is the explicit result `Res.panic kind`; "does not panic" is `∃ r, f … = .ok r`.
* A function that mutates `&mut [Word]` returns the new list; mutation of a sub-slice is write-back into the list.
* Owned values, shared references and mutable references all are the pair (width, words).
* `HashMap` is an association list without duplicate keys; iteration order is an arbitrary permutation given by a
  parameter (`HashEnv.order`). With `BitVecValue` keys, a lookup compares the key with some of the stored keys; which
  ones depends on hash bits and is a parameter (`HashEnv.compared`) that is only assumed to list stored keys, and the
  key itself if it is stored. An owned key is compared by `==` of `BitVecValue`, which has a debug assertion; a
  *borrowed* key meets the `todo!()` in `impl Borrow<BitVecValueRef> for BitVecValue` as soon as one key is compared.
* `map_a == map_b` is the loop of the standard library: equal lengths, then for each entry, in iteration order, a
  lookup and a comparison of the values by `==`, until one differs.
* `num_bigint::BigUint/BigInt` are `Nat`/`Int`; `iter_u64_digits`/`from_slice` are base 2^64 / 2^32 digits.
* `u64/u128::from_str_radix`, `char::to_digit`, `write!("{}")` of the Rust standard library are modelled from their
  documentation.

## 3. Specification

`Denotes v x` (for `x : BitVec w`, Lean's own bit-vector type) says that `v` has width `w`, exactly `⌈w/64⌉` words, and
that the little-endian base-2^64 number of its words is `x.toNat` (hence no unused bit is set). The operation
theorems then read `Denotes a x → Denotes b y → ∃ r, add m a b = ok r ∧ Denotes r (x + y)`, with Lean core's `BitVec`
operations as the independent meaning.

## 4. Plan per property

| Ids | Modelled | Proof |
|---|---|---|
| C01 C02 C26 | constructors, `assign_*`, `mask_msb`, `sign_extend` | value lemma for `mask_msb`, bit lemma for `sign_extend` |
| C03 C04 C05 C25 | `to_u64`, `to_i64`, predicates | value of the high words; C04/C05 are false for negative values of width > 64 not a multiple of 64: partial + refutation |
| C06 C07 C08 | `adc` loops | induction over words with carry invariant |
| C09 | `mul` | one word exact; wider is `todo!()`: partial + refutation |
| C10 C11 C24 | bitwise loops | bit extensionality |
| C12 | `shift_left` | bit extensionality; false for shifts by positive multiples of 64 when 64 does not divide w (missing mask): partial + refutation |
| C13 C14 C19 C20 C21 C22 C23 C61 | `slice`, `concat`, extensions, shifts | bit extensionality through an "i-th bit of a word list" lemma; C20 is false for msb = width, C21/C22 for an empty operand: partial + refutation |
| C15–C18 | comparisons | lexicographic comparison of base-2^64 digits; C17 false for equal multi-word operands: partial + refutation |
| C27 | expression evaluator over all operations | structural induction |
| C28 | every function | mode monotonicity, function by function |
| C29 | debug asserts | unfolding |
| C30–C39 | printers and parsers | digit-list lemmas; C32 (≥ 3 words `todo!()`), C33, C34 (minimum value, width 1, width 64k+1), C37 (missing width check), C39 (stale high words) are false in general: partial + refutation |
| C37 (all cases) | `from_str_radix` | `Props/ParseTotal.lean`: the specification `parseOutcome` gives the stored number, the error or the panic for every string, radix and width; `C37_total` combines the case theorems; `C37_huge_rejected` bounds the number of words the digit loop can write; `Props/ParseKinds.lean`: at the width chosen from the string, `parseOutcome` is one error (C35, C36) |
| C40–C43 | bytes, big integers, fixed point | digit lemmas; C43 is false for a fraction width of 64 or more: partial + refutation |
| C44 C45 | `split_borrow_*` | list slicing |
| C46–C48 | interner state machine | invariant by induction over histories; C48 false for wide values |
| C49–C59 | arrays | refinement to functions `BitVec iw → BitVec dw`, invariants over histories; several are false in corners (see section 6) |
| C60 | derived instances | lexicographic order lemmas |
| C62 | `TryFrom` | case analysis |
| C63 | `Debug` of the three bit-vector types | from the `to_bit_str` lemma |
| C64 | `mask` | bit lemma |
| C65–C69 | compositions of operations | the operation theorems plus laws of `BitVec`; both sides return the *same* value, not only equal numbers |
| C70 | programs over one word buffer | refinement: a buffer with disjoint ranges holds a family of mathematical variables; induction over the program |
| C71 | all conversions together | composition of C01–C04, C30–C32, C37, C40–C42 |
| C72 C73 | arrays with mixed histories; `==` | invariants of C49–C56; C72 excludes the unreadable shapes; C73 transitivity is false across representations: partial + refutation |
| C75 | printing what was parsed | composition of C35/C36 with the exact texts of C30, C31, C33, C34 and uniqueness of digit strings of a given length; false for `-` and 64k binary digits: partial + refutation |
| C76 | operations against `to_bit_str` | `to_bit_str` is the list of bits; list lemmas; dictionary order against numeric order of equally long digit lists |
| C77 | operations on values with bits above the width | weaker relation `Shows` (low bits only); value modulo 2^w, bit extensionality; false for comparisons and conversions: partial + refutation; `C27_safe_partial` uses it to strengthen C27 |
| C78 | most frequent default | `occurrences` counts elements; the counting loop equals a tally of a prefix (`Proofs/Counting.lean`), the arg-max of the tally is a most frequent element; false beyond 2^20 different elements: partial + refutation |
| C79 | independence of hash order | two runs with arbitrary `HashEnv`s are compared (`SameOutcome`); dense representation is unique, entry lists are permutations; false for ties in the conversion to sparse: partial + refutation + exact set of outcomes |
| C80 | content of the interner | specification `internedStore` (distinct word sequences in order of first use); state invariant `After` that needs no bound on the history |
| C81 | unlimited interner histories | index = position modulo 2^32 from the same invariant; false beyond 2^32 words: partial + refutation by the history 8, 9, …, 2^32 |
| C82 | values of zero bits | there is one such value; each operation is evaluated on it; false for most arithmetic: partial + refutation + complete lists of the operations that panic or answer wrongly |
| C83 | serde round trip | documents as an inductive type; derived readers and writers; induction over word lists and table entries, permutation argument for hash order |
| C84 | malformed documents | false: the exact set of values that can be read (all widths with all word lists), partial + refutation |
| C85 | malformed array documents | the documents are specified from the contents alone (`SpecSerde.lean`); false: exact set of arrays that can be read, partial theorems for complete dense documents and for all sparse documents with elements in range, refutation |
| C86 | all computations on arbitrary words | `Expr.raw` computes on natural numbers what the words of the result hold, stray bits included, or the panic; one raw lemma per operation (`Proofs/Raw.lean`, `Props/Raw.lean`), induction over the computation |
| C87 | all observers on arbitrary words | `Props/RawObs.lean`: same unfolding as for canonical values, in terms of the number `N` in the words |
| C88 | every in-place parse | `Props/ParseInPlace.lean`: `assignOutcome`, on numbers; the digit-loop invariants of C37/C74 for an arbitrary destination |
| C89 | arrays on arbitrary words | `Props/RawArray.lean`: a memory of numbers with the cell reached, the part kept and the part shown; a representation invariant for each storage class, preserved by store and clear |
| C90 | programs on arbitrary buffers | `Props/RawProgram.lean`: one number for the whole buffer; a relation between runs and predictions that is closed under sequencing; each step from C77, C86–C88 and C44/C45 |
| C91 | conversions of arbitrary words | `Props/RawConv.lean`: on the cells of C89; each loop of the conversions by induction over the entries or the first cells; histories by induction over the operations |
| C92 | mixed widths in release builds | `Props/MixedWidth.lean`: zipped loops only look at the words both operands have; each loop splits there, and the same-length lemmas apply |
| C93 | values of the wrong width in arrays, release builds | `Props/ForeignWidth.lean`: Reduce `toU64`, `isTru` and `assign` on values of any width to values of the right width with the same number, then reuse the cells of C89; wide sparse arrays get cells that keep a width and a number, with the comparison of C92. |
| C94 | dense arrays of wide data, exactly | `Props/WordMemory.lean`: the list of words is refined to a function from positions to numbers; the position arithmetic is evaluated in both modes |
| C95 | word counts of results, any operands | `Props/Sizes.lean`: length lemma for every function that writes to a destination, then one case per operation |
| C96 | narrowing and widening laws | `Props/WidthLaws.lean`: value theorems at both widths, then laws of `BitVec` and uniqueness of the representation |
| C97 | comparison laws | `Props/WidthLaws.lean`: the value theorems of both sides and arithmetic on the denoted numbers |
| C98 | wide-index sparse arrays | `Props/WideIndex.lean`: the hash table refines a function from (width, number) to stored values; the borrowed lookup panics exactly if the environment compares a key |
| C99 | laws of left shifts | `Props/ShiftLaws.lean`: from C12, C77 (results with stray bits), C13, C14, C21 and bitwise reasoning |
| C100 | operations and order | `Props/ShiftLaws.lean`: from C15, C16, C18, C21–C23 and arithmetic on the denoted numbers |
| C101 | programs with registers and memories | `Props/Simulator.lean`: commands as a small while language; the machine performs the library calls (`Machine.exec`), `eval` is the mathematical meaning; simulation by induction on the number of commands, using the step theorem of C70 and C52, C53, C54, C56, C72 for the arrays |
| C102 | order of texts | `Props/TextOrder.lean`: numerals of equal length and fixed letter case are read by a strictly monotone function, by induction over the digits; a decimal numeral without leading zero lies between two powers of ten given by its length |
| C103 | any arguments | `Props/Extreme.lean`: case split on the wrapped width; the word algorithms generalised to destinations of any admissible length, bit by bit |
| C104 | all expressions | `Props/AnyTerm.lean`: structural induction; the single steps from C82, C86, C87, C92 and C103 plus operands of zero bits |
| C105 | any word count | `Props/Malformed.lean`, `Proofs/AnyLength.lean`: the word loops again, without the hypothesis on lengths; structural induction over expressions |
| C106 | observers at any word count | `Props/MalformedObs.lean`: per observer, by the word loops of `Proofs/AnyLength.lean` and digit-wise comparison of texts |
| C107 | parsing at any word count | `Props/MalformedParse.lean`: the digit loops of C88 for an arbitrary output slice |
| C108 | Debug texts | `Model/DebugText.lean`, `Props/DebugText.lean`: texts cancel left and right; a decimal numeral ends at the first character that is no digit |
| C109 | 32-bit targets | `Model/Target.lean` writes every function that computes with `usize` once more, with the size of `usize` as a parameter; `Props/Target.lean`: a checked operation on small numbers does not depend on the modulus, and one that wraps leads to a panic on both sides. With 64-bit pointers the functions are those of the other model files |
| C110 | arrays of any values | `SpecAnyArray.lean`: cells and tables of descriptions; `Props/AnyArray.lean`: each call is matched with its prediction by one relation that composes along `bind`; induction over the history |
| C111 | conversions of arrays of any values | `SpecAnyConv.lean`: contents are put into cells one entry at a time and read back element by element; `Props/AnyConv.lean`: both conversions keep the relation of C110; induction over the history |
| C112 | programs over any values and arrays | `Spec/Devices.lean`: a device with registers, array variables, jumps and output, and the same program on shapes and on what arrays hold (`Stock`); `Props/Devices.lean`: simulation, by induction on the number of steps |
| C113 | the interner given any values | `Spec/Interner.lean`: acceptance; `Props/AnyInterner.lean`: the store after any history, by induction on it, and what each index reads back as |
| C114 | long-index sparse arrays given any values | `Spec/LongTables.lean`: contents, operations that stop, operations at risk; `Props/AnyWide.lean`: invariant of the hash table, one operation, induction on the history; `crowdedEnv` compares every stored index and realises every risk |
| C115 | arrays of all kinds with a long index | `Spec/LongArrays.lean`: when a dense array can be converted, and histories; `Props/AnyLong.lean`: the four storage forms of the conversion, then C114 for what follows |
| C116 | exactness of the predictions | `Props/DevicesExact.lean`: for each allowed choice a hash environment that makes it (`permEnv` for orders, `crowdedEnv` for compared keys and for ties between counters), then induction on the number of steps |
| C117 | arrays from documents | `Spec/Documents.lean`: accounts of arrays and the outcomes of every operation on an account, as relations where hash tables leave a choice. `Props/Documents.lean` and `Props/DocumentsEq.lean`: one lemma per storage form and operation, a simulation between hash tables and partial functions (`Tabled`), induction on histories; exactness by hash environments that visit a chosen entry first and compare as little or as much as possible |
| C118 | arrays from documents: conversions | `Spec/DocumentsConv.lean`: outcomes of both conversions on accounts, with the election of a default as a relation. `Props/DocumentsConv.lean` (to dense), `Props/DocumentsSparse.lean` (to sparse; generalises the counting lemmas of C78, C91 and C111 to any number of elements), `Props/DocumentsTravel.lean` (histories, mixed comparison, room): invariants of the loops over entries and elements, uniqueness of tables, induction on histories; exactness by hash environments that visit a chosen entry last |
| C119 | programs that read documents | `Spec/Archives.lean`: commands, ledgers (shapes of registers, accounts of arrays), outcomes of commands; actions without arrays refer to C112. `Props/Archives.lean`: one lemma per command that combines soundness and exactness (from C105–C107, C112, C116, C117, C118), round trips of arbitrary accepted arrays, induction on the number of steps |
| C120 | entries call by call | `Model/Entries.lean`: the iterator and `next`, with the state after a panic. `Spec/Steps.lean`: the queue of entries in some order and the answer to the k-th call. `Props/Steps.lean`: the k-th call makes the k-th remaining entry (induction on the number of calls); listing is mapping over the same entries; C57 and the account of C117 give the rest |
| C121 | states left by panics | `Model/Unwind.lean`: each function with `&mut self` as a program on a state, statement by statement, the state survives a panic. `Spec/Unwind.lean`: what is left, as a shape. `Props/Unwind.lean`: the programs agree with the functions; no statement after a write can panic, except masking and the checks at the end (case analysis over the statements, induction on the digits for the parse loops) |
| C122 | programs that catch panics | `Spec/Rescue.lean`: commands as programs on the device that survive a panic (`Model/Unwind.lean`), handlers; what a panic leaves, from the formulas of C121. `Props/Rescue.lean`: the step theorem of C119 and the leftovers of C121 for each command, induction on the number of steps |
| C123 | values in a buffer through caught panics | `Model/Buffers.lean`: references as views of the buffer. `Spec/Neighbours.lean`: adaptive clients, values in variables. `Props/Neighbours.lean`: rules for what a program leaves fixed, the size of a value after every outcome, simulation of each request, induction on the client |
| C124 | build profiles | `Model/Profiles.lean`: the functions that depend on the switches, with the two switches as parameters. `Proofs/Profiles.lean`: equal to the model at the default profiles. `Proofs/ProfileOrder.lean`: monotone in the switches. `Props/Profiles.lean`: cases on the call |
| C125 | clients of the interner | `Spec/InternerClient.lean`: adaptive clients, with an interner and with a table of values. `Props/InternerClient.lean`: induction on the client, the state of the interner is that of C113 |
| C126 | formats with text keys | `Model/Json.lean`: documents with text keys, writing, type-driven reading. `Spec/Json.lean`: expected documents. `Proofs/Json.lean`: a document is read like the one it was written from. `Props/Json.lean`: round trips by C83, exact set of writable arrays, exact set of readable arrays |
| C127 | the randomised tests | `Spec/Tests.lean`: each test as a program, line by line, with the set of arguments its generator describes. `Props/Tests.lean`: 24 pass on all arguments, exact sets of arguments on which the other four pass |
| C128 | the order, sorting and searching | `Spec/Order.lean`: words in the opposite order, sorted sequences, binary search. `Props/Order.lean`: exact description of `cmp` by induction on the words; uniqueness of sorting; loop invariant of the search |
| C129 | panics while reading | `Model/Loading.lean`: reading in document order with the comparisons of `HashMap::insert`. `Spec/Loading.lean`: the indices that are entered before the first error. `Props/Loading.lean`: false; exact condition by induction on the entries and fields, partial + refutation; C119 and C122 include these panics |
| C130 | sorted entries | `Spec/Order.lean`: order of pairs, entries in turn. `Props/SortedEntries.lean`: total order on pairs from C60, uniqueness of sorted permutations, C57 and C79 for the listing; two entries at 1 and 2^64 for wide indices |
| C131 | reading back at the own width | `Props/ReadBack.lean`, from C30, C31, C32, C37 and C38 |
| C132 | signed texts read back | `Props/ReadBack.lean`: exact outcome from the exact texts (C33_exact, C34_exact) and C37 |
| C133 | values from parts | `Props/Parts.lean`: carry arithmetic of appended bit-vectors; the calls from C06–C11, C16, C19, C21, C25 |
| C134 | rotation | `Props/Parts.lean`: bits of both shifts (C12 exact, C13) against the bits of slices and concatenation |
| C135 | user loops for product and quotient | `Spec/Algorithms.lean`, `Props/Algorithms.lean`: loop invariants on the denoted numbers; the calls from C06, C07, C16, C19, C21, C22, C24 |
| C136 | parsers on texts too long for their count | `Spec/HugeText.lean`, `Props/HugeText.lean`: the digit loop is split after the counted digits (`parseLoop_append`), the first part is C107, the second runs with wrapped counters until the write position is out of bounds |
| C137 | panics on texts too long for the count | `Spec/HugeLeft.lean`, `Props/HugeLeft.lean`: the loops with state of C121, split after the counted digits as in C136 |
| C138 | operations on bytes and hexadecimal text | `Spec/Chunks.lean`, `Props/ChunkOps.lean`: bytes and digits are groups of bits (`chunks`); bit by bit for groups of any size |
| C139 | constructors against concatenation, slices, extensions | `Props/Assemble.lean`: from C01, C02, C35, C36, C40 to C42 and C19 to C23 |
| C140 | packed fields | `Spec/Fields.lean`, `Props/Fields.lean`: induction over the fields with the laws of C61; the written word bit by bit |
| C141 | an array as a memory | `Spec/Memory.lean`, `Props/Memory.lean`: induction over the cells with C72; the cut and joined value by C140 |
| C142 | signed division | `Spec/SignedDivision.lean`, `Props/SignedDivision.lean`: from C135 by cases on the signs; rounding down by integer division lemmas; C14 for the shift |
| C143 | all SMT-LIB terms | `Spec/Smt.lean`, `Props/Smt.lean`: an intrinsically typed syntax, structural induction, one lemma per operator |
| C144 | clocked systems | `Spec/Simulation.lean`, `Props/Simulation.lean`: the run is a relation (equations for every register and every tick); the simulator is related to it by induction on the ticks, with C143 for the terms |
| C145 | overflow and saturation | `Spec/Overflow.lean`, `Props/Overflow.lean`: characterisations by signs from Lean's core library for sums, exact products at twice the width for products |
| C146 | bit counting | `Spec/BitScan.lean`, `Props/BitScan.lean`: a positive number is an odd number times a power of two, which gives every bit of x - 1 and of -x; inductions over the positions |
| C147 | block operations | `Spec/Blocks.lean`, `Props/Blocks.lean`: induction over the list of offsets; no cell is read after it is written, as a pairwise condition on the list |
| C148 | a queue | `Spec/Queue.lean`, `Props/Queue.lean`: refinement; invariant: the cells from the read pointer on hold the list, the write pointer is the read pointer plus its length |
| C149 | arithmetic by bitwise calls | `Spec/Tricks.lean`, `Props/Tricks.lean`: xor plus twice and is the sum, by induction on the number; the rest is ring arithmetic and bits |
| C150 | decimal text | `Spec/Decimal.lean`, `Props/Decimal.lean`: induction over the digits, with C135 for the division by ten |
| C151 | fixed-point arithmetic | `Spec/FixedPoint.lean`, `Props/FixedPoint.lean`: C43 turns reading into division by a power of two; the rest is the integer meaning of each operation |
| C152 | unsigned fixed-point arithmetic | `Spec/FixedPoint.lean`, `Props/FixedUnsigned.lean`: as C151, at every width |
| C153 | number theory | `Spec/Numbers.lean`, `Props/Numbers.lean`: induction over the rounds, with C135; the second operand halves every two rounds of Euclid's algorithm |
| C154 | cache | `Spec/Cache.lean`, `Props/Cache.lean`: an invariant (the lines and the memory behind them are the memory; clean lines agree with it) is kept by every request |
| C155 | checksums | `Spec/Checksum.lean`, `Props/Checksum.lean`: a step is linear and, for an odd generator, injective; the quotient is built up along the message |
| C156 | sorting and searching | `Spec/Sorting.lean`, `Props/Sorting.lean`: an exchange acts on the list of cells; induction over the sorted part and the rest |
| C157 | error correction | `Spec/Hamming.lean`, `Props/Hamming.lean`: toggling a bit changes the syndrome by its number, by induction over the bits |
| C158 | long numbers | `Spec/Limbs.lean`, `Props/Limbs.lean`: one digit by cases, the rest by induction over the number of digits |
| C159 | a stack machine | `Spec/StackMachine.lean`, `Props/StackMachine.lean`: structural induction over the expression |
| C160 | sets | `Spec/BitSets.lean`, `Props/BitSets.lean`: every command preserves that the bits are the members; induction over the sequence |
| C161 | hash table | `Spec/HashTable.lean`, `Props/HashTable.lean`: every used cell can be reached from the hash of its key without meeting a free cell; induction over the requests |
| C162 | circuits | `Spec/Circuits.lean`, `Props/Circuits.lean`: every gate is a Boolean function; induction over the bits with the carries of `BitVec` |
| C163 | long products | `Spec/LongProducts.lean`, `Props/LongProducts.lean`: a digit product fits two digits; induction over the digits of a row, then over the rows |
| C164 | long quotients | `Spec/LongQuotients.lean`, `Props/LongQuotients.lean`: the quotient of two digits by a larger one fits a digit; induction over the cells from the last one down, then over the digits taken |
| C165 | linked lists | `Spec/Links.lean`, `Props/Links.lean`: a chain is unique, so it has no cell twice; induction over the list with the part already reversed; a list without a repeated cell is shorter than the array |
| C166 | reachable states | `Spec/Reachability.lean`, `Props/Reachability.lean`: every next state of a marked state is marked or on the list; the number of unmarked states bounds the turns |
| C167 | allocator | `Spec/Allocator.lean`, `Props/Allocator.lean`: the free list and the cells of the client share no cell and make up the pool, by induction over the requests |
| C168 | unknown bits | `Spec/UnknownBits.lean`, `Props/UnknownBits.lean`: bit by bit; for sums the carry grows with the operands, so it is known where the smallest and the largest sum agree |
| C169 | terms with unknown bits | `Spec/UnknownTerms.lean`, `Props/UnknownTerms.lean`: induction over the term with C168 for the operations and bit by bit for the rest |
| C170 | sums of ranges of cells | `Spec/PrefixSums.lean`, `Props/PrefixSums.lean`: the lowest one by bits, induction on the rounds with the power of two that divides the index, a lemma on which ranges hold the next index |
| C171 | transactions on an array | `Spec/Journal.lean`, `Props/Journal.lean`: an inductive relation between the journal and the copies, kept by every request |
| C172 | sets that are joined | `Spec/DisjointSets.lean`, `Props/DisjointSets.lean`: a bound on the steps that lead to the cell of a set, which grows by one with each join |
| C74 | in-place parse that fails | case analysis of the parser; false above 128 bits: partial + refutation; `ParseExact`, `Exact`: behaviour of the code in the excluded cases of C04–C43 |

## 5. Trusted base

Lean 4.33 kernel; axioms `propext`, `Classical.choice`, `Quot.sound` only (checked by `#print axioms`; no file imports
Mathlib); the reading of the Rust source recorded in the model comments; the behaviour of the standard library and of
`num-bigint`, `smallvec` and `fraction` listed in section 2.

Modelled: every non-test function of src/bv/arithmetic.rs, src/bv/ops.rs, src/bv/owned.rs, src/bv/borrowed.rs,
src/bv/indexed.rs, src/bv/io/*.rs, src/array/*.rs and src/lib.rs, except the items below.

Not modelled:

* The text or binary encodings of serde formats. The derives are modelled on documents (numbers, sequences, maps, structs,
  variants) as the serde book describes them, and on documents whose map keys are text (C126).
* Failure of memory allocation and running time. A `Vec` is a list of any length; where the size matters the theorems
  carry the hypothesis `Addressable` (`isize::MAX` bytes).
* Targets with 16-bit pointers. All model files but one fix a 64-bit `usize`; `Model/Target.lean` has the functions that
  compute with `usize` for both sizes, and C109 shows that the size does not matter.
* Nothing is left out for values whose word count does not match their width: only a malformed document produces them (C84);
  every operation repairs them or keeps their size (C95), and C105 to C107 and C110 to C115 state what bits come out and what
  observers, parsing, arrays, array conversions, programs and the interner do. Values with the right number of words
  but unused bits set do occur (defects C12, C20 and C37 below): C27 states which operations preserve the normal form, C77 and
  C86 to C91 state what every computation, observer, parse, program, array operation and array conversion does with such values. The other theorems
  about operands assume the normal form.
* Concurrency: the library has no interior mutability, so there is none to model.

## 6. Findings in the code

Each item is a property that the code does not have. The theorem `Cxx_refuted` gives a concrete witness in the model and
`Cxx_…_partial` gives the part that holds; further theorems describe what the code does instead.

| Id | Source | What happens |
|---|---|---|
| C04 C05 | src/bv/ops.rs:166-177 | `to_i64` of a negative value wider than 64 bits is `None` unless the width is a multiple of 64: the top word is compared with `Word::MAX` but has unused zero bits |
| C09 C27 | src/bv/arithmetic.rs:226-236 | `mul` of more than 64 bits is `todo!()` |
| C12 C27 C134 | src/bv/arithmetic.rs:322-324 | `shift_left` by a positive multiple of 64 does not mask the top word, so the result has bits above its width and compares unequal to the right value |
| C17 | src/bv/ops.rs:240-249 | `is_greater_or_equal` of multi-word values calls `cmp_greater`, so `a >= a` is `false` above 64 bits (and for width 0) |
| C20 | src/bv/ops.rs:302 | `slice` asserts `msb <= width`, so `msb = width` is accepted; the result has a zero bit that is not in the operand, or an index panic |
| C21 C22 | src/bv/ops.rs:336-346, 370-385 | `zero_extend` and `concat` of a 0-bit value panic when the result has at most 64 bits |
| C32 | src/bv/io/strings.rs:119-122, 157-159 | `to_dec_str` of values ≥ 2^128 is `todo!()`; for widths > 1431655765 the capacity computation overflows in debug builds |
| C33 C34 | src/bv/io/strings.rs:23-33, 73-83 | the smallest value is printed as `-0…0` (only `w - 1` digits of the magnitude), a 1-bit value as the empty string |
| C37 | src/bv/io/strings.rs:291-299, 307-345 | no width check up to 128 bits (the result is not canonical); wide decimal is `todo!()`; hex strings longer than the width panic; wide binary strings with leading zeros beyond the width are rejected |
| C39 | src/bv/io/strings.rs:307-327, 338-377 | parsing a short string into a wide destination leaves the upper words of the old value |
| C43 | src/bv/ops.rs:121-125 | `1u64 << fraction_width` overflows for a fraction width of 64 or more |
| C48 | src/bv/indexed.rs:249-255 | wide zero and one are not at index 0 and 1, so `is_zero` / `is_one` miss them |
| C49 C51 | src/array/owned.rs:292-299, 345 | 1-bit data with an index of 32 bits or more: the element count is truncated to 0, every `select` panics. 0-bit data: every `select` panics |
| C50 | src/bv/borrowed.rs:95-99 | index wider than 64 bits: reading (or resetting) a stored entry runs into a `todo!()` |
| C52 C56 | src/array/owned.rs:452-456 | densifying data of more than 64 bits creates the index with the *data* width, which the debug assertion of `store` rejects |
| C53 | src/array/owned.rs:493 | the counters for 8-bit data have `u8::BITS` = 8 slots, so an element ≥ 8 panics |
| C55 | src/array/owned.rs:614-659 | arrays with the same contents but different defaults are reported unequal |
| C73 | src/array/owned.rs:114-118 | `==` of arrays is not transitive: two sparse arrays with different defaults can equal the same dense array but not each other (consequence of C55) |
| C33 C75 | src/bv/io/strings.rs:23-33 | `to_bit_str_signed` prints 64 zeros too many at widths 64k+1, k ≥ 1: it prints all words although the sign has been dropped; `-` and 64 binary digits are not printed as they were parsed |
| C74 | src/bv/io/strings.rs:307-377 | above 128 bits a failed in-place parse has already overwritten words of the destination |
| C77 | src/bv/ops.rs:210-290, src/bv/arithmetic.rs:322-324 | a value with bits above its width (`shift_left` and unchecked parsing produce them) compares, converts, concatenates and extends differently from the value it prints as |
| C78 | src/array/owned.rs:516-524 | the search for the default stops after 2^20 different elements, so the default need not be a most frequent element |
| C79 | src/array/owned.rs:525-529 | ties between most frequent elements are broken by hash order, so converting the same dense array twice can give two sparse arrays that are not equal |
| C81 | src/bv/indexed.rs:267, 277 | `words.len() as WordIndex` truncates: with 2^32 words stored, the next new number silently gets the index of 0 |
| C82 | src/bv/owned.rs:161-166, src/bv/ops.rs:240-249 | `From<&BigUint>` of 0 (and `from_bit_str("")`) gives a value of 0 bits, on which arithmetic, shifts and signed comparisons panic and `>=`, `<=` are false |
| C84 | src/bv/owned.rs:15 | the derived `Deserialize` accepts every width with every list of words |
| C85 | src/array/owned.rs:15,175,574 | the derived `Deserialize` does not compare the number or size of the elements with the declared widths |
| C103 | src/bv/ops.rs:301-346, 370-385 | in release builds the width of a slice, an extension or a concatenation wraps at 2^32: `zero_extend` of 8 bits by 2^32 - 4 returns a 4-bit value that still holds 8 bits, a slice with swapped positions a value of almost 2^32 bits |
| C57 | src/array/owned.rs:743-749 | index width 0: listing a stored entry panics in `from_u64` |
| C58 | src/array/owned.rs:206 | boolean slices longer than 2^31: the element count is truncated to 0 and `set_bit` panics |
| C59 | src/array/owned.rs:264-279 | the size guard counts words instead of bytes for data wider than 64 bits, so up to 8 GiB pass |
| C127 | src/bv/arithmetic.rs:811-813, src/bv/io/strings.rs:525-527, 533-535 | `test_shift_left`, `test_from_to_bit_str` and `test_to_from_decimal_str` fail on texts longer than those they are run with: a shift by 64 of 65 ones, a sign and 64 digits, 129 digits |
| C129 | src/bv/owned.rs:127-132, src/array/owned.rs:588-593 | reading a document with two indices of the same width and different numbers of words can violate a debug assertion of `==`, depending on hash bits |
| C132 | src/bv/io/strings.rs:23-33, 307-316 | `from_str_radix` rejects what `to_bit_str_signed` prints at widths 64k+1 above 128 (the zeros of C75 count as digits), and reads the smallest value (C33, C34) as 0 |
| C136 C137 | src/bv/io/strings.rs:307-320, 338-357 | the digit count is truncated to 32 bits: above 128 bits a binary numeral of 2^32 + k digits (hexadecimal: 2^30 + k) with k small panics instead of being reported as too large, and the panic leaves a changed destination |

Also visible in the theorems: arithmetic on 0-bit values, `from_u64`, `from_i64`, `ones` and `sign_extend` of width 0
panic; the empty string is accepted by `from_str_radix` for every width; `"-+5"` is accepted; an empty source strictly
inside the destination range panics in `get_mut_ref`; `Ord` does not order wide values by value (documented in the source).

## 7. Wrong programs

Seeded bugs are run by a script in a scratch copy: it applies one textual edit to a model file, rebuilds every module and
records the theorems in modules `Verif/Props` and `Verif/Proofs` that no longer check. `seeded/LOG.jsonl` has one line per attempt:
`definition`, `edit` (with `old` and `new` text), `claim_broken` (with `witness`), `theorems_failed` (theorems named after the property
that is broken; they fail directly or because a lemma they use fails), `other_theorems_failed`, `failed_directly` (declarations with a
build error), `examples_failed`, `outcome` and `theorems_tightened`.

A `witness` is a concrete case, checked by the kernel on the edited model, in which the claim is false. Where there is none, only the failing
build speaks for the theorem: a proof can also break because of an edit that does not change behaviour. The edits known to be of that kind
(S12, S15, R41) say so in a `note`.

## 8. The repository's randomised tests and the theorems that generalise them

The tests with concrete inputs are replayed in `Conformance.lean`. The randomised tests are written down as programs in `Spec/Tests.lean`,
and C127 says on which of their arguments they pass. Each of them checks, on samples, a statement that a theorem about the API proves for
all inputs:

| Test | Theorem |
|---|---|
| arithmetic.rs `test_is_neg`, borrowed.rs `test_is_neg` | `C25_is_negative`, `C76_is_negative` (first character of the text) |
| arithmetic.rs `test_concat` | `C21_concat_partial`, `C76_concat` (the texts are concatenated) |
| arithmetic.rs `test_slice` | `C19_slice`, `C76_slice` |
| arithmetic.rs `test_shift_right`, `test_arithmetic_shift_right`, `test_shift_left` | `C13_shift_right`, `C14_arithmetic_shift_right`, `C12_shift_left_exact`, and C76 for the texts. The texts generated from the pattern `[01]+` are short (proptest repeats up to 32 times), so the tests of this group do not reach the multi-word code and miss the defect of C12 |
| arithmetic.rs `test_zero_extend`, `test_sign_extend` | `C22_zero_extend_partial`, `C23_sign_extend`, C76 for the texts |
| arithmetic.rs `test_add`, `test_sub`, `test_mul` | `C06_add`, `C07_sub`, `C09_mul_partial` (`test_mul` is ignored in the repository because `mul` is not implemented above 64 bits) |
| arithmetic.rs `test_cmp_*` | `C15_is_equal`, `C16_is_greater`, `C17_exact`, `C18_*`. The tests call the functions on words, not the methods, and miss the defect of C17 |
| bytes.rs `test_from_to_bytes_le` | `C40_round_trip`, `C40_bytes_first` |
| strings.rs `test_from_to_bit_str`, `test_from_to_hex_str`, `test_to_from_decimal_str` | `C75_*` (text to value to text), `C38_*` (value to text to value), `C35_from_bit_str`, `C36_from_hex_str`, `C37_total` |
| bigint.rs `test_from_to_big_int`, `test_from_to_big_uint` | `C42_round_trip`, `C41_to_big_uint`, `C41_of_big_uint` |
| tests/value.rs `i64_roundtrip`, `u64_roundtrip`, `i32_to_ibig` | `C05_i64_round_trip_partial`, `C05_u64_round_trip`, `C71_signed_constructors` |
