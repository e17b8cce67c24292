import Verif.Props.TextOps
import Verif.SpecArray
import Verif.Model.Indexed
import Verif.Spec.Tests

/-!
# The repository's own test vectors, on the model

Every test of the repository with concrete inputs, replayed on the model, so that the model and the program agree at least where
the authors wrote down what the program does. These are tests of the model, not proofs of properties: the repository's randomised
tests are covered by the theorems for all inputs (C127 and the table in DESIGN.md). Left out: `type_size` tests (sizes of Rust types).
-/

namespace Baa.Conformance
open Res

/-- The value of a call that neither panics nor returns an error. -/
def val {α : Type} : Res (Except IntErrorKind α) → Option α
  | ok (.ok a) => some a
  | _ => none

/-- The value of a call that does not panic. -/
def get {α : Type} : Res α → Option α
  | ok a => some a
  | _ => none

/-- `from_bit_str(s).unwrap()` -/
def bv (s : List Byte) : BitVecValue := (val (BitVecValue.fromBitStr .debug s)).getD ⟨0, []⟩

/-- `to_bit_str` -/
def bitStr (r : Res BitVecValue) : Res (List Byte) := r.bind BitVecValue.toBitStr

def zeros (n : Nat) : List Byte := List.replicate n (ch '0')
def ones (n : Nat) : List Byte := List.replicate n (ch '1')

/-! ## src/bv/arithmetic.rs -/

/-- `do_test_is_neg_regressions` (455-458): a text of 284 digits that starts with `0`. -/
example : BitVecValue.isNegative .debug (bv (bytesOf "0101101001111010000111000001011010" ++ zeros 250)) = ok false := by
  decide +kernel

/-- `test_arithmetic_shift_right_regression` (564-577). -/
example :
    bitStr (BitVecValue.arithmeticShiftRight .debug (bv (bytesOf "1")) (bv (bytesOf "0"))) = ok (bytesOf "1") ∧
    bitStr (BitVecValue.arithmeticShiftRight .debug (bv (bytesOf "10")) (bv (bytesOf "01"))) = ok (bytesOf "11") ∧
    bitStr (BitVecValue.arithmeticShiftRight .debug (bv (ones 1 ++ zeros 64)) (bv (zeros 64 ++ ones 1))) =
      ok (ones 2 ++ zeros 63) ∧
    bitStr (BitVecValue.arithmeticShiftRight .debug (bv (ones 1 ++ zeros 128)) (bv (zeros 128 ++ ones 1))) =
      ok (ones 2 ++ zeros 127) ∧
    bitStr (BitVecValue.arithmeticShiftRight .debug (bv (ones 1 ++ zeros 128)) (bv (zeros 122 ++ ones 1 ++ zeros 6))) =
      ok (ones 65 ++ zeros 64) ∧
    bitStr (BitVecValue.arithmeticShiftRight .debug (bv (ones 1 ++ zeros 128)) (bv (zeros 121 ++ ones 1 ++ zeros 7))) =
      ok (ones 129) := by decide +kernel

/-- `test_sub_regressions` (704-706): -32 - 32 in 7 bits. -/
example : (do
    let a ← BitVecValue.fromBigInt .debug (-32) 7
    let b ← BitVecValue.fromBigInt .debug 32 7
    BitVecValue.sub .debug a b) = ok ⟨7, [64#64]⟩ := by decide +kernel

/-- `test_mul_regressions` (713-719): 2^40 * 2^40 in 50 bits. -/
example : (do
    let a ← BitVecValue.fromBigInt .debug 1099511627776 50
    BitVecValue.mul .debug a a) = ok ⟨50, [0#64]⟩ := by decide +kernel

/-- `do_test_cmp_greater_signed_regressions` (759-765). -/
example : (do
    let a ← BitVecValue.fromBigInt .debug
      2812269376756553621043437133860079836754636903388049287067766551164406258259928767528960 292
    let b ← BitVecValue.fromBigInt .debug 16927137481 292
    BitVecValue.isGreaterSigned .debug a b) = ok true := by decide +kernel

/-! ## src/bv/io/strings.rs -/

/-- `test_to_bit_str_with_extra_words` (422-426). -/
example : Strings.toBitStr (valueVecZeros 7) 7 = ok (zeros 7) ∧ Strings.toBitStr (valueVecZeros 7) 33 = ok (zeros 33) := by
  decide +kernel

/-- `test_from_to_bit_str_regression` (429-434): `+0`, `-0`, `-1`, `-11`. -/
example :
    (bv (bytesOf "+0")).width = 1 ∧ BitVecValue.toBitStr (bv (bytesOf "+0")) = ok (bytesOf "0") ∧
    (bv (bytesOf "-0")).width = 2 ∧ BitVecValue.toBitStrSigned .debug (bv (bytesOf "-0")) = ok (bytesOf "0") ∧
    BitVecValue.toBitStrSigned .debug (bv (bytesOf "-1")) = ok (bytesOf "-1") ∧
    BitVecValue.toBitStrSigned .debug (bv (bytesOf "-11")) = ok (bytesOf "-11") := by decide +kernel

/-- `from_hex_str(s).unwrap()` -/
def hex (s : String) : BitVecValue := (val (BitVecValue.fromHexStr .debug (bytesOf s))).getD ⟨0, []⟩

/-- `test_from_to_hex_str_regression` (473-483). -/
example : Strings.hexDigitValue (ch 'a') = some 10 ∧ Strings.hexDigitValue (ch 'A') = some 10 ∧
    BitVecValue.toHexStr .debug (hex "a") = ok (bytesOf "a") ∧ BitVecValue.toHexStr .debug (hex "A") = ok (bytesOf "a") ∧
    BitVecValue.toHexStr .debug (hex "0aaaA0a0aAA0aaaA") = ok (bytesOf "0aaaa0a0aaa0aaaa") ∧
    BitVecValue.toHexStr .debug (hex "+A") = ok (bytesOf "a") ∧
    BitVecValue.toHexStr .debug (hex "0") = ok (bytesOf "0") ∧
    BitVecValue.toHexStr .debug (hex "+aaaa0aa0aaaa0aaa00a0aaaaaa00aa00") = ok (bytesOf "aaaa0aa0aaaa0aaa00a0aaaaaa00aa00") ∧
    (hex "-aaaa00aaaaaaaaa0").width = 65 ∧
    BitVecValue.toHexStrSigned .debug (hex "-aaaa00aaaaaaaaa0") = ok (bytesOf "-aaaa00aaaaaaaaa0") := by decide +kernel

/-- `test_to_hex_str` (486-508). -/
example : Strings.toHexStr .debug [0#64] 7 = ok (bytesOf "00") ∧ Strings.toHexStr .debug [0#64] 33 = ok (zeros 9) ∧
    Strings.toHexStr .debug [0xa4aa78#64] 24 = ok (bytesOf "a4aa78") ∧
    Strings.toHexStr .debug [0xaaaaaaaaaaaaaaaa#64, 0#64] 71 = ok (bytesOf "00aaaaaaaaaaaaaaaa") ∧
    Strings.toHexStr .debug [0xaaaaaaaaaaaaaaaa#64, 0#64] 97 = ok (zeros 9 ++ bytesOf "aaaaaaaaaaaaaaaa") ∧
    Strings.toHexStr .debug [0xaaaaaaaaaaaaaaaa#64, 0xa4aa78#64] 88 = ok (bytesOf "a4aa78aaaaaaaaaaaaaaaa") ∧
    Strings.toHexStr .debug [768603298337958570#64] 64 = ok (bytesOf "0aaaa0a0aaa0aaaa") := by decide +kernel

/-- `test_to_from_dec_str_regression` (518-521): the empty string and `1000000`. -/
example :
    BitVecValue.toDecStr .debug (bv (bytesOf "1000000")) = ok (bytesOf "64") ∧
    val (BitVecValue.fromStrRadix .debug (bytesOf "64") 10 7) = some (bv (bytesOf "1000000")) ∧
    bv [] = ⟨0, []⟩ ∧ val (BitVecValue.fromBitStr .debug []) = some ⟨0, []⟩ ∧
    (BitVecValue.toDecStr .debug (bv [])).bind (fun s => BitVecValue.fromStrRadix .debug s 10 0) = ok (.ok (bv [])) := by
  refine ⟨?_, ?_, ?_, ?_, rfl⟩ <;> decide +kernel

/-! ## src/bv/io/bytes.rs -/

/-- `test_to_bytes_le`, `test_from_bytes_le` (47-59), `test_empty`, `test_zero` (77-84). -/
example : Bytes.toBytesLe [0x1234#64] 16 = [0x34#8, 0x12#8] ∧
    Bytes.toBytesLe [0x1234#64, 0xf#64] 72 = [0x34#8, 0x12#8, 0#8, 0#8, 0#8, 0#8, 0#8, 0#8, 0xf#8] ∧
    Bytes.fromBytesLe .debug [0x34#8, 0x12#8] 16 [0#64] = ok [0x1234#64] ∧
    Bytes.fromBytesLe .debug [] 0 [] = ok [] ∧ Bytes.toBytesLe [] 0 = [] ∧
    Bytes.fromBytesLe .debug [0#8] 1 [0#64] = ok [0#64] ∧ Bytes.toBytesLe [0#64] 1 = [0#8] := by decide +kernel

/-! ## src/bv/owned.rs, src/bv/ops.rs, tests/value.rs -/

/-- `test_tru_fals` (210-213). -/
example : (BitVecValue.tru .debug).bind BitVecValue.toBool = ok (some true) ∧
    (BitVecValue.fals .debug).bind BitVecValue.toBool = ok (some false) := by decide +kernel

/-- `test_from_u64_in_debug_mode`, `test_from_u64_in_release_mode` (215-231). -/
example : Panics (BitVecValue.fromU64 .debug 16#64 4) ∧
    (get (BitVecValue.fromU64 .release 16#64 4)).bind BitVecValue.toU64 = some 0#64 :=
  ⟨⟨.debugAssert, by decide +kernel⟩, by decide +kernel⟩

/-- `test_from_i64_in_debug_mode`, `test_from_i64_in_release_mode` (233-251). -/
example : BitVecValue.fromI64 .debug (-8#64) 4 = ok ⟨4, [8#64]⟩ ∧ BitVecValue.fromI64 .debug 7#64 4 = ok ⟨4, [7#64]⟩ ∧
    Panics (BitVecValue.fromI64 .debug (-9#64) 4) ∧
    (get (BitVecValue.fromI64 .release (-9#64) 4)).bind BitVecValue.toU64 = some 7#64 :=
  ⟨by decide +kernel, by decide +kernel, ⟨.debugAssert, by decide +kernel⟩, by decide +kernel⟩

/-- `test_ones` (254-259). -/
example : BitVecValue.ones .debug 3 = ok ⟨3, [0b111#64]⟩ ∧
    BitVecValue.ones .debug 67 = ok ⟨67, [BitVec.allOnes 64, 0b111#64]⟩ := by decide +kernel

/-- `assign_bit_vector` (src/bv/ops.rs:500-515). -/
example : (do
    let src ← BitVecValue.fromU64 .debug 1111111111#64 123
    let dst ← BitVecValue.assign .debug (BitVecValue.zero 123) src
    let src2 ← BitVecValue.fromU64 .debug 2222222222#64 123
    let dst ← BitVecValue.assign .debug dst src2
    ok (BitVecValue.toU64 src2, BitVecValue.toU64 dst)) = ok (some 2222222222#64, some 2222222222#64) := by decide +kernel

/-- `i64_roundtrip_regression`, `i32_to_ibig_regression` (tests/value.rs:9-22). -/
example : (BitVecValue.fromI64 .debug 0#64 64).bind (BitVecValue.toI64 .debug) = ok (some 0#64) ∧
    (BitVecValue.fromI64 .debug (-1#64) 64).bind (BitVecValue.toI64 .debug) = ok (some (-1#64)) ∧
    (BitVecValue.fromI64 .debug 0#64 32).bind (BitVecValue.toBigInt .debug) = ok 0 := by decide +kernel

/-! ## src/bv/indexed.rs -/

/-- `test_bv_index` (303-318). -/
example : (do
    let v ← BitVecValue.fromU64 .debug 123#64 8
    Indexed.assignAt .debug (List.replicate 16 0#64) ⟨0, 8⟩ v) = ok (123#64 :: List.replicate 15 0#64) ∧
    Indexed.assignFrom .debug (123#64 :: 111#64 :: List.replicate 14 0#64) ⟨0, 8⟩ ⟨1, 8⟩ =
      ok (111#64 :: 111#64 :: List.replicate 14 0#64) := by decide +kernel

/-- `test_split_borrow` (321-334). -/
example : Indexed.splitBorrow1 [0#64, 1#64, 2#64, 3#64] (0, 1) (2, 4) = ok ([0#64], [2#64, 3#64]) ∧
    Indexed.splitBorrow1 [0#64, 1#64, 2#64, 3#64] (2, 4) (0, 2) = ok ([2#64, 3#64], [0#64, 1#64]) ∧
    Indexed.splitBorrow2 [0#64, 1#64, 2#64, 3#64] (2, 4) (1, 2) (0, 2) =
      ok ([2#64, 3#64], [1#64], [0#64, 1#64]) := by decide +kernel

/-- `test_interner` (337-351). -/
example :
    (get (ValueInterner.getIndex .debug .new ⟨1, [1#64]⟩)).map (·.2.index) = some 1 ∧
    (get (ValueInterner.getIndex .debug .new ⟨1, [0#64]⟩)).map (·.2.index) = some 0 ∧
    (get (ValueInterner.getIndex .debug .new ⟨4, [0#64]⟩)).map (ValueInterner.isZero ·.2) = some true ∧
    (get (ValueInterner.getIndex .debug .new ⟨4, [0#64]⟩)).map (ValueInterner.isOne ·.2) = some false ∧
    (get (ValueInterner.getIndex .debug .new ⟨4, [1#64]⟩)).map (ValueInterner.isOne ·.2) = some true := by decide +kernel

/-! ## src/array/owned.rs, tests/arrays.rs -/

/-- `test_index_width_from_len` (879-886). -/
example : [0, 1, 2, 3, 8, 9].map DenseArrayValue.indexWidthFromLen = [0, 0, 1, 2, 3, 4] := by decide +kernel

/-- Convert to sparse and back: is the sparse array equal to the original, and is the dense one? -/
def convert (dense : Res DenseArrayValue) : Res (Option Bool × Option Bool) := do
  let dense0 ← dense
  let sparse0 ← DenseArrayValue.toSparse .debug listEnv dense0
  let dense1 ← DenseArrayValue.ofSparse .debug listEnv sparse0
  let a ← isEqualMixed .debug listEnv dense0 sparse0
  let b ← DenseArrayValue.isEqual .debug dense0 dense1
  ok (a, b)

/-- `test_conversions_bool` (889-895). -/
example : convert (DenseArrayValue.ofBools .debug [true, false, false, false, true]) = ok (some true, some true) := by
  decide +kernel

/-- `test_conversions_u8` (898-904). -/
example : convert (DenseArrayValue.ofU8s .debug [1#8, 2#8, 3#8, 4#8, 5#8, 6#8, 1#8, 1#8, 1#8]) = ok (some true, some true) := by
  decide +kernel

/-- `test_conversions_u64` (907-913). -/
example : convert (DenseArrayValue.ofU64s .debug [1#64, 2#64, 3#64, 4#64, 5#64, 6#64, 1#64, 1#64, 1#64]) =
    ok (some true, some true) := by decide +kernel

/-- `test_sparse_array_conversion_and_access` (tests/arrays.rs:7-18). -/
example : (do
    let dense ← ArrayValue.ofU8s .debug [1#8, 0#8, 2#8, 0#8, 3#8, 0#8, 5#8, 0#8]
    let sparse ← ArrayValue.toSparse .debug listEnv dense
    let default ← SparseArrayValue.default .debug sparse
    let entries ← SparseArrayValue.nonDefaultEntries .debug listEnv sparse
    ok (default, (entries.map fun e => (e.1.words, e.2.words)).length,
      [(0, 1), (2, 2), (4, 3), (6, 5)].all fun (k, v) =>
        entries.contains (⟨3, [BitVec.ofNat 64 k]⟩, ⟨8, [BitVec.ofNat 64 v]⟩))) =
    ok (⟨8, [0#64]⟩, 4, true) := by decide +kernel

/-! ## Arguments on which a randomised test has failed in the past

The repository keeps them in `proptest-regressions` and runs the tests on them again. Left out: arguments that the generators no longer
yield (a shift amount that does not fit into the width, a sign without digits). -/

/-- The bytes of a string. -/
def bytes (s : String) : List Byte := s.toList.map ch

/-- proptest-regressions/arithmetic.txt, proptest-regressions/bv/arithmetic.txt: tests on texts. -/
example : ∀ m ∈ [Mode.debug, Mode.release],
    Tests.isNeg m (bytes "10") = ok () ∧
    Tests.concat m (bytes "0") (bytes "0") = ok () ∧
    Tests.slice m (bytes "11") 0 0 = ok () ∧
    (∀ a ∈ [(bytes "10", 1), (bytes "00", 2)], Tests.shiftRight m a.1 a.2 = ok () ∧ Tests.shiftLeft m a.1 a.2 = ok () ∧
      Tests.arithmeticShiftRight m a.1 a.2 = ok ()) ∧
    Tests.zeroExtend m (bytes "10") 0 = ok () ∧
    Tests.signExtend m (bytes "10") 0 = ok () := by decide +kernel

/-- proptest-regressions/arithmetic.txt: tests on numbers. -/
example : ∀ m ∈ [Mode.debug, Mode.release],
    ∀ a ∈ [((-1809251394333065553493296640760748560207343510400633813116524750123642650624 : Int),
      (-13072200352637633856437575721850971486238235296548645949473234324376738805280 : Int), 254), (-32, 32, 7)],
      Tests.add m a.1 a.2.1 a.2.2 = ok () ∧ Tests.sub m a.1 a.2.1 a.2.2 = ok () ∧
      Tests.cmpGreater m a.1 a.2.1 a.2.2 = ok () ∧ Tests.cmpGreaterSigned m a.1 a.2.1 a.2.2 = ok () ∧
      Tests.cmpGreaterEqual m a.1 a.2.1 a.2.2 = ok () ∧ Tests.cmpGreaterEqualSigned m a.1 a.2.1 a.2.2 = ok () ∧
      Tests.cmpEqual m a.1 a.2.1 a.2.2 = ok () ∧ Tests.cmpEqualSigned m a.1 a.2.1 a.2.2 = ok () := by decide +kernel

/-- proptest-regressions/io/strings.txt, proptest-regressions/bv/io/strings.txt. -/
example : ∀ m ∈ [Mode.debug, Mode.release],
    (∀ s ∈ ["", "0", "10", "-0"], Tests.fromToBitStr m (bytes s) = ok () ∧ Tests.toFromDecimalStr m (bytes s) = ok ()) ∧
    (∀ s ∈ ["", "0", "10", "-0", "+Aaaa0AA0aaaA0aAA00A0aAaaaa00aA00", "-aAaa00aAaaAAaAa0"],
      Tests.fromToHexStr m (bytes s) = ok ()) := by decide +kernel

/-- proptest-regressions/io/bytes.txt, proptest-regressions/io/bigint.txt, proptest-regressions/bv/borrowed.txt,
tests/value.proptest-regressions. -/
example : ∀ m ∈ [Mode.debug, Mode.release],
    Tests.fromToBytesLe m [] = ok () ∧ Tests.fromToBigInt m 0 = ok () ∧ Tests.fromToBigUint m 0 = ok () ∧
    Tests.checkHash m (bytes "10") = ok () ∧ Tests.i64Roundtrip m 0#64 = ok () ∧ Tests.u64Roundtrip m 0#64 = ok () ∧
    Tests.i32ToIbig m 0#32 = ok () := by decide +kernel

end Baa.Conformance
