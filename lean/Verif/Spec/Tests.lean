import Verif.Model.Indexed
import Verif.Spec.Text

/-!
# The randomised tests of the repository, as programs

The repository states much of what it expects of itself as property tests: a function that computes something with the library and
compares the result with an independently computed one, run on arguments drawn at random. Here each of these functions is written
down, line by line, as a program that either returns (the test passes on these arguments) or panics (the test fails). The functions
under test are those of the model; the expected results are the authors'.

`num_bigint::BigInt` is `Int`, `num_bigint::BigUint` is `Nat`, `String` is the list of its bytes.
-/

namespace Baa
namespace Tests
open Res

/-! ## Helpers of the standard library and of `num_bigint` -/

/-- `assert_eq!(a, b)`. -/
def assertEq {α : Type} [DecidableEq α] (a b : α) : Res Unit := assert (decide (a = b))

/-- `result.unwrap()`. -/
def unwrap {α : Type} : Except IntErrorKind α → Res α
  | .ok a => ok a
  | .error _ => panic .unwrap

/-- `option.unwrap()`. -/
def unwrapOption {α : Type} : Option α → Res α
  | some a => ok a
  | none => panic .unwrap

/-- `BigUint::bits`: the number of binary digits, 0 for 0. Also `8 - byte.leading_zeros()` for a byte. -/
def bits (n : Nat) : Nat := if n = 0 then 0 else Nat.log2 n + 1

/-- `value & ((1 << width) - 1)` on a `BigInt`, which behaves like an infinite two's complement number, and then `magnitude()`. -/
def masked (value : Int) (width : Nat) : Nat := (value % 2 ^ width).natAbs

/-- `assert_unused_bits_zero` (src/bv/arithmetic.rs:418-427). -/
def assertUnusedBitsZero (value : List Word) (width : Nat) : Res Unit :=
  let offset := width % BITS
  if offset > 0 then do
    let msb ← lastU value
    let mk ← Arith.mask offset
    assertEq (msb &&& ~~~mk) 0#64
  else ok ()

/-! ## src/bv/arithmetic.rs -/

/-- `from_bit_str` of the tests (src/bv/arithmetic.rs:436-441). -/
def fromBitStr (m : Mode) (s : List Byte) : Res (List Word × Nat) := do
  let width ← Strings.determineWidth m s 2
  let (out, r) ← Strings.fromStrRadix m s 2 (valueVecZeros width) width
  unwrap r
  ok (out, width)

/-- `do_test_is_neg` (src/bv/arithmetic.rs:447-452). -/
def isNeg (m : Mode) (a : List Byte) : Res Unit := do
  let expected := a.head? == some (ch '1')
  let (aVec, aWidth) ← fromBitStr m a
  let actual ← Arith.isNeg m aVec aWidth
  assertEq actual expected

/-- `do_test_concat` (src/bv/arithmetic.rs:460-470). -/
def concat (m : Mode) (a b : List Byte) : Res Unit := do
  let (aVec, aWidth) ← fromBitStr m a
  let (bVec, bWidth) ← fromBitStr m b
  let (cVec, cWidth) ← fromBitStr m (List.replicate (a.length + b.length) (ch '1'))
  let w ← addC m U32 aWidth bWidth
  assertEq cWidth w
  let cVec ← Arith.concat m cVec aVec bVec bWidth
  assertUnusedBitsZero cVec cWidth
  let actual ← Strings.toBitStr cVec cWidth
  assertEq actual (a ++ b)

/-- `do_test_slice` (src/bv/arithmetic.rs:472-490). -/
def slice (m : Mode) (src : List Byte) (hi lo : Nat) : Res Unit := do
  assert (!src.isEmpty)
  let (srcVec, srcWidth) ← fromBitStr m src
  assert (decide (hi ≥ lo))
  assert (decide (hi < srcWidth))
  let d ← subC m U32 hi lo
  let resWidth ← addC m U32 d 1
  let resVec ← Arith.slice m (List.replicate (divCeil resWidth BITS) 0#64) srcVec hi lo
  assertUnusedBitsZero resVec resWidth
  let k ← subC m U32 srcWidth 1
  let k ← subC m U32 k hi
  let expected := (src.drop k).take resWidth
  let actual ← Strings.toBitStr resVec resWidth
  assertEq actual expected

/-- `width_int_to_bit_str` (src/bv/arithmetic.rs:501-513). -/
def widthIntToBitStr (value width : Nat) : Res (List Byte) := do
  (if width < 32 then do
    let mk ← Arith.mask width
    assertEq (BitVec.ofNat 64 value &&& mk) (BitVec.ofNat 64 value)
  else ok ())
  let words ← setIdx (valueVecZeros width) 0 (BitVec.ofNat 64 value)
  Strings.toBitStr words width

/-- `do_test_shift` (src/bv/arithmetic.rs:516-550). -/
def shift (m : Mode) (src : List Byte) (amount : Nat) (right signed : Bool) : Res Unit := do
  assert (!(!right && signed))
  let (aVec, aWidth) ← fromBitStr m src
  let b ← widthIntToBitStr amount aWidth
  let (bVec, bWidth) ← fromBitStr m b
  assertEq aWidth bWidth
  let resVec := List.replicate aVec.length 0#64
  let resVec ←
    (if right then
      if signed then Arith.arithmeticShiftRight m resVec aVec bVec aWidth
      else do
        let (r, _) ← Arith.shiftRight m resVec aVec bVec aWidth
        ok r
    else Arith.shiftLeft m resVec aVec bVec aWidth)
  assertUnusedBitsZero resVec aWidth
  let paddingLen := min amount aWidth
  let padChar ← (if signed then unwrapOption src.head? else ok (ch '0'))
  let padding := List.replicate paddingLen padChar
  let expected ←
    (if right then do
      let n ← subC m U64 aWidth paddingLen
      ok (padding ++ src.take n)
    else ok (src.drop paddingLen ++ padding))
  let actual ← Strings.toBitStr resVec aWidth
  assertEq actual expected

/-- `do_test_shift_right` (src/bv/arithmetic.rs:552-554). -/
def shiftRight (m : Mode) (src : List Byte) (amount : Nat) : Res Unit := shift m src amount true false

/-- `do_test_shift_left` (src/bv/arithmetic.rs:555-557). -/
def shiftLeft (m : Mode) (src : List Byte) (amount : Nat) : Res Unit := shift m src amount false false

/-- `do_test_arithmetic_shift_right` (src/bv/arithmetic.rs:559-561). -/
def arithmeticShiftRight (m : Mode) (src : List Byte) (amount : Nat) : Res Unit := shift m src amount true true

/-- `do_test_zero_ext` (src/bv/arithmetic.rs:590-599). -/
def zeroExtend (m : Mode) (src : List Byte) (amount : Nat) : Res Unit := do
  let (srcVec, srcWidth) ← fromBitStr m src
  let resWidth ← addC m U32 srcWidth amount
  let resVec ← Arith.zeroExtend (valueVecZeros resWidth) srcVec
  assertUnusedBitsZero resVec resWidth
  let actual ← Strings.toBitStr resVec resWidth
  assertEq actual (List.replicate amount (ch '0') ++ src)

/-- `do_test_sign_ext` (src/bv/arithmetic.rs:601-612). -/
def signExtend (m : Mode) (src : List Byte) (amount : Nat) : Res Unit := do
  assert (!src.isEmpty)
  let (srcVec, srcWidth) ← fromBitStr m src
  let resWidth ← addC m U32 srcWidth amount
  let resVec ← Arith.signExtend m (valueVecZeros resWidth) srcVec srcWidth resWidth
  assertUnusedBitsZero resVec resWidth
  let signBit ← unwrapOption src.head?
  let actual ← Strings.toBitStr resVec resWidth
  assertEq actual (List.replicate amount signBit ++ src)

/-- `from_big_int` of the tests (src/bv/arithmetic.rs:650-660). -/
def fromBigInt (m : Mode) (value : Int) (width : Nat) : Res (List Word) := do
  assert (decide (bits value.natAbs < width))
  Big.fromBigInt m value width (valueVecZeros width)

/-- `from_big_uint` of the tests (src/bv/arithmetic.rs:662-672). -/
def fromBigUint (m : Mode) (value : Nat) (width : Nat) : Res (List Word) := do
  assert (decide (bits value ≤ width))
  Big.fromBigUint m value width (valueVecZeros width)

/-- `do_test_arith` (src/bv/arithmetic.rs:674-693). -/
def arith (m : Mode) (a b : Int) (width : Nat) (our : List Word → List Word → List Word → Nat → Res (List Word))
    (big : Int → Int → Int) : Res Unit := do
  let aVec ← fromBigInt m a width
  let bVec ← fromBigInt m b width
  let resVec ← our (valueVecZeros width) aVec bVec width
  assertUnusedBitsZero resVec width
  let expected ← fromBigUint m (masked (big a b) width) width
  assertEq expected resVec

/-- `do_test_add` (src/bv/arithmetic.rs:695-697). -/
def add (m : Mode) (a b : Int) (width : Nat) : Res Unit := arith m a b width (Arith.add m) fun a b => a + b

/-- `do_test_sub` (src/bv/arithmetic.rs:699-701). -/
def sub (m : Mode) (a b : Int) (width : Nat) : Res Unit := arith m a b width (Arith.sub m) fun a b => a - b

/-- `do_test_mul` (src/bv/arithmetic.rs:708-710). -/
def mul (m : Mode) (a b : Int) (width : Nat) : Res Unit := arith m a b width (Arith.mul m) fun a b => a * b

/-- `do_test_cmp_signed` (src/bv/arithmetic.rs:721-733). -/
def cmpSigned (m : Mode) (a b : Int) (width : Nat) (our : List Word → List Word → Nat → Res Bool) (big : Int → Int → Bool) :
    Res Unit := do
  let aVec ← fromBigInt m a width
  let bVec ← fromBigInt m b width
  let res ← our aVec bVec width
  assertEq (big a b) res

/-- `do_test_cmp_unsigned` (src/bv/arithmetic.rs:735-749). -/
def cmpUnsigned (m : Mode) (a b : Int) (width : Nat) (our : List Word → List Word → Nat → Res Bool) (big : Nat → Nat → Bool) :
    Res Unit := do
  let aVec ← fromBigUint m a.natAbs width
  let bVec ← fromBigUint m b.natAbs width
  let res ← our aVec bVec width
  assertEq (big a.natAbs b.natAbs) res

/-- `do_test_cmp_greater` (src/bv/arithmetic.rs:751-753). -/
def cmpGreater (m : Mode) (a b : Int) (width : Nat) : Res Unit :=
  cmpUnsigned m a b width (fun a b _ => ok (Arith.cmpGreater a b)) fun a b => decide (a > b)

/-- `do_test_cmp_greater_signed` (src/bv/arithmetic.rs:754-756). -/
def cmpGreaterSigned (m : Mode) (a b : Int) (width : Nat) : Res Unit :=
  cmpSigned m a b width (Arith.cmpGreaterSigned m) fun a b => decide (a > b)

/-- `do_test_cmp_greater_equal` (src/bv/arithmetic.rs:767-775). -/
def cmpGreaterEqual (m : Mode) (a b : Int) (width : Nat) : Res Unit :=
  cmpUnsigned m a b width (fun a b _ => ok (Arith.cmpGreaterEqual a b)) fun a b => decide (a ≥ b)

/-- `do_test_cmp_greater_equal_signed` (src/bv/arithmetic.rs:776-778). -/
def cmpGreaterEqualSigned (m : Mode) (a b : Int) (width : Nat) : Res Unit :=
  cmpSigned m a b width (Arith.cmpGreaterEqualSigned m) fun a b => decide (a ≥ b)

/-- `do_test_cmp_equal` (src/bv/arithmetic.rs:780-782). -/
def cmpEqual (m : Mode) (a b : Int) (width : Nat) : Res Unit :=
  cmpUnsigned m a b width (fun a b _ => ok (Arith.cmpEqual a b)) fun a b => decide (a = b)

/-- `do_test_cmp_equal_signed` (src/bv/arithmetic.rs:783-785). -/
def cmpEqualSigned (m : Mode) (a b : Int) (width : Nat) : Res Unit :=
  cmpSigned m a b width (fun a b _ => ok (Arith.cmpEqual a b)) fun a b => decide (a = b)

/-! ## src/bv/io/strings.rs -/

/-- The comparison at the end of `do_test_from_to_bit_str` and `do_test_from_to_hex_str` (src/bv/io/strings.rs:407-418, 459-469);
`lower` is `to_ascii_lowercase` for the latter. -/
def expectText (lower : List Byte → List Byte) (s sOut : List Byte) : Res Unit :=
  match s with
  | [] => assertEq (lower s) sOut
  | c :: rest =>
    if c = ch '+' then assertEq (lower rest) sOut
    else if c = ch '-' then
      if rest.all fun c => c == ch '0' then assertEq (lower rest) sOut else assertEq (lower s) sOut
    else assertEq (lower s) sOut

/-- `do_test_from_to_bit_str` (src/bv/io/strings.rs:386-419). -/
def fromToBitStr (m : Mode) (s : List Byte) : Res Unit := do
  let out := List.replicate (divCeil s.length BITS) 0#64
  let width ← Strings.determineWidth m s 2
  (if s.head? = some (ch '+') then do
    let n ← subC m U64 s.length 1
    assertEq width n
  else assertEq width s.length)
  let (out, r) ← Strings.fromStrRadix m s 2 out width
  unwrap r
  assertUnusedBitsZero out width
  let sOut ← (if s.head? = some (ch '-') then Strings.toBitStrSigned m out width else Strings.toBitStr out width)
  expectText id s sOut

/-- `do_test_from_to_hex_str` (src/bv/io/strings.rs:436-470). -/
def fromToHexStr (m : Mode) (s : List Byte) : Res Unit := do
  let width ← Strings.determineWidth m s 16
  (if s.head? = some (ch '+') then do
    let n ← subC m U64 s.length 1
    let n ← mulC m U64 n 4
    assertEq width n
  else if s.head? = some (ch '-') then do
    let n ← subC m U64 s.length 1
    let n ← mulC m U64 n 4
    let n ← addC m U64 n 1
    assertEq width n
  else do
    let n ← mulC m U64 s.length 4
    assertEq width n)
  let out := List.replicate (divCeil width BITS) 0#64
  let (out, r) ← Strings.fromStrRadix m s 16 out width
  unwrap r
  assertUnusedBitsZero out width
  let sOut ← (if s.head? = some (ch '-') then Strings.toHexStrSigned m out width else Strings.toHexStr m out width)
  expectText (fun t => t.map asciiLower) s sOut

/-- `do_test_to_from_decimal_str` (src/bv/io/strings.rs:510-515). -/
def toFromDecimalStr (m : Mode) (s : List Byte) : Res Unit := do
  let r ← BitVecValue.fromBitStr m s
  let expected ← unwrap r
  let decStr ← BitVecValue.toDecStr m expected
  let r ← BitVecValue.fromStrRadix m decStr 10 expected.width
  let actual ← unwrap r
  let eq ← BitVecValue.eqOwned m expected actual
  assert eq

/-! ## src/bv/io/bytes.rs -/

/-- The width that `do_test_from_to_bytes_le` chooses (src/bv/io/bytes.rs:62-69): up to the highest bit set in the last byte. -/
def bytesWidth (m : Mode) (b : List Byte) : Res Nat :=
  match b.getLast? with
  | none => ok 0
  | some last => do
    let n ← subC m U64 b.length 1
    let n ← mulC m U64 n 8
    let n ← addC m U64 n (max (bits last.toNat) 1)
    ok (n % U32)

/-- `do_test_from_to_bytes_le` (src/bv/io/bytes.rs:61-75). -/
def fromToBytesLe (m : Mode) (b : List Byte) : Res Unit := do
  let width ← bytesWidth m b
  let out := List.replicate (divCeil width BITS) 0#64
  let out ← Bytes.fromBytesLe m b width out
  assertUnusedBitsZero out width
  assertEq b (Bytes.toBytesLe out width)

/-! ## src/bv/io/bigint.rs -/

/-- `do_test_from_to_big_int` (src/bv/io/bigint.rs:122-129). -/
def fromToBigInt (m : Mode) (value : Int) : Res Unit := do
  let width ← Big.countBigIntBits m value
  let out ← Big.fromBigInt m value width (List.replicate (divCeil width BITS) 0#64)
  assertUnusedBitsZero out width
  let valueOut ← Big.toBigInt m out width
  assertEq value valueOut

/-- `do_test_from_to_big_uint` (src/bv/io/bigint.rs:131-138). -/
def fromToBigUint (m : Mode) (value : Nat) : Res Unit := do
  let width ← Big.countBigUintBits m value
  let out ← Big.fromBigUint m value width (List.replicate (divCeil width BITS) 0#64)
  assertUnusedBitsZero out width
  assertEq value (Big.toBigUint out)

/-! ## src/bv/borrowed.rs, src/bv/indexed.rs, tests/value.rs -/

/-- `test_is_neg` of src/bv/borrowed.rs (143-146) with `check_hash` (120-126): what is fed to the hasher is compared instead of the
hash. -/
def checkHash (m : Mode) (a : List Byte) : Res Unit := do
  let r ← BitVecValue.fromBitStr m a
  let value ← unwrap r
  let re := BitVecValue.ofRef value
  let eq ← BitVecValue.eqOwned m value re
  assert eq
  assertEq value.hashOwned re.hashRef

/-- `interner_should_return_same_value` (src/bv/indexed.rs:358-367). -/
def internerSame (m : Mode) (value : Int) (width : Nat) : Res Unit := do
  let v ← BitVecValue.fromBigInt m value width
  let (intern, i0) ← ValueInterner.getIndex m .new v
  let v ← BitVecValue.fromBigInt m value width
  let (intern, i1) ← ValueInterner.getIndex m intern v
  assertEq i0.index i1.index
  assertEq i0.width i1.width
  let v0 ← Indexed.getRef intern.words i0
  let v ← BitVecValue.fromBigInt m value width
  let eq ← BitVecValue.eqOwned m v v0
  assert eq

/-- `i64_roundtrip` (tests/value.rs:26-29). -/
def i64Roundtrip (m : Mode) (value : Word) : Res Unit := do
  let v ← BitVecValue.fromI64 m value 64
  let r ← BitVecValue.toI64 m v
  let r ← unwrapOption r
  assertEq r value

/-- `u64_roundtrip` (tests/value.rs:32-35). -/
def u64Roundtrip (m : Mode) (value : Word) : Res Unit := do
  let v ← BitVecValue.fromU64 m value 64
  let r ← unwrapOption v.toU64
  assertEq r value

/-- `i32_to_ibig` (tests/value.rs:38-42); `input as i64` extends the sign. -/
def i32ToIbig (m : Mode) (input : BitVec 32) : Res Unit := do
  let v ← BitVecValue.fromI64 m (input.signExtend 64) 32
  let z ← BitVecValue.toBigInt m v
  assertEq z input.toInt

end Tests

/-! ## The arguments the tests are given -/

/-- `"[01]+"` (src/bv/arithmetic.rs:443, src/bv/borrowed.rs:135), without the limit that `proptest` puts on repetitions. -/
def BitText (s : List Byte) : Prop := s ≠ [] ∧ ∀ c ∈ s, c = ch '0' ∨ c = ch '1'

/-- `"[01a-fA-F]+"` (src/bv/io/strings.rs:529). -/
def HexText (s : List Byte) : Prop :=
  s ≠ [] ∧ ∀ c ∈ s, c = ch '0' ∨ c = ch '1' ∨ (ch 'a').toNat ≤ c.toNat ∧ c.toNat ≤ (ch 'f').toNat ∨
    (ch 'A').toNat ≤ c.toNat ∧ c.toNat ≤ (ch 'F').toNat

/-- `"(([-+])?D)|()"`: nothing, or an optional sign and digits `D` (src/bv/io/strings.rs:525, 529, 533). -/
def OptionalSign (D : List Byte → Prop) (s : List Byte) : Prop :=
  s = [] ∨ D s ∨ ∃ ds, D ds ∧ (s = ch '+' :: ds ∨ s = ch '-' :: ds)

/-- `gen_big_int(width)` (src/bv/arithmetic.rs:628-635), for any width that a value can have. -/
def BigIntOf (width : Nat) (value : Int) : Prop := 0 < width ∧ width < 2 ^ 32 ∧ value.natAbs < 2 ^ (width - 1)

/-- A test: what its arguments can be, and what it does with them. Arguments that would need a value of more than `2^32 - 1` bits are
left out. -/
structure RandomTest where
  Args : Type
  generated : Args → Prop
  run : Mode → Args → Res Unit

/-- The test passes on all its arguments, in all builds. -/
def RandomTest.Passes (t : RandomTest) : Prop := ∀ m a, t.generated a → t.run m a = .ok ()

namespace Tests

/-- src/bv/arithmetic.rs:791-793. -/
def is_neg : RandomTest := ⟨List Byte, fun a => BitText a ∧ a.length < 2 ^ 32, isNeg⟩

/-- src/bv/arithmetic.rs:796-798. -/
def test_concat : RandomTest :=
  ⟨List Byte × List Byte, fun a => BitText a.1 ∧ BitText a.2 ∧ a.1.length + a.2.length < 2 ^ 32, fun m a => concat m a.1 a.2⟩

/-- src/bv/arithmetic.rs:801-803: the generator `slice_args` (492-499) keeps both positions inside. -/
def test_slice : RandomTest :=
  ⟨List Byte × Nat × Nat, fun a => BitText a.1 ∧ a.1.length < 2 ^ 32 ∧ a.2.1 < a.1.length ∧ a.2.2 ≤ a.2.1,
    fun m a => slice m a.1 a.2.1 a.2.2⟩

/-- The arguments of a shift (`shift_args`, src/bv/arithmetic.rs:580-588): the amount is a number of the width of the text. -/
def ShiftArgs (a : List Byte × Nat) : Prop := BitText a.1 ∧ a.1.length < 2 ^ 32 ∧ a.2 < 2 ^ 32 ∧ a.2 < 2 ^ a.1.length

/-- src/bv/arithmetic.rs:806-808. -/
def test_shift_right : RandomTest := ⟨List Byte × Nat, ShiftArgs, fun m a => shiftRight m a.1 a.2⟩

/-- src/bv/arithmetic.rs:811-813. -/
def test_shift_left : RandomTest := ⟨List Byte × Nat, ShiftArgs, fun m a => shiftLeft m a.1 a.2⟩

/-- src/bv/arithmetic.rs:816-818. -/
def test_arithmetic_shift_right : RandomTest := ⟨List Byte × Nat, ShiftArgs, fun m a => arithmeticShiftRight m a.1 a.2⟩

/-- src/bv/arithmetic.rs:821-823. -/
def test_zero_extend : RandomTest :=
  ⟨List Byte × Nat, fun a => BitText a.1 ∧ a.1.length + a.2 < 2 ^ 32, fun m a => zeroExtend m a.1 a.2⟩

/-- src/bv/arithmetic.rs:826-828. -/
def test_sign_extend : RandomTest :=
  ⟨List Byte × Nat, fun a => BitText a.1 ∧ a.1.length + a.2 < 2 ^ 32, fun m a => signExtend m a.1 a.2⟩

/-- A test on two numbers and a width (`gen_big_int_pair`, src/bv/arithmetic.rs:638-648: one number may be drawn from a smaller
range). -/
def pairTest (run : Mode → Int → Int → Nat → Res Unit) : RandomTest :=
  ⟨Int × Int × Nat, fun a => BigIntOf a.2.2 a.1 ∧ BigIntOf a.2.2 a.2.1, fun m a => run m a.1 a.2.1 a.2.2⟩

/-- src/bv/arithmetic.rs:831-844: `test_add`, `test_sub`, `test_mul` (the last one marked `ignore`). -/
def test_add : RandomTest := pairTest add
@[inherit_doc test_add] def test_sub : RandomTest := pairTest sub
@[inherit_doc test_add] def test_mul : RandomTest := pairTest mul

/-- src/bv/arithmetic.rs:847-874. -/
def test_cmp_greater : RandomTest := pairTest cmpGreater
@[inherit_doc test_cmp_greater] def test_cmp_greater_signed : RandomTest := pairTest cmpGreaterSigned
@[inherit_doc test_cmp_greater] def test_cmp_greater_equal : RandomTest := pairTest cmpGreaterEqual
@[inherit_doc test_cmp_greater] def test_cmp_greater_equal_signed : RandomTest := pairTest cmpGreaterEqualSigned
@[inherit_doc test_cmp_greater] def test_cmp_equal : RandomTest := pairTest cmpEqual
@[inherit_doc test_cmp_greater] def test_cmp_equal_signed : RandomTest := pairTest cmpEqualSigned

/-- src/bv/io/strings.rs:525-527. -/
def test_from_to_bit_str : RandomTest := ⟨List Byte, fun s => OptionalSign BitText s ∧ s.length < 2 ^ 32, fromToBitStr⟩

/-- src/bv/io/strings.rs:529-531. -/
def test_from_to_hex_str : RandomTest := ⟨List Byte, fun s => OptionalSign HexText s ∧ 4 * s.length < 2 ^ 32, fromToHexStr⟩

/-- src/bv/io/strings.rs:533-535. -/
def test_to_from_decimal_str : RandomTest := ⟨List Byte, fun s => OptionalSign BitText s ∧ s.length < 2 ^ 32, toFromDecimalStr⟩

/-- src/bv/io/bytes.rs:88-90. -/
def test_from_to_bytes_le : RandomTest := ⟨List Byte, fun b => 8 * b.length < 2 ^ 32, fromToBytesLe⟩

/-- src/bv/io/bigint.rs:142-147: a decimal numeral and a sign. -/
def test_from_to_big_int : RandomTest :=
  ⟨List Byte × Bool, fun a => ∃ n, digitsVal 10 a.1 = some n ∧ n < 2 ^ (2 ^ 32 - 64), fun m a =>
    match digitsVal 10 a.1 with
    | some n => fromToBigInt m (if a.2 then -(n : Int) else n)
    | none => .panic .unwrap⟩

/-- src/bv/io/bigint.rs:150-153. -/
def test_from_to_big_uint : RandomTest :=
  ⟨List Byte, fun a => ∃ n, digitsVal 10 a = some n ∧ n < 2 ^ (2 ^ 32 - 64), fun m a =>
    match digitsVal 10 a with
    | some n => fromToBigUint m n
    | none => .panic .unwrap⟩

/-- src/bv/borrowed.rs:143-146. -/
def borrowed_test_is_neg : RandomTest := ⟨List Byte, fun a => BitText a ∧ a.length < 2 ^ 32, checkHash⟩

/-- src/bv/indexed.rs:383-387. -/
def prop_test_interner : RandomTest := ⟨Int × Nat, fun a => BigIntOf a.2 a.1, fun m a => internerSame m a.1 a.2⟩

/-- tests/value.rs:26-29. -/
def i64_roundtrip : RandomTest := ⟨Word, fun _ => True, i64Roundtrip⟩

/-- tests/value.rs:31-35. -/
def u64_roundtrip : RandomTest := ⟨Word, fun _ => True, u64Roundtrip⟩

/-- tests/value.rs:37-42. -/
def i32_to_ibig : RandomTest := ⟨BitVec 32, fun _ => True, i32ToIbig⟩

/-- All randomised tests of the repository. -/
def all : List RandomTest :=
  [is_neg, test_concat, test_slice, test_shift_right, test_shift_left, test_arithmetic_shift_right, test_zero_extend,
    test_sign_extend, test_add, test_sub, test_mul, test_cmp_greater, test_cmp_greater_signed, test_cmp_greater_equal,
    test_cmp_greater_equal_signed, test_cmp_equal, test_cmp_equal_signed, test_from_to_bit_str, test_from_to_hex_str,
    test_to_from_decimal_str, test_from_to_bytes_le, test_from_to_big_int, test_from_to_big_uint, borrowed_test_is_neg,
    prop_test_interner, i64_roundtrip, u64_roundtrip, i32_to_ibig]

end Tests
end Baa
