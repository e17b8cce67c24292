import Verif.Model.Entries
import Verif.Model.Indexed
import Verif.Model.Loading

/-!
# Build profiles

Cargo has two switches: `debug-assertions` and `overflow-checks`. The default profiles turn on both (`dev`) or none (`release`), but a project can set them
one by one. This file contains the functions of the other model files that depend on these switches once more, with the two switches as
parameters. The text is that of the other files; C124 shows that the functions do the same when both switches are on and when both are off.
-/

namespace Baa

/-- The two switches of a Cargo profile. -/
structure Profile where
  /-- `debug-assertions`: `debug_assert!` and `#[cfg(debug_assertions)]` -/
  asserts : Bool
  /-- `overflow-checks`: overflow of `+`, `-`, `*`, `<<` panics instead of wrapping around -/
  checks : Bool
deriving DecidableEq, Repr

/-- The default profiles. -/
def Profile.of : Mode → Profile
  | .debug => ⟨true, true⟩
  | .release => ⟨false, false⟩

namespace Profiled
open Res

/-- `debug_assert!(b)`. -/
def debugAssert (m : Profile) (b : Bool) : Res Unit :=
  if m.asserts && !b then panic .debugAssert else ok ()

/-- `a + b` on an unsigned type with `M` values. -/
def addC (m : Profile) (M a b : Nat) : Res Nat :=
  if a + b < M then ok (a + b)
  else if m.checks then panic .overflow else ok ((a + b) % M)

/-- `a - b` on an unsigned type with `M` values. -/
def subC (m : Profile) (M a b : Nat) : Res Nat :=
  if b ≤ a then ok (a - b)
  else if m.checks then panic .overflow else ok ((M + a - b) % M)

/-- `a * b` on an unsigned type with `M` values. -/
def mulC (m : Profile) (M a b : Nat) : Res Nat :=
  if a * b < M then ok (a * b)
  else if m.checks then panic .overflow else ok ((a * b) % M)

/-- Amount check of a 64-bit `<<`/`>>`. -/
def shiftAmount64 (m : Profile) (n : Nat) : Res Nat :=
  if n < 64 then ok n
  else if m.checks then panic .overflow else ok (n % 64)

namespace Arith

/-- `mask_msb` (src/bv/arithmetic.rs:79-83). -/
def maskMsb (m : Profile) (dst : List Word) (width : Nat) : Res (List Word) := do
  debugAssert m (divCeil width BITS == dst.length)
  let mk ← Arith.mask (width % BITS)
  let l ← lastU dst
  ok (dst.dropLast ++ [l &&& mk])

/-- `is_neg` (src/bv/arithmetic.rs:367-372). -/
def isNeg (m : Profile) (src : List Word) (width : Nat) : Res Bool := do
  let w1 ← subC m U32 width 1
  let msbBitId := w1 % BITS
  let msbWord ← lastU src
  ok (((msbWord >>> msbBitId) &&& 1#64) == 1#64)

/-- `sign_extend` (src/bv/arithmetic.rs:54-76). -/
def signExtend (m : Profile) (dst source : List Word) (srcWidth dstWidth : Nat) : Res (List Word) := do
  let dst := Arith.assign dst source
  let neg ← isNeg m source srcWidth
  if neg then
    let lsbsInMsb := srcWidth % BITS
    let dst ←
      (if lsbsInMsb > 0 then do
        let msbsInMsb := BITS - lsbsInMsb
        let mk ← Arith.mask msbsInMsb
        let i ← subC m U64 source.length 1
        let d ← idx dst i
        setIdx dst i (d ||| (mk <<< lsbsInMsb))
      else ok dst)
    let dst ← modifyRange dst source.length dst.length fun s => ok (Arith.set s)
    maskMsb m dst dstWidth
  else
    modifyRange dst source.length dst.length fun s => ok (Arith.clear s)

/-- `slice` (src/bv/arithmetic.rs:107-130). -/
def slice (m : Profile) (dst source : List Word) (hi lo : Nat) : Res (List Word) := do
  let loOffset := lo % BITS
  let hiWord := hi / BITS
  let loWord := lo / BITS
  let src ← sliceR source loWord (hiWord + 1)
  let shiftRight := loOffset
  let dst ←
    (if shiftRight = 0 then ok (Arith.assign dst src)
    else do
      let shiftLeft := BITS - shiftRight
      let mk ← Arith.mask shiftRight
      let s0 ← idx src 0
      ok (Arith.sliceLoop shiftRight shiftLeft mk (s0 >>> shiftRight) dst (src.drop 1 ++ [0#64])))
  let d ← subC m U32 hi lo
  let rw ← addC m U32 d 1
  maskMsb m dst rw

/-- `concat` (src/bv/arithmetic.rs:133-157). `iter_mut().skip(n)` leaves the first `n` elements alone. -/
def concat (m : Profile) (dst msb lsb : List Word) (lsbWidth : Nat) : Res (List Word) := do
  let dst := Arith.assign dst lsb
  let lsbOffset := lsbWidth % BITS
  if lsbOffset = 0 then
    ok (dst.take lsb.length ++ Arith.assign (dst.drop lsb.length) msb)
  else do
    let shiftRight := BITS - lsbOffset
    let mk ← Arith.mask shiftRight
    let i ← subC m U64 lsb.length 1
    let prev ← idx dst i
    ok (dst.take i ++ Arith.concatLoop shiftRight lsbOffset mk prev (dst.drop i) (msb ++ [0#64]))

/-- `not` (src/bv/arithmetic.rs:160-163). -/
def not (m : Profile) (dst source : List Word) (width : Nat) : Res (List Word) :=
  maskMsb m (Arith.bitwiseUnOp (fun e => ~~~e) dst source) width

/-- `add` (src/bv/arithmetic.rs:204-210). -/
def add (m : Profile) (dst a b : List Word) (width : Nat) : Res (List Word) :=
  maskMsb m (Arith.addLoop 0 dst a b) width

/-- `sub` (src/bv/arithmetic.rs:214-222). -/
def sub (m : Profile) (dst a b : List Word) (width : Nat) : Res (List Word) :=
  maskMsb m (Arith.subLoop 1 dst a b) width

/-- `mul` (src/bv/arithmetic.rs:226-236). -/
def mul (_m : Profile) (dst a b : List Word) (width : Nat) : Res (List Word) :=
  if width ≤ BITS then do
    let a0 ← idx a 0
    let b0 ← idx b 0
    let res := a0 * b0
    let mk ← Arith.mask width
    setIdx dst 0 (res &&& mk)
  else panic .todo

/-- `shift_right` (src/bv/arithmetic.rs:239-261). -/
def shiftRight (m : Profile) (dst a b : List Word) (width : Nat) : Res (List Word × Option Nat) := do
  let dst := Arith.clear dst
  match ← Arith.getShiftAmount b width with
  | none => ok (dst, none)
  | some shiftAmount =>
    let hi ← subC m U32 width 1
    let lo := shiftAmount
    let d ← subC m U32 hi lo
    let resultWidth ← addC m U32 d 1
    let resultWords := divCeil resultWidth BITS
    let dst ← modifyRange dst 0 resultWords fun s => slice m s a hi lo
    ok (dst, some shiftAmount)

/-- `arithmetic_shift_right` (src/bv/arithmetic.rs:264-295). -/
def arithmeticShiftRight (m : Profile) (dst a b : List Word) (width : Nat) : Res (List Word) := do
  let (dst, shiftAmount) ← shiftRight m dst a b width
  let neg ← isNeg m a width
  if neg then
    match shiftAmount with
    | none => maskMsb m (Arith.set dst) width
    | some amount =>
      if amount > 0 then do
        let resWidth ← subC m U32 width amount
        let r1 ← subC m U32 resWidth 1
        let localMsb := r1 % BITS
        let msbWord := r1 / BITS
        let dst ←
          (if localMsb < BITS - 1 then do
            let mk ← Arith.mask (BITS - (localMsb + 1))
            let d ← idx dst msbWord
            setIdx dst msbWord (d ||| (mk <<< (localMsb + 1)))
          else ok dst)
        let dst ← modifyRange dst (msbWord + 1) dst.length fun s => ok (Arith.set s)
        maskMsb m dst width
      else ok dst
  else ok dst

/-- `shift_left` (src/bv/arithmetic.rs:298-325). -/
def shiftLeft (m : Profile) (dst a b : List Word) (width : Nat) : Res (List Word) := do
  match ← Arith.getShiftAmount b width with
  | none => ok (Arith.clear dst)
  | some shiftAmount =>
    let shl := shiftAmount % BITS
    let shiftWords := shiftAmount / BITS
    let shr := BITS - shl
    let dst := Arith.shiftLeftLoop shl shr 0#64 dst (List.replicate shiftWords 0#64 ++ a)
    if shl > 0 then maskMsb m dst width else ok dst

/-- `negate_in_place` (src/bv/arithmetic.rs:345-354). -/
def negateInPlace (m : Profile) (dst : List Word) (width : Nat) : Res (List Word) :=
  maskMsb m (Arith.negateLoop 1 dst) width

/-- `negate` (src/bv/arithmetic.rs:339-342). `clone_from_slice` panics if the lengths differ. -/
def negate (m : Profile) (dst b : List Word) (width : Nat) : Res (List Word) :=
  if dst.length = b.length then negateInPlace m b width else panic .lenMismatch

/-- `cmp_greater_signed` (src/bv/arithmetic.rs:375-383). -/
def cmpGreaterSigned (m : Profile) (a b : List Word) (width : Nat) : Res Bool := do
  let na ← isNeg m a width
  let nb ← isNeg m b width
  match na, nb with
  | true, false => ok false
  | false, true => ok true
  | false, false => ok (Arith.cmpGreater a b)
  | true, true => ok (Arith.cmpGreater a b)

/-- `cmp_greater_equal_signed` (src/bv/arithmetic.rs:404-411). -/
def cmpGreaterEqualSigned (m : Profile) (a b : List Word) (width : Nat) : Res Bool := do
  let na ← isNeg m a width
  let nb ← isNeg m b width
  match na, nb with
  | true, false => ok false
  | false, true => ok true
  | false, false => ok (Arith.cmpGreaterEqual a b)
  | true, true => ok (Arith.cmpGreaterEqual a b)

end Arith

namespace Strings

/-- `to_bit_str_signed` (src/bv/io/strings.rs:23-33). -/
def toBitStrSigned (m : Profile) (values : List Word) (width : Nat) : Res (List Byte) := do
  let neg ← Arith.isNeg m values width
  if neg then
    let copy ← Arith.negateInPlace m values width
    let w1 ← subC m U32 width 1
    Strings.toBitStrInternal copy w1 [ch '-']
  else
    let w1 ← subC m U32 width 1
    Strings.toBitStr values w1

/-- `select_words_for_width` (src/bv/io/strings.rs:86-90). -/
def selectWordsForWidth (m : Profile) (words : List Word) (width : Nat) : Res (List Word) := do
  let wordsNeeded := divCeil width BITS
  debugAssert m (decide (words.length ≥ wordsNeeded))
  sliceR words 0 wordsNeeded

/-- `to_hex_str_internal` (src/bv/io/strings.rs:97-117). -/
def toHexStrInternal (m : Profile) (values : List Word) (width : Nat) (out : List Byte) : Res (List Byte) := do
  debugAssert m (divCeil width BITS == values.length)
  if width = 0 then ok []
  else
    let bitsInMsb := width % BITS
    let digitsInMsb := divCeil bitsInMsb 4
    let msb ← lastU values
    let out := out ++ Strings.hexChars msb digitsInMsb
    let skipNum := if digitsInMsb > 0 then 1 else 0
    ok (out ++ ((values.reverse.drop skipNum).map fun w => Strings.hexChars w 16).flatten)

/-- `to_hex_str` (src/bv/io/strings.rs:92-95). -/
def toHexStr (m : Profile) (values : List Word) (width : Nat) : Res (List Byte) := toHexStrInternal m values width []

/-- `to_hex_str_signed` (src/bv/io/strings.rs:73-83). -/
def toHexStrSigned (m : Profile) (values : List Word) (width : Nat) : Res (List Byte) := do
  let neg ← Arith.isNeg m values width
  if neg then
    let copy ← Arith.negateInPlace m values width
    let w1 ← subC m U32 width 1
    let ws ← selectWordsForWidth m copy w1
    toHexStrInternal m ws w1 [ch '-']
  else
    let w1 ← subC m U32 width 1
    let ws ← selectWordsForWidth m values w1
    toHexStr m ws w1

/-- `words_to_u128` (src/bv/io/strings.rs:138-142). -/
def wordsToU128 (m : Profile) (words : List Word) : Res Nat := do
  debugAssert m (decide (words.length ≥ 2))
  let w1 ← idx words 1
  let w0 ← idx words 0
  ok (((w1.setWidth 128 <<< 64) ||| w0.setWidth 128 : BitVec 128).toNat)

/-- `to_dec_str_internal` (src/bv/io/strings.rs:144-155) and `to_dec_str_wide` (157-159, a `todo!()`). -/
def toDecStrInternal (m : Profile) (values : List Word) : Res (List Byte) :=
  match Strings.wordsUsed values with
  | 0 => ok [ch '0']
  | 1 => do
    let w0 ← idx values 0
    ok (decimal w0.toNat)
  | 2 => do
    let n ← wordsToU128 m values
    ok (decimal n)
  | k + 3 => do
    let _ ← sliceR values 0 (k + 3)
    panic .todo

/-- `to_dec_str` (src/bv/io/strings.rs:119-122); `width * 3 / 10` is only a capacity, but it can overflow. -/
def toDecStr (m : Profile) (values : List Word) (width : Nat) : Res (List Byte) := do
  let _ ← mulC m U32 width 3
  toDecStrInternal m values

/-- `determine_width_from_str_radix` (src/bv/io/strings.rs:161-180). -/
def determineWidth (m : Profile) (value : List Byte) (radix : Nat) : Res Nat := do
  debugAssert m (radix == 2 || radix == 16)
  let startsWithMinus := value.head? == some (ch '-')
  let numDigits : Nat :=
    match value with
    | [] => 0
    | [c] => if c = ch '+' ∨ c = ch '-' then 0 else 1
    | c :: digits => if c = ch '+' ∨ c = ch '-' then digits.length % U32 else (digits.length + 1) % U32
  let baseWidth ←
    (if radix = 2 then ok numDigits
    else if radix = 16 then mulC m U32 numDigits 4
    else panic .todo)
  addC m U32 baseWidth (if startsWithMinus then 1 else 0)

/-- The digit loop shared by `parse_base_2` (src/bv/io/strings.rs:355-373: `bits = 1`, `perWord = 64`) and
`parse_base_16` (src/bv/io/strings.rs:314-323: `bits = 4`, `perWord = 16`). Returns the (partially) written
output together with either the error or the final `(out_ii, word)`. -/
def parseLoop (m : Profile) (bits perWord : Nat) (digitValue : Byte → Option Nat) (numDigits : Nat) :
    (ii : Nat) → (out : List Word) → (outIi : Nat) → (word : Word) → List Byte →
    Res (List Word × Except IntErrorKind (Nat × Word))
  | _, out, outIi, word, [] => ok (out, .ok (outIi, word))
  | ii, out, outIi, word, c :: cs => do
    let rest ← subC m U64 numDigits ii
    let iiRev ← subC m U64 rest 1
    let (out, outIi, word) ←
      (if ii > 0 then do
        let k ← addC m U64 iiRev 1
        if k % perWord = 0 then
          let out ← setIdx out outIi word
          let outIi ← subC m U64 outIi 1
          ok (out, outIi, 0#64)
        else ok (out, outIi, word)
      else ok (out, outIi, word))
    match digitValue c with
    | none => ok (out, .error .invalidDigit)
    | some v => parseLoop m bits perWord digitValue numDigits (ii + 1) out outIi ((word <<< bits) ||| BitVec.ofNat 64 v) cs

/-- `parse_base_16` (src/bv/io/strings.rs:307-327). The returned width is only used by `?` and dropped. -/
def parseBase16 (m : Profile) (digits : List Byte) (out : List Word) :
    Res (List Word × Except IntErrorKind Unit) := do
  let numDigits := digits.length
  let bits ← mulC m U32 (numDigits % U32) 4
  let words := divCeil bits BITS
  let outIi ← subC m U32 words 1
  match ← parseLoop m 4 16 Strings.hexDigitValue numDigits 0 out outIi 0#64 digits with
  | (out, .error e) => ok (out, .error e)
  | (out, .ok (outIi, word)) =>
    debugAssert m (outIi == 0)
    let out ← setIdx out 0 word
    let _ ← mulC m U32 (numDigits % U32) 4
    ok (out, .ok ())

/-- `parse_base_2` (src/bv/io/strings.rs:338-377). `width as usize - ii - 1` uses the truncated length. -/
def parseBase2 (m : Profile) (digits : List Byte) (out : List Word) (maxWidth : Nat) :
    Res (List Word × Except IntErrorKind Unit) := do
  let width := digits.length % U32
  if width > maxWidth then ok (out, .error .exceedsWidth)
  else
    let words := divCeil width BITS
    let outIi ← subC m U32 words 1
    match ← parseLoop m 1 64 Strings.binDigitValue width 0 out outIi 0#64 digits with
    | (out, .error e) => ok (out, .error e)
    | (out, .ok (outIi, word)) =>
      debugAssert m (outIi == 0)
      let out ← setIdx out 0 word
      ok (out, .ok ())

/-- The magnitude parsers selected by the number of output words (src/bv/io/strings.rs:233-289). -/
def parseMagnitude (m : Profile) (value : List Byte) (radix : Nat) (out : List Word) (width : Nat) :
    Res (List Word × Except IntErrorKind Unit) :=
  match out with
  | [_] => do
    debugAssert m (decide (width ≤ 64))
    match ← stdFromStrRadix U64 radix value with
    | .ok v => ok ([BitVec.ofNat 64 v], .ok ())
    | .error e => ok (out, .error (Strings.translateErr e))
  | [_, _] => do
    debugAssert m (decide (width ≤ 128))
    match ← stdFromStrRadix U128 radix value with
    | .ok v => ok ([BitVec.ofNat 64 v, BitVec.ofNat 64 (v >>> 64)], .ok ())
    | .error e => ok (out, .error (Strings.translateErr e))
  | _ => do
    debugAssert m (divCeil width BITS == out.length)
    if value = [ch '+'] then ok (out, .error .invalidDigit)
    else
      let digits := if value.head? = some (ch '+') then value.drop 1 else value
      if radix = 2 then parseBase2 m digits out width
      else if radix = 10 then panic .todo
      else if radix = 16 then parseBase16 m digits out
      else panic .todo

/-- `from_str_radix` (src/bv/io/strings.rs:198-305). Returns the new contents of `out` and the result. -/
def fromStrRadix (m : Profile) (value : List Byte) (radix : Nat) (out : List Word) (width : Nat) :
    Res (List Word × Except IntErrorKind Unit) :=
  if value = [] then ok (out, .ok ())
  else
    let isNegative := value.head? == some (ch '-')
    let value := if isNegative then value.drop 1 else value
    if width = 0 then
      if value = [ch '0'] then ok (out, .ok ()) else ok (out, .error .exceedsWidth)
    else if value = [] then ok (out, .error .invalidDigit)
    else do
      match ← parseMagnitude m value radix out width with
      | (out, .error e) => ok (out, .error e)
      | (out, .ok ()) =>
        if isNegative then do
          let out ← Arith.negateInPlace m out width
          ok (out, .ok ())
        else ok (out, .ok ())

end Strings

namespace Bytes

/-- `from_bytes_le` (src/bv/io/bytes.rs:26-39). -/
def fromBytesLe (m : Profile) (bytes : List Byte) (width : Nat) (out : List Word) : Res (List Word) := do
  let wordCount := divCeil width BITS
  debugAssert m (decide (out.length ≥ wordCount))
  if width = 0 then ok out
  else
    let out := Arith.clear out
    let out ← Bytes.fromLoop 0 bytes out
    Arith.maskMsb m out width

end Bytes

namespace Big

/-- `iter_to_word` (src/bv/io/bigint.rs:69-92). -/
def iterToWord (m : Profile) (iter : List Word) (width : Nat) (out : List Word) : Res (List Word) :=
  if width = 0 then ok out
  else do
    let numWords := divCeil width BITS
    debugAssert m (decide (numWords ≤ out.length))
    let wordCount := min out.length iter.length
    let out := Arith.assign out iter
    if numWords < wordCount then panic .unreachable
    else if numWords = wordCount then Arith.maskMsb m out width
    else ok (out.take wordCount ++ Arith.clear (out.drop wordCount))

/-- `from_big_uint` (src/bv/io/bigint.rs:27-29). -/
def fromBigUint (m : Profile) (value : Nat) (width : Nat) (out : List Word) : Res (List Word) :=
  iterToWord m (Big.u64Digits value) width out

/-- `get_sign` (src/bv/io/bigint.rs:31-39); `true` is `Sign::Minus`. -/
def getSign (m : Profile) (value : List Word) (width : Nat) : Res Bool := do
  let w1 ← subC m U32 width 1
  let signBit := w1 % BITS
  let l ← lastU value
  ok (((l >>> signBit) &&& 1#64) == 1#64)

/-- `to_big_int` (src/bv/io/bigint.rs:41-57). `BigInt::from_slice(sign, digits)`. -/
def toBigInt (m : Profile) (words : List Word) (width : Nat) : Res Int :=
  if width = 0 then ok 0
  else do
    let minus ← getSign m words width
    let words64 ← (if minus then Arith.negate m (List.replicate words.length 0#64) words width else ok words)
    let mag : Nat := Big.fromSlice32 (Big.wordsToU32 words64)
    ok (if minus then -(mag : Int) else (mag : Int))

/-- `from_big_int` (src/bv/io/bigint.rs:59-66). -/
def fromBigInt (m : Profile) (value : Int) (width : Nat) (out : List Word) : Res (List Word) := do
  let out ← iterToWord m (Big.u64Digits value.natAbs) width out
  if value < 0 then Arith.negate m out out width else ok out

/-- `count_big_uint_bits` (src/bv/io/bigint.rs:94-102). -/
def countBigUintBits (m : Profile) (value : Nat) : Res Nat := do
  let words := (Big.u64Digits value).length % U32
  if words = 0 then ok 0
  else
    let msb ← lastU (Big.u64Digits value)
    let b ← mulC m U32 words BITS
    subC m U32 b (Big.leadingZeros msb)

/-- `count_big_int_bits` (src/bv/io/bigint.rs:104-113). -/
def countBigIntBits (m : Profile) (value : Int) : Res Nat := do
  let words := (Big.u64Digits value.natAbs).length % U32
  if words = 0 then ok 1
  else
    let msb ← lastU (Big.u64Digits value.natAbs)
    let b ← mulC m U32 words BITS
    let b ← subC m U32 b (Big.leadingZeros msb)
    addC m U32 b 1

end Big

namespace BitVecValue

/-- `declare_arith_bin_fn!` (src/bv/ops.rs:14-34). -/
def arithBin (m : Profile) (f : List Word → List Word → List Word → Nat → Res (List Word))
    (self rhs : BitVecValue) : Res BitVecValue := do
  debugAssert m (self.width == rhs.width)
  debugAssert m (self.words.length == rhs.words.length)
  let out := valueVecZeros self.width
  let out ←
    (if self.words.length = 1 then
      modifyRange out 0 1 fun o => do
        let a ← sliceR self.words 0 1
        let b ← sliceR rhs.words 0 1
        f o a b self.width
    else f out self.words rhs.words self.width)
  ok ⟨self.width, out⟩

/-- `declare_bit_arith_bin_fn!` (src/bv/ops.rs:38-57). -/
def bitArithBin (m : Profile) (f : List Word → List Word → List Word → List Word)
    (self rhs : BitVecValue) : Res BitVecValue := do
  debugAssert m (self.width == rhs.width)
  debugAssert m (self.words.length == rhs.words.length)
  let out := valueVecZeros self.width
  let out ←
    (if self.words.length = 1 then
      modifyRange out 0 1 fun o => do
        let a ← sliceR self.words 0 1
        let b ← sliceR rhs.words 0 1
        ok (f o a b)
    else ok (f out self.words rhs.words))
  ok ⟨self.width, out⟩

/-- `BitVecOps::add` (src/bv/ops.rs:198), also `&a + &b` (src/bv/owned.rs:130-136). -/
def add (m : Profile) (a b : BitVecValue) : Res BitVecValue := arithBin m (Arith.add m) a b

/-- `BitVecOps::sub` (src/bv/ops.rs:199), also `&a - &b` (src/bv/owned.rs:138-144). -/
def sub (m : Profile) (a b : BitVecValue) : Res BitVecValue := arithBin m (Arith.sub m) a b

/-- `BitVecOps::shift_left` (src/bv/ops.rs:200). -/
def shiftLeft (m : Profile) (a b : BitVecValue) : Res BitVecValue := arithBin m (Arith.shiftLeft m) a b

/-- `BitVecOps::shift_right` (src/bv/ops.rs:201); the returned shift amount is dropped. -/
def shiftRight (m : Profile) (a b : BitVecValue) : Res BitVecValue :=
  arithBin m (fun d x y w => do let r ← Arith.shiftRight m d x y w; ok r.1) a b

/-- `BitVecOps::arithmetic_shift_right` (src/bv/ops.rs:202). -/
def arithmeticShiftRight (m : Profile) (a b : BitVecValue) : Res BitVecValue :=
  arithBin m (Arith.arithmeticShiftRight m) a b

/-- `BitVecOps::mul` (src/bv/ops.rs:203). -/
def mul (m : Profile) (a b : BitVecValue) : Res BitVecValue := arithBin m (Arith.mul m) a b

/-- `BitVecOps::and` (src/bv/ops.rs:204). -/
def and (m : Profile) (a b : BitVecValue) : Res BitVecValue := bitArithBin m Arith.and a b

/-- `BitVecOps::or` (src/bv/ops.rs:205). -/
def or (m : Profile) (a b : BitVecValue) : Res BitVecValue := bitArithBin m Arith.or a b

/-- `BitVecOps::xor` (src/bv/ops.rs:206). -/
def xor (m : Profile) (a b : BitVecValue) : Res BitVecValue := bitArithBin m Arith.xor a b

/-- The two debug assertions at the start of every comparison. -/
def assertSame (m : Profile) (a b : BitVecValue) : Res Unit := do
  debugAssert m (a.width == b.width)
  debugAssert m (a.words.length == b.words.length)

/-- `is_equal` (src/bv/ops.rs:208-223). -/
def isEqual (m : Profile) (a b : BitVecValue) : Res Bool := do
  assertSame m a b
  ok (Arith.cmpEqual a.words b.words)

/-- `is_not_equal` (src/bv/ops.rs:225-227). -/
def isNotEqual (m : Profile) (a b : BitVecValue) : Res Bool := do
  let e ← isEqual m a b
  ok (!e)

/-- `is_greater` (src/bv/ops.rs:229-238). -/
def isGreater (m : Profile) (a b : BitVecValue) : Res Bool := do
  assertSame m a b
  if a.words.length = 1 then
    let x ← sliceR a.words 0 1
    let y ← sliceR b.words 0 1
    ok (Arith.cmpGreater x y)
  else ok (Arith.cmpGreater a.words b.words)

/-- `is_greater_or_equal` (src/bv/ops.rs:240-249). The multi-word branch calls `cmp_greater`, as in the source. -/
def isGreaterOrEqual (m : Profile) (a b : BitVecValue) : Res Bool := do
  assertSame m a b
  if a.words.length = 1 then
    let x ← sliceR a.words 0 1
    let y ← sliceR b.words 0 1
    ok (Arith.cmpGreaterEqual x y)
  else ok (Arith.cmpGreater a.words b.words)

/-- `is_less` (src/bv/ops.rs:251-254). -/
def isLess (m : Profile) (a b : BitVecValue) : Res Bool := isGreater m b a

/-- `is_less_or_equal` (src/bv/ops.rs:256-259). -/
def isLessOrEqual (m : Profile) (a b : BitVecValue) : Res Bool := isGreaterOrEqual m b a

/-- `is_greater_signed` (src/bv/ops.rs:261-274). -/
def isGreaterSigned (m : Profile) (a b : BitVecValue) : Res Bool := do
  assertSame m a b
  if a.words.length = 1 then
    let x ← sliceR a.words 0 1
    let y ← sliceR b.words 0 1
    Arith.cmpGreaterSigned m x y a.width
  else Arith.cmpGreaterSigned m a.words b.words a.width

/-- `is_greater_or_equal_signed` (src/bv/ops.rs:276-289). -/
def isGreaterOrEqualSigned (m : Profile) (a b : BitVecValue) : Res Bool := do
  assertSame m a b
  if a.words.length = 1 then
    let x ← sliceR a.words 0 1
    let y ← sliceR b.words 0 1
    Arith.cmpGreaterEqualSigned m x y a.width
  else Arith.cmpGreaterEqualSigned m a.words b.words a.width

/-- `is_less_signed` (src/bv/ops.rs:291-294). -/
def isLessSigned (m : Profile) (a b : BitVecValue) : Res Bool := isGreaterSigned m b a

/-- `is_less_or_equal_signed` (src/bv/ops.rs:296-299). -/
def isLessOrEqualSigned (m : Profile) (a b : BitVecValue) : Res Bool := isGreaterOrEqualSigned m b a

/-- `PartialEq for BitVecValue` (src/bv/owned.rs:121-126): `self == other`. -/
def eqOwned (m : Profile) (self other : BitVecValue) : Res Bool := do
  debugAssert m (other.width != self.width || other.words.length == self.words.length)
  ok (other.width == self.width && other.words == self.words)

/-- `PartialEq for BitVecValueRef` (src/bv/borrowed.rs:35-43): `self == other` for a borrowed `self`. -/
def eqRef (m : Profile) (self other : BitVecValue) : Res Bool :=
  if other.width = self.width then isEqual m self other else ok false

/-- `slice` (src/bv/ops.rs:301-313). The assertion is `msb <= width`, as in the source. -/
def slice (m : Profile) (self : BitVecValue) (msb lsb : Nat) : Res BitVecValue := do
  debugAssert m (decide (msb ≤ self.width))
  debugAssert m (decide (msb ≥ lsb))
  let d ← subC m U32 msb lsb
  let outWidth ← addC m U32 d 1
  let out := valueVecZeros outWidth
  let out ←
    (if outWidth ≤ BITS then modifyRange out 0 1 fun o => Arith.slice m o self.words msb lsb
    else Arith.slice m out self.words msb lsb)
  ok ⟨outWidth, out⟩

/-- `sign_extend` (src/bv/ops.rs:319-334). -/
def signExtend (m : Profile) (self : BitVecValue) (by_ : Nat) : Res BitVecValue := do
  let outWidth ← addC m U32 self.width by_
  let out := valueVecZeros outWidth
  let out ←
    (if outWidth ≤ BITS then
      modifyRange out 0 1 fun o => do
        let s ← sliceR self.words 0 1
        Arith.signExtend m o s self.width outWidth
    else Arith.signExtend m out self.words self.width outWidth)
  ok ⟨outWidth, out⟩

/-- `zero_extend` (src/bv/ops.rs:336-346). -/
def zeroExtend (m : Profile) (self : BitVecValue) (by_ : Nat) : Res BitVecValue := do
  let outWidth ← addC m U32 self.width by_
  let out := valueVecZeros outWidth
  let out ←
    (if outWidth ≤ BITS then
      modifyRange out 0 1 fun o => do
        let s ← sliceR self.words 0 1
        Arith.zeroExtend o s
    else Arith.zeroExtend out self.words)
  ok ⟨outWidth, out⟩

/-- `not` (src/bv/ops.rs:348-357). -/
def not (m : Profile) (self : BitVecValue) : Res BitVecValue := do
  let out := valueVecZeros self.width
  let out ←
    (if self.words.length ≤ 1 then
      modifyRange out 0 1 fun o => do
        let s ← sliceR self.words 0 1
        Arith.not m o s self.width
    else Arith.not m out self.words self.width)
  ok ⟨self.width, out⟩

/-- `negate` (src/bv/ops.rs:359-368). -/
def negate (m : Profile) (self : BitVecValue) : Res BitVecValue := do
  let out := valueVecZeros self.width
  let out ←
    (if self.words.length ≤ 1 then
      modifyRange out 0 1 fun o => do
        let s ← sliceR self.words 0 1
        Arith.negate m o s self.width
    else Arith.negate m out self.words self.width)
  ok ⟨self.width, out⟩

/-- `concat` (src/bv/ops.rs:370-385). -/
def concat (m : Profile) (self rhs : BitVecValue) : Res BitVecValue := do
  let outWidth ← addC m U32 self.width rhs.width
  let out := valueVecZeros outWidth
  let out ←
    (if outWidth ≤ BITS then
      modifyRange out 0 1 fun o => do
        let a ← sliceR self.words 0 1
        let b ← sliceR rhs.words 0 1
        Arith.concat m o a b rhs.width
    else Arith.concat m out self.words rhs.words rhs.width)
  ok ⟨outWidth, out⟩

/-- `to_i64` (src/bv/ops.rs:149-180); the result is the two's complement pattern of the `i64`. -/
def toI64 (m : Profile) (self : BitVecValue) : Res (Option Word) :=
  if self.width ≤ 64 then
    if self.width = 0 then ok (some 0#64)
    else if self.width = 64 then do
      let w ← idx self.words 0
      ok (some w)
    else do
      debugAssert m (self.words.length == 1)
      let neg ← Arith.isNeg m self.words self.width
      if neg then
        let mk ← Arith.mask (BITS - self.width)
        let w ← idx self.words 0
        ok (some (w ||| (mk <<< self.width)))
      else
        let w ← idx self.words 0
        ok (some w)
  else do
    let allZeroMsbs := (self.words.drop 1).all fun w => w == 0#64
    let word0 ← idx self.words 0
    let allMaxMsbs := (self.words.drop 1).all fun w => w == BitVec.allOnes 64
    let neg ← Arith.isNeg m [word0] BITS
    match allZeroMsbs, allMaxMsbs, neg with
    | true, false, false => ok (some word0)
    | false, true, true => ok (some word0)
    | _, _, _ => ok none

/-- `is_negative` (src/bv/ops.rs:194-196). -/
def isNegative (m : Profile) (self : BitVecValue) : Res Bool := Arith.isNeg m self.words self.width

/-- `to_unsigned_fixed_point` (src/bv/ops.rs:121-125). -/
def toUnsignedFixedPoint (m : Profile) (self : BitVecValue) (fractionWidth : Nat) : Res (Option Fraction) := do
  debugAssert m (decide (fractionWidth ≤ self.width))
  let n ← shiftAmount64 m fractionWidth
  let denom := 2 ^ n
  ok (self.toU64.map fun v => ⟨false, v.toNat, denom⟩)

/-- `to_signed_fixed_point` (src/bv/ops.rs:104-118). -/
def toSignedFixedPoint (m : Profile) (self : BitVecValue) (fractionWidth : Nat) : Res (Option Fraction) := do
  debugAssert m (decide (fractionWidth ≤ self.width))
  let neg ← isNegative m self
  if neg then
    if self.width > 64 then ok none
    else
      let negated ← negate m self
      let frac ← toUnsignedFixedPoint m negated fractionWidth
      ok (frac.map fun f => { f with neg := !f.neg })
  else toUnsignedFixedPoint m self fractionWidth

/-- `to_bit_str_signed` (src/bv/ops.rs:70-72). -/
def toBitStrSigned (m : Profile) (self : BitVecValue) : Res (List Byte) :=
  Strings.toBitStrSigned m self.words self.width

/-- `to_hex_str` (src/bv/ops.rs:75-77). -/
def toHexStr (m : Profile) (self : BitVecValue) : Res (List Byte) := Strings.toHexStr m self.words self.width

/-- `to_dec_str` (src/bv/ops.rs:80-82). -/
def toDecStr (m : Profile) (self : BitVecValue) : Res (List Byte) := Strings.toDecStr m self.words self.width

/-- `to_hex_str_signed` (src/bv/ops.rs:85-87). -/
def toHexStrSigned (m : Profile) (self : BitVecValue) : Res (List Byte) :=
  Strings.toHexStrSigned m self.words self.width

/-- `to_big_int` (src/bv/ops.rs:94-96). -/
def toBigInt (m : Profile) (self : BitVecValue) : Res Int := Big.toBigInt m self.words self.width

/-- `assign` (src/bv/ops.rs:392-397). -/
def assign (m : Profile) (self value : BitVecValue) : Res BitVecValue := do
  debugAssert m (self.width == value.width)
  debugAssert m (self.words.length == value.words.length)
  if self.words.length = value.words.length then ok { self with words := value.words }
  else panic .lenMismatch

/-- `mask_msb` (src/bv/ops.rs:400-403). -/
def maskMsb (m : Profile) (self : BitVecValue) : Res BitVecValue := do
  let ws ← Arith.maskMsb m self.words self.width
  ok { self with words := ws }

/-- `assign_ones` (src/bv/ops.rs:413-419). -/
def assignOnes (m : Profile) (self : BitVecValue) : Res BitVecValue :=
  maskMsb m { self with words := self.words.map fun _ => BitVec.allOnes 64 }

/-- `assign_from_u64` (src/bv/ops.rs:421-435). -/
def assignFromU64 (m : Profile) (self : BitVecValue) (value : Word) : Res BitVecValue := do
  let self := BitVecValue.clear self
  let ws ← setIdx self.words 0 value
  let self ← maskMsb m { self with words := ws }
  let w0 ← idx self.words 0
  debugAssert m (w0 == value)
  ok self

/-- The debug-only check at the end of `assign_from_i64` (src/bv/ops.rs:450-478). -/
def checkI64 (m : Profile) (self : BitVecValue) (value : Word) : Res Unit :=
  if m.asserts then do
    let neg ← isNegative m self
    if neg then
      if self.width < BITS then
        let mk ← Arith.mask (BITS - self.width)
        let word0 ← idx self.words 0
        debugAssert m ((word0 ||| (mk <<< self.width)) == value)
      else
        let word0 ← idx self.words 0
        debugAssert m (word0 == value)
    else
      let word0 ← idx self.words 0
      debugAssert m (word0 == value)
  else ok ()

/-- `assign_from_i64` (src/bv/ops.rs:437-479); `value` is the two's complement pattern (`value as u64`). -/
def assignFromI64 (m : Profile) (self : BitVecValue) (value : Word) : Res BitVecValue := do
  let width := self.width
  let self := BitVecValue.clear self
  let self ←
    (if self.words.length = 1 then do
      let mk ← Arith.mask width
      let ws ← setIdx self.words 0 (value &&& mk)
      ok { self with words := ws }
    else do
      let ws ← Arith.signExtend m self.words [value] 64 width
      ok { self with words := ws })
  checkI64 m self value
  ok self

/-- `assign_from_str_radix` (src/bv/ops.rs:481-484): the destination afterwards and the result. -/
def assignFromStrRadix (m : Profile) (self : BitVecValue) (value : List Byte) (radix : Nat) :
    Res (BitVecValue × Except IntErrorKind Unit) := do
  let (ws, r) ← Strings.fromStrRadix m value radix self.words self.width
  ok ({ self with words := ws }, r)

/-- `ones` (src/bv/owned.rs:71-75). -/
def ones (m : Profile) (width : Nat) : Res BitVecValue := assignOnes m (BitVecValue.zero width)

/-- `from_str_radix` (src/bv/owned.rs:34-38). -/
def fromStrRadix (m : Profile) (value : List Byte) (radix width : Nat) : Res (Except IntErrorKind BitVecValue) := do
  let (out, r) ← assignFromStrRadix m (BitVecValue.zero width) value radix
  match r with
  | .ok () => ok (.ok out)
  | .error e => ok (.error e)

/-- `from_bit_str` (src/bv/owned.rs:23-26). -/
def fromBitStr (m : Profile) (value : List Byte) : Res (Except IntErrorKind BitVecValue) := do
  let width ← Strings.determineWidth m value 2
  fromStrRadix m value 2 width

/-- `from_hex_str` (src/bv/owned.rs:29-32). -/
def fromHexStr (m : Profile) (value : List Byte) : Res (Except IntErrorKind BitVecValue) := do
  let width ← Strings.determineWidth m value 16
  fromStrRadix m value 16 width

/-- `from_u64` (src/bv/owned.rs:40-44). -/
def fromU64 (m : Profile) (value : Word) (width : Nat) : Res BitVecValue := assignFromU64 m (BitVecValue.zero width) value

/-- `from_i64` (src/bv/owned.rs:46-50). -/
def fromI64 (m : Profile) (value : Word) (width : Nat) : Res BitVecValue := assignFromI64 m (BitVecValue.zero width) value

/-- `tru` (src/bv/owned.rs:77-79). -/
def tru (m : Profile) : Res BitVecValue := fromU64 m 1#64 1

/-- `fals` (src/bv/owned.rs:80-82). -/
def fals (m : Profile) : Res BitVecValue := fromU64 m 0#64 1

/-- `from_bool` (src/bv/owned.rs:52-58), `From<bool>` (104-108). -/
def fromBool (m : Profile) (value : Bool) : Res BitVecValue := if value then tru m else fals m

/-- `from_bytes_le` (src/bv/owned.rs:60-64). -/
def fromBytesLe (m : Profile) (bytes : List Byte) (bits : Nat) : Res BitVecValue := do
  let ws ← Bytes.fromBytesLe m bytes bits (valueVecZeros bits)
  ok ⟨bits, ws⟩

/-- `from_big_int` (src/bv/owned.rs:85-89). -/
def fromBigInt (m : Profile) (value : Int) (bits : Nat) : Res BitVecValue := do
  let ws ← Big.fromBigInt m value bits (valueVecZeros bits)
  ok ⟨bits, ws⟩

/-- `from_big_uint` (src/bv/owned.rs:92-96). -/
def fromBigUint (m : Profile) (value : Nat) (bits : Nat) : Res BitVecValue := do
  let ws ← Big.fromBigUint m value bits (valueVecZeros bits)
  ok ⟨bits, ws⟩

/-- `From<&BigInt>` (src/bv/owned.rs:153-158). -/
def ofBigInt (m : Profile) (value : Int) : Res BitVecValue := do
  let bits ← Big.countBigIntBits m value
  fromBigInt m value bits

/-- `From<&BigUint>` (src/bv/owned.rs:161-166). -/
def ofBigUint (m : Profile) (value : Nat) : Res BitVecValue := do
  let bits ← Big.countBigUintBits m value
  fromBigUint m value bits

end BitVecValue

namespace Indexed

/-- `data.get_mut_ref(a).assign(value)`. -/
def assignAt (m : Profile) (data : List Word) (a : BitVecValueIndex) (value : BitVecValue) : Res (List Word) := do
  let ra ← Indexed.getMutRef data a
  let ra ← BitVecValue.assign m ra value
  ok (Indexed.writeBack data a.index ra.words)

/-- `let (mut a, b) = data.get_mut_ref((a, b)); a.assign(b)` (usage in src/bv/indexed.rs:313-316). -/
def assignFrom (m : Profile) (data : List Word) (a b : BitVecValueIndex) : Res (List Word) := do
  let (ra, rb) ← Indexed.getMutRef2 data a b
  let ra ← BitVecValue.assign m ra rb
  ok (Indexed.writeBack data a.index ra.words)

end Indexed

namespace ValueInterner

/-- `get_index` (src/bv/indexed.rs:257-283): the interner afterwards and the index. `len() as WordIndex` truncates. -/
def getIndex (m : Profile) (self : ValueInterner) (value : BitVecValue) :
    Res (ValueInterner × BitVecValueIndex) :=
  match value.words with
  | [word] => do
    debugAssert m (decide (value.width ≤ BITS))
    if word.toNat < 8 then ok (self, ⟨word.toNat, value.width⟩)
    else match self.small.get word with
      | some index => ok (self, ⟨index, value.width⟩)
      | none =>
        let index := self.words.length % U32
        ok ({ self with words := self.words ++ [word], small := self.small.insert word index }, ⟨index, value.width⟩)
  | words => do
    debugAssert m (decide (value.width > BITS))
    match self.large.get words with
    | some index => ok (self, ⟨index, value.width⟩)
    | none =>
      let index := self.words.length % U32
      ok ({ self with words := self.words ++ words, large := self.large.insert words index }, ⟨index, value.width⟩)

end ValueInterner

/-- Comparing a key with stored keys by `PartialEq for BitVecValue`. -/
def compareKeys (m : Profile) (key : BitVecValue) : List BitVecValue → Res Unit
  | [] => ok ()
  | k :: ks => do
    let _ ← BitVecValue.eqOwned m key k
    compareKeys m key ks

/-- Lookup of an owned key in `HashMap<BitVecValue, _>`, by `get` and `insert`: the comparisons, without the result. -/
def lookupOwned {V : Type} (m : Profile) (env : HashEnv) (map : HMap BitVecValue V) (key : BitVecValue) : Res Unit :=
  compareKeys m key (env.compared (map.entries.map Prod.fst) key)

/-- The loop of `impl PartialEq for HashMap` for values of type `BitVecValue`: every entry is looked up in `other` and compared by `==`. -/
def eqEntries {K : Type} [DecidableEq K] (m : Profile) (lookup : K → Res Unit) (other : HMap K BitVecValue) :
    List (K × BitVecValue) → Res Bool
  | [] => ok true
  | e :: es => do
    lookup e.1
    match other.get e.1 with
    | none => ok false
    | some v => do
      let b ← BitVecValue.eqOwned m e.2 v
      if b then eqEntries m lookup other es else ok false

/-- `map_a == map_b` for maps with values of type `BitVecValue`. -/
def eqMaps {K : Type} [DecidableEq K] (m : Profile) (env : HashEnv) (lookup : K → Res Unit) (a b : HMap K BitVecValue) : Res Bool :=
  if a.len = b.len then eqEntries m lookup b (env.order a.entries) else ok false

/-- `1usize << index_width` (src/array/ops.rs:19-21 `num_elements`, src/array/owned.rs:198-200, 265, 291). -/
def numElements (m : Profile) (indexWidth : Nat) : Res Nat := do
  let n ← shiftAmount64 m indexWidth
  ok (2 ^ n)

namespace SparseArrayValue

/-- `is_equal` (src/array/owned.rs:614-659). Defaults of type `BitVecValue` are compared with `==`. The map comparison
`map_a == map_b` looks up owned keys, which does not go through the unimplemented `Borrow`. -/
def isEqual (m : Profile) (env : HashEnv) (a b : SparseArrayValue) : Res (Option Bool) :=
  if b.indexWidth ≠ a.indexWidth ∨ b.dataWidth ≠ a.dataWidth then ok none
  else match a.data, b.data with
    | .u64u64 da ma, .u64u64 db mb =>
      if da = db then (if ma.len = mb.len then ok (some (ma.beq mb)) else ok (some false))
      else ok (some false)
    | .u64big da ma, .u64big db mb => do
      let e ← BitVecValue.eqOwned m da db
      if e then
        (if ma.len = mb.len then do
          let r ← eqMaps m env (fun _ => ok ()) ma mb
          ok (some r)
        else ok (some false))
      else ok (some false)
    | .bigbig da ma, .bigbig db mb => do
      let e ← BitVecValue.eqOwned m da db
      if e then
        (if ma.len = mb.len then do
          let r ← eqMaps m env (lookupOwned m env mb) ma mb
          ok (some r)
        else ok (some false))
      else ok (some false)
    | _, _ => panic .unreachable

/-- `default` (src/array/owned.rs:661-667). -/
def default (m : Profile) (a : SparseArrayValue) : Res BitVecValue :=
  match a.data with
  | .u64u64 d _ => BitVecValue.fromU64 m d a.dataWidth
  | .u64big d _ => ok d
  | .bigbig d _ => ok d

/-- `store_u64_big` (src/array/owned.rs:683-707). -/
def storeU64Big (m : Profile) (a : SparseArrayValue) (index : Word) (data : BitVecValue) : Res SparseArrayValue :=
  match a.data with
  | .u64u64 d map => do
    let data ← unwrap data.toU64
    if data = d then ok { a with data := .u64u64 d (map.remove index) }
    else ok { a with data := .u64u64 d (map.insert index data) }
  | .u64big d map => do
    let e ← BitVecValue.isEqual m data d
    if e then ok { a with data := .u64big d (map.remove index) }
    else ok { a with data := .u64big d (map.insert index data) }
  | .bigbig _ _ => panic .explicit

/-- `select` (src/array/owned.rs:773-792). -/
def select (m : Profile) (env : HashEnv) (a : SparseArrayValue) (index : BitVecValue) : Res BitVecValue := do
  debugAssert m (index.width == a.indexWidth)
  match a.data with
  | .u64u64 d map =>
    let i ← unwrap index.toU64
    BitVecValue.fromU64 m ((map.get i).getD d) a.dataWidth
  | .u64big d map =>
    let i ← unwrap index.toU64
    ok ((map.get i).getD d)
  | .bigbig d map =>
    lookupBorrowed env map index
    ok d

/-- `store` (src/array/owned.rs:796-834). `map.insert(index.into(), …)` compares owned keys. -/
def store (m : Profile) (env : HashEnv) (a : SparseArrayValue) (index data : BitVecValue) : Res SparseArrayValue := do
  debugAssert m (index.width == a.indexWidth)
  debugAssert m (data.width == a.dataWidth)
  match a.data with
  | .u64u64 d map =>
    let i ← unwrap index.toU64
    let v ← unwrap data.toU64
    if v = d then ok { a with data := .u64u64 d (map.remove i) }
    else ok { a with data := .u64u64 d (map.insert i v) }
  | .u64big d map =>
    let i ← unwrap index.toU64
    let e ← BitVecValue.isEqual m data d
    if e then ok { a with data := .u64big d (map.remove i) }
    else ok { a with data := .u64big d (map.insert i data) }
  | .bigbig d map =>
    let e ← BitVecValue.isEqual m data d
    if e then
      lookupBorrowed env map index
      ok { a with data := .bigbig d map }
    else
      lookupOwned m env map index
      ok { a with data := .bigbig d (map.insert index data) }

/-- Exhausting `non_default_entries` (src/array/owned.rs:712-764). -/
def nonDefaultEntries (m : Profile) (env : HashEnv) (a : SparseArrayValue) : Res (List (BitVecValue × BitVecValue)) :=
  match a.data with
  | .u64u64 _ map => SparseArrayValue.mapRes (fun e => do
      let i ← BitVecValue.fromU64 m e.1 a.indexWidth
      let v ← BitVecValue.fromU64 m e.2 a.dataWidth
      ok (i, v)) (env.order map.entries)
  | .u64big _ map => SparseArrayValue.mapRes (fun e => do
      let i ← BitVecValue.fromU64 m e.1 a.indexWidth
      ok (i, e.2)) (env.order map.entries)
  | .bigbig _ map => ok (env.order map.entries)

end SparseArrayValue

namespace DenseArrayValue

/-- `approx_dense_storage_size` (src/array/owned.rs:264-279). -/
def approxStorageSize (m : Profile) (indexWidth dataWidth : Nat) : Res Nat := do
  let elements ← numElements m indexWidth
  if dataWidth = 1 then ok (divCeil elements 8)
  else if dataWidth ≤ 8 then ok elements
  else if dataWidth ≤ 64 then mulC m U64 elements 8
  else mulC m U64 elements (divCeil dataWidth BITS)

/-- `new` (src/array/owned.rs:282-317). -/
def new (m : Profile) (indexWidth : Nat) (default : BitVecValue) : Res DenseArrayValue := do
  let dataWidth := default.width
  let storageSize ← approxStorageSize m indexWidth dataWidth
  debugAssert m (decide (storageSize ≤ DenseArrayValue.maxBytes))
  let elements ← numElements m indexWidth
  let data ←
    (if dataWidth = 1 then do
      let t ← default.isTru
      if t then do
        let v ← BitVecValue.ones m (elements % U32)
        ok (DenseArrayImpl.bit v)
      else do
        if m.asserts then do
          let f ← default.isFals
          debugAssert m f
        ok (.bit (BitVecValue.zero (elements % U32)))
    else if dataWidth ≤ 8 then do
      let d ← unwrap default.toU64
      ok (.u8 (List.replicate elements (d.setWidth 8)))
    else if dataWidth ≤ 64 then do
      let d ← unwrap default.toU64
      ok (.u64 (List.replicate elements d))
    else do
      let _ ← mulC m U64 elements default.words.length
      ok (.big (List.replicate elements default.words).flatten))
  ok ⟨indexWidth, dataWidth, data⟩

/-- `From<&[bool]>` (src/array/owned.rs:202-218). -/
def ofBools (m : Profile) (values : List Bool) : Res DenseArrayValue := do
  let indexWidth := DenseArrayValue.indexWidthFromLen values.length
  let n ← numElements m indexWidth
  let data ← go 0 values (BitVecValue.zero (n % U32))
  ok ⟨indexWidth, 1, .bit data⟩
where
  /-- the loop of src/array/owned.rs:207-211 -/
  go : Nat → List Bool → BitVecValue → Res BitVecValue
    | _, [], data => ok data
    | ii, v :: vs, data => do
      let data ← (if v then data.setBit (ii % U32) else ok data)
      go (ii + 1) vs data

/-- `From<&[u8]>` (src/array/owned.rs:220-234). -/
def ofU8s (m : Profile) (values : List Byte) : Res DenseArrayValue := do
  let indexWidth := DenseArrayValue.indexWidthFromLen values.length
  let n ← numElements m indexWidth
  ok ⟨indexWidth, 8, .u8 (DenseArrayValue.resize values n 0#8)⟩

/-- `From<&[u64]>` (src/array/owned.rs:236-250). -/
def ofU64s (m : Profile) (values : List Word) : Res DenseArrayValue := do
  let indexWidth := DenseArrayValue.indexWidthFromLen values.length
  let n ← numElements m indexWidth
  ok ⟨indexWidth, 64, .u64 (DenseArrayValue.resize values n 0#64)⟩

/-- `is_equal` (src/array/owned.rs:320-341). -/
def isEqual (m : Profile) (a b : DenseArrayValue) : Res (Option Bool) :=
  if b.indexWidth ≠ a.indexWidth ∨ b.dataWidth ≠ a.dataWidth then ok none
  else match a.data, b.data with
    | .bit va, .bit vb => do
      let e ← BitVecValue.isEqual m va vb
      ok (some e)
    | .u8 va, .u8 vb => ok (some (va == vb))
    | .u64 va, .u64 vb => ok (some (va == vb))
    | .big va, .big vb => ok (some (va == vb))
    | _, _ => panic .unreachable

/-- `select_usize` (src/array/owned.rs:343-357). -/
def selectUsize (m : Profile) (a : DenseArrayValue) (index : Nat) : Res BitVecValue :=
  match a.data with
  | .bit value => do
    let b ← value.isBitSet (index % U32)
    BitVecValue.fromBool m b
  | .u8 values => do
    let v ← idx values index
    BitVecValue.fromU64 m (v.setWidth 64) a.dataWidth
  | .u64 values => do
    let v ← idx values index
    BitVecValue.fromU64 m v a.dataWidth
  | .big values => do
    let start ← mulC m U64 a.wordsPerElement index
    let end_ ← addC m U64 start a.wordsPerElement
    let ws ← sliceR values start end_
    ok ⟨a.dataWidth, ws⟩

/-- `select` (src/array/owned.rs:369-373). -/
def select (m : Profile) (a : DenseArrayValue) (index : BitVecValue) : Res BitVecValue := do
  debugAssert m (index.width == a.indexWidth)
  let i ← unwrap index.toU64
  selectUsize m a i.toNat

/-- `store` (src/array/owned.rs:377-410). -/
def store (m : Profile) (a : DenseArrayValue) (index data : BitVecValue) : Res DenseArrayValue := do
  debugAssert m (index.width == a.indexWidth)
  let i ← unwrap index.toU64
  let index := i.toNat
  debugAssert m (data.width == a.dataWidth)
  match a.data with
  | .bit value =>
    let t ← data.isTru
    let value ← (if t then value.setBit (index % U32) else value.clearBit (index % U32))
    ok { a with data := .bit value }
  | .u8 values =>
    let v ← unwrap data.toU64
    let values ← setIdx values index (v.setWidth 8)
    ok { a with data := .u8 values }
  | .u64 values =>
    let v ← unwrap data.toU64
    let values ← setIdx values index v
    ok { a with data := .u64 values }
  | .big values =>
    let start ← mulC m U64 a.wordsPerElement index
    let end_ ← addC m U64 start a.wordsPerElement
    let values ← modifyRange values start end_ fun ws => do
      let r ← BitVecValue.assign m ⟨a.dataWidth, ws⟩ data
      ok r.words
    ok { a with data := .big values }

/-- One iteration of the `U64U64` loop in `From<&SparseArrayValue>` (src/array/owned.rs:429-449). -/
def putU64 (m : Profile) (d : DenseArrayValue) (index v : Word) : Res DenseArrayValue :=
  match d.data with
  | .bit value =>
    if v = 1#64 then do
      let value ← value.setBit (index.toNat % U32)
      ok { d with data := .bit value }
    else do
      debugAssert m (v == 0#64)
      let value ← value.clearBit (index.toNat % U32)
      ok { d with data := .bit value }
  | .u8 values => do
    let values ← setIdx values index.toNat (v.setWidth 8)
    ok { d with data := .u8 values }
  | .u64 values => do
    let values ← setIdx values index.toNat v
    ok { d with data := .u64 values }
  | .big _ => panic .unreachable

/-- The `U64U64` loop. -/
def putAllU64 (m : Profile) : DenseArrayValue → List (Word × Word) → Res DenseArrayValue
  | d, [] => ok d
  | d, e :: es => do
    let d ← putU64 m d e.1 e.2
    putAllU64 m d es

/-- The `U64Big` loop (src/array/owned.rs:452-456). `index_bv` is reused between iterations. -/
def putAllBig (m : Profile) : DenseArrayValue → BitVecValue → List (Word × BitVecValue) → Res DenseArrayValue
  | d, _, [] => ok d
  | d, indexBv, e :: es => do
    let indexBv ← BitVecValue.assignFromU64 m indexBv e.1
    let d ← store m d indexBv e.2
    putAllBig m d indexBv es

/-- `From<&SparseArrayValue> for DenseArrayValue` (src/array/owned.rs:422-466). `index_bv` has the *data* width, as in
the source. -/
def ofSparse (m : Profile) (env : HashEnv) (value : SparseArrayValue) : Res DenseArrayValue := do
  let dflt ← SparseArrayValue.default m value
  let dense ← new m value.indexWidth dflt
  debugAssert m (value.dataWidth == dense.dataWidth)
  debugAssert m (value.indexWidth == dense.indexWidth)
  match value.data with
  | .u64u64 _ map => putAllU64 m dense (env.order map.entries)
  | .u64big _ map => putAllBig m dense (BitVecValue.zero value.dataWidth) (env.order map.entries)
  | .bigbig _ _ => panic .unreachable

/-- `(0..n).map(select_usize)` as used by the two `Big` loops. -/
def selectAll (m : Profile) (a : DenseArrayValue) : Nat → Nat → Res (List BitVecValue)
  | _, 0 => ok []
  | i, n + 1 => do
    let v ← selectUsize m a i
    let vs ← selectAll m a (i + 1) n
    ok (v :: vs)

/-- Store loop for `Big` data (src/array/owned.rs:561-566); `value != default` is the owned `==`. -/
def storeBigs (m : Profile) (dflt : BitVecValue) : Nat → List BitVecValue → SparseArrayValue → Res SparseArrayValue
  | _, [], out => ok out
  | bit, d :: ds, out => do
    let e ← BitVecValue.eqOwned m d dflt
    let out ← (if e then ok out else SparseArrayValue.storeU64Big m out (BitVec.ofNat 64 bit) d)
    storeBigs m dflt (bit + 1) ds out

/-- `From<&DenseArrayValue> for SparseArrayValue` (src/array/owned.rs:470-571). For `Big` the elements are first
collected in a list; in the source the counting loop may stop early, which only saves `select_usize` calls that
the second loop performs anyway. -/
def toSparse (m : Profile) (env : HashEnv) (value : DenseArrayValue) : Res SparseArrayValue :=
  match value.data with
  | .bit data => do
    let n ← numElements m value.indexWidth
    let c ← DenseArrayValue.countBits data 0 n (0, 0)
    let dflt := decide (c.2 > c.1)
    let bv ← BitVecValue.fromBool m dflt
    let out ← SparseArrayValue.new value.indexWidth bv
    DenseArrayValue.storeBits data dflt 0 n out
  | .u8 data => do
    let n ← numElements m value.indexWidth
    let count ← DenseArrayValue.countU8 data 0 n (List.replicate 8 0)
    let mx ← unwrap (DenseArrayValue.maxByCount ((List.range 8).zip count))
    let dflt : Byte := BitVec.ofNat 8 mx.1
    let bv ← BitVecValue.fromU64 m (dflt.setWidth 64) value.dataWidth
    let out ← SparseArrayValue.new value.indexWidth bv
    DenseArrayValue.storeWords (dflt.setWidth 64) 0 (data.map fun b => b.setWidth 64) out
  | .u64 data => do
    let count := DenseArrayValue.countLoop HMap.empty data
    let mx ← unwrap (DenseArrayValue.maxByCount (env.order count.entries))
    let dflt := mx.1
    let bv ← BitVecValue.fromU64 m dflt value.dataWidth
    let out ← SparseArrayValue.new value.indexWidth bv
    DenseArrayValue.storeWords dflt 0 data out
  | .big _ => do
    let n ← numElements m value.indexWidth
    let elems ← selectAll m value 0 n
    let count := DenseArrayValue.countLoop HMap.empty elems
    let mx ← unwrap (DenseArrayValue.maxByCount (env.order count.entries))
    let dflt := mx.1
    let out ← SparseArrayValue.new value.indexWidth dflt
    storeBigs m dflt 0 elems out

end DenseArrayValue

/-- `is_equal_mixed` (src/array/owned.rs:120-129). -/
def isEqualMixed (m : Profile) (env : HashEnv) (dense : DenseArrayValue) (sparse : SparseArrayValue) :
    Res (Option Bool) :=
  if dense.indexWidth ≠ sparse.indexWidth ∨ dense.dataWidth ≠ sparse.dataWidth then ok none
  else do
    let otherDense ← DenseArrayValue.ofSparse m env sparse
    DenseArrayValue.isEqual m otherDense dense

namespace ArrayValue

/-- `new_dense` (src/array/owned.rs:37-40). -/
def newDense (m : Profile) (indexWidth : Nat) (default : BitVecValue) : Res ArrayValue := do
  let d ← DenseArrayValue.new m indexWidth default
  ok (.dense d)

/-- `make_dense` (src/array/owned.rs:55-68). -/
def makeDense (m : Profile) (env : HashEnv) : ArrayValue → Res ArrayValue
  | .dense d => ok (.dense d)
  | .sparse s => do
    let d ← DenseArrayValue.ofSparse m env s
    ok (.dense d)

/-- `is_equal` (src/array/owned.rs:71-78). -/
def isEqual (m : Profile) (env : HashEnv) (a b : ArrayValue) : Res (Option Bool) :=
  match a, b with
  | .dense a, .dense b => DenseArrayValue.isEqual m a b
  | .sparse a, .sparse b => SparseArrayValue.isEqual m env a b
  | .sparse a, .dense b => isEqualMixed m env b a
  | .dense a, .sparse b => isEqualMixed m env a b

/-- `PartialEq` (src/array/owned.rs:114-118). -/
def eq (m : Profile) (env : HashEnv) (a b : ArrayValue) : Res Bool := do
  let r ← isEqual m env a b
  ok (r.getD false)

/-- `From<ArrayValue> for SparseArrayValue` (src/array/owned.rs:105-112). -/
def toSparse (m : Profile) (env : HashEnv) : ArrayValue → Res SparseArrayValue
  | .sparse s => ok s
  | .dense d => DenseArrayValue.toSparse m env d

/-- `From<&[bool]>` (src/array/owned.rs:81-87). -/
def ofBools (m : Profile) (values : List Bool) : Res ArrayValue := do
  let d ← DenseArrayValue.ofBools m values
  ok (.dense d)

/-- `From<&[u8]>` (src/array/owned.rs:89-95). -/
def ofU8s (m : Profile) (values : List Byte) : Res ArrayValue := do
  let d ← DenseArrayValue.ofU8s m values
  ok (.dense d)

/-- `From<&[u64]>` (src/array/owned.rs:97-103). -/
def ofU64s (m : Profile) (values : List Word) : Res ArrayValue := do
  let d ← DenseArrayValue.ofU64s m values
  ok (.dense d)

/-- `select` (src/array/owned.rs:146-151). -/
def select (m : Profile) (env : HashEnv) (a : ArrayValue) (index : BitVecValue) : Res BitVecValue :=
  match a with
  | .sparse v => SparseArrayValue.select m env v index
  | .dense v => DenseArrayValue.select m v index

/-- `store` (src/array/owned.rs:155-164). -/
def store (m : Profile) (env : HashEnv) (a : ArrayValue) (index data : BitVecValue) : Res ArrayValue :=
  match a with
  | .sparse v => do
    let v ← SparseArrayValue.store m env v index data
    ok (.sparse v)
  | .dense v => do
    let v ← DenseArrayValue.store m v index data
    ok (.dense v)

end ArrayValue

/-- Derived `PartialEq` (src/lib.rs:11). -/
def Value.eq (m : Profile) (env : HashEnv) : Value → Value → Res Bool
  | .array a, .array b => ArrayValue.eq m env a b
  | .bitVec a, .bitVec b => BitVecValue.eqOwned m a b
  | _, _ => ok false

namespace EntryIter

/-- `SparseArrayEntryIter::next` (src/array/owned.rs:742-763): the result, and the iterator after the call. The iterator of the hash map advances
before values are made, hence it has also advanced when making a value panics and the panic is caught. At the end, the iterator of the hash map
returns `None` and stays where it is. -/
def next (m : Profile) (it : EntryIter) : Res (Option (BitVecValue × BitVecValue)) × EntryIter :=
  match it.underlying with
  | .u64u64 [] => (ok none, it)
  | .u64u64 (e :: rest) =>
    (do let i ← BitVecValue.fromU64 m e.1 it.indexWidth
        let v ← BitVecValue.fromU64 m e.2 it.dataWidth
        ok (some (i, v)), { it with underlying := .u64u64 rest })
  | .u64big [] => (ok none, it)
  | .u64big (e :: rest) =>
    (do let i ← BitVecValue.fromU64 m e.1 it.indexWidth
        ok (some (i, e.2)), { it with underlying := .u64big rest })
  | .bigbig [] => (ok none, it)
  | .bigbig (e :: rest) => (ok (some (e.1, e.2)), { it with underlying := .bigbig rest })

/-- The results of `n` calls of `next` (src/array/owned.rs:742-763), one after another, where panics are caught. -/
def calls (m : Profile) : Nat → EntryIter → List (Res (Option (BitVecValue × BitVecValue)))
  | 0, _ => []
  | n + 1, it => (next m it).1 :: calls m n (next m it).2

end EntryIter

namespace Serde
open Baa.Serde (readBitVec readSparseImpl readArrayImpl loadArrayFields)

/-- The loop of `visit_map` for `HashMap<BitVecValue, BitVecValue>`: an index, a value, one `insert`. -/
def loadEntries (m : Profile) (env : HashEnv) : HMap BitVecValue BitVecValue → List (Serde × Serde) →
    Res (Option (HMap BitVecValue BitVecValue))
  | acc, [] => ok (some acc)
  | acc, e :: es =>
    match readBitVec e.1 with
    | none => ok none
    | some k => match readBitVec e.2 with
      | none => ok none
      | some v => do
        lookupOwned m env acc k
        loadEntries m env (acc.insert k v) es

/-- `HashMap<BitVecValue, BitVecValue>`. -/
def loadHMap (m : Profile) (env : HashEnv) : Serde → Res (Option (HMap BitVecValue BitVecValue))
  | .map es => loadEntries m env HMap.empty es
  | _ => ok none

/-- `Deserialize for SparseArrayImpl` (derived, src/array/owned.rs:588-593). Items that are left over are noticed at the end. -/
def loadSparseImpl (m : Profile) (env : HashEnv) : Serde → Res (Option SparseArrayImpl)
  | .variant name (.seq (d :: table :: rest)) =>
    if name = "BigBig" then
      match readBitVec d with
      | none => ok none
      | some d => do
        let table ← loadHMap m env table
        ok (if rest.isEmpty then table.map (.bigbig d) else none)
    else ok (readSparseImpl (.variant name (.seq (d :: table :: rest))))
  | doc => ok (readSparseImpl doc)

/-- `Deserialize for SparseArrayValue` (derived, src/array/owned.rs:574-579). -/
def loadSparse (m : Profile) (env : HashEnv) (d : Serde) : Res (Option SparseArrayValue) := do
  let r ← loadArrayFields (loadSparseImpl m env) d
  ok (r.map fun r => ⟨r.1, r.2.1, r.2.2⟩)

/-- `Deserialize for ArrayImpl` (derived, src/array/owned.rs:21-25). -/
def loadArrayImpl (m : Profile) (env : HashEnv) : Serde → Res (Option ArrayValue)
  | .variant name d =>
    if name = "Sparse" then do
      let s ← loadSparse m env d
      ok (s.map .sparse)
    else ok (readArrayImpl (.variant name d))
  | doc => ok (readArrayImpl doc)

/-- Derived `visit_map` of `ArrayValue` (src/array/owned.rs:15-18). -/
def loadOuter (m : Profile) (env : HashEnv) : Option ArrayValue → List (String × Serde) → Res (Option ArrayValue)
  | data, [] => ok data
  | data, f :: fs =>
    if f.1 = "data" then
      if data.isSome then ok none
      else do
        match ← loadArrayImpl m env f.2 with
        | none => ok none
        | some a => loadOuter m env (some a) fs
    else loadOuter m env data fs

/-- `Deserialize for ArrayValue` (derived, src/array/owned.rs:15-18). -/
def loadArray (m : Profile) (env : HashEnv) : Serde → Res (Option ArrayValue)
  | .fields fs => loadOuter m env none fs
  | .seq (data :: rest) => do
    let a ← loadArrayImpl m env data
    ok (if rest.isEmpty then a else none)
  | _ => ok none

end Serde

end Profiled
end Baa
