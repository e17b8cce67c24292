import Verif.Model.Arith

/-!
# Model of src/bv/io/strings.rs

Strings are lists of UTF-8 bytes (`Byte`); all strings produced by the library are ASCII.
-/

namespace Baa
open Res

/-- The byte of an ASCII character. -/
def ch (c : Char) : Byte := BitVec.ofNat 8 c.toNat

/-- `IntErrorKind` (src/bv/io/strings.rs:15-20); `ParseIntError` only wraps it. -/
inductive IntErrorKind where
  | invalidDigit
  | exceedsWidth
deriving DecidableEq, Repr

/-! ## The part of the Rust standard library that the parser uses -/

/-- Errors of `uN::from_str_radix` that can occur for unsigned types. -/
inductive StdIntError where
  | empty
  | invalidDigit
  | posOverflow
deriving DecidableEq, Repr

/-- `(c as char).to_digit(radix)` for a byte `c`. -/
def toDigit (radix : Nat) (c : Byte) : Option Nat :=
  let n := c.toNat
  let d :=
    if 48 ≤ n ∧ n ≤ 57 then some (n - 48)
    else if 97 ≤ n ∧ n ≤ 122 then some (n - 97 + 10)
    else if 65 ≤ n ∧ n ≤ 90 then some (n - 65 + 10)
    else none
  match d with
  | some d => if d < radix then some d else none
  | none => none

/-- Digit loop of `uN::from_str_radix` (`checked_mul`, `checked_add`), `M` is the number of values of the type. -/
def stdParseLoop (M radix : Nat) : Nat → List Byte → Except StdIntError Nat
  | acc, [] => .ok acc
  | acc, c :: cs =>
    match toDigit radix c with
    | none => .error .invalidDigit
    | some d =>
      if acc * radix ≥ M then .error .posOverflow
      else if acc * radix + d ≥ M then .error .posOverflow
      else stdParseLoop M radix (acc * radix + d) cs

/-- `u64::from_str_radix` / `u128::from_str_radix` of the Rust standard library (`M` = 2^64 / 2^128).
Panics for a radix outside 2..=36; a lone sign is an invalid digit; one leading `+` is skipped;
a leading `-` is an invalid digit for unsigned types. -/
def stdFromStrRadix (M radix : Nat) (s : List Byte) : Res (Except StdIntError Nat) :=
  if radix < 2 ∨ radix > 36 then panic .explicit
  else match s with
    | [] => ok (.error .empty)
    | [c] => if c = ch '+' ∨ c = ch '-' then ok (.error .invalidDigit) else ok (stdParseLoop M radix 0 [c])
    | c :: rest => if c = ch '+' then ok (stdParseLoop M radix 0 rest) else ok (stdParseLoop M radix 0 (c :: rest))

/-- `format!("{}", n)` for an unsigned integer. -/
def decimal (n : Nat) : List Byte := (Nat.toDigits 10 n).map ch

namespace Strings

/-- One bit as a character (src/bv/io/strings.rs:47-52, 56-61). -/
def bitChar (w : Word) (ii : Nat) : Byte :=
  if ((w >>> ii) &&& 1#64) == 1#64 then ch '1' else ch '0'

/-- `for ii in (0..n).rev() { push bit ii }` -/
def bitChars (w : Word) (n : Nat) : List Byte := (List.range n).reverse.map (bitChar w)

/-- `to_bit_str_internal` (src/bv/io/strings.rs:40-65). -/
def toBitStrInternal (values : List Word) (width : Nat) (out : List Byte) : Res (List Byte) :=
  if width = 0 then ok []
  else do
    let startBit := (width - 1) % BITS
    let msb ← lastU values
    let out := out ++ bitChars msb (startBit + 1)
    ok (out ++ ((values.reverse.drop 1).map fun w => bitChars w BITS).flatten)

/-- `to_bit_str` (src/bv/io/strings.rs:35-38). -/
def toBitStr (values : List Word) (width : Nat) : Res (List Byte) := toBitStrInternal values width []

/-- `to_bit_str_signed` (src/bv/io/strings.rs:23-33). -/
def toBitStrSigned (m : Mode) (values : List Word) (width : Nat) : Res (List Byte) := do
  let neg ← Arith.isNeg m values width
  if neg then
    let copy ← Arith.negateInPlace m values width
    let w1 ← subC m U32 width 1
    toBitStrInternal copy w1 [ch '-']
  else
    let w1 ← subC m U32 width 1
    toBitStr values w1

/-- `char::from_digit(value, 16).unwrap()` for `value < 16`. -/
def hexChar (v : Nat) : Byte := if v < 10 then BitVec.ofNat 8 (48 + v) else BitVec.ofNat 8 (87 + v)

/-- The hex digit `ii` of a word (src/bv/io/strings.rs:106-107). The masked value is below 16, so the `unwrap` is safe. -/
def hexDigitOf (w : Word) (ii : Nat) : Byte := hexChar ((w >>> (ii * 4)) &&& 15#64).toNat

/-- `for ii in (0..n).rev() { push hex digit ii }` -/
def hexChars (w : Word) (n : Nat) : List Byte := (List.range n).reverse.map (hexDigitOf w)

/-- `select_words_for_width` (src/bv/io/strings.rs:86-90). -/
def selectWordsForWidth (m : Mode) (words : List Word) (width : Nat) : Res (List Word) := do
  let wordsNeeded := divCeil width BITS
  debugAssert m (decide (words.length ≥ wordsNeeded))
  sliceR words 0 wordsNeeded

/-- `to_hex_str_internal` (src/bv/io/strings.rs:97-117). -/
def toHexStrInternal (m : Mode) (values : List Word) (width : Nat) (out : List Byte) : Res (List Byte) := do
  debugAssert m (divCeil width BITS == values.length)
  if width = 0 then ok []
  else
    let bitsInMsb := width % BITS
    let digitsInMsb := divCeil bitsInMsb 4
    let msb ← lastU values
    let out := out ++ hexChars msb digitsInMsb
    let skipNum := if digitsInMsb > 0 then 1 else 0
    ok (out ++ ((values.reverse.drop skipNum).map fun w => hexChars w 16).flatten)

/-- `to_hex_str` (src/bv/io/strings.rs:92-95). -/
def toHexStr (m : Mode) (values : List Word) (width : Nat) : Res (List Byte) := toHexStrInternal m values width []

/-- `to_hex_str_signed` (src/bv/io/strings.rs:73-83). -/
def toHexStrSigned (m : Mode) (values : List Word) (width : Nat) : Res (List Byte) := do
  let neg ← Arith.isNeg m values width
  if neg then
    let copy ← Arith.negateInPlace m values width
    let w1 ← subC m U32 width 1
    let ws ← selectWordsForWidth m copy w1
    toHexStrInternal m ws w1 [ch '-']
  else
    let w1 ← subC m U32 width 1
    let ws ← selectWordsForWidth m values w1
    toHexStr m ws w1

/-- The loop of `words_used` over the reversed words (src/bv/io/strings.rs:128-134). -/
def wordsUsedLoop : Nat → List Word → Nat
  | _, [] => 0
  | len, w :: ws => if w != 0#64 then len else wordsUsedLoop (len - 1) ws

/-- `words_used` (src/bv/io/strings.rs:126-135). -/
def wordsUsed (words : List Word) : Nat := wordsUsedLoop words.length words.reverse

/-- `words_to_u128` (src/bv/io/strings.rs:138-142). -/
def wordsToU128 (m : Mode) (words : List Word) : Res Nat := do
  debugAssert m (decide (words.length ≥ 2))
  let w1 ← idx words 1
  let w0 ← idx words 0
  ok (((w1.setWidth 128 <<< 64) ||| w0.setWidth 128 : BitVec 128).toNat)

/-- `to_dec_str_internal` (src/bv/io/strings.rs:144-155) and `to_dec_str_wide` (157-159, a `todo!()`). -/
def toDecStrInternal (m : Mode) (values : List Word) : Res (List Byte) :=
  match wordsUsed values with
  | 0 => ok [ch '0']
  | 1 => do
    let w0 ← idx values 0
    ok (decimal w0.toNat)
  | 2 => do
    let n ← wordsToU128 m values
    ok (decimal n)
  | k + 3 => do
    let _ ← sliceR values 0 (k + 3)
    panic .todo

/-- `to_dec_str` (src/bv/io/strings.rs:119-122); `width * 3 / 10` is only a capacity, but it can overflow. -/
def toDecStr (m : Mode) (values : List Word) (width : Nat) : Res (List Byte) := do
  let _ ← mulC m U32 width 3
  toDecStrInternal m values

/-- `determine_width_from_str_radix` (src/bv/io/strings.rs:161-180). -/
def determineWidth (m : Mode) (value : List Byte) (radix : Nat) : Res Nat := do
  debugAssert m (radix == 2 || radix == 16)
  let startsWithMinus := value.head? == some (ch '-')
  let numDigits : Nat :=
    match value with
    | [] => 0
    | [c] => if c = ch '+' ∨ c = ch '-' then 0 else 1
    | c :: digits => if c = ch '+' ∨ c = ch '-' then digits.length % U32 else (digits.length + 1) % U32
  let baseWidth ←
    (if radix = 2 then ok numDigits
    else if radix = 16 then mulC m U32 numDigits 4
    else panic .todo)
  addC m U32 baseWidth (if startsWithMinus then 1 else 0)

/-- `hex_digit_value` (src/bv/io/strings.rs:183-195). -/
def hexDigitValue (digit : Byte) : Option Nat :=
  let n := digit.toNat
  if 48 ≤ n ∧ n ≤ 57 then some (n - 48)
  else if 97 ≤ n ∧ n ≤ 102 then some (n - 97 + 10)
  else if 65 ≤ n ∧ n ≤ 70 then some (n - 65 + 10)
  else none

/-- Digit match of `parse_base_2` (src/bv/io/strings.rs:363-371). -/
def binDigitValue (digit : Byte) : Option Nat :=
  if digit = ch '1' then some 1
  else if digit = ch '0' then some 0
  else none

/-- The digit loop shared by `parse_base_2` (src/bv/io/strings.rs:355-373: `bits = 1`, `perWord = 64`) and
`parse_base_16` (src/bv/io/strings.rs:314-323: `bits = 4`, `perWord = 16`). Returns the (partially) written
output together with either the error or the final `(out_ii, word)`. -/
def parseLoop (m : Mode) (bits perWord : Nat) (digitValue : Byte → Option Nat) (numDigits : Nat) :
    (ii : Nat) → (out : List Word) → (outIi : Nat) → (word : Word) → List Byte →
    Res (List Word × Except IntErrorKind (Nat × Word))
  | _, out, outIi, word, [] => ok (out, .ok (outIi, word))
  | ii, out, outIi, word, c :: cs => do
    let rest ← subC m U64 numDigits ii
    let iiRev ← subC m U64 rest 1
    let (out, outIi, word) ←
      (if ii > 0 then do
        let k ← addC m U64 iiRev 1
        if k % perWord = 0 then
          let out ← setIdx out outIi word
          let outIi ← subC m U64 outIi 1
          ok (out, outIi, 0#64)
        else ok (out, outIi, word)
      else ok (out, outIi, word))
    match digitValue c with
    | none => ok (out, .error .invalidDigit)
    | some v => parseLoop m bits perWord digitValue numDigits (ii + 1) out outIi ((word <<< bits) ||| BitVec.ofNat 64 v) cs

/-- `parse_base_16` (src/bv/io/strings.rs:307-327). The returned width is only used by `?` and dropped. -/
def parseBase16 (m : Mode) (digits : List Byte) (out : List Word) :
    Res (List Word × Except IntErrorKind Unit) := do
  let numDigits := digits.length
  let bits ← mulC m U32 (numDigits % U32) 4
  let words := divCeil bits BITS
  let outIi ← subC m U32 words 1
  match ← parseLoop m 4 16 hexDigitValue numDigits 0 out outIi 0#64 digits with
  | (out, .error e) => ok (out, .error e)
  | (out, .ok (outIi, word)) =>
    debugAssert m (outIi == 0)
    let out ← setIdx out 0 word
    let _ ← mulC m U32 (numDigits % U32) 4
    ok (out, .ok ())

/-- `parse_base_2` (src/bv/io/strings.rs:338-377). `width as usize - ii - 1` uses the truncated length. -/
def parseBase2 (m : Mode) (digits : List Byte) (out : List Word) (maxWidth : Nat) :
    Res (List Word × Except IntErrorKind Unit) := do
  let width := digits.length % U32
  if width > maxWidth then ok (out, .error .exceedsWidth)
  else
    let words := divCeil width BITS
    let outIi ← subC m U32 words 1
    match ← parseLoop m 1 64 binDigitValue width 0 out outIi 0#64 digits with
    | (out, .error e) => ok (out, .error e)
    | (out, .ok (outIi, word)) =>
      debugAssert m (outIi == 0)
      let out ← setIdx out 0 word
      ok (out, .ok ())

/-- Error translation (src/bv/io/strings.rs:239-243, 253-257). -/
def translateErr : StdIntError → IntErrorKind
  | .posOverflow => .exceedsWidth
  | .invalidDigit => .invalidDigit
  | .empty => .invalidDigit

/-- The magnitude parsers selected by the number of output words (src/bv/io/strings.rs:233-289). -/
def parseMagnitude (m : Mode) (value : List Byte) (radix : Nat) (out : List Word) (width : Nat) :
    Res (List Word × Except IntErrorKind Unit) :=
  match out with
  | [_] => do
    debugAssert m (decide (width ≤ 64))
    match ← stdFromStrRadix U64 radix value with
    | .ok v => ok ([BitVec.ofNat 64 v], .ok ())
    | .error e => ok (out, .error (translateErr e))
  | [_, _] => do
    debugAssert m (decide (width ≤ 128))
    match ← stdFromStrRadix U128 radix value with
    | .ok v => ok ([BitVec.ofNat 64 v, BitVec.ofNat 64 (v >>> 64)], .ok ())
    | .error e => ok (out, .error (translateErr e))
  | _ => do
    debugAssert m (divCeil width BITS == out.length)
    if value = [ch '+'] then ok (out, .error .invalidDigit)
    else
      let digits := if value.head? = some (ch '+') then value.drop 1 else value
      if radix = 2 then parseBase2 m digits out width
      else if radix = 10 then panic .todo
      else if radix = 16 then parseBase16 m digits out
      else panic .todo

/-- `from_str_radix` (src/bv/io/strings.rs:198-305). Returns the new contents of `out` and the result. -/
def fromStrRadix (m : Mode) (value : List Byte) (radix : Nat) (out : List Word) (width : Nat) :
    Res (List Word × Except IntErrorKind Unit) :=
  if value = [] then ok (out, .ok ())
  else
    let isNegative := value.head? == some (ch '-')
    let value := if isNegative then value.drop 1 else value
    if width = 0 then
      if value = [ch '0'] then ok (out, .ok ()) else ok (out, .error .exceedsWidth)
    else if value = [] then ok (out, .error .invalidDigit)
    else do
      match ← parseMagnitude m value radix out width with
      | (out, .error e) => ok (out, .error e)
      | (out, .ok ()) =>
        if isNegative then do
          let out ← Arith.negateInPlace m out width
          ok (out, .ok ())
        else ok (out, .ok ())

end Strings
end Baa
