import Verif.Model.Arith

/-!
# Model of src/bv/io/bytes.rs and src/bv/io/bigint.rs

`num_bigint::BigUint` is `Nat` and `num_bigint::BigInt` is `Int`.
-/

namespace Baa
open Res

namespace Bytes

/-- Inner loop of `to_bytes_le` (src/bv/io/bytes.rs:15-21). -/
def wordLoop (byteCount : Nat) : Nat → Word → List Byte → List Byte
  | 0, _, out => out
  | n + 1, value, out =>
    if out.length = byteCount then out
    else wordLoop byteCount n (value >>> 8) (out ++ [(value &&& 255#64).setWidth 8])

/-- `to_bytes_le` (src/bv/io/bytes.rs:10-24). -/
def toBytesLe (values : List Word) (width : Nat) : List Byte :=
  values.foldl (fun out w => wordLoop (divCeil width 8) 8 w out) []

/-- Loop of `from_bytes_le` (src/bv/io/bytes.rs:33-37). -/
def fromLoop : Nat → List Byte → List Word → Res (List Word)
  | _, [], out => ok out
  | ii, bb :: bs, out => do
    let wordIi := ii / 8
    let shiftBy := 8 * ((ii % U32) % 8)
    let w ← idx out wordIi
    let out ← setIdx out wordIi (w ||| ((bb.setWidth 64 : Word) <<< shiftBy))
    fromLoop (ii + 1) bs out

/-- `from_bytes_le` (src/bv/io/bytes.rs:26-39). -/
def fromBytesLe (m : Mode) (bytes : List Byte) (width : Nat) (out : List Word) : Res (List Word) := do
  let wordCount := divCeil width BITS
  debugAssert m (decide (out.length ≥ wordCount))
  if width = 0 then ok out
  else
    let out := Arith.clear out
    let out ← fromLoop 0 bytes out
    Arith.maskMsb m out width

end Bytes

namespace Big

/-- `BigUint::iter_u64_digits`: base 2^64 digits, least significant first, no leading zero digit. -/
def u64Digits (n : Nat) : List Word :=
  if _h : n = 0 then [] else BitVec.ofNat 64 n :: u64Digits (n / U64)
termination_by n
decreasing_by exact Nat.div_lt_self (by omega) (by decide)

/-- `BigUint::from_slice`: base 2^32 digits, least significant first. -/
def fromSlice32 : List (BitVec 32) → Nat
  | [] => 0
  | d :: ds => d.toNat + U32 * fromSlice32 ds

/-- `words_to_u32` (src/bv/io/bigint.rs:14-25). `mask(32)` is the constant 2^32-1. -/
def wordsToU32 : List Word → List (BitVec 32)
  | [] => []
  | w :: ws =>
    (w &&& 0xffffffff#64).setWidth 32 :: ((w >>> 32) &&& 0xffffffff#64).setWidth 32 :: wordsToU32 ws

/-- `to_big_uint` (src/bv/io/bigint.rs:9-12). -/
def toBigUint (words : List Word) : Nat := fromSlice32 (wordsToU32 words)

/-- `iter_to_word` (src/bv/io/bigint.rs:69-92). -/
def iterToWord (m : Mode) (iter : List Word) (width : Nat) (out : List Word) : Res (List Word) :=
  if width = 0 then ok out
  else do
    let numWords := divCeil width BITS
    debugAssert m (decide (numWords ≤ out.length))
    let wordCount := min out.length iter.length
    let out := Arith.assign out iter
    if numWords < wordCount then panic .unreachable
    else if numWords = wordCount then Arith.maskMsb m out width
    else ok (out.take wordCount ++ Arith.clear (out.drop wordCount))

/-- `from_big_uint` (src/bv/io/bigint.rs:27-29). -/
def fromBigUint (m : Mode) (value : Nat) (width : Nat) (out : List Word) : Res (List Word) :=
  iterToWord m (u64Digits value) width out

/-- `get_sign` (src/bv/io/bigint.rs:31-39); `true` is `Sign::Minus`. -/
def getSign (m : Mode) (value : List Word) (width : Nat) : Res Bool := do
  let w1 ← subC m U32 width 1
  let signBit := w1 % BITS
  let l ← lastU value
  ok (((l >>> signBit) &&& 1#64) == 1#64)

/-- `to_big_int` (src/bv/io/bigint.rs:41-57). `BigInt::from_slice(sign, digits)`. -/
def toBigInt (m : Mode) (words : List Word) (width : Nat) : Res Int :=
  if width = 0 then ok 0
  else do
    let minus ← getSign m words width
    let words64 ← (if minus then Arith.negate m (List.replicate words.length 0#64) words width else ok words)
    let mag : Nat := fromSlice32 (wordsToU32 words64)
    ok (if minus then -(mag : Int) else (mag : Int))

/-- `from_big_int` (src/bv/io/bigint.rs:59-66). -/
def fromBigInt (m : Mode) (value : Int) (width : Nat) (out : List Word) : Res (List Word) := do
  let out ← iterToWord m (u64Digits value.natAbs) width out
  if value < 0 then Arith.negate m out out width else ok out

/-- `u64::leading_zeros` -/
def leadingZeros (w : Word) : Nat := if w = 0#64 then 64 else 63 - Nat.log2 w.toNat

/-- `count_big_uint_bits` (src/bv/io/bigint.rs:94-102). -/
def countBigUintBits (m : Mode) (value : Nat) : Res Nat := do
  let words := (u64Digits value).length % U32
  if words = 0 then ok 0
  else
    let msb ← lastU (u64Digits value)
    let b ← mulC m U32 words BITS
    subC m U32 b (leadingZeros msb)

/-- `count_big_int_bits` (src/bv/io/bigint.rs:104-113). -/
def countBigIntBits (m : Mode) (value : Int) : Res Nat := do
  let words := (u64Digits value.natAbs).length % U32
  if words = 0 then ok 1
  else
    let msb ← lastU (u64Digits value.natAbs)
    let b ← mulC m U32 words BITS
    let b ← subC m U32 b (leadingZeros msb)
    addC m U32 b 1

end Big
end Baa
