import Verif.Model.Strings
import Verif.Model.BytesBig

/-!
# Model of src/bv/ops.rs, src/bv/owned.rs and src/bv/borrowed.rs

The structure `BitVecValue` models the owned value (src/bv/owned.rs:16-19) and equally the borrowed views
`BitVecValueRef` and `BitVecValueMutRef` (src/bv/borrowed.rs:12-15, 47-50): all three are a width and a word slice, and
all operations are default methods of the traits `BitVecOps` / `BitVecMutOps`, which only use `width()` and
`words()`/`words_mut()`. `From<&BitVecValue> for BitVecValueRef` and back (src/bv/borrowed.rs:23-27,
src/bv/owned.rs:110-114) are the identity.

A `SmallVec<[Word; 2]>` is a list. `i64` is its 64-bit two's complement pattern.
-/

namespace Baa
open Res

/-- `BitVecValue` (src/bv/owned.rs:16-19). -/
structure BitVecValue where
  width : Nat
  words : List Word
deriving DecidableEq, Repr

/-- `value_vec_zeros` (src/bv/owned.rs:117-119). -/
def valueVecZeros (width : Nat) : List Word := List.replicate (divCeil width BITS) 0#64

/-- Result of `to_*_fixed_point`: a `fraction::Fraction` given by sign, numerator and denominator. -/
structure Fraction where
  neg : Bool
  num : Nat
  den : Nat
deriving DecidableEq, Repr

namespace BitVecValue

/-! ## Binary operations generated by macros -/

/-- `declare_arith_bin_fn!` (src/bv/ops.rs:14-34). -/
def arithBin (m : Mode) (f : List Word → List Word → List Word → Nat → Res (List Word))
    (self rhs : BitVecValue) : Res BitVecValue := do
  debugAssert m (self.width == rhs.width)
  debugAssert m (self.words.length == rhs.words.length)
  let out := valueVecZeros self.width
  let out ←
    (if self.words.length = 1 then
      modifyRange out 0 1 fun o => do
        let a ← sliceR self.words 0 1
        let b ← sliceR rhs.words 0 1
        f o a b self.width
    else f out self.words rhs.words self.width)
  ok ⟨self.width, out⟩

/-- `declare_bit_arith_bin_fn!` (src/bv/ops.rs:38-57). -/
def bitArithBin (m : Mode) (f : List Word → List Word → List Word → List Word)
    (self rhs : BitVecValue) : Res BitVecValue := do
  debugAssert m (self.width == rhs.width)
  debugAssert m (self.words.length == rhs.words.length)
  let out := valueVecZeros self.width
  let out ←
    (if self.words.length = 1 then
      modifyRange out 0 1 fun o => do
        let a ← sliceR self.words 0 1
        let b ← sliceR rhs.words 0 1
        ok (f o a b)
    else ok (f out self.words rhs.words))
  ok ⟨self.width, out⟩

/-- `BitVecOps::add` (src/bv/ops.rs:198), also `&a + &b` (src/bv/owned.rs:130-136). -/
def add (m : Mode) (a b : BitVecValue) : Res BitVecValue := arithBin m (Arith.add m) a b
/-- `BitVecOps::sub` (src/bv/ops.rs:199), also `&a - &b` (src/bv/owned.rs:138-144). -/
def sub (m : Mode) (a b : BitVecValue) : Res BitVecValue := arithBin m (Arith.sub m) a b
/-- `BitVecOps::shift_left` (src/bv/ops.rs:200). -/
def shiftLeft (m : Mode) (a b : BitVecValue) : Res BitVecValue := arithBin m (Arith.shiftLeft m) a b
/-- `BitVecOps::shift_right` (src/bv/ops.rs:201); the returned shift amount is dropped. -/
def shiftRight (m : Mode) (a b : BitVecValue) : Res BitVecValue :=
  arithBin m (fun d x y w => do let r ← Arith.shiftRight m d x y w; ok r.1) a b
/-- `BitVecOps::arithmetic_shift_right` (src/bv/ops.rs:202). -/
def arithmeticShiftRight (m : Mode) (a b : BitVecValue) : Res BitVecValue :=
  arithBin m (Arith.arithmeticShiftRight m) a b
/-- `BitVecOps::mul` (src/bv/ops.rs:203). -/
def mul (m : Mode) (a b : BitVecValue) : Res BitVecValue := arithBin m (Arith.mul m) a b
/-- `BitVecOps::and` (src/bv/ops.rs:204). -/
def and (m : Mode) (a b : BitVecValue) : Res BitVecValue := bitArithBin m Arith.and a b
/-- `BitVecOps::or` (src/bv/ops.rs:205). -/
def or (m : Mode) (a b : BitVecValue) : Res BitVecValue := bitArithBin m Arith.or a b
/-- `BitVecOps::xor` (src/bv/ops.rs:206). -/
def xor (m : Mode) (a b : BitVecValue) : Res BitVecValue := bitArithBin m Arith.xor a b

/-! ## Comparisons -/

/-- The two debug assertions at the start of every comparison. -/
def assertSame (m : Mode) (a b : BitVecValue) : Res Unit := do
  debugAssert m (a.width == b.width)
  debugAssert m (a.words.length == b.words.length)

/-- `is_equal` (src/bv/ops.rs:208-223). -/
def isEqual (m : Mode) (a b : BitVecValue) : Res Bool := do
  assertSame m a b
  ok (Arith.cmpEqual a.words b.words)

/-- `is_not_equal` (src/bv/ops.rs:225-227). -/
def isNotEqual (m : Mode) (a b : BitVecValue) : Res Bool := do
  let e ← isEqual m a b
  ok (!e)

/-- `is_greater` (src/bv/ops.rs:229-238). -/
def isGreater (m : Mode) (a b : BitVecValue) : Res Bool := do
  assertSame m a b
  if a.words.length = 1 then
    let x ← sliceR a.words 0 1
    let y ← sliceR b.words 0 1
    ok (Arith.cmpGreater x y)
  else ok (Arith.cmpGreater a.words b.words)

/-- `is_greater_or_equal` (src/bv/ops.rs:240-249). The multi-word branch calls `cmp_greater`, as in the source. -/
def isGreaterOrEqual (m : Mode) (a b : BitVecValue) : Res Bool := do
  assertSame m a b
  if a.words.length = 1 then
    let x ← sliceR a.words 0 1
    let y ← sliceR b.words 0 1
    ok (Arith.cmpGreaterEqual x y)
  else ok (Arith.cmpGreater a.words b.words)

/-- `is_less` (src/bv/ops.rs:251-254). -/
def isLess (m : Mode) (a b : BitVecValue) : Res Bool := isGreater m b a

/-- `is_less_or_equal` (src/bv/ops.rs:256-259). -/
def isLessOrEqual (m : Mode) (a b : BitVecValue) : Res Bool := isGreaterOrEqual m b a

/-- `is_greater_signed` (src/bv/ops.rs:261-274). -/
def isGreaterSigned (m : Mode) (a b : BitVecValue) : Res Bool := do
  assertSame m a b
  if a.words.length = 1 then
    let x ← sliceR a.words 0 1
    let y ← sliceR b.words 0 1
    Arith.cmpGreaterSigned m x y a.width
  else Arith.cmpGreaterSigned m a.words b.words a.width

/-- `is_greater_or_equal_signed` (src/bv/ops.rs:276-289). -/
def isGreaterOrEqualSigned (m : Mode) (a b : BitVecValue) : Res Bool := do
  assertSame m a b
  if a.words.length = 1 then
    let x ← sliceR a.words 0 1
    let y ← sliceR b.words 0 1
    Arith.cmpGreaterEqualSigned m x y a.width
  else Arith.cmpGreaterEqualSigned m a.words b.words a.width

/-- `is_less_signed` (src/bv/ops.rs:291-294). -/
def isLessSigned (m : Mode) (a b : BitVecValue) : Res Bool := isGreaterSigned m b a

/-- `is_less_or_equal_signed` (src/bv/ops.rs:296-299). -/
def isLessOrEqualSigned (m : Mode) (a b : BitVecValue) : Res Bool := isGreaterOrEqualSigned m b a

/-- `PartialEq for BitVecValue` (src/bv/owned.rs:121-126): `self == other`. -/
def eqOwned (m : Mode) (self other : BitVecValue) : Res Bool := do
  debugAssert m (other.width != self.width || other.words.length == self.words.length)
  ok (other.width == self.width && other.words == self.words)

/-- `PartialEq for BitVecValueRef` (src/bv/borrowed.rs:35-43): `self == other` for a borrowed `self`. -/
def eqRef (m : Mode) (self other : BitVecValue) : Res Bool :=
  if other.width = self.width then isEqual m self other else ok false

/-! ## Unary operations, slicing, concatenation -/

/-- `slice` (src/bv/ops.rs:301-313). The assertion is `msb <= width`, as in the source. -/
def slice (m : Mode) (self : BitVecValue) (msb lsb : Nat) : Res BitVecValue := do
  debugAssert m (decide (msb ≤ self.width))
  debugAssert m (decide (msb ≥ lsb))
  let d ← subC m U32 msb lsb
  let outWidth ← addC m U32 d 1
  let out := valueVecZeros outWidth
  let out ←
    (if outWidth ≤ BITS then modifyRange out 0 1 fun o => Arith.slice m o self.words msb lsb
    else Arith.slice m out self.words msb lsb)
  ok ⟨outWidth, out⟩

/-- `is_bit_set` (src/bv/ops.rs:315-317). -/
def isBitSet (self : BitVecValue) (pos : Nat) : Res Bool := Arith.isBitSet self.words pos

/-- `sign_extend` (src/bv/ops.rs:319-334). -/
def signExtend (m : Mode) (self : BitVecValue) (by_ : Nat) : Res BitVecValue := do
  let outWidth ← addC m U32 self.width by_
  let out := valueVecZeros outWidth
  let out ←
    (if outWidth ≤ BITS then
      modifyRange out 0 1 fun o => do
        let s ← sliceR self.words 0 1
        Arith.signExtend m o s self.width outWidth
    else Arith.signExtend m out self.words self.width outWidth)
  ok ⟨outWidth, out⟩

/-- `zero_extend` (src/bv/ops.rs:336-346). -/
def zeroExtend (m : Mode) (self : BitVecValue) (by_ : Nat) : Res BitVecValue := do
  let outWidth ← addC m U32 self.width by_
  let out := valueVecZeros outWidth
  let out ←
    (if outWidth ≤ BITS then
      modifyRange out 0 1 fun o => do
        let s ← sliceR self.words 0 1
        Arith.zeroExtend o s
    else Arith.zeroExtend out self.words)
  ok ⟨outWidth, out⟩

/-- `not` (src/bv/ops.rs:348-357). -/
def not (m : Mode) (self : BitVecValue) : Res BitVecValue := do
  let out := valueVecZeros self.width
  let out ←
    (if self.words.length ≤ 1 then
      modifyRange out 0 1 fun o => do
        let s ← sliceR self.words 0 1
        Arith.not m o s self.width
    else Arith.not m out self.words self.width)
  ok ⟨self.width, out⟩

/-- `negate` (src/bv/ops.rs:359-368). -/
def negate (m : Mode) (self : BitVecValue) : Res BitVecValue := do
  let out := valueVecZeros self.width
  let out ←
    (if self.words.length ≤ 1 then
      modifyRange out 0 1 fun o => do
        let s ← sliceR self.words 0 1
        Arith.negate m o s self.width
    else Arith.negate m out self.words self.width)
  ok ⟨self.width, out⟩

/-- `concat` (src/bv/ops.rs:370-385). -/
def concat (m : Mode) (self rhs : BitVecValue) : Res BitVecValue := do
  let outWidth ← addC m U32 self.width rhs.width
  let out := valueVecZeros outWidth
  let out ←
    (if outWidth ≤ BITS then
      modifyRange out 0 1 fun o => do
        let a ← sliceR self.words 0 1
        let b ← sliceR rhs.words 0 1
        Arith.concat m o a b rhs.width
    else Arith.concat m out self.words rhs.words rhs.width)
  ok ⟨outWidth, out⟩

/-! ## Predicates and conversions to machine integers -/

/-- `to_bool` (src/bv/ops.rs:128-134). -/
def toBool (self : BitVecValue) : Res (Option Bool) :=
  if self.width = 1 then do
    let w ← idx self.words 0
    ok (some (Arith.wordToBool w))
  else ok none

/-- `to_u64` (src/bv/ops.rs:137-146). -/
def toU64 (self : BitVecValue) : Option Word :=
  if (self.words.drop 1).any (fun w => w != 0#64) then none
  else some (self.words.head?.getD 0#64)

/-- `to_i64` (src/bv/ops.rs:149-180); the result is the two's complement pattern of the `i64`. -/
def toI64 (m : Mode) (self : BitVecValue) : Res (Option Word) :=
  if self.width ≤ 64 then
    if self.width = 0 then ok (some 0#64)
    else if self.width = 64 then do
      let w ← idx self.words 0
      ok (some w)
    else do
      debugAssert m (self.words.length == 1)
      let neg ← Arith.isNeg m self.words self.width
      if neg then
        let mk ← Arith.mask (BITS - self.width)
        let w ← idx self.words 0
        ok (some (w ||| (mk <<< self.width)))
      else
        let w ← idx self.words 0
        ok (some w)
  else do
    let allZeroMsbs := (self.words.drop 1).all fun w => w == 0#64
    let word0 ← idx self.words 0
    let allMaxMsbs := (self.words.drop 1).all fun w => w == BitVec.allOnes 64
    let neg ← Arith.isNeg m [word0] BITS
    match allZeroMsbs, allMaxMsbs, neg with
    | true, false, false => ok (some word0)
    | false, true, true => ok (some word0)
    | _, _, _ => ok none

/-- `is_tru` (src/bv/ops.rs:182-184). -/
def isTru (self : BitVecValue) : Res Bool :=
  if self.width = 1 then do
    let w ← idx self.words 0
    ok (w == 1#64)
  else ok false

/-- `is_fals` (src/bv/ops.rs:186-188). -/
def isFals (self : BitVecValue) : Res Bool :=
  if self.width = 1 then do
    let w ← idx self.words 0
    ok (w == 0#64)
  else ok false

/-- `is_zero` (src/bv/ops.rs:190-192). -/
def isZero (self : BitVecValue) : Bool := self.words.all fun w => w == 0#64

/-- `is_negative` (src/bv/ops.rs:194-196). -/
def isNegative (m : Mode) (self : BitVecValue) : Res Bool := Arith.isNeg m self.words self.width

/-- `to_unsigned_fixed_point` (src/bv/ops.rs:121-125). -/
def toUnsignedFixedPoint (m : Mode) (self : BitVecValue) (fractionWidth : Nat) : Res (Option Fraction) := do
  debugAssert m (decide (fractionWidth ≤ self.width))
  let n ← shiftAmount64 m fractionWidth
  let denom := 2 ^ n
  ok (self.toU64.map fun v => ⟨false, v.toNat, denom⟩)

/-- `to_signed_fixed_point` (src/bv/ops.rs:104-118). -/
def toSignedFixedPoint (m : Mode) (self : BitVecValue) (fractionWidth : Nat) : Res (Option Fraction) := do
  debugAssert m (decide (fractionWidth ≤ self.width))
  let neg ← isNegative m self
  if neg then
    if self.width > 64 then ok none
    else
      let negated ← negate m self
      let frac ← toUnsignedFixedPoint m negated fractionWidth
      ok (frac.map fun f => { f with neg := !f.neg })
  else toUnsignedFixedPoint m self fractionWidth

/-! ## Strings, bytes, big integers -/

/-- `to_bit_str` (src/bv/ops.rs:65-67). -/
def toBitStr (self : BitVecValue) : Res (List Byte) := Strings.toBitStr self.words self.width
/-- `to_bit_str_signed` (src/bv/ops.rs:70-72). -/
def toBitStrSigned (m : Mode) (self : BitVecValue) : Res (List Byte) :=
  Strings.toBitStrSigned m self.words self.width
/-- `to_hex_str` (src/bv/ops.rs:75-77). -/
def toHexStr (m : Mode) (self : BitVecValue) : Res (List Byte) := Strings.toHexStr m self.words self.width
/-- `to_dec_str` (src/bv/ops.rs:80-82). -/
def toDecStr (m : Mode) (self : BitVecValue) : Res (List Byte) := Strings.toDecStr m self.words self.width
/-- `to_hex_str_signed` (src/bv/ops.rs:85-87). -/
def toHexStrSigned (m : Mode) (self : BitVecValue) : Res (List Byte) :=
  Strings.toHexStrSigned m self.words self.width
/-- `to_bytes_le` (src/bv/ops.rs:89-91). -/
def toBytesLe (self : BitVecValue) : List Byte := Bytes.toBytesLe self.words self.width
/-- `to_big_int` (src/bv/ops.rs:94-96). -/
def toBigInt (m : Mode) (self : BitVecValue) : Res Int := Big.toBigInt m self.words self.width
/-- `to_big_uint` (src/bv/ops.rs:99-101). -/
def toBigUint (self : BitVecValue) : Nat := Big.toBigUint self.words

/-! ## Mutating operations (`BitVecMutOps`, src/bv/ops.rs:389-493) -/

/-- `assign` (src/bv/ops.rs:392-397). -/
def assign (m : Mode) (self value : BitVecValue) : Res BitVecValue := do
  debugAssert m (self.width == value.width)
  debugAssert m (self.words.length == value.words.length)
  if self.words.length = value.words.length then ok { self with words := value.words }
  else panic .lenMismatch

/-- `mask_msb` (src/bv/ops.rs:400-403). -/
def maskMsb (m : Mode) (self : BitVecValue) : Res BitVecValue := do
  let ws ← Arith.maskMsb m self.words self.width
  ok { self with words := ws }

/-- `clear` (src/bv/ops.rs:406-410). -/
def clear (self : BitVecValue) : BitVecValue := { self with words := self.words.map fun _ => 0#64 }

/-- `assign_ones` (src/bv/ops.rs:413-419). -/
def assignOnes (m : Mode) (self : BitVecValue) : Res BitVecValue :=
  maskMsb m { self with words := self.words.map fun _ => BitVec.allOnes 64 }

/-- `assign_from_u64` (src/bv/ops.rs:421-435). -/
def assignFromU64 (m : Mode) (self : BitVecValue) (value : Word) : Res BitVecValue := do
  let self := clear self
  let ws ← setIdx self.words 0 value
  let self ← maskMsb m { self with words := ws }
  let w0 ← idx self.words 0
  debugAssert m (w0 == value)
  ok self

/-- The debug-only check at the end of `assign_from_i64` (src/bv/ops.rs:450-478). -/
def checkI64 (m : Mode) (self : BitVecValue) (value : Word) : Res Unit :=
  match m with
  | .release => ok ()
  | .debug => do
    let neg ← isNegative .debug self
    if neg then
      if self.width < BITS then
        let mk ← Arith.mask (BITS - self.width)
        let word0 ← idx self.words 0
        debugAssert .debug ((word0 ||| (mk <<< self.width)) == value)
      else
        let word0 ← idx self.words 0
        debugAssert .debug (word0 == value)
    else
      let word0 ← idx self.words 0
      debugAssert .debug (word0 == value)

/-- `assign_from_i64` (src/bv/ops.rs:437-479); `value` is the two's complement pattern (`value as u64`). -/
def assignFromI64 (m : Mode) (self : BitVecValue) (value : Word) : Res BitVecValue := do
  let width := self.width
  let self := clear self
  let self ←
    (if self.words.length = 1 then do
      let mk ← Arith.mask width
      let ws ← setIdx self.words 0 (value &&& mk)
      ok { self with words := ws }
    else do
      let ws ← Arith.signExtend m self.words [value] 64 width
      ok { self with words := ws })
  checkI64 m self value
  ok self

/-- `assign_from_str_radix` (src/bv/ops.rs:481-484): the destination afterwards and the result. -/
def assignFromStrRadix (m : Mode) (self : BitVecValue) (value : List Byte) (radix : Nat) :
    Res (BitVecValue × Except IntErrorKind Unit) := do
  let (ws, r) ← Strings.fromStrRadix m value radix self.words self.width
  ok ({ self with words := ws }, r)

/-- `set_bit` (src/bv/ops.rs:486-488). -/
def setBit (self : BitVecValue) (pos : Nat) : Res BitVecValue := do
  let ws ← Arith.setBit self.words pos
  ok { self with words := ws }

/-- `clear_bit` (src/bv/ops.rs:490-492). -/
def clearBit (self : BitVecValue) (pos : Nat) : Res BitVecValue := do
  let ws ← Arith.clearBit self.words pos
  ok { self with words := ws }

/-! ## Constructors (src/bv/owned.rs) -/

/-- `zero` (src/bv/owned.rs:66-69). -/
def zero (width : Nat) : BitVecValue := ⟨width, valueVecZeros width⟩

/-- `ones` (src/bv/owned.rs:71-75). -/
def ones (m : Mode) (width : Nat) : Res BitVecValue := assignOnes m (zero width)

/-- `from_str_radix` (src/bv/owned.rs:34-38). -/
def fromStrRadix (m : Mode) (value : List Byte) (radix width : Nat) : Res (Except IntErrorKind BitVecValue) := do
  let (out, r) ← assignFromStrRadix m (zero width) value radix
  match r with
  | .ok () => ok (.ok out)
  | .error e => ok (.error e)

/-- `from_bit_str` (src/bv/owned.rs:23-26). -/
def fromBitStr (m : Mode) (value : List Byte) : Res (Except IntErrorKind BitVecValue) := do
  let width ← Strings.determineWidth m value 2
  fromStrRadix m value 2 width

/-- `from_hex_str` (src/bv/owned.rs:29-32). -/
def fromHexStr (m : Mode) (value : List Byte) : Res (Except IntErrorKind BitVecValue) := do
  let width ← Strings.determineWidth m value 16
  fromStrRadix m value 16 width

/-- `from_u64` (src/bv/owned.rs:40-44). -/
def fromU64 (m : Mode) (value : Word) (width : Nat) : Res BitVecValue := assignFromU64 m (zero width) value

/-- `from_i64` (src/bv/owned.rs:46-50). -/
def fromI64 (m : Mode) (value : Word) (width : Nat) : Res BitVecValue := assignFromI64 m (zero width) value

/-- `tru` (src/bv/owned.rs:77-79). -/
def tru (m : Mode) : Res BitVecValue := fromU64 m 1#64 1

/-- `fals` (src/bv/owned.rs:80-82). -/
def fals (m : Mode) : Res BitVecValue := fromU64 m 0#64 1

/-- `from_bool` (src/bv/owned.rs:52-58), `From<bool>` (104-108). -/
def fromBool (m : Mode) (value : Bool) : Res BitVecValue := if value then tru m else fals m

/-- `from_bytes_le` (src/bv/owned.rs:60-64). -/
def fromBytesLe (m : Mode) (bytes : List Byte) (bits : Nat) : Res BitVecValue := do
  let ws ← Bytes.fromBytesLe m bytes bits (valueVecZeros bits)
  ok ⟨bits, ws⟩

/-- `from_big_int` (src/bv/owned.rs:85-89). -/
def fromBigInt (m : Mode) (value : Int) (bits : Nat) : Res BitVecValue := do
  let ws ← Big.fromBigInt m value bits (valueVecZeros bits)
  ok ⟨bits, ws⟩

/-- `from_big_uint` (src/bv/owned.rs:92-96). -/
def fromBigUint (m : Mode) (value : Nat) (bits : Nat) : Res BitVecValue := do
  let ws ← Big.fromBigUint m value bits (valueVecZeros bits)
  ok ⟨bits, ws⟩

/-- `From<&BigInt>` (src/bv/owned.rs:153-158). -/
def ofBigInt (m : Mode) (value : Int) : Res BitVecValue := do
  let bits ← Big.countBigIntBits m value
  fromBigInt m value bits

/-- `From<&BigUint>` (src/bv/owned.rs:161-166). -/
def ofBigUint (m : Mode) (value : Nat) : Res BitVecValue := do
  let bits ← Big.countBigUintBits m value
  fromBigUint m value bits

/-! ## Derived instances (src/bv/owned.rs:14, src/bv/borrowed.rs:11) -/

/-- Lexicographic comparison of slices (`Ord for [u64]`, used by the derived `Ord` through `SmallVec`). -/
def cmpWordsLex : List Word → List Word → Ordering
  | [], [] => .eq
  | [], _ :: _ => .lt
  | _ :: _, [] => .gt
  | a :: as, b :: bs => (compare a.toNat b.toNat).then (cmpWordsLex as bs)

/-- Derived `Ord` (src/bv/owned.rs:14): fields in declaration order. -/
def cmp (a b : BitVecValue) : Ordering := (compare a.width b.width).then (cmpWordsLex a.words b.words)

/-- `Hash for [u64]`: the sequence of integers fed to the hasher, a length prefix and then the elements. -/
def hashSlice (ws : List Word) : List Nat := ws.length :: ws.map BitVec.toNat

/-- Derived `Hash` of `BitVecValue` (src/bv/owned.rs:14): the width, then the `SmallVec`, whose `Hash` is that of the slice
it derefs to. -/
def hashOwned (a : BitVecValue) : List Nat := a.width :: hashSlice a.words

/-- Derived `Hash` of `BitVecValueRef` (src/bv/borrowed.rs:11): the width, then the slice. -/
def hashRef (a : BitVecValue) : List Nat := a.width :: hashSlice a.words

/-- `Debug for BitVecValue` (src/bv/owned.rs:146-150). -/
def debugOwned (self : BitVecValue) : Res (List Byte) := do
  let s ← self.toBitStr
  ok ("ValueOwned(".toList.map ch ++ s ++ [ch ')'])

/-- `Debug for BitVecValueRef` (src/bv/borrowed.rs:29-33). -/
def debugRef (self : BitVecValue) : Res (List Byte) := do
  let s ← self.toBitStr
  ok ("BitVecValueRef(".toList.map ch ++ s ++ [ch ')'])

/-- `Debug for BitVecValueMutRef` (src/bv/borrowed.rs:63-67). -/
def debugMutRef (self : BitVecValue) : Res (List Byte) := do
  let s ← self.toBitStr
  ok ("BitVecValueMutRef(".toList.map ch ++ s ++ [ch ')'])

/-- `From<BitVecValueRef> for BitVecValue` (src/bv/owned.rs:110-114) and `From<&BitVecValue> for BitVecValueRef`
(src/bv/borrowed.rs:23-27): both only copy or borrow the words, so in this model they are the identity. -/
def ofRef (value : BitVecValue) : BitVecValue := ⟨value.width, value.words⟩

end BitVecValue
end Baa
