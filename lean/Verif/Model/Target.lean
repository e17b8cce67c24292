import Verif.Model.Array
import Verif.Model.Indexed

/-!
# The functions of src that compute with `usize`, for a target with 32-bit or 64-bit pointers

The other model files fix a 64-bit target. Here every function whose text does arithmetic on `usize`, or converts an
`u64` to `usize`, is written once more with the size of `usize` as a parameter. A function that is not here either
does not mention `usize`, or only converts an `u32` to `usize` and compares or indexes with it.

Simplification, as in the other files: an allocation does not fail.
-/

namespace Baa
open Res

/-- The pointer size of the target. -/
inductive Ptr where
  | p32
  | p64
deriving DecidableEq, Repr

/-- `usize::BITS`. -/
def Ptr.bits : Ptr → Nat
  | .p32 => 32
  | .p64 => 64

/-- `usize::MAX + 1`. -/
def Ptr.size : Ptr → Nat
  | .p32 => 4294967296
  | .p64 => 18446744073709551616

namespace Target

/-- `n as usize` for an `n` of type `u64`. -/
def asUsize (p : Ptr) (n : Nat) : Nat := n % p.size

/-- `1usize << index_width` (src/array/ops.rs:19-21, src/array/owned.rs:198-200, 265, 291): an amount of at least
`usize::BITS` panics in debug and is reduced modulo `usize::BITS` in release. -/
def numElements (p : Ptr) (m : Mode) (indexWidth : Nat) : Res Nat :=
  if indexWidth < p.bits then ok (2 ^ indexWidth)
  else match m with
    | .debug => panic .overflow
    | .release => ok (2 ^ (indexWidth % p.bits))

/-! ## src/bv/arithmetic.rs and its callers in src/bv/ops.rs -/

/-- `sign_extend` (src/bv/arithmetic.rs:54-76). -/
def signExtendWords (p : Ptr) (m : Mode) (dst source : List Word) (srcWidth dstWidth : Nat) : Res (List Word) := do
  let dst := Arith.assign dst source
  let neg ← Arith.isNeg m source srcWidth
  if neg then
    let lsbsInMsb := srcWidth % BITS
    let dst ←
      (if lsbsInMsb > 0 then do
        let msbsInMsb := BITS - lsbsInMsb
        let mk ← Arith.mask msbsInMsb
        let i ← subC m p.size source.length 1
        let d ← idx dst i
        setIdx dst i (d ||| (mk <<< lsbsInMsb))
      else ok dst)
    let dst ← modifyRange dst source.length dst.length fun s => ok (Arith.set s)
    Arith.maskMsb m dst dstWidth
  else
    modifyRange dst source.length dst.length fun s => ok (Arith.clear s)

/-- `concat` (src/bv/arithmetic.rs:133-157). -/
def concatWords (p : Ptr) (m : Mode) (dst msb lsb : List Word) (lsbWidth : Nat) : Res (List Word) := do
  let dst := Arith.assign dst lsb
  let lsbOffset := lsbWidth % BITS
  if lsbOffset = 0 then
    ok (dst.take lsb.length ++ Arith.assign (dst.drop lsb.length) msb)
  else do
    let shiftRight := BITS - lsbOffset
    let mk ← Arith.mask shiftRight
    let i ← subC m p.size lsb.length 1
    let prev ← idx dst i
    ok (dst.take i ++ Arith.concatLoop shiftRight lsbOffset mk prev (dst.drop i) (msb ++ [0#64]))

/-- `sign_extend` (src/bv/ops.rs:319-334). -/
def signExtend (p : Ptr) (m : Mode) (self : BitVecValue) (by_ : Nat) : Res BitVecValue := do
  let outWidth ← addC m U32 self.width by_
  let out := valueVecZeros outWidth
  let out ←
    (if outWidth ≤ BITS then
      modifyRange out 0 1 fun o => do
        let s ← sliceR self.words 0 1
        signExtendWords p m o s self.width outWidth
    else signExtendWords p m out self.words self.width outWidth)
  ok ⟨outWidth, out⟩

/-- `concat` (src/bv/ops.rs:370-385). -/
def concat (p : Ptr) (m : Mode) (self rhs : BitVecValue) : Res BitVecValue := do
  let outWidth ← addC m U32 self.width rhs.width
  let out := valueVecZeros outWidth
  let out ←
    (if outWidth ≤ BITS then
      modifyRange out 0 1 fun o => do
        let a ← sliceR self.words 0 1
        let b ← sliceR rhs.words 0 1
        concatWords p m o a b rhs.width
    else concatWords p m out self.words rhs.words rhs.width)
  ok ⟨outWidth, out⟩

/-- `assign_from_i64` (src/bv/ops.rs:437-479). -/
def assignFromI64 (p : Ptr) (m : Mode) (self : BitVecValue) (value : Word) : Res BitVecValue := do
  let width := self.width
  let self := BitVecValue.clear self
  let self ←
    (if self.words.length = 1 then do
      let mk ← Arith.mask width
      let ws ← setIdx self.words 0 (value &&& mk)
      ok { self with words := ws }
    else do
      let ws ← signExtendWords p m self.words [value] 64 width
      ok { self with words := ws })
  BitVecValue.checkI64 m self value
  ok self

/-! ## src/bv/io/strings.rs and its callers -/

/-- `to_bit_str_signed` (src/bv/io/strings.rs:23-34); `width as usize + 1` is only a capacity, but it can overflow. -/
def toBitStrSigned (p : Ptr) (m : Mode) (self : BitVecValue) : Res (List Byte) := do
  let neg ← Arith.isNeg m self.words self.width
  if neg then
    let copy ← Arith.negateInPlace m self.words self.width
    let _ ← addC m p.size self.width 1
    let w1 ← subC m U32 self.width 1
    Strings.toBitStrInternal copy w1 [ch '-']
  else
    let w1 ← subC m U32 self.width 1
    Strings.toBitStr self.words w1

/-- `to_hex_str_signed` (src/bv/io/strings.rs:73-83); the capacity as above. -/
def toHexStrSigned (p : Ptr) (m : Mode) (self : BitVecValue) : Res (List Byte) := do
  let neg ← Arith.isNeg m self.words self.width
  if neg then
    let copy ← Arith.negateInPlace m self.words self.width
    let _ ← addC m p.size self.width 1
    let w1 ← subC m U32 self.width 1
    let ws ← Strings.selectWordsForWidth m copy w1
    Strings.toHexStrInternal m ws w1 [ch '-']
  else
    let w1 ← subC m U32 self.width 1
    let ws ← Strings.selectWordsForWidth m self.words w1
    Strings.toHexStr m ws w1

/-- The digit loop of `parse_base_2` (src/bv/io/strings.rs:355-373) and `parse_base_16` (314-323). -/
def parseLoop (p : Ptr) (m : Mode) (bits perWord : Nat) (digitValue : Byte → Option Nat) (numDigits : Nat) :
    (ii : Nat) → (out : List Word) → (outIi : Nat) → (word : Word) → List Byte →
    Res (List Word × Except IntErrorKind (Nat × Word))
  | _, out, outIi, word, [] => ok (out, .ok (outIi, word))
  | ii, out, outIi, word, c :: cs => do
    let rest ← subC m p.size numDigits ii
    let iiRev ← subC m p.size rest 1
    let (out, outIi, word) ←
      (if ii > 0 then do
        let k ← addC m p.size iiRev 1
        if k % perWord = 0 then
          let out ← setIdx out outIi word
          let outIi ← subC m p.size outIi 1
          ok (out, outIi, 0#64)
        else ok (out, outIi, word)
      else ok (out, outIi, word))
    match digitValue c with
    | none => ok (out, .error .invalidDigit)
    | some v =>
      parseLoop p m bits perWord digitValue numDigits (ii + 1) out outIi ((word <<< bits) ||| BitVec.ofNat 64 v) cs

/-- `parse_base_16` (src/bv/io/strings.rs:307-327). -/
def parseBase16 (p : Ptr) (m : Mode) (digits : List Byte) (out : List Word) :
    Res (List Word × Except IntErrorKind Unit) := do
  let numDigits := digits.length
  let bits ← mulC m U32 (numDigits % U32) 4
  let words := divCeil bits BITS
  let outIi ← subC m U32 words 1
  match ← parseLoop p m 4 16 Strings.hexDigitValue numDigits 0 out outIi 0#64 digits with
  | (out, .error e) => ok (out, .error e)
  | (out, .ok (outIi, word)) =>
    debugAssert m (outIi == 0)
    let out ← setIdx out 0 word
    let _ ← mulC m U32 (numDigits % U32) 4
    ok (out, .ok ())

/-- `parse_base_2` (src/bv/io/strings.rs:338-377). -/
def parseBase2 (p : Ptr) (m : Mode) (digits : List Byte) (out : List Word) (maxWidth : Nat) :
    Res (List Word × Except IntErrorKind Unit) := do
  let width := digits.length % U32
  if width > maxWidth then ok (out, .error .exceedsWidth)
  else
    let words := divCeil width BITS
    let outIi ← subC m U32 words 1
    match ← parseLoop p m 1 64 Strings.binDigitValue width 0 out outIi 0#64 digits with
    | (out, .error e) => ok (out, .error e)
    | (out, .ok (outIi, word)) =>
      debugAssert m (outIi == 0)
      let out ← setIdx out 0 word
      ok (out, .ok ())

/-- The magnitude parsers selected by the number of output words (src/bv/io/strings.rs:233-289). -/
def parseMagnitude (p : Ptr) (m : Mode) (value : List Byte) (radix : Nat) (out : List Word) (width : Nat) :
    Res (List Word × Except IntErrorKind Unit) :=
  match out with
  | [_] => do
    debugAssert m (decide (width ≤ 64))
    match ← stdFromStrRadix U64 radix value with
    | .ok v => ok ([BitVec.ofNat 64 v], .ok ())
    | .error e => ok (out, .error (Strings.translateErr e))
  | [_, _] => do
    debugAssert m (decide (width ≤ 128))
    match ← stdFromStrRadix U128 radix value with
    | .ok v => ok ([BitVec.ofNat 64 v, BitVec.ofNat 64 (v >>> 64)], .ok ())
    | .error e => ok (out, .error (Strings.translateErr e))
  | _ => do
    debugAssert m (divCeil width BITS == out.length)
    if value = [ch '+'] then ok (out, .error .invalidDigit)
    else
      let digits := if value.head? = some (ch '+') then value.drop 1 else value
      if radix = 2 then parseBase2 p m digits out width
      else if radix = 10 then panic .todo
      else if radix = 16 then parseBase16 p m digits out
      else panic .todo

/-- `from_str_radix` (src/bv/io/strings.rs:198-305). -/
def fromStrRadixWords (p : Ptr) (m : Mode) (value : List Byte) (radix : Nat) (out : List Word) (width : Nat) :
    Res (List Word × Except IntErrorKind Unit) :=
  if value = [] then ok (out, .ok ())
  else
    let isNegative := value.head? == some (ch '-')
    let value := if isNegative then value.drop 1 else value
    if width = 0 then
      if value = [ch '0'] then ok (out, .ok ()) else ok (out, .error .exceedsWidth)
    else if value = [] then ok (out, .error .invalidDigit)
    else do
      match ← parseMagnitude p m value radix out width with
      | (out, .error e) => ok (out, .error e)
      | (out, .ok ()) =>
        if isNegative then do
          let out ← Arith.negateInPlace m out width
          ok (out, .ok ())
        else ok (out, .ok ())

/-- `assign_from_str_radix` (src/bv/ops.rs:481-484). -/
def assignFromStrRadix (p : Ptr) (m : Mode) (self : BitVecValue) (value : List Byte) (radix : Nat) :
    Res (BitVecValue × Except IntErrorKind Unit) := do
  let (ws, r) ← fromStrRadixWords p m value radix self.words self.width
  ok ({ self with words := ws }, r)

/-- `from_str_radix` (src/bv/owned.rs:34-38). -/
def fromStrRadix (p : Ptr) (m : Mode) (value : List Byte) (radix width : Nat) :
    Res (Except IntErrorKind BitVecValue) := do
  let (out, r) ← assignFromStrRadix p m (BitVecValue.zero width) value radix
  match r with
  | .ok () => ok (.ok out)
  | .error e => ok (.error e)

/-! ## src/bv/indexed.rs -/

/-- `to_range` (src/bv/indexed.rs:34-38), start and end. -/
def toRange (p : Ptr) (m : Mode) (i : BitVecValueIndex) : Res (Nat × Nat) := do
  let end_ ← addC m p.size i.index i.words
  ok (i.index, end_)

/-- `get_ref(index)` and `get_mut_ref(index)` (src/bv/indexed.rs:51-61, 86-96). -/
def getRef (p : Ptr) (m : Mode) (data : List Word) (i : BitVecValueIndex) : Res BitVecValue := do
  let r ← toRange p m i
  let ws ← sliceR data r.1 r.2
  ok ⟨i.width, ws⟩

/-- `get_ref((a, b))` (src/bv/indexed.rs:63-79). -/
def getRef2 (p : Ptr) (m : Mode) (data : List Word) (a b : BitVecValueIndex) : Res (BitVecValue × BitVecValue) := do
  let ra ← toRange p m a
  let wa ← sliceR data ra.1 ra.2
  let rb ← toRange p m b
  let wb ← sliceR data rb.1 rb.2
  ok (⟨a.width, wa⟩, ⟨b.width, wb⟩)

/-- The two branches of `split_borrow_1` for one source (src/bv/indexed.rs:170-175), with `move_range` (180-185). -/
def splitSource (p : Ptr) (m : Mode) (beforeDst afterDst : List Word) (off : Nat) (src : Nat × Nat) :
    Res (List Word) :=
  if src.1 ≥ off then do
    let lo ← subC m p.size src.1 off
    let hi ← subC m p.size src.2 off
    sliceR afterDst lo hi
  else sliceR beforeDst src.1 src.2

/-- `split_borrow_1` (src/bv/indexed.rs:163-177). -/
def splitBorrow1 (p : Ptr) (m : Mode) (data : List Word) (dst src : Nat × Nat) : Res (List Word × List Word) := do
  let (beforeDst, afterDstStart) ← Indexed.splitAt data dst.1
  let len ← subC m p.size dst.2 dst.1
  let (dstWords, afterDst) ← Indexed.splitAt afterDstStart len
  let srcWords ← splitSource p m beforeDst afterDst dst.2 src
  ok (dstWords, srcWords)

/-- `split_borrow_2` (src/bv/indexed.rs:188-208). -/
def splitBorrow2 (p : Ptr) (m : Mode) (data : List Word) (dst srcA srcB : Nat × Nat) :
    Res (List Word × List Word × List Word) := do
  let (beforeDst, afterDstStart) ← Indexed.splitAt data dst.1
  let len ← subC m p.size dst.2 dst.1
  let (dstWords, afterDst) ← Indexed.splitAt afterDstStart len
  let aWords ← splitSource p m beforeDst afterDst dst.2 srcA
  let bWords ← splitSource p m beforeDst afterDst dst.2 srcB
  ok (dstWords, aWords, bWords)

/-- `get_mut_ref((a, b))` (src/bv/indexed.rs:98-116). -/
def getMutRef2 (p : Ptr) (m : Mode) (data : List Word) (a b : BitVecValueIndex) :
    Res (BitVecValue × BitVecValue) := do
  let ra ← toRange p m a
  let rb ← toRange p m b
  let (wa, wb) ← splitBorrow1 p m data ra rb
  ok (⟨a.width, wa⟩, ⟨b.width, wb⟩)

/-- `get_mut_ref((a, b, c))` (src/bv/indexed.rs:118-160). -/
def getMutRef3 (p : Ptr) (m : Mode) (data : List Word) (a b c : BitVecValueIndex) :
    Res (BitVecValue × BitVecValue × BitVecValue) := do
  let ra ← toRange p m a
  let rb ← toRange p m b
  let rc ← toRange p m c
  let (wa, wb, wc) ← splitBorrow2 p m data ra rb rc
  ok (⟨a.width, wa⟩, ⟨b.width, wb⟩, ⟨c.width, wc⟩)

/-! ## src/array/owned.rs -/

/-- `usize::leading_zeros`. -/
def leadingZeros (p : Ptr) (n : Nat) : Nat := if n = 0 then p.bits else p.bits - (Nat.log2 n + 1)

/-- `index_width_from_len` (src/array/owned.rs:189-195). -/
def indexWidthFromLen (p : Ptr) (len : Nat) : Nat :=
  if len = 0 then 0 else p.bits - leadingZeros p (len - 1)

/-- `approx_dense_storage_size` (src/array/owned.rs:264-279). -/
def approxStorageSize (p : Ptr) (m : Mode) (indexWidth dataWidth : Nat) : Res Nat := do
  let elements ← numElements p m indexWidth
  if dataWidth = 1 then ok (divCeil elements 8)
  else if dataWidth ≤ 8 then ok elements
  else if dataWidth ≤ 64 then mulC m p.size elements 8
  else mulC m p.size elements (divCeil dataWidth BITS)

/-- `new` (src/array/owned.rs:282-317). -/
def newDense (p : Ptr) (m : Mode) (indexWidth : Nat) (default : BitVecValue) : Res DenseArrayValue := do
  let dataWidth := default.width
  let storageSize ← approxStorageSize p m indexWidth dataWidth
  debugAssert m (decide (storageSize ≤ DenseArrayValue.maxBytes))
  let elements ← numElements p m indexWidth
  let data ←
    (if dataWidth = 1 then do
      let t ← default.isTru
      if t then do
        let v ← BitVecValue.ones m (elements % U32)
        ok (DenseArrayImpl.bit v)
      else do
        match m with
        | .debug => do
          let f ← default.isFals
          debugAssert .debug f
        | .release => ok ()
        ok (.bit (BitVecValue.zero (elements % U32)))
    else if dataWidth ≤ 8 then do
      let d ← unwrap default.toU64
      ok (.u8 (List.replicate elements (d.setWidth 8)))
    else if dataWidth ≤ 64 then do
      let d ← unwrap default.toU64
      ok (.u64 (List.replicate elements d))
    else do
      let _ ← mulC m p.size elements default.words.length
      ok (.big (List.replicate elements default.words).flatten))
  ok ⟨indexWidth, dataWidth, data⟩

/-- `From<&[bool]>` (src/array/owned.rs:202-218). -/
def ofBools (p : Ptr) (m : Mode) (values : List Bool) : Res DenseArrayValue := do
  let indexWidth := indexWidthFromLen p values.length
  let n ← numElements p m indexWidth
  let data ← DenseArrayValue.ofBools.go 0 values (BitVecValue.zero (n % U32))
  ok ⟨indexWidth, 1, .bit data⟩

/-- `From<&[u8]>` (src/array/owned.rs:220-234). -/
def ofU8s (p : Ptr) (m : Mode) (values : List Byte) : Res DenseArrayValue := do
  let indexWidth := indexWidthFromLen p values.length
  let n ← numElements p m indexWidth
  ok ⟨indexWidth, 8, .u8 (DenseArrayValue.resize values n 0#8)⟩

/-- `From<&[u64]>` (src/array/owned.rs:236-250). -/
def ofU64s (p : Ptr) (m : Mode) (values : List Word) : Res DenseArrayValue := do
  let indexWidth := indexWidthFromLen p values.length
  let n ← numElements p m indexWidth
  ok ⟨indexWidth, 64, .u64 (DenseArrayValue.resize values n 0#64)⟩

/-- `select_usize` (src/array/owned.rs:343-357). -/
def selectUsize (p : Ptr) (m : Mode) (a : DenseArrayValue) (index : Nat) : Res BitVecValue :=
  match a.data with
  | .bit value => do
    let b ← value.isBitSet (index % U32)
    BitVecValue.fromBool m b
  | .u8 values => do
    let v ← idx values index
    BitVecValue.fromU64 m (v.setWidth 64) a.dataWidth
  | .u64 values => do
    let v ← idx values index
    BitVecValue.fromU64 m v a.dataWidth
  | .big values => do
    let start ← mulC m p.size a.wordsPerElement index
    let end_ ← addC m p.size start a.wordsPerElement
    let ws ← sliceR values start end_
    ok ⟨a.dataWidth, ws⟩

/-- `select` (src/array/owned.rs:369-373). -/
def selectDense (p : Ptr) (m : Mode) (a : DenseArrayValue) (index : BitVecValue) : Res BitVecValue := do
  debugAssert m (index.width == a.indexWidth)
  let i ← unwrap index.toU64
  selectUsize p m a (asUsize p i.toNat)

/-- `store` (src/array/owned.rs:377-410). -/
def storeDense (p : Ptr) (m : Mode) (a : DenseArrayValue) (index data : BitVecValue) : Res DenseArrayValue := do
  debugAssert m (index.width == a.indexWidth)
  let i ← unwrap index.toU64
  let index := asUsize p i.toNat
  debugAssert m (data.width == a.dataWidth)
  match a.data with
  | .bit value =>
    let t ← data.isTru
    let value ← (if t then value.setBit (index % U32) else value.clearBit (index % U32))
    ok { a with data := .bit value }
  | .u8 values =>
    let v ← unwrap data.toU64
    let values ← setIdx values index (v.setWidth 8)
    ok { a with data := .u8 values }
  | .u64 values =>
    let v ← unwrap data.toU64
    let values ← setIdx values index v
    ok { a with data := .u64 values }
  | .big values =>
    let start ← mulC m p.size a.wordsPerElement index
    let end_ ← addC m p.size start a.wordsPerElement
    let values ← modifyRange values start end_ fun ws => do
      let r ← BitVecValue.assign m ⟨a.dataWidth, ws⟩ data
      ok r.words
    ok { a with data := .big values }

/-- One iteration of the `U64U64` loop (src/array/owned.rs:429-449); `set_bit` and `clear_bit` take `*index as u32`. -/
def putU64 (p : Ptr) (m : Mode) (d : DenseArrayValue) (index v : Word) : Res DenseArrayValue :=
  match d.data with
  | .bit value =>
    if v = 1#64 then do
      let value ← value.setBit (index.toNat % U32)
      ok { d with data := .bit value }
    else do
      debugAssert m (v == 0#64)
      let value ← value.clearBit (index.toNat % U32)
      ok { d with data := .bit value }
  | .u8 values => do
    let values ← setIdx values (asUsize p index.toNat) (v.setWidth 8)
    ok { d with data := .u8 values }
  | .u64 values => do
    let values ← setIdx values (asUsize p index.toNat) v
    ok { d with data := .u64 values }
  | .big _ => panic .unreachable

/-- The `U64U64` loop. -/
def putAllU64 (p : Ptr) (m : Mode) : DenseArrayValue → List (Word × Word) → Res DenseArrayValue
  | d, [] => ok d
  | d, e :: es => do
    let d ← putU64 p m d e.1 e.2
    putAllU64 p m d es

/-- The `U64Big` loop (src/array/owned.rs:452-456). -/
def putAllBig (p : Ptr) (m : Mode) :
    DenseArrayValue → BitVecValue → List (Word × BitVecValue) → Res DenseArrayValue
  | d, _, [] => ok d
  | d, indexBv, e :: es => do
    let indexBv ← indexBv.assignFromU64 m e.1
    let d ← storeDense p m d indexBv e.2
    putAllBig p m d indexBv es

/-- `From<&SparseArrayValue> for DenseArrayValue` (src/array/owned.rs:422-466). -/
def ofSparse (p : Ptr) (m : Mode) (env : HashEnv) (value : SparseArrayValue) : Res DenseArrayValue := do
  let dflt ← value.default m
  let dense ← newDense p m value.indexWidth dflt
  debugAssert m (value.dataWidth == dense.dataWidth)
  debugAssert m (value.indexWidth == dense.indexWidth)
  match value.data with
  | .u64u64 _ map => putAllU64 p m dense (env.order map.entries)
  | .u64big _ map => putAllBig p m dense (BitVecValue.zero value.dataWidth) (env.order map.entries)
  | .bigbig _ _ => panic .unreachable

/-- `(0..n).map(select_usize)` as used by the two `Big` loops of the conversion below. -/
def selectAll (p : Ptr) (m : Mode) (a : DenseArrayValue) : Nat → Nat → Res (List BitVecValue)
  | _, 0 => ok []
  | i, n + 1 => do
    let v ← selectUsize p m a i
    let vs ← selectAll p m a (i + 1) n
    ok (v :: vs)

/-- `From<&DenseArrayValue> for SparseArrayValue` (src/array/owned.rs:470-571). -/
def toSparse (p : Ptr) (m : Mode) (env : HashEnv) (value : DenseArrayValue) : Res SparseArrayValue :=
  match value.data with
  | .bit data => do
    let n ← numElements p m value.indexWidth
    let c ← DenseArrayValue.countBits data 0 n (0, 0)
    let dflt := decide (c.2 > c.1)
    let bv ← BitVecValue.fromBool m dflt
    let out ← SparseArrayValue.new value.indexWidth bv
    DenseArrayValue.storeBits data dflt 0 n out
  | .u8 data => do
    let n ← numElements p m value.indexWidth
    let count ← DenseArrayValue.countU8 data 0 n (List.replicate 8 0)
    let mx ← unwrap (DenseArrayValue.maxByCount ((List.range 8).zip count))
    let dflt : Byte := BitVec.ofNat 8 mx.1
    let bv ← BitVecValue.fromU64 m (dflt.setWidth 64) value.dataWidth
    let out ← SparseArrayValue.new value.indexWidth bv
    DenseArrayValue.storeWords (dflt.setWidth 64) 0 (data.map fun b => b.setWidth 64) out
  | .u64 data => do
    let count := DenseArrayValue.countLoop HMap.empty data
    let mx ← unwrap (DenseArrayValue.maxByCount (env.order count.entries))
    let dflt := mx.1
    let bv ← BitVecValue.fromU64 m dflt value.dataWidth
    let out ← SparseArrayValue.new value.indexWidth bv
    DenseArrayValue.storeWords dflt 0 data out
  | .big _ => do
    let n ← numElements p m value.indexWidth
    let elems ← selectAll p m value 0 n
    let count := DenseArrayValue.countLoop HMap.empty elems
    let mx ← unwrap (DenseArrayValue.maxByCount (env.order count.entries))
    let dflt := mx.1
    let out ← SparseArrayValue.new value.indexWidth dflt
    DenseArrayValue.storeBigs m dflt 0 elems out

/-- `is_equal` (src/array/owned.rs:71-78) with `is_equal_mixed` (120-129). -/
def isEqual (p : Ptr) (m : Mode) (env : HashEnv) (a b : ArrayValue) : Res (Option Bool) :=
  match a, b with
  | .dense a, .dense b => DenseArrayValue.isEqual m a b
  | .sparse a, .sparse b => SparseArrayValue.isEqual m env a b
  | .sparse a, .dense b => mixed b a
  | .dense a, .sparse b => mixed a b
where
  /-- `is_equal_mixed` -/
  mixed (dense : DenseArrayValue) (sparse : SparseArrayValue) : Res (Option Bool) :=
    if dense.indexWidth ≠ sparse.indexWidth ∨ dense.dataWidth ≠ sparse.dataWidth then ok none
    else do
      let otherDense ← ofSparse p m env sparse
      DenseArrayValue.isEqual m otherDense dense

/-- `ArrayValue::new_dense` (src/array/owned.rs:37-40). -/
def newDenseArray (p : Ptr) (m : Mode) (indexWidth : Nat) (default : BitVecValue) : Res ArrayValue := do
  let d ← newDense p m indexWidth default
  ok (.dense d)

/-- `ArrayValue::make_dense` (src/array/owned.rs:55-68). -/
def makeDense (p : Ptr) (m : Mode) (env : HashEnv) : ArrayValue → Res ArrayValue
  | .dense d => ok (.dense d)
  | .sparse s => do
    let d ← ofSparse p m env s
    ok (.dense d)

/-- `From<ArrayValue> for SparseArrayValue` (src/array/owned.rs:105-112). -/
def arrayToSparse (p : Ptr) (m : Mode) (env : HashEnv) : ArrayValue → Res SparseArrayValue
  | .sparse s => ok s
  | .dense d => toSparse p m env d

/-- `ArrayValue::select` (src/array/owned.rs:146-151). -/
def select (p : Ptr) (m : Mode) (env : HashEnv) (a : ArrayValue) (index : BitVecValue) : Res BitVecValue :=
  match a with
  | .sparse v => v.select m env index
  | .dense v => selectDense p m v index

/-- `ArrayValue::store` (src/array/owned.rs:155-164). -/
def store (p : Ptr) (m : Mode) (env : HashEnv) (a : ArrayValue) (index data : BitVecValue) : Res ArrayValue :=
  match a with
  | .sparse v => do
    let v ← v.store m env index data
    ok (.sparse v)
  | .dense v => do
    let v ← storeDense p m v index data
    ok (.dense v)

end Target
end Baa
