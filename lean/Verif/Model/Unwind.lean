import Verif.Model.Array
import Verif.Model.Indexed

/-!
# What functions that take `&mut self` leave behind, also when they panic

A panic unwinds the stack; a caller that catches it (`std::panic::catch_unwind`) can go on to use the value that was being changed. Here the functions
that change something are modelled statement by statement as programs on a state, so that the state at the moment of the panic is visible.
-/

namespace Baa
open Res

/-- A program with a state: the outcome, and the state afterwards, whether it panicked or not. -/
def Eff (σ α : Type) : Type := σ → Res α × σ

namespace Eff
variable {σ τ α β : Type}

/-- A value, without looking at the state. -/
def pure (a : α) : Eff σ α := fun s => (ok a, s)

/-- One program after another; the second one does not run if the first one panics. -/
def bind (x : Eff σ α) (f : α → Eff σ β) : Eff σ β := fun s =>
  match x s with
  | (ok a, s') => f a s'
  | (.panic p, s') => (.panic p, s')

instance : Monad (Eff σ) where
  pure := pure
  bind := bind

/-- A calculation that does not change the state. -/
def lift (r : Res α) : Eff σ α := fun s => (r, s)

/-- Reading the state. -/
def get : Eff σ σ := fun s => (ok s, s)

/-- Writing the state. -/
def set (s : σ) : Eff σ Unit := fun _ => (ok (), s)

/-- A program on a part of the state. -/
def zoom (part : τ → σ) (put : τ → σ → τ) (x : Eff σ α) : Eff τ α := fun t => ((x (part t)).1, put t (x (part t)).2)

end Eff

namespace Unwind
open Eff

/-! ## Words (src/bv/arithmetic.rs) -/

/-- A loop that overwrites every word (src/bv/arithmetic.rs:25-36, src/bv/ops.rs:407-409, 415-417). -/
def fill (w : Word) : Eff (List Word) Unit := do
  let ws ← get
  set (ws.map fun _ => w)

/-- `dst[i] = w`. -/
def put (i : Nat) (w : Word) : Eff (List Word) Unit := do
  let ws ← get
  let ws ← lift (setIdx ws i w)
  set ws

/-- A program on `&mut dst[start..]`. -/
def suffix (start : Nat) (x : Eff (List Word) Unit) : Eff (List Word) Unit := do
  let ws ← get
  let _ ← lift (sliceR ws start ws.length)
  zoom (fun ws => ws.drop start) (fun ws part => ws.take start ++ part) x

/-- `assign` (src/bv/arithmetic.rs:39-43). -/
def copy (source : List Word) : Eff (List Word) Unit := do
  let ws ← get
  set (Arith.assign ws source)

/-- `mask_msb` (src/bv/arithmetic.rs:79-83). -/
def maskMsb (m : Mode) (width : Nat) : Eff (List Word) Unit := do
  let ws ← get
  lift (debugAssert m (divCeil width BITS == ws.length))
  let mk ← lift (Arith.mask (width % BITS))
  let l ← lift (lastU ws)
  set (ws.dropLast ++ [l &&& mk])

/-- `sign_extend` (src/bv/arithmetic.rs:54-76). -/
def signExtend (m : Mode) (source : List Word) (srcWidth dstWidth : Nat) : Eff (List Word) Unit := do
  copy source
  let neg ← lift (Arith.isNeg m source srcWidth)
  if neg then
    let lsbsInMsb := srcWidth % BITS
    if lsbsInMsb > 0 then
      let msbsInMsb := BITS - lsbsInMsb
      let mk ← lift (Arith.mask msbsInMsb)
      let i ← lift (subC m U64 source.length 1)
      let ws ← get
      let d ← lift (idx ws i)
      put i (d ||| (mk <<< lsbsInMsb))
    suffix source.length (fill (BitVec.allOnes 64))
    maskMsb m dstWidth
  else
    suffix source.length (fill 0#64)

/-- `set_bit` (src/bv/arithmetic.rs:93-97). -/
def setBit (pos : Nat) : Eff (List Word) Unit := do
  let ws ← get
  let w ← lift (idx ws (pos / BITS))
  put (pos / BITS) (w ||| (1#64 <<< (pos % BITS)))

/-- `clear_bit` (src/bv/arithmetic.rs:100-104). -/
def clearBit (pos : Nat) : Eff (List Word) Unit := do
  let ws ← get
  let w ← lift (idx ws (pos / BITS))
  put (pos / BITS) (w &&& ~~~(1#64 <<< (pos % BITS)))

/-- `negate_in_place` (src/bv/arithmetic.rs:345-354). -/
def negateInPlace (m : Mode) (width : Nat) : Eff (List Word) Unit := do
  let ws ← get
  set (Arith.negateLoop 1 ws)
  maskMsb m width

/-! ## Parsing (src/bv/io/strings.rs) -/

/-- The digit loops of `parse_base_2` (src/bv/io/strings.rs:355-373) and `parse_base_16` (src/bv/io/strings.rs:314-323), see `Strings.parseLoop`. -/
def parseLoop (m : Mode) (bits perWord : Nat) (digitValue : Byte → Option Nat) (numDigits : Nat) :
    (ii : Nat) → (outIi : Nat) → (word : Word) → List Byte → Eff (List Word) (Except IntErrorKind (Nat × Word))
  | _, outIi, word, [] => Eff.pure (.ok (outIi, word))
  | ii, outIi, word, c :: cs => do
    let rest ← lift (subC m U64 numDigits ii)
    let iiRev ← lift (subC m U64 rest 1)
    let (outIi, word) ←
      (if ii > 0 then do
        let k ← lift (addC m U64 iiRev 1)
        if k % perWord = 0 then
          put outIi word
          let outIi ← lift (subC m U64 outIi 1)
          Eff.pure (outIi, 0#64)
        else Eff.pure (outIi, word)
      else Eff.pure (outIi, word))
    match digitValue c with
    | none => Eff.pure (.error .invalidDigit)
    | some v => parseLoop m bits perWord digitValue numDigits (ii + 1) outIi ((word <<< bits) ||| BitVec.ofNat 64 v) cs

/-- `parse_base_16` (src/bv/io/strings.rs:307-327). -/
def parseBase16 (m : Mode) (digits : List Byte) : Eff (List Word) (Except IntErrorKind Unit) := do
  let numDigits := digits.length
  let bits ← lift (mulC m U32 (numDigits % U32) 4)
  let words := divCeil bits BITS
  let outIi ← lift (subC m U32 words 1)
  match ← parseLoop m 4 16 Strings.hexDigitValue numDigits 0 outIi 0#64 digits with
  | .error e => Eff.pure (.error e)
  | .ok (outIi, word) =>
    lift (debugAssert m (outIi == 0))
    put 0 word
    let _ ← lift (mulC m U32 (numDigits % U32) 4)
    Eff.pure (.ok ())

/-- `parse_base_2` (src/bv/io/strings.rs:338-377). -/
def parseBase2 (m : Mode) (digits : List Byte) (maxWidth : Nat) : Eff (List Word) (Except IntErrorKind Unit) := do
  let width := digits.length % U32
  if width > maxWidth then Eff.pure (.error .exceedsWidth)
  else
    let words := divCeil width BITS
    let outIi ← lift (subC m U32 words 1)
    match ← parseLoop m 1 64 Strings.binDigitValue width 0 outIi 0#64 digits with
    | .error e => Eff.pure (.error e)
    | .ok (outIi, word) =>
      lift (debugAssert m (outIi == 0))
      put 0 word
      Eff.pure (.ok ())

/-- The parsers selected by the number of output words (src/bv/io/strings.rs:233-289). -/
def parseMagnitude (m : Mode) (value : List Byte) (radix width : Nat) : Eff (List Word) (Except IntErrorKind Unit) := do
  match ← get with
  | [_] => do
    lift (debugAssert m (decide (width ≤ 64)))
    match ← lift (stdFromStrRadix U64 radix value) with
    | .ok v =>
      put 0 (BitVec.ofNat 64 v)
      Eff.pure (.ok ())
    | .error e => Eff.pure (.error (Strings.translateErr e))
  | [_, _] => do
    lift (debugAssert m (decide (width ≤ 128)))
    match ← lift (stdFromStrRadix U128 radix value) with
    | .ok v =>
      put 0 (BitVec.ofNat 64 v)
      put 1 (BitVec.ofNat 64 (v >>> 64))
      Eff.pure (.ok ())
    | .error e => Eff.pure (.error (Strings.translateErr e))
  | out => do
    lift (debugAssert m (divCeil width BITS == out.length))
    if value = [ch '+'] then Eff.pure (.error .invalidDigit)
    else
      let digits := if value.head? = some (ch '+') then value.drop 1 else value
      if radix = 2 then parseBase2 m digits width
      else if radix = 10 then lift (.panic .todo)
      else if radix = 16 then parseBase16 m digits
      else lift (.panic .todo)

/-- `from_str_radix` (src/bv/io/strings.rs:198-305). -/
def fromStrRadix (m : Mode) (value : List Byte) (radix width : Nat) : Eff (List Word) (Except IntErrorKind Unit) :=
  if value = [] then Eff.pure (.ok ())
  else
    let isNegative := value.head? == some (ch '-')
    let value := if isNegative then value.drop 1 else value
    if width = 0 then
      if value = [ch '0'] then Eff.pure (.ok ()) else Eff.pure (.error .exceedsWidth)
    else if value = [] then Eff.pure (.error .invalidDigit)
    else do
      match ← parseMagnitude m value radix width with
      | .error e => Eff.pure (.error e)
      | .ok () =>
        if isNegative then
          negateInPlace m width
        Eff.pure (.ok ())

/-! ## Values (src/bv/ops.rs) -/

/-- `words_mut` (src/bv/owned.rs:179-181, src/bv/borrowed.rs:90-92): a program on the words of a value. -/
def onWords {α : Type} (x : Eff (List Word) α) : Eff BitVecValue α := zoom BitVecValue.words (fun v ws => { v with words := ws }) x

/-- `BitVecMutOps::assign` (src/bv/ops.rs:392-397). -/
def assign (m : Mode) (value : BitVecValue) : Eff BitVecValue Unit := do
  let self ← get
  lift (debugAssert m (self.width == value.width))
  lift (debugAssert m (self.words.length == value.words.length))
  if self.words.length = value.words.length then onWords (set value.words) else lift (.panic .lenMismatch)

/-- `BitVecMutOps::assign_ones` (src/bv/ops.rs:413-419). -/
def assignOnes (m : Mode) : Eff BitVecValue Unit := do
  onWords (fill (BitVec.allOnes 64))
  let self ← get
  onWords (maskMsb m self.width)

/-- `BitVecMutOps::assign_from_u64` (src/bv/ops.rs:421-435). -/
def assignFromU64 (m : Mode) (value : Word) : Eff BitVecValue Unit := do
  onWords (fill 0#64)
  onWords (put 0 value)
  let self ← get
  onWords (maskMsb m self.width)
  let self ← get
  let w0 ← lift (idx self.words 0)
  lift (debugAssert m (w0 == value))

/-- `BitVecMutOps::assign_from_i64` (src/bv/ops.rs:437-479). -/
def assignFromI64 (m : Mode) (value : Word) : Eff BitVecValue Unit := do
  let self ← get
  let width := self.width
  onWords (fill 0#64)
  let self ← get
  if self.words.length = 1 then
    let mk ← lift (Arith.mask width)
    onWords (put 0 (value &&& mk))
  else
    onWords (signExtend m [value] 64 width)
  let self ← get
  lift (BitVecValue.checkI64 m self value)

/-- `BitVecMutOps::assign_from_str_radix` (src/bv/ops.rs:481-484). -/
def assignFromStrRadix (m : Mode) (value : List Byte) (radix : Nat) : Eff BitVecValue (Except IntErrorKind Unit) := do
  let self ← get
  onWords (fromStrRadix m value radix self.width)

/-! ## Arrays (src/array/owned.rs) -/

/-- `DenseArrayValue::store` (src/array/owned.rs:377-410). -/
def storeDense (m : Mode) (index data : BitVecValue) : Eff DenseArrayValue Unit := do
  let self ← get
  lift (debugAssert m (index.width == self.indexWidth))
  let i ← lift (unwrap index.toU64)
  let index := i.toNat
  lift (debugAssert m (data.width == self.dataWidth))
  match self.data with
  | .bit value =>
    let t ← lift data.isTru
    zoom (fun _ => value) (fun self value => { self with data := .bit value })
      (onWords (if t then setBit (index % U32) else clearBit (index % U32)))
  | .u8 values =>
    let v ← lift (unwrap data.toU64)
    let values ← lift (setIdx values index (v.setWidth 8))
    set { self with data := .u8 values }
  | .u64 values =>
    let v ← lift (unwrap data.toU64)
    let values ← lift (setIdx values index v)
    set { self with data := .u64 values }
  | .big values =>
    let start ← lift (mulC m U64 self.wordsPerElement index)
    let end_ ← lift (addC m U64 start self.wordsPerElement)
    let ws ← lift (sliceR values start end_)
    zoom (fun _ => ⟨self.dataWidth, ws⟩) (fun self element => { self with data := .big (values.take start ++ element.words ++ values.drop end_) })
      (assign m data)

/-- `SparseArrayValue::store` (src/array/owned.rs:796-834). A hash table looks for the key before it changes anything, so that its contents are the
same as before if comparing keys panics. -/
def storeSparse (m : Mode) (env : HashEnv) (index data : BitVecValue) : Eff SparseArrayValue Unit := do
  let self ← get
  lift (debugAssert m (index.width == self.indexWidth))
  lift (debugAssert m (data.width == self.dataWidth))
  match self.data with
  | .u64u64 d map =>
    let i ← lift (unwrap index.toU64)
    let v ← lift (unwrap data.toU64)
    if v = d then set { self with data := .u64u64 d (map.remove i) } else set { self with data := .u64u64 d (map.insert i v) }
  | .u64big d map =>
    let i ← lift (unwrap index.toU64)
    let e ← lift (BitVecValue.isEqual m data d)
    if e then set { self with data := .u64big d (map.remove i) } else set { self with data := .u64big d (map.insert i data) }
  | .bigbig d map =>
    let e ← lift (BitVecValue.isEqual m data d)
    if e then
      lift (lookupBorrowed env map index)
      set { self with data := .bigbig d map }
    else
      lift (lookupOwned m env map index)
      set { self with data := .bigbig d (map.insert index data) }

/-- `ArrayValue::store` (src/array/owned.rs:155-164). -/
def store (m : Mode) (env : HashEnv) (index data : BitVecValue) : Eff ArrayValue Unit := do
  match ← get with
  | .sparse v => zoom (fun _ => v) (fun _ v => .sparse v) (storeSparse m env index data)
  | .dense v => zoom (fun _ => v) (fun _ v => .dense v) (storeDense m index data)

/-- `ArrayValue::clear` (src/array/owned.rs:166-171, 412-419, 836-851). The new default is made before anything is written. -/
def clear : Eff ArrayValue Unit := do
  match ← get with
  | .sparse v => set (.sparse v.clear)
  | .dense v => set (.dense v.clear)

/-- `ArrayValue::make_dense` (src/array/owned.rs:55-68). -/
def makeDense (m : Mode) (env : HashEnv) : Eff ArrayValue Unit := do
  match ← get with
  | .dense _ => Eff.pure ()
  | .sparse s =>
    let value ← lift (DenseArrayValue.ofSparse m env s)
    set (.dense value)

/-! ## Interner (src/bv/indexed.rs) -/

/-- `ValueInterner::get_index` (src/bv/indexed.rs:257-283). -/
def getIndex (m : Mode) (value : BitVecValue) : Eff ValueInterner BitVecValueIndex := do
  match value.words with
  | [word] => do
    lift (debugAssert m (decide (value.width ≤ BITS)))
    if word.toNat < 8 then Eff.pure ⟨word.toNat, value.width⟩
    else
      let self ← get
      match self.small.get word with
      | some index => Eff.pure ⟨index, value.width⟩
      | none =>
        let index := self.words.length % U32
        set { self with words := self.words ++ [word] }
        let self ← get
        set { self with small := self.small.insert word index }
        Eff.pure ⟨index, value.width⟩
  | words => do
    lift (debugAssert m (decide (value.width > BITS)))
    let self ← get
    match self.large.get words with
    | some index => Eff.pure ⟨index, value.width⟩
    | none =>
      let index := self.words.length % U32
      set { self with words := self.words ++ words }
      let self ← get
      set { self with large := self.large.insert words index }
      Eff.pure ⟨index, value.width⟩

end Unwind
end Baa
