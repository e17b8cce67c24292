import Verif.SpecArray
import Verif.SpecIndexed
import Verif.Model.Target
import Verif.Model.Loading

/-!
# All calls: build modes, sizes and targets
-/

namespace Baa

/-! ## C28: debug and release builds agree -/

section
open Res

/-- A call of a public function with its arguments; the index is the type of the result. -/
inductive Call : Type → Type where
  | add (a b : BitVecValue) : Call BitVecValue
  | sub (a b : BitVecValue) : Call BitVecValue
  | mul (a b : BitVecValue) : Call BitVecValue
  | shiftLeft (a b : BitVecValue) : Call BitVecValue
  | shiftRight (a b : BitVecValue) : Call BitVecValue
  | arithmeticShiftRight (a b : BitVecValue) : Call BitVecValue
  | and (a b : BitVecValue) : Call BitVecValue
  | or (a b : BitVecValue) : Call BitVecValue
  | xor (a b : BitVecValue) : Call BitVecValue
  | concat (a b : BitVecValue) : Call BitVecValue
  | isEqual (a b : BitVecValue) : Call Bool
  | isNotEqual (a b : BitVecValue) : Call Bool
  | isGreater (a b : BitVecValue) : Call Bool
  | isGreaterOrEqual (a b : BitVecValue) : Call Bool
  | isLess (a b : BitVecValue) : Call Bool
  | isLessOrEqual (a b : BitVecValue) : Call Bool
  | isGreaterSigned (a b : BitVecValue) : Call Bool
  | isGreaterOrEqualSigned (a b : BitVecValue) : Call Bool
  | isLessSigned (a b : BitVecValue) : Call Bool
  | isLessOrEqualSigned (a b : BitVecValue) : Call Bool
  | eqOwned (a b : BitVecValue) : Call Bool
  | eqRef (a b : BitVecValue) : Call Bool
  | slice (a : BitVecValue) (msb lsb : Nat) : Call BitVecValue
  | signExtend (a : BitVecValue) (n : Nat) : Call BitVecValue
  | zeroExtend (a : BitVecValue) (n : Nat) : Call BitVecValue
  | not (a : BitVecValue) : Call BitVecValue
  | negate (a : BitVecValue) : Call BitVecValue
  | isBitSet (a : BitVecValue) (n : Nat) : Call Bool
  | toBool (a : BitVecValue) : Call (Option Bool)
  | toU64 (a : BitVecValue) : Call (Option Word)
  | toI64 (a : BitVecValue) : Call (Option Word)
  | isTrue (a : BitVecValue) : Call Bool
  | isFalse (a : BitVecValue) : Call Bool
  | isZero (a : BitVecValue) : Call Bool
  | isNegative (a : BitVecValue) : Call Bool
  | toUnsignedFixedPoint (a : BitVecValue) (n : Nat) : Call (Option Fraction)
  | toSignedFixedPoint (a : BitVecValue) (n : Nat) : Call (Option Fraction)
  | toBitStr (a : BitVecValue) : Call (List Byte)
  | toBitStrSigned (a : BitVecValue) : Call (List Byte)
  | toHexStr (a : BitVecValue) : Call (List Byte)
  | toDecStr (a : BitVecValue) : Call (List Byte)
  | toHexStrSigned (a : BitVecValue) : Call (List Byte)
  | toBytesLe (a : BitVecValue) : Call (List Byte)
  | toBigInt (a : BitVecValue) : Call Int
  | toBigUint (a : BitVecValue) : Call Nat
  | assign (a b : BitVecValue) : Call BitVecValue
  | assignOnes (a : BitVecValue) : Call BitVecValue
  | assignFromU64 (a : BitVecValue) (v : Word) : Call BitVecValue
  | assignFromI64 (a : BitVecValue) (v : Word) : Call BitVecValue
  | assignFromStrRadix (a : BitVecValue) (s : List Byte) (radix : Nat) : Call (BitVecValue × Except IntErrorKind Unit)
  | setBit (a : BitVecValue) (n : Nat) : Call BitVecValue
  | clearBit (a : BitVecValue) (n : Nat) : Call BitVecValue
  | ones (w : Nat) : Call BitVecValue
  | fromStrRadix (s : List Byte) (radix w : Nat) : Call (Except IntErrorKind BitVecValue)
  | fromBitStr (s : List Byte) : Call (Except IntErrorKind BitVecValue)
  | fromHexStr (s : List Byte) : Call (Except IntErrorKind BitVecValue)
  | fromU64 (v : Word) (w : Nat) : Call BitVecValue
  | fromI64 (v : Word) (w : Nat) : Call BitVecValue
  | fromBool (b : Bool) : Call BitVecValue
  | fromBytesLe (s : List Byte) (w : Nat) : Call BitVecValue
  | fromBigInt (z : Int) (w : Nat) : Call BitVecValue
  | fromBigUint (n : Nat) (w : Nat) : Call BitVecValue
  | ofBigInt (z : Int) : Call BitVecValue
  | ofBigUint (n : Nat) : Call BitVecValue
  | getRef (d : List Word) (i : BitVecValueIndex) : Call BitVecValue
  | getMutRef2 (d : List Word) (i j : BitVecValueIndex) : Call (BitVecValue × BitVecValue)
  | getMutRef3 (d : List Word) (i j k : BitVecValueIndex) : Call (BitVecValue × BitVecValue × BitVecValue)
  | assignAt (d : List Word) (i : BitVecValueIndex) (a : BitVecValue) : Call (List Word)
  | assignFrom (d : List Word) (i j : BitVecValueIndex) : Call (List Word)
  | intern (t : ValueInterner) (a : BitVecValue) : Call (ValueInterner × BitVecValueIndex)
  | newDense (w : Nat) (d : BitVecValue) : Call ArrayValue
  | newSparse (w : Nat) (d : BitVecValue) : Call ArrayValue
  | makeDense (t : ArrayValue) : Call ArrayValue
  | arrayIsEqual (s t : ArrayValue) : Call (Option Bool)
  | arrayEq (s t : ArrayValue) : Call Bool
  | toSparse (t : ArrayValue) : Call SparseArrayValue
  | ofBools (l : List Bool) : Call ArrayValue
  | ofU8s (l : List Byte) : Call ArrayValue
  | ofU64s (l : List Word) : Call ArrayValue
  | select (t : ArrayValue) (i : BitVecValue) : Call BitVecValue
  | store (t : ArrayValue) (i d : BitVecValue) : Call ArrayValue
  | sparseDefault (t : SparseArrayValue) : Call BitVecValue
  | nonDefaultEntries (t : SparseArrayValue) : Call (List (BitVecValue × BitVecValue))
  | load (doc : Serde) : Call (Option ArrayValue)

/-- Run a call. -/
def Call.run (env : HashEnv) (m : Mode) {α : Type} : Call α → Res α
  | .add a b => BitVecValue.add m a b
  | .sub a b => BitVecValue.sub m a b
  | .mul a b => BitVecValue.mul m a b
  | .shiftLeft a b => BitVecValue.shiftLeft m a b
  | .shiftRight a b => BitVecValue.shiftRight m a b
  | .arithmeticShiftRight a b => BitVecValue.arithmeticShiftRight m a b
  | .and a b => BitVecValue.and m a b
  | .or a b => BitVecValue.or m a b
  | .xor a b => BitVecValue.xor m a b
  | .concat a b => BitVecValue.concat m a b
  | .isEqual a b => BitVecValue.isEqual m a b
  | .isNotEqual a b => BitVecValue.isNotEqual m a b
  | .isGreater a b => BitVecValue.isGreater m a b
  | .isGreaterOrEqual a b => BitVecValue.isGreaterOrEqual m a b
  | .isLess a b => BitVecValue.isLess m a b
  | .isLessOrEqual a b => BitVecValue.isLessOrEqual m a b
  | .isGreaterSigned a b => BitVecValue.isGreaterSigned m a b
  | .isGreaterOrEqualSigned a b => BitVecValue.isGreaterOrEqualSigned m a b
  | .isLessSigned a b => BitVecValue.isLessSigned m a b
  | .isLessOrEqualSigned a b => BitVecValue.isLessOrEqualSigned m a b
  | .eqOwned a b => BitVecValue.eqOwned m a b
  | .eqRef a b => BitVecValue.eqRef m a b
  | .slice a msb lsb => BitVecValue.slice m a msb lsb
  | .signExtend a n => BitVecValue.signExtend m a n
  | .zeroExtend a n => BitVecValue.zeroExtend m a n
  | .not a => BitVecValue.not m a
  | .negate a => BitVecValue.negate m a
  | .isBitSet a n => BitVecValue.isBitSet a n
  | .toBool a => BitVecValue.toBool a
  | .toU64 a => ok (BitVecValue.toU64 a)
  | .toI64 a => BitVecValue.toI64 m a
  | .isTrue a => BitVecValue.isTru a
  | .isFalse a => BitVecValue.isFals a
  | .isZero a => ok (BitVecValue.isZero a)
  | .isNegative a => BitVecValue.isNegative m a
  | .toUnsignedFixedPoint a n => BitVecValue.toUnsignedFixedPoint m a n
  | .toSignedFixedPoint a n => BitVecValue.toSignedFixedPoint m a n
  | .toBitStr a => BitVecValue.toBitStr a
  | .toBitStrSigned a => BitVecValue.toBitStrSigned m a
  | .toHexStr a => BitVecValue.toHexStr m a
  | .toDecStr a => BitVecValue.toDecStr m a
  | .toHexStrSigned a => BitVecValue.toHexStrSigned m a
  | .toBytesLe a => ok (BitVecValue.toBytesLe a)
  | .toBigInt a => BitVecValue.toBigInt m a
  | .toBigUint a => ok (BitVecValue.toBigUint a)
  | .assign a b => BitVecValue.assign m a b
  | .assignOnes a => BitVecValue.assignOnes m a
  | .assignFromU64 a v => BitVecValue.assignFromU64 m a v
  | .assignFromI64 a v => BitVecValue.assignFromI64 m a v
  | .assignFromStrRadix a s radix => BitVecValue.assignFromStrRadix m a s radix
  | .setBit a n => BitVecValue.setBit a n
  | .clearBit a n => BitVecValue.clearBit a n
  | .ones w => BitVecValue.ones m w
  | .fromStrRadix s radix w => BitVecValue.fromStrRadix m s radix w
  | .fromBitStr s => BitVecValue.fromBitStr m s
  | .fromHexStr s => BitVecValue.fromHexStr m s
  | .fromU64 v w => BitVecValue.fromU64 m v w
  | .fromI64 v w => BitVecValue.fromI64 m v w
  | .fromBool b => BitVecValue.fromBool m b
  | .fromBytesLe s w => BitVecValue.fromBytesLe m s w
  | .fromBigInt z w => BitVecValue.fromBigInt m z w
  | .fromBigUint n w => BitVecValue.fromBigUint m n w
  | .ofBigInt z => BitVecValue.ofBigInt m z
  | .ofBigUint n => BitVecValue.ofBigUint m n
  | .getRef d i => Indexed.getRef d i
  | .getMutRef2 d i j => Indexed.getMutRef2 d i j
  | .getMutRef3 d i j k => Indexed.getMutRef3 d i j k
  | .assignAt d i a => Indexed.assignAt m d i a
  | .assignFrom d i j => Indexed.assignFrom m d i j
  | .intern t a => ValueInterner.getIndex m t a
  | .newDense w d => ArrayValue.newDense m w d
  | .newSparse w d => ArrayValue.newSparse w d
  | .makeDense t => ArrayValue.makeDense m env t
  | .arrayIsEqual s t => ArrayValue.isEqual m env s t
  | .arrayEq s t => ArrayValue.eq m env s t
  | .toSparse t => ArrayValue.toSparse m env t
  | .ofBools l => ArrayValue.ofBools m l
  | .ofU8s l => ArrayValue.ofU8s m l
  | .ofU64s l => ArrayValue.ofU64s m l
  | .select t i => ArrayValue.select m env t i
  | .store t i d => ArrayValue.store m env t i d
  | .sparseDefault t => SparseArrayValue.default m t
  | .nonDefaultEntries t => SparseArrayValue.nonDefaultEntries m env t
  | .load doc => Serde.loadArray m env doc

/-- The binary operations and comparisons that require operands of the same width. -/
inductive SameWidthOp where
  | add | sub | mul | shiftLeft | shiftRight | arithmeticShiftRight | and | or | xor | isEqual
  | isNotEqual | isGreater | isGreaterOrEqual | isLess | isLessOrEqual | isGreaterSigned | isGreaterOrEqualSigned | isLessSigned | isLessOrEqualSigned | assign

/-- Run one of them in a debug build. -/
def SameWidthOp.run (a b : BitVecValue) : SameWidthOp → Res (BitVecValue ⊕ Bool)
  | .add => do let r ← BitVecValue.add .debug a b; ok (Sum.inl r)
  | .sub => do let r ← BitVecValue.sub .debug a b; ok (Sum.inl r)
  | .mul => do let r ← BitVecValue.mul .debug a b; ok (Sum.inl r)
  | .shiftLeft => do let r ← BitVecValue.shiftLeft .debug a b; ok (Sum.inl r)
  | .shiftRight => do let r ← BitVecValue.shiftRight .debug a b; ok (Sum.inl r)
  | .arithmeticShiftRight => do let r ← BitVecValue.arithmeticShiftRight .debug a b; ok (Sum.inl r)
  | .and => do let r ← BitVecValue.and .debug a b; ok (Sum.inl r)
  | .or => do let r ← BitVecValue.or .debug a b; ok (Sum.inl r)
  | .xor => do let r ← BitVecValue.xor .debug a b; ok (Sum.inl r)
  | .isEqual => do let r ← BitVecValue.isEqual .debug a b; ok (Sum.inr r)
  | .isNotEqual => do let r ← BitVecValue.isNotEqual .debug a b; ok (Sum.inr r)
  | .isGreater => do let r ← BitVecValue.isGreater .debug a b; ok (Sum.inr r)
  | .isGreaterOrEqual => do let r ← BitVecValue.isGreaterOrEqual .debug a b; ok (Sum.inr r)
  | .isLess => do let r ← BitVecValue.isLess .debug a b; ok (Sum.inr r)
  | .isLessOrEqual => do let r ← BitVecValue.isLessOrEqual .debug a b; ok (Sum.inr r)
  | .isGreaterSigned => do let r ← BitVecValue.isGreaterSigned .debug a b; ok (Sum.inr r)
  | .isGreaterOrEqualSigned => do let r ← BitVecValue.isGreaterOrEqualSigned .debug a b; ok (Sum.inr r)
  | .isLessSigned => do let r ← BitVecValue.isLessSigned .debug a b; ok (Sum.inr r)
  | .isLessOrEqualSigned => do let r ← BitVecValue.isLessOrEqualSigned .debug a b; ok (Sum.inr r)
  | .assign => do let r ← BitVecValue.assign .debug a b; ok (Sum.inl r)

end

/-! ## C95: every result has the number of words its width needs -/

section
open Res

/-- The value has exactly the number of words its width needs. -/
def Sized (v : BitVecValue) : Prop := v.words.length = (v.width + 63) / 64

/-- `Built m r`: some function of the library returns `r`. The operands are not restricted in any way (the data width of an
array is a `u32`). -/
inductive Built (m : Mode) : BitVecValue → Prop where
  | add {a b r} : BitVecValue.add m a b = ok r → Built m r
  | sub {a b r} : BitVecValue.sub m a b = ok r → Built m r
  | mul {a b r} : BitVecValue.mul m a b = ok r → Built m r
  | and {a b r} : BitVecValue.and m a b = ok r → Built m r
  | or {a b r} : BitVecValue.or m a b = ok r → Built m r
  | xor {a b r} : BitVecValue.xor m a b = ok r → Built m r
  | shl {a b r} : BitVecValue.shiftLeft m a b = ok r → Built m r
  | shr {a b r} : BitVecValue.shiftRight m a b = ok r → Built m r
  | ashr {a b r} : BitVecValue.arithmeticShiftRight m a b = ok r → Built m r
  | not {a r} : BitVecValue.not m a = ok r → Built m r
  | negate {a r} : BitVecValue.negate m a = ok r → Built m r
  | slice {a msb lsb r} : BitVecValue.slice m a msb lsb = ok r → Built m r
  | concat {a b r} : BitVecValue.concat m a b = ok r → Built m r
  | zext {a n r} : BitVecValue.zeroExtend m a n = ok r → Built m r
  | sext {a n r} : BitVecValue.signExtend m a n = ok r → Built m r
  | zero {w} : Built m (BitVecValue.zero w)
  | ones {w r} : BitVecValue.ones m w = ok r → Built m r
  | fromU64 {x w r} : BitVecValue.fromU64 m x w = ok r → Built m r
  | fromI64 {x w r} : BitVecValue.fromI64 m x w = ok r → Built m r
  | fromBool {x r} : BitVecValue.fromBool m x = ok r → Built m r
  | fromBytes {bs w r} : BitVecValue.fromBytesLe m bs w = ok r → Built m r
  | fromBigInt {x w r} : BitVecValue.fromBigInt m x w = ok r → Built m r
  | fromBigUint {x w r} : BitVecValue.fromBigUint m x w = ok r → Built m r
  | ofBigInt {x r} : BitVecValue.ofBigInt m x = ok r → Built m r
  | ofBigUint {x r} : BitVecValue.ofBigUint m x = ok r → Built m r
  | parse {s radix w r} : BitVecValue.fromStrRadix m s radix w = ok (.ok r) → Built m r
  | bitStr {s r} : BitVecValue.fromBitStr m s = ok (.ok r) → Built m r
  | hexStr {s r} : BitVecValue.fromHexStr m s = ok (.ok r) → Built m r
  | denseSelect {a i r} : a.dataWidth < 2 ^ 32 → DenseArrayValue.select m a i = ok r → Built m r
  | getRef {data i r} : Indexed.getRef data i = ok r → Built m r
  | getRefA {data i j r s} : Indexed.getRef2 data i j = ok (r, s) → Built m r
  | getRefB {data i j r s} : Indexed.getRef2 data i j = ok (r, s) → Built m s
  | getMutRef {data i r} : Indexed.getMutRef data i = ok r → Built m r

/-- `Altered m v r`: some operation that works in place turns `v` into `r`, whatever its other operands are. -/
inductive Altered (m : Mode) : BitVecValue → BitVecValue → Prop where
  | assign {v x r} : BitVecValue.assign m v x = ok r → Altered m v r
  | clear {v} : Altered m v v.clear
  | ones {v r} : BitVecValue.assignOnes m v = ok r → Altered m v r
  | u64 {v x r} : BitVecValue.assignFromU64 m v x = ok r → Altered m v r
  | i64 {v x r} : BitVecValue.assignFromI64 m v x = ok r → Altered m v r
  | parse {v s radix r e} : BitVecValue.assignFromStrRadix m v s radix = ok (r, e) → Altered m v r
  | setBit {v p r} : BitVecValue.setBit v p = ok r → Altered m v r
  | clearBit {v p r} : BitVecValue.clearBit v p = ok r → Altered m v r
  | mask {v r} : BitVecValue.maskMsb m v = ok r → Altered m v r

/-- Representation and size of the storage of a dense array. -/
def DenseArrayImpl.storage : DenseArrayImpl → Nat × Nat
  | .bit v => (0, v.words.length)
  | .u8 vs => (1, vs.length)
  | .u64 vs => (2, vs.length)
  | .big vs => (3, vs.length)

end

/-! ## C109: the size of `usize` does not matter -/

section
open Res

/-- Two computations have the same outcome: the same result, or both panic. -/
def Alike {α : Type} (x y : Res α) : Prop := x = y ∨ (Panics x ∧ Panics y)

/-- The elements of a dense array can be addressed with 32 bits: fewer than `2^32` indices and fewer than `2^32` words of
data. Nothing larger fits into the memory of a 32-bit target. -/
def Fits32 (iw dw : Nat) : Prop := iw < 32 ∧ 2 ^ iw * ((dw + 63) / 64) < 4294967296

/-- An index whose fields are of type `u32`. -/
def BitVecValueIndex.Valid32 (i : BitVecValueIndex) : Prop := i.index < 2 ^ 32 ∧ i.width < 2 ^ 32

/-- One step of a program that works on an array. -/
inductive TargetStep (iw dw : Nat) where
  | store (i : BitVec iw) (d : BitVec dw)
  | clear
  | makeDense
  | makeSparse

/-- The step on a target with pointer size `p`. -/
def TargetStep.run {iw dw : Nat} (p : Ptr) (m : Mode) (env : HashEnv) (a : ArrayValue) : TargetStep iw dw → Res ArrayValue
  | .store i d => Target.store p m env a (encode i) (encode d)
  | .clear => ok a.clear
  | .makeDense => Target.makeDense p m env a
  | .makeSparse => do
    let s ← Target.arrayToSparse p m env a
    ok (.sparse s)

/-- The step in the 64-bit model. -/
def TargetStep.base {iw dw : Nat} (m : Mode) (env : HashEnv) (a : ArrayValue) : TargetStep iw dw → Res ArrayValue
  | .store i d => a.store m env (encode i) (encode d)
  | .clear => ok a.clear
  | .makeDense => a.makeDense m env
  | .makeSparse => do
    let s ← a.toSparse m env
    ok (.sparse s)

/-- A program of several steps. -/
def runTarget {iw dw : Nat} (step : ArrayValue → TargetStep iw dw → Res ArrayValue) :
    ArrayValue → List (TargetStep iw dw) → Res ArrayValue
  | a, [] => ok a
  | a, s :: ss => do
    let a ← step a s
    runTarget step a ss

end

end Baa
