import Verif.Spec.Calls
import Verif.Model.Profiles

/-!
# C124: build profiles
-/

namespace Baa
open Res

/-- Run a call in a build with profile `p`. -/
def Call.runAt (env : HashEnv) (p : Profile) {α : Type} : Call α → Res α
  | .add a b => Profiled.BitVecValue.add p a b
  | .sub a b => Profiled.BitVecValue.sub p a b
  | .mul a b => Profiled.BitVecValue.mul p a b
  | .shiftLeft a b => Profiled.BitVecValue.shiftLeft p a b
  | .shiftRight a b => Profiled.BitVecValue.shiftRight p a b
  | .arithmeticShiftRight a b => Profiled.BitVecValue.arithmeticShiftRight p a b
  | .and a b => Profiled.BitVecValue.and p a b
  | .or a b => Profiled.BitVecValue.or p a b
  | .xor a b => Profiled.BitVecValue.xor p a b
  | .concat a b => Profiled.BitVecValue.concat p a b
  | .isEqual a b => Profiled.BitVecValue.isEqual p a b
  | .isNotEqual a b => Profiled.BitVecValue.isNotEqual p a b
  | .isGreater a b => Profiled.BitVecValue.isGreater p a b
  | .isGreaterOrEqual a b => Profiled.BitVecValue.isGreaterOrEqual p a b
  | .isLess a b => Profiled.BitVecValue.isLess p a b
  | .isLessOrEqual a b => Profiled.BitVecValue.isLessOrEqual p a b
  | .isGreaterSigned a b => Profiled.BitVecValue.isGreaterSigned p a b
  | .isGreaterOrEqualSigned a b => Profiled.BitVecValue.isGreaterOrEqualSigned p a b
  | .isLessSigned a b => Profiled.BitVecValue.isLessSigned p a b
  | .isLessOrEqualSigned a b => Profiled.BitVecValue.isLessOrEqualSigned p a b
  | .eqOwned a b => Profiled.BitVecValue.eqOwned p a b
  | .eqRef a b => Profiled.BitVecValue.eqRef p a b
  | .slice a msb lsb => Profiled.BitVecValue.slice p a msb lsb
  | .signExtend a n => Profiled.BitVecValue.signExtend p a n
  | .zeroExtend a n => Profiled.BitVecValue.zeroExtend p a n
  | .not a => Profiled.BitVecValue.not p a
  | .negate a => Profiled.BitVecValue.negate p a
  | .isBitSet a n => BitVecValue.isBitSet a n
  | .toBool a => BitVecValue.toBool a
  | .toU64 a => ok (BitVecValue.toU64 a)
  | .toI64 a => Profiled.BitVecValue.toI64 p a
  | .isTrue a => BitVecValue.isTru a
  | .isFalse a => BitVecValue.isFals a
  | .isZero a => ok (BitVecValue.isZero a)
  | .isNegative a => Profiled.BitVecValue.isNegative p a
  | .toUnsignedFixedPoint a n => Profiled.BitVecValue.toUnsignedFixedPoint p a n
  | .toSignedFixedPoint a n => Profiled.BitVecValue.toSignedFixedPoint p a n
  | .toBitStr a => BitVecValue.toBitStr a
  | .toBitStrSigned a => Profiled.BitVecValue.toBitStrSigned p a
  | .toHexStr a => Profiled.BitVecValue.toHexStr p a
  | .toDecStr a => Profiled.BitVecValue.toDecStr p a
  | .toHexStrSigned a => Profiled.BitVecValue.toHexStrSigned p a
  | .toBytesLe a => ok (BitVecValue.toBytesLe a)
  | .toBigInt a => Profiled.BitVecValue.toBigInt p a
  | .toBigUint a => ok (BitVecValue.toBigUint a)
  | .assign a b => Profiled.BitVecValue.assign p a b
  | .assignOnes a => Profiled.BitVecValue.assignOnes p a
  | .assignFromU64 a v => Profiled.BitVecValue.assignFromU64 p a v
  | .assignFromI64 a v => Profiled.BitVecValue.assignFromI64 p a v
  | .assignFromStrRadix a s radix => Profiled.BitVecValue.assignFromStrRadix p a s radix
  | .setBit a n => BitVecValue.setBit a n
  | .clearBit a n => BitVecValue.clearBit a n
  | .ones w => Profiled.BitVecValue.ones p w
  | .fromStrRadix s radix w => Profiled.BitVecValue.fromStrRadix p s radix w
  | .fromBitStr s => Profiled.BitVecValue.fromBitStr p s
  | .fromHexStr s => Profiled.BitVecValue.fromHexStr p s
  | .fromU64 v w => Profiled.BitVecValue.fromU64 p v w
  | .fromI64 v w => Profiled.BitVecValue.fromI64 p v w
  | .fromBool b => Profiled.BitVecValue.fromBool p b
  | .fromBytesLe s w => Profiled.BitVecValue.fromBytesLe p s w
  | .fromBigInt z w => Profiled.BitVecValue.fromBigInt p z w
  | .fromBigUint n w => Profiled.BitVecValue.fromBigUint p n w
  | .ofBigInt z => Profiled.BitVecValue.ofBigInt p z
  | .ofBigUint n => Profiled.BitVecValue.ofBigUint p n
  | .getRef d i => Indexed.getRef d i
  | .getMutRef2 d i j => Indexed.getMutRef2 d i j
  | .getMutRef3 d i j k => Indexed.getMutRef3 d i j k
  | .assignAt d i a => Profiled.Indexed.assignAt p d i a
  | .assignFrom d i j => Profiled.Indexed.assignFrom p d i j
  | .intern t a => Profiled.ValueInterner.getIndex p t a
  | .newDense w d => Profiled.ArrayValue.newDense p w d
  | .newSparse w d => ArrayValue.newSparse w d
  | .makeDense t => Profiled.ArrayValue.makeDense p env t
  | .arrayIsEqual s t => Profiled.ArrayValue.isEqual p env s t
  | .arrayEq s t => Profiled.ArrayValue.eq p env s t
  | .toSparse t => Profiled.ArrayValue.toSparse p env t
  | .ofBools l => Profiled.ArrayValue.ofBools p l
  | .ofU8s l => Profiled.ArrayValue.ofU8s p l
  | .ofU64s l => Profiled.ArrayValue.ofU64s p l
  | .select t i => Profiled.ArrayValue.select p env t i
  | .store t i d => Profiled.ArrayValue.store p env t i d
  | .sparseDefault t => Profiled.SparseArrayValue.default p t
  | .nonDefaultEntries t => Profiled.SparseArrayValue.nonDefaultEntries p env t
  | .load doc => Profiled.Serde.loadArray p env doc


/-- A program: it makes one call after the other, and what it does next depends in any way on the results so far. -/
inductive Script (β : Type) : Type 1 where
  | done (b : β)
  | call {α : Type} (c : Call α) (next : α → Script β)

/-- Run a program in a build with profile `p`. -/
def Script.runAt (env : HashEnv) (p : Profile) {β : Type} : Script β → Res β
  | .done b => ok b
  | .call c next => c.runAt env p >>= fun r => (next r).runAt env p

/-- Run a program in a default build. -/
def Script.run (env : HashEnv) (m : Mode) {β : Type} : Script β → Res β
  | .done b => ok b
  | .call c next => c.run env m >>= fun r => (next r).run env m

/-- Run one of them in a build with profile `p`. -/
def SameWidthOp.runAt (p : Profile) (a b : BitVecValue) : SameWidthOp → Res (BitVecValue ⊕ Bool)
  | .add => do let r ← Profiled.BitVecValue.add p a b; ok (Sum.inl r)
  | .sub => do let r ← Profiled.BitVecValue.sub p a b; ok (Sum.inl r)
  | .mul => do let r ← Profiled.BitVecValue.mul p a b; ok (Sum.inl r)
  | .shiftLeft => do let r ← Profiled.BitVecValue.shiftLeft p a b; ok (Sum.inl r)
  | .shiftRight => do let r ← Profiled.BitVecValue.shiftRight p a b; ok (Sum.inl r)
  | .arithmeticShiftRight => do let r ← Profiled.BitVecValue.arithmeticShiftRight p a b; ok (Sum.inl r)
  | .and => do let r ← Profiled.BitVecValue.and p a b; ok (Sum.inl r)
  | .or => do let r ← Profiled.BitVecValue.or p a b; ok (Sum.inl r)
  | .xor => do let r ← Profiled.BitVecValue.xor p a b; ok (Sum.inl r)
  | .isEqual => do let r ← Profiled.BitVecValue.isEqual p a b; ok (Sum.inr r)
  | .isNotEqual => do let r ← Profiled.BitVecValue.isNotEqual p a b; ok (Sum.inr r)
  | .isGreater => do let r ← Profiled.BitVecValue.isGreater p a b; ok (Sum.inr r)
  | .isGreaterOrEqual => do let r ← Profiled.BitVecValue.isGreaterOrEqual p a b; ok (Sum.inr r)
  | .isLess => do let r ← Profiled.BitVecValue.isLess p a b; ok (Sum.inr r)
  | .isLessOrEqual => do let r ← Profiled.BitVecValue.isLessOrEqual p a b; ok (Sum.inr r)
  | .isGreaterSigned => do let r ← Profiled.BitVecValue.isGreaterSigned p a b; ok (Sum.inr r)
  | .isGreaterOrEqualSigned => do let r ← Profiled.BitVecValue.isGreaterOrEqualSigned p a b; ok (Sum.inr r)
  | .isLessSigned => do let r ← Profiled.BitVecValue.isLessSigned p a b; ok (Sum.inr r)
  | .isLessOrEqualSigned => do let r ← Profiled.BitVecValue.isLessOrEqualSigned p a b; ok (Sum.inr r)
  | .assign => do let r ← Profiled.BitVecValue.assign p a b; ok (Sum.inl r)


end Baa
