import Verif.Model.Profiles

/-!
# The profiled functions at the default profiles
-/

namespace Baa
open Res

namespace Profiled

theorem debugAssert_of (m : Mode) : debugAssert (.of m) = Baa.debugAssert m := by
  funext b
  cases m <;> cases b <;> rfl

theorem addC_of (m : Mode) : addC (.of m) = Baa.addC m := by
  funext M a b
  cases m <;> rfl

theorem subC_of (m : Mode) : subC (.of m) = Baa.subC m := by
  funext M a b
  cases m <;> rfl

theorem mulC_of (m : Mode) : mulC (.of m) = Baa.mulC m := by
  funext M a b
  cases m <;> rfl

theorem shiftAmount64_of (m : Mode) : shiftAmount64 (.of m) = Baa.shiftAmount64 m := by
  funext n
  cases m <;> rfl

theorem Arith_maskMsb_of (m : Mode) : Arith.maskMsb (.of m) = Baa.Arith.maskMsb m := by
  funext
  unfold Arith.maskMsb Baa.Arith.maskMsb
  simp only [debugAssert_of]
  try rfl

theorem Arith_isNeg_of (m : Mode) : Arith.isNeg (.of m) = Baa.Arith.isNeg m := by
  funext
  unfold Arith.isNeg Baa.Arith.isNeg
  simp only [subC_of]
  try rfl

theorem Arith_signExtend_of (m : Mode) : Arith.signExtend (.of m) = Baa.Arith.signExtend m := by
  funext
  unfold Arith.signExtend Baa.Arith.signExtend
  simp only [Arith_isNeg_of, subC_of, Arith_maskMsb_of]
  try rfl

theorem Arith_slice_of (m : Mode) : Arith.slice (.of m) = Baa.Arith.slice m := by
  funext
  unfold Arith.slice Baa.Arith.slice
  simp only [subC_of, addC_of, Arith_maskMsb_of]
  try rfl

theorem Arith_concat_of (m : Mode) : Arith.concat (.of m) = Baa.Arith.concat m := by
  funext
  unfold Arith.concat Baa.Arith.concat
  simp only [subC_of]
  try rfl

theorem Arith_not_of (m : Mode) : Arith.not (.of m) = Baa.Arith.not m := by
  funext
  unfold Arith.not Baa.Arith.not
  simp only [Arith_maskMsb_of]
  try rfl

theorem Arith_add_of (m : Mode) : Arith.add (.of m) = Baa.Arith.add m := by
  funext
  unfold Arith.add Baa.Arith.add
  simp only [Arith_maskMsb_of]
  try rfl

theorem Arith_sub_of (m : Mode) : Arith.sub (.of m) = Baa.Arith.sub m := by
  funext
  unfold Arith.sub Baa.Arith.sub
  simp only [Arith_maskMsb_of]
  try rfl

theorem Arith_mul_of (m : Mode) : Arith.mul (.of m) = Baa.Arith.mul m := by
  funext
  unfold Arith.mul Baa.Arith.mul
  rfl

theorem Arith_shiftRight_of (m : Mode) : Arith.shiftRight (.of m) = Baa.Arith.shiftRight m := by
  funext
  unfold Arith.shiftRight Baa.Arith.shiftRight
  simp only [subC_of, addC_of, Arith_slice_of]
  try rfl

theorem Arith_arithmeticShiftRight_of (m : Mode) : Arith.arithmeticShiftRight (.of m) = Baa.Arith.arithmeticShiftRight m := by
  funext
  unfold Arith.arithmeticShiftRight Baa.Arith.arithmeticShiftRight
  simp only [Arith_shiftRight_of, Arith_isNeg_of, Arith_maskMsb_of, subC_of]
  try rfl

theorem Arith_shiftLeft_of (m : Mode) : Arith.shiftLeft (.of m) = Baa.Arith.shiftLeft m := by
  funext
  unfold Arith.shiftLeft Baa.Arith.shiftLeft
  simp only [Arith_maskMsb_of]
  try rfl

theorem Arith_negateInPlace_of (m : Mode) : Arith.negateInPlace (.of m) = Baa.Arith.negateInPlace m := by
  funext
  unfold Arith.negateInPlace Baa.Arith.negateInPlace
  simp only [Arith_maskMsb_of]
  try rfl

theorem Arith_negate_of (m : Mode) : Arith.negate (.of m) = Baa.Arith.negate m := by
  funext
  unfold Arith.negate Baa.Arith.negate
  simp only [Arith_negateInPlace_of]
  try rfl

theorem Arith_cmpGreaterSigned_of (m : Mode) : Arith.cmpGreaterSigned (.of m) = Baa.Arith.cmpGreaterSigned m := by
  funext
  unfold Arith.cmpGreaterSigned Baa.Arith.cmpGreaterSigned
  simp only [Arith_isNeg_of]
  try rfl

theorem Arith_cmpGreaterEqualSigned_of (m : Mode) : Arith.cmpGreaterEqualSigned (.of m) = Baa.Arith.cmpGreaterEqualSigned m := by
  funext
  unfold Arith.cmpGreaterEqualSigned Baa.Arith.cmpGreaterEqualSigned
  simp only [Arith_isNeg_of]
  try rfl

theorem Strings_toBitStrSigned_of (m : Mode) : Strings.toBitStrSigned (.of m) = Baa.Strings.toBitStrSigned m := by
  funext
  unfold Strings.toBitStrSigned Baa.Strings.toBitStrSigned
  simp only [Arith_isNeg_of, Arith_negateInPlace_of, subC_of]
  try rfl

theorem Strings_selectWordsForWidth_of (m : Mode) : Strings.selectWordsForWidth (.of m) = Baa.Strings.selectWordsForWidth m := by
  funext
  unfold Strings.selectWordsForWidth Baa.Strings.selectWordsForWidth
  simp only [debugAssert_of]
  try rfl

theorem Strings_toHexStrInternal_of (m : Mode) : Strings.toHexStrInternal (.of m) = Baa.Strings.toHexStrInternal m := by
  funext
  unfold Strings.toHexStrInternal Baa.Strings.toHexStrInternal
  simp only [debugAssert_of]
  try rfl

theorem Strings_toHexStr_of (m : Mode) : Strings.toHexStr (.of m) = Baa.Strings.toHexStr m := by
  funext
  unfold Strings.toHexStr Baa.Strings.toHexStr
  simp only [Strings_toHexStrInternal_of]
  try rfl

theorem Strings_toHexStrSigned_of (m : Mode) : Strings.toHexStrSigned (.of m) = Baa.Strings.toHexStrSigned m := by
  funext
  unfold Strings.toHexStrSigned Baa.Strings.toHexStrSigned
  simp only [Arith_isNeg_of, Arith_negateInPlace_of, subC_of, Strings_selectWordsForWidth_of, Strings_toHexStrInternal_of, Strings_toHexStr_of]
  try rfl

theorem Strings_wordsToU128_of (m : Mode) : Strings.wordsToU128 (.of m) = Baa.Strings.wordsToU128 m := by
  funext
  unfold Strings.wordsToU128 Baa.Strings.wordsToU128
  simp only [debugAssert_of]
  try rfl

theorem Strings_toDecStrInternal_of (m : Mode) : Strings.toDecStrInternal (.of m) = Baa.Strings.toDecStrInternal m := by
  funext
  unfold Strings.toDecStrInternal Baa.Strings.toDecStrInternal
  simp only [Strings_wordsToU128_of]
  try rfl

theorem Strings_toDecStr_of (m : Mode) : Strings.toDecStr (.of m) = Baa.Strings.toDecStr m := by
  funext
  unfold Strings.toDecStr Baa.Strings.toDecStr
  simp only [mulC_of, Strings_toDecStrInternal_of]
  try rfl

theorem Strings_determineWidth_of (m : Mode) : Strings.determineWidth (.of m) = Baa.Strings.determineWidth m := by
  funext
  unfold Strings.determineWidth Baa.Strings.determineWidth
  simp only [debugAssert_of, mulC_of, addC_of]
  try rfl

theorem Strings_parseLoop_of (m : Mode) : Strings.parseLoop (.of m) = Baa.Strings.parseLoop m := by
  funext bits perWord dv n out ii o w cs
  induction cs generalizing out ii o w with
  | nil => rfl
  | cons c cs ih =>
    unfold Strings.parseLoop Baa.Strings.parseLoop
    simp only [subC_of, addC_of, ih]
    rfl

theorem Strings_parseBase16_of (m : Mode) : Strings.parseBase16 (.of m) = Baa.Strings.parseBase16 m := by
  funext
  unfold Strings.parseBase16 Baa.Strings.parseBase16
  simp only [mulC_of, subC_of, Strings_parseLoop_of, debugAssert_of]
  try rfl

theorem Strings_parseBase2_of (m : Mode) : Strings.parseBase2 (.of m) = Baa.Strings.parseBase2 m := by
  funext
  unfold Strings.parseBase2 Baa.Strings.parseBase2
  simp only [subC_of, Strings_parseLoop_of, debugAssert_of]
  try rfl

theorem Strings_parseMagnitude_of (m : Mode) : Strings.parseMagnitude (.of m) = Baa.Strings.parseMagnitude m := by
  funext
  unfold Strings.parseMagnitude Baa.Strings.parseMagnitude
  simp only [debugAssert_of, Strings_parseBase2_of, Strings_parseBase16_of]
  try rfl

theorem Strings_fromStrRadix_of (m : Mode) : Strings.fromStrRadix (.of m) = Baa.Strings.fromStrRadix m := by
  funext
  unfold Strings.fromStrRadix Baa.Strings.fromStrRadix
  simp only [Strings_parseMagnitude_of, Arith_negateInPlace_of]
  try rfl

theorem Bytes_fromBytesLe_of (m : Mode) : Bytes.fromBytesLe (.of m) = Baa.Bytes.fromBytesLe m := by
  funext
  unfold Bytes.fromBytesLe Baa.Bytes.fromBytesLe
  simp only [debugAssert_of, Arith_maskMsb_of]
  try rfl

theorem Big_iterToWord_of (m : Mode) : Big.iterToWord (.of m) = Baa.Big.iterToWord m := by
  funext
  unfold Big.iterToWord Baa.Big.iterToWord
  simp only [debugAssert_of, Arith_maskMsb_of]
  try rfl

theorem Big_fromBigUint_of (m : Mode) : Big.fromBigUint (.of m) = Baa.Big.fromBigUint m := by
  funext
  unfold Big.fromBigUint Baa.Big.fromBigUint
  simp only [Big_iterToWord_of]
  try rfl

theorem Big_getSign_of (m : Mode) : Big.getSign (.of m) = Baa.Big.getSign m := by
  funext
  unfold Big.getSign Baa.Big.getSign
  simp only [subC_of]
  try rfl

theorem Big_toBigInt_of (m : Mode) : Big.toBigInt (.of m) = Baa.Big.toBigInt m := by
  funext
  unfold Big.toBigInt Baa.Big.toBigInt
  simp only [Big_getSign_of, Arith_negate_of]
  try rfl

theorem Big_fromBigInt_of (m : Mode) : Big.fromBigInt (.of m) = Baa.Big.fromBigInt m := by
  funext
  unfold Big.fromBigInt Baa.Big.fromBigInt
  simp only [Big_iterToWord_of, Arith_negate_of]
  try rfl

theorem Big_countBigUintBits_of (m : Mode) : Big.countBigUintBits (.of m) = Baa.Big.countBigUintBits m := by
  funext
  unfold Big.countBigUintBits Baa.Big.countBigUintBits
  simp only [mulC_of, subC_of]
  try rfl

theorem Big_countBigIntBits_of (m : Mode) : Big.countBigIntBits (.of m) = Baa.Big.countBigIntBits m := by
  funext
  unfold Big.countBigIntBits Baa.Big.countBigIntBits
  simp only [mulC_of, subC_of, addC_of]
  try rfl

theorem BitVecValue_arithBin_of (m : Mode) : BitVecValue.arithBin (.of m) = Baa.BitVecValue.arithBin m := by
  funext
  unfold BitVecValue.arithBin Baa.BitVecValue.arithBin
  simp only [debugAssert_of]
  try rfl

theorem BitVecValue_bitArithBin_of (m : Mode) : BitVecValue.bitArithBin (.of m) = Baa.BitVecValue.bitArithBin m := by
  funext
  unfold BitVecValue.bitArithBin Baa.BitVecValue.bitArithBin
  simp only [debugAssert_of]
  try rfl

theorem BitVecValue_add_of (m : Mode) : BitVecValue.add (.of m) = Baa.BitVecValue.add m := by
  funext
  unfold BitVecValue.add Baa.BitVecValue.add
  simp only [BitVecValue_arithBin_of, Arith_add_of]
  try rfl

theorem BitVecValue_sub_of (m : Mode) : BitVecValue.sub (.of m) = Baa.BitVecValue.sub m := by
  funext
  unfold BitVecValue.sub Baa.BitVecValue.sub
  simp only [BitVecValue_arithBin_of, Arith_sub_of]
  try rfl

theorem BitVecValue_shiftLeft_of (m : Mode) : BitVecValue.shiftLeft (.of m) = Baa.BitVecValue.shiftLeft m := by
  funext
  unfold BitVecValue.shiftLeft Baa.BitVecValue.shiftLeft
  simp only [BitVecValue_arithBin_of, Arith_shiftLeft_of]
  try rfl

theorem BitVecValue_shiftRight_of (m : Mode) : BitVecValue.shiftRight (.of m) = Baa.BitVecValue.shiftRight m := by
  funext
  unfold BitVecValue.shiftRight Baa.BitVecValue.shiftRight
  simp only [BitVecValue_arithBin_of, Arith_shiftRight_of]
  try rfl

theorem BitVecValue_arithmeticShiftRight_of (m : Mode) : BitVecValue.arithmeticShiftRight (.of m) = Baa.BitVecValue.arithmeticShiftRight m := by
  funext
  unfold BitVecValue.arithmeticShiftRight Baa.BitVecValue.arithmeticShiftRight
  simp only [BitVecValue_arithBin_of, Arith_arithmeticShiftRight_of]
  try rfl

theorem BitVecValue_mul_of (m : Mode) : BitVecValue.mul (.of m) = Baa.BitVecValue.mul m := by
  funext
  unfold BitVecValue.mul Baa.BitVecValue.mul
  simp only [BitVecValue_arithBin_of, Arith_mul_of]
  try rfl

theorem BitVecValue_and_of (m : Mode) : BitVecValue.and (.of m) = Baa.BitVecValue.and m := by
  funext
  unfold BitVecValue.and Baa.BitVecValue.and
  simp only [BitVecValue_bitArithBin_of]
  try rfl

theorem BitVecValue_or_of (m : Mode) : BitVecValue.or (.of m) = Baa.BitVecValue.or m := by
  funext
  unfold BitVecValue.or Baa.BitVecValue.or
  simp only [BitVecValue_bitArithBin_of]
  try rfl

theorem BitVecValue_xor_of (m : Mode) : BitVecValue.xor (.of m) = Baa.BitVecValue.xor m := by
  funext
  unfold BitVecValue.xor Baa.BitVecValue.xor
  simp only [BitVecValue_bitArithBin_of]
  try rfl

theorem BitVecValue_assertSame_of (m : Mode) : BitVecValue.assertSame (.of m) = Baa.BitVecValue.assertSame m := by
  funext
  unfold BitVecValue.assertSame Baa.BitVecValue.assertSame
  simp only [debugAssert_of]
  try rfl

theorem BitVecValue_isEqual_of (m : Mode) : BitVecValue.isEqual (.of m) = Baa.BitVecValue.isEqual m := by
  funext
  unfold BitVecValue.isEqual Baa.BitVecValue.isEqual
  simp only [BitVecValue_assertSame_of]
  try rfl

theorem BitVecValue_isNotEqual_of (m : Mode) : BitVecValue.isNotEqual (.of m) = Baa.BitVecValue.isNotEqual m := by
  funext
  unfold BitVecValue.isNotEqual Baa.BitVecValue.isNotEqual
  simp only [BitVecValue_isEqual_of]
  try rfl

theorem BitVecValue_isGreater_of (m : Mode) : BitVecValue.isGreater (.of m) = Baa.BitVecValue.isGreater m := by
  funext
  unfold BitVecValue.isGreater Baa.BitVecValue.isGreater
  simp only [BitVecValue_assertSame_of]
  try rfl

theorem BitVecValue_isGreaterOrEqual_of (m : Mode) : BitVecValue.isGreaterOrEqual (.of m) = Baa.BitVecValue.isGreaterOrEqual m := by
  funext
  unfold BitVecValue.isGreaterOrEqual Baa.BitVecValue.isGreaterOrEqual
  simp only [BitVecValue_assertSame_of]
  try rfl

theorem BitVecValue_isLess_of (m : Mode) : BitVecValue.isLess (.of m) = Baa.BitVecValue.isLess m := by
  funext
  unfold BitVecValue.isLess Baa.BitVecValue.isLess
  simp only [BitVecValue_isGreater_of]
  try rfl

theorem BitVecValue_isLessOrEqual_of (m : Mode) : BitVecValue.isLessOrEqual (.of m) = Baa.BitVecValue.isLessOrEqual m := by
  funext
  unfold BitVecValue.isLessOrEqual Baa.BitVecValue.isLessOrEqual
  simp only [BitVecValue_isGreaterOrEqual_of]
  try rfl

theorem BitVecValue_isGreaterSigned_of (m : Mode) : BitVecValue.isGreaterSigned (.of m) = Baa.BitVecValue.isGreaterSigned m := by
  funext
  unfold BitVecValue.isGreaterSigned Baa.BitVecValue.isGreaterSigned
  simp only [BitVecValue_assertSame_of, Arith_cmpGreaterSigned_of]
  try rfl

theorem BitVecValue_isGreaterOrEqualSigned_of (m : Mode) : BitVecValue.isGreaterOrEqualSigned (.of m) = Baa.BitVecValue.isGreaterOrEqualSigned m := by
  funext
  unfold BitVecValue.isGreaterOrEqualSigned Baa.BitVecValue.isGreaterOrEqualSigned
  simp only [BitVecValue_assertSame_of, Arith_cmpGreaterEqualSigned_of]
  try rfl

theorem BitVecValue_isLessSigned_of (m : Mode) : BitVecValue.isLessSigned (.of m) = Baa.BitVecValue.isLessSigned m := by
  funext
  unfold BitVecValue.isLessSigned Baa.BitVecValue.isLessSigned
  simp only [BitVecValue_isGreaterSigned_of]
  try rfl

theorem BitVecValue_isLessOrEqualSigned_of (m : Mode) : BitVecValue.isLessOrEqualSigned (.of m) = Baa.BitVecValue.isLessOrEqualSigned m := by
  funext
  unfold BitVecValue.isLessOrEqualSigned Baa.BitVecValue.isLessOrEqualSigned
  simp only [BitVecValue_isGreaterOrEqualSigned_of]
  try rfl

theorem BitVecValue_eqOwned_of (m : Mode) : BitVecValue.eqOwned (.of m) = Baa.BitVecValue.eqOwned m := by
  funext
  unfold BitVecValue.eqOwned Baa.BitVecValue.eqOwned
  simp only [debugAssert_of]
  try rfl

theorem BitVecValue_eqRef_of (m : Mode) : BitVecValue.eqRef (.of m) = Baa.BitVecValue.eqRef m := by
  funext
  unfold BitVecValue.eqRef Baa.BitVecValue.eqRef
  simp only [BitVecValue_isEqual_of]
  try rfl

theorem BitVecValue_slice_of (m : Mode) : BitVecValue.slice (.of m) = Baa.BitVecValue.slice m := by
  funext
  unfold BitVecValue.slice Baa.BitVecValue.slice
  simp only [debugAssert_of, subC_of, addC_of, Arith_slice_of]
  try rfl

theorem BitVecValue_signExtend_of (m : Mode) : BitVecValue.signExtend (.of m) = Baa.BitVecValue.signExtend m := by
  funext
  unfold BitVecValue.signExtend Baa.BitVecValue.signExtend
  simp only [addC_of, Arith_signExtend_of]
  try rfl

theorem BitVecValue_zeroExtend_of (m : Mode) : BitVecValue.zeroExtend (.of m) = Baa.BitVecValue.zeroExtend m := by
  funext
  unfold BitVecValue.zeroExtend Baa.BitVecValue.zeroExtend
  simp only [addC_of]
  try rfl

theorem BitVecValue_not_of (m : Mode) : BitVecValue.not (.of m) = Baa.BitVecValue.not m := by
  funext
  unfold BitVecValue.not Baa.BitVecValue.not
  simp only [Arith_not_of]
  try rfl

theorem BitVecValue_negate_of (m : Mode) : BitVecValue.negate (.of m) = Baa.BitVecValue.negate m := by
  funext
  unfold BitVecValue.negate Baa.BitVecValue.negate
  simp only [Arith_negate_of]
  try rfl

theorem BitVecValue_concat_of (m : Mode) : BitVecValue.concat (.of m) = Baa.BitVecValue.concat m := by
  funext
  unfold BitVecValue.concat Baa.BitVecValue.concat
  simp only [addC_of, Arith_concat_of]
  try rfl

theorem BitVecValue_toI64_of (m : Mode) : BitVecValue.toI64 (.of m) = Baa.BitVecValue.toI64 m := by
  funext
  unfold BitVecValue.toI64 Baa.BitVecValue.toI64
  simp only [debugAssert_of, Arith_isNeg_of]
  try rfl

theorem BitVecValue_isNegative_of (m : Mode) : BitVecValue.isNegative (.of m) = Baa.BitVecValue.isNegative m := by
  funext
  unfold BitVecValue.isNegative Baa.BitVecValue.isNegative
  simp only [Arith_isNeg_of]
  try rfl

theorem BitVecValue_toUnsignedFixedPoint_of (m : Mode) : BitVecValue.toUnsignedFixedPoint (.of m) = Baa.BitVecValue.toUnsignedFixedPoint m := by
  funext
  unfold BitVecValue.toUnsignedFixedPoint Baa.BitVecValue.toUnsignedFixedPoint
  simp only [debugAssert_of, shiftAmount64_of]
  try rfl

theorem BitVecValue_toSignedFixedPoint_of (m : Mode) : BitVecValue.toSignedFixedPoint (.of m) = Baa.BitVecValue.toSignedFixedPoint m := by
  funext
  unfold BitVecValue.toSignedFixedPoint Baa.BitVecValue.toSignedFixedPoint
  simp only [debugAssert_of, BitVecValue_isNegative_of, BitVecValue_negate_of, BitVecValue_toUnsignedFixedPoint_of]
  try rfl

theorem BitVecValue_toBitStrSigned_of (m : Mode) : BitVecValue.toBitStrSigned (.of m) = Baa.BitVecValue.toBitStrSigned m := by
  funext
  unfold BitVecValue.toBitStrSigned Baa.BitVecValue.toBitStrSigned
  simp only [Strings_toBitStrSigned_of]
  try rfl

theorem BitVecValue_toHexStr_of (m : Mode) : BitVecValue.toHexStr (.of m) = Baa.BitVecValue.toHexStr m := by
  funext
  unfold BitVecValue.toHexStr Baa.BitVecValue.toHexStr
  simp only [Strings_toHexStr_of]
  try rfl

theorem BitVecValue_toDecStr_of (m : Mode) : BitVecValue.toDecStr (.of m) = Baa.BitVecValue.toDecStr m := by
  funext
  unfold BitVecValue.toDecStr Baa.BitVecValue.toDecStr
  simp only [Strings_toDecStr_of]
  try rfl

theorem BitVecValue_toHexStrSigned_of (m : Mode) : BitVecValue.toHexStrSigned (.of m) = Baa.BitVecValue.toHexStrSigned m := by
  funext
  unfold BitVecValue.toHexStrSigned Baa.BitVecValue.toHexStrSigned
  simp only [Strings_toHexStrSigned_of]
  try rfl

theorem BitVecValue_toBigInt_of (m : Mode) : BitVecValue.toBigInt (.of m) = Baa.BitVecValue.toBigInt m := by
  funext
  unfold BitVecValue.toBigInt Baa.BitVecValue.toBigInt
  simp only [Big_toBigInt_of]
  try rfl

theorem BitVecValue_assign_of (m : Mode) : BitVecValue.assign (.of m) = Baa.BitVecValue.assign m := by
  funext
  unfold BitVecValue.assign Baa.BitVecValue.assign
  simp only [debugAssert_of]
  try rfl

theorem BitVecValue_maskMsb_of (m : Mode) : BitVecValue.maskMsb (.of m) = Baa.BitVecValue.maskMsb m := by
  funext
  unfold BitVecValue.maskMsb Baa.BitVecValue.maskMsb
  simp only [Arith_maskMsb_of]
  try rfl

theorem BitVecValue_assignOnes_of (m : Mode) : BitVecValue.assignOnes (.of m) = Baa.BitVecValue.assignOnes m := by
  funext
  unfold BitVecValue.assignOnes Baa.BitVecValue.assignOnes
  simp only [BitVecValue_maskMsb_of]
  try rfl

theorem BitVecValue_assignFromU64_of (m : Mode) : BitVecValue.assignFromU64 (.of m) = Baa.BitVecValue.assignFromU64 m := by
  funext
  unfold BitVecValue.assignFromU64 Baa.BitVecValue.assignFromU64
  simp only [BitVecValue_maskMsb_of, debugAssert_of]
  try rfl

theorem BitVecValue_checkI64_of (m : Mode) : BitVecValue.checkI64 (.of m) = Baa.BitVecValue.checkI64 m := by
  funext self value
  cases m
  · show (BitVecValue.checkI64 (.of .debug) self value) = _
    unfold BitVecValue.checkI64 Baa.BitVecValue.checkI64
    simp only [BitVecValue_isNegative_of, debugAssert_of]
    rfl
  · rfl

theorem BitVecValue_assignFromI64_of (m : Mode) : BitVecValue.assignFromI64 (.of m) = Baa.BitVecValue.assignFromI64 m := by
  funext
  unfold BitVecValue.assignFromI64 Baa.BitVecValue.assignFromI64
  simp only [Arith_signExtend_of, BitVecValue_checkI64_of]
  try rfl

theorem BitVecValue_assignFromStrRadix_of (m : Mode) : BitVecValue.assignFromStrRadix (.of m) = Baa.BitVecValue.assignFromStrRadix m := by
  funext
  unfold BitVecValue.assignFromStrRadix Baa.BitVecValue.assignFromStrRadix
  simp only [Strings_fromStrRadix_of]
  try rfl

theorem BitVecValue_ones_of (m : Mode) : BitVecValue.ones (.of m) = Baa.BitVecValue.ones m := by
  funext
  unfold BitVecValue.ones Baa.BitVecValue.ones
  simp only [BitVecValue_assignOnes_of]
  try rfl

theorem BitVecValue_fromStrRadix_of (m : Mode) : BitVecValue.fromStrRadix (.of m) = Baa.BitVecValue.fromStrRadix m := by
  funext
  unfold BitVecValue.fromStrRadix Baa.BitVecValue.fromStrRadix
  simp only [BitVecValue_assignFromStrRadix_of]
  try rfl

theorem BitVecValue_fromBitStr_of (m : Mode) : BitVecValue.fromBitStr (.of m) = Baa.BitVecValue.fromBitStr m := by
  funext
  unfold BitVecValue.fromBitStr Baa.BitVecValue.fromBitStr
  simp only [Strings_determineWidth_of, BitVecValue_fromStrRadix_of]
  try rfl

theorem BitVecValue_fromHexStr_of (m : Mode) : BitVecValue.fromHexStr (.of m) = Baa.BitVecValue.fromHexStr m := by
  funext
  unfold BitVecValue.fromHexStr Baa.BitVecValue.fromHexStr
  simp only [Strings_determineWidth_of, BitVecValue_fromStrRadix_of]
  try rfl

theorem BitVecValue_fromU64_of (m : Mode) : BitVecValue.fromU64 (.of m) = Baa.BitVecValue.fromU64 m := by
  funext
  unfold BitVecValue.fromU64 Baa.BitVecValue.fromU64
  simp only [BitVecValue_assignFromU64_of]
  try rfl

theorem BitVecValue_fromI64_of (m : Mode) : BitVecValue.fromI64 (.of m) = Baa.BitVecValue.fromI64 m := by
  funext
  unfold BitVecValue.fromI64 Baa.BitVecValue.fromI64
  simp only [BitVecValue_assignFromI64_of]
  try rfl

theorem BitVecValue_tru_of (m : Mode) : BitVecValue.tru (.of m) = Baa.BitVecValue.tru m := by
  funext
  unfold BitVecValue.tru Baa.BitVecValue.tru
  simp only [BitVecValue_fromU64_of]
  try rfl

theorem BitVecValue_fals_of (m : Mode) : BitVecValue.fals (.of m) = Baa.BitVecValue.fals m := by
  funext
  unfold BitVecValue.fals Baa.BitVecValue.fals
  simp only [BitVecValue_fromU64_of]
  try rfl

theorem BitVecValue_fromBool_of (m : Mode) : BitVecValue.fromBool (.of m) = Baa.BitVecValue.fromBool m := by
  funext
  unfold BitVecValue.fromBool Baa.BitVecValue.fromBool
  simp only [BitVecValue_tru_of, BitVecValue_fals_of]
  try rfl

theorem BitVecValue_fromBytesLe_of (m : Mode) : BitVecValue.fromBytesLe (.of m) = Baa.BitVecValue.fromBytesLe m := by
  funext
  unfold BitVecValue.fromBytesLe Baa.BitVecValue.fromBytesLe
  simp only [Bytes_fromBytesLe_of]
  try rfl

theorem BitVecValue_fromBigInt_of (m : Mode) : BitVecValue.fromBigInt (.of m) = Baa.BitVecValue.fromBigInt m := by
  funext
  unfold BitVecValue.fromBigInt Baa.BitVecValue.fromBigInt
  simp only [Big_fromBigInt_of]
  try rfl

theorem BitVecValue_fromBigUint_of (m : Mode) : BitVecValue.fromBigUint (.of m) = Baa.BitVecValue.fromBigUint m := by
  funext
  unfold BitVecValue.fromBigUint Baa.BitVecValue.fromBigUint
  simp only [Big_fromBigUint_of]
  try rfl

theorem BitVecValue_ofBigInt_of (m : Mode) : BitVecValue.ofBigInt (.of m) = Baa.BitVecValue.ofBigInt m := by
  funext
  unfold BitVecValue.ofBigInt Baa.BitVecValue.ofBigInt
  simp only [Big_countBigIntBits_of, BitVecValue_fromBigInt_of]
  try rfl

theorem BitVecValue_ofBigUint_of (m : Mode) : BitVecValue.ofBigUint (.of m) = Baa.BitVecValue.ofBigUint m := by
  funext
  unfold BitVecValue.ofBigUint Baa.BitVecValue.ofBigUint
  simp only [Big_countBigUintBits_of, BitVecValue_fromBigUint_of]
  try rfl

theorem Indexed_assignAt_of (m : Mode) : Indexed.assignAt (.of m) = Baa.Indexed.assignAt m := by
  funext
  unfold Indexed.assignAt Baa.Indexed.assignAt
  simp only [BitVecValue_assign_of]
  try rfl

theorem Indexed_assignFrom_of (m : Mode) : Indexed.assignFrom (.of m) = Baa.Indexed.assignFrom m := by
  funext
  unfold Indexed.assignFrom Baa.Indexed.assignFrom
  simp only [BitVecValue_assign_of]
  try rfl

theorem ValueInterner_getIndex_of (m : Mode) : ValueInterner.getIndex (.of m) = Baa.ValueInterner.getIndex m := by
  funext
  unfold ValueInterner.getIndex Baa.ValueInterner.getIndex
  simp only [debugAssert_of]
  try rfl

theorem compareKeys_of (m : Mode) : compareKeys (.of m) = Baa.compareKeys m := by
  funext key ks
  induction ks with
  | nil => rfl
  | cons k ks ih =>
    unfold compareKeys Baa.compareKeys
    simp only [BitVecValue_eqOwned_of, ih]

theorem lookupOwned_of {V : Type} (m : Mode) : lookupOwned (V := V) (.of m) = Baa.lookupOwned m := by
  funext env map key
  unfold lookupOwned Baa.lookupOwned
  simp only [compareKeys_of]

theorem eqEntries_of {K : Type} [DecidableEq K] (m : Mode) : eqEntries (K := K) (.of m) = Baa.eqEntries m := by
  funext lookup other es
  induction es with
  | nil => rfl
  | cons e es ih =>
    unfold eqEntries Baa.eqEntries
    simp only [BitVecValue_eqOwned_of, ih]
    rfl

theorem eqMaps_of {K : Type} [DecidableEq K] (m : Mode) : eqMaps (K := K) (.of m) = Baa.eqMaps m := by
  funext env lookup a b
  unfold eqMaps Baa.eqMaps
  simp only [eqEntries_of]

theorem numElements_of (m : Mode) : numElements (.of m) = Baa.numElements m := by
  funext
  unfold numElements Baa.numElements
  simp only [shiftAmount64_of]
  try rfl

theorem SparseArrayValue_isEqual_of (m : Mode) : SparseArrayValue.isEqual (.of m) = Baa.SparseArrayValue.isEqual m := by
  funext
  unfold SparseArrayValue.isEqual Baa.SparseArrayValue.isEqual
  simp only [BitVecValue_eqOwned_of, eqMaps_of, lookupOwned_of]
  try rfl

theorem SparseArrayValue_default_of (m : Mode) : SparseArrayValue.default (.of m) = Baa.SparseArrayValue.default m := by
  funext
  unfold SparseArrayValue.default Baa.SparseArrayValue.default
  simp only [BitVecValue_fromU64_of]
  try rfl

theorem SparseArrayValue_storeU64Big_of (m : Mode) : SparseArrayValue.storeU64Big (.of m) = Baa.SparseArrayValue.storeU64Big m := by
  funext
  unfold SparseArrayValue.storeU64Big Baa.SparseArrayValue.storeU64Big
  simp only [BitVecValue_isEqual_of]
  try rfl

theorem SparseArrayValue_select_of (m : Mode) : SparseArrayValue.select (.of m) = Baa.SparseArrayValue.select m := by
  funext
  unfold SparseArrayValue.select Baa.SparseArrayValue.select
  simp only [debugAssert_of, BitVecValue_fromU64_of]
  try rfl

theorem SparseArrayValue_store_of (m : Mode) : SparseArrayValue.store (.of m) = Baa.SparseArrayValue.store m := by
  funext
  unfold SparseArrayValue.store Baa.SparseArrayValue.store
  simp only [debugAssert_of, BitVecValue_isEqual_of, lookupOwned_of]
  try rfl

theorem SparseArrayValue_nonDefaultEntries_of (m : Mode) : SparseArrayValue.nonDefaultEntries (.of m) = Baa.SparseArrayValue.nonDefaultEntries m := by
  funext
  unfold SparseArrayValue.nonDefaultEntries Baa.SparseArrayValue.nonDefaultEntries
  simp only [BitVecValue_fromU64_of]
  try rfl

theorem DenseArrayValue_approxStorageSize_of (m : Mode) : DenseArrayValue.approxStorageSize (.of m) = Baa.DenseArrayValue.approxStorageSize m := by
  funext
  unfold DenseArrayValue.approxStorageSize Baa.DenseArrayValue.approxStorageSize
  simp only [numElements_of, mulC_of]
  try rfl

theorem DenseArrayValue_new_of (m : Mode) : DenseArrayValue.new (.of m) = Baa.DenseArrayValue.new m := by
  funext iw default
  unfold DenseArrayValue.new Baa.DenseArrayValue.new
  simp only [DenseArrayValue_approxStorageSize_of, debugAssert_of, numElements_of, BitVecValue_ones_of, mulC_of]
  cases m <;> rfl

theorem DenseArrayValue_ofBools_go_of (ii : Nat) (vs : List Bool) (data : BitVecValue) :
    DenseArrayValue.ofBools.go ii vs data = Baa.DenseArrayValue.ofBools.go ii vs data := by
  induction vs generalizing ii data with
  | nil => rfl
  | cons v vs ih =>
    unfold DenseArrayValue.ofBools.go Baa.DenseArrayValue.ofBools.go
    simp only [ih]

theorem DenseArrayValue_ofBools_of (m : Mode) : DenseArrayValue.ofBools (.of m) = Baa.DenseArrayValue.ofBools m := by
  funext values
  unfold DenseArrayValue.ofBools Baa.DenseArrayValue.ofBools
  simp only [numElements_of, DenseArrayValue_ofBools_go_of]

theorem DenseArrayValue_ofU8s_of (m : Mode) : DenseArrayValue.ofU8s (.of m) = Baa.DenseArrayValue.ofU8s m := by
  funext
  unfold DenseArrayValue.ofU8s Baa.DenseArrayValue.ofU8s
  simp only [numElements_of]
  try rfl

theorem DenseArrayValue_ofU64s_of (m : Mode) : DenseArrayValue.ofU64s (.of m) = Baa.DenseArrayValue.ofU64s m := by
  funext
  unfold DenseArrayValue.ofU64s Baa.DenseArrayValue.ofU64s
  simp only [numElements_of]
  try rfl

theorem DenseArrayValue_isEqual_of (m : Mode) : DenseArrayValue.isEqual (.of m) = Baa.DenseArrayValue.isEqual m := by
  funext
  unfold DenseArrayValue.isEqual Baa.DenseArrayValue.isEqual
  simp only [BitVecValue_isEqual_of]
  try rfl

theorem DenseArrayValue_selectUsize_of (m : Mode) : DenseArrayValue.selectUsize (.of m) = Baa.DenseArrayValue.selectUsize m := by
  funext
  unfold DenseArrayValue.selectUsize Baa.DenseArrayValue.selectUsize
  simp only [BitVecValue_fromBool_of, BitVecValue_fromU64_of, mulC_of, addC_of]
  try rfl

theorem DenseArrayValue_select_of (m : Mode) : DenseArrayValue.select (.of m) = Baa.DenseArrayValue.select m := by
  funext
  unfold DenseArrayValue.select Baa.DenseArrayValue.select
  simp only [debugAssert_of, DenseArrayValue_selectUsize_of]
  try rfl

theorem DenseArrayValue_store_of (m : Mode) : DenseArrayValue.store (.of m) = Baa.DenseArrayValue.store m := by
  funext
  unfold DenseArrayValue.store Baa.DenseArrayValue.store
  simp only [debugAssert_of, mulC_of, addC_of, BitVecValue_assign_of]
  try rfl

theorem DenseArrayValue_putU64_of (m : Mode) : DenseArrayValue.putU64 (.of m) = Baa.DenseArrayValue.putU64 m := by
  funext
  unfold DenseArrayValue.putU64 Baa.DenseArrayValue.putU64
  simp only [debugAssert_of]
  try rfl

theorem DenseArrayValue_putAllU64_of (m : Mode) : DenseArrayValue.putAllU64 (.of m) = Baa.DenseArrayValue.putAllU64 m := by
  funext d es
  induction es generalizing d with
  | nil => rfl
  | cons e es ih =>
    unfold DenseArrayValue.putAllU64 Baa.DenseArrayValue.putAllU64
    simp only [DenseArrayValue_putU64_of, ih]

theorem DenseArrayValue_putAllBig_of (m : Mode) : DenseArrayValue.putAllBig (.of m) = Baa.DenseArrayValue.putAllBig m := by
  funext d i es
  induction es generalizing d i with
  | nil => rfl
  | cons e es ih =>
    unfold DenseArrayValue.putAllBig Baa.DenseArrayValue.putAllBig
    simp only [BitVecValue_assignFromU64_of, DenseArrayValue_store_of, ih]

theorem DenseArrayValue_ofSparse_of (m : Mode) : DenseArrayValue.ofSparse (.of m) = Baa.DenseArrayValue.ofSparse m := by
  funext
  unfold DenseArrayValue.ofSparse Baa.DenseArrayValue.ofSparse
  simp only [SparseArrayValue_default_of, DenseArrayValue_new_of, debugAssert_of, DenseArrayValue_putAllU64_of, DenseArrayValue_putAllBig_of]
  try rfl

theorem DenseArrayValue_selectAll_of (m : Mode) : DenseArrayValue.selectAll (.of m) = Baa.DenseArrayValue.selectAll m := by
  funext a i n
  induction n generalizing i with
  | zero => rfl
  | succ n ih =>
    unfold DenseArrayValue.selectAll Baa.DenseArrayValue.selectAll
    simp only [DenseArrayValue_selectUsize_of, ih]

theorem DenseArrayValue_storeBigs_of (m : Mode) : DenseArrayValue.storeBigs (.of m) = Baa.DenseArrayValue.storeBigs m := by
  funext dflt bit ds out
  induction ds generalizing bit out with
  | nil => rfl
  | cons d ds ih =>
    unfold DenseArrayValue.storeBigs Baa.DenseArrayValue.storeBigs
    simp only [BitVecValue_eqOwned_of, SparseArrayValue_storeU64Big_of, ih]

theorem DenseArrayValue_toSparse_of (m : Mode) : DenseArrayValue.toSparse (.of m) = Baa.DenseArrayValue.toSparse m := by
  funext
  unfold DenseArrayValue.toSparse Baa.DenseArrayValue.toSparse
  simp only [numElements_of, BitVecValue_fromBool_of, BitVecValue_fromU64_of, DenseArrayValue_selectAll_of, DenseArrayValue_storeBigs_of]
  try rfl

theorem isEqualMixed_of (m : Mode) : isEqualMixed (.of m) = Baa.isEqualMixed m := by
  funext
  unfold isEqualMixed Baa.isEqualMixed
  simp only [DenseArrayValue_ofSparse_of, DenseArrayValue_isEqual_of]
  try rfl

theorem ArrayValue_newDense_of (m : Mode) : ArrayValue.newDense (.of m) = Baa.ArrayValue.newDense m := by
  funext
  unfold ArrayValue.newDense Baa.ArrayValue.newDense
  simp only [DenseArrayValue_new_of]
  try rfl

theorem ArrayValue_makeDense_of (m : Mode) : ArrayValue.makeDense (.of m) = Baa.ArrayValue.makeDense m := by
  funext
  unfold ArrayValue.makeDense Baa.ArrayValue.makeDense
  simp only [DenseArrayValue_ofSparse_of]
  try rfl

theorem ArrayValue_isEqual_of (m : Mode) : ArrayValue.isEqual (.of m) = Baa.ArrayValue.isEqual m := by
  funext
  unfold ArrayValue.isEqual Baa.ArrayValue.isEqual
  simp only [DenseArrayValue_isEqual_of, SparseArrayValue_isEqual_of, isEqualMixed_of]
  try rfl

theorem ArrayValue_eq_of (m : Mode) : ArrayValue.eq (.of m) = Baa.ArrayValue.eq m := by
  funext
  unfold ArrayValue.eq Baa.ArrayValue.eq
  simp only [ArrayValue_isEqual_of]
  try rfl

theorem ArrayValue_toSparse_of (m : Mode) : ArrayValue.toSparse (.of m) = Baa.ArrayValue.toSparse m := by
  funext
  unfold ArrayValue.toSparse Baa.ArrayValue.toSparse
  simp only [DenseArrayValue_toSparse_of]
  try rfl

theorem ArrayValue_ofBools_of (m : Mode) : ArrayValue.ofBools (.of m) = Baa.ArrayValue.ofBools m := by
  funext
  unfold ArrayValue.ofBools Baa.ArrayValue.ofBools
  simp only [DenseArrayValue_ofBools_of]
  try rfl

theorem ArrayValue_ofU8s_of (m : Mode) : ArrayValue.ofU8s (.of m) = Baa.ArrayValue.ofU8s m := by
  funext
  unfold ArrayValue.ofU8s Baa.ArrayValue.ofU8s
  simp only [DenseArrayValue_ofU8s_of]
  try rfl

theorem ArrayValue_ofU64s_of (m : Mode) : ArrayValue.ofU64s (.of m) = Baa.ArrayValue.ofU64s m := by
  funext
  unfold ArrayValue.ofU64s Baa.ArrayValue.ofU64s
  simp only [DenseArrayValue_ofU64s_of]
  try rfl

theorem ArrayValue_select_of (m : Mode) : ArrayValue.select (.of m) = Baa.ArrayValue.select m := by
  funext
  unfold ArrayValue.select Baa.ArrayValue.select
  simp only [SparseArrayValue_select_of, DenseArrayValue_select_of]
  try rfl

theorem ArrayValue_store_of (m : Mode) : ArrayValue.store (.of m) = Baa.ArrayValue.store m := by
  funext
  unfold ArrayValue.store Baa.ArrayValue.store
  simp only [SparseArrayValue_store_of, DenseArrayValue_store_of]
  try rfl

theorem Value_eq_of (m : Mode) : Value.eq (.of m) = Baa.Value.eq m := by
  funext
  unfold Value.eq Baa.Value.eq
  simp only [ArrayValue_eq_of, BitVecValue_eqOwned_of]
  try rfl

theorem EntryIter_next_of (m : Mode) : EntryIter.next (.of m) = Baa.EntryIter.next m := by
  funext
  unfold EntryIter.next Baa.EntryIter.next
  simp only [BitVecValue_fromU64_of]
  try rfl

theorem EntryIter_calls_of (m : Mode) : EntryIter.calls (.of m) = Baa.EntryIter.calls m := by
  funext n it
  induction n generalizing it with
  | zero => rfl
  | succ n ih =>
    unfold EntryIter.calls Baa.EntryIter.calls
    simp only [EntryIter_next_of, ih]

theorem Serde_loadEntries_of (m : Mode) : Serde.loadEntries (.of m) = Baa.Serde.loadEntries m := by
  funext env acc es
  induction es generalizing acc with
  | nil => rfl
  | cons e es ih =>
    unfold Serde.loadEntries Baa.Serde.loadEntries
    simp only [lookupOwned_of, ih]
    rfl

theorem Serde_loadSparseImpl_of (m : Mode) : Serde.loadSparseImpl (.of m) = Baa.Serde.loadSparseImpl m := by
  funext env d
  unfold Serde.loadSparseImpl Baa.Serde.loadSparseImpl Serde.loadHMap Baa.Serde.loadHMap
  simp only [Serde_loadEntries_of]
  rfl

theorem Serde_loadArrayImpl_of (m : Mode) : Serde.loadArrayImpl (.of m) = Baa.Serde.loadArrayImpl m := by
  funext env d
  unfold Serde.loadArrayImpl Baa.Serde.loadArrayImpl Serde.loadSparse Baa.Serde.loadSparse
  simp only [Serde_loadSparseImpl_of]
  rfl

theorem Serde_loadOuter_of (m : Mode) : Serde.loadOuter (.of m) = Baa.Serde.loadOuter m := by
  funext env data fs
  induction fs generalizing data with
  | nil => rfl
  | cons f fs ih =>
    unfold Serde.loadOuter Baa.Serde.loadOuter
    simp only [Serde_loadArrayImpl_of, ih]
    rfl

theorem Serde_loadArray_of (m : Mode) : Serde.loadArray (.of m) = Baa.Serde.loadArray m := by
  funext env d
  unfold Serde.loadArray Baa.Serde.loadArray
  simp only [Serde_loadArrayImpl_of, Serde_loadOuter_of]
  rfl

end Profiled

end Baa
