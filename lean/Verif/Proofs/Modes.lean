import Verif.Model.Indexed
import Verif.Model.Array
import Verif.Model.Loading

/-!
# Debug versus release: every function of the model is monotone in the build mode

`Le x y`: if `x` returns, `y` returns the same. One lemma per model function, by structural reasoning.
-/

namespace Baa
open Res

/-- If `x` returns a value then `y` returns the same value. -/
structure Le {α : Type} (x y : Res α) : Prop where
  of_ok : ∀ r, x = ok r → y = ok r

namespace Le

theorem refl {α : Type} (x : Res α) : Le x x := ⟨fun _ h => h⟩

theorem of_panic {α : Type} (p : Panic) (x : Res α) : Le (Res.panic p) x := ⟨fun _ h => (by cases h)⟩

theorem bind {α β : Type} {x x' : Res α} {f f' : α → Res β} (h : Le x x') (hf : ∀ a, Le (f a) (f' a)) :
    Le (x >>= f) (x' >>= f') := by
  constructor
  intro r hr
  cases x with
  | ok a =>
    rw [h.of_ok a rfl]
    exact (hf a).of_ok r hr
  | panic p => cases hr

theorem ite {α : Type} {c : Prop} [Decidable c] {a a' b b' : Res α} (h : c → Le a a') (h' : ¬ c → Le b b') :
    Le (if c then a else b) (if c then a' else b') := by
  by_cases hc : c
  · rw [if_pos hc, if_pos hc]
    exact h hc
  · rw [if_neg hc, if_neg hc]
    exact h' hc

end Le

/-- One step of a monotonicity proof; extended by one rule per proved function. -/
syntax "le_step" : tactic
macro_rules | `(tactic| le_step) => `(tactic| split)
macro_rules | `(tactic| le_step) => `(tactic| intro _)
macro_rules | `(tactic| le_step) => `(tactic| with_reducible apply Le.bind)
macro_rules | `(tactic| le_step) => `(tactic| with_reducible apply Le.ite)
macro_rules | `(tactic| le_step) => `(tactic| with_reducible exact Le.of_panic _ _)
macro_rules | `(tactic| le_step) => `(tactic| with_reducible exact Le.refl _)

/-- Structural monotonicity proof. -/
macro "le_auto" : tactic => `(tactic| repeat' le_step)

theorem debugAssert_le : ∀ b, Le (debugAssert .debug b) (debugAssert .release b)
  | true => Le.refl _
  | false => Le.of_panic _ _
macro_rules | `(tactic| le_step) => `(tactic| with_reducible apply debugAssert_le)

theorem addC_le : ∀ M a b, Le (addC .debug M a b) (addC .release M a b) := by
  intro M a b
  unfold addC
  exact Le.ite (fun _ => Le.refl _) (fun _ => Le.of_panic _ _)
macro_rules | `(tactic| le_step) => `(tactic| with_reducible apply addC_le)

theorem subC_le : ∀ M a b, Le (subC .debug M a b) (subC .release M a b) := by
  intro M a b
  unfold subC
  exact Le.ite (fun _ => Le.refl _) (fun _ => Le.of_panic _ _)
macro_rules | `(tactic| le_step) => `(tactic| with_reducible apply subC_le)

theorem mulC_le : ∀ M a b, Le (mulC .debug M a b) (mulC .release M a b) := by
  intro M a b
  unfold mulC
  exact Le.ite (fun _ => Le.refl _) (fun _ => Le.of_panic _ _)
macro_rules | `(tactic| le_step) => `(tactic| with_reducible apply mulC_le)

theorem shiftAmount64_le : ∀ n, Le (shiftAmount64 .debug n) (shiftAmount64 .release n) := by
  intro n
  unfold shiftAmount64
  exact Le.ite (fun _ => Le.refl _) (fun _ => Le.of_panic _ _)
macro_rules | `(tactic| le_step) => `(tactic| with_reducible apply shiftAmount64_le)

theorem modifyRange_le {α : Type} (l : List α) (lo hi : Nat) {f f' : List α → Res (List α)} (h : ∀ s, Le (f s) (f' s)) :
    Le (modifyRange l lo hi f) (modifyRange l lo hi f') := by
  unfold modifyRange
  exact Le.bind (Le.refl _) fun a => Le.bind (h a) fun _ => Le.refl _
macro_rules | `(tactic| le_step) => `(tactic| with_reducible apply modifyRange_le)

theorem Arith_maskMsb_le : ∀ dst w, Le (Arith.maskMsb .debug dst w) (Arith.maskMsb .release dst w) := by
  intros
  unfold Arith.maskMsb
  le_auto
macro_rules | `(tactic| le_step) => `(tactic| with_reducible apply Arith_maskMsb_le)

theorem Arith_isNeg_le : ∀ s w, Le (Arith.isNeg .debug s w) (Arith.isNeg .release s w) := by
  intros
  unfold Arith.isNeg
  le_auto
macro_rules | `(tactic| le_step) => `(tactic| with_reducible apply Arith_isNeg_le)

theorem Arith_signExtend_le : ∀ d s a b, Le (Arith.signExtend .debug d s a b) (Arith.signExtend .release d s a b) := by
  intros
  unfold Arith.signExtend
  le_auto
macro_rules | `(tactic| le_step) => `(tactic| with_reducible apply Arith_signExtend_le)

theorem Arith_slice_le : ∀ d s h l, Le (Arith.slice .debug d s h l) (Arith.slice .release d s h l) := by
  intros
  unfold Arith.slice
  le_auto
macro_rules | `(tactic| le_step) => `(tactic| with_reducible apply Arith_slice_le)

theorem Arith_concat_le : ∀ d a b w, Le (Arith.concat .debug d a b w) (Arith.concat .release d a b w) := by
  intros
  unfold Arith.concat
  le_auto
macro_rules | `(tactic| le_step) => `(tactic| with_reducible apply Arith_concat_le)

theorem Arith_not_le : ∀ d s w, Le (Arith.not .debug d s w) (Arith.not .release d s w) := by
  intros
  unfold Arith.not
  le_auto
macro_rules | `(tactic| le_step) => `(tactic| with_reducible apply Arith_not_le)

theorem Arith_add_le : ∀ d a b w, Le (Arith.add .debug d a b w) (Arith.add .release d a b w) := by
  intros
  unfold Arith.add
  le_auto
macro_rules | `(tactic| le_step) => `(tactic| with_reducible apply Arith_add_le)

theorem Arith_sub_le : ∀ d a b w, Le (Arith.sub .debug d a b w) (Arith.sub .release d a b w) := by
  intros
  unfold Arith.sub
  le_auto
macro_rules | `(tactic| le_step) => `(tactic| with_reducible apply Arith_sub_le)

theorem Arith_mul_le : ∀ d a b w, Le (Arith.mul .debug d a b w) (Arith.mul .release d a b w) := by
  intros
  unfold Arith.mul
  le_auto
macro_rules | `(tactic| le_step) => `(tactic| with_reducible apply Arith_mul_le)

theorem Arith_shiftRight_le : ∀ d a b w, Le (Arith.shiftRight .debug d a b w) (Arith.shiftRight .release d a b w) := by
  intros
  unfold Arith.shiftRight
  le_auto
macro_rules | `(tactic| le_step) => `(tactic| with_reducible apply Arith_shiftRight_le)

theorem Arith_arithmeticShiftRight_le : ∀ d a b w, 
    Le (Arith.arithmeticShiftRight .debug d a b w) (Arith.arithmeticShiftRight .release d a b w) := by
  intros
  unfold Arith.arithmeticShiftRight
  le_auto
macro_rules | `(tactic| le_step) => `(tactic| with_reducible apply Arith_arithmeticShiftRight_le)

theorem Arith_shiftLeft_le : ∀ d a b w, Le (Arith.shiftLeft .debug d a b w) (Arith.shiftLeft .release d a b w) := by
  intros
  unfold Arith.shiftLeft
  le_auto
macro_rules | `(tactic| le_step) => `(tactic| with_reducible apply Arith_shiftLeft_le)

theorem Arith_negateInPlace_le : ∀ d w, Le (Arith.negateInPlace .debug d w) (Arith.negateInPlace .release d w) := by
  intros
  unfold Arith.negateInPlace
  le_auto
macro_rules | `(tactic| le_step) => `(tactic| with_reducible apply Arith_negateInPlace_le)

theorem Arith_negate_le : ∀ d b w, Le (Arith.negate .debug d b w) (Arith.negate .release d b w) := by
  intros
  unfold Arith.negate
  le_auto
macro_rules | `(tactic| le_step) => `(tactic| with_reducible apply Arith_negate_le)

theorem Arith_cmpGreaterSigned_le : ∀ a b w, 
    Le (Arith.cmpGreaterSigned .debug a b w) (Arith.cmpGreaterSigned .release a b w) := by
  intros
  unfold Arith.cmpGreaterSigned
  le_auto
macro_rules | `(tactic| le_step) => `(tactic| with_reducible apply Arith_cmpGreaterSigned_le)

theorem Arith_cmpGreaterEqualSigned_le : ∀ a b w, 
    Le (Arith.cmpGreaterEqualSigned .debug a b w) (Arith.cmpGreaterEqualSigned .release a b w) := by
  intros
  unfold Arith.cmpGreaterEqualSigned
  le_auto
macro_rules | `(tactic| le_step) => `(tactic| with_reducible apply Arith_cmpGreaterEqualSigned_le)

theorem Strings_toBitStrSigned_le : ∀ v w, 
    Le (Strings.toBitStrSigned .debug v w) (Strings.toBitStrSigned .release v w) := by
  intros
  unfold Strings.toBitStrSigned
  le_auto
macro_rules | `(tactic| le_step) => `(tactic| with_reducible apply Strings_toBitStrSigned_le)

theorem Strings_selectWordsForWidth_le : ∀ v w, 
    Le (Strings.selectWordsForWidth .debug v w) (Strings.selectWordsForWidth .release v w) := by
  intros
  unfold Strings.selectWordsForWidth
  le_auto
macro_rules | `(tactic| le_step) => `(tactic| with_reducible apply Strings_selectWordsForWidth_le)

theorem Strings_toHexStrInternal_le : ∀ v w o, 
    Le (Strings.toHexStrInternal .debug v w o) (Strings.toHexStrInternal .release v w o) := by
  intros
  unfold Strings.toHexStrInternal
  le_auto
macro_rules | `(tactic| le_step) => `(tactic| with_reducible apply Strings_toHexStrInternal_le)

theorem Strings_toHexStr_le : ∀ v w, Le (Strings.toHexStr .debug v w) (Strings.toHexStr .release v w) := by
  intros
  unfold Strings.toHexStr
  le_auto
macro_rules | `(tactic| le_step) => `(tactic| with_reducible apply Strings_toHexStr_le)

theorem Strings_toHexStrSigned_le : ∀ v w, 
    Le (Strings.toHexStrSigned .debug v w) (Strings.toHexStrSigned .release v w) := by
  intros
  unfold Strings.toHexStrSigned
  le_auto
macro_rules | `(tactic| le_step) => `(tactic| with_reducible apply Strings_toHexStrSigned_le)

theorem Strings_wordsToU128_le : ∀ v, Le (Strings.wordsToU128 .debug v) (Strings.wordsToU128 .release v) := by
  intros
  unfold Strings.wordsToU128
  le_auto
macro_rules | `(tactic| le_step) => `(tactic| with_reducible apply Strings_wordsToU128_le)

theorem Strings_toDecStrInternal_le : ∀ v, 
    Le (Strings.toDecStrInternal .debug v) (Strings.toDecStrInternal .release v) := by
  intros
  unfold Strings.toDecStrInternal
  le_auto
macro_rules | `(tactic| le_step) => `(tactic| with_reducible apply Strings_toDecStrInternal_le)

theorem Strings_toDecStr_le : ∀ v w, Le (Strings.toDecStr .debug v w) (Strings.toDecStr .release v w) := by
  intros
  unfold Strings.toDecStr
  le_auto
macro_rules | `(tactic| le_step) => `(tactic| with_reducible apply Strings_toDecStr_le)

theorem Strings_determineWidth_le : ∀ v r, 
    Le (Strings.determineWidth .debug v r) (Strings.determineWidth .release v r) := by
  intros
  unfold Strings.determineWidth
  le_auto
macro_rules | `(tactic| le_step) => `(tactic| with_reducible apply Strings_determineWidth_le)

theorem Strings_parseLoop_le (bits perWord : Nat) (dv : Byte → Option Nat) (nd : Nat) :
    ∀ (cs : List Byte) ii out oi w, Le (Strings.parseLoop .debug bits perWord dv nd ii out oi w cs)
      (Strings.parseLoop .release bits perWord dv nd ii out oi w cs) := by
  intro cs
  induction cs with
  | nil => intros; exact Le.refl _
  | cons c cs ih =>
    intros
    unfold Strings.parseLoop
    repeat' (first | apply ih | le_step)
macro_rules | `(tactic| le_step) => `(tactic| with_reducible apply Strings_parseLoop_le)

theorem Strings_parseBase16_le : ∀ d o, Le (Strings.parseBase16 .debug d o) (Strings.parseBase16 .release d o) := by
  intros
  unfold Strings.parseBase16
  le_auto
macro_rules | `(tactic| le_step) => `(tactic| with_reducible apply Strings_parseBase16_le)

theorem Strings_parseBase2_le : ∀ d o w, Le (Strings.parseBase2 .debug d o w) (Strings.parseBase2 .release d o w) := by
  intros
  unfold Strings.parseBase2
  le_auto
macro_rules | `(tactic| le_step) => `(tactic| with_reducible apply Strings_parseBase2_le)

theorem Strings_parseMagnitude_le : ∀ v r o w, 
    Le (Strings.parseMagnitude .debug v r o w) (Strings.parseMagnitude .release v r o w) := by
  intros
  unfold Strings.parseMagnitude
  le_auto
macro_rules | `(tactic| le_step) => `(tactic| with_reducible apply Strings_parseMagnitude_le)

theorem Strings_fromStrRadix_le : ∀ v r o w, 
    Le (Strings.fromStrRadix .debug v r o w) (Strings.fromStrRadix .release v r o w) := by
  intros
  unfold Strings.fromStrRadix
  le_auto
macro_rules | `(tactic| le_step) => `(tactic| with_reducible apply Strings_fromStrRadix_le)

theorem Bytes_fromBytesLe_le : ∀ b w o, Le (Bytes.fromBytesLe .debug b w o) (Bytes.fromBytesLe .release b w o) := by
  intros
  unfold Bytes.fromBytesLe
  le_auto
macro_rules | `(tactic| le_step) => `(tactic| with_reducible apply Bytes_fromBytesLe_le)

theorem Big_iterToWord_le : ∀ i w o, Le (Big.iterToWord .debug i w o) (Big.iterToWord .release i w o) := by
  intros
  unfold Big.iterToWord
  le_auto
macro_rules | `(tactic| le_step) => `(tactic| with_reducible apply Big_iterToWord_le)

theorem Big_fromBigUint_le : ∀ v w o, Le (Big.fromBigUint .debug v w o) (Big.fromBigUint .release v w o) := by
  intros
  unfold Big.fromBigUint
  le_auto
macro_rules | `(tactic| le_step) => `(tactic| with_reducible apply Big_fromBigUint_le)

theorem Big_getSign_le : ∀ v w, Le (Big.getSign .debug v w) (Big.getSign .release v w) := by
  intros
  unfold Big.getSign
  le_auto
macro_rules | `(tactic| le_step) => `(tactic| with_reducible apply Big_getSign_le)

theorem Big_toBigInt_le : ∀ v w, Le (Big.toBigInt .debug v w) (Big.toBigInt .release v w) := by
  intros
  unfold Big.toBigInt
  le_auto
macro_rules | `(tactic| le_step) => `(tactic| with_reducible apply Big_toBigInt_le)

theorem Big_fromBigInt_le : ∀ v w o, Le (Big.fromBigInt .debug v w o) (Big.fromBigInt .release v w o) := by
  intros
  unfold Big.fromBigInt
  le_auto
macro_rules | `(tactic| le_step) => `(tactic| with_reducible apply Big_fromBigInt_le)

theorem Big_countBigUintBits_le : ∀ v, Le (Big.countBigUintBits .debug v) (Big.countBigUintBits .release v) := by
  intros
  unfold Big.countBigUintBits
  le_auto
macro_rules | `(tactic| le_step) => `(tactic| with_reducible apply Big_countBigUintBits_le)

theorem Big_countBigIntBits_le : ∀ v, Le (Big.countBigIntBits .debug v) (Big.countBigIntBits .release v) := by
  intros
  unfold Big.countBigIntBits
  le_auto
macro_rules | `(tactic| le_step) => `(tactic| with_reducible apply Big_countBigIntBits_le)

theorem BitVecValue_arithBin_le {f f' : List Word → List Word → List Word → Nat → Res (List Word)}
    (h : ∀ d a b w, Le (f d a b w) (f' d a b w)) (a b : BitVecValue) :
    Le (BitVecValue.arithBin .debug f a b) (BitVecValue.arithBin .release f' a b) := by
  unfold BitVecValue.arithBin
  repeat' (first | apply h | le_step)
macro_rules | `(tactic| le_step) => `(tactic| with_reducible apply BitVecValue_arithBin_le)

theorem BitVecValue_bitArithBin_le : ∀ f a b, 
    Le (BitVecValue.bitArithBin .debug f a b) (BitVecValue.bitArithBin .release f a b) := by
  intros
  unfold BitVecValue.bitArithBin
  le_auto
macro_rules | `(tactic| le_step) => `(tactic| with_reducible apply BitVecValue_bitArithBin_le)

theorem BitVecValue_add_le : ∀ a b, Le (BitVecValue.add .debug a b) (BitVecValue.add .release a b) := by
  intros
  unfold BitVecValue.add
  le_auto
macro_rules | `(tactic| le_step) => `(tactic| with_reducible apply BitVecValue_add_le)

theorem BitVecValue_sub_le : ∀ a b, Le (BitVecValue.sub .debug a b) (BitVecValue.sub .release a b) := by
  intros
  unfold BitVecValue.sub
  le_auto
macro_rules | `(tactic| le_step) => `(tactic| with_reducible apply BitVecValue_sub_le)

theorem BitVecValue_shiftLeft_le : ∀ a b, 
    Le (BitVecValue.shiftLeft .debug a b) (BitVecValue.shiftLeft .release a b) := by
  intros
  unfold BitVecValue.shiftLeft
  le_auto
macro_rules | `(tactic| le_step) => `(tactic| with_reducible apply BitVecValue_shiftLeft_le)

theorem BitVecValue_shiftRight_le : ∀ a b, 
    Le (BitVecValue.shiftRight .debug a b) (BitVecValue.shiftRight .release a b) := by
  intros
  unfold BitVecValue.shiftRight
  le_auto
macro_rules | `(tactic| le_step) => `(tactic| with_reducible apply BitVecValue_shiftRight_le)

theorem BitVecValue_arithmeticShiftRight_le : ∀ a b, 
    Le (BitVecValue.arithmeticShiftRight .debug a b) (BitVecValue.arithmeticShiftRight .release a b) := by
  intros
  unfold BitVecValue.arithmeticShiftRight
  le_auto
macro_rules | `(tactic| le_step) => `(tactic| with_reducible apply BitVecValue_arithmeticShiftRight_le)

theorem BitVecValue_mul_le : ∀ a b, Le (BitVecValue.mul .debug a b) (BitVecValue.mul .release a b) := by
  intros
  unfold BitVecValue.mul
  le_auto
macro_rules | `(tactic| le_step) => `(tactic| with_reducible apply BitVecValue_mul_le)

theorem BitVecValue_and_le : ∀ a b, Le (BitVecValue.and .debug a b) (BitVecValue.and .release a b) := by
  intros
  unfold BitVecValue.and
  le_auto
macro_rules | `(tactic| le_step) => `(tactic| with_reducible apply BitVecValue_and_le)

theorem BitVecValue_or_le : ∀ a b, Le (BitVecValue.or .debug a b) (BitVecValue.or .release a b) := by
  intros
  unfold BitVecValue.or
  le_auto
macro_rules | `(tactic| le_step) => `(tactic| with_reducible apply BitVecValue_or_le)

theorem BitVecValue_xor_le : ∀ a b, Le (BitVecValue.xor .debug a b) (BitVecValue.xor .release a b) := by
  intros
  unfold BitVecValue.xor
  le_auto
macro_rules | `(tactic| le_step) => `(tactic| with_reducible apply BitVecValue_xor_le)

theorem BitVecValue_assertSame_le : ∀ a b, 
    Le (BitVecValue.assertSame .debug a b) (BitVecValue.assertSame .release a b) := by
  intros
  unfold BitVecValue.assertSame
  le_auto
macro_rules | `(tactic| le_step) => `(tactic| with_reducible apply BitVecValue_assertSame_le)

theorem BitVecValue_isEqual_le : ∀ a b, Le (BitVecValue.isEqual .debug a b) (BitVecValue.isEqual .release a b) := by
  intros
  unfold BitVecValue.isEqual
  le_auto
macro_rules | `(tactic| le_step) => `(tactic| with_reducible apply BitVecValue_isEqual_le)

theorem BitVecValue_isNotEqual_le : ∀ a b, 
    Le (BitVecValue.isNotEqual .debug a b) (BitVecValue.isNotEqual .release a b) := by
  intros
  unfold BitVecValue.isNotEqual
  le_auto
macro_rules | `(tactic| le_step) => `(tactic| with_reducible apply BitVecValue_isNotEqual_le)

theorem BitVecValue_isGreater_le : ∀ a b, 
    Le (BitVecValue.isGreater .debug a b) (BitVecValue.isGreater .release a b) := by
  intros
  unfold BitVecValue.isGreater
  le_auto
macro_rules | `(tactic| le_step) => `(tactic| with_reducible apply BitVecValue_isGreater_le)

theorem BitVecValue_isGreaterOrEqual_le : ∀ a b, 
    Le (BitVecValue.isGreaterOrEqual .debug a b) (BitVecValue.isGreaterOrEqual .release a b) := by
  intros
  unfold BitVecValue.isGreaterOrEqual
  le_auto
macro_rules | `(tactic| le_step) => `(tactic| with_reducible apply BitVecValue_isGreaterOrEqual_le)

theorem BitVecValue_isLess_le : ∀ a b, Le (BitVecValue.isLess .debug a b) (BitVecValue.isLess .release a b) := by
  intros
  unfold BitVecValue.isLess
  le_auto
macro_rules | `(tactic| le_step) => `(tactic| with_reducible apply BitVecValue_isLess_le)

theorem BitVecValue_isLessOrEqual_le : ∀ a b, 
    Le (BitVecValue.isLessOrEqual .debug a b) (BitVecValue.isLessOrEqual .release a b) := by
  intros
  unfold BitVecValue.isLessOrEqual
  le_auto
macro_rules | `(tactic| le_step) => `(tactic| with_reducible apply BitVecValue_isLessOrEqual_le)

theorem BitVecValue_isGreaterSigned_le : ∀ a b, 
    Le (BitVecValue.isGreaterSigned .debug a b) (BitVecValue.isGreaterSigned .release a b) := by
  intros
  unfold BitVecValue.isGreaterSigned
  le_auto
macro_rules | `(tactic| le_step) => `(tactic| with_reducible apply BitVecValue_isGreaterSigned_le)

theorem BitVecValue_isGreaterOrEqualSigned_le : ∀ a b, 
    Le (BitVecValue.isGreaterOrEqualSigned .debug a b) (BitVecValue.isGreaterOrEqualSigned .release a b) := by
  intros
  unfold BitVecValue.isGreaterOrEqualSigned
  le_auto
macro_rules | `(tactic| le_step) => `(tactic| with_reducible apply BitVecValue_isGreaterOrEqualSigned_le)

theorem BitVecValue_isLessSigned_le : ∀ a b, 
    Le (BitVecValue.isLessSigned .debug a b) (BitVecValue.isLessSigned .release a b) := by
  intros
  unfold BitVecValue.isLessSigned
  le_auto
macro_rules | `(tactic| le_step) => `(tactic| with_reducible apply BitVecValue_isLessSigned_le)

theorem BitVecValue_isLessOrEqualSigned_le : ∀ a b, 
    Le (BitVecValue.isLessOrEqualSigned .debug a b) (BitVecValue.isLessOrEqualSigned .release a b) := by
  intros
  unfold BitVecValue.isLessOrEqualSigned
  le_auto
macro_rules | `(tactic| le_step) => `(tactic| with_reducible apply BitVecValue_isLessOrEqualSigned_le)

theorem BitVecValue_eqOwned_le : ∀ a b, Le (BitVecValue.eqOwned .debug a b) (BitVecValue.eqOwned .release a b) := by
  intros
  unfold BitVecValue.eqOwned
  le_auto
macro_rules | `(tactic| le_step) => `(tactic| with_reducible apply BitVecValue_eqOwned_le)

theorem BitVecValue_eqRef_le : ∀ a b, Le (BitVecValue.eqRef .debug a b) (BitVecValue.eqRef .release a b) := by
  intros
  unfold BitVecValue.eqRef
  le_auto
macro_rules | `(tactic| le_step) => `(tactic| with_reducible apply BitVecValue_eqRef_le)

theorem BitVecValue_slice_le : ∀ a h l, Le (BitVecValue.slice .debug a h l) (BitVecValue.slice .release a h l) := by
  intros
  unfold BitVecValue.slice
  le_auto
macro_rules | `(tactic| le_step) => `(tactic| with_reducible apply BitVecValue_slice_le)

theorem BitVecValue_signExtend_le : ∀ a n, 
    Le (BitVecValue.signExtend .debug a n) (BitVecValue.signExtend .release a n) := by
  intros
  unfold BitVecValue.signExtend
  le_auto
macro_rules | `(tactic| le_step) => `(tactic| with_reducible apply BitVecValue_signExtend_le)

theorem BitVecValue_zeroExtend_le : ∀ a n, 
    Le (BitVecValue.zeroExtend .debug a n) (BitVecValue.zeroExtend .release a n) := by
  intros
  unfold BitVecValue.zeroExtend
  le_auto
macro_rules | `(tactic| le_step) => `(tactic| with_reducible apply BitVecValue_zeroExtend_le)

theorem BitVecValue_not_le : ∀ a, Le (BitVecValue.not .debug a) (BitVecValue.not .release a) := by
  intros
  unfold BitVecValue.not
  le_auto
macro_rules | `(tactic| le_step) => `(tactic| with_reducible apply BitVecValue_not_le)

theorem BitVecValue_negate_le : ∀ a, Le (BitVecValue.negate .debug a) (BitVecValue.negate .release a) := by
  intros
  unfold BitVecValue.negate
  le_auto
macro_rules | `(tactic| le_step) => `(tactic| with_reducible apply BitVecValue_negate_le)

theorem BitVecValue_concat_le : ∀ a b, Le (BitVecValue.concat .debug a b) (BitVecValue.concat .release a b) := by
  intros
  unfold BitVecValue.concat
  le_auto
macro_rules | `(tactic| le_step) => `(tactic| with_reducible apply BitVecValue_concat_le)

theorem BitVecValue_toI64_le : ∀ a, Le (BitVecValue.toI64 .debug a) (BitVecValue.toI64 .release a) := by
  intros
  unfold BitVecValue.toI64
  le_auto
macro_rules | `(tactic| le_step) => `(tactic| with_reducible apply BitVecValue_toI64_le)

theorem BitVecValue_isNegative_le : ∀ a, Le (BitVecValue.isNegative .debug a) (BitVecValue.isNegative .release a) := by
  intros
  unfold BitVecValue.isNegative
  le_auto
macro_rules | `(tactic| le_step) => `(tactic| with_reducible apply BitVecValue_isNegative_le)

theorem BitVecValue_toUnsignedFixedPoint_le : ∀ a n, 
    Le (BitVecValue.toUnsignedFixedPoint .debug a n) (BitVecValue.toUnsignedFixedPoint .release a n) := by
  intros
  unfold BitVecValue.toUnsignedFixedPoint
  le_auto
macro_rules | `(tactic| le_step) => `(tactic| with_reducible apply BitVecValue_toUnsignedFixedPoint_le)

theorem BitVecValue_toSignedFixedPoint_le : ∀ a n, 
    Le (BitVecValue.toSignedFixedPoint .debug a n) (BitVecValue.toSignedFixedPoint .release a n) := by
  intros
  unfold BitVecValue.toSignedFixedPoint
  le_auto
macro_rules | `(tactic| le_step) => `(tactic| with_reducible apply BitVecValue_toSignedFixedPoint_le)

theorem BitVecValue_toBitStrSigned_le : ∀ a, 
    Le (BitVecValue.toBitStrSigned .debug a) (BitVecValue.toBitStrSigned .release a) := by
  intros
  unfold BitVecValue.toBitStrSigned
  le_auto
macro_rules | `(tactic| le_step) => `(tactic| with_reducible apply BitVecValue_toBitStrSigned_le)

theorem BitVecValue_toHexStr_le : ∀ a, Le (BitVecValue.toHexStr .debug a) (BitVecValue.toHexStr .release a) := by
  intros
  unfold BitVecValue.toHexStr
  le_auto
macro_rules | `(tactic| le_step) => `(tactic| with_reducible apply BitVecValue_toHexStr_le)

theorem BitVecValue_toDecStr_le : ∀ a, Le (BitVecValue.toDecStr .debug a) (BitVecValue.toDecStr .release a) := by
  intros
  unfold BitVecValue.toDecStr
  le_auto
macro_rules | `(tactic| le_step) => `(tactic| with_reducible apply BitVecValue_toDecStr_le)

theorem BitVecValue_toHexStrSigned_le : ∀ a, 
    Le (BitVecValue.toHexStrSigned .debug a) (BitVecValue.toHexStrSigned .release a) := by
  intros
  unfold BitVecValue.toHexStrSigned
  le_auto
macro_rules | `(tactic| le_step) => `(tactic| with_reducible apply BitVecValue_toHexStrSigned_le)

theorem BitVecValue_toBigInt_le : ∀ a, Le (BitVecValue.toBigInt .debug a) (BitVecValue.toBigInt .release a) := by
  intros
  unfold BitVecValue.toBigInt
  le_auto
macro_rules | `(tactic| le_step) => `(tactic| with_reducible apply BitVecValue_toBigInt_le)

theorem BitVecValue_assign_le : ∀ a b, Le (BitVecValue.assign .debug a b) (BitVecValue.assign .release a b) := by
  intros
  unfold BitVecValue.assign
  le_auto
macro_rules | `(tactic| le_step) => `(tactic| with_reducible apply BitVecValue_assign_le)

theorem BitVecValue_maskMsb_le : ∀ a, Le (BitVecValue.maskMsb .debug a) (BitVecValue.maskMsb .release a) := by
  intros
  unfold BitVecValue.maskMsb
  le_auto
macro_rules | `(tactic| le_step) => `(tactic| with_reducible apply BitVecValue_maskMsb_le)

theorem BitVecValue_assignOnes_le : ∀ a, Le (BitVecValue.assignOnes .debug a) (BitVecValue.assignOnes .release a) := by
  intros
  unfold BitVecValue.assignOnes
  le_auto
macro_rules | `(tactic| le_step) => `(tactic| with_reducible apply BitVecValue_assignOnes_le)

theorem BitVecValue_assignFromU64_le : ∀ a v, 
    Le (BitVecValue.assignFromU64 .debug a v) (BitVecValue.assignFromU64 .release a v) := by
  intros
  unfold BitVecValue.assignFromU64
  le_auto
macro_rules | `(tactic| le_step) => `(tactic| with_reducible apply BitVecValue_assignFromU64_le)

theorem BitVecValue_checkI64_le : ∀ a v, Le (BitVecValue.checkI64 .debug a v) (BitVecValue.checkI64 .release a v) := by
  intros
  exact ⟨fun _ _ => rfl⟩
macro_rules | `(tactic| le_step) => `(tactic| with_reducible apply BitVecValue_checkI64_le)

theorem BitVecValue_assignFromI64_le : ∀ a v, 
    Le (BitVecValue.assignFromI64 .debug a v) (BitVecValue.assignFromI64 .release a v) := by
  intros
  unfold BitVecValue.assignFromI64
  le_auto
macro_rules | `(tactic| le_step) => `(tactic| with_reducible apply BitVecValue_assignFromI64_le)

theorem BitVecValue_assignFromStrRadix_le : ∀ a v r, 
    Le (BitVecValue.assignFromStrRadix .debug a v r) (BitVecValue.assignFromStrRadix .release a v r) := by
  intros
  unfold BitVecValue.assignFromStrRadix
  le_auto
macro_rules | `(tactic| le_step) => `(tactic| with_reducible apply BitVecValue_assignFromStrRadix_le)

theorem BitVecValue_ones_le : ∀ w, Le (BitVecValue.ones .debug w) (BitVecValue.ones .release w) := by
  intros
  unfold BitVecValue.ones
  le_auto
macro_rules | `(tactic| le_step) => `(tactic| with_reducible apply BitVecValue_ones_le)

theorem BitVecValue_fromStrRadix_le : ∀ v r w, 
    Le (BitVecValue.fromStrRadix .debug v r w) (BitVecValue.fromStrRadix .release v r w) := by
  intros
  unfold BitVecValue.fromStrRadix
  le_auto
macro_rules | `(tactic| le_step) => `(tactic| with_reducible apply BitVecValue_fromStrRadix_le)

theorem BitVecValue_fromBitStr_le : ∀ v, Le (BitVecValue.fromBitStr .debug v) (BitVecValue.fromBitStr .release v) := by
  intros
  unfold BitVecValue.fromBitStr
  le_auto
macro_rules | `(tactic| le_step) => `(tactic| with_reducible apply BitVecValue_fromBitStr_le)

theorem BitVecValue_fromHexStr_le : ∀ v, Le (BitVecValue.fromHexStr .debug v) (BitVecValue.fromHexStr .release v) := by
  intros
  unfold BitVecValue.fromHexStr
  le_auto
macro_rules | `(tactic| le_step) => `(tactic| with_reducible apply BitVecValue_fromHexStr_le)

theorem BitVecValue_fromU64_le : ∀ v w, Le (BitVecValue.fromU64 .debug v w) (BitVecValue.fromU64 .release v w) := by
  intros
  unfold BitVecValue.fromU64
  le_auto
macro_rules | `(tactic| le_step) => `(tactic| with_reducible apply BitVecValue_fromU64_le)

theorem BitVecValue_fromI64_le : ∀ v w, Le (BitVecValue.fromI64 .debug v w) (BitVecValue.fromI64 .release v w) := by
  intros
  unfold BitVecValue.fromI64
  le_auto
macro_rules | `(tactic| le_step) => `(tactic| with_reducible apply BitVecValue_fromI64_le)

theorem BitVecValue_tru_le : Le (BitVecValue.tru .debug) (BitVecValue.tru .release) := by
  unfold BitVecValue.tru
  le_auto
macro_rules | `(tactic| le_step) => `(tactic| with_reducible apply BitVecValue_tru_le)

theorem BitVecValue_fals_le : Le (BitVecValue.fals .debug) (BitVecValue.fals .release) := by
  unfold BitVecValue.fals
  le_auto
macro_rules | `(tactic| le_step) => `(tactic| with_reducible apply BitVecValue_fals_le)

theorem BitVecValue_fromBool_le : ∀ b, Le (BitVecValue.fromBool .debug b) (BitVecValue.fromBool .release b) := by
  intros
  unfold BitVecValue.fromBool
  le_auto
macro_rules | `(tactic| le_step) => `(tactic| with_reducible apply BitVecValue_fromBool_le)

theorem BitVecValue_fromBytesLe_le : ∀ b n, 
    Le (BitVecValue.fromBytesLe .debug b n) (BitVecValue.fromBytesLe .release b n) := by
  intros
  unfold BitVecValue.fromBytesLe
  le_auto
macro_rules | `(tactic| le_step) => `(tactic| with_reducible apply BitVecValue_fromBytesLe_le)

theorem BitVecValue_fromBigInt_le : ∀ v n, 
    Le (BitVecValue.fromBigInt .debug v n) (BitVecValue.fromBigInt .release v n) := by
  intros
  unfold BitVecValue.fromBigInt
  le_auto
macro_rules | `(tactic| le_step) => `(tactic| with_reducible apply BitVecValue_fromBigInt_le)

theorem BitVecValue_fromBigUint_le : ∀ v n, 
    Le (BitVecValue.fromBigUint .debug v n) (BitVecValue.fromBigUint .release v n) := by
  intros
  unfold BitVecValue.fromBigUint
  le_auto
macro_rules | `(tactic| le_step) => `(tactic| with_reducible apply BitVecValue_fromBigUint_le)

theorem BitVecValue_ofBigInt_le : ∀ v, Le (BitVecValue.ofBigInt .debug v) (BitVecValue.ofBigInt .release v) := by
  intros
  unfold BitVecValue.ofBigInt
  le_auto
macro_rules | `(tactic| le_step) => `(tactic| with_reducible apply BitVecValue_ofBigInt_le)

theorem BitVecValue_ofBigUint_le : ∀ v, Le (BitVecValue.ofBigUint .debug v) (BitVecValue.ofBigUint .release v) := by
  intros
  unfold BitVecValue.ofBigUint
  le_auto
macro_rules | `(tactic| le_step) => `(tactic| with_reducible apply BitVecValue_ofBigUint_le)

theorem Indexed_assignAt_le : ∀ d a v, Le (Indexed.assignAt .debug d a v) (Indexed.assignAt .release d a v) := by
  intros
  unfold Indexed.assignAt
  le_auto
macro_rules | `(tactic| le_step) => `(tactic| with_reducible apply Indexed_assignAt_le)

theorem Indexed_assignFrom_le : ∀ d a b, Le (Indexed.assignFrom .debug d a b) (Indexed.assignFrom .release d a b) := by
  intros
  unfold Indexed.assignFrom
  le_auto
macro_rules | `(tactic| le_step) => `(tactic| with_reducible apply Indexed_assignFrom_le)

theorem ValueInterner_getIndex_le : ∀ s v, 
    Le (ValueInterner.getIndex .debug s v) (ValueInterner.getIndex .release s v) := by
  intros
  unfold ValueInterner.getIndex
  le_auto
macro_rules | `(tactic| le_step) => `(tactic| with_reducible apply ValueInterner_getIndex_le)

theorem numElements_le : ∀ w, Le (numElements .debug w) (numElements .release w) := by
  intros
  unfold numElements
  le_auto
macro_rules | `(tactic| le_step) => `(tactic| with_reducible apply numElements_le)

theorem compareKeys_le : ∀ key ks, Le (compareKeys .debug key ks) (compareKeys .release key ks) := by
  intro key ks
  induction ks with
  | nil => exact Le.refl _
  | cons k ks ih =>
    unfold compareKeys
    refine Le.bind (by le_auto) fun _ => ih
macro_rules | `(tactic| le_step) => `(tactic| with_reducible apply compareKeys_le)

theorem lookupOwned_le {V : Type} : ∀ env (map : HMap BitVecValue V) key,
    Le (lookupOwned .debug env map key) (lookupOwned .release env map key) := by
  intros
  unfold lookupOwned
  le_auto
macro_rules | `(tactic| le_step) => `(tactic| with_reducible apply lookupOwned_le)

theorem eqEntries_le {K : Type} [DecidableEq K] {l l' : K → Res Unit} (hl : ∀ k, Le (l k) (l' k)) :
    ∀ (other : HMap K BitVecValue) es, Le (eqEntries .debug l other es) (eqEntries .release l' other es) := by
  intro other es
  induction es with
  | nil => exact Le.refl _
  | cons e es ih =>
    unfold eqEntries
    refine Le.bind (hl _) fun _ => ?_
    cases other.get e.1 with
    | none => exact Le.refl _
    | some v =>
      refine Le.bind (by le_auto) fun b => ?_
      cases b
      · exact Le.refl _
      · exact ih

theorem eqMaps_le {K : Type} [DecidableEq K] {l l' : K → Res Unit} (hl : ∀ k, Le (l k) (l' k)) :
    ∀ env (a b : HMap K BitVecValue), Le (eqMaps .debug env l a b) (eqMaps .release env l' a b) := by
  intro env a b
  unfold eqMaps
  split
  · exact eqEntries_le hl _ _
  · exact Le.refl _

theorem eqMaps_word_le : ∀ env (a b : HMap Word BitVecValue),
    Le (eqMaps .debug env (fun _ => ok ()) a b) (eqMaps .release env (fun _ => ok ()) a b) := eqMaps_le fun _ => Le.refl _
macro_rules | `(tactic| le_step) => `(tactic| with_reducible apply eqMaps_word_le)

theorem eqMaps_value_le : ∀ env (a b : HMap BitVecValue BitVecValue),
    Le (eqMaps .debug env (lookupOwned .debug env b) a b) (eqMaps .release env (lookupOwned .release env b) a b) :=
  fun env a b => eqMaps_le (fun k => lookupOwned_le env b k) env a b
macro_rules | `(tactic| le_step) => `(tactic| with_reducible apply eqMaps_value_le)

theorem SparseArrayValue_isEqual_le : ∀ env a b,
    Le (SparseArrayValue.isEqual .debug env a b) (SparseArrayValue.isEqual .release env a b) := by
  intros
  unfold SparseArrayValue.isEqual
  le_auto
macro_rules | `(tactic| le_step) => `(tactic| with_reducible apply SparseArrayValue_isEqual_le)

theorem SparseArrayValue_default_le : ∀ a, 
    Le (SparseArrayValue.default .debug a) (SparseArrayValue.default .release a) := by
  intros
  unfold SparseArrayValue.default
  le_auto
macro_rules | `(tactic| le_step) => `(tactic| with_reducible apply SparseArrayValue_default_le)

theorem SparseArrayValue_storeU64Big_le : ∀ a i d, 
    Le (SparseArrayValue.storeU64Big .debug a i d) (SparseArrayValue.storeU64Big .release a i d) := by
  intros
  unfold SparseArrayValue.storeU64Big
  le_auto
macro_rules | `(tactic| le_step) => `(tactic| with_reducible apply SparseArrayValue_storeU64Big_le)

theorem SparseArrayValue_select_le : ∀ e a i, 
    Le (SparseArrayValue.select .debug e a i) (SparseArrayValue.select .release e a i) := by
  intros
  unfold SparseArrayValue.select
  le_auto
macro_rules | `(tactic| le_step) => `(tactic| with_reducible apply SparseArrayValue_select_le)

theorem SparseArrayValue_store_le : ∀ e a i d, 
    Le (SparseArrayValue.store .debug e a i d) (SparseArrayValue.store .release e a i d) := by
  intros
  unfold SparseArrayValue.store
  le_auto
macro_rules | `(tactic| le_step) => `(tactic| with_reducible apply SparseArrayValue_store_le)

theorem SparseArrayValue_mapRes_le {α β : Type} {f f' : α → Res β} (h : ∀ a, Le (f a) (f' a)) :
    ∀ l, Le (SparseArrayValue.mapRes f l) (SparseArrayValue.mapRes f' l)
  | [] => Le.refl _
  | x :: xs => by
    have ih := SparseArrayValue_mapRes_le h xs
    unfold SparseArrayValue.mapRes
    repeat' (first | exact ih | apply h | le_step)
macro_rules | `(tactic| le_step) => `(tactic| with_reducible apply SparseArrayValue_mapRes_le)

theorem SparseArrayValue_nonDefaultEntries_le : ∀ e a, 
    Le (SparseArrayValue.nonDefaultEntries .debug e a) (SparseArrayValue.nonDefaultEntries .release e a) := by
  intros
  unfold SparseArrayValue.nonDefaultEntries
  le_auto
macro_rules | `(tactic| le_step) => `(tactic| with_reducible apply SparseArrayValue_nonDefaultEntries_le)

theorem DenseArrayValue_approxStorageSize_le : ∀ i d, 
    Le (DenseArrayValue.approxStorageSize .debug i d) (DenseArrayValue.approxStorageSize .release i d) := by
  intros
  unfold DenseArrayValue.approxStorageSize
  le_auto
macro_rules | `(tactic| le_step) => `(tactic| with_reducible apply DenseArrayValue_approxStorageSize_le)

theorem DenseArrayValue_new_le : ∀ i d, Le (DenseArrayValue.new .debug i d) (DenseArrayValue.new .release i d) := by
  intros
  unfold DenseArrayValue.new
  dsimp only
  repeat' le_step
  rename_i d _ _ _ _ _ _
  cases d.isFals with
  | panic p => exact Le.of_panic _ _
  | ok f =>
    cases f with
    | true => exact Le.refl _
    | false => exact Le.of_panic _ _
macro_rules | `(tactic| le_step) => `(tactic| with_reducible apply DenseArrayValue_new_le)

theorem DenseArrayValue_ofBools_le : ∀ v, 
    Le (DenseArrayValue.ofBools .debug v) (DenseArrayValue.ofBools .release v) := by
  intros
  unfold DenseArrayValue.ofBools
  le_auto
macro_rules | `(tactic| le_step) => `(tactic| with_reducible apply DenseArrayValue_ofBools_le)

theorem DenseArrayValue_ofU8s_le : ∀ v, Le (DenseArrayValue.ofU8s .debug v) (DenseArrayValue.ofU8s .release v) := by
  intros
  unfold DenseArrayValue.ofU8s
  le_auto
macro_rules | `(tactic| le_step) => `(tactic| with_reducible apply DenseArrayValue_ofU8s_le)

theorem DenseArrayValue_ofU64s_le : ∀ v, Le (DenseArrayValue.ofU64s .debug v) (DenseArrayValue.ofU64s .release v) := by
  intros
  unfold DenseArrayValue.ofU64s
  le_auto
macro_rules | `(tactic| le_step) => `(tactic| with_reducible apply DenseArrayValue_ofU64s_le)

theorem DenseArrayValue_isEqual_le : ∀ a b, 
    Le (DenseArrayValue.isEqual .debug a b) (DenseArrayValue.isEqual .release a b) := by
  intros
  unfold DenseArrayValue.isEqual
  le_auto
macro_rules | `(tactic| le_step) => `(tactic| with_reducible apply DenseArrayValue_isEqual_le)

theorem DenseArrayValue_selectUsize_le : ∀ a i, 
    Le (DenseArrayValue.selectUsize .debug a i) (DenseArrayValue.selectUsize .release a i) := by
  intros
  unfold DenseArrayValue.selectUsize
  le_auto
macro_rules | `(tactic| le_step) => `(tactic| with_reducible apply DenseArrayValue_selectUsize_le)

theorem DenseArrayValue_select_le : ∀ a i, 
    Le (DenseArrayValue.select .debug a i) (DenseArrayValue.select .release a i) := by
  intros
  unfold DenseArrayValue.select
  le_auto
macro_rules | `(tactic| le_step) => `(tactic| with_reducible apply DenseArrayValue_select_le)

theorem DenseArrayValue_store_le : ∀ a i d, 
    Le (DenseArrayValue.store .debug a i d) (DenseArrayValue.store .release a i d) := by
  intros
  unfold DenseArrayValue.store
  le_auto
macro_rules | `(tactic| le_step) => `(tactic| with_reducible apply DenseArrayValue_store_le)

theorem DenseArrayValue_putU64_le : ∀ d i v, 
    Le (DenseArrayValue.putU64 .debug d i v) (DenseArrayValue.putU64 .release d i v) := by
  intros
  unfold DenseArrayValue.putU64
  le_auto
macro_rules | `(tactic| le_step) => `(tactic| with_reducible apply DenseArrayValue_putU64_le)

theorem DenseArrayValue_putAllU64_le : ∀ l d, Le (DenseArrayValue.putAllU64 .debug d l) (DenseArrayValue.putAllU64 .release d l) := by
  intro l
  induction l with
  | nil => intros; exact Le.refl _
  | cons c cs ih =>
    intros
    unfold DenseArrayValue.putAllU64
    repeat' (first | apply ih | le_step)
macro_rules | `(tactic| le_step) => `(tactic| with_reducible apply DenseArrayValue_putAllU64_le)

theorem DenseArrayValue_putAllBig_le : ∀ l d b, Le (DenseArrayValue.putAllBig .debug d b l) (DenseArrayValue.putAllBig .release d b l) := by
  intro l
  induction l with
  | nil => intros; exact Le.refl _
  | cons c cs ih =>
    intros
    unfold DenseArrayValue.putAllBig
    repeat' (first | apply ih | le_step)
macro_rules | `(tactic| le_step) => `(tactic| with_reducible apply DenseArrayValue_putAllBig_le)

theorem DenseArrayValue_ofSparse_le : ∀ e v, 
    Le (DenseArrayValue.ofSparse .debug e v) (DenseArrayValue.ofSparse .release e v) := by
  intros
  unfold DenseArrayValue.ofSparse
  le_auto
macro_rules | `(tactic| le_step) => `(tactic| with_reducible apply DenseArrayValue_ofSparse_le)

theorem DenseArrayValue_selectAll_le (a : DenseArrayValue) : ∀ n i, Le (DenseArrayValue.selectAll .debug a i n) (DenseArrayValue.selectAll .release a i n) := by
  intro n
  induction n with
  | zero => intros; exact Le.refl _
  | succ n ih =>
    intros
    unfold DenseArrayValue.selectAll
    repeat' (first | apply ih | le_step)
macro_rules | `(tactic| le_step) => `(tactic| with_reducible apply DenseArrayValue_selectAll_le)

theorem DenseArrayValue_storeBigs_le (d : BitVecValue) : ∀ l i o, Le (DenseArrayValue.storeBigs .debug d i l o) (DenseArrayValue.storeBigs .release d i l o) := by
  intro l
  induction l with
  | nil => intros; exact Le.refl _
  | cons c cs ih =>
    intros
    unfold DenseArrayValue.storeBigs
    repeat' (first | apply ih | le_step)
macro_rules | `(tactic| le_step) => `(tactic| with_reducible apply DenseArrayValue_storeBigs_le)

theorem DenseArrayValue_toSparse_le : ∀ e v, 
    Le (DenseArrayValue.toSparse .debug e v) (DenseArrayValue.toSparse .release e v) := by
  intros
  unfold DenseArrayValue.toSparse
  le_auto
macro_rules | `(tactic| le_step) => `(tactic| with_reducible apply DenseArrayValue_toSparse_le)

theorem isEqualMixed_le : ∀ e d s, Le (isEqualMixed .debug e d s) (isEqualMixed .release e d s) := by
  intros
  unfold isEqualMixed
  le_auto
macro_rules | `(tactic| le_step) => `(tactic| with_reducible apply isEqualMixed_le)

theorem ArrayValue_newDense_le : ∀ i d, Le (ArrayValue.newDense .debug i d) (ArrayValue.newDense .release i d) := by
  intros
  unfold ArrayValue.newDense
  le_auto
macro_rules | `(tactic| le_step) => `(tactic| with_reducible apply ArrayValue_newDense_le)

theorem ArrayValue_makeDense_le : ∀ e a, Le (ArrayValue.makeDense .debug e a) (ArrayValue.makeDense .release e a) := by
  intros
  unfold ArrayValue.makeDense
  le_auto
macro_rules | `(tactic| le_step) => `(tactic| with_reducible apply ArrayValue_makeDense_le)

theorem ArrayValue_isEqual_le : ∀ e a b, Le (ArrayValue.isEqual .debug e a b) (ArrayValue.isEqual .release e a b) := by
  intros
  unfold ArrayValue.isEqual
  le_auto
macro_rules | `(tactic| le_step) => `(tactic| with_reducible apply ArrayValue_isEqual_le)

theorem ArrayValue_eq_le : ∀ e a b, Le (ArrayValue.eq .debug e a b) (ArrayValue.eq .release e a b) := by
  intros
  unfold ArrayValue.eq
  le_auto
macro_rules | `(tactic| le_step) => `(tactic| with_reducible apply ArrayValue_eq_le)

theorem ArrayValue_toSparse_le : ∀ e a, Le (ArrayValue.toSparse .debug e a) (ArrayValue.toSparse .release e a) := by
  intros
  unfold ArrayValue.toSparse
  le_auto
macro_rules | `(tactic| le_step) => `(tactic| with_reducible apply ArrayValue_toSparse_le)

theorem ArrayValue_ofBools_le : ∀ v, Le (ArrayValue.ofBools .debug v) (ArrayValue.ofBools .release v) := by
  intros
  unfold ArrayValue.ofBools
  le_auto
macro_rules | `(tactic| le_step) => `(tactic| with_reducible apply ArrayValue_ofBools_le)

theorem ArrayValue_ofU8s_le : ∀ v, Le (ArrayValue.ofU8s .debug v) (ArrayValue.ofU8s .release v) := by
  intros
  unfold ArrayValue.ofU8s
  le_auto
macro_rules | `(tactic| le_step) => `(tactic| with_reducible apply ArrayValue_ofU8s_le)

theorem ArrayValue_ofU64s_le : ∀ v, Le (ArrayValue.ofU64s .debug v) (ArrayValue.ofU64s .release v) := by
  intros
  unfold ArrayValue.ofU64s
  le_auto
macro_rules | `(tactic| le_step) => `(tactic| with_reducible apply ArrayValue_ofU64s_le)

theorem ArrayValue_select_le : ∀ e a i, Le (ArrayValue.select .debug e a i) (ArrayValue.select .release e a i) := by
  intros
  unfold ArrayValue.select
  le_auto
macro_rules | `(tactic| le_step) => `(tactic| with_reducible apply ArrayValue_select_le)

theorem ArrayValue_store_le : ∀ e a i d, Le (ArrayValue.store .debug e a i d) (ArrayValue.store .release e a i d) := by
  intros
  unfold ArrayValue.store
  le_auto
macro_rules | `(tactic| le_step) => `(tactic| with_reducible apply ArrayValue_store_le)

theorem Serde_loadFields_le {α : Type} {l l' : Serde → Res (Option α)} (hl : ∀ d, Le (l d) (l' d)) :
    ∀ fs iw dw data, Le (Serde.loadFields l iw dw data fs) (Serde.loadFields l' iw dw data fs) := by
  intro fs
  induction fs with
  | nil => exact fun _ _ _ => Le.refl _
  | cons f fs ih =>
    intro iw dw data
    unfold Serde.loadFields
    refine Le.ite (fun _ => Le.ite (fun _ => Le.refl _) fun _ => ?_) fun _ => Le.ite (fun _ => Le.ite (fun _ => Le.refl _) fun _ => ?_)
      fun _ => Le.ite (fun _ => Le.ite (fun _ => Le.refl _) fun _ => ?_) fun _ => ih _ _ _
    · cases Serde.readNum U32 f.2 with
      | none => exact Le.refl _
      | some n => exact ih _ _ _
    · cases Serde.readNum U32 f.2 with
      | none => exact Le.refl _
      | some n => exact ih _ _ _
    · refine Le.bind (hl _) fun r => ?_
      cases r with
      | none => exact Le.refl _
      | some x => exact ih _ _ _

theorem Serde_loadArrayFields_le {α : Type} {l l' : Serde → Res (Option α)} (hl : ∀ d, Le (l d) (l' d)) (d : Serde) :
    Le (Serde.loadArrayFields l d) (Serde.loadArrayFields l' d) := by
  unfold Serde.loadArrayFields
  split
  · exact Serde_loadFields_le hl _ _ _ _
  · split
    · exact Le.refl _
    · split
      · exact Le.refl _
      · exact Le.bind (hl _) fun _ => Le.refl _
  · exact Le.refl _

theorem Serde_loadEntries_le : ∀ env es acc, Le (Serde.loadEntries .debug env acc es) (Serde.loadEntries .release env acc es) := by
  intro env es
  induction es with
  | nil => exact fun _ => Le.refl _
  | cons e es ih =>
    intro acc
    unfold Serde.loadEntries
    split
    · exact Le.refl _
    · split
      · exact Le.refl _
      · exact Le.bind (lookupOwned_le _ _ _) fun _ => ih _

theorem Serde_loadSparseImpl_le : ∀ env d, Le (Serde.loadSparseImpl .debug env d) (Serde.loadSparseImpl .release env d) := by
  intro env d
  unfold Serde.loadSparseImpl
  split
  · split
    · split
      · exact Le.refl _
      · refine Le.bind ?_ fun _ => Le.refl _
        unfold Serde.loadHMap
        split
        · exact Serde_loadEntries_le _ _ _
        · exact Le.refl _
    · exact Le.refl _
  · exact Le.refl _

theorem Serde_loadArrayImpl_le : ∀ env d, Le (Serde.loadArrayImpl .debug env d) (Serde.loadArrayImpl .release env d) := by
  intro env d
  unfold Serde.loadArrayImpl Serde.loadSparse
  split
  · exact Le.ite (fun _ => Le.bind (Le.bind (Serde_loadArrayFields_le (Serde_loadSparseImpl_le env) _) fun _ => Le.refl _) fun _ => Le.refl _)
      fun _ => Le.refl _
  · exact Le.refl _

theorem Serde_loadOuter_le : ∀ env fs data, Le (Serde.loadOuter .debug env data fs) (Serde.loadOuter .release env data fs) := by
  intro env fs
  induction fs with
  | nil => exact fun _ => Le.refl _
  | cons f fs ih =>
    intro data
    unfold Serde.loadOuter
    refine Le.ite (fun _ => Le.ite (fun _ => Le.refl _) fun _ => ?_) fun _ => ih _
    refine Le.bind (Serde_loadArrayImpl_le env _) fun r => ?_
    cases r with
    | none => exact Le.refl _
    | some x => exact ih _

theorem Serde_loadArray_le : ∀ env d, Le (Serde.loadArray .debug env d) (Serde.loadArray .release env d) := by
  intro env d
  unfold Serde.loadArray
  split
  · exact Serde_loadOuter_le _ _ _
  · exact Le.bind (Serde_loadArrayImpl_le _ _) fun _ => Le.refl _
  · exact Le.refl _
macro_rules | `(tactic| le_step) => `(tactic| with_reducible apply Serde_loadArray_le)

end Baa
