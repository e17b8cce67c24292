import Verif.Model.Profiles
import Verif.Proofs.Modes

/-!
# Turning off a switch of the build profile: every function is monotone

The lemmas of `Proofs/Modes.lean` for all profiles.
-/

namespace Baa
open Res

/-- Every switch that is on in `q` is on in `p`. -/
class Profile.Stronger (p q : Profile) : Prop where
  asserts : q.asserts = true → p.asserts = true
  checks : q.checks = true → p.checks = true

namespace Profiled

/-- One step of a monotonicity proof; extended by one rule per proved function. -/
syntax "pf_step" : tactic
macro_rules | `(tactic| pf_step) => `(tactic| split)
macro_rules | `(tactic| pf_step) => `(tactic| intro _)
macro_rules | `(tactic| pf_step) => `(tactic| with_reducible apply Le.bind)
macro_rules | `(tactic| pf_step) => `(tactic| with_reducible apply Le.ite)
macro_rules | `(tactic| pf_step) => `(tactic| with_reducible exact Le.of_panic _ _)
macro_rules | `(tactic| pf_step) => `(tactic| with_reducible exact Le.refl _)

/-- Structural monotonicity proof. -/
macro "pf_auto" : tactic => `(tactic| repeat' pf_step)

variable {p q : Profile} [h : p.Stronger q]

theorem checked_le {α : Type} (x : Res α) (e : Panic) : Le (if p.checks then Res.panic e else x) (if q.checks then Res.panic e else x) := by
  have := h.checks
  cases hp : p.checks <;> cases hq : q.checks
  · exact Le.refl _
  · rw [hp, hq] at this; exact absurd (this rfl) (by decide)
  · exact Le.of_panic _ _
  · exact Le.refl _

theorem asserted_le {x : Res Unit} {y : Res Unit} (hx : ∀ r, x = ok r → y = ok r) :
    Le (if p.asserts then x else ok ()) (if q.asserts then y else ok ()) := by
  have := h.asserts
  cases hp : p.asserts <;> cases hq : q.asserts
  · exact Le.refl _
  · rw [hp, hq] at this; exact absurd (this rfl) (by decide)
  · exact ⟨fun _ _ => rfl⟩
  · exact ⟨hx⟩

theorem debugAssert_le : ∀ b, Le (debugAssert p b) (debugAssert q b) := by
  intro b
  unfold debugAssert
  have := h.asserts
  cases hp : p.asserts <;> cases hq : q.asserts <;> cases b
  all_goals first | exact Le.refl _ | exact Le.of_panic _ _ | (rw [hp, hq] at this; exact absurd (this rfl) (by decide))
macro_rules | `(tactic| pf_step) => `(tactic| with_reducible apply debugAssert_le)

theorem addC_le : ∀ M a b, Le (addC p M a b) (addC q M a b) := by
  intro M a b
  unfold addC
  exact Le.ite (fun _ => Le.refl _) (fun _ => checked_le _ _)
macro_rules | `(tactic| pf_step) => `(tactic| with_reducible apply addC_le)

theorem subC_le : ∀ M a b, Le (subC p M a b) (subC q M a b) := by
  intro M a b
  unfold subC
  exact Le.ite (fun _ => Le.refl _) (fun _ => checked_le _ _)
macro_rules | `(tactic| pf_step) => `(tactic| with_reducible apply subC_le)

theorem mulC_le : ∀ M a b, Le (mulC p M a b) (mulC q M a b) := by
  intro M a b
  unfold mulC
  exact Le.ite (fun _ => Le.refl _) (fun _ => checked_le _ _)
macro_rules | `(tactic| pf_step) => `(tactic| with_reducible apply mulC_le)

theorem shiftAmount64_le : ∀ n, Le (shiftAmount64 p n) (shiftAmount64 q n) := by
  intro n
  unfold shiftAmount64
  exact Le.ite (fun _ => Le.refl _) (fun _ => checked_le _ _)
macro_rules | `(tactic| pf_step) => `(tactic| with_reducible apply shiftAmount64_le)

macro_rules | `(tactic| pf_step) => `(tactic| with_reducible apply Baa.modifyRange_le)

theorem Arith_maskMsb_le : ∀ dst w, Le (Arith.maskMsb p dst w) (Arith.maskMsb q dst w) := by
  intros
  unfold Arith.maskMsb
  pf_auto
macro_rules | `(tactic| pf_step) => `(tactic| with_reducible apply Arith_maskMsb_le)

theorem Arith_isNeg_le : ∀ s w, Le (Arith.isNeg p s w) (Arith.isNeg q s w) := by
  intros
  unfold Arith.isNeg
  pf_auto
macro_rules | `(tactic| pf_step) => `(tactic| with_reducible apply Arith_isNeg_le)

theorem Arith_signExtend_le : ∀ d s a b, Le (Arith.signExtend p d s a b) (Arith.signExtend q d s a b) := by
  intros
  unfold Arith.signExtend
  pf_auto
macro_rules | `(tactic| pf_step) => `(tactic| with_reducible apply Arith_signExtend_le)

theorem Arith_slice_le : ∀ d s h l, Le (Arith.slice p d s h l) (Arith.slice q d s h l) := by
  intros
  unfold Arith.slice
  pf_auto
macro_rules | `(tactic| pf_step) => `(tactic| with_reducible apply Arith_slice_le)

theorem Arith_concat_le : ∀ d a b w, Le (Arith.concat p d a b w) (Arith.concat q d a b w) := by
  intros
  unfold Arith.concat
  pf_auto
macro_rules | `(tactic| pf_step) => `(tactic| with_reducible apply Arith_concat_le)

theorem Arith_not_le : ∀ d s w, Le (Arith.not p d s w) (Arith.not q d s w) := by
  intros
  unfold Arith.not
  pf_auto
macro_rules | `(tactic| pf_step) => `(tactic| with_reducible apply Arith_not_le)

theorem Arith_add_le : ∀ d a b w, Le (Arith.add p d a b w) (Arith.add q d a b w) := by
  intros
  unfold Arith.add
  pf_auto
macro_rules | `(tactic| pf_step) => `(tactic| with_reducible apply Arith_add_le)

theorem Arith_sub_le : ∀ d a b w, Le (Arith.sub p d a b w) (Arith.sub q d a b w) := by
  intros
  unfold Arith.sub
  pf_auto
macro_rules | `(tactic| pf_step) => `(tactic| with_reducible apply Arith_sub_le)

omit h in
theorem Arith_mul_le : ∀ d a b w, Le (Arith.mul p d a b w) (Arith.mul q d a b w) := by
  intros
  unfold Arith.mul
  pf_auto
macro_rules | `(tactic| pf_step) => `(tactic| with_reducible apply Arith_mul_le)

theorem Arith_shiftRight_le : ∀ d a b w, Le (Arith.shiftRight p d a b w) (Arith.shiftRight q d a b w) := by
  intros
  unfold Arith.shiftRight
  pf_auto
macro_rules | `(tactic| pf_step) => `(tactic| with_reducible apply Arith_shiftRight_le)

theorem Arith_arithmeticShiftRight_le : ∀ d a b w, 
    Le (Arith.arithmeticShiftRight p d a b w) (Arith.arithmeticShiftRight q d a b w) := by
  intros
  unfold Arith.arithmeticShiftRight
  pf_auto
macro_rules | `(tactic| pf_step) => `(tactic| with_reducible apply Arith_arithmeticShiftRight_le)

theorem Arith_shiftLeft_le : ∀ d a b w, Le (Arith.shiftLeft p d a b w) (Arith.shiftLeft q d a b w) := by
  intros
  unfold Arith.shiftLeft
  pf_auto
macro_rules | `(tactic| pf_step) => `(tactic| with_reducible apply Arith_shiftLeft_le)

theorem Arith_negateInPlace_le : ∀ d w, Le (Arith.negateInPlace p d w) (Arith.negateInPlace q d w) := by
  intros
  unfold Arith.negateInPlace
  pf_auto
macro_rules | `(tactic| pf_step) => `(tactic| with_reducible apply Arith_negateInPlace_le)

theorem Arith_negate_le : ∀ d b w, Le (Arith.negate p d b w) (Arith.negate q d b w) := by
  intros
  unfold Arith.negate
  pf_auto
macro_rules | `(tactic| pf_step) => `(tactic| with_reducible apply Arith_negate_le)

theorem Arith_cmpGreaterSigned_le : ∀ a b w, 
    Le (Arith.cmpGreaterSigned p a b w) (Arith.cmpGreaterSigned q a b w) := by
  intros
  unfold Arith.cmpGreaterSigned
  pf_auto
macro_rules | `(tactic| pf_step) => `(tactic| with_reducible apply Arith_cmpGreaterSigned_le)

theorem Arith_cmpGreaterEqualSigned_le : ∀ a b w, 
    Le (Arith.cmpGreaterEqualSigned p a b w) (Arith.cmpGreaterEqualSigned q a b w) := by
  intros
  unfold Arith.cmpGreaterEqualSigned
  pf_auto
macro_rules | `(tactic| pf_step) => `(tactic| with_reducible apply Arith_cmpGreaterEqualSigned_le)

theorem Strings_toBitStrSigned_le : ∀ v w, 
    Le (Strings.toBitStrSigned p v w) (Strings.toBitStrSigned q v w) := by
  intros
  unfold Strings.toBitStrSigned
  pf_auto
macro_rules | `(tactic| pf_step) => `(tactic| with_reducible apply Strings_toBitStrSigned_le)

theorem Strings_selectWordsForWidth_le : ∀ v w, 
    Le (Strings.selectWordsForWidth p v w) (Strings.selectWordsForWidth q v w) := by
  intros
  unfold Strings.selectWordsForWidth
  pf_auto
macro_rules | `(tactic| pf_step) => `(tactic| with_reducible apply Strings_selectWordsForWidth_le)

theorem Strings_toHexStrInternal_le : ∀ v w o, 
    Le (Strings.toHexStrInternal p v w o) (Strings.toHexStrInternal q v w o) := by
  intros
  unfold Strings.toHexStrInternal
  pf_auto
macro_rules | `(tactic| pf_step) => `(tactic| with_reducible apply Strings_toHexStrInternal_le)

theorem Strings_toHexStr_le : ∀ v w, Le (Strings.toHexStr p v w) (Strings.toHexStr q v w) := by
  intros
  unfold Strings.toHexStr
  pf_auto
macro_rules | `(tactic| pf_step) => `(tactic| with_reducible apply Strings_toHexStr_le)

theorem Strings_toHexStrSigned_le : ∀ v w, 
    Le (Strings.toHexStrSigned p v w) (Strings.toHexStrSigned q v w) := by
  intros
  unfold Strings.toHexStrSigned
  pf_auto
macro_rules | `(tactic| pf_step) => `(tactic| with_reducible apply Strings_toHexStrSigned_le)

theorem Strings_wordsToU128_le : ∀ v, Le (Strings.wordsToU128 p v) (Strings.wordsToU128 q v) := by
  intros
  unfold Strings.wordsToU128
  pf_auto
macro_rules | `(tactic| pf_step) => `(tactic| with_reducible apply Strings_wordsToU128_le)

theorem Strings_toDecStrInternal_le : ∀ v, 
    Le (Strings.toDecStrInternal p v) (Strings.toDecStrInternal q v) := by
  intros
  unfold Strings.toDecStrInternal
  pf_auto
macro_rules | `(tactic| pf_step) => `(tactic| with_reducible apply Strings_toDecStrInternal_le)

theorem Strings_toDecStr_le : ∀ v w, Le (Strings.toDecStr p v w) (Strings.toDecStr q v w) := by
  intros
  unfold Strings.toDecStr
  pf_auto
macro_rules | `(tactic| pf_step) => `(tactic| with_reducible apply Strings_toDecStr_le)

theorem Strings_determineWidth_le : ∀ v r, 
    Le (Strings.determineWidth p v r) (Strings.determineWidth q v r) := by
  intros
  unfold Strings.determineWidth
  pf_auto
macro_rules | `(tactic| pf_step) => `(tactic| with_reducible apply Strings_determineWidth_le)

theorem Strings_parseLoop_le (bits perWord : Nat) (dv : Byte → Option Nat) (nd : Nat) :
    ∀ (cs : List Byte) ii out oi w, Le (Strings.parseLoop p bits perWord dv nd ii out oi w cs)
      (Strings.parseLoop q bits perWord dv nd ii out oi w cs) := by
  intro cs
  induction cs with
  | nil => intros; exact Le.refl _
  | cons c cs ih =>
    intros
    unfold Strings.parseLoop
    repeat' (first | apply ih | pf_step)
macro_rules | `(tactic| pf_step) => `(tactic| with_reducible apply Strings_parseLoop_le)

theorem Strings_parseBase16_le : ∀ d o, Le (Strings.parseBase16 p d o) (Strings.parseBase16 q d o) := by
  intros
  unfold Strings.parseBase16
  pf_auto
macro_rules | `(tactic| pf_step) => `(tactic| with_reducible apply Strings_parseBase16_le)

theorem Strings_parseBase2_le : ∀ d o w, Le (Strings.parseBase2 p d o w) (Strings.parseBase2 q d o w) := by
  intros
  unfold Strings.parseBase2
  pf_auto
macro_rules | `(tactic| pf_step) => `(tactic| with_reducible apply Strings_parseBase2_le)

theorem Strings_parseMagnitude_le : ∀ v r o w, 
    Le (Strings.parseMagnitude p v r o w) (Strings.parseMagnitude q v r o w) := by
  intros
  unfold Strings.parseMagnitude
  pf_auto
macro_rules | `(tactic| pf_step) => `(tactic| with_reducible apply Strings_parseMagnitude_le)

theorem Strings_fromStrRadix_le : ∀ v r o w, 
    Le (Strings.fromStrRadix p v r o w) (Strings.fromStrRadix q v r o w) := by
  intros
  unfold Strings.fromStrRadix
  pf_auto
macro_rules | `(tactic| pf_step) => `(tactic| with_reducible apply Strings_fromStrRadix_le)

theorem Bytes_fromBytesLe_le : ∀ b w o, Le (Bytes.fromBytesLe p b w o) (Bytes.fromBytesLe q b w o) := by
  intros
  unfold Bytes.fromBytesLe
  pf_auto
macro_rules | `(tactic| pf_step) => `(tactic| with_reducible apply Bytes_fromBytesLe_le)

theorem Big_iterToWord_le : ∀ i w o, Le (Big.iterToWord p i w o) (Big.iterToWord q i w o) := by
  intros
  unfold Big.iterToWord
  pf_auto
macro_rules | `(tactic| pf_step) => `(tactic| with_reducible apply Big_iterToWord_le)

theorem Big_fromBigUint_le : ∀ v w o, Le (Big.fromBigUint p v w o) (Big.fromBigUint q v w o) := by
  intros
  unfold Big.fromBigUint
  pf_auto
macro_rules | `(tactic| pf_step) => `(tactic| with_reducible apply Big_fromBigUint_le)

theorem Big_getSign_le : ∀ v w, Le (Big.getSign p v w) (Big.getSign q v w) := by
  intros
  unfold Big.getSign
  pf_auto
macro_rules | `(tactic| pf_step) => `(tactic| with_reducible apply Big_getSign_le)

theorem Big_toBigInt_le : ∀ v w, Le (Big.toBigInt p v w) (Big.toBigInt q v w) := by
  intros
  unfold Big.toBigInt
  pf_auto
macro_rules | `(tactic| pf_step) => `(tactic| with_reducible apply Big_toBigInt_le)

theorem Big_fromBigInt_le : ∀ v w o, Le (Big.fromBigInt p v w o) (Big.fromBigInt q v w o) := by
  intros
  unfold Big.fromBigInt
  pf_auto
macro_rules | `(tactic| pf_step) => `(tactic| with_reducible apply Big_fromBigInt_le)

theorem Big_countBigUintBits_le : ∀ v, Le (Big.countBigUintBits p v) (Big.countBigUintBits q v) := by
  intros
  unfold Big.countBigUintBits
  pf_auto
macro_rules | `(tactic| pf_step) => `(tactic| with_reducible apply Big_countBigUintBits_le)

theorem Big_countBigIntBits_le : ∀ v, Le (Big.countBigIntBits p v) (Big.countBigIntBits q v) := by
  intros
  unfold Big.countBigIntBits
  pf_auto
macro_rules | `(tactic| pf_step) => `(tactic| with_reducible apply Big_countBigIntBits_le)

theorem BitVecValue_arithBin_le {f f' : List Word → List Word → List Word → Nat → Res (List Word)}
    (h : ∀ d a b w, Le (f d a b w) (f' d a b w)) (a b : BitVecValue) :
    Le (BitVecValue.arithBin p f a b) (BitVecValue.arithBin q f' a b) := by
  unfold BitVecValue.arithBin
  repeat' (first | apply h | pf_step)
macro_rules | `(tactic| pf_step) => `(tactic| with_reducible apply BitVecValue_arithBin_le)

theorem BitVecValue_bitArithBin_le : ∀ f a b, 
    Le (BitVecValue.bitArithBin p f a b) (BitVecValue.bitArithBin q f a b) := by
  intros
  unfold BitVecValue.bitArithBin
  pf_auto
macro_rules | `(tactic| pf_step) => `(tactic| with_reducible apply BitVecValue_bitArithBin_le)

theorem BitVecValue_add_le : ∀ a b, Le (BitVecValue.add p a b) (BitVecValue.add q a b) := by
  intros
  unfold BitVecValue.add
  pf_auto
macro_rules | `(tactic| pf_step) => `(tactic| with_reducible apply BitVecValue_add_le)

theorem BitVecValue_sub_le : ∀ a b, Le (BitVecValue.sub p a b) (BitVecValue.sub q a b) := by
  intros
  unfold BitVecValue.sub
  pf_auto
macro_rules | `(tactic| pf_step) => `(tactic| with_reducible apply BitVecValue_sub_le)

theorem BitVecValue_shiftLeft_le : ∀ a b, 
    Le (BitVecValue.shiftLeft p a b) (BitVecValue.shiftLeft q a b) := by
  intros
  unfold BitVecValue.shiftLeft
  pf_auto
macro_rules | `(tactic| pf_step) => `(tactic| with_reducible apply BitVecValue_shiftLeft_le)

theorem BitVecValue_shiftRight_le : ∀ a b, 
    Le (BitVecValue.shiftRight p a b) (BitVecValue.shiftRight q a b) := by
  intros
  unfold BitVecValue.shiftRight
  pf_auto
macro_rules | `(tactic| pf_step) => `(tactic| with_reducible apply BitVecValue_shiftRight_le)

theorem BitVecValue_arithmeticShiftRight_le : ∀ a b, 
    Le (BitVecValue.arithmeticShiftRight p a b) (BitVecValue.arithmeticShiftRight q a b) := by
  intros
  unfold BitVecValue.arithmeticShiftRight
  pf_auto
macro_rules | `(tactic| pf_step) => `(tactic| with_reducible apply BitVecValue_arithmeticShiftRight_le)

theorem BitVecValue_mul_le : ∀ a b, Le (BitVecValue.mul p a b) (BitVecValue.mul q a b) := by
  intros
  unfold BitVecValue.mul
  pf_auto
macro_rules | `(tactic| pf_step) => `(tactic| with_reducible apply BitVecValue_mul_le)

theorem BitVecValue_and_le : ∀ a b, Le (BitVecValue.and p a b) (BitVecValue.and q a b) := by
  intros
  unfold BitVecValue.and
  pf_auto
macro_rules | `(tactic| pf_step) => `(tactic| with_reducible apply BitVecValue_and_le)

theorem BitVecValue_or_le : ∀ a b, Le (BitVecValue.or p a b) (BitVecValue.or q a b) := by
  intros
  unfold BitVecValue.or
  pf_auto
macro_rules | `(tactic| pf_step) => `(tactic| with_reducible apply BitVecValue_or_le)

theorem BitVecValue_xor_le : ∀ a b, Le (BitVecValue.xor p a b) (BitVecValue.xor q a b) := by
  intros
  unfold BitVecValue.xor
  pf_auto
macro_rules | `(tactic| pf_step) => `(tactic| with_reducible apply BitVecValue_xor_le)

theorem BitVecValue_assertSame_le : ∀ a b, 
    Le (BitVecValue.assertSame p a b) (BitVecValue.assertSame q a b) := by
  intros
  unfold BitVecValue.assertSame
  pf_auto
macro_rules | `(tactic| pf_step) => `(tactic| with_reducible apply BitVecValue_assertSame_le)

theorem BitVecValue_isEqual_le : ∀ a b, Le (BitVecValue.isEqual p a b) (BitVecValue.isEqual q a b) := by
  intros
  unfold BitVecValue.isEqual
  pf_auto
macro_rules | `(tactic| pf_step) => `(tactic| with_reducible apply BitVecValue_isEqual_le)

theorem BitVecValue_isNotEqual_le : ∀ a b, 
    Le (BitVecValue.isNotEqual p a b) (BitVecValue.isNotEqual q a b) := by
  intros
  unfold BitVecValue.isNotEqual
  pf_auto
macro_rules | `(tactic| pf_step) => `(tactic| with_reducible apply BitVecValue_isNotEqual_le)

theorem BitVecValue_isGreater_le : ∀ a b, 
    Le (BitVecValue.isGreater p a b) (BitVecValue.isGreater q a b) := by
  intros
  unfold BitVecValue.isGreater
  pf_auto
macro_rules | `(tactic| pf_step) => `(tactic| with_reducible apply BitVecValue_isGreater_le)

theorem BitVecValue_isGreaterOrEqual_le : ∀ a b, 
    Le (BitVecValue.isGreaterOrEqual p a b) (BitVecValue.isGreaterOrEqual q a b) := by
  intros
  unfold BitVecValue.isGreaterOrEqual
  pf_auto
macro_rules | `(tactic| pf_step) => `(tactic| with_reducible apply BitVecValue_isGreaterOrEqual_le)

theorem BitVecValue_isLess_le : ∀ a b, Le (BitVecValue.isLess p a b) (BitVecValue.isLess q a b) := by
  intros
  unfold BitVecValue.isLess
  pf_auto
macro_rules | `(tactic| pf_step) => `(tactic| with_reducible apply BitVecValue_isLess_le)

theorem BitVecValue_isLessOrEqual_le : ∀ a b, 
    Le (BitVecValue.isLessOrEqual p a b) (BitVecValue.isLessOrEqual q a b) := by
  intros
  unfold BitVecValue.isLessOrEqual
  pf_auto
macro_rules | `(tactic| pf_step) => `(tactic| with_reducible apply BitVecValue_isLessOrEqual_le)

theorem BitVecValue_isGreaterSigned_le : ∀ a b, 
    Le (BitVecValue.isGreaterSigned p a b) (BitVecValue.isGreaterSigned q a b) := by
  intros
  unfold BitVecValue.isGreaterSigned
  pf_auto
macro_rules | `(tactic| pf_step) => `(tactic| with_reducible apply BitVecValue_isGreaterSigned_le)

theorem BitVecValue_isGreaterOrEqualSigned_le : ∀ a b, 
    Le (BitVecValue.isGreaterOrEqualSigned p a b) (BitVecValue.isGreaterOrEqualSigned q a b) := by
  intros
  unfold BitVecValue.isGreaterOrEqualSigned
  pf_auto
macro_rules | `(tactic| pf_step) => `(tactic| with_reducible apply BitVecValue_isGreaterOrEqualSigned_le)

theorem BitVecValue_isLessSigned_le : ∀ a b, 
    Le (BitVecValue.isLessSigned p a b) (BitVecValue.isLessSigned q a b) := by
  intros
  unfold BitVecValue.isLessSigned
  pf_auto
macro_rules | `(tactic| pf_step) => `(tactic| with_reducible apply BitVecValue_isLessSigned_le)

theorem BitVecValue_isLessOrEqualSigned_le : ∀ a b, 
    Le (BitVecValue.isLessOrEqualSigned p a b) (BitVecValue.isLessOrEqualSigned q a b) := by
  intros
  unfold BitVecValue.isLessOrEqualSigned
  pf_auto
macro_rules | `(tactic| pf_step) => `(tactic| with_reducible apply BitVecValue_isLessOrEqualSigned_le)

theorem BitVecValue_eqOwned_le : ∀ a b, Le (BitVecValue.eqOwned p a b) (BitVecValue.eqOwned q a b) := by
  intros
  unfold BitVecValue.eqOwned
  pf_auto
macro_rules | `(tactic| pf_step) => `(tactic| with_reducible apply BitVecValue_eqOwned_le)

theorem BitVecValue_eqRef_le : ∀ a b, Le (BitVecValue.eqRef p a b) (BitVecValue.eqRef q a b) := by
  intros
  unfold BitVecValue.eqRef
  pf_auto
macro_rules | `(tactic| pf_step) => `(tactic| with_reducible apply BitVecValue_eqRef_le)

theorem BitVecValue_slice_le : ∀ a h l, Le (BitVecValue.slice p a h l) (BitVecValue.slice q a h l) := by
  intros
  unfold BitVecValue.slice
  pf_auto
macro_rules | `(tactic| pf_step) => `(tactic| with_reducible apply BitVecValue_slice_le)

theorem BitVecValue_signExtend_le : ∀ a n, 
    Le (BitVecValue.signExtend p a n) (BitVecValue.signExtend q a n) := by
  intros
  unfold BitVecValue.signExtend
  pf_auto
macro_rules | `(tactic| pf_step) => `(tactic| with_reducible apply BitVecValue_signExtend_le)

theorem BitVecValue_zeroExtend_le : ∀ a n, 
    Le (BitVecValue.zeroExtend p a n) (BitVecValue.zeroExtend q a n) := by
  intros
  unfold BitVecValue.zeroExtend
  pf_auto
macro_rules | `(tactic| pf_step) => `(tactic| with_reducible apply BitVecValue_zeroExtend_le)

theorem BitVecValue_not_le : ∀ a, Le (BitVecValue.not p a) (BitVecValue.not q a) := by
  intros
  unfold BitVecValue.not
  pf_auto
macro_rules | `(tactic| pf_step) => `(tactic| with_reducible apply BitVecValue_not_le)

theorem BitVecValue_negate_le : ∀ a, Le (BitVecValue.negate p a) (BitVecValue.negate q a) := by
  intros
  unfold BitVecValue.negate
  pf_auto
macro_rules | `(tactic| pf_step) => `(tactic| with_reducible apply BitVecValue_negate_le)

theorem BitVecValue_concat_le : ∀ a b, Le (BitVecValue.concat p a b) (BitVecValue.concat q a b) := by
  intros
  unfold BitVecValue.concat
  pf_auto
macro_rules | `(tactic| pf_step) => `(tactic| with_reducible apply BitVecValue_concat_le)

theorem BitVecValue_toI64_le : ∀ a, Le (BitVecValue.toI64 p a) (BitVecValue.toI64 q a) := by
  intros
  unfold BitVecValue.toI64
  pf_auto
macro_rules | `(tactic| pf_step) => `(tactic| with_reducible apply BitVecValue_toI64_le)

theorem BitVecValue_isNegative_le : ∀ a, Le (BitVecValue.isNegative p a) (BitVecValue.isNegative q a) := by
  intros
  unfold BitVecValue.isNegative
  pf_auto
macro_rules | `(tactic| pf_step) => `(tactic| with_reducible apply BitVecValue_isNegative_le)

theorem BitVecValue_toUnsignedFixedPoint_le : ∀ a n, 
    Le (BitVecValue.toUnsignedFixedPoint p a n) (BitVecValue.toUnsignedFixedPoint q a n) := by
  intros
  unfold BitVecValue.toUnsignedFixedPoint
  pf_auto
macro_rules | `(tactic| pf_step) => `(tactic| with_reducible apply BitVecValue_toUnsignedFixedPoint_le)

theorem BitVecValue_toSignedFixedPoint_le : ∀ a n, 
    Le (BitVecValue.toSignedFixedPoint p a n) (BitVecValue.toSignedFixedPoint q a n) := by
  intros
  unfold BitVecValue.toSignedFixedPoint
  pf_auto
macro_rules | `(tactic| pf_step) => `(tactic| with_reducible apply BitVecValue_toSignedFixedPoint_le)

theorem BitVecValue_toBitStrSigned_le : ∀ a, 
    Le (BitVecValue.toBitStrSigned p a) (BitVecValue.toBitStrSigned q a) := by
  intros
  unfold BitVecValue.toBitStrSigned
  pf_auto
macro_rules | `(tactic| pf_step) => `(tactic| with_reducible apply BitVecValue_toBitStrSigned_le)

theorem BitVecValue_toHexStr_le : ∀ a, Le (BitVecValue.toHexStr p a) (BitVecValue.toHexStr q a) := by
  intros
  unfold BitVecValue.toHexStr
  pf_auto
macro_rules | `(tactic| pf_step) => `(tactic| with_reducible apply BitVecValue_toHexStr_le)

theorem BitVecValue_toDecStr_le : ∀ a, Le (BitVecValue.toDecStr p a) (BitVecValue.toDecStr q a) := by
  intros
  unfold BitVecValue.toDecStr
  pf_auto
macro_rules | `(tactic| pf_step) => `(tactic| with_reducible apply BitVecValue_toDecStr_le)

theorem BitVecValue_toHexStrSigned_le : ∀ a, 
    Le (BitVecValue.toHexStrSigned p a) (BitVecValue.toHexStrSigned q a) := by
  intros
  unfold BitVecValue.toHexStrSigned
  pf_auto
macro_rules | `(tactic| pf_step) => `(tactic| with_reducible apply BitVecValue_toHexStrSigned_le)

theorem BitVecValue_toBigInt_le : ∀ a, Le (BitVecValue.toBigInt p a) (BitVecValue.toBigInt q a) := by
  intros
  unfold BitVecValue.toBigInt
  pf_auto
macro_rules | `(tactic| pf_step) => `(tactic| with_reducible apply BitVecValue_toBigInt_le)

theorem BitVecValue_assign_le : ∀ a b, Le (BitVecValue.assign p a b) (BitVecValue.assign q a b) := by
  intros
  unfold BitVecValue.assign
  pf_auto
macro_rules | `(tactic| pf_step) => `(tactic| with_reducible apply BitVecValue_assign_le)

theorem BitVecValue_maskMsb_le : ∀ a, Le (BitVecValue.maskMsb p a) (BitVecValue.maskMsb q a) := by
  intros
  unfold BitVecValue.maskMsb
  pf_auto
macro_rules | `(tactic| pf_step) => `(tactic| with_reducible apply BitVecValue_maskMsb_le)

theorem BitVecValue_assignOnes_le : ∀ a, Le (BitVecValue.assignOnes p a) (BitVecValue.assignOnes q a) := by
  intros
  unfold BitVecValue.assignOnes
  pf_auto
macro_rules | `(tactic| pf_step) => `(tactic| with_reducible apply BitVecValue_assignOnes_le)

theorem BitVecValue_assignFromU64_le : ∀ a v, 
    Le (BitVecValue.assignFromU64 p a v) (BitVecValue.assignFromU64 q a v) := by
  intros
  unfold BitVecValue.assignFromU64
  pf_auto
macro_rules | `(tactic| pf_step) => `(tactic| with_reducible apply BitVecValue_assignFromU64_le)

theorem BitVecValue_checkI64_le : ∀ a v, Le (BitVecValue.checkI64 p a v) (BitVecValue.checkI64 q a v) := by
  intros
  unfold BitVecValue.checkI64
  refine asserted_le (Le.of_ok ?_)
  pf_auto
macro_rules | `(tactic| pf_step) => `(tactic| with_reducible apply BitVecValue_checkI64_le)

theorem BitVecValue_assignFromI64_le : ∀ a v, 
    Le (BitVecValue.assignFromI64 p a v) (BitVecValue.assignFromI64 q a v) := by
  intros
  unfold BitVecValue.assignFromI64
  pf_auto
macro_rules | `(tactic| pf_step) => `(tactic| with_reducible apply BitVecValue_assignFromI64_le)

theorem BitVecValue_assignFromStrRadix_le : ∀ a v r, 
    Le (BitVecValue.assignFromStrRadix p a v r) (BitVecValue.assignFromStrRadix q a v r) := by
  intros
  unfold BitVecValue.assignFromStrRadix
  pf_auto
macro_rules | `(tactic| pf_step) => `(tactic| with_reducible apply BitVecValue_assignFromStrRadix_le)

theorem BitVecValue_ones_le : ∀ w, Le (BitVecValue.ones p w) (BitVecValue.ones q w) := by
  intros
  unfold BitVecValue.ones
  pf_auto
macro_rules | `(tactic| pf_step) => `(tactic| with_reducible apply BitVecValue_ones_le)

theorem BitVecValue_fromStrRadix_le : ∀ v r w, 
    Le (BitVecValue.fromStrRadix p v r w) (BitVecValue.fromStrRadix q v r w) := by
  intros
  unfold BitVecValue.fromStrRadix
  pf_auto
macro_rules | `(tactic| pf_step) => `(tactic| with_reducible apply BitVecValue_fromStrRadix_le)

theorem BitVecValue_fromBitStr_le : ∀ v, Le (BitVecValue.fromBitStr p v) (BitVecValue.fromBitStr q v) := by
  intros
  unfold BitVecValue.fromBitStr
  pf_auto
macro_rules | `(tactic| pf_step) => `(tactic| with_reducible apply BitVecValue_fromBitStr_le)

theorem BitVecValue_fromHexStr_le : ∀ v, Le (BitVecValue.fromHexStr p v) (BitVecValue.fromHexStr q v) := by
  intros
  unfold BitVecValue.fromHexStr
  pf_auto
macro_rules | `(tactic| pf_step) => `(tactic| with_reducible apply BitVecValue_fromHexStr_le)

theorem BitVecValue_fromU64_le : ∀ v w, Le (BitVecValue.fromU64 p v w) (BitVecValue.fromU64 q v w) := by
  intros
  unfold BitVecValue.fromU64
  pf_auto
macro_rules | `(tactic| pf_step) => `(tactic| with_reducible apply BitVecValue_fromU64_le)

theorem BitVecValue_fromI64_le : ∀ v w, Le (BitVecValue.fromI64 p v w) (BitVecValue.fromI64 q v w) := by
  intros
  unfold BitVecValue.fromI64
  pf_auto
macro_rules | `(tactic| pf_step) => `(tactic| with_reducible apply BitVecValue_fromI64_le)

theorem BitVecValue_tru_le : Le (BitVecValue.tru p) (BitVecValue.tru q) := by
  unfold BitVecValue.tru
  pf_auto
macro_rules | `(tactic| pf_step) => `(tactic| with_reducible apply BitVecValue_tru_le)

theorem BitVecValue_fals_le : Le (BitVecValue.fals p) (BitVecValue.fals q) := by
  unfold BitVecValue.fals
  pf_auto
macro_rules | `(tactic| pf_step) => `(tactic| with_reducible apply BitVecValue_fals_le)

theorem BitVecValue_fromBool_le : ∀ b, Le (BitVecValue.fromBool p b) (BitVecValue.fromBool q b) := by
  intros
  unfold BitVecValue.fromBool
  pf_auto
macro_rules | `(tactic| pf_step) => `(tactic| with_reducible apply BitVecValue_fromBool_le)

theorem BitVecValue_fromBytesLe_le : ∀ b n, 
    Le (BitVecValue.fromBytesLe p b n) (BitVecValue.fromBytesLe q b n) := by
  intros
  unfold BitVecValue.fromBytesLe
  pf_auto
macro_rules | `(tactic| pf_step) => `(tactic| with_reducible apply BitVecValue_fromBytesLe_le)

theorem BitVecValue_fromBigInt_le : ∀ v n, 
    Le (BitVecValue.fromBigInt p v n) (BitVecValue.fromBigInt q v n) := by
  intros
  unfold BitVecValue.fromBigInt
  pf_auto
macro_rules | `(tactic| pf_step) => `(tactic| with_reducible apply BitVecValue_fromBigInt_le)

theorem BitVecValue_fromBigUint_le : ∀ v n, 
    Le (BitVecValue.fromBigUint p v n) (BitVecValue.fromBigUint q v n) := by
  intros
  unfold BitVecValue.fromBigUint
  pf_auto
macro_rules | `(tactic| pf_step) => `(tactic| with_reducible apply BitVecValue_fromBigUint_le)

theorem BitVecValue_ofBigInt_le : ∀ v, Le (BitVecValue.ofBigInt p v) (BitVecValue.ofBigInt q v) := by
  intros
  unfold BitVecValue.ofBigInt
  pf_auto
macro_rules | `(tactic| pf_step) => `(tactic| with_reducible apply BitVecValue_ofBigInt_le)

theorem BitVecValue_ofBigUint_le : ∀ v, Le (BitVecValue.ofBigUint p v) (BitVecValue.ofBigUint q v) := by
  intros
  unfold BitVecValue.ofBigUint
  pf_auto
macro_rules | `(tactic| pf_step) => `(tactic| with_reducible apply BitVecValue_ofBigUint_le)

theorem Indexed_assignAt_le : ∀ d a v, Le (Indexed.assignAt p d a v) (Indexed.assignAt q d a v) := by
  intros
  unfold Indexed.assignAt
  pf_auto
macro_rules | `(tactic| pf_step) => `(tactic| with_reducible apply Indexed_assignAt_le)

theorem Indexed_assignFrom_le : ∀ d a b, Le (Indexed.assignFrom p d a b) (Indexed.assignFrom q d a b) := by
  intros
  unfold Indexed.assignFrom
  pf_auto
macro_rules | `(tactic| pf_step) => `(tactic| with_reducible apply Indexed_assignFrom_le)

theorem ValueInterner_getIndex_le : ∀ s v, 
    Le (ValueInterner.getIndex p s v) (ValueInterner.getIndex q s v) := by
  intros
  unfold ValueInterner.getIndex
  pf_auto
macro_rules | `(tactic| pf_step) => `(tactic| with_reducible apply ValueInterner_getIndex_le)

theorem numElements_le : ∀ w, Le (numElements p w) (numElements q w) := by
  intros
  unfold numElements
  pf_auto
macro_rules | `(tactic| pf_step) => `(tactic| with_reducible apply numElements_le)

theorem compareKeys_le : ∀ key ks, Le (compareKeys p key ks) (compareKeys q key ks) := by
  intro key ks
  induction ks with
  | nil => exact Le.refl _
  | cons k ks ih =>
    unfold compareKeys
    refine Le.bind (by pf_auto) fun _ => ih
macro_rules | `(tactic| pf_step) => `(tactic| with_reducible apply compareKeys_le)

theorem lookupOwned_le {V : Type} : ∀ env (map : HMap BitVecValue V) key,
    Le (lookupOwned p env map key) (lookupOwned q env map key) := by
  intros
  unfold lookupOwned
  pf_auto
macro_rules | `(tactic| pf_step) => `(tactic| with_reducible apply lookupOwned_le)

theorem eqEntries_le {K : Type} [DecidableEq K] {l l' : K → Res Unit} (hl : ∀ k, Le (l k) (l' k)) :
    ∀ (other : HMap K BitVecValue) es, Le (eqEntries p l other es) (eqEntries q l' other es) := by
  intro other es
  induction es with
  | nil => exact Le.refl _
  | cons e es ih =>
    unfold eqEntries
    refine Le.bind (hl _) fun _ => ?_
    cases other.get e.1 with
    | none => exact Le.refl _
    | some v =>
      refine Le.bind (by pf_auto) fun b => ?_
      cases b
      · exact Le.refl _
      · exact ih

theorem eqMaps_le {K : Type} [DecidableEq K] {l l' : K → Res Unit} (hl : ∀ k, Le (l k) (l' k)) :
    ∀ env (a b : HMap K BitVecValue), Le (eqMaps p env l a b) (eqMaps q env l' a b) := by
  intro env a b
  unfold eqMaps
  split
  · exact eqEntries_le hl _ _
  · exact Le.refl _

theorem eqMaps_word_le : ∀ env (a b : HMap Word BitVecValue),
    Le (eqMaps p env (fun _ => ok ()) a b) (eqMaps q env (fun _ => ok ()) a b) := eqMaps_le fun _ => Le.refl _
macro_rules | `(tactic| pf_step) => `(tactic| with_reducible apply eqMaps_word_le)

theorem eqMaps_value_le : ∀ env (a b : HMap BitVecValue BitVecValue),
    Le (eqMaps p env (lookupOwned p env b) a b) (eqMaps q env (lookupOwned q env b) a b) :=
  fun env a b => eqMaps_le (fun k => lookupOwned_le env b k) env a b
macro_rules | `(tactic| pf_step) => `(tactic| with_reducible apply eqMaps_value_le)

theorem SparseArrayValue_isEqual_le : ∀ env a b,
    Le (SparseArrayValue.isEqual p env a b) (SparseArrayValue.isEqual q env a b) := by
  intros
  unfold SparseArrayValue.isEqual
  pf_auto
macro_rules | `(tactic| pf_step) => `(tactic| with_reducible apply SparseArrayValue_isEqual_le)

theorem SparseArrayValue_default_le : ∀ a, 
    Le (SparseArrayValue.default p a) (SparseArrayValue.default q a) := by
  intros
  unfold SparseArrayValue.default
  pf_auto
macro_rules | `(tactic| pf_step) => `(tactic| with_reducible apply SparseArrayValue_default_le)

theorem SparseArrayValue_storeU64Big_le : ∀ a i d, 
    Le (SparseArrayValue.storeU64Big p a i d) (SparseArrayValue.storeU64Big q a i d) := by
  intros
  unfold SparseArrayValue.storeU64Big
  pf_auto
macro_rules | `(tactic| pf_step) => `(tactic| with_reducible apply SparseArrayValue_storeU64Big_le)

theorem SparseArrayValue_select_le : ∀ e a i, 
    Le (SparseArrayValue.select p e a i) (SparseArrayValue.select q e a i) := by
  intros
  unfold SparseArrayValue.select
  pf_auto
macro_rules | `(tactic| pf_step) => `(tactic| with_reducible apply SparseArrayValue_select_le)

theorem SparseArrayValue_store_le : ∀ e a i d, 
    Le (SparseArrayValue.store p e a i d) (SparseArrayValue.store q e a i d) := by
  intros
  unfold SparseArrayValue.store
  pf_auto
macro_rules | `(tactic| pf_step) => `(tactic| with_reducible apply SparseArrayValue_store_le)

theorem SparseArrayValue_mapRes_le {α β : Type} {f f' : α → Res β} (h : ∀ a, Le (f a) (f' a)) :
    ∀ l, Le (SparseArrayValue.mapRes f l) (SparseArrayValue.mapRes f' l)
  | [] => Le.refl _
  | x :: xs => by
    have ih := SparseArrayValue_mapRes_le h xs
    unfold SparseArrayValue.mapRes
    repeat' (first | exact ih | apply h | pf_step)
macro_rules | `(tactic| pf_step) => `(tactic| with_reducible apply SparseArrayValue_mapRes_le)

theorem SparseArrayValue_nonDefaultEntries_le : ∀ e a, 
    Le (SparseArrayValue.nonDefaultEntries p e a) (SparseArrayValue.nonDefaultEntries q e a) := by
  intros
  unfold SparseArrayValue.nonDefaultEntries
  pf_auto
macro_rules | `(tactic| pf_step) => `(tactic| with_reducible apply SparseArrayValue_nonDefaultEntries_le)

theorem DenseArrayValue_approxStorageSize_le : ∀ i d, 
    Le (DenseArrayValue.approxStorageSize p i d) (DenseArrayValue.approxStorageSize q i d) := by
  intros
  unfold DenseArrayValue.approxStorageSize
  pf_auto
macro_rules | `(tactic| pf_step) => `(tactic| with_reducible apply DenseArrayValue_approxStorageSize_le)

theorem DenseArrayValue_new_le : ∀ i d, Le (DenseArrayValue.new p i d) (DenseArrayValue.new q i d) := by
  intros
  unfold DenseArrayValue.new
  dsimp only
  repeat' pf_step
  · rename_i hp hq
    refine ⟨fun r hr => ?_⟩
    rename_i d _ _ _ _ _ _
    cases hf : d.isFals with
    | panic e => rw [hf] at hr; cases hr
    | ok f =>
      rw [hf, ok_bind] at hr
      unfold debugAssert at hr
      split at hr
      · cases hr
      · exact hr
  · rename_i hp hq
    exact absurd (h.asserts hq) hp
macro_rules | `(tactic| pf_step) => `(tactic| with_reducible apply DenseArrayValue_new_le)

theorem DenseArrayValue_ofBools_le : ∀ v, 
    Le (DenseArrayValue.ofBools p v) (DenseArrayValue.ofBools q v) := by
  intros
  unfold DenseArrayValue.ofBools
  pf_auto
macro_rules | `(tactic| pf_step) => `(tactic| with_reducible apply DenseArrayValue_ofBools_le)

theorem DenseArrayValue_ofU8s_le : ∀ v, Le (DenseArrayValue.ofU8s p v) (DenseArrayValue.ofU8s q v) := by
  intros
  unfold DenseArrayValue.ofU8s
  pf_auto
macro_rules | `(tactic| pf_step) => `(tactic| with_reducible apply DenseArrayValue_ofU8s_le)

theorem DenseArrayValue_ofU64s_le : ∀ v, Le (DenseArrayValue.ofU64s p v) (DenseArrayValue.ofU64s q v) := by
  intros
  unfold DenseArrayValue.ofU64s
  pf_auto
macro_rules | `(tactic| pf_step) => `(tactic| with_reducible apply DenseArrayValue_ofU64s_le)

theorem DenseArrayValue_isEqual_le : ∀ a b, 
    Le (DenseArrayValue.isEqual p a b) (DenseArrayValue.isEqual q a b) := by
  intros
  unfold DenseArrayValue.isEqual
  pf_auto
macro_rules | `(tactic| pf_step) => `(tactic| with_reducible apply DenseArrayValue_isEqual_le)

theorem DenseArrayValue_selectUsize_le : ∀ a i, 
    Le (DenseArrayValue.selectUsize p a i) (DenseArrayValue.selectUsize q a i) := by
  intros
  unfold DenseArrayValue.selectUsize
  pf_auto
macro_rules | `(tactic| pf_step) => `(tactic| with_reducible apply DenseArrayValue_selectUsize_le)

theorem DenseArrayValue_select_le : ∀ a i, 
    Le (DenseArrayValue.select p a i) (DenseArrayValue.select q a i) := by
  intros
  unfold DenseArrayValue.select
  pf_auto
macro_rules | `(tactic| pf_step) => `(tactic| with_reducible apply DenseArrayValue_select_le)

theorem DenseArrayValue_store_le : ∀ a i d, 
    Le (DenseArrayValue.store p a i d) (DenseArrayValue.store q a i d) := by
  intros
  unfold DenseArrayValue.store
  pf_auto
macro_rules | `(tactic| pf_step) => `(tactic| with_reducible apply DenseArrayValue_store_le)

theorem DenseArrayValue_putU64_le : ∀ d i v, 
    Le (DenseArrayValue.putU64 p d i v) (DenseArrayValue.putU64 q d i v) := by
  intros
  unfold DenseArrayValue.putU64
  pf_auto
macro_rules | `(tactic| pf_step) => `(tactic| with_reducible apply DenseArrayValue_putU64_le)

theorem DenseArrayValue_putAllU64_le : ∀ l d, Le (DenseArrayValue.putAllU64 p d l) (DenseArrayValue.putAllU64 q d l) := by
  intro l
  induction l with
  | nil => intros; exact Le.refl _
  | cons c cs ih =>
    intros
    unfold DenseArrayValue.putAllU64
    repeat' (first | apply ih | pf_step)
macro_rules | `(tactic| pf_step) => `(tactic| with_reducible apply DenseArrayValue_putAllU64_le)

theorem DenseArrayValue_putAllBig_le : ∀ l d b, Le (DenseArrayValue.putAllBig p d b l) (DenseArrayValue.putAllBig q d b l) := by
  intro l
  induction l with
  | nil => intros; exact Le.refl _
  | cons c cs ih =>
    intros
    unfold DenseArrayValue.putAllBig
    repeat' (first | apply ih | pf_step)
macro_rules | `(tactic| pf_step) => `(tactic| with_reducible apply DenseArrayValue_putAllBig_le)

theorem DenseArrayValue_ofSparse_le : ∀ e v, 
    Le (DenseArrayValue.ofSparse p e v) (DenseArrayValue.ofSparse q e v) := by
  intros
  unfold DenseArrayValue.ofSparse
  pf_auto
macro_rules | `(tactic| pf_step) => `(tactic| with_reducible apply DenseArrayValue_ofSparse_le)

theorem DenseArrayValue_selectAll_le (a : DenseArrayValue) : ∀ n i, Le (DenseArrayValue.selectAll p a i n) (DenseArrayValue.selectAll q a i n) := by
  intro n
  induction n with
  | zero => intros; exact Le.refl _
  | succ n ih =>
    intros
    unfold DenseArrayValue.selectAll
    repeat' (first | apply ih | pf_step)
macro_rules | `(tactic| pf_step) => `(tactic| with_reducible apply DenseArrayValue_selectAll_le)

theorem DenseArrayValue_storeBigs_le (d : BitVecValue) : ∀ l i o, Le (DenseArrayValue.storeBigs p d i l o) (DenseArrayValue.storeBigs q d i l o) := by
  intro l
  induction l with
  | nil => intros; exact Le.refl _
  | cons c cs ih =>
    intros
    unfold DenseArrayValue.storeBigs
    repeat' (first | apply ih | pf_step)
macro_rules | `(tactic| pf_step) => `(tactic| with_reducible apply DenseArrayValue_storeBigs_le)

theorem DenseArrayValue_toSparse_le : ∀ e v, 
    Le (DenseArrayValue.toSparse p e v) (DenseArrayValue.toSparse q e v) := by
  intros
  unfold DenseArrayValue.toSparse
  pf_auto
macro_rules | `(tactic| pf_step) => `(tactic| with_reducible apply DenseArrayValue_toSparse_le)

theorem isEqualMixed_le : ∀ e d s, Le (isEqualMixed p e d s) (isEqualMixed q e d s) := by
  intros
  unfold isEqualMixed
  pf_auto
macro_rules | `(tactic| pf_step) => `(tactic| with_reducible apply isEqualMixed_le)

theorem ArrayValue_newDense_le : ∀ i d, Le (ArrayValue.newDense p i d) (ArrayValue.newDense q i d) := by
  intros
  unfold ArrayValue.newDense
  pf_auto
macro_rules | `(tactic| pf_step) => `(tactic| with_reducible apply ArrayValue_newDense_le)

theorem ArrayValue_makeDense_le : ∀ e a, Le (ArrayValue.makeDense p e a) (ArrayValue.makeDense q e a) := by
  intros
  unfold ArrayValue.makeDense
  pf_auto
macro_rules | `(tactic| pf_step) => `(tactic| with_reducible apply ArrayValue_makeDense_le)

theorem ArrayValue_isEqual_le : ∀ e a b, Le (ArrayValue.isEqual p e a b) (ArrayValue.isEqual q e a b) := by
  intros
  unfold ArrayValue.isEqual
  pf_auto
macro_rules | `(tactic| pf_step) => `(tactic| with_reducible apply ArrayValue_isEqual_le)

theorem ArrayValue_eq_le : ∀ e a b, Le (ArrayValue.eq p e a b) (ArrayValue.eq q e a b) := by
  intros
  unfold ArrayValue.eq
  pf_auto
macro_rules | `(tactic| pf_step) => `(tactic| with_reducible apply ArrayValue_eq_le)

theorem ArrayValue_toSparse_le : ∀ e a, Le (ArrayValue.toSparse p e a) (ArrayValue.toSparse q e a) := by
  intros
  unfold ArrayValue.toSparse
  pf_auto
macro_rules | `(tactic| pf_step) => `(tactic| with_reducible apply ArrayValue_toSparse_le)

theorem ArrayValue_ofBools_le : ∀ v, Le (ArrayValue.ofBools p v) (ArrayValue.ofBools q v) := by
  intros
  unfold ArrayValue.ofBools
  pf_auto
macro_rules | `(tactic| pf_step) => `(tactic| with_reducible apply ArrayValue_ofBools_le)

theorem ArrayValue_ofU8s_le : ∀ v, Le (ArrayValue.ofU8s p v) (ArrayValue.ofU8s q v) := by
  intros
  unfold ArrayValue.ofU8s
  pf_auto
macro_rules | `(tactic| pf_step) => `(tactic| with_reducible apply ArrayValue_ofU8s_le)

theorem ArrayValue_ofU64s_le : ∀ v, Le (ArrayValue.ofU64s p v) (ArrayValue.ofU64s q v) := by
  intros
  unfold ArrayValue.ofU64s
  pf_auto
macro_rules | `(tactic| pf_step) => `(tactic| with_reducible apply ArrayValue_ofU64s_le)

theorem ArrayValue_select_le : ∀ e a i, Le (ArrayValue.select p e a i) (ArrayValue.select q e a i) := by
  intros
  unfold ArrayValue.select
  pf_auto
macro_rules | `(tactic| pf_step) => `(tactic| with_reducible apply ArrayValue_select_le)

theorem ArrayValue_store_le : ∀ e a i d, Le (ArrayValue.store p e a i d) (ArrayValue.store q e a i d) := by
  intros
  unfold ArrayValue.store
  pf_auto
macro_rules | `(tactic| pf_step) => `(tactic| with_reducible apply ArrayValue_store_le)

theorem Serde_loadEntries_le : ∀ env es acc, Le (Serde.loadEntries p env acc es) (Serde.loadEntries q env acc es) := by
  intro env es
  induction es with
  | nil => exact fun _ => Le.refl _
  | cons e es ih =>
    intro acc
    unfold Serde.loadEntries
    split
    · exact Le.refl _
    · split
      · exact Le.refl _
      · exact Le.bind (lookupOwned_le _ _ _) fun _ => ih _

theorem Serde_loadSparseImpl_le : ∀ env d, Le (Serde.loadSparseImpl p env d) (Serde.loadSparseImpl q env d) := by
  intro env d
  unfold Serde.loadSparseImpl
  split
  · split
    · split
      · exact Le.refl _
      · refine Le.bind ?_ fun _ => Le.refl _
        unfold Serde.loadHMap
        split
        · exact Serde_loadEntries_le _ _ _
        · exact Le.refl _
    · exact Le.refl _
  · exact Le.refl _

theorem Serde_loadArrayImpl_le : ∀ env d, Le (Serde.loadArrayImpl p env d) (Serde.loadArrayImpl q env d) := by
  intro env d
  unfold Serde.loadArrayImpl Serde.loadSparse
  split
  · exact Le.ite (fun _ => Le.bind (Le.bind (Serde_loadArrayFields_le (Serde_loadSparseImpl_le env) _) fun _ => Le.refl _) fun _ => Le.refl _)
      fun _ => Le.refl _
  · exact Le.refl _

theorem Serde_loadOuter_le : ∀ env fs data, Le (Serde.loadOuter p env data fs) (Serde.loadOuter q env data fs) := by
  intro env fs
  induction fs with
  | nil => exact fun _ => Le.refl _
  | cons f fs ih =>
    intro data
    unfold Serde.loadOuter
    refine Le.ite (fun _ => Le.ite (fun _ => Le.refl _) fun _ => ?_) fun _ => ih _
    refine Le.bind (Serde_loadArrayImpl_le env _) fun r => ?_
    cases r with
    | none => exact Le.refl _
    | some x => exact ih _

theorem Serde_loadArray_le : ∀ env d, Le (Serde.loadArray p env d) (Serde.loadArray q env d) := by
  intro env d
  unfold Serde.loadArray
  split
  · exact Serde_loadOuter_le _ _ _
  · exact Le.bind (Serde_loadArrayImpl_le _ _) fun _ => Le.refl _
  · exact Le.refl _
macro_rules | `(tactic| pf_step) => `(tactic| with_reducible apply Serde_loadArray_le)

end Profiled

end Baa
