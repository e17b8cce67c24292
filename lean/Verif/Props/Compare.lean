import Verif.Proofs.Ops

/-!
# C15 – C18: comparisons
-/

namespace Baa
open Res BitVecValue

/-! ## C15 equality -/

/-- **C15**: for equal widths, `is_equal` is true exactly when the values are equal. -/
theorem C15_is_equal (m : Mode) {w : Nat} {a b : BitVecValue} {x y : BitVec w} (ha : Denotes a x) (hb : Denotes b y) :
    BitVecValue.isEqual m a b = ok (decide (x = y)) := by
  unfold BitVecValue.isEqual
  rw [assertSame_ok (by rw [ha.width_eq, hb.width_eq]) (by rw [ha.length_eq, hb.length_eq]), ok_bind,
    Arith.cmpEqual_spec (by rw [ha.length_eq, hb.length_eq]), ha.val_eq, hb.val_eq]
  congr 1
  exact decide_eq_decide.mpr BitVec.toNat_inj

/-- **C15**: `is_not_equal` is the negation. -/
theorem C15_is_not_equal (m : Mode) {w : Nat} {a b : BitVecValue} {x y : BitVec w} (ha : Denotes a x)
    (hb : Denotes b y) : BitVecValue.isNotEqual m a b = ok (decide (x ≠ y)) := by
  unfold BitVecValue.isNotEqual
  rw [C15_is_equal m ha hb, ok_bind]
  by_cases h : x = y <;> simp [h]

/-- **C15**: `==` with an owned value on the left is true exactly when width and value agree (any two widths). -/
theorem C15_eq_owned (m : Mode) {w v : Nat} {a b : BitVecValue} {x : BitVec w} {y : BitVec v} (ha : Denotes a x)
    (hb : Denotes b y) : BitVecValue.eqOwned m a b = ok (decide (w = v ∧ x.toNat = y.toNat)) := by
  unfold BitVecValue.eqOwned
  have hl : (b.width != a.width || b.words.length == a.words.length) = true := by
    rw [ha.width_eq, hb.width_eq, ha.length_eq, hb.length_eq]
    by_cases h : v = w
    · subst h; simp
    · simp [h]
  rw [debugAssert_of hl, ok_bind, ha.width_eq, hb.width_eq]
  by_cases h : w = v
  · subst h
    have h1 : (b.words == a.words) = decide (x.toNat = y.toNat) := by
      rw [← ha.val_eq, ← hb.val_eq]
      by_cases h2 : wordsVal a.words = wordsVal b.words
      · have := wordsVal_inj (by rw [ha.length_eq, hb.length_eq]) h2
        simp [this]
      · have h3 : b.words ≠ a.words := fun h => h2 (by rw [h])
        simp [h2, h3]
    simp [h1]
  · have : ¬ v = w := fun e => h e.symm
    simp [h, this]

/-- **C15**: `==` with a borrowed value on the left is true exactly when width and value agree; together with
`C15_eq_owned`, owned and borrowed comparison always agree. -/
theorem C15_eq_ref (m : Mode) {w v : Nat} {a b : BitVecValue} {x : BitVec w} {y : BitVec v} (ha : Denotes a x)
    (hb : Denotes b y) : BitVecValue.eqRef m a b = ok (decide (w = v ∧ x.toNat = y.toNat)) := by
  unfold BitVecValue.eqRef
  rw [ha.width_eq, hb.width_eq]
  by_cases h : w = v
  · subst h
    rw [if_pos rfl, C15_is_equal m ha hb]
    congr 1
    apply decide_eq_decide.mpr
    simp [BitVec.toNat_inj]
  · have h' : ¬ v = w := fun e => h e.symm
    simp [h, h']

example : BitVecValue.isEqual .debug (encode 7#70) (encode 7#70) = ok true ∧
    BitVecValue.eqOwned .debug (encode 7#70) (encode 7#71) = ok false ∧
    BitVecValue.eqRef .debug (encode 7#70) (encode 8#70) = ok false := by decide

/-! ## C16 strict unsigned order -/

theorem C16_is_greater (m : Mode) {w : Nat} {a b : BitVecValue} {x y : BitVec w} (ha : Denotes a x)
    (hb : Denotes b y) : BitVecValue.isGreater m a b = ok (decide (x.toNat > y.toNat)) := by
  have hl : a.words.length = b.words.length := by rw [ha.length_eq, hb.length_eq]
  unfold BitVecValue.isGreater
  rw [assertSame_ok (by rw [ha.width_eq, hb.width_eq]) hl, ok_bind]
  have key : Arith.cmpGreater a.words b.words = decide (x.toNat > y.toNat) := by
    rw [Arith.cmpGreater_spec hl, ha.val_eq, hb.val_eq]
  by_cases h : a.words.length = 1
  · rw [if_pos h, sliceR_full h, ok_bind, sliceR_full (by omega), ok_bind, key]
  · rw [if_neg h, key]

theorem C16_is_less (m : Mode) {w : Nat} {a b : BitVecValue} {x y : BitVec w} (ha : Denotes a x)
    (hb : Denotes b y) : BitVecValue.isLess m a b = ok (decide (x.toNat < y.toNat)) := C16_is_greater m hb ha

example : BitVecValue.isGreater .debug (encode (BitVec.twoPow 130 128)) (encode (BitVec.allOnes 128 |>.setWidth 130))
    = ok true ∧ BitVecValue.isLess .debug (encode 3#130) (encode 3#130) = ok false := by decide

/-! ## C17 non-strict unsigned order -/

/-- **C17, full statement** (false of the code, see `C17_refuted`). -/
def C17_statement : Prop :=
  ∀ (m : Mode) {w : Nat} {a b : BitVecValue} {x y : BitVec w}, Denotes a x → Denotes b y →
    BitVecValue.isGreaterOrEqual m a b = ok (decide (x.toNat ≥ y.toNat)) ∧
    BitVecValue.isLessOrEqual m a b = ok (decide (x.toNat ≤ y.toNat))

/-- **C17, proved part**: correct for widths 1 to 64 and, for wider values, whenever the operands differ.
Missing: equal operands of more than 64 bits (and of width 0), where the code answers `false`. -/
theorem C17_is_greater_or_equal_partial (m : Mode) {w : Nat} {a b : BitVecValue} {x y : BitVec w} (ha : Denotes a x)
    (hb : Denotes b y) (hok : (0 < w ∧ w ≤ 64) ∨ x ≠ y) :
    BitVecValue.isGreaterOrEqual m a b = ok (decide (x.toNat ≥ y.toNat)) := by
  have hl : a.words.length = b.words.length := by rw [ha.length_eq, hb.length_eq]
  unfold BitVecValue.isGreaterOrEqual
  rw [assertSame_ok (by rw [ha.width_eq, hb.width_eq]) hl, ok_bind]
  by_cases h : a.words.length = 1
  · rw [if_pos h, sliceR_full h, ok_bind, sliceR_full (by omega), ok_bind, Arith.cmpGreaterEqual_spec hl, ha.val_eq,
      hb.val_eq]
  · rw [if_neg h, Arith.cmpGreater_spec hl, ha.val_eq, hb.val_eq]
    congr 1
    apply decide_eq_decide.mpr
    have hne : x.toNat ≠ y.toNat := by
      rcases hok with h' | h'
      · rw [ha.length_eq] at h; omega
      · exact fun e => h' (BitVec.eq_of_toNat_eq e)
    omega

theorem C17_is_less_or_equal_partial (m : Mode) {w : Nat} {a b : BitVecValue} {x y : BitVec w} (ha : Denotes a x)
    (hb : Denotes b y) (hok : (0 < w ∧ w ≤ 64) ∨ x ≠ y) :
    BitVecValue.isLessOrEqual m a b = ok (decide (x.toNat ≤ y.toNat)) :=
  C17_is_greater_or_equal_partial m hb ha (hok.imp id Ne.symm)

/-- What the code answers in the remaining case: for more than 64 bits, `a >= a` is always `false`. -/
theorem C17_wide_self_false (m : Mode) {w : Nat} (hw : 64 < w) {a : BitVecValue} {x : BitVec w} (ha : Denotes a x) :
    BitVecValue.isGreaterOrEqual m a a = ok false ∧ BitVecValue.isLessOrEqual m a a = ok false := by
  have key : BitVecValue.isGreaterOrEqual m a a = ok false := by
    unfold BitVecValue.isGreaterOrEqual
    rw [assertSame_ok rfl rfl, ok_bind, if_neg (by rw [ha.length_eq]; omega), Arith.cmpGreater_spec rfl]
    simp
  exact ⟨key, key⟩

/-- **C17 is false of the code**: `5 >= 5` is false for 65-bit values. -/
theorem C17_refuted : ¬ C17_statement := fun h => by
  have h1 := (h .debug (encode_denotes 5#65 (by decide)) (encode_denotes 5#65 (by decide))).1
  rw [(C17_wide_self_false .debug (by decide) (encode_denotes 5#65 (by decide))).1] at h1
  revert h1
  decide

example : BitVecValue.isGreaterOrEqual .debug (encode 5#64) (encode 5#64) = ok true ∧
    BitVecValue.isGreaterOrEqual .debug (encode 6#70) (encode 5#70) = ok true ∧ (6#70 ≠ 5#70) := by decide

/-! ## C18 signed order -/

theorem toInt_of_bit {w : Nat} (x : BitVec w) :
    x.toInt = if x.getLsbD (w - 1) then (x.toNat : Int) - 2 ^ w else x.toNat := by
  rw [BitVec.toInt_eq_msb_cond, BitVec.msb_eq_getLsbD_last]
  norm_cast

theorem C18_is_greater_signed (m : Mode) {w : Nat} (hw : 0 < w) {a b : BitVecValue} {x y : BitVec w} (ha : Denotes a x)
    (hb : Denotes b y) : BitVecValue.isGreaterSigned m a b = ok (decide (x.toInt > y.toInt)) := by
  have hl : a.words.length = b.words.length := by rw [ha.length_eq, hb.length_eq]
  have hx := x.isLt
  have hy := y.isLt
  have key : Arith.cmpGreaterSigned m a.words b.words w = ok (decide (x.toInt > y.toInt)) := by
    unfold Arith.cmpGreaterSigned
    rw [Arith.isNeg_spec hw ha.length_eq, ok_bind, Arith.isNeg_spec hw hb.length_eq, ok_bind, ha.bit, hb.bit,
      toInt_of_bit x, toInt_of_bit y]
    generalize hP : (2 : Int) ^ w = P
    have hP' : ((2 ^ w : Nat) : Int) = P := by rw [← hP]; norm_cast
    cases x.getLsbD (w - 1) <;> cases y.getLsbD (w - 1) <;>
      simp only [Arith.cmpGreater_spec hl, ha.val_eq, hb.val_eq, if_true, if_false, Bool.false_eq_true] <;>
      congr 1 <;> first
        | (apply decide_eq_decide.mpr; omega)
        | (symm; apply decide_eq_true; omega)
        | (symm; apply decide_eq_false; omega)
  unfold BitVecValue.isGreaterSigned
  rw [assertSame_ok (by rw [ha.width_eq, hb.width_eq]) hl, ok_bind, ha.width_eq]
  by_cases h : a.words.length = 1
  · rw [if_pos h, sliceR_full h, ok_bind, sliceR_full (by omega), ok_bind, key]
  · rw [if_neg h, key]

theorem C18_is_greater_or_equal_signed (m : Mode) {w : Nat} (hw : 0 < w) {a b : BitVecValue} {x y : BitVec w}
    (ha : Denotes a x) (hb : Denotes b y) :
    BitVecValue.isGreaterOrEqualSigned m a b = ok (decide (x.toInt ≥ y.toInt)) := by
  have hl : a.words.length = b.words.length := by rw [ha.length_eq, hb.length_eq]
  have hx := x.isLt
  have hy := y.isLt
  have key : Arith.cmpGreaterEqualSigned m a.words b.words w = ok (decide (x.toInt ≥ y.toInt)) := by
    unfold Arith.cmpGreaterEqualSigned
    rw [Arith.isNeg_spec hw ha.length_eq, ok_bind, Arith.isNeg_spec hw hb.length_eq, ok_bind, ha.bit, hb.bit,
      toInt_of_bit x, toInt_of_bit y]
    generalize hP : (2 : Int) ^ w = P
    have hP' : ((2 ^ w : Nat) : Int) = P := by rw [← hP]; norm_cast
    cases x.getLsbD (w - 1) <;> cases y.getLsbD (w - 1) <;>
      simp only [Arith.cmpGreaterEqual_spec hl, ha.val_eq, hb.val_eq, if_true, if_false, Bool.false_eq_true] <;>
      congr 1 <;> first
        | (apply decide_eq_decide.mpr; omega)
        | (symm; apply decide_eq_true; omega)
        | (symm; apply decide_eq_false; omega)
  unfold BitVecValue.isGreaterOrEqualSigned
  rw [assertSame_ok (by rw [ha.width_eq, hb.width_eq]) hl, ok_bind, ha.width_eq]
  by_cases h : a.words.length = 1
  · rw [if_pos h, sliceR_full h, ok_bind, sliceR_full (by omega), ok_bind, key]
  · rw [if_neg h, key]

theorem C18_is_less_signed (m : Mode) {w : Nat} (hw : 0 < w) {a b : BitVecValue} {x y : BitVec w} (ha : Denotes a x)
    (hb : Denotes b y) : BitVecValue.isLessSigned m a b = ok (decide (x.toInt < y.toInt)) :=
  C18_is_greater_signed m hw hb ha

theorem C18_is_less_or_equal_signed (m : Mode) {w : Nat} (hw : 0 < w) {a b : BitVecValue} {x y : BitVec w}
    (ha : Denotes a x) (hb : Denotes b y) :
    BitVecValue.isLessOrEqualSigned m a b = ok (decide (x.toInt ≤ y.toInt)) :=
  C18_is_greater_or_equal_signed m hw hb ha

example : BitVecValue.isGreaterSigned .debug (encode 1#70) (encode (BitVec.allOnes 70)) = ok true ∧
    BitVecValue.isLessOrEqualSigned .debug (encode (-3#70)) (encode (-3#70)) = ok true := by decide

end Baa
