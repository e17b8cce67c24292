import Verif.Props.Smt
import Verif.Spec.Overflow

/-!
# C145: overflow is detected, and saturating arithmetic is right
-/

namespace Baa
open Res

section Operators
variable (m : Mode) {w : Nat} {a b : BitVecValue} {x y : BitVec w}

/-- C145: unsigned sums. -/
theorem C145_add_overflows (h0 : 0 < w) (ha : Denotes a x) (hb : Denotes b y) : addOverflows m a b = ok (x.uaddOverflow y) := by
  obtain ⟨r, h1, h2⟩ := C06_add m h0 ha hb
  rw [addOverflows, h1, ok_bind, C16_is_less m h2 ha, BitVec.uaddOverflow]
  congr 1
  rw [decide_eq_decide, BitVec.toNat_add]
  have := x.isLt
  have := y.isLt
  by_cases h : x.toNat + y.toNat < 2 ^ w
  · rw [Nat.mod_eq_of_lt h]; omega
  · rw [Nat.mod_eq_sub_mod (by omega), Nat.mod_eq_of_lt (by omega)]; omega

/-- C145: unsigned differences. -/
theorem C145_sub_overflows (ha : Denotes a x) (hb : Denotes b y) : BitVecValue.isLess m a b = ok (x.usubOverflow y) :=
  C16_is_less m ha hb

/-- C145: signed sums. -/
theorem C145_add_overflows_signed (h0 : 0 < w) (ha : Denotes a x) (hb : Denotes b y) :
    addOverflowsSigned m a b = ok (x.saddOverflow y) := by
  obtain ⟨r, h1, h2⟩ := C06_add m h0 ha hb
  obtain ⟨p, h3, h4⟩ := C10_xor m ha h2
  obtain ⟨q, h5, h6⟩ := C10_xor m hb h2
  obtain ⟨c, h7, h8, -⟩ := C10_and m h4 h6
  rw [addOverflowsSigned, h1, ok_bind, h3, ok_bind, h5, ok_bind, h7, ok_bind, (C25_is_negative m h0 h8).1, BitVec.saddOverflow_eq,
    BitVec.msb_and, BitVec.msb_xor, BitVec.msb_xor]
  cases x.msb <;> cases y.msb <;> cases (x + y).msb <;> rfl

/-- C145: signed differences. -/
theorem C145_sub_overflows_signed (h0 : 0 < w) (ha : Denotes a x) (hb : Denotes b y) :
    subOverflowsSigned m a b = ok (x.ssubOverflow y) := by
  obtain ⟨r, h1, h2⟩ := C07_sub m h0 ha hb
  obtain ⟨p, h3, h4⟩ := C10_xor m ha hb
  obtain ⟨q, h5, h6⟩ := C10_xor m ha h2
  obtain ⟨c, h7, h8, -⟩ := C10_and m h4 h6
  rw [subOverflowsSigned, h1, ok_bind, h3, ok_bind, h5, ok_bind, h7, ok_bind, (C25_is_negative m h0 h8).1, BitVec.ssubOverflow_eq,
    BitVec.msb_and, BitVec.msb_xor, BitVec.msb_xor]
  cases x.msb <;> cases y.msb <;> cases (x - y).msb <;> rfl

/-- C145: negation. -/
theorem C145_negate_overflows (h0 : 0 < w) (ha : Denotes a x) : negateOverflows m a = ok x.negOverflow := by
  obtain ⟨r, h1, h2⟩ := C08_negate m h0 ha
  obtain ⟨c, h3, h4, -⟩ := C10_and m ha h2
  rw [negateOverflows, h1, ok_bind, h3, ok_bind, (C25_is_negative m h0 h4).1, BitVec.negOverflow_eq, BitVec.msb_and, BitVec.msb_neg]
  congr 1
  rw [decide_eq_true h0, Bool.true_and]
  by_cases hm : x = BitVec.intMin w
  · subst hm
    rw [BitVec.msb_intMin, decide_eq_true h0, bne_self_eq_false, Bool.and_false, beq_self_eq_true]
    rfl
  · rw [beq_eq_false_iff_ne.2 hm, show (x != BitVec.intMin w) = true from bne_iff_ne.2 hm, Bool.and_true]
    by_cases hz : x = 0#w
    · rw [hz, BitVec.msb_zero, Bool.false_and]
    · rw [bne_iff_ne.2 hz]
      cases x.msb <;> rfl

/-- C145: unsigned products. -/
theorem C145_mul_overflows (h0 : 0 < w) (hw : w + w < 2 ^ 32) (ha : Denotes a x) (hb : Denotes b y) :
    mulOverflows m a b = ok (x.umulOverflow y) := by
  obtain ⟨p, h1, h2, -⟩ := C22_zero_extend_partial m ha w hw (.inl h0)
  obtain ⟨q, h3, h4, -⟩ := C22_zero_extend_partial m hb w hw (.inl h0)
  obtain ⟨r, h5, h6⟩ := C135_multiply m (by omega) h2 h4
  obtain ⟨h, h7, h8⟩ := C19_slice m h6 (msb := w + w - 1) (lsb := w) (by omega) (by omega)
  rw [mulOverflows, ha.width_eq, h1, ok_bind, h3, ok_bind, h5, ok_bind, h7, ok_bind, C25_is_zero h8, BitVec.umulOverflow]
  congr 1
  rw [← decide_not, decide_eq_decide, ← BitVec.toNat_inj, BitVec.extractLsb'_toNat, BitVec.toNat_mul, BitVec.toNat_setWidth,
    BitVec.toNat_setWidth, BitVec.toNat_ofNat, Nat.zero_mod]
  have hx := x.isLt
  have hy := y.isLt
  have hxy : x.toNat * y.toNat < 2 ^ w * 2 ^ w := Nat.mul_lt_mul'' hx hy
  have hle : 2 ^ w ≤ 2 ^ (w + w) := Nat.pow_le_pow_right (by omega) (by omega)
  rw [Nat.mod_eq_of_lt (Nat.lt_of_lt_of_le hx hle), Nat.mod_eq_of_lt (Nat.lt_of_lt_of_le hy hle),
    Nat.mod_eq_of_lt (a := x.toNat * y.toNat) (by rw [Nat.pow_add]; exact hxy), Nat.shiftRight_eq_div_pow,
    show w + w - 1 - w + 1 = w by omega, Nat.mod_eq_of_lt (Nat.div_lt_of_lt_mul hxy), Nat.div_eq_zero_iff]
  have := Nat.two_pow_pos w
  omega

/-- The integer fits exactly if reducing it to the width does not change it. -/
theorem bmod_fits (h0 : 0 < w) (z : Int) : z.bmod (2 ^ w) = z ↔ -2 ^ (w - 1) ≤ z ∧ z < 2 ^ (w - 1) := by
  obtain ⟨k, rfl⟩ : ∃ k, w = k + 1 := ⟨w - 1, by omega⟩
  have e : ((2 ^ (k + 1) : Nat) : Int) = 2 * 2 ^ k := by push_cast; rw [Int.pow_succ, Int.mul_comm]
  have hp : (0 : Int) < 2 ^ k := Int.pow_pos (by decide)
  rw [Nat.add_sub_cancel, Int.bmod_eq_iff (Nat.two_pow_pos _), e]
  constructor
  · omega
  · intro h
    exact ⟨by omega, by omega, by rw [Int.sub_self]; exact Int.dvd_zero _⟩

/-- C145: signed products. -/
theorem C145_mul_overflows_signed (h0 : 0 < w) (hw : w + w < 2 ^ 32) (ha : Denotes a x) (hb : Denotes b y) :
    mulOverflowsSigned m a b = ok (x.smulOverflow y) := by
  obtain ⟨p, h1, h2, e1⟩ := C23_sign_extend m h0 ha w hw
  obtain ⟨q, h3, h4, e2⟩ := C23_sign_extend m h0 hb w hw
  obtain ⟨r, h5, h6⟩ := C135_multiply m (by omega) h2 h4
  obtain ⟨l, h7, h8⟩ := C19_slice m h6 (msb := w - 1) (lsb := 0) (by omega) (by omega)
  have hl : Denotes l (x * y) := denotes_bits (by omega) h8 fun i hi => by
    have : x * y = (x.signExtend (w + w) * y.signExtend (w + w)).setWidth w := by
      rw [BitVec.setWidth_mul _ _ (by omega)]
      congr 1 <;> apply BitVec.eq_of_getLsbD_eq <;> intro j hj <;>
        rw [BitVec.getLsbD_setWidth, BitVec.getLsbD_signExtend, if_pos hj, decide_eq_true hj, decide_eq_true (by omega)] <;> rfl
    rw [this, BitVec.getLsbD_extractLsb', BitVec.getLsbD_setWidth, Nat.zero_add, decide_eq_true hi, decide_eq_true (by omega)]
  obtain ⟨s, h9, h10, e3⟩ := C23_sign_extend m h0 hl w hw
  rw [mulOverflowsSigned, ha.width_eq, h1, ok_bind, h3, ok_bind, h5, ok_bind, h7, ok_bind, h9, ok_bind, C15_is_equal m h6 h10, ok_bind,
    BitVec.smulOverflow]
  congr 1
  rw [← decide_not, ← Bool.decide_or, decide_eq_decide, ← BitVec.toInt_inj, e3, BitVec.toInt_mul, BitVec.toInt_mul, e1, e2]
  have big : (x.toInt * y.toInt).bmod (2 ^ (w + w)) = x.toInt * y.toInt := by
    rw [bmod_fits (by omega)]
    have l1 := BitVec.toInt_mul_toInt_le (x := x) (y := y)
    have l2 := BitVec.le_toInt_mul_toInt (x := x) (y := y)
    obtain ⟨k, rfl⟩ : ∃ k, w = k + 1 := ⟨w - 1, by omega⟩
    rw [show (k + 1) * 2 - 2 = 2 * k by omega] at l1 l2
    rw [show k + 1 + (k + 1) - 1 = 2 * k + 1 by omega, Int.pow_succ]
    have hp : (0 : Int) < 2 ^ (2 * k) := Int.pow_pos (by decide)
    omega
  rw [big, eq_comm, bmod_fits h0]
  omega

/-- C145: unsigned sums that stop at the greatest value. -/
theorem C145_add_saturating (h0 : 0 < w) (ha : Denotes a x) (hb : Denotes b y) :
    ∃ r z, addSaturating m a b = ok r ∧ Denotes r (z : BitVec w) ∧ z.toNat = min (x.toNat + y.toNat) (2 ^ w - 1) := by
  unfold addSaturating
  rw [C145_add_overflows m h0 ha hb, ok_bind]
  have hp := Nat.two_pow_pos w
  by_cases h : x.uaddOverflow y = true
  · obtain ⟨r, h1, h2⟩ := C01_ones m h0 ha.width_lt
    rw [if_pos h, ha.width_eq]
    refine ⟨r, _, h1, h2, ?_⟩
    rw [BitVec.uaddOverflow, decide_eq_true_eq] at h
    rw [BitVec.toNat_allOnes]
    omega
  · obtain ⟨r, h1, h2⟩ := C06_add m h0 ha hb
    rw [if_neg h]
    refine ⟨r, _, h1, h2, ?_⟩
    rw [BitVec.uaddOverflow, decide_eq_true_eq] at h
    rw [BitVec.toNat_add, Nat.mod_eq_of_lt (by omega)]
    omega

/-- C145: unsigned differences that stop at zero. -/
theorem C145_sub_saturating (h0 : 0 < w) (ha : Denotes a x) (hb : Denotes b y) :
    ∃ r z, subSaturating m a b = ok r ∧ Denotes r (z : BitVec w) ∧ z.toNat = x.toNat - y.toNat := by
  unfold subSaturating
  rw [C16_is_less m ha hb, ok_bind]
  by_cases h : x.toNat < y.toNat
  · rw [if_pos (decide_eq_true h), ha.width_eq]
    refine ⟨_, _, rfl, C01_zero ha.width_lt, ?_⟩
    rw [BitVec.toNat_ofNat, Nat.zero_mod]
    omega
  · obtain ⟨r, h1, h2⟩ := C07_sub m h0 ha hb
    rw [if_neg (by simpa using h)]
    exact ⟨r, _, h1, h2, BitVec.toNat_sub_of_le (BitVec.le_def.2 (by omega))⟩

theorem signedBound_denotes (h0 : 0 < w) (ha : Denotes a x) :
    ∃ r z, signedBound m a = ok r ∧ Denotes r (z : BitVec w) ∧ z.toInt = if x.msb then -2 ^ (w - 1) else 2 ^ (w - 1) - 1 := by
  obtain ⟨s, z, h1, h2, h3⟩ := C24_set_bit (C01_zero (w := w) ha.width_lt) (pos := w - 1) (by omega)
  have hz : z = BitVec.intMin w := by
    apply BitVec.eq_of_getLsbD_eq
    intro i hi
    rw [h3, BitVec.getLsbD_zero, Bool.false_or, BitVec.getLsbD_intMin]
    by_cases e : i + 1 = w
    · rw [decide_eq_true (by omega), decide_eq_true e]
    · rw [decide_eq_false (by omega), decide_eq_false e]
  subst hz
  obtain ⟨k, rfl⟩ : ∃ k, w = k + 1 := ⟨w - 1, by omega⟩
  have hi : (BitVec.intMin (k + 1)).toInt = -2 ^ k := by
    rw [BitVec.toInt_intMin, Nat.add_sub_cancel, Nat.mod_eq_of_lt (Nat.pow_lt_pow_succ (by decide))]
    push_cast
    rfl
  unfold signedBound
  rw [ha.width_eq, h1, ok_bind, (C25_is_negative m h0 ha).1, ok_bind]
  by_cases hx : x.msb = true
  · rw [if_pos hx, if_pos hx]
    exact ⟨s, _, rfl, h2, by rw [hi]; rfl⟩
  · obtain ⟨n, h4, h5⟩ := C11_not m h0 h2
    rw [if_neg hx, if_neg hx]
    refine ⟨n, _, h4, h5, ?_⟩
    rw [BitVec.toInt_not, BitVec.toNat_intMin, Nat.add_sub_cancel, Nat.mod_eq_of_lt (Nat.pow_lt_pow_succ (by decide))]
    have := (bmod_fits (w := k + 1) (by omega) (2 ^ k - 1)).2
    rw [Nat.add_sub_cancel] at this
    have hp : (0 : Int) < 2 ^ k := Int.pow_pos (by decide)
    have e := this ⟨by omega, by omega⟩
    rw [show (2 : Int) ^ (k + 1) - 1 - ((2 ^ k : Nat) : Int) = 2 ^ k - 1 by push_cast; rw [Int.pow_succ]; omega]
    exact e

/-- C145: signed sums that stop at the ends of the range. -/
theorem C145_add_saturating_signed (h0 : 0 < w) (ha : Denotes a x) (hb : Denotes b y) :
    ∃ r z, addSaturatingSigned m a b = ok r ∧ Denotes r (z : BitVec w) ∧ z.toInt = clampSigned w (x.toInt + y.toInt) := by
  unfold addSaturatingSigned
  rw [C145_add_overflows_signed m h0 ha hb, ok_bind]
  have x1 := BitVec.toInt_lt (x := x)
  have x2 := BitVec.le_toInt x
  have y1 := BitVec.toInt_lt (x := y)
  have y2 := BitVec.le_toInt y
  by_cases h : x.saddOverflow y = true
  · obtain ⟨r, z, h1, h2, h3⟩ := signedBound_denotes m h0 ha
    rw [if_pos h]
    refine ⟨r, z, h1, h2, ?_⟩
    rw [BitVec.saddOverflow, ← Bool.decide_or, decide_eq_true_eq] at h
    rw [h3, clampSigned]
    simp only [BitVec.msb_eq_toInt, decide_eq_true_eq]
    split <;> split <;> (try split) <;> omega
  · obtain ⟨r, h1, h2⟩ := C06_add m h0 ha hb
    rw [if_neg h]
    refine ⟨r, _, h1, h2, ?_⟩
    rw [BitVec.saddOverflow, ← Bool.decide_or, decide_eq_true_eq] at h
    rw [BitVec.toInt_add, clampSigned, if_neg (by omega), if_neg (by omega), (bmod_fits h0 _).2 ⟨by omega, by omega⟩]

/-- C145: signed differences that stop at the ends of the range. -/
theorem C145_sub_saturating_signed (h0 : 0 < w) (ha : Denotes a x) (hb : Denotes b y) :
    ∃ r z, subSaturatingSigned m a b = ok r ∧ Denotes r (z : BitVec w) ∧ z.toInt = clampSigned w (x.toInt - y.toInt) := by
  unfold subSaturatingSigned
  rw [C145_sub_overflows_signed m h0 ha hb, ok_bind]
  have x1 := BitVec.toInt_lt (x := x)
  have x2 := BitVec.le_toInt x
  have y1 := BitVec.toInt_lt (x := y)
  have y2 := BitVec.le_toInt y
  by_cases h : x.ssubOverflow y = true
  · obtain ⟨r, z, h1, h2, h3⟩ := signedBound_denotes m h0 ha
    rw [if_pos h]
    refine ⟨r, z, h1, h2, ?_⟩
    rw [BitVec.ssubOverflow, ← Bool.decide_or, decide_eq_true_eq] at h
    rw [h3, clampSigned]
    simp only [BitVec.msb_eq_toInt, decide_eq_true_eq]
    split <;> split <;> (try split) <;> omega
  · obtain ⟨r, h1, h2⟩ := C07_sub m h0 ha hb
    rw [if_neg h]
    refine ⟨r, _, h1, h2, ?_⟩
    rw [BitVec.ssubOverflow, ← Bool.decide_or, decide_eq_true_eq] at h
    rw [BitVec.toInt_sub, clampSigned, if_neg (by omega), if_neg (by omega), (bmod_fits h0 _).2 ⟨by omega, by omega⟩]

end Operators

example : addOverflows .debug (encode (BitVec.allOnes 65)) (encode 1#65) = ok true ∧
    addOverflowsSigned .debug (encode (BitVec.allOnes 65)) (encode 1#65) = ok false ∧
    addOverflowsSigned .debug (encode (BitVec.intMax 65)) (encode 1#65) = ok true ∧
    subOverflowsSigned .debug (encode (BitVec.intMin 65)) (encode 1#65) = ok true ∧
    negateOverflows .debug (encode (BitVec.intMin 65)) = ok true ∧
    mulOverflows .debug (encode (BitVec.twoPow 65 33)) (encode (BitVec.twoPow 65 32)) = ok true ∧
    mulOverflows .debug (encode (BitVec.twoPow 65 32)) (encode (BitVec.twoPow 65 32)) = ok false ∧
    mulOverflowsSigned .debug (encode (BitVec.twoPow 65 32)) (encode (BitVec.twoPow 65 32)) = ok true ∧
    mulOverflowsSigned .debug (encode (BitVec.twoPow 65 32)) (encode (-BitVec.twoPow 65 32)) = ok false ∧
    addSaturating .debug (encode (BitVec.allOnes 65)) (encode 5#65) = ok (encode (BitVec.allOnes 65)) ∧
    subSaturating .debug (encode 4#65) (encode 5#65) = ok (encode 0#65) ∧
    addSaturatingSigned .debug (encode (BitVec.intMax 65)) (encode 1#65) = ok (encode (BitVec.intMax 65)) ∧
    subSaturatingSigned .debug (encode (BitVec.intMin 65)) (encode 1#65) = ok (encode (BitVec.intMin 65)) := by decide +kernel

end Baa
