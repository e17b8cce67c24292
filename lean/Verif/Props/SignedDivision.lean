import Verif.Props.Algorithms
import Verif.Spec.SignedDivision

/-!
# C142: signed division
-/

namespace Baa
open Res

theorem absValue_denotes (m : Mode) {w : Nat} (h0 : 0 < w) {a : BitVecValue} {x : BitVec w} (ha : Denotes a x) :
    ∃ r, absValue m a = ok r ∧ Denotes r (if x.msb then -x else x) := by
  rw [absValue, (C25_is_negative m h0 ha).1, ok_bind]
  cases x.msb
  · exact ⟨a, rfl, ha⟩
  · exact C08_negate m h0 ha

/-- The quotient and the remainder of `signedDivision`. -/
theorem signedDivision_denotes (m : Mode) {w : Nat} (h0 : 0 < w) (hw : w + 1 < 2 ^ 32) {a b : BitVecValue} {x y : BitVec w} (ha : Denotes a x)
    (hb : Denotes b y) : ∃ q r, signedDivision m a b = ok (q, r) ∧ Denotes q (x.smtSDiv y) ∧ Denotes r (x.srem y) := by
  obtain ⟨na, -⟩ := C25_is_negative m h0 ha
  obtain ⟨nb, -⟩ := C25_is_negative m h0 hb
  obtain ⟨p, p1, p2⟩ := absValue_denotes m h0 ha
  obtain ⟨s, s1, s2⟩ := absValue_denotes m h0 hb
  obtain ⟨q, r, d1, d2, d3⟩ := C135_divide m h0 hw p2 s2
  have e1 : Denotes q ((if x.msb then -x else x).smtUDiv (if y.msb then -y else y)) := by
    rw [BitVec.smtUDiv_eq]
    by_cases hy : (if y.msb then -y else y) = 0#w
    · rw [if_pos hy]
      exact (d3 hy).1
    · rw [if_neg hy]
      exact (d2 hy).1
  have e2 : Denotes r ((if x.msb then -x else x) % (if y.msb then -y else y)) := by
    by_cases hy : (if y.msb then -y else y) = 0#w
    · rw [hy, BitVec.umod_zero, (d3 hy).2]
      exact p2
    · exact (d2 hy).2
  have hq : ∃ q', (if x.msb = y.msb then ok q else BitVecValue.negate m q) = ok q' ∧ Denotes q' (x.smtSDiv y) := by
    rw [BitVec.smtSDiv_eq]
    revert e1
    cases x.msb <;> cases y.msb <;> intro e1
    · exact ⟨q, rfl, e1⟩
    · exact C08_negate m h0 e1
    · exact C08_negate m h0 e1
    · exact ⟨q, rfl, e1⟩
  have hr : ∃ r', (if x.msb then BitVecValue.negate m r else ok r) = ok r' ∧ Denotes r' (x.srem y) := by
    rw [BitVec.srem_eq]
    revert e2
    cases x.msb <;> cases y.msb <;> intro e2
    · exact ⟨r, rfl, e2⟩
    · exact ⟨r, rfl, e2⟩
    · exact C08_negate m h0 e2
    · exact C08_negate m h0 e2
  obtain ⟨q', q1, q2⟩ := hq
  obtain ⟨r', r1, r2⟩ := hr
  refine ⟨q', r', ?_, q2, r2⟩
  rw [signedDivision, na, ok_bind, nb, ok_bind, p1, ok_bind, s1, ok_bind, ha.width_eq, d1, ok_bind]
  show ((if x.msb = y.msb then ok q else BitVecValue.negate m q) >>= fun q => (if x.msb then BitVecValue.negate m r else ok r) >>= fun r =>
    ok (q, r)) = _
  rw [q1, ok_bind, r1, ok_bind]

/-- **C142** Dividing the magnitudes and putting the signs back is signed division: the quotient rounds towards zero (and wraps for the
most negative number divided by -1), the remainder has the sign of the dividend; dividing by zero gives -1, or 1 for a negative dividend,
and the dividend. -/
theorem C142_signed_division (m : Mode) {w : Nat} (h0 : 0 < w) (hw : w + 1 < 2 ^ 32) {a b : BitVecValue} {x y : BitVec w} (ha : Denotes a x)
    (hb : Denotes b y) :
    ∃ q r zq zr, signedDivision m a b = ok (q, r) ∧ Denotes q (zq : BitVec w) ∧ Denotes r (zr : BitVec w) ∧
      (y ≠ 0#w → zq.toInt = (x.toInt.tdiv y.toInt).bmod (2 ^ w)) ∧ (y = 0#w → zq = if x.toInt < 0 then 1#w else BitVec.allOnes w) ∧
      zr.toInt = x.toInt.tmod y.toInt := by
  obtain ⟨-, hna⟩ := C25_is_negative m h0 ha
  obtain ⟨q, r, h1, h2, h3⟩ := signedDivision_denotes m h0 hw ha hb
  refine ⟨q, r, _, _, h1, h2, h3, fun hy => ?_, fun hy => ?_, BitVec.toInt_srem x y⟩
  · rw [← BitVec.toInt_sdiv]
    congr 1
    have hn : -y ≠ 0#w := fun h => hy (by have := congrArg (fun z => -z) h; simpa using this)
    rw [BitVec.smtSDiv_eq, BitVec.sdiv_eq, BitVec.smtUDiv_eq, BitVec.smtUDiv_eq, BitVec.smtUDiv_eq, BitVec.smtUDiv_eq, if_neg hy, if_neg hn, if_neg hy,
      if_neg hn]
    rfl
  · rw [hy, BitVec.smtSDiv_eq, BitVec.msb_zero]
    by_cases hx : x.msb = true
    · rw [if_pos (hna.mp hx), hx]
      show -(BitVec.allOnes w) = 1#w
      rw [← BitVec.neg_one_eq_allOnes, BitVec.neg_neg]
    · rw [if_neg (mt hna.mpr hx), Bool.not_eq_true _ |>.mp hx]
      rfl

/-- Rounding down instead of towards zero. -/
theorem floor_of_trunc (X Y : Int) (hY : Y ≠ 0) :
    X.fdiv Y = X.tdiv Y - (if X.tmod Y = 0 ∨ (X.tmod Y < 0 ↔ Y < 0) then 0 else 1) ∧
      X.fmod Y = X.tmod Y + (if X.tmod Y = 0 ∨ (X.tmod Y < 0 ↔ Y < 0) then 0 else Y) := by
  have h1 : X.fdiv Y = X.tdiv Y - (if X.tmod Y = 0 ∨ (X.tmod Y < 0 ↔ Y < 0) then 0 else 1) := by
    rw [Int.fdiv_eq_tdiv]
    congr 1
    by_cases hd : Y ∣ X
    · rw [if_pos hd, if_pos (.inl (Int.tmod_eq_zero_of_dvd hd))]
    · have hr : X.tmod Y ≠ 0 := mt Int.dvd_of_tmod_eq_zero hd
      rw [if_neg hd]
      by_cases hx : 0 ≤ X
      · have := Int.tmod_nonneg Y hx
        rw [if_pos hx]
        by_cases hy : 0 ≤ Y
        · rw [if_pos hy, if_pos (by omega)]
        · rw [if_neg hy, if_neg (by omega)]
      · have := Int.tmod_nonneg Y (show 0 ≤ -X by omega)
        rw [Int.neg_tmod] at this
        rw [if_neg hx]
        by_cases hy : 0 ≤ Y
        · rw [if_pos hy, if_neg (by omega), Int.sign_eq_one_of_pos (by omega)]
        · rw [if_neg hy, if_pos (by omega), Int.sign_eq_neg_one_of_neg (by omega)]
          rfl
  refine ⟨h1, ?_⟩
  rw [Int.fmod_def, h1]
  have := Int.tmod_def X Y
  split
  · rw [Int.sub_zero, Int.add_zero, this]
  · rw [Int.mul_sub, Int.mul_one]
    omega

/-- **C142** With the correction for a remainder of the wrong sign it is division that rounds down, and the remainder has the sign of the
divisor. -/
theorem C142_floor_division (m : Mode) {w : Nat} (h0 : 0 < w) (hw : w + 1 < 2 ^ 32) {a b : BitVecValue} {x y : BitVec w} (ha : Denotes a x)
    (hb : Denotes b y) (hy : y ≠ 0#w) :
    ∃ q r zq zr, floorDivision m a b = ok (q, r) ∧ Denotes q (zq : BitVec w) ∧ Denotes r (zr : BitVec w) ∧
      zq.toInt = (x.toInt.fdiv y.toInt).bmod (2 ^ w) ∧ zr.toInt = x.toInt.fmod y.toInt := by
  obtain ⟨q, r, zq, zr, d1, d2, d3, d4, -, d6⟩ := C142_signed_division m h0 hw ha hb
  have hyi : y.toInt ≠ 0 := fun h => hy (BitVec.eq_of_toInt_eq (by rw [h]; simp))
  obtain ⟨f1, f2⟩ := floor_of_trunc x.toInt y.toInt hyi
  have hz : (zr = 0#w) ↔ x.toInt.tmod y.toInt = 0 := by
    rw [← d6]
    exact ⟨fun h => by rw [h]; simp, fun h => BitVec.eq_of_toInt_eq (by rw [h]; simp)⟩
  have hc : (BitVecValue.isZero r || zr.msb == y.msb) = decide (x.toInt.tmod y.toInt = 0 ∨ (x.toInt.tmod y.toInt < 0 ↔ y.toInt < 0)) := by
    rw [C25_is_zero d3, Bool.decide_or, BitVec.msb_eq_toInt, BitVec.msb_eq_toInt, d6]
    congr 1
    · exact decide_eq_decide.mpr hz
    · by_cases h1 : x.toInt.tmod y.toInt < 0 <;> by_cases h2 : y.toInt < 0 <;> simp [h1, h2]
  have e : floorDivision m a b = if (BitVecValue.isZero r || zr.msb == y.msb) = true then ok (q, r) else
      BitVecValue.fromU64 m 1#64 a.width >>= fun one => BitVecValue.sub m q one >>= fun q => BitVecValue.add m r b >>= fun r => ok (q, r) := by
    rw [floorDivision, d1, ok_bind]
    show (BitVecValue.isNegative m r >>= _) = _
    rw [(C25_is_negative m h0 d3).1, ok_bind, (C25_is_negative m h0 hb).1, ok_bind]
  rw [e, hc]
  by_cases hk : x.toInt.tmod y.toInt = 0 ∨ (x.toInt.tmod y.toInt < 0 ↔ y.toInt < 0)
  · rw [if_pos hk, Int.sub_zero] at f1
    rw [if_pos hk, Int.add_zero] at f2
    rw [decide_eq_true hk, if_pos rfl]
    exact ⟨q, r, zq, zr, rfl, d2, d3, by rw [f1, d4 hy], by rw [f2, d6]⟩
  · rw [if_neg hk] at f1 f2
    rw [decide_eq_false hk, if_neg (by decide)]
    obtain ⟨o, o1, o2⟩ := C01_from_u64 m h0 ha.width_lt 1#64 (by simpa using Nat.one_lt_two_pow (show w ≠ 0 by omega))
    obtain ⟨q', q1, q2⟩ := C07_sub m h0 d2 o2
    obtain ⟨r', r1, r2⟩ := C06_add m h0 d3 hb
    refine ⟨q', r', _, _, by rw [ha.width_eq, o1, ok_bind, q1, ok_bind, r1, ok_bind], q2, r2, ?_, ?_⟩
    · rw [BitVec.toInt_sub, d4 hy, BitVec.toInt_ofNat', Int.sub_bmod_bmod, Int.bmod_sub_bmod, f1]
      rfl
    · rw [BitVec.toInt_add, d6, ← f2, ← BitVec.toInt_smod, BitVec.toInt_eq_toNat_bmod, Int.bmod_bmod]

/-- **C142** Division that rounds down, by a power of two, is `arithmetic_shift_right`. -/
theorem C142_shift (m : Mode) {w k : Nat} (hk : k + 1 < w) (hw : w + 1 < 2 ^ 32) {a b s : BitVecValue} {x : BitVec w} (ha : Denotes a x)
    (hb : Denotes b (BitVec.twoPow w k)) (hs : Denotes s (BitVec.ofNat w k)) :
    ∃ q r, floorDivision m a b = ok (q, r) ∧ BitVecValue.arithmeticShiftRight m a s = ok q := by
  have h0 : 0 < w := by omega
  have e : (BitVec.twoPow w k).toInt = 2 ^ k := by rw [BitVec.toInt_twoPow, if_neg (by omega), if_neg (by omega)]
  have hp : (0 : Int) < 2 ^ k := Int.pow_pos (by decide)
  obtain ⟨q, r, zq, zr, d1, d2, -, d4, -⟩ := C142_floor_division m h0 hw ha hb fun h => by
    rw [h] at e
    simp at e
    omega
  obtain ⟨t, z, t1, t2, t3⟩ := C14_arithmetic_shift_right_toInt m h0 ha hs
  refine ⟨q, r, d1, ?_⟩
  have hkm : (BitVec.ofNat w k).toNat = k := by
    rw [BitVec.toNat_ofNat, Nat.mod_eq_of_lt (Nat.lt_trans (by omega) (Nat.lt_two_pow_self (n := w)))]
  have : z = zq := by
    apply BitVec.eq_of_toInt_eq
    rw [d4, e, Int.fdiv_eq_ediv_of_nonneg _ (by omega), ← hkm, ← t3, BitVec.toInt_eq_toNat_bmod, Int.bmod_bmod]
  subst this
  rw [t1, t2.repr_unique d2]

example : signedDivision .debug (encode (-7#70)) (encode 2#70) = ok (encode (-3#70), encode (-1#70)) ∧
    floorDivision .debug (encode (-7#70)) (encode 2#70) = ok (encode (-4#70), encode 1#70) ∧
    BitVecValue.arithmeticShiftRight .debug (encode (-7#70)) (encode 1#70) = ok (encode (-4#70)) ∧
    signedDivision .debug (encode (-128#8)) (encode (-1#8)) = ok (encode (-128#8), encode 0#8) ∧
    signedDivision .debug (encode (-5#8)) (encode 0#8) = ok (encode 1#8, encode (-5#8)) := by
  decide +kernel

end Baa
