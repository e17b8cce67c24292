import Verif.Props.RawObs
import Verif.Props.WidthLaws

/-!
# C99, C100: laws of left shifts, and operations that preserve or reverse the order

As in C65–C69 and C96, C97 the laws are stated about the calls themselves. `shift_left` can leave bits above the width
(C12); where that matters the law speaks of the result after `mask_msb`.
-/

namespace Baa
open Res

variable (m : Mode) {w : Nat} {a b c : BitVecValue} {x y z : BitVec w}

theorem Shows.mask_msb {v : BitVecValue} {w : Nat} {x : BitVec w} (h : Shows v x) (hw : 0 < w) :
    ∃ r, BitVecValue.maskMsb m v = ok r ∧ Denotes r x := by
  obtain ⟨r, h1, h2⟩ := C87_mask_msb m (N := wordsVal v.words) hw ⟨h.width_lt, h.width_eq, h.length_eq, rfl⟩
  refine ⟨r, h1, ?_⟩
  have e : Baa.low w (wordsVal v.words) = x := BitVec.eq_of_toNat_eq (by rw [Baa.low, BitVec.toNat_ofNat, h.val_mod])
  rwa [e] at h2

/-! ## C99 left shifts -/

/-- **C99** Shifting left by one is adding the value to itself. -/
theorem C99_double (hw : 0 < w) (ha : Denotes a x) (hb : Denotes b y) (hy : y.toNat = 1) :
    ∃ r, BitVecValue.shiftLeft m a b = ok r ∧ BitVecValue.add m a a = ok r := by
  obtain ⟨r, h1, d1⟩ := C12_shift_left_partial m hw ha hb (.inl (by rw [hy]; decide))
  obtain ⟨s, h2, d2⟩ := C06_add m hw ha ha
  have e : x <<< y.toNat = x + x := by
    apply BitVec.eq_of_toNat_eq
    rw [BitVec.toNat_shiftLeft, BitVec.toNat_add, hy, Nat.shiftLeft_eq]
    congr 1
    omega
  rw [e] at d1
  exact ⟨r, h1, by rw [h2, d2.repr_unique d1]⟩

example : BitVecValue.shiftLeft .debug (encode (BitVec.allOnes 130)) (encode 1#130) =
    BitVecValue.add .debug (encode (BitVec.allOnes 130)) (encode (BitVec.allOnes 130)) := by decide +kernel

/-- **C99** Up to 64 bits, shifting left by `k` is multiplying with the value in which only bit `k` is set. -/
theorem C99_mul_power (hw : 0 < w) (hw64 : w ≤ 64) (ha : Denotes a x) (hb : Denotes b y) (hk : y.toNat < w) :
    ∃ p r, BitVecValue.setBit (BitVecValue.zero w) y.toNat = ok p ∧ BitVecValue.mul m a p = ok r ∧
      BitVecValue.shiftLeft m a b = ok r := by
  obtain ⟨p, z, h1, d1, e1⟩ := C24_set_bit (C01_zero (w := w) ha.width_lt) hk
  obtain ⟨r, h2, d2⟩ := C09_mul_partial m hw hw64 ha d1
  obtain ⟨s, h3, d3⟩ := C12_shift_left_partial m hw ha hb (by omega)
  have hz : z = BitVec.twoPow w y.toNat := by
    apply BitVec.eq_of_getLsbD_eq
    intro i hi
    rw [e1, BitVec.getLsbD_twoPow]
    simp only [BitVec.getLsbD_zero, Bool.false_or]
    by_cases h : i = y.toNat
    · simp [h, hk]
    · simp [h, Ne.symm h]
  rw [hz, BitVec.mul_twoPow_eq_shiftLeft] at d2
  exact ⟨p, r, h1, h2, by rw [h3, d3.repr_unique d2]⟩

example : ∃ p, BitVecValue.setBit (BitVecValue.zero 8) 3 = ok p ∧ BitVecValue.mul .debug (encode 0x55#8) p = ok (encode 0xa8#8) ∧
    BitVecValue.shiftLeft .debug (encode 0x55#8) (encode 3#8) = ok (encode 0xa8#8) := ⟨encode 8#8, by decide +kernel⟩

/-- **C99** Shifting left and back right by `k` is zero extension (arithmetic: sign extension) of the low `w - k` bits, for
every width: stray bits of the left shift do not show. -/
theorem C99_left_right (ha : Denotes a x) (hb : Denotes b y) (hk : y.toNat < w) :
    ∃ t s r r', BitVecValue.shiftLeft m a b = ok t ∧ BitVecValue.slice m a (w - 1 - y.toNat) 0 = ok s ∧
      BitVecValue.shiftRight m t b = ok r ∧ BitVecValue.zeroExtend m s y.toNat = ok r ∧
      BitVecValue.arithmeticShiftRight m t b = ok r' ∧ BitVecValue.signExtend m s y.toNat = ok r' := by
  have hw : 0 < w := by omega
  have hlt := ha.width_lt
  obtain ⟨t, h1, s1, _⟩ := C77_shift_left_partial m hw ha.shows hb
  obtain ⟨s, h2, d2⟩ := narrow_spec m ha (j := w - 1 - y.toNat) (by omega)
  obtain ⟨r, h3, d3⟩ := C77_shift_right_partial m hw s1 hb
  obtain ⟨r', h4, d4⟩ := C77_arithmetic_shift_right_partial m hw s1 hb
  obtain ⟨p, h5, d5, _⟩ := C22_zero_extend_partial m d2 y.toNat (by omega) (.inl (by omega))
  obtain ⟨q, h6, d6, _⟩ := C23_sign_extend m (by omega) d2 y.toNat (by omega)
  refine ⟨t, s, r, r', h1, h2, h3, ?_, h4, ?_⟩
  · have d5' : Denotes p ((x <<< y.toNat) >>> y.toNat) := by
      refine Denotes.of_bit hlt (by rw [d5.width_eq]; omega) (by rw [d5.length_eq]; congr 1; omega) fun i => ?_
      rw [d5.bit]
      simp only [BitVec.getLsbD_setWidth, BitVec.getLsbD_ushiftRight, BitVec.getLsbD_shiftLeft]
      by_cases h : i < w - y.toNat
      · simp [show i < w - 1 - y.toNat + 1 by omega, show i < w - 1 - y.toNat + 1 + y.toNat by omega,
          show y.toNat + i < w by omega, show ¬ y.toNat + i < y.toNat by omega]
      · simp [show ¬ i < w - 1 - y.toNat + 1 by omega, show ¬ y.toNat + i < w by omega]
    rw [h5, d5'.repr_unique d3]
  · have d6' : Denotes q ((x <<< y.toNat).sshiftRight y.toNat) := by
      refine Denotes.of_bit hlt (by rw [d6.width_eq]; omega) (by rw [d6.length_eq]; congr 1; omega) fun i => ?_
      rw [d6.bit]
      simp only [BitVec.getLsbD_signExtend, BitVec.getLsbD_sshiftRight, BitVec.getLsbD_setWidth, BitVec.getLsbD_shiftLeft,
        BitVec.msb_eq_getLsbD_last]
      by_cases h : i < w
      · by_cases h' : i < w - y.toNat
        · simp [show i < w - 1 - y.toNat + 1 by omega, show i < w - 1 - y.toNat + 1 + y.toNat by omega, h,
            show y.toNat + i < w by omega, show ¬ y.toNat + i < y.toNat by omega, show ¬ w ≤ i by omega]
        · simp [show ¬ i < w - 1 - y.toNat + 1 by omega, show i < w - 1 - y.toNat + 1 + y.toNat by omega,
            show ¬ y.toNat + i < w by omega, show ¬ w ≤ i by omega, show w - 1 < w by omega, show ¬ w - 1 < y.toNat by omega]
      · simp [show ¬ i < w - 1 - y.toNat + 1 + y.toNat by omega, show w ≤ i by omega]
    rw [h6, d6'.repr_unique d4]

/-- A left shift by 64 with a stray bit: the right shift does not bring it back. -/
example : ∃ t, BitVecValue.shiftLeft .debug (encode (BitVec.ofNat 100 (2 ^ 36 + 5))) (encode 64#100) = ok t ∧ ¬ Canonical t ∧
    BitVecValue.shiftRight .debug t (encode 64#100) = ok (encode 5#100) :=
  ⟨⟨100, [0#64, BitVec.ofNat 64 (2 ^ 36 + 5)]⟩, by decide +kernel, fun h => absurd h.val_lt (by decide +kernel), by decide +kernel⟩

/-- **C99** Shifting right and back left by `k` clears the low `k` bits: the result is the high part with zeros appended. -/
theorem C99_right_left (ha : Denotes a x) (hb : Denotes b y) (hk : y.toNat < w) (h0 : 0 < y.toNat) :
    ∃ t s r, BitVecValue.shiftRight m a b = ok t ∧ BitVecValue.shiftLeft m t b = ok r ∧
      BitVecValue.slice m a (w - 1) y.toNat = ok s ∧ BitVecValue.concat m s (BitVecValue.zero y.toNat) = ok r := by
  have hw : 0 < w := by omega
  have hlt := ha.width_lt
  obtain ⟨t, h1, d1⟩ := C13_shift_right m hw ha hb
  have hfit : (x >>> y.toNat).toNat * 2 ^ y.toNat < 2 ^ w := by
    rw [BitVec.toNat_ushiftRight, Nat.shiftRight_eq_div_pow]
    exact Nat.lt_of_le_of_lt (Nat.div_mul_le_self _ _) x.isLt
  obtain ⟨r, h2, d2⟩ := C12_shift_left_partial m hw d1 hb (.inr (.inr (.inr (.inr hfit))))
  obtain ⟨s, h3, d3⟩ := C19_slice m ha (msb := w - 1) (lsb := y.toNat) (by omega) (by omega)
  obtain ⟨q, h4, d4⟩ := C21_concat_partial m d3 (C01_zero (w := y.toNat) (by omega)) (by omega) (.inl ⟨by omega, h0⟩)
  refine ⟨t, s, r, h1, h2, h3, ?_⟩
  have d4' : Denotes q ((x >>> y.toNat) <<< y.toNat) := by
    refine Denotes.of_bit hlt (by rw [d4.width_eq]; omega) (by rw [d4.length_eq]; congr 1; omega) fun i => ?_
    rw [d4.bit]
    simp only [BitVec.getLsbD_append, BitVec.getLsbD_shiftLeft, BitVec.getLsbD_ushiftRight, BitVec.getLsbD_extractLsb',
      BitVec.getLsbD_zero]
    by_cases h : i < y.toNat
    · simp [h, show i < w by omega]
    · by_cases h' : i < w
      · simp [h, h', show i - y.toNat < w - 1 - y.toNat + 1 by omega]
      · simp [h, h', show ¬ i - y.toNat < w - 1 - y.toNat + 1 by omega]
  rw [h4, d4'.repr_unique d2]

example : ∃ t s, BitVecValue.shiftRight .debug (encode 0x77#8) (encode 4#8) = ok t ∧
    BitVecValue.shiftLeft .debug t (encode 4#8) = ok (encode 0x70#8) ∧ BitVecValue.slice .debug (encode 0x77#8) 7 4 = ok s ∧
    BitVecValue.concat .debug s (BitVecValue.zero 4) = ok (encode 0x70#8) := ⟨encode 7#8, encode 7#4, by decide +kernel⟩

/-- **C99** Shifting left by `k` is dropping the high `k` bits and appending `k` zeros, after `mask_msb`; without it unless `k`
is a multiple of 64. -/
theorem C99_left_concat (ha : Denotes a x) (hb : Denotes b y) (hk : y.toNat < w) (h0 : 0 < y.toNat) :
    ∃ t s r, BitVecValue.shiftLeft m a b = ok t ∧ BitVecValue.maskMsb m t = ok r ∧
      BitVecValue.slice m a (w - 1 - y.toNat) 0 = ok s ∧ BitVecValue.concat m s (BitVecValue.zero y.toNat) = ok r ∧
      (y.toNat % 64 ≠ 0 → t = r) := by
  have hw : 0 < w := by omega
  have hlt := ha.width_lt
  obtain ⟨t, h1, s1, c1⟩ := C77_shift_left_partial m hw ha.shows hb
  obtain ⟨r, h2, d2⟩ := s1.mask_msb m hw
  obtain ⟨s, h3, d3⟩ := narrow_spec m ha (j := w - 1 - y.toNat) (by omega)
  obtain ⟨q, h4, d4⟩ := C21_concat_partial m d3 (C01_zero (w := y.toNat) (by omega)) (by omega) (.inl ⟨by omega, h0⟩)
  refine ⟨t, s, r, h1, h2, h3, ?_, fun h => (c1 (.inl h)).repr_unique d2⟩
  have d4' : Denotes q (x <<< y.toNat) := by
    refine Denotes.of_bit hlt (by rw [d4.width_eq]; omega) (by rw [d4.length_eq]; congr 1; omega) fun i => ?_
    rw [d4.bit]
    simp only [BitVec.getLsbD_append, BitVec.getLsbD_shiftLeft, BitVec.getLsbD_setWidth, BitVec.getLsbD_zero]
    by_cases h : i < y.toNat
    · simp [h, show i < w by omega]
    · by_cases h' : i < w
      · simp [h, h', show i - y.toNat < w - 1 - y.toNat + 1 by omega]
      · simp [h, h', show ¬ i - y.toNat < w - 1 - y.toNat + 1 by omega]
  rw [h4, d4'.repr_unique d2]

example : ∃ t s, BitVecValue.shiftLeft .release (encode (BitVec.ofNat 100 (2 ^ 36 + 5))) (encode 64#100) = ok t ∧
    BitVecValue.slice .release (encode (BitVec.ofNat 100 (2 ^ 36 + 5))) 35 0 = ok s ∧
    BitVecValue.maskMsb .release t = BitVecValue.concat .release s (BitVecValue.zero 64) :=
  ⟨⟨100, [0#64, BitVec.ofNat 64 (2 ^ 36 + 5)]⟩, encode 5#36, by decide +kernel⟩

/-- **C99** Two left shifts are one shift by the sum if the sum of the amounts does not overflow, after `mask_msb`. -/
theorem C99_left_left (hw : 0 < w) (ha : Denotes a x) (hb : Denotes b y) (hc : Denotes c z) (hlt : y.toNat + z.toNat < 2 ^ w) :
    ∃ s t u v r, BitVecValue.add m b c = ok s ∧ BitVecValue.shiftLeft m a b = ok t ∧ BitVecValue.shiftLeft m t c = ok u ∧
      BitVecValue.shiftLeft m a s = ok v ∧ BitVecValue.maskMsb m u = ok r ∧ BitVecValue.maskMsb m v = ok r := by
  obtain ⟨s, h1, d1⟩ := C06_add m hw hb hc
  obtain ⟨t, h2, s2, _⟩ := C77_shift_left_partial m hw ha.shows hb
  obtain ⟨u, h3, s3, _⟩ := C77_shift_left_partial m hw s2 hc
  obtain ⟨v, h4, s4, _⟩ := C77_shift_left_partial m hw ha.shows d1
  obtain ⟨r, h5, d5⟩ := s3.mask_msb m hw
  obtain ⟨r', h6, d6⟩ := s4.mask_msb m hw
  refine ⟨s, t, u, v, r, h1, h2, h3, h4, h5, ?_⟩
  have e : (y + z).toNat = y.toNat + z.toNat := by rw [BitVec.toNat_add, Nat.mod_eq_of_lt hlt]
  rw [e, BitVec.shiftLeft_add] at d6
  rw [h6, d6.repr_unique d5]

example : ∃ t, BitVecValue.shiftLeft .debug (encode 3#130) (encode 60#130) = ok t ∧
    BitVecValue.shiftLeft .debug t (encode 7#130) = BitVecValue.shiftLeft .debug (encode 3#130) (encode 67#130) :=
  ⟨encode (BitVec.ofNat 130 (3 * 2 ^ 60)), by decide +kernel⟩

/-! ## C100 operations that preserve or reverse the order -/

/-- **C100** Extending both operands keeps equality and the order: zero extension the unsigned order, which then is also the
signed order, sign extension both orders. -/
theorem C100_extend (hw : 0 < w) (ha : Denotes a x) (hb : Denotes b y) {n : Nat} (hn : w + n < 2 ^ 32) :
    ∃ za zb sa sb, BitVecValue.zeroExtend m a n = ok za ∧ BitVecValue.zeroExtend m b n = ok zb ∧
      BitVecValue.signExtend m a n = ok sa ∧ BitVecValue.signExtend m b n = ok sb ∧
      BitVecValue.isEqual m za zb = BitVecValue.isEqual m a b ∧ BitVecValue.isGreater m za zb = BitVecValue.isGreater m a b ∧
      (0 < n → BitVecValue.isGreaterSigned m za zb = BitVecValue.isGreater m a b) ∧
      BitVecValue.isEqual m sa sb = BitVecValue.isEqual m a b ∧ BitVecValue.isGreater m sa sb = BitVecValue.isGreater m a b ∧
      BitVecValue.isGreaterSigned m sa sb = BitVecValue.isGreaterSigned m a b := by
  obtain ⟨za, h1, d1, _⟩ := C22_zero_extend_partial m ha n hn (.inl hw)
  obtain ⟨zb, h2, d2, _⟩ := C22_zero_extend_partial m hb n hn (.inl hw)
  obtain ⟨sa, h3, d3, e3⟩ := C23_sign_extend m hw ha n hn
  obtain ⟨sb, h4, d4, e4⟩ := C23_sign_extend m hw hb n hn
  have hp : 2 ^ w ≤ 2 ^ (w + n) := Nat.pow_le_pow_right (by decide) (by omega)
  have hx := x.isLt
  have hy := y.isLt
  have zx : (x.setWidth (w + n)).toNat = x.toNat := by rw [BitVec.toNat_setWidth, Nat.mod_eq_of_lt (by omega)]
  have zy : (y.setWidth (w + n)).toNat = y.toNat := by rw [BitVec.toNat_setWidth, Nat.mod_eq_of_lt (by omega)]
  refine ⟨za, zb, sa, sb, h1, h2, h3, h4, ?_, ?_, fun h0 => ?_, ?_, ?_, ?_⟩
  · rw [C15_is_equal m d1 d2, C15_is_equal m ha hb]
    congr 1
    apply decide_eq_decide.mpr
    rw [← BitVec.toNat_inj, zx, zy, BitVec.toNat_inj]
  · rw [C16_is_greater m d1 d2, C16_is_greater m ha hb, zx, zy]
  · rw [C18_is_greater_signed m (by omega) d1 d2, C16_is_greater m ha hb]
    have hp' : 2 ^ (w + n) ≥ 2 * 2 ^ w := by
      rw [show 2 * 2 ^ w = 2 ^ (w + 1) by rw [Nat.pow_succ]; omega]
      exact Nat.pow_le_pow_right (by decide) (by omega)
    rw [BitVec.toInt_eq_toNat_of_lt (by rw [zx]; omega), BitVec.toInt_eq_toNat_of_lt (by rw [zy]; omega), zx, zy]
    congr 1
    exact decide_eq_decide.mpr (by omega)
  · rw [C15_is_equal m d3 d4, C15_is_equal m ha hb]
    congr 1
    apply decide_eq_decide.mpr
    rw [← BitVec.toInt_inj, e3, e4, BitVec.toInt_inj]
  · rw [C16_is_greater m d3 d4, C16_is_greater m ha hb]
    congr 1
    apply decide_eq_decide.mpr
    rw [BitVec.toNat_signExtend, BitVec.toNat_signExtend, zx, zy]
    have mx : x.msb = decide (2 ^ (w - 1) ≤ x.toNat) := BitVec.msb_eq_decide x
    have my : y.msb = decide (2 ^ (w - 1) ≤ y.toNat) := BitVec.msb_eq_decide y
    rw [mx, my]
    by_cases p : 2 ^ (w - 1) ≤ x.toNat <;> by_cases q : 2 ^ (w - 1) ≤ y.toNat <;> simp [p, q] <;> omega
  · rw [C18_is_greater_signed m (by omega) d3 d4, C18_is_greater_signed m hw ha hb, e3, e4]

example : ∃ za zb, BitVecValue.zeroExtend .debug (encode 200#8) 100 = ok za ∧ BitVecValue.zeroExtend .debug (encode 100#8) 100 = ok zb ∧
    BitVecValue.isGreaterSigned .debug za zb = ok true ∧ BitVecValue.isGreater .debug (encode 200#8) (encode 100#8) = ok true ∧
    BitVecValue.isGreaterSigned .debug (encode 200#8) (encode 100#8) = ok false :=
  ⟨encode 200#108, encode 100#108, by decide +kernel⟩

/-- **C100** Concatenations are compared like words in a dictionary: by the left parts, and by the right parts if the left ones
are equal. In the signed order the left parts are compared as signed numbers, the right ones as unsigned numbers. -/
theorem C100_concat {v : Nat} {a' b' : BitVecValue} {x' y' : BitVec v} (hw : 0 < w) (hv : 0 < v) (hlt : w + v < 2 ^ 32)
    (ha : Denotes a x) (hb : Denotes b y) (ha' : Denotes a' x') (hb' : Denotes b' y') :
    ∃ p q, BitVecValue.concat m a a' = ok p ∧ BitVecValue.concat m b b' = ok q ∧
      (BitVecValue.isEqual m a b = ok true → BitVecValue.isEqual m p q = BitVecValue.isEqual m a' b' ∧
        BitVecValue.isGreater m p q = BitVecValue.isGreater m a' b' ∧ BitVecValue.isGreaterSigned m p q = BitVecValue.isGreater m a' b') ∧
      (BitVecValue.isEqual m a b = ok false → BitVecValue.isEqual m p q = ok false ∧
        BitVecValue.isGreater m p q = BitVecValue.isGreater m a b ∧
        BitVecValue.isGreaterSigned m p q = BitVecValue.isGreaterSigned m a b) := by
  obtain ⟨p, h1, d1⟩ := C21_concat_partial m ha ha' hlt (.inl ⟨hw, hv⟩)
  obtain ⟨q, h2, d2⟩ := C21_concat_partial m hb hb' hlt (.inl ⟨hw, hv⟩)
  refine ⟨p, q, h1, h2, ?_⟩
  have tn : ∀ (s : BitVec w) (t : BitVec v), (s ++ t).toNat = 2 ^ v * s.toNat + t.toNat := by
    intro s t
    rw [BitVec.toNat_append, Nat.shiftLeft_eq, Nat.mul_comm, ← Nat.two_pow_add_eq_or_of_lt t.isLt]
  have ti : ∀ (s : BitVec w) (t : BitVec v), (s ++ t).toInt = 2 ^ v * s.toInt + t.toNat := by
    intro s t
    have hs := s.isLt
    have ht := t.isLt
    rw [BitVec.toInt_eq_msb_cond, BitVec.toInt_eq_msb_cond, BitVec.msb_append, tn, if_neg (by omega : ¬ w = 0)]
    cases s.msb
    · simp
    · simp only [if_true]
      push_cast
      rw [Int.mul_sub, ← Int.pow_add, Nat.add_comm v w]
      omega
  rw [C15_is_equal m ha hb, C15_is_equal m d1 d2, C16_is_greater m d1 d2, C18_is_greater_signed m (by omega) d1 d2,
    C15_is_equal m ha' hb', C16_is_greater m ha' hb', C16_is_greater m ha hb, C18_is_greater_signed m hw ha hb]
  have hx' := x'.isLt
  have hy' := y'.isLt
  constructor
  · intro h
    have e : x = y := by simpa using h
    subst e
    refine ⟨?_, ?_, ?_⟩
    · congr 1
      apply decide_eq_decide.mpr
      rw [← BitVec.toNat_inj, tn, tn, ← BitVec.toNat_inj]
      omega
    · congr 1
      apply decide_eq_decide.mpr
      rw [tn, tn]
      omega
    · congr 1
      apply decide_eq_decide.mpr
      rw [ti, ti]
      omega
  · intro h
    have e : x ≠ y := by simpa using h
    have en : x.toNat ≠ y.toNat := fun h => e (BitVec.toNat_inj.mp h)
    have ei : x.toInt ≠ y.toInt := fun h => e (BitVec.toInt_inj.mp h)
    have key : ∀ {s t : Int}, s < t → (2 : Int) ^ v * s + 2 ^ v ≤ 2 ^ v * t := by
      intro s t h
      have : (2 : Int) ^ v * (s + 1) ≤ 2 ^ v * t := Int.mul_le_mul_of_nonneg_left (by omega) (Int.le_of_lt (Int.pow_pos (by decide)))
      rwa [Int.mul_add, Int.mul_one] at this
    have keyn : ∀ {s t : Nat}, s < t → 2 ^ v * s + 2 ^ v ≤ 2 ^ v * t := by
      intro s t h
      have : 2 ^ v * (s + 1) ≤ 2 ^ v * t := Nat.mul_le_mul_left _ h
      rwa [Nat.mul_add, Nat.mul_one] at this
    have px : (x'.toNat : Int) < 2 ^ v := by exact_mod_cast hx'
    have py : (y'.toNat : Int) < 2 ^ v := by exact_mod_cast hy'
    have gn : (x ++ x').toNat > (y ++ y').toNat ↔ x.toNat > y.toNat := by
      rw [tn, tn]
      rcases Nat.lt_or_gt_of_ne en with h | h
      · have := keyn h
        omega
      · have := keyn h
        omega
    have gi : (x ++ x').toInt > (y ++ y').toInt ↔ x.toInt > y.toInt := by
      rw [ti, ti]
      rcases Int.lt_or_gt_of_ne ei with h | h
      · have := key h
        omega
      · have := key h
        omega
    refine ⟨?_, ?_, ?_⟩
    · congr 1
      apply decide_eq_false
      intro h
      rw [← BitVec.toNat_inj, tn, tn] at h
      rcases Nat.lt_or_gt_of_ne en with h' | h'
      · have := keyn h'
        omega
      · have := keyn h'
        omega
    · congr 1
      exact decide_eq_decide.mpr gn
    · congr 1
      exact decide_eq_decide.mpr gi

example : ∃ p q, BitVecValue.concat .debug (encode 0x80#8) (encode 3#100) = ok p ∧ BitVecValue.concat .debug (encode 0x7f#8) (encode 5#100) = ok q ∧
    BitVecValue.isGreater .debug p q = ok true ∧ BitVecValue.isGreaterSigned .debug p q = ok false :=
  ⟨encode (0x80#8 ++ 3#100), encode (0x7f#8 ++ 5#100), by decide +kernel⟩

/-- **C100** Complementing both operands reverses both orders. -/
theorem C100_not (hw : 0 < w) (ha : Denotes a x) (hb : Denotes b y) :
    ∃ na nb, BitVecValue.not m a = ok na ∧ BitVecValue.not m b = ok nb ∧
      BitVecValue.isGreater m na nb = BitVecValue.isLess m a b ∧
      BitVecValue.isGreaterSigned m na nb = BitVecValue.isLessSigned m a b := by
  obtain ⟨na, h1, d1⟩ := C11_not m hw ha
  obtain ⟨nb, h2, d2⟩ := C11_not m hw hb
  refine ⟨na, nb, h1, h2, ?_, ?_⟩
  · rw [C16_is_greater m d1 d2, C16_is_less m ha hb]
    congr 1
    apply decide_eq_decide.mpr
    rw [BitVec.toNat_not, BitVec.toNat_not]
    have := x.isLt
    have := y.isLt
    omega
  · rw [C18_is_greater_signed m hw d1 d2, C18_is_less_signed m hw ha hb]
    congr 1
    apply decide_eq_decide.mpr
    have e : ∀ s : BitVec w, (~~~s).toInt = -s.toInt - 1 := by
      intro s
      have hs := s.isLt
      have hp : 2 ^ w = 2 * 2 ^ (w - 1) := by rw [← Nat.pow_succ', show (w - 1).succ = w by omega]
      have hpi : ((2 ^ w : Nat) : Int) = 2 * ((2 ^ (w - 1) : Nat) : Int) := by rw [hp]; push_cast; rfl
      rw [BitVec.toInt_eq_toNat_cond, BitVec.toInt_eq_toNat_cond, BitVec.toNat_not]
      split <;> split <;> omega
    rw [e, e]
    omega

example : ∃ na nb, BitVecValue.not .debug (encode 5#70) = ok na ∧ BitVecValue.not .debug (encode 9#70) = ok nb ∧
    BitVecValue.isGreater .debug na nb = ok true ∧ BitVecValue.isGreater .debug (encode 5#70) (encode 9#70) = ok false :=
  ⟨encode (~~~5#70), encode (~~~9#70), by decide +kernel⟩

/-- **C100** Adding, subtracting or xor-ing the same value to both operands, complementing or negating both does not change
whether they are equal. -/
theorem C100_injective (hw : 0 < w) (ha : Denotes a x) (hb : Denotes b y) (hc : Denotes c z) :
    (∀ op ∈ [BitVecValue.add m, BitVecValue.sub m, BitVecValue.xor m], ∃ p q, op a c = ok p ∧ op b c = ok q ∧
      BitVecValue.isEqual m p q = BitVecValue.isEqual m a b) ∧
    (∀ op ∈ [BitVecValue.not m, BitVecValue.negate m], ∃ p q, op a = ok p ∧ op b = ok q ∧
      BitVecValue.isEqual m p q = BitVecValue.isEqual m a b) := by
  have fin : ∀ {p q : BitVecValue} {s t : BitVec w}, Denotes p s → Denotes q t → (s = t ↔ x = y) →
      BitVecValue.isEqual m p q = BitVecValue.isEqual m a b := by
    intro p q s t hp hq h
    rw [C15_is_equal m hp hq, C15_is_equal m ha hb]
    congr 1
    exact decide_eq_decide.mpr h
  constructor
  · intro op hop
    simp only [List.mem_cons, List.not_mem_nil, or_false] at hop
    rcases hop with rfl | rfl | rfl
    · obtain ⟨p, h1, d1⟩ := C06_add m hw ha hc
      obtain ⟨q, h2, d2⟩ := C06_add m hw hb hc
      exact ⟨p, q, h1, h2, fin d1 d2 ⟨fun h => by
        have : x + z - z = y + z - z := by rw [h]
        rwa [BitVec.add_sub_cancel, BitVec.add_sub_cancel] at this, fun h => by rw [h]⟩⟩
    · obtain ⟨p, h1, d1⟩ := C07_sub m hw ha hc
      obtain ⟨q, h2, d2⟩ := C07_sub m hw hb hc
      exact ⟨p, q, h1, h2, fin d1 d2 ⟨fun h => by
        have : x - z + z = y - z + z := by rw [h]
        rwa [BitVec.sub_add_cancel, BitVec.sub_add_cancel] at this, fun h => by rw [h]⟩⟩
    · obtain ⟨p, h1, d1⟩ := C10_xor m ha hc
      obtain ⟨q, h2, d2⟩ := C10_xor m hb hc
      exact ⟨p, q, h1, h2, fin d1 d2 ⟨fun h => by
        have : x ^^^ z ^^^ z = y ^^^ z ^^^ z := by rw [h]
        rwa [BitVec.xor_assoc, BitVec.xor_assoc, BitVec.xor_self, BitVec.xor_zero, BitVec.xor_zero] at this, fun h => by rw [h]⟩⟩
  · intro op hop
    simp only [List.mem_cons, List.not_mem_nil, or_false] at hop
    rcases hop with rfl | rfl
    · obtain ⟨p, h1, d1⟩ := C11_not m hw ha
      obtain ⟨q, h2, d2⟩ := C11_not m hw hb
      exact ⟨p, q, h1, h2, fin d1 d2 ⟨fun h => by
        have : ~~~(~~~x) = ~~~(~~~y) := by rw [h]
        rwa [BitVec.not_not, BitVec.not_not] at this, fun h => by rw [h]⟩⟩
    · obtain ⟨p, h1, d1⟩ := C08_negate m hw ha
      obtain ⟨q, h2, d2⟩ := C08_negate m hw hb
      exact ⟨p, q, h1, h2, fin d1 d2 ⟨fun h => by
        have : - -x = - -y := by rw [h]
        rwa [BitVec.neg_neg, BitVec.neg_neg] at this, fun h => by rw [h]⟩⟩

example : ∃ p q, BitVecValue.add .debug (encode (BitVec.allOnes 70)) (encode 3#70) = ok p ∧
    BitVecValue.add .debug (encode 5#70) (encode 3#70) = ok q ∧ BitVecValue.isEqual .debug p q = ok false :=
  ⟨encode 2#70, encode 8#70, by decide +kernel⟩

end Baa
