import Verif.Props.Laws

/-!
# C96, C97: laws that connect operations at different widths

As in C65–C69 the laws are stated about the calls themselves.
-/

namespace Baa
open Res

/-- **C10** (bit by bit) `or` and `xor` combine the operands bit by bit. -/
theorem C10_bits (m : Mode) {w : Nat} {a b : BitVecValue} {x y : BitVec w} (ha : Denotes a x) (hb : Denotes b y) :
    (∃ r, BitVecValue.or m a b = ok r ∧ ∀ i, bit r.words i = (bit a.words i || bit b.words i)) ∧
    (∃ r, BitVecValue.xor m a b = ok r ∧ ∀ i, bit r.words i = (bit a.words i ^^ bit b.words i)) := by
  obtain ⟨r, h1, d1⟩ := C10_or m ha hb
  obtain ⟨s, h2, d2⟩ := C10_xor m ha hb
  exact ⟨⟨r, h1, fun i => by rw [d1.bit, ha.bit, hb.bit, BitVec.getLsbD_or]⟩,
    ⟨s, h2, fun i => by rw [d2.bit, ha.bit, hb.bit, BitVec.getLsbD_xor]⟩⟩

example : BitVecValue.or .debug (encode 5#70) (encode 6#70) = ok (encode 7#70) ∧
    BitVecValue.xor .debug (encode 5#70) (encode 6#70) = ok (encode 3#70) := by decide

variable (m : Mode) {w : Nat} {a b : BitVecValue} {x y : BitVec w}

/-! ## C96 narrowing and widening -/

theorem narrow_spec (ha : Denotes a x) {j : Nat} (hj : j < w) :
    ∃ r, BitVecValue.slice m a j 0 = ok r ∧ Denotes r (x.setWidth (j + 1)) := by
  obtain ⟨r, h1, h2⟩ := C19_slice m ha hj (Nat.zero_le j)
  refine ⟨r, h1, ?_⟩
  have e : x.extractLsb' 0 (j - 0 + 1) = x.setWidth (j + 1) := by
    apply BitVec.eq_of_toNat_eq
    simp
  rw [← e]
  exact h2

/-- **C96** Keeping only the low bits commutes with addition, subtraction, multiplication (up to 64 bits), negation and the
bitwise operations: it makes no difference whether the operands or the result are cut to their low `j + 1` bits. -/
theorem C96_narrow (ha : Denotes a x) (hb : Denotes b y) {j : Nat} (hj : j < w) :
    ∃ a' b', BitVecValue.slice m a j 0 = ok a' ∧ BitVecValue.slice m b j 0 = ok b' ∧
      (∀ op ∈ [BitVecValue.add m, BitVecValue.sub m, BitVecValue.and m, BitVecValue.or m, BitVecValue.xor m],
        ∃ r s, op a b = ok r ∧ BitVecValue.slice m r j 0 = ok s ∧ op a' b' = ok s) ∧
      (w ≤ 64 → ∃ r s, BitVecValue.mul m a b = ok r ∧ BitVecValue.slice m r j 0 = ok s ∧ BitVecValue.mul m a' b' = ok s) ∧
      (∀ op ∈ [BitVecValue.negate m, BitVecValue.not m],
        ∃ r s, op a = ok r ∧ BitVecValue.slice m r j 0 = ok s ∧ op a' = ok s) := by
  have hw : 0 < w := by omega
  obtain ⟨a', h1, d1⟩ := narrow_spec m ha hj
  obtain ⟨b', h2, d2⟩ := narrow_spec m hb hj
  have two : ∀ {op : BitVecValue → BitVecValue → Res BitVecValue} {z : BitVec w} {z' : BitVec (j + 1)},
      (∃ r, op a b = ok r ∧ Denotes r z) → (∃ s, op a' b' = ok s ∧ Denotes s z') → z.setWidth (j + 1) = z' →
      ∃ r s, op a b = ok r ∧ BitVecValue.slice m r j 0 = ok s ∧ op a' b' = ok s := by
    intro op z z' ⟨r, hr, dr⟩ ⟨s, hs, ds⟩ e
    obtain ⟨t, ht, dt⟩ := narrow_spec m dr hj
    subst e
    exact ⟨r, t, hr, ht, by rw [hs, ds.repr_unique dt]⟩
  have one : ∀ {op : BitVecValue → Res BitVecValue} {z : BitVec w} {z' : BitVec (j + 1)},
      (∃ r, op a = ok r ∧ Denotes r z) → (∃ s, op a' = ok s ∧ Denotes s z') → z.setWidth (j + 1) = z' →
      ∃ r s, op a = ok r ∧ BitVecValue.slice m r j 0 = ok s ∧ op a' = ok s := by
    intro op z z' ⟨r, hr, dr⟩ ⟨s, hs, ds⟩ e
    obtain ⟨t, ht, dt⟩ := narrow_spec m dr hj
    subst e
    exact ⟨r, t, hr, ht, by rw [hs, ds.repr_unique dt]⟩
  have hsub : (x - y).setWidth (j + 1) = x.setWidth (j + 1) - y.setWidth (j + 1) := by
    rw [BitVec.sub_eq_add_neg, BitVec.sub_eq_add_neg, BitVec.setWidth_add _ _ (by omega), BitVec.setWidth_neg_of_le (by omega)]
  refine ⟨a', b', h1, h2, ?_, ?_, ?_⟩
  · intro op hop
    simp only [List.mem_cons, List.not_mem_nil, or_false] at hop
    rcases hop with rfl | rfl | rfl | rfl | rfl
    · exact two (C06_add m hw ha hb) (C06_add m (by omega) d1 d2) (BitVec.setWidth_add _ _ (by omega))
    · exact two (C07_sub m hw ha hb) (C07_sub m (by omega) d1 d2) hsub
    · obtain ⟨r, hr, dr, _⟩ := C10_and m ha hb
      obtain ⟨s, hs, ds, _⟩ := C10_and m d1 d2
      exact two ⟨r, hr, dr⟩ ⟨s, hs, ds⟩ (BitVec.setWidth_and)
    · exact two (C10_or m ha hb) (C10_or m d1 d2) BitVec.setWidth_or
    · exact two (C10_xor m ha hb) (C10_xor m d1 d2) BitVec.setWidth_xor
  · intro h64
    exact two (C09_mul_partial m hw h64 ha hb) (C09_mul_partial m (by omega) (by omega) d1 d2) (BitVec.setWidth_mul _ _ (by omega))
  · intro op hop
    simp only [List.mem_cons, List.not_mem_nil, or_false] at hop
    rcases hop with rfl | rfl
    · exact one (C08_negate m hw ha) (C08_negate m (by omega) d1) (BitVec.setWidth_neg_of_le (by omega))
    · exact one (C11_not m hw ha) (C11_not m (by omega) d1) (BitVec.setWidth_not (by omega))

example : ∃ r, BitVecValue.add .debug (encode (BitVec.allOnes 130)) (encode 3#130) = ok r ∧
    BitVecValue.slice .debug r 69 0 = ok (encode 2#70) ∧
    BitVecValue.add .debug (encode (BitVec.allOnes 70)) (encode 3#70) = ok (encode 2#70) :=
  ⟨encode 2#130, by decide +kernel⟩

/-- **C96** Widening commutes with the bitwise operations: `and`, `or` and `xor` with both extensions, `not` with the sign
extension. -/
theorem C96_widen (hw : 0 < w) (ha : Denotes a x) (hb : Denotes b y) {n : Nat} (hn : w + n < 2 ^ 32) :
    ∃ za zb sa sb, BitVecValue.zeroExtend m a n = ok za ∧ BitVecValue.zeroExtend m b n = ok zb ∧
      BitVecValue.signExtend m a n = ok sa ∧ BitVecValue.signExtend m b n = ok sb ∧
      (∀ op ∈ [BitVecValue.and m, BitVecValue.or m, BitVecValue.xor m], ∃ r z s, op a b = ok r ∧
        BitVecValue.zeroExtend m r n = ok z ∧ op za zb = ok z ∧ BitVecValue.signExtend m r n = ok s ∧ op sa sb = ok s) ∧
      (∃ r s, BitVecValue.not m a = ok r ∧ BitVecValue.signExtend m r n = ok s ∧ BitVecValue.not m sa = ok s) := by
  obtain ⟨za, h1, d1, _⟩ := C22_zero_extend_partial m ha n hn (.inl hw)
  obtain ⟨zb, h2, d2, _⟩ := C22_zero_extend_partial m hb n hn (.inl hw)
  obtain ⟨sa, h3, d3, _⟩ := C23_sign_extend m hw ha n hn
  obtain ⟨sb, h4, d4, _⟩ := C23_sign_extend m hw hb n hn
  have two : ∀ {op : BitVecValue → BitVecValue → Res BitVecValue} {z : BitVec w} {u v : BitVec (w + n)},
      (∃ r, op a b = ok r ∧ Denotes r z) → (∃ s, op za zb = ok s ∧ Denotes s u) → (∃ s, op sa sb = ok s ∧ Denotes s v) →
      z.setWidth (w + n) = u → z.signExtend (w + n) = v →
      ∃ r z s, op a b = ok r ∧ BitVecValue.zeroExtend m r n = ok z ∧ op za zb = ok z ∧
        BitVecValue.signExtend m r n = ok s ∧ op sa sb = ok s := by
    intro op z u v ⟨r, hr, dr⟩ ⟨s, hs, ds⟩ ⟨t, ht, dt⟩ e e'
    obtain ⟨p, hp, dp, _⟩ := C22_zero_extend_partial m dr n hn (.inl hw)
    obtain ⟨q, hq, dq, _⟩ := C23_sign_extend m hw dr n hn
    subst e
    subst e'
    exact ⟨r, p, q, hr, hp, by rw [hs, ds.repr_unique dp], hq, by rw [ht, dt.repr_unique dq]⟩
  refine ⟨za, zb, sa, sb, h1, h2, h3, h4, ?_, ?_⟩
  · intro op hop
    simp only [List.mem_cons, List.not_mem_nil, or_false] at hop
    rcases hop with rfl | rfl | rfl
    · obtain ⟨r, hr, dr, _⟩ := C10_and m ha hb
      obtain ⟨s, hs, ds, _⟩ := C10_and m d1 d2
      obtain ⟨t, ht, dt, _⟩ := C10_and m d3 d4
      exact two ⟨r, hr, dr⟩ ⟨s, hs, ds⟩ ⟨t, ht, dt⟩ BitVec.setWidth_and BitVec.signExtend_and
    · exact two (C10_or m ha hb) (C10_or m d1 d2) (C10_or m d3 d4) BitVec.setWidth_or BitVec.signExtend_or
    · exact two (C10_xor m ha hb) (C10_xor m d1 d2) (C10_xor m d3 d4) BitVec.setWidth_xor BitVec.signExtend_xor
  · obtain ⟨r, hr, dr⟩ := C11_not m hw ha
    obtain ⟨q, hq, dq, _⟩ := C23_sign_extend m hw dr n hn
    obtain ⟨t, ht, dt⟩ := C11_not m (by omega) d3
    rw [← BitVec.signExtend_not hw] at dt
    exact ⟨r, q, hr, hq, by rw [ht, dt.repr_unique dq]⟩

example : BitVecValue.signExtend .debug (encode 0x90#8) 100 = ok (encode ((0x90#8).signExtend 108)) := by decide +kernel

/-- **C96** One extra bit makes addition and subtraction exact: after zero extension the sum is the sum of the numbers,
after sign extension sum, difference and negation are those of the signed numbers. -/
theorem C96_exact (hw : 0 < w) (ha : Denotes a x) (hb : Denotes b y) {n : Nat} (hn : w + n < 2 ^ 32) (h0 : 0 < n) :
    ∃ za zb sa sb, BitVecValue.zeroExtend m a n = ok za ∧ BitVecValue.zeroExtend m b n = ok zb ∧
      BitVecValue.signExtend m a n = ok sa ∧ BitVecValue.signExtend m b n = ok sb ∧
      (∃ r, BitVecValue.add m za zb = ok r ∧ Canonical r ∧ wordsVal r.words = x.toNat + y.toNat) ∧
      (∃ r, ∃ z : BitVec (w + n), BitVecValue.add m sa sb = ok r ∧ Denotes r z ∧ z.toInt = x.toInt + y.toInt) ∧
      (∃ r, ∃ z : BitVec (w + n), BitVecValue.sub m sa sb = ok r ∧ Denotes r z ∧ z.toInt = x.toInt - y.toInt) ∧
      (∃ r, ∃ z : BitVec (w + n), BitVecValue.negate m sa = ok r ∧ Denotes r z ∧ z.toInt = -x.toInt) := by
  obtain ⟨za, h1, d1, _⟩ := C22_zero_extend_partial m ha n hn (.inl hw)
  obtain ⟨zb, h2, d2, _⟩ := C22_zero_extend_partial m hb n hn (.inl hw)
  obtain ⟨sa, h3, d3, e3⟩ := C23_sign_extend m hw ha n hn
  obtain ⟨sb, h4, d4, e4⟩ := C23_sign_extend m hw hb n hn
  obtain ⟨r, hr, dr⟩ := C06_add m (by omega) d1 d2
  obtain ⟨s, hs, ds⟩ := C06_add m (by omega) d3 d4
  obtain ⟨t, ht, dt⟩ := C07_sub m (by omega) d3 d4
  obtain ⟨u, hu, du⟩ := C08_negate m (by omega) d3
  have hp : 2 ^ (w + n) ≥ 2 * 2 ^ w := by
    rw [show 2 * 2 ^ w = 2 ^ (w + 1) by rw [Nat.pow_succ]; omega]
    exact Nat.pow_le_pow_right (by decide) (by omega)
  have hx := x.isLt
  have hy := y.isLt
  have hxl := BitVec.le_two_mul_toInt (x := x)
  have hxu := BitVec.two_mul_toInt_lt (x := x)
  have hyl := BitVec.le_two_mul_toInt (x := y)
  have hyu := BitVec.two_mul_toInt_lt (x := y)
  have hpi : (2 : Int) ^ (w + n) ≥ 2 * 2 ^ w := by exact_mod_cast hp
  have fit : ∀ v : Int, -(2 ^ (w + n)) ≤ 2 * v → 2 * v < 2 ^ (w + n) → v.bmod (2 ^ (w + n)) = v := by
    intro v hv hv'
    apply Int.bmod_eq_of_le
    · push_cast
      omega
    · push_cast
      omega
  refine ⟨za, zb, sa, sb, h1, h2, h3, h4, ⟨r, hr, dr.canonical, ?_⟩, ⟨s, _, hs, ds, ?_⟩, ⟨t, _, ht, dt, ?_⟩,
    ⟨u, _, hu, du, ?_⟩⟩
  · rw [dr.val_eq, BitVec.toNat_add, BitVec.toNat_setWidth, BitVec.toNat_setWidth,
      Nat.mod_eq_of_lt (a := x.toNat) (by omega), Nat.mod_eq_of_lt (a := y.toNat) (by omega), Nat.mod_eq_of_lt (by omega)]
  · rw [BitVec.toInt_add, e3, e4]
    apply fit <;> omega
  · rw [BitVec.toInt_sub, e3, e4]
    apply fit <;> omega
  · rw [BitVec.toInt_neg, e3]
    apply fit <;> omega

example : ∃ za zb, BitVecValue.zeroExtend .debug (encode (BitVec.allOnes 64)) 1 = ok za ∧
    BitVecValue.zeroExtend .debug (encode 1#64) 1 = ok zb ∧
    BitVecValue.add .debug za zb = ok (encode (BitVec.twoPow 65 64)) :=
  ⟨encode (0xffffffffffffffff#65), encode 1#65, by decide +kernel⟩

/-- **C96** Extending in two steps is extending once, and a zero extension is a concatenation with zero bits. -/
theorem C96_extend_twice (hw : 0 < w) (ha : Denotes a x) {n k : Nat} (hn : w + n + k < 2 ^ 32) :
    (∃ p r, BitVecValue.zeroExtend m a n = ok p ∧ BitVecValue.zeroExtend m p k = ok r ∧
      BitVecValue.zeroExtend m a (n + k) = ok r) ∧
    (∃ p r, BitVecValue.signExtend m a n = ok p ∧ BitVecValue.signExtend m p k = ok r ∧
      BitVecValue.signExtend m a (n + k) = ok r) ∧
    (0 < n → ∃ r, BitVecValue.zeroExtend m a n = ok r ∧ BitVecValue.concat m (BitVecValue.zero n) a = ok r) := by
  refine ⟨?_, ?_, fun h0 => ?_⟩
  · obtain ⟨p, h1, d1, _⟩ := C22_zero_extend_partial m ha n (by omega) (.inl hw)
    obtain ⟨r, h2, d2, _⟩ := C22_zero_extend_partial m d1 k (by omega) (.inl (by omega))
    obtain ⟨s, h3, d3, _⟩ := C22_zero_extend_partial m ha (n + k) (by omega) (.inl hw)
    refine ⟨p, r, h1, h2, ?_⟩
    have d3' : Denotes s ((x.setWidth (w + n)).setWidth (w + n + k)) := by
      refine Denotes.of_bit (by omega) (by rw [d3.width_eq]; omega) (by rw [d3.length_eq]; congr 1; omega) fun i => ?_
      rw [d3.bit]
      simp only [BitVec.getLsbD_setWidth]
      by_cases h : i < w
      · simp [show i < w + (n + k) by omega, show i < w + n + k by omega, show i < w + n by omega]
      · rw [BitVec.getLsbD_of_ge x _ (by omega)]; simp
    rw [h3, d3'.repr_unique d2]
  · obtain ⟨p, h1, d1, _⟩ := C23_sign_extend m hw ha n (by omega)
    obtain ⟨r, h2, d2, _⟩ := C23_sign_extend m (by omega) d1 k (by omega)
    obtain ⟨s, h3, d3, _⟩ := C23_sign_extend m hw ha (n + k) (by omega)
    refine ⟨p, r, h1, h2, ?_⟩
    have d3' : Denotes s ((x.signExtend (w + n)).signExtend (w + n + k)) := by
      refine Denotes.of_bit (by omega) (by rw [d3.width_eq]; omega) (by rw [d3.length_eq]; congr 1; omega) fun i => ?_
      rw [d3.bit]
      simp only [BitVec.getLsbD_signExtend]
      have hm : (x.signExtend (w + n)).msb = x.msb := by
        rw [BitVec.msb_eq_getLsbD_last, BitVec.getLsbD_signExtend]
        by_cases h0 : n = 0
        · subst h0
          simp [show w - 1 < w by omega, BitVec.msb_eq_getLsbD_last]
        · simp [show ¬ w + n - 1 < w by omega, show w + n - 1 < w + n by omega]
      rw [hm]
      by_cases h : i < w + n + k
      · by_cases h1 : i < w
        · simp [show i < w + (n + k) by omega, h, h1, show i < w + n by omega]
        · by_cases h2 : i < w + n
          · simp [show i < w + (n + k) by omega, h, h1, h2]
          · simp [show i < w + (n + k) by omega, h, h1, h2]
      · simp [show ¬ i < w + (n + k) by omega, h]
    rw [h3, d3'.repr_unique d2]
  · obtain ⟨r, h1, d1, _⟩ := C22_zero_extend_partial m ha n (by omega) (.inl hw)
    obtain ⟨s, h2, d2⟩ := C21_concat_partial m (C01_zero (w := n) (by omega)) ha (by omega) (.inl ⟨h0, hw⟩)
    refine ⟨r, h1, ?_⟩
    have d2' : Denotes s (x.setWidth (w + n)) := by
      refine Denotes.of_bit (by omega) (by rw [d2.width_eq]; omega) (by rw [d2.length_eq]; congr 1; omega) fun i => ?_
      rw [d2.bit]
      simp only [BitVec.getLsbD_append, BitVec.getLsbD_setWidth]
      by_cases h : i < w
      · simp [h, show i < w + n by omega]
      · rw [BitVec.getLsbD_of_ge x _ (by omega)]; simp [h]
    rw [h2, d2'.repr_unique d1]

example : BitVecValue.concat .debug (BitVecValue.zero 60) (encode 0xff#8) = BitVecValue.zeroExtend .debug (encode 0xff#8) 60 := by
  decide +kernel

/-! ## C97 comparisons expressed through arithmetic -/

/-- **C97** The unsigned order is the borrow of the subtraction: with one extra bit, the top bit of `a - b` is set exactly
if `a < b`. -/
theorem C97_less_is_borrow (hw : 0 < w) (ha : Denotes a x) (hb : Denotes b y) (hn : w + 1 < 2 ^ 32) :
    ∃ za zb d c, BitVecValue.zeroExtend m a 1 = ok za ∧ BitVecValue.zeroExtend m b 1 = ok zb ∧
      BitVecValue.sub m za zb = ok d ∧ BitVecValue.isBitSet d w = ok c ∧ BitVecValue.isLess m a b = ok c := by
  obtain ⟨za, h1, d1, _⟩ := C22_zero_extend_partial m ha 1 hn (.inl hw)
  obtain ⟨zb, h2, d2, _⟩ := C22_zero_extend_partial m hb 1 hn (.inl hw)
  obtain ⟨d, h3, d3⟩ := C07_sub m (by omega) d1 d2
  refine ⟨za, zb, d, _, h1, h2, h3, C24_is_bit_set d3 (by omega), ?_⟩
  rw [C16_is_less m ha hb]
  congr 1
  have hx := x.isLt
  have hy := y.isLt
  have hp : 2 ^ (w + 1) = 2 * 2 ^ w := by rw [Nat.pow_succ]; omega
  rw [BitVec.getLsbD, BitVec.toNat_sub, BitVec.toNat_setWidth, BitVec.toNat_setWidth,
    Nat.mod_eq_of_lt (a := x.toNat) (by omega), Nat.mod_eq_of_lt (a := y.toNat) (by omega), Nat.testBit_eq_decide_div_mod_eq]
  apply decide_eq_decide.mpr
  generalize x.toNat = p at *
  generalize y.toNat = q at *
  generalize 2 ^ w = M at *
  rw [hp]
  by_cases h : p < q
  · have e : (2 * M - q + p) % (2 * M) = 2 * M - q + p := Nat.mod_eq_of_lt (by omega)
    have : (2 * M - q + p) / M = 1 := by
      rw [show 2 * M - q + p = (M - q + p) + M by omega, Nat.add_div_right _ (by omega), Nat.div_eq_of_lt (by omega)]
    rw [e, this]
    omega
  · have e : (2 * M - q + p) % (2 * M) = p - q := by
      rw [show 2 * M - q + p = (p - q) + 2 * M by omega, Nat.add_mod_right, Nat.mod_eq_of_lt (by omega)]
    rw [e, Nat.div_eq_of_lt (by omega)]
    omega

/-- **C97** The signed order is the sign of the subtraction with one extra bit. -/
theorem C97_less_signed_is_sign (hw : 0 < w) (ha : Denotes a x) (hb : Denotes b y) (hn : w + 1 < 2 ^ 32) :
    ∃ sa sb d c, BitVecValue.signExtend m a 1 = ok sa ∧ BitVecValue.signExtend m b 1 = ok sb ∧
      BitVecValue.sub m sa sb = ok d ∧ BitVecValue.isNegative m d = ok c ∧ BitVecValue.isLessSigned m a b = ok c := by
  obtain ⟨_, _, sa, sb, _, _, h3, h4, _, _, ⟨d, z, h5, d5, e5⟩, _⟩ := C96_exact m hw ha hb hn (by decide)
  have hneg := C25_is_negative m (by omega) d5
  refine ⟨sa, sb, d, _, h3, h4, h5, hneg.1, ?_⟩
  rw [C18_is_less_signed m hw ha hb]
  congr 1
  have := hneg.2
  rw [e5] at this
  cases hz : z.msb
  · rw [hz] at this
    simp at this ⊢
    omega
  · rw [hz] at this
    simp at this ⊢
    omega

example : ∃ d, BitVecValue.sub .debug (encode ((-128#8).signExtend 9)) (encode ((127#8).signExtend 9)) = ok d ∧
    BitVecValue.isNegative .debug d = ok true ∧ BitVecValue.isLessSigned .debug (encode (-128#8)) (encode 127#8) = ok true :=
  ⟨encode (257#9), by decide +kernel⟩

/-- **C97** Two values are equal exactly if their exclusive or, or their difference, is zero. -/
theorem C97_equal_is_zero (hw : 0 < w) (ha : Denotes a x) (hb : Denotes b y) :
    ∃ e d, BitVecValue.xor m a b = ok e ∧ BitVecValue.sub m a b = ok d ∧
      BitVecValue.isEqual m a b = ok (BitVecValue.isZero e) ∧ BitVecValue.isZero d = BitVecValue.isZero e := by
  obtain ⟨e, h1, d1⟩ := C10_xor m ha hb
  obtain ⟨d, h2, d2⟩ := C07_sub m hw ha hb
  refine ⟨e, d, h1, h2, ?_, ?_⟩
  · rw [C15_is_equal m ha hb, C25_is_zero d1]
    congr 1
    exact decide_eq_decide.mpr BitVec.xor_eq_zero_iff.symm
  · rw [C25_is_zero d1, C25_is_zero d2]
    apply decide_eq_decide.mpr
    rw [BitVec.xor_eq_zero_iff]
    constructor
    · intro h
      have h' : x - y + y = 0#w + y := by rw [h]
      rw [BitVec.sub_add_cancel, BitVec.zero_add] at h'
      exact h'
    · intro h
      rw [h]
      simp

/-- **C97** Flipping the sign bits turns the signed order into the unsigned one. -/
theorem C97_signed_by_flip (hw : 0 < w) (ha : Denotes a x) (hb : Denotes b y) :
    ∃ s a' b' c, BitVecValue.setBit (BitVecValue.zero w) (w - 1) = ok s ∧ BitVecValue.xor m a s = ok a' ∧
      BitVecValue.xor m b s = ok b' ∧ BitVecValue.isGreater m a' b' = ok c ∧ BitVecValue.isGreaterSigned m a b = ok c := by
  obtain ⟨k, rfl⟩ : ∃ k, w = k + 1 := ⟨w - 1, by omega⟩
  obtain ⟨s, z, h1, d1, e1⟩ := C24_set_bit (C01_zero (w := k + 1) ha.width_lt) (pos := k) (by omega)
  obtain ⟨a', h2, d2⟩ := C10_xor m ha d1
  obtain ⟨b', h3, d3⟩ := C10_xor m hb d1
  refine ⟨s, a', b', _, h1, h2, h3, C16_is_greater m d2 d3, ?_⟩
  rw [C18_is_greater_signed m hw ha hb]
  congr 1
  have hz : z.toNat = 2 ^ k := by
    have : z = BitVec.twoPow (k + 1) k := by
      apply BitVec.eq_of_getLsbD_eq
      intro i hi
      rw [e1, BitVec.getLsbD_twoPow]
      by_cases h : i = k
      · subst h; simp
      · have : ¬ k = i := fun e => h e.symm
        simp [h, this]
    rw [this, BitVec.toNat_twoPow]
    exact Nat.mod_eq_of_lt (Nat.pow_lt_pow_right (by decide) (by omega))
  have key : ∀ v : BitVec (k + 1), ((v ^^^ z).toNat : Int) = v.toInt + 2 ^ k := by
    intro v
    have hv := v.isLt
    have hp : 2 ^ (k + 1) = 2 * 2 ^ k := by rw [Nat.pow_succ]; omega
    have hpos : 0 < 2 ^ k := Nat.pow_pos (by decide)
    rw [BitVec.toNat_xor, hz, BitVec.toInt_eq_toNat_cond]
    have hmod : (v.toNat ^^^ 2 ^ k) % 2 ^ k = v.toNat % 2 ^ k := by
      rw [Nat.xor_mod_two_pow, Nat.mod_self, Nat.xor_zero]
    have hdiv : (v.toNat ^^^ 2 ^ k) / 2 ^ k = (v.toNat / 2 ^ k) ^^^ 1 := by
      rw [Nat.xor_div_two_pow, Nat.div_self hpos]
    have e := Nat.div_add_mod (v.toNat ^^^ 2 ^ k) (2 ^ k)
    rw [hmod, hdiv] at e
    have e' := Nat.div_add_mod v.toNat (2 ^ k)
    have hq : v.toNat / 2 ^ k < 2 := by
      rw [Nat.div_lt_iff_lt_mul hpos]
      omega
    have hr := Nat.mod_lt v.toNat hpos
    rw [← e]
    have hc : v.toNat / 2 ^ k = 0 ∨ v.toNat / 2 ^ k = 1 := by
      generalize v.toNat / 2 ^ k = q at hq
      omega
    have hpi : ((2 ^ (k + 1) : Nat) : Int) = 2 * ((2 ^ k : Nat) : Int) := by rw [hp]; push_cast; rfl
    rcases hc with hc | hc
    · rw [hc] at e' ⊢
      rw [if_pos (by omega), show (0 ^^^ 1 : Nat) = 1 from rfl]
      push_cast
      have : ((v.toNat % 2 ^ k : Nat) : Int) = (v.toNat : Int) := by omega
      push_cast at this
      omega
    · rw [hc] at e' ⊢
      rw [if_neg (by omega), show (1 ^^^ 1 : Nat) = 0 from rfl]
      have : ((v.toNat % 2 ^ k : Nat) : Int) = (v.toNat : Int) - ((2 ^ k : Nat) : Int) := by omega
      push_cast at this hpi ⊢
      omega
  apply decide_eq_decide.mpr
  have hx := key x
  have hy := key y
  omega

example : ∃ s, BitVecValue.setBit (BitVecValue.zero 70) 69 = ok s ∧
    BitVecValue.xor .debug (encode (-1#70)) s = ok (encode (BitVec.ofNat 70 (2 ^ 69 - 1))) ∧
    BitVecValue.xor .debug (encode 1#70) s = ok (encode (BitVec.ofNat 70 (2 ^ 69 + 1))) ∧
    BitVecValue.isGreaterSigned .debug (encode 1#70) (encode (-1#70)) = ok true :=
  ⟨encode (BitVec.twoPow 70 69), by decide +kernel⟩

/-- **C97** `is_negative` is the top bit, and the signed comparison with zero. -/
theorem C97_negative (hw : 0 < w) (ha : Denotes a x) :
    ∃ c, BitVecValue.isNegative m a = ok c ∧ BitVecValue.isBitSet a (w - 1) = ok c ∧
      BitVecValue.isLessSigned m a (BitVecValue.zero w) = ok c := by
  obtain ⟨h1, h2⟩ := C25_is_negative m hw ha
  refine ⟨x.msb, h1, ?_, ?_⟩
  · rw [C24_is_bit_set ha (by omega), BitVec.msb_eq_getLsbD_last]
  · rw [C18_is_less_signed m hw ha (C01_zero ha.width_lt)]
    congr 1
    have : (0#w).toInt = 0 := by simp
    rw [this]
    cases hz : x.msb
    · rw [hz] at h2
      simpa using h2
    · rw [hz] at h2
      simpa using h2

end Baa
